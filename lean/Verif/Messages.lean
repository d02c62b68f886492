import Verif.Errors
import Verif.PropsAbnf

/-!
# Error messages

Model of the `Error` methods of the errors that `ParseABNF` returns (/repo/errors.go:63-81, 147-221), and what their texts tell.
-/

namespace Verif
open Spec

/-- The hint of `newParseError` (/repo/errors.go:133). -/
def hintText : Str := str% "input uses bare LF line endings, but ABNF requires CR LF (\"\\r\\n\")"

/-- `ErrNoSolutionFound` (/repo/errors.go:17). -/
def noSolutionText : Str := str% "no solution found, input ABNF grammar may be invalid"

/-- The part of a message after the position (/repo/errors.go:66-80). -/
def ParseError.rest (e : ParseError) : Str :=
  (if e.expected ≠ [] then str% ": expected " ++ joinWith (str% ", ") e.expected ++ (if e.found ≠ [] then str% ", found " ++ e.found else [])
   else if e.found ≠ [] then str% ": unexpected " ++ e.found
   else str% ": " ++ noSolutionText) ++ (if e.hint then str% " (hint: " ++ hintText ++ str% ")" else [])

/-- `ParseError.Error` (/repo/errors.go:63-81). -/
def ParseError.message (e : ParseError) : Str :=
  str% "parse error at line " ++ itoa e.line ++ str% ", column " ++ itoa e.col ++ str% " (offset " ++ itoa e.offset ++ str% ")" ++ e.rest

/-- `ErrCoreRuleModify.Error`, `ErrDuplicatedRule.Error` and `ErrRuleNotFound.Error` (/repo/errors.go:171-173, 219-221, 159-161). -/
def EvalErr.message : EvalErr → Str
  | .coreRuleModify n => str% "core rule " ++ n ++ str% " can't be modified"
  | .duplicatedRule n => str% "rule " ++ n ++ str% " was already defined in grammar"
  | .ruleNotFound n => str% "rule " ++ n ++ str% " was not found in grammar"

/-- `ErrDependencyNotFound.Error`, `ErrSemanticRepetition.Error` and `ErrTooLargeNumeral.Error` (/repo/errors.go:183-185, 195-197,
207-209). -/
def SemErr.message : SemErr → Str
  | .dependencyNotFound n => str% "unsatisfied dependency (rule) " ++ n
  | .semanticRepetition r => str% "invalid semantic of input ABNF grammar for repetition " ++ r.str
  | .tooLargeNumeral b v => str% "too large numeral value " ++ v ++ str% " for base " ++ b

/-- The message of an error of `ParseABNF`: that of its kind; `ErrMultipleSolutionsFound.Error` is /repo/errors.go:147-149.  Errors
that do not occur (`C77_errors`) have none. -/
def Eval.AbnfErr.message : Eval.AbnfErr → Option Str
  | .syntax (some e) => some e.message
  | .multipleSolutions => some (str% "multiple solutions found, this should not happen. Please open an issue. This could eventually need an Erratum from IETF tracking")
  | .eval e => some e.message
  | .semantic e => some e.message
  | _ => none

/-! ## The errors of definitions -/

theorem extendIn_names (n : Str) (a : Alt) (rs : List Rule) : (extendIn n a rs).map Rule.name = rs.map Rule.name := by
  induction rs with
  | nil => rfl
  | cons r rs ih =>
    rw [extendIn]
    split_ifs
    · rfl
    · rw [List.map_cons, ih, List.map_cons]

theorem getRuleIn_some {n : Str} {rs : List Rule} : (getRuleIn n rs).isSome = true ↔ ∃ m ∈ rs.map Rule.name, SameName n m := by
  unfold getRuleIn
  rw [List.find?_isSome]
  simp only [List.mem_map, equalFold_iff]
  constructor
  · rintro ⟨r, h1, h2⟩; exact ⟨_, ⟨r, h1, rfl⟩, h2⟩
  · rintro ⟨_, ⟨r, h1, rfl⟩, h2⟩; exact ⟨r, h1, h2⟩

theorem mpSet_names (e : Rule × Bool) (m : List (Rule × Bool)) (n : Str) :
    n ∈ (mpSet e m).map (fun p => p.1.name) ↔ n = e.1.name ∨ n ∈ m.map (fun p => p.1.name) := by
  induction m with
  | nil => simp [mpSet]
  | cons p m ih =>
    rw [mpSet]
    split_ifs with h
    · simp [h]
    · simp only [List.map_cons, List.mem_cons, ih]
      tauto

theorem extendMp_names {n : Str} {a : Alt} : ∀ {m : List (Rule × Bool)}, match extendMp n a m with
    | some q => q.1.map (fun p => p.1.name) = m.map (fun p => p.1.name) ∧ ∃ x ∈ m.map (fun p => p.1.name), SameName n x
    | none => ∀ x ∈ m.map (fun p => p.1.name), ¬ SameName n x := by
  intro m
  induction m with
  | nil => simp [extendMp]
  | cons p m ih =>
    rw [extendMp]
    by_cases h : equalFold n p.1.name = true
    · rw [if_pos h]
      exact ⟨rfl, p.1.name, by simp, (equalFold_iff _ _).mp h⟩
    · rw [if_neg h]
      rw [equalFold_iff] at h
      cases hx : extendMp n a m with
      | none =>
        rw [hx] at ih
        intro x hx
        rcases List.mem_cons.mp hx with rfl | hx
        · exact h
        · exact ih x hx
      | some q =>
        rw [hx] at ih
        obtain ⟨h1, x, h2, h3⟩ := ih
        exact ⟨by simp [h1], x, by simp [h2], h3⟩

/-- The names a state knows are those of the definitions so far; the core rules keep theirs. -/
structure Knows (st : EvalSt) (pre : List Def) : Prop where
  core : st.core.map Rule.name = Core.rules.map Rule.name
  defined : ∀ n, (∃ x ∈ st.mp.map (fun p => p.1.name), SameName n x) ↔ ∃ d ∈ pre, SameName n d.name

/-- Why a definition is refused after those before it. -/
def Refused (redefineCore : Bool) (pre : List Def) (d : Def) : EvalErr → Prop
  | .coreRuleModify n => n = d.name ∧ redefineCore = false ∧ Props.IsCoreName n
  | .duplicatedRule n => n = d.name ∧ d.extend = false ∧ ¬ Props.IsCoreName n ∧ ∃ d' ∈ pre, SameName n d'.name
  | .ruleNotFound n => n = d.name ∧ d.extend = true ∧ ¬ Props.IsCoreName n ∧ ∀ d' ∈ pre, ¬ SameName n d'.name

theorem isCore_iff {n : Str} {st : EvalSt} {pre : List Def} (h : Knows st pre) : (getRuleIn n st.core).isSome = true ↔ Props.IsCoreName n := by
  rw [getRuleIn_some, h.core]
  unfold Props.IsCoreName
  simp only [List.mem_map]
  constructor
  · rintro ⟨_, ⟨r, h1, rfl⟩, h2⟩; exact ⟨r, h1, h2⟩
  · rintro ⟨r, h1, h2⟩; exact ⟨_, ⟨r, h1, rfl⟩, h2⟩

theorem isDefined_iff {n : Str} {st : EvalSt} {pre : List Def} (h : Knows st pre) :
    (getRuleIn n (st.mp.map Prod.fst)).isSome = true ↔ ∃ d ∈ pre, SameName n d.name := by
  rw [getRuleIn_some, ← h.defined, List.map_map]
  rfl

theorem knows_set {st : EvalSt} {pre : List Def} (h : Knows st pre) {d : Def} {e : Rule × Bool} {core : List Rule} (he : SameName d.name e.1.name)
    (hc : core.map Rule.name = Core.rules.map Rule.name) : Knows ⟨mpSet e st.mp, core⟩ (pre ++ [d]) := by
  refine ⟨hc, fun n => ?_⟩
  simp only [mpSet_names, List.mem_append, List.mem_singleton]
  constructor
  · rintro ⟨x, rfl | hx, hn⟩
    · exact ⟨d, .inr rfl, (sameName_iff _ _).mpr (((sameName_iff _ _).mp hn).trans ((sameName_iff _ _).mp he).symm)⟩
    · obtain ⟨d', h1, h2⟩ := (h.defined n).mp ⟨x, hx, hn⟩
      exact ⟨d', .inl h1, h2⟩
  · rintro ⟨d', hd | rfl, hn⟩
    · obtain ⟨x, h1, h2⟩ := (h.defined n).mpr ⟨d', hd, hn⟩
      exact ⟨x, .inr h1, h2⟩
    · exact ⟨_, .inl rfl, (sameName_iff _ _).mpr (((sameName_iff _ _).mp hn).trans ((sameName_iff _ _).mp he))⟩

theorem evalDef_knows {rc : Bool} {st : EvalSt} {pre : List Def} (h : Knows st pre) (d : Def) : match evalDef rc st d with
    | .ok st' => Knows st' (pre ++ [d])
    | .error e => Refused rc pre d e := by
  have hrefl : SameName d.name d.name := (sameName_iff _ _).mpr rfl
  unfold evalDef
  simp only
  by_cases he : d.extend = false
  · rw [if_pos he]
    by_cases hc : (getRuleIn d.name st.core).isSome = true
    · rw [if_pos hc]
      by_cases hrc : rc = false
      · rw [if_pos hrc]
        exact ⟨rfl, hrc, (isCore_iff h).mp hc⟩
      · rw [if_neg hrc]
        exact knows_set h hrefl h.core
    · rw [if_neg hc]
      by_cases hd : (getRuleIn d.name (st.mp.map Prod.fst)).isSome = true
      · rw [if_pos hd]
        exact ⟨rfl, he, fun hx => hc ((isCore_iff h).mpr hx), (isDefined_iff h).mp hd⟩
      · rw [if_neg hd]
        exact knows_set h hrefl h.core
  · rw [if_neg he]
    by_cases hc : rc = false ∧ (getRuleIn d.name st.core).isSome = true
    · rw [if_pos hc]
      exact ⟨rfl, hc.1, (isCore_iff h).mp hc.2⟩
    · rw [if_neg hc]
      have hx := extendMp_names (n := d.name) (a := d.alt) (m := st.mp)
      cases hm : extendMp d.name d.alt st.mp with
      | some q =>
        rw [hm] at hx
        obtain ⟨h1, x, h2, h3⟩ := hx
        refine ⟨?_, fun n => ?_⟩
        · show List.map Rule.name (if q.2 then _ else _) = _
          split_ifs
          · rw [extendIn_names, h.core]
          · exact h.core
        · show (∃ x ∈ q.1.map (fun p => p.1.name), SameName n x) ↔ _
          rw [h1]
          simp only [List.mem_append, List.mem_singleton]
          constructor
          · intro hn
            obtain ⟨d', h4, h5⟩ := (h.defined n).mp hn
            exact ⟨d', .inl h4, h5⟩
          · rintro ⟨d', hd | rfl, hn⟩
            · exact (h.defined n).mpr ⟨d', hd, hn⟩
            · exact ⟨x, h2, (sameName_iff _ _).mpr (((sameName_iff _ _).mp hn).trans ((sameName_iff _ _).mp h3))⟩
      | none =>
        rw [hm] at hx
        simp only
        cases hg : getRuleIn d.name st.core with
        | none =>
          refine ⟨rfl, by simpa using he, fun hy => ?_, fun d' hd hn => ?_⟩
          · have := (isCore_iff h).mpr hy
            rw [hg] at this
            cases this
          · obtain ⟨x, h1, h2⟩ := (h.defined _).mpr ⟨d', hd, hn⟩
            exact hx x h1 h2
        | some r =>
          have : SameName d.name r.name := by
            have := List.find?_some hg
            exact (equalFold_iff _ _).mp this
          exact knows_set h (e := (⟨r.name, r.alt ++ d.alt⟩, true)) this (by rw [extendIn_names, h.core])

/-! ## The errors of the validation -/

/-- A numeral without its leading zeros. -/
def Unpadded (s v : Str) : Prop := ∃ k, s = List.replicate k '0' ++ v ∧ v.head? ≠ some '0'

/-- The repetition has the fault that an error names. -/
def Faulty (q : Rep) : SemErr → Prop
  | .dependencyNotFound _ => False
  | .semanticRepetition r => r = q ∧ ∃ m, r.max = some m ∧ m < r.min
  | .tooLargeNumeral b v => ∃ st es s, q.elem = .numVal b st es ∧ s ∈ es ∧ Unpadded s v ∧ checkBounds s b = false

theorem unpadded_trim (s : Str) : Unpadded s (trimZeros s) := by
  unfold trimZeros
  induction s with
  | nil => exact ⟨0, rfl, by simp⟩
  | cons c s ih =>
    rw [List.dropWhile_cons]
    split_ifs with h
    · obtain ⟨k, h1, h2⟩ := ih
      have : c = '0' := by simpa using h
      subst this
      exact ⟨k + 1, by rw [List.replicate_succ, List.cons_append, ← h1], h2⟩
    · refine ⟨0, rfl, ?_⟩
      simpa using h

theorem semvalNums_faulty {b : Str} {e : SemErr} : ∀ {es : List Str}, semvalNums b es = some e →
    ∃ s ∈ es, e = .tooLargeNumeral b (trimZeros s) ∧ checkBounds s b = false := by
  intro es
  induction es with
  | nil => intro h; cases h
  | cons s es ih =>
    intro h
    rw [semvalNums] at h
    split_ifs at h with hc
    · obtain ⟨s', h1, h2⟩ := ih h
      exact ⟨s', by simp [h1], h2⟩
    · exact ⟨s, by simp, (Option.some.inj h).symm, by simpa using hc⟩

theorem or_some {α} {a b : Option α} {x : α} (h : a.or b = some x) : a = some x ∨ b = some x := by
  cases a with
  | none => exact .inr h
  | some y => exact .inl h

mutual
theorem semvalRep_faulty {e : SemErr} : (r : Rep) → semvalRep r = some e → ∃ q ∈ repReps r, Faulty q e
  | ⟨mn, mx, el⟩, h => by
    rw [semvalRep] at h
    split_ifs at h with hb
    · obtain rfl := Option.some.inj h
      refine ⟨⟨mn, mx, el⟩, by simp [repReps], rfl, ?_⟩
      cases mx with
      | none => cases hb
      | some m => exact ⟨m, rfl, by simpa [boundsCross] using hb⟩
    · cases el with
      | numVal b st es =>
        obtain ⟨s, h1, rfl, h2⟩ := semvalNums_faulty h
        exact ⟨⟨mn, mx, .numVal b st es⟩, by simp [repReps], st, es, s, rfl, h1, unpadded_trim s, h2⟩
      | group a =>
        obtain ⟨q, h1, h2⟩ := semvalAlternation_faulty a h
        exact ⟨q, by simp [repReps, elemReps, h1], h2⟩
      | option a =>
        obtain ⟨q, h1, h2⟩ := semvalAlternation_faulty a h
        exact ⟨q, by simp [repReps, elemReps, h1], h2⟩
      | rulename _ => cases h
      | charVal _ _ => cases h
      | proseVal _ => cases h
theorem semvalConcat_faulty {e : SemErr} : (c : List Rep) → semvalConcat c = some e → ∃ q ∈ concatReps c, Faulty q e
  | [], h => by cases h
  | r :: c, h => by
    rw [semvalConcat] at h
    rcases or_some h with h | h
    · obtain ⟨q, h1, h2⟩ := semvalRep_faulty r h
      exact ⟨q, by simp [concatReps, h1], h2⟩
    · obtain ⟨q, h1, h2⟩ := semvalConcat_faulty c h
      exact ⟨q, by simp [concatReps, h1], h2⟩
theorem semvalAlternation_faulty {e : SemErr} : (a : List (List Rep)) → semvalAlternation a = some e → ∃ q ∈ altReps a, Faulty q e
  | [], h => by cases h
  | c :: a, h => by
    rw [semvalAlternation] at h
    rcases or_some h with h | h
    · obtain ⟨q, h1, h2⟩ := semvalConcat_faulty c h
      exact ⟨q, by simp [altReps, h1], h2⟩
    · obtain ⟨q, h1, h2⟩ := semvalAlternation_faulty a h
      exact ⟨q, by simp [altReps, h1], h2⟩
end

/-! ## Texts -/

theorem digits_split {m n : Nat} {x y : Str} {c d : Char} (hc : c.isDigit = false) (hd : d.isDigit = false) (h : itoa m ++ c :: x = itoa n ++ d :: y) :
    m = n ∧ c :: x = d :: y := by
  obtain ⟨h1, h2⟩ := span_inj Char.isDigit (fun c hc => itoa_digit hc) (fun c hc => itoa_digit hc)
    (by rintro a t h; cases h; exact hc) (by rintro a t h; cases h; exact hd) h
  exact ⟨itoa_inj h1, h2⟩

theorem ParseError.message_eq (e : ParseError) : e.message = str% "parse error at line " ++ (itoa e.line ++ ',' :: (str% " column " ++
    (itoa e.col ++ ' ' :: (str% "(offset " ++ (itoa e.offset ++ ')' :: e.rest))))) := by
  simp [ParseError.message]

theorem position_of_message {e e' : ParseError} (h : e.message = e'.message) :
    e.line = e'.line ∧ e.col = e'.col ∧ e.offset = e'.offset ∧ e.rest = e'.rest := by
  rw [e.message_eq, e'.message_eq] at h
  obtain ⟨h1, h2⟩ := digits_split (by decide) (by decide) (List.append_cancel_left h)
  obtain ⟨h3, h4⟩ := digits_split (by decide) (by decide) (List.append_cancel_left (List.cons.inj h2).2)
  obtain ⟨h5, h6⟩ := digits_split (by decide) (by decide) (List.append_cancel_left (List.cons.inj h4).2)
  exact ⟨h1, h3, h5, (List.cons.inj h6).2⟩

/-- Two errors of `ParseABNF` that say the same. -/
inductive SaysSame : Eval.AbnfErr → Eval.AbnfErr → Prop
  | syntax (p p') : p.line = p'.line → p.col = p'.col → p.offset = p'.offset → SaysSame (.syntax (some p)) (.syntax (some p'))
  | eval (e) : SaysSame (.eval e) (.eval e)
  | dependency (n) : SaysSame (.semantic (.dependencyNotFound n)) (.semantic (.dependencyNotFound n))
  | repetition (r r') : r.str = r'.str → SaysSame (.semantic (.semanticRepetition r)) (.semantic (.semanticRepetition r'))
  | numeral (b v) : SaysSame (.semantic (.tooLargeNumeral b v)) (.semantic (.tooLargeNumeral b v))

theorem evalErr_inj {e e' : EvalErr} (h : e.message = e'.message) : e = e' := by
  cases e <;> cases e' <;> simp only [EvalErr.message, List.append_assoc] at h
  case coreRuleModify.coreRuleModify => rw [List.append_cancel_right (List.append_cancel_left h)]
  case duplicatedRule.duplicatedRule => rw [List.append_cancel_right (List.append_cancel_left h)]
  case ruleNotFound.ruleNotFound => rw [List.append_cancel_right (List.append_cancel_left h)]
  case duplicatedRule.ruleNotFound n m =>
    have := congrArg (fun s : Str => (s.reverse.take 18).reverse) h
    simp at this
  case ruleNotFound.duplicatedRule n m =>
    have := congrArg (fun s : Str => (s.reverse.take 18).reverse) h
    simp at this
  all_goals simp at h

theorem bounded_base {s b : Str} (h : checkBounds s b = false) : ∃ c, b = [c] := by
  by_contra hb
  have h1 : ∀ c, b ≠ [c] := fun c hc => hb ⟨c, hc⟩
  unfold checkBounds at h
  simp [h1] at h

theorem joinWith_infix (sep : Str) {x : Str} : ∀ {l : List Str}, x ∈ l → ∃ a b, joinWith sep l = a ++ x ++ b
  | [], h => by cases h
  | [y], h => by
    obtain rfl := List.mem_singleton.mp h
    exact ⟨[], [], by simp [joinWith]⟩
  | y :: z :: l, h => by
    rw [joinWith]
    rcases List.mem_cons.mp h with rfl | h
    · exact ⟨[], sep ++ joinWith sep (z :: l), by simp⟩
    · obtain ⟨a, b, hab⟩ := joinWith_infix sep h
      exact ⟨y ++ sep ++ a, b, by rw [hab]; simp⟩

namespace Props
open Text Eval

/-! ## C100: what an error says -/

/-- C100.  When `ParseABNF` refuses a definition, all those before it are accepted, and the error names it: it changes a core rule
though this is not allowed, or gives a second definition with `=` for a name, or extends with `=/` a name without one. -/
theorem C100_definition (redefineCore : Bool) (defs : List Def) (e : EvalErr) (h : evalRulelist redefineCore defs = .error e) :
    ∃ pre d post, defs = pre ++ d :: post ∧ (∃ st, evalRulelist redefineCore pre = .ok st) ∧ Refused redefineCore pre d e := by
  have key : ∀ (ds pre : List Def) (st : EvalSt), evalRulelist redefineCore pre = .ok st → Knows st pre → evalDefsFrom redefineCore st ds = .error e →
      ∃ p d post, pre ++ ds = p ++ d :: post ∧ (∃ st, evalRulelist redefineCore p = .ok st) ∧ Refused redefineCore p d e := by
    intro ds
    induction ds with
    | nil => intro pre st _ _ h; cases h
    | cons d ds ih =>
      intro pre st hst hk h
      rw [evalDefsFrom] at h
      have := evalDef_knows (rc := redefineCore) hk d
      cases hd : evalDef redefineCore st d with
      | error x =>
        rw [hd] at h this
        obtain rfl := Except.error.inj h
        exact ⟨pre, d, ds, rfl, ⟨st, hst⟩, this⟩
      | ok st' =>
        rw [hd] at h this
        have h1 : evalRulelist redefineCore (pre ++ [d]) = .ok st' := by
          have happ : ∀ (l : List Def) (s : EvalSt), evalDefsFrom redefineCore s l = .ok st → evalDefsFrom redefineCore s (l ++ [d]) = .ok st' := by
            intro l
            induction l with
            | nil =>
              intro s hs
              obtain rfl := Except.ok.inj hs
              simp [evalDefsFrom, hd]
            | cons x l ihl =>
              intro s hs
              rw [evalDefsFrom] at hs
              rw [List.cons_append, evalDefsFrom]
              cases hx : evalDef redefineCore s x with
              | error y => rw [hx] at hs; cases hs
              | ok s' => rw [hx] at hs; exact ihl s' hs
          exact happ pre _ hst
        obtain ⟨p, d', post, h2, h3⟩ := ih (pre ++ [d]) st' h1 this h
        exact ⟨p, d', post, by rw [← h2]; simp, h3⟩
  exact key defs [] ⟨[], Core.rules⟩ rfl ⟨rfl, by simp⟩ h

example : evalRulelist false [⟨['a'], false, []⟩, ⟨['b'], false, []⟩, ⟨['A'], false, []⟩, ⟨['c'], true, []⟩] = .error (.duplicatedRule ['A']) ∧
    evalRulelist false [⟨['a'], false, []⟩, ⟨['c'], true, []⟩] = .error (.ruleNotFound ['c']) ∧
    evalRulelist false [⟨['a'], false, []⟩, ⟨str% "digit", true, []⟩] = .error (.coreRuleModify (str% "digit")) := ⟨rfl, rfl, rfl⟩

/-- C100.  The error of `SemvalABNF` names a fault of the grammar: a name that a rule mentions and that has no definition, a
repetition of a rule whose bounds cross, or a number over U+10FFFF.  The last two are only reported if all names are defined. -/
theorem C100_validation (g : Grammar) (hwf : NumValsWF g) (e : SemErr) (h : semvalABNF g = some e) :
    (∃ n, e = .dependencyNotFound n ∧ (¬ ∃ r, Resolves g n r) ∧ ∃ q ∈ rulesReps g.rules, ∃ m, q.elem = .rulename m ∧ SameName n m) ∨
    ((∀ q ∈ rulesReps g.rules, ∀ n, q.elem = .rulename n → ∃ r, Resolves g n r) ∧
      ((∃ r ∈ rulesReps g.rules, e = .semanticRepetition r ∧ ∃ m, r.max = some m ∧ m < r.min) ∨
       ∃ q ∈ rulesReps g.rules, ∃ b st es, q.elem = .numVal b st es ∧ ∃ s ∈ es, ∃ v, e = .tooLargeNumeral b v ∧ Unpadded s v ∧
         ∃ x, Denotes b s x ∧ 0x10FFFF < x)) := by
  unfold semvalABNF at h
  cases hd : g.rules.findSome? fun r => semvalDeps g.rules (getDependencies r.alt) with
  | some e' =>
    rw [hd] at h
    obtain rfl := Option.some.inj h
    left
    obtain ⟨r, hr, hx⟩ := List.exists_of_findSome?_eq_some hd
    have : ∀ ds : List Str, semvalDeps g.rules ds = some e' → ∃ d ∈ ds, e' = .dependencyNotFound d ∧ ¬ (getRule d g.rules).isSome = true := by
      intro ds
      induction ds with
      | nil => intro h; cases h
      | cons d ds ih =>
        intro h
        rw [semvalDeps] at h
        split_ifs at h with hs
        · obtain ⟨d', h1, h2⟩ := ih h
          exact ⟨d', by simp [h1], h2⟩
        · exact ⟨d, by simp, (Option.some.inj h).symm, hs⟩
    obtain ⟨d, h1, rfl, h2⟩ := this _ hx
    rw [getRule_isSome] at h2
    obtain ⟨q, h3, n, h4, rfl⟩ := mem_getDependencies.mp h1
    exact ⟨_, rfl, h2, q, List.mem_flatMap.mpr ⟨r, hr, h3⟩, n, h4, (sameName_iff _ _).mpr (canon_canon n)⟩
  | none =>
    rw [hd, Option.none_or] at h
    right
    rw [List.findSome?_eq_none_iff] at hd
    constructor
    · intro q hq n hn
      obtain ⟨r, hr, hq⟩ := List.mem_flatMap.mp hq
      have := semvalDeps_none.mp (hd r hr) (canon n) (mem_getDependencies.mpr ⟨q, hq, n, hn, rfl⟩)
      rw [getRule_isSome] at this
      obtain ⟨r', hr'⟩ := this
      exact ⟨r', (resolves_congr (canon_canon n)).mp hr'⟩
    · obtain ⟨r, hr, hx⟩ := List.exists_of_findSome?_eq_some h
      obtain ⟨q, hq, hf⟩ := semvalAlternation_faulty _ hx
      have hq : q ∈ rulesReps g.rules := List.mem_flatMap.mpr ⟨r, hr, hq⟩
      cases e with
      | dependencyNotFound n => cases hf
      | semanticRepetition r' =>
        obtain ⟨rfl, h1⟩ := hf
        exact .inl ⟨r', hq, rfl, h1⟩
      | tooLargeNumeral b v =>
        obtain ⟨st, es, s, h1, h2, h3, h4⟩ := hf
        refine .inr ⟨q, hq, b, st, es, h1, s, h2, v, rfl, h3, ?_⟩
        have hx : ∃ x, Denotes b s x := by
          have := hwf q hq
          rw [h1] at this
          cases st with
          | series => exact this s h2
          | range =>
            obtain ⟨x, y, v, w, rfl, h5, h6⟩ := this
            simp only [List.mem_cons, List.not_mem_nil, or_false] at h2
            rcases h2 with rfl | rfl
            · exact ⟨v, h5⟩
            · exact ⟨w, h6⟩
        obtain ⟨x, hx⟩ := hx
        refine ⟨x, hx, ?_⟩
        by_contra hle
        rw [(checkBounds_denotes hx).mpr (by omega)] at h4
        cases h4

example : NumValsWF badGrammar ∧ semvalABNF badGrammar = some (.dependencyNotFound (str% "b")) ∧
    semvalABNF ⟨[⟨['a'], [[⟨1, some 1, .numVal ['x'] .series [str% "00110000"]⟩]]⟩]⟩ = some (.tooLargeNumeral ['x'] (str% "110000")) ∧
    semvalABNF ⟨[⟨['a'], [[⟨3, some 2, .rulename ['a']⟩]]⟩]⟩ = some (.semanticRepetition ⟨3, some 2, .rulename ['a']⟩) :=
  ⟨numValsWF_of (by decide), rfl, rfl, rfl⟩

/-- C100.  The text of an error of `ParseABNF` tells what is wrong: two errors with the same text are of the same kind, and have the
same position or name the same rule, the same repetition or the same number. -/
theorem C100_messages (sched sched' : Sched NodeKey) (hf : sched.Fair) (hf' : sched'.Fair) (inp inp' : Bytes) (opts opts' : List ABNFOption)
    (e e' : AbnfErr) (h : parseABNF sched inp opts = .error e) (h' : parseABNF sched' inp' opts' = .error e') :
    ∃ m m', e.message = some m ∧ e'.message = some m' ∧ (m = m' → SaysSame e e') := by
  have hbase : ∀ (sched : Sched NodeKey) (hf : sched.Fair) (inp : Bytes) (opts : List ABNFOption) (b v : Str),
      parseABNF sched inp opts = .error (.semantic (.tooLargeNumeral b v)) → ∃ c, b = [c] := by
    intro sched hf inp opts b v h
    obtain ⟨ds, hds⟩ : ∃ ds, outcome (processOptions opts) ds = .error (.semantic (.tooLargeNumeral b v)) := by
      by_cases ht : ∃ s ds, inp = utf8 s ∧ ReadsFile rfc s ds
      · obtain ⟨s, ds, rfl, hr⟩ := ht
        obtain ⟨ds', hr'⟩ := file_any (cv' := code) hr
        rw [parseABNF_reads sched hf opts s ds' hr'] at h
        exact ⟨ds', h⟩
      · obtain ⟨p, hp⟩ := parseABNF_rejects sched hf opts inp ht
        rw [hp] at h
        cases h
    unfold outcome at hds
    split at hds
    · cases hds
    · split_ifs at hds
      split at hds
      · rename_i e he
        cases hds
        unfold semvalABNF at he
        rcases or_some he with he | he
        · obtain ⟨r, _, hx⟩ := List.exists_of_findSome?_eq_some he
          exfalso
          generalize getDependencies r.alt = l at hx
          induction l with
          | nil => cases hx
          | cons d l ih =>
            rw [semvalDeps] at hx
            split_ifs at hx
            · exact ih hx
            · cases hx
        · obtain ⟨r, _, hx⟩ := List.exists_of_findSome?_eq_some he
          obtain ⟨q, _, _, _, s, _, _, _, hc⟩ := semvalAlternation_faulty _ hx
          exact bounded_base hc
      · cases hds
  rcases C77_errors sched hf opts inp e h with ⟨p, rfl⟩ | ⟨x, rfl⟩ | ⟨_, x, rfl⟩ <;>
    rcases C77_errors sched' hf' opts' inp' e' h' with ⟨p', rfl⟩ | ⟨x', rfl⟩ | ⟨_, x', rfl⟩ <;> refine ⟨_, _, rfl, rfl, fun he => ?_⟩
  · obtain ⟨h1, h2, h3, _⟩ := position_of_message he
    exact .syntax p p' h1 h2 h3
  · rw [p.message_eq] at he
    cases x' <;> simp [EvalErr.message] at he
  · rw [p.message_eq] at he
    cases x' <;> simp [SemErr.message] at he
  · rw [p'.message_eq] at he
    cases x <;> simp [EvalErr.message] at he
  · rw [evalErr_inj he]
    exact .eval x'
  · cases x <;> cases x' <;> simp [EvalErr.message, SemErr.message] at he
  · rw [p'.message_eq] at he
    cases x <;> simp [SemErr.message] at he
  · cases x <;> cases x' <;> simp [EvalErr.message, SemErr.message] at he
  · cases x with
    | dependencyNotFound n =>
      cases x' with
      | dependencyNotFound n' =>
        have := List.append_cancel_left (show str% "unsatisfied dependency (rule) " ++ n = str% "unsatisfied dependency (rule) " ++ n' from he)
        rw [this]
        exact .dependency n'
      | semanticRepetition r => simp [SemErr.message] at he
      | tooLargeNumeral b v => simp [SemErr.message] at he
    | semanticRepetition r =>
      cases x' with
      | dependencyNotFound n' => simp [SemErr.message] at he
      | semanticRepetition r' =>
        exact .repetition r r' (List.append_cancel_left (show str% "invalid semantic of input ABNF grammar for repetition " ++ r.str = str% "invalid semantic of input ABNF grammar for repetition " ++ r'.str from he))
      | tooLargeNumeral b v => simp [SemErr.message] at he
    | tooLargeNumeral b v =>
      cases x' with
      | dependencyNotFound n' => simp [SemErr.message] at he
      | semanticRepetition r => simp [SemErr.message] at he
      | tooLargeNumeral b' v' =>
        obtain ⟨c, rfl⟩ := hbase sched hf inp opts b v h
        obtain ⟨c', rfl⟩ := hbase sched' hf' inp' opts' b' v' h'
        obtain ⟨h1, h2⟩ := List.append_inj' (show str% "too large numeral value " ++ v ++ str% " for base " ++ [c] = str% "too large numeral value " ++ v' ++ str% " for base " ++ [c'] from he) rfl
        rw [h2, List.append_cancel_left (List.append_cancel_right h1)]
        exact .numeral [c'] v'

/-- C100: a text without an end of line and one that extends an unknown rule are errors with different texts. -/
example : ∃ p e m m', parseABNF fwd (utf8 (str% "a = b")) [] = .error (.syntax (some p)) ∧
    AbnfErr.message (.syntax (some p)) = some m ∧ AbnfErr.message (.eval e) = some m' ∧ m ≠ m' ∧ ∃ s, parseABNF fwd (utf8 s) [] = .error (.eval e) := by
  obtain ⟨p, hp⟩ := no_newline fwd fwd_fair
  obtain ⟨s, _, _, _, _, h⟩ := C78_comment_fails fwd fwd_fair
  obtain ⟨m, m', h1, h2, h3⟩ := C100_messages fwd fwd fwd_fair fwd_fair _ _ _ _ _ _ hp h
  exact ⟨p, _, m, m', hp, h1, h2, (fun he => by have := h3 he; cases this), s, h⟩

/-- C100.  The text of a syntax error ends with what is found at its position, then the hint if there is one. -/
theorem C100_found (inp : Bytes) (offset : Int) (expected : List Str) : let e := newParseError inp offset expected
    ∃ pre, e.message = pre ++ e.found ++ (if e.hint = true then str% " (hint: " ++ hintText ++ str% ")" else []) ∧
      ∀ x ∈ expected, ∃ a b, pre = a ++ x ++ b := by
  intro e
  have hf : e.found ≠ [] := by
    have : e.found = match inp[e.offset]? with | some b => describeByte b | none => str% "EOF" := rfl
    rw [this]
    split
    · rename_i b _
      have : ∀ m : Fin 256, describeByte (UInt8.ofNat m.val) ≠ [] := by decide +kernel
      have := this ⟨b.toNat, b.toNat_lt⟩
      simpa using this
    · simp
  have hm : ∃ H, e.message = H ++ e.rest := ⟨_, rfl⟩
  obtain ⟨H, hm⟩ := hm
  have hmem : ∀ x, x ∈ expected → x ∈ e.expected := fun x hx => (List.mem_insertionSort _).mpr hx
  rw [hm]
  unfold ParseError.rest
  by_cases hx : e.expected = []
  · rw [if_neg (by simpa using hx), if_pos hf]
    refine ⟨H ++ str% ": unexpected ", by simp only [List.append_assoc], fun x hx' => ?_⟩
    have := hmem x hx'
    rw [hx] at this
    cases this
  · rw [if_pos hx, if_pos hf]
    refine ⟨H ++ str% ": expected " ++ joinWith (str% ", ") e.expected ++ str% ", found ", by simp only [List.append_assoc], fun x hx' => ?_⟩
    obtain ⟨a, b, hab⟩ := joinWith_infix (str% ", ") (hmem x hx')
    exact ⟨H ++ str% ": expected " ++ a, b ++ str% ", found ", by rw [hab]; simp only [List.append_assoc]⟩

example : (newParseError (bytes% "a = b\nc") 5 [str% "%x0D", str% "%x20"]).message =
    str% "parse error at line 1, column 6 (offset 5): expected %x0D, %x20, found %x0A (LF) (hint: input uses bare LF line endings, but ABNF requires CR LF (\"\\r\\n\"))" := by
  decide +kernel
-- a `ParseError` that was not made by `newParseError` need not say what was found
example : ({ offset := 0, line := 1, col := 1, expected := [], found := [], hint := false } : ParseError).message =
    str% "parse error at line 1, column 1 (offset 0): no solution found, input ABNF grammar may be invalid" := by
  decide +kernel

end Props
end Verif
