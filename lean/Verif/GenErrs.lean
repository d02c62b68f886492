import Verif.PropsGen
import Verif.Messages
import Verif.Regex
import Verif.Tg

/-!
# C126: what the errors of `Generate`, `Regex` and the parsers say

`Generate.lean` only keeps whether `checkCanGenerateSafely` finds an error.  Here the errors themselves are followed
(/repo/generate.go:162-247), with what they name and with the messages they give.
-/

namespace Verif
open Spec

/-- An `error` of the check: `*ErrCyclicRule` (/repo/errors.go:225-227), `ErrHandlingProseVal` (/repo/errors.go:21) and what
`errors.Join` gives. -/
inductive CheckErr where
  | cyclic (name : Str)
  | prose
  | join (es : List CheckErr)

/-- `errors.Join` at the end of `checkCanGenerateSafelyAlt` (/repo/generate.go:188-197): called if no error is nil, and nil for none. -/
def joinAll (errs : List (Option CheckErr)) : Option CheckErr :=
  if errs.all Option.isSome then (if errs.isEmpty then none else some (.join (errs.filterMap id))) else none

/-- `if err, ok := err.(*ErrCyclicRule); ok { return err }; return &ErrCyclicRule{…}` (/repo/generate.go:173-178, 225-230): a
type assertion looks at the error itself and not into a join. -/
def asCyclic (name : Str) : CheckErr → CheckErr
  | .cyclic n => .cyclic n
  | _ => .cyclic name

mutual
/-- The loop of `checkCanGenerateSafelyAlt` (/repo/generate.go:184-187). -/
def errConcats (rec : List Str → Str → Run (Option CheckErr)) (known : List Str) : List (List Rep) → Run (List (Option CheckErr))
  | [] => .ok []
  | c :: a => (errConcat rec known c).bnd fun e => (errConcats rec known a).bnd fun es => .ok (e :: es)
/-- `checkCanGenerateSafelyConcat` (/repo/generate.go:200-247). -/
def errConcat (rec : List Str → Str → Run (Option CheckErr)) (known : List Str) : List Rep → Run (Option CheckErr)
  | [] => .ok none
  | ⟨mn, _, e⟩ :: c =>
    if mn = 0 then errConcat rec known c
    else (errElem rec known e).bnd fun err => if err.isSome then .ok err else errConcat rec known c
/-- The switch on the element (/repo/generate.go:209-244); `rec` is the case `ElemRulename`. -/
def errElem (rec : List Str → Str → Run (Option CheckErr)) (known : List Str) : Elem → Run (Option CheckErr)
  | .rulename n => rec known n
  | .group a => (errConcats rec known a).bnd fun errs => .ok (joinAll errs)
  | .proseVal _ => .ok (some .prose)
  | _ => .ok none
end

/-- `checkCanGenerateSafelyAlt` (/repo/generate.go:183-198). -/
def errAlt (rec : List Str → Str → Run (Option CheckErr)) (known : List Str) (a : Alt) : Run (Option CheckErr) :=
  (errConcats rec known a).bnd fun errs => .ok (joinAll errs)

/-- The case `ElemRulename` of `checkCanGenerateSafelyConcat` (/repo/generate.go:210-231). -/
def errRule (g : Grammar) : Nat → List Str → Str → Run (Option CheckErr)
  | 0, _, _ => .fuel
  | k + 1, known, n =>
    if known.any fun x => equalFold n x then .ok (some (.cyclic n))
    else
      match getRule n g.rules with
      | none => .panic
      | some r => (errAlt (errRule g k) (n :: known) r.alt).bnd fun err => .ok (err.map (asCyclic n))

/-- What `checkCanGenerateSafely` returns (/repo/generate.go:162-181): `ErrRuleNotFound` with the name, or another error. -/
inductive SafeErr where
  | ruleNotFound (name : Str)
  | check (e : CheckErr)

/-- `checkCanGenerateSafely` (/repo/generate.go:162-181); `none` is a nil error. -/
def safeErr (g : Grammar) (name : Str) : Run (Option SafeErr) :=
  match getRule name g.rules with
  | none => .ok (some (.ruleNotFound name))
  | some r => (errAlt (errRule g (g.rules.length + Core.rules.length + 1)) [name] r.alt).bnd fun err =>
      .ok (err.map fun e => .check (asCyclic name e))

/-- `Generate` (/repo/generate.go:21-43) with its errors. -/
def generateE (rnd : Nat → Nat) (o : GenOpts) (g : Grammar) (fuel : Nat) (name : Str) : Run (Except SafeErr Bytes) :=
  (safeErr g name).bnd fun err =>
    match err with
    | some e => .ok (.error e)
    | none =>
      match getRule name g.rules with
      | none => .panic
      | some r => (genAlt rnd o (genRule rnd o g fuel) r.alt {}).bnd fun st => .ok (.ok st.out)

/-! ## The errors and whether there is one -/

/-- Whether there is an error. -/
def someErr {α : Type} (x : Run (Option α)) : Run Bool := x.bnd fun e => .ok e.isSome

theorem joinAll_some (errs : List (Option CheckErr)) : (joinAll errs).isSome = joinErrs (errs.map Option.isSome) := by
  unfold joinAll joinErrs
  cases errs with
  | nil => rfl
  | cons e es =>
    have h : (List.map Option.isSome (e :: es)).all id = (e :: es).all Option.isSome := by rw [List.all_map]; rfl
    rw [h]
    cases (e :: es).all Option.isSome <;> rfl

theorem bnd_assoc {α β γ : Type} (x : Run α) (f : α → Run β) (k : β → Run γ) : (x.bnd f).bnd k = x.bnd fun a => (f a).bnd k := by
  cases x <;> rfl

mutual
theorem errConcats_gen {rec : List Str → Str → Run (Option CheckErr)} {rec' : List Str → Str → Run Bool} (h : ∀ ks n, someErr (rec ks n) = rec' ks n)
    (known : List Str) : (a : List (List Rep)) → ((errConcats rec known a).bnd fun es => .ok (es.map Option.isSome)) = checkGenConcats rec' known a
  | [] => by rw [errConcats, checkGenConcats]; rfl
  | c :: a => by
    rw [errConcats, checkGenConcats, ← errConcat_gen h known c, ← errConcats_gen h known a]
    unfold someErr
    cases errConcat rec known c with
    | ok e => cases errConcats rec known a <;> rfl
    | panic => rfl
    | fuel => rfl
theorem errConcat_gen {rec : List Str → Str → Run (Option CheckErr)} {rec' : List Str → Str → Run Bool} (h : ∀ ks n, someErr (rec ks n) = rec' ks n)
    (known : List Str) : (c : List Rep) → someErr (errConcat rec known c) = checkGenConcat rec' known c
  | [] => by rw [errConcat, checkGenConcat]; rfl
  | ⟨mn, mx, e⟩ :: c => by
    rw [errConcat, checkGenConcat]
    split_ifs
    · exact errConcat_gen h known c
    · rw [← errElem_gen h known e]
      unfold someErr
      cases errElem rec known e with
      | ok x =>
        simp only [Run.bnd]
        cases x with
        | none => exact errConcat_gen h known c
        | some x => rfl
      | panic => rfl
      | fuel => rfl
theorem errElem_gen {rec : List Str → Str → Run (Option CheckErr)} {rec' : List Str → Str → Run Bool} (h : ∀ ks n, someErr (rec ks n) = rec' ks n)
    (known : List Str) : (e : Elem) → someErr (errElem rec known e) = checkGenElem rec' known e
  | .rulename n => by rw [errElem, checkGenElem]; exact h known n
  | .group a => by
    rw [errElem, checkGenElem, ← errConcats_gen h known a]
    unfold someErr
    cases errConcats rec known a with
    | ok es => simp only [Run.bnd, joinAll_some]
    | panic => rfl
    | fuel => rfl
  | .option a => by simp only [errElem, checkGenElem]; rfl
  | .charVal s vs => by simp only [errElem, checkGenElem]; rfl
  | .numVal b s es => by simp only [errElem, checkGenElem]; rfl
  | .proseVal v => by rw [errElem, checkGenElem]; rfl
end

theorem errAlt_gen {rec : List Str → Str → Run (Option CheckErr)} {rec' : List Str → Str → Run Bool} (h : ∀ ks n, someErr (rec ks n) = rec' ks n)
    (known : List Str) (a : Alt) : someErr (errAlt rec known a) = checkGenAlt rec' known a := by
  unfold errAlt checkGenAlt
  rw [← errConcats_gen h known a]
  unfold someErr
  cases errConcats rec known a with
  | ok es => simp only [Run.bnd, joinAll_some]
  | panic => rfl
  | fuel => rfl

theorem errRule_gen (g : Grammar) (k : Nat) : ∀ ks n, someErr (errRule g k ks n) = checkGenRule g k ks n := by
  induction k with
  | zero => intro ks n; rfl
  | succ k ih =>
    intro ks n
    rw [errRule, checkGenRule]
    split_ifs
    · rfl
    · cases getRule n g.rules with
      | none => rfl
      | some r =>
        simp only
        rw [← errAlt_gen ih]
        unfold someErr
        cases errAlt (errRule g k) (n :: ks) r.alt with
        | ok x => cases x <;> rfl
        | panic => rfl
        | fuel => rfl

/-- `checkCanGenerateSafelyAlt` never returns an `ErrCyclicRule` itself. -/
theorem errAlt_join (rec : List Str → Str → Run (Option CheckErr)) (known : List Str) (a : Alt) {e : CheckErr}
    (h : errAlt rec known a = .ok (some e)) : ∃ es, e = .join es := by
  unfold errAlt at h
  cases hx : errConcats rec known a with
  | panic => rw [hx] at h; cases h
  | fuel => rw [hx] at h; cases h
  | ok es =>
    rw [hx] at h
    simp only [Run.bnd, Run.ok.injEq] at h
    unfold joinAll at h
    split_ifs at h
    exact ⟨_, (Option.some.inj h).symm⟩

/-! ## Messages -/

/-- `ErrRuleNotFound.Error` (/repo/errors.go:159-161). -/
def notFoundText (name : Str) : Str := str% "rule " ++ name ++ str% " was not found in grammar"

/-- `ErrCyclicRule.Error` (/repo/errors.go:231-233). -/
def cyclicText (name : Str) : Str := str% "can't generate a content as the rule " ++ name ++ str% " involves an unavoidable cycle"

/-- `ErrHandlingProseVal` (/repo/errors.go:21). -/
def proseText : Str := str% "can't handle prose-val descriptions"

mutual
/-- The message of an error of `checkCanGenerateSafely`; that of a join has a line for each error. -/
def CheckErr.message : CheckErr → Str
  | .cyclic n => cyclicText n
  | .prose => proseText
  | .join es => joinWith ['\n'] (CheckErr.messages es)
@[inherit_doc CheckErr.message]
def CheckErr.messages : List CheckErr → List Str
  | [] => []
  | e :: es => e.message :: CheckErr.messages es
end

@[inherit_doc CheckErr.message]
def SafeErr.message : SafeErr → Str
  | .ruleNotFound n => notFoundText n
  | .check e => e.message

/-- `errors.Is(err, ErrHandlingProseVal)`: the error is that one, or a join has such an error. -/
inductive CheckErr.IsProse : CheckErr → Prop
  | self : IsProse .prose
  | join (es e) : e ∈ es → IsProse e → IsProse (.join es)

/-- The message of an error of `Regex` for a rule and a budget (/repo/regex.go:33, 37 and 372, the messages being /repo/errors.go:159-161 and
231-233, /repo/errors.go:21 and /repo/regex.go:79-81); no text for what is not an error. -/
def RegexErr.message (name : Str) (maxLen : Nat) : RegexErr → Option Str
  | .ruleNotFound => some (notFoundText name)
  | .cyclicRule => some (cyclicText name)
  | .proseVal => some proseText
  | .tooLarge => some (str% "regex exceeds the configured " ++ itoa maxLen ++ str% "-byte budget")
  | .panic => none
  | .outOfFuel => none

/-- The message of an error of `TransitionGraph` for a rule and a budget (/repo/transition_graph.go:59-61, 68-70, 78-80 and 217, the messages
being /repo/errors.go:25-37, 159-161, 231-233 and 243-245). -/
def TgErr.message (name : Str) (maxNodes : Nat) : TgErr → Str
  | .ruleNotFound n => notFoundText n
  | .semval e => e.message
  | .cyclicRule => cyclicText name
  | .threshold => str% "repetition threshold reached"
  | .minNotOne => str% "repetition minimum must be 1 when maximum is 1"
  | .minGtMax => str% "repetition minimum is greater than maximum"
  | .maxNodes => str% "transition graph node budget of " ++ itoa maxNodes ++ str% " exceeded"
  | .proseVal => str% "prose value is not supported in transition graphs"

namespace Props

/-- C126.  `Generate` with its errors is `Generate` without what they say: it fails in the same cases. -/
theorem C126_same (rnd : Nat → Nat) (o : GenOpts) (g : Grammar) (fuel : Nat) (name : Str) :
    generate rnd o g fuel name = (generateE rnd o g fuel name).bnd fun res =>
      .ok (match res with
        | .ok w => .ok w
        | .error (.ruleNotFound _) => .error .ruleNotFound
        | .error (.check _) => .error .cyclicRule) := by
  unfold generate generateE checkCanGenerateSafely safeErr
  cases hg : getRule name g.rules with
  | none => rfl
  | some r =>
    simp only
    rw [← errAlt_gen (errRule_gen g _)]
    unfold someErr
    cases errAlt (errRule g (g.rules.length + Core.rules.length + 1)) [name] r.alt with
    | panic => rfl
    | fuel => rfl
    | ok x =>
      cases x with
      | some e => rfl
      | none =>
        simp only [Run.bnd]
        show _ = _
        cases genAlt rnd o (genRule rnd o g fuel) r.alt {} <;> rfl

/-- C126.  An error of `Generate` names the rule that was asked for, and its message is one of two: prose values are never mentioned, neither
in the message nor to `errors.Is`. -/
theorem C126_names (rnd : Nat → Nat) (o : GenOpts) (g : Grammar) (fuel : Nat) (name : Str) (e : SafeErr)
    (h : generateE rnd o g fuel name = .ok (.error e)) :
    ((e = .ruleNotFound name ∧ e.message = notFoundText name) ∨ (e = .check (.cyclic name) ∧ e.message = cyclicText name)) ∧
      ¬ ∃ c, e = .check c ∧ c.IsProse := by
  unfold generateE safeErr at h
  cases hg : getRule name g.rules with
  | none =>
    rw [hg] at h
    cases h
    exact ⟨.inl ⟨rfl, rfl⟩, fun ⟨c, h, _⟩ => by cases h⟩
  | some r =>
    rw [hg] at h
    simp only at h
    cases hx : errAlt (errRule g (g.rules.length + Core.rules.length + 1)) [name] r.alt with
    | panic => rw [hx] at h; cases h
    | fuel => rw [hx] at h; cases h
    | ok x =>
      rw [hx] at h
      cases x with
      | none =>
        simp only [Run.bnd, Option.map_none] at h
        cases hy : genAlt rnd o (genRule rnd o g fuel) r.alt {} <;> rw [hy] at h <;> cases h
      | some x =>
        obtain ⟨es, rfl⟩ := errAlt_join _ _ _ hx
        cases h
        exact ⟨.inr ⟨rfl, by simp only [SafeErr.message, asCyclic, CheckErr.message]⟩, fun ⟨c, h, hc⟩ => by
          simp only [asCyclic] at h
          cases h
          cases hc⟩

/-- The grammars `a = b`, `b = b` and `a = <any word>`. -/
def blamed : Grammar := ⟨[⟨['a'], [[⟨1, some 1, .rulename ['b']⟩]]⟩, ⟨['b'], [[⟨1, some 1, .rulename ['b']⟩]]⟩]⟩
@[inherit_doc blamed]
def described : Grammar := ⟨[⟨['a'], [[⟨1, some 1, .proseVal [str% "any word"]⟩]]⟩]⟩

/-- C126.  Two consequences.  Of `a = b`, `b = b` the rule `a` is said to be cyclic, though only `b` refers to itself.  `a = <any word>` is said to
involve an unavoidable cycle, though it refers to no rule; `checkCanGenerateSafelyAlt` did return an error that is `ErrHandlingProseVal` for
`errors.Is`, as the comment of `checkCanGenerateSafely` has it, but it is dropped (/repo/generate.go:173-178): the type assertion never holds
for a join. -/
theorem C126_fails (rnd : Nat → Nat) (o : GenOpts) (fuel : Nat) :
    generateE rnd o blamed fuel ['a'] = .ok (.error (.check (.cyclic ['a']))) ∧
    generateE rnd o described fuel ['a'] = .ok (.error (.check (.cyclic ['a']))) ∧
    rulesReps described.rules = [⟨1, some 1, .proseVal [str% "any word"]⟩] ∧
    ∃ e, errAlt (errRule described (described.rules.length + Core.rules.length + 1)) [['a']] (described.rules[0]).alt = .ok (some e) ∧ e.IsProse := by
  have h1 : (safeErr blamed ['a']).bnd (fun e => .ok (e.map SafeErr.message)) = .ok (some (cyclicText ['a'])) := by decide +kernel
  have h2 : (safeErr described ['a']).bnd (fun e => .ok (e.map SafeErr.message)) = .ok (some (cyclicText ['a'])) := by decide +kernel
  have key : ∀ g, (safeErr g ['a']).bnd (fun e => .ok (e.map SafeErr.message)) = .ok (some (cyclicText ['a'])) →
      generateE rnd o g fuel ['a'] = .ok (.error (.check (.cyclic ['a']))) := by
    intro g h
    cases hs : safeErr g ['a'] with
    | panic => rw [hs] at h; cases h
    | fuel => rw [hs] at h; cases h
    | ok x =>
      rw [hs] at h
      cases x with
      | none => cases h
      | some e =>
        have hg : generateE rnd o g fuel ['a'] = .ok (.error e) := by unfold generateE; rw [hs]; rfl
        rcases (C126_names rnd o g fuel ['a'] e hg).1 with ⟨_, h3⟩ | ⟨h3, _⟩
        · simp only [Run.bnd, Option.map_some, Run.ok.injEq, Option.some.injEq] at h
          rw [h3] at h
          exact absurd h (by decide)
        · rw [hg, h3]
  exact ⟨key _ h1, key _ h2, by rfl, .join [.prose], by rfl, .join _ .prose (List.mem_singleton.mpr rfl) .self⟩

/-- Two errors of `TransitionGraph` for rules and budgets that say the same. -/
inductive TgSame (name : Str) (maxNodes : Nat) (name' : Str) (maxNodes' : Nat) : TgErr → TgErr → Prop
  | ruleNotFound (n) : TgSame _ _ _ _ (.ruleNotFound n) (.ruleNotFound n)
  | semval (e e') : e.message = e'.message → TgSame _ _ _ _ (.semval e) (.semval e')
  | cyclicRule : name = name' → TgSame _ _ _ _ .cyclicRule .cyclicRule
  | threshold : TgSame _ _ _ _ .threshold .threshold
  | minNotOne : TgSame _ _ _ _ .minNotOne .minNotOne
  | minGtMax : TgSame _ _ _ _ .minGtMax .minGtMax
  | maxNodes : maxNodes = maxNodes' → TgSame _ _ _ _ .maxNodes .maxNodes
  | proseVal : TgSame _ _ _ _ .proseVal .proseVal

/-- C126.  From a message of `Regex` the error can be told, with the rule or the budget. -/
theorem C126_regex (name name' : Str) (maxLen maxLen' : Nat) (e e' : RegexErr) (m : Str) (h : e.message name maxLen = some m)
    (h' : e'.message name' maxLen' = some m) :
    e = e' ∧ (e = .ruleNotFound ∨ e = .cyclicRule → name = name') ∧ (e = .tooLarge → maxLen = maxLen') := by
  have hh := h.trans h'.symm
  have hn : m ≠ [] := by
    rintro rfl
    cases e <;> simp [RegexErr.message, notFoundText, cyclicText, proseText] at h
  cases e <;> cases e' <;> simp [RegexErr.message, notFoundText, cyclicText, proseText] at hh h h' ⊢ <;> first | exact hh | exact itoa_inj hh

/-- C126.  From a message of `TransitionGraph` the error can be told, with the rule or the budget. -/
theorem C126_graph (name name' : Str) (maxNodes maxNodes' : Nat) (e e' : TgErr) (h : e.message name maxNodes = e'.message name' maxNodes') :
    TgSame name maxNodes name' maxNodes' e e' := by
  cases e <;> cases e' <;> simp [TgErr.message, notFoundText, cyclicText] at h <;> try (first | (subst h; constructor) | constructor)
  all_goals first
    | exact h
    | exact itoa_inj h
    | rfl
    | (rename_i x; cases x <;> simp [SemErr.message] at h; done)
    | (rename_i x _; cases x <;> simp [SemErr.message] at h)

/-- `a = <any word>` gives an error of `Generate`, and the errors of `Regex` and `TransitionGraph` have messages. -/
example : (∃ e, generateE (fun _ => 0) {} described 9 ['a'] = .ok (.error e)) ∧
    RegexErr.message ['a'] 4 .tooLarge = some (str% "regex exceeds the configured 4-byte budget") ∧
    TgErr.message ['a'] 12 .maxNodes = str% "transition graph node budget of 12 exceeded" :=
  ⟨⟨_, (C126_fails (fun _ => 0) {} 9).2.1⟩, by decide +kernel, by decide +kernel⟩

end Props
end Verif
