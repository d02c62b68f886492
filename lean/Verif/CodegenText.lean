import Verif.PropsAbnf
import Verif.PropsCompile

/-!
# The comments of the emitted parser

Model of `slotComment`, `symStr` and `sanitizeComment` (/repo/codegen.go:384-431): the text `emitProcess`
(/repo/codegen.go:154) writes after `//` on the line of each case.
-/

namespace Verif
open Spec

namespace Cg

/-- The dedup map after lowering (/repo/sppf.go:59-63, 78-92); the key of a nonterminal is its kind, a colon and, up to
the case of the name of an undefined rule, its label (/repo/sppf.go:70, 110-123, 149-176, 195-206). -/
def labelIndex (g : Grammar) (root : Str) (maxSlots : Nat) : List (Str × Nat) :=
  match lowerRule g maxSlots (lowerFuel g) root ⟨[], [], false⟩ with
  | none => []
  | some (_, st) => st.index

/-- `sgNT.label` (/repo/sppf.go:44). -/
def labelOf (ix : List (Str × Nat)) (nt : Nat) : Str :=
  match ix[nt]? with
  | none => []
  | some (key, _) => (key.dropWhile (· ≠ ':')).drop 1

/-- `strings.ReplaceAll(s, "*/", "* /")` (/repo/codegen.go:427). -/
def splitCloser : Str → Str
  | '*' :: '/' :: s => '*' :: ' ' :: '/' :: splitCloser s
  | c :: s => c :: splitCloser s
  | [] => []

/-- `sanitizeComment` (/repo/codegen.go:426-431). -/
def sanitizeComment (s : Str) : Str :=
  (splitCloser s).map fun c => if c = '\r' ∨ c = '\n' then ' ' else c

/-- `unicode.IsSpace`, which `strings.TrimSpace` uses (/repo/codegen.go:401). -/
def isSpace (c : Char) : Bool :=
  c.toNat ∈ [0x09, 0x0A, 0x0B, 0x0C, 0x0D, 0x20, 0x85, 0xA0, 0x1680, 0x2028, 0x2029, 0x202F, 0x205F, 0x3000] ||
    decide (0x2000 ≤ c.toNat ∧ c.toNat ≤ 0x200A)

/-- `strings.TrimSpace` (/repo/codegen.go:401). -/
def trimSpace (s : Str) : Str := ((s.dropWhile isSpace).reverse.dropWhile isSpace).reverse

/-- `symStr` (/repo/codegen.go:405-424). -/
def symStr (sg : SG) (ix : List (Str × Nat)) : Sym → Str
  | .nt n =>
    if (sg.nt n).ruleName ≠ [] then (sg.nt n).ruleName
    else if labelOf ix n ≠ [] then labelOf ix n
    else str% "nt" ++ itoa n
  | .eps => str% "eps"
  | .term e => sanitizeComment e.str

/-- `slotComment` (/repo/codegen.go:384-403). -/
def slotComment (sg : SG) (ix : List (Str × Nat)) (s : SInfo) : Str :=
  let name := if (sg.nt s.nt).ruleName = [] then labelOf ix s.nt else (sg.nt s.nt).ruleName
  let prod := (sg.alts s.nt).getD s.alt []
  let parts := (prod.take s.dot).map (symStr sg ix) ++ [['.']] ++ (prod.drop s.dot).map (symStr sg ix)
  trimSpace (name ++ str% " ::= " ++ joinWith [' '] parts) ++
    str% "  (" ++ itoa s.nt ++ [','] ++ itoa s.alt ++ [','] ++ itoa s.dot ++ [')']

/-! ## Printed texts are printable -/

/-- A printable ASCII character. -/
def Printable (c : Char) : Prop := 0x20 ≤ c.toNat ∧ c.toNat ≤ 0x7E

instance (c : Char) : Decidable (Printable c) := by unfold Printable; infer_instance

/-- Every character is printable. -/
def Clean (s : Str) : Prop := ∀ c ∈ s, Printable c

instance (s : Str) : Decidable (Clean s) := by unfold Clean; infer_instance

theorem clean_nil : Clean [] := fun _ h => by cases h

theorem clean_append {s t : Str} : Clean (s ++ t) ↔ Clean s ∧ Clean t := by
  simp only [Clean, List.mem_append, or_imp, forall_and]

theorem clean_cons {c : Char} {s : Str} : Clean (c :: s) ↔ Printable c ∧ Clean s := by
  simp only [Clean, List.mem_cons, or_imp, forall_and, forall_eq]

theorem clean_sub {s t : Str} (h : Clean t) (hs : ∀ c ∈ s, c ∈ t) : Clean s := fun c hc => h c (hs c hc)

theorem clean_join {sep : Str} (hs : Clean sep) : ∀ {l : List Str}, (∀ s ∈ l, Clean s) → Clean (joinWith sep l)
  | [], _ => clean_nil
  | [x], h => h x (by simp)
  | x :: y :: r, h => by
    rw [joinWith]
    exact clean_append.mpr ⟨clean_append.mpr ⟨h x (by simp), hs⟩, clean_join hs fun s hs => h s (by simp [hs])⟩

theorem alnum_printable {c : Char} (h : c.isAlphanum = true) : Printable c := by
  simp only [Char.isAlphanum, Char.isAlpha, Char.isUpper, Char.isLower, Char.isDigit, Bool.or_eq_true, Bool.and_eq_true, decide_eq_true_eq] at h
  unfold Printable
  have : c.toNat = c.val.toNat := rfl
  simp only [ge_iff_le, UInt32.le_iff_toNat_le] at h
  simp at h
  omega

theorem itoa_clean (n : Nat) : Clean (itoa n) := by
  intro c hc
  have := Nat.isDigit_of_mem_toDigits (b := 10) (by decide) (by decide) hc
  exact alnum_printable (by simp [Char.isAlphanum, this])

theorem name_clean {n : Str} (h : nameOK n = true) : Clean n := by
  cases n with
  | nil => exact clean_nil
  | cons c s =>
    simp only [nameOK, Bool.and_eq_true, List.all_eq_true] at h
    refine clean_cons.mpr ⟨alnum_printable (by simp [Char.isAlphanum, h.1]), fun d hd => ?_⟩
    have := h.2 d hd
    simp only [nameChar, Bool.or_eq_true, beq_iff_eq] at this
    rcases this with h | rfl
    · exact alnum_printable h
    · decide

theorem prefix_clean (mn : Nat) (mx : Option Nat) : Clean (repPrefix mn mx) := by
  unfold repPrefix
  split_ifs
  · exact clean_nil
  · exact itoa_clean _
  · refine clean_append.mpr ⟨clean_append.mpr ⟨itoa_clean _, by decide⟩, ?_⟩
    cases mx with
    | none => exact clean_nil
    | some m => exact itoa_clean m
  · refine clean_append.mpr ⟨by decide, ?_⟩
    cases mx with
    | none => exact clean_nil
    | some m => exact itoa_clean m

theorem plain_printable {x c : Char} (h : plainChar x c = true) : Printable c := by
  simp only [plainChar, Bool.and_eq_true, decide_eq_true_eq] at h
  exact h.1

mutual
theorem elem_clean : (e : Elem) → e.written = true → Clean e.str
  | .rulename n, h => name_clean h
  | .group a, h => by
    simp only [Elem.written, Bool.and_eq_true] at h
    exact clean_append.mpr ⟨clean_append.mpr ⟨by decide, alt_clean a h.2⟩, by decide⟩
  | .option a, h => by
    simp only [Elem.written, Bool.and_eq_true] at h
    exact clean_append.mpr ⟨clean_append.mpr ⟨by decide, alt_clean a h.2⟩, by decide⟩
  | .charVal b vs, h => by
    simp only [Elem.written, List.all_eq_true] at h
    exact clean_append.mpr ⟨clean_append.mpr ⟨by decide, fun c hc => plain_printable (h c hc)⟩, by decide⟩
  | .numVal b st es, h => by
    simp only [Elem.written, Bool.and_eq_true, List.all_eq_true, Bool.or_eq_true, beq_iff_eq] at h
    refine clean_append.mpr ⟨clean_append.mpr ⟨by decide, ?_⟩, clean_join (by split_ifs <;> decide) fun s hs c hc => alnum_printable ((h.2 s hs).2 c hc)⟩
    rcases h.1.1 with (h | h) | h <;> subst h <;> decide
  | .proseVal vs, h => by
    simp only [Elem.written, List.all_eq_true, Bool.and_eq_true] at h
    refine clean_append.mpr ⟨clean_append.mpr ⟨by decide, fun c hc => ?_⟩, by decide⟩
    obtain ⟨s, hs, hc⟩ := List.mem_flatten.mp hc
    exact plain_printable ((h s hs).2 c hc)
theorem rep_clean : (r : Rep) → r.written = true → Clean r.str
  | ⟨mn, mx, e⟩, h => clean_append.mpr ⟨prefix_clean mn mx, elem_clean e h⟩
theorem concat_clean : (c : List Rep) → concatWritten c = true → Clean (concatStr c)
  | [], _ => clean_nil
  | [r], h => by
    simp only [concatWritten, Bool.and_eq_true] at h
    exact rep_clean r h.1
  | r :: r' :: c, h => by
    rw [concatWritten, Bool.and_eq_true] at h
    exact clean_append.mpr ⟨clean_append.mpr ⟨rep_clean r h.1, by decide⟩, concat_clean (r' :: c) h.2⟩
theorem alt_clean : (a : List (List Rep)) → altWritten a = true → Clean (altStr a)
  | [], _ => clean_nil
  | [c], h => by
    simp only [altWritten, Bool.and_eq_true] at h
    exact concat_clean c h.1.2
  | c :: c' :: a, h => by
    rw [altWritten, Bool.and_eq_true, Bool.and_eq_true] at h
    exact clean_append.mpr ⟨clean_append.mpr ⟨concat_clean c h.1.2, by decide⟩, alt_clean (c' :: a) h.2⟩
end

theorem canon_clean {s : Str} (h : Clean s) : Clean (canon s) := by
  intro c hc
  obtain ⟨d, hd, rfl⟩ := List.mem_map.mp hc
  have := h d hd
  unfold lowerChar
  split_ifs with hu
  · have hU : 65 ≤ d.toNat ∧ d.toNat ≤ 90 := hu
    unfold Printable
    rw [toNat_ofNat_char (by omega)]
    omega
  · exact this

/-! ## Comments are printable -/

theorem reps_written {g : Grammar} (hw : ∀ r ∈ g.rules, r.written = true) {q : Rep} (hq : q ∈ allReps g) : q.written = true := by
  obtain ⟨R, hR, hq⟩ := List.mem_flatMap.mp hq
  have hRw : R.written = true := by
    rcases List.mem_append.mp hR with h | h
    · exact hw R h
    · exact core_written R h
  simp only [Rule.written, Bool.and_eq_true] at hRw
  exact (altReps_written R.alt hRw.2 q hq).1

theorem splitCloser_clean {s : Str} : Clean s → Clean (splitCloser s) := by
  fun_induction splitCloser s with
  | case1 s ih =>
    intro h
    have := clean_cons.mp h
    exact clean_cons.mpr ⟨this.1, clean_cons.mpr ⟨by decide, clean_cons.mpr ⟨by decide, ih (clean_cons.mp this.2).2⟩⟩⟩
  | case2 c s _ ih =>
    intro h
    have := clean_cons.mp h
    exact clean_cons.mpr ⟨this.1, ih this.2⟩
  | case3 => exact id

theorem sanitize_clean {s : Str} (h : Clean s) : Clean (sanitizeComment s) := by
  intro c hc
  obtain ⟨d, hd, rfl⟩ := List.mem_map.mp hc
  split_ifs
  · decide
  · exact splitCloser_clean h d hd

theorem trim_clean {s : Str} (h : Clean s) : Clean (trimSpace s) := by
  intro c hc
  rw [trimSpace, List.mem_reverse] at hc
  exact h c (List.dropWhile_subset _ (List.mem_reverse.mp (List.dropWhile_subset _ hc)))

/-- Every nonterminal has a printable key, a printable rule name and printable terminals. -/
structure CleanSG (sg : SG) (ix : List (Str × Nat)) : Prop where
  key : ∀ p ∈ ix, Clean p.1
  name : ∀ nt ∈ sg.nts, Clean nt.ruleName
  term : ∀ nt ∈ sg.nts, ∀ a ∈ nt.alts, ∀ e, Sym.term e ∈ a → Clean e.str

theorem labelIndex_lowered {g : Grammar} {root : Str} {max : Nat} {sg : SG} (h : compileSlots g root max = .ok sg) :
    Lowered g root sg (labelIndex g root max) ∧ (getRule root g.rules).isSome := by
  unfold compileSlots at h
  split at h
  · simp at h
  rename_i r hr
  split at h
  · simp at h
  rename_i id st hl
  split_ifs at h with ho
  simp only [Except.ok.injEq] at h
  subst h
  obtain ⟨p, q⟩ := lowerRule_spec g root max (lowerFuel g) root _ id st (Or.inl rfl) good_init hl
  have ho' : st.over = false := by simpa using ho
  have hix : labelIndex g root max = st.index := by unfold labelIndex; rw [hl]
  rw [hix]
  obtain ⟨nts, ix, ov⟩ := st
  simp only at ho' ; subst ho'
  exact ⟨⟨p.good, q rfl, fun n hn => p.content rfl n (by simp) hn⟩, by rw [hr]; rfl⟩

theorem rule_clean {g : Grammar} (hw : ∀ r ∈ g.rules, r.written = true) {r : Rule} (h : r ∈ g.rules ++ Core.rules) : Clean r.name := by
  have : r.written = true := by
    rcases List.mem_append.mp h with h | h
    · exact hw r h
    · exact core_written r h
  simp only [Rule.written, Bool.and_eq_true] at this
  exact name_clean this.1.1

/-- Nonterminals that do not come from a rule have no rule name. -/
def Named (st : LowerSt) : Prop := ∀ nt ∈ st.nts, nt.isRule = false → nt.ruleName = []

theorem named_reserve {key : Str} {st st' : LowerSt} {id : Nat} {b : Bool} (h : reserve key st = (id, b, st')) (hs : Named st) :
    Named st' := by
  unfold reserve at h
  split at h
  · cases h; exact hs
  · cases h
    intro nt hnt
    rcases List.mem_append.mp hnt with h | h
    · exact hs nt h
    · cases List.mem_singleton.mp h; exact fun _ => rfl

theorem named_budget {max : Nat} {st : LowerSt} (hs : Named st) : Named (budgetExceeded max st) := by
  unfold budgetExceeded
  split_ifs <;> exact hs

theorem named_set {id : Nat} {x : NT} {st : LowerSt} (hx : x.isRule = false → x.ruleName = []) (hs : Named st) :
    Named (setNT id x st) := by
  intro nt hnt
  rcases List.mem_or_eq_of_mem_set hnt with h | rfl
  · exact hs nt h
  · exact hx

/-- The rule function keeps the rule names in order. -/
def NamedFn (rule : LowerRuleFn) : Prop := ∀ n st id st', rule n st = some (id, st') → Named st → Named st'

mutual
theorem named_alts {rule : LowerRuleFn} (hr : NamedFn rule) (max : Nat) : (a : List (List Rep)) → ∀ {st st' out},
    lowerAlts rule max a st = some (out, st') → Named st → Named st'
  | [], st, st', out, h, hs => by cases h; exact hs
  | c :: a, st, st', out, h, hs => by
    rw [lowerAlts] at h
    split at h
    · cases h
    · rename_i seq st1 h1
      split at h
      · cases h
      · rename_i o2 st2 h2
        cases h
        exact named_alts hr max a h2 (named_concat hr max c h1 hs)
theorem named_concat {rule : LowerRuleFn} (hr : NamedFn rule) (max : Nat) : (c : List Rep) → ∀ {st st' out},
    lowerConcat rule max c st = some (out, st') → Named st → Named st'
  | [], st, st', out, h, hs => by cases h; exact hs
  | r :: c, st, st', out, h, hs => by
    rw [lowerConcat] at h
    split at h
    · cases h
    · rename_i seq st1 h1
      split at h
      · cases h
      · rename_i o2 st2 h2
        cases h
        exact named_concat hr max c h2 (named_rep hr max r h1 hs)
theorem named_rep {rule : LowerRuleFn} (hr : NamedFn rule) (max : Nat) : (r : Rep) → ∀ {st st' out},
    lowerRep rule max r st = some (out, st') → Named st → Named st'
  | ⟨mn, mx, e⟩, st, st', out, h, hs => by
    rw [lowerRep] at h
    by_cases h0 : mn = 1 ∧ mx = some 1
    · rw [if_pos h0] at h
      exact named_elem hr max e h hs
    rw [if_neg h0] at h
    split at h
    · rename_i h1; cases h; exact named_reserve h1 hs
    · rename_i h1
      have h2 := named_budget (max := max) (named_reserve h1 hs)
      simp only at h
      split_ifs at h
      · cases h; exact h2
      · cases h; exact h2
      split at h
      · cases h
      · rename_i o2 st2 h3
        cases h
        exact named_set (fun _ => rfl) (named_elem hr max e h3 h2)
theorem named_elem {rule : LowerRuleFn} (hr : NamedFn rule) (max : Nat) : (e : Elem) → ∀ {st st' out},
    lowerElem rule max e st = some (out, st') → Named st → Named st'
  | .rulename n, st, st', out, h, hs => by
    rw [lowerElem] at h
    split at h
    · cases h
    · rename_i h1; cases h; exact hr _ _ _ _ h1 hs
  | .group a, st, st', out, h, hs => by
    rw [lowerElem] at h
    split at h
    · rename_i h1; cases h; exact named_reserve h1 hs
    · rename_i h1
      have h2 := named_budget (max := max) (named_reserve h1 hs)
      simp only at h
      split_ifs at h
      · cases h; exact h2
      split at h
      · cases h
      · rename_i o2 st2 h3
        cases h
        exact named_set (fun _ => rfl) (named_alts hr max a h3 h2)
  | .option a, st, st', out, h, hs => by
    rw [lowerElem] at h
    split at h
    · rename_i h1; cases h; exact named_reserve h1 hs
    · rename_i h1
      have h2 := named_budget (max := max) (named_reserve h1 hs)
      simp only at h
      split_ifs at h
      · cases h; exact h2
      split at h
      · cases h
      · rename_i o2 st2 h3
        cases h
        exact named_set (fun _ => rfl) (named_alts hr max a h3 h2)
  | .charVal _ _, st, st', out, h, hs => by cases h; exact hs
  | .numVal _ _ _, st, st', out, h, hs => by cases h; exact hs
  | .proseVal _, st, st', out, h, hs => by cases h; exact hs
end

theorem named_rule (g : Grammar) (max : Nat) : ∀ fuel, NamedFn (lowerRule g max fuel)
  | 0, _, _, _, _, h, _ => by cases h
  | fuel + 1, n, st, id, st', h, hs => by
    rw [lowerRule] at h
    split at h
    · rename_i h1; cases h; exact named_reserve h1 hs
    · rename_i h1
      have h2 := named_budget (max := max) (named_reserve h1 hs)
      simp only at h
      split_ifs at h
      · cases h; exact h2
      split at h
      · cases h; exact h2
      split at h
      · cases h
      · rename_i o2 st2 h3
        cases h
        exact named_set (fun h => by cases h) (named_alts (named_rule g max fuel) max _ h3 h2)

theorem compile_named {g : Grammar} {root : Str} {max : Nat} {sg : SG} (h : compileSlots g root max = .ok sg) :
    ∀ nt ∈ sg.nts, nt.isRule = false → nt.ruleName = [] := by
  unfold compileSlots at h
  split at h
  · cases h
  split at h
  · cases h
  rename_i id st hl
  split_ifs at h
  cases h
  exact named_rule g max _ _ _ _ _ hl fun _ h => by cases h

theorem sg_clean {g : Grammar} (hw : ∀ r ∈ g.rules, r.written = true) {root : Str} {max : Nat} {sg : SG}
    (h : compileSlots g root max = .ok sg) : CleanSG sg (labelIndex g root max) := by
  obtain ⟨hl, hroot⟩ := labelIndex_lowered h
  generalize labelIndex g root max = ix at hl
  have hname : ∀ {m : Str} {r : Rule}, getRule m g.rules = some r → Clean r.name := fun h => rule_clean hw (getRule_mem h)
  have hkey : ∀ o : Obj, Occ g root o → Clean o.key := by
    intro o ho
    cases o with
    | rule m =>
      refine clean_append.mpr ⟨by decide, ?_⟩
      rcases ho with rfl | ⟨q, h3, h4⟩
      · obtain ⟨r, hr⟩ := Option.isSome_iff_exists.mp hroot
        rw [canon_of_getRule hr]
        exact canon_clean (hname hr)
      · have := reps_written hw h3
        cases q
        cases h4
        exact canon_clean (name_clean this)
    | rep r => exact clean_append.mpr ⟨by decide, rep_clean r (reps_written hw ho.1)⟩
    | grp a =>
      obtain ⟨q, h3, h4⟩ := ho
      have := reps_written hw h3
      cases q
      cases h4
      exact clean_append.mpr ⟨by decide, elem_clean _ this⟩
    | opt a =>
      obtain ⟨q, h3, h4⟩ := ho
      have := reps_written hw h3
      cases q
      cases h4
      exact clean_append.mpr ⟨by decide, elem_clean _ this⟩
  have hterm : ∀ {s : Sym}, SymFit g sg s → ∀ e, s = .term e → Clean e.str := by
    rintro _ hf e rfl
    obtain ⟨_, q, h3, h4⟩ := hf
    have := reps_written hw h3
    cases q
    cases h4
    exact elem_clean _ this
  have inAlt : ∀ {q : Rep} {a : Alt}, q ∈ allReps g → (q.elem = .group a ∨ q.elem = .option a) → ∀ p ∈ altReps a, p ∈ allReps g := by
    intro q a h1 h2 p hp
    refine allReps_closed h1 ?_
    rcases h2 with h2 | h2 <;> rw [h2] <;> simpa only [elemReps] using hp
  have hnt : ∀ nt ∈ sg.nts, Clean nt.ruleName ∧ ∀ a ∈ nt.alts, ∀ e, Sym.term e ∈ a → Clean e.str := by
    intro nt hnt
    obtain ⟨n, hn, rfl⟩ := List.getElem_of_mem hnt
    obtain ⟨o, nt, ho, _, hnt, hc⟩ := hl.filled n hn
    have e : sg.nts[n] = nt := by
      change sg.nts[n]? = _ at hnt
      rw [List.getElem?_eq_getElem hn] at hnt
      exact Option.some.inj hnt
    rw [e]
    have hno : nt.isRule = false → Clean nt.ruleName := fun h1 => by
      rw [← e] at h1 ⊢
      rw [compile_named h _ (List.getElem_mem hn) h1]
      exact clean_nil
    have one : ∀ {a : List Sym}, (∀ s ∈ a, SymFit g sg s) → ∀ e, Sym.term e ∈ a → Clean e.str :=
      fun h e he => hterm (h _ he) e rfl
    cases o with
    | rule m =>
      obtain ⟨_, h2⟩ := hc
      cases hr : getRule m g.rules with
      | none => rw [hr] at h2; subst h2; exact ⟨clean_nil, by simp⟩
      | some r =>
        rw [hr] at h2
        exact ⟨h2.2.1 ▸ hname hr, fun a ha => one (symAlts_fit hl (fun q h => mem_allReps hr h) h2.2.2 a ha)⟩
    | grp a =>
      obtain ⟨h1, _, h2⟩ := hc
      obtain ⟨q, h3, h4⟩ := ho
      exact ⟨hno h1, fun b hb => one (symAlts_fit hl (inAlt h3 (.inl h4)) h2 b hb)⟩
    | opt a =>
      obtain ⟨h1, _, out, h2, h5⟩ := hc
      obtain ⟨q, h3, h4⟩ := ho
      refine ⟨hno h1, ?_⟩
      rw [h5]
      intro b hb
      rcases List.mem_cons.mp hb with rfl | hb
      · simp
      · exact one (symAlts_fit hl (inAlt h3 (.inr h4)) h2 b hb)
    | rep q =>
      obtain ⟨h0, ⟨m, _, _, rfl⟩ | ⟨_, _, _, _, id, s, _, h6, h7⟩⟩ := hc
      · exact ⟨clean_nil, by simp⟩
      · refine ⟨hno h0, ?_⟩
        rw [h7]
        intro b hb
        simp only [List.mem_cons, List.not_mem_nil, or_false] at hb
        rcases hb with rfl | rfl
        · simp
        · intro e he
          simp only [List.mem_cons, List.not_mem_nil, or_false, reduceCtorEq] at he
          exact hterm (symElem_fit hl ho.1 h6) e he.symm
  refine ⟨fun p hp => ?_, fun nt h => (hnt nt h).1, fun nt h => (hnt nt h).2⟩
  obtain ⟨n, hn, rfl⟩ := List.getElem_of_mem hp
  have hlen : ix.length = sg.nts.length := hl.good.length
  obtain ⟨o, nt, ho, hix, _⟩ := hl.filled n (hlen ▸ hn)
  change ix[n]? = _ at hix
  rw [List.getElem?_eq_getElem hn] at hix
  rw [Option.some.inj hix]
  exact hkey o ho

theorem label_clean {ix : List (Str × Nat)} (h : ∀ p ∈ ix, Clean p.1) (n : Nat) : Clean (labelOf ix n) := by
  unfold labelOf
  split
  · exact clean_nil
  · rename_i key m hk
    exact clean_sub (h _ (List.mem_of_getElem? hk)) fun c hc => List.dropWhile_subset _ (List.drop_subset _ _ hc)

theorem nt_mem {sg : SG} {n : Nat} : sg.nt n ∈ sg.nts ∨ sg.nt n = {} := by
  unfold SG.nt
  rw [List.getD_eq_getElem?_getD]
  cases h : sg.nts[n]? with
  | none => exact .inr rfl
  | some x => exact .inl (List.mem_of_getElem? h)

theorem ruleName_clean {sg : SG} {ix : List (Str × Nat)} (h : CleanSG sg ix) (n : Nat) : Clean (sg.nt n).ruleName := by
  rcases nt_mem (sg := sg) (n := n) with h1 | h1
  · exact h.name _ h1
  · rw [h1]; exact clean_nil

theorem symStr_clean {sg : SG} {ix : List (Str × Nat)} (h : CleanSG sg ix) {s : Sym}
    (hs : ∀ e, s = .term e → Clean e.str) : Clean (symStr sg ix s) := by
  cases s with
  | nt n =>
    rw [symStr]
    split_ifs
    · exact ruleName_clean h n
    · exact label_clean h.key n
    · exact clean_append.mpr ⟨by decide, itoa_clean n⟩
  | eps => rw [symStr]; decide
  | term e => exact sanitize_clean (hs e rfl)

theorem comment_clean {sg : SG} {ix : List (Str × Nat)} (h : CleanSG sg ix) (s : SInfo) : Clean (slotComment sg ix s) := by
  have hprod : ∀ x ∈ (sg.alts s.nt).getD s.alt [], ∀ e, x = Sym.term e → Clean e.str := by
    rintro x hx e rfl
    rw [List.getD_eq_getElem?_getD] at hx
    cases ha : (sg.alts s.nt)[s.alt]? with
    | none => rw [ha] at hx; cases hx
    | some p =>
      rw [ha] at hx
      have hp := List.mem_of_getElem? ha
      unfold SG.alts at hp
      rcases nt_mem (sg := sg) (n := s.nt) with h1 | h1
      · exact h.term _ h1 p hp e hx
      · rw [h1] at hp; cases hp
  unfold slotComment
  simp only [clean_append]
  refine ⟨⟨⟨⟨⟨⟨⟨trim_clean ?_, by decide⟩, itoa_clean _⟩, by decide⟩, itoa_clean _⟩, by decide⟩, itoa_clean _⟩, by decide⟩
  simp only [clean_append]
  refine ⟨⟨?_, by decide⟩, clean_join (by decide) fun t ht => ?_⟩
  · split_ifs
    · exact label_clean h.key _
    · exact ruleName_clean h _
  · rcases List.mem_append.mp ht with ht | ht
    · rcases List.mem_append.mp ht with ht | ht
      · obtain ⟨x, hx, rfl⟩ := List.mem_map.mp ht
        exact symStr_clean h (hprod x (List.mem_of_mem_take hx))
      · cases List.mem_singleton.mp ht; decide
    · obtain ⟨x, hx, rfl⟩ := List.mem_map.mp ht
      exact symStr_clean h (hprod x (List.mem_of_mem_drop hx))

end Cg

namespace Props
open Spec Cg Eval Text

/-- The comments `emitProcess` writes into the file for a rule, one per case (/repo/codegen.go:148-154). -/
def comments (g : Grammar) (root : Str) : List Str :=
  match compileSlots g root defaultMaxSlots with
  | .error _ => []
  | .ok sg => (assignSlots sg).2.map (slotComment sg (labelIndex g root defaultMaxSlots))

theorem comments_clean {g : Grammar} (hw : ∀ r ∈ g.rules, r.written = true) (root : Str) :
    ∀ t ∈ comments g root, ∀ c ∈ t, 0x20 ≤ c.toNat ∧ c.toNat ≤ 0x7E := by
  intro t ht
  unfold comments at ht
  split at ht
  · cases ht
  · rename_i sg h
    obtain ⟨s, _, rfl⟩ := List.mem_map.mp ht
    exact comment_clean (sg_clean hw h) s

/-- **C85.** `GenerateGoParserFromABNF` keeps the text of the grammar inside the comments: every comment it writes is
made of printable ASCII, so no comment can end its line and continue as code. -/
theorem C85_comments (sched : Sched NodeKey) (hf : sched.Fair) (opts : List ABNFOption) (src : Bytes) (root : Str) (g : Grammar)
    (hrc : (processOptions opts).redefineCore = false) (h : parseABNF sched src opts = .ok g) :
    ∀ t ∈ comments g root, ∀ c ∈ t, 0x20 ≤ c.toNat ∧ c.toNat ≤ 0x7E :=
  comments_clean (C80_wellformed sched hf opts src g hrc h).1 root

/-- C85 for the source `a = "x" / 2*3%x41-5A`: its comments, which meet the claim, are not empty. -/
example (sched : Sched NodeKey) (hf : sched.Fair) : parseABNF sched (utf8 srcText) [] = .ok srcGrammar ∧
    (comments srcGrammar (str% "a")).take 3 =
      [str% "a ::= . \"x\"  (0,0,0)", str% "a ::= \"x\" .  (0,0,1)", str% "a ::= . 2*3%x41-5A  (0,1,0)"] :=
  ⟨src_parses sched hf, by decide +kernel⟩

/-- **C85.** The file has one comment for each case, and that of the case of a slot tells its name, its production with the dot and its
three numbers. -/
theorem C85_cases (g : Grammar) (root : Str) (sg : SG) (h : compileSlots g root defaultMaxSlots = .ok sg) :
    (comments g root).length = (emit sg root).cases.length ∧
    ∀ L, IsSlot sg L → ∃ name before after, (comments g root)[enc sg L]? =
        some (trimSpace (name ++ str% " ::= " ++ joinWith [' '] (before ++ [['.']] ++ after)) ++
          str% "  (" ++ itoa L.nt ++ [','] ++ itoa L.alt ++ [','] ++ itoa L.dot ++ [')']) ∧
      before.length = L.dot ∧ before.length + after.length = (sg.prod L).length := by
  have e : comments g root = (assignSlots sg).2.map (slotComment sg (labelIndex g root defaultMaxSlots)) := by
    unfold comments
    rw [h]
  refine ⟨by rw [e, List.length_map, cases_length], fun L hL => ?_⟩
  rw [e, List.getElem?_map, slots_enc hL]
  refine ⟨_, _, _, rfl, ?_, ?_⟩
  · have := hL.2.2
    simp only [List.length_map, List.length_take]
    exact Nat.min_eq_left this
  · rw [List.length_map, List.length_map, ← List.length_append, List.take_append_drop]
    rfl

example : ∃ sg, compileSlots srcGrammar (str% "a") defaultMaxSlots = .ok sg ∧ IsSlot sg ⟨0, 1, 1⟩ := by
  have h : (match compileSlots srcGrammar (str% "a") defaultMaxSlots with
      | .ok sg => decide (0 < sg.nts.length ∧ 1 < (sg.alts 0).length ∧ 1 ≤ (sg.prod ⟨0, 1, 1⟩).length)
      | .error _ => false) = true := by decide +kernel
  split at h
  · rename_i sg e
    have h := of_decide_eq_true h
    exact ⟨sg, e, h⟩
  · cases h

/-- The grammar `a = ("?")`, `?` standing for a line feed. -/
def breakG : Grammar := ⟨[⟨str% "a", [[.mk 1 (some 1) (.group [[.mk 1 (some 1) (.charVal false ['\n'])]])]]⟩]⟩

/-- C85 does not extend to grammars built by other means: only terminals are sanitised, not the label of a group, option
or repetition, so the text of a terminal inside one can leave its comment. -/
theorem C85_comments_fails : ∃ t ∈ comments breakG (str% "a"), '\n' ∈ t := by
  refine ⟨(comments breakG (str% "a")).headD [], ?_, ?_⟩ <;> decide +kernel

end Props
end Verif
