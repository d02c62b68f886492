import Verif.Part
import Verif.Reopen
import Verif.PropsGen
import Verif.PropsRegex
import Verif.PropsTg
import Verif.PropsCodegen

/-!
# C127: only the rules a rule uses matter

Two grammars in which a rule uses the same rules give the same forests, parsers, patterns and random texts for it, whatever else
they define.  `TransitionGraph` is the exception: it validates the whole grammar (/repo/transition_graph.go:68-72).
-/

set_option linter.unusedSectionVars false

namespace Verif
open Spec Props

namespace Spec

/-- The rule called `name` is the same in both grammars, and so are the rules it refers to, directly or through others. -/
def SameRules (g g' : Grammar) (name : Str) : Prop :=
  (∀ r, Resolves g name r ↔ Resolves g' name r) ∧
  ∀ r, UsesRule g name r → ∀ q ∈ altReps r.alt, ∀ n, q.elem = .rulename n → ∀ r', Resolves g n r' ↔ Resolves g' n r'

end Spec

/-- The names in the repetitions are such. -/
def NamesIn (P : Str → Prop) (qs : List Rep) : Prop := ∀ q ∈ qs, ∀ n, q.elem = .rulename n → P n

theorem namesIn_cons {P : Str → Prop} {r : Rep} {c : List Rep} (h : NamesIn P (concatReps (r :: c))) :
    NamesIn P (repReps r) ∧ NamesIn P (concatReps c) := by
  rw [concatReps] at h
  exact ⟨fun q hq => h q (List.mem_append_left _ hq), fun q hq => h q (List.mem_append_right _ hq)⟩

theorem namesIn_alt {P : Str → Prop} {c : List Rep} {a : List (List Rep)} (h : NamesIn P (altReps (c :: a))) :
    NamesIn P (concatReps c) ∧ NamesIn P (altReps a) := by
  rw [altReps] at h
  exact ⟨fun q hq => h q (List.mem_append_left _ hq), fun q hq => h q (List.mem_append_right _ hq)⟩

/-- The names in an element are such. -/
def ElemIn (P : Str → Prop) (e : Elem) : Prop := (∀ n, e = .rulename n → P n) ∧ NamesIn P (elemReps e)

theorem namesIn_rep {P : Str → Prop} {mn : Nat} {mx : Option Nat} {e : Elem} (h : NamesIn P (repReps ⟨mn, mx, e⟩)) : ElemIn P e := by
  rw [repReps] at h
  exact ⟨h _ (List.mem_cons_self ..), fun q hq => h q (List.mem_cons_of_mem _ hq)⟩

theorem elemIn_group {P : Str → Prop} {a : Alt} (h : ElemIn P (.group a)) : NamesIn P (altReps a) := by
  have := h.2; rw [elemReps] at this; exact this

theorem elemIn_option {P : Str → Prop} {a : Alt} (h : ElemIn P (.option a)) : NamesIn P (altReps a) := by
  have := h.2; rw [elemReps] at this; exact this

/-! ## The names in use -/

section
variable {g g' : Grammar} {name : Str}

/-- Both grammars find the same rule under the name, and it is used. -/
def Shared (g g' : Grammar) (name : Str) (n : Str) : Prop :=
  getRule n g.rules = getRule n g'.rules ∧ ∀ r, getRule n g.rules = some r → UsesRule g name r

theorem same_getRule (hd : NamesDistinct g) (hd' : NamesDistinct g') {n : Str} (h : ∀ r, Resolves g n r ↔ Resolves g' n r) :
    getRule n g.rules = getRule n g'.rules := by
  cases h1 : getRule n g.rules with
  | some r => exact ((getRule_iff hd').mpr ((h r).mp ((getRule_iff hd).mp h1))).symm
  | none =>
    cases h2 : getRule n g'.rules with
    | none => rfl
    | some r =>
      rw [(getRule_iff hd).mpr ((h r).mpr ((getRule_iff hd').mp h2))] at h1
      cases h1

theorem shared_root (hd : NamesDistinct g) (hd' : NamesDistinct g') (h : SameRules g g' name) : Shared g g' name name :=
  ⟨same_getRule hd hd' h.1, fun r hr => ⟨r, (getRule_iff hd).mp hr, .refl⟩⟩

theorem shared_alt (hd : NamesDistinct g) (hd' : NamesDistinct g') (h : SameRules g g' name) {r : Rule} (hr : UsesRule g name r) :
    NamesIn (Shared g g' name) (altReps r.alt) := fun q hq n hn =>
  ⟨same_getRule hd hd' (h.2 r hr q hq n hn), fun _ hr' => uses_step hr ⟨q, hq, n, hn, (getRule_iff hd).mp hr'⟩⟩

theorem sameRules_reach (h : SameRules g g' name) {r0 r : Rule} (h0 : Resolves g name r0) (hr : Relation.ReflTransGen (Refers g) r0 r) :
    Relation.ReflTransGen (Refers g') r0 r := by
  induction hr with
  | refl => exact .refl
  | tail h1 h2 ih =>
    obtain ⟨q, hq, n, hn, hres⟩ := h2
    exact ih.tail ⟨q, hq, n, hn, (h.2 _ ⟨r0, h0, h1⟩ q hq n hn _).mp hres⟩

theorem sameRules_back (h : SameRules g g' name) {r0 r : Rule} (h0 : Resolves g name r0) (hr : Relation.ReflTransGen (Refers g') r0 r) :
    Relation.ReflTransGen (Refers g) r0 r := by
  induction hr with
  | refl => exact .refl
  | tail h1 h2 ih =>
    obtain ⟨q, hq, n, hn, hres⟩ := h2
    exact ih.tail ⟨q, hq, n, hn, (h.2 _ ⟨r0, h0, ih⟩ q hq n hn _).mpr hres⟩

theorem sameRules_uses (h : SameRules g g' name) {r : Rule} : UsesRule g name r ↔ UsesRule g' name r :=
  ⟨fun ⟨r0, h0, h1⟩ => ⟨r0, (h.1 r0).mp h0, sameRules_reach h h0 h1⟩,
   fun ⟨r0, h0, h1⟩ => ⟨r0, (h.1 r0).mpr h0, sameRules_back h ((h.1 r0).mpr h0) h1⟩⟩

theorem sameRules_symm (h : SameRules g g' name) : SameRules g' g name :=
  ⟨fun r => (h.1 r).symm, fun r hr q hq n hn _ => (h.2 r ((sameRules_uses h).mpr hr) q hq n hn _).symm⟩

end

/-! ## Lowering -/

mutual
theorem lowerAlts_in {P : Str → Prop} {f f' : LowerRuleFn} {max : Nat} (hf : ∀ n, P n → ∀ st x, f n st = some x → f' n st = some x) : ∀ (a : List (List Rep)) (_ : NamesIn P (altReps a)) {st : LowerSt} {x},
    lowerAlts f max a st = some x → lowerAlts f' max a st = some x
  | [], _, st, x, h => by rw [lowerAlts] at h ⊢; exact h
  | c :: a, hn, st, x, h => by
    rw [lowerAlts] at h ⊢
    cases h1 : lowerConcat f max c st with
    | none => rw [h1] at h; cases h
    | some y =>
      rw [h1] at h
      rw [lowerConcat_in hf c (namesIn_alt hn).1 h1]
      simp only at h ⊢
      cases h2 : lowerAlts f max a y.2 with
      | none => rw [h2] at h; cases h
      | some z =>
        rw [h2] at h
        rw [lowerAlts_in hf a (namesIn_alt hn).2 h2]
        exact h
theorem lowerConcat_in {P : Str → Prop} {f f' : LowerRuleFn} {max : Nat} (hf : ∀ n, P n → ∀ st x, f n st = some x → f' n st = some x) : ∀ (c : List Rep) (_ : NamesIn P (concatReps c)) {st : LowerSt} {x},
    lowerConcat f max c st = some x → lowerConcat f' max c st = some x
  | [], _, st, x, h => by rw [lowerConcat] at h ⊢; exact h
  | r :: c, hn, st, x, h => by
    rw [lowerConcat] at h ⊢
    cases h1 : lowerRep f max r st with
    | none => rw [h1] at h; cases h
    | some y =>
      rw [h1] at h
      rw [lowerRep_in hf r (namesIn_cons hn).1 h1]
      simp only at h ⊢
      cases h2 : lowerConcat f max c y.2 with
      | none => rw [h2] at h; cases h
      | some z =>
        rw [h2] at h
        rw [lowerConcat_in hf c (namesIn_cons hn).2 h2]
        exact h
theorem lowerRep_in {P : Str → Prop} {f f' : LowerRuleFn} {max : Nat} (hf : ∀ n, P n → ∀ st x, f n st = some x → f' n st = some x) : ∀ (r : Rep) (_ : NamesIn P (repReps r)) {st : LowerSt} {x},
    lowerRep f max r st = some x → lowerRep f' max r st = some x
  | ⟨mn, mx, e⟩, hn, st, x, h => by
    rw [lowerRep] at h ⊢
    by_cases h0 : mn = 1 ∧ mx = some 1
    · rw [if_pos h0] at h ⊢
      exact lowerElem_in hf e (namesIn_rep hn) h
    · rw [if_neg h0] at h ⊢
      cases hr : reserve (repKey ⟨mn, mx, e⟩) st with
      | mk id q =>
        obtain ⟨b, s⟩ := q
        rw [hr] at h
        cases b with
        | true => exact h
        | false =>
          simp only at h ⊢
          split_ifs at h ⊢
          · exact h
          · exact h
          · cases h1 : lowerElem f max e (budgetExceeded max s) with
            | none => rw [h1] at h; cases h
            | some y =>
              rw [h1] at h
              rw [lowerElem_in hf e (namesIn_rep hn) h1]
              exact h
theorem lowerElem_in {P : Str → Prop} {f f' : LowerRuleFn} {max : Nat} (hf : ∀ n, P n → ∀ st x, f n st = some x → f' n st = some x) : ∀ (e : Elem) (_ : ElemIn P e) {st : LowerSt} {x},
    lowerElem f max e st = some x → lowerElem f' max e st = some x
  | .rulename n, hn, st, x, h => by
    rw [lowerElem] at h ⊢
    cases h1 : f n st with
    | none => rw [h1] at h; cases h
    | some y =>
      rw [h1] at h
      rw [hf n (hn.1 n rfl) st y h1]
      exact h
  | .group a, hn, st, x, h => by
    rw [lowerElem] at h ⊢
    cases hr : reserve (grpKey a) st with
    | mk id q =>
      obtain ⟨b, s⟩ := q
      rw [hr] at h
      cases b with
      | true => exact h
      | false =>
        simp only at h ⊢
        split_ifs at h ⊢
        · exact h
        · cases h1 : lowerAlts f max a (budgetExceeded max s) with
          | none => rw [h1] at h; cases h
          | some y =>
            rw [h1] at h
            rw [lowerAlts_in hf a (elemIn_group hn) h1]
            exact h
  | .option a, hn, st, x, h => by
    rw [lowerElem] at h ⊢
    cases hr : reserve (optKey a) st with
    | mk id q =>
      obtain ⟨b, s⟩ := q
      rw [hr] at h
      cases b with
      | true => exact h
      | false =>
        simp only at h ⊢
        split_ifs at h ⊢
        · exact h
        · cases h1 : lowerAlts f max a (budgetExceeded max s) with
          | none => rw [h1] at h; cases h
          | some y =>
            rw [h1] at h
            rw [lowerAlts_in hf a (elemIn_option hn) h1]
            exact h
  | .charVal _ _, _, st, x, h => by simpa [lowerElem] using h
  | .numVal _ _ _, _, st, x, h => by simpa [lowerElem] using h
  | .proseVal _, _, st, x, h => by simpa [lowerElem] using h
end

theorem lowerRule_local {g g' : Grammar} {name : Str} (hd : NamesDistinct g) (hd' : NamesDistinct g') (hs : SameRules g g' name) {max : Nat} :
    ∀ {k k' : Nat}, k ≤ k' → ∀ n, Shared g g' name n → ∀ st x, lowerRule g max k n st = some x → lowerRule g' max k' n st = some x
  | 0, _, _ => fun n _ st x h => by cases h
  | k + 1, 0, hk => by omega
  | k + 1, k' + 1, hk => by
    intro n hn st x h
    rw [lowerRule] at h ⊢
    cases hr : reserve (ruleKey n) st with
    | mk id q =>
      obtain ⟨b, s⟩ := q
      rw [hr] at h
      cases b with
      | true => exact h
      | false =>
        simp only at h ⊢
        split_ifs at h ⊢
        · exact h
        · rw [← hn.1]
          cases hg : getRule n g.rules with
          | none => rw [hg] at h; exact h
          | some r =>
            rw [hg] at h
            simp only at h ⊢
            cases h1 : lowerAlts (lowerRule g max k) max r.alt (budgetExceeded max s) with
            | none => rw [h1] at h; cases h
            | some y =>
              rw [h1] at h
              rw [lowerAlts_in (lowerRule_local hd hd' hs (by omega)) r.alt (shared_alt hd hd' hs (hn.2 r hg)) h1]
              exact h

theorem compile_local {g g' : Grammar} {name : Str} (hd : NamesDistinct g) (hd' : NamesDistinct g') (hs : SameRules g g' name) (max : Nat) :
    compileSlots g name max = compileSlots g' name max := by
  have key : ∀ {g g' : Grammar}, NamesDistinct g → NamesDistinct g' → SameRules g g' name → lowerFuel g ≤ lowerFuel g' →
      compileSlots g name max = compileSlots g' name max := by
    intro g g' hd hd' hs hl
    have hsh := shared_root hd hd' hs
    unfold compileSlots
    rw [← hsh.1]
    cases getRule name g.rules with
    | none => rfl
    | some r =>
      simp only
      cases h : lowerRule g max (lowerFuel g) name ⟨[], [], false⟩ with
      | none => exact absurd h (lower_terminates g name max _ good_init)
      | some x => rw [lowerRule_local hd hd' hs hl _ hsh _ _ h]
  rcases le_total (lowerFuel g) (lowerFuel g') with h | h
  · exact key hd hd' hs h
  · exact (key hd' hd (sameRules_symm hs) h).symm

/-! ## Patterns -/

section
variable {P : Str → Prop} {f f' : Str → ReSt → Option (Re × ReSt)} (hf : ∀ n, P n → ∀ st x, f n st = some x → f' n st = some x)
include hf

mutual
theorem reElem_in : ∀ (e : Elem) (_ : ElemIn P e) {st : ReSt} {x : Re × ReSt}, reElem f e st = some x → reElem f' e st = some x
  | .rulename n, hn, st, x, h => by
    rw [reElem] at h ⊢
    exact hf n (hn.1 n rfl) st x h
  | .group a, hn, st, x, h => by
    rw [reElem] at h ⊢
    cases h1 : reAlts f a st with
    | none => rw [h1] at h; cases h
    | some y => rw [reAlts_in a (elemIn_group hn) h1, ← h1]; exact h
  | .option a, hn, st, x, h => by
    rw [reElem] at h ⊢
    cases h1 : reAlts f a st with
    | none => rw [h1] at h; cases h
    | some y => rw [reAlts_in a (elemIn_option hn) h1, ← h1]; exact h
  | .numVal base .range es, _, st, x, h => by rw [reElem] at h ⊢; exact h
  | .numVal base .series es, _, st, x, h => by rw [reElem] at h ⊢; exact h
  | .charVal b vs, _, st, x, h => by rw [reElem] at h ⊢; exact h
  | .proseVal s, _, st, x, h => by rw [reElem] at h ⊢; exact h
theorem reAlts_in : ∀ (a : List (List Rep)) (_ : NamesIn P (altReps a)) {st : ReSt} {x : List Re × ReSt}, reAlts f a st = some x → reAlts f' a st = some x
  | [], _, st, x, h => by rw [reAlts] at h ⊢; exact h
  | c :: a, hn, st, x, h => by
    rw [reAlts] at h ⊢
    cases h1 : reParts f c st with
    | none => rw [h1] at h; cases h
    | some y =>
      rw [h1] at h
      rw [reParts_in c (namesIn_alt hn).1 h1]
      obtain ⟨ps, s1⟩ := y
      simp only [Option.bind_some] at h ⊢
      cases h2 : reAlts f a s1 with
      | none => rw [h2] at h; cases h
      | some z => rw [reAlts_in a (namesIn_alt hn).2 h2, ← h2]; exact h
theorem reParts_in : ∀ (c : List Rep) (_ : NamesIn P (concatReps c)) {st : ReSt} {x : List Re × ReSt}, reParts f c st = some x → reParts f' c st = some x
  | [], _, st, x, h => by rw [reParts] at h ⊢; exact h
  | ⟨mn, mx, e⟩ :: c, hn, st, x, h => by
    rw [reParts] at h ⊢
    cases h1 : reElem f e st with
    | none => rw [h1] at h; cases h
    | some y =>
      rw [h1] at h
      rw [reElem_in e (namesIn_rep (namesIn_cons hn).1) h1]
      obtain ⟨ps, s1⟩ := y
      simp only [Option.bind_some] at h ⊢
      cases h2 : reParts f c s1 with
      | none => rw [h2] at h; cases h
      | some z => rw [reParts_in c (namesIn_cons hn).2 h2, ← h2]; exact h
end

end

theorem reRule_local {g g' : Grammar} {name : Str} (hd : NamesDistinct g) (hd' : NamesDistinct g') (hs : SameRules g g' name) :
    ∀ {k k' : Nat}, k ≤ k' → ∀ n, Shared g g' name n → ∀ st x, reRule g k n st = some x → reRule g' k' n st = some x
  | 0, _, _ => fun n _ st x h => by cases h
  | k + 1, 0, hk => by omega
  | k + 1, k' + 1, hk => by
    intro n hn st x h
    rw [reRule] at h ⊢
    cases hm : st.memo.lookup (canon n) with
    | some r => rw [hm] at h; exact h
    | none =>
      rw [hm] at h
      simp only at h ⊢
      rw [← hn.1]
      cases hg : getRule n g.rules with
      | none => rw [hg] at h; exact h
      | some r =>
        rw [hg] at h
        simp only at h ⊢
        cases h1 : reAlts (reRule g k) r.alt st with
        | none => rw [h1] at h; cases h
        | some y =>
          rw [reAlts_in (reRule_local hd hd' hs (by omega)) r.alt (shared_alt hd hd' hs (hn.2 r hg)) h1, ← h1]
          exact h

/-! ## Generating -/

section
variable {P : Str → Prop} {rnd : Nat → Nat} {o : GenOpts} {f f' : Str → GenSt → Run GenSt} (hf : ∀ n, P n → ∀ st, f n st = f' n st)
include hf

mutual
theorem genPick_in : ∀ (a : List (List Rep)) (_ : NamesIn P (altReps a)) (k : Nat) (st : GenSt), genPick rnd o f a k st = genPick rnd o f' a k st
  | [], _, _, _ => by rw [genPick, genPick]
  | c :: _, hn, 0, st => by rw [genPick, genPick, genReps_in c (namesIn_alt hn).1 st]
  | _ :: a, hn, k + 1, st => by rw [genPick, genPick, genPick_in a (namesIn_alt hn).2 k st]
theorem genReps_in : ∀ (c : List Rep) (_ : NamesIn P (concatReps c)) (st : GenSt), genReps rnd o f c st = genReps rnd o f' c st
  | [], _, _ => by rw [genReps, genReps]
  | ⟨mn, mx, e⟩ :: c, hn, st => by
    rw [genReps, genReps, funext (genElem_in e (namesIn_rep (namesIn_cons hn).1)), funext (genReps_in c (namesIn_cons hn).2)]
theorem genElem_in : ∀ (e : Elem) (_ : ElemIn P e) (st : GenSt), genElem rnd o f e st = genElem rnd o f' e st
  | .rulename n, hn, st => by rw [genElem, genElem]; exact hf n (hn.1 n rfl) st
  | .option a, hn, st => by rw [genElem, genElem, genPick_in a (elemIn_option hn)]
  | .group a, hn, st => by rw [genElem, genElem, genPick_in a (elemIn_group hn)]
  | .numVal base .range es, _, st => by rw [genElem, genElem]
  | .numVal base .series es, _, st => by rw [genElem, genElem]
  | .charVal b vs, _, st => by rw [genElem, genElem]
  | .proseVal s, _, st => by rw [genElem, genElem]
end

end

theorem genRule_local {g g' : Grammar} {name : Str} (hd : NamesDistinct g) (hd' : NamesDistinct g') (hs : SameRules g g' name) (rnd : Nat → Nat)
    (o : GenOpts) : ∀ (k : Nat) n, Shared g g' name n → ∀ st, genRule rnd o g k n st = genRule rnd o g' k n st
  | 0 => fun n _ st => rfl
  | k + 1 => by
    intro n hn st
    rw [genRule, genRule, ← hn.1]
    cases hg : getRule n g.rules with
    | none => rfl
    | some r =>
      exact genPick_in (genRule_local hd hd' hs rnd o k) r.alt (shared_alt hd hd' hs (hn.2 r hg)) _ _

section
variable {P : Str → Prop} {f f' : List Str → Str → Run Bool} (hf : ∀ n, P n → ∀ known, f known n ≠ .fuel → f' known n = f known n)
include hf

mutual
theorem checkConcats_in : ∀ (a : List (List Rep)) (_ : NamesIn P (altReps a)) (known : List Str), checkGenConcats f known a ≠ .fuel →
    checkGenConcats f' known a = checkGenConcats f known a
  | [], _, known, _ => by rw [checkGenConcats, checkGenConcats]
  | c :: a, hn, known, h => by
    rw [checkGenConcats] at h
    rw [checkGenConcats, checkGenConcats]
    have h1 : checkGenConcat f known c ≠ .fuel := fun h1 => h (by rw [h1]; rfl)
    rw [checkConcat_in c (namesIn_alt hn).1 known h1]
    cases h2 : checkGenConcat f known c with
    | fuel => exact absurd h2 h1
    | panic => rfl
    | ok b =>
      rw [h2] at h
      rw [checkConcats_in a (namesIn_alt hn).2 known fun h3 => h (by rw [h3]; rfl)]
theorem checkConcat_in : ∀ (c : List Rep) (_ : NamesIn P (concatReps c)) (known : List Str), checkGenConcat f known c ≠ .fuel →
    checkGenConcat f' known c = checkGenConcat f known c
  | [], _, known, _ => by rw [checkGenConcat, checkGenConcat]
  | ⟨mn, mx, e⟩ :: c, hn, known, h => by
    rw [checkGenConcat] at h
    rw [checkGenConcat, checkGenConcat]
    by_cases hm : mn = 0
    · rw [if_pos hm] at h
      rw [if_pos hm, if_pos hm]
      exact checkConcat_in c (namesIn_cons hn).2 known h
    · rw [if_neg hm] at h
      rw [if_neg hm, if_neg hm]
      have h1 : checkGenElem f known e ≠ .fuel := fun h1 => h (by rw [h1]; rfl)
      rw [checkElem_in e (namesIn_rep (namesIn_cons hn).1) known h1]
      cases h2 : checkGenElem f known e with
      | fuel => exact absurd h2 h1
      | panic => rfl
      | ok b =>
        rw [h2] at h
        cases b with
        | true => rfl
        | false =>
          simp only [Run.bnd, Bool.false_eq_true, if_false] at h ⊢
          exact checkConcat_in c (namesIn_cons hn).2 known h
theorem checkElem_in : ∀ (e : Elem) (_ : ElemIn P e) (known : List Str), checkGenElem f known e ≠ .fuel →
    checkGenElem f' known e = checkGenElem f known e
  | .rulename n, hn, known, h => by
    rw [checkGenElem] at h
    rw [checkGenElem, checkGenElem]
    exact hf n (hn.1 n rfl) known h
  | .group a, hn, known, h => by
    rw [checkGenElem] at h
    rw [checkGenElem, checkGenElem, checkConcats_in a (elemIn_group hn) known fun h1 => h (by rw [h1]; rfl)]
  | .option a, _, known, _ => by simp only [checkGenElem]
  | .numVal base t es, _, known, _ => by simp only [checkGenElem]
  | .charVal b vs, _, known, _ => by simp only [checkGenElem]
  | .proseVal s, _, known, _ => by simp only [checkGenElem]
end

end

theorem checkRule_local {g g' : Grammar} {name : Str} (hd : NamesDistinct g) (hd' : NamesDistinct g') (hs : SameRules g g' name) :
    ∀ {k k' : Nat}, k ≤ k' → ∀ n, Shared g g' name n → ∀ known, checkGenRule g k known n ≠ .fuel → checkGenRule g' k' known n = checkGenRule g k known n
  | 0, _, _ => fun n _ known h => absurd rfl h
  | k + 1, 0, hk => by omega
  | k + 1, k' + 1, hk => by
    intro n hn known h
    rw [checkGenRule] at h
    rw [checkGenRule, checkGenRule]
    split_ifs at h ⊢
    · rfl
    · rw [← hn.1]
      cases hg : getRule n g.rules with
      | none => rfl
      | some r =>
        rw [hg] at h
        simp only [checkGenAlt] at h ⊢
        rw [checkConcats_in (checkRule_local hd hd' hs (k := k) (k' := k') (by omega)) r.alt (shared_alt hd hd' hs (hn.2 r hg)) (n :: known)
          fun h1 => h (by rw [h1]; rfl)]

theorem check_local {g g' : Grammar} {name : Str} (hd : NamesDistinct g) (hd' : NamesDistinct g') (hs : SameRules g g' name)
    (hc : ∀ r, Resolves g name r → ClosedReach g r) (hc' : ∀ r, Resolves g' name r → ClosedReach g' r) :
    checkCanGenerateSafely g name = checkCanGenerateSafely g' name := by
  have key : ∀ {g g' : Grammar}, NamesDistinct g → NamesDistinct g' → SameRules g g' name → (∀ r, Resolves g name r → ClosedReach g r) →
      g.rules.length ≤ g'.rules.length → checkCanGenerateSafely g' name = checkCanGenerateSafely g name := by
    intro g g' hd hd' hs hc hl
    have hsh := shared_root hd hd' hs
    cases hg : getRule name g.rules with
    | none => rw [checkCanGenerateSafely, checkCanGenerateSafely, ← hsh.1, hg]
    | some r =>
      have hok : checkCanGenerateSafely g name ≠ .fuel := by
        rcases check_sat hd ((getRule_iff hd).mp hg) (hc r ((getRule_iff hd).mp hg)) with h | h <;> rw [h.1] <;> simp
      rw [checkCanGenerateSafely, hg] at hok
      rw [checkCanGenerateSafely, checkCanGenerateSafely, ← hsh.1, hg]
      simp only [checkGenAlt] at hok ⊢
      rw [checkConcats_in (checkRule_local hd hd' hs (k := g.rules.length + Core.rules.length + 1) (by omega)) r.alt (shared_alt hd hd' hs (hsh.2 r hg)) [name]
        fun h1 => hok (by rw [h1]; rfl)]
  rcases le_total g.rules.length g'.rules.length with h | h
  · exact (key hd hd' hs hc h).symm
  · exact key hd' hd (sameRules_symm hs) hc' h

/-! ## Transition graphs -/

theorem tgBind_in {α β : Type} {x x' : TgOut α} {f f' : α → TgOut β} (h : tgBind x f ≠ .fuel) (hx : x ≠ .fuel → x' = x)
    (hf : ∀ a, f a ≠ .fuel → f' a = f a) : tgBind x' f' = tgBind x f := by
  have h1 : x ≠ .fuel := fun h1 => h (by rw [h1]; rfl)
  rw [hx h1]
  cases x with
  | fuel => exact absurd rfl h1
  | panic => rfl
  | ok r =>
    cases r with
    | error e => rfl
    | ok a => exact hf a h

section
variable {P : Str → Prop} {o : TgOpts} {f f' : Str → TgSt → TgOut (TgFrag × TgSt)}
  (hf : o.rules = true → ∀ n, P n → ∀ st, f n st ≠ .fuel → f' n st = f n st)
include hf

mutual
theorem altGraph_in : ∀ (a : List (List Rep)) (_ : NamesIn P (altReps a)) (acc : TgFrag) (st : TgSt), altGraph o f a acc st ≠ .fuel →
    altGraph o f' a acc st = altGraph o f a acc st
  | [], _, acc, st, _ => by rw [altGraph, altGraph]
  | c :: a, hn, acc, st, h => by
    rw [altGraph] at h
    rw [altGraph, altGraph]
    exact tgBind_in h (concatGraph_in c (namesIn_alt hn).1 st) fun x hx => altGraph_in a (namesIn_alt hn).2 _ _ hx
theorem concatGraph_in : ∀ (c : List Rep) (_ : NamesIn P (concatReps c)) (st : TgSt), concatGraph o f c st ≠ .fuel →
    concatGraph o f' c st = concatGraph o f c st
  | [], _, st, _ => by rw [concatGraph, concatGraph]
  | ⟨mn, mx, e⟩ :: c, hn, st, h => by
    rw [concatGraph] at h
    rw [concatGraph, concatGraph]
    exact tgBind_in h (elemGraph_in e (namesIn_rep (namesIn_cons hn).1) st) fun x hx => tgBind_in hx (fun _ => rfl)
      fun y hy => concatRest_in c (namesIn_cons hn).2 _ _ hy
theorem concatRest_in : ∀ (c : List Rep) (_ : NamesIn P (concatReps c)) (acc : TgFrag) (st : TgSt), concatRest o f c acc st ≠ .fuel →
    concatRest o f' c acc st = concatRest o f c acc st
  | [], _, acc, st, _ => by rw [concatRest, concatRest]
  | ⟨mn, mx, e⟩ :: c, hn, acc, st, h => by
    rw [concatRest] at h
    rw [concatRest, concatRest]
    exact tgBind_in h (elemGraph_in e (namesIn_rep (namesIn_cons hn).1) st) fun x hx => tgBind_in hx (fun _ => rfl)
      fun y hy => concatRest_in c (namesIn_cons hn).2 _ _ hy
theorem elemGraph_in : ∀ (e : Elem) (_ : ElemIn P e) (st : TgSt), elemGraph o f e st ≠ .fuel → elemGraph o f' e st = elemGraph o f e st
  | .rulename n, hn, st, h => by
    rw [elemGraph] at h
    rw [elemGraph, elemGraph]
    cases hr : o.rules with
    | true =>
      simp only [hr, if_true] at h ⊢
      exact hf hr n (hn.1 n rfl) st h
    | false => rfl
  | .option a, hn, st, h => by
    rw [elemGraph] at h
    rw [elemGraph, elemGraph]
    exact tgBind_in h (altGraph_in a (elemIn_option hn) _ _) fun _ _ => rfl
  | .group a, hn, st, h => by
    rw [elemGraph] at h
    rw [elemGraph, elemGraph]
    exact altGraph_in a (elemIn_group hn) _ _ h
  | .numVal base .range es, _, st, _ => by rw [elemGraph, elemGraph]
  | .numVal base .series es, _, st, _ => by rw [elemGraph, elemGraph]
  | .charVal b vs, _, st, _ => by rw [elemGraph, elemGraph]
  | .proseVal s, _, st, _ => by rw [elemGraph, elemGraph]
end

end

theorem ruleGraph_local {g g' : Grammar} {name : Str} (hd : NamesDistinct g) (hd' : NamesDistinct g') (hs : SameRules g g' name) (o : TgOpts) :
    ∀ {k k' : Nat}, k ≤ k' → ∀ n, Shared g g' name n → ∀ st, ruleGraph o g k n st ≠ .fuel → ruleGraph o g' k' n st = ruleGraph o g k n st
  | 0, _, _ => fun n _ st h => absurd rfl h
  | k + 1, 0, hk => by omega
  | k + 1, k' + 1, hk => by
    intro n hn st h
    rw [ruleGraph] at h
    rw [ruleGraph, ruleGraph]
    cases hm : st.buf.lookup (canon n) with
    | some f => rfl
    | none =>
      rw [hm] at h
      simp only at h ⊢
      rw [← hn.1]
      cases hg : getRule n g.rules with
      | none => rfl
      | some r =>
        rw [hg] at h
        exact tgBind_in h (altGraph_in (fun _ => ruleGraph_local hd hd' hs o (by omega)) r.alt (shared_alt hd hd' hs (hn.2 r hg)) _ _) fun _ _ => rfl

theorem graph_start {g g' : Grammar} {name : Str} (hd : NamesDistinct g) (hd' : NamesDistinct g') (hs : SameRules g g' name) (o : TgOpts)
    {k k' : Nat} (hk : k ≤ k') {a : Alt} (ha : NamesIn (Shared g g' name) (altReps a)) {st : TgSt} {β : Type} {F : TgFrag × TgSt → TgOut β}
    (h : tgBind (altGraph o (ruleGraph o g k) a {} st) F ≠ .fuel) :
    tgBind (altGraph o (ruleGraph o g' k') a {} st) F = tgBind (altGraph o (ruleGraph o g k) a {} st) F :=
  tgBind_in h (altGraph_in (fun _ => ruleGraph_local hd hd' hs o hk) a ha _ _) fun _ _ => rfl

/-! ## C127 -/

namespace Props

/-- C127.  Names that lead to the same rules stand for the same texts. -/
theorem C127_texts {g g' : Grammar} {name : Str} (hd : NamesDistinct g) (hd' : NamesDistinct g') (hs : SameRules g g' name) (w : Bytes) :
    DerivesRule g name w ↔ DerivesRule g' name w := by
  have key : ∀ {g g' : Grammar}, NamesDistinct g → NamesDistinct g' → SameRules g g' name → DerivesRule g name w → DerivesRule g' name w := by
    intro g g' hd hd' hs h
    obtain ⟨r, hr, hw⟩ := derives_rulename.mp h
    refine part_derives (g := g) (name := name) (fun n hn r' hr' => ⟨?_, part_uses hd hn hr'⟩) h (.inr ⟨name, r, rfl, hr, ⟨r, hr, .refl⟩⟩)
    rcases hn with ⟨R, hR, q, hq, he⟩ | ⟨m, R, he, hm, hR⟩
    · exact (hs.2 R hR q hq n he r').mp hr'
    · cases he
      obtain ⟨r0, h0, h1⟩ := hR
      have : R = r' := Option.some.inj (((getRule_iff hd).mpr hm).symm.trans ((getRule_iff hd).mpr hr'))
      subst this
      cases h1 with
      | refl =>
        refine (resolves_congr ?_).mpr ((hs.1 R).mp h0)
        rw [← resolves_name hm, resolves_name h0]
      | tail h2 h3 =>
        obtain ⟨q, hq, k, hk, hkr⟩ := h3
        refine (resolves_congr ?_).mpr ((hs.2 _ ⟨r0, h0, h2⟩ q hq k hk R).mp hkr)
        rw [← resolves_name hm, resolves_name hkr]
  exact ⟨key hd hd' hs, key hd' hd (sameRules_symm hs)⟩

/-- C127.  The parsers answer alike: the same forests, of both kinds and with the same budgets and orders, and the same generated code. -/
theorem C127_forests {g g' : Grammar} {name : Str} (hd : NamesDistinct g) (hd' : NamesDistinct g') (hs : SameRules g g' name) :
    (∀ sched inp maxNodes maxSlots, parseForest sched inp g name maxNodes maxSlots = parseForest sched inp g' name maxNodes maxSlots) ∧
    (∀ sched inp maxElems maxSlots, parseBSR sched inp g name maxElems maxSlots = parseBSR sched inp g' name maxElems maxSlots) ∧
    Cg.generate g name = Cg.generate g' name := by
  refine ⟨fun _ _ _ m => ?_, fun _ _ _ m => ?_, ?_⟩
  · rw [parseForest, parseForest, compile_local hd hd' hs]
  · rw [parseBSR, parseBSR, compile_local hd hd' hs]
  · rw [Cg.generate, Cg.generate, compile_local hd hd' hs]

/-- C127.  `RuleContainsCycle` answers alike. -/
theorem C127_cycle {g g' : Grammar} {name : Str} (hd : NamesDistinct g) (hd' : NamesDistinct g') (hs : SameRules g g' name)
    {core core' : List Rule} (hcore : core.Perm Core.rules) (hcore' : core'.Perm Core.rules)
    {order order' : List Str} (ho : order.Perm ((dependencyGraph core g).map Prod.fst)) (ho' : order'.Perm ((dependencyGraph core' g').map Prod.fst)) :
    ruleContainsCycle core g order name = ruleContainsCycle core' g' order' name := by
  obtain ⟨h1, h2⟩ := C20_exact g hd core hcore order ho name
  obtain ⟨h1', h2'⟩ := C20_exact g' hd' core' hcore' order' ho' name
  by_cases hr : ∃ r, Resolves g name r
  · obtain ⟨r, hr⟩ := hr
    have hr' := (hs.1 r).mp hr
    obtain ⟨b, h3, h4⟩ := h2 r hr
    obtain ⟨b', h3', h4'⟩ := h2' r hr'
    rw [h3, h3']
    have key : ∀ {g g' : Grammar}, SameRules g g' name → Resolves g name r → (∃ r', Relation.ReflTransGen (Refers g) r r' ∧ Cyclic g r') →
        ∃ r', Relation.ReflTransGen (Refers g') r r' ∧ Cyclic g' r' := by
      rintro g g' hs hr ⟨r', ha, hb⟩
      have hstep : ∀ {x y}, Relation.ReflTransGen (Refers g) r x → Refers g x y → Refers g' x y := by
        rintro x y hx ⟨q, hq, n, hn, hy⟩
        exact ⟨q, hq, n, hn, (hs.2 x ⟨r, hr, hx⟩ q hq n hn y).mp hy⟩
      refine ⟨r', sameRules_reach hs hr ha, ?_⟩
      have hgo : ∀ {y}, Relation.TransGen (Refers g) r' y → Relation.TransGen (Refers g') r' y := by
        intro y hy
        induction hy with
        | single h => exact .single (hstep ha h)
        | tail h h' ih => exact ih.tail (hstep (ha.trans h.to_reflTransGen) h')
      exact hgo hb
    have : b = true ↔ b' = true := by
      rw [h4, h4']
      exact ⟨key hs hr, key (sameRules_symm hs) hr'⟩
    rw [Bool.eq_iff_iff.mpr this]
  · rw [h1.mpr hr, h1'.mpr fun ⟨r, h⟩ => hr ⟨r, (hs.1 r).mpr h⟩]

/-- C127.  `Regex` gives the same pattern or the same error. -/
theorem C127_regex {g g' : Grammar} {name : Str} (hd : NamesDistinct g) (hd' : NamesDistinct g') (hs : SameRules g g' name)
    {core core' : List Rule} (hcore : core.Perm Core.rules) (hcore' : core'.Perm Core.rules)
    {order order' : List Str} (ho : order.Perm ((dependencyGraph core g).map Prod.fst)) (ho' : order'.Perm ((dependencyGraph core' g').map Prod.fst))
    (max : Nat) : regex core order g max name = regex core' order' g' max name := by
  have key : ∀ {g g' : Grammar}, NamesDistinct g → NamesDistinct g' → SameRules g g' name → ∀ {core core' : List Rule}, core.Perm Core.rules → core'.Perm Core.rules →
      ∀ {order order' : List Str}, order.Perm ((dependencyGraph core g).map Prod.fst) → order'.Perm ((dependencyGraph core' g').map Prod.fst) →
      g.rules.length ≤ g'.rules.length → regex core order g max name = regex core' order' g' max name := by
    intro g g' hd hd' hs core core' hcore hcore' order order' ho ho' hl
    have hne : regex core order g max name ≠ .error .outOfFuel := by
      rcases regex_cases hd hcore ho max name with h | ⟨r, _, h | ⟨_, h | ⟨_, re, _, h⟩⟩⟩
      · rw [h.2]; simp
      · rw [h.2]; simp
      · rw [h.2]; simp
      · rw [h]; split_ifs <;> simp
    have hsh := shared_root hd hd' hs
    unfold regex at hne ⊢
    rw [← C127_cycle hd hd' hs hcore hcore' ho ho', ← hsh.1]
    cases hc : ruleContainsCycle core g order name with
    | none => rfl
    | some x =>
      cases x with
      | panic => rfl
      | fuel => rfl
      | ok b =>
        cases b with
        | true => rfl
        | false =>
          rw [hc] at hne
          simp only at hne ⊢
          cases hg : getRule name g.rules with
          | none => rfl
          | some r =>
            rw [hg] at hne
            simp only at hne ⊢
            cases h1 : reAlts (reRule g (g.rules.length + Core.rules.length + 1)) r.alt {} with
            | none => rw [h1] at hne; exact absurd rfl hne
            | some y => rw [reAlts_in (reRule_local hd hd' hs (by omega)) r.alt (shared_alt hd hd' hs (hsh.2 r hg)) h1]
  rcases le_total g.rules.length g'.rules.length with h | h
  · exact key hd hd' hs hcore hcore' ho ho' h
  · exact (key hd' hd (sameRules_symm hs) hcore' hcore ho' ho h).symm

/-- C127.  `Generate` gives the same text for the same source of randomness, or the same error. -/
theorem C127_generate {g g' : Grammar} {name : Str} (hd : NamesDistinct g) (hd' : NamesDistinct g') (hs : SameRules g g' name)
    (hc : ∀ r, Resolves g name r → ClosedReach g r) (hc' : ∀ r, Resolves g' name r → ClosedReach g' r) (rnd : Nat → Nat) (o : GenOpts) (fuel : Nat) :
    generate rnd o g fuel name = generate rnd o g' fuel name := by
  have hsh := shared_root hd hd' hs
  rw [generate, generate, check_local hd hd' hs hc hc', ← hsh.1]
  congr 1
  funext err
  cases err with
  | some e => rfl
  | none =>
    cases hg : getRule name g.rules with
    | none => rfl
    | some r =>
      simp only [genAlt]
      rw [genPick_in (genRule_local hd hd' hs rnd o fuel) r.alt (shared_alt hd hd' hs (hsh.2 r hg))]

/-- C127.  `TransitionGraph` builds the same nodes in the same places, or fails alike, unless rules are deflated and one of the grammars is not valid. -/
theorem C127_graph {g g' : Grammar} {name : Str} (hd : NamesDistinct g) (hd' : NamesDistinct g') (hs : SameRules g g' name)
    {core core' : List Rule} (hcore : core.Perm Core.rules) (hcore' : core'.Perm Core.rules)
    {order order' : List Str} (ho : order.Perm ((dependencyGraph core g).map Prod.fst)) (ho' : order'.Perm ((dependencyGraph core' g').map Prod.fst))
    (o : TgOpts) (hp : ∀ r, Visits o g name r → Plain r) (hp' : ∀ r, Visits o g' name r → Plain r)
    (hv : o.rules = true → semvalABNF g = none ∧ semvalABNF g' = none) :
    transitionGraph o core g order name = transitionGraph o core' g' order' name := by
  have key : ∀ {g g' : Grammar}, NamesDistinct g → NamesDistinct g' → SameRules g g' name → ∀ {core core' : List Rule}, core.Perm Core.rules → core'.Perm Core.rules →
      ∀ {order order' : List Str}, order.Perm ((dependencyGraph core g).map Prod.fst) → order'.Perm ((dependencyGraph core' g').map Prod.fst) →
      (∀ r, Visits o g name r → Plain r) → (o.rules = true → semvalABNF g = none ∧ semvalABNF g' = none) →
      g.rules.length ≤ g'.rules.length → transitionGraph o core g order name = transitionGraph o core' g' order' name := by
    intro g g' hd hd' hs core core' hcore hcore' order order' ho ho' hp hv hl
    have hne : transitionGraph o core g order name ≠ .fuel := by
      obtain ⟨res, h⟩ := C61_total o g hd core hcore order ho name hp
      rw [h]; simp
    have hsh := shared_root hd hd' hs
    have e1 : (if o.rules then semvalABNF g else none) = none := by
      cases hr : o.rules with
      | true => simpa using (hv hr).1
      | false => rfl
    have e2 : (if o.rules then semvalABNF g' else none) = none := by
      cases hr : o.rules with
      | true => simpa using (hv hr).2
      | false => rfl
    unfold transitionGraph at hne ⊢
    rw [← C127_cycle hd hd' hs hcore hcore' ho ho', ← hsh.1, e2]
    rw [e1] at hne ⊢
    cases hg : getRule name g.rules with
    | none => rfl
    | some r =>
      rw [hg] at hne
      simp only at hne ⊢
      have hk : g.rules.length + Core.rules.length + 1 ≤ g'.rules.length + Core.rules.length + 1 := by omega
      generalize g.rules.length + Core.rules.length + 1 = k at hk hne ⊢
      generalize g'.rules.length + Core.rules.length + 1 = k' at hk ⊢
      generalize ruleContainsCycle core g order name = x at hne ⊢
      cases x with
      | none => simp only
      | some x =>
        cases x with
        | panic => simp only [Run.bnd]
        | fuel => simp only [Run.bnd]
        | ok b =>
          cases b with
          | true => simp only [Run.bnd, if_true]
          | false =>
            simp only [Run.bnd, Bool.false_eq_true, if_false] at hne ⊢
            exact (graph_start hd hd' hs o hk (shared_alt hd hd' hs (hsh.2 r hg)) hne).symm
  rcases le_total g.rules.length g'.rules.length with h | h
  · exact key hd hd' hs hcore hcore' ho ho' hp hv h
  · exact (key hd' hd (sameRules_symm hs) hcore' hcore ho' ho hp' (fun h => (hv h).symm) h).symm

/-- C127.  Rules whose names are not in use may be added, in any place: the rule still uses the same ones. -/
theorem C127_add {g g' : Grammar} {name : Str} {extra : List Rule} (hg : ∀ r, r ∈ g'.rules ↔ r ∈ g.rules ∨ r ∈ extra)
    (hx : ∀ x ∈ extra, ¬ SameName name x.name)
    (hu : ∀ x ∈ extra, ∀ r, UsesRule g name r → ∀ q ∈ altReps r.alt, ∀ n, q.elem = .rulename n → ¬ SameName n x.name) :
    SameRules g g' name := by
  have key : ∀ n, (∀ x ∈ extra, ¬ SameName n x.name) → ∀ r, Resolves g n r ↔ Resolves g' n r := by
    intro n hn r
    constructor
    · rintro (⟨h1, h2⟩ | ⟨h1, h2, h3⟩)
      · exact .user ((hg r).mpr (.inl h1)) h2
      · exact .core h1 h2 fun u hu => ((hg u).mp hu).elim (h3 u) (hn u)
    · rintro (⟨h1, h2⟩ | ⟨h1, h2, h3⟩)
      · rcases (hg r).mp h1 with h1 | h1
        · exact .user h1 h2
        · exact absurd h2 (hn r h1)
      · exact .core h1 h2 fun u hu => h3 u ((hg u).mpr (.inl hu))
  exact ⟨key name hx, fun r hr q hq n hn => key n fun x hx => hu x hx r hr q hq n hn⟩

/-- The last rule of `mixed` alone. -/
def alone : Grammar := ⟨[⟨str% "id", [[Ex.one (Ex.ref (str% "ALPHA")),
  ⟨0, none, .group [[Ex.one (Ex.ref (str% "ALPHA"))], [Ex.one (Ex.ref (str% "DIGIT"))]]⟩]]⟩]⟩

theorem alone_nd : NamesDistinct alone := namesDistinct_of (by decide)

/-- `mixed` adds rules that refer to themselves from the left, and to each other. -/
theorem alone_mixed : SameRules alone mixed (str% "id") := by
  refine C127_add (extra := nested.rules) (fun r => ?_) (by simp only [sameName_iff]; decide) ?_
  · simp [mixed, alone, or_comm]
  · intro x hx r hr q hq n hn
    obtain ⟨m, hm, hg⟩ := uses_of alone_nd [str% "id", str% "alpha", str% "digit"] (by decide +kernel) r hr
    have hall : ∀ m ∈ [str% "id", str% "alpha", str% "digit"], ((getRule m alone.rules).all fun r => (altReps r.alt).all fun q =>
        match q.elem with
        | .rulename n => nested.rules.all fun x => !decide (canon n = canon x.name)
        | _ => true) = true := by decide +kernel
    have := hall m hm
    rw [hg] at this
    simp only [Option.all_some, List.all_eq_true] at this
    have := this q hq
    rw [hn] at this
    rw [sameName_iff]
    simpa using List.all_eq_true.mp this x hx

example : NamesDistinct alone ∧ NamesDistinct mixed ∧ SameRules alone mixed (str% "id") ∧
    (∀ r, Resolves alone (str% "id") r → ClosedReach alone r) ∧ (∀ r, Resolves mixed (str% "id") r → ClosedReach mixed r) ∧
    (∀ r, Visits { rules := true } alone (str% "id") r → Plain r) ∧ (∀ r, Visits { rules := true } mixed (str% "id") r → Plain r) ∧
    semvalABNF alone = none ∧ semvalABNF mixed = none ∧
    (plainOrder mixed).Perm ((dependencyGraph Core.rules mixed).map Prod.fst) ∧
    regex Core.rules (plainOrder mixed) mixed 0 (str% "id") = .ok (str% "[A-Za-z][0-9A-Za-z]*") ∧
    regex Core.rules (plainOrder mixed) mixed 0 (str% "a") = .error .cyclicRule :=
  ⟨alone_nd, mixed_nd, alone_mixed, fun _ h => closedReach_of (by decide +kernel) (by decide +kernel) h,
    fun _ h => closedReach_of (by decide +kernel) (by decide +kernel) h, plain_of (by decide +kernel), plain_of (by decide +kernel),
    by decide +kernel, by decide +kernel, .refl _, by decide +kernel, by decide +kernel⟩

/-- The grammar `a = "x"`. -/
def calm : Grammar := ⟨[⟨str% "a", [[Ex.one (Ex.lit (str% "x"))]]⟩]⟩

/-- `a = "x"` beside `b = c`, where nothing is called `c`. -/
def dangling : Grammar := ⟨calm.rules ++ [⟨str% "b", [[Ex.one (Ex.ref (str% "c"))]]⟩]⟩

/-- C127 as stated is false for `TransitionGraph`: with rules deflated it rejects a grammar for a rule that has nothing to do with the one asked for. -/
theorem C127_fails : NamesDistinct calm ∧ NamesDistinct dangling ∧ SameRules calm dangling (str% "a") ∧
    (∃ x, transitionGraph { rules := true } Core.rules calm (plainOrder calm) (str% "a") = .ok (.ok x)) ∧
    (∃ e, transitionGraph { rules := true } Core.rules dangling (plainOrder dangling) (str% "a") = .ok (.error (.semval e))) := by
  refine ⟨namesDistinct_of (by decide), namesDistinct_of (by decide), ?_, ?_, ?_⟩
  · refine C127_add (extra := [⟨str% "b", [[Ex.one (Ex.ref (str% "c"))]]⟩]) (fun r => by simp [dangling]) (by simp only [sameName_iff]; decide) ?_
    intro x hx r hr q hq n hn
    obtain ⟨m, hm, hg⟩ := uses_of (g := calm) (namesDistinct_of (by decide)) [str% "a"] (by decide +kernel) r hr
    rw [List.mem_singleton] at hm
    subst hm
    have : r = ⟨str% "a", [[Ex.one (Ex.lit (str% "x"))]]⟩ := Option.some.inj (hg.symm.trans (by decide +kernel))
    subst this
    simp [altReps, concatReps, repReps, elemReps, Ex.one, Ex.lit] at hq
    subst hq
    cases hn
  · obtain ⟨f, h, e, _⟩ := tgShow_some (x := transitionGraph { rules := true } Core.rules calm (plainOrder calm) (str% "a"))
      (i := [some 0]) (o := [some 0]) (l := [(.charVal false (str% "x"), [])]) (by decide +kernel)
    exact ⟨_, e⟩
  · have hs : (semvalABNF dangling).isSome = true := by decide +kernel
    obtain ⟨e, he⟩ := Option.isSome_iff_exists.mp hs
    have hg : getRule (str% "a") dangling.rules = some ⟨str% "a", [[Ex.one (Ex.lit (str% "x"))]]⟩ := by decide +kernel
    refine ⟨e, ?_⟩
    unfold transitionGraph
    rw [hg]
    simp only [if_true, he]

end Props

end Verif
