import Verif.SlotsLang
import Verif.SlotsBudget
import Verif.Examples

/-! # C11: lowering to slots -/

namespace Verif.Props
open Verif Spec

/-- C11.  Lowering always returns: the only errors are an unknown root and an exceeded budget. -/
theorem C11_terminates (g : Grammar) (root : Str) (max : Nat) :
    compileSlots g root max ≠ .error .outOfFuel := by
  unfold compileSlots
  split
  · simp
  split
  · rename_i h
    exact absurd h (lower_terminates g root max _ good_init)
  · split_ifs <;> simp

/-- C11.  With a budget `N > 0`, lowering succeeds exactly when the unbounded lowering has fewer than `N`
nonterminals, and then gives the same slot grammar. -/
theorem C11_budget (g : Grammar) (root : Str) (N : Nat) (hN : 0 < N) (sg : SG) :
    compileSlots g root N = .ok sg ↔ compileSlots g root 0 = .ok sg ∧ sg.nts.length < N :=
  compileSlots_budget hN sg

/-- C11.  Without a budget, lowering succeeds exactly when the root rule exists. -/
theorem C11_unbounded (g : Grammar) (root : Str) :
    (∃ sg, compileSlots g root 0 = .ok sg) ↔ ∃ r, Resolves g root r := by
  constructor
  · rintro ⟨sg, h⟩
    obtain ⟨_, _, _, hs⟩ := compileSlots_lowered h
    obtain ⟨r, hr⟩ := Option.isSome_iff_exists.mp hs
    exact ⟨r, getRule_resolves hr⟩
  · rintro ⟨r, h⟩
    have : ∃ r, getRule root g.rules = some r := by
      unfold getRule
      cases hu : getRuleIn root g.rules with
      | some u => exact ⟨u, rfl⟩
      | none =>
        cases h with
        | user hm hs =>
          have := List.find?_eq_none.mp hu r hm
          exact absurd ((equalFold_iff _ _).mpr hs) this
        | core hm hs _ => exact ⟨r, by rw [find?_unique core_distinct hm hs]; rfl⟩
    obtain ⟨r, hr⟩ := this
    exact compileSlots_unbounded hr

/-- C11.  The number of nonterminals is bounded by a count of the repetitions written in the grammar and the core
rules, whatever their numeric bounds. -/
theorem C11_size (g : Grammar) (root : Str) (max : Nat) (sg : SG) (h : compileSlots g root max = .ok sg) :
    sg.nts.length ≤ 1 + 2 * (rulesReps (g.rules ++ Core.rules)).length := by
  obtain ⟨_, hl, _, _⟩ := compileSlots_lowered h
  exact lowered_size hl

/-- C11.  The slot grammar derives exactly the language of the root rule, at every place of every input. -/
theorem C11_language (g : Grammar) (hwf : NumValsWF g) (hnd : NamesDistinct g) (hdp : DistinctPrint g)
    (root : Str) (max : Nat) (sg : SG) (h : compileSlots g root max = .ok sg) (inp : Bytes) (i j : Nat) :
    NTD sg inp sg.start 0 i j ↔
      ∃ w, w <+: inp.drop i ∧ j = i + w.length ∧ DerivesRule g root w := by
  obtain ⟨_, hl, _, _⟩ := compileSlots_lowered h
  rw [lowered_language hl hdp hwf hnd]
  simp only [At, and_assoc]

-- the hypotheses hold for a left-recursive grammar and for one with nullable bounded repetitions
example : ∃ sg, compileSlots Ex.expr (str% "EXPR") 65536 = .ok sg ∧ sg.nts.length = 4 := ⟨_, rfl, rfl⟩
example : NumValsWF Ex.expr ∧ NamesDistinct Ex.expr ∧ DistinctPrint Ex.expr := Ex.expr_wf
example : NumValsWF Ex.nul ∧ NamesDistinct Ex.nul ∧ DistinctPrint Ex.nul := Ex.nul_wf
example : ∃ sg, compileSlots Ex.nul (str% "a") 0 = .ok sg ∧ sg.nts.length = 4 := ⟨_, rfl, rfl⟩
example : compileSlots Ex.nul (str% "a") 4 = .error (.grammarTooLarge 4) := rfl

end Verif.Props
