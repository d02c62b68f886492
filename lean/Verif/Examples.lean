import Verif.SlotsLemmas
import Verif.NumLemmas
import Verif.Term

/-!
# Concrete grammars used to show that theorems are not vacuous

Also decidable checks that imply the hypotheses of the theorems.
-/

namespace Verif
open Spec

/-- Boolean version of `DistinctPrint`. -/
def distinctPrintB (g : Grammar) : Bool :=
  let rs := allReps g
  let reps := rs.filter fun r => !decide (r.min = 1 ∧ r.max = some 1)
  let grps := rs.filterMap fun r => match r.elem with | .group a => some a | _ => none
  let opts := rs.filterMap fun r => match r.elem with | .option a => some a | _ => none
  (reps.all fun r => reps.all fun s => decide (r.str = s.str → r = s)) &&
  (grps.all fun a => grps.all fun b => decide ((Elem.group a).str = (Elem.group b).str → a = b)) &&
  (opts.all fun a => opts.all fun b => decide ((Elem.option a).str = (Elem.option b).str → a = b))

theorem distinctPrint_of {g : Grammar} (h : distinctPrintB g = true) : DistinctPrint g := by
  unfold distinctPrintB at h
  simp only [Bool.and_eq_true, List.all_eq_true, decide_eq_true_eq] at h
  obtain ⟨⟨h1, h2⟩, h3⟩ := h
  intro r hr s hs
  refine ⟨fun hr1 hs1 => ?_, fun a b ha hb => ?_, fun a b ha hb => ?_⟩
  · exact h1 r (List.mem_filter.mpr ⟨hr, by rw [decide_eq_false hr1]; rfl⟩) s (List.mem_filter.mpr ⟨hs, by rw [decide_eq_false hs1]; rfl⟩)
  · rw [ha, hb]
    exact h2 a (List.mem_filterMap.mpr ⟨r, hr, by rw [ha]⟩) b (List.mem_filterMap.mpr ⟨s, hs, by rw [hb]⟩)
  · rw [ha, hb]
    exact h3 a (List.mem_filterMap.mpr ⟨r, hr, by rw [ha]⟩) b (List.mem_filterMap.mpr ⟨s, hs, by rw [hb]⟩)

theorem namesDistinct_of {g : Grammar} (h : g.rules.Pairwise fun a b => ¬ canon a.name = canon b.name) :
    NamesDistinct g := h.imp fun h hs => h ((sameName_iff _ _).mp hs)

namespace Ex

/-- one occurrence -/
def one (e : Elem) : Rep := ⟨1, some 1, e⟩
/-- a case-insensitive string -/
def lit (s : Str) : Elem := .charVal false s
/-- a rule reference -/
def ref (s : Str) : Elem := .rulename s

/-- `expr = expr "+" term / term` (left recursion), `term = 1*DIGIT / "(" expr ")"`. -/
def expr : Grammar := ⟨[
  ⟨str% "expr", [[one (ref (str% "expr")), one (lit (str% "+")), one (ref (str% "term"))],
    [one (ref (str% "term"))]]⟩,
  ⟨str% "term", [[⟨1, none, ref (str% "DIGIT")⟩],
    [one (lit (str% "(")), one (ref (str% "expr")), one (lit (str% ")"))]]⟩]⟩

/-- `a = 2*3("x" / "") [a]`: nullable bounded repetition and hidden left recursion. -/
def nul : Grammar := ⟨[
  ⟨str% "a", [[⟨2, some 3, .group [[one (lit (str% "x"))], [one (lit [])]]⟩,
    one (.option [[one (ref (str% "a"))]])]]⟩]⟩

theorem expr_wf : NumValsWF expr ∧ NamesDistinct expr ∧ DistinctPrint expr :=
  ⟨numValsWF_of (by decide), namesDistinct_of (by decide), distinctPrint_of (by decide +kernel)⟩
theorem nul_wf : NumValsWF nul ∧ NamesDistinct nul ∧ DistinctPrint nul :=
  ⟨numValsWF_of (by decide), namesDistinct_of (by decide), distinctPrint_of (by decide +kernel)⟩

end Ex
end Verif
