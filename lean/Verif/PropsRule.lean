import Verif.PropsExpect
import Verif.PropsReader

/-!
# C31 and C63 from conditions on the rules alone

The elements of a transition graph come from the rules it visits, so that conditions on the nodes of the graph can be
replaced by conditions on the rules.
-/

namespace Verif.Props

open Verif Verif.Spec

/-- C31, for a rule whose visited rules consist of characters: generators and readers only give texts of the rule.
What is missing: as for C30, no series of several numbers may be deflated; elements that are no characters, see
`C31_fails`. -/
theorem C31_rule_partial (t : TgOpts) (g : Grammar) (hd : NamesDistinct g) (core : List Rule) (hcore : core.Perm Core.rules)
    (order : List Str) (ho : order.Perm ((dependencyGraph core g).map Prod.fst)) (name : Str)
    (hp : ∀ r, Visits t g name r → Plain r) (hn : t.nums = true → ∀ r, Visits t g name r → OneChar r)
    (hx : ∀ r, Visits t g name r → TextRule t r)
    (f : TgFrag) (h : TgHeap) (hok : transitionGraph t core g order name = .ok (.ok (f, h))) :
    (∀ (o : FuzzOpts) (G : FuzzGen), newGenerator o f h = .ok (.ok G) → (∃ w, DerivesRule g name w) →
      (∀ tape, ∃ w, fuzzGenerate G tape = .ok w ∧ DerivesRule g name w) ∧ ∀ rnd, ∃ w, fuzzGenerateRand G rnd = .ok w ∧ DerivesRule g name w) ∧
    ∀ sched : Sched (Option Nat), sched.Fair → ∃ R, readerPrepare sched f h = .ok R ∧
      (∃ prods, R.compact = .ok prods ∧ ∀ w ∈ prods, DerivesRule g name w) ∧
      ∃ texts, (∀ w ∈ texts, DerivesRule g name w) ∧ ∀ cs, ∃ K, ∀ k ≥ K, R.calls k cs {} = .ok (listCalls cs texts) := by
  have hem := fun n hpr => emittable_of_rules hd hx hok n hpr
  refine ⟨fun o G hG hne => ?_, fun sched hs =>
    C31_reader_partial t g hd core hcore order ho name hp hn f h hok (fun n _ hpr => hem n hpr) sched hs⟩
  exact C31_member_partial t g hd core hcore order ho name hp hn f h hok o G hG
    (fun n hr => hem n ((newGenerator_ok (tg_finite hd hcore ho hp hok) hG).produces n hr)) hne

/-- C63, with the number of letters bounded in the rules. -/
theorem C63_rule (t : TgOpts) (g : Grammar) (hd : NamesDistinct g) (core : List Rule) (hcore : core.Perm Core.rules)
    (order : List Str) (ho : order.Perm ((dependencyGraph core g).map Prod.fst)) (name : Str)
    (hp : ∀ r, Visits t g name r → Plain r) (hn : t.nums = true → ∀ r, Visits t g name r → OneChar r)
    (hfew : ∀ r, Visits t g name r → ∀ q ∈ altReps r.alt, FewLetters q.elem)
    (f : TgFrag) (h : TgHeap) (hok : transitionGraph t core g order name = .ok (.ok (f, h)))
    (hins : f.ins.length ≤ 2 ^ 32) (hnext : ∀ n, ReachedFrom h f.ins n → (h.nexts n).length < 2 ^ 32)
    (w : Bytes) (hw : DerivesRule g name w) :
    ∃ L : Nat, ∀ (o : FuzzOpts) (G : FuzzGen), newGenerator o f h = .ok (.ok G) → (L : Int) < o.maxReps → (L : Int) < o.maxSteps →
      (w.length : Int) < o.maxLength →
      (∃ tape, fuzzGenerate G tape = .ok w) ∧ ∃ rnd, fuzzGenerateRand G rnd = .ok w :=
  C63_reaches t g hd core hcore order ho name hp hn f h hok hins hnext (fun n _ => fewLetters_of_rules hd hfew hok n) w hw

/-- Checks `FewLetters`. -/
def fewLettersB : Elem → Bool
  | .charVal false vs => decide (letterCount vs ≤ 30)
  | _ => true

theorem fewLetters_of {e : Elem} (h : fewLettersB e = true) : FewLetters e := by
  unfold FewLetters
  split
  · exact of_decide_eq_true h
  · trivial

example : (∀ r, Visits {} dashes ['a'] r → TextRule {} r) ∧ (∀ r, Visits {} dashes ['a'] r → Plain r) ∧
    (∀ r, Visits {} dashes ['a'] r → ∀ q ∈ altReps r.alt, FewLetters q.elem) ∧ ∃ w, DerivesRule dashes ['a'] w := by
  obtain ⟨f, h, G, e1, e2, e3, _, _, _, e5, e6⟩ := dashes_meets
  refine ⟨textRule_of (by decide +kernel), e5, fun r hr q hq => fewLetters_of ?_, _, e6⟩
  have h1 : (dashes.rules ++ Core.rules).all (fun r => (altReps r.alt).all fun q => fewLettersB q.elem) = true := by decide +kernel
  exact List.all_eq_true.mp (List.all_eq_true.mp h1 r (visits_mem hr)) q hq

end Verif.Props
