import Verif.PropsMeta
import Verif.Reopen

/-!
# The ABNF of ABNF reads itself

What Test_U_ABNFParseItself checks (/repo/grammar_test.go:243-268), for every order in which Go iterates the map of
rules and for every set of options.
-/

namespace Verif.Props
open Spec Text Eval

theorem abnf_perm {g : Grammar} (hp : g.rules.Perm Abnf.grammar.rules) (sched : Sched NodeKey) (hf : sched.Fair)
    (opts : List ABNFOption) : parseABNF sched (utf8 g.str) opts = .ok g ∧ parseABNF sched (utf8 g.pretty) opts = .ok g := by
  have hw : ∀ r ∈ Abnf.grammar.rules, r.written = true := by decide +kernel
  have hm : ∀ q ∈ rulesReps g.rules, q ∈ rulesReps Abnf.grammar.rules := by
    intro q hq
    obtain ⟨r, hr, hq⟩ := List.mem_flatMap.mp hq
    exact List.mem_flatMap.mpr ⟨r, hp.mem_iff.mp hr, hq⟩
  have hi : ∀ p ∈ Abnf.grammar.rules.flatMap (fun r => altStrings r.alt), p.1 = false := by decide +kernel
  have hc : ∀ r ∈ Abnf.grammar.rules, ¬ IsCoreName r.name := by
    have : ∀ r ∈ Abnf.grammar.rules, getRuleIn r.name Core.rules = none := by decide +kernel
    exact fun r hr => (isCoreName_iff _).mp (this r hr)
  have hfit : ∀ q ∈ rulesReps Abnf.grammar.rules, Fits q := by unfold Fits; decide +kernel
  have h0 : g.rules ≠ [] := fun hn => by
    rw [hn] at hp
    have := hp.symm.eq_nil
    exact absurd this (by decide +kernel)
  refine C79_same_partial g (fun r hr => hw r (hp.mem_iff.mp hr)) h0
    (hp.symm.pairwise Abnf.namesDistinct fun h hs => h ((sameName_iff _ _).mpr ((sameName_iff _ _).mp hs).symm))
    (fun r hr => hc r (hp.mem_iff.mp hr)) (fun q hq => hfit q (hm q hq)) (fun p hq => ?_) sched hf opts fun _ q hq => ?_
  · obtain ⟨r, hr, hq⟩ := List.mem_flatMap.mp hq
    exact hi p (List.mem_flatMap.mpr ⟨r, hp.mem_iff.mp hr, hq⟩)
  · obtain ⟨s1, s2, s3⟩ := sound_of hw (by decide +kernel) q (hm q hq)
    refine ⟨fun n hn => ?_, s2, s3⟩
    obtain ⟨r, hr⟩ := s1 n hn
    cases hr with
    | user hm hs => exact ⟨r, .user (hp.mem_iff.mpr hm) hs⟩
    | core hm hs hu => exact ⟨r, .core hm hs fun u hu' => hu u (hp.mem_iff.mp hu')⟩

/-- C118.  The variable `ABNF`, printed with its rules in any order, is read back as itself, whatever the options; and the
grammar that was read, printed again in any order, is accepted by `Parse` from the `rulelist` of that same grammar. -/
theorem C118_itself (g g' g'' : Grammar) (hp : g.rules.Perm Abnf.grammar.rules) (hp' : g'.rules.Perm g.rules)
    (hp'' : g''.rules.Perm g.rules) (sched : Sched NodeKey) (hf : sched.Fair) (opts : List ABNFOption) :
    (parseABNF sched (utf8 g.str) opts = .ok g ∧ parseABNF sched (utf8 g.pretty) opts = .ok g) ∧
    (parseABNF sched (utf8 g'.str) opts = .ok g' ∧ parseABNF sched (utf8 g'.pretty) opts = .ok g') ∧
    (∃ f, parseForest sched (utf8 g'.str) g'' (str% "rulelist") 0 65536 = .ok f ∧ f.valid = true) := by
  refine ⟨abnf_perm hp sched hf opts, abnf_perm (hp'.trans hp) sched hf opts, ?_⟩
  obtain ⟨s, ds, st, hs, hr, _⟩ := parseABNF_state sched hf opts _ _ (abnf_perm (hp'.trans hp) sched hf opts).1
  rw [(C108_order Abnf.grammar g'' Abnf.namesDistinct (hp''.trans hp) _ _ _ _).1]
  obtain ⟨f, h⟩ := abnf_forest sched hf (utf8 g'.str)
  refine ⟨f, h, (C01_exact _ Abnf.numValsWF Abnf.namesDistinct Abnf.distinctPrint sched hf _ _ 0 65536 f h).mpr ?_⟩
  rw [hs]
  exact Abnf.says_rulelist.mpr ⟨ds, hr⟩

/-- C118: the hypotheses are met by the rules in reverse order. -/
example : (Grammar.mk Abnf.grammar.rules.reverse).rules.Perm Abnf.grammar.rules := List.reverse_perm _
example : Abnf.grammar.rules.reverse ≠ Abnf.grammar.rules := by decide +kernel

end Verif.Props
