import Verif.PropsAbnf
import Verif.PropsAst

/-!
# Working with the grammar held in the variable `ABNF`

The fuzz targets of the repository (/repo/generate_fuzz.go, /repo/grammar_fuzz.go) generate from this grammar and check
what comes out; here this is proved for every run.
-/

namespace Verif.Props
open Verif Spec Eval Text

/-- Ranks of the rules of the ABNF grammar: what a rule can start with ranks no higher. -/
def abnfRanks : List (Str × Nat) := [
  (str% "rulelist", 20), (str% "rule", 3), (str% "rulename", 2), (str% "defined-as", 8), (str% "elements", 15), (str% "c-wsp", 7),
  (str% "c-nl", 5), (str% "comment", 4), (str% "alternation", 14), (str% "concatenation", 13), (str% "repetition", 12),
  (str% "repeat", 6), (str% "element", 11), (str% "group", 2), (str% "option", 2), (str% "char-val", 9),
  (str% "case-insensitive-string", 8), (str% "case-sensitive-string", 2), (str% "quoted-string", 3), (str% "num-val", 2),
  (str% "bin-val", 2), (str% "dec-val", 2), (str% "hex-val", 2), (str% "prose-val", 2), (str% "alpha", 1), (str% "bit", 1),
  (str% "crlf", 2), (str% "cr", 1), (str% "digit", 1), (str% "dquote", 1), (str% "hexdig", 2), (str% "htab", 1), (str% "lf", 1),
  (str% "lwsp", 9), (str% "octet", 1), (str% "sp", 1), (str% "vchar", 1), (str% "wsp", 2), (str% "ctl", 1), (str% "char", 1)]

theorem abnf_simple : SimpleLeftRecursion Abnf.grammar :=
  simple_of Abnf.namesDistinct abnfRanks (by decide +kernel) (by decide +kernel)
theorem abnf_unbracketed : UnbracketedLeftRecursion Abnf.grammar :=
  unbracketed_of Abnf.namesDistinct abnfRanks (by decide +kernel) (by decide +kernel)
theorem abnf_elems : DistinctElems Abnf.grammar := distinctElems_of (by decide +kernel)
theorem abnf_series : NoEmptySeries Abnf.grammar := noEmptySeries_of (by decide +kernel)
theorem abnf_mins : ∀ r ∈ rulesReps (Abnf.grammar.rules ++ Core.rules), r.min ≤ 2 := by decide +kernel

/-! ## C82: IsValid on the ABNF grammar -/

/-- C82.  With the ABNF grammar `IsValid` answers for every rule and every input, and answers exactly. -/
theorem C82_exact (o : LOrders) (ho : o.Fair Abnf.grammar) (sched : Sched Nat) (hs : sched.Fair) (name : Str) (inp : Bytes) :
    ((∃ r, Resolves Abnf.grammar name r) → ∃ b, isValid o sched Abnf.grammar name inp = some (.ok b) ∧
      (b = true ↔ DerivesRule Abnf.grammar name inp)) ∧
    ((¬ ∃ r, Resolves Abnf.grammar name r) → isValid o sched Abnf.grammar name inp = none) := by
  have hret := C44_returns_partial Abnf.grammar Abnf.namesDistinct abnf_simple o ho sched hs name inp
  constructor
  · intro hr
    rcases hret with ⟨_, h2⟩ | ⟨b, h1, _⟩
    · exact absurd hr h2
    · refine ⟨b, h1, fun hb => ?_, fun hd => ?_⟩
      · rw [hb] at h1
        exact C04_sound Abnf.grammar Abnf.namesDistinct abnf_elems Abnf.numValsWF o ho sched hs name inp h1
      · have := C05_complete_partial Abnf.grammar Abnf.namesDistinct abnf_elems Abnf.numValsWF abnf_series abnf_simple abnf_unbracketed
          o ho sched hs name inp (fun r h => Or.inl (abnf_mins r h)) hd
        rw [h1] at this
        simpa using this
  · intro hr
    rcases hret with ⟨h1, _⟩ | ⟨b, _, h2⟩
    · exact h1
    · exact absurd h2 hr

/-- C82.  `ABNF.IsValid("rulelist", input)` says whether the input is an ABNF source text. -/
theorem C82_text (o : LOrders) (ho : o.Fair Abnf.grammar) (sched : Sched Nat) (hs : sched.Fair) (inp : Bytes) :
    ∃ b, isValid o sched Abnf.grammar (str% "rulelist") inp = some (.ok b) ∧ (b = true ↔ ∃ s ds, inp = utf8 s ∧ ReadsFile rfc s ds) := by
  obtain ⟨b, h1, h2⟩ := (C82_exact o ho sched hs (str% "rulelist") inp).1 ⟨Abnf.rulelist, (getRule_iff Abnf.namesDistinct).mp (by decide +kernel)⟩
  exact ⟨b, h1, h2.trans (C75_texts inp)⟩

/-! ## C83: generating from the ABNF grammar -/

theorem abnf_safe {n : Str} {r : Rule} {repMax : Int} (hm : 1 ≤ repMax) (hr : Resolves Abnf.grammar n r) : SafeReach Abnf.grammar repMax r := by
  intro r' hr'
  have h := safeReach_of (g := Abnf.grammar) (repMax := 16) (by decide +kernel) (by decide +kernel) hr r' hr'
  refine ⟨h.1, fun q hq => ?_⟩
  obtain ⟨h1, h2, h3, h4⟩ := h.2 q hq
  refine ⟨h1, h2, fun hq' => ?_, h4⟩
  have h5 : ∀ q ∈ rulesReps (Abnf.grammar.rules ++ Core.rules), q.min ≤ 1 ∨ q.max ≠ none := by decide +kernel
  rcases h5 q (reach_reps hr hr' hq) with h6 | h6
  · omega
  · exact absurd hq' h6

/-- C83.  Whatever the random numbers, the rule and the options, what `ABNF.Generate` returns is accepted by
`ABNF.IsValid`, and it does not panic. -/
theorem C83_generated (rnd : Nat → Nat) (o : GenOpts) (fuel : Nat) (name : Str) :
    (1 ≤ o.repMax → generate rnd o Abnf.grammar fuel name ≠ .panic) ∧
    ∀ w, generate rnd o Abnf.grammar fuel name = .ok (.ok w) → DerivesRule Abnf.grammar name w ∧
      ∀ (or : LOrders) (sched : Sched Nat), or.Fair Abnf.grammar → sched.Fair → isValid or sched Abnf.grammar name w = some (.ok true) := by
  refine ⟨fun hm => C54_nopanic_partial _ Abnf.namesDistinct name rnd o (fun r hr => abnf_safe hm hr) fuel, fun w h => ?_⟩
  by_cases hr : ∃ r, Resolves Abnf.grammar name r
  · obtain ⟨r, hr⟩ := hr
    have hd := C27_members_partial _ Abnf.namesDistinct name r hr (emitReach_of (by decide +kernel) hr) rnd o fuel w h
    refine ⟨hd, fun or sched ho hs => ?_⟩
    obtain ⟨b, h1, h2⟩ := (C82_exact or ho sched hs name w).1 ⟨r, hr⟩
    rw [h1, h2.mpr hd]
  · have := ((C53_refuses Abnf.grammar Abnf.namesDistinct name rnd o fuel).1).mpr hr
    rw [h] at this
    cases this

/-- C83.  `ParseABNF` takes what `ABNF.Generate(seed, "rulelist")` returns for an ABNF source text. -/
theorem C83_source (rnd : Nat → Nat) (o : GenOpts) (fuel : Nat) (w : Bytes)
    (h : generate rnd o Abnf.grammar fuel (str% "rulelist") = .ok (.ok w)) (sched : Sched NodeKey) (hf : sched.Fair) (opts : List ABNFOption) :
    ¬ ∃ e, parseABNF sched w opts = .error (.syntax e) := by
  rintro ⟨e, he⟩
  have hd := ((C83_generated rnd o fuel _).2 w h).1
  rcases C77_errors sched hf opts w _ he with ⟨p, hp⟩ | ⟨x, hx⟩ | ⟨_, x, hx⟩
  · rw [hp] at he
    exact (C77_syntax sched hf opts w).mp ⟨p, he⟩ ((C75_texts w).mp hd)
  · cases hx
  · cases hx

/-! ## C84: the AST generator on the ABNF grammar -/

theorem abnf_small : SmallMins Abnf.grammar := smallMins_of (by decide +kernel)

theorem abnf_writable {n : Str} {r : Rule} (hr : Resolves Abnf.grammar n r) : WritableReach Abnf.grammar r :=
  writable_of (by decide +kernel) (by decide +kernel) hr

/-- C84.  `NewASTGenerator(ABNF, rule)` succeeds for every rule. -/
theorem C84_accepts (sched : Sched (Str × Rule)) (hf : sched.Fair) (rounds : Nat) (h : astRounds Abnf.grammar ≤ rounds) (name : Str)
    (r : Rule) (hr : Resolves Abnf.grammar name r) : ∃ m, newASTGenerator sched rounds Abnf.grammar name = .ok (.ok (r, m)) := by
  rw [C58_accepts _ Abnf.namesDistinct abnf_small sched hf rounds h name r hr (abnf_writable hr)]
  have hself : Resolves Abnf.grammar r.name r := reach_self hr .refl
  rw [← C58_accepts _ Abnf.namesDistinct abnf_small plainRules plainRules_fair (astRounds Abnf.grammar) le_rfl r.name r hself (abnf_writable hr)]
  have hall : ((Abnf.grammar.rules ++ Core.rules).all fun r => match newASTGenerator plainRules (astRounds Abnf.grammar) Abnf.grammar r.name with
      | .ok (.ok _) => true | _ => false) = true := by decide +kernel
  have := List.all_eq_true.mp hall r (reach_rule hr .refl)
  split at this
  · rename_i p hp
    obtain ⟨res, h1, _, h3, _⟩ := C58_errors _ Abnf.namesDistinct abnf_small plainRules plainRules_fair (astRounds Abnf.grammar) le_rfl r.name
    rw [hp] at h1
    cases h1
    have := resolves_unique Abnf.namesDistinct (h3 p.1 p.2 rfl) hself rfl
    exact ⟨p.2, by rw [hp, ← this]⟩
  · cases this

/-- C84.  What it generates, from any source of randomness and with any options, is derived from the rule; generated
from `rulelist`, it is an ABNF source text. -/
theorem C84_members (sched : Sched (Str × Rule)) (hf : sched.Fair) (rounds : Nat) (hrounds : astRounds Abnf.grammar ≤ rounds) (name : Str)
    (r : Rule) (m : CostMap) (h : newASTGenerator sched rounds Abnf.grammar name = .ok (.ok (r, m)))
    {σ : Type} (S : Source σ) (hS : S.InRange) (o : AstOpts) (fuel : Nat) (hfuel : o.maxDepth.toNat + 2 ^ 30 ≤ fuel) (s : σ) :
    ∃ w, astWalk S o Abnf.grammar.rules m fuel r s = .ok w ∧ DerivesRule Abnf.grammar name w ∧
      (name = str% "rulelist" → ∃ t ds, w = utf8 t ∧ ReadsFile rfc t ds) := by
  have hr : Resolves Abnf.grammar name r := by
    obtain ⟨res, h1, _, h3, _⟩ := C58_errors _ Abnf.namesDistinct abnf_small sched hf rounds hrounds name
    rw [h] at h1
    cases h1
    exact h3 r m rfl
  obtain ⟨w, h1, h2⟩ := C28_members_partial _ Abnf.namesDistinct abnf_small sched hf rounds hrounds name r m h (abnf_writable hr) S hS o fuel hfuel s
  exact ⟨w, h1, h2, fun hn => (C75_texts w).mp (hn ▸ h2)⟩

example : plainRules.Fair ∧ (∃ m, newASTGenerator plainRules (astRounds Abnf.grammar) Abnf.grammar (str% "rulelist") = .ok (.ok (Abnf.rulelist, m))) :=
  ⟨plainRules_fair, C84_accepts _ plainRules_fair _ le_rfl _ _ ((getRule_iff Abnf.namesDistinct).mp (by decide +kernel))⟩

example : (plainOrders Abnf.grammar).Fair Abnf.grammar ∧ plainSched.Fair ∧
    isValid (plainOrders Abnf.grammar) plainSched Abnf.grammar (str% "repeat") (bytes% "1*2") = some (.ok true) :=
  ⟨plainOrders_fair _, plainSched_fair, by decide +kernel⟩

example : generate (fun _ => 0) {} Abnf.grammar 9 (str% "repeat") = .ok (.ok (bytes% "0")) := by decide +kernel

end Verif.Props
