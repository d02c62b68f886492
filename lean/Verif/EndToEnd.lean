import Verif.PropsAllTrees
import Verif.Cmd
import Verif.CodegenText

/-!
# C106: from the source text of a grammar to answers about texts

`ParseABNF` (/repo/grammar.go:77-106) followed by `ParseForest` (/repo/sppf.go:664-691), `ParseBSR`
(/repo/bsr.go:555-589) or `IsValid` (/repo/grammar.go:19-40), in terms of the rules the source text states.
-/

namespace Verif
namespace Props
open Spec Text Eval Cli

theorem named_of_written {g : Grammar} (hw : ∀ r ∈ g.rules, r.written = true) : Spelt.Named (rulesReps (g.rules ++ Core.rules)) := by
  intro r hr he
  have : r.written = true := Cg.reps_written hw hr
  obtain ⟨mn, mx, e⟩ := r
  cases he
  cases this

theorem root_ne {g : Grammar} (hw : ∀ r ∈ g.rules, r.written = true) {root : Str} {inp : Bytes} (h : DerivesRule g root inp) : root ≠ [] := by
  rintro rfl
  unfold DerivesRule at h
  have key : ∀ r, Resolves g [] r → False := by
    intro r h
    have h1 : r.written = true ∧ SameName [] r.name := by
      cases h with
      | user h h' => exact ⟨hw r h, h'⟩
      | core h h' => exact ⟨core_written r h, h'⟩
    obtain ⟨h1, h2⟩ := h1
    obtain ⟨n, a⟩ := r
    cases h2
    cases h1
  cases h with
  | rule n r w h _ => exact key r h
  | term e cs h => cases h

/-- C106.  What `ParseForest` answers with a grammar read from a source text. -/
theorem C106_forest (sched : Sched NodeKey) (hf : sched.Fair) (opts : List ABNFOption) (hrc : (processOptions opts).redefineCore = false)
    (src : Bytes) (ds : List Def) (h : Says src ds) (hc : CaseConsistent (Grammar.mk (rulesOf ds)).strings) (g : Grammar)
    (hg : parseABNF sched src opts = .ok g) (root : Str) (sched' : Sched NodeKey) (hf' : sched'.Fair) (inp : Bytes) :
    ((∃ f, parseForest sched' inp g root 0 0 = .ok f) ↔ ∃ r, Resolves ⟨rulesOf ds⟩ root r) ∧
    ∀ N M f, parseForest sched' inp g root N M = .ok f →
      (f.valid = true ↔ DerivesRule ⟨rulesOf ds⟩ root inp) ∧
      (∀ ts : List ParseTree, ts.Nodup → (∀ t ∈ ts, WholeTree ⟨rulesOf ds⟩ root inp t) →
        ∃ n, f.numTrees = some n ∧ (n = -1 ∨ (ts.length : Int) ≤ n)) ∧
      (f.valid = true → f.ambiguous = some false →
        ∃ t, f.tree = some t ∧ ∀ d, WholeTree ⟨rulesOf ds⟩ root inp d ↔ d = t) := by
  have hw := C80_wellformed sched hf opts _ g hrc hg
  obtain ⟨rfl, _⟩ := (h.parses sched hf opts hrc g).mp hg
  have hwf := numValsWF_of_written hw.1
  have hdp := distinctPrint_of_written hw.1 hc
  have hnm := named_of_written hw.1
  refine ⟨?_, fun N M f hp => ⟨C01_exact _ hwf hw.2.1 hdp sched' hf' inp root N M f hp,
    C105_all _ hwf hw.2.1 hdp hnm sched' hf' inp root N M f hp, fun hv ha => ?_⟩⟩
  · rw [← C11_unbounded]
    constructor
    · rintro ⟨f, hp⟩
      exact ⟨_, (parseForest_ok hf' hp).1⟩
    · rintro ⟨sg, hs⟩
      obtain ⟨st0, hst⟩ := parseForest_eq (inp := inp) hf' hs
      have := hst 0
      rw [if_neg (by omega)] at this
      exact ⟨_, this⟩
  · obtain ⟨t, h1, h2, h3⟩ := C105_unique _ hwf hw.2.1 hdp hnm sched' hf' inp root (root_ne hw.1 ((C01_exact _ hwf hw.2.1 hdp sched' hf' inp root N M f hp).mp hv)) N M f hp hv ha
    exact ⟨t, h1, fun d => ⟨h3 d, fun hd => hd ▸ h2⟩⟩

/-- C106.  The same for `ParseBSR`. -/
theorem C106_bsr (sched : Sched NodeKey) (hf : sched.Fair) (opts : List ABNFOption) (hrc : (processOptions opts).redefineCore = false)
    (src : Bytes) (ds : List Def) (h : Says src ds) (hc : CaseConsistent (Grammar.mk (rulesOf ds)).strings) (g : Grammar)
    (hg : parseABNF sched src opts = .ok g) (root : Str) (sched' : Sched Nat) (hf' : sched'.Fair) (inp : Bytes) (N M : Nat) (f : BsrForest)
    (hp : parseBSR sched' inp g root N M = .ok f) :
    (f.valid = true ↔ DerivesRule ⟨rulesOf ds⟩ root inp) ∧
    (∀ ts : List ParseTree, ts.Nodup → (∀ t ∈ ts, WholeTree ⟨rulesOf ds⟩ root inp t) →
      ∃ n, f.numTrees = some n ∧ (n = -1 ∨ (ts.length : Int) ≤ n)) ∧
    (f.valid = true → f.ambiguous = some false →
      ∃ t F, (∀ fuel, F ≤ fuel → f.treeWith fuel = some t) ∧ ∀ d, WholeTree ⟨rulesOf ds⟩ root inp d ↔ d = shed t) := by
  have hw := C80_wellformed sched hf opts _ g hrc hg
  obtain ⟨rfl, _⟩ := (h.parses sched hf opts hrc g).mp hg
  have hwf := numValsWF_of_written hw.1
  have hdp := distinctPrint_of_written hw.1 hc
  have hnm := named_of_written hw.1
  refine ⟨C02_exact _ hwf hw.2.1 hdp sched' hf' inp root N M f hp,
    C105_bsr_all _ hwf hw.2.1 hdp hnm sched' hf' inp root N M f hp f rfl rfl (.refl _), fun hv ha => ?_⟩
  obtain ⟨t, F, h1, h2, h3⟩ := C105_bsr_unique _ hwf hw.2.1 hdp hnm sched' hf' inp root
    (root_ne hw.1 ((C02_exact _ hwf hw.2.1 hdp sched' hf' inp root N M f hp).mp hv)) N M f hp f rfl rfl (.refl _) hv ha
  exact ⟨t, F, h1, fun d => ⟨h3 d, fun hd => hd ▸ h2⟩⟩

/-- C106.  `IsValid` with a grammar read from a source text accepts nothing that the source text does not. -/
theorem C106_isValid (sched : Sched NodeKey) (hf : sched.Fair) (opts : List ABNFOption) (hrc : (processOptions opts).redefineCore = false)
    (src : Bytes) (ds : List Def) (h : Says src ds) (hc : CaseConsistent (Grammar.mk (rulesOf ds)).strings) (g : Grammar)
    (hg : parseABNF sched src opts = .ok g) (root : Str) (o : LOrders) (ho : o.Fair g) (sched' : Sched Nat) (hf' : sched'.Fair) (inp : Bytes) :
    (isValid o sched' g root inp = none ↔ ¬ ∃ r, Resolves ⟨rulesOf ds⟩ root r) ∧
    (isValid o sched' g root inp = some (.ok true) → DerivesRule ⟨rulesOf ds⟩ root inp) := by
  have hw := C80_wellformed sched hf opts _ g hrc hg
  obtain ⟨rfl, _⟩ := (h.parses sched hf opts hrc g).mp hg
  refine ⟨?_, C04_sound_written _ hw.1 hc hw.2.1 o ho sched' hf' root inp⟩
  unfold isValid
  cases hr : getRule root (rulesOf ds) with
  | none =>
    simp only [true_iff]
    rintro ⟨r, h'⟩
    have := resolves_getRule hw.2.1 h'
    rw [hr] at this
    cases this
  | some r =>
    obtain ⟨m, hm, _, _⟩ := leftRec_spec hw.2.1 ho
    simp only [hm, isValidWith, hr, reduceCtorEq, false_iff, not_not]
    exact ⟨r, getRule_resolves hr⟩

/-- C106.  The same for the parser emitted from a source text. -/
theorem C106_generated (sched : Sched NodeKey) (hf : sched.Fair) (opts : List ABNFOption) (hrc : (processOptions opts).redefineCore = false)
    (src : Bytes) (ds : List Def) (h : Says src ds) (hc : CaseConsistent (Grammar.mk (rulesOf ds)).strings) (root : Str) (p : Cg.Prog)
    (hg : generateFromABNF sched src root opts = .ok p) (sched' : Sched Nat) (hf' : sched'.Fair) (inp : Bytes) :
    ∃ r F, (∀ fuel, F ≤ fuel → Cg.parse p 0 sched' fuel inp = .result r) ∧
      (r.valid p = true ↔ DerivesRule ⟨rulesOf ds⟩ root inp) ∧
      (r.valid p = true → r.ambiguous p = some false →
        ∃ t F', (∀ fuel, F' ≤ fuel → r.treeWith p fuel = some t) ∧ ∀ d, WholeTree ⟨rulesOf ds⟩ root inp d ↔ d = shed t) := by
  obtain ⟨g, h1, h2⟩ := generateFrom_ok.mp hg
  have hw := C80_wellformed sched hf opts _ g hrc h1
  obtain ⟨rfl, _⟩ := (h.parses sched hf opts hrc g).mp h1
  have hwf := numValsWF_of_written hw.1
  have hdp := distinctPrint_of_written hw.1 hc
  obtain ⟨r, F, h3, h4⟩ := C45_language_partial _ hwf hw.2.1 hdp root p h2 sched' hf' inp
  refine ⟨r, F, h3, h4, fun hv ha => ?_⟩
  obtain ⟨r', F', h5, _, h6⟩ := C105_generated _ hwf hw.2.1 hdp (named_of_written hw.1) root (root_ne hw.1 (h4.mp hv)) p h2 sched' hf' inp
  obtain rfl : r = r' := by
    have := (h3 (F + F') (by omega)).symm.trans (h5 (F + F') (by omega))
    cases this
    rfl
  obtain ⟨t, F', k1, k2, k3⟩ := h6 hv ha
  exact ⟨t, F', k1, fun d => ⟨k3 d, fun hd => hd ▸ k2⟩⟩

/-- C106 for the text of the examples of C78. -/
example (sched : Sched NodeKey) (hf : sched.Fair) : Says (utf8 srcText) srcDefs ∧ (processOptions []).redefineCore = false ∧
    CaseConsistent (Grammar.mk (rulesOf srcDefs)).strings ∧ parseABNF sched (utf8 srcText) [] = .ok srcGrammar ∧
    ((askForest (parseForest fwd (bytes% "AB") srcGrammar ['a'] 0 0) exprTree).map fun a => (a.1, a.2.2.1)) = some (true, some false) ∧
    (match parseBSR fwd (bytes% "AB") srcGrammar ['a'] 0 0 with
      | .ok f => some (f.valid, f.ambiguous) | .error _ => none) = some (true, some false) ∧
    isValid (plainOrders srcGrammar) plainSched srcGrammar ['a'] (bytes% "AB") = some (.ok true) ∧
    ∃ p, generateFromABNF sched (utf8 srcText) ['a'] [] = .ok p := by
  refine ⟨src_says, rfl, by rw [rulesOf_eq]; unfold CaseConsistent; decide, src_parses sched hf, by decide +kernel, by decide +kernel, by decide +kernel, ?_⟩
  refine (C81_generates sched [] _ _).mpr ⟨_, src_parses sched hf, ?_⟩
  have h : (match compileSlots srcGrammar (str% "a") 65536 with | .ok _ => true | .error _ => false) = true := by decide +kernel
  cases hc : compileSlots srcGrammar (str% "a") 65536 with
  | ok sg => exact ⟨sg, rfl⟩
  | error e => rw [hc] at h; cases h

end Props
end Verif
