import Verif.AbnfPrint
import Verif.AbnfUnambig
import Verif.PropsUnambig
import Verif.PropsAnalysis
import Verif.PropsRecog
import Verif.PropsCodegen

/-!
# C75-C81: ABNF source texts, and what `ParseABNF` makes of them
-/

namespace Verif
namespace Props
open Spec Text Eval

/-- The compilation of the grammar of ABNF succeeds. -/
theorem abnf_compiles : ∃ sg, compileSlots Abnf.grammar (str% "rulelist") 65536 = .ok sg := by
  have h : (match compileSlots Abnf.grammar (str% "rulelist") 65536 with | .ok _ => true | .error _ => false) = true := by
    decide +kernel
  cases hc : compileSlots Abnf.grammar (str% "rulelist") 65536 with
  | ok sg => exact ⟨sg, rfl⟩
  | error e => rw [hc] at h; cases h

/-- `ParseForest` never fails on the grammar of ABNF with the default options. -/
theorem abnf_forest (sched : Sched NodeKey) (hf : sched.Fair) (inp : Bytes) :
    ∃ f, parseForest sched inp Abnf.grammar (str% "rulelist") 0 65536 = .ok f := by
  obtain ⟨sg, hsg⟩ := abnf_compiles
  obtain ⟨st, h⟩ := parseForest_eq hf (inp := inp) hsg
  rw [h 0, if_neg (fun h => absurd h.1 (lt_irrefl 0))]
  exact ⟨_, rfl⟩

/-- What the tree of a valid forest says. -/
theorem abnf_tree {sched : Sched NodeKey} (hf : sched.Fair) {inp : Bytes} {N M : Nat} {f : Forest}
    (h : parseForest sched inp Abnf.grammar (str% "rulelist") N M = .ok f) (hv : f.valid = true) :
    ∃ t s ds, f.tree = some t ∧ inp = utf8 s ∧ ReadsFile code s ds ∧ Eval.defs inp t.children = .ok ds := by
  obtain ⟨_, t, ht, hd⟩ := (C74_sppf _ Abnf.numValsWF Abnf.distinctPrint Abnf.unambiguous sched hf inp _ N M f h).2 hv
  obtain ⟨t', r, ht', hr, h1, h2, h3, _⟩ := C39_tree _ Abnf.numValsWF Abnf.distinctPrint sched hf inp _ N M f h hv
  rw [ht] at ht'
  obtain rfl := Option.some.inj ht'
  have hn : r.name = str% "rulelist" := by
    have : (getRule (str% "rulelist") Abnf.grammar.rules).map Rule.name = some (str% "rulelist") := by decide +kernel
    rw [hr] at this
    exact Option.some.inj this
  obtain ⟨n, i, j, ch⟩ := t
  change n = r.name at h1
  change i = 0 at h2
  change j = inp.length at h3
  subst h1 h2 h3
  obtain ⟨s, hat, hnode⟩ := tree_means hd (by rw [hn]; decide)
  obtain ⟨ds, hds, he⟩ := (hnode _ ((sameName_iff _ _).mpr rfl)).means.list hn
  refine ⟨_, s, ds, ht, ?_, hds, he⟩
  obtain ⟨⟨u, hu⟩, hx⟩ := hat
  rw [List.drop_zero] at hu
  have : u = [] := by
    have := congrArg List.length hu
    rw [List.length_append] at this
    exact List.eq_nil_of_length_eq_zero (by omega)
  rw [this, List.append_nil] at hu
  exact hu.symm

/-- C75.  The grammar held in the variable `ABNF` derives exactly the source texts RFC 5234 and RFC 7405 describe. -/
theorem C75_texts (w : Bytes) :
    DerivesRule Abnf.grammar (str% "rulelist") w ↔ ∃ s ds, w = utf8 s ∧ ReadsFile rfc s ds := by
  constructor
  · intro h
    obtain ⟨f, hp⟩ := abnf_forest fwd fwd_fair w
    have hv := (C01_exact _ Abnf.numValsWF Abnf.namesDistinct Abnf.distinctPrint fwd fwd_fair w _ 0 65536 f hp).mpr h
    obtain ⟨_, s, ds, _, rfl, hr, _⟩ := abnf_tree fwd_fair hp hv
    obtain ⟨ds', h'⟩ := file_any (cv' := rfc) hr
    exact ⟨s, ds', rfl, h'⟩
  · rintro ⟨s, ds, rfl, h⟩
    exact Abnf.says_rulelist.mpr (file_any h)

/-- C75.  A source text is read in one way only. -/
theorem C75_once (s s' : Str) (ds ds' : List Def) (he : utf8 s = utf8 s') (h : ReadsFile rfc s ds) (h' : ReadsFile rfc s' ds') :
    ds = ds' := by
  rw [utf8_inj he] at h
  exact h.unique h'

/-- C76.  Parsing with the grammar held in the variable `ABNF` is never ambiguous, whatever the start rule. -/
theorem C76_sppf (sched : Sched NodeKey) (hf : sched.Fair) (inp : Bytes) (root : Str) (maxNodes maxSlots : Nat) (f : Forest)
    (h : parseForest sched inp Abnf.grammar root maxNodes maxSlots = .ok f) :
    f.ambiguous = some false ∧
    (f.valid = true → f.numTrees = some 1 ∧ ∃ t, f.tree = some t ∧ DerivationTree Abnf.grammar inp t) :=
  C74_sppf _ Abnf.numValsWF Abnf.distinctPrint Abnf.unambiguous sched hf inp root maxNodes maxSlots f h

/-- C76 for the BSR set. -/
theorem C76_bsr (sched : Sched Nat) (hf : sched.Fair) (inp : Bytes) (root : Str) (maxElems maxSlots : Nat) (f₀ : BsrForest)
    (h : parseBSR sched inp Abnf.grammar root maxElems maxSlots = .ok f₀)
    (f : BsrForest) (hs : f.sg = f₀.sg) (hi : f.input = f₀.input) (hp : f.set.Perm f₀.set) :
    f.ambiguous = some false ∧ (f.valid = true → f.numTrees = some 1 ∧
      ∃ t F, (∀ fuel, F ≤ fuel → f.treeWith fuel = some t) ∧ DerivationTree Abnf.grammar inp t) :=
  C74_bsr _ Abnf.numValsWF Abnf.distinctPrint Abnf.unambiguous sched hf inp root maxElems maxSlots f₀ h f hs hi hp

/-- Evaluating the children of a `rulelist` node is evaluating the definitions they are. -/
theorem rules_eq {inp : Bytes} {rc : Bool} : ∀ {ts : List ParseTree} {ds : List Def} {st : EvalSt}, Eval.defs inp ts = .ok ds →
    Eval.rules inp rc st ts = match evalDefsFrom rc st ds with | .error e => .error (.eval e) | .ok st' => .ok st'
  | [], ds, st, h => by
    rw [Eval.defs] at h
    obtain rfl := Except.ok.inj h
    rfl
  | t :: ts, ds, st, h => by
    rw [Eval.defs] at h
    rw [Eval.rules]
    split_ifs at h ⊢ with hr
    · cases hd : Eval.rule inp t with
      | error e => rw [hd] at h; cases h
      | ok d =>
        rw [hd] at h
        cases hds : Eval.defs inp ts with
        | error e => rw [hds] at h; cases h
        | ok ds' =>
          rw [hds] at h
          obtain rfl := Except.ok.inj h
          rw [evalDefsFrom]
          simp only
          cases evalDef rc st d with
          | error e => rfl
          | ok st' => exact rules_eq hds
    · exact rules_eq h

/-- What `ParseABNF` returns for a text with the definitions `ds`. -/
def outcome (o : AbnfOptions) (ds : List Def) : Except AbnfErr Grammar :=
  match evalRulelist o.redefineCore ds with
  | .error e => .error (.eval e)
  | .ok st =>
    if o.validate = true then
      match semvalABNF (grammarOf st) with
      | some e => .error (.semantic e)
      | none => .ok (grammarOf st)
    else .ok (grammarOf st)

/-- What `ParseABNF` returns for a source text, read as the code reads it. -/
theorem parseABNF_reads (sched : Sched NodeKey) (hf : sched.Fair) (opts : List ABNFOption) (s : Str) (ds : List Def)
    (h : ReadsFile code s ds) : parseABNF sched (utf8 s) opts = outcome (processOptions opts) ds := by
  obtain ⟨f, hp⟩ := abnf_forest sched hf (utf8 s)
  have hv := (C01_exact _ Abnf.numValsWF Abnf.namesDistinct Abnf.distinctPrint sched hf _ _ 0 65536 f hp).mpr
    (Abnf.says_rulelist.mpr ⟨ds, h⟩)
  obtain ⟨t, s', ds', ht, he, hr, hd⟩ := abnf_tree hf hp hv
  obtain rfl := utf8_inj he
  obtain rfl := h.unique hr
  have ha := (C76_sppf sched hf _ _ 0 65536 f hp).1
  unfold parseABNF
  simp only [hp, hv, ha, ht, evaluate, rules_eq hd]
  unfold outcome evalRulelist
  generalize evalDefsFrom _ _ _ = x
  cases x with
  | error e => rw [if_neg (by simp)]
  | ok st =>
    rw [if_neg (by simp)]
    simp only
    split_ifs
    · cases semvalABNF (grammarOf st) <;> rfl
    · rfl

theorem outcome_error {o : AbnfOptions} {ds : List Def} {e : AbnfErr} (h : outcome o ds = .error e) :
    (∃ x, e = .eval x) ∨ o.validate = true ∧ ∃ x, e = .semantic x := by
  unfold outcome at h
  split at h
  · exact .inl ⟨_, (Except.error.inj h).symm⟩
  · split_ifs at h with hv
    split at h
    · exact .inr ⟨hv, _, (Except.error.inj h).symm⟩
    · cases h

theorem outcome_syntax {o : AbnfOptions} {ds : List Def} {e : Option ParseError} (h : outcome o ds = .error (.syntax e)) : False := by
  rcases outcome_error h with ⟨x, hx⟩ | ⟨_, x, hx⟩ <;> cases hx

theorem parseABNF_rejects (sched : Sched NodeKey) (hf : sched.Fair) (opts : List ABNFOption) (inp : Bytes)
    (h : ¬ ∃ s ds, inp = utf8 s ∧ ReadsFile rfc s ds) : ∃ e, parseABNF sched inp opts = .error (.syntax (some e)) := by
  obtain ⟨f, hp⟩ := abnf_forest sched hf inp
  have hv : f.valid = false := by
    rw [← Bool.not_eq_true]
    intro hv
    obtain ⟨_, s, ds, _, rfl, hr, _⟩ := abnf_tree hf hp hv
    obtain ⟨ds', h'⟩ := file_any (cv' := rfc) hr
    exact h ⟨s, ds', rfl, h'⟩
  unfold parseABNF
  simp only [hp, hv, if_true, Forest.parseError, Bool.false_eq_true, if_false]
  exact ⟨_, rfl⟩

/-- C77.  `ParseABNF` returns a syntax error exactly for the inputs that are not ABNF source texts, and the error then
says where. -/
theorem C77_syntax (sched : Sched NodeKey) (hf : sched.Fair) (opts : List ABNFOption) (inp : Bytes) :
    (∃ e, parseABNF sched inp opts = .error (.syntax (some e))) ↔ ¬ ∃ s ds, inp = utf8 s ∧ ReadsFile rfc s ds := by
  constructor
  · rintro ⟨e, h⟩ ⟨s, ds, rfl, hr⟩
    obtain ⟨ds', hr'⟩ := file_any (cv' := code) hr
    rw [parseABNF_reads sched hf opts s ds' hr'] at h
    exact outcome_syntax h
  · exact fun h => parseABNF_rejects sched hf opts inp h

/-- C77.  Any other error is that of a definition or of the validation: a source text is never found ambiguous, and
its tree can always be evaluated. -/
theorem C77_errors (sched : Sched NodeKey) (hf : sched.Fair) (opts : List ABNFOption) (inp : Bytes) (e : AbnfErr)
    (h : parseABNF sched inp opts = .error e) :
    (∃ p, e = .syntax (some p)) ∨ (∃ x, e = .eval x) ∨ (processOptions opts).validate = true ∧ ∃ x, e = .semantic x := by
  by_cases ht : ∃ s ds, inp = utf8 s ∧ ReadsFile rfc s ds
  · obtain ⟨s, ds, rfl, hr⟩ := ht
    obtain ⟨ds', hr'⟩ := file_any (cv' := code) hr
    rw [parseABNF_reads sched hf opts s ds' hr'] at h
    exact .inr (outcome_error h)
  · obtain ⟨p, hp⟩ := parseABNF_rejects sched hf opts inp ht
    rw [hp] at h
    exact .inl ⟨p, (Except.error.inj h).symm⟩

/-- C77.  `EvaluateABNF` on the forest of a source text, built with any budget, gives what the definitions give; on the
forest of any other input it returns `ErrNoSolutionFound`. -/
theorem C77_evaluate (sched : Sched NodeKey) (hf : sched.Fair) (opts : List ABNFOption) (inp : Bytes) (maxNodes maxSlots : Nat)
    (f : Forest) (h : parseForest sched inp Abnf.grammar (str% "rulelist") maxNodes maxSlots = .ok f) :
    (∀ s ds, inp = utf8 s → ReadsFile code s ds → evaluate inp (processOptions opts) f.tree =
      match evalRulelist (processOptions opts).redefineCore ds with | .error e => .error (.eval e) | .ok st => .ok st) ∧
    ((¬ ∃ s ds, inp = utf8 s ∧ ReadsFile rfc s ds) → evaluate inp (processOptions opts) f.tree = .error (.tree .noSolution)) := by
  constructor
  · rintro s ds rfl hr
    have hv := (C01_exact _ Abnf.numValsWF Abnf.namesDistinct Abnf.distinctPrint sched hf _ _ maxNodes maxSlots f h).mpr
      (Abnf.says_rulelist.mpr ⟨ds, hr⟩)
    obtain ⟨t, s', ds', ht, he, hr', hd⟩ := abnf_tree hf h hv
    obtain rfl := utf8_inj he
    obtain rfl := hr.unique hr'
    rw [ht, evaluate, rules_eq hd]
    rfl
  · intro hn
    have hv : f.valid = false := by
      rw [← Bool.not_eq_true]
      intro hv
      obtain ⟨_, s, ds, _, rfl, hr, _⟩ := abnf_tree hf h hv
      obtain ⟨ds', h'⟩ := file_any (cv' := rfc) hr
      exact hn ⟨s, ds', rfl, h'⟩
    have : f.tree = none := by
      unfold Forest.valid at hv
      unfold Forest.tree
      cases hroot : f.root with
      | none => rfl
      | some r => rw [hroot] at hv; cases hv
    rw [this]
    rfl

/-- The definitions define each name once, before extending it, and no core rule. -/
def Ordered (ds : List Def) : Prop :=
  (∀ d ∈ ds, ¬ IsCoreName d.name) ∧
  ∀ i d, ds[i]? = some d →
    (d.extend = false → ∀ e ∈ ds.take i, ¬ SameName d.name e.name) ∧
    (d.extend = true → ∃ e ∈ ds.take i, SameName d.name e.name)

open scoped Classical in
/-- The rules the definitions give: each with the alternatives of all its definitions, in order. -/
noncomputable def rulesOf (ds : List Def) : List Rule :=
  (ds.filter fun d => !d.extend).map fun d => ⟨d.name, (ds.filter fun e => decide (SameName d.name e.name)).flatMap Def.alt⟩

/-- Every name is defined, no repetition has a minimum above its maximum, and no number is beyond Unicode. -/
def Sound (g : Grammar) : Prop :=
  ∀ q ∈ rulesReps g.rules,
    (∀ n, q.elem = .rulename n → ∃ r, Resolves g n r) ∧
    (∀ m, q.max = some m → q.min ≤ m) ∧
    (∀ b st es, q.elem = .numVal b st es → ∀ s ∈ es, ∃ v, Denotes b s v ∧ v ≤ 0x10FFFF)

theorem flatMap_written {ds es : List Def} (h : ∀ d ∈ ds, (Rule.mk d.name d.alt).written = true) (hs : es ⊆ ds) :
    altWritten (es.flatMap Def.alt) = true := by
  have app : ∀ a b : List (List Rep), altWritten a = true → altWritten b = true → altWritten (a ++ b) = true := by
    intro a b ha hb
    induction a with
    | nil => exact hb
    | cons c a ih =>
      simp only [altWritten, Bool.and_eq_true] at ha
      simp [altWritten, ha.1, ih ha.2]
  induction es with
  | nil => rfl
  | cons e es ih =>
    rw [List.flatMap_cons]
    have := h e (hs (by simp))
    simp only [Rule.written, Bool.and_eq_true] at this
    exact app _ _ this.2 (ih fun x hx => hs (by simp [hx]))

theorem rulesOf_written {ds : List Def} (h : ∀ d ∈ ds, (Rule.mk d.name d.alt).written = true) : ∀ r ∈ rulesOf ds, r.written = true := by
  intro r hr
  obtain ⟨d, hd, rfl⟩ := List.mem_map.mp hr
  have hd := (List.mem_filter.mp hd).1
  have h1 := h d hd
  simp only [Rule.written, Bool.and_eq_true, Bool.not_eq_true', List.isEmpty_eq_false_iff] at h1 ⊢
  refine ⟨⟨h1.1.1, ?_⟩, flatMap_written h ((List.filter_subset_self _))⟩
  intro hn
  exact h1.1.2 (List.flatMap_eq_nil_iff.mp hn d (List.mem_filter.mpr ⟨hd, by simp [sameName_iff]⟩))

theorem outcome_ok {cv : Conv} {o : AbnfOptions} {s : Str} {ds : List Def} (h : ReadsFile cv s ds) (hrc : o.redefineCore = false ∨ ∀ d ∈ ds, ¬ IsCoreName d.name)
    (g : Grammar) : outcome o ds = .ok g ↔ Ordered ds ∧ g.rules = rulesOf ds ∧ (o.validate = true → Sound g) := by
  have hev : evalRulelist o.redefineCore ds = evalRulelist false ds := by
    cases hc : o.redefineCore with
    | false => rfl
    | true =>
      rcases hrc with h | h
      · rw [hc] at h; cases h
      · exact C37_flag ds h
  have hval : ∀ st, evalRulelist false ds = .ok st → (grammarOf st).rules = rulesOf ds ∧
      (semvalABNF (grammarOf st) = none ↔ Sound (grammarOf st)) := by
    intro st hst
    have h1 : (grammarOf st).rules = rulesOf ds := by
      refine (C36_incremental ds st hst).1.trans ?_
      unfold rulesOf
      simp only [← equalFold_iff, Bool.decide_eq_true]
    have hw : ∀ r ∈ (grammarOf st).rules, r.written = true := by
      rw [h1]
      exact rulesOf_written (file_written h)
    exact ⟨h1, C17_exact _ (numValsWF_of_written hw)⟩
  rw [outcome, hev]
  constructor
  · intro h
    cases hst : evalRulelist false ds with
    | error e => rw [hst] at h; cases h
    | ok st =>
      obtain ⟨h1, h2⟩ := hval st hst
      have ho := (C37_strict_iff ds).mp ⟨st, hst⟩
      rw [hst] at h
      simp only at h
      split_ifs at h with hv
      · cases hs : semvalABNF (grammarOf st) with
        | some e => rw [hs] at h; cases h
        | none =>
          rw [hs] at h
          cases h
          exact ⟨ho, h1, fun _ => h2.mp hs⟩
      · cases h
        exact ⟨ho, h1, fun h => absurd h hv⟩
  · rintro ⟨ho, hg, hs⟩
    obtain ⟨st, hst⟩ := (C37_strict_iff ds).mpr ho
    obtain ⟨h1, h2⟩ := hval st hst
    have hg : g = grammarOf st := by
      cases g
      exact congrArg Grammar.mk (hg.trans h1.symm)
    subst hg
    rw [hst]
    simp only
    split_ifs with hv
    · rw [h2.mpr (hs hv)]
    · rfl

/-- C78, part.  `ParseABNF` returns the grammar the text says, and returns one exactly if every name is defined once
before it is extended and, under validation, the grammar is sound.  Missing: texts with a repeat count beyond an
`int` or with `=/` after a semicolon on a line, and texts that redefine core rules under the option for it. -/
theorem C78_exact_partial (sched : Sched NodeKey) (hf : sched.Fair) (opts : List ABNFOption) (s : Str) (ds : List Def)
    (h : ReadsFile rfc s ds) (hfit : ∀ d ∈ ds, ∀ r ∈ altReps d.alt, Fits r) (hq : Quiet s)
    (hrc : (processOptions opts).redefineCore = false ∨ ∀ d ∈ ds, ¬ IsCoreName d.name) (g : Grammar) :
    parseABNF sched (utf8 s) opts = .ok g ↔
      Ordered ds ∧ g.rules = rulesOf ds ∧ ((processOptions opts).validate = true → Sound g) := by
  rw [parseABNF_reads sched hf opts s ds (file_code h hfit hq)]
  exact outcome_ok h hrc g

theorem altReps_flat : ∀ a : Alt, altReps a = a.flatMap concatReps
  | [] => rfl
  | c :: a => by rw [altReps, altReps_flat a, List.flatMap_cons]

/-- C80.  A grammar `ParseABNF` returns without redefining core rules can be written down, its names are distinct and
none is that of a core rule, its counts fit in an `int`, and under validation it is sound. -/
theorem C80_wellformed (sched : Sched NodeKey) (hf : sched.Fair) (opts : List ABNFOption) (inp : Bytes) (g : Grammar)
    (hrc : (processOptions opts).redefineCore = false) (h : parseABNF sched inp opts = .ok g) :
    (∀ r ∈ g.rules, r.written = true) ∧ NamesDistinct g ∧ (∀ r ∈ g.rules, ¬ IsCoreName r.name) ∧
      (∀ q ∈ rulesReps g.rules, Fits q) ∧ ((processOptions opts).validate = true → Sound g) := by
  by_cases ht : ∃ s ds, inp = utf8 s ∧ ReadsFile rfc s ds
  · obtain ⟨s, ds, rfl, hr⟩ := ht
    obtain ⟨ds', hr'⟩ := file_any (cv' := code) hr
    rw [parseABNF_reads sched hf opts s ds' hr', outcome_ok hr' (.inl hrc)] at h
    obtain ⟨ho, hg, hs⟩ := h
    obtain ⟨st, hst⟩ := (C37_strict_iff ds').mpr ho
    have hst' : st.mp.map Prod.fst = g.rules := by
      rw [hg]
      refine (C36_incremental ds' st hst).1.trans ?_
      unfold rulesOf
      simp only [← equalFold_iff, Bool.decide_eq_true]
    have hd := C37_distinct ds' st hst
    rw [hst'] at hd
    refine ⟨?_, hd.1, hd.2, ?_, hs⟩
    · rw [hg]
      exact rulesOf_written (file_written hr')
    · intro q hq
      obtain ⟨r, hr, hq⟩ := List.mem_flatMap.mp hq
      rw [hg] at hr
      obtain ⟨d, hd, rfl⟩ := List.mem_map.mp hr
      rw [altReps_flat] at hq
      obtain ⟨c, hc, hq⟩ := List.mem_flatMap.mp hq
      obtain ⟨e, he, hc⟩ := List.mem_flatMap.mp hc
      refine file_fits hr' e (List.mem_filter.mp he).1 q ?_
      rw [altReps_flat]
      exact List.mem_flatMap.mpr ⟨c, hc, hq⟩
  · obtain ⟨p, hp⟩ := parseABNF_rejects sched hf opts inp ht
    rw [hp] at h
    cases h

/-- C80.  `ParseForest` accepts exactly the texts a grammar read from a source derives, if no text is written in it
both with and without `%s`. -/
theorem C80_language (sched : Sched NodeKey) (hf : sched.Fair) (opts : List ABNFOption) (src : Bytes) (g : Grammar)
    (hrc : (processOptions opts).redefineCore = false) (h : parseABNF sched src opts = .ok g) (hc : CaseConsistent g.strings)
    (sched' : Sched NodeKey) (hf' : sched'.Fair) (inp : Bytes) (root : Str) (maxNodes maxSlots : Nat) (f : Forest)
    (hp : parseForest sched' inp g root maxNodes maxSlots = .ok f) : f.valid = true ↔ DerivesRule g root inp :=
  have hw := C80_wellformed sched hf opts src g hrc h
  C01_exact g (numValsWF_of_written hw.1) hw.2.1 (distinctPrint_of_written hw.1 hc) sched' hf' inp root maxNodes maxSlots f hp

theorem filter_one {α : Type} {R : α → α → Prop} [DecidableRel R] (hr : ∀ a, R a a) (hs : ∀ a b, R a b → R b a) : ∀ {l : List α},
    l.Pairwise (fun a b => ¬ R a b) → ∀ a ∈ l, l.filter (fun b => decide (R a b)) = [a]
  | [], _, a, ha => by cases ha
  | b :: l, h, a, ha => by
    obtain ⟨h1, h2⟩ := List.pairwise_cons.mp h
    rcases List.mem_cons.mp ha with rfl | ha
    · rw [List.filter_cons_of_pos (by simpa using hr a), List.filter_eq_nil_iff.mpr fun b hb => by simpa using h1 b hb]
    · rw [List.filter_cons_of_neg (by simpa using fun h => h1 a ha (hs a b h))]
      exact filter_one hr hs h2 a ha

theorem rulesOf_plain {rs : List Rule} (hd : rs.Pairwise fun a b => ¬ SameName a.name b.name) :
    rulesOf (rs.map fun r => ⟨r.name, false, r.alt⟩) = rs := by
  classical
  have key : ∀ r ∈ rs, rs.filter (fun e => decide (SameName r.name e.name)) = [r] :=
    filter_one (R := fun a b : Rule => SameName a.name b.name) (fun a => (sameName_iff _ _).mpr rfl)
      (fun a b h => (sameName_iff _ _).mpr ((sameName_iff _ _).mp h).symm) hd
  unfold rulesOf
  rw [List.filter_eq_self.mpr (by simp), List.map_map]
  conv_rhs => rw [← List.map_id rs]
  refine List.map_congr_left fun r hr => ?_
  simp only [Function.comp_apply, List.filter_map, id]
  have := key r hr
  rw [show rs.filter ((fun e : Def => decide (SameName r.name e.name)) ∘ fun r => ⟨r.name, false, r.alt⟩) = [r] from by
    rw [← this]; congr]
  simp

theorem ordered_plain {rs : List Rule} (hd : rs.Pairwise fun a b => ¬ SameName a.name b.name) (hc : ∀ r ∈ rs, ¬ IsCoreName r.name) :
    Ordered (rs.map fun r => ⟨r.name, false, r.alt⟩) := by
  constructor
  · intro d h
    obtain ⟨r, hr, rfl⟩ := List.mem_map.mp h
    exact hc r hr
  · intro i d h
    rw [List.getElem?_map, Option.map_eq_some_iff] at h
    obtain ⟨r, hr, rfl⟩ := h
    refine ⟨fun _ e he => ?_, fun h => by cases h⟩
    rw [← List.map_take] at he
    obtain ⟨q, hq, rfl⟩ := List.mem_map.mp he
    obtain ⟨j, hj, rfl⟩ := List.getElem_of_mem hq
    rw [List.length_take] at hj
    rw [List.getElem_take]
    obtain ⟨hi, rfl⟩ := List.getElem?_eq_some_iff.mp hr
    intro hs
    exact List.pairwise_iff_getElem.mp hd j i (by omega) hi (by omega) ((sameName_iff _ _).mpr ((sameName_iff _ _).mp hs).symm)

theorem sound_uncased {g : Grammar} (h : Sound g) : Sound g.uncased := by
  intro q hq
  obtain ⟨r, hr, hq⟩ := List.mem_flatMap.mp hq
  obtain ⟨r, hm, rfl⟩ := List.mem_map.mp hr
  rw [altReps_uncased] at hq
  obtain ⟨⟨mn, mx, e⟩, hp, rfl⟩ := List.mem_map.mp hq
  obtain ⟨h1, h2, h3⟩ := h ⟨mn, mx, e⟩ (List.mem_flatMap.mpr ⟨r, hm, hp⟩)
  refine ⟨fun n hn => ?_, h2, fun b st es he => ?_⟩
  · change e.uncased = _ at hn
    have he : e = .rulename n := by cases e <;> simp [Elem.uncased] at hn; rw [hn]
    obtain ⟨r, hr⟩ := h1 n he
    cases hr with
    | user hm hs => exact ⟨_, .user (r := ⟨r.name, altUncased r.alt⟩) (List.mem_map.mpr ⟨r, hm, rfl⟩) hs⟩
    | core hm hs hu =>
      refine ⟨r, .core hm hs fun u hu' => ?_⟩
      obtain ⟨v, hv, rfl⟩ := List.mem_map.mp hu'
      exact hu v hv
  · change e.uncased = _ at he
    refine h3 b st es ?_
    cases e <;> simp [Elem.uncased] at he
    obtain ⟨rfl, rfl, rfl⟩ := he
    rfl

theorem uncased_of {g : Grammar} (h : ∀ p ∈ g.rules.flatMap (fun r => altStrings r.alt), p.1 = false) : g.uncased = g := by
  cases g with | mk rs =>
  unfold Grammar.uncased
  congr 1
  conv_rhs => rw [← List.map_id rs]
  refine List.map_congr_left fun r hr => ?_
  have hc : altUncased r.alt = r.alt := alt_uncased r.alt fun p hp => h p (List.mem_flatMap.mpr ⟨r, hr, hp⟩)
  rw [hc]
  rfl

/-- C79, part.  Reading back what `String` or `PrettyPrint` wrote gives the same rules without their case-sensitivity
markers.  The rules of `g` are in the order the map iteration visits them, and the hypotheses do not depend on it. -/
theorem C79_uncased_partial (g : Grammar) (hw : ∀ r ∈ g.rules, r.written = true) (h0 : g.rules ≠ []) (hd : NamesDistinct g)
    (hc : ∀ r ∈ g.rules, ¬ IsCoreName r.name) (hfit : ∀ q ∈ rulesReps g.rules, Fits q) (sched : Sched NodeKey) (hf : sched.Fair)
    (opts : List ABNFOption) (hs : (processOptions opts).validate = true → Sound g) :
    parseABNF sched (utf8 g.str) opts = .ok g.uncased ∧ parseABNF sched (utf8 g.pretty) opts = .ok g.uncased := by
  have hu : (g.rules.map fun r : Rule => (⟨r.name, false, altUncased r.alt⟩ : Def)) =
      g.uncased.rules.map fun r => ⟨r.name, false, r.alt⟩ := by
    simp [Grammar.uncased]
  have hd' : g.uncased.rules.Pairwise fun a b => ¬ SameName a.name b.name := by
    rw [Grammar.uncased, List.pairwise_map]
    exact hd
  have hc' : ∀ r ∈ g.uncased.rules, ¬ IsCoreName r.name := by
    intro r hr
    obtain ⟨q, hq, rfl⟩ := List.mem_map.mp hr
    exact hc q hq
  have key : ∀ s, ReadsFile code s (g.rules.map fun r => ⟨r.name, false, altUncased r.alt⟩) →
      parseABNF sched (utf8 s) opts = .ok g.uncased := by
    intro s hr
    rw [hu] at hr
    have ho := ordered_plain hd' hc'
    rw [parseABNF_reads sched hf opts s _ hr, outcome_ok hr (.inr ho.1)]
    exact ⟨ho, (rulesOf_plain hd').symm, fun h => sound_uncased (hs h)⟩
  exact ⟨key _ (str_reads g hw hfit h0), key _ (pretty_reads g hw hfit h0)⟩

/-- C79, part.  Without case-sensitive strings the same grammar is read back. -/
theorem C79_same_partial (g : Grammar) (hw : ∀ r ∈ g.rules, r.written = true) (h0 : g.rules ≠ []) (hd : NamesDistinct g)
    (hc : ∀ r ∈ g.rules, ¬ IsCoreName r.name) (hfit : ∀ q ∈ rulesReps g.rules, Fits q)
    (hi : ∀ p ∈ g.rules.flatMap (fun r => altStrings r.alt), p.1 = false) (sched : Sched NodeKey) (hf : sched.Fair)
    (opts : List ABNFOption) (hs : (processOptions opts).validate = true → Sound g) :
    parseABNF sched (utf8 g.str) opts = .ok g ∧ parseABNF sched (utf8 g.pretty) opts = .ok g := by
  have := C79_uncased_partial g hw h0 hd hc hfit sched hf opts hs
  rwa [uncased_of hi] at this

/-- C79, part.  What `ParseABNF` returned, printed with its rules in any order, is read back as those rules. -/
theorem C79_parsed_partial (sched : Sched NodeKey) (hf : sched.Fair) (opts : List ABNFOption) (src : Bytes) (g : Grammar)
    (hrc : (processOptions opts).redefineCore = false) (h : parseABNF sched src opts = .ok g) (h0 : g.rules ≠ [])
    (hi : ∀ p ∈ g.rules.flatMap (fun r => altStrings r.alt), p.1 = false) (g' : Grammar) (hp : g'.rules.Perm g.rules)
    (sched' : Sched NodeKey) (hf' : sched'.Fair) :
    parseABNF sched' (utf8 g'.str) opts = .ok g' ∧ parseABNF sched' (utf8 g'.pretty) opts = .ok g' := by
  obtain ⟨h1, h2, h3, h4, h5⟩ := C80_wellformed sched hf opts src g hrc h
  refine C79_same_partial g' (fun r hr => h1 r (hp.mem_iff.mp hr)) (fun hn => h0 ?_) ?_ (fun r hr => h3 r (hp.mem_iff.mp hr)) ?_ ?_ sched' hf'
    opts fun hv => ?_
  · rw [hn] at hp
    exact hp.symm.eq_nil
  · exact hp.symm.pairwise h2 fun h hs => h ((sameName_iff _ _).mpr ((sameName_iff _ _).mp hs).symm)
  · intro q hq
    obtain ⟨r, hr, hq⟩ := List.mem_flatMap.mp hq
    exact h4 q (List.mem_flatMap.mpr ⟨r, hp.mem_iff.mp hr, hq⟩)
  · intro p hq
    obtain ⟨r, hr, hq⟩ := List.mem_flatMap.mp hq
    exact hi p (List.mem_flatMap.mpr ⟨r, hp.mem_iff.mp hr, hq⟩)
  · intro q hq
    obtain ⟨r, hr, hq⟩ := List.mem_flatMap.mp hq
    obtain ⟨s1, s2, s3⟩ := h5 hv q (List.mem_flatMap.mpr ⟨r, hp.mem_iff.mp hr, hq⟩)
    refine ⟨fun n hn => ?_, s2, s3⟩
    obtain ⟨r, hr⟩ := s1 n hn
    cases hr with
    | user hm hs => exact ⟨r, .user (hp.mem_iff.mpr hm) hs⟩
    | core hm hs hu => exact ⟨r, .core hm hs fun u hu' => hu u (hp.mem_iff.mp hu')⟩

/-! ## Examples, and where C78 and C79 fail -/

/-- `a = "x"` and a comment, then `A =/ 2*3%x41-5A`, then an empty line. -/
def srcText : Str := str% "a = \"x\" ; c\r\nA =/ 2*3%x41-5A\r\n\r\n"
/-- What it says. -/
def srcDefs : List Def := [⟨str% "a", false, [[Ex.one (Ex.lit (str% "x"))]]⟩,
  ⟨str% "A", true, [[⟨2, some 3, .numVal (str% "x") .range [str% "41", str% "5A"]⟩]]⟩]

theorem src_reads : ReadsFile rfc srcText srcDefs := by
  refine ⟨by decide, ?_⟩
  have sp : Gap [' '] := gap_space
  have hx : ReadsAlt rfc (str% "\"x\"") [[Ex.one (Ex.lit (str% "x"))]] :=
    .one _ _ (.one _ _ (.mk [] _ _ _ _ .none (.string ['x'] (by decide))))
  have hr : ReadsAlt rfc (str% "2*3%x41-5A") [[⟨2, some 3, .numVal (str% "x") .range [str% "41", str% "5A"]⟩]] :=
    .one _ _ (.one _ _ (.mk (str% "2*3") _ _ _ _ (.between ['2'] ['3'] (by unfold Digit; decide) (by unfold Digit; decide))
      (.range 'x' ['x'] (str% "41") (str% "5A") (by unfold BaseLetter; decide) ((numeral_iff (by decide)).mp (by decide)) ((numeral_iff (by decide)).mp (by decide)))))
  have l1 := ReadsRule.define (str% "a") [' '] [' '] _ _ [' '] (str% "; c\r\n") (nameOK_iff.mp (by decide)) sp sp hx
    (by unfold Wsp; decide) (.comment (str% " c") (by unfold Wsp Visible; decide))
  have l2 := ReadsRule.extend (str% "A") [' '] [' '] _ _ [] (str% "\r\n") (nameOK_iff.mp (by decide)) sp sp hr
    (by simp) .plain
  exact .rule _ _ _ _ l1 (.rule _ _ _ _ l2 (.blank [] _ [] _ (by simp) .plain .nil))

theorem rulesOf_eq (ds : List Def) : rulesOf ds = (ds.filter fun d => !d.extend).map fun d =>
    ⟨d.name, (ds.filter fun e => equalFold d.name e.name).flatMap Def.alt⟩ := by
  unfold rulesOf
  simp only [← equalFold_iff, Bool.decide_eq_true]

/-- No `=/` before the end of the line. -/
def lineQuiet : Str → Bool
  | [] => true
  | c :: s => c == '\r' || (!(str% "=/").isPrefixOf (c :: s) && lineQuiet s)
/-- Decides `Quiet`. -/
def quietB : Str → Bool
  | [] => true
  | c :: s => (c != ';' || lineQuiet s) && quietB s

theorem lineQuiet_sound {c b : Str} (h : lineQuiet (c ++ '=' :: '/' :: b) = true) : '\r' ∈ c := by
  induction c with
  | nil => simp [lineQuiet] at h
  | cons x c ih =>
    simp only [List.cons_append, lineQuiet, Bool.or_eq_true, beq_iff_eq, Bool.and_eq_true] at h
    rcases h with rfl | ⟨_, h⟩
    · simp
    · exact List.mem_cons_of_mem _ (ih h)

theorem quiet_of {s : Str} (h : quietB s = true) : Quiet s := by
  rintro a c b rfl
  induction a with
  | nil =>
    simp only [List.nil_append, quietB, Bool.and_eq_true] at h
    exact lineQuiet_sound (by simpa using h.1)
  | cons x a ih =>
    simp only [List.cons_append, quietB, Bool.and_eq_true] at h
    exact ih h.2

theorem src_quiet : Quiet srcText := quiet_of (by decide)

theorem line_ends {cv : Conv} {s : Str} {ds : List Def} (h : ReadsLines cv s ds) : s = [] ∨ ∃ t, s = t ++ ['\n'] := by
  have hl : ∀ {l}, LineEnd l → ∃ t, l = t ++ ['\n'] := by
    intro l h
    cases h with
    | plain => exact ⟨['\r'], rfl⟩
    | comment s _ => exact ⟨';' :: (s ++ ['\r']), by simp⟩
  induction h with
  | nil => exact .inl rfl
  | rule s d t ds h _ ih =>
    right
    rcases ih with rfl | ⟨u, rfl⟩
    · cases h with
      | define n g₁ g₂ s a ws nl h1 h2 h3 h4 h5 h6 =>
        obtain ⟨u, rfl⟩ := hl h6
        exact ⟨n ++ (g₁ ++ '=' :: (g₂ ++ (s ++ (ws ++ u)))), by simp⟩
      | extend n g₁ g₂ s a ws nl h1 h2 h3 h4 h5 h6 =>
        obtain ⟨u, rfl⟩ := hl h6
        exact ⟨n ++ (g₁ ++ '=' :: '/' :: (g₂ ++ (s ++ (ws ++ u)))), by simp⟩
    · exact ⟨s ++ u, by simp⟩
  | blank ws nl t ds _ h2 _ ih =>
    right
    rcases ih with rfl | ⟨u, rfl⟩
    · obtain ⟨u, rfl⟩ := hl h2
      exact ⟨ws ++ u, by simp⟩
    · exact ⟨ws ++ (nl ++ u), by simp⟩

theorem sound_of {g : Grammar} (hw : ∀ r ∈ g.rules, r.written = true) (h : semvalABNF g = none) : Sound g :=
  (C17_exact g (numValsWF_of_written hw)).mp h

theorem ordered_of {ds : List Def} (h : ∃ st, evalRulelist false ds = .ok st) : Ordered ds := (C37_strict_iff ds).mp h

/-- The grammar of the text: `a = "x" / 2*3%x41-5A`. -/
def srcGrammar : Grammar := ⟨[⟨str% "a", [[Ex.one (Ex.lit (str% "x"))],
  [⟨2, some 3, .numVal (str% "x") .range [str% "41", str% "5A"]⟩]]⟩]⟩

theorem src_parses (sched : Sched NodeKey) (hf : sched.Fair) : parseABNF sched (utf8 srcText) [] = .ok srcGrammar := by
  rw [C78_exact_partial sched hf [] srcText srcDefs src_reads (by unfold Fits; decide) src_quiet (.inl rfl)]
  exact ⟨ordered_of ⟨_, rfl⟩, by rw [rulesOf_eq]; rfl, fun _ => sound_of (by decide) (by decide)⟩

/-- C75 to C78 for a text with a comment, an extension and an empty line. -/
example : DerivesRule Abnf.grammar (str% "rulelist") (utf8 srcText) := (C75_texts _).mpr ⟨_, _, rfl, src_reads⟩

/-- C76: the text is accepted from `rulelist`, so the hypotheses are met by a valid forest. -/
example : ∃ f, parseForest fwd (utf8 srcText) Abnf.grammar (str% "rulelist") 0 65536 = .ok f ∧ f.valid = true := by
  obtain ⟨f, h⟩ := abnf_forest fwd fwd_fair (utf8 srcText)
  exact ⟨f, h, (C01_exact _ Abnf.numValsWF Abnf.namesDistinct Abnf.distinctPrint fwd fwd_fair _ _ 0 65536 f h).mpr
    ((C75_texts _).mpr ⟨_, _, rfl, src_reads⟩)⟩

/-- C77: a text without an end of line is refused. -/
theorem no_newline (sched : Sched NodeKey) (hf : sched.Fair) : ∃ e, parseABNF sched (utf8 (str% "a = b")) [] = .error (.syntax (some e)) := by
  refine (C77_syntax sched hf [] _).mpr ?_
  rintro ⟨s, ds, he, _, h⟩
  obtain rfl := utf8_inj he
  rcases line_ends h with h | ⟨t, h⟩
  · cases h
  · have := congrArg List.getLast? h
    rw [List.getLast?_concat] at this
    revert this
    decide

/-- C78 fails: a repeat count beyond an `int` is read as another count. -/
theorem C78_count_fails (sched : Sched NodeKey) (hf : sched.Fair) : ∃ s ds g, ReadsFile rfc s ds ∧ Ordered ds ∧ Sound ⟨rulesOf ds⟩ ∧
    parseABNF sched (utf8 s) [] = .ok g ∧ g.rules ≠ rulesOf ds := by
  have key : ∀ cv : Conv, cv.extends_ [' '] false [' '] = false → ReadsFile cv (str% "a = 9223372036854775808\"x\"\r\n")
      [⟨str% "a", false, [[⟨cv.num (str% "9223372036854775808"), some (cv.num (str% "9223372036854775808")), Ex.lit (str% "x")⟩]]⟩] := by
    intro cv hx
    have h := ReadsRule.define (cv := cv) (str% "a") [' '] [' '] _ _ [] (str% "\r\n") (nameOK_iff.mp (by decide)) gap_space gap_space
      (.one _ _ (.one _ _ (.mk _ _ _ _ _ (.exactly (str% "9223372036854775808") (by decide) (by unfold Digit; decide))
        (.string ['x'] (by decide))))) (by simp) .plain
    rw [hx] at h
    exact ⟨by decide, .rule _ _ [] _ h .nil⟩
  have h1 := key rfc rfl
  have h2 := key code (by decide)
  have e1 : rfc.num (str% "9223372036854775808") = 9223372036854775808 := by decide
  have e2 : code.num (str% "9223372036854775808") = 9223372036854775807 := by decide +kernel
  rw [e1] at h1
  rw [e2] at h2
  refine ⟨_, _, ⟨[⟨str% "a", [[⟨9223372036854775807, some 9223372036854775807, Ex.lit (str% "x")⟩]]⟩]⟩, h1, ordered_of ⟨_, rfl⟩, ?_, ?_, ?_⟩
  · rw [rulesOf_eq]
    exact sound_of (by decide) (by decide)
  · rw [parseABNF_reads sched hf [] _ _ h2, outcome_ok h2 (.inl rfl)]
    exact ⟨ordered_of ⟨_, rfl⟩, by rw [rulesOf_eq]; rfl, fun _ => sound_of (by decide) (by decide)⟩
  · rw [rulesOf_eq]
    intro h
    have := congrArg (fun rs : List Rule => (rulesReps rs).map Rep.min) h
    revert this
    decide

/-- C78 fails: `=/` in a comment after the name turns a definition into an extension, here of a name not defined. -/
theorem C78_comment_fails (sched : Sched NodeKey) (hf : sched.Fair) : ∃ s ds, ReadsFile rfc s ds ∧ Ordered ds ∧ Sound ⟨rulesOf ds⟩ ∧
    parseABNF sched (utf8 s) [] = .error (.eval (.ruleNotFound (str% "b"))) := by
  have hg : Gap (str% " ;=/\r\n ") := .cons [' '] _ (.wsp ' ' (.inl rfl))
    (.cons (str% ";=/\r\n ") [] (.line (str% ";=/\r\n") ' ' (.comment (str% "=/") (by unfold Wsp Visible; decide)) (.inl rfl)) .nil)
  have key : ∀ cv : Conv, ReadsFile cv (str% "b ;=/\r\n = \"y\"\r\n")
      [⟨str% "b", cv.extends_ (str% " ;=/\r\n ") false [' '], [[Ex.one (Ex.lit (str% "y"))]]⟩] := by
    intro cv
    have h := ReadsRule.define (cv := cv) (str% "b") (str% " ;=/\r\n ") [' '] _ _ [] (str% "\r\n") (nameOK_iff.mp (by decide)) hg gap_space
      (.one _ _ (.one _ _ (.mk [] _ _ _ _ .none (.string ['y'] (by decide))))) (by simp) .plain
    exact ⟨by decide, .rule _ _ [] _ h .nil⟩
  have h1 := key rfc
  have h2 := key code
  rw [show code.extends_ (str% " ;=/\r\n ") false [' '] = true by decide] at h2
  refine ⟨_, _, h1, ordered_of ⟨_, rfl⟩, ?_, ?_⟩
  · rw [rulesOf_eq]
    exact sound_of (by decide) (by decide)
  · rw [parseABNF_reads sched hf [] _ _ h2]
    rfl

/-- C79 and C80: the grammar read above meets the hypotheses. -/
example : srcGrammar.rules ≠ [] ∧ (∀ p ∈ srcGrammar.rules.flatMap (fun r => altStrings r.alt), p.1 = false) ∧
    CaseConsistent srcGrammar.strings ∧ (∀ r ∈ srcGrammar.rules, r.written = true) ∧ (∀ q ∈ rulesReps srcGrammar.rules, Fits q) :=
  ⟨by simp [srcGrammar], by decide, by unfold CaseConsistent; decide, by decide, by unfold Fits; decide⟩
example : parseABNF fwd (utf8 srcGrammar.str) [] = .ok srcGrammar :=
  (C79_parsed_partial fwd fwd_fair [] _ srcGrammar rfl (src_parses fwd fwd_fair) (by simp [srcGrammar]) (by decide) srcGrammar (.refl _)
    fwd fwd_fair).1
/-- `PrettyPrint` pads the names. -/
example : Grammar.pretty ⟨[⟨str% "a", [[Ex.one (Ex.lit (str% "x"))]]⟩, ⟨str% "bcd", [[Ex.one (Ex.ref (str% "a"))]]⟩]⟩ =
    str% "a   = \"x\"\r\nbcd = a\r\n" := by decide

/-- C79 fails: a case-sensitive string is read back as a case-insensitive one. -/
theorem C79_case_fails (sched : Sched NodeKey) (hf : sched.Fair) : ∃ src g g', parseABNF sched src [] = .ok g ∧
    parseABNF sched (utf8 g.str) [] = .ok g' ∧ DerivesRule g' (str% "a") (bytes% "X") ∧ ¬ DerivesRule g (str% "a") (bytes% "X") := by
  have h := ReadsRule.define (cv := code) (str% "a") [' '] [' '] _ _ [] (str% "\r\n") (nameOK_iff.mp (by decide)) gap_space gap_space
    (.one _ _ (.one _ _ (.mk [] _ _ _ _ .none (.sensitive 's' ['x'] (.inl rfl) (by decide))))) (by simp) .plain
  rw [show code.extends_ [' '] false [' '] = false by decide] at h
  have h : ReadsFile code (str% "a = %s\"x\"\r\n") _ := ⟨by decide, .rule _ _ [] _ h .nil⟩
  refine ⟨_, ⟨[⟨str% "a", [[Ex.one (.charVal true (str% "x"))]]⟩]⟩, ⟨[⟨str% "a", [[Ex.one (.charVal false (str% "x"))]]⟩]⟩,
    by rw [parseABNF_reads sched hf [] _ _ h]; rfl, ?_, ?_, ?_⟩
  · refine (C79_uncased_partial ⟨[⟨str% "a", [[Ex.one (.charVal true (str% "x"))]]⟩]⟩ (by decide) (by simp) (namesDistinct_of (by decide)) ?_
      (by unfold Fits; decide) sched hf [] fun _ => sound_of (by decide) (by decide)).1
    intro r hr
    rw [List.mem_singleton] at hr
    subst hr
    exact (isCoreName_iff _).mp (by decide)
  · exact derives_of_forest (numValsWF_of (by decide)) (namesDistinct_of (by decide)) (distinctPrint_of (by decide +kernel)) (by decide +kernel)
  · exact not_derives_of_forest (numValsWF_of (by decide)) (namesDistinct_of (by decide)) (distinctPrint_of (by decide +kernel)) (by decide +kernel)

/-- C79 fails: a source without definitions gives a grammar that prints as the empty text, which is refused. -/
theorem C79_empty_fails (sched : Sched NodeKey) (hf : sched.Fair) : ∃ src g, parseABNF sched src [] = .ok g ∧
    ∃ e, parseABNF sched (utf8 g.str) [] = .error (.syntax (some e)) := by
  have h : ReadsFile code (str% "\r\n") [] := ⟨by decide, .blank [] _ [] _ (by simp) .plain .nil⟩
  refine ⟨utf8 (str% "\r\n"), ⟨[]⟩, by rw [parseABNF_reads sched hf [] _ _ h]; rfl, (C77_syntax sched hf [] _).mpr ?_⟩
  rintro ⟨s, ds, he, h0, _⟩
  exact h0 (utf8_inj he).symm

/-! ## C81 -/

/-- Errors of `GenerateGoParserFromABNF` (/repo/codegen.go:16-22). -/
inductive GenErr where
  | abnf (e : AbnfErr)
  | generate (e : ParseErr)

/-- `GenerateGoParserFromABNF` (/repo/codegen.go:16-22). -/
def generateFromABNF (sched : Sched NodeKey) (src : Bytes) (root : Str) (opts : List ABNFOption) : Except GenErr Cg.Prog :=
  match parseABNF sched src opts with
  | .error e => .error (.abnf e)
  | .ok g =>
    match Cg.generate g root with
    | .error e => .error (.generate e)
    | .ok p => .ok p

theorem generateFrom_ok {sched : Sched NodeKey} {src : Bytes} {root : Str} {opts : List ABNFOption} {p : Cg.Prog} :
    generateFromABNF sched src root opts = .ok p ↔ ∃ g, parseABNF sched src opts = .ok g ∧ Cg.generate g root = .ok p := by
  unfold generateFromABNF
  cases parseABNF sched src opts with
  | error e => simp
  | ok g =>
    cases hg : Cg.generate g root with
    | error e => simp [hg]
    | ok q => simp [hg]

/-- C81, part.  The parser emitted for an ABNF source accepts exactly the texts derived by the rules the source states.
Missing: sources with a repeat count beyond an `int` or with `=/` after a semicolon on a line, or with a text both with
and without `%s`; core rules redefined; parsers run with a budget. -/
theorem C81_language_partial (sched : Sched NodeKey) (hf : sched.Fair) (opts : List ABNFOption) (s : Str) (ds : List Def)
    (h : ReadsFile rfc s ds) (hfit : ∀ d ∈ ds, ∀ r ∈ altReps d.alt, Fits r) (hq : Quiet s)
    (hrc : (processOptions opts).redefineCore = false) (hc : CaseConsistent (Grammar.mk (rulesOf ds)).strings)
    (root : Str) (p : Cg.Prog) (hp : generateFromABNF sched (utf8 s) root opts = .ok p)
    (sched' : Sched Nat) (hf' : sched'.Fair) (inp : Bytes) :
    ∃ r F, (∀ fuel, F ≤ fuel → Cg.parse p 0 sched' fuel inp = .result r) ∧
      (r.valid p = true ↔ DerivesRule ⟨rulesOf ds⟩ root inp) := by
  obtain ⟨g, h1, h2⟩ := generateFrom_ok.mp hp
  have hw := C80_wellformed sched hf opts _ g hrc h1
  obtain ⟨_, hg, _⟩ := (C78_exact_partial sched hf opts s ds h hfit hq (.inl hrc) g).mp h1
  obtain rfl : g = ⟨rulesOf ds⟩ := by rw [← hg]
  exact C45_language_partial _ (numValsWF_of_written hw.1) hw.2.1 (distinctPrint_of_written hw.1 hc) root p h2 sched' hf' inp

/-- C81.  Generation fails exactly if the source is refused, the start rule or a rule it needs is missing, or the
grammar is too large. -/
theorem C81_generates (sched : Sched NodeKey) (opts : List ABNFOption) (src : Bytes) (root : Str) :
    (∃ p, generateFromABNF sched src root opts = .ok p) ↔
      ∃ g, parseABNF sched src opts = .ok g ∧ ∃ sg, compileSlots g root 65536 = .ok sg := by
  simp only [generateFrom_ok]
  constructor
  · rintro ⟨p, g, h1, h2⟩
    obtain ⟨sg, hc, _⟩ := Cg.generate_ok h2
    exact ⟨g, h1, sg, hc⟩
  · rintro ⟨g, h1, sg, hc⟩
    refine ⟨Cg.emit sg root, g, h1, ?_⟩
    · unfold Cg.generate
      rw [show Cg.defaultMaxSlots = 65536 from rfl, hc]

/-- C81 for the source above, whose grammar is `a = "x" / 2*3%x41-5A`. -/
example (sched : Sched NodeKey) (hf : sched.Fair) : (∃ p, generateFromABNF sched (utf8 srcText) (str% "a") [] = .ok p) ∧
    CaseConsistent (Grammar.mk (rulesOf srcDefs)).strings := by
  constructor
  · refine (C81_generates sched [] _ _).mpr ⟨_, src_parses sched hf, ?_⟩
    have h : (match compileSlots srcGrammar (str% "a") 65536 with | .ok _ => true | .error _ => false) = true := by decide +kernel
    cases hc : compileSlots srcGrammar (str% "a") 65536 with
    | ok sg => exact ⟨sg, rfl⟩
    | error e => rw [hc] at h; cases h
  · rw [rulesOf_eq]
    unfold CaseConsistent
    decide

end Props
end Verif
