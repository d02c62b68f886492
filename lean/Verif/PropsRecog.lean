import Verif.RecogCheck
import Verif.RecogTerm
import Verif.PropsSppf
import Verif.Print
import Verif.Findings

/-!
# Properties of `IsValid` and of the nullability analysis
-/

namespace Verif.Props
open Verif Verif.Spec

/-! ## The hypotheses hold of written grammars -/

theorem occurs_termWF {g : Grammar} (hwf : NumValsWF g) : ∀ e, Occurs g e → TermWF e := by
  rintro e ⟨r, hr, rfl⟩
  obtain ⟨R, hR, hr⟩ := List.mem_flatMap.mp hr
  rcases List.mem_append.mp hR with h | h
  · exact hwf r (List.mem_flatMap.mpr ⟨R, h, hr⟩)
  · have hRw := core_written R h
    simp only [Rule.written, Bool.and_eq_true] at hRw
    have := (altReps_written R.alt hRw.2 r hr).1
    obtain ⟨mn, mx, e⟩ := r
    exact termWF_written this

theorem occurs_written {g : Grammar} (hw : ∀ r ∈ g.rules, r.written = true) {e : Elem} (h : Occurs g e) :
    e.written = true ∧ e.strings ⊆ g.strings := by
  obtain ⟨r, hr, rfl⟩ := h
  obtain ⟨R, hR, hr⟩ := List.mem_flatMap.mp hr
  have hRw : R.written = true := by
    rcases List.mem_append.mp hR with h | h
    · exact hw R h
    · exact core_written R h
  simp only [Rule.written, Bool.and_eq_true] at hRw
  obtain ⟨h1, h2⟩ := altReps_written R.alt hRw.2 r hr
  obtain ⟨mn, mx, e⟩ := r
  exact ⟨h1, fun x hx => List.mem_flatMap.mpr ⟨R, hR, h2 hx⟩⟩

theorem noEmptySeries_of_written {g : Grammar} (hw : ∀ r ∈ g.rules, r.written = true) : NoEmptySeries g := by
  intro b h
  have := (occurs_written hw h).1
  simp [Elem.written] at this

theorem distinctElems_of_written {g : Grammar} (hw : ∀ r ∈ g.rules, r.written = true) (hc : CaseConsistent g.strings) :
    DistinctElems g := by
  refine ⟨fun e e' h h' hs => ?_, fun e h => ?_⟩
  · obtain ⟨h1, h2⟩ := occurs_written hw h
    obtain ⟨h3, h4⟩ := occurs_written hw h'
    exact Elem.uncased_inj _ hc e e' h2 h4 (elem_inj e e' [] [] h1 h3 stop_nil stop_nil (by simpa using hs)).1
  · have h1 := (occurs_written hw h).1
    have key : ∀ c s, e.str = c :: s → (c = '(' ∨ c = '[' ∨ c = '"' ∨ c = '%' ∨ c = '<') → ¬ ∃ r, Resolves g e.str r := by
      rintro c s hs hcs ⟨r, hr⟩
      have hname : nameOK r.name = true := by
        have : r.written = true := by
          rcases List.mem_append.mp (resolves_mem hr) with h | h
          · exact hw r h
          · exact core_written r h
        simp only [Rule.written, Bool.and_eq_true] at this
        exact this.1.1
      obtain ⟨⟨d, t, hd, ha⟩, _⟩ := nameOK_cases hname
      have hcan : canon r.name = canon e.str := resolves_name hr
      rw [hd, hs] at hcan
      simp only [canon, List.map_cons, List.cons.injEq] at hcan
      have hlc : lowerChar c = c := by rcases hcs with rfl | rfl | rfl | rfl | rfl <;> decide
      have := hcan.1
      rw [hlc] at this
      have hn := lowerChar_toNat d
      rw [this] at hn
      have hal : (65 ≤ d.toNat ∧ d.toNat ≤ 90) ∨ (97 ≤ d.toNat ∧ d.toNat ≤ 122) := by
        simpa [Char.isAlpha, Char.isUpper, Char.isLower, Char.le_def, UInt32.le_iff_toNat_le] using ha
      have hcn : c.toNat = 40 ∨ c.toNat = 91 ∨ c.toNat = 34 ∨ c.toNat = 37 ∨ c.toNat = 60 := by
        rcases hcs with rfl | rfl | rfl | rfl | rfl <;> simp [Char.toNat]
      split at hn <;> omega
    cases e with
    | rulename n => exact Or.inl ⟨n, rfl⟩
    | group a => exact Or.inr (key _ _ rfl (by simp))
    | option a => exact Or.inr (key _ _ rfl (by simp))
    | charVal a b => exact Or.inr (key _ _ rfl (by simp))
    | numVal a b c => exact Or.inr (key _ _ rfl (by simp))
    | proseVal a => exact Or.inr (key _ _ rfl (by simp))

/-! ## C23: nullability -/

/-- C23.  The analysis ends whatever the iteration orders and, unless the grammar has an empty num-val series, marks
every rule that derives nothing. -/
theorem C23_complete (g : Grammar) (hd : NamesDistinct g) (hne : NoEmptySeries g)
    (pass : Nat → List (Str × Rule) → List (Str × Rule)) (hp : ∀ t l, (pass t l).Perm l) (names : List Str)
    (hn : names.Perm (g.rules.map Rule.name ++ Core.rules.map Rule.name)) :
    ∃ null, nullableRules pass g names = .ok null ∧ ∀ n, Derives g (.rulename n) [] → canon n ∈ null := by
  obtain ⟨null, h1, _, h3⟩ := nullExact hd hp hn
  exact ⟨null, h1, fun n h => (h3 n).mpr (vanishes_of_derives hne h (Or.inr ⟨n, rfl⟩) rfl)⟩

/-- C23.  If moreover no repetition has contradictory bounds, it marks only those. -/
theorem C23_exact (g : Grammar) (hd : NamesDistinct g) (hne : NoEmptySeries g) (hb : BoundsOrdered g)
    (pass : Nat → List (Str × Rule) → List (Str × Rule)) (hp : ∀ t l, (pass t l).Perm l) (names : List Str)
    (hn : names.Perm (g.rules.map Rule.name ++ Core.rules.map Rule.name)) :
    ∃ null, nullableRules pass g names = .ok null ∧ ∀ n, canon n ∈ null ↔ Derives g (.rulename n) [] := by
  obtain ⟨null, h1, _, h3⟩ := nullExact hd hp hn
  exact ⟨null, h1, fun n => ⟨fun h => derives_of_vanishes hb ((h3 n).mp h) (by simp [elemReps]),
    fun h => (h3 n).mpr (vanishes_of_derives hne h (Or.inr ⟨n, rfl⟩) rfl)⟩⟩

/-- C23 for grammars that can be written in ABNF. -/
theorem C23_complete_written (g : Grammar) (hw : ∀ r ∈ g.rules, r.written = true) (hd : NamesDistinct g)
    (pass : Nat → List (Str × Rule) → List (Str × Rule)) (hp : ∀ t l, (pass t l).Perm l) (names : List Str)
    (hn : names.Perm (g.rules.map Rule.name ++ Core.rules.map Rule.name)) :
    ∃ null, nullableRules pass g names = .ok null ∧ ∀ n, Derives g (.rulename n) [] → canon n ∈ null :=
  C23_complete g hd (noEmptySeries_of_written hw) pass hp names hn

example : NamesDistinct Ex.nul ∧ NoEmptySeries Ex.nul ∧ BoundsOrdered Ex.nul ∧ plainNull Ex.nul = [str% "a", str% "lwsp"] :=
  ⟨Ex.nul_wf.2.1, noEmptySeries_of (by decide), boundsOrdered_of (by decide), by decide +kernel⟩

/-- `a = %d` followed by no number, as a caller may build it. -/
def emptySeries : Grammar := ⟨[⟨str% "a", [[Ex.one (.numVal ['d'] .series [])]]⟩]⟩

/-- C23 needs `NoEmptySeries`: an empty series derives nothing and is not marked. -/
theorem C23_needs_series : NamesDistinct emptySeries ∧ NumValsWF emptySeries ∧ Derives emptySeries (.rulename (str% "a")) [] ∧
    nullableRules (fun _ l => l) emptySeries (plainNames emptySeries) = .ok [str% "lwsp"] := by
  refine ⟨namesDistinct_of (by decide), numValsWF_of (by decide), ?_, by decide +kernel⟩
  refine .rule _ ⟨str% "a", _⟩ _ (.user (List.mem_cons_self ..) ((sameName_iff _ _).mpr rfl)) (.mk _ _ _ (List.mem_cons_self ..) ?_)
  exact .cons _ [] [] [] (Findings.rep_one (.term _ [] (.series _ _ _ .nil))) .nil

/-! ## C44: `IsValid` returns -/

theorem isValidWith_term (E : REnv) (hs : E.sched.Fair) (hmem : ∀ m scc, E.leftRec.lookup m = some scc → m ∈ scc) (name : Str) :
    isValidWith E name ≠ some .fuel ∧ (LRConsistent E.leftRec → isValidWith E name ≠ some .panic) := by
  unfold isValidWith
  cases hr : getRule name E.g.rules with
  | none => exact ⟨nofun, fun _ => nofun⟩
  | some r =>
    let K : List CallKey := ((rulesReps (E.g.rules ++ Core.rules)).map Rep.elem ++ [Elem.rulename name]).flatMap fun e =>
      (List.range (E.inp.length + 1)).map fun i => fileKey E e i
    let U : Elem → Prop := fun e => Occurs E.g e ∨ e = .rulename name
    have hU : Closed E.g U := by
      refine ⟨fun n r hn c hc q hq => Or.inl (occurs_rule (getRule_resolves hn) hc hq), fun a ha c hc q hq => ?_, fun a ha c hc q hq => ?_⟩
      · rcases ha with ha | ha
        · exact Or.inl (occurs_inner ha (a := a) (by simp [elemReps]) hc hq)
        · cases ha
      · rcases ha with ha | ha
        · exact Or.inl (occurs_inner ha (a := a) (by simp [elemReps]) hc hq)
        · cases ha
    have hK : ∀ e i, U e → i ≤ E.inp.length → fileKey E e i ∈ K := by
      intro e i he hi
      refine List.mem_flatMap.mpr ⟨e, ?_, List.mem_map.mpr ⟨i, List.mem_range.mpr (by omega), rfl⟩⟩
      rcases he with ⟨q, hq, rfl⟩ | rfl
      · exact List.mem_append_left _ (List.mem_map.mpr ⟨q, hq, rfl⟩)
      · simp
    have hlen : K.length = ((rulesReps (E.g.rules ++ Core.rules)).length + 1) * (E.inp.length + 1) := by
      simp [K, List.length_flatMap, Nat.add_mul, Function.comp_def, List.map_const']
    have := reachElem_term (K := K) hU hs hmem hK (rFuel E.g E.inp) (.rulename name) 0 rInit (Or.inr rfl) (Nat.zero_le _)
      ⟨lt_of_le_of_lt (List.length_filter_le _ _) (by rw [hlen, rFuel]; omega), fun _ _ h => (List.not_mem_nil h).elim,
        fun _ _ h => (List.not_mem_nil h).elim, fun _ _ _ _ _ h => by cases h⟩
    cases hx : reachElem E (rFuel E.g E.inp) (.rulename name) 0 rInit with
    | ok x => exact ⟨nofun, fun _ => nofun⟩
    | fuel => rw [hx] at this; exact this.elim
    | panic => rw [hx] at this; exact ⟨nofun, fun h => absurd h this⟩

/-- C44, part.  `IsValid` ends on every grammar, rule and input, whatever the iteration orders: the recursion never
gets deeper than the number of elements times the number of positions.  Missing: it may end in a panic, see
`C44_fails`. -/
theorem C44_terminates_partial (g : Grammar) (hd : NamesDistinct g) (o : LOrders) (ho : o.Fair g) (sched : Sched Nat) (hs : sched.Fair)
    (name : Str) (inp : Bytes) : isValid o sched g name inp ≠ some .fuel := by
  unfold isValid
  cases hr : getRule name g.rules with
  | none => nofun
  | some r =>
    obtain ⟨m, hm, hf, _⟩ := leftRec_spec hd ho
    simp only [hm]
    exact (isValidWith_term ⟨g, inp, m, sched⟩ hs hf.mem name).1

/-- C44, part.  If no rule that can start with itself is also on a longer left-recursive cycle, `IsValid` returns: it
reports a missing rule or answers.  Missing: other grammars, see `C44_fails`. -/
theorem C44_returns_partial (g : Grammar) (hd : NamesDistinct g) (hl : SimpleLeftRecursion g) (o : LOrders) (ho : o.Fair g)
    (sched : Sched Nat) (hs : sched.Fair) (name : Str) (inp : Bytes) :
    (isValid o sched g name inp = none ∧ ¬ ∃ r, Resolves g name r) ∨
    (∃ b, isValid o sched g name inp = some (.ok b) ∧ ∃ r, Resolves g name r) := by
  have hfu := C44_terminates_partial g hd o ho sched hs name inp
  unfold isValid at hfu ⊢
  cases hr : getRule name g.rules with
  | none => exact Or.inl ⟨rfl, no_resolve_of hr⟩
  | some r =>
    obtain ⟨m, hm, hf, hg⟩ := leftRec_spec hd ho
    simp only [hr, hm] at hfu ⊢
    have hpa := (isValidWith_term ⟨g, inp, m, sched⟩ hs hf.mem name).2 (hg hl).cons
    right
    cases hv : isValidWith ⟨g, inp, m, sched⟩ name with
    | none => unfold isValidWith at hv; simp [hr] at hv
    | some v =>
      cases v with
      | ok b => exact ⟨b, rfl, r, getRule_resolves hr⟩
      | panic => exact absurd hv hpa
      | fuel => exact absurd hv hfu

/-- The iteration orders that follow the source. -/
def plainOrders (g : Grammar) : LOrders := ⟨fun _ l => l, plainNames g, plainNames g, fun l => l⟩

theorem plainOrders_fair (g : Grammar) : (plainOrders g).Fair g :=
  ⟨fun _ l => .refl l, .refl _, .refl _, fun l => .refl l⟩

/-- The order of sets that follows insertion. -/
def plainSched : Sched Nat := fun _ l => l

theorem plainSched_fair : plainSched.Fair := fun _ l => .refl l

example : NamesDistinct Ex.expr ∧ SimpleLeftRecursion Ex.expr :=
  ⟨Ex.expr_wf.2.1, simple_of Ex.expr_wf.2.1 [(str% "expr", 2), (str% "term", 1)] (by decide +kernel) (by decide +kernel)⟩

/-- `a = b "x" / "y"`, `b = a "z" / 2*3("w" / "ww")`: a left-recursive cycle of two rules. -/
def mutualLeft : Grammar := ⟨[
  ⟨str% "a", [[Ex.one (Ex.ref (str% "b")), Ex.one (Ex.lit (str% "x"))], [Ex.one (Ex.lit (str% "y"))]]⟩,
  ⟨str% "b", [[Ex.one (Ex.ref (str% "A")), Ex.one (Ex.lit (str% "z"))],
    [⟨2, some 3, .group [[Ex.one (Ex.lit (str% "w"))], [Ex.one (Ex.lit (str% "ww"))]]⟩]]⟩]⟩

theorem mutualLeft_nd : NamesDistinct mutualLeft := namesDistinct_of (by decide)

theorem mutualLeft_simple : SimpleLeftRecursion mutualLeft :=
  simple_of mutualLeft_nd [(str% "a", 1), (str% "b", 1)] (by decide +kernel) (by decide +kernel)

/-- `a = a "x" / b "y" / "z"`, `b = a "w"`: the first rule starts with itself and is on a longer cycle. -/
def nested : Grammar := ⟨[
  ⟨str% "a", [[Ex.one (Ex.ref (str% "a")), Ex.one (Ex.lit (str% "x"))], [Ex.one (Ex.ref (str% "b")), Ex.one (Ex.lit (str% "y"))],
    [Ex.one (Ex.lit (str% "z"))]]⟩,
  ⟨str% "b", [[Ex.one (Ex.ref (str% "a")), Ex.one (Ex.lit (str% "w"))]]⟩]⟩

/-- C44 fails: with these iteration orders `IsValid` writes to a nil map. -/
theorem C44_fails : ∃ (g : Grammar) (o : LOrders) (sched : Sched Nat), NamesDistinct g ∧ NumValsWF g ∧ o.Fair g ∧ sched.Fair ∧
    isValid o sched g (str% "a") (bytes% "zx") = some .panic :=
  ⟨nested, plainOrders nested, plainSched, namesDistinct_of (by decide), numValsWF_of (by decide), plainOrders_fair _, plainSched_fair,
    by decide +kernel⟩

/-! ## C04: soundness -/

/-- C04.  What `IsValid` accepts is derivable. -/
theorem C04_sound (g : Grammar) (hd : NamesDistinct g) (hde : DistinctElems g) (hwf : NumValsWF g) (o : LOrders) (ho : o.Fair g)
    (sched : Sched Nat) (hs : sched.Fair) (name : Str) (inp : Bytes) (h : isValid o sched g name inp = some (.ok true)) :
    DerivesRule g name inp := by
  unfold isValid at h
  cases hr : getRule name g.rules with
  | none => rw [hr] at h; cases h
  | some r =>
    obtain ⟨m, hm, hf, _⟩ := leftRec_spec hd ho
    simp only [hr, hm] at h
    exact isValidWith_sound (E := ⟨g, inp, m, sched⟩) hde (occurs_termWF hwf) (fun n scc hn => (hf.res n scc hn n (hf.mem n scc hn)).2) hs h

/-- C04 for grammars that can be written in ABNF and use no text both case-sensitively and case-insensitively. -/
theorem C04_sound_written (g : Grammar) (hw : ∀ r ∈ g.rules, r.written = true) (hc : CaseConsistent g.strings) (hd : NamesDistinct g)
    (o : LOrders) (ho : o.Fair g) (sched : Sched Nat) (hs : sched.Fair) (name : Str) (inp : Bytes)
    (h : isValid o sched g name inp = some (.ok true)) : DerivesRule g name inp :=
  C04_sound g hd (distinctElems_of_written hw hc) (numValsWF_of_written hw) o ho sched hs name inp h

example : NamesDistinct Ex.expr ∧ DistinctElems Ex.expr ∧ NumValsWF Ex.expr ∧
    isValid (plainOrders Ex.expr) plainSched Ex.expr (str% "expr") (bytes% "(1+2)+3") = some (.ok true) :=
  ⟨Ex.expr_wf.2.1, distinctElems_of (by decide +kernel), Ex.expr_wf.1, by decide +kernel⟩

/-- `a = "x" "b" / %s"x" "c"`. -/
def printed : Grammar := ⟨[⟨str% "a", [
  [Ex.one (Ex.lit (str% "x")), Ex.one (Ex.lit (str% "b"))],
  [Ex.one (.charVal true (str% "x")), Ex.one (Ex.lit (str% "c"))]]⟩]⟩

/-! ## C05: completeness -/

/-- C05, part.  `IsValid` accepts every derivable input if no rule that can start with itself is on a longer
left-recursive cycle, left recursion does not pass through groups or options, and every repetition is of a kind the
counting loop gets right.  Missing: other grammars, see `C05_fails`, `C05_fails_brackets` and `C05_fails_cap`. -/
theorem C05_complete_partial (g : Grammar) (hd : NamesDistinct g) (hde : DistinctElems g) (hwf : NumValsWF g) (hne : NoEmptySeries g)
    (hl : SimpleLeftRecursion g) (hu : UnbracketedLeftRecursion g) (o : LOrders) (ho : o.Fair g) (sched : Sched Nat) (hs : sched.Fair)
    (name : Str) (inp : Bytes) (hr : ∀ r ∈ rulesReps (g.rules ++ Core.rules), Countable g inp.length r)
    (h : DerivesRule g name inp) : isValid o sched g name inp = some (.ok true) := by
  have hres : ∃ r, Resolves g name r := by
    cases h with
    | rule _ r _ hr _ => exact ⟨r, hr⟩
    | term _ _ ht => cases ht
  rcases C44_returns_partial g hd hl o ho sched hs name inp with ⟨_, h2⟩ | ⟨b, h1, _⟩
  · exact absurd hres h2
  · have h3 := h1
    unfold isValid at h1
    cases hr' : getRule name g.rules with
    | none => rw [hr'] at h1; cases h1
    | some r =>
      obtain ⟨m, hm, hf, hg⟩ := leftRec_spec hd ho
      simp only [hr', hm] at h1
      have hF : Fit ⟨g, inp, m, sched⟩ := ⟨hd, hde, occurs_termWF hwf, hne, hg hl, hu, hr, hs⟩
      rw [h3, isValidWith_complete hF h h1]

/-- C05 for grammars that can be written in ABNF: if no left recursion passes through groups or options and every repetition has a
lower bound of at most two, or else texts that are not empty and an upper bound equal to the lower one, or texts of which none is a
proper prefix of another, or texts closed under concatenation. -/
theorem C05_complete_written_partial (g : Grammar) (hw : ∀ r ∈ g.rules, r.written = true) (hc : CaseConsistent g.strings)
    (hd : NamesDistinct g) (hl : SimpleLeftRecursion g) (hu : UnbracketedLeftRecursion g)
    (hr : ∀ r ∈ rulesReps g.rules, Tallied g r)
    (o : LOrders) (ho : o.Fair g) (sched : Sched Nat) (hs : sched.Fair) (name : Str) (inp : Bytes)
    (h : DerivesRule g name inp) : isValid o sched g name inp = some (.ok true) := by
  refine C05_complete_partial g hd (distinctElems_of_written hw hc) (numValsWF_of_written hw) (noEmptySeries_of_written hw) hl hu
    o ho sched hs name inp (fun r h => Tallied.countable ?_ _) h
  obtain ⟨R, hR, h⟩ := List.mem_flatMap.mp h
  rcases List.mem_append.mp hR with h1 | h1
  · exact hr r (List.mem_flatMap.mpr ⟨R, h1, h⟩)
  · have : ∀ R ∈ Core.rules, ∀ r ∈ altReps R.alt, r.min ≤ 2 := by decide
    exact Or.inl (this R h1 r h)

example : NamesDistinct mutualLeft ∧ DistinctElems mutualLeft ∧ NumValsWF mutualLeft ∧ NoEmptySeries mutualLeft ∧
    SimpleLeftRecursion mutualLeft ∧ UnbracketedLeftRecursion mutualLeft ∧
    (∀ r ∈ rulesReps (mutualLeft.rules ++ Core.rules), r.min ≤ 2) ∧
    isValid (plainOrders mutualLeft) plainSched mutualLeft (str% "a") (bytes% "wwwxzx") = some (.ok true) :=
  ⟨mutualLeft_nd, distinctElems_of (by decide +kernel), numValsWF_of (by decide), noEmptySeries_of (by decide), mutualLeft_simple,
    unbracketed_of mutualLeft_nd [(str% "a", 1), (str% "b", 1), (str% "lwsp", 2), (str% "wsp", 0)] (by decide +kernel) (by decide +kernel), by decide, by decide +kernel⟩

/-- A derivation exists if the forest engine finds one. -/
theorem derives_of_forest {g : Grammar} (hwf : NumValsWF g) (hnd : NamesDistinct g) (hdp : DistinctPrint g) {inp : Bytes} {root : Str}
    (h : validOf (parseForest fwd inp g root 0 0) = some true) : DerivesRule g root inp := by
  cases hp : parseForest fwd inp g root 0 0 with
  | ok f =>
    rw [hp] at h
    exact (C01_exact g hwf hnd hdp fwd fwd_fair inp root 0 0 f hp).mp (by simpa [validOf] using h)
  | error e => rw [hp] at h; cases h

theorem not_derives_of_forest {g : Grammar} (hwf : NumValsWF g) (hnd : NamesDistinct g) (hdp : DistinctPrint g) {inp : Bytes} {root : Str}
    (h : validOf (parseForest fwd inp g root 0 0) = some false) : ¬ DerivesRule g root inp := by
  cases hp : parseForest fwd inp g root 0 0 with
  | ok f =>
    rw [hp] at h
    intro hd
    have := (C01_exact g hwf hnd hdp fwd fwd_fair inp root 0 0 f hp).mpr hd
    simp [validOf, this] at h
  | error e => rw [hp] at h; cases h

/-- `a = 3*("a" / "aaa")`. -/
def early : Grammar := ⟨[⟨str% "a", [[⟨3, none, .group [[Ex.one (Ex.lit (str% "a"))], [Ex.one (Ex.lit (str% "aaa"))]]⟩]]⟩]⟩

theorem early_nd : NamesDistinct early := namesDistinct_of (by decide)

/-- C05 fails: a repetition stops counting as soon as a round finds no new position, although the positions of that
round may lead to further ones. -/
theorem C05_fails : ∃ (g : Grammar) (inp : Bytes), NamesDistinct g ∧ DistinctElems g ∧ (∀ r ∈ g.rules, r.written = true) ∧
    SimpleLeftRecursion g ∧ UnbracketedLeftRecursion g ∧ DerivesRule g (str% "a") inp ∧
    isValid (plainOrders g) plainSched g (str% "a") inp = some (.ok false) :=
  ⟨early, bytes% "aaaa", early_nd, distinctElems_of (by decide +kernel), by decide,
    simple_of early_nd [] (by decide +kernel) (by decide +kernel),
    unbracketed_of early_nd [(str% "a", 1), (str% "lwsp", 2)] (by decide +kernel) (by decide +kernel),
    derives_of_forest (numValsWF_of (by decide)) early_nd (distinctPrint_of (by decide +kernel)) (by decide +kernel), by decide +kernel⟩

/-- `a = (a "x") / "y"`. -/
def bracketed : Grammar := ⟨[⟨str% "a", [
  [Ex.one (.group [[Ex.one (Ex.ref (str% "a")), Ex.one (Ex.lit (str% "x"))]])], [Ex.one (Ex.lit (str% "y"))]]⟩]⟩

theorem bracketed_nd : NamesDistinct bracketed := namesDistinct_of (by decide)

/-- C05 fails: what a group derives is memoised while the rule it contains is still growing. -/
theorem C05_fails_brackets : NamesDistinct bracketed ∧ DistinctElems bracketed ∧ (∀ r ∈ bracketed.rules, r.written = true) ∧
    SimpleLeftRecursion bracketed ∧ (∀ r ∈ rulesReps (bracketed.rules ++ Core.rules), r.min ≤ 2) ∧
    DerivesRule bracketed (str% "a") (bytes% "yx") ∧
    isValid (plainOrders bracketed) plainSched bracketed (str% "a") (bytes% "yx") = some (.ok false) :=
  ⟨bracketed_nd, distinctElems_of (by decide +kernel), by decide,
    simple_of bracketed_nd [(str% "a", 1)] (by decide +kernel) (by decide +kernel), by decide,
    derives_of_forest (numValsWF_of (by decide)) bracketed_nd (distinctPrint_of (by decide +kernel)) (by decide +kernel), by decide +kernel⟩

/-- `a = 3("a" / "")`. -/
def capped : Grammar := ⟨[⟨str% "a", [[⟨3, some 3, .group [[Ex.one (Ex.lit (str% "a"))], [Ex.one (Ex.lit [])]]⟩]]⟩]⟩

theorem capped_nd : NamesDistinct capped := namesDistinct_of (by decide)

/-- C05 fails: the number of rounds of a repetition is limited by the length of the input. -/
theorem C05_fails_cap : NamesDistinct capped ∧ DistinctElems capped ∧ (∀ r ∈ capped.rules, r.written = true) ∧
    SimpleLeftRecursion capped ∧ UnbracketedLeftRecursion capped ∧ DerivesRule capped (str% "a") [] ∧
    isValid (plainOrders capped) plainSched capped (str% "a") [] = some (.ok false) :=
  ⟨capped_nd, distinctElems_of (by decide +kernel), by decide,
    simple_of capped_nd [] (by decide +kernel) (by decide +kernel),
    unbracketed_of capped_nd [(str% "a", 1), (str% "lwsp", 2)] (by decide +kernel) (by decide +kernel),
    derives_of_forest (numValsWF_of (by decide)) capped_nd (distinctPrint_of (by decide +kernel)) (by decide +kernel), by decide +kernel⟩

/-- C04 needs `DistinctElems`: the memo does not tell `"x"` from `%s"x"`, so `IsValid` accepts a text that is not
derivable. -/
theorem C04_needs_printing : NamesDistinct printed ∧ NumValsWF printed ∧ (∀ r ∈ printed.rules, r.written = true) ∧
    isValid (plainOrders printed) plainSched printed (str% "a") (bytes% "Xc") = some (.ok true) ∧
    ¬ DerivesRule printed (str% "a") (bytes% "Xc") :=
  ⟨namesDistinct_of (by decide), numValsWF_of (by decide), by decide, by decide +kernel,
    not_derives_of_forest (numValsWF_of (by decide)) (namesDistinct_of (by decide)) (distinctPrint_of (by decide +kernel)) (by decide +kernel)⟩

/-! ## C06: agreement with the forest engine -/

/-- C06, part.  Whatever `IsValid` accepts, `ParseForest` accepts. -/
theorem C06_accepts_partial (g : Grammar) (hd : NamesDistinct g) (hde : DistinctElems g) (hwf : NumValsWF g) (hdp : DistinctPrint g)
    (o : LOrders) (ho : o.Fair g) (sched : Sched Nat) (hs : sched.Fair) (sched' : Sched NodeKey) (hf : sched'.Fair) (name : Str)
    (inp : Bytes) (maxNodes maxSlots : Nat) (f : Forest) (h : parseForest sched' inp g name maxNodes maxSlots = .ok f)
    (hv : isValid o sched g name inp = some (.ok true)) : f.valid = true :=
  (C01_exact g hwf hd hdp sched' hf inp name maxNodes maxSlots f h).mpr (C04_sound g hd hde hwf o ho sched hs name inp hv)

/-- C06, part.  The two agree on the grammars of `C05_complete_partial`.  Missing: other grammars, see `C06_fails`. -/
theorem C06_agree_partial (g : Grammar) (hd : NamesDistinct g) (hde : DistinctElems g) (hwf : NumValsWF g) (hdp : DistinctPrint g)
    (hne : NoEmptySeries g) (hl : SimpleLeftRecursion g) (hu : UnbracketedLeftRecursion g)
    (o : LOrders) (ho : o.Fair g) (sched : Sched Nat) (hs : sched.Fair) (sched' : Sched NodeKey) (hf : sched'.Fair) (name : Str)
    (inp : Bytes) (hr : ∀ r ∈ rulesReps (g.rules ++ Core.rules), Countable g inp.length r)
    (maxNodes maxSlots : Nat) (f : Forest) (h : parseForest sched' inp g name maxNodes maxSlots = .ok f) (hres : ∃ r, Resolves g name r) :
    isValid o sched g name inp = some (.ok f.valid) := by
  rcases C44_returns_partial g hd hl o ho sched hs name inp with ⟨_, h2⟩ | ⟨b, h1, _⟩
  · exact absurd hres h2
  · rw [h1]
    cases b with
    | true => rw [C06_accepts_partial g hd hde hwf hdp o ho sched hs sched' hf name inp maxNodes maxSlots f h h1]
    | false =>
      cases hv : f.valid with
      | false => rfl
      | true =>
        have := C05_complete_partial g hd hde hwf hne hl hu o ho sched hs name inp hr
          ((C01_exact g hwf hd hdp sched' hf inp name maxNodes maxSlots f h).mp hv)
        rw [h1] at this
        cases this

example : DistinctPrint mutualLeft ∧ validOf (parseForest fwd (bytes% "wwwxzx") mutualLeft (str% "a") 0 0) = some true :=
  ⟨distinctPrint_of (by decide +kernel), by decide +kernel⟩

/-- C06 fails. -/
theorem C06_fails : ∃ (g : Grammar) (inp : Bytes), (∀ r ∈ g.rules, r.written = true) ∧ NamesDistinct g ∧
    isValid (plainOrders g) plainSched g (str% "a") inp = some (.ok false) ∧
    validOf (parseForest fwd inp g (str% "a") 0 0) = some true :=
  ⟨early, bytes% "aaaa", by decide, early_nd, by decide +kernel, by decide +kernel⟩

end Verif.Props
