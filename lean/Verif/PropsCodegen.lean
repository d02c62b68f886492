import Verif.CodegenQuery
import Verif.PropsForest
import Verif.PropsRecog

/-!
# Properties of the emitted parser (C45)
-/

namespace Verif
namespace Cg

/-! ## A run is aborted only when the set is full -/

/-- The flag is raised only on a full set. -/
def FullIfAborted (N : Nat) (st : BsrSt) : Prop := st.aborted = true → 0 < N ∧ N ≤ st.set.length

theorem full_neutral {N : Nat} {st st' : BsrSt} (h : st'.aborted = st.aborted ∧ st'.set = st.set)
    (hf : FullIfAborted N st) : FullIfAborted N st' := by
  unfold FullIfAborted
  rw [h.1, h.2]
  exact hf

theorem full_add {N : Nat} (d : BDesc) {st : BsrSt} (hf : FullIfAborted N st) : FullIfAborted N (bsrAdd d st) :=
  full_neutral (by unfold bsrAdd; split_ifs <;> exact ⟨rfl, rfl⟩) hf

theorem full_record {sg : SG} {N : Nat} (L : Slot) (l k r : Nat) {st : BsrSt} (hf : FullIfAborted N st) :
    FullIfAborted N (bsrRecord sg N L l k r st) := by
  unfold bsrRecord
  split_ifs with h1 h2
  · intro _; exact h2
  · unfold bsrInsert
    split_ifs
    · exact hf
    · intro ha
      have := hf ha
      exact ⟨this.1, by simp only [List.length_cons]; omega⟩
  · exact hf

theorem full_resume {sg : SG} {N : Nat} (v : GKey) (u : GNode) (j : Nat) {st : BsrSt} (hf : FullIfAborted N st) :
    FullIfAborted N (bsrResume sg N v u j st) := full_add _ (full_record _ _ _ _ hf)

theorem full_foldl {N : Nat} {α : Type} {f : BsrSt → α → BsrSt}
    (h : ∀ st a, FullIfAborted N st → FullIfAborted N (f st a)) (l : List α) :
    ∀ st, FullIfAborted N st → FullIfAborted N (l.foldl f st) := by
  induction l with
  | nil => exact fun _ h => h
  | cons a l ih => exact fun st hf => ih _ (h st a hf)

theorem full_create {sg : SG} {N : Nat} {sched : Sched Nat} (L : Slot) (u : GNode) (i rc : Nat) {st : BsrSt}
    (hf : FullIfAborted N st) : FullIfAborted N (bsrCreate sg N sched L u i rc st) := by
  unfold bsrCreate
  simp only []
  split_ifs
  · exact hf
  · exact full_foldl (fun st j h => full_resume _ _ _ h) _ _ (full_neutral ⟨rfl, rfl⟩ hf)

theorem full_pop {sg : SG} {N : Nat} (u : GNode) (j : Nat) {st : BsrSt}
    (hf : FullIfAborted N st) : FullIfAborted N (bsrPop sg N u j st) := by
  unfold bsrPop
  cases u with
  | none => exact hf
  | some v =>
    exact full_foldl (fun st u h => full_resume _ _ _ h) _ _
      (full_neutral (by split_ifs <;> exact ⟨rfl, rfl⟩) hf)

theorem full_processFrom {sg : SG} {inp : Bytes} {N : Nat} {sched : Sched Nat} (u : GNode) (rc : Nat)
    (rest : List Sym) : ∀ (L : Slot) (i : Nat) (st : BsrSt), FullIfAborted N st →
      FullIfAborted N (bsrProcessFrom sg inp N sched u rc rest L i st) := by
  induction rest with
  | nil => exact fun L i st hf => full_pop u i hf
  | cons s rest ih =>
    intro L i st hf
    have key : FullIfAborted N (match matchSym inp s i with
        | none => st
        | some j => bsrProcessFrom sg inp N sched u rc rest L.next j (bsrRecord sg N L.next (posOf u) i j st)) := by
      cases matchSym inp s i with
      | none => exact hf
      | some j => exact ih _ _ _ (full_record _ _ _ _ hf)
    cases s with
    | eps => exact key
    | term e => exact key
    | nt s => exact full_foldl (fun st alt h => full_add _ h) _ _ (full_create _ _ _ _ hf)

theorem full_loop {sg : SG} {inp : Bytes} {N : Nat} {sched : Sched Nat} : ∀ (fuel : Nat) {st r : BsrSt},
    bsrLoop sg inp N sched fuel st = some r → FullIfAborted N st → FullIfAborted N r := by
  intro fuel
  induction fuel with
  | zero =>
    intro st r h hf
    unfold bsrLoop at h
    split at h
    · simp only [Option.some.injEq] at h; subst h; exact hf
    · split_ifs at h
      simp only [Option.some.injEq] at h; subst h; exact hf
  | succ fuel ih =>
    intro st r h hf
    unfold bsrLoop at h
    split at h
    · simp only [Option.some.injEq] at h; subst h; exact hf
    · split_ifs at h
      · simp only [Option.some.injEq] at h; subst h; exact hf
      · exact ih h (full_processFrom _ _ _ _ _ _ (full_neutral ⟨rfl, rfl⟩ hf))

/-! ## How the emitted parser ends -/

theorem init_clean (sg : SG) : (bsrInit sg).set = [] ∧ (bsrInit sg).aborted = false := by
  unfold bsrInit
  generalize List.range (sg.alts sg.start).length = l
  have : ∀ st : BsrSt, st.set = [] ∧ st.aborted = false → (l.foldl (fun st alt => bsrAdd
      ⟨⟨sg.start, alt, 0⟩, none, 0, 0⟩ st) st).set = [] ∧ (l.foldl (fun st alt => bsrAdd
      ⟨⟨sg.start, alt, 0⟩, none, 0, 0⟩ st) st).aborted = false := by
    induction l with
    | nil => exact fun _ h => h
    | cons a l ih =>
      intro st hst
      apply ih
      have : ∀ d, (bsrAdd d st).set = [] ∧ (bsrAdd d st).aborted = false := by
        intro d; unfold bsrAdd; split_ifs <;> exact hst
      exact this _
  exact this _ ⟨rfl, rfl⟩

theorem generate_ok {g : Grammar} {root : Str} {p : Prog} (h : generate g root = .ok p) :
    ∃ sg, compileSlots g root defaultMaxSlots = .ok sg ∧ p = emit sg root := by
  unfold generate at h
  split at h
  · cases h
  · rename_i sg hs
    simp only [Except.ok.injEq] at h
    exact ⟨sg, hs, h.symm⟩

theorem okSet_of_rel {sg : SG} {inp : Bytes} {g : PSt} {b : BsrSt} (hr : Rel sg inp g b) (hb : BInv sg inp b) :
    OkSet sg b.set := fun e he => ⟨hr.okSet e he, (reach_sound (hb.set e he).1).1⟩

/-- Every way a run of the emitted parser can end, beside the unbounded run of the interpreter. -/
theorem parse_spec {g : Grammar} {root : Str} {sg : SG} (hc : compileSlots g root defaultMaxSlots = .ok sg)
    {sched : Sched Nat} (hf : sched.Fair) (inp : Bytes) :
    ∃ S0, parseBSR sched inp g root 0 defaultMaxSlots = .ok ⟨sg, inp, S0⟩ ∧ OkSet sg S0 ∧
      ∀ fuel, gllFuel sg inp.length ≤ fuel → ∀ N,
        parse (emit sg root) N sched fuel inp = .tooLarge ∧ 0 < N ∧ N ≤ S0.length ∨
        ∃ S, parse (emit sg root) N sched fuel inp = .result (encR sg inp S) ∧ OkSet sg S ∧ S ⊆ S0 ∧ S.Nodup ∧
          (S = S0 ∨ 0 < N ∧ S.length = N ∧ N ≤ S0.length) ∧ (0 < N → S.length ≤ N) := by
  obtain ⟨ix, hl, _, _⟩ := compileSlots_lowered hc
  obtain ⟨hinit, hcount⟩ := bloopInv_init sg inp
  obtain ⟨hi1, hi2⟩ := init_clean sg
  obtain ⟨st0, h1, h2, h3⟩ := bsrLoop_spec (N := 0) hl.ok hf (gllFuel sg inp.length) 0 hinit (by omega) (by omega)
  have ha0 := (bsrLoop_set_mono h1 hi2).2
  have hw0 : st0.work = [] := by
    rcases h3 with h3 | h3
    · rw [ha0] at h3; cases h3
    · exact h3
  have hp0 : parseBSR sched inp g root 0 defaultMaxSlots = .ok ⟨sg, inp, st0.set⟩ := by
    simp only [parseBSR, hc, h1, ha0]; rfl
  have hset0 := (parseBSR_ok hf hp0).2.2.2.2
  have hsub : ∀ st, BInv sg inp st → st.set ⊆ st0.set := by
    rintro st hst ⟨L, l, k, r⟩ he
    exact (hset0 L l k r).mpr (hst.set _ he)
  have hrel0 := sim_seeded (root := root) (inp := inp) hl.ok
  have hok0 : OkSet sg st0.set := by
    have := sim_loop (inp := inp) (root := root) (N := 0) hl.ok hf (gllFuel sg inp.length) _ _ hrel0
    rw [h1] at this
    obtain ⟨g', hr, _⟩ := this
    exact okSet_of_rel hr h2.inv
  refine ⟨st0.set, hp0, hok0, fun fuel hfuel N => ?_⟩
  obtain ⟨r, k1, k2, k3⟩ := bsrLoop_spec (N := N) hl.ok hf (gllFuel sg inp.length) 0 hinit (by omega) (by omega)
  obtain ⟨b1, b2, b3⟩ := bsrLoop_budget hi2 (by rw [hi1]; simp) h1 k1
  have hfull := full_loop _ k1 (fun ha => by rw [hi2] at ha; cases ha)
  have hbelow : r.aborted = true → 0 < N ∧ N ≤ st0.set.length := by
    intro ha
    refine ⟨(hfull ha).1, ?_⟩
    by_contra hlt
    rw [b3 (.inr (by omega))] at ha
    cases ha
  have hs := sim_loop (inp := inp) (root := root) (N := N) hl.ok hf fuel _ _ hrel0
  rw [bsrLoop_mono hfuel k1] at hs
  obtain ⟨g', hr, hloop, hab⟩ := hs
  by_cases hw : r.work = []
  · right
    refine ⟨r.set, ?_, okSet_of_rel hr k2.inv, hsub r k2.inv, k2.inv.setNodup, ?_, b1⟩
    · unfold parse
      rw [hloop, if_pos hw]
      simp only [hr.fault, Bool.false_eq_true, if_false, hr.set]
    · cases ha : r.aborted with
      | false => left; rw [b2 ha]
      | true =>
        have := hfull ha
        have h5 := b1 this.1
        exact .inr ⟨this.1, by omega, (hbelow ha).2⟩
  · left
    refine ⟨?_, hbelow (hab hw)⟩
    unfold parse
    rw [hloop, if_neg hw]
    simp only [hr.fault, Bool.false_eq_true, if_false]

theorem parseLoop_mono {p : Prog} {inp : Bytes} {N : Nat} {sched : Sched Nat} : ∀ (fuel fuel' : Nat), fuel ≤ fuel' →
    ∀ (st : PSt) (x : Stop), parseLoop p inp N sched fuel st = some x → parseLoop p inp N sched fuel' st = some x := by
  intro fuel
  induction fuel with
  | zero =>
    intro fuel' _ st x h
    unfold parseLoop at h ⊢
    cases hw : st.work with
    | nil => rw [hw] at h; exact h
    | cons d work =>
      rw [hw] at h
      simp only [] at h ⊢
      split_ifs at h with ha
      rw [if_pos ha]; exact h
  | succ fuel ih =>
    intro fuel' hle st x h
    obtain ⟨f, rfl⟩ : ∃ f, fuel' = f + 1 := ⟨fuel' - 1, by omega⟩
    unfold parseLoop at h ⊢
    cases hw : st.work with
    | nil => rw [hw] at h; exact h
    | cons d work =>
      rw [hw] at h
      simp only [] at h ⊢
      split_ifs at h ⊢
      · exact h
      · exact ih f (by omega) _ _ h

/-- More fuel does not change a result. -/
theorem parse_mono {p : Prog} {inp : Bytes} {N : Nat} {sched : Sched Nat} {fuel fuel' : Nat} (hle : fuel ≤ fuel')
    {r : Result} (h : parse p N sched fuel inp = .result r) : parse p N sched fuel' inp = .result r := by
  unfold parse at h ⊢
  cases hl : parseLoop p inp N sched fuel (seeded p) with
  | none => rw [hl] at h; cases h
  | some x => rw [parseLoop_mono _ _ hle _ _ hl, ← hl]; exact h

end Cg

namespace Props
open Spec Cg

/-! ## C45 -/

/-- Every query on `r` gives the answer it gives on the forest `f` of the interpreter: `Valid`, `Elements`,
`NumTrees`, `Ambiguous` and `Tree`, the last for every bound on the depth of the search. -/
structure SameAnswers (p : Prog) (r : Result) (f : BsrForest) : Prop where
  valid : r.valid p = f.valid
  elements : r.elements = f.nodes
  numTrees : r.numTrees p = f.numTrees
  ambiguous : r.ambiguous p = f.ambiguous
  tree : ∀ fuel, r.treeWith p fuel = f.treeWith fuel

theorem sameAnswers_enc {g : Grammar} {root : Str} {sg : SG} (hc : compileSlots g root defaultMaxSlots = .ok sg)
    {inp : Bytes} {S : List BsrElem} (hS : OkSet sg S) : SameAnswers (emit sg root) (encR sg inp S) ⟨sg, inp, S⟩ := by
  obtain ⟨ix, hl, _, _⟩ := compileSlots_lowered hc
  exact ⟨valid_enc hl.ok hS, by simp [Result.elements, BsrForest.nodes], numTrees_enc hl.ok hS, ambiguous_enc hl.ok hS,
    fun fuel => treeWith_enc hl.ok hS (start_isRule hc).1 fuel⟩

/-- C45, without a budget.  The emitted parser never panics, always returns, and every query on its result gives the
answer the same query gives on the forest of `ParseBSR`, for every grammar `GenerateGoParser` accepts, every input
and every order of map iteration.

Partial: with `MaxElements > 0` the claim fails (`C45_fails`); what holds then is `C45_bounded_partial`. -/
theorem C45_unbounded_partial (g : Grammar) (root : Str) (p : Prog) (h : generate g root = .ok p) (sched : Sched Nat)
    (hf : sched.Fair) (inp : Bytes) :
    ∃ r f, parseBSR sched inp g root 0 defaultMaxSlots = .ok f ∧ SameAnswers p r f ∧
      ∃ F, ∀ fuel, F ≤ fuel → parse p 0 sched fuel inp = .result r := by
  obtain ⟨sg, hc, rfl⟩ := generate_ok h
  obtain ⟨S0, h1, h2, h3⟩ := parse_spec hc hf inp
  refine ⟨encR sg inp S0, ⟨sg, inp, S0⟩, h1, sameAnswers_enc hc h2, gllFuel sg inp.length, fun fuel hle => ?_⟩
  rcases h3 fuel hle 0 with ⟨_, h4, _⟩ | ⟨S, h4, _, _, _, h5, _⟩
  · exact absurd h4 (by omega)
  · rcases h5 with rfl | ⟨h5, _⟩
    · exact h4
    · exact absurd h5 (by omega)

/-- C45, with a budget.  The emitted parser returns `ErrTooLarge` or a result, and never panics.  It returns
`ErrTooLarge` only when the forest of `ParseBSR` has at least `MaxElements` elements.  A result has at most
`MaxElements` elements; if it has fewer, or if `ParseBSR` would find fewer, every query agrees with `ParseBSR`; and
in any case a result that is `Valid` is one `ParseBSR` accepts.

Partial: a result with exactly `MaxElements` elements may be truncated and answer that a derivable input is not
valid (`C45_fails`). -/
theorem C45_bounded_partial (g : Grammar) (root : Str) (p : Prog) (h : generate g root = .ok p) (sched : Sched Nat)
    (hf : sched.Fair) (inp : Bytes) :
    ∃ f, parseBSR sched inp g root 0 defaultMaxSlots = .ok f ∧
      ∃ F, ∀ N, 0 < N → ∀ fuel, F ≤ fuel →
        parse p N sched fuel inp = .tooLarge ∧ N ≤ f.nodes ∨
        ∃ r, parse p N sched fuel inp = .result r ∧ r.elements ≤ N ∧ r.elements ≤ f.nodes ∧
          (r.valid p = true → f.valid = true) ∧ (r.elements < N ∨ f.nodes < N → SameAnswers p r f) := by
  obtain ⟨sg, hc, rfl⟩ := generate_ok h
  obtain ⟨ix, hl, _, _⟩ := compileSlots_lowered hc
  obtain ⟨S0, h1, h2, h3⟩ := parse_spec hc hf inp
  refine ⟨⟨sg, inp, S0⟩, h1, gllFuel sg inp.length, fun N hN fuel hle => ?_⟩
  rcases h3 fuel hle N with ⟨h4, _, h5⟩ | ⟨S, h4, h5, h6, h7, h8, h9⟩
  · exact .inl ⟨h4, h5⟩
  · refine .inr ⟨_, h4, by simpa [Result.elements] using h9 hN, ?_, fun hv => ?_, fun hlt => ?_⟩
    · simpa [Result.elements, BsrForest.nodes] using (List.subperm_of_subset h7 h6).length_le
    · rw [valid_enc hl.ok h5] at hv
      unfold BsrForest.valid at hv ⊢
      obtain ⟨a, ha, hp⟩ := List.any_eq_true.mp hv
      refine List.any_eq_true.mpr ⟨a, ha, ?_⟩
      simp only [gt_iff_lt, decide_eq_true_eq] at hp ⊢
      obtain ⟨k, hk⟩ := List.exists_mem_of_length_pos hp
      exact List.length_pos_of_mem (mem_pivots.mpr (h6 (mem_pivots.mp hk)))
    · rcases h8 with rfl | ⟨_, h10, h11⟩
      · exact sameAnswers_enc hc h5
      · simp only [Result.elements, BsrForest.nodes, List.length_map] at hlt
        omega

/-- C45, against the grammar itself: without a budget the emitted parser accepts exactly the strings the root rule
derives. -/
theorem C45_language_partial (g : Grammar) (hwf : NumValsWF g) (hnd : NamesDistinct g) (hdp : DistinctPrint g)
    (root : Str) (p : Prog) (h : generate g root = .ok p) (sched : Sched Nat) (hf : sched.Fair) (inp : Bytes) :
    ∃ r F, (∀ fuel, F ≤ fuel → parse p 0 sched fuel inp = .result r) ∧
      (r.valid p = true ↔ DerivesRule g root inp) := by
  obtain ⟨r, f, h1, h2, F, h3⟩ := C45_unbounded_partial g root p h sched hf inp
  exact ⟨r, F, h3, by rw [h2.valid]; exact C02_exact g hwf hnd hdp sched hf inp root 0 defaultMaxSlots f h1⟩

/-- C45.  `GenerateGoParser` refuses exactly what `ParseBSR` refuses before it parses. -/
theorem C45_errors_partial (g : Grammar) (root : Str) (e : ParseErr) (sched : Sched Nat) (hf : sched.Fair) (inp : Bytes) :
    generate g root = .error e ↔ parseBSR sched inp g root 0 defaultMaxSlots = .error e := by
  unfold generate
  cases hc : compileSlots g root defaultMaxSlots with
  | error e' => simp [parseBSR, hc]
  | ok sg =>
    obtain ⟨_, st0, _, _, _, h0, _⟩ := parseBSR_eq (inp := inp) hf hc
    rw [h0]
    simp

/-- `a = "x" "y" "z"`, as three elements. -/
def xyz : Grammar :=
  ⟨[⟨str% "a", [[Ex.one (Ex.lit (str% "x")), Ex.one (Ex.lit (str% "y")), Ex.one (Ex.lit (str% "z"))]]⟩]⟩

/-- The result of a parse, when there is one. -/
def resultOf : Outcome → Option Result
  | .result r => some r
  | _ => none

theorem resultOf_some {o : Outcome} {r : Result} (h : resultOf o = some r) : o = .result r := by
  cases o <;> simp_all [resultOf]

/-- The program emitted for `xyz`. -/
def xyzProg : Prog := (generate xyz (str% "a")).toOption.getD (emit ⟨[], 0⟩ [])

/-- C45 fails: the emitted `Parse` looks at the flag only before it takes the next descriptor, so a run that hits
the budget on its last descriptor returns a truncated result and a nil error, and `Valid` is false on an input the
rule derives.  `ParseBSR` returns an error there. -/
theorem C45_fails : ∃ (g : Grammar) (root : Str) (p : Prog) (inp : Bytes) (N F : Nat) (r : Result),
    NamesDistinct g ∧ NumValsWF g ∧ DistinctPrint g ∧ generate g root = .ok p ∧ DerivesRule g root inp ∧
    (∀ fuel, F ≤ fuel → parse p N fwd fuel inp = .result r) ∧ r.valid p = false ∧
    parseBSR fwd inp g root N defaultMaxSlots = .error (.forestTooLarge N) := by
  have hnd : NamesDistinct xyz := namesDistinct_of (by decide)
  have hwf : NumValsWF xyz := numValsWF_of (by decide +kernel)
  have hdp : DistinctPrint xyz := distinctPrint_of (by decide +kernel)
  have hg : generate xyz (str% "a") = .ok xyzProg := by decide +kernel
  refine ⟨xyz, str% "a", xyzProg, bytes% "xyz", 1, 40, ⟨bytes% "xyz", [⟨2, 0, 1, 2⟩]⟩, hnd, hwf, hdp, hg,
    derives_of_forest hwf hnd hdp (by decide +kernel), fun fuel hle => parse_mono hle (resultOf_some ?_), ?_, ?_⟩
  · decide +kernel
  · decide +kernel
  · rcases parseBSR_eq (inp := bytes% "xyz") fwd_fair (generate_ok hg).choose_spec.1 with ⟨_, st0, _, _, _, h0, hN⟩
    rcases hN 1 (by decide) with ⟨h1, _⟩ | ⟨h1, h2⟩
    · exact h1
    · exfalso
      have h3 : bsrOf (parseBSR fwd (bytes% "xyz") xyz (str% "a") 0 defaultMaxSlots) = some (true, 2) := by decide +kernel
      rw [h0] at h3
      simp only [bsrOf, Option.some.injEq, Prod.mk.injEq] at h3
      omega

-- the hypotheses are met, and the emitted parser agrees with the interpreter
/-- What the queries say: `Valid`, `Elements`, `NumTrees`, `Ambiguous`. -/
def answers (p : Prog) (o : Outcome) : Option (Bool × Nat × Option Int × Option Bool) :=
  (resultOf o).map fun r => (r.valid p, r.elements, r.numTrees p, r.ambiguous p)

/-- The program emitted for a grammar. -/
def progOf (g : Grammar) (root : Str) : Prog := (generate g root).toOption.getD (emit ⟨[], 0⟩ [])

example : generate Ex.expr (str% "expr") = .ok (progOf Ex.expr (str% "expr")) := by decide +kernel
example : answers (progOf Ex.expr (str% "expr")) (parse (progOf Ex.expr (str% "expr")) 0 fwd 400 (bytes% "1+(2+3)")) =
    some (true, 21, some 1, some false) := by decide +kernel
example : (answers (progOf Ex.expr (str% "expr")) (parse (progOf Ex.expr (str% "expr")) 0 fwd 400 (bytes% "1+(2+"))).map
    (fun a => (a.1, a.2.2)) = some (false, some 0, some false) := by decide +kernel
example : (answers (progOf Ex.expr (str% "expr")) (parse (progOf Ex.expr (str% "expr")) 22 fwd 400 (bytes% "1+(2+3)"))) =
    some (true, 21, some 1, some false) := by decide +kernel
example : resultOf (parse (progOf Ex.expr (str% "expr")) 10 fwd 400 (bytes% "1+(2+3)")) = none := by decide +kernel
example : (answers (progOf Ex.nul (str% "a")) (parse (progOf Ex.nul (str% "a")) 0 zigzag 400 (bytes% "xx"))).map Prod.fst =
    some true := by decide +kernel
example : ((resultOf (parse (progOf Ex.expr (str% "expr")) 0 fwd 400 (bytes% "1"))).bind fun r =>
    (r.treeWith (progOf Ex.expr (str% "expr")) 100).map fun t => (t.rule, t.start, t.fin, t.children.length)) =
    some (str% "expr", 0, 1, 1) := by decide +kernel
-- a grammar it refuses
example : generate Ex.expr (str% "nope") = .error .ruleNotFound := by decide +kernel

end Props
end Verif
