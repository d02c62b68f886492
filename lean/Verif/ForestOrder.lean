import Verif.PropsAllTrees
import Verif.Errors

/-!
# C122: what a parse forest says does not depend on the iteration order of Go's maps

`create` ranges over the map `p.popped[v]` (/repo/sppf.go:362, /repo/bsr.go:108) and `buildIndex` over `f.set`
(/repo/bsr.go:272).  What the forests say does not depend on the orders chosen there; which tree `Tree` picks from an
ambiguous forest does (`C122_tree_fails`), and so does whether `ParseBSR` is content with a budget that is exactly
the number of its elements (`C122_budget_fails`).
-/

namespace Verif
open Spec Props

/-! ## Packed forests that differ in the order of packings -/

section
variable {α : Type} {G G' : α → List (List α)}

theorem child_perm (h : ∀ k, (G k).Perm (G' k)) : Child G = Child G' := by
  funext a b
  refine propext ⟨fun ⟨pk, h1, h2⟩ => ⟨pk, (h a).mem_iff.mp h1, h2⟩, fun ⟨pk, h1, h2⟩ => ⟨pk, (h a).mem_iff.mpr h1, h2⟩⟩

theorem totalAt_perm (h : ∀ k, (G k).Perm (G' k)) (leaf : Bool) (val : α → Nat) (n : α) :
    totalAt G leaf val n = totalAt G' leaf val n := by
  unfold totalAt
  have hn : G n = [] ↔ G' n = [] :=
    ⟨fun e => by have := h n; rw [e] at this; exact this.nil_eq.symm, fun e => by have := h n; rw [e] at this; exact this.eq_nil⟩
  by_cases hc : G n = []
  · rw [if_pos hc, if_pos (hn.mp hc)]
  · rw [if_neg hc, if_neg (fun e => hc (hn.mpr e))]
    exact ((h n).map _).sum_eq

variable [DecidableEq α]

theorem cert_perm (h : ∀ k, (G k).Perm (G' k)) {leaf : Bool} {m : List (α × Nat)} (hc : Cert G leaf m) :
    Cert G' leaf m := by
  induction hc with
  | nil => exact .nil
  | cons n v m _ hn hch hv ih =>
    refine .cons n v m ih hn (fun c hc => hch c ?_) (hv.trans (totalAt_perm h leaf _ n))
    rw [child_perm h]; exact hc

/-- The answers on two packed forests that differ in the order of packings are the same. -/
theorem answers_perm (h : ∀ k, (G k).Perm (G' k)) {U U' : List α} (hU : ClosedList G U) (hU' : ClosedList G' U')
    (leaf : Bool) {root : α} (hr : root ∈ U) (hr' : root ∈ U') {fuel fuel' : Nat} (hf : U.length < fuel)
    (hf' : U'.length < fuel') (hp : Productive G leaf root) (hp' : Productive G' leaf root) :
    numTreesFrom G leaf fuel root = numTreesFrom G' leaf fuel' root ∧
      ambiguousFrom G fuel root = ambiguousFrom G' fuel' root ∧ nodesFrom G fuel root = nodesFrom G' fuel' root := by
  obtain ⟨r, b, h1, h2, _, _, h3, h4, h5⟩ := answers hU leaf hr hf hp
  obtain ⟨r', b', h1', h2', _, _, h3', h4', h5'⟩ := answers hU' leaf hr' hf' hp'
  obtain ⟨s, s1, s2, s3⟩ := nodesFrom_spec hU hr hf
  obtain ⟨s', s1', s2', s3'⟩ := nodesFrom_spec hU' hr' hf'
  have hch := child_perm h
  have hab : ∀ x, AtOrBelow G root x ↔ AtOrBelow G' root x := fun x => by unfold AtOrBelow; rw [hch]
  refine ⟨?_, ?_, ?_⟩
  · have hinf : r = -1 ↔ r' = -1 := by
      rw [h5, h5']
      unfold AtOrBelow StrictlyBelow
      rw [hch]
    rcases numTreesFrom_cert hU leaf hr hf with ⟨e, _⟩ | ⟨m, v, hc, hm, e⟩
    · rw [e] at h1
      rw [e, h1', hinf.mp (Option.some.inj h1).symm]
    · obtain ⟨ts, t1, t2⟩ := cert_trees (cert_perm h hc) root v hm
      rw [e, h1']
      rcases h4' with ⟨ts', t3, rfl⟩ | ⟨_, hno⟩
      · rw [t1.length_eq t3] at t2
        rw [t2]
      · exact absurd ⟨ts, t1⟩ hno
  · rw [h2, h2']
    congr 1
    rw [Bool.eq_iff_iff, h3, h3']
    constructor
    · rintro ⟨x, x1, x2⟩; exact ⟨x, (hab x).mp x1, (h x).length_eq ▸ x2⟩
    · rintro ⟨x, x1, x2⟩; exact ⟨x, (hab x).mpr x1, (h x).length_eq ▸ x2⟩
  · rw [s3, s3']
    congr 1
    exact ((List.perm_ext_iff_of_nodup s1 s1').mpr fun x => by rw [s2, s2', hab]).length_eq

end

/-! ## ParseForest -/

/-- What is known of the diagnostics: a failure is recorded once, and one is recorded if the position is not the
first. -/
def Diag (e : List Str) (p : Nat) : Prop := e.Nodup ∧ (p = 0 ∨ e ≠ [])

theorem noteFail_diag {i : Nat} {s : Sym} {st : SppfSt} (h : Diag st.expected st.maxPos) :
    Diag (noteFail i s st).expected (noteFail i s st).maxPos := by
  have hne : ∀ (l : List Str) (x : Str), l ++ [x] ≠ [] := fun l x e => by simp at e
  unfold noteFail
  simp only []
  by_cases h1 : i > st.maxPos
  · simp only [if_pos h1, ne_eq, not_true_eq_false, if_false, List.not_mem_nil, List.nil_append]
    exact ⟨List.nodup_singleton _, .inr (by simp)⟩
  · simp only [if_neg h1]
    split_ifs with h2 h3
    · exact h
    · exact h
    · exact ⟨List.nodup_append.mpr ⟨h.1, List.nodup_singleton _, fun a ha b hb e => h3 (List.mem_singleton.mp hb ▸ e ▸ ha)⟩,
        .inr (hne _ _)⟩

/-- The diagnostics of a state. -/
def SppfSt.diag (st : SppfSt) : List Str × Nat := (st.expected, st.maxPos)

theorem getNodeP_diag {sg : SG} {N : Nat} {L : Slot} {w : Option NodeKey} {z : NodeKey} {st : SppfSt} :
    (getNodeP sg N L w z st).2.diag = st.diag := by
  unfold getNodeP addPack findNode
  simp only []
  split_ifs <;> rfl

theorem findNode_diag {N : Nat} {k : NodeKey} {st : SppfSt} : (findNode N k st).diag = st.diag := by
  unfold findNode; split_ifs <;> rfl

theorem sppfAdd_diag {d : Desc} {st : SppfSt} : (sppfAdd d st).diag = st.diag := by
  unfold sppfAdd; split_ifs <;> rfl

theorem foldl_diag {β : Type} {F : SppfSt → β → SppfSt} (h : ∀ st b, (F st b).diag = st.diag) (l : List β) :
    ∀ st, (l.foldl F st).diag = st.diag := by
  induction l with
  | nil => intro st; rfl
  | cons b l ih => intro st; rw [List.foldl_cons, ih, h]

theorem resume_diag {sg : SG} {N : Nat} {L : Slot} {u : GNode} {j : Nat} {w : Option NodeKey} {rc : Nat} {z : NodeKey}
    {st : SppfSt} : (resume sg N L u j w rc z st).diag = st.diag := by
  unfold resume
  simp only [sppfAdd_diag, getNodeP_diag]

theorem gllPop_diag {sg : SG} {N : Nat} {u : GNode} {i : Nat} {z : NodeKey} {st : SppfSt} :
    (gllPop sg N u i z st).diag = st.diag := by
  cases u with
  | none => rfl
  | some v =>
    simp only [gllPop]
    rw [foldl_diag fun st e => resume_diag]
    split_ifs <;> rfl

theorem create_diag {sg : SG} {N : Nat} {sched : Sched NodeKey} {L : Slot} {u : GNode} {i : Nat} {w : Option NodeKey} {rc : Nat}
    {st : SppfSt} : (create sg N sched L u i w rc st).diag = st.diag := by
  unfold create
  simp only []
  split_ifs
  · rfl
  · rw [foldl_diag fun st e => resume_diag]; rfl

theorem Diag.of_eq {st st' : SppfSt} (h : Diag st.expected st.maxPos) (e : st'.diag = st.diag) : Diag st'.expected st'.maxPos := by
  obtain ⟨e1, e2⟩ := Prod.mk.inj e
  rw [e1, e2]; exact h

theorem processFrom_diag {sg : SG} {inp : Bytes} {N : Nat} {sched : Sched NodeKey} {u : GNode} {rc : Nat} :
    ∀ (rest : List Sym) (L : Slot) (i : Nat) (w : Option NodeKey) (st : SppfSt), Diag st.expected st.maxPos →
      Diag (processFrom sg inp N sched u rc rest L i w st).expected (processFrom sg inp N sched u rc rest L i w st).maxPos
  | [], L, i, w, st, h => by
    cases w with
    | some z => exact h.of_eq (by simp only [processFrom, gllPop_diag])
    | none => exact h.of_eq (by simp only [processFrom, gllPop_diag, findNode_diag])
  | .nt s :: rest, L, i, w, st, h => h.of_eq (by
    simp only [processFrom]
    rw [foldl_diag fun st b => sppfAdd_diag, create_diag])
  | .eps :: rest, L, i, w, st, h => by
    simp only [processFrom]
    split
    · exact noteFail_diag h
    · exact processFrom_diag rest _ _ _ _ (h.of_eq (by rw [getNodeP_diag, findNode_diag]))
  | .term e :: rest, L, i, w, st, h => by
    simp only [processFrom]
    split
    · exact noteFail_diag h
    · exact processFrom_diag rest _ _ _ _ (h.of_eq (by rw [getNodeP_diag, findNode_diag]))

theorem sppfLoop_diag {sg : SG} {inp : Bytes} {N : Nat} {sched : Sched NodeKey} : ∀ (fuel : Nat) (st st' : SppfSt),
    Diag st.expected st.maxPos → sppfLoop sg inp N sched fuel st = some st' → Diag st'.expected st'.maxPos
  | 0, st, st', h, e => by
    unfold sppfLoop at e
    split at e
    · cases e; exact h
    · split_ifs at e; cases e; exact h
  | fuel + 1, st, st', h, e => by
    unfold sppfLoop at e
    split at e
    · cases e; exact h
    · split_ifs at e
      · cases e; exact h
      · exact sppfLoop_diag fuel _ _ (by unfold process; exact processFrom_diag _ _ _ _ _ h) e

theorem sppfInit_diag (sg : SG) : (sppfInit sg).diag = ([], 0) := by
  unfold sppfInit
  rw [foldl_diag fun st b => sppfAdd_diag]
  rfl

theorem strLe_antisymm : ∀ {a b : Str}, strLe a b = true → strLe b a = true → a = b
  | [], [], _, _ => rfl
  | [], _ :: _, _, h => by simp [strLe] at h
  | _ :: _, [], h, _ => by simp [strLe] at h
  | a :: as, b :: bs, h, h' => by
    simp only [strLe] at h h'
    split_ifs at h h' with h1 h2 h3 h4 h5 h6 <;> try omega
    have hc : a = b := Char.ext (UInt32.toNat_inj.mp (by assumption))
    rw [hc, strLe_antisymm h h']

/-- The list in a syntax error is sorted, so it does not depend on the order in which the failures were found. -/
theorem newParseError_perm (inp : Bytes) (o : Int) {e e' : List Str} (h : e.Perm e') :
    newParseError inp o e = newParseError inp o e' := by
  have hs : e.insertionSort (fun a b => strLe a b = true) = e'.insertionSort (fun a b => strLe a b = true) := by
    refine List.Perm.eq_of_pairwise ?_ (List.pairwise_insertionSort _ _) (List.pairwise_insertionSort _ _)
      (((List.perm_insertionSort _ e).trans h).trans (List.perm_insertionSort _ e').symm)
    exact fun a b _ _ => strLe_antisymm
  unfold newParseError
  rw [hs]

/-- Two finished runs differ in order only. -/
theorem runs_perm {sg : SG} {inp : Bytes} {st st' : SppfSt} (h : LoopInv sg inp st) (hw : st.work = [])
    (h' : LoopInv sg inp st') (hw' : st'.work = []) : st.nodes.Perm st'.nodes ∧ st.packs.Perm st'.packs := by
  refine ⟨(List.perm_ext_iff_of_nodup h.inv.nodesNodup h'.inv.nodesNodup).mpr fun k => ?_,
    (List.perm_ext_iff_of_nodup h.inv.packsNodup h'.inv.packsNodup).mpr fun ⟨k, ch⟩ => ?_⟩
  · rw [nodes_iff h hw, nodes_iff h' hw']
  · rw [packs_iff h hw, packs_iff h' hw']

/-- The diagnostics of two forests differ in order only. -/
theorem diag_perm {s s' : Sched NodeKey} (hf : s.Fair) (hf' : s'.Fair) {inp : Bytes} {g : Grammar} {root : Str} {N N' M : Nat}
    {f f' : Forest} (h : parseForest s inp g root N M = .ok f) (h' : parseForest s' inp g root N' M = .ok f') (hs : f.sg = f'.sg) :
    f.st.maxPos = f'.st.maxPos ∧ f.st.expected.Perm f'.st.expected := by
  have key : ∀ {s : Sched NodeKey} {N : Nat} {f : Forest}, s.Fair → parseForest s inp g root N M = .ok f →
      Diag f.st.expected f.st.maxPos := by
    intro s N f hf h
    obtain ⟨_, _, _, _, _, _, hloop, _⟩ := parseForest_ok hf h
    refine sppfLoop_diag _ _ _ ?_ hloop
    exact Diag.of_eq (st := {}) ⟨List.nodup_nil, .inl rfl⟩ (sppfInit_diag _)
  obtain ⟨d1, d2⟩ := key hf h
  obtain ⟨d1', d2'⟩ := key hf' h'
  obtain ⟨_, a2, a3⟩ := C35_furthest g root s hf inp N M f h
  obtain ⟨_, b2, b3⟩ := C35_furthest g root s' hf' inp N' M f' h'
  have le1 : f.st.maxPos ≤ f'.st.maxPos := by
    rcases d2 with d2 | d2
    · omega
    · obtain ⟨t, ht⟩ := List.exists_mem_of_ne_nil _ d2
      obtain ⟨e, L, u, rc, h1, h2, h3, _⟩ := a2 t ht
      rw [hs] at h1 h2
      rcases b3 e L u _ rc h1 h2 h3 with h | ⟨h, _⟩ <;> omega
  have le2 : f'.st.maxPos ≤ f.st.maxPos := by
    rcases d2' with d2 | d2
    · omega
    · obtain ⟨t, ht⟩ := List.exists_mem_of_ne_nil _ d2
      obtain ⟨e, L, u, rc, h1, h2, h3, _⟩ := b2 t ht
      rw [← hs] at h1 h2
      rcases a3 e L u _ rc h1 h2 h3 with h | ⟨h, _⟩ <;> omega
  have he : f.st.maxPos = f'.st.maxPos := by omega
  refine ⟨he, (List.perm_ext_iff_of_nodup d1 d1').mpr fun t => ⟨fun ht => ?_, fun ht => ?_⟩⟩
  · obtain ⟨e, L, u, rc, h1, h2, h3, rfl⟩ := a2 t ht
    rw [hs] at h1 h2
    rcases b3 e L u _ rc h1 h2 h3 with h | ⟨_, h⟩
    · omega
    · exact h
  · obtain ⟨e, L, u, rc, h1, h2, h3, rfl⟩ := b2 t ht
    rw [← hs] at h1 h2
    rcases a3 e L u _ rc h1 h2 h3 with h | ⟨_, h⟩
    · omega
    · exact h

theorem packsOf_perm {f f' : Forest} (h : f.st.packs.Perm f'.st.packs) (k : NodeKey) : (f.packsOf k).Perm (f'.packsOf k) :=
  (h.filter _).map _

theorem short_perm {α : Type} {a b : List α} (h : a.Perm b) (hl : a.length ≤ 1) : a = b := by
  match a, hl with
  | [], _ => exact h.nil_eq
  | [x], _ => exact (List.perm_singleton.mp h.symm).symm

theorem treeKids_congr {sg : SG} {rec rec' : List NodeKey → NodeKey → Option (List ParseTree)} {stack : List NodeKey} :
    ∀ {ks : List NodeKey}, (∀ c ∈ ks, ∀ st, rec st c = rec' st c) → treeKids sg rec stack ks = treeKids sg rec' stack ks
  | [], _ => rfl
  | c :: ks, h => by
    have h1 : treeChild sg rec stack c = treeChild sg rec' stack c := by
      have := h c (List.mem_cons_self ..)
      unfold treeChild
      cases c <;> simp only [this]
    simp only [treeKids, h1, treeKids_congr fun c hc => h c (List.mem_cons_of_mem _ hc)]

theorem collect_perm {f f' : Forest} (hs : f.sg = f'.sg) (h : ∀ k, (f.packsOf k).Perm (f'.packsOf k)) {r : NodeKey}
    (hu : ∀ x, AtOrBelow f.packsOf r x → (f.packsOf x).length ≤ 1) : ∀ (fuel : Nat) (st : List NodeKey) (n : NodeKey),
    AtOrBelow f.packsOf r n → f.collect fuel st n = f'.collect fuel st n
  | 0, _, _, _ => rfl
  | fuel + 1, st, n, hn => by
    have he := short_perm (h n) (hu n hn)
    unfold Forest.collect
    rw [← he, ← hs]
    cases hp : f.packsOf n with
    | nil => rfl
    | cons pk l =>
      exact treeKids_congr fun c hc st => collect_perm hs h hu fuel st c (hn.tail ⟨pk, by rw [hp]; simp, hc⟩)

namespace Props

/-- C122.  Whatever the iteration orders, `ParseForest` returns the same error or forests with the same nodes and
packings, which agree on `Valid`, `NumTrees`, `Ambiguous`, `Nodes`, `ParseError`, and, unless the input is ambiguous,
`Tree`. -/
theorem C122_forest (g : Grammar) (s s' : Sched NodeKey) (hf : s.Fair) (hf' : s'.Fair) (inp : Bytes) (root : Str)
    (maxNodes maxSlots : Nat) :
    (∃ e, parseForest s inp g root maxNodes maxSlots = .error e ∧ parseForest s' inp g root maxNodes maxSlots = .error e) ∨
    ∃ f f', parseForest s inp g root maxNodes maxSlots = .ok f ∧ parseForest s' inp g root maxNodes maxSlots = .ok f' ∧
      f.st.nodes.Perm f'.st.nodes ∧ (∀ k, (f.packsOf k).Perm (f'.packsOf k)) ∧ f.valid = f'.valid ∧
      f.numTrees = f'.numTrees ∧ f.ambiguous = f'.ambiguous ∧ f.nodes = f'.nodes ∧ f.parseError = f'.parseError ∧
      (f.ambiguous = some false → f.tree = f'.tree) := by
  cases hc : compileSlots g root maxSlots with
  | error e => exact .inl ⟨e, by simp [parseForest, hc], by simp [parseForest, hc]⟩
  | ok sg =>
    obtain ⟨st, h⟩ := parseForest_eq (inp := inp) hf hc
    obtain ⟨st', h'⟩ := parseForest_eq (inp := inp) hf' hc
    have h0 := h 0
    have h0' := h' 0
    rw [if_neg (by omega)] at h0 h0'
    obtain ⟨_, _, _, hL, hw, _, _, _⟩ := parseForest_ok hf h0
    obtain ⟨_, _, _, hL', hw', _, _, _⟩ := parseForest_ok hf' h0'
    obtain ⟨hn, hp⟩ := runs_perm hL hw hL' hw'
    simp only at hn hp
    have hN := h maxNodes
    have hN' := h' maxNodes
    rw [← hn.length_eq] at hN'
    by_cases hb : 0 < maxNodes ∧ maxNodes < st.nodes.length
    · rw [if_pos hb] at hN hN'
      exact .inl ⟨_, hN, hN'⟩
    · rw [if_neg hb] at hN hN'
      refine .inr ⟨_, _, hN, hN', hn, fun k => packsOf_perm hp k, ?_⟩
      obtain ⟨d1, d2⟩ := diag_perm hf hf' hN hN' rfl
      simp only at d1 d2
      have hroot : NodeKey.sym sg.start 0 inp.length ∈ st.nodes ↔ NodeKey.sym sg.start 0 inp.length ∈ st'.nodes := hn.mem_iff
      generalize hf1 : (⟨sg, inp, if NodeKey.sym sg.start 0 inp.length ∈ st.nodes then
        some (.sym sg.start 0 inp.length) else none, st⟩ : Forest) = f at *
      generalize hf2 : (⟨sg, inp, if NodeKey.sym sg.start 0 inp.length ∈ st'.nodes then
        some (.sym sg.start 0 inp.length) else none, st'⟩ : Forest) = f' at *
      have e1 : f.root = f'.root := by
        rw [← hf1, ← hf2]
        simp only [hroot]
      have es : f.sg = f'.sg := by rw [← hf1, ← hf2]
      have ei : f.input = f'.input := by rw [← hf1, ← hf2]
      have est : f.st = st := by rw [← hf1]
      have est' : f'.st = st' := by rw [← hf2]
      have hpk : ∀ k, (f.packsOf k).Perm (f'.packsOf k) := packsOf_perm (by rw [est, est']; exact hp)
      have ev : f.valid = f'.valid := by unfold Forest.valid; rw [e1]
      have hfu : f.fuel = f'.fuel := by unfold Forest.fuel; rw [est, est', hn.length_eq]
      have epe : f.parseError = f'.parseError := by
        unfold Forest.parseError
        rw [ev, ei, est, est', d1, newParseError_perm _ _ d2]
      cases hr : f.root with
      | none =>
        rw [hr] at e1
        refine ⟨ev, ?_, ?_, ?_, epe, ?_⟩
        · unfold Forest.numTrees; rw [hr, ← e1]
        · unfold Forest.ambiguous; rw [hr, ← e1]
        · unfold Forest.nodes; rw [hr, ← e1]
        · intro _; unfold Forest.tree; rw [hr, ← e1]
      | some r =>
        have hr' := e1 ▸ hr
        obtain ⟨_, _, _, hI, _, _, _, hm⟩ := parseForest_ok hf hN
        obtain ⟨_, _, _, hI', _, _, _, hm'⟩ := parseForest_ok hf' hN'
        rw [hr] at hm
        rw [hr'] at hm'
        split_ifs at hm with hm1
        split_ifs at hm' with hm1'
        simp only [Option.some.injEq] at hm hm'
        obtain ⟨q1, q2, q3⟩ := answers_perm hpk (closed_nodes hI.inv) (closed_nodes hI'.inv) true (hm ▸ hm1) (hm' ▸ hm1')
          (fuel := f.fuel) (fuel' := f'.fuel) (by unfold Forest.fuel; omega) (by unfold Forest.fuel; omega)
          (productive hI.inv (hm ▸ hm1)) (productive hI'.inv (hm' ▸ hm1'))
        refine ⟨ev, ?_, ?_, ?_, epe, ?_⟩
        · unfold Forest.numTrees; rw [hr, hr']; exact q1
        · unfold Forest.ambiguous; rw [hr, hr']; exact q2
        · unfold Forest.nodes; rw [hr, hr']; exact q3
        · intro ha
          obtain ⟨_, ⟨b, hb1, hb2⟩, _⟩ := C48_counts g s hf inp root maxNodes maxSlots f hN r hr
          rw [ha] at hb1
          cases hb1
          have hu : ∀ x, AtOrBelow f.packsOf r x → (f.packsOf x).length ≤ 1 := by
            intro x hx
            by_contra hc
            exact absurd (hb2.mpr ⟨x, hx, by omega⟩) (by simp)
          unfold Forest.tree
          rw [hr, hr']
          simp only []
          rw [collect_perm es hpk hu f.fuel [r] r .refl, hfu, es]

end Props

/-! ## ParseBSR -/

section
variable {f f' : BsrForest}

theorem pivots_perm (h : f.set.Perm f'.set) (L : Slot) (l r : Nat) : (f.pivots L l r).Perm (f'.pivots L l r) :=
  (h.filter _).map _

theorem flatMap_perm {α β : Type} {l : List α} {F F' : α → List β} (h : ∀ a ∈ l, (F a).Perm (F' a)) :
    (l.flatMap F).Perm (l.flatMap F') := by
  induction l with
  | nil => exact .refl _
  | cons a l ih =>
    simp only [List.flatMap_cons]
    exact (h a (List.mem_cons_self ..)).append (ih fun a ha => h a (List.mem_cons_of_mem _ ha))

theorem bsr_packsOf_perm (hs : f.sg = f'.sg) (h : f.set.Perm f'.set) (k : NodeKey) : (f.packsOf k).Perm (f'.packsOf k) := by
  cases k with
  | sym n l r =>
    simp only [BsrForest.packsOf, ← hs]
    exact flatMap_perm fun ai _ => (pivots_perm h _ _ _).map _
  | inter L l r =>
    simp only [BsrForest.packsOf, ← hs]
    exact (pivots_perm h _ _ _).map _
  | term a b => exact .refl _

/-- If a symbol has at most one element, it is found whatever the order. -/
theorem pick_perm (hs : f.sg = f'.sg) (h : f.set.Perm f'.set) {n a b : Nat} (hu : (f.packsOf (.sym n a b)).length ≤ 1) :
    f.pick n a b = f'.pick n a b := by
  unfold BsrForest.pick
  rw [← hs]
  have : ∀ l : List Nat, (l.flatMap fun ai =>
      (f.pivots (f.sg.endSlot n ai) a b).map fun k => elemKids f.sg (f.sg.endSlot n ai) a k b).length ≤ 1 →
      (l.findSome? fun ai => (f.pivots (f.sg.endSlot n ai) a b).head?.map fun k => (f.sg.endSlot n ai, k)) =
      l.findSome? fun ai => (f'.pivots (f.sg.endSlot n ai) a b).head?.map fun k => (f.sg.endSlot n ai, k) := by
    intro l
    induction l with
    | nil => intro _; rfl
    | cons ai l ih =>
      intro hl
      simp only [List.flatMap_cons, List.length_append, List.length_map] at hl
      rw [List.findSome?_cons, List.findSome?_cons,
        short_perm (pivots_perm h (f.sg.endSlot n ai) a b) (by omega), ih (by omega)]
  exact this _ hu

theorem mem_symKid {n k r : Nat} : NodeKey.sym n k r ∈ symKid (.nt n) k r := List.mem_singleton.mpr rfl

theorem collectChild_perm (hs : f.sg = f'.sg) (h : f.set.Perm f'.set) {root : NodeKey}
    (hu : ∀ x, AtOrBelow f.packsOf root x → (f.packsOf x).length ≤ 1)
    {rec rec' : List NodeKey → Slot → Nat → Nat → Nat → Option (List ParseTree)}
    (hrec : ∀ v sl l k r, (∀ c ∈ elemKids f.sg sl l k r, AtOrBelow f.packsOf root c) → rec v sl l k r = rec' v sl l k r)
    (v : List NodeKey) (y : Sym) (a b : Nat) (hy : ∀ c ∈ symKid y a b, AtOrBelow f.packsOf root c) :
    f.collectChild rec v y a b = f'.collectChild rec' v y a b := by
  cases y with
  | eps => rfl
  | term e => rfl
  | nt n =>
    have hn := hy _ mem_symKid
    have hp := pick_perm hs h (hu _ hn)
    simp only [BsrForest.collectChild, ← hp, ← hs]
    by_cases hm : NodeKey.sym n a b ∈ v
    · rw [if_pos hm, if_pos hm]
    · rw [if_neg hm, if_neg hm]
      cases hk : f.pick n a b with
      | none => rfl
      | some p =>
        obtain ⟨sl, k⟩ := p
        simp only []
        rw [hrec]
        intro c hc
        refine hn.tail ⟨_, ?_, hc⟩
        unfold BsrForest.pick at hk
        obtain ⟨ai, h1, h2⟩ := List.exists_of_findSome?_eq_some hk
        obtain ⟨k', h3, h4⟩ := Option.map_eq_some_iff.mp h2
        cases h4
        simp only [BsrForest.packsOf, List.mem_flatMap, List.mem_map]
        exact ⟨ai, h1, k, List.mem_of_mem_head? h3, rfl⟩

theorem collectElem_perm (hs : f.sg = f'.sg) (h : f.set.Perm f'.set) {root : NodeKey}
    (hu : ∀ x, AtOrBelow f.packsOf root x → (f.packsOf x).length ≤ 1) :
    ∀ (fuel : Nat) (v : List NodeKey) (sl : Slot) (l k r : Nat), (∀ c ∈ elemKids f.sg sl l k r, AtOrBelow f.packsOf root c) →
      f.collectElem fuel v sl l k r = f'.collectElem fuel v sl l k r
  | 0, _, _, _, _, _, _ => rfl
  | fuel + 1, v, sl, l, k, r, hk => by
    have hch := collectChild_perm hs h hu (collectElem_perm hs h hu fuel) v
    unfold elemKids at hk
    simp only [BsrForest.collectElem, ← hs]
    rw [hch _ k r fun c hc => hk c (List.mem_append_left _ hc)]
    have hpre : ∀ c ∈ (if sl.dot = 1 then [] else if sl.dot = 2 then symKid ((f.sg.prod sl).getD 0 .eps) l k
        else [NodeKey.inter ⟨sl.nt, sl.alt, sl.dot - 1⟩ l k]), AtOrBelow f.packsOf root c :=
      fun c hc => hk c (List.mem_append_right _ hc)
    congr 1
    split_ifs at hpre ⊢ with h1 h2
    · rfl
    · exact hch _ l k hpre
    · have hin := hpre _ (List.mem_singleton.mpr rfl)
      have hl := hu _ hin
      simp only [BsrForest.packsOf, List.length_map] at hl
      rw [← short_perm (pivots_perm h _ l k) hl]
      cases hq : f.pivots ⟨sl.nt, sl.alt, sl.dot - 1⟩ l k with
      | nil => rfl
      | cons k' ks =>
        refine collectElem_perm hs h hu fuel v _ _ _ _ fun c hc => hin.tail ⟨_, ?_, hc⟩
        simp only [BsrForest.packsOf, List.mem_map]
        exact ⟨k', by rw [hq]; simp, rfl⟩

theorem treeWith_perm (hs : f.sg = f'.sg) (hi : f.input = f'.input) (h : f.set.Perm f'.set)
    (hu : ∀ x, AtOrBelow f.packsOf f.root x → (f.packsOf x).length ≤ 1) (fuel : Nat) :
    f.treeWith fuel = f'.treeWith fuel := by
  have hp := pick_perm hs h (hu f.root .refl)
  unfold BsrForest.treeWith
  rw [← bsr_valid_perm hs.symm hi.symm h.symm, ← hs, ← hi, ← hp]
  by_cases hv : f'.valid = true
  · rw [if_pos hv, if_pos hv]
    cases hk : f.pick f.sg.start 0 f.input.length with
    | none => rfl
    | some p =>
      obtain ⟨sl, k⟩ := p
      simp only []
      rw [collectElem_perm hs h hu fuel [] sl 0 k f.input.length]
      intro c hc
      refine Relation.ReflTransGen.tail .refl ⟨_, ?_, hc⟩
      unfold BsrForest.pick at hk
      obtain ⟨ai, h1, h2⟩ := List.exists_of_findSome?_eq_some hk
      obtain ⟨k', h3, h4⟩ := Option.map_eq_some_iff.mp h2
      cases h4
      simp only [BsrForest.root, BsrForest.packsOf, List.mem_flatMap, List.mem_map]
      exact ⟨ai, h1, k, List.mem_of_mem_head? h3, rfl⟩
  · rw [if_neg hv, if_neg hv]

end

namespace Props

/-- C122, the answers of `ParseBSR`: whatever the orders in which the parser, and later the queries, range over the
maps, `Valid`, `NumTrees`, `Ambiguous`, `Nodes`, and, unless the input is ambiguous, `Tree` say the same. -/
theorem C122_bsr (g : Grammar) (s s' : Sched Nat) (hf : s.Fair) (hf' : s'.Fair) (inp : Bytes) (root : Str)
    (N N' maxSlots : Nat) (f₀ f₀' : BsrForest) (h : parseBSR s inp g root N maxSlots = .ok f₀)
    (h' : parseBSR s' inp g root N' maxSlots = .ok f₀') (f f' : BsrForest) (hs : f.sg = f₀.sg) (hi : f.input = f₀.input)
    (hp : f.set.Perm f₀.set) (hs' : f'.sg = f₀'.sg) (hi' : f'.input = f₀'.input) (hp' : f'.set.Perm f₀'.set) :
    f.valid = f'.valid ∧ f.numTrees = f'.numTrees ∧ f.ambiguous = f'.ambiguous ∧ f.nodes = f'.nodes ∧
      (f.ambiguous = some false → ∀ fuel, f.treeWith fuel = f'.treeWith fuel) := by
  have hset : f.set.Perm f'.set := (hp.trans (C02_order g s s' hf hf' inp root N N' maxSlots f₀ f₀' h h')).trans hp'.symm
  obtain ⟨hc, hin, _⟩ := parseBSR_ok hf h
  obtain ⟨hc', hin', _⟩ := parseBSR_ok hf' h'
  rw [hc] at hc'
  have es : f.sg = f'.sg := hs.trans ((Except.ok.inj hc').trans hs'.symm)
  have ei : f.input = f'.input := hi.trans (hin.trans (hin'.symm.trans hi'.symm))
  have ev : f.valid = f'.valid := (bsr_valid_perm es.symm ei.symm hset.symm).symm
  have er : f.root = f'.root := by unfold BsrForest.root; rw [es, ei]
  refine ⟨ev, ?_⟩
  have hn : f.nodes = f'.nodes := hset.length_eq
  cases hv : f.valid with
  | false =>
    have hv' := ev ▸ hv
    refine ⟨?_, ?_, hn, fun _ fuel => ?_⟩
    · simp [BsrForest.numTrees, hv, hv']
    · simp [BsrForest.ambiguous, hv, hv']
    · simp [BsrForest.treeWith, hv, hv']
  | true =>
    have hv' := ev ▸ hv
    obtain ⟨fs, hfs⟩ := forest_for hf h
    have hpair := pair_of fwd_fair hf hfs h hs hi hp
    have hpair' := pair_of fwd_fair hf' hfs h' hs' hi' hp'
    have hro : NodeOK fs.sg inp f.root := by
      rw [← hpair.sg, hs]
      exact bsr_root_ok hf h hs hi (bsr_valid_perm hs hi hp ▸ hv)
    have hro' : NodeOK fs.sg inp f'.root := er ▸ hro
    have hpk := bsr_packsOf_perm es hset
    have hpr := bsr_productive hpair hro rfl
    have hpr' := bsr_productive hpair' hro' rfl
    obtain ⟨q1, q2, _⟩ := answers_perm hpk (closed_universe hpair hro) (closed_universe hpair' hro') false
      (List.mem_cons_self ..) (er ▸ List.mem_cons_self ..) (universe_fuel f) (universe_fuel f') hpr (er ▸ hpr')
    refine ⟨?_, ?_, hn, fun ha => ?_⟩
    · unfold BsrForest.numTrees; rw [if_pos hv, if_pos hv', q1, er]
    · unfold BsrForest.ambiguous; rw [if_pos hv, if_pos hv', q2, er]
    · obtain ⟨_, b, _, h2, _, _, h5, _⟩ := Verif.answers (closed_universe hpair hro) false (List.mem_cons_self ..)
        (universe_fuel f) hpr
      unfold BsrForest.ambiguous at ha
      rw [if_pos hv, h2] at ha
      cases ha
      refine treeWith_perm es ei hset fun x hx => ?_
      by_contra hcc
      exact absurd (h5.mpr ⟨x, hx, by omega⟩) (by simp)

/-- C122, the outcome of `ParseBSR`: two runs return the same error, or both a forest, unless the budget is exactly
the number of elements. -/
theorem C122_bsr_outcome (g : Grammar) (s s' : Sched Nat) (hf : s.Fair) (hf' : s'.Fair) (inp : Bytes) (root : Str)
    (N maxSlots : Nat) :
    (∃ e, parseBSR s inp g root N maxSlots = .error e ∧ parseBSR s' inp g root N maxSlots = .error e) ∨
    (∃ f f', parseBSR s inp g root N maxSlots = .ok f ∧ parseBSR s' inp g root N maxSlots = .ok f') ∨
    0 < N ∧ ∃ f, parseBSR s inp g root 0 maxSlots = .ok f ∧ f.nodes = N := by
  cases hc : compileSlots g root maxSlots with
  | error e => exact .inl ⟨e, by simp [parseBSR, hc], by simp [parseBSR, hc]⟩
  | ok sg =>
    obtain ⟨_, st, _, _, _, h0, hN⟩ := parseBSR_eq (inp := inp) hf hc
    obtain ⟨_, st', _, _, _, h0', hN'⟩ := parseBSR_eq (inp := inp) hf' hc
    have hl := (C02_order g s s' hf hf' inp root 0 0 maxSlots _ _ h0 h0').length_eq
    simp only at hl
    by_cases hz : N = 0
    · subst hz; exact .inr (.inl ⟨_, _, h0, h0'⟩)
    · rcases hN N (by omega) with ⟨a, a'⟩ | ⟨a, a'⟩ <;> rcases hN' N (by omega) with ⟨b, b'⟩ | ⟨b, b'⟩
      · exact .inl ⟨_, a, b⟩
      · exact .inr (.inr ⟨by omega, _, h0, show st.set.length = N by omega⟩)
      · exact .inr (.inr ⟨by omega, _, h0, show st.set.length = N by omega⟩)
      · exact .inr (.inl ⟨_, _, a, b⟩)

/-- C122 for generated parsers without a budget: in any two orders the emitted `Parse` returns results that agree on
`Valid`, `Elements`, `NumTrees`, `Ambiguous`, and, unless the input is ambiguous, `Tree`. -/
theorem C122_generated (g : Grammar) (root : Str) (p : Cg.Prog) (h : Cg.generate g root = .ok p) (s s' : Sched Nat)
    (hf : s.Fair) (hf' : s'.Fair) (inp : Bytes) :
    ∃ r r' F, (∀ fuel, F ≤ fuel → Cg.parse p 0 s fuel inp = .result r ∧ Cg.parse p 0 s' fuel inp = .result r') ∧
      r.valid p = r'.valid p ∧ r.elements = r'.elements ∧ r.numTrees p = r'.numTrees p ∧ r.ambiguous p = r'.ambiguous p ∧
      (r.ambiguous p = some false → ∀ fuel, r.treeWith p fuel = r'.treeWith p fuel) := by
  obtain ⟨r, f, h1, h2, F, h3⟩ := C45_unbounded_partial g root p h s hf inp
  obtain ⟨r', f', h1', h2', F', h3'⟩ := C45_unbounded_partial g root p h s' hf' inp
  obtain ⟨e1, e2, e3, e4, e5⟩ := C122_bsr g s s' hf hf' inp root _ _ _ f f' h1 h1' f f' rfl rfl (.refl _) rfl rfl (.refl _)
  refine ⟨r, r', max F F', fun fuel hle => ⟨h3 fuel (by omega), h3' fuel (by omega)⟩, ?_, ?_, ?_, ?_, ?_⟩
  · rw [h2.valid, h2'.valid, e1]
  · rw [h2.elements, h2'.elements, e4]
  · rw [h2.numTrees, h2'.numTrees, e2]
  · rw [h2.ambiguous, h2'.ambiguous, e3]
  · intro ha fuel
    rw [h2.ambiguous] at ha
    rw [h2.tree, h2'.tree, e5 ha]

/-- the other way round -/
def bwd {α : Type} : Sched α := fun _ l => l.reverse

theorem bwd_fair {α : Type} : (bwd : Sched α).Fair := fun _ l => List.reverse_perm l

/-- `a = a b / b` and `b = "x" / "xx"`. -/
def tailWays : Grammar :=
  ⟨[⟨str% "a", [[⟨1, some 1, .rulename (str% "a")⟩, ⟨1, some 1, .rulename (str% "b")⟩], [⟨1, some 1, .rulename (str% "b")⟩]]⟩,
    ⟨str% "b", [[⟨1, some 1, .charVal false (str% "x")⟩], [⟨1, some 1, .charVal false (str% "xx")⟩]]⟩]⟩

/-- `s = a s / a` and `a = a "x" / "x"`. -/
def tailRuns : Grammar :=
  ⟨[⟨str% "s", [[⟨1, some 1, .rulename (str% "a")⟩, ⟨1, some 1, .rulename (str% "s")⟩], [⟨1, some 1, .rulename (str% "a")⟩]]⟩,
    ⟨str% "a", [[⟨1, some 1, .rulename (str% "a")⟩, ⟨1, some 1, .charVal false (str% "x")⟩], [⟨1, some 1, .charVal false (str% "x")⟩]]⟩]⟩

/-- Where the children of the root end in the tree of a forest. -/
def kidEnds (t : Option ParseTree) : Option (List Nat) := t.map fun t => t.children.map ParseTree.fin

/-- What is asked in `C122_tree_fails`. -/
def askTree (r : Except ParseErr Forest) : Option (Option Bool × Option Int × Option (List Nat)) :=
  match r with
  | .ok f => some (f.ambiguous, f.numTrees, kidEnds f.tree)
  | .error _ => none

/-- C122: the tree of an ambiguous forest is not determined.  With `tailWays` and the input `xxx`, `Tree` reads `xx`
and `x`, or `x` and `xx`, depending on the order in which Go ranges over a map. -/
theorem C122_tree_fails : ∃ (g : Grammar) (inp : Bytes) (root : Str) (s s' : Sched NodeKey) (f f' : Forest),
    s.Fair ∧ s'.Fair ∧ parseForest s inp g root 0 0 = .ok f ∧ parseForest s' inp g root 0 0 = .ok f' ∧
      f.ambiguous = some true ∧ f.numTrees = f'.numTrees ∧ f.tree ≠ f'.tree := by
  have h : askTree (parseForest fwd (bytes% "xxx") tailWays (str% "a") 0 0) = some (some true, some 3, some [2, 3]) := by
    decide +kernel
  have h' : askTree (parseForest bwd (bytes% "xxx") tailWays (str% "a") 0 0) = some (some true, some 3, some [1, 3]) := by
    decide +kernel
  revert h h'
  cases e : parseForest fwd (bytes% "xxx") tailWays (str% "a") 0 0 with
  | error _ => intro h; cases h
  | ok f =>
    cases e' : parseForest bwd (bytes% "xxx") tailWays (str% "a") 0 0 with
    | error _ => intro _ h; cases h
    | ok f' =>
      intro h h'
      simp only [askTree, Option.some.injEq, Prod.mk.injEq] at h h'
      refine ⟨_, _, _, _, _, f, f', fwd_fair, bwd_fair, e, e', h.1, by rw [h.2.1, h'.2.1], fun et => ?_⟩
      have h1 := h.2.2
      rw [et, h'.2.2] at h1
      exact absurd h1 (by decide)

/-- C122: with a budget that is exactly the number of elements, `ParseBSR` returns a forest or `ErrForestTooLarge`,
depending on the order in which Go ranges over a map. -/
theorem C122_budget_fails : ∃ (g : Grammar) (inp : Bytes) (root : Str) (s s' : Sched Nat) (N : Nat) (f : BsrForest),
    s.Fair ∧ s'.Fair ∧ parseBSR s inp g root N 0 = .error (.forestTooLarge N) ∧ parseBSR s' inp g root N 0 = .ok f ∧ f.nodes = N := by
  have h : bsrOf (parseBSR fwd (bytes% "xxx") tailRuns (str% "s") 16 0) = none := by decide +kernel
  have h' : bsrOf (parseBSR bwd (bytes% "xxx") tailRuns (str% "s") 16 0) = some (true, 16) := by decide +kernel
  revert h h'
  cases e' : parseBSR bwd (bytes% "xxx") tailRuns (str% "s") 16 0 with
  | error _ => intro _ h; cases h
  | ok f =>
    intro h h'
    refine ⟨_, _, _, fwd, bwd, 16, f, fwd_fair, bwd_fair, ?_, e', ?_⟩
    · obtain ⟨_, st, _, _, _, _, hN⟩ := parseBSR_eq (inp := bytes% "xxx") (sched := fwd) fwd_fair (parseBSR_ok bwd_fair e').1
      rcases hN 16 (by decide) with ⟨a, _⟩ | ⟨a, _⟩
      · exact a
      · rw [a] at h; cases h
    · simp only [bsrOf, Option.some.injEq, Prod.mk.injEq] at h'
      exact h'.2

-- C122_bsr, C122_bsr_outcome and C122_generated: forests of one input in two orders
example : bsrOf (parseBSR fwd (bytes% "xxx") tailRuns (str% "s") 17 0) = some (true, 16) := by decide +kernel
example : bsrOf (parseBSR bwd (bytes% "xxx") tailRuns (str% "s") 0 0) = some (true, 16) := by decide +kernel
example : (Cg.generate tailRuns (str% "s")).isOk = true := by decide +kernel
-- two orders on a grammar that is not ambiguous: the same tree
example : ∃ f f', parseForest fwd (bytes% "1+(2+3)") Ex.expr (str% "expr") 0 0 = .ok f ∧
    parseForest zigzag (bytes% "1+(2+3)") Ex.expr (str% "expr") 0 0 = .ok f' ∧ f.ambiguous = some false ∧ f.tree = f'.tree := by
  rcases C122_forest Ex.expr fwd zigzag fwd_fair zigzag_fair (bytes% "1+(2+3)") (str% "expr") 0 0 with
    ⟨e, h, _⟩ | ⟨f, f', h, h', _, _, _, _, _, _, _, ht⟩
  · have : askTree (parseForest fwd (bytes% "1+(2+3)") Ex.expr (str% "expr") 0 0) ≠ none := by decide +kernel
    rw [h] at this
    exact absurd rfl this
  · have : (askTree (parseForest fwd (bytes% "1+(2+3)") Ex.expr (str% "expr") 0 0)).map Prod.fst = some (some false) := by
      decide +kernel
    rw [h] at this
    simp only [askTree, Option.map_some, Option.some.injEq] at this
    exact ⟨f, f', h, h', this, ht this⟩

end Props

end Verif
