import Verif.Bsr
import Verif.GLLBounds
import Mathlib.Data.List.Perm.Subperm

/-! # The BSR engine computes exactly the closure of the GLL rules -/

namespace Verif

/-- The advances that are recorded (/repo/bsr.go:94). -/
def Kept (sg : SG) (L : Slot) : Prop := L.dot ≥ 2 ∨ L.dot = (sg.prod L).length

structure BInv (sg : SG) (inp : Bytes) (st : BsrSt) : Prop where
  seen : ∀ d ∈ st.seen, Reach sg inp (.at d.L d.u d.i d.rc)
  edges : ∀ v u, (v, u) ∈ st.edges → Reach sg inp (.edge v u)
  popped : ∀ v j, (v, j) ∈ st.popped → Reach sg inp (.popped v j)
  set : ∀ e ∈ st.set, Reach sg inp (.adv e.slot e.l e.k e.r) ∧ Kept sg e.slot
  work : ∀ d ∈ st.work, d ∈ st.seen
  seenNodup : st.seen.Nodup
  setNodup : st.set.Nodup

/-- States only grow, and new descriptors are on the work list. -/
structure BExt (st st' : BsrSt) : Prop where
  seen : ∀ d ∈ st.seen, d ∈ st'.seen
  edges : ∀ e ∈ st.edges, e ∈ st'.edges
  popped : ∀ e ∈ st.popped, e ∈ st'.popped
  set : ∀ e ∈ st.set, e ∈ st'.set
  fresh : ∀ d ∈ st'.seen, d ∈ st.seen ∨ d ∈ st'.work
  work : ∀ d ∈ st.work, d ∈ st'.work
  count : st'.seen.length + st.work.length = st.seen.length + st'.work.length
  aborted : st.aborted = true → st'.aborted = true

theorem BExt.refl (st : BsrSt) : BExt st st :=
  ⟨fun _ h => h, fun _ h => h, fun _ h => h, fun _ h => h, fun _ h => .inl h, fun _ h => h, rfl, fun h => h⟩

theorem BExt.trans {a b c : BsrSt} (h1 : BExt a b) (h2 : BExt b c) : BExt a c where
  seen d h := h2.seen d (h1.seen d h)
  edges d h := h2.edges d (h1.edges d h)
  popped d h := h2.popped d (h1.popped d h)
  set d h := h2.set d (h1.set d h)
  fresh d h := by
    rcases h2.fresh d h with h | h
    · rcases h1.fresh d h with h | h
      · exact .inl h
      · exact .inr (h2.work d h)
    · exact .inr h
  work d h := h2.work d (h1.work d h)
  count := by have := h1.count; have := h2.count; omega
  aborted h := h2.aborted (h1.aborted h)

/-- The state grows and the stack is left alone. -/
structure BExt0 (st st' : BsrSt) : Prop extends BExt st st' where
  edgesEq : st'.edges = st.edges
  poppedEq : st'.popped = st.popped

theorem BExt0.refl (st : BsrSt) : BExt0 st st := ⟨.refl st, rfl, rfl⟩
theorem BExt0.trans {a b c : BsrSt} (h1 : BExt0 a b) (h2 : BExt0 b c) : BExt0 a c :=
  ⟨h1.toBExt.trans h2.toBExt, h2.edgesEq.trans h1.edgesEq, h2.poppedEq.trans h1.poppedEq⟩

/-- The advance is recorded, unless the run was aborted. -/
def BRec (sg : SG) (st : BsrSt) (L : Slot) (l k r : Nat) : Prop :=
  Kept sg L → st.aborted = true ∨ (⟨L, l, k, r⟩ : BsrElem) ∈ st.set

theorem BRec.mono {sg : SG} {st st' : BsrSt} {L : Slot} {l k r : Nat} (h : BRec sg st L l k r)
    (he : BExt st st') : BRec sg st' L l k r := by
  intro hk
  rcases h hk with h | h
  · exact .inl (he.aborted h)
  · exact .inr (he.set _ h)

section
variable {sg : SG} {inp : Bytes} {N : Nat} {st : BsrSt}

theorem bsrAdd_ext (d : BDesc) : BExt0 st (bsrAdd d st) ∧ d ∈ (bsrAdd d st).seen := by
  unfold bsrAdd
  split_ifs with h
  · exact ⟨.refl st, h⟩
  · refine ⟨⟨⟨fun d h => List.mem_cons_of_mem _ h, fun _ h => h, fun _ h => h, fun _ h => h,
      ?_, fun d h => List.mem_cons_of_mem _ h, by simp only [List.length_cons]; omega, fun h => h⟩, rfl, rfl⟩,
      List.mem_cons_self ..⟩
    intro d' hd
    rcases List.mem_cons.mp hd with rfl | hd
    · exact .inr (List.mem_cons_self ..)
    · exact .inl hd

theorem bsrAdd_inv {d : BDesc} (hi : BInv sg inp st) (hr : Reach sg inp (.at d.L d.u d.i d.rc)) :
    BInv sg inp (bsrAdd d st) := by
  unfold bsrAdd
  split_ifs with h
  · exact hi
  · refine { hi with seen := ?_, work := ?_, seenNodup := ?_ }
    · intro d' hd
      rcases List.mem_cons.mp hd with rfl | hd
      · exact hr
      · exact hi.seen d' hd
    · intro d' hd
      rcases List.mem_cons.mp hd with rfl | hd
      · exact List.mem_cons_self ..
      · exact List.mem_cons_of_mem _ (hi.work d' hd)
    · exact List.nodup_cons.mpr ⟨h, hi.seenNodup⟩

theorem bsrRecord_spec {L : Slot} {l k r : Nat} (hi : BInv sg inp st) (h : Reach sg inp (.adv L l k r)) :
    BInv sg inp (bsrRecord sg N L l k r st) ∧ BExt0 st (bsrRecord sg N L l k r st) ∧
      BRec sg (bsrRecord sg N L l k r st) L l k r := by
  unfold bsrRecord
  split_ifs with hk hN
  · exact ⟨{ hi with }, ⟨⟨fun _ h => h, fun _ h => h, fun _ h => h, fun _ h => h, fun _ h => .inl h, fun _ h => h,
      rfl, fun _ => rfl⟩, rfl, rfl⟩, fun _ => .inl rfl⟩
  · unfold bsrInsert
    split_ifs with hm
    · exact ⟨hi, .refl st, fun _ => .inr hm⟩
    · refine ⟨{ hi with set := ?_, setNodup := List.nodup_cons.mpr ⟨hm, hi.setNodup⟩ }, ⟨⟨fun _ h => h, fun _ h => h,
        fun _ h => h, fun d h => List.mem_cons_of_mem _ h, fun _ h => .inl h, fun _ h => h, rfl, fun h => h⟩, rfl, rfl⟩,
        fun _ => .inr (List.mem_cons_self ..)⟩
      intro e he
      rcases List.mem_cons.mp he with rfl | he
      · exact ⟨h, hk⟩
      · exact hi.set e he
  · exact ⟨hi, .refl st, fun hk' => absurd hk' hk⟩

theorem bsrResume_spec {v : GKey} {u : GNode} {j : Nat} (hi : BInv sg inp st)
    (he : Reach sg inp (.edge v u)) (hp : Reach sg inp (.popped v j)) :
    let st' := bsrResume sg N v u j st
    BInv sg inp st' ∧ BExt0 st st' ∧ (⟨v.ret, u, j, v.rc⟩ : BDesc) ∈ st'.seen ∧
      BRec sg st' v.ret (posOf u) v.pos j := by
  obtain ⟨a1, a2, a3⟩ := bsrRecord_spec (N := N) hi (.retRec _ _ _ he hp)
  have hadd := bsrAdd_ext (st := bsrRecord sg N v.ret (posOf u) v.pos j st) ⟨v.ret, u, j, v.rc⟩
  exact ⟨bsrAdd_inv a1 (.retAt _ _ _ he hp), a2.trans hadd.1, hadd.2, a3.mono hadd.1.toBExt⟩

/-- Every return over every edge has been taken. -/
def BReturns (sg : SG) (st : BsrSt) : Prop :=
  ∀ v u j, (v, u) ∈ st.edges → (v, j) ∈ st.popped →
    (⟨v.ret, u, j, v.rc⟩ : BDesc) ∈ st.seen ∧ BRec sg st v.ret (posOf u) v.pos j

theorem BReturns.mono {st' : BsrSt} (h : BReturns sg st) (he : BExt0 st st') : BReturns sg st' := by
  intro v e z h1 h2
  rw [he.edgesEq] at h1
  rw [he.poppedEq] at h2
  obtain ⟨h3, h4⟩ := h v e z h1 h2
  exact ⟨he.seen _ h3, h4.mono he.toBExt⟩

theorem mem_bsrPoppedOf {v : GKey} {z : Nat} : z ∈ bsrPoppedOf v st ↔ (v, z) ∈ st.popped := by
  unfold bsrPoppedOf
  simp only [List.mem_map, List.mem_filter, decide_eq_true_eq]
  constructor
  · rintro ⟨⟨a, b⟩, ⟨h1, h2⟩, h3⟩
    simp only at h2 h3; subst h2 h3; exact h1
  · intro h; exact ⟨_, ⟨h, rfl⟩, rfl⟩

theorem mem_bsrEdgesOf {v : GKey} {z : GNode} : z ∈ bsrEdgesOf v st ↔ (v, z) ∈ st.edges := by
  unfold bsrEdgesOf
  simp only [List.mem_map, List.mem_filter, decide_eq_true_eq]
  constructor
  · rintro ⟨⟨a, b⟩, ⟨h1, h2⟩, h3⟩
    simp only at h2 h3; subst h2 h3; exact h1
  · intro h; exact ⟨_, ⟨h, rfl⟩, rfl⟩

theorem bsrResumeAll_popped {v : GKey} {u : GNode} {js : List Nat} (hi : BInv sg inp st)
    (he : (v, u) ∈ st.edges) (hz : ∀ j ∈ js, (v, j) ∈ st.popped) :
    let st' := js.foldl (fun st j => bsrResume sg N v u j st) st
    BInv sg inp st' ∧ BExt0 st st' ∧
      ∀ j ∈ js, (⟨v.ret, u, j, v.rc⟩ : BDesc) ∈ st'.seen ∧ BRec sg st' v.ret (posOf u) v.pos j := by
  induction js generalizing st with
  | nil => exact ⟨hi, .refl st, by simp⟩
  | cons j js ih =>
    obtain ⟨a1, a2, a3, a4⟩ := bsrResume_spec (N := N) hi (hi.edges v u he) (hi.popped v j (hz j (List.mem_cons_self ..)))
    have hz' : ∀ z ∈ js, (v, z) ∈ (bsrResume sg N v u j st).popped := by
      intro z hz'; rw [a2.poppedEq]; exact hz z (List.mem_cons_of_mem _ hz')
    obtain ⟨b1, b2, b3⟩ := ih a1 (by rw [a2.edgesEq]; exact he) hz'
    refine ⟨b1, a2.trans b2, ?_⟩
    intro z hz
    rcases List.mem_cons.mp hz with rfl | hz
    · exact ⟨b2.seen _ a3, a4.mono b2.toBExt⟩
    · exact b3 z hz

theorem bsrResumeAll_edges {v : GKey} {j : Nat} {us : List GNode} (hi : BInv sg inp st)
    (he : ∀ u ∈ us, (v, u) ∈ st.edges) (hz : (v, j) ∈ st.popped) :
    let st' := us.foldl (fun st u => bsrResume sg N v u j st) st
    BInv sg inp st' ∧ BExt0 st st' ∧
      ∀ u ∈ us, (⟨v.ret, u, j, v.rc⟩ : BDesc) ∈ st'.seen ∧ BRec sg st' v.ret (posOf u) v.pos j := by
  induction us generalizing st with
  | nil => exact ⟨hi, .refl st, by simp⟩
  | cons u us ih =>
    obtain ⟨a1, a2, a3, a4⟩ := bsrResume_spec (N := N) hi (hi.edges v u (he u (List.mem_cons_self ..))) (hi.popped v j hz)
    have he' : ∀ u' ∈ us, (v, u') ∈ (bsrResume sg N v u j st).edges := by
      intro e' he'; rw [a2.edgesEq]; exact he e' (List.mem_cons_of_mem _ he')
    obtain ⟨b1, b2, b3⟩ := ih a1 he' (by rw [a2.poppedEq]; exact hz)
    refine ⟨b1, a2.trans b2, ?_⟩
    intro e' he'
    rcases List.mem_cons.mp he' with rfl | he'
    · exact ⟨b2.seen _ a3, a4.mono b2.toBExt⟩
    · exact b3 e' he'

theorem bsrCreate_spec {sched : Sched Nat} (hf : sched.Fair) {L : Slot} {u : GNode} {i rc : Nat}
    (hi : BInv sg inp st) (hret : BReturns sg st) (hr : Reach sg inp (.edge ⟨L.next, i, rc⟩ u)) :
    let st' := bsrCreate sg N sched L.next u i rc st
    BInv sg inp st' ∧ BReturns sg st' ∧ BExt st st' ∧ ((⟨L.next, i, rc⟩, u) : GKey × GNode) ∈ st'.edges := by
  unfold bsrCreate
  simp only []
  by_cases hm : ((⟨L.next, i, rc⟩, u) : GKey × GNode) ∈ st.edges
  · rw [if_pos hm]; exact ⟨hi, hret, .refl st, hm⟩
  rw [if_neg hm]
  generalize hst1 : ({ st with
    edges := st.edges ++ [((⟨L.next, i, rc⟩, u) : GKey × GNode)], tick := st.tick + 1 } : BsrSt) = st1
  have hedge : st1.edges = st.edges ++ [((⟨L.next, i, rc⟩, u) : GKey × GNode)] := by subst hst1; rfl
  have hpop : st1.popped = st.popped := by subst hst1; rfl
  have hE1 : BExt st st1 := by
    subst hst1
    exact ⟨fun _ h => h, fun d h => List.mem_append_left _ h, fun _ h => h, fun _ h => h,
      fun _ h => .inl h, fun _ h => h, rfl, fun h => h⟩
  have hI1 : BInv sg inp st1 := by
    subst hst1
    refine { hi with edges := fun v e he => ?_ }
    rcases List.mem_append.mp he with he | he
    · exact hi.edges v e he
    · simp only [List.mem_singleton, Prod.mk.injEq] at he
      obtain ⟨rfl, rfl⟩ := he
      exact hr
  have hmem : ((⟨L.next, i, rc⟩, u) : GKey × GNode) ∈ st1.edges := by rw [hedge]; simp
  have hzs : ∀ z ∈ sched st.tick (bsrPoppedOf ⟨L.next, i, rc⟩ st), ((⟨L.next, i, rc⟩, z) : GKey × Nat) ∈ st1.popped := by
    intro z hz
    rw [hpop]
    exact mem_bsrPoppedOf.mp ((hf _ _).mem_iff.mp hz)
  obtain ⟨a1, a2, a3⟩ := bsrResumeAll_popped (N := N) hI1 hmem hzs
  refine ⟨a1, ?_, hE1.trans a2.toBExt, a2.edges _ hmem⟩
  intro v e z h1 h2
  rw [a2.edgesEq, hedge] at h1
  rw [a2.poppedEq, hpop] at h2
  rcases List.mem_append.mp h1 with h1 | h1
  · obtain ⟨b1, b2⟩ := hret v e z h1 h2
    exact ⟨a2.seen _ (hE1.seen _ b1), b2.mono (hE1.trans a2.toBExt)⟩
  · simp only [List.mem_singleton, Prod.mk.injEq] at h1
    obtain ⟨rfl, rfl⟩ := h1
    exact a3 z ((hf _ _).mem_iff.mpr (mem_bsrPoppedOf.mpr h2))

theorem bsrPop_spec {u : GNode} {i : Nat} (hi : BInv sg inp st) (hret : BReturns sg st)
    (hp : ∀ v, u = some v → Reach sg inp (.popped v i)) :
    let st' := bsrPop sg N u i st
    BInv sg inp st' ∧ BReturns sg st' ∧ BExt st st' ∧ ∀ v, u = some v → (v, i) ∈ st'.popped := by
  cases u with
  | none => exact ⟨hi, hret, .refl st, nofun⟩
  | some v =>
    have hp := hp v rfl
    simp only [bsrPop]
    generalize hst1 : (if (v, i) ∈ st.popped then st else { st with popped := (v, i) :: st.popped }) = st1
    have hmem : (v, i) ∈ st1.popped := by
      subst hst1; split_ifs with h
      · exact h
      · exact List.mem_cons_self ..
    have hpop : ∀ x ∈ st1.popped, x ∈ st.popped ∨ x = (v, i) := by
      subst hst1; split_ifs with h
      · exact fun x hx => .inl hx
      · intro x hx
        rcases List.mem_cons.mp hx with rfl | hx
        · exact .inr rfl
        · exact .inl hx
    have hedge : st1.edges = st.edges := by subst hst1; split_ifs <;> rfl
    have hE1 : BExt st st1 := by
      subst hst1; split_ifs with h
      · exact .refl st
      · exact ⟨fun _ h => h, fun _ h => h, fun d h => List.mem_cons_of_mem _ h, fun _ h => h,
          fun _ h => .inl h, fun _ h => h, rfl, fun h => h⟩
    have hI1 : BInv sg inp st1 := by
      subst hst1; split_ifs with h
      · exact hi
      · refine { hi with popped := fun v' z' hz' => ?_ }
        rcases List.mem_cons.mp hz' with hz' | hz'
        · simp only [Prod.mk.injEq] at hz'
          obtain ⟨rfl, rfl⟩ := hz'
          exact hp
        · exact hi.popped v' z' hz'
    obtain ⟨a1, a2, a3⟩ := bsrResumeAll_edges (N := N) (us := bsrEdgesOf v st1) hI1
      (fun e he => mem_bsrEdgesOf.mp he) hmem
    refine ⟨a1, ?_, hE1.trans a2.toBExt, ?_⟩
    · intro v' e z h1 h2
      rw [a2.edgesEq] at h1
      rw [a2.poppedEq] at h2
      rcases hpop _ h2 with h2 | h2
      · rw [hedge] at h1
        obtain ⟨b1, b2⟩ := hret v' e z h1 h2
        exact ⟨a2.seen _ (hE1.seen _ b1), b2.mono (hE1.trans a2.toBExt)⟩
      · simp only [Prod.mk.injEq] at h2
        obtain ⟨rfl, rfl⟩ := h2
        exact a3 e (mem_bsrEdgesOf.mpr h1)
    · intro v' hv
      simp only [Option.some.injEq] at hv
      subst hv
      exact a2.popped _ hmem

theorem bsrAddAll_spec {ds : List BDesc} (hi : BInv sg inp st)
    (hd : ∀ d ∈ ds, Reach sg inp (.at d.L d.u d.i d.rc)) :
    let st' := ds.foldl (fun st d => bsrAdd d st) st
    BInv sg inp st' ∧ BExt0 st st' ∧ ∀ d ∈ ds, d ∈ st'.seen := by
  induction ds generalizing st with
  | nil => exact ⟨hi, .refl st, by simp⟩
  | cons d ds ih =>
    have ha := bsrAdd_ext (st := st) d
    obtain ⟨b1, b2, b3⟩ := ih (bsrAdd_inv hi (hd d (List.mem_cons_self ..))) fun d hd' => hd d (List.mem_cons_of_mem _ hd')
    refine ⟨b1, ha.1.trans b2, ?_⟩
    intro d' hd'
    rcases List.mem_cons.mp hd' with rfl | hd'
    · exact b2.seen _ ha.2
    · exact b3 d' hd'

/-! ## Processing a descriptor -/

/-- The descriptor at the start of alternate `alt` of `s`, called at `L`. -/
def bsrCall (sg : SG) (L : Slot) (i rc s alt : Nat) : BDesc :=
  ⟨⟨s, alt, 0⟩, some ⟨L.next, i, rc⟩, i, childRC sg L.nt rc s⟩

/-- The state accounts for everything control at `L` leads to before the next descriptor. -/
def BDone (sg : SG) (inp : Bytes) (st : BsrSt) (u : GNode) (rc : Nat) : List Sym → Slot → Nat → Prop
  | [], _, i => ∀ v, u = some v → (v, i) ∈ st.popped
  | .nt s :: _, L, i => ((⟨L.next, i, rc⟩, u) : GKey × GNode) ∈ st.edges ∧
      ∀ alt ∈ startAlts sg s (childRC sg L.nt rc s), bsrCall sg L i rc s alt ∈ st.seen
  | s :: rest, L, i =>
    match matchSym inp s i with
    | none => True
    | some j => BRec sg st L.next (posOf u) i j ∧ BDone sg inp st u rc rest L.next j

theorem BDone.mono {st' : BsrSt} (he : BExt st st') {u : GNode} {rc : Nat} {rest : List Sym} {L : Slot} {i : Nat}
    (h : BDone sg inp st u rc rest L i) : BDone sg inp st' u rc rest L i := by
  induction rest generalizing L i with
  | nil => exact fun v hv => he.popped _ (h v hv)
  | cons s rest ih =>
    cases s with
    | nt s => exact ⟨he.edges _ h.1, fun alt ha => he.seen _ (h.2 alt ha)⟩
    | _ =>
      simp only [BDone] at h ⊢
      split at h
      · trivial
      · exact ⟨h.1.mono he, ih h.2⟩

theorem BDone.setWork {work : List BDesc} {u : GNode} {rc : Nat} {rest : List Sym} {L : Slot} {i : Nat}
    (h : BDone sg inp st u rc rest L i) : BDone sg inp { st with work := work } u rc rest L i := by
  induction rest generalizing L i with
  | nil => exact h
  | cons s rest ih =>
    cases s with
    | nt s => exact h
    | _ =>
      simp only [BDone] at h ⊢
      split at h
      · trivial
      · exact ⟨h.1, ih h.2⟩

theorem bsrProcessFrom_spec {sched : Sched Nat} (hf : sched.Fair) {u : GNode} {rc : Nat}
    {rest : List Sym} {L : Slot} {i : Nat} (hrest : (sg.prod L).drop L.dot = rest)
    (hr : Reach sg inp (.at L u i rc)) (hi : BInv sg inp st) (hret : BReturns sg st) :
    let st' := bsrProcessFrom sg inp N sched u rc rest L i st
    BInv sg inp st' ∧ BReturns sg st' ∧ BExt st st' ∧ BDone sg inp st' u rc rest L i := by
  induction rest generalizing L i st with
  | nil =>
    obtain ⟨hfr, hle, _⟩ := reach_sound hr
    have hlen : L.dot = (sg.prod L).length := by
      have := congrArg List.length hrest
      simp at this
      omega
    simp only [bsrProcessFrom]
    exact bsrPop_spec (N := N) hi hret (by rintro v rfl; exact .pop _ _ _ _ hr hlen)
  | cons s rest ih =>
    have hget : (sg.prod L)[L.dot]? = some s := by
      have h0 : ((sg.prod L).drop L.dot)[0]? = some s := by rw [hrest]; rfl
      simpa using h0
    have hrest' : (sg.prod L.next).drop L.next.dot = rest := by
      rw [prod_next]
      show (sg.prod L).drop (L.dot + 1) = rest
      rw [← List.drop_drop, hrest]; rfl
    have key : let st' := match matchSym inp s i with
          | none => st
          | some j => bsrProcessFrom sg inp N sched u rc rest L.next j (bsrRecord sg N L.next (posOf u) i j st)
        BInv sg inp st' ∧ BReturns sg st' ∧ BExt st st' ∧
          (match matchSym inp s i with
          | none => True
          | some j => BRec sg st' L.next (posOf u) i j ∧ BDone sg inp st' u rc rest L.next j) := by
      cases hm : matchSym inp s i with
      | none => exact ⟨hi, hret, .refl st, trivial⟩
      | some j =>
        obtain ⟨a1, a2, a3⟩ := bsrRecord_spec (N := N) hi (.termRec _ _ _ _ _ _ hr hget hm)
        obtain ⟨c1, c2, c3, c4⟩ := ih hrest' (.termAt _ _ _ _ _ _ hr hget hm) a1 (hret.mono a2)
        exact ⟨c1, c2, a2.toBExt.trans c3, a3.mono c3, c4⟩
    cases s with
    | eps => exact key
    | term e => exact key
    | nt s =>
      simp only [bsrProcessFrom]
      have he := Reach.callEdge _ _ _ _ _ hr hget
      obtain ⟨a1, a2, a3, a4⟩ := bsrCreate_spec (N := N) hf hi hret he
      generalize bsrCreate sg N sched L.next u i rc st = st1 at *
      have hfold : (startAlts sg s (childRC sg L.nt rc s)).foldl (fun st alt =>
          bsrAdd ⟨⟨s, alt, 0⟩, some ⟨L.next, i, rc⟩, i, childRC sg L.nt rc s⟩ st) st1 =
          ((startAlts sg s (childRC sg L.nt rc s)).map (bsrCall sg L i rc s)).foldl
            (fun st d => bsrAdd d st) st1 := by
        rw [List.foldl_map]; rfl
      rw [hfold]
      obtain ⟨b1, b2, b3⟩ := bsrAddAll_spec (ds := (startAlts sg s (childRC sg L.nt rc s)).map (bsrCall sg L i rc s)) a1 (by
        intro d hd
        obtain ⟨alt, ha, rfl⟩ := List.mem_map.mp hd
        exact .callAt _ _ _ _ _ _ hr hget ha)
      exact ⟨b1, a2.mono b2, a3.trans b2.toBExt, b2.edges _ a4, fun alt ha => b3 _ (List.mem_map.mpr ⟨alt, ha, rfl⟩)⟩

end

/-! ## The main loop -/

/-- Invariant of the loop: everything seen is done or waiting. -/
structure BLoopInv (sg : SG) (inp : Bytes) (st : BsrSt) : Prop where
  inv : BInv sg inp st
  rets : BReturns sg st
  handled : ∀ d ∈ st.seen, d ∈ st.work ∨ BDone sg inp st d.u d.rc ((sg.prod d.L).drop d.L.dot) d.L d.i
  init : ∀ alt < (sg.alts sg.start).length, (⟨⟨sg.start, alt, 0⟩, none, 0, 0⟩ : BDesc) ∈ st.seen

theorem bloopInv_init (sg : SG) (inp : Bytes) :
    BLoopInv sg inp (bsrInit sg) ∧ (bsrInit sg).seen.length = (bsrInit sg).work.length := by
  have h0 : BInv sg inp ({} : BsrSt) := by
    constructor <;> first | exact List.nodup_nil | simp
  have hfold : bsrInit sg = ((List.range (sg.alts sg.start).length).map fun alt =>
      (⟨⟨sg.start, alt, 0⟩, none, 0, 0⟩ : BDesc)).foldl (fun st d => bsrAdd d st) {} := by
    rw [List.foldl_map]; rfl
  rw [hfold]
  obtain ⟨b1, b2, b3⟩ := bsrAddAll_spec (ds := (List.range (sg.alts sg.start).length).map fun alt =>
      (⟨⟨sg.start, alt, 0⟩, none, 0, 0⟩ : BDesc)) h0 (by
    intro d hd
    obtain ⟨alt, ha, rfl⟩ := List.mem_map.mp hd
    exact .start _ (List.mem_range.mp ha))
  have hr0 : BReturns sg ({} : BsrSt) := by intro v e z h; simp at h
  refine ⟨⟨b1, hr0.mono b2, ?_, ?_⟩, ?_⟩
  · intro d hd
    rcases b2.fresh d hd with h | h
    · simp at h
    · exact .inl h
  · intro alt ha
    exact b3 _ (List.mem_map.mpr ⟨alt, List.mem_range.mpr ha, rfl⟩)
  · have := b2.count
    simpa using this

theorem bloopInv_step {sg : SG} {inp : Bytes} {N : Nat} {sched : Sched Nat} (hf : sched.Fair)
    {st : BsrSt} {d : BDesc} {work : List BDesc} (hw : st.work = d :: work) (h : BLoopInv sg inp st) :
    BLoopInv sg inp (bsrProcess sg inp N sched d { st with work := work }) ∧
      (bsrProcess sg inp N sched d { st with work := work }).seen.length + work.length =
        st.seen.length + (bsrProcess sg inp N sched d { st with work := work }).work.length := by
  have hd : d ∈ st.seen := h.inv.work d (by rw [hw]; exact List.mem_cons_self ..)
  have hr := h.inv.seen d hd
  have hI : BInv sg inp { st with work := work } :=
    { h.inv with work := fun d' hd' => h.inv.work d' (by rw [hw]; exact List.mem_cons_of_mem _ hd') }
  have hR : BReturns sg { st with work := work } := h.rets
  obtain ⟨a1, a2, a3, a4⟩ := bsrProcessFrom_spec (N := N) hf rfl hr hI hR
  unfold bsrProcess
  refine ⟨⟨a1, a2, ?_, fun alt ha => a3.seen _ (h.init alt ha)⟩, a3.count⟩
  intro d' hd'
  rcases a3.fresh d' hd' with h1 | h1
  · rcases h.handled d' h1 with h2 | h2
    · rw [hw] at h2
      rcases List.mem_cons.mp h2 with rfl | h2
      · exact .inr a4
      · exact .inl (a3.work _ h2)
    · exact .inr (BDone.mono a3 (BDone.setWork h2))
  · exact .inl h1

/-- A fact is represented in the state. -/
def BRep (sg : SG) (inp : Bytes) (st : BsrSt) : Item → Prop
  | .at L u i rc => BDone sg inp st u rc ((sg.prod L).drop L.dot) L i
  | .edge v u => (v, u) ∈ st.edges
  | .popped v j => (v, j) ∈ st.popped
  | .adv L l k r => BRec sg st L l k r

theorem drop_get? {l : List Sym} {n : Nat} {s : Sym} (h : l[n]? = some s) :
    l.drop n = s :: l.drop (n + 1) := by
  obtain ⟨h1, h2⟩ := List.getElem?_eq_some_iff.mp h
  rw [List.drop_eq_getElem_cons h1, h2]

theorem bdone_term {sg : SG} {inp : Bytes} {st : BsrSt} {u : GNode} {rc : Nat} {s : Sym} {rest : List Sym}
    {L : Slot} {i j : Nat} (hm : matchSym inp s i = some j) (h : BDone sg inp st u rc (s :: rest) L i) :
    BRec sg st L.next (posOf u) i j ∧ BDone sg inp st u rc rest L.next j := by
  cases s with
  | nt n => simp [matchSym] at hm
  | _ =>
    simp only [BDone, hm] at h
    exact h

theorem breach_rep {sg : SG} {inp : Bytes} {st : BsrSt} (h : BLoopInv sg inp st) (hw : st.work = []) {it : Item}
    (hr : Reach sg inp it) : BRep sg inp st it := by
  have hdone : ∀ d ∈ st.seen, BDone sg inp st d.u d.rc ((sg.prod d.L).drop d.L.dot) d.L d.i := by
    intro d hd
    rcases h.handled d hd with h1 | h1
    · rw [hw] at h1; simp at h1
    · exact h1
  induction hr with
  | start alt ha => exact hdone _ (h.init alt ha)
  | pop L v i rc hr hd ih =>
    simp only [BRep, hd, List.drop_length] at ih
    exact ih v rfl
  | callEdge L u i rc s _ hs ih =>
    simp only [BRep, drop_get? hs] at ih
    exact ih.1
  | callAt L u i rc s alt _ hs ha ih =>
    simp only [BRep, drop_get? hs] at ih
    exact hdone _ (ih.2 alt ha)
  | retAt v u j he hp ih1 ih2 => exact hdone _ (h.rets _ _ _ ih1 ih2).1
  | retRec v u j he hp ih1 ih2 => exact (h.rets _ _ _ ih1 ih2).2
  | termAt L u i rc s j _ hs hm ih =>
    simp only [BRep, drop_get? hs] at ih
    exact (bdone_term hm ih).2
  | termRec L u i rc s j _ hs hm ih =>
    simp only [BRep, drop_get? hs] at ih
    exact (bdone_term hm ih).1

/-! ## Termination -/

theorem bseen_length_le {sg : SG} (hok : SGOK sg) {inp : Bytes} {st : BsrSt} (h : BInv sg inp st) :
    st.seen.length ≤ gllFuel sg inp.length := by
  rw [← ctrls_length, ← List.length_map (fun d : BDesc => ((d.L, d.u), d.i))]
  apply List.Subperm.length_le
  apply List.subperm_of_subset
  · apply List.Nodup.map_on _ h.seenNodup
    intro a ha b hb heq
    have ha1 := h.seen a ha
    have hb1 := h.seen b hb
    obtain ⟨L, u, i, rc⟩ := a
    obtain ⟨L', u', i', rc'⟩ := b
    simp only [Prod.mk.injEq] at heq
    obtain ⟨⟨rfl, rfl⟩, rfl⟩ := heq
    have := frame_rc (reach_sound ha1).1 (reach_sound hb1).1
    simp only at this
    subst this
    rfl
  · intro x hx
    obtain ⟨d, hd, rfl⟩ := List.mem_map.mp hx
    exact mem_ctrls hok (h.seen d hd)

theorem bsrLoop_spec {sg : SG} {inp : Bytes} (hok : SGOK sg) {N : Nat} {sched : Sched Nat} (hf : sched.Fair)
    (fuel p : Nat) {st : BsrSt} (h : BLoopInv sg inp st) (hp : st.seen.length = p + st.work.length)
    (hfuel : gllFuel sg inp.length ≤ fuel + p) :
    ∃ st', bsrLoop sg inp N sched fuel st = some st' ∧ BLoopInv sg inp st' ∧
      (st'.aborted = true ∨ st'.work = []) := by
  induction fuel generalizing st p with
  | zero =>
    unfold bsrLoop
    split
    · exact ⟨st, rfl, h, .inr (by assumption)⟩
    · rename_i d work hw
      have := bseen_length_le hok h.inv
      rw [hw] at hp
      simp only [List.length_cons] at hp
      omega
  | succ fuel ih =>
    unfold bsrLoop
    split
    · exact ⟨st, rfl, h, .inr (by assumption)⟩
    · rename_i d work hw
      split_ifs with ha
      · exact ⟨st, rfl, h, .inl ha⟩
      · obtain ⟨h1, h2⟩ := bloopInv_step (N := N) hf hw h
        apply ih (p + 1) h1
        · rw [hw] at hp
          simp only [List.length_cons] at hp
          omega
        · omega

theorem bsrLoop_mono {sg : SG} {inp : Bytes} {N : Nat} {sched : Sched Nat} {fuel fuel' : Nat}
    (hle : fuel ≤ fuel') {st st' : BsrSt} (h : bsrLoop sg inp N sched fuel st = some st') :
    bsrLoop sg inp N sched fuel' st = some st' := by
  induction fuel generalizing st fuel' with
  | zero =>
    unfold bsrLoop at h ⊢
    split at h
    · exact h
    · rename_i d work hw
      split_ifs at h with ha
      simp only [ha, if_true]
      exact h
  | succ fuel ih =>
    obtain ⟨f, rfl⟩ : ∃ f, fuel' = f + 1 := ⟨fuel' - 1, by omega⟩
    unfold bsrLoop at h ⊢
    split at h
    · exact h
    · rename_i d work hw
      by_cases ha : st.aborted = true
      · rw [if_pos ha] at h ⊢; exact h
      · rw [if_neg ha] at h ⊢
        exact ih (by omega) h

/-! ## The element budget -/

/-- `f`, run with budget `N` and not aborting, does what `f0` does without budget; it respects the budget; it keeps
an abort; and if the unbounded step stays below the budget, it does not abort. -/
def LSim (N : Nat) (f f0 : BsrSt → BsrSt) : Prop :=
  (∀ st, st.aborted = true → (f st).aborted = true) ∧
  (∀ st, (f st).aborted = false → f st = f0 st) ∧
  (∀ st, 0 < N → st.set.length ≤ N → (f st).set.length ≤ N) ∧
  (∀ st, st.aborted = false → (f0 st).aborted = false ∧ ((N = 0 ∨ (f0 st).set.length < N) → (f st).aborted = false)) ∧
  (∀ st, st.set.length ≤ (f0 st).set.length)

theorem LSim.comp {N : Nat} {f f0 g g0 : BsrSt → BsrSt} (hf : LSim N f f0) (hg : LSim N g g0) :
    LSim N (fun st => g (f st)) (fun st => g0 (f0 st)) := by
  obtain ⟨f1, f2, f3, f4, f5⟩ := hf
  obtain ⟨g1, g2, g3, g4, g5⟩ := hg
  refine ⟨fun st h => g1 _ (f1 _ h), fun st h => ?_, fun st h0 h => g3 _ h0 (f3 _ h0 h), fun st h => ⟨?_, fun hl => ?_⟩,
    fun st => Nat.le_trans (f5 st) (g5 _)⟩
  · have hfa : (f st).aborted = false := by
      cases hfa : (f st).aborted with
      | false => rfl
      | true => simp only [g1 _ hfa] at h; cases h
    beta_reduce at h ⊢
    rw [g2 _ h, f2 _ hfa]
  · exact (g4 _ ((f4 _ h).1)).1
  · have h5 := g5 (f0 st)
    beta_reduce at hl ⊢
    have hfa : (f st).aborted = false := (f4 _ h).2 (by rcases hl with hl | hl; exact .inl hl; exact .inr (by omega))
    apply (g4 _ hfa).2
    rw [f2 _ hfa]
    exact hl

theorem LSim.foldl {N : Nat} {α : Type} {f f0 : BsrSt → α → BsrSt}
    (h : ∀ a, LSim N (fun st => f st a) (fun st => f0 st a)) (l : List α) :
    LSim N (fun st => l.foldl f st) (fun st => l.foldl f0 st) := by
  induction l with
  | nil => exact ⟨fun _ h => h, fun _ _ => rfl, fun _ _ h => h, fun _ h => ⟨h, fun _ => h⟩, fun _ => Nat.le_refl _⟩
  | cons a l ih => exact (h a).comp ih

/-- An operation that touches neither the set nor the flag. -/
theorem LSim.neutral {N : Nat} {f : BsrSt → BsrSt}
    (h : ∀ st, (f st).aborted = st.aborted ∧ (f st).set = st.set) : LSim N f f :=
  ⟨fun st ha => by rw [(h st).1]; exact ha, fun _ _ => rfl, fun st _ hl => by rw [(h st).2]; exact hl,
    fun st ha => ⟨by rw [(h st).1]; exact ha, fun _ => by rw [(h st).1]; exact ha⟩,
    fun st => by rw [(h st).2]⟩

theorem lsim_id {N : Nat} : LSim N (fun st => st) (fun st => st) := LSim.neutral fun _ => ⟨rfl, rfl⟩

theorem lsim_add {N : Nat} (d : BDesc) : LSim N (bsrAdd d) (bsrAdd d) :=
  LSim.neutral fun st => by unfold bsrAdd; split_ifs <;> exact ⟨rfl, rfl⟩

theorem lsim_record {sg : SG} {N : Nat} (L : Slot) (l k r : Nat) :
    LSim N (bsrRecord sg N L l k r) (bsrRecord sg 0 L l k r) := by
  have hins : ∀ e st, (bsrInsert e st).aborted = st.aborted ∧ st.set.length ≤ (bsrInsert e st).set.length ∧
      (bsrInsert e st).set.length ≤ st.set.length + 1 := by
    intro e st; unfold bsrInsert; split_ifs
    · exact ⟨rfl, Nat.le_refl _, Nat.le_succ _⟩
    · exact ⟨rfl, by simp, by simp⟩
  unfold bsrRecord
  by_cases hk : L.dot ≥ 2 ∨ L.dot = (sg.prod L).length
  · simp only [if_pos hk]
    refine ⟨fun st h => ?_, fun st h => ?_, fun st h0 h => ?_, fun st h => ⟨?_, fun hl => ?_⟩, fun st => ?_⟩
    · beta_reduce; split_ifs
      · rfl
      · rw [(hins _ _).1]; exact h
    · beta_reduce at h ⊢; split_ifs at h with h1
      rw [if_neg h1, if_neg (by omega)]
    · beta_reduce; split_ifs with h1
      · exact h
      · have := (hins ⟨L, l, k, r⟩ st).2.2
        omega
    · beta_reduce; rw [if_neg (by omega), (hins _ _).1]; exact h
    · beta_reduce at hl ⊢; rw [if_neg (by omega : ¬ (0 > 0 ∧ st.set.length ≥ 0))] at hl
      have := (hins ⟨L, l, k, r⟩ st).2.1
      rw [if_neg (by omega), (hins _ _).1]; exact h
    · beta_reduce; rw [if_neg (by omega)]; exact (hins _ _).2.1
  · simp only [if_neg hk]
    exact lsim_id

theorem lsim_resume {sg : SG} {N : Nat} (v : GKey) (u : GNode) (j : Nat) :
    LSim N (bsrResume sg N v u j) (bsrResume sg 0 v u j) :=
  (lsim_record v.ret (posOf u) v.pos j).comp (lsim_add ⟨v.ret, u, j, v.rc⟩)

/-- A state-dependent choice between simulations. -/
theorem LSim.dep {N : Nat} {α : Type} {F F0 : α → BsrSt → BsrSt} (h : ∀ a, LSim N (F a) (F0 a)) (c : BsrSt → α) :
    LSim N (fun st => F (c st) st) (fun st => F0 (c st) st) :=
  ⟨fun st => (h (c st)).1 st, fun st => (h (c st)).2.1 st, fun st => (h (c st)).2.2.1 st,
    fun st => (h (c st)).2.2.2.1 st, fun st => (h (c st)).2.2.2.2 st⟩

theorem lsim_create {sg : SG} {N : Nat} {sched : Sched Nat} (L : Slot) (u : GNode) (i rc : Nat) :
    LSim N (bsrCreate sg N sched L u i rc) (bsrCreate sg 0 sched L u i rc) := by
  have h1 : ∀ js : List Nat, LSim N
      (fun st => js.foldl (fun st j => bsrResume sg N ⟨L, i, rc⟩ u j st)
        { st with edges := st.edges ++ [((⟨L, i, rc⟩, u) : GKey × GNode)], tick := st.tick + 1 })
      (fun st => js.foldl (fun st j => bsrResume sg 0 ⟨L, i, rc⟩ u j st)
        { st with edges := st.edges ++ [((⟨L, i, rc⟩, u) : GKey × GNode)], tick := st.tick + 1 }) := by
    intro js
    exact LSim.comp (f := fun st => { st with edges := st.edges ++ [((⟨L, i, rc⟩, u) : GKey × GNode)], tick := st.tick + 1 })
      (LSim.neutral fun _ => ⟨rfl, rfl⟩) (LSim.foldl (fun j => lsim_resume ⟨L, i, rc⟩ u j) js)
  have h2 : ∀ c : Option (List Nat), LSim N
      (fun st => match c with
        | none => st
        | some js => js.foldl (fun st j => bsrResume sg N ⟨L, i, rc⟩ u j st)
          { st with edges := st.edges ++ [((⟨L, i, rc⟩, u) : GKey × GNode)], tick := st.tick + 1 })
      (fun st => match c with
        | none => st
        | some js => js.foldl (fun st j => bsrResume sg 0 ⟨L, i, rc⟩ u j st)
          { st with edges := st.edges ++ [((⟨L, i, rc⟩, u) : GKey × GNode)], tick := st.tick + 1 }) := by
    intro c
    cases c with
    | none => exact lsim_id
    | some js => exact h1 js
  have h3 := LSim.dep h2 fun st => if ((⟨L, i, rc⟩, u) : GKey × GNode) ∈ st.edges then none
    else some (sched st.tick (bsrPoppedOf ⟨L, i, rc⟩ st))
  have e : ∀ M, bsrCreate sg M sched L u i rc = fun st =>
      match (if ((⟨L, i, rc⟩, u) : GKey × GNode) ∈ st.edges then none
        else some (sched st.tick (bsrPoppedOf ⟨L, i, rc⟩ st))) with
      | none => st
      | some js => js.foldl (fun st j => bsrResume sg M ⟨L, i, rc⟩ u j st)
        { st with edges := st.edges ++ [((⟨L, i, rc⟩, u) : GKey × GNode)], tick := st.tick + 1 } := by
    intro M
    funext st
    unfold bsrCreate
    simp only []
    by_cases hm : ((⟨L, i, rc⟩, u) : GKey × GNode) ∈ st.edges
    · rw [if_pos hm, if_pos hm]
    · rw [if_neg hm, if_neg hm]
  rw [e N, e 0]
  exact h3

theorem lsim_pop {sg : SG} {N : Nat} (u : GNode) (j : Nat) : LSim N (bsrPop sg N u j) (bsrPop sg 0 u j) := by
  cases u with
  | none => exact lsim_id
  | some v =>
    have h1 := LSim.dep (fun us : List GNode =>
      LSim.foldl (fun u => lsim_resume (sg := sg) (N := N) v u j) us) (fun st => bsrEdgesOf v st)
    have h2 : LSim N (fun st => if (v, j) ∈ st.popped then st else { st with popped := (v, j) :: st.popped })
        (fun st => if (v, j) ∈ st.popped then st else { st with popped := (v, j) :: st.popped }) :=
      LSim.neutral fun st => by split_ifs <;> exact ⟨rfl, rfl⟩
    exact h2.comp h1

theorem lsim_processFrom {sg : SG} {inp : Bytes} {N : Nat} {sched : Sched Nat} (u : GNode) (rc : Nat)
    (rest : List Sym) (L : Slot) (i : Nat) :
    LSim N (bsrProcessFrom sg inp N sched u rc rest L i) (bsrProcessFrom sg inp 0 sched u rc rest L i) := by
  induction rest generalizing L i with
  | nil => exact lsim_pop u i
  | cons s rest ih =>
    have key : LSim N
        (fun st => match matchSym inp s i with
          | none => st
          | some j => bsrProcessFrom sg inp N sched u rc rest L.next j (bsrRecord sg N L.next (posOf u) i j st))
        (fun st => match matchSym inp s i with
          | none => st
          | some j => bsrProcessFrom sg inp 0 sched u rc rest L.next j (bsrRecord sg 0 L.next (posOf u) i j st)) := by
      cases hm : matchSym inp s i with
      | none => exact lsim_id
      | some j => exact (lsim_record L.next (posOf u) i j).comp (ih L.next j)
    cases s with
    | eps => exact key
    | term e => exact key
    | nt s =>
      exact (lsim_create (sg := sg) (N := N) (sched := sched) L.next u i rc).comp
        (LSim.foldl (f := fun st alt => bsrAdd
            ⟨⟨s, alt, 0⟩, some ⟨L.next, i, rc⟩, i, childRC sg L.nt rc s⟩ st)
          (fun alt => lsim_add (N := N) ⟨⟨s, alt, 0⟩, some ⟨L.next, i, rc⟩, i, childRC sg L.nt rc s⟩)
          (startAlts sg s (childRC sg L.nt rc s)))

theorem lsim_process {sg : SG} {inp : Bytes} {N : Nat} {sched : Sched Nat} (d : BDesc) :
    LSim N (bsrProcess sg inp N sched d) (bsrProcess sg inp 0 sched d) :=
  lsim_processFrom d.u d.rc _ d.L d.i

theorem bsrLoop_set_mono {sg : SG} {inp : Bytes} {sched : Sched Nat} {fuel : Nat} {st r : BsrSt}
    (h : bsrLoop sg inp 0 sched fuel st = some r) (ha : st.aborted = false) :
    st.set.length ≤ r.set.length ∧ r.aborted = false := by
  induction fuel generalizing st with
  | zero =>
    unfold bsrLoop at h
    split at h
    · simp only [Option.some.injEq] at h; subst h; exact ⟨Nat.le_refl _, ha⟩
    · rw [if_neg (by rw [ha]; nofun)] at h; simp at h
  | succ fuel ih =>
    unfold bsrLoop at h
    split at h
    · simp only [Option.some.injEq] at h; subst h; exact ⟨Nat.le_refl _, ha⟩
    · rename_i d work hw
      rw [if_neg (by rw [ha]; nofun)] at h
      obtain ⟨_, _, _, l4, l5⟩ := lsim_process (sg := sg) (inp := inp) (N := 0) (sched := sched) d
      have := ih h (l4 { st with work := work } ha).1
      exact ⟨Nat.le_trans (l5 { st with work := work }) this.1, this.2⟩

/-- A bounded run that does not abort is the unbounded run; and it does not abort when the unbounded run stays
below the budget. -/
theorem bsrLoop_budget {sg : SG} {inp : Bytes} {N : Nat} {sched : Sched Nat} {fuel : Nat} {st r r0 : BsrSt}
    (ha : st.aborted = false) (hN : 0 < N → st.set.length ≤ N)
    (h0 : bsrLoop sg inp 0 sched fuel st = some r0) (h : bsrLoop sg inp N sched fuel st = some r) :
    (0 < N → r.set.length ≤ N) ∧ (r.aborted = false → r = r0) ∧
      (N = 0 ∨ r0.set.length < N → r.aborted = false) := by
  induction fuel generalizing st with
  | zero =>
    unfold bsrLoop at h h0
    cases hw : st.work with
    | nil =>
      rw [hw] at h h0
      simp only [Option.some.injEq] at h h0; subst h; exact ⟨hN, fun _ => h0, fun _ => ha⟩
    | cons d work =>
      rw [hw] at h
      simp only [] at h
      rw [if_neg (by rw [ha]; nofun)] at h; simp at h
  | succ fuel ih =>
    unfold bsrLoop at h h0
    cases hw : st.work with
    | nil =>
      rw [hw] at h h0
      simp only [Option.some.injEq] at h h0; subst h; exact ⟨hN, fun _ => h0, fun _ => ha⟩
    | cons d work =>
      rw [hw] at h h0
      simp only [] at h h0
      rw [if_neg (by rw [ha]; nofun)] at h h0
      obtain ⟨l1, l2, l3, l4, l5⟩ := lsim_process (sg := sg) (inp := inp) (N := N) (sched := sched) d
      have hset : 0 < N → (bsrProcess sg inp N sched d { st with work := work }).set.length ≤ N :=
        fun h => l3 _ h (hN h)
      cases hab : (bsrProcess sg inp N sched d { st with work := work }).aborted with
      | false =>
        rw [← l2 _ hab] at h0
        exact ih hab hset h0 h
      | true =>
        have hr : bsrProcess sg inp N sched d { st with work := work } = r := by
          unfold bsrLoop at h
          split at h
          · simpa using h
          · rw [if_pos hab] at h; simpa using h
        rw [hr] at hab hset
        refine ⟨hset, fun h => (by rw [hab] at h; cases h), fun hlt => ?_⟩
        have h4 := l4 { st with work := work } ha
        have := (bsrLoop_set_mono h0 h4.1).1
        have := h4.2 (by rcases hlt with h | h; exact .inl h; exact .inr (by omega))
        rw [hr] at this
        exact this

end Verif
