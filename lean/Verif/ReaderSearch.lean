import Verif.ReaderAll

/-!
# The two searches of the compact mode
-/

namespace Verif

/-- The points found by the forward search. -/
inductive FwdReach (R : Reader) : Option Nat → Prop
  | entry (x) : x ∈ R.entries → FwdReach R x
  | step (x y) : FwdReach R x → y ∈ R.viable x → FwdReach R y

theorem mem_viable {R : Reader} {x y : Option Nat} : y ∈ R.viable x ↔ y ∈ R.heap.nextPts x ∧ ptProduces R.heap y = true ∧ R.can y = true := by
  unfold Reader.viable
  rw [List.mem_filter, Bool.and_eq_true]

theorem fwdReach_can {f : TgFrag} {h : TgHeap} {R : Reader} (HR : ReaderOK f h R) {x : Option Nat} (H : FwdReach R x) :
    PtReached h f x ∧ PtEnds h f x := by
  obtain ⟨_, _, hent⟩ := HR.entries
  cases H with
  | entry _ h1 =>
    obtain ⟨h2, h3⟩ := (hent x).mp h1
    exact ⟨.ins x h2, h3⟩
  | step y _ _ h2 => exact (HR.can x).mp (mem_viable.mp h2).2.2

/-- What is known during the forward search; `done` are the nodes whose successors were seen. -/
structure FwdInv (R : Reader) (st : FwdSt) : Prop where
  nodup : st.disc.Nodup
  queued : st.queue ⊆ st.disc
  reach : ∀ x ∈ st.disc, FwdReach R x
  pred : ∀ x ∈ st.disc, (st.pred x = x ∧ x ∈ R.entries) ∨
    (st.pred x ∈ st.disc ∧ st.disc.idxOf (st.pred x) < st.disc.idxOf x ∧ x ∈ R.viable (st.pred x))
  edges : ∀ e ∈ st.edges, e.1 ∈ st.disc ∧ e.2 ∈ R.viable e.1
  edgesOnce : st.edges.Nodup

theorem idxOf_append_old {l : Pts} {x : Option Nat} (hx : x ∈ l) (y : Option Nat) : (l ++ [y]).idxOf x = l.idxOf x :=
  List.idxOf_append_of_mem hx

theorem idxOf_append_new {l : Pts} {y : Option Nat} (hy : y ∉ l) : (l ++ [y]).idxOf y = l.length := by
  rw [List.idxOf_append_of_notMem hy]
  simp

/-- Discovering a node. -/
theorem FwdInv.add {R : Reader} {st : FwdSt} (H : FwdInv R st) {m p : Option Nat} (hm : m ∉ st.disc) (hr : FwdReach R m)
    (hp : (p = m ∧ m ∈ R.entries) ∨ (p ∈ st.disc ∧ m ∈ R.viable p)) :
    FwdInv R { st with pred := fun x => if x = m then p else st.pred x, disc := st.disc ++ [m], queue := st.queue ++ [m] } := by
  refine ⟨?_, ?_, ?_, ?_, ?_, H.edgesOnce⟩
  · rw [List.nodup_append]
    exact ⟨H.nodup, by simp, fun a ha b hb => by rw [List.mem_singleton.mp hb]; rintro rfl; exact hm ha⟩
  · intro x hx
    rcases List.mem_append.mp hx with hx | hx
    · exact List.mem_append_left _ (H.queued hx)
    · exact List.mem_append_right _ hx
  · intro x hx
    rcases List.mem_append.mp hx with hx | hx
    · exact H.reach x hx
    · rw [List.mem_singleton.mp hx]; exact hr
  · intro x hx
    simp only
    rcases List.mem_append.mp hx with hx | hx
    · have hne : x ≠ m := fun e => hm (e ▸ hx)
      rw [if_neg hne]
      rcases H.pred x hx with h1 | ⟨h1, h2, h3⟩
      · exact .inl h1
      · exact .inr ⟨List.mem_append_left _ h1, by rw [idxOf_append_old h1, idxOf_append_old hx]; exact h2, h3⟩
    · obtain rfl := List.mem_singleton.mp hx
      rw [if_pos rfl]
      rcases hp with h1 | ⟨h1, h2⟩
      · exact .inl h1
      · refine .inr ⟨List.mem_append_left _ h1, ?_, h2⟩
        rw [idxOf_append_old h1, idxOf_append_new hm]
        exact List.idxOf_lt_length_of_mem h1
  · intro e he
    obtain ⟨h1, h2⟩ := H.edges e he
    exact ⟨List.mem_append_left _ h1, h2⟩

theorem seeAll_inv {R : Reader} (xs : Pts) : ∀ st, FwdInv R st → (∀ x ∈ xs, x ∈ R.entries) → (∀ x ∈ st.disc, x ∈ st.queue) →
    FwdInv R (seeAll xs st) ∧ (∀ x ∈ xs, x ∈ (seeAll xs st).disc) ∧ st.disc ⊆ (seeAll xs st).disc ∧
    (∀ x ∈ (seeAll xs st).disc, x ∈ (seeAll xs st).queue) ∧ (seeAll xs st).queue.length + st.disc.length = (seeAll xs st).disc.length + st.queue.length := by
  induction xs with
  | nil => intro st H _ hq; exact ⟨H, by simp, List.Subset.refl _, hq, by simp [seeAll]; omega⟩
  | cons x xs ih =>
    intro st H hx hq
    rw [seeAll]
    have hx' : ∀ y ∈ xs, y ∈ R.entries := fun y hy => hx y (List.mem_cons_of_mem _ hy)
    by_cases hd : x ∈ st.disc
    · rw [if_pos hd]
      obtain ⟨h1, h2, h3, h4, h5⟩ := ih st H hx' hq
      refine ⟨h1, fun y hy => ?_, h3, h4, h5⟩
      rcases List.mem_cons.mp hy with rfl | hy
      · exact h3 hd
      · exact h2 y hy
    · rw [if_neg hd]
      have hxe := hx x (List.mem_cons_self ..)
      obtain ⟨h1, h2, h3, h4, h5⟩ := ih _ (H.add hd (.entry x hxe) (.inl ⟨rfl, hxe⟩)) hx' (fun y hy => by
        rcases List.mem_append.mp hy with hy | hy
        · exact List.mem_append_left _ (hq y hy)
        · exact List.mem_append_right _ hy)
      refine ⟨h1, fun y hy => ?_, fun y hy => h3 (List.mem_append_left _ hy), h4, ?_⟩
      · rcases List.mem_cons.mp hy with rfl | hy
        · exact h3 (by simp)
        · exact h2 y hy
      · simp only [List.length_append, List.length_cons, List.length_nil] at h5
        omega

/-- The outcome of visiting the successors of a node. -/
structure NextsPost (R : Reader) (n : Option Nat) (ms : Pts) (st st' : FwdSt) : Prop where
  inv : FwdInv R st'
  sub : st.disc ⊆ st'.disc
  has : ∀ m ∈ ms, m ∈ st'.disc ∧ (n, m) ∈ st'.edges
  keep : st.edges ⊆ st'.edges
  queue : st.queue ⊆ st'.queue
  new : ∀ x ∈ st'.disc, x ∈ st.disc ∨ x ∈ st'.queue
  count : st'.queue.length + uncollected R.heap st'.disc ≤ st.queue.length + uncollected R.heap st.disc

theorem uncollected_snoc (h : TgHeap) (l : Pts) (m : Option Nat) : uncollected h (l ++ [m]) = uncollected h (m :: l) := by
  unfold uncollected
  congr 1
  refine List.filter_congr fun n _ => ?_
  simp [or_comm]

theorem seeNexts_post {f : TgFrag} {h : TgHeap} (hfin : GraphFin h f) {R : Reader} (HR : ReaderOK f h R) (n : Option Nat) (ms : Pts) :
    ∀ st, FwdInv R st → n ∈ st.disc → (∀ m ∈ ms, m ∈ R.viable n) → NextsPost R n ms st (seeNexts n ms st) := by
  induction ms with
  | nil =>
    intro st H _ _
    exact ⟨H, List.Subset.refl _, by simp, List.Subset.refl _, List.Subset.refl _, fun x hx => .inl hx, le_refl _⟩
  | cons m ms ih =>
    intro st H hn hms
    rw [seeNexts]
    have hm := hms m (List.mem_cons_self ..)
    have hms' : ∀ y ∈ ms, y ∈ R.viable n := fun y hy => hms y (List.mem_cons_of_mem _ hy)
    -- the edge
    have hedge : ∃ st1 : FwdSt, (if (n, m) ∈ st.edges then st else { st with edges := st.edges ++ [(n, m)] }) = st1 ∧ FwdInv R st1 ∧
        (n, m) ∈ st1.edges ∧ st.edges ⊆ st1.edges ∧ st1.disc = st.disc ∧ st1.queue = st.queue := by
      by_cases he : (n, m) ∈ st.edges
      · exact ⟨st, by rw [if_pos he], H, he, List.Subset.refl _, rfl, rfl⟩
      · refine ⟨{ st with edges := st.edges ++ [(n, m)] }, by rw [if_neg he],
          ⟨H.nodup, H.queued, H.reach, H.pred, fun e hx => ?_, ?_⟩, by simp, by simp, rfl, rfl⟩
        · rcases List.mem_append.mp hx with hx | hx
          · exact H.edges e hx
          · rw [List.mem_singleton.mp hx]; exact ⟨hn, hm⟩
        · rw [List.nodup_append]
          exact ⟨H.edgesOnce, by simp, fun a ha b hb => by rw [List.mem_singleton.mp hb]; rintro rfl; exact he ha⟩
    obtain ⟨st1, e1, H1, he, hke, hd, hq⟩ := hedge
    rw [e1]
    by_cases hmd : m ∈ st1.disc
    · rw [if_pos hmd]
      obtain ⟨h1, h2, h3, h4, h5, h6, h7⟩ := ih st1 H1 (by rw [hd]; exact hn) hms'
      refine ⟨h1, by rw [← hd]; exact h2, fun y hy => ?_, List.Subset.trans hke h4, by rw [← hq]; exact h5, by rw [← hd]; exact h6,
        by rw [← hd, ← hq]; exact h7⟩
      rcases List.mem_cons.mp hy with rfl | hy
      · exact ⟨h2 hmd, h4 he⟩
      · exact h3 y hy
    · rw [if_neg hmd]
      have hr : FwdReach R m := .step n m (H.reach n hn) hm
      have H2 := H1.add hmd hr (.inr ⟨by rw [hd]; exact hn, hm⟩)
      obtain ⟨h1, h2, h3, h4, h5, h6, h7⟩ := ih _ H2 (List.mem_append_left _ (by rw [hd]; exact hn)) hms'
      refine ⟨h1, ?_, fun y hy => ?_, List.Subset.trans hke h4, ?_, fun x hx => ?_, ?_⟩
      · rw [← hd]
        exact fun x hx => h2 (List.mem_append_left _ hx)
      · rcases List.mem_cons.mp hy with rfl | hy
        · exact ⟨h2 (by simp), h4 he⟩
        · exact h3 y hy
      · rw [← hq]
        exact fun x hx => h5 (List.mem_append_left _ hx)
      · rcases h6 x hx with h8 | h8
        · rcases List.mem_append.mp h8 with h8 | h8
          · exact .inl (by rw [← hd]; exact h8)
          · exact .inr (h5 (List.mem_append_right _ h8))
        · exact .inr h8
      · refine le_trans h7 ?_
        have hmv := (mem_viable.mp hm).1
        obtain ⟨a, b, rfl, rfl, _⟩ := mem_nextPts.mp hmv
        have hb : b < R.heap.size := by
          rw [HR.heap]
          exact hfin b (ptReached_some.mp (fwdReach_can HR hr).1)
        have := uncollected_cons hb hmd
        simp only [List.length_append, List.length_cons, List.length_nil]
        rw [uncollected_snoc, ← hq]
        rw [hd] at this ⊢
        omega

/-- What the forward search finds. -/
structure FwdOK (R : Reader) (st : FwdSt) : Prop extends FwdInv R st where
  all : ∀ x, x ∈ st.disc ↔ FwdReach R x
  allEdges : ∀ e, e ∈ st.edges ↔ e.1 ∈ st.disc ∧ e.2 ∈ R.viable e.1

theorem forward_sat {f : TgFrag} {h : TgHeap} (hfin : GraphFin h f) {R : Reader} (HR : ReaderOK f h R) (k : Nat) : ∀ st, FwdInv R st →
    (∀ x ∈ R.entries, x ∈ st.disc) → (∀ x ∈ st.disc, x ∈ st.queue ∨ ∀ y ∈ R.viable x, y ∈ st.disc ∧ (x, y) ∈ st.edges) →
    st.queue.length + uncollected R.heap st.disc < k → (R.forward k st).Sat False False (FwdOK R) := by
  induction k with
  | zero => intro st _ _ _ hk; omega
  | succ k ih =>
    intro st H he hdone hk
    rw [Reader.forward]
    cases hq : st.queue with
    | nil =>
      simp only
      rw [hq] at hdone
      refine ⟨H, fun x => ⟨H.reach x, fun hx => ?_⟩, fun e => ⟨H.edges e, fun h1 => ?_⟩⟩
      · induction hx with
        | entry x h1 => exact he x h1
        | step x y _ h2 ih' => exact (((hdone x ih').resolve_left (by simp)) y h2).1
      · exact (((hdone e.1 h1.1).resolve_left (by simp)) e.2 h1.2).2
    | cons n q =>
      simp only
      rw [hq] at hdone hk
      have hn : n ∈ st.disc := H.queued (by rw [hq]; exact List.mem_cons_self ..)
      have H' : FwdInv R { st with queue := q } :=
        ⟨H.nodup, fun x hx => H.queued (by rw [hq]; exact List.mem_cons_of_mem _ hx), H.reach, H.pred, H.edges, H.edgesOnce⟩
      have P := seeNexts_post hfin HR n (R.viable n) { st with queue := q } H' hn fun m hm => hm
      refine ih _ P.inv (fun x hx => P.sub (he x hx)) (fun x hx => ?_) ?_
      · rcases P.new x hx with h1 | h1
        · rcases hdone x h1 with h2 | h2
          · rcases List.mem_cons.mp h2 with rfl | h2
            · exact .inr P.has
            · exact .inl (P.queue h2)
          · exact .inr fun y hy => ⟨P.sub (h2 y hy).1, P.keep (h2 y hy).2⟩
        · exact .inl h1
      · have := P.count
        simp only [List.length_cons] at hk this
        omega

theorem disc_count {f : TgFrag} {h : TgHeap} (hfin : GraphFin h f) {l : Pts} (hl : l.Nodup) (hr : ∀ x ∈ l, PtReached h f x) :
    l.length + uncollected h l ≤ h.size + 1 := by
  have h1 : (l ++ ((List.range h.size).filter fun n => decide (some n ∉ l)).map some).Nodup := by
    rw [List.nodup_append]
    refine ⟨hl, (List.nodup_range.filter _).map (Option.some_injective _), fun a ha b hb => ?_⟩
    obtain ⟨n, h2, rfl⟩ := List.mem_map.mp hb
    rintro rfl
    have := (List.mem_filter.mp h2).2
    simp only [decide_eq_true_eq] at this
    exact this ha
  have h2 : (l ++ ((List.range h.size).filter fun n => decide (some n ∉ l)).map some) ⊆ none :: (List.range h.size).map some := by
    intro x hx
    cases x with
    | none => exact List.mem_cons_self ..
    | some n =>
      refine List.mem_cons_of_mem _ (List.mem_map.mpr ⟨n, ?_, rfl⟩)
      rcases List.mem_append.mp hx with hx | hx
      · exact List.mem_range.mpr (hfin n (ptReached_some.mp (hr _ hx)))
      · obtain ⟨m, h3, e⟩ := List.mem_map.mp hx
        obtain rfl := Option.some.inj e
        exact (List.mem_filter.mp h3).1
  have := (List.subperm_of_subset h1 h2).length_le
  simp only [List.length_append, List.length_map, List.length_cons, List.length_range] at this
  exact this

theorem forward_all {f : TgFrag} {h : TgHeap} (hfin : GraphFin h f) {R : Reader} (HR : ReaderOK f h R) :
    (R.forward (R.heap.size + 2) (seeAll R.entries {})).Sat False False (FwdOK R) := by
  have h0 : FwdInv R {} := ⟨List.nodup_nil, by simp, by simp, by simp, by simp, List.nodup_nil⟩
  obtain ⟨h1, h2, _, h4, h5⟩ := seeAll_inv R.entries {} h0 (fun x hx => hx) (by simp)
  refine forward_sat hfin HR _ _ h1 h2 (fun x hx => .inl (h4 x hx)) ?_
  have := disc_count hfin h1.nodup fun x hx => (fwdReach_can HR (h1.reach x hx)).1
  simp only [List.length_nil, Nat.add_zero] at h5
  rw [HR.heap]
  omega

/-! ## The backward search -/

/-- What is known during the backward search; `marked` are the nodes in the order they got their successor. -/
structure BwdInv (R : Reader) (disc : Pts) (marked : Pts) (q : Pts) (succ : Option Nat → Option (Option Nat)) : Prop where
  nodup : marked.Nodup
  sub : marked ⊆ disc
  some : ∀ x, (succ x).isSome = true ↔ x ∈ marked
  queued : q ⊆ marked
  next : ∀ x ∈ marked, (succ x = .some x ∧ x ∈ R.frag.outs) ∨
    ∃ y, succ x = .some y ∧ y ∈ marked ∧ marked.idxOf y < marked.idxOf x ∧ y ∈ R.viable x

theorem mem_revAdj {R : Reader} {disc : Pts} {x p : Option Nat} : p ∈ R.revAdj disc x ↔ p ∈ disc ∧ x ∈ R.viable p := by
  unfold Reader.revAdj
  simp only [List.mem_flatMap, List.mem_map, List.mem_filter, decide_eq_true_eq]
  constructor
  · rintro ⟨n, h1, m, ⟨h2, rfl⟩, rfl⟩; exact ⟨h1, h2⟩
  · rintro ⟨h1, h2⟩; exact ⟨p, h1, x, ⟨h2, rfl⟩, rfl⟩

theorem endPreds_post {R : Reader} {disc : Pts} {n : Option Nat} (ps : Pts) : ∀ marked q succ, BwdInv R disc marked q succ → n ∈ marked →
    (∀ p ∈ ps, p ∈ disc ∧ n ∈ R.viable p) → ∃ marked', BwdInv R disc marked' (endPreds n ps q succ).1 (endPreds n ps q succ).2 ∧
      marked ⊆ marked' ∧ ps ⊆ marked' ∧ q ⊆ (endPreds n ps q succ).1 ∧ (∀ x ∈ marked', x ∈ marked ∨ x ∈ (endPreds n ps q succ).1) ∧
      (endPreds n ps q succ).1.length + marked.length = q.length + marked'.length := by
  induction ps with
  | nil => intro marked q succ H _ _; exact ⟨marked, H, List.Subset.refl _, by simp, List.Subset.refl _, fun x hx => .inl hx, rfl⟩
  | cons p ps ih =>
    intro marked q succ H hn hps
    rw [endPreds]
    have hps' : ∀ p ∈ ps, p ∈ disc ∧ n ∈ R.viable p := fun p hp => hps p (List.mem_cons_of_mem _ hp)
    by_cases hs : (succ p).isSome = true
    · rw [if_pos hs]
      obtain ⟨m', h1, h2, h3, h4⟩ := ih marked q succ H hn hps'
      refine ⟨m', h1, h2, fun x hx => ?_, h4⟩
      rcases List.mem_cons.mp hx with rfl | hx
      · exact h2 ((H.some _).mp hs)
      · exact h3 hx
    · rw [if_neg hs]
      have hpm : p ∉ marked := fun h => hs ((H.some p).mpr h)
      obtain ⟨hpd, hpv⟩ := hps p (List.mem_cons_self ..)
      have H1 : BwdInv R disc (marked ++ [p]) (q ++ [p]) (fun x => if x = p then Option.some n else succ x) := by
        refine ⟨?_, ?_, ?_, ?_, ?_⟩
        · rw [List.nodup_append]
          exact ⟨H.nodup, by simp, fun a ha b hb => by rw [List.mem_singleton.mp hb]; rintro rfl; exact hpm ha⟩
        · intro x hx
          rcases List.mem_append.mp hx with hx | hx
          · exact H.sub hx
          · rw [List.mem_singleton.mp hx]; exact hpd
        · intro x
          rw [List.mem_append, List.mem_singleton, ← H.some x]
          by_cases e : x = p
          · simp [e]
          · simp [e]
        · intro x hx
          rcases List.mem_append.mp hx with hx | hx
          · exact List.mem_append_left _ (H.queued hx)
          · exact List.mem_append_right _ hx
        · intro x hx
          rcases List.mem_append.mp hx with hx | hx
          · have hne : x ≠ p := fun e => hpm (e ▸ hx)
            simp only [if_neg hne]
            rcases H.next x hx with h1 | ⟨y, h1, h2, h3, h4⟩
            · exact .inl h1
            · exact .inr ⟨y, h1, List.mem_append_left _ h2, by rw [idxOf_append_old h2, idxOf_append_old hx]; exact h3, h4⟩
          · obtain rfl := List.mem_singleton.mp hx
            refine .inr ⟨n, by simp, List.mem_append_left _ hn, ?_, hpv⟩
            rw [idxOf_append_old hn, idxOf_append_new hpm]
            exact List.idxOf_lt_length_of_mem hn
      obtain ⟨m', h1, h2, h3, h4, h5, h6⟩ := ih _ _ _ H1 (List.mem_append_left _ hn) hps'
      refine ⟨m', h1, fun x hx => h2 (List.mem_append_left _ hx), fun x hx => ?_, fun x hx => h4 (List.mem_append_left _ hx),
        fun x hx => ?_, ?_⟩
      · rcases List.mem_cons.mp hx with rfl | hx
        · exact h2 (by simp)
        · exact h3 hx
      · rcases h5 x hx with h7 | h7
        · rcases List.mem_append.mp h7 with h7 | h7
          · exact .inl h7
          · exact .inr (h4 (List.mem_append_right _ h7))
        · exact .inr h7
      · simp only [List.length_append, List.length_cons, List.length_nil] at h6
        omega

theorem backward_sat {R : Reader} {disc : Pts} (k : Nat) : ∀ marked q succ, BwdInv R disc marked q succ →
    (∀ x ∈ disc, x ∈ R.frag.outs → x ∈ marked) → (∀ x ∈ marked, x ∈ q ∨ ∀ p ∈ R.revAdj disc x, p ∈ marked) →
    q.length + disc.length < k + marked.length → (R.backward disc k q succ).Sat False False fun succ =>
      ∃ marked, BwdInv R disc marked [] succ ∧ (∀ x ∈ disc, x ∈ R.frag.outs → x ∈ marked) ∧ ∀ x ∈ marked, ∀ p ∈ R.revAdj disc x, p ∈ marked := by
  induction k with
  | zero =>
    intro marked q succ H _ _ hk
    have := (List.subperm_of_subset H.nodup H.sub).length_le
    omega
  | succ k ih =>
    intro marked q succ H he hdone hk
    cases q with
    | nil => exact ⟨marked, H, he, fun x hx => (hdone x hx).resolve_left (by simp)⟩
    | cons n q =>
      rw [Reader.backward]
      have H' : BwdInv R disc marked q succ := ⟨H.nodup, H.sub, H.some, fun x hx => H.queued (List.mem_cons_of_mem _ hx), H.next⟩
      obtain ⟨m', h1, h2, h3, h4, h5, h6⟩ := endPreds_post (R.revAdj disc n) marked q succ H' (H.queued (List.mem_cons_self ..))
        fun p hp => mem_revAdj.mp hp
      refine ih m' _ _ h1 (fun x hx ho => h2 (he x hx ho)) (fun x hx => ?_) ?_
      · rcases h5 x hx with h7 | h7
        · rcases hdone x h7 with h8 | h8
          · rcases List.mem_cons.mp h8 with rfl | h8
            · exact .inr fun p hp => h3 hp
            · exact .inl (h4 h8)
          · exact .inr fun p hp => h2 (h8 p hp)
        · exact .inl h7
      · simp only [List.length_cons] at hk
        omega

theorem backward_all {f : TgFrag} {h : TgHeap} {R : Reader} (HR : ReaderOK f h R) {fw : FwdSt} (F : FwdOK R fw) :
    (R.backward fw.disc (fw.disc.length + 1) (fw.disc.filter fun n => decide (n ∈ R.frag.outs))
      fun x => if x ∈ fw.disc.filter fun n => decide (n ∈ R.frag.outs) then some x else none).Sat False False fun succ =>
      ∃ marked, BwdInv R fw.disc marked [] succ ∧ ∀ x, x ∈ marked ↔ x ∈ fw.disc := by
  refine (backward_sat (disc := fw.disc) _ (fw.disc.filter fun n => decide (n ∈ R.frag.outs)) _ _ ⟨F.nodup.filter _, fun x hx => (List.mem_filter.mp hx).1, fun x => ?_,
    List.Subset.refl _, fun x hx => ?_⟩ (fun x hx ho => List.mem_filter.mpr ⟨hx, decide_eq_true ho⟩) (fun x hx => .inl hx) (by omega)).mono ?_
  · by_cases hx : x ∈ fw.disc.filter fun n => decide (n ∈ R.frag.outs)
    · simp only [hx]; simp
    · simp only [hx]; simp
  · refine .inl ⟨by simp only [if_pos hx], ?_⟩
    exact of_decide_eq_true (List.mem_filter.mp hx).2
  · rintro succ ⟨marked, h1, h2, h3⟩
    refine ⟨marked, h1, fun x => ⟨fun hx => h1.sub hx, fun hx => ?_⟩⟩
    have hends := (fwdReach_can HR ((F.all x).mp hx)).2
    induction hends with
    | stop x _ h5 => exact h2 x hx (by rw [HR.frag]; exact h5)
    | step x y h4 h5 h6 ih =>
      have hv : y ∈ R.viable x := by
        rw [mem_viable, HR.heap]
        exact ⟨h5, ptEnds_produces h6, (HR.can y).mpr ⟨.step x y (fwdReach_can HR ((F.all x).mp hx)).1 h5, h6⟩⟩
      have hy := (F.all y).mpr (.step x y ((F.all x).mp hx) hv)
      exact h3 y (ih hy) x (mem_revAdj.mpr ⟨hx, hv⟩)

/-! ## The paths -/

/-- A path from an entry point to `x` over points of `disc`, last node first. -/
inductive ToEntry (R : Reader) : Option Nat → Pts → Prop
  | entry (x) : x ∈ R.entries → ToEntry R x [x]
  | step (x y l) : x ∈ R.viable y → ToEntry R y l → ToEntry R x (x :: l)

/-- A path from `x` to an end point. -/
inductive ToStop (R : Reader) : Option Nat → Pts → Prop
  | stop (x) : x ∈ R.frag.outs → ToStop R x [x]
  | step (x y l) : y ∈ R.viable x → ToStop R y l → ToStop R x (x :: l)

theorem entryPath_sat {R : Reader} {fw : FwdSt} (F : FwdInv R fw) (k : Nat) : ∀ x ∈ fw.disc, fw.disc.idxOf x < k →
    (entryPathRev fw.pred k x).Sat False False (ToEntry R x) := by
  induction k with
  | zero => intro x _ hk; omega
  | succ k ih =>
    intro x hx hk
    rw [entryPathRev]
    rcases F.pred x hx with ⟨h1, h2⟩ | ⟨h1, h2, h3⟩
    · rw [if_pos h1]
      exact .entry x h2
    · have hne : fw.pred x ≠ x := fun e => by rw [e] at h2; omega
      rw [if_neg hne]
      refine Run.Sat.bnd (ih _ h1 (by omega)) fun l hl => ?_
      exact .step x _ l h3 hl

theorem endPath_sat {R : Reader} {disc marked : Pts} {succ : Option Nat → Option (Option Nat)} (B : BwdInv R disc marked [] succ) (k : Nat) :
    ∀ x ∈ marked, marked.idxOf x < k → (endPathFrom succ k x).Sat False False (ToStop R x) := by
  induction k with
  | zero => intro x _ hk; omega
  | succ k ih =>
    intro x hx hk
    rw [endPathFrom]
    rcases B.next x hx with ⟨h1, h2⟩ | ⟨y, h1, h2, h3, h4⟩
    · rw [h1, Option.getD_some, if_pos rfl]
      exact .stop x h2
    · rw [h1, Option.getD_some]
      have hne : y ≠ x := fun e => by rw [e] at h3; omega
      rw [if_neg hne]
      refine Run.Sat.bnd (ih y h2 (by omega)) fun l hl => ?_
      exact .step x y l h4 hl

end Verif
