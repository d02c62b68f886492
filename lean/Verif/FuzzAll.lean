import Verif.FuzzNode

/-!
# Every word can be generated

A walk is decided by the values its source returns.  For every path of the graph there are decisions that lead along it,
and every list of decisions is what some tape says.
-/

namespace Verif

/-- The source answers the questions `p.1` with `p.2`, in this order. -/
inductive Draws {σ : Type} (S : Source σ) : σ → List (Nat × Nat) → σ → Prop
  | nil (s) : Draws S s [] s
  | cons (s n v ds s') : (S.intn s n).1 = v → Draws S (S.intn s n).2 ds s' → Draws S s ((n, v) :: ds) s'

theorem Draws.append_inv {σ : Type} {S : Source σ} (ds ds' : List (Nat × Nat)) : ∀ {s s' : σ}, Draws S s (ds ++ ds') s' →
    ∃ t, Draws S s ds t ∧ Draws S t ds' s' := by
  induction ds with
  | nil => intro s s' h; exact ⟨s, .nil s, h⟩
  | cons d ds ih =>
    intro s s' h
    cases h with
    | cons _ n v _ _ h1 h2 =>
      obtain ⟨t, h3, h4⟩ := ih h2
      exact ⟨t, .cons _ _ _ _ _ h1 h3, h4⟩

/-- The answers are possible ones, to questions about at most `B` choices. -/
def FitIn (B : Nat) (ds : List (Nat × Nat)) : Prop := ∀ p ∈ ds, p.2 < p.1 ∧ p.1 ≤ B

/-! ## Tapes that say it -/

theorem tape_draws (ds : List (Nat × Nat)) (h : FitIn (2 ^ 63 - 256) ds) : ∀ pre, ∃ bs, ∀ post,
    ∃ s', Draws tapeSource ⟨pre ++ bs ++ post, pre.length⟩ ds s' := by
  induction ds with
  | nil => intro pre; exact ⟨[], fun post => ⟨_, .nil _⟩⟩
  | cons d ds ih =>
    intro pre
    obtain ⟨n, x⟩ := d
    obtain ⟨hx, hn⟩ := h (n, x) (List.mem_cons_self ..)
    simp only at hx hn
    have ih' := ih fun p hp => h p (List.mem_cons_of_mem _ hp)
    by_cases h1 : n ≤ 1
    · obtain ⟨bs, hbs⟩ := ih' pre
      refine ⟨bs, fun post => ?_⟩
      obtain ⟨s', hs'⟩ := hbs post
      refine ⟨s', .cons _ _ _ _ _ ?_ ?_⟩
      · show ((TapeSource.intn _ n).1.toNat) = x
        unfold TapeSource.intn
        rw [if_pos h1]
        simp only [Int.toNat_zero]
        omega
      · show Draws tapeSource (TapeSource.intn _ n).2 ds s'
        unfold TapeSource.intn
        rw [if_pos h1]
        exact hs'
    · obtain ⟨w1, w2, w3⟩ := tapeWidth_enough 8 (n : Int) 1 (by omega) (by omega) (by omega)
      rw [show tapeWidth 8 n 1 - 1 + 1 = tapeWidth 8 n 1 by omega] at w2
      obtain ⟨b1, hl, hv⟩ := beValue_surj (tapeWidth 8 n 1) 0 x (by simp) (by
        simp only [Nat.zero_add, Nat.one_mul]
        have : n ≤ 256 ^ tapeWidth 8 n 1 := by exact_mod_cast w2
        omega)
      obtain ⟨bs, hbs⟩ := ih' (pre ++ b1)
      refine ⟨b1 ++ bs, fun post => ?_⟩
      obtain ⟨s', hs'⟩ := hbs post
      have hv' : beValue 0 b1 = (x : Int) := hv
      have hr := read_digits b1 0 pre (bs ++ post) (le_refl _) (by omega)
      rw [hl] at hr
      have e : pre ++ (b1 ++ bs) ++ post = pre ++ b1 ++ (bs ++ post) := by simp
      rw [e]
      have ei : TapeSource.intn ⟨pre ++ b1 ++ (bs ++ post), pre.length⟩ n =
          ((x : Int), ⟨pre ++ b1 ++ (bs ++ post), (pre ++ b1).length⟩) := by
        unfold TapeSource.intn
        rw [if_neg h1]
        simp only [hr, hv']
        rw [Int.tmod_eq_of_lt (by omega) (by omega), List.length_append, hl]
      refine ⟨s', .cons _ _ _ _ _ ?_ ?_⟩
      · show ((TapeSource.intn _ n).1.toNat) = x
        rw [ei]
        simp
      · show Draws tapeSource (TapeSource.intn _ n).2 ds s'
        rw [ei]
        simpa using hs'

theorem indexed_draws (ds : List (Nat × Nat)) (h : FitIn (2 ^ 32) ds) : ∀ i (pre : Bytes), pre.length = 4 * i → ∃ bs, ∀ post,
    ∃ s', Draws indexedSource ⟨pre ++ bs ++ post, i⟩ ds s' := by
  induction ds with
  | nil => intro i pre _; exact ⟨[], fun post => ⟨_, .nil _⟩⟩
  | cons d ds ih =>
    intro i pre hp
    obtain ⟨n, x⟩ := d
    obtain ⟨hx, hn⟩ := h (n, x) (List.mem_cons_self ..)
    simp only at hx hn
    have ih' := ih fun p hp => h p (List.mem_cons_of_mem _ hp)
    by_cases h1 : n ≤ 1
    · obtain ⟨bs, hbs⟩ := ih' i pre hp
      refine ⟨bs, fun post => ?_⟩
      obtain ⟨s', hs'⟩ := hbs post
      refine ⟨s', .cons _ _ _ _ _ ?_ ?_⟩
      · show ((IndexedSource.intn _ n).1.toNat) = x
        unfold IndexedSource.intn
        rw [if_pos h1]
        simp only [Int.toNat_zero]
        omega
      · show Draws indexedSource (IndexedSource.intn _ n).2 ds s'
        unfold IndexedSource.intn
        rw [if_pos h1]
        exact hs'
    · obtain ⟨b1, hl, hv⟩ := beValue_surj 4 0 x (by simp) (by norm_num; omega)
      obtain ⟨bs, hbs⟩ := ih' (i + 1) (pre ++ b1) (by rw [List.length_append, hp, hl]; omega)
      refine ⟨b1 ++ bs, fun post => ?_⟩
      obtain ⟨s', hs'⟩ := hbs post
      have hv' : beValue 0 b1 = (x : Int) := hv
      have hr := indexedRead_digits b1 0 pre (bs ++ post) (le_refl _) (by omega)
      rw [hl, hp] at hr
      have e : pre ++ (b1 ++ bs) ++ post = pre ++ b1 ++ (bs ++ post) := by simp
      rw [e]
      have ei : IndexedSource.intn ⟨pre ++ b1 ++ (bs ++ post), i⟩ n = ((x : Int), ⟨pre ++ b1 ++ (bs ++ post), i + 1⟩) := by
        unfold IndexedSource.intn
        rw [if_neg h1]
        simp only
        rw [indexedStride, Nat.mul_comm i 4, hr, hv', Int.tmod_eq_of_lt (by omega) (by omega)]
      refine ⟨s', .cons _ _ _ _ _ ?_ ?_⟩
      · show ((IndexedSource.intn _ n).1.toNat) = x
        rw [ei]
        simp
      · show Draws indexedSource (IndexedSource.intn _ n).2 ds s'
        rw [ei]
        simpa using hs'

theorem rand_draws (B : Nat) (ds : List (Nat × Nat)) (h : FitIn B ds) : ∀ pos, ∃ (rnd : Nat → Nat) (s' : Nat), ∀ rnd' : Nat → Nat, (∀ i, pos ≤ i → rnd' i = rnd i) →
    Draws (randSource rnd') pos ds s' := by
  induction ds with
  | nil => intro pos; exact ⟨fun _ => 0, pos, fun _ _ => .nil _⟩
  | cons d ds ih =>
    intro pos
    obtain ⟨n, x⟩ := d
    obtain ⟨hx, hn⟩ := h (n, x) (List.mem_cons_self ..)
    simp only at hx hn
    have ih' := ih fun p hp => h p (List.mem_cons_of_mem _ hp)
    by_cases h1 : n ≤ 1
    · obtain ⟨rnd, s', hr⟩ := ih' pos
      refine ⟨rnd, s', fun rnd' hr' => .cons _ _ _ _ _ ?_ ?_⟩
      · show (randIntn rnd' pos n).1 = x
        unfold randIntn
        rw [if_pos h1]
        omega
      · show Draws (randSource rnd') (randIntn rnd' pos n).2 ds s'
        unfold randIntn
        rw [if_pos h1]
        exact hr rnd' hr'
    · obtain ⟨rnd, s', hr⟩ := ih' (pos + 1)
      refine ⟨fun i => if i = pos then x else rnd i, s', fun rnd' hr' => .cons _ _ _ _ _ ?_ ?_⟩
      · show (randIntn rnd' pos n).1 = x
        unfold randIntn
        rw [if_neg h1, hr' pos (le_refl _)]
        simp only [if_true]
        exact Nat.mod_eq_of_lt hx
      · show Draws (randSource rnd') (randIntn rnd' pos n).2 ds s'
        unfold randIntn
        rw [if_neg h1]
        refine hr rnd' fun i hi => ?_
        rw [hr' i (by omega)]
        exact if_neg (by omega)

/-! ## Decisions along a path -/

/-- `Spells NodeSays` with the number of steps. -/
inductive SpellsIn (h : TgHeap) (outs : Pts) : Nat → Bytes → Nat → Prop
  | stop (n w) : some n ∈ outs → NodeSays (h.elem n) w → SpellsIn h outs n w 0
  | step (n m u v k) : NodeSays (h.elem n) u → m ∈ h.nexts n → SpellsIn h outs m v k → SpellsIn h outs n (u ++ v) (k + 1)

theorem spells_in {h : TgHeap} {outs : Pts} {n : Nat} {w : Bytes} (hs : Spells NodeSays h outs n w) : ∃ k, SpellsIn h outs n w k := by
  induction hs with
  | stop n w h1 h2 => exact ⟨0, .stop n w h1 h2⟩
  | step n m u v h1 h2 _ ih =>
    obtain ⟨k, ih⟩ := ih
    exact ⟨k + 1, .step n m u v k h1 h2 ih⟩

theorem spellsIn_dist {o : FuzzOpts} {f : TgFrag} {h : TgHeap} {G : FuzzGen} (H : FuzzOK o f h G) {n : Nat} {w : Bytes} {k : Nat}
    (hs : SpellsIn h f.outs n w k) (hr : ReachedFrom h f.ins n) : ∃ v, G.dist (some n) = some v ∧ v ≤ k := by
  induction hs with
  | stop n w h1 _ => exact ⟨0, H.dist.ends _ h1, le_refl _⟩
  | step n m u v k _ h2 _ ih =>
    have hrm : ReachedFrom h f.ins m := by
      obtain ⟨i, h5, h6⟩ := hr
      exact ⟨i, h5, h6.tail h2⟩
    obtain ⟨v, h3, h4⟩ := ih hrm
    obtain ⟨u, h5, h6⟩ := H.dist.near n m v hr h2 h3
    exact ⟨u, h5, by omega⟩

theorem nodeEmit_count (e : Elem) : (nodeEmit e 0).2 ≤ 2 ^ 30 := by
  unfold nodeEmit
  split
  · norm_num
  · exact Nat.pow_le_pow_right (by norm_num) (min_le_right _ _)
  · norm_num
  · simp only
    split_ifs
    · norm_num
    · simp only [maxRune]; omega
  · norm_num

theorem emitNode_draw {e : Elem} (hp : producing e = true) {w : Bytes} (hw : NodeSays e w) : ∃ ds, FitIn (2 ^ 30) ds ∧
    ∀ {σ : Type} (S : Source σ) (st : WalkSt σ) (s' : σ), Draws S st.src ds s' →
      (emitNode S e st).src = s' ∧ (emitNode S e st).out = st.out ++ w ∧ (emitNode S e st).visits = st.visits ∧
      (emitNode S e st).steps = st.steps := by
  obtain ⟨i, hi, rfl⟩ := hw
  have hc := nodeEmit_count e
  by_cases h1 : (nodeEmit e 0).2 > 1
  · refine ⟨[((nodeEmit e 0).2, i)], ?_, ?_⟩
    · intro p hp
      rw [List.mem_singleton.mp hp]
      exact ⟨hi, hc⟩
    · intro σ S st s' hd
      cases hd with
      | cons _ _ _ _ _ h2 h3 =>
        cases h3
        unfold emitNode
        rw [if_pos hp]
        simp only [if_pos h1]
        rw [h2]
        exact ⟨trivial, rfl, trivial, trivial⟩
  · refine ⟨[], (by intro p hp; cases hp), ?_⟩
    intro σ S st s' hd
    cases hd
    obtain rfl : i = 0 := by omega
    unfold emitNode
    rw [if_pos hp]
    simp only [if_neg h1]
    exact ⟨trivial, trivial, trivial, trivial⟩

/-- Every node has at most `B` successors. -/
def Narrow (B : Nat) (h : TgHeap) (f : TgFrag) : Prop := ∀ n, ReachedFrom h f.ins n → (h.nexts n).length < B

theorem getElem?_idx {l : List Nat} {m : Nat} (h : m ∈ l) : ∃ j, j < l.length ∧ l[j]? = some m := by
  obtain ⟨j, hj, e⟩ := List.mem_iff_getElem.mp h
  exact ⟨j, hj, by rw [List.getElem?_eq_getElem hj, e]⟩

/-- For every path there are decisions that lead along it, as long as the limits are not met. -/
theorem walk_draw {o : FuzzOpts} {f : TgFrag} {h : TgHeap} {G : FuzzGen} (H : FuzzOK o f h G) {B : Nat} (hB : 2 ^ 30 ≤ B)
    (hnar : Narrow B h f) {n : Nat} {w : Bytes} {L : Nat} (hs : SpellsIn h f.outs n w L) (hr : ReachedFrom h f.ins n) :
    ∃ ds, FitIn B ds ∧ ∀ {σ : Type} (S : Source σ) (st : WalkSt σ) (s' : σ) (k : Nat), Draws S st.src ds s' → L < k →
      (∀ p, (st.visits p : Int) + L < G.opts.maxReps) → (st.steps : Int) + L < G.opts.maxSteps →
      (st.out.length : Int) + w.length < G.opts.maxLength →
      ∃ st', walkLoop S G k (some n) st = .ok st' ∧ st'.out = st.out ++ w := by
  have hfitmono : ∀ ds, FitIn (2 ^ 30) ds → FitIn B ds := fun ds hd p hp => ⟨(hd p hp).1, (hd p hp).2.trans hB⟩
  have hlen : ∀ n, ReachedFrom h f.ins n → (G.liveAll n).length < B := fun n hn => by
    unfold FuzzGen.liveAll
    rw [H.heap]
    exact lt_of_le_of_lt (List.length_filter_le ..) (hnar n hn)
  have hcapped : ∀ (vis : Nat × Nat → Nat) n, (∀ p, (vis p : Int) < G.opts.maxReps) → G.liveCapped vis n = G.liveAll n := fun vis n hv => by
    unfold FuzzGen.liveCapped
    exact List.filter_eq_self.mpr fun m _ => by simpa using hv (n, m)
  induction hs with
  | stop n w h1 h2 =>
    obtain ⟨ds, hf, hd⟩ := emitNode_draw (by exact H.produces n hr) h2
    cases hl : G.liveAll n with
    | nil =>
      refine ⟨ds, hfitmono ds hf, fun {σ} S st s' k hds hk hv hst hlen => ?_⟩
      obtain ⟨e1, e2, e3, e4⟩ := hd S st s' hds
      obtain ⟨k, rfl⟩ : ∃ k', k = k' + 1 := ⟨k - 1, by omega⟩
      rw [walkLoop]
      simp only [hl, H.heap]
      exact ⟨_, rfl, e2⟩
    | cons best cands =>
      have hb := hlen n hr
      rw [hl] at hb
      refine ⟨ds ++ [((best :: cands).length + 1, 0)], ?_, fun {σ} S st s' k hds hk hv hst hlen => ?_⟩
      · intro p hp
        rcases List.mem_append.mp hp with hp | hp
        · exact hfitmono ds hf p hp
        · rw [List.mem_singleton.mp hp]
          exact ⟨by simp, by simp only; omega⟩
      · obtain ⟨t, h3, h4⟩ := Draws.append_inv _ _ hds
        obtain ⟨e1, e2, e3, e4⟩ := hd S st t h3
        obtain ⟨k, rfl⟩ : ∃ k', k = k' + 1 := ⟨k - 1, by omega⟩
        have hcap := hcapped st.visits n fun p => by have := hv p; omega
        rw [walkLoop]
        simp only [hl, H.heap, H.frag, if_pos h1]
        rw [e3, hcap, hl, if_neg (by
          rw [e2, e4, List.length_append]
          push_cast
          simp only [reduceCtorEq, or_false]
          omega), e1]
        cases h4 with
        | cons _ _ _ _ _ h5 h6 =>
          rw [if_pos h5]
          exact ⟨_, rfl, e2⟩
  | step n m u v L h1 h2 h3 ih =>
    have hrm : ReachedFrom h f.ins m := by
      obtain ⟨i, h5, h6⟩ := hr
      exact ⟨i, h5, h6.tail h2⟩
    obtain ⟨d1, hf1, hd1⟩ := emitNode_draw (by exact H.produces n hr) h1
    obtain ⟨d2, hf2, hd2⟩ := ih hrm
    obtain ⟨x, hx, _⟩ := spellsIn_dist H h3 hrm
    have hm : m ∈ G.liveAll n := mem_liveAll.mpr ⟨by rw [H.heap]; exact h2, by rw [hx]; rfl⟩
    obtain ⟨j, hj, hjm⟩ := getElem?_idx hm
    have hb := hlen n hr
    by_cases hout : some n ∈ f.outs
    · refine ⟨d1 ++ ((G.liveAll n).length + 1, j + 1) :: d2, ?_, fun {σ} S st s' k hds hk hv hst hlen => ?_⟩
      · intro p hp
        rcases List.mem_append.mp hp with hp | hp
        · exact hfitmono d1 hf1 p hp
        · rcases List.mem_cons.mp hp with rfl | hp
          · exact ⟨by simp only; omega, by simp only; omega⟩
          · exact hf2 p hp
      · obtain ⟨t, h3, h4⟩ := Draws.append_inv _ _ hds
        obtain ⟨e1, e2, e3, e4⟩ := hd1 S st t h3
        obtain ⟨k, rfl⟩ : ∃ k', k = k' + 1 := ⟨k - 1, by omega⟩
        obtain ⟨best, cands, hl⟩ : ∃ b c, G.liveAll n = b :: c := List.exists_cons_of_ne_nil fun e => by rw [e] at hm; cases hm
        have hcap := hcapped st.visits n fun p => by have := hv p; omega
        rw [walkLoop]
        simp only [H.heap, H.frag, if_pos hout]
        rw [e3, hcap, hl]
        simp only
        rw [← hl, if_neg (by
          rw [e2, e4, List.length_append]
          rw [List.length_append] at hlen
          push_cast at hlen hst ⊢
          rw [hl]
          simp only [reduceCtorEq, or_false]
          omega), e1]
        cases h4 with
        | cons _ _ _ _ _ h5 h6 =>
          rw [if_neg (by rw [h5]; omega), h5, Nat.add_sub_cancel, hjm]
          simp only
          obtain ⟨st', h7, h8⟩ := hd2 S ((emitNode S (h.elem n) st).go n m (S.intn t ((G.liveAll n).length + 1)).2) s' k h6 (by omega)
            (fun p => by
              show ((if p = (n, m) then (emitNode S (h.elem n) st).visits p + 1 else (emitNode S (h.elem n) st).visits p : Nat) : Int) + L < _
              have := hv p
              rw [e3]
              push_cast at this
              split_ifs <;> push_cast <;> omega)
            (by
              show (((emitNode S (h.elem n) st).steps + 1 : Nat) : Int) + L < _
              rw [e4]
              push_cast at hst ⊢
              omega)
            (by
              show ((emitNode S (h.elem n) st).out.length : Int) + v.length < _
              rw [e2, List.length_append]
              rw [List.length_append] at hlen
              push_cast at hlen ⊢
              omega)
          refine ⟨st', h7, ?_⟩
          rw [h8]
          show (emitNode S (h.elem n) st).out ++ v = _
          rw [e2, List.append_assoc]
    · refine ⟨d1 ++ ((G.liveAll n).length, j) :: d2, ?_, fun {σ} S st s' k hds hk hv hst hlen => ?_⟩
      · intro p hp
        rcases List.mem_append.mp hp with hp | hp
        · exact hfitmono d1 hf1 p hp
        · rcases List.mem_cons.mp hp with rfl | hp
          · exact ⟨by simp only; omega, by simp only; omega⟩
          · exact hf2 p hp
      · obtain ⟨t, h3, h4⟩ := Draws.append_inv _ _ hds
        obtain ⟨e1, e2, e3, e4⟩ := hd1 S st t h3
        obtain ⟨k, rfl⟩ : ∃ k', k = k' + 1 := ⟨k - 1, by omega⟩
        obtain ⟨best, cands, hl⟩ : ∃ b c, G.liveAll n = b :: c := List.exists_cons_of_ne_nil fun e => by rw [e] at hm; cases hm
        have hcap := hcapped st.visits n fun p => by have := hv p; omega
        rw [walkLoop]
        simp only [H.heap, H.frag, if_neg hout]
        rw [e3, hcap, hl]
        simp only
        rw [← hl, if_neg (by
          rw [e2, e4, List.length_append]
          rw [List.length_append] at hlen
          push_cast at hlen hst ⊢
          rw [hl]
          simp only [reduceCtorEq, or_false]
          omega), e1]
        cases h4 with
        | cons _ _ _ _ _ h5 h6 =>
          rw [h5, hjm]
          simp only
          obtain ⟨st', h7, h8⟩ := hd2 S ((emitNode S (h.elem n) st).go n m (S.intn t (G.liveAll n).length).2) s' k h6 (by omega)
            (fun p => by
              show ((if p = (n, m) then (emitNode S (h.elem n) st).visits p + 1 else (emitNode S (h.elem n) st).visits p : Nat) : Int) + L < _
              have := hv p
              rw [e3]
              push_cast at this
              split_ifs <;> push_cast <;> omega)
            (by
              show (((emitNode S (h.elem n) st).steps + 1 : Nat) : Int) + L < _
              rw [e4]
              push_cast at hst ⊢
              omega)
            (by
              show ((emitNode S (h.elem n) st).out.length : Int) + v.length < _
              rw [e2, List.length_append]
              rw [List.length_append] at hlen
              push_cast at hlen ⊢
              omega)
          refine ⟨st', h7, ?_⟩
          rw [h8]
          show (emitNode S (h.elem n) st).out ++ v = _
          rw [e2, List.append_assoc]

/-- A word of the graph along a path of `L` steps. -/
def WordIn (h : TgHeap) (f : TgFrag) (w : Bytes) (L : Nat) : Prop :=
  (none ∈ f.ins ∧ none ∈ f.outs ∧ w = []) ∨ ∃ n, some n ∈ f.ins ∧ SpellsIn h f.outs n w L

theorem pathLength {h : TgHeap} {f : TgFrag} {w : Bytes} (hw : GraphWord NodeSays h f w) : ∃ L, WordIn h f w L := by
  rcases hw with h1 | ⟨n, h1, h2⟩
  · exact ⟨0, .inl h1⟩
  · obtain ⟨L, hs⟩ := spells_in h2
    exact ⟨L, .inr ⟨n, h1, hs⟩⟩

/-- The same from the entry points. -/
theorem fuzzWalk_draw {o : FuzzOpts} {f : TgFrag} {h : TgHeap} {G : FuzzGen} (H : FuzzOK o f h G) {B : Nat} (hB : 2 ^ 30 ≤ B)
    (hnar : Narrow B h f) (hins : f.ins.length ≤ B) {w : Bytes} {L : Nat} (hw : WordIn h f w L)
    (hr : (L : Int) < o.maxReps) (hst : (L : Int) < o.maxSteps) (hl : (w.length : Int) < o.maxLength) :
      ∃ ds, FitIn B ds ∧ ∀ {σ : Type} (S : Source σ) (s s' : σ), Draws S s ds s' → ∃ st', fuzzWalk S G s = .ok st' ∧ st'.out = w := by
  have hsub : G.entries.length ≤ B := by
    rw [H.entries]
    exact (List.length_filter_le ..).trans hins
  have hent : ∀ e, e ∈ f.ins → (G.dist e).isSome = true → ∃ j, j < G.entries.length ∧ G.entries[j]? = some e := by
    intro e h1 h2
    have : e ∈ G.entries := by rw [H.entries]; exact List.mem_filter.mpr ⟨h1, h2⟩
    obtain ⟨j, hj, e'⟩ := List.mem_iff_getElem.mp this
    exact ⟨j, hj, by rw [List.getElem?_eq_getElem hj, e']⟩
  rcases hw with ⟨h1, h2, rfl⟩ | ⟨n, h1, hs⟩
  · obtain ⟨j, hj, hje⟩ := hent none h1 (by rw [H.dist.ends _ h2]; rfl)
    refine ⟨[(G.entries.length, j)], ?_, fun {σ} S s s' hd => ?_⟩
    · intro p hp
      rw [List.mem_singleton.mp hp]
      exact ⟨hj, hsub⟩
    · cases hd with
      | cons _ _ _ _ _ h3 h4 =>
        unfold fuzzWalk
        rw [if_neg (by intro e; rw [e] at hj; simp at hj)]
        simp only [h3, hje]
        rw [walkLoop]
        exact ⟨_, rfl, rfl⟩
  · have hreach : ReachedFrom h f.ins n := ⟨n, h1, .refl⟩
    obtain ⟨x, hx, _⟩ := spellsIn_dist H hs hreach
    obtain ⟨j, hj, hje⟩ := hent (some n) h1 (by rw [hx]; rfl)
    obtain ⟨ds, hf, hd⟩ := walk_draw H hB hnar hs hreach
    refine ⟨(G.entries.length, j) :: ds, ?_, fun {σ} S s s' hdr => ?_⟩
    · intro p hp
      rcases List.mem_cons.mp hp with rfl | hp
      · exact ⟨hj, hsub⟩
      · exact hf p hp
    · cases hdr with
      | cons _ _ _ _ _ h3 h4 =>
        unfold fuzzWalk
        rw [if_neg (by intro e; rw [e] at hj; simp at hj)]
        simp only [h3, hje]
        rw [H.opts]
        obtain ⟨st', h5, h6⟩ := hd S { src := (S.intn s G.entries.length).2 } s' (o.maxSteps.toNat + G.farthest + 2) h4 (by omega)
          (fun p => by rw [H.opts]; simpa using hr) (by rw [H.opts]; simpa using hst) (by rw [H.opts]; simpa using hl)
        exact ⟨st', h5, by rw [h6]; rfl⟩

end Verif
