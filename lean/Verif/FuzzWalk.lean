import Verif.FuzzNew

/-!
# What a walk produces
-/

namespace Verif

/-- The texts of a node: one for each variation. -/
def NodeSays (e : Elem) (w : Bytes) : Prop := ∃ i, i < (nodeEmit e 0).2 ∧ (nodeEmit e i).1 = w

theorem nodeEmit_pos (e : Elem) : 0 < (nodeEmit e 0).2 := by
  unfold nodeEmit
  split <;> simp only [zero_lt_one] <;> try positivity
  split_ifs <;> simp

theorem nearest_mem (d : Option Nat → Option Nat) (cs : List Nat) : ∀ best, nearestToEnd d best cs ∈ best :: cs := by
  induction cs with
  | nil => intro best; simp [nearestToEnd]
  | cons c cs ih =>
    intro best
    rw [nearestToEnd]
    have := ih (if (d (some c)).getD 0 < (d (some best)).getD 0 then c else best)
    rw [List.mem_cons] at this ⊢
    rcases this with h | h
    · rw [h]
      split_ifs
      · right; exact List.mem_cons_self ..
      · exact .inl rfl
    · exact .inr (List.mem_cons_of_mem _ h)

theorem nearest_le (d : Option Nat → Option Nat) (cs : List Nat) : ∀ best, ∀ c ∈ best :: cs,
    (d (some (nearestToEnd d best cs))).getD 0 ≤ (d (some c)).getD 0 := by
  induction cs with
  | nil => intro best c hc; rw [List.mem_singleton.mp hc]; exact le_refl _
  | cons x cs ih =>
    intro best c hc
    rw [nearestToEnd]
    have h1 := ih (if (d (some x)).getD 0 < (d (some best)).getD 0 then x else best)
    have h2 := h1 _ (List.mem_cons_self ..)
    rcases List.mem_cons.mp hc with rfl | hc
    · split_ifs at h2 ⊢ with h <;> omega
    · rcases List.mem_cons.mp hc with rfl | hc
      · split_ifs at h2 ⊢ with h <;> omega
      · exact h1 c (List.mem_cons_of_mem _ hc)

/-- Segments of the text, in order. -/
def TraceOK (out : Bytes) (trace : List TraceSeg) : Prop :=
  ∀ s ∈ trace, s.off + s.len ≤ out.length ∧ NodeSays s.elem ((out.drop s.off).take s.len)

theorem TraceOK.append {out : Bytes} {trace : List TraceSeg} (H : TraceOK out trace) (b : Bytes) : TraceOK (out ++ b) trace := by
  intro s hs
  obtain ⟨h1, h2⟩ := H s hs
  refine ⟨by rw [List.length_append]; omega, ?_⟩
  rw [List.drop_append_of_le_length (by omega), List.take_append_of_le_length (by rw [List.length_drop]; omega)]
  exact h2

theorem emitNode_spec {σ : Type} {S : Source σ} (hS : S.InRange) {e : Elem} (he : producing e = true) (st : WalkSt σ)
    (ht : TraceOK st.out st.trace) :
    ∃ b, NodeSays e b ∧ (emitNode S e st).out = st.out ++ b ∧ (emitNode S e st).visits = st.visits ∧
      (emitNode S e st).steps = st.steps ∧ TraceOK (emitNode S e st).out (emitNode S e st).trace := by
  unfold emitNode
  rw [if_pos he]
  simp only
  have hd : (if (nodeEmit e 0).2 > 1 then S.intn st.src (nodeEmit e 0).2 else (0, st.src)).1 < (nodeEmit e 0).2 := by
    split_ifs with h
    · exact hS _ _ (by omega)
    · exact nodeEmit_pos e
  generalize (if (nodeEmit e 0).2 > 1 then S.intn st.src (nodeEmit e 0).2 else (0, st.src)) = d at hd
  refine ⟨_, ⟨_, hd, rfl⟩, rfl, trivial, trivial, ?_⟩
  split_ifs with h
  · intro s hs
    rcases List.mem_append.mp hs with hs | hs
    · exact (ht.append _) s hs
    · rw [List.mem_singleton.mp hs]
      refine ⟨by rw [List.length_append], ?_⟩
      rw [List.drop_left' rfl, List.take_of_length_le (le_refl _)]
      exact ⟨_, hd, rfl⟩
  · exact ht.append _

/-- Every text of a node that can be reached has at most `E` bytes. -/
def EmitsAtMost (h : TgHeap) (f : TgFrag) (E : Nat) : Prop :=
  ∀ n, ReachedFrom h f.ins n → ∀ w, NodeSays (h.elem n) w → w.length ≤ E

theorem foldr_max_le {l : List Nat} {x : Nat} (h : x ∈ l) : x ≤ l.foldr max 0 := by
  induction l with
  | nil => cases h
  | cons a l ih =>
    rw [List.foldr_cons]
    rcases List.mem_cons.mp h with rfl | h
    · exact le_max_left ..
    · exact (ih h).trans (le_max_right ..)

theorem le_farthest {o : FuzzOpts} {f : TgFrag} {h : TgHeap} {G : FuzzGen} (H : FuzzOK o f h G) {n v : Nat} (hn : n < h.size)
    (hv : G.dist (some n) = some v) : v ≤ G.farthest := by
  unfold FuzzGen.farthest
  refine foldr_max_le (List.mem_map.mpr ⟨n, ?_, ?_⟩)
  · rw [H.heap]; exact List.mem_range.mpr hn
  · rw [hv]; rfl

theorem mem_liveAll {G : FuzzGen} {n m : Nat} : m ∈ G.liveAll n ↔ m ∈ G.heap.nexts n ∧ (G.dist (some m)).isSome = true := by
  unfold FuzzGen.liveAll
  rw [List.mem_filter]

/-- What a walk from node `n` on adds to what was written before. -/
structure WalkPost (h : TgHeap) (f : TgFrag) (G : FuzzGen) (n v : Nat) {σ : Type} (st st' : WalkSt σ) : Prop where
  word : ∃ w, st'.out = st.out ++ w ∧ Spells NodeSays h f.outs n w
  trace : TraceOK st'.out st'.trace
  steps : (st'.steps : Int) ≤ max (G.opts.maxSteps + G.farthest) (st.steps + v)
  length : ∀ E, EmitsAtMost h f E →
    (st'.out.length : Int) ≤ max (G.opts.maxLength + (G.farthest + 1) * E) (st.out.length + (v + 1) * E)

theorem walkLoop_sat {o : FuzzOpts} {f : TgFrag} {h : TgHeap} {G : FuzzGen} (H : FuzzOK o f h G) (hfin : GraphFin h f)
    {σ : Type} {S : Source σ} (hS : S.InRange) (k : Nat) : ∀ n v st, ReachedFrom h f.ins n → G.dist (some n) = some v →
    TraceOK st.out st.trace →
    ((st.steps : Int) < G.opts.maxSteps → (G.opts.maxSteps - st.steps).toNat + G.farthest < k) → (G.opts.maxSteps ≤ (st.steps : Int) → v < k) →
    (walkLoop S G k (some n) st).Sat False False (WalkPost h f G n v st) := by
  induction k with
  | zero =>
    intro n v st _ _ _ h1 h2
    by_cases hlt : (st.steps : Int) < G.opts.maxSteps
    · exact absurd (h1 hlt) (by omega)
    · exact absurd (h2 (by omega)) (by omega)
  | succ k ih =>
    intro n v st hr hv ht hk1 hk2
    have hn := hfin n hr
    have hF := le_farthest H hn hv
    rw [walkLoop]
    simp only
    have hprod := H.produces n hr
    rw [← H.heap] at hprod
    obtain ⟨b, hb, ho, hvis, hst, htr⟩ := emitNode_spec hS hprod st ht
    generalize emitNode S (G.heap.elem n) st = st1 at ho hvis hst htr ⊢
    have hb' : NodeSays (h.elem n) b := by rw [← H.heap]; exact hb
    have hb'' : ∀ E, EmitsAtMost h f E → b.length ≤ E := fun E hE => hE n hr b hb'
    -- stopping here
    have hstop : ∀ st2 : WalkSt σ, st2.out = st1.out → st2.trace = st1.trace → st2.steps = st1.steps → some n ∈ f.outs →
        WalkPost h f G n v st st2 := by
      intro st2 e1 e2 e3 hout
      refine ⟨⟨b, by rw [e1, ho], .stop n b hout hb'⟩, by rw [e1, e2]; exact htr, ?_, fun E hE => ?_⟩
      · rw [e3, hst]; omega
      · rw [e1, ho, List.length_append]
        have := hb'' E hE
        refine le_trans ?_ (le_max_right _ _)
        have : (0 : Int) ≤ v * E := by positivity
        rw [add_mul, one_mul]
        push_cast
        omega
    -- going on
    have hgo : ∀ m src, m ∈ G.liveAll n → ((G.opts.maxLength ≤ (st1.out.length : Int) ∨ G.opts.maxSteps ≤ (st.steps : Int)) → ∃ u, G.dist (some m) = some u ∧ u < v) →
        (walkLoop S G k (some m) (st1.go n m src)).Sat False False (WalkPost h f G n v st) := by
      intro m src hm hover
      obtain ⟨hm1, hm2⟩ := mem_liveAll.mp hm
      rw [H.heap] at hm1
      obtain ⟨u, hu⟩ := Option.isSome_iff_exists.mp hm2
      have hrm : ReachedFrom h f.ins m := by
        obtain ⟨i, h5, h6⟩ := hr
        exact ⟨i, h5, h6.tail hm1⟩
      have hFu := le_farthest H (hfin m hrm) hu
      have hov : (G.opts.maxLength ≤ (st1.out.length : Int) ∨ G.opts.maxSteps ≤ (st.steps : Int)) → u < v := fun h => by
        obtain ⟨u', h1, h2⟩ := hover h
        rw [hu, Option.some.injEq] at h1
        omega
      have e1 : (st1.go n m src).out = st1.out := rfl
      have e2 : (st1.go n m src).steps = st.steps + 1 := by rw [← hst]; rfl
      have e3 : (st1.go n m src).trace = st1.trace := rfl
      refine Run.Sat.mono (ih m u (st1.go n m src) hrm hu (by rw [e1, e3]; exact htr) ?_ ?_) fun st2 H2 => ⟨?_, H2.trace, ?_, fun E hE => ?_⟩
      · rw [e2]
        intro h1
        have := hk1 (by omega)
        omega
      · rw [e2]
        intro h1
        by_cases h2 : (st.steps : Int) < G.opts.maxSteps
        · have := hk1 h2
          omega
        · have := hk2 (by omega)
          have := hov (.inr (by omega))
          omega
      · obtain ⟨w, h1, h2⟩ := H2.word
        exact ⟨b ++ w, by rw [h1, e1, ho, List.append_assoc], .step n m b w hb' hm1 h2⟩
      · have h1 := H2.steps
        rw [e2] at h1
        by_cases h2 : (st.steps : Int) < G.opts.maxSteps
        · omega
        · have := hov (.inr (by omega))
          omega
      · have h1 := H2.length E hE
        rw [e1] at h1
        have hbE := hb'' E hE
        have hlen : st1.out.length = st.out.length + b.length := by rw [ho, List.length_append]
        have hmul : ∀ x y : Nat, x ≤ y → ((x : Int) * E) ≤ y * E := fun x y hxy => by
          have : x * E ≤ y * E := Nat.mul_le_mul_right _ hxy
          exact_mod_cast this
        rw [add_mul, add_mul, one_mul] at h1 ⊢
        by_cases h2 : G.opts.maxLength ≤ (st1.out.length : Int)
        · have h3 := hov (.inl h2)
          have h4 := hmul (u + 1) v h3
          have h5 := hmul v G.farthest hF
          push_cast at h4
          rw [add_mul, one_mul] at h4
          by_cases h6 : G.opts.maxLength ≤ (st.out.length : Int) <;> omega
        · have h5 := hmul u G.farthest hFu
          omega
    have hmem : ∀ m, m ∈ G.liveCapped st1.visits n → m ∈ G.liveAll n := fun m hm => (List.mem_filter.mp hm).1
    cases hl : G.liveAll n with
    | nil =>
      simp only
      refine hstop st1 rfl rfl rfl ?_
      rcases H.dist.step _ _ hv with h1 | ⟨n', m, u, e1, e2, _, h3, h4⟩
      · exact h1.2
      · obtain rfl := Option.some.inj e1
        have : m ∈ G.liveAll n := mem_liveAll.mpr ⟨by rw [H.heap]; exact h3, by rw [h4]; rfl⟩
        rw [hl] at this
        cases this
    | cons best cands =>
      simp only
      rw [H.frag]
      by_cases hout : some n ∈ f.outs
      · rw [if_pos hout]
        by_cases hterm : (st1.out.length : Int) ≥ G.opts.maxLength ∨ (st1.steps : Int) ≥ G.opts.maxSteps ∨ G.liveCapped st1.visits n = []
        · rw [if_pos hterm]
          exact hstop st1 rfl rfl rfl hout
        · rw [if_neg hterm]
          have hlt := hS st1.src ((G.liveCapped st1.visits n).length + 1) (by omega)
          by_cases hz : (S.intn st1.src ((G.liveCapped st1.visits n).length + 1)).1 = 0
          · rw [if_pos hz]
            exact hstop _ rfl rfl rfl hout
          · rw [if_neg hz, List.getElem?_eq_getElem (by omega)]
            simp only
            refine hgo _ _ (hmem _ (List.getElem_mem _)) fun h => absurd ?_ hterm
            rw [hst]
            rcases h with h | h
            · exact .inl h
            · exact .inr (.inl h)
      · rw [if_neg hout]
        by_cases hterm : (st1.out.length : Int) ≥ G.opts.maxLength ∨ (st1.steps : Int) ≥ G.opts.maxSteps ∨ G.liveCapped st1.visits n = []
        · rw [if_pos hterm]
          refine hgo _ _ (by rw [hl]; exact nearest_mem ..) fun _ => ?_
          rcases H.dist.step _ _ hv with h1 | ⟨n', m, u, e1, rfl, _, h3, h4⟩
          · exact absurd h1.2 hout
          · obtain rfl := Option.some.inj e1
            have hm : m ∈ G.liveAll n := mem_liveAll.mpr ⟨by rw [H.heap]; exact h3, by rw [h4]; rfl⟩
            rw [hl] at hm
            have h5 := nearest_le G.dist cands best m hm
            have h6 : nearestToEnd G.dist best cands ∈ G.liveAll n := by rw [hl]; exact nearest_mem ..
            obtain ⟨w, hw⟩ := Option.isSome_iff_exists.mp (mem_liveAll.mp h6).2
            rw [hw, h4] at h5
            exact ⟨w, hw, Nat.lt_succ_of_le h5⟩
        · rw [if_neg hterm]
          have hpos : 0 < (G.liveCapped st1.visits n).length := by
            rcases Nat.eq_zero_or_pos (G.liveCapped st1.visits n).length with h | h
            · exact absurd (.inr (.inr (List.length_eq_zero_iff.mp h))) hterm
            · exact h
          have hlt := hS st1.src (G.liveCapped st1.visits n).length hpos
          rw [List.getElem?_eq_getElem hlt]
          simp only
          refine hgo _ _ (hmem _ (List.getElem_mem _)) fun h => absurd ?_ hterm
          rw [hst]
          rcases h with h | h
          · exact .inl h
          · exact .inr (.inl h)

/-- What a walk produces: nothing if the graph has no word, and a word of the graph otherwise. -/
structure FuzzPost (h : TgHeap) (f : TgFrag) (G : FuzzGen) {σ : Type} (st : WalkSt σ) : Prop where
  word : (G.entries = [] ∧ st.out = []) ∨ GraphWord NodeSays h f st.out
  trace : TraceOK st.out st.trace
  steps : (st.steps : Int) ≤ max (G.opts.maxSteps + G.farthest) G.farthest
  length : ∀ E, EmitsAtMost h f E → (st.out.length : Int) ≤ max G.opts.maxLength 0 + (G.farthest + 1) * E

theorem fuzzWalk_sat {o : FuzzOpts} {f : TgFrag} {h : TgHeap} {G : FuzzGen} (H : FuzzOK o f h G) (hfin : GraphFin h f)
    {σ : Type} {S : Source σ} (hS : S.InRange) (s : σ) : (fuzzWalk S G s).Sat False False (FuzzPost h f G) := by
  have hnil : ∀ (st : WalkSt σ), st.out = [] → st.trace = [] → st.steps = 0 → ((G.entries = [] ∧ st.out = []) ∨ GraphWord NodeSays h f st.out) →
      FuzzPost h f G st := by
    intro st e1 e2 e3 hw
    refine ⟨hw, (by rw [e2]; intro s hs; cases hs), (by rw [e3]; omega), fun E _ => ?_⟩
    rw [e1]
    have : (0 : Int) ≤ (G.farthest + 1) * E := by positivity
    simp only [List.length_nil, Int.ofNat_zero]
    omega
  unfold fuzzWalk
  by_cases he : G.entries = []
  · rw [if_pos he]
    exact hnil _ rfl rfl rfl (.inl ⟨he, rfl⟩)
  · rw [if_neg he]
    simp only
    have hlt := hS s G.entries.length (List.length_pos_of_ne_nil he)
    rw [List.getElem?_eq_getElem hlt]
    simp only
    have hmem : G.entries[(S.intn s G.entries.length).1] ∈ G.entries := List.getElem_mem _
    generalize G.entries[(S.intn s G.entries.length).1] = e at hmem
    rw [H.entries, List.mem_filter] at hmem
    cases e with
    | none =>
      rw [walkLoop]
      refine hnil _ rfl rfl rfl (.inr (.inl ⟨hmem.1, ?_, rfl⟩))
      obtain ⟨v, hv⟩ := Option.isSome_iff_exists.mp hmem.2
      rcases H.dist.step _ _ hv with h1 | ⟨n', m, u, e1, _⟩
      · exact h1.2
      · cases e1
    | some n =>
      obtain ⟨v, hv⟩ := Option.isSome_iff_exists.mp hmem.2
      have hr : ReachedFrom h f.ins n := ⟨n, hmem.1, .refl⟩
      have hF := le_farthest H (hfin n hr) hv
      refine Run.Sat.mono (walkLoop_sat H hfin hS _ n v _ hr hv (by intro s hs; cases hs) ?_ ?_) fun st' H' => ⟨?_, H'.trace, ?_, fun E hE => ?_⟩
      · intro _
        simp only [Int.ofNat_zero, sub_zero]
        omega
      · intro _; omega
      · obtain ⟨w, h1, h2⟩ := H'.word
        rw [h1]
        exact .inr (.inr ⟨n, hmem.1, h2⟩)
      · have := H'.steps
        simp only [Int.ofNat_zero] at this
        omega
      · have := H'.length E hE
        simp only [List.length_nil, Int.ofNat_zero] at this
        have hmul : ((v : Int) + 1) * E ≤ (G.farthest + 1) * E := by
          have : (v + 1) * E ≤ (G.farthest + 1) * E := Nat.mul_le_mul_right _ (by omega)
          exact_mod_cast this
        omega

end Verif
