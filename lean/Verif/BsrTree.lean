import Verif.ForestCompare
import Verif.TreeSpec

/-! # `BSRForest.Tree` -/

namespace Verif
open Spec

section
variable {f : Forest} {f' : BsrForest} {inp : Bytes}

/-! ## Termination -/

/-- Enough fuel gives a result, and more does not change it. -/
def Gives {β : Type} (r : Nat → Option β) (b : β) : Prop := ∃ F, ∀ fuel, F ≤ fuel → r fuel = some b

theorem Gives.map {β γ : Type} {r : Nat → Option β} {b : β} (h : Gives r b) (g : β → γ) :
    Gives (fun n => (r n).map g) (g b) := by
  obtain ⟨F, h⟩ := h
  exact ⟨F, fun n hn => by simp [h n hn]⟩

theorem Gives.const {β : Type} (b : β) : Gives (fun _ => some b) b := ⟨0, fun _ _ => rfl⟩

theorem Gives.append {r s : Nat → Option (List ParseTree)} {a b : List ParseTree} (h1 : Gives r a) (h2 : Gives s b) :
    Gives (fun n => (r n).bind fun x => (s n).map fun y => x ++ y) (a ++ b) := by
  obtain ⟨F, h1⟩ := h1
  obtain ⟨F', h2⟩ := h2
  exact ⟨max F F', fun n hn => by simp [h1 n (by omega), h2 n (by omega)]⟩

theorem Gives.succ {r s : Nat → Option (List ParseTree)} {b : List ParseTree} (h : Gives s b)
    (he : ∀ n, r (n + 1) = s n) : Gives r b := by
  obtain ⟨F, h⟩ := h
  refine ⟨F + 1, fun n hn => ?_⟩
  obtain ⟨m, rfl⟩ : ∃ m, n = m + 1 := ⟨n - 1, by omega⟩
  rw [he]
  exact h m (by omega)

/-- Nodes not yet visited. -/
def unvis (U visited : List NodeKey) : Nat := (U.filter fun k => decide (k ∉ visited)).length

theorem unvis_lt {U visited : List NodeKey} {k : NodeKey} (hk : k ∈ U) (hv : k ∉ visited) :
    unvis U (k :: visited) < unvis U visited := by
  unfold unvis
  induction U with
  | nil => cases hk
  | cons x U ih =>
    have hmono : (U.filter fun x => decide (x ∉ k :: visited)).length ≤ (U.filter fun x => decide (x ∉ visited)).length := by
      apply List.Sublist.length_le
      refine List.monotone_filter_right U ?_
      intro y hy
      simp only [List.mem_cons, not_or, decide_eq_true_eq] at hy ⊢
      exact hy.2
    rcases List.mem_cons.mp hk with rfl | hk
    · rw [List.filter_cons_of_neg (by simp), List.filter_cons_of_pos (by simpa using hv)]
      simp only [List.length_cons]
      omega
    · have := ih hk
      by_cases hx : x ∈ visited
      · rw [List.filter_cons_of_neg (by simp [hx]), List.filter_cons_of_neg (by simp [hx])]
        exact this
      · rw [List.filter_cons_of_pos (p := fun x => decide (x ∉ visited)) (by simpa using hx)]
        by_cases hxk : x = k
        · rw [List.filter_cons_of_neg (by simp [hxk])]
          simp only [List.length_cons]; omega
        · rw [List.filter_cons_of_pos (by simp [hx, hxk])]
          simp only [List.length_cons]; omega

theorem pick_some {n a b : Nat} {sl : Slot} {k : Nat} (h : f'.pick n a b = some (sl, k)) :
    sl.nt = n ∧ sl.dot = (f'.sg.prod sl).length ∧ (⟨sl, a, k, b⟩ : BsrElem) ∈ f'.set := by
  unfold BsrForest.pick at h
  obtain ⟨ai, _, h⟩ := List.exists_of_findSome?_eq_some h
  rw [Option.map_eq_some_iff] at h
  obtain ⟨k', h1, h2⟩ := h
  simp only [Prod.mk.injEq] at h2
  obtain ⟨rfl, rfl⟩ := h2
  exact ⟨rfl, rfl, mem_pivots.mp (List.mem_of_mem_head? h1)⟩

/-- Every symbol node that is entered. -/
def BsrForest.symNodes (f' : BsrForest) : List NodeKey := f'.set.map fun e => .sym e.slot.nt e.l e.r

theorem collect_terminates (f' : BsrForest) (hset : ∀ e ∈ f'.set, 1 ≤ e.slot.dot) : ∀ n d : Nat,
    (∀ visited, unvis f'.symNodes visited ≤ n → ∀ sl l k r, 1 ≤ sl.dot → sl.dot ≤ d →
      ∃ ts, Gives (fun fuel => f'.collectElem fuel visited sl l k r) ts) := by
  intro n
  induction n using Nat.strong_induction_on with
  | _ n ihn =>
    have hchild : ∀ visited, unvis f'.symNodes visited ≤ n → ∀ s a b,
        ∃ ts, Gives (fun fuel => f'.collectChild (f'.collectElem fuel) visited s a b) ts := by
      intro visited hv s a b
      unfold BsrForest.collectChild
      cases s with
      | eps => exact ⟨[], .const _⟩
      | term e => exact ⟨[.node [] a b []], .const _⟩
      | nt m =>
        simp only
        by_cases hmem : NodeKey.sym m a b ∈ visited
        · simp only [if_pos hmem]; exact ⟨[], .const _⟩
        · simp only [if_neg hmem]
          cases hp : f'.pick m a b with
          | none => exact ⟨[], .const _⟩
          | some p =>
            obtain ⟨sl, k⟩ := p
            obtain ⟨h1, _, h2⟩ := pick_some hp
            have hin : NodeKey.sym m a b ∈ f'.symNodes := List.mem_map.mpr ⟨_, h2, by rw [h1]⟩
            have := unvis_lt hin hmem
            obtain ⟨ts, h⟩ := ihn (unvis f'.symNodes (.sym m a b :: visited)) (by omega) sl.dot _ (Nat.le_refl _) sl a k b
              (hset _ h2) (Nat.le_refl _)
            exact ⟨_, h.map _⟩
    intro d
    induction d with
    | zero => intro visited hv sl l k r h1 hd; omega
    | succ d ihd =>
      intro visited hv sl l k r h1 hd
      obtain ⟨b, hb⟩ := hchild visited hv ((f'.sg.prod sl).getD (sl.dot - 1) .eps) k r
      obtain ⟨a, ha⟩ : ∃ ts, Gives (fun fuel =>
          if sl.dot = 1 then some []
          else if sl.dot = 2 then f'.collectChild (f'.collectElem fuel) visited ((f'.sg.prod sl).getD 0 .eps) l k
          else
            match f'.pivots ⟨sl.nt, sl.alt, sl.dot - 1⟩ l k with
            | [] => some []
            | k' :: _ => f'.collectElem fuel visited ⟨sl.nt, sl.alt, sl.dot - 1⟩ l k' k) ts := by
        by_cases c1 : sl.dot = 1
        · simp only [if_pos c1]; exact ⟨_, .const _⟩
        · simp only [if_neg c1]
          by_cases c2 : sl.dot = 2
          · simp only [if_pos c2]; exact hchild visited hv _ _ _
          · simp only [if_neg c2]
            cases f'.pivots ⟨sl.nt, sl.alt, sl.dot - 1⟩ l k with
            | nil => exact ⟨_, .const _⟩
            | cons k' _ => exact ihd visited hv _ _ _ _ (by simp only; omega) (by simp only; omega)
      exact ⟨a ++ b, (ha.append hb).succ fun n => rfl⟩

/-! ## What is collected when there is no cycle -/

/-- No node lies strictly below itself. -/
def Acyclic (f : Forest) (root : NodeKey) : Prop :=
  ∀ x, AtOrBelow f.packsOf root x → ¬ StrictlyBelow f.packsOf x x

/-- The trees given for a node. -/
def BsrGood (f : Forest) (f' : BsrForest) (inp : Bytes) (visited : List NodeKey) (k : NodeKey) : Prop :=
  match k with
  | .term _ _ => True
  | .sym n a b => ∃ ts, Gives (fun fuel => f'.collectChild (f'.collectElem fuel) visited (.nt n) a b) ts ∧
      Chain ts a b ∧ (∀ t ∈ ts, TreeOK f.sg inp t) ∧ NTK f.sg inp n ts a b
  | .inter L a b => ∀ m ∈ f'.pivots L a b, ∃ ts, Gives (fun fuel => f'.collectElem fuel visited L a m b) ts ∧
      Chain ts a b ∧ (∀ t ∈ ts, TreeOK f.sg inp t) ∧ CShape f.sg inp (.inter L a b) ts

theorem kids_mem_last (sg : SG) (L : Slot) (l m r : Nat) : childNode (sg.lastSym L) m r ∈ kids sg L l m r := by
  unfold kids; simp

theorem kids_mem_w {sg : SG} {L : Slot} {l m r : Nat} {w : NodeKey} (h : wFor sg L.prev l m = some w) :
    w ∈ kids sg L l m r := by
  unfold kids; simp [h]

/-- One symbol. -/
theorem sym_good (hp : Pair f f' inp) {visited : List NodeKey} {s : Sym} {a b c rc : Nat}
    (hd : SymD f.sg inp c rc s a b) (hn : NodeOK f.sg inp (childNode s a b))
    (hg : BsrGood f f' inp visited (childNode s a b)) :
    ∃ ts, Gives (fun fuel => f'.collectChild (f'.collectElem fuel) visited s a b) ts ∧
      Chain ts a b ∧ (∀ t ∈ ts, TreeOK f.sg inp t) ∧ SymT f.sg inp c s ts a b := by
  cases s with
  | nt n =>
    obtain ⟨ts, h1, h2, h3, h4⟩ := hg
    exact ⟨ts, h1, h2, h3, .nt _ _ _ _ _ _ hd h4⟩
  | eps =>
    obtain rfl := matchSym_eps (symD_match hd nofun)
    exact ⟨[], .const _, rfl, by simp, .eps _ a⟩
  | term e =>
    refine ⟨[.node [] a b []], .const _, ⟨rfl, rfl⟩, ?_, .leaf _ e a b (symD_match hd nofun)⟩
    intro t ht
    rw [List.mem_singleton.mp ht]
    exact .leaf a b hn

/-- One element. -/
theorem elem_good (hp : Pair f f' inp) {visited : List NodeKey} {L : Slot} {l m r : Nat}
    (h : Reach f.sg inp (.adv L l m r)) (hu : ¬ Unary f.sg L)
    (hg : ∀ c ∈ kids f.sg L l m r, BsrGood f f' inp visited c) :
    ∃ ts, Gives (fun fuel => f'.collectElem fuel visited L l m r) ts ∧
      Chain ts l r ∧ (∀ t ∈ ts, TreeOK f.sg inp t) ∧ CShape f.sg inp (nodeFor f.sg L l r) ts := by
  obtain ⟨h1, h2, rc, s, u, _, _, h3, h4, h5⟩ := reach_sound h
  have hchild : ∀ c ∈ kids f.sg L l m r, NodeOK f.sg inp c := by
    intro c hc
    refine child_ok hp (k := nodeFor f.sg L l r) ⟨kids f.sg L l m r, ?_, hc⟩
    rw [mem_packsOf, packs_iff hp.loop hp.done]
    exact ⟨L, l, m, r, h, hu, rfl⟩
  have hlast : (f'.sg.prod L).getD (L.dot - 1) .eps = s := by
    rw [hp.sg, List.getD_eq_getElem?_getD, h3]; rfl
  have hl := kids_mem_last f.sg L l m r
  rw [lastSym_of h3] at hl
  obtain ⟨b, b1, b2, b3, b4⟩ := sym_good hp h5 (hchild _ hl) (hg _ hl)
  have hpre : ∃ a, Gives (fun fuel =>
      if L.dot = 1 then some []
      else if L.dot = 2 then f'.collectChild (f'.collectElem fuel) visited ((f'.sg.prod L).getD 0 .eps) l m
      else
        match f'.pivots ⟨L.nt, L.alt, L.dot - 1⟩ l m with
        | [] => some []
        | k' :: _ => f'.collectElem fuel visited ⟨L.nt, L.alt, L.dot - 1⟩ l k' m) a ∧
      Chain a l m ∧ (∀ t ∈ a, TreeOK f.sg inp t) ∧ SeqT f.sg inp L.nt ((f.sg.prod L).take (L.dot - 1)) a l m := by
    by_cases c1 : L.dot = 1
    · simp only [if_pos c1]
      rw [c1] at h4 ⊢
      simp only [Nat.sub_self, List.take_zero] at h4 ⊢
      cases h4
      exact ⟨[], .const _, rfl, by simp, .nil _ _⟩
    · simp only [if_neg c1]
      by_cases c2 : L.dot = 2
      · simp only [if_pos c2]
        obtain ⟨x, hx⟩ : ∃ x, (f.sg.prod L)[0]? = some x := ⟨_, List.getElem?_eq_getElem (by omega)⟩
        have htake : (f.sg.prod L).take (L.dot - 1) = [x] := by
          rw [c2]
          have := take_succ_of_get? hx
          simpa using this
        rw [htake] at h4 ⊢
        have hxe : (f'.sg.prod L).getD 0 .eps = x := by
          rw [hp.sg, List.getD_eq_getElem?_getD, hx]; rfl
        rw [hxe]
        have hw := kids_mem_w (r := r) (wFor_two (l := l) (m := m) c2 h2)
        have hlp : f.sg.lastSym L.prev = x := lastSym_of (by
          show (f.sg.prod L)[L.dot - 1 - 1]? = _
          rw [c2]; exact hx)
        rw [hlp] at hw
        obtain ⟨a, a1, a2, a3, a4⟩ := sym_good hp (seqD_one h4) (hchild _ hw) (hg _ hw)
        refine ⟨a, a1, a2, a3, ?_⟩
        have := SeqT.cons L.nt x [] a [] l m m a4 (.nil _ m)
        simpa using this
      · simp only [if_neg c2]
        have hw := kids_mem_w (r := r) (wFor_more (l := l) (m := m) (show 3 ≤ L.dot by omega) h2)
        obtain ⟨_, _, m', hr'⟩ := hchild _ hw
        have hmem : m' ∈ f'.pivots L.prev l m := by
          rw [mem_pivots, hp.set]
          exact ⟨hr', .inl (by show 2 ≤ L.dot - 1; omega)⟩
        have hgw := hg _ hw
        cases hpv : f'.pivots ⟨L.nt, L.alt, L.dot - 1⟩ l m with
        | nil =>
          rw [show L.prev = ⟨L.nt, L.alt, L.dot - 1⟩ from rfl, hpv] at hmem
          cases hmem
        | cons k' rest =>
          obtain ⟨a, a1, a2, a3, a4⟩ := hgw k' (by
            rw [show L.prev = ⟨L.nt, L.alt, L.dot - 1⟩ from rfl, hpv]; exact List.mem_cons_self ..)
          exact ⟨a, a1, a2, a3, a4⟩
  obtain ⟨a, a1, a2, a3, a4⟩ := hpre
  refine ⟨a ++ b, ?_, a2.append b2, ?_, adv_shape h a4 (lastSym_of h3 ▸ b4) hu⟩
  · rw [← hlast] at b1
    exact (a1.append b1).succ fun n => rfl
  · intro t ht
    rcases List.mem_append.mp ht with ht | ht
    · exact a3 t ht
    · exact b3 t ht

theorem pick_of_node (hp : Pair f f' inp) {n a b : Nat} (hk : NodeOK f.sg inp (.sym n a b)) :
    ∃ L m, f'.pick n a b = some (L, m) ∧ Reach f.sg inp (.adv L a m b) ∧ ¬ Unary f.sg L ∧
      nodeFor f.sg L a b = .sym n a b := by
  obtain ⟨L, m, h1, h2, h3⟩ := hk
  have hs := reach_sound h3
  cases hpk : f'.pick n a b with
  | none =>
    exfalso
    unfold BsrForest.pick at hpk
    rw [List.findSome?_eq_none_iff] at hpk
    have hlt := alt_lt hs.1 hs.2.1
    have := hpk L.alt (List.mem_range.mpr (by rw [hp.sg, ← h1]; exact hlt))
    rw [Option.map_eq_none_iff, List.head?_eq_none_iff] at this
    have he : f'.sg.endSlot n L.alt = L := by
      subst h1
      unfold SG.endSlot
      rw [hp.sg, show f.sg.prod ⟨L.nt, L.alt, 0⟩ = f.sg.prod L from rfl, ← h2]
    have hm : m ∈ f'.pivots (f'.sg.endSlot n L.alt) a b := by
      rw [he, mem_pivots, hp.set]; exact ⟨h3, .inr h2⟩
    rw [this] at hm
    cases hm
  | some p =>
    obtain ⟨sl, k⟩ := p
    obtain ⟨e1, e2, e3⟩ := pick_some hpk
    obtain ⟨e4, e5⟩ := (hp.set _ _ _ _).mp e3
    refine ⟨sl, k, rfl, e4, (kept_iff (reach_sound e4).1).mp e5, ?_⟩
    unfold nodeFor
    rw [if_pos (by rw [← hp.sg]; exact e2), e1]

/-- Every node below an acyclic root, entered with only nodes above it visited. -/
theorem node_good (hp : Pair f f' inp) {root : NodeKey} (hac : Acyclic f root)
    {m : List (NodeKey × Nat)} (hm : Cert f.packsOf true m) : ∀ k ∈ m.map Prod.fst, NodeOK f.sg inp k →
      AtOrBelow f.packsOf root k → ∀ visited, (∀ v ∈ visited, ¬ AtOrBelow f.packsOf k v) → BsrGood f f' inp visited k := by
  intro k hk
  refine cert_induct (leaf := true) hm (P := fun k => k ∈ m.map Prod.fst → NodeOK f.sg inp k →
      AtOrBelow f.packsOf root k → ∀ visited, (∀ v ∈ visited, ¬ AtOrBelow f.packsOf k v) →
      BsrGood f f' inp visited k) ?_ k hk hk
  intro k ih hkm hk hb visited hv
  -- entering the children of `k` after `k` itself has been visited, or not
  have hkids : ∀ visited', (∀ v ∈ visited', v = k ∨ v ∈ visited) → ∀ L m r l, Reach f.sg inp (.adv L l m r) →
      ¬ Unary f.sg L → nodeFor f.sg L l r = k → ∀ c ∈ kids f.sg L l m r, BsrGood f f' inp visited' c := by
    intro visited' hv' L m r l hr hu hnf c hc
    have hchild : Child f.packsOf k c := by
      refine ⟨kids f.sg L l m r, ?_, hc⟩
      rw [mem_packsOf, packs_iff hp.loop hp.done]
      exact ⟨L, l, m, r, hr, hu, by rw [hnf]⟩
    refine ih c hchild (cert_below hm k hkm c hchild) (child_ok hp hchild) (hb.tail hchild) visited' ?_
    intro v hvm hcv
    rcases hv' v hvm with rfl | hvm
    · exact hac v hb (Relation.TransGen.head'_iff.mpr ⟨c, hchild, hcv⟩)
    · exact hv v hvm (Relation.ReflTransGen.head hchild hcv)
  cases k with
  | term s e => trivial
  | inter L a b =>
    intro m' hm'
    have hset := (hp.set _ _ _ _).mp (mem_pivots.mp hm')
    have hu := (kept_iff (reach_sound hset.1).1).mp hset.2
    have hnf : nodeFor f.sg L a b = .inter L a b := by
      obtain ⟨c1, c2, _⟩ := hk
      unfold nodeFor
      rw [if_neg c2, if_neg c1]
    obtain ⟨ts, t1, t2, t3, t4⟩ := elem_good hp hset.1 hu
      (hkids visited (fun v h => .inr h) L m' b a hset.1 hu hnf)
    exact ⟨ts, t1, t2, t3, hnf ▸ t4⟩
  | sym n a b =>
    obtain ⟨L, m', h1, h2, h3, h4⟩ := pick_of_node hp hk
    obtain ⟨ts, t1, t2, t3, t4⟩ := elem_good hp h2 h3
      (hkids (.sym n a b :: visited) (fun v h => List.mem_cons.mp h) L m' b a h2 h3 h4)
    rw [h4] at t4
    have hnv : NodeKey.sym n a b ∉ visited := fun h => hv _ h .refl
    have hcc : ∀ fuel, f'.collectChild (f'.collectElem fuel) visited (.nt n) a b =
        (f'.collectElem fuel (.sym n a b :: visited) L a m' b).map fun ch =>
          if (f'.sg.nt n).isRule then [.node (f'.sg.nt n).ruleName a b ch] else ch := by
      intro fuel
      simp only [BsrForest.collectChild, if_neg hnv, h1]
    unfold BsrGood
    simp only [hcc]
    refine ⟨_, t1.map _, ?_⟩
    rw [hp.sg]
    split_ifs with hr
    · refine ⟨⟨rfl, rfl⟩, ?_, .rule n a b ts hr⟩
      intro t ht
      rw [List.mem_singleton.mp ht]
      exact .rule n a b ts hr hk t2 t3 t4
    · exact ⟨t2, t3, .sub n ts a b (by simpa using hr) t4⟩

/-- The tree of an acyclic forest. -/
theorem bsr_tree_ok (hp : Pair f f' inp) (hro : NodeOK f.sg inp f'.root) (hac : Acyclic f f'.root)
    {m : List (NodeKey × Nat)} (hm : Cert f.packsOf true m) (hroot : f'.root ∈ m.map Prod.fst)
    (hv : f'.valid = true) (hrule : (f.sg.nt f.sg.start).isRule = true) :
    ∃ ch, Gives (fun fuel => f'.treeWith fuel) (.node (f.sg.nt f.sg.start).ruleName 0 inp.length ch) ∧
      TreeOK f.sg inp (.node (f.sg.nt f.sg.start).ruleName 0 inp.length ch) := by
  have hr : f'.root = .sym f.sg.start 0 inp.length := by unfold BsrForest.root; rw [hp.sg, hp.input]
  rw [hr] at hro hac hroot
  obtain ⟨L, m', h1, h2, h3, h4⟩ := pick_of_node hp hro
  obtain ⟨ts, t1, t2, t3, t4⟩ := elem_good hp (visited := []) h2 h3 (by
    intro c hc
    have hchild : Child f.packsOf (.sym f.sg.start 0 inp.length) c := by
      refine ⟨kids f.sg L 0 m' inp.length, ?_, hc⟩
      rw [mem_packsOf, packs_iff hp.loop hp.done]
      exact ⟨L, 0, m', inp.length, h2, h3, by rw [h4]⟩
    exact node_good hp hac hm c (cert_below hm _ hroot c hchild) (child_ok hp hchild) (.single hchild) [] (by simp))
  rw [h4] at t4
  refine ⟨ts, ?_, .rule _ _ _ _ hrule hro t2 t3 t4⟩
  have : ∀ fuel, f'.treeWith fuel = (f'.collectElem fuel [] L 0 m' inp.length).map fun ch =>
      .node (f.sg.nt f.sg.start).ruleName 0 inp.length ch := by
    intro fuel
    unfold BsrForest.treeWith
    rw [if_pos hv, hp.sg, hp.input, h1]
    simp only [hrule, if_true]
  simp only [this]
  exact t1.map _

end
/-! ## More fuel changes nothing -/

theorem collectChild_mono {f : BsrForest} {rec rec' : List NodeKey → Slot → Nat → Nat → Nat → Option (List ParseTree)}
    (h : ∀ v sl l k r ts, rec v sl l k r = some ts → rec' v sl l k r = some ts) {v : List NodeKey} {s : Sym}
    {a b : Nat} {ts : List ParseTree} (h1 : f.collectChild rec v s a b = some ts) :
    f.collectChild rec' v s a b = some ts := by
  unfold BsrForest.collectChild at h1 ⊢
  cases s with
  | eps => exact h1
  | term e => exact h1
  | nt n =>
    simp only at h1 ⊢
    by_cases hv : NodeKey.sym n a b ∈ v
    · rw [if_pos hv] at h1 ⊢; exact h1
    · rw [if_neg hv] at h1 ⊢
      cases hp : f.pick n a b with
      | none => rw [hp] at h1; exact h1
      | some p =>
        rw [hp] at h1
        simp only [Option.map_eq_some_iff] at h1 ⊢
        obtain ⟨ch, h2, h3⟩ := h1
        exact ⟨ch, h _ _ _ _ _ _ h2, h3⟩

theorem collectElem_mono (f : BsrForest) : ∀ fuel v sl l k r ts, f.collectElem fuel v sl l k r = some ts →
    f.collectElem (fuel + 1) v sl l k r = some ts
  | 0, v, sl, l, k, r, ts, h => by simp [BsrForest.collectElem] at h
  | fuel + 1, v, sl, l, k, r, ts, h => by
    have ih := collectElem_mono f fuel
    rw [BsrForest.collectElem] at h ⊢
    simp only [Option.bind_eq_some_iff, Option.map_eq_some_iff] at h ⊢
    obtain ⟨a, h1, b, h2, h3⟩ := h
    refine ⟨a, ?_, b, collectChild_mono ih h2, h3⟩
    by_cases c1 : sl.dot = 1
    · rw [if_pos c1] at h1 ⊢; exact h1
    · rw [if_neg c1] at h1 ⊢
      by_cases c2 : sl.dot = 2
      · rw [if_pos c2] at h1 ⊢; exact collectChild_mono ih h1
      · rw [if_neg c2] at h1 ⊢
        cases hp : f.pivots ⟨sl.nt, sl.alt, sl.dot - 1⟩ l k with
        | nil => rw [hp] at h1; exact h1
        | cons k' ks => rw [hp] at h1; exact ih _ _ _ _ _ _ h1

theorem treeWith_mono {f : BsrForest} {F : Nat} {t : ParseTree} (h : f.treeWith F = some t) :
    ∀ fuel, F ≤ fuel → f.treeWith fuel = some t := by
  intro fuel hf
  induction fuel, hf using Nat.le_induction with
  | base => exact h
  | succ n _ ih =>
    unfold BsrForest.treeWith at ih ⊢
    by_cases hv : f.valid
    · rw [if_pos hv] at ih ⊢
      cases hp : f.pick f.sg.start 0 f.input.length with
      | none => rw [hp] at ih; exact ih
      | some p =>
        rw [hp] at ih
        simp only [Option.map_eq_some_iff] at ih ⊢
        obtain ⟨ch, h2, h3⟩ := ih
        exact ⟨ch, collectElem_mono f _ _ _ _ _ _ _ h2, h3⟩
    · rw [if_neg hv] at ih; cases ih

end Verif
