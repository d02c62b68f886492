import Mathlib.Algebra.Order.BigOperators.Group.List
import Verif.ForestLemmas

/-! # The forests of the two engines compared -/

namespace Verif
open Spec

/-- Not a terminal. -/
def NodeKey.isNT : NodeKey → Bool
  | .term _ _ => false
  | _ => true

/-- What the BSR queries see of a packing. -/
def strip (pk : List NodeKey) : List NodeKey := pk.reverse.filter NodeKey.isNT

theorem mem_strip {pk : List NodeKey} {c : NodeKey} : c ∈ strip pk ↔ c ∈ pk ∧ c.isNT = true := by
  simp [strip]

theorem symKid_eq (s : Sym) (a b : Nat) : symKid s a b = [childNode s a b].filter NodeKey.isNT := by
  cases s <;> rfl

theorem wFor_one {sg : SG} {L : Slot} {l m : Nat} (h : L.dot = 1) : wFor sg L.prev l m = none := by
  have hprev : L.prev.dot = L.dot - 1 := rfl
  unfold wFor
  rw [if_pos (by omega)]

theorem wFor_two {sg : SG} {L : Slot} {l m : Nat} (h : L.dot = 2) (hd : L.dot ≤ (sg.prod L).length) :
    wFor sg L.prev l m = some (childNode (sg.lastSym L.prev) l m) := by
  have hprev : L.prev.dot = L.dot - 1 := rfl
  have hpp : sg.prod L.prev = sg.prod L := rfl
  unfold wFor
  rw [if_neg (by omega)]
  unfold nodeFor
  rw [hpp, if_neg (by omega), if_pos (by omega)]

theorem wFor_more {sg : SG} {L : Slot} {l m : Nat} (h : 3 ≤ L.dot) (hd : L.dot ≤ (sg.prod L).length) :
    wFor sg L.prev l m = some (.inter L.prev l m) := by
  have hprev : L.prev.dot = L.dot - 1 := rfl
  have hpp : sg.prod L.prev = sg.prod L := rfl
  unfold wFor
  rw [if_neg (by omega)]
  unfold nodeFor
  rw [hpp, if_neg (by omega), if_neg (by omega)]

theorem elemKids_eq {sg : SG} {L : Slot} {l m r : Nat} (h1 : 1 ≤ L.dot) (h2 : L.dot ≤ (sg.prod L).length) :
    elemKids sg L l m r = strip (kids sg L l m r) := by
  unfold elemKids strip kids
  rw [symKid_eq, List.reverse_append, List.filter_append]
  congr 1
  have c : L.dot = 1 ∨ L.dot = 2 ∨ 3 ≤ L.dot := by omega
  rcases c with c | c | c
  · rw [wFor_one c, if_pos c]; rfl
  · rw [wFor_two c h2, if_neg (by omega), if_pos c, symKid_eq]
    unfold SG.lastSym
    rw [show L.prev.dot = L.dot - 1 from rfl, c]
    rfl
  · rw [wFor_more c h2, if_neg (by omega), if_neg (by omega)]; rfl

/-- The elements of a node. -/
def BsrForest.elemsOf (f : BsrForest) : NodeKey → List (Slot × Nat)
  | .sym n l r => (List.range (f.sg.alts n).length).flatMap fun ai =>
      (f.pivots (f.sg.endSlot n ai) l r).map fun k => (f.sg.endSlot n ai, k)
  | .inter sl l r => (f.pivots sl l r).map fun k => (sl, k)
  | .term _ _ => []

theorem packsOf_elems (f : BsrForest) (k : NodeKey) :
    f.packsOf k = (f.elemsOf k).map fun p => elemKids f.sg p.1 k.start p.2 k.fin := by
  cases k with
  | sym n l r => simp [BsrForest.packsOf, BsrForest.elemsOf, List.map_flatMap, NodeKey.start, NodeKey.fin, Function.comp_def]
  | inter L l r => simp [BsrForest.packsOf, BsrForest.elemsOf, NodeKey.start, NodeKey.fin, Function.comp_def]
  | term s e => rfl

theorem pivots_nodup {f : BsrForest} (h : f.set.Nodup) (L : Slot) (l r : Nat) : (f.pivots L l r).Nodup := by
  unfold BsrForest.pivots
  refine (h.filter _).map_on ?_
  rintro ⟨a, b, c, d⟩ h1 ⟨a', b', c', d'⟩ h2 h3
  simp only [List.mem_filter, decide_eq_true_eq] at h1 h2 h3
  obtain ⟨_, rfl, rfl, rfl⟩ := h1
  obtain ⟨_, rfl, rfl, rfl⟩ := h2
  rw [h3]

theorem elemsOf_nodup {f : BsrForest} (h : f.set.Nodup) (k : NodeKey) : (f.elemsOf k).Nodup := by
  cases k with
  | sym n l r =>
    simp only [BsrForest.elemsOf]
    rw [List.nodup_flatMap]
    refine ⟨fun ai _ => (pivots_nodup h _ _ _).map fun x y h => (Prod.mk.inj h).2, ?_⟩
    refine List.nodup_range.imp fun {a b} hab => ?_
    intro x hx hy
    simp only [List.mem_map] at hx hy
    obtain ⟨_, _, rfl⟩ := hx
    obtain ⟨_, _, he⟩ := hy
    have : b = a := congrArg (fun p => p.1.alt) he
    exact hab this.symm
  | inter L l r => exact (pivots_nodup h _ _ _).map fun x y h => (Prod.mk.inj h).2
  | term s e => exact List.nodup_nil

/-- A finished SPPF run and a finished BSR run on the same slot grammar and input. -/
structure Pair (f : Forest) (f' : BsrForest) (inp : Bytes) : Prop where
  ok : SGOK f.sg
  loop : LoopInv f.sg inp f.st
  done : f.st.work = []
  sg : f'.sg = f.sg
  input : f'.input = inp
  nodup : f'.set.Nodup
  set : ∀ L l k r, (⟨L, l, k, r⟩ : BsrElem) ∈ f'.set ↔ Reach f.sg inp (.adv L l k r) ∧ Kept f.sg L

section
variable {f : Forest} {f' : BsrForest} {inp : Bytes}

theorem kept_iff {sg : SG} {L : Slot} (h : 1 ≤ L.dot) : Kept sg L ↔ ¬ Unary sg L := by
  unfold Kept Unary
  constructor
  · rintro (h | h) ⟨h1, h2⟩
    · omega
    · exact h2 h
  · intro h'
    by_contra hc
    push Not at hc
    exact h' ⟨by omega, hc.2⟩

theorem mem_elemsOf (hp : Pair f f' inp) {k : NodeKey} (hk : NodeOK f.sg inp k) (hn : k.isNT = true) {L : Slot}
    {m : Nat} : (L, m) ∈ f'.elemsOf k ↔ Reach f.sg inp (.adv L k.start m k.fin) ∧ ¬ Unary f.sg L ∧
      nodeFor f.sg L k.start k.fin = k := by
  cases k with
  | term s e => cases hn
  | sym n l r =>
    simp only [BsrForest.elemsOf, List.mem_flatMap, List.mem_range, List.mem_map, mem_pivots, hp.sg, hp.set,
      Prod.mk.injEq, NodeKey.start, NodeKey.fin]
    constructor
    · rintro ⟨ai, hai, k, ⟨h1, h2⟩, h3, rfl⟩
      subst h3
      refine ⟨h1, (kept_iff (reach_sound h1).1).mp h2, ?_⟩
      unfold nodeFor
      rw [if_pos (by rfl)]
      rfl
    · rintro ⟨h1, h2, h3⟩
      unfold nodeFor at h3
      split_ifs at h3 with ha hb
      · simp only [NodeKey.sym.injEq, and_true] at h3
        refine ⟨L.alt, ?_, m, ⟨?_, ?_⟩, ?_, rfl⟩
        · by_contra hge
          have : f.sg.prod L = [] := by
            unfold SG.prod
            rw [h3, List.getD_eq_getElem?_getD, List.getElem?_eq_none (by omega)]; rfl
          have h4 := (reach_sound h1).1
          have h5 := (reach_sound h1).2.1
          rw [this] at h5
          simp at h5
          omega
        all_goals
          have he : f.sg.endSlot n L.alt = L := by
            subst h3
            unfold SG.endSlot
            rw [show f.sg.prod ⟨L.nt, L.alt, 0⟩ = f.sg.prod L from rfl, ← ha]
          rw [he]
        · exact h1
        · exact .inr ha
      · exact absurd ⟨hb, ha⟩ h2
  | inter sl l r =>
    obtain ⟨hd1, hd2, _⟩ := hk
    simp only [BsrForest.elemsOf, List.mem_map, mem_pivots, hp.set, Prod.mk.injEq, NodeKey.start, NodeKey.fin]
    constructor
    · rintro ⟨k, ⟨h1, h2⟩, rfl, rfl⟩
      refine ⟨h1, (kept_iff (reach_sound h1).1).mp h2, ?_⟩
      unfold nodeFor
      rw [if_neg hd2, if_neg hd1]
    · rintro ⟨h1, h2, h3⟩
      unfold nodeFor at h3
      split_ifs at h3 with ha hb
      · exact absurd ⟨hb, ha⟩ h2
      · simp only [NodeKey.inter.injEq, and_true] at h3
        subst h3
        exact ⟨m, ⟨h1, (kept_iff (reach_sound h1).1).mpr h2⟩, rfl, rfl⟩

theorem mem_packsOf_elems (hp : Pair f f' inp) {k : NodeKey} (hk : NodeOK f.sg inp k) (hn : k.isNT = true)
    {pk : List NodeKey} : pk ∈ f.packsOf k ↔
      pk ∈ (f'.elemsOf k).map fun p => kids f.sg p.1 k.start p.2 k.fin := by
  rw [mem_packsOf, packs_iff hp.loop hp.done]
  simp only [List.mem_map, Prod.exists, mem_elemsOf hp hk hn, Prod.mk.injEq]
  constructor
  · rintro ⟨L, l, m, r, h1, h2, rfl, rfl⟩
    refine ⟨L, m, ?_⟩
    rw [nodeFor_start, nodeFor_fin]
    exact ⟨⟨h1, h2, rfl⟩, rfl⟩
  · rintro ⟨L, m, ⟨h1, h2, h3⟩, rfl⟩
    exact ⟨L, _, m, _, h1, h2, h3.symm, rfl⟩

theorem bsr_packs_eq (hp : Pair f f' inp) {k : NodeKey} (hk : NodeOK f.sg inp k) (hn : k.isNT = true) :
    f'.packsOf k = ((f'.elemsOf k).map fun p => kids f.sg p.1 k.start p.2 k.fin).map strip := by
  rw [packsOf_elems, List.map_map]
  apply List.map_congr_left
  rintro ⟨L, m⟩ he
  obtain ⟨h1, _, _⟩ := (mem_elemsOf hp hk hn).mp he
  simp only [hp.sg, Function.comp]
  exact elemKids_eq (reach_sound h1).1 (reach_sound h1).2.1

theorem subperm_map {α β : Type _} {a b : List α} (g : α → β) (h : a.Subperm b) : (a.map g).Subperm (b.map g) := by
  obtain ⟨l, h1, h2⟩ := h
  exact ⟨l.map g, h1.map g, h2.map g⟩

/-- The packings of the SPPF are among those of the BSR set. -/
theorem packs_subperm (hp : Pair f f' inp) {k : NodeKey} (hk : NodeOK f.sg inp k) (hn : k.isNT = true) :
    ((f.packsOf k).map strip).Subperm (f'.packsOf k) := by
  rw [bsr_packs_eq hp hk hn]
  apply subperm_map
  exact List.subperm_of_subset (packsOf_nodup hp.loop.inv.packsNodup k) fun pk h =>
    (mem_packsOf_elems hp hk hn).mp h

theorem mem_bsr_packs (hp : Pair f f' inp) {k : NodeKey} (hk : NodeOK f.sg inp k) (hn : k.isNT = true)
    {pk : List NodeKey} : pk ∈ f'.packsOf k ↔ ∃ q ∈ f.packsOf k, pk = strip q := by
  rw [bsr_packs_eq hp hk hn, List.mem_map]
  constructor
  · rintro ⟨q, h1, rfl⟩
    exact ⟨q, (mem_packsOf_elems hp hk hn).mpr h1, rfl⟩
  · rintro ⟨q, h1, rfl⟩
    exact ⟨q, (mem_packsOf_elems hp hk hn).mp h1, rfl⟩

theorem child_iff (hp : Pair f f' inp) {k c : NodeKey} (hk : NodeOK f.sg inp k) (hn : k.isNT = true) :
    Child f'.packsOf k c ↔ Child f.packsOf k c ∧ c.isNT = true := by
  unfold Child
  constructor
  · rintro ⟨pk, h1, h2⟩
    obtain ⟨q, h3, rfl⟩ := (mem_bsr_packs hp hk hn).mp h1
    rw [mem_strip] at h2
    exact ⟨⟨q, h3, h2.1⟩, h2.2⟩
  · rintro ⟨⟨q, h1, h2⟩, h3⟩
    exact ⟨strip q, (mem_bsr_packs hp hk hn).mpr ⟨q, h1, rfl⟩, mem_strip.mpr ⟨h2, h3⟩⟩

theorem child_ok (hp : Pair f f' inp) {k c : NodeKey} (h : Child f.packsOf k c) : NodeOK f.sg inp c := by
  obtain ⟨pk, h1, h2⟩ := h
  exact hp.loop.inv.nodes c ((hp.loop.inv.packs k pk (mem_packsOf.mp h1)).2.1 c h2)

theorem child_isNT (hp : Pair f f' inp) {k c : NodeKey} (h : Child f.packsOf k c) : k.isNT = true := by
  cases k with
  | term s e =>
    obtain ⟨pk, h1, _⟩ := h
    rw [packsOf_term hp.loop.inv] at h1
    cases h1
  | _ => rfl

theorem below_bsr (hp : Pair f f' inp) {a b : NodeKey} (ha : NodeOK f.sg inp a) (hn : a.isNT = true)
    (h : AtOrBelow f'.packsOf a b) : AtOrBelow f.packsOf a b ∧ NodeOK f.sg inp b ∧ b.isNT = true := by
  induction h with
  | refl => exact ⟨.refl, ha, hn⟩
  | tail _ hc ih =>
    obtain ⟨h1, h2⟩ := (child_iff hp ih.2.1 ih.2.2).mp hc
    exact ⟨ih.1.tail h1, child_ok hp h1, h2⟩

theorem below_sppf (hp : Pair f f' inp) {a b : NodeKey} (ha : NodeOK f.sg inp a) (hn : a.isNT = true)
    (h : AtOrBelow f.packsOf a b) : NodeOK f.sg inp b ∧ (b.isNT = true → AtOrBelow f'.packsOf a b) := by
  induction h with
  | refl => exact ⟨ha, fun _ => .refl⟩
  | tail _ hc ih =>
    refine ⟨child_ok hp hc, fun h => ?_⟩
    have hn' := child_isNT hp hc
    exact (ih.2 hn').tail ((child_iff hp ih.1 hn').mpr ⟨hc, h⟩)

/-- Cycles are the same in both. -/
theorem cycle_iff (hp : Pair f f' inp) {a : NodeKey} (ha : NodeOK f.sg inp a) (hn : a.isNT = true) :
    (∃ x, AtOrBelow f.packsOf a x ∧ StrictlyBelow f.packsOf x x) ↔
      ∃ x, AtOrBelow f'.packsOf a x ∧ StrictlyBelow f'.packsOf x x := by
  constructor
  · rintro ⟨x, h1, h2⟩
    obtain ⟨y, h3, h4⟩ := Relation.TransGen.head'_iff.mp h2
    have hx := child_isNT hp h3
    obtain ⟨h5, h6⟩ := below_sppf hp ha hn h1
    refine ⟨x, h6 hx, ?_⟩
    have hy : y.isNT = true := by
      rcases Relation.ReflTransGen.cases_head h4 with rfl | ⟨z, h7, _⟩
      · exact hx
      · exact child_isNT hp h7
    exact Relation.TransGen.head'_iff.mpr ⟨y, (child_iff hp h5 hx).mpr ⟨h3, hy⟩,
      (below_sppf hp (child_ok hp h3) hy h4).2 hx⟩
  · rintro ⟨x, h1, h2⟩
    obtain ⟨y, h3, h4⟩ := Relation.TransGen.head'_iff.mp h2
    obtain ⟨h5, h6, h7⟩ := below_bsr hp ha hn h1
    obtain ⟨h8, h9⟩ := (child_iff hp h6 h7).mp h3
    exact ⟨x, h5, Relation.TransGen.head'_iff.mpr ⟨y, h8, (below_bsr hp (child_ok hp h8) h9 h4).1⟩⟩

/-- Every node of the BSR forest has a tree. -/
theorem bsr_tree_of (hp : Pair f f' inp) {t : PTree NodeKey} (h : t.Of f.packsOf true) :
    NodeOK f.sg inp t.root → t.root.isNT = true → ∃ t' : PTree NodeKey, t'.Of f'.packsOf false ∧ t'.root = t.root := by
  induction h with
  | leaf k h1 _ =>
    intro hk hn
    exfalso
    cases k with
    | term s e => cases hn
    | _ =>
      obtain ⟨ch, h2⟩ := hp.loop.inv.packed _ ((nodes_iff hp.loop hp.done _).mpr hk) nofun
      rw [← mem_packsOf] at h2
      simp only [PTree.root] at h2
      rw [h1] at h2
      cases h2
  | node k i ch hi hall ih =>
    intro hk hn
    have hmem : ch.map PTree.root ∈ f.packsOf k := List.mem_of_getElem? hi
    have hb : strip (ch.map PTree.root) ∈ f'.packsOf k := (mem_bsr_packs hp hk hn).mpr ⟨_, hmem, rfl⟩
    obtain ⟨j, hj⟩ := List.getElem?_of_mem hb
    obtain ⟨ts, h1, h2⟩ := trees_list (P := fun t => PTree.Of f'.packsOf false t) (l := strip (ch.map PTree.root)) (by
      intro c hc
      obtain ⟨h1, h2⟩ := mem_strip.mp hc
      obtain ⟨t, ht, rfl⟩ := List.mem_map.mp h1
      exact ih t ht (child_ok hp ⟨_, hmem, h1⟩) h2)
    exact ⟨.node k j ts, .node k j ts (by rw [hj, h1]) h2, rfl⟩

theorem bsr_productive (hp : Pair f f' inp) {a : NodeKey} (ha : NodeOK f.sg inp a) (hn : a.isNT = true) :
    Productive f'.packsOf false a := by
  intro k hk
  obtain ⟨_, h1, h2⟩ := below_bsr hp ha hn hk
  obtain ⟨t, h3, rfl⟩ := productive hp.loop.inv ((nodes_iff hp.loop hp.done k).mpr h1) k .refl
  exact bsr_tree_of hp h3 h1 h2

/-- The nodes a search over the BSR set can meet. -/
def BsrForest.universe (f' : BsrForest) : List NodeKey :=
  f'.root :: f'.set.map fun e => nodeFor f'.sg e.slot e.l e.r

theorem mem_universe (hp : Pair f f' inp) {k : NodeKey} (hk : NodeOK f.sg inp k) (hn : k.isNT = true) :
    k ∈ f'.universe := by
  refine List.mem_cons_of_mem _ (List.mem_map.mpr ?_)
  cases k with
  | term s e => cases hn
  | sym n l r =>
    obtain ⟨L, m, rfl, hd, hr⟩ := hk
    refine ⟨⟨L, l, m, r⟩, (hp.set _ _ _ _).mpr ⟨hr, .inr hd⟩, ?_⟩
    unfold nodeFor
    rw [hp.sg, if_pos hd]
  | inter L l r =>
    obtain ⟨h1, h2, m, hr⟩ := hk
    have := (reach_sound hr).1
    refine ⟨⟨L, l, m, r⟩, (hp.set _ _ _ _).mpr ⟨hr, .inl (by omega)⟩, ?_⟩
    unfold nodeFor
    rw [hp.sg, if_neg h2, if_neg h1]

theorem universe_ok (hp : Pair f f' inp) (hr : NodeOK f.sg inp f'.root) {k : NodeKey} (h : k ∈ f'.universe) :
    NodeOK f.sg inp k ∧ k.isNT = true := by
  rcases List.mem_cons.mp h with rfl | h
  · exact ⟨hr, rfl⟩
  · obtain ⟨⟨L, l, m, r⟩, h1, rfl⟩ := List.mem_map.mp h
    obtain ⟨h2, h3⟩ := (hp.set _ _ _ _).mp h1
    have hu := (kept_iff (reach_sound h2).1).mp h3
    simp only [hp.sg]
    obtain ⟨h4, h5⟩ := nodeOK_adv h2 hu
    refine ⟨h4, ?_⟩
    cases hk : nodeFor f.sg L l r with
    | term s e => exact absurd hk (h5 s e)
    | _ => rfl

theorem closed_universe (hp : Pair f f' inp) (hr : NodeOK f.sg inp f'.root) : ClosedList f'.packsOf f'.universe := by
  intro n hn c hc
  obtain ⟨h1, h2⟩ := universe_ok hp hr hn
  obtain ⟨h3, h4⟩ := (child_iff hp h1 h2).mp hc
  exact mem_universe hp (child_ok hp h3) h4

theorem universe_fuel (f' : BsrForest) : f'.universe.length < f'.fuel := by
  simp [BsrForest.universe, BsrForest.fuel]

/-! ## Counts -/

theorem sum_le_of_sublist {a b : List Nat} (h : a.Sublist b) : a.sum ≤ b.sum := by
  induction h with
  | slnil => exact Nat.le_refl _
  | cons x _ ih => simp only [List.sum_cons]; omega
  | cons_cons x _ ih => simp only [List.sum_cons]; omega

theorem prod_le_of {l : List NodeKey} {u v : NodeKey → Nat} (h : ∀ c ∈ l, u c ≤ v c) :
    (l.map u).prod ≤ (l.map v).prod := by
  induction l with
  | nil => exact Nat.le_refl _
  | cons c l ih =>
    simp only [List.map_cons, List.prod_cons]
    exact Nat.mul_le_mul (h c (List.mem_cons_self ..)) (ih fun c hc => h c (List.mem_cons_of_mem _ hc))

theorem prod_strip {pk : List NodeKey} {v : NodeKey → Nat} (h : ∀ c ∈ pk, c.isNT = false → v c = 1) :
    ((strip pk).map v).prod = (pk.map v).prod := by
  have hf : ∀ l : List NodeKey, (∀ c ∈ l, c.isNT = false → v c = 1) →
      ((l.filter NodeKey.isNT).map v).prod = (l.map v).prod := by
    intro l
    induction l with
    | nil => intro _; rfl
    | cons c l ih =>
      intro h
      have ih := ih fun c hc => h c (List.mem_cons_of_mem _ hc)
      cases hc : c.isNT with
      | true => rw [List.filter_cons_of_pos hc]; simp only [List.map_cons, List.prod_cons, ih]
      | false =>
        rw [List.filter_cons_of_neg (by simp [hc])]
        simp only [List.map_cons, List.prod_cons, ih, h c (List.mem_cons_self ..) hc, Nat.one_mul]
  unfold strip
  rw [hf _ (by simpa using h)]
  exact ((List.reverse_perm pk).map v).prod_eq

theorem term_trees (hp : Pair f f' inp) {s e : Nat} : TreesAt f.packsOf true (.term s e) [.node (.term s e) 0 []] := by
  refine ⟨by simp, fun t => ?_⟩
  have h0 := packsOf_term hp.loop.inv s e
  rw [List.mem_singleton]
  constructor
  · rintro rfl; exact ⟨.leaf _ h0 rfl, rfl⟩
  · rintro ⟨ht, hr⟩
    cases ht with
    | leaf k _ _ => simp only [PTree.root] at hr; rw [hr]
    | node k i ch hi _ => simp only [PTree.root] at hr; rw [hr, h0] at hi; simp at hi

/-- Both counts, when there is no cycle, in terms of those of the children. -/
theorem compare_counts (hp : Pair f f' inp) {R : Nat → Nat → Prop}
    (hR : ∀ k, NodeOK f.sg inp k → k.isNT = true → ∀ u v : NodeKey → Nat,
      (∀ c, Child f.packsOf k c → c.isNT = true → R (u c) (v c)) → (∀ c, c.isNT = false → u c = 1) →
      R (totalAt f.packsOf true u k) (totalAt f'.packsOf false v k))
    {m m' : List (NodeKey × Nat)} (hm : Cert f.packsOf true m) (hm' : Cert f'.packsOf false m') {a : NodeKey}
    (ha : NodeOK f.sg inp a) (hn : a.isNT = true) {x y : Nat} (hx : m.lookup a = some x) (hy : m'.lookup a = some y) :
    R x y := by
  have key : ∀ k ∈ m.map Prod.fst, NodeOK f.sg inp k → k.isNT = true → k ∈ m'.map Prod.fst →
      ∀ ts ts', TreesAt f.packsOf true k ts → TreesAt f'.packsOf false k ts' → R ts.length ts'.length := by
    intro k hk
    have := cert_induct (leaf := true) hm (P := fun k => k ∈ m.map Prod.fst → NodeOK f.sg inp k → k.isNT = true →
      k ∈ m'.map Prod.fst →
      ∀ ts ts', TreesAt f.packsOf true k ts → TreesAt f'.packsOf false k ts' → R ts.length ts'.length) ?_ k hk hk
    · exact this
    intro k ih hkm hk hn hkm' ts ts' h1 h2
    classical
    have hex : ∀ c, Child f.packsOf k c → ∃ us, TreesAt f.packsOf true c us := by
      intro c hc
      obtain ⟨v, hv⟩ := lookup_of_mem_keys (cert_below hm k hkm c hc)
      obtain ⟨us, h, _⟩ := cert_trees hm c v hv
      exact ⟨us, h⟩
    have hex' : ∀ c, Child f'.packsOf k c → ∃ us, TreesAt f'.packsOf false c us := by
      intro c hc
      obtain ⟨v, hv⟩ := lookup_of_mem_keys (cert_below hm' k hkm' c hc)
      obtain ⟨us, h, _⟩ := cert_trees hm' c v hv
      exact ⟨us, h⟩
    let T : NodeKey → List (PTree NodeKey) := fun c =>
      if c.isNT = false then [.node c 0 []] else if h : Child f.packsOf k c then (hex c h).choose else []
    let T' : NodeKey → List (PTree NodeKey) := fun c => if h : Child f'.packsOf k c then (hex' c h).choose else []
    have hT : ∀ c, Child f.packsOf k c → TreesAt f.packsOf true c (T c) := by
      intro c h
      cases hc : c.isNT with
      | false =>
        cases c with
        | term s e => simp only [T, hc, if_true]; exact term_trees hp
        | _ => cases hc
      | true =>
        simp only [T, hc, h, dif_pos, Bool.true_eq_false, if_false]
        exact (hex c h).choose_spec
    have hT' : ∀ c, Child f'.packsOf k c → TreesAt f'.packsOf false c (T' c) := by
      intro c h
      simp only [T', h, dif_pos]
      exact (hex' c h).choose_spec
    obtain ⟨us, h3, h4⟩ := treesAt_step hT
    obtain ⟨us', h5, h6⟩ := treesAt_step hT'
    rw [h1.length_eq h3, h2.length_eq h5, h4, h6]
    refine hR k hk hn _ _ ?_ ?_
    · intro c hc hcn
      have hc' := (child_iff hp hk hn).mpr ⟨hc, hcn⟩
      exact ih c hc (cert_below hm k hkm c hc) (child_ok hp hc) hcn (cert_below hm' k hkm' c hc') _ _ (hT c hc)
        (hT' c hc')
    · intro c hc
      simp [T, hc]
  obtain ⟨ts, h1, rfl⟩ := cert_trees hm a x hx
  obtain ⟨ts', h2, rfl⟩ := cert_trees hm' a y hy
  exact key a (mem_keys_of_lookup hx) ha hn (mem_keys_of_lookup hy) ts ts' h1 h2

theorem packsOf_ne_nil (hp : Pair f f' inp) {k : NodeKey} (hk : NodeOK f.sg inp k) (hn : k.isNT = true) :
    f.packsOf k ≠ [] := by
  intro h
  cases k with
  | term s e => cases hn
  | _ =>
    obtain ⟨ch, h2⟩ := hp.loop.inv.packed _ ((nodes_iff hp.loop hp.done _).mpr hk) nofun
    rw [← mem_packsOf, h] at h2
    cases h2

theorem bsr_packsOf_ne_nil (hp : Pair f f' inp) {k : NodeKey} (hk : NodeOK f.sg inp k) (hn : k.isNT = true) :
    f'.packsOf k ≠ [] := by
  have h1 := packsOf_ne_nil hp hk hn
  obtain ⟨pk, h2⟩ := List.exists_mem_of_ne_nil _ h1
  exact List.ne_nil_of_mem ((mem_bsr_packs hp hk hn).mpr ⟨pk, h2, rfl⟩)

/-- The SPPF count is at most the BSR count. -/
theorem total_le (hp : Pair f f' inp) {k : NodeKey} (hk : NodeOK f.sg inp k) (hn : k.isNT = true)
    {u v : NodeKey → Nat} (h : ∀ c, Child f.packsOf k c → c.isNT = true → u c ≤ v c)
    (h1 : ∀ c, c.isNT = false → u c = 1) : totalAt f.packsOf true u k ≤ totalAt f'.packsOf false v k := by
  unfold totalAt
  rw [if_neg (packsOf_ne_nil hp hk hn), if_neg (bsr_packsOf_ne_nil hp hk hn)]
  obtain ⟨l, hl, hs⟩ := subperm_map (fun pk => (pk.map v).prod) (packs_subperm hp hk hn)
  refine Nat.le_trans ?_ (sum_le_of_sublist hs)
  rw [hl.sum_eq, List.map_map]
  have : ∀ pks : List (List NodeKey), (∀ pk ∈ pks, pk ∈ f.packsOf k) →
      (pks.map fun pk => (pk.map u).prod).sum ≤ (pks.map ((fun pk => (pk.map v).prod) ∘ strip)).sum := by
    intro pks
    induction pks with
    | nil => intro _; exact Nat.le_refl _
    | cons pk pks ih =>
      intro hm
      simp only [List.map_cons, List.sum_cons, Function.comp]
      refine Nat.add_le_add ?_ (ih fun pk h => hm pk (List.mem_cons_of_mem _ h))
      rw [← prod_strip fun c _ hc => h1 c hc]
      refine prod_le_of fun c hc => ?_
      obtain ⟨h3, h4⟩ := mem_strip.mp hc
      exact h c ⟨pk, hm pk (List.mem_cons_self ..), h3⟩ h4
  exact this _ fun _ h => h

theorem total_eq (hp : Pair f f' inp) {k : NodeKey} (hk : NodeOK f.sg inp k) (hn : k.isNT = true)
    (hperm : (f'.packsOf k).Perm ((f.packsOf k).map strip))
    {u v : NodeKey → Nat} (h : ∀ c, Child f.packsOf k c → c.isNT = true → u c = v c)
    (h1 : ∀ c, c.isNT = false → u c = 1) : totalAt f.packsOf true u k = totalAt f'.packsOf false v k := by
  unfold totalAt
  rw [if_neg (packsOf_ne_nil hp hk hn), if_neg (bsr_packsOf_ne_nil hp hk hn),
    (hperm.map fun pk => (pk.map v).prod).sum_eq, List.map_map]
  congr 1
  apply List.map_congr_left
  intro pk hpk
  simp only [Function.comp]
  rw [← prod_strip fun c _ hc => h1 c hc]
  congr 1
  apply List.map_congr_left
  intro c hc
  obtain ⟨h3, h4⟩ := mem_strip.mp hc
  exact h c ⟨pk, hpk, h3⟩ h4

/-! ## When no packing is lost -/

/-- The two symbols can cover the same text. -/
def Alike (s t : Sym) : Prop :=
  match s, t with
  | .nt a, .nt b => a = b
  | .nt _, _ => False
  | _, .nt _ => False
  | s, t => ∃ inp i j, matchSym inp s i = some j ∧ matchSym inp t i = some j

/-- Two alternatives of at most two symbols that can cover the same text in the same way. -/
def Twins (sg : SG) (n i j : Nat) : Prop :=
  i ≠ j ∧ i < (sg.alts n).length ∧ j < (sg.alts n).length ∧ (sg.prod ⟨n, i, 0⟩).length ≤ 2 ∧
    List.Forall₂ Alike (sg.prod ⟨n, i, 0⟩) (sg.prod ⟨n, j, 0⟩)

theorem alike_of {sg : SG} {c rc rc' : Nat} {s t : Sym} {i j : Nat} (hs : SymD sg inp c rc s i j)
    (ht : SymD sg inp c rc' t i j) (h : childNode s i j = childNode t i j) : Alike s t := by
  cases s with
  | nt a =>
    cases t with
    | nt b => simp only [childNode, NodeKey.sym.injEq, and_true] at h; exact h
    | _ => simp [childNode] at h
  | term a =>
    cases t with
    | nt b => simp [childNode] at h
    | _ => exact ⟨inp, i, j, symD_match hs nofun, symD_match ht nofun⟩
  | eps =>
    cases t with
    | nt b => simp [childNode] at h
    | _ => exact ⟨inp, i, j, symD_match hs nofun, symD_match ht nofun⟩

theorem kids_last {sg : SG} {L L' : Slot} {l m m' r : Nat} (h : kids sg L l m r = kids sg L' l m' r) :
    childNode (sg.lastSym L) m r = childNode (sg.lastSym L') m' r ∧
      (wFor sg L.prev l m).toList = (wFor sg L'.prev l m').toList := by
  unfold kids at h
  have := List.append_inj' h rfl
  exact ⟨by simpa using this.2, this.1⟩

theorem childNode_ne_inter {s : Sym} {i j a b : Nat} {L : Slot} : childNode s i j ≠ .inter L a b := by
  cases s <;> simp [childNode]

theorem twin_of_kids {sg : SG} {L L' : Slot} {l m m' r : Nat} (h : Reach sg inp (.adv L l m r))
    (h' : Reach sg inp (.adv L' l m' r)) (hnt : L.nt = L'.nt) (hd : L.dot = (sg.prod L).length)
    (hd' : L'.dot = (sg.prod L').length) (hk : kids sg L l m r = kids sg L' l m' r) (hne : L.alt ≠ L'.alt) :
    Twins sg L.nt L.alt L'.alt := by
  obtain ⟨a1, a2, rc, s, u, _, _, a3, a4, a5⟩ := reach_sound h
  obtain ⟨b1, b2, rc', s', u', _, _, b3, b4, b5⟩ := reach_sound h'
  obtain ⟨k1, k2⟩ := kids_last hk
  have hm : m = m' := by
    have := congrArg NodeKey.start k1
    rwa [childNode_start, childNode_start] at this
  subst hm
  rw [lastSym_of a3, lastSym_of b3] at k1
  have hp1 : sg.prod ⟨L.nt, L.alt, 0⟩ = sg.prod L := rfl
  have hp2 : sg.prod ⟨L.nt, L'.alt, 0⟩ = sg.prod L' := by rw [hnt]; rfl
  rw [← hnt] at b4 b5
  have hal := alike_of a5 b5 k1
  have hlen : (L.dot = 1 ∧ L'.dot = 1) ∨ (L.dot = 2 ∧ L'.dot = 2 ∧
      childNode (sg.lastSym L.prev) l m = childNode (sg.lastSym L'.prev) l m) := by
    have c : L.dot = 1 ∨ L.dot = 2 ∨ 3 ≤ L.dot := by omega
    have c' : L'.dot = 1 ∨ L'.dot = 2 ∨ 3 ≤ L'.dot := by omega
    rcases c with c | c | c <;> rcases c' with c' | c' | c'
    · exact .inl ⟨c, c'⟩
    · rw [wFor_one c, wFor_two c' b2] at k2; simp at k2
    · rw [wFor_one c, wFor_more c' b2] at k2; simp at k2
    · rw [wFor_two c a2, wFor_one c'] at k2; simp at k2
    · rw [wFor_two c a2, wFor_two c' b2] at k2
      exact .inr ⟨c, c', by simpa using k2⟩
    · rw [wFor_two c a2, wFor_more c' b2] at k2
      simp only [Option.toList_some, List.cons.injEq, and_true] at k2
      exact absurd k2 childNode_ne_inter
    · rw [wFor_more c a2, wFor_one c'] at k2; simp at k2
    · rw [wFor_more c a2, wFor_two c' b2] at k2
      simp only [Option.toList_some, List.cons.injEq, and_true] at k2
      exact absurd k2.symm childNode_ne_inter
    · rw [wFor_more c a2, wFor_more c' b2] at k2
      simp only [Option.toList_some, List.cons.injEq, and_true, NodeKey.inter.injEq, Slot.prev, Slot.mk.injEq] at k2
      exact absurd k2.2.1 hne
  refine ⟨hne, alt_lt a1 a2, hnt ▸ alt_lt b1 b2, ?_, ?_⟩
  · rw [hp1]; rcases hlen with h | h <;> omega
  · rw [hp1, hp2]
    rcases hlen with ⟨h1, h2⟩ | ⟨h1, h2, h3⟩
    · obtain ⟨x, hx⟩ := List.length_eq_one_iff.mp (hd ▸ h1)
      obtain ⟨y, hy⟩ := List.length_eq_one_iff.mp (hd' ▸ h2)
      rw [h1, hx] at a3
      rw [h2, hy] at b3
      simp only [Nat.sub_self, List.getElem?_cons_zero, Option.some.injEq] at a3 b3
      rw [hx, hy, a3, b3]
      exact .cons hal .nil
    · obtain ⟨x, x', hx⟩ := List.length_eq_two.mp (hd ▸ h1)
      obtain ⟨y, y', hy⟩ := List.length_eq_two.mp (hd' ▸ h2)
      rw [h1, hx] at a3 a4
      rw [h2, hy] at b3 b4
      simp only [Nat.add_one_sub_one, List.getElem?_cons_succ, List.getElem?_cons_zero, Option.some.injEq] at a3 b3
      simp only [Nat.add_one_sub_one, List.take_succ_cons, List.take_zero] at a4 b4
      have e1 : sg.lastSym L.prev = x := lastSym_of (by
        show (sg.prod L)[L.dot - 1 - 1]? = _
        rw [h1, hx]; rfl)
      have e2 : sg.lastSym L'.prev = y := lastSym_of (by
        show (sg.prod L')[L'.dot - 1 - 1]? = _
        rw [h2, hy]; rfl)
      rw [e1, e2] at h3
      rw [hx, hy, a3, b3]
      exact .cons (alike_of (seqD_one a4) (seqD_one b4) h3) (.cons hal .nil)

/-- Without twins the packings are the same. -/
theorem packs_perm (hp : Pair f f' inp) (ht : ∀ n i j, ¬ Twins f.sg n i j) {k : NodeKey} (hk : NodeOK f.sg inp k)
    (hn : k.isNT = true) : (f'.packsOf k).Perm ((f.packsOf k).map strip) := by
  rw [bsr_packs_eq hp hk hn]
  apply List.Perm.map
  refine (List.perm_ext_iff_of_nodup ?_ (packsOf_nodup hp.loop.inv.packsNodup k)).mpr fun pk =>
    (mem_packsOf_elems hp hk hn).symm
  refine (elemsOf_nodup hp.nodup k).map_on ?_
  rintro ⟨L, m⟩ h1 ⟨L', m'⟩ h2 heq
  obtain ⟨a1, a2, a3⟩ := (mem_elemsOf hp hk hn).mp h1
  obtain ⟨b1, b2, b3⟩ := (mem_elemsOf hp hk hn).mp h2
  simp only at heq
  have hm : m = m' := by
    have := congrArg NodeKey.start (kids_last heq).1
    rwa [childNode_start, childNode_start] at this
  have hL : L = L' := by
    cases k with
    | term s e => cases hn
    | inter M l r =>
      unfold nodeFor at a3 b3
      split_ifs at a3 with c1 c2
      · exact absurd ⟨c2, c1⟩ a2
      split_ifs at b3 with d1 d2
      · exact absurd ⟨d2, d1⟩ b2
      simp only [NodeKey.inter.injEq] at a3 b3
      rw [a3.1, b3.1]
    | sym n l r =>
      unfold nodeFor at a3 b3
      split_ifs at a3 with c1 c2
      · split_ifs at b3 with d1 d2
        · simp only [NodeKey.sym.injEq] at a3 b3
          have hnt : L.nt = L'.nt := by rw [a3.1, b3.1]
          by_cases hne : L.alt = L'.alt
          · have hpr : f.sg.prod L = f.sg.prod L' := by unfold SG.prod; rw [hnt, hne]
            have hdot : L.dot = L'.dot := by rw [c1, d1, hpr]
            obtain ⟨x, y, z⟩ := L
            obtain ⟨x', y', z'⟩ := L'
            obtain rfl : x = x' := hnt
            obtain rfl : y = y' := hne
            obtain rfl : z = z' := hdot
            rfl
          · exact absurd (twin_of_kids a1 b1 hnt c1 d1 heq hne) (ht _ _ _)
        · exact absurd ⟨d2, d1⟩ b2
      · exact absurd ⟨c2, c1⟩ a2
  rw [hL, hm]

end

end Verif
