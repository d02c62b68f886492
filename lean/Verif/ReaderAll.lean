import Verif.ReaderScan
import Mathlib.Data.List.Chain
import Mathlib.Data.List.Nodup

/-!
# The trails of a graph are those enumerated
-/

namespace Verif

/-- The edges of a path, in order. -/
def edgesAlong (p : Pts) : List (Option Nat × Option Nat) := p.zip p.tail

/-- A way from an entry point to an end point over nodes that write something. -/
structure PtWalk (h : TgHeap) (f : TgFrag) (p : Pts) : Prop where
  start : ∃ x, p.head? = some x ∧ x ∈ f.ins
  follows : ∀ e ∈ edgesAlong p, e.2 ∈ h.nextPts e.1
  writes : ∀ x ∈ p, ptProduces h x = true
  stop : ∃ x, p.getLast? = some x ∧ x ∈ f.outs

/-- A walk that uses no edge twice. -/
structure Trail (h : TgHeap) (f : TgFrag) (p : Pts) : Prop extends PtWalk h f p where
  once : (edgesAlong p).Nodup

/-- The paths the reader follows; the newest node comes first. -/
inductive RevPath (R : Reader) : Pts → Prop
  | one (x) : x ∈ R.entries → RevPath R [x]
  | cons (y x rest) : RevPath R (x :: rest) → y ∈ R.heap.nextPts x → R.can y = true → (x, y) ∉ pathEdges (x :: rest) →
      RevPath R (y :: x :: rest)

theorem mem_steps {R : Reader} {x y : Option Nat} {rest : Pts} : y ∈ R.steps (x :: rest) ↔
    y ∈ R.heap.nextPts x ∧ R.can y = true ∧ (x, y) ∉ pathEdges (x :: rest) := by
  unfold Reader.steps
  simp only [List.mem_filter, Bool.and_eq_true, Bool.not_eq_true', decide_eq_false_iff_not]

theorem mem_leaves {R : Reader} (l : Nat) : ∀ p, p ∈ R.leaves (l + 1) [] ↔ p.length = l + 1 ∧ RevPath R p := by
  induction l with
  | zero =>
    intro p
    simp only [Reader.leaves, Reader.steps, List.mem_flatMap, List.mem_singleton]
    constructor
    · rintro ⟨x, h1, rfl⟩
      exact ⟨rfl, .one x h1⟩
    · rintro ⟨h1, h2⟩
      cases h2 with
      | one x h => exact ⟨x, h, rfl⟩
      | cons y x rest _ _ _ _ => simp only [List.length_cons] at h1; omega
  | succ l ih =>
    intro p
    rw [leaves_snoc, List.mem_flatMap]
    constructor
    · rintro ⟨q, h1, h2⟩
      obtain ⟨y, h3, rfl⟩ := List.mem_map.mp h2
      obtain ⟨h4, h5⟩ := (ih q).mp h1
      cases q with
      | nil => simp at h4
      | cons x rest =>
        obtain ⟨h6, h7, h8⟩ := mem_steps.mp h3
        exact ⟨by rw [List.length_cons, h4], .cons y x rest h5 h6 h7 h8⟩
    · rintro ⟨h1, h2⟩
      cases h2 with
      | one x h => simp only [List.length_cons, List.length_nil] at h1; omega
      | cons y x rest h3 h4 h5 h6 =>
        refine ⟨x :: rest, (ih _).mpr ⟨by simp only [List.length_cons] at h1 ⊢; omega, h3⟩, ?_⟩
        exact List.mem_map.mpr ⟨y, mem_steps.mpr ⟨h4, h5, h6⟩, rfl⟩

theorem edgesAlong_snoc (q : Pts) (x y : Option Nat) : edgesAlong (q ++ [x, y]) = edgesAlong (q ++ [x]) ++ [(x, y)] := by
  induction q with
  | nil => rfl
  | cons a q ih =>
    cases q with
    | nil => rfl
    | cons b q =>
      have h1 : ∀ t, edgesAlong (a :: b :: q ++ t) = (a, b) :: edgesAlong (b :: q ++ t) := fun t => rfl
      rw [h1, h1, ih]
      rfl

theorem pathEdges_eq (p : Pts) : pathEdges p = (edgesAlong p.reverse).reverse := by
  induction p with
  | nil => rfl
  | cons y p ih =>
    cases p with
    | nil => rfl
    | cons x rest =>
      rw [pathEdges, ih]
      simp only [List.reverse_cons, List.append_assoc, List.singleton_append]
      rw [edgesAlong_snoc]
      simp

theorem revPath_once {R : Reader} {p : Pts} (H : RevPath R p) : (pathEdges p).Nodup := by
  induction H with
  | one x h => exact List.nodup_nil
  | cons y x rest _ _ _ h4 ih => exact List.nodup_cons.mpr ⟨h4, ih⟩

theorem revPath_follows {R : Reader} {p : Pts} (H : RevPath R p) : ∀ e ∈ pathEdges p, e.2 ∈ R.heap.nextPts e.1 := by
  induction H with
  | one x h => simp [pathEdges]
  | cons y x rest _ h2 _ _ ih =>
    intro e he
    rcases List.mem_cons.mp he with rfl | he
    · exact h2
    · exact ih e he

theorem revPath_can {f : TgFrag} {h : TgHeap} {R : Reader} (HR : ReaderOK f h R) {p : Pts} (H : RevPath R p) :
    (∀ x ∈ p, PtReached h f x ∧ PtEnds h f x) ∧ ∃ x, p.getLast? = some x ∧ x ∈ f.ins := by
  obtain ⟨_, _, hent⟩ := HR.entries
  induction H with
  | one x h1 =>
    obtain ⟨h2, h3⟩ := (hent x).mp h1
    exact ⟨fun y hy => by rw [List.mem_singleton.mp hy]; exact ⟨.ins x h2, h3⟩, x, rfl, h2⟩
  | cons y x rest _ h2 h3 _ ih =>
    refine ⟨fun z hz => ?_, ?_⟩
    · rcases List.mem_cons.mp hz with rfl | hz
      · exact (HR.can z).mp h3
      · exact ih.1 z hz
    · obtain ⟨z, h4, h5⟩ := ih.2
      exact ⟨z, by rw [List.getLast?_cons_cons, h4], h5⟩

theorem trail_of_revPath {f : TgFrag} {h : TgHeap} {R : Reader} (HR : ReaderOK f h R) {p : Pts} (H : RevPath R p) (he : R.atEnd p = true) :
    Trail h f p.reverse := by
  obtain ⟨h1, x, h2, h3⟩ := revPath_can HR H
  have h4 := revPath_once H
  have h5 := revPath_follows H
  rw [pathEdges_eq] at h4 h5
  refine ⟨⟨⟨x, by rw [List.head?_reverse, h2], h3⟩, fun e he => ?_, fun y hy => ptEnds_produces (h1 y (List.mem_reverse.mp hy)).2, ?_⟩,
    List.nodup_reverse.mp h4⟩
  · rw [← HR.heap]
    exact h5 e (List.mem_reverse.mpr he)
  · cases p with
    | nil => cases he
    | cons y p =>
      refine ⟨y, by simp, ?_⟩
      rw [← HR.frag]
      simpa [Reader.atEnd] using he

theorem revPath_of {f : TgFrag} {h : TgHeap} {R : Reader} (HR : ReaderOK f h R) (p : Pts) : ∀ y,
    PtEnds h f y → (∀ x ∈ y :: p, ptProduces h x = true) → (∀ e ∈ pathEdges (y :: p), e.2 ∈ h.nextPts e.1) →
    (pathEdges (y :: p)).Nodup → (∃ x, (y :: p).getLast? = some x ∧ x ∈ f.ins) → RevPath R (y :: p) := by
  obtain ⟨_, _, hent⟩ := HR.entries
  induction p with
  | nil =>
    intro y h1 _ _ _ h5
    obtain ⟨x, h6, h7⟩ := h5
    simp only [List.getLast?_singleton, Option.some.injEq] at h6
    subst h6
    exact .one y ((hent y).mpr ⟨h7, h1⟩)
  | cons x rest ih =>
    intro y h1 h2 h3 h4 h5
    have hxy : y ∈ h.nextPts x := h3 (x, y) (List.mem_cons_self ..)
    have hx : PtEnds h f x := .step x y (h2 x (by simp)) hxy h1
    have hprev := ih x hx (fun z hz => h2 z (List.mem_cons_of_mem _ hz)) (fun e he => h3 e (List.mem_cons_of_mem _ he))
      (List.Nodup.of_cons h4) (by rwa [List.getLast?_cons_cons] at h5)
    have hr : PtReached h f y := .step x y ((revPath_can HR hprev).1 x (List.mem_cons_self ..)).1 hxy
    exact .cons y x rest hprev (by rw [HR.heap]; exact hxy) ((HR.can y).mpr ⟨hr, h1⟩) (List.nodup_cons.mp h4).1

theorem revPath_of_trail {f : TgFrag} {h : TgHeap} {R : Reader} (HR : ReaderOK f h R) {p : Pts} (H : Trail h f p) :
    RevPath R p.reverse ∧ R.atEnd p.reverse = true := by
  obtain ⟨x, h1, h2⟩ := H.stop
  have hl : p.reverse.head? = some x := by rw [List.head?_reverse, h1]
  cases hp : p.reverse with
  | nil => rw [hp] at hl; cases hl
  | cons y q =>
    rw [hp] at hl
    simp only [List.head?_cons, Option.some.injEq] at hl
    subst hl
    have hp' : p = (y :: q).reverse := by rw [← hp, List.reverse_reverse]
    have hw : ∀ z ∈ y :: q, ptProduces h z = true := fun z hz => H.writes z (by rw [hp']; exact List.mem_reverse.mpr hz)
    refine ⟨revPath_of HR q y (.stop y (hw y (List.mem_cons_self ..)) h2) hw (fun e he => ?_) ?_ ?_, ?_⟩
    · rw [pathEdges_eq, ← hp'] at he
      exact H.follows e (List.mem_reverse.mp he)
    · rw [pathEdges_eq, ← hp']
      exact List.nodup_reverse.mpr H.once
    · obtain ⟨z, h3, h4⟩ := H.start
      exact ⟨z, by rw [← List.head?_reverse, ← hp', h3], h4⟩
    · unfold Reader.atEnd
      rw [HR.frag]
      exact decide_eq_true h2

/-- All edges. -/
def allPtEdges (h : TgHeap) : List (Option Nat × Option Nat) := (List.range h.size).flatMap fun n => (h.nexts n).map fun m => (some n, some m)

theorem leaves_bound {f : TgFrag} {h : TgHeap} (hfin : GraphFin h f) {R : Reader} (HR : ReaderOK f h R) :
    ∀ m, (allPtEdges h).length + 2 ≤ m → R.leaves m [] = [] := by
  intro m hm
  obtain ⟨l, rfl⟩ : ∃ l, m = l + 1 := ⟨m - 1, by omega⟩
  rw [List.eq_nil_iff_forall_not_mem]
  intro p hp
  obtain ⟨h1, h2⟩ := (mem_leaves l p).mp hp
  have hlen : ∀ q : Pts, q.length ≤ (pathEdges q).length + 1 := by
    intro q
    induction q with
    | nil => simp
    | cons y q ih =>
      cases q with
      | nil => simp
      | cons x rest => simp only [pathEdges, List.length_cons] at ih ⊢; omega
  have hsub : pathEdges p ⊆ allPtEdges h := by
    intro e he
    have h3 := revPath_follows h2 e he
    rw [HR.heap] at h3
    obtain ⟨n, m, e1, e2, h4⟩ := mem_nextPts.mp h3
    have hmem : e.1 ∈ p := by
      rw [pathEdges_eq] at he
      have := (List.of_mem_zip (List.mem_reverse.mp he)).1
      exact List.mem_reverse.mp this
    have h5 := ((revPath_can HR h2).1 _ hmem).1
    rw [e1] at h5
    refine List.mem_flatMap.mpr ⟨n, List.mem_range.mpr (hfin n (ptReached_some.mp h5)), List.mem_map.mpr ⟨m, h4, ?_⟩⟩
    rw [← e1, ← e2]
  have := (List.subperm_of_subset (revPath_once h2) hsub).length_le
  have := hlen p
  omega

/-- A choice of a variation for every node. -/
def Variation (h : TgHeap) : Pts → List Nat → Prop
  | [], [] => True
  | n :: p, i :: v => i < (ptEmit h n 0).2 ∧ Variation h p v
  | _, _ => False

theorem below_totals {h : TgHeap} (p : Pts) : ∀ v, IdxBelow (ptTotals h p) v ↔ Variation h p v := by
  induction p with
  | nil => intro v; cases v with
    | nil => exact ⟨fun _ => trivial, fun _ => .nil⟩
    | cons i v => exact ⟨fun h => (by cases h), fun h => h.elim⟩
  | cons n p ih =>
    intro v
    cases v with
    | nil => exact ⟨fun h => (by cases h), fun h => h.elim⟩
    | cons i v =>
      constructor
      · intro H
        cases H with
        | cons _ _ _ _ h1 h2 => exact ⟨h1, (ih v).mp h2⟩
      · rintro ⟨h1, h2⟩
        exact .cons _ _ _ _ h1 ((ih v).mpr h2)

theorem mem_levels {R : Reader} {M : Nat} (hM : ∀ m, M ≤ m → R.leaves m [] = []) {p : Pts} : p ∈ R.levels M 1 ↔ RevPath R p := by
  unfold Reader.levels
  rw [List.mem_flatMap]
  constructor
  · rintro ⟨i, h1, h2⟩
    obtain ⟨h3, _⟩ := List.mem_range'_1.mp h1
    obtain ⟨l, rfl⟩ : ∃ l, i = l + 1 := ⟨i - 1, by omega⟩
    exact ((mem_leaves l p).mp h2).2
  · intro H
    obtain ⟨l, hl⟩ : ∃ l, p.length = l + 1 := by
      cases H with
      | one x => exact ⟨0, rfl⟩
      | cons y x rest => exact ⟨(x :: rest).length, rfl⟩
    have hp := (mem_leaves l p).mpr ⟨hl, H⟩
    refine ⟨l + 1, List.mem_range'_1.mpr ⟨by omega, ?_⟩, hp⟩
    by_contra hlt
    rw [hM (l + 1) (by omega)] at hp
    cases hp

/-- Everything a reader gives. -/
def Reader.items (R : Reader) : List (Pts × List Nat) :=
  trailItems R.heap ((R.levels ((allPtEdges R.heap).length + 2) 1).filter R.atEnd)

theorem mem_items {f : TgFrag} {h : TgHeap} (hfin : GraphFin h f) {R : Reader} (HR : ReaderOK f h R) {p : Pts} {v : List Nat} :
    (p, v) ∈ R.items ↔ Trail h f p ∧ Variation h p v := by
  have hM := leaves_bound hfin HR
  unfold Reader.items trailItems
  rw [HR.heap]
  simp only [List.mem_flatMap, List.mem_filter, List.mem_map, Prod.mk.injEq]
  constructor
  · rintro ⟨q, ⟨h1, h2⟩, v', h3, rfl, rfl⟩
    exact ⟨trail_of_revPath HR ((mem_levels hM).mp h1) h2, (below_totals _ _).mp (mem_combos.mp h3)⟩
  · rintro ⟨h1, h2⟩
    obtain ⟨h3, h4⟩ := revPath_of_trail HR h1
    exact ⟨p.reverse, ⟨(mem_levels hM).mpr h3, h4⟩, v, mem_combos.mpr ((below_totals _ _).mpr (by rwa [List.reverse_reverse])),
      List.reverse_reverse p, rfl⟩

theorem leaves_length {R : Reader} (r : Nat) : ∀ path, ∀ p ∈ R.leaves r path, p.length = r + path.length := by
  induction r with
  | zero => intro path p hp; rw [List.mem_singleton.mp hp]; omega
  | succ r ih =>
    intro path p hp
    obtain ⟨n, _, h2⟩ := List.mem_flatMap.mp hp
    rw [ih _ _ h2, List.length_cons]
    omega

/-- Shorter trails come first. -/
theorem items_sorted (R : Reader) : R.items.Pairwise fun a b => a.1.length ≤ b.1.length := by
  unfold Reader.items trailItems
  rw [List.pairwise_flatMap]
  constructor
  · intro p _
    rw [List.pairwise_map]
    exact List.pairwise_of_forall fun _ _ => le_refl _
  · have h1 : (R.levels ((allPtEdges R.heap).length + 2) 1).Pairwise fun a b => a.length ≤ b.length := by
      unfold Reader.levels
      rw [List.pairwise_flatMap]
      constructor
      · intro i _
        exact List.Pairwise.imp_of_mem (R := fun _ _ => True)
          (fun {a b} ha hb _ => by rw [leaves_length i [] a ha, leaves_length i [] b hb]) (List.pairwise_of_forall fun _ _ => trivial)
      · refine (List.pairwise_lt_range').imp fun {a b} hab x hx y hy => ?_
        rw [leaves_length a [] x hx, leaves_length b [] y hy]
        omega
    refine (h1.filter R.atEnd).imp fun {a b} hab x hx y hy => ?_
    obtain ⟨v, _, rfl⟩ := List.mem_map.mp hx
    obtain ⟨w, _, rfl⟩ := List.mem_map.mp hy
    simpa using hab

theorem combos_nodup (ts : List Nat) : (combos ts).Nodup := by
  induction ts with
  | nil => simp [combos]
  | cons t ts ih =>
    rw [combos, List.nodup_flatMap]
    refine ⟨fun i _ => ih.map fun a b h => (List.cons.inj h).2, ?_⟩
    refine List.Pairwise.imp (fun {a b} hab => ?_) (List.pairwise_lt_range (n := t))
    intro x hx hy
    obtain ⟨u, _, rfl⟩ := List.mem_map.mp hx
    obtain ⟨w, _, e⟩ := List.mem_map.mp hy
    have := (List.cons.inj e).1
    omega

theorem leaves_suffix {R : Reader} (r : Nat) : ∀ path, ∀ p ∈ R.leaves r path, path <:+ p := by
  induction r with
  | zero => intro path p hp; rw [List.mem_singleton.mp hp]
  | succ r ih =>
    intro path p hp
    obtain ⟨n, _, h2⟩ := List.mem_flatMap.mp hp
    exact (List.suffix_cons n path).trans (ih _ _ h2)

theorem leaves_nodup {R : Reader} (hs : ∀ path, (R.steps path).Nodup) (r : Nat) : ∀ path, (R.leaves r path).Nodup := by
  induction r with
  | zero => intro path; simp [Reader.leaves]
  | succ r ih =>
    intro path
    rw [Reader.leaves, List.nodup_flatMap]
    refine ⟨fun n _ => ih _, (hs path).imp fun {a b} hab => ?_⟩
    intro x hx hy
    have h1 := leaves_suffix r _ _ hx
    have h2 := leaves_suffix r _ _ hy
    have h3 := List.suffix_of_suffix_length_le h1 h2 (by simp)
    have := h3.eq_of_length (by simp)
    exact hab (List.cons.inj this).1

/-- No trail is given twice, unless the graph lists a point twice. -/
theorem items_nodup {f : TgFrag} {h : TgHeap} {R : Reader} (HR : ReaderOK f h R) (hi : f.ins.Nodup) (hn : ∀ n, (h.nexts n).Nodup) :
    R.items.Nodup := by
  have hs : ∀ path, (R.steps path).Nodup := by
    intro path
    cases path with
    | nil =>
      obtain ⟨p, h1, _⟩ := HR.entries
      show R.entries.Nodup
      rw [h1]
      exact hi.filter p
    | cons x rest =>
      unfold Reader.steps
      rw [HR.heap]
      refine List.Nodup.filter _ ?_
      cases x with
      | none => exact List.nodup_nil
      | some n => exact (hn n).map (Option.some_injective _)
  unfold Reader.items trailItems
  rw [List.nodup_flatMap]
  constructor
  · intro p _
    exact (combos_nodup _).map fun a b h => (Prod.mk.inj h).2
  · have h1 : (R.levels ((allPtEdges R.heap).length + 2) 1).Nodup := by
      unfold Reader.levels
      rw [List.nodup_flatMap]
      refine ⟨fun i _ => leaves_nodup hs i [], (List.pairwise_lt_range').imp fun {a b} hab => ?_⟩
      intro x hx hy
      have h2 := leaves_length a [] x hx
      have h3 := leaves_length b [] x hy
      omega
    refine (h1.filter R.atEnd).imp fun {a b} hab => ?_
    intro x hx hy
    obtain ⟨v, _, rfl⟩ := List.mem_map.mp hx
    obtain ⟨w, _, e⟩ := List.mem_map.mp hy
    exact hab (List.reverse_injective (Prod.mk.inj e).1.symm)

/-! ## The texts -/

/-- What a node that is not a rule name, group, option or prose writes. -/
def Writes (e : Elem) (w : Bytes) : Prop := producing e = true ∧ NodeSays e w

theorem trailText_word {h : TgHeap} {f : TgFrag} (p : Pts) : ∀ v n, (∀ e ∈ edgesAlong (some n :: p), e.2 ∈ h.nextPts e.1) →
    (∀ x ∈ some n :: p, ptProduces h x = true) → (∃ x, (some n :: p).getLast? = some x ∧ x ∈ f.outs) → Variation h (some n :: p) v →
    Spells Writes h f.outs n (trailText h (some n :: p) v) := by
  induction p with
  | nil =>
    intro v n _ hp hx hv
    cases v with
    | nil => exact hv.elim
    | cons i v =>
      obtain ⟨x, h1, h2⟩ := hx
      simp only [List.getLast?_singleton, Option.some.injEq] at h1
      subst h1
      cases v with
      | nil =>
        simp only [trailText, List.append_nil]
        exact .stop n _ h2 ⟨hp _ (List.mem_cons_self ..), i, hv.1, rfl⟩
      | cons j v => exact hv.2.elim
  | cons y p ih =>
    intro v n hf hp hx hv
    cases v with
    | nil => exact hv.elim
    | cons i v =>
      have h1 := hf (some n, y) (List.mem_cons_self ..)
      obtain ⟨n', m, e1, e2, h2⟩ := mem_nextPts.mp h1
      simp only [Option.some.injEq] at e1 e2
      subst e1 e2
      rw [trailText]
      exact .step n m _ _ ⟨hp _ (List.mem_cons_self ..), i, hv.1, rfl⟩ h2 (ih v m (fun e he => hf e (List.mem_cons_of_mem _ he))
        (fun x hx => hp x (List.mem_cons_of_mem _ hx)) (by rwa [List.getLast?_cons_cons] at hx) hv.2)

/-- The texts of walks are words of the graph. -/
theorem walk_word {h : TgHeap} {f : TgFrag} {p : Pts} (H : PtWalk h f p) {v : List Nat} (hv : Variation h p v) :
    GraphWord Writes h f (trailText h p v) := by
  obtain ⟨x, h1, h2⟩ := H.start
  cases p with
  | nil => cases h1
  | cons y p =>
    simp only [List.head?_cons, Option.some.injEq] at h1
    subst h1
    cases y with
    | some n => exact .inr ⟨n, h2, trailText_word p v n H.follows H.writes H.stop hv⟩
    | none =>
      cases p with
      | nil =>
        obtain ⟨x, h3, h4⟩ := H.stop
        simp only [List.getLast?_singleton, Option.some.injEq] at h3
        subst h3
        cases v with
        | nil => exact hv.elim
        | cons i v =>
          cases v with
          | nil => exact .inl ⟨h2, h4, rfl⟩
          | cons j v => exact hv.2.elim
      | cons z p =>
        have := H.follows (none, z) (List.mem_cons_self ..)
        obtain ⟨_, _, e, _⟩ := mem_nextPts.mp this
        cases e

end Verif
