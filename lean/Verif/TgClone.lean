import Mathlib.Logic.Relation
import Mathlib.Algebra.BigOperators.Group.Finset.Basic
import Verif.TgLang

/-!
# Cloning transition graphs
-/

namespace Verif

open Spec

/-! ## Maps -/

theorem tgLookup_isSome {m : List (Nat × Nat)} {k : Nat} : (m.lookup k).isSome = true ↔ k ∈ m.map Prod.fst := by
  induction m with
  | nil => simp [List.lookup]
  | cons p m ih =>
    obtain ⟨a, b⟩ := p
    rw [List.lookup, List.map_cons, List.mem_cons]
    by_cases e : k = a
    · subst e; simp
    · have : (k == a) = false := by simp [e]
      rw [this]
      simp only [ih]
      simp [e]

theorem tgLookup_iff {m : List (Nat × Nat)} (hn : (m.map Prod.fst).Nodup) {k v : Nat} :
    m.lookup k = some v ↔ (k, v) ∈ m := by
  induction m with
  | nil => simp [List.lookup]
  | cons p m ih =>
    obtain ⟨a, b⟩ := p
    rw [List.map_cons, List.nodup_cons] at hn
    rw [List.lookup, List.mem_cons]
    by_cases e : k = a
    · subst e
      simp only [beq_self_eq_true, Option.some.injEq, Prod.mk.injEq, true_and]
      constructor
      · intro h; exact .inl h.symm
      · rintro (h | h)
        · exact h.symm
        · exact absurd (List.mem_map.mpr ⟨_, h, rfl⟩) hn.1
    · have : (k == a) = false := by simp [e]
      rw [this]
      simp only [ih hn.2, Prod.mk.injEq, e, false_and, false_or]

/-! ## The traversal -/

/-- `n` can be reached from an entry point. -/
def ReachedFrom (h : TgHeap) (ins : Pts) (n : Nat) : Prop :=
  ∃ i, some i ∈ ins ∧ Relation.ReflTransGen (fun a b => b ∈ h.nexts a) i n

theorem reached_in {h : TgHeap} {R : Finset Nat} {ins : Pts} (hc : ClosedIn h R) (hi : ∀ n, some n ∈ ins → n ∈ R)
    {n : Nat} (hn : ReachedFrom h ins n) : n ∈ R := by
  obtain ⟨i, h1, h2⟩ := hn
  induction h2 with
  | refl => exact hi i h1
  | tail _ h3 ih => exact hc _ ih _ h3

/-- The origins. -/
def CloneSt.keys (st : CloneSt) : List Nat := st.map.map Prod.fst

/-- The clones are new nodes with the elements of their origins. -/
structure CInv (h : TgHeap) (P : Nat → Prop) (st : CloneSt) : Prop where
  size : h.size ≤ st.heap.size
  old : ∀ n < h.size, st.heap.elem n = h.elem n ∧ st.heap.nexts n = h.nexts n
  keys : st.keys.Nodup
  vals : (st.map.map Prod.snd).Nodup
  val : ∀ p ∈ st.map, P p.1 ∧ h.size ≤ p.2 ∧ p.2 < st.heap.size ∧ st.heap.elem p.2 = h.elem p.1

section
variable {h : TgHeap} {P : Nat → Prop}

theorem enter_keys (st : CloneSt) (n : Nat) : (st.enter n).keys = n :: st.keys.filter (fun k => k ≠ n) := by
  unfold CloneSt.keys CloneSt.enter
  simp only [List.map_cons, List.filter_map]
  rfl

theorem mem_enter_keys (st : CloneSt) (n k : Nat) : k ∈ (st.enter n).keys ↔ k = n ∨ k ∈ st.keys := by
  rw [enter_keys, List.mem_cons, List.mem_filter]
  by_cases e : k = n <;> simp [e]

theorem enter_inv {st : CloneSt} (H : CInv h P st) {n : Nat} (hn : P n) (hlt : n < h.size) : CInv h P (st.enter n) where
  size := Nat.le_succ_of_le H.size
  old k hk := by
    have : k ≠ st.heap.size := by have := H.size; omega
    simp only [CloneSt.enter, TgHeap.alloc, if_neg this]
    exact H.old k hk
  keys := by
    rw [enter_keys, List.nodup_cons]
    exact ⟨by simp, H.keys.filter _⟩
  vals := by
    simp only [CloneSt.enter, TgHeap.alloc, List.map_cons, List.nodup_cons]
    refine ⟨?_, H.vals.sublist (List.Sublist.map _ List.filter_sublist)⟩
    intro hm
    obtain ⟨p, hp, he⟩ := List.mem_map.mp hm
    have := (H.val p (List.mem_filter.mp hp).1).2.2.1
    omega
  val p hp := by
    simp only [CloneSt.enter, List.mem_cons] at hp
    rcases hp with rfl | hp
    · simp only [CloneSt.enter, TgHeap.alloc, if_true]
      exact ⟨hn, H.size, Nat.lt_succ_self _, (H.old n hlt).1⟩
    · obtain ⟨h1, h2, h3, h4⟩ := H.val p (List.mem_filter.mp hp).1
      have : p.2 ≠ st.heap.size := by omega
      simp only [CloneSt.enter, TgHeap.alloc, if_neg this]
      exact ⟨h1, h2, Nat.lt_succ_of_lt h3, h4⟩

/-- What a part of the traversal achieves: it only adds origins, with their next nodes. -/
structure CStep (h : TgHeap) (P : Nat → Prop) (st st' : CloneSt) : Prop where
  inv : CInv h P st'
  mono : ∀ k ∈ st.keys, k ∈ st'.keys
  closed : ∀ k ∈ st'.keys, k ∈ st.keys ∨ ∀ m ∈ h.nexts k, m ∈ st'.keys

variable {R : Finset Nat}

theorem nodup_card {l : List Nat} (hn : l.Nodup) (hs : ∀ x ∈ l, x ∈ R) : l.length ≤ R.card := by
  rw [← List.toFinset_card_of_nodup hn]
  exact Finset.card_le_card fun x hx => hs x (List.mem_toFinset.mp hx)

theorem cloneNexts_sat {rec : Nat → CloneSt → Run CloneSt} {N : Nat}
    (hrec : ∀ m st, CInv h P st → P m → m ∉ st.keys → N ≤ st.keys.length →
      (rec m st).Sat False False fun st' => CStep h P st st' ∧ m ∈ st'.keys) (ms : List Nat) (hms : ∀ m ∈ ms, P m) :
    ∀ st, CInv h P st → N ≤ st.keys.length → (cloneNexts rec ms st).Sat False False fun st' =>
      CStep h P st st' ∧ ∀ m ∈ ms, m ∈ st'.keys := by
  induction ms with
  | nil => intro st H _; exact ⟨⟨H, fun _ hk => hk, fun _ hk => .inl hk⟩, by simp⟩
  | cons m ms ih =>
    intro st H hN
    rw [cloneNexts]
    by_cases hm : m ∈ st.keys
    · rw [if_pos (tgLookup_isSome.mpr hm)]
      refine (ih (fun m hm => hms m (List.mem_cons_of_mem _ hm)) st H hN).mono fun st' ⟨h1, h2⟩ => ⟨h1, ?_⟩
      intro k hk
      rcases List.mem_cons.mp hk with rfl | hk
      · exact h1.mono _ hm
      · exact h2 k hk
    · rw [if_neg (fun e => hm (tgLookup_isSome.mp e))]
      refine (hrec m st H (hms m (List.mem_cons_self ..)) hm hN).bnd fun st1 ⟨h1, h2⟩ => ?_
      have hlen : st.keys.length ≤ st1.keys.length := by
        exact (List.subperm_of_subset H.keys h1.mono).length_le
      refine (ih (fun m hm => hms m (List.mem_cons_of_mem _ hm)) st1 h1.inv (by omega)).mono fun st' ⟨h3, h4⟩ => ⟨?_, ?_⟩
      · refine ⟨h3.inv, fun k hk => h3.mono k (h1.mono k hk), fun k hk => ?_⟩
        rcases h3.closed k hk with h5 | h5
        · rcases h1.closed k h5 with h6 | h6
          · exact .inl h6
          · exact .inr fun x hx => h3.mono x (h6 x hx)
        · exact .inr h5
      · intro k hk
        rcases List.mem_cons.mp hk with rfl | hk
        · exact h3.mono _ h2
        · exact h4 k hk

theorem cloneTG_sat (hP : ∀ n, P n → n ∈ R ∧ n < h.size ∧ ∀ m ∈ h.nexts n, P m) (k : Nat) : ∀ n st, CInv h P st → P n →
    n ∉ st.keys → R.card < st.keys.length + k →
    (cloneTG k n st).Sat False False fun st' => CStep h P st st' ∧ n ∈ st'.keys := by
  induction k with
  | zero =>
    intro n st H _ _ hk
    have := nodup_card (R := R) H.keys (fun x hx => by
      obtain ⟨p, hp, rfl⟩ := List.mem_map.mp hx
      exact (hP _ (H.val p hp).1).1)
    omega
  | succ k ih =>
    intro n st H hn hnew hk
    rw [cloneTG, (H.old n (hP n hn).2.1).2]
    have H1 := enter_inv H hn (hP n hn).2.1
    have hlen : (st.enter n).keys.length = st.keys.length + 1 := by
      rw [enter_keys, List.length_cons, List.filter_eq_self.mpr]
      intro x hx
      have : x ≠ n := fun e => hnew (e ▸ hx)
      simpa using this
    refine (cloneNexts_sat (N := st.keys.length + 1) (fun m st' H' hm hm' hN => ih m st' H' hm hm' (by omega)) _
      (hP n hn).2.2 _ H1 (by omega)).mono fun st' ⟨h1, h2⟩ => ?_
    have hmem := h1.mono n ((mem_enter_keys st n n).mpr (.inl rfl))
    refine ⟨⟨h1.inv, fun x hx => h1.mono x ((mem_enter_keys st n x).mpr (.inr hx)), fun x hx => ?_⟩, hmem⟩
    rcases h1.closed x hx with h3 | h3
    · rcases (mem_enter_keys st n x).mp h3 with rfl | h3
      · exact .inr h2
      · exact .inl h3
    · exact .inr h3

theorem cloneNexts_known {rec : Nat → CloneSt → Run CloneSt} (ms : List Nat) (st : CloneSt) (hms : ∀ m ∈ ms, m ∈ st.keys) :
    cloneNexts rec ms st = .ok st := by
  induction ms with
  | nil => rfl
  | cons m ms ih =>
    rw [cloneNexts, if_pos (tgLookup_isSome.mpr (hms m (List.mem_cons_self ..)))]
    exact ih fun m hm => hms m (List.mem_cons_of_mem _ hm)

theorem cloneRoots_sat (hP : ∀ n, P n → n ∈ R ∧ n < h.size ∧ ∀ m ∈ h.nexts n, P m) {k : Nat} (hk : R.card < k) (is : Pts)
    (his : ∀ i, some i ∈ is → P i) : ∀ st, CInv h P st → (∀ x ∈ st.keys, ∀ m ∈ h.nexts x, m ∈ st.keys) →
    (cloneRoots k is st).Sat False False fun st' => CInv h P st' ∧ (∀ x ∈ st'.keys, ∀ m ∈ h.nexts x, m ∈ st'.keys) ∧
      (∀ x ∈ st.keys, x ∈ st'.keys) ∧ ∀ i, some i ∈ is → i ∈ st'.keys := by
  induction is with
  | nil => intro st H hc; exact ⟨H, hc, fun _ hx => hx, by simp⟩
  | cons i is ih =>
    intro st H hc
    have ih' := ih fun i hi => his i (List.mem_cons_of_mem _ hi)
    cases i with
    | none =>
      refine (ih' st H hc).mono fun st' ⟨h1, h2, h3, h4⟩ => ⟨h1, h2, h3, fun i hi => ?_⟩
      simp only [List.mem_cons, reduceCtorEq, false_or] at hi
      exact h4 i hi
    | some i =>
      rw [cloneRoots]
      have hi := his i (List.mem_cons_self ..)
      have key : (cloneTG k i st).Sat False False fun st' => CInv h P st' ∧
          (∀ x ∈ st'.keys, ∀ m ∈ h.nexts x, m ∈ st'.keys) ∧ (∀ x ∈ st.keys, x ∈ st'.keys) ∧ i ∈ st'.keys := by
        by_cases hm : i ∈ st.keys
        · cases k with
          | zero => omega
          | succ k =>
            have hkeys : ∀ x, x ∈ (st.enter i).keys ↔ x ∈ st.keys := by
              intro x
              rw [mem_enter_keys]
              exact ⟨fun h => h.elim (fun e => e ▸ hm) id, .inr⟩
            rw [cloneTG, (H.old i (hP i hi).2.1).2, cloneNexts_known _ _ fun m hm' => (hkeys m).mpr (hc i hm m hm')]
            exact ⟨enter_inv H hi (hP i hi).2.1, fun x hx m hm' => (hkeys m).mpr (hc x ((hkeys x).mp hx) m hm'),
              fun x hx => (hkeys x).mpr hx, (hkeys i).mpr hm⟩
        · refine (cloneTG_sat hP k i st H hi hm (by omega)).mono fun st' ⟨h1, h2⟩ => ⟨h1.inv, fun x hx => ?_, h1.mono, h2⟩
          rcases h1.closed x hx with h3 | h3
          · exact fun m hm => h1.mono m (hc x h3 m hm)
          · exact h3
      refine key.bnd fun st1 ⟨h1, h2, h3, h4⟩ => ?_
      refine (ih' st1 h1 h2).mono fun st' ⟨g1, g2, g3, g4⟩ => ⟨g1, g2, fun x hx => g3 x (h3 x hx), fun j hj => ?_⟩
      rcases List.mem_cons.mp hj with e | hj
      · rw [Option.some.injEq] at e
        exact e ▸ g3 i h4
      · exact g4 j hj
end

/-! ## The links -/

theorem cloneList_some {m : List (Nat × Nat)} (hn : (m.map Prod.fst).Nodup) (ns : List Nat)
    (hs : ∀ n ∈ ns, n ∈ m.map Prod.fst) : ∃ l, cloneList m ns = some l ∧ ∀ c, c ∈ l ↔ ∃ n ∈ ns, (n, c) ∈ m := by
  induction ns with
  | nil => exact ⟨[], rfl, by simp⟩
  | cons n ns ih =>
    obtain ⟨l, h1, h2⟩ := ih fun n hn => hs n (List.mem_cons_of_mem _ hn)
    obtain ⟨c, hc⟩ := Option.isSome_iff_exists.mp (tgLookup_isSome.mpr (hs n (List.mem_cons_self ..)))
    refine ⟨c :: l, by rw [cloneList, hc, h1], fun d => ?_⟩
    rw [List.mem_cons, h2]
    constructor
    · rintro (rfl | ⟨k, hk, h3⟩)
      · exact ⟨n, List.mem_cons_self .., (tgLookup_iff hn).mp hc⟩
      · exact ⟨k, List.mem_cons_of_mem _ hk, h3⟩
    · rintro ⟨k, hk, h3⟩
      rcases List.mem_cons.mp hk with rfl | hk
      · left
        have := (tgLookup_iff hn).mpr h3
        rw [hc] at this
        exact (Option.some.inj this).symm
      · exact .inr ⟨k, hk, h3⟩

theorem relink_sat {m : List (Nat × Nat)} (hn : (m.map Prod.fst).Nodup) {N : Nat} (ps : List (Nat × Nat))
    (hv : (ps.map Prod.snd).Nodup) (hb : ∀ p ∈ ps, p.1 < N ∧ N ≤ p.2) : ∀ h : TgHeap,
    (∀ p ∈ ps, ∀ x ∈ h.nexts p.1, x ∈ m.map Prod.fst) →
    (relink m ps h).Sat False False fun h' => h'.size = h.size ∧ (∀ n, h'.elem n = h.elem n) ∧
      (∀ n, n ∉ ps.map Prod.snd → h'.nexts n = h.nexts n) ∧
      ∀ p ∈ ps, ∀ c, c ∈ h'.nexts p.2 ↔ ∃ x ∈ h.nexts p.1, (x, c) ∈ m := by
  induction ps with
  | nil => intro h _; exact ⟨rfl, fun _ => rfl, fun _ _ => rfl, by simp⟩
  | cons p ps ih =>
    obtain ⟨o, c⟩ := p
    intro h hk
    rw [List.map_cons, List.nodup_cons] at hv
    obtain ⟨l, h1, h2⟩ := cloneList_some hn (h.nexts o) (hk (o, c) (List.mem_cons_self ..))
    rw [relink, h1]
    simp only
    have hold : ∀ n < N, (h.setNexts c l).nexts n = h.nexts n := by
      intro n hlt
      have := (hb (o, c) (List.mem_cons_self ..)).2
      simp only at this
      simp only [TgHeap.setNexts]
      rw [if_neg (by omega)]
    have hb' : ∀ p ∈ ps, p.1 < N ∧ N ≤ p.2 := fun p hp => hb p (List.mem_cons_of_mem _ hp)
    refine (ih hv.2 hb' (h.setNexts c l) ?_).mono ?_
    · intro p hp x hx
      rw [hold _ (hb' p hp).1] at hx
      exact hk p (List.mem_cons_of_mem _ hp) x hx
    · rintro h' ⟨g1, g2, g3, g4⟩
      refine ⟨g1, g2, ?_, ?_⟩
      · intro n hm
        rw [List.map_cons, List.mem_cons, not_or] at hm
        rw [g3 n hm.2]
        simp only [TgHeap.setNexts]
        rw [if_neg hm.1]
      · intro p hp d
        rcases List.mem_cons.mp hp with rfl | hp
        · rw [g3 c hv.1]
          simp only [TgHeap.setNexts, if_true]
          exact h2 d
        · rw [g4 p hp d, hold _ (hb' p hp).1]

/-! ## Clones -/

/-- `h'` has the nodes of `h` and perhaps more. -/
def Extends (h h' : TgHeap) : Prop := h.size ≤ h'.size ∧ Agree (· < h.size) h h'

theorem Extends.refl (h : TgHeap) : Extends h h := ⟨le_refl _, fun _ _ => ⟨rfl, fun _ => Iff.rfl⟩⟩

theorem Extends.trans {h h' h'' : TgHeap} (a : Extends h h') (b : Extends h' h'') : Extends h h'' :=
  ⟨a.1.trans b.1, fun n hn => by
    obtain ⟨h1, h2⟩ := a.2 n hn
    obtain ⟨h3, h4⟩ := b.2 n (Nat.lt_of_lt_of_le hn a.1)
    exact ⟨h3.trans h1, fun m => (h4 m).trans (h2 m)⟩⟩

/-- Plugging changes only the nodes plugged. -/
theorem Extends.plug {h h' h'' : TgHeap} {O I : Pts} (a : Extends h h') (b : Plugged h' h'' O I)
    (ho : ∀ n, some n ∈ O → h.size ≤ n) : Extends h h'' :=
  ⟨by rw [b.size]; exact a.1, fun n hn => by
    obtain ⟨h1, h2⟩ := a.2 n hn
    refine ⟨by rw [b.elem]; exact h1, fun m => ?_⟩
    rw [b.nexts, h2]
    constructor
    · rintro (h | ⟨h, _⟩)
      · exact h
      · have := ho n h
        omega
    · exact .inl⟩

theorem Extends.agree {h h' : TgHeap} (a : Extends h h') {R : Finset Nat} (hb : ∀ n ∈ R, n < h.size) :
    Agree (· ∈ R) h h' := fun n hn => a.2 n (hb n hn)

theorem FragOK.extend {D : Elem → Bytes → Prop} {h h' : TgHeap} {R : Finset Nat} {f : TgFrag} {L : Bytes → Prop}
    (H : FragOK D h R f L) (a : Extends h h') : FragOK D h' R f L := H.frame (a.agree H.bound) a.1

/-- `S` counts the nodes that can be reached. -/
def Counts (h : TgHeap) (ins : Pts) (c : Nat) : Prop := ∃ S : Finset Nat, (∀ n, n ∈ S ↔ ReachedFrom h ins n) ∧ S.card = c

theorem Counts.unique {h : TgHeap} {ins : Pts} {c c' : Nat} (a : Counts h ins c) (b : Counts h ins c') : c = c' := by
  obtain ⟨S, h1, rfl⟩ := a
  obtain ⟨S', h2, rfl⟩ := b
  congr 1
  ext n
  rw [h1, h2]

variable {D : Elem → Bytes → Prop}

theorem cloneGraph_sat {h : TgHeap} {R : Finset Nat} {f : TgFrag} {L : Bytes → Prop} (H : FragOK D h R f L) :
    (cloneGraph f h).Sat False False fun (f', h') => Extends h h' ∧ (none ∈ f'.ins ↔ none ∈ f.ins) ∧
      ∃ R', FragOK D h' R' f' L ∧ (∀ n ∈ R', h.size ≤ n) ∧ Counts h f.ins R'.card := by
  unfold cloneGraph
  have hP : ∀ n, ReachedFrom h f.ins n → n ∈ R ∧ n < h.size ∧ ∀ m ∈ h.nexts n, ReachedFrom h f.ins m := by
    intro n hn
    have h1 := reached_in H.closed H.ins hn
    refine ⟨h1, H.bound n h1, fun m hm => ?_⟩
    obtain ⟨i, h2, h3⟩ := hn
    exact ⟨i, h2, h3.tail hm⟩
  have hcard : R.card < h.size + 1 := by
    have : R ⊆ Finset.range h.size := fun n hn => Finset.mem_range.mpr (H.bound n hn)
    have := Finset.card_le_card this
    rw [Finset.card_range] at this
    omega
  refine (cloneRoots_sat (P := ReachedFrom h f.ins) hP hcard f.ins (fun i hi => ⟨i, hi, .refl⟩) ⟨[], h⟩
    ⟨le_refl _, fun _ _ => ⟨rfl, rfl⟩, by simp [CloneSt.keys], by simp, by simp⟩ (by simp [CloneSt.keys])).bnd ?_
  rintro st ⟨hI, hcl, -, hroots⟩
  have hlt : ∀ p ∈ st.map, p.1 < h.size := fun p hp => (hP _ (hI.val p hp).1).2.1
  have hkey : ∀ p ∈ st.map, p.1 ∈ st.keys := fun p hp => List.mem_map.mpr ⟨p, hp, rfl⟩
  refine (relink_sat (N := h.size) hI.keys st.map hI.vals (fun p hp => ⟨hlt p hp, (hI.val p hp).2.1⟩) st.heap ?_).bnd ?_
  · intro p hp x hx
    rw [(hI.old _ (hlt p hp)).2] at hx
    exact hcl _ (hkey p hp) x hx
  · rintro h' ⟨g1, g2, g3, g4⟩
    have hnexts : ∀ p ∈ st.map, ∀ c, c ∈ h'.nexts p.2 ↔ ∃ x ∈ h.nexts p.1, (x, c) ∈ st.map := by
      intro p hp c
      rw [g4 p hp c, (hI.old _ (hlt p hp)).2]
    have helem : ∀ p ∈ st.map, h'.elem p.2 = h.elem p.1 := fun p hp => by rw [g2]; exact (hI.val p hp).2.2.2
    have hreach : ∀ n, n ∈ st.keys ↔ ReachedFrom h f.ins n := by
      intro n
      constructor
      · intro hn
        obtain ⟨p, hp, rfl⟩ := List.mem_map.mp hn
        exact (hI.val p hp).1
      · rintro ⟨i, h1, h2⟩
        induction h2 with
        | refl => exact hroots i h1
        | tail _ h3 ih => exact hcl _ ih _ h3
    have hvals : ∀ p ∈ st.map, ∀ q ∈ st.map, p.2 = q.2 → p = q := fun p hp q hq e =>
      List.inj_on_of_nodup_map hI.vals hp hq e
    have hpt : ∀ x, some x ∈ f.outs.map (clonePt st.map) → ∃ o, (o, x) ∈ st.map ∧ some o ∈ f.outs := by
      intro x hx
      obtain ⟨y, hy, e⟩ := List.mem_map.mp hx
      cases y with
      | none => cases e
      | some o => exact ⟨o, (tgLookup_iff hI.keys).mp e, hy⟩
    have houts : ∀ p ∈ st.map, some p.2 ∈ f.outs.map (clonePt st.map) ↔ some p.1 ∈ f.outs := by
      intro p hp
      constructor
      · intro hx
        obtain ⟨o, h1, h2⟩ := hpt _ hx
        have := hvals p hp (o, p.2) h1 rfl
        rw [this]
        exact h2
      · intro hx
        exact List.mem_map.mpr ⟨_, hx, (tgLookup_iff hI.keys).mpr hp⟩
    have hspell : ∀ p ∈ st.map, ∀ w, Spells D h' (f.outs.map (clonePt st.map)) p.2 w ↔ Spells D h f.outs p.1 w := by
      intro p hp w
      constructor
      · intro hs
        generalize hc : p.2 = c at hs
        induction hs generalizing p with
        | stop c w h1 h2 =>
          subst hc
          exact .stop _ _ ((houts p hp).mp h1) (helem p hp ▸ h2)
        | step c m u v h1 h2 _ ih =>
          subst hc
          obtain ⟨x, hx, hxm⟩ := (hnexts p hp m).mp h2
          exact .step _ x _ _ (helem p hp ▸ h1) hx (ih (x, m) hxm rfl)
      · intro hs
        generalize ho : p.1 = o at hs
        induction hs generalizing p with
        | stop o w h1 h2 =>
          subst ho
          exact .stop _ _ ((houts p hp).mpr h1) (by rw [helem p hp]; exact h2)
        | step o m u v h1 h2 _ ih =>
          subst ho
          obtain ⟨q, hq, e⟩ := List.mem_map.mp (hcl _ (hkey p hp) m h2)
          refine .step _ q.2 _ _ (by rw [helem p hp]; exact h1) ((hnexts p hp q.2).mpr ⟨q.1, e ▸ h2, hq⟩) (ih q hq e)
    have hins : ∀ i, some i ∈ f.ins → ∃ c, st.map.lookup i = some c ∧ (i, c) ∈ st.map := by
      intro i hi
      obtain ⟨c, hc⟩ := Option.isSome_iff_exists.mp (tgLookup_isSome.mpr (hroots i hi))
      exact ⟨c, hc, (tgLookup_iff hI.keys).mp hc⟩
    have hnone : none ∈ f.ins.map (clonePt st.map) ↔ none ∈ f.ins := by
      constructor
      · intro hx
        obtain ⟨y, hy, e⟩ := List.mem_map.mp hx
        cases y with
        | none => exact hy
        | some i =>
          obtain ⟨c, hc, _⟩ := hins i hy
          rw [clonePt, hc] at e
          cases e
      · intro hx
        exact List.mem_map.mpr ⟨none, hx, rfl⟩
    refine ⟨⟨by rw [g1]; exact hI.size, fun n hn => ⟨by rw [g2]; exact (hI.old n hn).1, fun m => ?_⟩⟩, hnone,
      (st.map.map Prod.snd).toFinset, ⟨?_, ?_, ?_, ?_, ?_, ?_, ?_⟩, ?_, st.keys.toFinset, ?_, ?_⟩
    · rw [g3 n, (hI.old n hn).2]
      intro hm
      obtain ⟨p, hp, rfl⟩ := List.mem_map.mp hm
      have := (hI.val p hp).2.1
      omega
    · intro c hc
      obtain ⟨y, hy, e⟩ := List.mem_map.mp hc
      cases y with
      | none => cases e
      | some o => exact List.mem_toFinset.mpr (List.mem_map.mpr ⟨_, (tgLookup_iff hI.keys).mp e, rfl⟩)
    · intro c hc
      obtain ⟨o, h1, _⟩ := hpt c hc
      exact List.mem_toFinset.mpr (List.mem_map.mpr ⟨_, h1, rfl⟩)
    · intro n hn m hm
      obtain ⟨p, hp, rfl⟩ := List.mem_map.mp (List.mem_toFinset.mp hn)
      obtain ⟨x, _, hxm⟩ := (hnexts p hp m).mp hm
      exact List.mem_toFinset.mpr (List.mem_map.mpr ⟨_, hxm, rfl⟩)
    · intro n hn
      obtain ⟨p, hp, rfl⟩ := List.mem_map.mp (List.mem_toFinset.mp hn)
      rw [g1]
      exact (hI.val p hp).2.2.1
    · intro n hn
      obtain ⟨p, hp, rfl⟩ := List.mem_map.mp (List.mem_toFinset.mp hn)
      rw [helem p hp]
      exact H.leaf _ (hP _ (hI.val p hp).1).1
    · intro hx
      exact List.mem_map.mpr ⟨none, H.empty (hnone.mp hx), rfl⟩
    · intro w
      rw [H.lang, hnone]
      refine or_congr Iff.rfl ?_
      constructor
      · rintro ⟨i, h1, h2⟩
        obtain ⟨c, hc, hm⟩ := hins i h1
        exact ⟨c, List.mem_map.mpr ⟨_, h1, hc⟩, (hspell _ hm w).mpr h2⟩
      · rintro ⟨c, h1, h2⟩
        obtain ⟨y, hy, e⟩ := List.mem_map.mp h1
        cases y with
        | none => cases e
        | some i =>
          have hm := (tgLookup_iff hI.keys).mp e
          exact ⟨i, hy, (hspell _ hm w).mp h2⟩
    · intro n hn
      obtain ⟨p, hp, rfl⟩ := List.mem_map.mp (List.mem_toFinset.mp hn)
      exact (hI.val p hp).2.1
    · intro n
      rw [List.mem_toFinset, hreach]
    · rw [List.toFinset_card_of_nodup hI.keys, List.toFinset_card_of_nodup hI.vals, CloneSt.keys, List.length_map, List.length_map]

/-! ## Counting -/

theorem mem_pushNexts {seen : List Nat} {x : Nat} (ms : List Nat) : ∀ stack,
    x ∈ pushNexts seen ms stack ↔ (x ∈ ms ∧ x ∉ seen) ∨ x ∈ stack := by
  induction ms with
  | nil => intro stack; simp [pushNexts]
  | cons m ms ih =>
    intro stack
    rw [pushNexts, ih]
    by_cases hm : m ∈ seen
    · rw [if_pos hm, List.mem_cons]
      constructor
      · rintro (h | h)
        · exact .inl ⟨.inr h.1, h.2⟩
        · exact .inr h
      · rintro (⟨rfl | h, h'⟩ | h)
        · exact absurd hm h'
        · exact .inl ⟨h, h'⟩
        · exact .inr h
    · rw [if_neg hm, List.mem_cons, List.mem_cons]
      constructor
      · rintro (h | rfl | h)
        · exact .inl ⟨.inr h.1, h.2⟩
        · exact .inl ⟨.inl rfl, hm⟩
        · exact .inr h
      · rintro (⟨rfl | h, h'⟩ | h)
        · exact .inr (.inl rfl)
        · exact .inl ⟨h, h'⟩
        · exact .inr (.inr h)

theorem pushNexts_length {seen : List Nat} (ms : List Nat) : ∀ stack,
    (pushNexts seen ms stack).length ≤ ms.length + stack.length := by
  induction ms with
  | nil => intro stack; simp [pushNexts]
  | cons m ms ih =>
    intro stack
    rw [pushNexts]
    refine (ih _).trans ?_
    split_ifs <;> simp only [List.length_cons] <;> omega

/-- The edges from nodes not yet seen. -/
def edgesLeft (h : TgHeap) (seen : List Nat) : Nat :=
  ∑ n ∈ (Finset.range h.size).filter (· ∉ seen), (h.nexts n).length

theorem edgesLeft_cons (h : TgHeap) (seen : List Nat) (n : Nat) (hn : n < h.size) (hs : n ∉ seen) :
    edgesLeft h (n :: seen) + (h.nexts n).length = edgesLeft h seen := by
  unfold edgesLeft
  rw [show (Finset.range h.size).filter (· ∉ n :: seen) = ((Finset.range h.size).filter (· ∉ seen)).erase n by
    ext x
    simp only [Finset.mem_filter, List.mem_cons, not_or, Finset.mem_erase]
    tauto]
  exact Finset.sum_erase_add _ _ (by simp [hn, hs])

theorem countLoop_sat {h : TgHeap} {ins : Pts} (hb : ∀ n, ReachedFrom h ins n → n < h.size) (k : Nat) : ∀ stack seen,
    seen.Nodup → (∀ x ∈ seen, ReachedFrom h ins x) → (∀ x ∈ stack, ReachedFrom h ins x) →
    (∀ i, some i ∈ ins → i ∈ seen ∨ i ∈ stack) → (∀ x ∈ seen, ∀ m ∈ h.nexts x, m ∈ seen ∨ m ∈ stack) →
    stack.length + edgesLeft h seen < k →
    (countLoop h k stack seen).Sat False False (Counts h ins) := by
  induction k with
  | zero => intro stack seen _ _ _ _ _ hk; omega
  | succ k ih =>
    intro stack seen hn h1 h2 h3 h4 hk
    cases stack with
    | nil =>
      rw [countLoop]
      refine ⟨seen.toFinset, fun n => ?_, List.toFinset_card_of_nodup hn⟩
      rw [List.mem_toFinset]
      refine ⟨h1 n, ?_⟩
      rintro ⟨i, h5, h6⟩
      induction h6 with
      | refl => exact (h3 i h5).resolve_right (by simp)
      | tail _ h7 ih' => exact (h4 _ ih' _ h7).resolve_right (by simp)
    | cons n stack =>
      rw [countLoop]
      by_cases hs : n ∈ seen
      · rw [if_pos hs]
        refine ih stack seen hn h1 (fun x hx => h2 x (List.mem_cons_of_mem _ hx)) ?_ ?_ (by simp only [List.length_cons] at hk; omega)
        · intro i hi
          rcases h3 i hi with h5 | h5
          · exact .inl h5
          · rcases List.mem_cons.mp h5 with rfl | h5
            · exact .inl hs
            · exact .inr h5
        · intro x hx m hm
          rcases h4 x hx m hm with h5 | h5
          · exact .inl h5
          · rcases List.mem_cons.mp h5 with rfl | h5
            · exact .inl hs
            · exact .inr h5
      · rw [if_neg hs]
        have hn' : ReachedFrom h ins n := h2 n (List.mem_cons_self ..)
        have hnext : ∀ m ∈ h.nexts n, ReachedFrom h ins m := fun m hm => by
          obtain ⟨i, h5, h6⟩ := hn'
          exact ⟨i, h5, h6.tail hm⟩
        refine ih _ _ (List.nodup_cons.mpr ⟨hs, hn⟩) ?_ ?_ ?_ ?_ ?_
        · intro x hx
          rcases List.mem_cons.mp hx with rfl | hx
          · exact hn'
          · exact h1 x hx
        · intro x hx
          rcases (mem_pushNexts _ _).mp hx with h5 | h5
          · exact hnext x h5.1
          · exact h2 x (List.mem_cons_of_mem _ h5)
        · intro i hi
          rw [mem_pushNexts, List.mem_cons]
          rcases h3 i hi with h5 | h5
          · exact .inl (.inr h5)
          · rcases List.mem_cons.mp h5 with rfl | h5
            · exact .inl (.inl rfl)
            · exact .inr (.inr h5)
        · intro x hx m hm
          rw [mem_pushNexts]
          by_cases hms : m ∈ n :: seen
          · exact .inl hms
          · right
            rcases List.mem_cons.mp hx with rfl | hx
            · exact .inl ⟨hm, hms⟩
            · rcases h4 x hx m hm with h5 | h5
              · exact absurd (List.mem_cons_of_mem _ h5) hms
              · rcases List.mem_cons.mp h5 with rfl | h5
                · exact absurd (List.mem_cons_self ..) hms
                · exact .inr h5
        · have := edgesLeft_cons h seen n (hb n hn') hs
          have h5 := pushNexts_length (seen := n :: seen) (h.nexts n) stack
          simp only [List.length_cons] at hk
          omega

theorem edges_eq (h : TgHeap) : h.edges = edgesLeft h [] := by
  unfold TgHeap.edges edgesLeft
  simp only [List.not_mem_nil, not_false_eq_true, Finset.filter_true]
  induction h.size with
  | zero => simp
  | succ n ih =>
    rw [List.range_succ, List.map_append, List.sum_append, Finset.sum_range_succ, ih]
    simp

theorem countReachable_sat {h : TgHeap} {ins : Pts} (hb : ∀ n, ReachedFrom h ins n → n < h.size) :
    (countReachable h ins).Sat False False (Counts h ins) := by
  refine countLoop_sat hb _ _ _ List.nodup_nil (by simp) ?_ ?_ (by simp) ?_
  · intro x hx
    rw [List.mem_reverse, mem_filterMap_id] at hx
    exact ⟨x, hx, .refl⟩
  · intro i hi
    right
    rw [List.mem_reverse, mem_filterMap_id]
    exact hi
  · rw [← edges_eq, List.length_reverse]
    have := List.length_filterMap_le id ins
    omega

end Verif
