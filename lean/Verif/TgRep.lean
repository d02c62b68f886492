import Verif.TgClone

/-!
# Chains and repetitions of transition graphs
-/

namespace Verif

open Spec

variable {D : Elem → Bytes → Prop}

/-- Between `a` and `b` words of `L`. -/
def LBetween (L : Bytes → Prop) (a b : Nat) (w : Bytes) : Prop := ∃ k, a ≤ k ∧ k ≤ b ∧ LTimes L k w

/-- At least `a` words of `L`. -/
def LAtLeast (L : Bytes → Prop) (a : Nat) (w : Bytes) : Prop := ∃ k, a ≤ k ∧ LTimes L k w

/-- What `chainTransitionGraph` returns: the whole chain, the chain left after any clone, and the chain whose last clone
is made a loop. -/
structure ChainOK (D : Elem → Bytes → Prop) (h : TgHeap) (f : TgFrag) (L : Bytes → Prop) (n : Nat)
    (tgs : List TgFrag) (cur : TgFrag) (h' : TgHeap) (Q : Finset Nat) : Prop where
  ext : Extends h h'
  none : none ∈ cur.ins ↔ none ∈ f.ins
  new : ∀ x ∈ Q, h.size ≤ x
  whole : FragOK D h' Q cur (LTimes L n)
  part : FragOK D h' Q ⟨cur.ins, allOuts [] tgs⟩ (LBetween L 1 n)
  last : ∃ l, tgs.getLast? = some l ∧ ∀ h'', Plugged h' h'' l.outs l.ins → FragOK D h'' Q cur (LAtLeast L n)
  card : ∃ c, Counts h f.ins c ∧ Q.card = n * c

theorem counts_extends {h h' : TgHeap} {R : Finset Nat} {f : TgFrag} {L : Bytes → Prop} (H : FragOK D h R f L)
    (a : Extends h h') {c : Nat} (hc : Counts h' f.ins c) : Counts h f.ins c := by
  obtain ⟨S, h1, h2⟩ := hc
  refine ⟨S, fun n => (h1 n).trans ?_, h2⟩
  have fwd : ∀ i, some i ∈ f.ins → ∀ n, Relation.ReflTransGen (fun a b => b ∈ h.nexts a) i n →
      n ∈ R ∧ Relation.ReflTransGen (fun a b => b ∈ h'.nexts a) i n := by
    intro i hi n hr
    induction hr with
    | refl => exact ⟨H.ins i hi, .refl⟩
    | tail _ h3 ih =>
      refine ⟨H.closed _ ih.1 _ h3, ih.2.tail ?_⟩
      exact ((a.2 _ (H.bound _ ih.1)).2 _).mpr h3
  have bwd : ∀ i, some i ∈ f.ins → ∀ n, Relation.ReflTransGen (fun a b => b ∈ h'.nexts a) i n →
      n ∈ R ∧ Relation.ReflTransGen (fun a b => b ∈ h.nexts a) i n := by
    intro i hi n hr
    induction hr with
    | refl => exact ⟨H.ins i hi, .refl⟩
    | tail _ h3 ih =>
      have h3 := ((a.2 _ (H.bound _ ih.1)).2 _).mp h3
      exact ⟨H.closed _ ih.1 _ h3, ih.2.tail h3⟩
  constructor
  · rintro ⟨i, hi, hr⟩
    exact ⟨i, hi, (bwd i hi n hr).2⟩
  · rintro ⟨i, hi, hr⟩
    exact ⟨i, hi, (fwd i hi n hr).2⟩

theorem allOuts_nil_append (tgs : List TgFrag) (c : TgFrag) (x : Option Nat) :
    x ∈ allOuts [] (tgs ++ [c]) ↔ x ∈ allOuts [] tgs ∨ x ∈ c.outs := by
  rw [mem_allOuts, mem_allOuts]
  simp only [List.not_mem_nil, false_or, List.mem_append, List.mem_singleton]
  constructor
  · rintro ⟨tg, h1 | rfl, h2⟩
    · exact .inl ⟨tg, h1, h2⟩
    · exact .inr h2
  · rintro (⟨tg, h1, h2⟩ | h2)
    · exact ⟨tg, .inl h1, h2⟩
    · exact ⟨c, .inr rfl, h2⟩

theorem chainTG_sat {h : TgHeap} {R : Finset Nat} {f : TgFrag} {L : Bytes → Prop} (H : FragOK D h R f L) (n : Nat) :
    (chainTG f (n + 1) h).Sat False False fun (tgs, cur, h') => ∃ Q, ChainOK D h f L (n + 1) tgs cur h' Q := by
  induction n with
  | zero =>
    refine (cloneGraph_sat H).bnd ?_
    rintro ⟨c, h'⟩ ⟨h1, h2, Q, h3, h4, h5⟩
    refine ⟨Q, h1, h2, h4, h3.congr fun w => ltimes_one L w, ?_, ⟨c, rfl, ?_⟩, ⟨Q.card, h5, by omega⟩⟩
    · refine (h3.pts (f' := ⟨c.ins, allOuts [] [c]⟩) (fun _ => Iff.rfl) (fun x => ?_)).congr fun w => ?_
      · rw [mem_allOuts]; simp
      · constructor
        · rintro ⟨k, hk1, hk2, hk⟩
          obtain rfl : k = 1 := by omega
          exact (ltimes_one L w).mp hk
        · intro hw
          exact ⟨1, le_refl _, le_refl _, (ltimes_one L w).mpr hw⟩
    · intro h'' hp
      refine (h3.loop hp).congr fun w => ?_
      constructor
      · rintro ⟨k, hk1, hk⟩
        exact ⟨k - 1, by rw [show k - 1 + 1 = k by omega]; exact hk⟩
      · rintro ⟨k, hk⟩
        exact ⟨k + 1, by omega, hk⟩
  | succ n ih =>
    rw [chainTG]
    refine ih.bnd ?_
    rintro ⟨tgs, cur, h1⟩ ⟨Q1, C⟩
    refine (cloneGraph_sat (H.extend C.ext)).bnd ?_
    rintro ⟨c, h2⟩ ⟨e2, n2, Q2, H2, new2, cnt2⟩
    have H1 := C.whole.extend e2
    have P1 := C.part.extend e2
    have hd : Disjoint Q1 Q2 := Finset.disjoint_left.mpr fun x hx hx' => by
      have := C.whole.bound x hx
      have := new2 x hx'
      omega
    have hp : Plugged h2 (concatTG cur c h2).2 cur.outs c.ins := plugAppend_plugged _ _ _
    obtain ⟨K1, K2⟩ := concat_ok H1 H2 hd hp rfl
    have hnone : none ∈ (concatTG cur c h2).1.ins ↔ none ∈ f.ins := by
      rw [K2, C.none, n2, and_self]
    have hext : Extends h (concatTG cur c h2).2 :=
      (C.ext.trans e2).plug hp fun n hn => C.new n (C.whole.outs n hn)
    have hl : ∀ h, (concatTG cur c h).1 = (concatTG cur c h2).1 := fun _ => rfl
    refine ⟨Q1 ∪ Q2, hext, hnone, ?_, K1.congr fun w => ?_, ?_, ⟨c, by simp, ?_⟩, ?_⟩
    · intro x hx
      rcases Finset.mem_union.mp hx with hx | hx
      · exact C.new x hx
      · exact C.ext.1.trans (new2 x hx)
    · rw [ltimes_add L (n + 1) 1 w]
      exact exists_congr fun u => exists_congr fun v => and_congr_right fun _ => and_congr_right fun _ => ltimes_one L v
    · have hdj := Finset.disjoint_left.mp hd
      have hA : ∀ x ∈ Q1, some x ∈ allOuts [] (tgs ++ [c]) ↔ some x ∈ allOuts [] tgs := fun x hx => by
        rw [allOuts_nil_append]
        exact ⟨fun h3 => h3.resolve_right fun h4 => hdj hx (H2.outs x h4), .inl⟩
      have hB : ∀ x ∈ Q2, some x ∈ allOuts [] (tgs ++ [c]) ↔ some x ∈ c.outs := fun x hx => by
        rw [allOuts_nil_append]
        exact ⟨fun h3 => h3.resolve_left fun h4 => hdj (P1.outs x h4) hx, .inr⟩
      have hins : ∀ x, some x ∈ (concatTG cur c h2).1.ins ↔ some x ∈ cur.ins ∨ (none ∈ cur.ins ∧ some x ∈ c.ins) := by
        intro x
        simp only [concatTG]
        split_ifs with e
        · rw [List.mem_append, mem_noEmpty]; simp [e]
        · simp [e]
      refine ⟨K1.ins, ?_, K1.closed, K1.bound, K1.leaf, ?_, fun w => ?_⟩
      · intro x hx
        rw [Finset.mem_union]
        exact ((allOuts_nil_append _ _ _).mp hx).imp (P1.outs x) (H2.outs x)
      · intro hx
        exact (allOuts_nil_append _ _ _).mpr (.inr (H2.empty (n2.mpr (hnone.mp hx))))
      · have first : ∀ x, some x ∈ cur.ins → (Spells D (concatTG cur c h2).2 (allOuts [] (tgs ++ [c])) x w ↔
            Spells D h2 (allOuts [] tgs) x w ∨ LCat (Spells D h2 cur.outs x) (NodeWord D h2 c.ins c.outs) w) :=
          fun x hx => plug_first hp hd H1.closed H2.closed H1.outs H2.ins hA hB (H1.ins x hx) w
        have second : ∀ x, some x ∈ c.ins → (Spells D (concatTG cur c h2).2 (allOuts [] (tgs ++ [c])) x w ↔
            Spells D h2 c.outs x w) :=
          fun x hx => plug_second hp hd H2.closed H1.outs hB (H2.ins x hx) w
        have low : LBetween L 1 (n + 1) w → (none ∈ (concatTG cur c h2).1.ins ∧ w = []) ∨
            NodeWord D (concatTG cur c h2).2 (concatTG cur c h2).1.ins (allOuts [] (tgs ++ [c])) w := by
          intro hw
          rcases (P1.lang w).mp hw with ⟨e, rfl⟩ | ⟨x, hx, hw⟩
          · exact .inl ⟨hnone.mpr (C.none.mp e), rfl⟩
          · exact .inr ⟨x, (hins x).mpr (.inl hx), (first x hx).mpr (.inl hw)⟩
        constructor
        · rintro ⟨k, hk1, hk2, hk⟩
          by_cases hkn : k ≤ n + 1
          · exact low ⟨k, hk1, hkn, hk⟩
          · obtain rfl : k = n + 1 + 1 := by omega
            obtain ⟨u, v, rfl, hu, hv⟩ := (ltimes_add L (n + 1) 1 w).mp hk
            rw [ltimes_one] at hv
            rcases (H2.lang v).mp hv with ⟨e2', rfl⟩ | ⟨y, hy, hv'⟩
            · exact low ⟨n + 1, by omega, le_refl _, by rw [List.append_nil]; exact hu⟩
            · rcases (H1.lang u).mp hu with ⟨e1, rfl⟩ | ⟨x, hx, hu'⟩
              · exact .inr ⟨y, (hins y).mpr (.inr ⟨e1, hy⟩), (second y hy).mpr hv'⟩
              · exact .inr ⟨x, (hins x).mpr (.inl hx), (first x hx).mpr (.inr ⟨u, v, rfl, hu', y, hy, hv'⟩)⟩
        · rintro (⟨e, rfl⟩ | ⟨x, hx, hw⟩)
          · exact ⟨1, le_refl _, by omega, (ltimes_one L _).mpr ((H2.lang _).mpr (.inl ⟨n2.mpr (hnone.mp e), rfl⟩))⟩
          · rcases (hins x).mp hx with hx | ⟨_, hx⟩
            · rcases (first x hx).mp hw with hw | ⟨u, v, rfl, hu, hv⟩
              · obtain ⟨k, k1, k2, k3⟩ := (P1.lang w).mpr (.inr ⟨x, hx, hw⟩)
                exact ⟨k, k1, by omega, k3⟩
              · refine ⟨n + 1 + 1, by omega, le_refl _, (ltimes_add L (n + 1) 1 _).mpr ⟨u, v, rfl, ?_, ?_⟩⟩
                · exact (H1.lang u).mpr (.inr ⟨x, hx, hu⟩)
                · exact (ltimes_one L v).mpr ((H2.lang v).mpr (.inr hv))
            · exact ⟨1, le_refl _, by omega, (ltimes_one L _).mpr ((H2.lang _).mpr (.inr ⟨x, hx, (second x hx).mp hw⟩))⟩
    · intro h'' hp''
      have hl := plugNodes_plugged c.ins c.outs h2
      have hdj := Finset.disjoint_left.mp hd
      have G2 := H2.loop hl
      have G1 : FragOK D (plugNodes c.ins c.outs h2) Q1 cur (LTimes L (n + 1)) := by
        refine H1.frame (fun x hx => ⟨hl.elem x, fun m => ?_⟩) (by rw [hl.size])
        rw [hl.nexts]
        exact ⟨fun h3 => h3.resolve_right fun h4 => hdj hx (H2.outs x h4.1), .inl⟩
      have hp3 : Plugged (plugNodes c.ins c.outs h2) h'' cur.outs c.ins :=
        ⟨by rw [hp''.size, hp.size, hl.size], fun x => by rw [hp''.elem, hp.elem, hl.elem],
         fun x m => by rw [hp''.nexts, hp.nexts, hl.nexts]; tauto⟩
      refine ((concat_ok G1 G2 hd hp3 (f := (concatTG cur c h2).1) rfl).1).congr fun w => ?_
      constructor
      · rintro ⟨k, hk1, hk⟩
        have hk' : LTimes L (n + 1 + (k - (n + 1))) w := by rw [show n + 1 + (k - (n + 1)) = k by omega]; exact hk
        obtain ⟨u, v, rfl, hu, hv⟩ := (ltimes_add L _ _ w).mp hk'
        exact ⟨u, v, rfl, hu, k - (n + 1) - 1, by rw [show k - (n + 1) - 1 + 1 = k - (n + 1) by omega]; exact hv⟩
      · rintro ⟨u, v, rfl, hu, k, hv⟩
        exact ⟨n + 1 + (k + 1), by omega, (ltimes_add L _ _ _).mpr ⟨u, v, rfl, hu, hv⟩⟩
    · obtain ⟨c1, hc1, hq1⟩ := C.card
      have hc2 := counts_extends H C.ext cnt2
      refine ⟨c1, hc1, ?_⟩
      rw [Finset.card_union_of_disjoint hd, hq1, hc2.unique hc1]
      ring

end Verif
