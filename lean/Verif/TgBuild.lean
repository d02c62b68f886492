import Verif.TgRep
import Verif.BoundLemmas

/-!
# The construction of transition graphs is exact
-/

namespace Verif

open Spec

/-- The numbers of words a repetition allows. -/
def LRep (L : Bytes → Prop) (mn : Nat) (mx : Option Nat) (w : Bytes) : Prop :=
  ∃ k, mn ≤ k ∧ (∀ m, mx = some m → k ≤ m) ∧ LTimes L k w

theorem derivesRep_iff (g : Grammar) (e : Elem) (mn : Nat) (mx : Option Nat) (w : Bytes) :
    DerivesRep g ⟨mn, mx, e⟩ w ↔ LRep (Derives g e) mn mx w := by
  constructor
  · intro h
    cases h with
    | mk _ _ _ n _ h1 h2 h3 => exact ⟨n, h1, h2, (derivesTimes_iff g e n w).mp h3⟩
  · rintro ⟨n, h1, h2, h3⟩
    exact .mk mn mx e n w h1 h2 ((derivesTimes_iff g e n w).mpr h3)

/-- From `a` to `a + b` words: `a` mandatory ones, then up to `b` more. -/
theorem range_ok {D : Elem → Bytes → Prop} {h h' : TgHeap} {R Q : Finset Nat} {first f' : TgFrag} {ins all : Pts}
    {L : Bytes → Prop} {a b : Nat} (ha : 0 < a) (hb : 0 < b) (H1 : FragOK D h R first (LTimes L a))
    (H2 : FragOK D h Q ⟨ins, all⟩ (LBetween L 1 b)) (hd : Disjoint R Q) (hp : Plugged h h' first.outs ins)
    (hL : none ∈ first.ins → L [])
    (hi : ∀ x, x ∈ f'.ins ↔ x ∈ first.ins) (ho : ∀ x, x ∈ f'.outs ↔ x ∈ first.outs ∨ x ∈ all) :
    FragOK D h' (R ∪ Q) f' (LBetween L a (a + b)) := by
  have hdj := Finset.disjoint_left.mp hd
  have h2ins : ∀ n, some n ∈ ins → n ∈ Q := H2.ins
  have h2outs : ∀ n, some n ∈ all → n ∈ Q := H2.outs
  have hA : ∀ x ∈ R, some x ∈ f'.outs ↔ some x ∈ first.outs := fun x hx => by
    rw [ho]
    exact ⟨fun h3 => h3.resolve_right fun h4 => hdj hx (h2outs x h4), .inl⟩
  have hB : ∀ x ∈ Q, some x ∈ f'.outs ↔ some x ∈ all := fun x hx => by
    rw [ho]
    exact ⟨fun h3 => h3.resolve_left fun h4 => hdj (H1.outs x h4) hx, .inr⟩
  have word : ∀ w x, some x ∈ first.ins → (Spells D h' f'.outs x w ↔
      Spells D h first.outs x w ∨ LCat (Spells D h first.outs x) (NodeWord D h ins all) w) :=
    fun w x hx => plug_first hp hd H1.closed H2.closed H1.outs h2ins hA hB (H1.ins x hx) w
  have base : ∀ w, LTimes L a w → (none ∈ f'.ins ∧ w = []) ∨ NodeWord D h' f'.ins f'.outs w := by
    intro w hw
    rcases (H1.lang w).mp hw with ⟨e, rfl⟩ | ⟨x, hx, hw⟩
    · exact .inl ⟨(hi _).mpr e, rfl⟩
    · exact .inr ⟨x, (hi _).mpr hx, (word w x hx).mpr (.inl hw)⟩
  have full : ∀ k w, k ≤ a + b → (k < a → none ∈ first.ins) → LTimes L k w →
      (none ∈ f'.ins ∧ w = []) ∨ NodeWord D h' f'.ins f'.outs w := by
    intro k
    induction k using Nat.strong_induction_on with
    | _ k ih =>
      intro w hk hsmall hw
      rcases Nat.lt_or_ge k a with hlt | hge
      · exact base w (ltimes_pad (hL (hsmall hlt)) (le_of_lt hlt) hw)
      · rcases Nat.eq_or_lt_of_le hge with rfl | hlt
        · exact base w hw
        · have hw' : LTimes L (a + (k - a)) w := by rw [show a + (k - a) = k by omega]; exact hw
          obtain ⟨u, v, rfl, hu, hv⟩ := (ltimes_add L _ _ w).mp hw'
          rcases (H2.lang v).mp ⟨k - a, by omega, by omega, hv⟩ with ⟨e, rfl⟩ | hv'
          · rw [List.append_nil]
            exact base u hu
          · rcases (H1.lang u).mp hu with ⟨e, rfl⟩ | ⟨x, hx, hu'⟩
            · exact ih (k - a) (by omega) v (by omega) (fun _ => e) hv
            · exact .inr ⟨x, (hi _).mpr hx, (word _ x hx).mpr (.inr ⟨u, v, rfl, hu', hv'⟩)⟩
  refine ⟨?_, ?_, plugged_closed hp H1.closed H2.closed h2ins, ?_, fun n hn => by rw [hp.elem]; exact (Finset.mem_union.mp hn).elim (H1.leaf n) (H2.leaf n), ?_, fun w => ⟨?_, ?_⟩⟩
  · intro n hn
    exact Finset.mem_union_left _ (H1.ins n ((hi _).mp hn))
  · intro n hn
    rw [Finset.mem_union]
    exact ((ho _).mp hn).imp (H1.outs n) (h2outs n)
  · intro n hn
    rw [hp.size]
    rcases Finset.mem_union.mp hn with h1 | h1
    · exact H1.bound n h1
    · exact H2.bound n h1
  · intro hx
    exact (ho _).mpr (.inl (H1.empty ((hi _).mp hx)))
  · rintro ⟨k, hk1, hk2, hk⟩
    exact full k w hk2 (fun h => by omega) hk
  · rintro (⟨e, rfl⟩ | ⟨x, hx, hw⟩)
    · exact ⟨a, le_refl _, by omega, (H1.lang _).mpr (.inl ⟨(hi _).mp e, rfl⟩)⟩
    · have hx' := (hi _).mp hx
      rcases (word w x hx').mp hw with hw | ⟨u, v, rfl, hu, hv⟩
      · exact ⟨a, le_refl _, by omega, (H1.lang _).mpr (.inr ⟨x, hx', hw⟩)⟩
      · obtain ⟨k, k1, k2, k3⟩ := (H2.lang v).mpr (.inr hv)
        exact ⟨a + k, by omega, by omega, (ltimes_add L _ _ _).mpr ⟨u, v, rfl, (H1.lang u).mpr (.inr ⟨x, hx', hu⟩), k3⟩⟩

/-! ## States -/

/-- A bound on the nodes small enough for the multiplication in `reserveClones` not to overflow. -/
structure NodeBudget (o : TgOpts) : Prop where
  pos : 0 < o.maxNodes
  small : o.maxNodes < 2 ^ 63
  prod : o.threshold * o.maxNodes < 2 ^ 63

/-- The graphs kept in `buf` share no node with `F`, and if `rd` they are those of the rules. -/
structure StOK (o : TgOpts) (g : Grammar) (rd : Prop) (F : Finset Nat) (st : TgSt) : Prop where
  buf : ∀ p ∈ st.buf, ∃ name L, canon name = p.1 ∧ (rd → ∀ w, L w ↔ Derives g (.rulename name) w) ∧
    ∃ Q, FragOK (Derives g) st.heap Q p.2 L ∧ Disjoint Q F ∧ (NodeBudget o → (Q.card : Int) ≤ o.maxNodes)
  count : NodeBudget o → 0 ≤ st.count ∧ st.count ≤ o.maxNodes
  live : ∀ n ∈ F, n < st.heap.size

/-- Only nodes from `N` on have changed. -/
def ExtendsN (N : Nat) (h h' : TgHeap) : Prop := h.size ≤ h'.size ∧ Agree (· < N) h h'

/-- A graph spelling `L`, made of nodes from `N` on. -/
def TgPost (o : TgOpts) (g : Grammar) (rd : Prop) (N : Nat) (F : Finset Nat) (c0 : Int) (L : Bytes → Prop) (h0 : TgHeap)
    (x : TgFrag × TgSt) : Prop :=
  ExtendsN N h0 x.2.heap ∧ ∃ R, FragOK (Derives g) x.2.heap R x.1 L ∧ (∀ n ∈ R, N ≤ n) ∧ StOK o g rd (F ∪ R) x.2 ∧
    (NodeBudget o → c0 + R.card ≤ x.2.count)

/-- Errors are always allowed. -/
def OnOk {α : Type} (Q : α → Prop) : Except TgErr α → Prop
  | .error _ => True
  | .ok a => Q a

theorem tgBind_sat {α β : Type} {pan fu : Prop} {Q : α → Prop} {Q' : β → Prop} {x : TgOut α} {f : α → TgOut β}
    (h : x.Sat pan fu (OnOk Q)) (hf : ∀ a, Q a → (f a).Sat pan fu (OnOk Q')) : (tgBind x f).Sat pan fu (OnOk Q') := by
  refine h.bnd fun r hr => ?_
  cases r with
  | error e => trivial
  | ok a => exact hf a hr

theorem Run.Sat.weaken {α : Type} {pan fu : Prop} {Q : α → Prop} {x : Run α} (h : x.Sat False False Q) : x.Sat pan fu Q := by
  cases x with
  | ok a => exact h
  | panic => exact h.elim
  | fuel => exact h.elim

variable {o : TgOpts} {g : Grammar} {rd : Prop}

theorem StOK.mono {F F' : Finset Nat} {st : TgSt} (H : StOK o g rd F st) (hs : F' ⊆ F) : StOK o g rd F' st where
  buf p hp := by
    obtain ⟨name, L, h1, h0, Q, h2, h3, h4⟩ := H.buf p hp
    exact ⟨name, L, h1, h0, Q, h2, Disjoint.mono_right hs h3, h4⟩
  count := H.count
  live n hn := H.live n (hs hn)

/-- The heap grew by nodes `R`, the budget is respected. -/
theorem StOK.extend {F R : Finset Nat} {st st' : TgSt} (H : StOK o g rd F st) (hb : st'.buf = st.buf)
    (hh : Extends st.heap st'.heap) (hR : ∀ n ∈ R, st.heap.size ≤ n)
    (hR' : ∀ n ∈ R, n < st'.heap.size) (hc : NodeBudget o → 0 ≤ st'.count ∧ st'.count ≤ o.maxNodes) : StOK o g rd (F ∪ R) st' where
  buf p hp := by
    rw [hb] at hp
    obtain ⟨name, L, h1, h0, Q, h2, h3, h4⟩ := H.buf p hp
    refine ⟨name, L, h1, h0, Q, h2.extend hh, ?_, h4⟩
    rw [Finset.disjoint_union_right]
    refine ⟨h3, Finset.disjoint_left.mpr fun x hx hx' => ?_⟩
    have := h2.bound x hx
    have := hR x hx'
    omega
  count := hc
  live n hn := by
    rcases Finset.mem_union.mp hn with hn | hn
    · exact Nat.lt_of_lt_of_le (H.live n hn) hh.1
    · exact hR' n hn

/-- Only nodes of `F` changed. -/
theorem StOK.plug {F : Finset Nat} {st : TgSt} {h' : TgHeap} {O I : Pts} (H : StOK o g rd F st)
    (hp : Plugged st.heap h' O I) (ho : ∀ n, some n ∈ O → n ∈ F) : StOK o g rd F { st with heap := h' } where
  buf p hm := by
    obtain ⟨name, L, h1, h0, Q, h2, h3, h4⟩ := H.buf p hm
    refine ⟨name, L, h1, h0, Q, h2.frame (fun n hn => ⟨hp.elem n, fun m => ?_⟩) (by rw [hp.size]), h3, h4⟩
    rw [hp.nexts]
    exact ⟨fun h => h.resolve_right fun h5 => Finset.disjoint_left.mp h3 hn (ho n h5.1), .inl⟩
  count := H.count
  live n hn := by rw [hp.size]; exact H.live n hn

theorem ExtendsN.refl (N : Nat) (h : TgHeap) : ExtendsN N h h := ⟨le_refl _, fun _ _ => ⟨rfl, fun _ => Iff.rfl⟩⟩

theorem ExtendsN.trans {N : Nat} {h h' h'' : TgHeap} (a : ExtendsN N h h') (b : ExtendsN N h' h'') : ExtendsN N h h'' :=
  ⟨a.1.trans b.1, fun n hn => by
    obtain ⟨h1, h2⟩ := a.2 n hn
    obtain ⟨h3, h4⟩ := b.2 n hn
    exact ⟨h3.trans h1, fun m => (h4 m).trans (h2 m)⟩⟩

theorem ExtendsN.mono {N N' : Nat} {h h' : TgHeap} (a : ExtendsN N h h') (hN : N' ≤ N) : ExtendsN N' h h' :=
  ⟨a.1, fun n hn => a.2 n (Nat.lt_of_lt_of_le hn hN)⟩

theorem Extends.toN {N : Nat} {h h' : TgHeap} (a : Extends h h') (hN : N ≤ h.size) : ExtendsN N h h' :=
  ⟨a.1, fun n hn => a.2 n (Nat.lt_of_lt_of_le hn hN)⟩

theorem ExtendsN.plug {N : Nat} {h h' h'' : TgHeap} {O I : Pts} (a : ExtendsN N h h') (b : Plugged h' h'' O I)
    (ho : ∀ n, some n ∈ O → N ≤ n) : ExtendsN N h h'' :=
  ⟨by rw [b.size]; exact a.1, fun n hn => by
    obtain ⟨h1, h2⟩ := a.2 n hn
    refine ⟨by rw [b.elem]; exact h1, fun m => ?_⟩
    rw [b.nexts, h2]
    exact ⟨fun h => h.resolve_right fun h5 => by have := ho n h5.1; omega, .inl⟩⟩

/-! ## The budget -/

theorem reserveNodes_some {n : Int} {st st' : TgSt} (h : reserveNodes o n st = some st') :
    st'.heap = st.heap ∧ st'.buf = st.buf ∧ (NodeBudget o → 0 ≤ st.count ∧ st.count ≤ o.maxNodes → n < 2 ^ 63 →
      0 ≤ n ∧ st'.count = st.count + n ∧ st'.count ≤ o.maxNodes) := by
  unfold reserveNodes at h
  split_ifs at h with h1 h2
  · cases h
    exact ⟨rfl, rfl, fun hb => absurd hb.pos (by omega)⟩
  · cases h
    refine ⟨rfl, rfl, fun hb hc hn => ?_⟩
    simp only [not_or, not_lt, gt_iff_lt] at h2
    obtain ⟨h3, h4, h5⟩ := h2
    have hs := hb.small
    have hlt : st.count + n < 2 ^ 63 := by
      by_contra hge
      have : wrap64 (st.count + n) < 0 := by
        unfold wrap64
        rw [Int.bmod_def]
        have e : (st.count + n) % ((2 ^ 64 : Nat) : Int) = st.count + n := Int.emod_eq_of_lt (by omega) (by norm_num; omega)
        rw [e, if_neg (by norm_num; omega)]
        norm_num
        omega
      omega
    have hw : wrap64 (st.count + n) = st.count + n := wrap64_eq (by omega) hlt
    rw [hw] at h5
    exact ⟨h3, hw, hw.le.trans h5⟩

theorem reserveClones_sat {D : Elem → Bytes → Prop} {R : Finset Nat} {f : TgFrag} {L : Bytes → Prop} {st : TgSt}
    (H : FragOK D st.heap R f L) {n : Nat} (hc : NodeBudget o → 0 ≤ st.count ∧ st.count ≤ o.maxNodes)
    (hR : NodeBudget o → (R.card : Int) ≤ o.maxNodes) (hn : NodeBudget o → n * o.maxNodes < 2 ^ 63) :
    (reserveClones o n f.ins st).Sat False False (OnOk fun st' => st'.heap = st.heap ∧ st'.buf = st.buf ∧
      (NodeBudget o → 0 ≤ st'.count ∧ st'.count ≤ o.maxNodes ∧ ∀ c, Counts st.heap f.ins c → st'.count = st.count + (n * c : Nat))) := by
  unfold reserveClones
  by_cases h1 : o.maxNodes ≤ 0
  · rw [if_pos h1]
    exact ⟨rfl, rfl, fun hb => absurd hb.pos (by omega)⟩
  · rw [if_neg h1]
    refine (countReachable_sat fun x hx => H.bound x (reached_in H.closed H.ins hx)).bnd fun c hcnt => ?_
    have hcR : c ≤ R.card := by
      obtain ⟨S, h2, rfl⟩ := hcnt
      exact Finset.card_le_card fun x hx => reached_in H.closed H.ins ((h2 x).mp hx)
    cases hr : reserveNodes o (wrap64 (n * c)) st with
    | none => trivial
    | some st' =>
      obtain ⟨g1, g2, g3⟩ := reserveNodes_some hr
      refine ⟨g1, g2, fun hb => ?_⟩
      have hprod : (n : Int) * c < 2 ^ 63 := by
        have h3 : (n : Int) * c ≤ n * o.maxNodes :=
          mul_le_mul_of_nonneg_left (by have := hR hb; omega) (Int.natCast_nonneg n)
        have := hn hb
        omega
      have hw : wrap64 ((n : Int) * c) = n * c := wrap64_eq (by positivity |> fun (h : (0:Int) ≤ n * c) => by omega) hprod
      rw [hw] at g3
      obtain ⟨g4, g5, g6⟩ := g3 hb (hc hb) hprod
      have := hc hb
      refine ⟨by omega, g6, fun c' hc' => ?_⟩
      rw [g5, hc'.unique hcnt]
      push_cast
      rfl

/-- What `chainSt` returns. -/
theorem chainSt_sat {R : Finset Nat} {f : TgFrag} {L : Bytes → Prop} {st : TgSt}
    (H : FragOK (Derives g) st.heap R f L) {n : Nat} (hc : NodeBudget o → 0 ≤ st.count ∧ st.count ≤ o.maxNodes)
    (hR : NodeBudget o → (R.card : Int) ≤ o.maxNodes) (hn : NodeBudget o → ((n + 1 : Nat) : Int) ≤ o.threshold) :
    (chainSt o f (n + 1) st).Sat False False (OnOk fun (tgs, cur, st') => st'.buf = st.buf ∧
      ∃ Q, ChainOK (Derives g) st.heap f L (n + 1) tgs cur st'.heap Q ∧
      (NodeBudget o → 0 ≤ st'.count ∧ st'.count ≤ o.maxNodes ∧ st'.count = st.count + Q.card)) := by
  unfold chainSt
  refine tgBind_sat (reserveClones_sat H hc hR fun hb => ?_) ?_
  · have h1 := hn hb
    have h2 : ((n + 1 : Nat) : Int) * o.maxNodes ≤ o.threshold * o.maxNodes :=
      mul_le_mul_of_nonneg_right h1 (le_of_lt hb.pos)
    exact lt_of_le_of_lt h2 hb.prod
  · rintro st' ⟨h1, h2, h3⟩
    rw [h1]
    refine (chainTG_sat H n).bnd ?_
    rintro ⟨tgs, cur, h'⟩ ⟨Q, C⟩
    refine ⟨h2, Q, C, fun hb => ?_⟩
    obtain ⟨h4, h5, h6⟩ := h3 hb
    obtain ⟨c, hc1, hc2⟩ := C.card
    exact ⟨h4, h5, by rw [hc2]; exact h6 c hc1⟩

/-! ## Repetitions -/

theorem repGraph_sat {N : Nat} {F R : Finset Nat} {c0 : Int} {f : TgFrag} {L : Bytes → Prop} {st : TgSt} (mn : Nat)
    (mx : Option Nat) (hc0 : 0 ≤ c0) (hN : N ≤ st.heap.size) (H : FragOK (Derives g) st.heap R f L) (hR : ∀ n ∈ R, N ≤ n)
    (S : StOK o g rd (F ∪ R) st) (hc : NodeBudget o → c0 + R.card ≤ st.count) :
    (repGraph o mn mx f st).Sat False False (OnOk (TgPost o g rd N F c0 (LRep L mn mx) st.heap)) := by
  have hcard : NodeBudget o → (R.card : Int) ≤ o.maxNodes := fun hb => by
    have := hc hb
    have := (S.count hb).2
    omega
  have SF : StOK o g rd F st := S.mono Finset.subset_union_left
  unfold repGraph
  by_cases h0 : mn = 0
  · rw [if_pos h0]
    subst h0
    cases mx with
    | none =>
      simp only
      have hp : Plugged st.heap (plugNodes (appendNodes [] (noEmpty f.ins)) f.outs st.heap) f.outs f.ins :=
        plugged_congr (plugNodes_plugged _ _ _) (fun _ => Iff.rfl) fun n => by
          rw [mem_appendNodes, mem_noEmpty]; simp
      refine ⟨(ExtendsN.refl N _).plug hp fun n hn => hR n (H.outs n hn), R, ?_, hR,
        S.plug hp fun n hn => Finset.mem_union_right _ (H.outs n hn), hc⟩
      refine ((H.loop hp).opt (fun x => ?_) (fun x => ?_)).congr fun w => ?_
      · rw [mem_appendNodes]; simp
      · rw [mem_appendNodes]; simp
      · constructor
        · rintro ⟨k, _, _, hk⟩
          cases k with
          | zero => exact .inl hk
          | succ k => exact .inr ⟨k, hk⟩
        · rintro (rfl | ⟨k, hk⟩)
          · exact ⟨0, le_refl _, by simp, rfl⟩
          · exact ⟨k + 1, by omega, by simp, hk⟩
    | some m =>
      simp only
      by_cases h1 : m = 1
      · rw [if_pos h1]
        subst h1
        refine ⟨ExtendsN.refl N _, R, ?_, hR, S, hc⟩
        refine (H.opt (fun x => ?_) (fun x => ?_)).congr fun w => ?_
        · rw [mem_appendNodes]; simp
        · rw [mem_appendNodes]; simp
        · constructor
          · rintro ⟨k, _, h2, hk⟩
            have := h2 1 rfl
            rcases Nat.eq_zero_or_pos k with rfl | hpos
            · exact .inl hk
            · obtain rfl : k = 1 := by omega
              exact .inr ((ltimes_one L w).mp hk)
          · rintro (rfl | hw)
            · exact ⟨0, le_refl _, by simp, rfl⟩
            · exact ⟨1, by omega, by simp, (ltimes_one L w).mpr hw⟩
      · rw [if_neg h1]
        by_cases h2 : (m : Int) > o.threshold
        · rw [if_pos h2]; trivial
        · rw [if_neg h2]
          cases m with
          | zero =>
            refine tgBind_sat (Q := fun x => x.1 = [] ∧ x.2.1 = {} ∧ x.2.2.heap = st.heap ∧ x.2.2.buf = st.buf ∧
              (NodeBudget o → 0 ≤ x.2.2.count ∧ x.2.2.count ≤ o.maxNodes ∧ st.count ≤ x.2.2.count)) ?_ ?_
            · unfold chainSt
              refine tgBind_sat (reserveClones_sat H S.count hcard fun hb => by simp) ?_
              rintro st' ⟨g1, g2, g3⟩
              refine ⟨rfl, rfl, g1, g2, fun hb => ?_⟩
              obtain ⟨g4, g5, g6⟩ := g3 hb
              refine ⟨g4, g5, ?_⟩
              have hb' := fun x hx => H.bound x (reached_in H.closed H.ins hx)
              have hcnt := countReachable_sat hb'
              cases hr : countReachable st.heap f.ins with
              | ok c => rw [hr] at hcnt; have := g6 c hcnt; simp only at this ⊢; rw [this]; simp
              | panic => rw [hr] at hcnt; exact hcnt.elim
              | fuel => rw [hr] at hcnt; exact hcnt.elim
            · rintro ⟨tgs, cur, st'⟩ ⟨rfl, rfl, g1, g2, g3⟩
              simp only at g1 g2 g3
              refine ⟨by rw [g1]; exact ExtendsN.refl N _, ∅, ?_, by simp, ?_, fun hb => ?_⟩
              · refine ((never_ok st'.heap).opt (fun x => ?_) (fun x => ?_)).congr fun w => ?_
                · rw [mem_appendNodes]; simp
                · rw [mem_allOuts]; simp
                · constructor
                  · rintro ⟨k, _, h3, hk⟩
                    have := h3 0 rfl
                    obtain rfl : k = 0 := by omega
                    exact .inl hk
                  · rintro (rfl | hw)
                    · exact ⟨0, le_refl _, by simp, rfl⟩
                    · exact hw.elim
              · refine SF.extend g2 (by rw [g1]; exact Extends.refl _) (by simp) (by simp) fun hb => ⟨(g3 hb).1, (g3 hb).2.1⟩
              · have := (g3 hb).2.2
                have := hc hb
                simp only [Finset.card_empty]
                omega
          | succ m =>
            refine tgBind_sat (chainSt_sat H S.count hcard fun _ => by omega) ?_
            rintro ⟨tgs, cur, st'⟩ ⟨g1, Q, C, g2⟩
            refine ⟨C.ext.toN hN, Q, ?_, fun n hn => hN.trans (C.new n hn),
              SF.extend g1 C.ext C.new C.part.bound fun hb => ⟨(g2 hb).1, (g2 hb).2.1⟩, fun hb => ?_⟩
            · refine (C.part.opt (fun x => ?_) (fun x => ?_)).congr fun w => ?_
              · rw [mem_appendNodes]; simp
              · rw [mem_allOuts, mem_allOuts]; simp
              · constructor
                · rintro ⟨k, _, h3, hk⟩
                  have := h3 _ rfl
                  rcases Nat.eq_zero_or_pos k with rfl | hpos
                  · exact .inl hk
                  · exact .inr ⟨k, hpos, this, hk⟩
                · rintro (rfl | ⟨k, _, h4, hk⟩)
                  · exact ⟨0, le_refl _, by simp, rfl⟩
                  · exact ⟨k, by omega, by rintro _ ⟨⟩; exact h4, hk⟩
            · have := (g2 hb).2.2
              have := hc hb
              simp only at *
              omega
  · rw [if_neg h0]
    obtain ⟨mn, rfl⟩ := Nat.exists_eq_succ_of_ne_zero h0
    cases mx with
    | none =>
      simp only
      by_cases h2 : ((mn.succ : Nat) : Int) > o.threshold
      · rw [if_pos h2]; trivial
      · rw [if_neg h2]
        refine tgBind_sat (chainSt_sat H S.count hcard fun _ => by omega) ?_
        rintro ⟨tgs, cur, st'⟩ ⟨g1, Q, C, g2⟩
        obtain ⟨l, hl1, hl2⟩ := C.last
        simp only [hl1]
        have hp := plugNodes_plugged l.ins l.outs st'.heap
        have hlm : l ∈ tgs := List.mem_of_getLast? hl1
        have hlo : ∀ n, some n ∈ l.outs → n ∈ Q := fun n hn =>
          C.part.outs n ((mem_allOuts _ _ _).mpr (.inr ⟨l, hlm, hn⟩))
        refine ⟨(C.ext.toN hN).plug hp fun n hn => hN.trans (C.new n (hlo n hn)), Q, ?_, fun n hn => hN.trans (C.new n hn),
          ?_, fun hb => ?_⟩
        · refine ((hl2 _ hp).pts (fun x => ?_) (fun x => ?_)).congr fun w => ?_
          · rw [mem_appendNodes]; simp
          · rw [mem_appendNodes]; simp
          · exact exists_congr fun k => and_congr_right fun _ => by simp
        · exact (SF.extend g1 C.ext C.new C.part.bound fun hb => ⟨(g2 hb).1, (g2 hb).2.1⟩).plug hp fun n hn =>
            Finset.mem_union_right _ (hlo n hn)
        · have := (g2 hb).2.2
          have := hc hb
          simp only at *
          omega
    | some m =>
      simp only
      by_cases h1 : m = 1
      · rw [if_pos h1]
        subst h1
        by_cases h2 : mn.succ ≠ 1
        · rw [if_pos h2]; trivial
        · rw [if_neg h2]
          obtain rfl : mn = 0 := by omega
          refine ⟨ExtendsN.refl N _, R, ?_, hR, S, hc⟩
          refine (H.pts (fun x => ?_) (fun x => ?_)).congr fun w => ?_
          · rw [mem_appendNodes]; simp
          · rw [mem_appendNodes]; simp
          · constructor
            · rintro ⟨k, h3, h4, hk⟩
              have := h4 1 rfl
              obtain rfl : k = 1 := by omega
              exact (ltimes_one L w).mp hk
            · intro hw
              exact ⟨1, by omega, by simp, (ltimes_one L w).mpr hw⟩
      · rw [if_neg h1]
        by_cases h2 : mn.succ > m
        · rw [if_pos h2]; trivial
        · rw [if_neg h2]
          by_cases h3 : (m : Int) > o.threshold
          · rw [if_pos h3]; trivial
          · rw [if_neg h3]
            refine tgBind_sat (Q := fun x => ExtendsN N st.heap x.2.heap ∧ FragOK (Derives g) x.2.heap R f L ∧
              (none ∈ x.1.ins ↔ none ∈ f.ins) ∧ ∃ R1, FragOK (Derives g) x.2.heap R1 x.1 (LTimes L mn.succ) ∧
              (∀ n ∈ R1, N ≤ n) ∧ StOK o g rd (F ∪ R1) x.2 ∧ (NodeBudget o → c0 + R1.card ≤ x.2.count)) ?_ ?_
            · by_cases h4 : mn.succ > 1
              · rw [if_pos h4]
                refine tgBind_sat (chainSt_sat H S.count hcard fun _ => by omega) ?_
                rintro ⟨tgs, cur, st'⟩ ⟨g1, Q, C, g2⟩
                refine ⟨C.ext.toN hN, H.extend C.ext, C.none, Q, C.whole, fun n hn => hN.trans (C.new n hn),
                  SF.extend g1 C.ext C.new C.part.bound fun hb => ⟨(g2 hb).1, (g2 hb).2.1⟩, fun hb => ?_⟩
                have := (g2 hb).2.2
                have := hc hb
                simp only at *
                omega
              · rw [if_neg h4]
                obtain rfl : mn = 0 := by omega
                exact ⟨ExtendsN.refl N _, H, Iff.rfl, R, H.congr fun w => ltimes_one L w, hR, S, hc⟩
            · rintro ⟨first, st1⟩ ⟨g1, g2, g3, R1, g4, g5, g6, g7⟩
              simp only at g1 g2 g3 g4 g5 g6 g7
              have hN1 : N ≤ st1.heap.size := hN.trans g1.1
              by_cases h5 : m - mn.succ > 0
              · simp only [if_pos h5]
                have e : m - mn.succ = (m - mn.succ - 1) + 1 := by omega
                rw [e]
                refine tgBind_sat (chainSt_sat g2 g6.count hcard fun _ => by omega) ?_
                rintro ⟨tgs, cur, st2⟩ ⟨k1, Q, C, k2⟩
                have hd : Disjoint R1 Q := Finset.disjoint_left.mpr fun x hx hx' => by
                  have := g4.bound x hx
                  have := C.new x hx'
                  omega
                have hp := plugNodes_plugged cur.ins first.outs st2.heap
                have S2 := g6.extend k1 C.ext C.new C.part.bound fun hb => ⟨(k2 hb).1, (k2 hb).2.1⟩
                refine ⟨(g1.trans (C.ext.toN hN1)).plug hp fun n hn => g5 n (g4.outs n hn), R1 ∪ Q, ?_, ?_, ?_, fun hb => ?_⟩
                · refine (range_ok (b := m - mn.succ - 1 + 1) (Nat.succ_pos mn) (by omega) (g4.extend C.ext) C.part hd hp
                    (fun hx => ?_) (fun x => ?_) (fun x => ?_)).congr fun w => ?_
                  · exact (H.lang []).mpr (.inl ⟨g3.mp hx, rfl⟩)
                  · rw [mem_appendNodes]; simp
                  · rw [mem_allOuts, mem_allOuts, mem_appendNodes]; simp
                  · constructor
                    · rintro ⟨k, h6, h7, hk⟩
                      exact ⟨k, h6, by have := h7 m rfl; omega, hk⟩
                    · rintro ⟨k, h6, h7, hk⟩
                      exact ⟨k, h6, by rintro _ ⟨⟩; omega, hk⟩
                · intro n hn
                  rcases Finset.mem_union.mp hn with hn | hn
                  · exact g5 n hn
                  · exact hN1.trans (C.new n hn)
                · rw [← Finset.union_assoc]
                  exact S2.plug hp fun n hn => Finset.mem_union_left _ (Finset.mem_union_right _ (g4.outs n hn))
                · rw [Finset.card_union_of_disjoint hd]
                  have := (k2 hb).2.2
                  have := g7 hb
                  simp only at *
                  push_cast
                  omega
              · simp only [if_neg h5]
                obtain rfl : m = mn.succ := by omega
                refine ⟨g1, R1, (g4.pts (fun x => ?_) (fun x => ?_)).congr fun w => ?_, g5, g6, g7⟩
                · rw [mem_appendNodes]; simp
                · rw [mem_appendNodes]; simp
                · constructor
                  · rintro ⟨k, h6, h7, hk⟩
                    have := h7 _ rfl
                    obtain rfl : k = mn.succ := by omega
                    exact hk
                  · intro hw
                    exact ⟨_, le_refl _, by rintro _ ⟨⟩; exact le_refl _, hw⟩

end Verif
