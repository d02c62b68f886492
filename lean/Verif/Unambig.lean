import Verif.TreeSpec

/-!
# Grammars that read every text in at most one way

A condition on a grammar alone, in terms of the texts its parts derive, under which a parse forest has no node with
two packings.
-/

namespace Verif
open Spec

namespace Spec

/-- A text is an `A` followed by a `B` in at most one way. -/
def SplitsOnce (A B : Bytes → Prop) : Prop :=
  ∀ u v u' v', A u → B v → A u' → B v' → u ++ v = u' ++ v' → u = u'

/-- Each repetition of the concatenation begins at one place only. -/
def ConcatOnce (g : Grammar) (c : Concat) : Prop :=
  ∀ p r s, c = p ++ r :: s → SplitsOnce (DerivesConcat g p) (DerivesRep g r)

/-- No text is derived by two alternatives, or by one of them in two ways. -/
def AltOnce (g : Grammar) (a : Alt) : Prop :=
  (a.Pairwise fun c d => ∀ w, DerivesConcat g c w → ¬ DerivesConcat g d w) ∧ ∀ c ∈ a, ConcatOnce g c

/-- What is repeated is not empty, and ends at one place only. -/
def RepOnce (g : Grammar) (r : Rep) : Prop :=
  ¬ (r.min = 1 ∧ r.max = some 1) → ¬ Derives g r.elem [] ∧
    SplitsOnce (Derives g r.elem) (fun v => ∃ k, DerivesTimes g r.elem k v)

/-- A group or option is read in one way; an option does not enclose the empty text. -/
def ElemOnce (g : Grammar) : Elem → Prop
  | .group a => AltOnce g a
  | .option a => AltOnce g a ∧ ¬ DerivesAlt g a []
  | _ => True

/-- Every choice the grammar offers, and every choice the core rules offer, is settled by the text. -/
def Unambiguous (g : Grammar) : Prop :=
  (∀ r ∈ g.rules ++ Core.rules, AltOnce g r.alt) ∧
  ∀ r ∈ rulesReps (g.rules ++ Core.rules), RepOnce g r ∧ ElemOnce g r.elem

theorem RepOnce.count {g : Grammar} {r : Rep} (h : RepOnce g r) (h1 : ¬ (r.min = 1 ∧ r.max = some 1)) :
    ∀ {k k' : Nat} {w : Bytes}, DerivesTimes g r.elem k w → DerivesTimes g r.elem k' w → k = k' := by
  obtain ⟨hne, hs⟩ := h h1
  intro k
  induction k with
  | zero =>
    intro k' w hk hk'
    cases hk
    generalize hw : ([] : Bytes) = w at hk'
    cases hk' with
    | zero => rfl
    | succ _ n u v hu _ =>
      have := List.append_eq_nil_iff.mp hw.symm
      exact absurd (this.1 ▸ hu) hne
  | succ k ih =>
    intro k' w hk hk'
    cases hk with
    | succ _ _ u v hu hv =>
      generalize hw : u ++ v = w at hk'
      cases hk' with
      | zero =>
        have := List.append_eq_nil_iff.mp hw
        exact absurd (this.1 ▸ hu) hne
      | succ _ n u' v' hu' hv' =>
        have he := hs _ _ _ _ hu ⟨_, hv⟩ hu' ⟨_, hv'⟩ hw
        subst he
        have hv2 := List.append_cancel_left hw
        subst hv2
        rw [ih hv hv']

theorem Unambiguous.settled {g : Grammar} (h : Unambiguous g) : CountsSettled g := by
  intro r hr h1 w k k' hk hk' hok
  rwa [← (h.2 r hr).1.count h1 hk hk']

theorem AltOnce.opt {g : Grammar} {a : Alt} (h : AltOnce g a) (hn : ¬ DerivesAlt g a []) : AltOnce g ([] :: a) := by
  refine ⟨List.pairwise_cons.mpr ⟨fun d hd w hw hdw => ?_, h.1⟩, fun c hc => ?_⟩
  · cases hw
    exact hn (.mk _ d _ hd hdw)
  · rcases List.mem_cons.mp hc with rfl | hc
    · intro p r s he
      simp at he
    · exact h.2 c hc

end Spec

section
variable {g : Grammar} {root : Str} {sg : SG} {ix : List (Str × Nat)} {inp : Bytes}

/-- How an advance over the `k`-th repetition of a concatenation reads in the grammar. -/
def AdvWords (g : Grammar) (inp : Bytes) (c : Concat) (k l m r : Nat) : Prop :=
  (c = [] ∧ l = m ∧ m = r) ∨
  ∃ u v rep, c[k]? = some rep ∧ At inp l m u ∧ DerivesConcat g (c.take k) u ∧ At inp m r v ∧ DerivesRep g rep v

theorem at_join {l m r : Nat} {u v : Bytes} (h1 : At inp l m u) (h2 : At inp m r v) : At inp l r (u ++ v) := by
  rw [at_append]
  exact ⟨⟨h1.1, rfl⟩, h1.2 ▸ h2⟩

theorem DerivesConcat.snoc {c : Concat} {u v : Bytes} {r : Rep} (h : DerivesConcat g c u) (hr : DerivesRep g r v) :
    DerivesConcat g (c ++ [r]) (u ++ v) := by
  induction c generalizing u with
  | nil =>
    cases h
    have := DerivesConcat.cons r [] v [] hr .nil
    simpa using this
  | cons q c ih =>
    cases h with
    | cons _ _ a b ha hb =>
      rw [List.append_assoc]
      exact .cons _ _ _ _ ha (ih hb)

theorem adv_words (hl : Lowered g root sg ix) (hdp : DistinctPrint g) (hwf : NumValsWF g) {L : Slot} {l m r : Nat}
    (h : Reach sg inp (.adv L l m r)) (hnr : (sg.nt L.nt).isRep = false) {a : Alt}
    (ha : SymAlts ix a (sg.nt L.nt).alts) (hm : ∀ r ∈ altReps a, r ∈ allReps g) :
    ∃ c, a[L.alt]? = some c ∧ AdvWords g inp c (L.dot - 1) l m r ∧
      (L.dot = (sg.prod L).length → ∃ w, At inp l r w ∧ DerivesConcat g c w) := by
  obtain ⟨h1, h2, rc, s, u, _, _, h3, h4, h5⟩ := reach_sound h
  have hlt := alt_lt h1 h2
  have hlen := ha.length_eq
  have hlt' : L.alt < a.length := by rw [hlen]; exact hlt
  have hget : (sg.nt L.nt).alts[L.alt]? = some (sg.prod L) := by
    unfold SG.prod
    rw [List.getD_eq_getElem?_getD]
    show _ = some ((sg.alts L.nt)[L.alt]?.getD [])
    rw [List.getElem?_eq_getElem hlt]
    exact List.getElem?_eq_getElem hlt
  refine ⟨a[L.alt], List.getElem?_eq_getElem hlt', ?_⟩
  obtain ⟨raw, hraw, hp⟩ : SymConcat ix a[L.alt] (sg.prod L) := by
    have := List.forall₂_iff_get.mp ha
    have := this.2 L.alt hlt' hlt
    simp only [List.get_eq_getElem] at this
    rwa [show (sg.nt L.nt).alts[L.alt] = sg.prod L by
      exact Option.some.inj ((List.getElem?_eq_getElem (l := (sg.nt L.nt).alts) hlt).symm.trans hget)] at this
  have hmem : ∀ q ∈ a[L.alt], q ∈ allReps g := fun q hq => hm q (mem_altReps (List.getElem_mem _) hq)
  by_cases he : raw = []
  · rw [if_pos he] at hp
    subst he
    rw [hp] at h2 h3
    have hd : L.dot = 1 := by simp at h2; omega
    have hs : s = .eps := by rw [hd] at h3; simpa using h3.symm
    subst hs
    have hlm := adv_pivot h hd
    have hmr := matchSym_eps (symD_match h5 nofun)
    have hc : a[L.alt] = [] := List.forall₂_nil_right_iff.mp hraw
    refine ⟨.inl ⟨hc, hlm, hmr⟩, fun _ => ⟨[], (at_nil _ _ _).mpr (by omega), ?_⟩⟩
    rw [hc]; exact .nil
  · rw [if_neg he] at hp
    rw [hp] at h2 h3 h4
    have hk : L.dot - 1 < a[L.alt].length := by rw [hraw.length_eq]; omega
    have htake : List.Forall₂ (SymRep ix) (a[L.alt].take (L.dot - 1)) (raw.take (L.dot - 1)) :=
      List.forall₂_take _ hraw
    obtain ⟨w, hw, hdw⟩ := seqMeans_concat hwf hnr htake (fun q hq => hmem q (List.mem_of_mem_take hq))
      (seqD_means hl hdp hwf h4)
    have hsr : SymRep ix a[L.alt][L.dot - 1] s := by
      have := (List.forall₂_iff_get.mp hraw).2 (L.dot - 1) hk (by omega)
      simp only [List.get_eq_getElem] at this
      rwa [show raw[L.dot - 1] = s by
        rw [List.getElem?_eq_getElem (by omega)] at h3; exact Option.some.inj h3] at this
    obtain ⟨v, hv, hdv⟩ := symMeans_rep hwf hnr (hmem _ (List.getElem_mem _)) hsr (symD_means hl hdp hwf h5)
    refine ⟨.inr ⟨w, v, _, List.getElem?_eq_getElem hk, hw, hdw, hv, hdv⟩, fun hfull => ⟨w ++ v, at_join hw hv, ?_⟩⟩
    have hc : a[L.alt] = a[L.alt].take (L.dot - 1) ++ [a[L.alt][L.dot - 1]] := by
      rw [List.take_append_getElem hk, Nat.sub_add_cancel h1, List.take_of_length_le]
      rw [hraw.length_eq, hfull, hp]
    rw [hc]
    exact DerivesConcat.snoc hdw hdv

/-- Two advances giving the same node are the same. -/
theorem adv_unique_alt (hl : Lowered g root sg ix) (hdp : DistinctPrint g) (hwf : NumValsWF g) {L L' : Slot}
    {l m m' r : Nat} (h : Reach sg inp (.adv L l m r)) (h' : Reach sg inp (.adv L' l m' r)) (hn : L.nt = L'.nt)
    (hd : (L.dot = (sg.prod L).length ∧ L'.dot = (sg.prod L').length) ∨ L = L') (hnr : (sg.nt L.nt).isRep = false)
    {a : Alt} (ha : SymAlts ix a (sg.nt L.nt).alts) (hm : ∀ r ∈ altReps a, r ∈ allReps g) (hu : AltOnce g a) :
    L = L' ∧ m = m' := by
  obtain ⟨c, h1, h2, h3⟩ := adv_words hl hdp hwf h hnr ha hm
  obtain ⟨c', h1', h2', h3'⟩ := adv_words hl hdp hwf h' (hn ▸ hnr) (hn ▸ ha) hm
  have hL : L = L' := by
    rcases hd with ⟨hd, hd'⟩ | hd
    · obtain ⟨w, hw, hdw⟩ := h3 hd
      obtain ⟨w', hw', hdw'⟩ := h3' hd'
      obtain rfl := at_unique hw hw'
      have halt : L.alt = L'.alt := by
        have hlt := (List.getElem?_eq_some_iff.mp h1)
        have hlt' := (List.getElem?_eq_some_iff.mp h1')
        obtain ⟨i1, rfl⟩ := hlt
        obtain ⟨i2, rfl⟩ := hlt'
        rcases Nat.lt_trichotomy L.alt L'.alt with hlt | heq | hgt
        · exact absurd hdw' (List.pairwise_iff_getElem.mp hu.1 _ _ i1 i2 hlt w hdw)
        · exact heq
        · exact absurd hdw (List.pairwise_iff_getElem.mp hu.1 _ _ i2 i1 hgt w hdw')
      have hprod : sg.prod L = sg.prod L' := by unfold SG.prod; rw [hn, halt]
      cases L; cases L'
      simp only at hn halt hd hd'
      subst hn halt
      rw [hd, hd', hprod]
    · exact hd
  subst hL
  refine ⟨rfl, ?_⟩
  rw [h1] at h1'
  obtain rfl := Option.some.inj h1'
  rcases h2 with ⟨rfl, e1, e2⟩ | ⟨u, v, q, q1, q2, q3, q4, q5⟩
  · rcases h2' with ⟨_, e3, e4⟩ | ⟨_, _, _, q1, _⟩
    · omega
    · simp at q1
  · rcases h2' with ⟨rfl, e3, e4⟩ | ⟨u', v', q', q1', q2', q3', q4', q5'⟩
    · simp at q1
    · rw [q1] at q1'
      obtain rfl := Option.some.inj q1'
      have he := at_unique (at_join q2 q4) (at_join q2' q4')
      obtain ⟨hk, hq⟩ := List.getElem?_eq_some_iff.mp q1
      have := hu.2 c (List.mem_of_getElem? h1) (c.take (L.dot - 1)) q (c.drop (L.dot - 1 + 1)) (by
        rw [← hq, ← List.drop_eq_getElem_cons hk, List.take_append_drop]) u v u' v' q3 q5 q3' q5' he
      subst this
      have e1 := q2.2
      have e2 := q2'.2
      omega

/-- Two advances giving the same node are the same. -/
theorem adv_unique (hl : Lowered g root sg ix) (hdp : DistinctPrint g) (hwf : NumValsWF g) (hu : Unambiguous g)
    {L L' : Slot} {l m m' r : Nat} (h : Reach sg inp (.adv L l m r)) (h' : Reach sg inp (.adv L' l m' r))
    (hnu : ¬ Unary sg L) (hnu' : ¬ Unary sg L') (hn : L.nt = L'.nt)
    (hd : (L.dot = (sg.prod L).length ∧ L'.dot = (sg.prod L').length) ∨ L = L') : L = L' ∧ m = m' := by
  obtain ⟨h1, h2, rc, s, u, hfr, _, h3, h4, h5⟩ := reach_sound h
  have hlt : L.nt < sg.nts.length := by
    by_contra hge
    have := alt_lt h1 h2
    unfold SG.alts at this
    rw [nt_out (by omega)] at this
    simp at this
  obtain ⟨o, nt, ho, hk, hnt, hc⟩ := hl.filled L.nt hlt
  have hkey := hl.good.index_get.mpr hk
  have hnt' := nt_of_get? hnt
  rw [← hnt'] at hc
  cases o with
  | rule n =>
    obtain ⟨hnr, hc⟩ := hc
    split at hc
    · have := alt_lt h1 h2
      unfold SG.alts at this
      rw [hc] at this
      simp at this
    · rename_i q hq
      refine adv_unique_alt hl hdp hwf h h' hn hd hnr hc.2.2 (fun p hp => mem_allReps hq hp) (hu.1 q ?_)
      have := getRule_resolves hq
      rw [List.mem_append]
      cases this with
      | user h _ => exact .inl h
      | core h _ _ => exact .inr h
  | grp a =>
    obtain ⟨q, hq, he⟩ := ho
    have := (hu.2 q hq).2
    rw [he] at this
    exact adv_unique_alt hl hdp hwf h h' hn hd hc.2.1 hc.2.2 (fun p hp => allReps_closed hq (by rw [he]; exact hp)) this
  | opt a =>
    obtain ⟨q, hq, he⟩ := ho
    have := (hu.2 q hq).2
    rw [he] at this
    obtain ⟨_, hnr, out, hout, halts⟩ := hc
    refine adv_unique_alt hl hdp hwf h h' hn hd hnr (a := [] :: a) ?_ (fun p hp => allReps_closed hq (by
      rw [he]; rw [altReps, concatReps] at hp; exact hp)) (this.1.opt this.2)
    rw [halts]
    exact .cons ⟨[], .nil, rfl⟩ hout
  | rep q =>
    obtain ⟨hq, hq1⟩ := ho
    obtain ⟨hne, hsp⟩ := (hu.2 q hq).1 hq1
    rcases hc.2 with ⟨_, _, _, hnt0⟩ | ⟨_, hrep, hmin, hmax, id, es, hid, hes, halts⟩
    · have := alt_lt h1 h2
      unfold SG.alts at this
      rw [hnt0] at this
      simp at this
    have hid' : id = L.nt := by
      have := hkey.symm.trans hid
      simpa using this.symm
    -- how each advance looks
    have key : ∀ {M : Slot} {p : Nat}, Reach sg inp (.adv M l p r) → ¬ Unary sg M → M.nt = L.nt →
        (M = ⟨L.nt, 0, 1⟩ ∧ l = p ∧ p = r) ∨ (M = ⟨L.nt, 1, 2⟩ ∧ ∃ u v, At inp l p u ∧ Derives g q.elem u ∧
          At inp p r v ∧ ∃ k, DerivesTimes g q.elem k v) := by
      intro M p hM hMu hMn
      obtain ⟨k1, k2, rc, s, u, hfr, _, k3, k4, k5⟩ := reach_sound hM
      have hal := alt_lt k1 k2
      unfold SG.alts at hal
      rw [hMn, halts] at hal
      simp only [List.length_cons, List.length_nil] at hal
      obtain ⟨mn, ma, md⟩ := M
      simp only at hMn hal k1
      rw [← hMn] at halts hrep hmin hmax hid' ⊢
      have hp0 : sg.prod ⟨mn, 0, md⟩ = [.eps] := by simp [SG.prod, SG.alts, halts]
      have hp1 : sg.prod ⟨mn, 1, md⟩ = [es, .nt id] := by simp [SG.prod, SG.alts, halts]
      rcases (show ma = 0 ∨ ma = 1 by omega) with rfl | rfl
      · left
        rw [hp0] at k2 k3
        have : md = 1 := by simp at k2; omega
        subst this
        have hs : s = .eps := by simpa using k3.symm
        subst hs
        exact ⟨rfl, adv_pivot hM rfl, matchSym_eps (symD_match k5 nofun)⟩
      · right
        have hmd : md = 2 := by
          rw [hp1] at k2
          simp at k2
          by_contra hne
          exact hMu ⟨by simp only; omega, by rw [hp1]; simp only [List.length_cons, List.length_nil]; omega⟩
        subst hmd
        rw [hp1] at k3 k4
        have hs : s = .nt id := by simpa using k3.symm
        subst hs
        refine ⟨rfl, ?_⟩
        have k6 := seqD_one (by simpa using k4)
        obtain ⟨w, hw, hdw⟩ := symMeans_elem hwf ⟨q, hq, rfl⟩ hes (symD_means hl hdp hwf k6)
        have hm := (symD_means hl hdp hwf k5).2.2 (.rep q) id ⟨hq, hq1⟩ rfl hid
        have halt : 1 ∈ startAlts sg mn rc := by
          have hst : (sg.nt sg.start).isRep = false := hl.ok.start
          cases u with
          | none =>
            obtain ⟨e1, _⟩ := hfr
            simp only at e1
            subst e1
            rw [hst] at hrep
            cases hrep
          | some v => exact hfr.2.2.2
        subst hid'
        have hcond : ∀ m, q.max = some m → rc < m := by
          intro m hm
          simp only [startAlts, hrep, if_true, List.mem_append, hmin, hmax, hm] at halt
          rcases halt with ha | ha
          · split_ifs at ha <;> simp at ha
          · by_contra hlt
            simp [hlt] at ha
        have hch : childRC sg id rc id = capRC rc (sg.nt id) := by simp [childRC, hrep]
        rw [hch] at hm
        obtain ⟨v, k, hv, hdv, _⟩ := hm (by
          intro m hm
          rw [hm] at hmax
          rw [capRC_some hmax]
          exact hcond m hm)
        exact ⟨w, v, hw, hdw, hv, k, hdv⟩
    rcases key h hnu rfl with ⟨e1, e2, e3⟩ | ⟨e1, u, v, q1, q2, q3, q4⟩
    · rcases key h' hnu' hn.symm with ⟨e4, e5, e6⟩ | ⟨_, u', v', q1', q2', q3', _⟩
      · exact ⟨e1.trans e4.symm, by omega⟩
      · exfalso
        have := at_unique (at_join q1' q3') ((at_nil inp l r).mpr (by omega))
        exact hne ((List.append_eq_nil_iff.mp this).1 ▸ q2')
    · rcases key h' hnu' hn.symm with ⟨_, e5, e6⟩ | ⟨e4, u', v', q1', q2', q3', q4'⟩
      · exfalso
        have := at_unique (at_join q1 q3) ((at_nil inp l r).mpr (by omega))
        exact hne ((List.append_eq_nil_iff.mp this).1 ▸ q2)
      · refine ⟨e1.trans e4.symm, ?_⟩
        have := hsp u v u' v' q2 q4 q2' q4' (at_unique (at_join q1 q3) (at_join q1' q3'))
        subst this
        have e1 := q1.2
        have e2 := q1'.2
        omega

/-- Two advances giving the same node are the same. -/
theorem node_unique (hl : Lowered g root sg ix) (hdp : DistinctPrint g) (hwf : NumValsWF g) (hu : Unambiguous g)
    {L L' : Slot} {l m r l' m' r' : Nat} (h1 : Reach sg inp (.adv L l m r)) (h1' : Reach sg inp (.adv L' l' m' r'))
    (h2 : ¬ Unary sg L) (h2' : ¬ Unary sg L') (hk : nodeFor sg L l r = nodeFor sg L' l' r') :
    L = L' ∧ l = l' ∧ m = m' ∧ r = r' := by
  have hl' : l = l' := by simpa [nodeFor_start] using congrArg NodeKey.start hk
  have hr' : r = r' := by simpa [nodeFor_fin] using congrArg NodeKey.fin hk
  subst hl' hr'
  unfold nodeFor at hk
  have hnd : L.nt = L'.nt ∧ ((L.dot = (sg.prod L).length ∧ L'.dot = (sg.prod L').length) ∨ L = L') := by
    by_cases c1 : L.dot = (sg.prod L).length
    · by_cases c1' : L'.dot = (sg.prod L').length
      · rw [if_pos c1, if_pos c1'] at hk
        exact ⟨by injection hk, .inl ⟨c1, c1'⟩⟩
      · have c2' : ¬ L'.dot = 1 := fun h => h2' ⟨h, c1'⟩
        rw [if_pos c1, if_neg c1', if_neg c2'] at hk
        cases hk
    · have c2 : ¬ L.dot = 1 := fun h => h2 ⟨h, c1⟩
      by_cases c1' : L'.dot = (sg.prod L').length
      · rw [if_neg c1, if_neg c2, if_pos c1'] at hk
        cases hk
      · have c2' : ¬ L'.dot = 1 := fun h => h2' ⟨h, c1'⟩
        rw [if_neg c1, if_neg c2, if_neg c1', if_neg c2'] at hk
        have : L = L' := by injection hk
        exact ⟨by rw [this], .inr this⟩
  obtain ⟨e1, e2⟩ := adv_unique hl hdp hwf hu h1 h1' h2 h2' hnd.1 hnd.2
  exact ⟨e1, rfl, e2, rfl⟩

/-- A node has at most one packing. -/
theorem packs_unique {f : Forest} (hl : Lowered g root f.sg ix) (hdp : DistinctPrint g) (hwf : NumValsWF g)
    (hu : Unambiguous g) (hi : Inv f.sg inp f.st) {k : NodeKey} {ch ch' : List NodeKey} (h : (k, ch) ∈ f.st.packs)
    (h' : (k, ch') ∈ f.st.packs) : ch = ch' := by
  obtain ⟨_, _, L, l, m, r, h1, h2, h3, rfl⟩ := hi.packs _ _ h
  obtain ⟨_, _, L', l', m', r', h1', h2', h3', rfl⟩ := hi.packs _ _ h'
  obtain ⟨e1, e2, e3, e4⟩ := node_unique hl hdp hwf hu h1 h1' h2 h2' (h3.symm.trans h3')
  rw [e1, e2, e3, e4]

end
end Verif
