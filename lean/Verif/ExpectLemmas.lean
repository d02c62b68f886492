import Verif.Expect
import Verif.FuzzNode
import Mathlib.Data.Nat.Bitwise

/-!
# The simulation behind `ExpectedNext`
-/

namespace Verif

open Spec

/-! ## Sets of octets -/

theorem octetHas_bit (s : OctetSet) (b : UInt8) : octetHas s b = (s (b.toNat >>> 6)).testBit (b.toNat &&& 63) := by
  unfold octetHas
  rw [Nat.one_shiftLeft, Nat.and_two_pow]
  cases (s (b.toNat >>> 6)).testBit (b.toNat &&& 63) <;> simp

@[simp] theorem octetHas_none (b : UInt8) : octetHas octetNone b = false := by
  rw [octetHas_bit]
  exact Nat.zero_testBit _

theorem octet_parts {b c : UInt8} (h1 : b.toNat >>> 6 = c.toNat >>> 6) (h2 : b.toNat &&& 63 = c.toNat &&& 63) : b = c := by
  apply UInt8.toNat_inj.mp
  have e : (63 : Nat) = 2 ^ 6 - 1 := rfl
  rw [e, Nat.and_two_pow_sub_one_eq_mod, Nat.and_two_pow_sub_one_eq_mod] at h2
  rw [Nat.shiftRight_eq_div_pow, Nat.shiftRight_eq_div_pow] at h1
  omega

@[simp] theorem octetHas_add (s : OctetSet) (b c : UInt8) : octetHas (octetAdd s b) c = true ↔ octetHas s c = true ∨ c = b := by
  rw [octetHas_bit, octetHas_bit]
  unfold octetAdd
  by_cases h1 : c.toNat >>> 6 = b.toNat >>> 6
  · rw [if_pos h1, Nat.testBit_or, Nat.one_shiftLeft, Nat.testBit_two_pow, Bool.or_eq_true, decide_eq_true_eq]
    constructor
    · rintro (h | h)
      · exact .inl h
      · exact .inr (octet_parts h1 h.symm)
    · rintro (h | rfl)
      · exact .inl h
      · exact .inr rfl
  · rw [if_neg h1]
    constructor
    · exact .inl
    · rintro (h | rfl)
      · exact h
      · exact absurd rfl h1

@[simp] theorem octetHas_union (s t : OctetSet) (b : UInt8) : octetHas (octetUnion s t) b = true ↔ octetHas s b = true ∨ octetHas t b = true := by
  simp only [octetHas_bit, octetUnion, Nat.testBit_or, Bool.or_eq_true]

theorem mem_octetBytes {s : OctetSet} {b : UInt8} : b ∈ octetBytes s ↔ octetHas s b = true := by
  unfold octetBytes
  rw [List.mem_filter, and_iff_right]
  refine List.mem_map.mpr ⟨b.toNat, List.mem_range.mpr b.toNat_lt, UInt8.ofNat_toNat⟩

/-! ## Emissions -/

/-- The texts of an emission. -/
def Matches (em : Emission) (w : Bytes) : Prop := List.Forall₂ (fun s b => octetHas s b = true) em w

theorem Matches.append {a b : Emission} {u v : Bytes} (h1 : Matches a u) (h2 : Matches b v) : Matches (a ++ b) (u ++ v) :=
  List.rel_append h1 h2

theorem matches_runeSets (c : Char) (w : Bytes) : Matches (runeSets c) w ↔ w = encodeRune c := by
  unfold Matches runeSets
  generalize encodeRune c = bs
  induction bs generalizing w with
  | nil => simp
  | cons b bs ih =>
    rw [List.map_cons, List.forall₂_cons_left_iff]
    constructor
    · rintro ⟨d, w', h1, h2, rfl⟩
      rw [(ih w').mp h2]
      simp only [octetHas_add, octetHas_none, Bool.false_eq_true, false_or] at h1
      rw [h1]
    · rintro rfl
      exact ⟨b, bs, by simp, (ih bs).mpr rfl, rfl⟩

/-! ## The simulation -/

/-- The emission of number `i` of a node. -/
def EmAt (ems : Nat → Option (List Emission)) (n i : Nat) (em : Emission) : Prop := ∃ es, ems n = some es ∧ es[i]? = some em

/-- What may still come at a state: the rest of the node, then a way to an end point. -/
def Cont (D : Elem → Bytes → Prop) (h : TgHeap) (outs : Pts) (ems : Nat → Option (List Emission)) (s : ExpState) (w : Bytes) : Prop :=
  ∃ em y v, EmAt ems s.node s.em em ∧ Matches (em.drop s.pos) y ∧ y ≠ [] ∧ w = y ++ v ∧
    ((some s.node ∈ outs ∧ v = []) ∨ ∃ m ∈ h.nexts s.node, Spells D h outs m v)

theorem mem_expPush {s t : ExpState} {l : List ExpState} : t ∈ expPush s l ↔ t ∈ l ∨ t = s := by
  unfold expPush
  split_ifs with h
  · constructor
    · exact .inl
    · rintro (h' | rfl)
      · exact h'
      · exact h
  · simp

theorem mem_expStart {n : Nat} {t : ExpState} (es : List Emission) : ∀ i l, t ∈ expStart n i es l ↔
    t ∈ l ∨ ∃ j em, es[j]? = some em ∧ em ≠ [] ∧ t = ⟨n, i + j, 0⟩ := by
  induction es with
  | nil => intro i l; simp [expStart]
  | cons e es ih =>
    intro i l
    rw [expStart, ih]
    constructor
    · rintro (h1 | ⟨j, em, h1, h2, rfl⟩)
      · split_ifs at h1 with h3
        · rcases mem_expPush.mp h1 with h1 | rfl
          · exact .inl h1
          · exact .inr ⟨0, e, rfl, List.length_pos_iff.mp h3, rfl⟩
        · exact .inl h1
      · exact .inr ⟨j + 1, em, h1, h2, by simp only [ExpState.mk.injEq, true_and, and_true]; omega⟩
    · rintro (h1 | ⟨j, em, h1, h2, rfl⟩)
      · left
        split_ifs
        · exact mem_expPush.mpr (.inl h1)
        · exact h1
      · cases j with
        | zero =>
          left
          simp only [List.getElem?_cons_zero, Option.some.injEq] at h1
          subst h1
          rw [if_pos (List.length_pos_iff.mpr h2)]
          exact mem_expPush.mpr (.inr rfl)
        | succ j => exact .inr ⟨j, em, h1, h2, by simp only [ExpState.mk.injEq, true_and, and_true]; omega⟩

theorem expStartAll_spec {ems : Nat → Option (List Emission)} (ns : List Nat) : ∀ l l', expStartAll ems ns l = some l' →
    (∀ n ∈ ns, ∃ es, ems n = some es) ∧
    ∀ t, t ∈ l' ↔ t ∈ l ∨ ∃ n ∈ ns, ∃ i em, EmAt ems n i em ∧ em ≠ [] ∧ t = ⟨n, i, 0⟩ := by
  induction ns with
  | nil => intro l l' h; simp only [expStartAll, Option.some.injEq] at h; subst h; simp
  | cons n ns ih =>
    intro l l' h
    rw [expStartAll] at h
    split at h
    · cases h
    · rename_i es he
      obtain ⟨h1, h2⟩ := ih _ _ h
      refine ⟨fun m hm => ?_, fun t => ?_⟩
      · rcases List.mem_cons.mp hm with rfl | hm
        · exact ⟨es, he⟩
        · exact h1 m hm
      · rw [h2, mem_expStart]
        constructor
        · rintro ((h3 | ⟨j, em, h3, h4, rfl⟩) | ⟨m, h3, h4⟩)
          · exact .inl h3
          · exact .inr ⟨n, List.mem_cons_self .., j, em, ⟨es, he, h3⟩, h4, by rw [Nat.zero_add]⟩
          · exact .inr ⟨m, List.mem_cons_of_mem _ h3, h4⟩
        · rintro (h3 | ⟨m, h3, j, em, ⟨es', h4, h5⟩, h6, rfl⟩)
          · exact .inl (.inl h3)
          · rcases List.mem_cons.mp h3 with rfl | h3
            · rw [he] at h4
              obtain rfl := Option.some.inj h4
              exact .inl (.inr ⟨j, em, h5, h6, by rw [Nat.zero_add]⟩)
            · exact .inr ⟨m, h3, j, em, ⟨es', h4, h5⟩, h6, rfl⟩

theorem setAt_eq {ems : Nat → Option (List Emission)} {s : ExpState} {em : Emission} (h : EmAt ems s.node s.em em) :
    setAt ems s = em.getD s.pos octetNone ∧ lenAt ems s = em.length := by
  obtain ⟨es, h1, h2⟩ := h
  unfold setAt lenAt
  have h3 : es.getD s.em [] = em := by rw [List.getD_eq_getElem?_getD, h2, Option.getD_some]
  rw [h1, Option.getD_some, h3]
  exact ⟨rfl, rfl⟩

/-- The step from a state over an octet. -/
inductive Moves (h : TgHeap) (ems : Nat → Option (List Emission)) (b : UInt8) (s : ExpState) : ExpState → Prop
  | stay : octetHas (setAt ems s) b = true → s.pos + 1 ≠ lenAt ems s → Moves h ems b s ⟨s.node, s.em, s.pos + 1⟩
  | next (m i em) : octetHas (setAt ems s) b = true → s.pos + 1 = lenAt ems s → m ∈ h.nexts s.node → EmAt ems m i em → em ≠ [] →
      Moves h ems b s ⟨m, i, 0⟩

/-- A state completes an end point over an octet. -/
def Completes (outs : Pts) (ems : Nat → Option (List Emission)) (b : UInt8) (s : ExpState) : Prop :=
  octetHas (setAt ems s) b = true ∧ s.pos + 1 = lenAt ems s ∧ some s.node ∈ outs

theorem expStep_spec {h : TgHeap} {f : TgFrag} {ems : Nat → Option (List Emission)} {b : UInt8} (ss : List ExpState) : ∀ l last l' last',
    expStep h f ems b ss l last = some (l', last') →
    (∀ t, t ∈ l' ↔ t ∈ l ∨ ∃ s ∈ ss, Moves h ems b s t) ∧ (last' = true ↔ last = true ∨ ∃ s ∈ ss, Completes f.outs ems b s) ∧
    ∀ s ∈ ss, octetHas (setAt ems s) b = true → s.pos + 1 = lenAt ems s → ∀ m ∈ h.nexts s.node, ∃ es, ems m = some es := by
  induction ss with
  | nil =>
    intro l last l' last' H
    simp only [expStep, Option.some.injEq, Prod.mk.injEq] at H
    obtain ⟨rfl, rfl⟩ := H
    simp
  | cons s ss ih =>
    intro l last l' last' H
    rw [expStep] at H
    by_cases hb : octetHas (setAt ems s) b = true
    · rw [if_pos hb] at H
      by_cases hl : s.pos + 1 = lenAt ems s
      · rw [if_pos hl] at H
        split at H
        · cases H
        · rename_i l1 hs
          obtain ⟨h1, h2⟩ := expStartAll_spec _ _ _ hs
          obtain ⟨h3, h4, h5⟩ := ih _ _ _ _ H
          refine ⟨fun t => ?_, ?_, fun t ht => ?_⟩
          · rw [h3, h2]
            constructor
            · rintro ((h6 | ⟨m, h6, i, em, h7, h8, rfl⟩) | ⟨t', h6, h7⟩)
              · exact .inl h6
              · exact .inr ⟨s, List.mem_cons_self .., .next m i em hb hl h6 h7 h8⟩
              · exact .inr ⟨t', List.mem_cons_of_mem _ h6, h7⟩
            · rintro (h6 | ⟨t', h6, h7⟩)
              · exact .inl (.inl h6)
              · rcases List.mem_cons.mp h6 with rfl | h6
                · cases h7 with
                  | stay h8 h9 => exact absurd hl h9
                  | next m i em h8 h9 h10 h11 h12 => exact .inl (.inr ⟨m, h10, i, em, h11, h12, rfl⟩)
                · exact .inr ⟨t', h6, h7⟩
          · rw [h4, Bool.or_eq_true, decide_eq_true_eq]
            constructor
            · rintro ((h6 | h6) | ⟨t', h6, h7⟩)
              · exact .inl h6
              · exact .inr ⟨s, List.mem_cons_self .., hb, hl, h6⟩
              · exact .inr ⟨t', List.mem_cons_of_mem _ h6, h7⟩
            · rintro (h6 | ⟨t', h6, h7⟩)
              · exact .inl (.inl h6)
              · rcases List.mem_cons.mp h6 with rfl | h6
                · exact .inl (.inr h7.2.2)
                · exact .inr ⟨t', h6, h7⟩
          · rcases List.mem_cons.mp ht with rfl | ht
            · exact fun _ _ => h1
            · exact h5 t ht
      · rw [if_neg hl] at H
        obtain ⟨h3, h4, h5⟩ := ih _ _ _ _ H
        refine ⟨fun t => ?_, ?_, fun t ht => ?_⟩
        · rw [h3, mem_expPush]
          constructor
          · rintro ((h6 | rfl) | ⟨t', h6, h7⟩)
            · exact .inl h6
            · exact .inr ⟨s, List.mem_cons_self .., .stay hb hl⟩
            · exact .inr ⟨t', List.mem_cons_of_mem _ h6, h7⟩
          · rintro (h6 | ⟨t', h6, h7⟩)
            · exact .inl (.inl h6)
            · rcases List.mem_cons.mp h6 with rfl | h6
              · cases h7 with
                | stay h8 h9 => exact .inl (.inr rfl)
                | next m i em h8 h9 h10 h11 h12 => exact absurd h9 hl
              · exact .inr ⟨t', h6, h7⟩
        · rw [h4]
          constructor
          · rintro (h6 | ⟨t', h6, h7⟩)
            · exact .inl h6
            · exact .inr ⟨t', List.mem_cons_of_mem _ h6, h7⟩
          · rintro (h6 | ⟨t', h6, h7⟩)
            · exact .inl h6
            · rcases List.mem_cons.mp h6 with rfl | h6
              · exact absurd h7.2.1 hl
              · exact .inr ⟨t', h6, h7⟩
        · rcases List.mem_cons.mp ht with rfl | ht
          · exact fun _ h6 => absurd h6 hl
          · exact h5 t ht
    · rw [if_neg hb] at H
      obtain ⟨h3, h4, h5⟩ := ih _ _ _ _ H
      refine ⟨fun t => ?_, ?_, fun t ht => ?_⟩
      · rw [h3]
        constructor
        · rintro (h6 | ⟨t', h6, h7⟩)
          · exact .inl h6
          · exact .inr ⟨t', List.mem_cons_of_mem _ h6, h7⟩
        · rintro (h6 | ⟨t', h6, h7⟩)
          · exact .inl h6
          · rcases List.mem_cons.mp h6 with rfl | h6
            · cases h7 <;> exact absurd (by assumption) hb
            · exact .inr ⟨t', h6, h7⟩
      · rw [h4]
        constructor
        · rintro (h6 | ⟨t', h6, h7⟩)
          · exact .inl h6
          · exact .inr ⟨t', List.mem_cons_of_mem _ h6, h7⟩
        · rintro (h6 | ⟨t', h6, h7⟩)
          · exact .inl h6
          · rcases List.mem_cons.mp h6 with rfl | h6
            · exact absurd h7.1 hb
            · exact .inr ⟨t', h6, h7⟩
      · rcases List.mem_cons.mp ht with rfl | ht
        · exact fun h6 => absurd h6 hb
        · exact h5 t ht

/-! ## Completeness -/

/-- `D` is covered by the emissions, where these are known. -/
def Covers (D : Elem → Bytes → Prop) (h : TgHeap) (ems : Nat → Option (List Emission)) : Prop :=
  ∀ n es w, ems n = some es → D (h.elem n) w → w ≠ [] ∧ ∃ em ∈ es, Matches em w

theorem spells_cont {D : Elem → Bytes → Prop} {h : TgHeap} {outs : Pts} {ems : Nat → Option (List Emission)} (HD : Covers D h ems)
    {n : Nat} {w : Bytes} (hs : Spells D h outs n w) (he : ∃ es, ems n = some es) :
    ∃ i em, EmAt ems n i em ∧ em ≠ [] ∧ Cont D h outs ems ⟨n, i, 0⟩ w := by
  obtain ⟨es, he⟩ := he
  have key : ∀ y v, D (h.elem n) y → ((some n ∈ outs ∧ v = []) ∨ ∃ m ∈ h.nexts n, Spells D h outs m v) →
      ∃ i em, EmAt ems n i em ∧ em ≠ [] ∧ Cont D h outs ems ⟨n, i, 0⟩ (y ++ v) := by
    intro y v hy hv
    obtain ⟨h1, em, h2, h3⟩ := HD n es y he hy
    obtain ⟨i, h4⟩ := List.mem_iff_getElem?.mp h2
    refine ⟨i, em, ⟨es, he, h4⟩, ?_, em, y, v, ⟨es, he, h4⟩, h3, h1, rfl, hv⟩
    rintro rfl
    cases h3
    exact h1 rfl
  cases hs with
  | stop _ _ h1 h2 =>
    obtain h := key w [] h2 (.inl ⟨h1, rfl⟩)
    rwa [List.append_nil] at h
  | step _ m u v h1 h2 h3 => exact key u v h1 (.inr ⟨m, h2, h3⟩)

theorem cont_has {D : Elem → Bytes → Prop} {h : TgHeap} {outs : Pts} {ems : Nat → Option (List Emission)} {s : ExpState} {b : UInt8}
    {w : Bytes} (H : Cont D h outs ems s (b :: w)) : octetHas (setAt ems s) b = true ∧
      ∃ em y v, EmAt ems s.node s.em em ∧ Matches (em.drop (s.pos + 1)) y ∧ w = y ++ v ∧ s.pos < em.length ∧
        ((some s.node ∈ outs ∧ v = []) ∨ ∃ m ∈ h.nexts s.node, Spells D h outs m v) := by
  obtain ⟨em, y, v, h1, h2, h3, h4, h5⟩ := H
  cases y with
  | nil => exact absurd rfl h3
  | cons c y =>
    simp only [List.cons_append, List.cons.injEq] at h4
    obtain ⟨rfl, rfl⟩ := h4
    cases hd : em.drop s.pos with
    | nil => rw [hd] at h2; cases h2
    | cons a as =>
      rw [hd] at h2
      cases h2 with
      | cons h6 h7 =>
        have hlt : s.pos < em.length := by
          by_contra hn
          rw [List.drop_eq_nil_of_le (by omega)] at hd
          cases hd
        rw [List.drop_eq_getElem_cons hlt, List.cons.injEq] at hd
        refine ⟨?_, em, y, v, h1, ?_, rfl, hlt, h5⟩
        · rw [(setAt_eq h1).1, List.getD_eq_getElem _ _ hlt, hd.1]
          exact h6
        · rw [hd.2]
          exact h7

theorem cont_step {D : Elem → Bytes → Prop} {h : TgHeap} {f : TgFrag} {ems : Nat → Option (List Emission)} (HD : Covers D h ems)
    {b : UInt8} {ss : List ExpState} {l' : List ExpState} {last' : Bool} (hstep : expStep h f ems b ss [] false = some (l', last'))
    {s : ExpState} (hs : s ∈ ss) {w : Bytes} (H : Cont D h f.outs ems s (b :: w)) :
    (w = [] ∧ last' = true) ∨ ∃ t ∈ l', Cont D h f.outs ems t w := by
  obtain ⟨h1, h2, h3⟩ := expStep_spec _ _ _ _ _ hstep
  obtain ⟨hb, em, y, v, h4, h5, rfl, h6, h7⟩ := cont_has H
  have hlen := (setAt_eq h4).2
  by_cases hl : s.pos + 1 = lenAt ems s
  · have hy : y = [] := by
      rw [List.drop_eq_nil_of_le (by omega)] at h5
      cases h5
      rfl
    subst hy
    rw [List.nil_append]
    rcases h7 with ⟨h8, rfl⟩ | ⟨m, h8, h9⟩
    · exact .inl ⟨rfl, h2.mpr (.inr ⟨s, hs, hb, hl, h8⟩)⟩
    · right
      obtain ⟨i, em', h10, h11, h12⟩ := spells_cont HD h9 (h3 s hs hb hl m h8)
      exact ⟨_, (h1 _).mpr (.inr ⟨s, hs, .next m i em' hb hl h8 h10 h11⟩), h12⟩
  · right
    refine ⟨_, (h1 _).mpr (.inr ⟨s, hs, .stay hb hl⟩), em, y, v, h4, h5, ?_, rfl, h7⟩
    rintro rfl
    have : em.length ≤ s.pos + 1 := by
      have := h5.length_eq
      simp only [List.length_drop, List.length_nil] at this
      omega
    omega

theorem expLoop_complete {D : Elem → Bytes → Prop} {h : TgHeap} {f : TgFrag} {ems : Nat → Option (List Emission)} (HD : Covers D h ems)
    (bs : Bytes) : ∀ ready last0 ready' last all, expLoop h f ems bs ready last0 = some (ready', last, all) →
    ∀ s ∈ ready, ∀ w, Cont D h f.outs ems s (bs ++ w) → all = true ∧ ((w = [] ∧ last = true) ∨ ∃ t ∈ ready', Cont D h f.outs ems t w) := by
  induction bs with
  | nil =>
    intro ready last0 ready' last all H s hs w hc
    simp only [expLoop, Option.some.injEq, Prod.mk.injEq] at H
    obtain ⟨rfl, rfl, rfl⟩ := H
    exact ⟨rfl, .inr ⟨s, hs, hc⟩⟩
  | cons b bs ih =>
    intro ready last0 ready' last all H s hs w hc
    rw [expLoop] at H
    rw [List.cons_append] at hc
    split at H
    · cases H
    · rename_i last1 hstep
      simp only [Option.some.injEq, Prod.mk.injEq] at H
      obtain ⟨rfl, rfl, rfl⟩ := H
      rcases cont_step HD hstep hs hc with ⟨h1, h2⟩ | ⟨t, ht, _⟩
      · obtain ⟨rfl, rfl⟩ := List.append_eq_nil_iff.mp h1
        exact ⟨rfl, .inl ⟨rfl, h2⟩⟩
      · cases ht
    · rename_i r rs last1 hstep
      rcases cont_step HD hstep hs hc with ⟨h1, h2⟩ | ⟨t, ht, hc'⟩
      · obtain ⟨rfl, rfl⟩ := List.append_eq_nil_iff.mp h1
        simp only [expLoop, Option.some.injEq, Prod.mk.injEq] at H
        obtain ⟨rfl, rfl, rfl⟩ := H
        exact ⟨rfl, .inl ⟨rfl, h2⟩⟩
      · exact ih _ _ _ _ _ H t ht w hc'

/-! ## Soundness -/

/-- `D` holds of what the emissions say. -/
def Covered (D : Elem → Bytes → Prop) (h : TgHeap) (ems : Nat → Option (List Emission)) : Prop :=
  ∀ n es em w, ems n = some es → em ∈ es → Matches em w → D (h.elem n) w

theorem cont_spells {D : Elem → Bytes → Prop} {h : TgHeap} {outs : Pts} {ems : Nat → Option (List Emission)} (HD : Covered D h ems)
    {n i : Nat} {w : Bytes} (H : Cont D h outs ems ⟨n, i, 0⟩ w) : Spells D h outs n w := by
  obtain ⟨em, y, v, ⟨es, h1, h1'⟩, h2, _, rfl, h4⟩ := H
  have hy := HD n es em y h1 (List.mem_of_getElem? h1') h2
  rcases h4 with ⟨h5, rfl⟩ | ⟨m, h5, h6⟩
  · rw [List.append_nil]
    exact .stop n y h5 hy
  · exact .step n m y v hy h5 h6

/-- A state in use. -/
def StateOK (ems : Nat → Option (List Emission)) (s : ExpState) : Prop := ∃ em, EmAt ems s.node s.em em ∧ s.pos < em.length

theorem moves_ok {h : TgHeap} {ems : Nat → Option (List Emission)} {b : UInt8} {s t : ExpState} (hs : StateOK ems s)
    (H : Moves h ems b s t) : StateOK ems t := by
  cases H with
  | stay h1 h2 =>
    obtain ⟨em, h3, h4⟩ := hs
    have := (setAt_eq h3).2
    exact ⟨em, h3, by show s.pos + 1 < em.length; omega⟩
  | next m i em h1 h2 h3 h4 h5 => exact ⟨em, h4, List.length_pos_iff.mpr h5⟩

theorem moves_cont {D : Elem → Bytes → Prop} {h : TgHeap} {outs : Pts} {ems : Nat → Option (List Emission)} (HD : Covered D h ems)
    {b : UInt8} {s t : ExpState} (hs : StateOK ems s) (H : Moves h ems b s t) {w : Bytes} (hc : Cont D h outs ems t w) :
    Cont D h outs ems s (b :: w) := by
  obtain ⟨em, h1, h2⟩ := hs
  obtain ⟨e1, e2⟩ := setAt_eq h1
  cases H with
  | stay h3 h4 =>
    obtain ⟨em', y, v, h5, h6, h7, rfl, h8⟩ := hc
    obtain rfl : em = em' := by
      obtain ⟨es, h9, h10⟩ := h1
      obtain ⟨es', h9', h10'⟩ := h5
      rw [h9] at h9'
      obtain rfl := Option.some.inj h9'
      rw [h10] at h10'
      exact Option.some.inj h10'
    refine ⟨em, b :: y, v, h1, ?_, List.cons_ne_nil _ _, rfl, h8⟩
    rw [List.drop_eq_getElem_cons h2]
    refine .cons ?_ h6
    rw [e1, List.getD_eq_getElem _ _ h2] at h3
    exact h3
  | next m i em' h3 h4 h5 h6 h7 =>
    refine ⟨em, [b], w, h1, ?_, List.cons_ne_nil _ _, rfl, .inr ⟨m, h5, cont_spells HD hc⟩⟩
    rw [List.drop_eq_getElem_cons h2, List.drop_eq_nil_of_le (by omega)]
    refine .cons ?_ .nil
    rw [e1, List.getD_eq_getElem _ _ h2] at h3
    exact h3

theorem completes_cont {D : Elem → Bytes → Prop} {h : TgHeap} {outs : Pts} {ems : Nat → Option (List Emission)} {b : UInt8}
    {s : ExpState} (hs : StateOK ems s) (H : Completes outs ems b s) : Cont D h outs ems s [b] := by
  obtain ⟨em, h1, h2⟩ := hs
  obtain ⟨e1, e2⟩ := setAt_eq h1
  obtain ⟨h3, h4, h5⟩ := H
  refine ⟨em, [b], [], h1, ?_, List.cons_ne_nil _ _, rfl, .inl ⟨h5, rfl⟩⟩
  rw [List.drop_eq_getElem_cons h2, List.drop_eq_nil_of_le (by omega)]
  refine .cons ?_ .nil
  rw [e1, List.getD_eq_getElem _ _ h2] at h3
  exact h3

theorem expLoop_sound {D : Elem → Bytes → Prop} {h : TgHeap} {f : TgFrag} {ems : Nat → Option (List Emission)} (HD : Covered D h ems)
    (bs : Bytes) : ∀ ready last0 ready' last, expLoop h f ems bs ready last0 = some (ready', last, true) → (∀ s ∈ ready, StateOK ems s) →
    (∀ t ∈ ready', StateOK ems t ∧ ∃ s ∈ ready, ∀ w, Cont D h f.outs ems t w → Cont D h f.outs ems s (bs ++ w)) ∧
    (bs ≠ [] → last = true → ∃ s ∈ ready, Cont D h f.outs ems s bs) := by
  induction bs with
  | nil =>
    intro ready last0 ready' last H hok
    simp only [expLoop, Option.some.injEq, Prod.mk.injEq] at H
    obtain ⟨rfl, rfl, _⟩ := H
    exact ⟨fun t ht => ⟨hok t ht, t, ht, fun w hw => hw⟩, fun h => absurd rfl h⟩
  | cons b bs ih =>
    intro ready last0 ready' last H hok
    rw [expLoop] at H
    split at H
    · cases H
    · rename_i last1 hstep
      simp only [Option.some.injEq, Prod.mk.injEq] at H
      obtain ⟨rfl, rfl, h0⟩ := H
      refine ⟨by simp, fun _ hl => ?_⟩
      have hnil : bs = [] := by simpa using h0
      subst hnil
      obtain ⟨h1, h2, _⟩ := expStep_spec _ _ _ _ _ hstep
      rcases h2.mp hl with h3 | ⟨s, h3, h4⟩
      · cases h3
      · exact ⟨s, h3, completes_cont (hok s h3) h4⟩
    · rename_i r rs last1 hstep
      obtain ⟨h1, h2, _⟩ := expStep_spec _ _ _ _ _ hstep
      have hfrom : ∀ t ∈ r :: rs, ∃ s ∈ ready, Moves h ems b s t := by
        intro t ht
        rcases (h1 t).mp ht with h3 | h3
        · cases h3
        · exact h3
      obtain ⟨h4, h5⟩ := ih _ _ _ _ H fun t ht => by
        obtain ⟨s, h6, h7⟩ := hfrom t ht
        exact moves_ok (hok s h6) h7
      refine ⟨fun t ht => ?_, fun _ hl => ?_⟩
      · obtain ⟨h6, s, h7, h8⟩ := h4 t ht
        obtain ⟨s', h9, h10⟩ := hfrom s h7
        exact ⟨h6, s', h9, fun w hw => moves_cont HD (hok s' h9) h10 (h8 w hw)⟩
      · by_cases hnil : bs = []
        · subst hnil
          simp only [expLoop, Option.some.injEq, Prod.mk.injEq] at H
          obtain ⟨rfl, rfl, _⟩ := H
          rcases h2.mp hl with h3 | ⟨s, h3, h4⟩
          · cases h3
          · exact ⟨s, h3, completes_cont (hok s h3) h4⟩
        · obtain ⟨s, h6, h7⟩ := h5 hnil hl
          obtain ⟨s', h9, h10⟩ := hfrom s h6
          exact ⟨s', h9, moves_cont HD (hok s' h9) h10 h7⟩

/-! ## No early return -/

theorem expStartAll_some {ems : Nat → Option (List Emission)} (ns : List Nat) (hn : ∀ n ∈ ns, ∃ es, ems n = some es) : ∀ l,
    ∃ l', expStartAll ems ns l = some l' := by
  induction ns with
  | nil => intro l; exact ⟨l, rfl⟩
  | cons n ns ih =>
    intro l
    obtain ⟨es, he⟩ := hn n (List.mem_cons_self ..)
    rw [expStartAll, he]
    exact ih (fun m hm => hn m (List.mem_cons_of_mem _ hm)) _

theorem expStep_some {h : TgHeap} {f : TgFrag} {ems : Nat → Option (List Emission)} {b : UInt8} (ss : List ExpState)
    (hs : ∀ s ∈ ss, ∀ m ∈ h.nexts s.node, ∃ es, ems m = some es) : ∀ l last, ∃ r, expStep h f ems b ss l last = some r := by
  induction ss with
  | nil => intro l last; exact ⟨_, rfl⟩
  | cons s ss ih =>
    intro l last
    have ih := ih fun t ht => hs t (List.mem_cons_of_mem _ ht)
    rw [expStep]
    split_ifs
    · obtain ⟨l', hl⟩ := expStartAll_some _ (hs s (List.mem_cons_self ..)) l
      rw [hl]
      exact ih _ _
    · exact ih _ _
    · exact ih _ _

theorem expLoop_some {h : TgHeap} {f : TgFrag} {ems : Nat → Option (List Emission)} (hk : ∀ n, ReachedFrom h f.ins n → ∃ es, ems n = some es)
    (bs : Bytes) : ∀ ready last0, (∀ s ∈ ready, ReachedFrom h f.ins s.node) → ∃ r, expLoop h f ems bs ready last0 = some r := by
  have hnext : ∀ n m, ReachedFrom h f.ins n → m ∈ h.nexts n → ReachedFrom h f.ins m := by
    rintro n m ⟨i, h1, h2⟩ hm
    exact ⟨i, h1, h2.tail hm⟩
  induction bs with
  | nil => intro ready last0 _; exact ⟨_, rfl⟩
  | cons b bs ih =>
    intro ready last0 hr
    rw [expLoop]
    obtain ⟨⟨l, last⟩, hstep⟩ := expStep_some (f := f) (b := b) ready (fun s hs m hm => hk m (hnext _ _ (hr s hs) hm)) [] false
    rw [hstep]
    obtain ⟨h1, _, _⟩ := expStep_spec _ _ _ _ _ hstep
    cases l with
    | nil => exact ⟨_, rfl⟩
    | cons r rs =>
      refine ih _ _ fun t ht => ?_
      rcases (h1 t).mp ht with h3 | ⟨s, h3, h4⟩
      · cases h3
      · cases h4 with
        | stay => exact hr s h3
        | next m i em h5 h6 h7 => exact hnext _ _ (hr s h3) h7

end Verif
