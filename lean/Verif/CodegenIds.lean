import Verif.Codegen
import Verif.GLLBounds

/-!
# Numbering of slots and contents of the cases

What `assignSlots` and `emitCases` produce (/repo/codegen.go:79-93, 146-169).
-/

namespace Verif
namespace Cg

/-- A slot of the grammar: its production exists and the dot is in it. -/
def IsSlot (sg : SG) (L : Slot) : Prop :=
  L.nt < sg.nts.length ∧ L.alt < (sg.alts L.nt).length ∧ L.dot ≤ (sg.prod L).length

theorem assignAlts_spec (nt : Nat) (prods : List (List Sym)) : ∀ (alt0 : Nat) (slots : List SInfo),
    (assignAlts nt alt0 prods slots).1.length = prods.length ∧
    slots <+: (assignAlts nt alt0 prods slots).2 ∧
    (∀ (k : Nat) (prod : List Sym), prods[k]? = some prod → ∀ dot, dot ≤ prod.length →
      (assignAlts nt alt0 prods slots).2[(assignAlts nt alt0 prods slots).1.getD k 0 + dot]? =
        some ⟨nt, alt0 + k, dot, prod.length⟩) ∧
    (∀ (id : Nat) (s : SInfo), slots.length ≤ id → (assignAlts nt alt0 prods slots).2[id]? = some s →
      ∃ (k : Nat) (prod : List Sym), prods[k]? = some prod ∧
        s = ⟨nt, alt0 + k, s.dot, prod.length⟩ ∧ s.dot ≤ prod.length ∧
        id = (assignAlts nt alt0 prods slots).1.getD k 0 + s.dot) := by
  induction prods with
  | nil =>
    intro alt0 slots
    refine ⟨rfl, List.prefix_refl _, fun k prod h => by simp at h, fun id s hle h => ?_⟩
    simp only [assignAlts] at h
    have := (List.getElem?_eq_some_iff.mp h).1
    omega
  | cons prod rest ih =>
    intro alt0 slots
    set new := (List.range (prod.length + 1)).map fun dot => (⟨nt, alt0, dot, prod.length⟩ : SInfo) with hnew
    obtain ⟨h1, h2, h3, h4⟩ := ih (alt0 + 1) (slots ++ new)
    have hlen : new.length = prod.length + 1 := by simp [hnew]
    have e1 : (assignAlts nt alt0 (prod :: rest) slots).1 =
        slots.length :: (assignAlts nt (alt0 + 1) rest (slots ++ new)).1 := rfl
    have e2 : (assignAlts nt alt0 (prod :: rest) slots).2 = (assignAlts nt (alt0 + 1) rest (slots ++ new)).2 := rfl
    rw [e1, e2]
    have hin : ∀ dot, dot ≤ prod.length →
        (assignAlts nt (alt0 + 1) rest (slots ++ new)).2[slots.length + dot]? =
          some ⟨nt, alt0, dot, prod.length⟩ := by
      intro dot hd
      obtain ⟨t, ht⟩ := h2
      rw [← ht, List.getElem?_append_left (by rw [List.length_append, hlen]; omega),
        List.getElem?_append_right (by omega)]
      have : slots.length + dot - slots.length = dot := by omega
      rw [this, hnew, List.getElem?_map, List.getElem?_range (by omega)]
      rfl
    refine ⟨by rw [List.length_cons, h1, List.length_cons], (List.prefix_append _ _).trans h2, ?_, ?_⟩
    · intro k q hk dot hd
      cases k with
      | zero =>
        simp only [List.getElem?_cons_zero, Option.some.injEq] at hk
        subst hk
        simpa using hin dot hd
      | succ k =>
        simp only [List.getElem?_cons_succ] at hk
        have := h3 k q hk dot hd
        simpa [Nat.add_assoc, Nat.add_comm 1] using this
    · intro id s hle hs
      by_cases hid : id < slots.length + (prod.length + 1)
      · have := hin (id - slots.length) (by omega)
        have e : slots.length + (id - slots.length) = id := by omega
        rw [e, hs] at this
        simp only [Option.some.injEq] at this
        subst this
        exact ⟨0, prod, rfl, rfl, by simp only; omega, by simp only [List.getD_cons_zero]; omega⟩
      · obtain ⟨k, q, k1, k2, k3, k4⟩ := h4 id s (by rw [List.length_append, hlen]; omega) hs
        refine ⟨k + 1, q, by simpa using k1, ?_, k3, by simpa using k4⟩
        rw [k2, Nat.add_assoc, Nat.add_comm 1]

theorem assignNTs_spec (nts : List NT) : ∀ (nt0 : Nat) (slots : List SInfo),
    slots <+: (assignNTs nt0 nts slots).2 ∧
    (∀ (n : Nat) (x : NT), nts[n]? = some x → ∀ (k : Nat) (prod : List Sym), x.alts[k]? = some prod → ∀ dot, dot ≤ prod.length →
      (assignNTs nt0 nts slots).2[startID (assignNTs nt0 nts slots).1 n k + dot]? =
        some ⟨nt0 + n, k, dot, prod.length⟩) ∧
    (∀ (id : Nat) (s : SInfo), slots.length ≤ id → (assignNTs nt0 nts slots).2[id]? = some s →
      ∃ (n : Nat) (x : NT) (k : Nat) (prod : List Sym), nts[n]? = some x ∧ x.alts[k]? = some prod ∧
        s = ⟨nt0 + n, k, s.dot, prod.length⟩ ∧ s.dot ≤ prod.length ∧
        id = startID (assignNTs nt0 nts slots).1 n k + s.dot) := by
  induction nts with
  | nil =>
    intro nt0 slots
    refine ⟨List.prefix_refl _, fun n x h => by simp at h, fun id s hle h => ?_⟩
    simp only [assignNTs] at h
    have := (List.getElem?_eq_some_iff.mp h).1
    omega
  | cons x rest ih =>
    intro nt0 slots
    obtain ⟨a1, a2, a3, a4⟩ := assignAlts_spec nt0 x.alts 0 slots
    obtain ⟨h2, h3, h4⟩ := ih (nt0 + 1) (assignAlts nt0 0 x.alts slots).2
    have e1 : (assignNTs nt0 (x :: rest) slots).1 = (assignAlts nt0 0 x.alts slots).1 ::
        (assignNTs (nt0 + 1) rest (assignAlts nt0 0 x.alts slots).2).1 := rfl
    have e2 : (assignNTs nt0 (x :: rest) slots).2 = (assignNTs (nt0 + 1) rest (assignAlts nt0 0 x.alts slots).2).2 := rfl
    rw [e1, e2]
    have s0 : ∀ (a : List Nat) l k, startID (a :: l) 0 k = a.getD k 0 := fun _ _ _ => rfl
    have sS : ∀ (a : List Nat) l n k, startID (a :: l) (n + 1) k = startID l n k := fun _ _ _ _ => rfl
    refine ⟨a2.trans h2, ?_, ?_⟩
    · intro n y hy k prod hk dot hd
      cases n with
      | zero =>
        simp only [List.getElem?_cons_zero, Option.some.injEq] at hy
        subst hy
        have := a3 k prod hk dot hd
        obtain ⟨t, ht⟩ := h2
        rw [s0, ← ht, List.getElem?_append_left (List.getElem?_eq_some_iff.mp this).1, this]
        simp
      | succ n =>
        simp only [List.getElem?_cons_succ] at hy
        have := h3 n y hy k prod hk dot hd
        rw [sS, this, Nat.add_assoc, Nat.add_comm 1]
    · intro id s hle hs
      by_cases hid : id < (assignAlts nt0 0 x.alts slots).2.length
      · obtain ⟨t, ht⟩ := h2
        have hs' := hs
        rw [← ht, List.getElem?_append_left hid] at hs'
        obtain ⟨k, q, k1, k2, k3, k4⟩ := a4 id s hle hs'
        exact ⟨0, x, k, q, rfl, k1, by simpa using k2, k3, by rw [s0]; exact k4⟩
      · obtain ⟨n, y, k, q, k1, k2, k3, k4, k5⟩ := h4 id s (by omega) hs
        refine ⟨n + 1, y, k, q, by simpa using k1, k2, ?_, k4, by rw [sS]; exact k5⟩
        rw [k3, Nat.add_assoc, Nat.add_comm 1]

/-- The id of a slot. -/
def enc (sg : SG) (L : Slot) : Nat := startID (assignSlots sg).1 L.nt L.alt + L.dot

theorem isSlot_parts {sg : SG} {L : Slot} (h : IsSlot sg L) :
    ∃ x prod, sg.nts[L.nt]? = some x ∧ x.alts[L.alt]? = some prod ∧ sg.prod L = prod ∧ sg.nt L.nt = x := by
  obtain ⟨h1, h2, h3⟩ := h
  have e1 : sg.nts[L.nt]? = some (sg.nt L.nt) := by
    rw [SG.nt, List.getD_eq_getElem?_getD, List.getElem?_eq_getElem h1]; rfl
  refine ⟨sg.nt L.nt, sg.prod L, e1, ?_, rfl, rfl⟩
  rw [SG.prod, List.getD_eq_getElem?_getD, List.getElem?_eq_getElem h2]
  simp [SG.alts] at h2 ⊢

theorem slots_enc {sg : SG} {L : Slot} (h : IsSlot sg L) :
    (assignSlots sg).2[enc sg L]? = some ⟨L.nt, L.alt, L.dot, (sg.prod L).length⟩ := by
  obtain ⟨x, prod, h1, h2, h3, _⟩ := isSlot_parts h
  have := (assignNTs_spec sg.nts 0 []).2.1 L.nt x h1 L.alt prod h2 L.dot (h3 ▸ h.2.2)
  rw [h3]
  simpa [enc, assignSlots] using this

theorem slots_onto {sg : SG} {id : Nat} {s : SInfo} (h : (assignSlots sg).2[id]? = some s) :
    IsSlot sg ⟨s.nt, s.alt, s.dot⟩ ∧ s.plen = (sg.prod ⟨s.nt, s.alt, s.dot⟩).length ∧ id = enc sg ⟨s.nt, s.alt, s.dot⟩ := by
  obtain ⟨n, x, k, prod, h1, h2, h3, h4, h5⟩ := (assignNTs_spec sg.nts 0 []).2.2 id s (by simp) h
  have hn : s.nt = n := by rw [h3]; simp
  have hk : s.alt = k := by rw [h3]
  have hp : s.plen = prod.length := by rw [h3]
  obtain ⟨hn', hx⟩ := List.getElem?_eq_some_iff.mp h1
  obtain ⟨hk', hq⟩ := List.getElem?_eq_some_iff.mp h2
  have ent : sg.nt n = x := by rw [SG.nt, List.getD_eq_getElem?_getD, h1]; rfl
  have ep : sg.prod ⟨s.nt, s.alt, s.dot⟩ = prod := by
    simp only [SG.prod, SG.alts, hn, hk, ent, List.getD_eq_getElem?_getD, h2, Option.getD_some]
  refine ⟨⟨by rw [hn]; exact hn', ?_, by rw [ep]; exact h4⟩, by rw [ep, hp], ?_⟩
  · simp only [SG.alts, hn, hk, ent]; exact hk'
  · simp only [enc, assignSlots, hn, hk]; exact h5

theorem enc_inj {sg : SG} {L L' : Slot} (h : IsSlot sg L) (h' : IsSlot sg L') (he : enc sg L = enc sg L') : L = L' := by
  have h1 := slots_enc h
  rw [he, slots_enc h'] at h1
  simp only [Option.some.injEq, SInfo.mk.injEq] at h1
  cases L; cases L'
  simp_all

theorem enc_next {sg : SG} (L : Slot) : enc sg L.next = enc sg L + 1 := rfl

theorem enc_start {sg : SG} (n a : Nat) : enc sg ⟨n, a, 0⟩ = startID (assignSlots sg).1 n a := rfl

/-! ## The table of literals -/

theorem seriesVar_spec (bs : Bytes) (series : List Bytes) :
    series <+: (seriesVar bs series).2 ∧ (seriesVar bs series).2[(seriesVar bs series).1]? = some bs := by
  unfold seriesVar
  split
  · rename_i k hk
    refine ⟨List.prefix_refl _, ?_⟩
    obtain ⟨h, h1, _⟩ := List.findIdx?_eq_some_iff_getElem.mp hk
    rw [List.getElem?_eq_getElem h]
    simpa using h1
  · exact ⟨List.prefix_append _ _, by simp⟩

theorem emitSeries_prefix (base : Str) (es : List Str) (series : List Bytes) : series <+: (emitSeries base es series).2 := by
  unfold emitSeries
  split
  · exact List.prefix_refl _
  · exact (seriesVar_spec _ _).1

theorem emitMatch_prefix (e : Elem) (series : List Bytes) : series <+: (emitMatch e series).2 := by
  unfold emitMatch
  split
  · exact List.prefix_refl _
  · split <;> exact List.prefix_refl _
  · exact emitSeries_prefix _ _ _
  · exact List.prefix_refl _

theorem emitTerminal_prefix (s : Sym) (next : Nat) (series : List Bytes) : series <+: (emitTerminal s next series).2 := by
  unfold emitTerminal
  split
  · exact emitMatch_prefix _ _
  · exact List.prefix_refl _

theorem emitCase_prefix (sg : SG) (ids : List (List Nat)) (id : Nat) (s : SInfo) (series : List Bytes) :
    series <+: (emitCase sg ids id s series).2 := by
  unfold emitCase
  split
  · exact List.prefix_refl _
  · split
    · exact List.prefix_refl _
    · exact emitTerminal_prefix _ _ _

theorem emitCases_spec (sg : SG) (ids : List (List Nat)) (slots : List SInfo) : ∀ (id0 : Nat) (series : List Bytes),
    (emitCases sg ids id0 slots series).1.length = slots.length ∧
    series <+: (emitCases sg ids id0 slots series).2 ∧
    ∀ (k : Nat) (s : SInfo), slots[k]? = some s → ∃ ser,
      (emitCases sg ids id0 slots series).1[k]? = some (emitCase sg ids (id0 + k) s ser).1 ∧
      (emitCase sg ids (id0 + k) s ser).2 <+: (emitCases sg ids id0 slots series).2 := by
  induction slots with
  | nil => exact fun id0 series => ⟨rfl, List.prefix_refl _, fun k s h => by simp at h⟩
  | cons s rest ih =>
    intro id0 series
    obtain ⟨h1, h2, h3⟩ := ih (id0 + 1) (emitCase sg ids id0 s series).2
    have e1 : (emitCases sg ids id0 (s :: rest) series).1 =
        (emitCase sg ids id0 s series).1 :: (emitCases sg ids (id0 + 1) rest (emitCase sg ids id0 s series).2).1 := rfl
    have e2 : (emitCases sg ids id0 (s :: rest) series).2 =
        (emitCases sg ids (id0 + 1) rest (emitCase sg ids id0 s series).2).2 := rfl
    rw [e1, e2]
    refine ⟨by rw [List.length_cons, h1, List.length_cons], (emitCase_prefix _ _ _ _ _).trans h2, ?_⟩
    intro k t hk
    cases k with
    | zero =>
      simp only [List.getElem?_cons_zero, Option.some.injEq] at hk
      subst hk
      exact ⟨series, rfl, h2⟩
    | succ k =>
      simp only [List.getElem?_cons_succ] at hk ⊢
      obtain ⟨ser, k1, k2⟩ := h3 k t hk
      have e : id0 + 1 + k = id0 + (k + 1) := by omega
      rw [e] at k1 k2
      exact ⟨ser, k1, k2⟩

/-- The case of a slot. -/
theorem case_of {sg : SG} {root : Str} {L : Slot} (h : IsSlot sg L) : ∃ ser,
    (emit sg root).cases[enc sg L]? =
      some (emitCase sg (assignSlots sg).1 (enc sg L) ⟨L.nt, L.alt, L.dot, (sg.prod L).length⟩ ser).1 ∧
    (emitCase sg (assignSlots sg).1 (enc sg L) ⟨L.nt, L.alt, L.dot, (sg.prod L).length⟩ ser).2 <+: (emit sg root).series := by
  have := (emitCases_spec sg (assignSlots sg).1 (assignSlots sg).2 0 []).2.2 _ _ (slots_enc h)
  simpa [emit] using this

theorem cases_length (sg : SG) (root : Str) : (emit sg root).cases.length = (assignSlots sg).2.length :=
  (emitCases_spec sg (assignSlots sg).1 (assignSlots sg).2 0 []).1

/-- A production is shorter than the table. -/
theorem prod_short {sg : SG} {root : Str} {L : Slot} (h : IsSlot sg L) :
    (sg.prod L).length + 1 ≤ (emit sg root).cases.length := by
  have h1 : IsSlot sg ⟨L.nt, L.alt, (sg.prod L).length⟩ := ⟨h.1, h.2.1, le_refl _⟩
  have := (List.getElem?_eq_some_iff.mp (slots_enc h1)).1
  rw [cases_length]
  simp only [enc] at this
  omega

end Cg
end Verif
