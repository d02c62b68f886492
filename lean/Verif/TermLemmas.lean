import Verif.NumLemmas

/-! # Lemmas about terminal matching -/

namespace Verif
open Spec

theorem encodeRune_eq_utf8 (c : Char) : encodeRune c = String.utf8EncodeChar c := by
  have hc := char_valid c
  have hv : c.val.toNat = c.toNat := rfl
  unfold encodeRune String.utf8EncodeChar
  simp only [hv]
  have h1 : c.toNat < 0x800 → c.toNat / 64 % 32 + 192 = 192 + c.toNat / 64 := by omega
  have h2 : c.toNat < 0x10000 → c.toNat / 4096 % 16 + 224 = 224 + c.toNat / 4096 := by omega
  have h3 : c.toNat / 262144 % 8 + 240 = 240 + c.toNat / 262144 := by omega
  split_ifs <;> first | omega | rfl | skip
  · rw [h1 (by omega), Nat.add_comm (c.toNat % 64)]
  · rw [h2 (by omega), Nat.add_comm (c.toNat % 64), Nat.add_comm (c.toNat / 64 % 64)]
  · rw [h3, Nat.add_comm (c.toNat % 64), Nat.add_comm (c.toNat / 64 % 64),
      Nat.add_comm (c.toNat / 4096 % 64)]

theorem encodeAll_eq_utf8 (cs : List Char) : encodeAll cs = utf8 cs := by
  simp [encodeAll, utf8, funext encodeRune_eq_utf8]

/-- `bs` occurs in `inp` at `i` and ends at `j`. -/
def At (inp : Bytes) (i j : Nat) (bs : Bytes) : Prop := bs <+: inp.drop i ∧ j = i + bs.length

theorem at_nil (inp : Bytes) (i j : Nat) : At inp i j [] ↔ j = i := by simp [At]

theorem at_append (inp : Bytes) (i j : Nat) (a b : Bytes) :
    At inp i j (a ++ b) ↔ At inp i (i + a.length) a ∧ At inp (i + a.length) j b := by
  unfold At
  constructor
  · rintro ⟨⟨t, ht⟩, rfl⟩
    refine ⟨⟨⟨b ++ t, by simpa using ht⟩, rfl⟩, ⟨⟨t, ?_⟩, by simp; omega⟩⟩
    rw [← List.drop_drop, ← ht]; simp
  · rintro ⟨⟨⟨t, ht⟩, -⟩, ⟨⟨u, hu⟩, rfl⟩⟩
    rw [← List.drop_drop, ← ht, List.drop_left'] at hu
    · refine ⟨⟨u, ?_⟩, by simp; omega⟩
      rw [← ht, ← hu]; simp
    · rfl

theorem decode_at (inp : Bytes) (i k : Nat) (c : Char) :
    decodeRune (inp.drop i) = some (c, k) ↔ At inp i (i + k) (encodeRune c) := by
  rw [decode_iff]
  unfold At
  constructor
  · rintro ⟨⟨r, h1⟩, rfl⟩
    exact ⟨⟨r, h1.symm⟩, rfl⟩
  · rintro ⟨⟨r, h1⟩, h2⟩
    exact ⟨⟨r, h1.symm⟩, by omega⟩

theorem at_lt {inp : Bytes} {i j : Nat} {bs : Bytes} (h : At inp i j bs) (hn : bs ≠ []) :
    i < inp.length := by
  obtain ⟨⟨t, ht⟩, -⟩ := h
  by_contra hc
  rw [List.drop_eq_nil_of_le (by omega)] at ht
  simp at ht
  exact hn ht.1

theorem at_le {inp : Bytes} {i j : Nat} {bs : Bytes} (h : At inp i j bs) (hi : i ≤ inp.length) :
    i ≤ j ∧ j ≤ inp.length := by
  obtain ⟨h, rfl⟩ := h
  have := h.length_le
  simp at this
  omega

theorem sensequal_iff (a b : Char) (s : Bool) :
    sensequal a b s = true ↔ if s then a = b else SameLetter a b := by
  cases s <;> simp [sensequal, sameLetter_iff]

theorem matchCharVal_iff (inp : Bytes) (s : Bool) (vs : List Char) (i j : Nat) :
    matchCharVal inp s vs i = some j ↔
      ∃ cs, List.Forall₂ (fun a b => sensequal a b s = true) vs cs ∧ At inp i j (encodeAll cs) := by
  induction vs generalizing i with
  | nil => simp [matchCharVal, encodeAll_nil, at_nil]; exact eq_comm
  | cons v vs ih =>
    constructor
    · intro h
      simp only [matchCharVal] at h
      split_ifs at h with h1
      split at h
      · simp at h
      · rename_i c k hd
        split_ifs at h with h2
        obtain ⟨cs, hcs, hat⟩ := (ih _).mp h
        rw [decode_at] at hd
        refine ⟨c :: cs, List.Forall₂.cons (by simpa using h2) hcs, ?_⟩
        rw [encodeAll_cons, at_append]
        obtain ⟨hp, hk⟩ := hd
        exact ⟨⟨hp, rfl⟩, hk ▸ hat⟩
    · rintro ⟨cs, hcs, hat⟩
      cases hcs with
      | @cons _ c _ cs h1 h2 =>
        rw [encodeAll_cons, at_append] at hat
        have hlt := at_lt hat.1 (encodeRune_ne_nil c)
        simp only [matchCharVal]
        rw [if_neg (by omega), (decode_at _ _ _ _).mpr hat.1]
        simp only [h1, Bool.not_true, Bool.false_eq_true, if_false]
        exact (ih _).mpr ⟨cs, h2, hat.2⟩

theorem matchSeries_iff (inp : Bytes) (b : Str) (es : List Str)
    (hwf : ∀ s ∈ es, ∃ v, Denotes b s v) (i j : Nat) :
    matchSeries inp b es i = some j ↔
      ∃ cs, List.Forall₂ (fun s c => Denotes b s (Char.toNat c)) es cs ∧ At inp i j (encodeAll cs) := by
  induction es generalizing i with
  | nil => simp [matchSeries, encodeAll_nil, at_nil]; exact eq_comm
  | cons e es ih =>
    obtain ⟨v, hv⟩ := hwf e (by simp)
    have ih := ih fun s hs => hwf s (by simp [hs])
    have hr := numvalToRune_denotes hv
    have hmax : maxInt32 = 2147483647 := rfl
    constructor
    · intro h
      simp only [matchSeries] at h
      split_ifs at h with h1 h2
      have h1' : validRune (numvalToRune e b) = true := by simpa using h1
      have h3 := (validRune_iff _).mp h1'
      have hvv : numvalToRune e b = v := by rw [hr] at h3 ⊢; omega
      rw [hvv] at h h2 h3
      obtain ⟨cs, hcs, hat⟩ := (ih _).mp h
      refine ⟨Char.ofNat v :: cs, List.Forall₂.cons ?_ hcs, ?_⟩
      · rwa [toNat_ofNat_char h3]
      · rw [encodeAll_cons, at_append]
        refine ⟨⟨?_, rfl⟩, hat⟩
        push Not at h2
        rw [h2.2]
        simpa using List.take_prefix _ _
    · rintro ⟨cs, hcs, hat⟩
      cases hcs with
      | @cons _ c _ cs h1 h2 =>
        rw [encodeAll_cons, at_append] at hat
        obtain rfl := denotes_fun h1 hv
        have hc := char_valid c
        have hvv : numvalToRune e b = c.toNat := by rw [hr]; omega
        simp only [matchSeries]
        rw [hvv, char_ofNat_toNat, if_neg (by simp [validRune_char]), if_neg]
        · exact (ih _).mpr ⟨cs, h2, hat.2⟩
        · have hlt := at_lt hat.1 (encodeRune_ne_nil c)
          have hle := at_le hat.1 (by omega)
          push Not
          refine ⟨hle.2, ?_⟩
          exact (List.prefix_iff_eq_take.mp hat.1.1)

theorem matchRange_iff (inp : Bytes) (b s t : Str) (v w : Nat) (hs : Denotes b s v)
    (ht : Denotes b t w) (i j : Nat) :
    matchRange inp b [s, t] i = some j ↔
      ∃ c : Char, v ≤ c.toNat ∧ c.toNat ≤ w ∧ At inp i j (encodeRune c) := by
  have hmax : maxInt32 = 2147483647 := rfl
  have h1 := numvalToRune_denotes hs
  have h2 := numvalToRune_denotes ht
  constructor
  · intro h
    simp only [matchRange, h1, h2] at h
    split_ifs at h with h3
    split at h
    · simp at h
    · rename_i c k hd
      split_ifs at h with h4
      have := char_valid c
      refine ⟨c, by omega, by omega, ?_⟩
      rw [decode_at] at hd
      simp only [Option.some.injEq] at h
      exact h ▸ hd
  · rintro ⟨c, hc1, hc2, hat⟩
    have hlt := at_lt hat (encodeRune_ne_nil c)
    obtain ⟨k, rfl⟩ : ∃ k, j = i + k := ⟨_, hat.2⟩
    have := char_valid c
    simp only [matchRange, h1, h2]
    rw [if_neg (by omega), (decode_at _ _ _ _).mpr hat]
    simp only []
    rw [if_pos (by omega)]

theorem forall₂_eq_iff (a b : List Char) : List.Forall₂ (fun x y => x = y) a b ↔ a = b := by
  induction a generalizing b with
  | nil => cases b <;> simp
  | cons x a ih => cases b <;> simp_all [List.forall₂_nil_right_iff]

/-- The terminal matcher finds exactly the texts of the terminal. -/
theorem matchElem_iff (inp : Bytes) (e : Elem) (hwf : TermWF e) (i j : Nat) :
    matchElem inp e i = some j ↔ ∃ cs, Terminal e cs ∧ At inp i j (encodeAll cs) := by
  cases e with
  | rulename n => simp only [matchElem]; exact ⟨nofun, fun ⟨_, h, _⟩ => nomatch h⟩
  | group n => simp only [matchElem]; exact ⟨nofun, fun ⟨_, h, _⟩ => nomatch h⟩
  | option n => simp only [matchElem]; exact ⟨nofun, fun ⟨_, h, _⟩ => nomatch h⟩
  | proseVal n => simp only [matchElem]; exact ⟨nofun, fun ⟨_, h, _⟩ => nomatch h⟩
  | charVal s vs =>
    simp only [matchElem, matchCharVal_iff, sensequal_iff]
    cases s
    · constructor
      · rintro ⟨cs, h, ha⟩
        exact ⟨cs, .insensitive vs cs (by simpa using h), ha⟩
      · rintro ⟨cs, h, ha⟩
        cases h with
        | insensitive _ _ h => exact ⟨cs, by simpa using h, ha⟩
    · simp only [if_true, forall₂_eq_iff]
      constructor
      · rintro ⟨cs, rfl, ha⟩
        exact ⟨_, .sensitive vs, ha⟩
      · rintro ⟨cs, h, ha⟩
        cases h with
        | sensitive => exact ⟨_, rfl, ha⟩
  | numVal b st es =>
    cases st with
    | series =>
      simp only [matchElem]
      rw [matchSeries_iff inp b es hwf]
      constructor
      · rintro ⟨cs, h, ha⟩
        exact ⟨cs, .series b es cs h, ha⟩
      · rintro ⟨cs, h, ha⟩
        cases h with
        | series _ _ _ h => exact ⟨cs, h, ha⟩
    | range =>
      obtain ⟨s, t, v, w, rfl, hs, ht⟩ := hwf
      simp only [matchElem]
      rw [matchRange_iff inp b s t v w hs ht]
      constructor
      · rintro ⟨c, h1, h2, ha⟩
        exact ⟨[c], .range b s t v w c hs ht h1 h2, by simpa [encodeAll] using ha⟩
      · rintro ⟨cs, h, ha⟩
        cases h with
        | range _ _ _ lo hi c h1 h2 h3 h4 =>
          obtain rfl := denotes_fun h1 hs
          obtain rfl := denotes_fun h2 ht
          exact ⟨c, h3, h4, by simpa [encodeAll] using ha⟩

end Verif
