import Verif.TermLemmas
import Verif.BoundLemmas

/-!
# Property theorems: terminals, numerals, UTF-8 (C12, C13, C14, C15, C16, C43)
-/

namespace Verif.Props
open Verif Verif.Spec

/-! ## C43: UTF-8 -/

/-- C43.  Decoding yields `c` with width `k` exactly when the bytes start with the UTF-8 encoding of `c` (as
Lean's core library defines it) and `k` is its length.  A `Char` is a Unicode scalar value, so surrogates and
values above U+10FFFF are never decoded; an overlong form is not the encoding of any `c`. -/
theorem C43_decode_exact (bs : Bytes) (c : Char) (k : Nat) :
    decodeRune bs = some (c, k) ↔
      String.utf8EncodeChar c <+: bs ∧ k = (String.utf8EncodeChar c).length := by
  rw [decode_iff, encodeRune_eq_utf8]
  constructor
  · rintro ⟨⟨r, rfl⟩, rfl⟩; exact ⟨⟨r, rfl⟩, rfl⟩
  · rintro ⟨⟨r, rfl⟩, rfl⟩; exact ⟨⟨r, rfl⟩, rfl⟩

example : decodeRune [0xE2, 0x82, 0xAC, 0x41] = some ('€', 3) := by decide
example : decodeRune [0xC0, 0x80] = none ∧ decodeRune [0xED, 0xA0, 0x80] = none
    ∧ decodeRune [0xF4, 0x90, 0x80, 0x80] = none := by decide

/-- C43, uniqueness: no byte string starts with the encodings of two different characters. -/
theorem C43_prefix_code (bs : Bytes) (c d : Char) (hc : String.utf8EncodeChar c <+: bs)
    (hd : String.utf8EncodeChar d <+: bs) : c = d := by
  have h1 := (C43_decode_exact bs c _).mpr ⟨hc, rfl⟩
  have h2 := (C43_decode_exact bs d _).mpr ⟨hd, rfl⟩
  rw [h1] at h2
  simp at h2
  exact h2.1

example : String.utf8EncodeChar 'é' <+: [0xC3, 0xA9, 0x20] := ⟨[0x20], by decide⟩

/-! ## C12: terminals -/

/-- C12.  A terminal matches at `i` with end `j` exactly when the bytes from `i` to `j` are the UTF-8 encoding
of a text the terminal denotes.  (All three matchers of the code are this function.) -/
theorem C12_terminal_exact (inp : Bytes) (e : Elem) (hwf : TermWF e) (i j : Nat) :
    matchElem inp e i = some j ↔
      ∃ cs, Terminal e cs ∧ utf8 cs <+: inp.drop i ∧ j = i + (utf8 cs).length := by
  rw [matchElem_iff inp e hwf]
  simp only [At, encodeAll_eq_utf8]

/-- C12, prose-vals never match. -/
theorem C12_prose_never (inp : Bytes) (vs : List Str) (i : Nat) : matchElem inp (.proseVal vs) i = none := rfl

/-- C12, a match never consumes ill-formed UTF-8 and stays inside the input. -/
theorem C12_match_wellformed (inp : Bytes) (e : Elem) (hwf : TermWF e) (i j : Nat) (hi : i ≤ inp.length)
    (h : matchElem inp e i = some j) :
    i ≤ j ∧ j ≤ inp.length ∧ ∃ cs, (inp.drop i).take (j - i) = utf8 cs := by
  obtain ⟨cs, _, hat⟩ := (matchElem_iff inp e hwf i j).mp h
  obtain ⟨h1, h2⟩ := at_le hat hi
  refine ⟨h1, h2, cs, ?_⟩
  obtain ⟨hp, rfl⟩ := hat
  rw [← encodeAll_eq_utf8]
  simpa using (List.prefix_iff_eq_take.mp hp).symm

-- `%x0-10FFFF` matches the two bytes of U+00E9 in the middle of an input, and nothing at the second byte.
example : TermWF (.numVal ['x'] .range [['0'], str% "10FFFF"]) := termWFb_sound (by decide)
example : matchElem [0x41, 0xC3, 0xA9] (.numVal ['x'] .range [['0'], str% "10FFFF"]) 1 = some 3
    ∧ matchElem [0x41, 0xC3, 0xA9] (.numVal ['x'] .range [['0'], str% "10FFFF"]) 2 = none := by decide

/-! ## C13: case folding -/

/-- C13.  A case-insensitive literal matches exactly its variants under swapping `a-z` and `A-Z`. -/
theorem C13_insensitive (vs ws : List Char) :
    matchElem (utf8 ws) (.charVal false vs) 0 = some (utf8 ws).length ↔ List.Forall₂ SameLetter vs ws := by
  rw [matchElem_iff _ (.charVal _ vs) (by exact trivial)]
  constructor
  · rintro ⟨cs, h, ⟨⟨t, ht⟩, hl⟩⟩
    cases h with
    | insensitive _ _ h =>
      have : t = [] := by
        have := congrArg List.length ht
        simp at this hl
        exact List.length_eq_zero_iff.mp (by omega)
      rw [this, ← encodeAll_eq_utf8] at ht
      simp only [List.append_nil, List.drop_zero] at ht
      rwa [← encodeAll_inj ht]
  · intro h
    refine ⟨ws, .insensitive _ _ h, ?_, ?_⟩
    · rw [encodeAll_eq_utf8]; simp
    · rw [encodeAll_eq_utf8]; simp

/-- C13.  A case-sensitive literal matches exactly itself. -/
theorem C13_sensitive (vs ws : List Char) :
    matchElem (utf8 ws) (.charVal true vs) 0 = some (utf8 ws).length ↔ ws = vs := by
  rw [matchElem_iff _ (.charVal _ vs) (by exact trivial)]
  constructor
  · rintro ⟨cs, h, ⟨⟨t, ht⟩, hl⟩⟩
    cases h with
    | sensitive =>
      have : t = [] := by
        have := congrArg List.length ht
        simp at this hl
        exact List.length_eq_zero_iff.mp (by omega)
      rw [this, ← encodeAll_eq_utf8] at ht
      simp only [List.append_nil, List.drop_zero] at ht
      exact (encodeAll_inj ht).symm
  · rintro rfl
    refine ⟨ws, .sensitive _, ?_, ?_⟩
    · rw [encodeAll_eq_utf8]; simp
    · rw [encodeAll_eq_utf8]; simp

example : List.Forall₂ SameLetter ['a', 'é', '1'] ['A', 'é', '1'] :=
  .cons (Or.inr (Or.inr (by decide))) (.cons (Or.inl rfl) (.cons (Or.inl rfl) .nil))
-- non-ASCII letters do not fold: the Kelvin sign is not `k`
example : ¬ SameLetter 'k' (Char.ofNat 0x212A) := by
  rw [sameLetter_iff]; decide

/-! ## C14: no wrap-around -/

/-- C14.  The rune of a num-val literal is its value whenever that fits an `int32`. -/
theorem C14_value_exact (base s : Str) (v : Nat) (h : Denotes base s v) (hv : v ≤ 2 ^ 31 - 1) :
    numvalToRune s base = v := by
  rw [numvalToRune_denotes h]; unfold maxInt32; omega

/-- C14.  Otherwise it is a value above U+10FFFF ... -/
theorem C14_saturates (base s : Str) (v : Nat) (h : Denotes base s v) (hv : 2 ^ 31 - 1 < v) :
    0x10FFFF < numvalToRune s base ∧ numvalToRune s base ≤ 2 ^ 31 - 1 := by
  rw [numvalToRune_denotes h]; unfold maxInt32; omega

/-- C14.  ... and a series containing a literal above U+10FFFF matches nothing. -/
theorem C14_series_no_match (base : Str) (es : List Str) (inp : Bytes) (i : Nat) (s : Str) (v : Nat)
    (hwf : ∀ s ∈ es, ∃ v, Denotes base s v) (hs : s ∈ es) (h : Denotes base s v) (hv : 0x10FFFF < v) :
    matchElem inp (.numVal base .series es) i = none := by
  rw [Option.eq_none_iff_forall_not_mem]
  intro j hj
  obtain ⟨cs, ht, -⟩ := (matchElem_iff inp (.numVal base .series es) hwf i j).mp hj
  cases ht with
  | series _ _ _ hf =>
    have : ∀ s ∈ es, ∃ c : Char, Denotes base s c.toNat := by
      clear hj hwf hs
      induction hf with
      | nil => simp
      | cons a _ ih =>
        intro s hs
        rcases List.mem_cons.mp hs with rfl | hs'
        · exact ⟨_, a⟩
        · exact ih s hs'
    obtain ⟨c, hc⟩ := this s hs
    have := denotes_fun hc h
    have := char_valid c
    omega

/-- C14.  A range matches exactly one character with a value between its bounds, however large the bounds. -/
theorem C14_range (base s t : Str) (lo hi : Nat) (hs : Denotes base s lo) (ht : Denotes base t hi)
    (inp : Bytes) (i j : Nat) :
    matchElem inp (.numVal base .range [s, t]) i = some j ↔
      ∃ c : Char, lo ≤ c.toNat ∧ c.toNat ≤ hi ∧ String.utf8EncodeChar c <+: inp.drop i ∧
        j = i + (String.utf8EncodeChar c).length := by
  simp only [matchElem]
  rw [matchRange_iff inp base s t lo hi hs ht]
  simp only [At, encodeRune_eq_utf8]

-- a literal beyond 64 bits: `%xFFFFFFFFFFFFFFFFFF`
example : ∃ v, Denotes ['x'] (List.replicate 18 'F') v ∧ 2 ^ 64 < v :=
  ⟨_, ⟨16, List.replicate 18 15, .hex, by decide, by
    repeat first | exact .nil | refine .cons (by decide) ?_
    , rfl⟩, by decide⟩

/-! ## C15: the Unicode bound check -/

/-- C15.  `checkBounds` accepts a num-val exactly when its value is at most U+10FFFF. -/
theorem C15_checkBounds_exact (base s : Str) (v : Nat) (h : Denotes base s v) :
    checkBounds s base = true ↔ v ≤ 0x10FFFF := checkBounds_denotes h

example : Denotes ['d'] (str% "0001114112") 1114112 :=
  ⟨10, [0, 0, 0, 1, 1, 1, 4, 1, 1, 2], .dec, by decide, by
    repeat first | exact .nil | refine .cons (by decide) ?_
    , by decide⟩
example : checkBounds (str% "0001114112") ['d'] = false ∧ checkBounds (str% "0001114111") ['d'] = true := by
  decide

/-! ## C16: round trip -/

/-- C16.  Rendering a non-negative `int32` in a base and reading it back yields the same value. -/
theorem C16_roundtrip (base : Str) (r : Nat) (hb : Radix base r) (v : Nat) (hv : v ≤ 2 ^ 31 - 1) :
    numvalToRune (int32ToNumval v base) base = v :=
  C14_value_exact base _ v (int32ToNumval_denotes hb v) hv

/-- C16.  The rendering denotes the value in that base. -/
theorem C16_denotes (base : Str) (r : Nat) (hb : Radix base r) (v : Nat) :
    Denotes base (int32ToNumval v base) v := int32ToNumval_denotes hb v

example : int32ToNumval 0x10FFFF ['X'] = str% "10FFFF" := by decide

end Verif.Props
