import Mathlib.Tactic.Linarith
import Mathlib.Tactic.IntervalCases

/-!
# UTF-8

Model of the two Go standard library routines the matchers of /repo rely on:
`utf8.DecodeRune` (used at sppf.go:438,458, bsr.go:151,169, recognize.go:245,279) and the conversion
`string(rune)` (used at sppf.go:475, bsr.go:184, recognize.go:262).

`utf8.DecodeRune` is not part of /repo; its documented behaviour (first-byte table plus accept ranges) is
transcribed here.  The error results `(RuneError, 1)` and `(RuneError, 0)` are the value `none`: every caller
in /repo treats the first as "no match" and checks for the end of the input before the call.
-/

namespace Verif

/-- A byte string (Go `[]byte`). -/
abbrev Bytes := List UInt8

/-- Continuation byte test, the `locb`/`hicb` bounds of `utf8.DecodeRune`
(called at /repo/sppf.go:438, /repo/bsr.go:151, /repo/recognize.go:279). -/
def isCont (b : UInt8) : Bool := 0x80 ≤ b.toNat && b.toNat ≤ 0xBF

/-- `utf8.DecodeRune` (stdlib; called at /repo/sppf.go:438,458, /repo/bsr.go:151,169,
/repo/recognize.go:245,279): the first character and its width, `none` for the error results. -/
def decodeRune : Bytes → Option (Char × Nat)
  | [] => none
  | b0 :: t =>
    if b0.toNat < 0x80 then some (Char.ofNat b0.toNat, 1)
    else if b0.toNat < 0xC2 then none
    else if b0.toNat < 0xE0 then
      match t with
      | b1 :: _ =>
        if isCont b1 then some (Char.ofNat (b0.toNat % 32 * 64 + b1.toNat % 64), 2) else none
      | _ => none
    else if b0.toNat < 0xF0 then
      match t with
      | b1 :: b2 :: _ =>
        if isCont b1 && isCont b2 && (b0.toNat != 0xE0 || 0xA0 ≤ b1.toNat)
            && (b0.toNat != 0xED || b1.toNat ≤ 0x9F) then
          some (Char.ofNat (b0.toNat % 16 * 4096 + b1.toNat % 64 * 64 + b2.toNat % 64), 3)
        else none
      | _ => none
    else if b0.toNat < 0xF5 then
      match t with
      | b1 :: b2 :: b3 :: _ =>
        if isCont b1 && isCont b2 && isCont b3 && (b0.toNat != 0xF0 || 0x90 ≤ b1.toNat)
            && (b0.toNat != 0xF4 || b1.toNat ≤ 0x8F) then
          some (Char.ofNat (b0.toNat % 8 * 262144 + b1.toNat % 64 * 4096 + b2.toNat % 64 * 64
            + b3.toNat % 64), 4)
        else none
      | _ => none
    else none

/-- `string(r)` for a valid rune, as bytes (stdlib `utf8.AppendRune`; used at /repo/sppf.go:475,
/repo/bsr.go:184, /repo/recognize.go:262, /repo/generate.go:112, /repo/ast.go:251). -/
def encodeRune (c : Char) : Bytes :=
  let n := c.toNat
  if n < 0x80 then [UInt8.ofNat n]
  else if n < 0x800 then [UInt8.ofNat (0xC0 + n / 64), UInt8.ofNat (0x80 + n % 64)]
  else if n < 0x10000 then
    [UInt8.ofNat (0xE0 + n / 4096), UInt8.ofNat (0x80 + n / 64 % 64), UInt8.ofNat (0x80 + n % 64)]
  else
    [UInt8.ofNat (0xF0 + n / 262144), UInt8.ofNat (0x80 + n / 4096 % 64),
     UInt8.ofNat (0x80 + n / 64 % 64), UInt8.ofNat (0x80 + n % 64)]

/-- `string([]rune)` as bytes. -/
def encodeAll (cs : List Char) : Bytes := cs.flatMap encodeRune

theorem char_valid (c : Char) : c.toNat < 0xD800 ∨ (0xDFFF < c.toNat ∧ c.toNat < 0x110000) := c.valid

theorem toNat_ofNat_char {n : Nat} (h : n < 0xD800 ∨ (0xDFFF < n ∧ n < 0x110000)) :
    (Char.ofNat n).toNat = n := by
  have hv : n.isValidChar := h
  unfold Char.ofNat
  rw [dif_pos hv]
  simp only [Char.toNat, Char.ofNatAux]
  rfl

theorem char_ofNat_toNat (c : Char) : Char.ofNat c.toNat = c := Char.ofNat_toNat c

theorem toNat_u8 {n : Nat} (h : n < 256) : (UInt8.ofNat n).toNat = n := by
  simp [Nat.mod_eq_of_lt h]

theorem u8_ofNat_toNat (b : UInt8) : UInt8.ofNat b.toNat = b := by simp

theorem isCont_iff (b : UInt8) : isCont b = true ↔ 0x80 ≤ b.toNat ∧ b.toNat ≤ 0xBF := by
  simp [isCont]

theorem isCont_ofNat {m : Nat} (h1 : 0x80 ≤ m) (h2 : m ≤ 0xBF) : isCont (UInt8.ofNat m) = true := by
  rw [isCont_iff, toNat_u8 (by omega)]; exact ⟨h1, h2⟩

theorem encodeRune_ne_nil (c : Char) : encodeRune c ≠ [] := by
  unfold encodeRune; simp only []; split_ifs <;> simp

theorem encodeRune_length_pos (c : Char) : 0 < (encodeRune c).length :=
  List.length_pos_iff.mpr (encodeRune_ne_nil c)

theorem encodeRune_length_le (c : Char) : (encodeRune c).length ≤ 4 := by
  unfold encodeRune; simp only []; split_ifs <;> simp

/-- Decoding undoes encoding. -/
theorem decode_encode (c : Char) (rest : Bytes) :
    decodeRune (encodeRune c ++ rest) = some (c, (encodeRune c).length) := by
  have hv := char_valid c
  have hc := char_ofNat_toNat c
  generalize hn : c.toNat = n at *
  unfold encodeRune
  simp only [hn]
  split_ifs with h1 h2 h3
  · simp only [List.cons_append, List.nil_append, decodeRune]
    rw [toNat_u8 (by omega)]
    simp [h1, hc]
  · simp only [List.cons_append, List.nil_append, decodeRune]
    rw [isCont_ofNat (by omega) (by omega), toNat_u8 (by omega : 0xC0 + n/64 < 256),
      toNat_u8 (by omega : 0x80 + n%64 < 256)]
    rw [if_neg (by omega), if_neg (by omega), if_pos (by omega), if_pos rfl]
    have : (0xC0 + n/64) % 32 * 64 + (0x80 + n%64) % 64 = n := by omega
    rw [this, hc]; rfl
  · simp only [List.cons_append, List.nil_append, decodeRune]
    rw [isCont_ofNat (m := 0x80 + n/64%64) (by omega) (by omega),
      isCont_ofNat (m := 0x80 + n%64) (by omega) (by omega),
      toNat_u8 (by omega : 0xE0 + n/4096 < 256), toNat_u8 (by omega : 0x80 + n%64 < 256),
      toNat_u8 (by omega : 0x80 + n/64%64 < 256)]
    rw [if_neg (by omega), if_neg (by omega), if_neg (by omega), if_pos (by omega),
      if_pos (by simp; omega)]
    have : (0xE0 + n/4096) % 16 * 4096 + (0x80 + n/64%64) % 64 * 64 + (0x80 + n%64) % 64 = n := by omega
    rw [this, hc]; rfl
  · simp only [List.cons_append, List.nil_append, decodeRune]
    rw [isCont_ofNat (m := 0x80 + n/4096%64) (by omega) (by omega),
      isCont_ofNat (m := 0x80 + n/64%64) (by omega) (by omega),
      isCont_ofNat (m := 0x80 + n%64) (by omega) (by omega),
      toNat_u8 (by omega : 0xF0 + n/262144 < 256), toNat_u8 (by omega : 0x80 + n%64 < 256),
      toNat_u8 (by omega : 0x80 + n/64%64 < 256), toNat_u8 (by omega : 0x80 + n/4096%64 < 256)]
    rw [if_neg (by omega), if_neg (by omega), if_neg (by omega), if_neg (by omega), if_pos (by omega),
      if_pos (by simp; omega)]
    have : (0xF0 + n/262144) % 8 * 262144 + (0x80 + n/4096%64) % 64 * 4096
      + (0x80 + n/64%64) % 64 * 64 + (0x80 + n%64) % 64 = n := by omega
    rw [this, hc]; rfl

theorem u8_eq {b : UInt8} {n : Nat} (h : b.toNat = n) : UInt8.ofNat n = b := by
  subst h; simp

/-- Whatever is decoded is the encoding of the character. -/
theorem decode_sound {bs : Bytes} {c : Char} {k : Nat} (h : decodeRune bs = some (c, k)) :
    ∃ rest, bs = encodeRune c ++ rest ∧ k = (encodeRune c).length := by
  match bs with
  | [] => simp [decodeRune] at h
  | b0 :: t =>
    have hb0 := b0.toNat_lt
    simp only [decodeRune] at h
    split_ifs at h with h1 h2 h3 h4 h5
    · simp only [Option.some.injEq, Prod.mk.injEq] at h
      obtain ⟨rfl, rfl⟩ := h
      have := toNat_ofNat_char (n := b0.toNat) (by omega)
      refine ⟨t, ?_, ?_⟩ <;> simp [encodeRune, this, h1]
    · match t with
      | [] => simp at h
      | b1 :: t =>
        have hb1 := b1.toNat_lt
        simp only [] at h
        split_ifs at h with hc
        simp only [Option.some.injEq, Prod.mk.injEq] at h
        simp only [isCont_iff] at hc
        obtain ⟨rfl, rfl⟩ := h
        have := toNat_ofNat_char (n := b0.toNat % 32 * 64 + b1.toNat % 64) (by omega)
        have e0 := u8_eq (b := b0) (n := 0xC0 + (b0.toNat % 32 * 64 + b1.toNat % 64)/64) (by omega)
        have e1 := u8_eq (b := b1) (n := 0x80 + (b0.toNat % 32 * 64 + b1.toNat % 64)%64) (by omega)
        refine ⟨t, ?_, ?_⟩
        · simp only [encodeRune, this]
          rw [if_neg (by omega), if_pos (by omega), e0, e1]; rfl
        · simp only [encodeRune, this]
          rw [if_neg (by omega), if_pos (by omega)]; rfl
    · match t with
      | [] => simp at h
      | [_] => simp at h
      | b1 :: b2 :: t =>
        have hb1 := b1.toNat_lt
        have hb2 := b2.toNat_lt
        simp only [] at h
        split_ifs at h with hc
        simp only [Option.some.injEq, Prod.mk.injEq] at h
        simp only [Bool.and_eq_true, decide_eq_true_eq, Bool.or_eq_true, bne_iff_ne, isCont_iff] at hc
        obtain ⟨rfl, rfl⟩ := h
        generalize hN : b0.toNat % 16 * 4096 + b1.toNat % 64 * 64 + b2.toNat % 64 = N
        have := toNat_ofNat_char (n := N) (by omega)
        have e0 := u8_eq (b := b0) (n := 0xE0 + N/4096) (by omega)
        have e1 := u8_eq (b := b1) (n := 0x80 + N/64%64) (by omega)
        have e2 := u8_eq (b := b2) (n := 0x80 + N%64) (by omega)
        refine ⟨t, ?_, ?_⟩
        · simp only [encodeRune, this]
          rw [if_neg (by omega), if_neg (by omega), if_pos (by omega), e0, e1, e2]; rfl
        · simp only [encodeRune, this]
          rw [if_neg (by omega), if_neg (by omega), if_pos (by omega)]; rfl
    · match t with
      | [] => simp at h
      | [_] => simp at h
      | [_, _] => simp at h
      | b1 :: b2 :: b3 :: t =>
        have hb1 := b1.toNat_lt
        have hb2 := b2.toNat_lt
        have hb3 := b3.toNat_lt
        simp only [] at h
        split_ifs at h with hc
        simp only [Option.some.injEq, Prod.mk.injEq] at h
        simp only [Bool.and_eq_true, decide_eq_true_eq, Bool.or_eq_true, bne_iff_ne, isCont_iff] at hc
        obtain ⟨rfl, rfl⟩ := h
        generalize hN : b0.toNat % 8 * 262144 + b1.toNat % 64 * 4096 + b2.toNat % 64 * 64
          + b3.toNat % 64 = N
        have := toNat_ofNat_char (n := N) (by omega)
        have e0 := u8_eq (b := b0) (n := 0xF0 + N/262144) (by omega)
        have e1 := u8_eq (b := b1) (n := 0x80 + N/4096%64) (by omega)
        have e2 := u8_eq (b := b2) (n := 0x80 + N/64%64) (by omega)
        have e3 := u8_eq (b := b3) (n := 0x80 + N%64) (by omega)
        refine ⟨t, ?_, ?_⟩
        · simp only [encodeRune, this]
          rw [if_neg (by omega), if_neg (by omega), if_neg (by omega), e0, e1, e2, e3]; rfl
        · simp only [encodeRune, this]
          rw [if_neg (by omega), if_neg (by omega), if_neg (by omega)]; rfl

theorem decode_iff (bs : Bytes) (c : Char) (k : Nat) :
    decodeRune bs = some (c, k) ↔ (∃ rest, bs = encodeRune c ++ rest) ∧ k = (encodeRune c).length := by
  constructor
  · intro h
    obtain ⟨r, h1, h2⟩ := decode_sound h
    exact ⟨⟨r, h1⟩, h2⟩
  · rintro ⟨⟨r, rfl⟩, rfl⟩
    exact decode_encode c r

/-- UTF-8 is a prefix code: two encodings of which one is a prefix of the other's extension are equal. -/
theorem encode_prefix_inj {c d : Char} {r s : Bytes} (h : encodeRune c ++ r = encodeRune d ++ s) :
    c = d ∧ r = s := by
  have h1 := decode_encode c r
  have h2 := decode_encode d s
  rw [h, h2] at h1
  simp only [Option.some.injEq, Prod.mk.injEq] at h1
  obtain ⟨h1, -⟩ := h1
  subst h1
  exact ⟨rfl, List.append_cancel_left h⟩

theorem encodeAll_nil : encodeAll [] = [] := rfl
theorem encodeAll_cons (c : Char) (cs : List Char) :
    encodeAll (c :: cs) = encodeRune c ++ encodeAll cs := by simp [encodeAll]
theorem encodeAll_append (a b : List Char) : encodeAll (a ++ b) = encodeAll a ++ encodeAll b := by
  simp [encodeAll]

theorem encodeAll_inj {a b : List Char} (h : encodeAll a = encodeAll b) : a = b := by
  induction a generalizing b with
  | nil =>
    cases b with
    | nil => rfl
    | cons d b =>
      rw [encodeAll_nil, encodeAll_cons] at h
      exact absurd (List.append_eq_nil_iff.mp h.symm).1 (encodeRune_ne_nil d)
  | cons c a ih =>
    cases b with
    | nil =>
      rw [encodeAll_nil, encodeAll_cons] at h
      exact absurd (List.append_eq_nil_iff.mp h).1 (encodeRune_ne_nil c)
    | cons d b =>
      rw [encodeAll_cons, encodeAll_cons] at h
      obtain ⟨h1, h2⟩ := encode_prefix_inj h
      rw [h1, ih h2]

end Verif
