import Verif.Errors
import Verif.PropsCore

/-!
# C34: what `Found` of a parse error says

The text `describeByte` (/repo/errors.go:89-104) gives for each of the 256 bytes.
-/

namespace Verif.Props
open Spec

/-- The remark behind the number of a byte that has a name (/repo/errors.go:90-99). -/
def byteRemark (b : UInt8) : Str :=
  if b = 13 then str% " (CR)" else if b = 10 then str% " (LF)" else if b = 9 then str% " (HTAB)" else if b = 32 then str% " (SP)" else []

theorem denotes_two {x y : Char} {h l : Nat} (hx : HasDigit 16 x h) (hy : HasDigit 16 y l) : Denotes ['x'] [x, y] (16 * h + l) :=
  ⟨16, [h, l], .hex, by simp, .cons hx (.cons hy .nil), by simp [valueOf]; omega⟩

theorem describe_text (b : UInt8) :
    (0x21 ≤ b → b ≤ 0x7E → describeByte b = if b = 0x22 ∨ b = 0x5C then ['"', '\\', Char.ofNat b.toNat, '"'] else ['"', Char.ofNat b.toNat, '"']) ∧
    (b < 0x21 ∨ 0x7E < b → ∃ s, s.length = 2 ∧ Denotes ['x'] s b.toNat ∧ (∀ c ∈ s, ¬ ('a' ≤ c ∧ c ≤ 'f')) ∧
      describeByte b = ['%', 'x'] ++ s ++ byteRemark b) := by
  have key : ∀ m : Fin 256,
      (0x21 ≤ UInt8.ofNat m.val → UInt8.ofNat m.val ≤ 0x7E → describeByte (UInt8.ofNat m.val) =
        if UInt8.ofNat m.val = 0x22 ∨ UInt8.ofNat m.val = 0x5C then ['"', '\\', Char.ofNat (UInt8.ofNat m.val).toNat, '"'] else ['"', Char.ofNat (UInt8.ofNat m.val).toNat, '"']) ∧
      (UInt8.ofNat m.val < 0x21 ∨ 0x7E < UInt8.ofNat m.val →
        HasDigit 16 (hexDigitU (m.val / 16)) (m.val / 16) ∧ HasDigit 16 (hexDigitU (m.val % 16)) (m.val % 16) ∧
        (∀ c ∈ [hexDigitU (m.val / 16), hexDigitU (m.val % 16)], ¬ ('a' ≤ c ∧ c ≤ 'f')) ∧
        describeByte (UInt8.ofNat m.val) = ['%', 'x'] ++ [hexDigitU (m.val / 16), hexDigitU (m.val % 16)] ++ byteRemark (UInt8.ofNat m.val)) := by
    decide +kernel
  have h := key ⟨b.toNat, b.toNat_lt⟩
  rw [show UInt8.ofNat (⟨b.toNat, b.toNat_lt⟩ : Fin 256).val = b from UInt8.ofNat_toNat] at h
  refine ⟨h.1, fun hb => ?_⟩
  obtain ⟨h1, h2, h3, h4⟩ := h.2 hb
  refine ⟨_, rfl, ?_, h3, h4⟩
  have := denotes_two h1 h2
  rwa [Nat.div_add_mod] at this

/-- C34.  `Found` of an error within the input: a visible character in quotes, escaped if it is a quote or a backslash; every other
byte as its number in two upper-case hexadecimal digits, with its name if it is CR, LF, HTAB or SP. -/
theorem C34_found (inp : Bytes) (offset : Int) (expected : List Str) (b : UInt8)
    (h : inp[(newParseError inp offset expected).offset]? = some b) :
    (0x21 ≤ b → b ≤ 0x7E → (newParseError inp offset expected).found =
      if b = 0x22 ∨ b = 0x5C then ['"', '\\', Char.ofNat b.toNat, '"'] else ['"', Char.ofNat b.toNat, '"']) ∧
    (b < 0x21 ∨ 0x7E < b → ∃ s, s.length = 2 ∧ Denotes ['x'] s b.toNat ∧ (∀ c ∈ s, ¬ ('a' ≤ c ∧ c ≤ 'f')) ∧
      (newParseError inp offset expected).found = ['%', 'x'] ++ s ++ byteRemark b) := by
  have hf : (newParseError inp offset expected).found = match inp[(newParseError inp offset expected).offset]? with
      | some b => describeByte b | none => str% "EOF" := rfl
  rw [h] at hf
  rw [hf]
  exact describe_text b

/-- The text of a quote, DEL and CR. -/
example : describeByte 0x22 = str% "\"\\\"\"" ∧ describeByte 0x7F = str% "%x7F" ∧ describeByte 0x0D = str% "%x0D (CR)" := by decide

/-- C34_found: a line feed where something else was expected. -/
example : (bytes% "a\n")[(newParseError (bytes% "a\n") 1 []).offset]? = some 0x0A ∧ (newParseError (bytes% "a\n") 1 []).found = str% "%x0A (LF)" := by decide

end Verif.Props
