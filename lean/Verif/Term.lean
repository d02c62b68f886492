import Verif.Numval
import Verif.Spec
import Mathlib.Tactic.Ring
import Mathlib.Data.List.Forall2

/-!
# Terminal matching

Model of the three identical terminal matchers of /repo: `gllParser.matchTerm` (sppf.go:427-486),
`bsrParser.matchTerm` (bsr.go:140-195) and the terminal cases of `recognizer.computeElem`
(recognize.go:230-290).
-/

namespace Verif

/-- `sensequal` (/repo/grammar.go:362-367). -/
def sensequal (target actual : Char) (sensitive : Bool) : Bool :=
  if !sensitive then lowerChar target == lowerChar actual else target == actual

/-- The char-val loop (/repo/sppf.go:433-447, /repo/bsr.go:146-160, /repo/recognize.go:274-289). -/
def matchCharVal (inp : Bytes) (sensitive : Bool) : List Char → Nat → Option Nat
  | [], idx => some idx
  | v :: vs, idx =>
    if idx ≥ inp.length then none
    else match decodeRune (inp.drop idx) with
      | none => none
      | some (c, size) =>
        if !sensequal v c sensitive then none else matchCharVal inp sensitive vs (idx + size)

/-- The num-val range case (/repo/sppf.go:450-465, /repo/bsr.go:163-176, /repo/recognize.go:236-251).
Fewer than two bounds would be an index panic in Go; such elements are excluded by well-formedness. -/
def matchRange (inp : Bytes) (base : Str) (es : List Str) (i : Nat) : Option Nat :=
  match es with
  | lo :: hi :: _ =>
    if i ≥ inp.length then none
    else
      let mn := numvalToRune lo base
      let mx := numvalToRune hi base
      match decodeRune (inp.drop i) with
      | none => none
      | some (c, size) => if mn ≤ c.toNat ∧ c.toNat ≤ mx then some (i + size) else none
  | _ => none

/-- The num-val series loop (/repo/sppf.go:466-482, /repo/bsr.go:177-191, /repo/recognize.go:252-269). -/
def matchSeries (inp : Bytes) (base : Str) : List Str → Nat → Option Nat
  | [], idx => some idx
  | e :: es, idx =>
    let ru := numvalToRune e base
    if !validRune ru then none
    else
      let str := encodeRune (Char.ofNat ru)
      let sz := str.length
      if idx + sz > inp.length ∨ str ≠ (inp.drop idx).take sz then none
      else matchSeries inp base es (idx + sz)

/-- Terminal matching at `i` (/repo/sppf.go:427-486, /repo/bsr.go:140-195, /repo/recognize.go:230-290): the end
of the match, `none` for -1. -/
def matchElem (inp : Bytes) (e : Elem) (i : Nat) : Option Nat :=
  match e with
  | .charVal s vs => matchCharVal inp s vs i
  | .numVal b .range es => matchRange inp b es i
  | .numVal b .series es => matchSeries inp b es i
  | _ => none

/-! ## Characters up to case -/

theorem char_ext {a b : Char} (h : a.toNat = b.toNat) : a = b := by
  have := congrArg Char.ofNat h
  rwa [char_ofNat_toNat, char_ofNat_toNat] at this

theorem lowerChar_toNat (c : Char) :
    (lowerChar c).toNat = if 65 ≤ c.toNat ∧ c.toNat ≤ 90 then c.toNat + 32 else c.toNat := by
  unfold lowerChar
  have h1 : 'A'.toNat = 65 := rfl
  have h2 : 'Z'.toNat = 90 := rfl
  rw [h1, h2]
  split_ifs with h
  · exact toNat_ofNat_char (by omega)
  · rfl

theorem char_le_iff (a b : Char) : a ≤ b ↔ a.toNat ≤ b.toNat := by
  rw [Char.le_def, UInt32.le_iff_toNat_le]; rfl

theorem sameLetter_iff (a b : Char) : Spec.SameLetter a b ↔ lowerChar a = lowerChar b := by
  have h1 : 'A'.toNat = 65 := rfl
  have h2 : 'Z'.toNat = 90 := rfl
  have h3 : 'a'.toNat = 97 := rfl
  have h4 : 'z'.toNat = 122 := rfl
  have ha := lowerChar_toNat a
  have hb := lowerChar_toNat b
  unfold Spec.SameLetter
  simp only [char_le_iff, h1, h2, h3, h4]
  constructor
  · rintro (rfl | h | h)
    · rfl
    · apply char_ext; rw [ha, hb]; split_ifs <;> omega
    · apply char_ext; rw [ha, hb]; split_ifs <;> omega
  · intro h
    have h := congrArg Char.toNat h
    rw [ha, hb] at h
    by_cases hab : a.toNat = b.toNat
    · exact Or.inl (char_ext hab)
    · right
      split_ifs at h with h5 h6 h6
      all_goals omega

theorem sameLetter_refl (a : Char) : Spec.SameLetter a a := Or.inl rfl

theorem sameName_iff (a b : Str) : Spec.SameName a b ↔ canon a = canon b := by
  unfold Spec.SameName canon
  induction a generalizing b with
  | nil => cases b <;> simp
  | cons x a ih => cases b <;> simp_all [sameLetter_iff, List.forall₂_nil_right_iff]

theorem equalFold_iff (a b : Str) : equalFold a b = true ↔ Spec.SameName a b := by
  rw [sameName_iff]; simp [equalFold]

end Verif
