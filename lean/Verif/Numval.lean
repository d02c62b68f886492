import Verif.Syntax

/-!
# Numeric values

Model of /repo/utils.go: `baseRadix`, `numvalToUint64`, `numvalToInt32`, `numvalToRune`, `int32ToNumval`,
`checkBounds`.
-/

namespace Verif

/-- `baseRadix` (/repo/utils.go:25-35). -/
def baseRadix (base : Str) : Nat :=
  if base = ['B'] ∨ base = ['b'] then 2
  else if base = ['D'] ∨ base = ['d'] then 10
  else if base = ['X'] ∨ base = ['x'] then 16
  else 10

/-- Value of one digit as `strconv.ParseUint` reads it (stdlib; called at /repo/utils.go:48). -/
def digitVal (c : Char) : Option Nat :=
  if '0'.toNat ≤ c.toNat ∧ c.toNat ≤ '9'.toNat then some (c.toNat - '0'.toNat)
  else if 'a'.toNat ≤ c.toNat ∧ c.toNat ≤ 'z'.toNat then some (c.toNat - 'a'.toNat + 10)
  else if 'A'.toNat ≤ c.toNat ∧ c.toNat ≤ 'Z'.toNat then some (c.toNat - 'A'.toNat + 10)
  else none

/-- The digit loop of `strconv.ParseUint(s, radix, 64)` (stdlib; called at /repo/utils.go:48):
`none` on a bad digit or as soon as 64 bits overflow. -/
def parseUintLoop (radix : Nat) : Str → Nat → Option Nat
  | [], acc => some acc
  | c :: s, acc =>
    match digitVal c with
    | none => none
    | some d =>
      if d < radix then
        if acc * radix + d < 2 ^ 64 then parseUintLoop radix s (acc * radix + d) else none
      else none

/-- `numvalToUint64` (/repo/utils.go:47-53); `none` is `ok = false`. -/
def numvalToUint64 (s base : Str) : Option Nat :=
  if s = [] then none else parseUintLoop (baseRadix base) s 0

/-- `math.MaxInt32`. -/
def maxInt32 : Nat := 2147483647

/-- `numvalToInt32` (/repo/utils.go:61-67) and `numvalToRune` (/repo/utils.go:74-76). -/
def numvalToRune (s base : Str) : Nat :=
  match numvalToUint64 s base with
  | none => maxInt32
  | some v => if v > maxInt32 then maxInt32 else v

/-- `utf8.ValidRune` (stdlib; called at /repo/sppf.go:472). -/
def validRune (n : Nat) : Bool := n < 0xD800 || (0xDFFF < n && n < 0x110000)

/-- `strings.TrimLeft(str, "0")` (/repo/utils.go:85). -/
def trimZeros (s : Str) : Str := s.dropWhile (· == '0')

/-- `str[i]` in a comparison (/repo/utils.go:101,112,123); the comparisons are guarded by the length. -/
def at' (s : Str) (i : Nat) : Nat := (s.getD i '0').toNat

/-- `checkBounds` (/repo/utils.go:84-132); `true` is a nil error. -/
def checkBounds (s base : Str) : Bool :=
  let str := trimZeros s
  if base = ['B'] ∨ base = ['b'] then
    !(str.length > 21 ||
      (str.length == 21 && (at' str 1 != '0'.toNat || at' str 2 != '0'.toNat ||
        at' str 3 != '0'.toNat || at' str 4 != '0'.toNat)))
  else if base = ['D'] ∨ base = ['d'] then
    !(str.length > 7 ||
      (str.length == 7 && (at' str 0 > '1'.toNat || (at' str 0 == '1'.toNat &&
        (at' str 1 > '1'.toNat || (at' str 1 == '1'.toNat &&
        (at' str 2 > '1'.toNat || (at' str 2 == '1'.toNat &&
        (at' str 3 > '4'.toNat || (at' str 3 == '4'.toNat &&
        (at' str 4 > '1'.toNat || (at' str 4 == '1'.toNat &&
        (at' str 5 > '1'.toNat || (at' str 5 == '1'.toNat && at' str 6 > '1'.toNat))))))))))))))
  else if base = ['X'] ∨ base = ['x'] then
    !(str.length > 6 ||
      (str.length == 6 && (at' str 0 > '1'.toNat || (at' str 0 == '1'.toNat && at' str 1 > '0'.toNat))))
  else true

/-- `strings.ToUpper` on digits. -/
def upperStr (s : Str) : Str := s.map upperChar

/-- `int32ToNumval` (/repo/utils.go:12-22) for a non-negative value. -/
def int32ToNumval (v : Nat) (base : Str) : Str :=
  if base = ['B'] ∨ base = ['b'] then Nat.toDigits 2 v
  else if base = ['D'] ∨ base = ['d'] then Nat.toDigits 10 v
  else if base = ['X'] ∨ base = ['x'] then upperStr (Nat.toDigits 16 v)
  else Nat.toDigits 10 v

end Verif
