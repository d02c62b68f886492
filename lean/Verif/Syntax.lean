import Verif.Utf8

/-!
# ABNF syntax trees, printing and rule lookup

Model of the types of /repo/abnf.go, their `String` methods, `canon` of /repo/sppf.go and `GetRule` of
/repo/utils.go.
-/

namespace Verif

/-- A Go string used as text (rule names, digit strings, printed elements): its characters. -/
abbrev Str := List Char

open Lean in
/-- `str% "abc"` is the literal `['a', 'b', 'c']`. -/
macro "str% " s:str : term => do
  let cs := s.getString.toList.map fun c => Syntax.mkCharLit c
  let arr := cs.toArray
  `([$arr,*])

open Lean in
/-- `bytes% "abc"` is the literal `[97, 98, 99]` of UTF-8 bytes. -/
macro "bytes% " s:str : term => do
  let cs := s.getString.toUTF8.toList.map fun c => Syntax.mkNumLit (toString c.toNat)
  let arr := cs.toArray
  `(([$arr,*] : List UInt8))

/-- `Status` (/repo/abnf.go:207-214). -/
inductive Status where
  | series
  | range
  deriving DecidableEq, Repr

mutual
/-- `ElemItf` and its six implementations (/repo/abnf.go:18-20, 99-103, 115-117, 129-131, 142-147,
162-171, 190-192).  An alternation is the list of its concatenations, a concatenation the list of its
repetitions (/repo/abnf.go:40-44, 57-60). -/
inductive Elem where
  | rulename (name : Str)
  | group (alt : List (List Rep))
  | option (alt : List (List Rep))
  | charVal (sensitive : Bool) (values : List Char)
  | numVal (base : Str) (status : Status) (elems : List Str)
  | proseVal (values : List Str)
/-- `Repetition` (/repo/abnf.go:73-76); `max = none` stands for `inf` (/repo/rules.go:4). -/
inductive Rep where
  | mk (min : Nat) (max : Option Nat) (elem : Elem)
end

/-- `Concatenation` (/repo/abnf.go:57-60). -/
abbrev Concat := List Rep
/-- `Alternation` (/repo/abnf.go:40-44). -/
abbrev Alt := List Concat

namespace Rep
/-- Field `Min` (/repo/abnf.go:74). -/
def min : Rep → Nat | ⟨m, _, _⟩ => m
/-- Field `Max` (/repo/abnf.go:74). -/
def max : Rep → Option Nat | ⟨_, m, _⟩ => m
/-- Field `Element` (/repo/abnf.go:75). -/
def elem : Rep → Elem | ⟨_, _, e⟩ => e
@[simp] theorem min_mk (a b c) : (Rep.mk a b c).min = a := rfl
@[simp] theorem max_mk (a b c) : (Rep.mk a b c).max = b := rfl
@[simp] theorem elem_mk (a b c) : (Rep.mk a b c).elem = c := rfl
theorem eta (r : Rep) : Rep.mk r.min r.max r.elem = r := by cases r; rfl
end Rep

/-- `Rule` (/repo/abnf.go:25-31). -/
structure Rule where
  name : Str
  alt : Alt

/-- `Grammar` (/repo/grammar.go:12-14): the rules of `Rulemap`, in the order a `range` over the map visits
them.  The map key is always the rule's own name (feval.rulelist, /repo/grammar.go:179,190). -/
structure Grammar where
  rules : List Rule

/-! ## Decidable equality of syntax trees -/

mutual
def Elem.beq : Elem → Elem → Bool
  | .rulename a, .rulename b => a == b
  | .group a, .group b => altBeq a b
  | .option a, .option b => altBeq a b
  | .charVal s v, .charVal s' v' => s == s' && v == v'
  | .numVal b s e, .numVal b' s' e' => b == b' && s == s' && e == e'
  | .proseVal v, .proseVal v' => v == v'
  | _, _ => false
def Rep.beq : Rep → Rep → Bool
  | ⟨a, b, e⟩, ⟨a', b', e'⟩ => a == a' && b == b' && Elem.beq e e'
def concatBeq : List Rep → List Rep → Bool
  | [], [] => true
  | r :: c, r' :: c' => Rep.beq r r' && concatBeq c c'
  | _, _ => false
def altBeq : List (List Rep) → List (List Rep) → Bool
  | [], [] => true
  | c :: a, c' :: a' => concatBeq c c' && altBeq a a'
  | _, _ => false
end

mutual
theorem Elem.beq_eq : (a b : Elem) → (Elem.beq a b = true ↔ a = b)
  | .rulename a, b => by cases b <;> simp [Elem.beq]
  | .group a, b => by
    cases b <;> simp [Elem.beq]
    case group b => exact altBeq_eq a b
  | .option a, b => by
    cases b <;> simp [Elem.beq]
    case option b => exact altBeq_eq a b
  | .charVal s v, b => by cases b <;> simp [Elem.beq]
  | .numVal x s e, b => by cases b <;> simp [Elem.beq, and_assoc]
  | .proseVal v, b => by cases b <;> simp [Elem.beq]
theorem Rep.beq_eq : (a b : Rep) → (Rep.beq a b = true ↔ a = b)
  | ⟨a, b, e⟩, ⟨a', b', e'⟩ => by simp [Rep.beq, Elem.beq_eq e e', and_assoc]
theorem concatBeq_eq : (a b : List Rep) → (concatBeq a b = true ↔ a = b)
  | [], b => by cases b <;> simp [concatBeq]
  | r :: c, b => by
    cases b with
    | nil => simp [concatBeq]
    | cons r' c' => simp [concatBeq, Rep.beq_eq r r', concatBeq_eq c c']
theorem altBeq_eq : (a b : List (List Rep)) → (altBeq a b = true ↔ a = b)
  | [], b => by cases b <;> simp [altBeq]
  | r :: c, b => by
    cases b with
    | nil => simp [altBeq]
    | cons r' c' => simp [altBeq, concatBeq_eq r r', altBeq_eq c c']
end

instance : DecidableEq Elem := fun a b => decidable_of_iff _ (Elem.beq_eq a b)
instance : DecidableEq Rep := fun a b => decidable_of_iff _ (Rep.beq_eq a b)
deriving instance DecidableEq for Rule
deriving instance DecidableEq for Grammar

/-! ## Case folding of names -/

/-- One byte of `canon` (/repo/sppf.go:225-229), also `runeMin` (/repo/grammar.go:369-374): ASCII lower case. -/
def lowerChar (c : Char) : Char :=
  if 'A'.toNat ≤ c.toNat ∧ c.toNat ≤ 'Z'.toNat then Char.ofNat (c.toNat + 32) else c

/-- `runeMax` (/repo/grammar.go:376-381): ASCII upper case. -/
def upperChar (c : Char) : Char :=
  if 'a'.toNat ≤ c.toNat ∧ c.toNat ≤ 'z'.toNat then Char.ofNat (c.toNat - 32) else c

/-- `canon` (/repo/sppf.go:223-231) and, restricted to ASCII names, `strings.ToLower`. -/
def canon (s : Str) : Str := s.map lowerChar

/-- `strings.EqualFold` restricted to ASCII names (used at /repo/utils.go:147). -/
def equalFold (a b : Str) : Bool := canon a == canon b

/-! ## Printing (the `String` methods of /repo/abnf.go) -/

/-- `strconv.Itoa` of a non-negative integer. -/
def itoa (n : Nat) : Str := Nat.toDigits 10 n

/-- The separator-joining loops with a final `strings.TrimSuffix` (/repo/abnf.go:46-52, 62-68, 179-182). -/
def joinWith (sep : Str) : List Str → Str
  | [] => []
  | [x] => x
  | x :: y :: r => x ++ sep ++ joinWith sep (y :: r)

/-- Bound prefix of a repetition (/repo/abnf.go:79-92). -/
def repPrefix (min : Nat) (max : Option Nat) : Str :=
  if max = some min then (if min = 1 then [] else itoa min)
  else (if min ≠ 0 then itoa min else []) ++ ['*'] ++ (match max with | none => [] | some m => itoa m)

mutual
/-- `ElemItf.String` (/repo/abnf.go:105-107, 119-121, 133-135, 149-155, 173-183, 194-200).  As in the code, a
char-val prints without its `%s` marker. -/
def Elem.str : Elem → Str
  | .rulename n => n
  | .group a => ['('] ++ altStr a ++ [')']
  | .option a => ['['] ++ altStr a ++ [']']
  | .charVal _ vs => ['"'] ++ vs ++ ['"']
  | .numVal b st es => ['%'] ++ b ++ joinWith (if st = .range then ['-'] else ['.']) es
  | .proseVal vs => ['<'] ++ vs.flatten ++ ['>']
/-- `Repetition.String` (/repo/abnf.go:78-94). -/
def Rep.str : Rep → Str
  | ⟨mn, mx, e⟩ => repPrefix mn mx ++ Elem.str e
/-- `Concatenation.String` (/repo/abnf.go:62-68). -/
def concatStr : List Rep → Str
  | [] => []
  | [r] => Rep.str r
  | r :: r' :: c => Rep.str r ++ [' '] ++ concatStr (r' :: c)
/-- `Alternation.String` (/repo/abnf.go:46-52). -/
def altStr : List (List Rep) → Str
  | [] => []
  | [c] => concatStr c
  | c :: c' :: a => concatStr c ++ [' ', '/', ' '] ++ altStr (c' :: a)
end

/-! ## Core rules and rule lookup -/

namespace Core
private def one (e : Elem) : Rep := ⟨1, some 1, e⟩
private def rng (a b : Str) : Elem := .numVal ['x'] .range [a, b]
private def num (a : Str) : Elem := .numVal ['x'] .series [a]
private def chr (c : Char) : Elem := .charVal false [c]
private def rn (n : Str) : Elem := .rulename n

/-- The core rules (/repo/rules.go:7-510), RFC 5234 appendix B.1. -/
def rules : List Rule := [
  ⟨str% "ALPHA", [[one (rng (str% "41") (str% "5A"))], [one (rng (str% "61") (str% "7A"))]]⟩,
  ⟨str% "BIT", [[one (chr '0')], [one (chr '1')]]⟩,
  ⟨str% "CHAR", [[one (rng (str% "01") (str% "7F"))]]⟩,
  ⟨str% "CR", [[one (num (str% "0D"))]]⟩,
  ⟨str% "CRLF", [[one (rn (str% "CR")), one (rn (str% "LF"))]]⟩,
  ⟨str% "CTL", [[one (rng (str% "00") (str% "1F"))], [one (num (str% "7F"))]]⟩,
  ⟨str% "DIGIT", [[one (rng (str% "30") (str% "39"))]]⟩,
  ⟨str% "DQUOTE", [[one (num (str% "22"))]]⟩,
  ⟨str% "HEXDIG", [[one (rn (str% "DIGIT"))], [one (chr 'A')], [one (chr 'B')], [one (chr 'C')],
    [one (chr 'D')], [one (chr 'E')], [one (chr 'F')]]⟩,
  ⟨str% "HTAB", [[one (num (str% "09"))]]⟩,
  ⟨str% "LF", [[one (num (str% "0A"))]]⟩,
  ⟨str% "LWSP", [[⟨0, none, .group [[one (rn (str% "WSP"))],
    [one (rn (str% "CRLF")), one (rn (str% "WSP"))]]⟩]]⟩,
  ⟨str% "OCTET", [[one (rng (str% "00") (str% "FF"))]]⟩,
  ⟨str% "SP", [[one (num (str% "20"))]]⟩,
  ⟨str% "VCHAR", [[one (rng (str% "21") (str% "7E"))]]⟩,
  ⟨str% "WSP", [[one (rn (str% "SP"))], [one (rn (str% "HTAB"))]]⟩]
end Core

/-- `getRuleIn` (/repo/utils.go:145-152): the first rule in iteration order whose name matches. -/
def getRuleIn (name : Str) (rs : List Rule) : Option Rule := rs.find? fun r => equalFold name r.name

/-- `GetRule` (/repo/utils.go:137-143). -/
def getRule (name : Str) (rs : List Rule) : Option Rule :=
  (getRuleIn name rs).or (getRuleIn name Core.rules)

end Verif
