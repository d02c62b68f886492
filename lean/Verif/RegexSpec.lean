import Verif.Regex
import Verif.PropsCore

/-!
# Specification: what a regular expression means

The language of a regex tree, and, independently of the renderer, how a pattern text is read by RE2 (the fragment of
https://github.com/google/re2/wiki/Syntax that is needed) and which texts it matches from end to end.
-/

namespace Verif

/-- The character is in one of the ranges of code points. -/
def InRanges (rs : List (Nat × Nat)) (n : Nat) : Prop := ∃ r ∈ rs, r.1 ≤ n ∧ n ≤ r.2

/-- `n` consecutive texts of the language `L`. -/
def Pow (L : List Char → Prop) : Nat → List Char → Prop
  | 0, w => w = []
  | n + 1, w => ∃ u v, w = u ++ v ∧ L u ∧ Pow L n v

/-- A number of consecutive texts within the bounds. -/
def RepBetween (L : List Char → Prop) (mn : Nat) (mx : Option Nat) (w : List Char) : Prop :=
  ∃ n, mn ≤ n ∧ (∀ m, mx = some m → n ≤ m) ∧ Pow L n w

mutual
/-- The texts a regex tree stands for. -/
def Re.Lang : Re → List Char → Prop
  | .cls rs, w => ∃ c, w = [c] ∧ InRanges rs c.toNat
  | .concat ps, w => seqLang ps w
  | .alt os, w => altLang os w
  | .rep p mn mx, w => RepBetween (Re.Lang p) mn mx w
  | .empty, w => w = []
  | .never, _ => False
/-- One text of each, in order. -/
def seqLang : List Re → List Char → Prop
  | [], w => w = []
  | p :: ps, w => ∃ u v, w = u ++ v ∧ Re.Lang p u ∧ seqLang ps v
/-- A text of one of them. -/
def altLang : List Re → List Char → Prop
  | [], _ => False
  | p :: ps, w => Re.Lang p w ∨ altLang ps w
end

mutual
/-- Every repetition has bounds that some count satisfies. -/
def Re.BoundsOK : Re → Prop
  | .concat ps => allBoundsOK ps
  | .alt os => allBoundsOK os
  | .rep p mn mx => (∀ m, mx = some m → mn ≤ m) ∧ Re.BoundsOK p
  | _ => True
/-- On a list. -/
def allBoundsOK : List Re → Prop
  | [] => True
  | p :: ps => Re.BoundsOK p ∧ allBoundsOK ps
end

/-! ## RE2 patterns -/

/-- Parsed RE2 patterns: a character class, possibly negated, a sequence, a choice, a bounded repetition. -/
inductive Pat where
  | set (neg : Bool) (ranges : List (Nat × Nat))
  | seq (parts : List Pat)
  | any (opts : List Pat)
  | rep (sub : Pat) (min : Nat) (max : Option Nat)

mutual
/-- The texts a pattern matches from end to end. -/
def Pat.Lang : Pat → List Char → Prop
  | .set neg rs, w => ∃ c, w = [c] ∧ (if neg then ¬ InRanges rs c.toNat else InRanges rs c.toNat)
  | .seq ps, w => patSeq ps w
  | .any os, w => patAny os w
  | .rep p mn mx, w => RepBetween (Pat.Lang p) mn mx w
/-- One text of each, in order. -/
def patSeq : List Pat → List Char → Prop
  | [], w => w = []
  | p :: ps, w => ∃ u v, w = u ++ v ∧ Pat.Lang p u ∧ patSeq ps v
/-- A text of one of them. -/
def patAny : List Pat → List Char → Prop
  | [], _ => False
  | p :: ps, w => Pat.Lang p w ∨ patAny ps w
end

namespace RE2
open Spec (Denotes)

/-- The characters that do not stand for themselves outside a class. -/
def special : List Char := ['\\', '.', '+', '*', '?', '(', ')', '|', '[', ']', '{', '}', '^', '$']

/-- The next character could belong to a repetition operator. -/
def opensQuant : Str → Bool
  | '?' :: _ => true
  | '*' :: _ => true
  | '+' :: _ => true
  | '{' :: _ => true
  | _ => false

/-- A decimal count as RE2 reads it: no leading zero, at most 1000. -/
def Count (ds : Str) (n : Nat) : Prop := Denotes ['d'] ds n ∧ (ds.head? = some '0' → ds = ['0']) ∧ n ≤ 1000

/-- Punctuation, which a backslash may precede. -/
def Punct (c : Char) : Prop := c.toNat < 128 ∧ isAlnum c.toNat = false

/-- A repetition operator, if there is one; neither a lazy nor a repeated one. -/
inductive Quant : Str → Option (Nat × Option Nat) → Str → Prop
  | none (s) : opensQuant s = false → Quant s none s
  | opt (s) : opensQuant s = false → Quant ('?' :: s) (some (0, some 1)) s
  | star (s) : opensQuant s = false → Quant ('*' :: s) (some (0, Option.none)) s
  | plus (s) : opensQuant s = false → Quant ('+' :: s) (some (1, Option.none)) s
  | exactly (ds n s) : Count ds n → opensQuant s = false → Quant ('{' :: ds ++ '}' :: s) (some (n, some n)) s
  | atLeast (ds n s) : Count ds n → opensQuant s = false →
      Quant ('{' :: ds ++ ',' :: '}' :: s) (some (n, Option.none)) s
  | between (ds es n m s) : Count ds n → Count es m → n ≤ m → opensQuant s = false →
      Quant ('{' :: ds ++ ',' :: es ++ '}' :: s) (some (n, some m)) s

/-- A hexadecimal digit. -/
def HexDigit (c : Char) : Prop := ∃ v, Denotes ['x'] [c] v

/-- One member of a character class. -/
inductive Member : Str → Nat → Str → Prop
  | plain (c s) : isAlnum c.toNat = true → Member (c :: s) c.toNat s
  | hex2 (a b v s) : Denotes ['x'] [a, b] v → Member ('\\' :: 'x' :: a :: b :: s) v s
  | hex (ds v s) : Denotes ['x'] ds v → v ≤ 0x10FFFF → Member ('\\' :: 'x' :: '{' :: ds ++ '}' :: s) v s

/-- The members and ranges of a character class up to its closing bracket. -/
inductive Members : Str → List (Nat × Nat) → Str → Prop
  | close (s) : Members (']' :: s) [] s
  | one (s v s' rs t) : Member s v s' → (∀ u, s' ≠ '-' :: u) → Members s' rs t → Members s ((v, v) :: rs) t
  | range (s lo s' hi s'' rs t) : Member s lo ('-' :: s') → Member s' hi s'' → lo ≤ hi → Members s'' rs t →
      Members s ((lo, hi) :: rs) t

mutual
/-- What a repetition operator may follow. -/
inductive Atom : Str → Pat → Str → Prop
  | lit (c s) : c ∉ special → Atom (c :: s) (.set false [(c.toNat, c.toNat)]) s
  | esc (c s) : Punct c → Atom ('\\' :: c :: s) (.set false [(c.toNat, c.toNat)]) s
  | cls (s rs t) : Members s rs t → rs ≠ [] → Atom ('[' :: s) (.set false rs) t
  | negCls (s rs t) : Members s rs t → rs ≠ [] → Atom ('[' :: '^' :: s) (.set true rs) t
  | group (s ps t) : Alts s ps (')' :: t) → Atom ('(' :: '?' :: ':' :: s) (.any ps) t
/-- Atoms with their repetition operators, in sequence. -/
inductive Items : Str → List Pat → Str → Prop
  | stop (s) : (s = [] ∨ (∃ t, s = '|' :: t) ∨ ∃ t, s = ')' :: t) → Items s [] s
  | item (s p t u ps v) : Atom s p t → Quant t none u → Items u ps v → Items s (p :: ps) v
  | rep (s p t mn mx u ps v) : Atom s p t → Quant t (some (mn, mx)) u → Items u ps v → Items s (.rep p mn mx :: ps) v
/-- Alternatives separated by bars. -/
inductive Alts : Str → List Pat → Str → Prop
  | last (s ps t) : Items s ps t → (t = [] ∨ ∃ u, t = ')' :: u) → Alts s [.seq ps] t
  | more (s ps t qs u) : Items s ps ('|' :: t) → Alts t qs u → Alts s (.seq ps :: qs) u
end

/-- The whole text is the pattern `p`. -/
def Reads (s : Str) (p : Pat) : Prop := ∃ ps, Alts s ps [] ∧ p = .any ps

end RE2

end Verif
