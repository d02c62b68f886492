import Verif.Analysis

/-!
# What an ABNF source text says

RFC 5234 sections 3 and 4 and RFC 7405, read as a relation between texts and rule definitions.  Nothing here
refers to the grammar of ABNF or to a parser.  Errata 2968 and 3076 of RFC 5234 are taken into account: blanks at
the end of a definition, and blank lines, do not go on to the next line.
-/

namespace Verif
open Spec

namespace Text

/-- A blank or a tab. -/
def Wsp (c : Char) : Prop := c = ' ' ∨ c = '\t'
/-- A visible character. -/
def Visible (c : Char) : Prop := 0x21 ≤ c.toNat ∧ c.toNat ≤ 0x7E
/-- A letter. -/
def Letter (c : Char) : Prop := (0x41 ≤ c.toNat ∧ c.toNat ≤ 0x5A) ∨ (0x61 ≤ c.toNat ∧ c.toNat ≤ 0x7A)
/-- A decimal digit. -/
def Digit (c : Char) : Prop := 0x30 ≤ c.toNat ∧ c.toNat ≤ 0x39

/-- The end of a line, maybe with a comment. -/
inductive LineEnd : Str → Prop
  | plain : LineEnd ['\r', '\n']
  | comment (s) : (∀ c ∈ s, Wsp c ∨ Visible c) → LineEnd (';' :: (s ++ ['\r', '\n']))

/-- A blank, or the end of a line when the next line begins with a blank. -/
inductive Blank : Str → Prop
  | wsp (c) : Wsp c → Blank [c]
  | line (s c) : LineEnd s → Wsp c → Blank (s ++ [c])

/-- Any number of blanks. -/
inductive Gap : Str → Prop
  | nil : Gap []
  | cons (a b) : Blank a → Gap b → Gap (a ++ b)

/-- A rule name. -/
def Name : Str → Prop
  | [] => False
  | c :: s => Letter c ∧ ∀ d ∈ s, Letter d ∨ Digit d ∨ d = '-'

/-- The value of a decimal numeral. -/
def decimal (s : Str) : Nat := s.foldl (fun n c => 10 * n + (c.toNat - 0x30)) 0

/-- How two points are understood: the value of a numeral in a repeat count; and whether a definition adds to a
rule, from the text before the operator, whether the operator is `=/`, and the text after it. -/
structure Conv where
  num : Str → Nat
  extends_ : Str → Bool → Str → Bool

/-- As RFC 5234 has it. -/
def rfc : Conv := ⟨decimal, fun _ b _ => b⟩

/-- The digits of a base. -/
def DigitOf : Str → Char → Prop
  | ['b'], c => c = '0' ∨ c = '1'
  | ['d'], c => Digit c
  | ['x'], c => Digit c ∨ (0x41 ≤ c.toNat ∧ c.toNat ≤ 0x46) ∨ (0x61 ≤ c.toNat ∧ c.toNat ≤ 0x66)
  | _, _ => False

/-- The letter of a base. -/
def BaseLetter (c : Char) (b : Str) : Prop :=
  ((c = 'b' ∨ c = 'B') ∧ b = ['b']) ∨ ((c = 'd' ∨ c = 'D') ∧ b = ['d']) ∨ ((c = 'x' ∨ c = 'X') ∧ b = ['x'])

/-- A numeral of a base. -/
def NumeralOf (b s : Str) : Prop := s ≠ [] ∧ ∀ c ∈ s, DigitOf b c

/-- Numerals with dots between them. -/
inductive Dotted : List Str → Str → Prop
  | one (s) : Dotted [s] s
  | more (s es t) : Dotted es t → Dotted (s :: es) (s ++ '.' :: t)

/-- A repeat count: nothing, a number, or a range whose ends may be missing. -/
inductive Repeat (cv : Conv) : Str → Nat → Option Nat → Prop
  | none : Repeat cv [] 1 (some 1)
  | exactly (s) : s ≠ [] → (∀ c ∈ s, Digit c) → Repeat cv s (cv.num s) (some (cv.num s))
  | between (a b) : (∀ c ∈ a, Digit c) → (∀ c ∈ b, Digit c) →
      Repeat cv (a ++ '*' :: b) (if a = [] then 0 else cv.num a) (if b = [] then Option.none else some (cv.num b))

mutual
/-- An element. -/
inductive ReadsElem (cv : Conv) : Str → Elem → Prop
  | rulename (n) : Name n → ReadsElem cv n (.rulename n)
  | group (g₁ s g₂ a) : Gap g₁ → ReadsAlt cv s a → Gap g₂ →
      ReadsElem cv ('(' :: (g₁ ++ (s ++ (g₂ ++ [')'])))) (.group a)
  | option (g₁ s g₂ a) : Gap g₁ → ReadsAlt cv s a → Gap g₂ →
      ReadsElem cv ('[' :: (g₁ ++ (s ++ (g₂ ++ [']'])))) (.option a)
  | string (s) : (∀ c ∈ s, 0x20 ≤ c.toNat ∧ c.toNat ≤ 0x7E ∧ c ≠ '"') →
      ReadsElem cv ('"' :: (s ++ ['"'])) (.charVal false s)
  | insensitive (m s) : m = 'i' ∨ m = 'I' → (∀ c ∈ s, 0x20 ≤ c.toNat ∧ c.toNat ≤ 0x7E ∧ c ≠ '"') →
      ReadsElem cv ('%' :: m :: '"' :: (s ++ ['"'])) (.charVal false s)
  | sensitive (m s) : m = 's' ∨ m = 'S' → (∀ c ∈ s, 0x20 ≤ c.toNat ∧ c.toNat ≤ 0x7E ∧ c ≠ '"') →
      ReadsElem cv ('%' :: m :: '"' :: (s ++ ['"'])) (.charVal true s)
  | series (m b es s) : BaseLetter m b → (∀ e ∈ es, NumeralOf b e) → Dotted es s →
      ReadsElem cv ('%' :: m :: s) (.numVal b .series es)
  | range (m b lo hi) : BaseLetter m b → NumeralOf b lo → NumeralOf b hi →
      ReadsElem cv ('%' :: m :: (lo ++ '-' :: hi)) (.numVal b .range [lo, hi])
  | prose (s) : (∀ c ∈ s, 0x20 ≤ c.toNat ∧ c.toNat ≤ 0x7E ∧ c ≠ '>') →
      ReadsElem cv ('<' :: (s ++ ['>'])) (.proseVal (s.map fun c => [c]))
/-- An element with a repeat count. -/
inductive ReadsRep (cv : Conv) : Str → Rep → Prop
  | mk (p mn mx s e) : Repeat cv p mn mx → ReadsElem cv s e → ReadsRep cv (p ++ s) ⟨mn, mx, e⟩
/-- Repetitions with blanks between them. -/
inductive ReadsConcat (cv : Conv) : Str → Concat → Prop
  | one (s r) : ReadsRep cv s r → ReadsConcat cv s [r]
  | more (s r gap t c) : ReadsRep cv s r → Gap gap → gap ≠ [] → ReadsConcat cv t c →
      ReadsConcat cv (s ++ (gap ++ t)) (r :: c)
/-- Concatenations with slashes between them. -/
inductive ReadsAlt (cv : Conv) : Str → Alt → Prop
  | one (s c) : ReadsConcat cv s c → ReadsAlt cv s [c]
  | more (s c g₁ g₂ t a) : ReadsConcat cv s c → Gap g₁ → Gap g₂ → ReadsAlt cv t a →
      ReadsAlt cv (s ++ (g₁ ++ '/' :: (g₂ ++ t))) (c :: a)
end

/-- A definition: name, operator, alternatives, end of the line. -/
inductive ReadsRule (cv : Conv) : Str → Def → Prop
  | define (n g₁ g₂ s a ws nl) : Name n → Gap g₁ → Gap g₂ → ReadsAlt cv s a → (∀ c ∈ ws, Wsp c) → LineEnd nl →
      ReadsRule cv (n ++ (g₁ ++ '=' :: (g₂ ++ (s ++ (ws ++ nl))))) ⟨n, cv.extends_ g₁ false g₂, a⟩
  | extend (n g₁ g₂ s a ws nl) : Name n → Gap g₁ → Gap g₂ → ReadsAlt cv s a → (∀ c ∈ ws, Wsp c) → LineEnd nl →
      ReadsRule cv (n ++ (g₁ ++ '=' :: '/' :: (g₂ ++ (s ++ (ws ++ nl))))) ⟨n, cv.extends_ g₁ true g₂, a⟩

/-- Definitions and blank lines. -/
inductive ReadsLines (cv : Conv) : Str → List Def → Prop
  | nil : ReadsLines cv [] []
  | rule (s d t ds) : ReadsRule cv s d → ReadsLines cv t ds → ReadsLines cv (s ++ t) (d :: ds)
  | blank (ws nl t ds) : (∀ c ∈ ws, Wsp c) → LineEnd nl → ReadsLines cv t ds → ReadsLines cv (ws ++ (nl ++ t)) ds

/-- A source text: at least one line. -/
def ReadsFile (cv : Conv) (s : Str) (ds : List Def) : Prop := s ≠ [] ∧ ReadsLines cv s ds

end Text
end Verif
