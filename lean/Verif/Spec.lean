import Verif.Syntax

/-!
# Specification: what an ABNF grammar means

Independent of every parser of /repo.  `Derives g e w` says that element `e`, read in grammar `g`, derives the
byte string `w`; the clauses are those of RFC 5234 sections 3 and 4 and RFC 7405, with characters transported
by UTF-8.
-/

namespace Verif.Spec

open Verif

/-- `b` is `a`, or the same ASCII letter in the other case. -/
def SameLetter (a b : Char) : Prop :=
  a = b ∨ ('A' ≤ a ∧ a ≤ 'Z' ∧ b.toNat = a.toNat + 32) ∨ ('a' ≤ a ∧ a ≤ 'z' ∧ b.toNat + 32 = a.toNat)

/-- Rule names are compared without regard to case (RFC 5234 section 2.1). -/
def SameName (a b : Str) : Prop := List.Forall₂ SameLetter a b

/-- The digits of base `r`. -/
def HasDigit (r : Nat) (c : Char) (d : Nat) : Prop :=
  d < r ∧ ((c.toNat = 48 + d ∧ d < 10) ∨ (10 ≤ d ∧ (c.toNat = 55 + d ∨ c.toNat = 87 + d)))

instance (r : Nat) (c : Char) (d : Nat) : Decidable (HasDigit r c d) := by unfold HasDigit; infer_instance

/-- The value of a digit sequence, most significant digit first. -/
def valueOf (r : Nat) : List Nat → Nat
  | [] => 0
  | d :: ds => d * r ^ ds.length + valueOf r ds

/-- The radix a num-val base marker stands for. -/
inductive Radix : Str → Nat → Prop
  | bin : Radix ['b'] 2
  | binU : Radix ['B'] 2
  | dec : Radix ['d'] 10
  | decU : Radix ['D'] 10
  | hex : Radix ['x'] 16
  | hexU : Radix ['X'] 16

/-- The digit string `s` in the given base denotes the number `v`. -/
def Denotes (base s : Str) (v : Nat) : Prop :=
  ∃ r ds, Radix base r ∧ s ≠ [] ∧ List.Forall₂ (HasDigit r) s ds ∧ v = valueOf r ds

/-- The UTF-8 encoding of a text, as Lean's core library defines it. -/
def utf8 (cs : List Char) : Bytes := cs.flatMap String.utf8EncodeChar

/-- The texts a terminal stands for.  A prose-val stands for none. -/
inductive Terminal : Elem → List Char → Prop
  | sensitive (vs) : Terminal (.charVal true vs) vs
  | insensitive (vs ws) : List.Forall₂ SameLetter vs ws → Terminal (.charVal false vs) ws
  | series (base es cs) : List.Forall₂ (fun s c => Denotes base s (Char.toNat c)) es cs →
      Terminal (.numVal base .series es) cs
  | range (base s t lo hi c) : Denotes base s lo → Denotes base t hi → lo ≤ c.toNat → c.toNat ≤ hi →
      Terminal (.numVal base .range [s, t]) [c]

/-- `name` refers to `r`: a rule of the grammar, or a core rule if the grammar has no such rule. -/
inductive Resolves (g : Grammar) (name : Str) (r : Rule) : Prop
  | user : r ∈ g.rules → SameName name r.name → Resolves g name r
  | core : r ∈ Core.rules → SameName name r.name → (∀ u ∈ g.rules, ¬ SameName name u.name) →
      Resolves g name r

mutual
/-- Element `e` of grammar `g` derives the byte string `w`. -/
inductive Derives (g : Grammar) : Elem → Bytes → Prop
  | rule (n r w) : Resolves g n r → DerivesAlt g r.alt w → Derives g (.rulename n) w
  | group (a w) : DerivesAlt g a w → Derives g (.group a) w
  | optNone (a) : Derives g (.option a) []
  | optSome (a w) : DerivesAlt g a w → Derives g (.option a) w
  | term (e cs) : Terminal e cs → Derives g e (utf8 cs)
/-- Some concatenation of the alternation derives `w`. -/
inductive DerivesAlt (g : Grammar) : Alt → Bytes → Prop
  | mk (a c w) : c ∈ a → DerivesConcat g c w → DerivesAlt g a w
/-- The repetitions derive consecutive pieces of `w`. -/
inductive DerivesConcat (g : Grammar) : Concat → Bytes → Prop
  | nil : DerivesConcat g [] []
  | cons (r c u v) : DerivesRep g r u → DerivesConcat g c v → DerivesConcat g (r :: c) (u ++ v)
/-- Some number of occurrences within the bounds derives `w`. -/
inductive DerivesRep (g : Grammar) : Rep → Bytes → Prop
  | mk (mn mx e n w) : mn ≤ n → (∀ m, mx = some m → n ≤ m) → DerivesTimes g e n w →
      DerivesRep g ⟨mn, mx, e⟩ w
/-- Exactly `n` consecutive occurrences of `e` derive `w`. -/
inductive DerivesTimes (g : Grammar) : Elem → Nat → Bytes → Prop
  | zero (e) : DerivesTimes g e 0 []
  | succ (e n u v) : Derives g e u → DerivesTimes g e n v → DerivesTimes g e (n + 1) (u ++ v)
end

/-- The rule called `name` derives `w`. -/
def DerivesRule (g : Grammar) (name : Str) (w : Bytes) : Prop := Derives g (.rulename name) w

/-- No two rules of the grammar have the same name up to case. -/
def NamesDistinct (g : Grammar) : Prop := g.rules.Pairwise fun a b => ¬ SameName a.name b.name

/-- A terminal whose num-val, if it is one, consists of numerals of a known base, two of them for a range. -/
def TermWF : Elem → Prop
  | .numVal b .series es => ∀ s ∈ es, ∃ v, Denotes b s v
  | .numVal b .range es => ∃ s t v w, es = [s, t] ∧ Denotes b s v ∧ Denotes b t w
  | _ => True

mutual
/-- The repetitions occurring inside an element. -/
def elemReps : Elem → List Rep
  | .group a => altReps a
  | .option a => altReps a
  | _ => []
/-- A repetition and those occurring inside it. -/
def repReps : Rep → List Rep
  | ⟨mn, mx, e⟩ => ⟨mn, mx, e⟩ :: elemReps e
/-- The repetitions occurring in a concatenation, at any depth. -/
def concatReps : List Rep → List Rep
  | [] => []
  | r :: c => repReps r ++ concatReps c
/-- The repetitions occurring in an alternation, at any depth. -/
def altReps : List (List Rep) → List Rep
  | [] => []
  | c :: a => concatReps c ++ altReps a
end

/-- All repetitions occurring in the rules, at any depth. -/
def rulesReps (rs : List Rule) : List Rep := rs.flatMap fun r => altReps r.alt

/-- Every num-val of the grammar is well formed. -/
def NumValsWF (g : Grammar) : Prop := ∀ r ∈ rulesReps g.rules, TermWF r.elem

/-- Printing tells apart the repetitions, groups and options of the grammar and the core rules.  Only
case-sensitive strings can break this, since `%s"x"` and `"x"` print alike. -/
def DistinctPrint (g : Grammar) : Prop :=
  ∀ r ∈ rulesReps (g.rules ++ Core.rules), ∀ s ∈ rulesReps (g.rules ++ Core.rules),
    (¬ (r.min = 1 ∧ r.max = some 1) → ¬ (s.min = 1 ∧ s.max = some 1) → r.str = s.str → r = s) ∧
    (∀ a b, r.elem = .group a → s.elem = .group b → r.elem.str = s.elem.str → a = b) ∧
    (∀ a b, r.elem = .option a → s.elem = .option b → r.elem.str = s.elem.str → a = b)

end Verif.Spec
