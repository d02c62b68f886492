import Mathlib.Logic.Relation
import Verif.Spec

/-!
# Notions used to state properties of the recogniser

Independent of the model of /repo/recognize.go and /repo/leftrec.go.
-/

namespace Verif.Spec

open Verif

/-- The elements occurring in the grammar and in the core rules. -/
def Occurs (g : Grammar) (e : Elem) : Prop := ∃ r ∈ rulesReps (g.rules ++ Core.rules), r.elem = e

/-- Printing tells the elements of the grammar and of the core rules apart, and no terminal, group or option prints as
the name of a rule. -/
def DistinctElems (g : Grammar) : Prop :=
  (∀ e e', Occurs g e → Occurs g e' → e.str = e'.str → e = e') ∧
  (∀ e, Occurs g e → (∃ n, e = .rulename n) ∨ ¬ ∃ r, Resolves g e.str r)

/-- No num-val of the grammar is an empty series; the ABNF notation has none. -/
def NoEmptySeries (g : Grammar) : Prop := ∀ b, ¬ Occurs g (.numVal b .series [])

/-- No repetition of the grammar has an upper bound below its lower bound. -/
def BoundsOrdered (g : Grammar) : Prop := ∀ r ∈ rulesReps (g.rules ++ Core.rules), ∀ m, r.max = some m → r.min ≤ m

mutual
/-- The element may derive nothing, judging by the shape of the grammar alone: a lower bound of a repetition is believed
even if the upper bound contradicts it, and a num-val is assumed to derive something. -/
inductive Vanishes (g : Grammar) : Elem → Prop
  | rule (n r) : Resolves g n r → VanishesAlt g r.alt → Vanishes g (.rulename n)
  | group (a) : VanishesAlt g a → Vanishes g (.group a)
  | option (a) : Vanishes g (.option a)
  | empty (s) : Vanishes g (.charVal s [])
/-- Some concatenation may derive nothing. -/
inductive VanishesAlt (g : Grammar) : Alt → Prop
  | mk (a c) : c ∈ a → VanishesConcat g c → VanishesAlt g a
/-- Every repetition may derive nothing. -/
inductive VanishesConcat (g : Grammar) : Concat → Prop
  | nil : VanishesConcat g []
  | cons (r c) : VanishesRep g r → VanishesConcat g c → VanishesConcat g (r :: c)
/-- The repetition may occur no time, or its element may derive nothing. -/
inductive VanishesRep (g : Grammar) : Rep → Prop
  | none (mx e) : VanishesRep g ⟨0, mx, e⟩
  | elem (mn mx e) : Vanishes g e → VanishesRep g ⟨mn, mx, e⟩
end

/-- The alternation can start with `e`: `e` occurs in one of its concatenations after repetitions that may all derive
nothing. -/
def Starts (g : Grammar) (a : Alt) (e : Elem) : Prop :=
  ∃ pre mn mx post, pre ++ ⟨mn, mx, e⟩ :: post ∈ a ∧ VanishesConcat g pre

/-- `e'` is an immediate left corner of `e`. -/
inductive LeftCorner (g : Grammar) : Elem → Elem → Prop
  | rule (n r e) : Resolves g n r → Starts g r.alt e → LeftCorner g (.rulename n) e
  | group (a e) : Starts g a e → LeftCorner g (.group a) e
  | option (a e) : Starts g a e → LeftCorner g (.option a) e

/-- A left corner of a group or option. -/
inductive InnerCorner (g : Grammar) : Elem → Elem → Prop
  | group (a e) : Starts g a e → InnerCorner g (.group a) e
  | option (a e) : Starts g a e → InnerCorner g (.option a) e

/-- The rule called `n` can start with a reference to the rule called `m`, possibly inside groups and options. -/
def RefersFirst (g : Grammar) (n m : Str) : Prop :=
  (∃ r', Resolves g m r') ∧
  ∃ r e k, Resolves g n r ∧ Starts g r.alt e ∧ Relation.ReflTransGen (InnerCorner g) e (.rulename k) ∧ SameName k m

/-- A rule that can start with a reference to itself is not on a longer cycle of such references. -/
def SimpleLeftRecursion (g : Grammar) : Prop :=
  ∀ n m, RefersFirst g n n → Relation.TransGen (RefersFirst g) n m → Relation.TransGen (RefersFirst g) m n → SameName n m

/-- No group or option is a left corner of itself: left recursion does not pass through brackets. -/
def UnbracketedLeftRecursion (g : Grammar) : Prop :=
  ∀ e, Occurs g e → (∀ n, e ≠ .rulename n) → ¬ Relation.TransGen (LeftCorner g) e e

/-- The rule called `n` can start with itself. -/
def LeftRecursive (g : Grammar) (n : Str) : Prop :=
  ∃ m, SameName n m ∧ Relation.TransGen (LeftCorner g) (.rulename n) (.rulename m)

/-- No text of the element is a proper prefix of another. -/
def PrefixFree (g : Grammar) (e : Elem) : Prop := ∀ v w, Derives g e v → Derives g e w → v <+: w → v = w

/-- Two texts of the element after each other are a text of the element. -/
def ClosedUnder (g : Grammar) (e : Elem) : Prop := ∀ v w, Derives g e v → Derives g e w → Derives g e (v ++ w)

/-- Repetitions that the recogniser counts correctly on inputs of length `len`. -/
def Countable (g : Grammar) (len : Nat) (r : Rep) : Prop :=
  r.min ≤ 2 ∨
  (r.max = some r.min ∧ (r.min ≤ len + 2 ∨ ¬ Derives g r.elem [])) ∨
  (Derives g r.elem [] ∧ r.min ≤ len + 2 ∧ ∀ n, r.elem = .rulename n → ¬ LeftRecursive g n) ∨
  (PrefixFree g r.elem ∧ ¬ Derives g r.elem []) ∨
  (ClosedUnder g r.elem ∧ (r.min ≤ len + 2 ∨ ¬ Derives g r.elem []) ∧ ∀ n, r.elem = .rulename n → ¬ LeftRecursive g n)

/-- Repetitions that the recogniser counts correctly on inputs of every length. -/
def Tallied (g : Grammar) (r : Rep) : Prop :=
  r.min ≤ 2 ∨
  (r.max = some r.min ∧ ¬ Derives g r.elem []) ∨
  (PrefixFree g r.elem ∧ ¬ Derives g r.elem []) ∨
  (ClosedUnder g r.elem ∧ ¬ Derives g r.elem [] ∧ ∀ n, r.elem = .rulename n → ¬ LeftRecursive g n)

theorem Tallied.countable {g : Grammar} {r : Rep} (h : Tallied g r) (len : Nat) : Countable g len r := by
  rcases h with h | ⟨h, h'⟩ | h | ⟨h, h', h2⟩
  · exact .inl h
  · exact .inr (.inl ⟨h, .inr h'⟩)
  · exact .inr (.inr (.inr (.inl h)))
  · exact .inr (.inr (.inr (.inr ⟨h, .inr h', h2⟩)))

end Verif.Spec
