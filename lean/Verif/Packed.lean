import Mathlib.Logic.Relation
import Mathlib.Algebra.BigOperators.Group.List.Basic

/-!
# Queries over a packed forest

`Forest` and `BSRForest` both answer their queries by a depth-first search over a graph in which every node has a
list of packings, each a list of child nodes.  The searches are modelled here once, over an arbitrary such graph
`G`; `Verif.Forest` instantiates them.  The recursion of the Go closures is unbounded, so the model carries fuel and
answers `none` when it runs out; the theorems show that the amount the queries are given always suffices, and that
the answer does not depend on it.
-/

namespace Verif

section
variable {α : Type} [DecidableEq α] (G : α → List (List α))

/-- The loop of a search over the children of a node, left to right. -/
def walkKids (rec : α → List α → Option (List α)) : List α → List α → Option (List α)
  | [], seen => some seen
  | c :: cs, seen => (rec c seen).bind (walkKids rec cs)

/-- The closure `walk` of `Forest.Nodes` (/repo/sppf.go:714-724), returning the set `seen`. -/
def walk : Nat → α → List α → Option (List α)
  | 0, _, _ => none
  | f + 1, n, seen => if n ∈ seen then some seen else walkKids (walk f) (G n).flatten (n :: seen)

/-- The loop of `walk` in `Forest.Ambiguous` (/repo/sppf.go:744-750), which stops at the first `true`. -/
def ambKids (rec : α → List α → Option (Bool × List α)) : List α → List α → Option (Bool × List α)
  | [], seen => some (false, seen)
  | c :: cs, seen => (rec c seen).bind fun (b, seen) => if b then some (true, seen) else ambKids rec cs seen

/-- The closure `walk` of `Forest.Ambiguous` (/repo/sppf.go:736-752); the closures `symAmb` and `interAmb` of
`BSRForest.Ambiguous` (/repo/bsr.go:429-470) have the same shape. -/
def ambWalk : Nat → α → List α → Option (Bool × List α)
  | 0, _, _ => none
  | f + 1, n, seen =>
    if n ∈ seen then some (false, seen)
    else if (G n).length > 1 then some (true, n :: seen)
    else ambKids (ambWalk f) (G n).flatten (n :: seen)

/-- The variables shared by the calls of `count` (/repo/sppf.go:763-765).  `onStack` is true exactly for the calls
in progress, so it is passed down instead. -/
structure CountSt (α : Type) where
  memo : List (α × Nat) := []
  infinite : Bool := false

/-- `prod.Mul(prod, count(c))` over a packing (/repo/sppf.go:781-784). -/
def countKids (rec : α → CountSt α → Option (Nat × CountSt α)) : List α → CountSt α → Option (Nat × CountSt α)
  | [], st => some (1, st)
  | c :: cs, st => (rec c st).bind fun (v, st) => (countKids rec cs st).map fun (w, st) => (v * w, st)

/-- `total.Add(total, prod)` over the packings (/repo/sppf.go:780-786). -/
def countPacks (rec : α → CountSt α → Option (Nat × CountSt α)) :
    List (List α) → CountSt α → Option (Nat × CountSt α)
  | [], st => some (0, st)
  | pk :: pks, st =>
    (countKids rec pk st).bind fun (v, st) => (countPacks rec pks st).map fun (w, st) => (v + w, st)

/-- The closure `count` of `Forest.NumTrees` (/repo/sppf.go:767-790), with `leaf := true`: a node without packings
counts one.  The closures of `BSRForest.NumTrees` (/repo/bsr.go:321-389) have the same shape with `leaf := false`. -/
def count (leaf : Bool) : Nat → List α → α → CountSt α → Option (Nat × CountSt α)
  | 0, _, _, _ => none
  | f + 1, stack, n, st =>
    match st.memo.lookup n with
    | some v => some (v, st)
    | none =>
      if n ∈ stack then some (1, { st with infinite := true })
      else
        (countPacks (count leaf f (n :: stack)) (G n) st).map fun (total, st) =>
          let total := if G n = [] then leaf.toNat else total
          (total, { st with memo := (n, total) :: st.memo })

/-- `NumTrees` from a root (/repo/sppf.go:791-795, /repo/bsr.go:391-395): -1 when a cycle was met. -/
def numTreesFrom (leaf : Bool) (fuel : Nat) (root : α) : Option Int :=
  (count G leaf fuel [] root {}).map fun (v, st) => if st.infinite then -1 else (v : Int)

/-- `Ambiguous` from a root. -/
def ambiguousFrom (fuel : Nat) (root : α) : Option Bool := (ambWalk G fuel root []).map Prod.fst

/-- `Nodes` from a root. -/
def nodesFrom (fuel : Nat) (root : α) : Option Nat := (walk G fuel root []).map List.length

/-! ## What the queries are about -/

/-- `b` is a child of `a` in some packing. -/
def Child (a b : α) : Prop := ∃ pk ∈ G a, b ∈ pk

/-- `b` is reachable from `a`. -/
abbrev AtOrBelow : α → α → Prop := Relation.ReflTransGen (Child G)

/-- `b` is reachable from `a` in at least one step. -/
abbrev StrictlyBelow : α → α → Prop := Relation.TransGen (Child G)

/-- A tree over the nodes of a packed forest: at each node, the index of the packing chosen and a tree for each
child of that packing. -/
inductive PTree (α : Type) where
  | node (k : α) (i : Nat) (ch : List (PTree α))

/-- The node at the root. -/
def PTree.root : PTree α → α
  | .node k _ _ => k

/-- `t` is a tree of the packed forest `G`. -/
inductive PTree.Of (leaf : Bool) : PTree α → Prop
  | leaf (k : α) : G k = [] → leaf = true → PTree.Of leaf (.node k 0 [])
  | node (k : α) (i : Nat) (ch : List (PTree α)) : (G k)[i]? = some (ch.map PTree.root) →
      (∀ c ∈ ch, PTree.Of leaf c) → PTree.Of leaf (.node k i ch)

end

end Verif
