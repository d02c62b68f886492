import Verif.Packed
import Verif.Bsr

/-!
# Queries over parse forests

Model of the methods of `Forest` (/repo/sppf.go:693-858) and `BSRForest` (/repo/bsr.go:267-553).  `*big.Int` is the
integers.  A search is given as much fuel as there are nodes, plus one.
-/

namespace Verif

/-! ## Forest -/

/-- Field `packs` of the node `k` (/repo/sppf.go:249). -/
def Forest.packsOf (f : Forest) (k : NodeKey) : List (List NodeKey) :=
  (f.st.packs.filter fun p => p.1 = k).map Prod.snd

/-- Fuel for a search. -/
def Forest.fuel (f : Forest) : Nat := f.st.nodes.length + 1

/-- `Forest.Nodes` (/repo/sppf.go:707-727). -/
def Forest.nodes (f : Forest) : Option Nat :=
  match f.root with
  | none => some 0
  | some r => nodesFrom f.packsOf f.fuel r

/-- `Forest.Ambiguous` (/repo/sppf.go:729-754). -/
def Forest.ambiguous (f : Forest) : Option Bool :=
  match f.root with
  | none => some false
  | some r => ambiguousFrom f.packsOf f.fuel r

/-- `Forest.NumTrees` (/repo/sppf.go:756-796). -/
def Forest.numTrees (f : Forest) : Option Int :=
  match f.root with
  | none => some 0
  | some r => numTreesFrom f.packsOf true f.fuel r

/-- `ParseTree` (/repo/sppf.go:798-804). -/
inductive ParseTree where
  | node (rule : Str) (s e : Nat) (children : List ParseTree)

/-- Field `Rule`. -/
def ParseTree.rule : ParseTree → Str
  | .node r _ _ _ => r
/-- Field `Start`. -/
def ParseTree.start : ParseTree → Nat
  | .node _ s _ _ => s
/-- Field `End`. -/
def ParseTree.fin : ParseTree → Nat
  | .node _ _ e _ => e
/-- Field `Children`. -/
def ParseTree.children : ParseTree → List ParseTree
  | .node _ _ _ ch => ch

/-- The leaf for a terminal, unless it is empty (/repo/sppf.go:828-830, 841-843). -/
def termLeaf (s e : Nat) : List ParseTree := if e > s then [.node [] s e []] else []

/-- `Forest.collectChild` (/repo/sppf.go:838-858) with `emitSymbol` (/repo/sppf.go:815-824) inlined; `onStack` is
set before and cleared after each call, so it is passed down.  The result is what is appended to `into`. -/
def treeChild (sg : SG) (rec : List NodeKey → NodeKey → Option (List ParseTree)) (onStack : List NodeKey)
    (c : NodeKey) : Option (List ParseTree) :=
  match c with
  | .term s e => some (termLeaf s e)
  | .sym n s e =>
    if (sg.nt n).isRule then
      if c ∈ onStack then some [.node (sg.nt n).ruleName s e []]
      else (rec (c :: onStack) c).map fun ch => [.node (sg.nt n).ruleName s e ch]
    else if c ∈ onStack then some [] else rec (c :: onStack) c
  | .inter _ _ _ => if c ∈ onStack then some [] else rec (c :: onStack) c

/-- The loop over a packing (/repo/sppf.go:833-835). -/
def treeKids (sg : SG) (rec : List NodeKey → NodeKey → Option (List ParseTree)) (onStack : List NodeKey) :
    List NodeKey → Option (List ParseTree)
  | [] => some []
  | c :: cs =>
    (treeChild sg rec onStack c).bind fun a => (treeKids sg rec onStack cs).map fun b => a ++ b

/-- `Forest.collect` (/repo/sppf.go:826-836). -/
def Forest.collect (f : Forest) : Nat → List NodeKey → NodeKey → Option (List ParseTree)
  | 0, _, _ => none
  | fuel + 1, onStack, n =>
    match f.packsOf n with
    | [] => some (match n with | .term s e => termLeaf s e | _ => [])
    | pk :: _ => treeKids f.sg (f.collect fuel) onStack pk

/-- `Forest.Tree` (/repo/sppf.go:806-813) with `emitSymbol` on the root; `none` is `nil`. -/
def Forest.tree (f : Forest) : Option ParseTree :=
  match f.root with
  | none => none
  | some n =>
    let rule := match n with
      | .sym n _ _ => if (f.sg.nt n).isRule then (f.sg.nt n).ruleName else []
      | _ => []
    (f.collect f.fuel [n] n).map fun ch => .node rule n.start n.fin ch

/-! ## BSRForest -/

/-- The nodes a symbol over `[a,b]` leads to (/repo/bsr.go:328-333, 409-414). -/
def symKid (s : Sym) (a b : Nat) : List NodeKey :=
  match s with
  | .nt n => [.sym n a b]
  | _ => []

/-- The nodes an element leads to, in the order they are visited: the last symbol, then the prefix
(/repo/bsr.go:335-348, 415-428).  `bsrNodeID` is represented by `NodeKey`. -/
def elemKids (sg : SG) (sl : Slot) (l k r : Nat) : List NodeKey :=
  symKid ((sg.prod sl).getD (sl.dot - 1) .eps) k r ++
    (if sl.dot = 1 then []
    else if sl.dot = 2 then symKid ((sg.prod sl).getD 0 .eps) l k
    else [.inter ⟨sl.nt, sl.alt, sl.dot - 1⟩ l k])

/-- The elements of a node (/repo/bsr.go:361-363, 380-385, 435-443, 453-468). -/
def BsrForest.packsOf (f : BsrForest) : NodeKey → List (List NodeKey)
  | .sym n l r => (List.range (f.sg.alts n).length).flatMap fun ai =>
      (f.pivots (f.sg.endSlot n ai) l r).map fun k => elemKids f.sg (f.sg.endSlot n ai) l k r
  | .inter sl l r => (f.pivots sl l r).map fun k => elemKids f.sg sl l k r
  | .term _ _ => []

/-- The root of the searches. -/
def BsrForest.root (f : BsrForest) : NodeKey := .sym f.sg.start 0 f.input.length

/-- Fuel for a search: every node visited has an element or is the root. -/
def BsrForest.fuel (f : BsrForest) : Nat := f.set.length + 2

/-- `BSRForest.Nodes` (/repo/bsr.go:302). -/
def BsrForest.nodes (f : BsrForest) : Nat := f.set.length

/-- `BSRForest.NumTrees` (/repo/bsr.go:312-396). -/
def BsrForest.numTrees (f : BsrForest) : Option Int :=
  if f.valid then numTreesFrom f.packsOf false f.fuel f.root else some 0

/-- `BSRForest.Ambiguous` (/repo/bsr.go:398-472). -/
def BsrForest.ambiguous (f : BsrForest) : Option Bool :=
  if f.valid then ambiguousFrom f.packsOf f.fuel f.root else some false

/-- The first complete production of `n` over `[a,b]` and its first pivot (/repo/bsr.go:280-288, 536-538); the
order of `alts` is fixed, that of the pivots is the order of `set`. -/
def BsrForest.pick (f : BsrForest) (n a b : Nat) : Option (Slot × Nat) :=
  (List.range (f.sg.alts n).length).findSome? fun ai =>
    (f.pivots (f.sg.endSlot n ai) a b).head?.map fun k => (f.sg.endSlot n ai, k)

/-- `BSRForest.collectChild` (/repo/bsr.go:522-553); `visited` is set before and cleared after each call, so it is
passed down. -/
def BsrForest.collectChild (f : BsrForest)
    (rec : List NodeKey → Slot → Nat → Nat → Nat → Option (List ParseTree)) (visited : List NodeKey)
    (s : Sym) (a b : Nat) : Option (List ParseTree) :=
  match s with
  | .eps => some []
  | .term _ => some [.node [] a b []]
  | .nt n =>
    if NodeKey.sym n a b ∈ visited then some []
    else
      match f.pick n a b with
      | none => some []
      | some (sl, k) =>
        (rec (.sym n a b :: visited) sl a k b).map fun ch =>
          if (f.sg.nt n).isRule then [.node (f.sg.nt n).ruleName a b ch] else ch

/-- `BSRForest.collectElem` (/repo/bsr.go:502-520). -/
def BsrForest.collectElem (f : BsrForest) : Nat → List NodeKey → Slot → Nat → Nat → Nat → Option (List ParseTree)
  | 0, _, _, _, _, _ => none
  | fuel + 1, visited, sl, l, k, r =>
    let pre :=
      if sl.dot = 1 then some []
      else if sl.dot = 2 then f.collectChild (f.collectElem fuel) visited ((f.sg.prod sl).getD 0 .eps) l k
      else
        match f.pivots ⟨sl.nt, sl.alt, sl.dot - 1⟩ l k with
        | [] => some []
        | k' :: _ => f.collectElem fuel visited ⟨sl.nt, sl.alt, sl.dot - 1⟩ l k' k
    pre.bind fun a =>
      (f.collectChild (f.collectElem fuel) visited ((f.sg.prod sl).getD (sl.dot - 1) .eps) k r).map fun b => a ++ b

/-- `BSRForest.Tree` (/repo/bsr.go:474-500) with the fuel as a parameter; `none` is `nil` or "out of fuel".  The
start symbol is not entered in `visited`. -/
def BsrForest.treeWith (f : BsrForest) (fuel : Nat) : Option ParseTree :=
  if f.valid then
    match f.pick f.sg.start 0 f.input.length with
    | none => none
    | some (sl, k) =>
      (f.collectElem fuel [] sl 0 k f.input.length).map fun ch =>
        .node (if (f.sg.nt f.sg.start).isRule then (f.sg.nt f.sg.start).ruleName else []) 0 f.input.length ch
  else none

end Verif
