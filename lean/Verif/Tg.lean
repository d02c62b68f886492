import Verif.Generate
import Verif.Entropy
import Verif.Analysis

/-!
# Transition graphs

Model of the construction in /repo/transition_graph.go.  Nodes live in a heap and are numbered in the order of their
allocation; the number stands for the pointer and for the random identifier of the node, which is taken to be unique.
-/

namespace Verif

/-- `[]*Node`; `none` is `emptyNode`, the nil pointer (/repo/transition_graph.go:97-103). -/
abbrev Pts := List (Option Nat)

/-- `tgoptions` (/repo/transition_graph.go:105-111) with the defaults of `TransitionGraph`
(/repo/transition_graph.go:40-46). -/
structure TgOpts where
  rules : Bool := false
  nums : Bool := false
  chars : Bool := false
  threshold : Int := 256
  maxNodes : Int := 0

/-- The nodes (/repo/transition_graph.go:28-33): `size` of them exist. -/
structure TgHeap where
  size : Nat := 0
  elem : Nat → Elem := fun _ => .proseVal []
  nexts : Nat → List Nat := fun _ => []

/-- The entry and end points of a graph (/repo/transition_graph.go:21-22). -/
structure TgFrag where
  ins : Pts := []
  outs : Pts := []

/-- `tgmachine` (/repo/transition_graph.go:940-946) with the nodes; `buf` maps folded names to graphs. -/
structure TgSt where
  heap : TgHeap := {}
  buf : List (Str × TgFrag) := []
  count : Int := 0

/-- The errors of `TransitionGraph`. -/
inductive TgErr where
  | ruleNotFound (name : Str)
  | semval (e : SemErr)
  | cyclicRule
  | threshold
  | minNotOne
  | minGtMax
  | maxNodes
  | proseVal

/-- A call that returns an error or a value, or panics. -/
abbrev TgOut (α : Type) := Run (Except TgErr α)

/-- `if err != nil { return nil, nil, err }`. -/
def tgBind {α β : Type} (x : TgOut α) (f : α → TgOut β) : TgOut β :=
  x.bnd fun r => match r with
    | .error e => .ok (.error e)
    | .ok a => f a

/-! ## Nodes -/

/-- `newNode` (/repo/transition_graph.go:1451-1458). -/
def TgHeap.alloc (h : TgHeap) (e : Elem) : Nat × TgHeap :=
  (h.size, { size := h.size + 1, elem := fun n => if n = h.size then e else h.elem n,
             nexts := fun n => if n = h.size then [] else h.nexts n })

/-- Assignment to `Nexts`. -/
def TgHeap.setNexts (h : TgHeap) (k : Nat) (l : List Nat) : TgHeap :=
  { h with nexts := fun n => if n = k then l else h.nexts n }

/-- `appendNodes` (/repo/transition_graph.go:1258-1266). -/
def appendNodes {α : Type} [DecidableEq α] (existing : List α) : List α → List α
  | [] => existing
  | n :: news => appendNodes (if n ∈ existing then existing else existing ++ [n]) news

/-- The plugging loop of `concatTransitionGraphs` (/repo/transition_graph.go:1008-1018); `append` keeps repetitions. -/
def plugAppend (ins : Pts) : Pts → TgHeap → TgHeap
  | [], h => h
  | none :: os, h => plugAppend ins os h
  | some o :: os, h => plugAppend ins os (h.setNexts o (h.nexts o ++ ins.filterMap id))

/-- The plugging loops of `repGraph` (/repo/transition_graph.go:1054-1066, 1107-1118, 1150-1160). -/
def plugNodes (ins : Pts) : Pts → TgHeap → TgHeap
  | [], h => h
  | none :: os, h => plugNodes ins os h
  | some o :: os, h => plugNodes ins os (h.setNexts o (appendNodes (h.nexts o) (ins.filterMap id)))

/-- `slices.DeleteFunc`-like loops leaving out `emptyNode`. -/
def noEmpty (l : Pts) : Pts := l.filter fun p => p.isSome

/-- `concatTransitionGraphs` (/repo/transition_graph.go:991-1034). -/
def concatTG (prev curr : TgFrag) (h : TgHeap) : TgFrag × TgHeap :=
  ({ ins := if none ∈ prev.ins then noEmpty prev.ins ++ curr.ins else prev.ins,
     outs := (if none ∈ curr.ins then prev.outs else []) ++ noEmpty curr.outs },
   plugAppend curr.ins prev.outs h)

/-- The body of the loop of `altGraph` (/repo/transition_graph.go:955-971). -/
def altMerge (acc f : TgFrag) : TgFrag :=
  { ins := acc.ins ++ (if none ∈ acc.ins then noEmpty f.ins else f.ins),
    outs := acc.outs ++ (if none ∈ acc.outs then noEmpty f.outs else f.outs) }

/-! ## Budget -/

/-- `reserve` (/repo/transition_graph.go:212-221); `none` is `ErrMaxNodesExceeded`. -/
def reserveNodes (o : TgOpts) (n : Int) (st : TgSt) : Option TgSt :=
  if o.maxNodes ≤ 0 then some st
  else if n < 0 ∨ wrap64 (st.count + n) < 0 ∨ wrap64 (st.count + n) > o.maxNodes then none
  else some { st with count := wrap64 (st.count + n) }

/-- The pushes of `countReachable` (/repo/transition_graph.go:250-254); the head of the stack is the end of the Go
slice. -/
def pushNexts (seen : List Nat) : List Nat → List Nat → List Nat
  | [], stack => stack
  | m :: ms, stack => pushNexts seen ms (if m ∈ seen then stack else m :: stack)

/-- The loop of `countReachable` (/repo/transition_graph.go:243-255). -/
def countLoop (h : TgHeap) : Nat → List Nat → List Nat → Run Nat
  | 0, _, _ => .fuel
  | _ + 1, [], seen => .ok seen.length
  | k + 1, n :: stack, seen =>
    if n ∈ seen then countLoop h k stack seen
    else countLoop h k (pushNexts (n :: seen) (h.nexts n) stack) (n :: seen)

/-- The number of edges. -/
def TgHeap.edges (h : TgHeap) : Nat := ((List.range h.size).map fun n => (h.nexts n).length).sum

/-- `countReachable` (/repo/transition_graph.go:235-257). -/
def countReachable (h : TgHeap) (entries : Pts) : Run Nat :=
  countLoop h (entries.length + h.edges + 1) ((entries.filterMap id).reverse) []

/-- `reserveClones` (/repo/transition_graph.go:226-231). -/
def reserveClones (o : TgOpts) (reps : Nat) (entries : Pts) (st : TgSt) : TgOut TgSt :=
  if o.maxNodes ≤ 0 then .ok (.ok st)
  else (countReachable st.heap entries).bnd fun n =>
    match reserveNodes o (wrap64 (reps * n)) st with
    | none => .ok (.error .maxNodes)
    | some st => .ok (.ok st)

/-! ## Cloning -/

/-- The map `originToNewNodes` (/repo/transition_graph.go:1196), from origins to clones, with the nodes. -/
structure CloneSt where
  map : List (Nat × Nat)
  heap : TgHeap

/-- The assignment at the head of `cloneTG` (/repo/transition_graph.go:1238-1247). -/
def CloneSt.enter (st : CloneSt) (n : Nat) : CloneSt :=
  { map := (n, (st.heap.alloc (st.heap.elem n)).1) :: st.map.filter (fun p => p.1 ≠ n),
    heap := (st.heap.alloc (st.heap.elem n)).2 }

/-- The loop of `cloneTG` (/repo/transition_graph.go:1250-1255). -/
def cloneNexts (rec : Nat → CloneSt → Run CloneSt) : List Nat → CloneSt → Run CloneSt
  | [], st => .ok st
  | m :: ms, st =>
    if (st.map.lookup m).isSome then cloneNexts rec ms st else (rec m st).bnd (cloneNexts rec ms)

/-- `cloneTG` (/repo/transition_graph.go:1237-1256). -/
def cloneTG : Nat → Nat → CloneSt → Run CloneSt
  | 0, _, _ => .fuel
  | k + 1, n, st => cloneNexts (cloneTG k) (st.heap.nexts n) (st.enter n)

/-- The first loop of `cloneTransitionGraph` (/repo/transition_graph.go:1197-1202). -/
def cloneRoots (k : Nat) : Pts → CloneSt → Run CloneSt
  | [], st => .ok st
  | none :: is, st => cloneRoots k is st
  | some i :: is, st => (cloneTG k i st).bnd (cloneRoots k is)

/-- The clones of the next nodes (/repo/transition_graph.go:1206-1209); `none` if one has no clone. -/
def cloneList (map : List (Nat × Nat)) : List Nat → Option (List Nat)
  | [] => some []
  | n :: ns =>
    match map.lookup n, cloneList map ns with
    | some c, some cs => some (c :: cs)
    | _, _ => none

/-- The loop rebuilding the links (/repo/transition_graph.go:1205-1211).  Each round writes to another node and reads
from origins only, so the order does not matter.  A next node that has no clone would put a nil pointer among `Nexts`,
which the users of the graph dereference: it counts as a panic. -/
def relink (map : List (Nat × Nat)) : List (Nat × Nat) → TgHeap → Run TgHeap
  | [], h => .ok h
  | (o, c) :: ps, h =>
    match cloneList map (h.nexts o) with
    | none => .panic
    | some l => relink map ps (h.setNexts c l)

/-- What becomes of an entry or end point (/repo/transition_graph.go:1214-1229): a node without clone becomes nil. -/
def clonePt (map : List (Nat × Nat)) : Option Nat → Option Nat
  | none => none
  | some n => map.lookup n

/-- `cloneTransitionGraph` (/repo/transition_graph.go:1194-1231). -/
def cloneGraph (f : TgFrag) (h : TgHeap) : Run (TgFrag × TgHeap) :=
  (cloneRoots (h.size + 1) f.ins ⟨[], h⟩).bnd fun st =>
    (relink st.map st.map st.heap).bnd fun h' =>
      .ok ({ ins := f.ins.map (clonePt st.map), outs := f.outs.map (clonePt st.map) }, h')

/-- `chainTransitionGraph` (/repo/transition_graph.go:1168-1192): the clones, the whole chain.  The last round of the
loop comes after the first `n - 1` ones. -/
def chainTG (f : TgFrag) : Nat → TgHeap → Run (List TgFrag × TgFrag × TgHeap)
  | 0, h => .ok ([], {}, h)
  | 1, h => (cloneGraph f h).bnd fun (c, h) => .ok ([c], c, h)
  | n + 2, h =>
    (chainTG f (n + 1) h).bnd fun (tgs, cur, h) =>
      (cloneGraph f h).bnd fun (c, h) =>
        .ok (tgs ++ [c], (concatTG cur c h).1, (concatTG cur c h).2)

/-! ## Building -/

/-- The end points of all clones (/repo/transition_graph.go:1080-1082, 1147-1149). -/
def allOuts (acc : Pts) : List TgFrag → Pts
  | [] => acc
  | tg :: tgs => allOuts (appendNodes acc tg.outs) tgs

/-- `chainTransitionGraph` with its budget (/repo/transition_graph.go:1075-1078, 1099-1102, 1132-1135, 1143-1146). -/
def chainSt (o : TgOpts) (f : TgFrag) (n : Nat) (st : TgSt) : TgOut (List TgFrag × TgFrag × TgSt) :=
  tgBind (reserveClones o n f.ins st) fun st =>
    (chainTG f n st.heap).bnd fun (tgs, cur, h) => .ok (.ok (tgs, cur, { st with heap := h }))

/-- `repGraph` after `elemGraph` returned (/repo/transition_graph.go:1043-1166). -/
def repGraph (o : TgOpts) (mn : Nat) (mx : Option Nat) (f : TgFrag) (st : TgSt) : TgOut (TgFrag × TgSt) :=
  if mn = 0 then
    match mx with
    | none => .ok (.ok (⟨appendNodes [none] f.ins, appendNodes [none] f.outs⟩,
        { st with heap := plugNodes (appendNodes [] (noEmpty f.ins)) f.outs st.heap }))
    | some m =>
      if m = 1 then .ok (.ok (⟨appendNodes [none] f.ins, appendNodes [none] f.outs⟩, st))
      else if (m : Int) > o.threshold then .ok (.error .threshold)
      else tgBind (chainSt o f m st) fun (tgs, cur, st) =>
        .ok (.ok (⟨appendNodes [none] cur.ins, allOuts [none] tgs⟩, st))
  else
    match mx with
    | none =>
      if (mn : Int) > o.threshold then .ok (.error .threshold)
      else tgBind (chainSt o f mn st) fun (tgs, cur, st) =>
        match tgs.getLast? with
        | none => .panic
        | some last =>
          .ok (.ok (⟨appendNodes [] cur.ins, appendNodes [] cur.outs⟩,
            { st with heap := plugNodes last.ins last.outs st.heap }))
    | some m =>
      if m = 1 then
        if mn ≠ 1 then .ok (.error .minNotOne)
        else .ok (.ok (⟨appendNodes [] f.ins, appendNodes [] f.outs⟩, st))
      else if mn > m then .ok (.error .minGtMax)
      else if (m : Int) > o.threshold then .ok (.error .threshold)
      else
        tgBind (if mn > 1 then tgBind (chainSt o f mn st) fun (_, cur, st) => .ok (.ok (cur, st)) else .ok (.ok (f, st)))
          fun (first, st) =>
            if m - mn > 0 then
              tgBind (chainSt o f (m - mn) st) fun (tgs, cur, st) =>
                .ok (.ok (⟨appendNodes [] first.ins, allOuts (appendNodes [] first.outs) tgs⟩,
                  { st with heap := plugNodes cur.ins first.outs st.heap }))
            else .ok (.ok (⟨appendNodes [] first.ins, appendNodes [] first.outs⟩, st))

/-- A node of its own (/repo/transition_graph.go:1279-1285, 1347-1353, 1425-1431). -/
def oneNode (o : TgOpts) (e : Elem) (st : TgSt) : TgOut (TgFrag × TgSt) :=
  match reserveNodes o 1 st with
  | none => .ok (.error .maxNodes)
  | some st =>
    .ok (.ok (⟨[some (st.heap.alloc e).1], [some (st.heap.alloc e).1]⟩, { st with heap := (st.heap.alloc e).2 }))

/-- The characters a deflated character becomes (/repo/transition_graph.go:1295-1330): itself, or its lower and its
upper case. -/
def caseNodes (sensitive : Bool) (c : Char) : List Char :=
  let isLower := 'a'.toNat ≤ c.toNat ∧ c.toNat ≤ 'z'.toNat
  let isUpper := 'A'.toNat ≤ c.toNat ∧ c.toNat ≤ 'Z'.toNat
  if (isLower ∨ isUpper) ∧ sensitive = false then
    [if isUpper then lowerChar c else c, if isLower then upperChar c else c]
  else [c]

/-- Some new nodes (/repo/transition_graph.go:1300-1303, 1323-1330, 1371-1376, 1385-1390). -/
def allocAll : List Elem → TgHeap → List Nat × TgHeap
  | [], h => ([], h)
  | e :: es, h => ((h.alloc e).1 :: (allocAll es (h.alloc e).2).1, (allocAll es (h.alloc e).2).2)

/-- `v.Nexts = append(v.Nexts, curr...)` for each of `prevs` (/repo/transition_graph.go:1309-1311, 1336-1338). -/
def linkAll (curr : List Nat) : List Nat → TgHeap → TgHeap
  | [], h => h
  | v :: vs, h => linkAll curr vs (h.setNexts v (h.nexts v ++ curr))

/-- The loop over the characters (/repo/transition_graph.go:1292-1342); `prevs` is nil in the first round only. -/
def charLoop (sensitive : Bool) : List Char → List Nat → List Nat → TgHeap → TgFrag × TgHeap
  | [], ins, prevs, h => (⟨ins.map some, prevs.map some⟩, h)
  | c :: cs, ins, prevs, h =>
    let (curr, h) := allocAll ((caseNodes sensitive c).map fun d => .charVal true [d]) h
    charLoop sensitive cs (if prevs = [] then curr else ins) curr (linkAll curr prevs h)

/-- Parallel nodes (/repo/transition_graph.go:1368-1379, 1382-1393). -/
def parNodes (o : TgOpts) (es : List Elem) (st : TgSt) : TgOut (TgFrag × TgSt) :=
  match reserveNodes o es.length st with
  | none => .ok (.error .maxNodes)
  | some st =>
    .ok (.ok (⟨(allocAll es st.heap).1.map some, (allocAll es st.heap).1.map some⟩,
      { st with heap := (allocAll es st.heap).2 }))

/-- The case `StatRange` (/repo/transition_graph.go:1357-1379). -/
def rangeNodes (o : TgOpts) (base : Str) (es : List Str) (st : TgSt) : TgOut (TgFrag × TgSt) :=
  let lo := numvalToRune (es.getD 0 []) base
  let hi := min (numvalToRune (es.getD 1 []) base) maxRune
  if lo > maxRune ∨ lo > hi then .ok (.ok ({}, st))
  else parNodes o ((List.range' lo (hi - lo + 1)).map fun i => .numVal base .series [int32ToNumval i base]) st

mutual
/-- The loop of `altGraph` (/repo/transition_graph.go:948-974); `rec` is `elemGraph` on a deflated rule name. -/
def altGraph (o : TgOpts) (rec : Str → TgSt → TgOut (TgFrag × TgSt)) : List (List Rep) → TgFrag → TgSt →
    TgOut (TgFrag × TgSt)
  | [], acc, st => .ok (.ok (acc, st))
  | c :: a, acc, st => tgBind (concatGraph o rec c st) fun (f, st) => altGraph o rec a (altMerge acc f) st
/-- `concatGraph` (/repo/transition_graph.go:976-989): the first repetition. -/
def concatGraph (o : TgOpts) (rec : Str → TgSt → TgOut (TgFrag × TgSt)) : List Rep → TgSt → TgOut (TgFrag × TgSt)
  | [], _ => .panic
  | ⟨mn, mx, e⟩ :: c, st =>
    tgBind (elemGraph o rec e st) fun (f, st) =>
      tgBind (repGraph o mn mx f st) fun (f, st) => concatRest o rec c f st
/-- `concatGraph`: the loop over the others (/repo/transition_graph.go:981-987). -/
def concatRest (o : TgOpts) (rec : Str → TgSt → TgOut (TgFrag × TgSt)) : List Rep → TgFrag → TgSt →
    TgOut (TgFrag × TgSt)
  | [], acc, st => .ok (.ok (acc, st))
  | ⟨mn, mx, e⟩ :: c, acc, st =>
    tgBind (elemGraph o rec e st) fun (f, st) =>
      tgBind (repGraph o mn mx f st) fun (f, st) =>
        concatRest o rec c (concatTG acc f st.heap).1 { st with heap := (concatTG acc f st.heap).2 }
/-- `elemGraph` (/repo/transition_graph.go:1268-1449).  The length of a slice times two does not overflow. -/
def elemGraph (o : TgOpts) (rec : Str → TgSt → TgOut (TgFrag × TgSt)) : Elem → TgSt → TgOut (TgFrag × TgSt)
  | .charVal sensitive vs, st =>
    if vs = [] then .ok (.ok (⟨[none], [none]⟩, st))
    else if o.chars = false then oneNode o (.charVal sensitive vs) st
    else
      match reserveNodes o (2 * vs.length) st with
      | none => .ok (.error .maxNodes)
      | some st =>
        .ok (.ok ((charLoop sensitive vs [] [] st.heap).1, { st with heap := (charLoop sensitive vs [] [] st.heap).2 }))
  | .numVal base .range es, st =>
    if o.nums then rangeNodes o base es st else oneNode o (.numVal base .range es) st
  | .numVal base .series es, st =>
    if o.nums then parNodes o (es.map fun s => .numVal base .series [s]) st
    else oneNode o (.numVal base .series es) st
  | .rulename n, st => if o.rules then rec n st else oneNode o (.rulename n) st
  | .option a, st =>
    tgBind (altGraph o rec a {} st) fun (f, st) =>
      .ok (.ok (⟨appendNodes f.ins [none], appendNodes f.outs [none]⟩, st))
  | .group a, st => altGraph o rec a {} st
  | .proseVal _, _ => .ok (.error .proseVal)
end

/-- The case `ElemRulename` of `elemGraph` with rules deflated (/repo/transition_graph.go:1399-1424). -/
def ruleGraph (o : TgOpts) (g : Grammar) : Nat → Str → TgSt → TgOut (TgFrag × TgSt)
  | 0, _, _ => .fuel
  | k + 1, name, st =>
    match st.buf.lookup (canon name) with
    | some f =>
      tgBind (reserveClones o 1 f.ins st) fun st =>
        (cloneGraph f st.heap).bnd fun (f, h) => .ok (.ok (f, { st with heap := h }))
    | none =>
      match getRule name g.rules with
      | none => .ok (.error (.ruleNotFound name))
      | some r =>
        tgBind (altGraph o (ruleGraph o g k) r.alt {} st) fun (f, st) =>
          tgBind (reserveClones o 1 f.ins st) fun st =>
            (cloneGraph f st.heap).bnd fun (nf, h) =>
              .ok (.ok (f, { st with heap := h, buf := (canon name, nf) :: st.buf }))

/-- `TransitionGraph` (/repo/transition_graph.go:38-95): the entry and end points, and the nodes.  `core` and `order`
are the orders in which `RuleContainsCycle` visits maps. -/
def transitionGraph (o : TgOpts) (core : List Rule) (g : Grammar) (order : List Str) (name : Str) :
    TgOut (TgFrag × TgHeap) :=
  match getRule name g.rules with
  | none => .ok (.error (.ruleNotFound name))
  | some r =>
    match (if o.rules then semvalABNF g else none) with
    | some e => .ok (.error (.semval e))
    | none =>
      match ruleContainsCycle core g order name with
      | none => .ok (.error (.ruleNotFound name))
      | some cyc => cyc.bnd fun b =>
        if b then .ok (.error .cyclicRule)
        else tgBind (altGraph o (ruleGraph o g (g.rules.length + Core.rules.length + 1)) r.alt {} {}) fun (f, st) =>
          .ok (.ok (f, st.heap))

end Verif
