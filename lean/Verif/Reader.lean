import Verif.Fuzz
import Mathlib.Data.List.Sort

/-!
# Readers of transition graphs

Model of `TransitionGraphReader` (/repo/transition_graph.go:258-858).  A node is `none` for `emptyNode`; the number of a
node stands for its identifier, and a pair of nodes for the string `edgeStr` makes of them.
-/

namespace Verif

/-- `n.Nexts` (/repo/transition_graph.go:32); `emptyNode` has none. -/
def TgHeap.nextPts (h : TgHeap) : Option Nat → Pts
  | none => []
  | some n => (h.nexts n).map some

/-- `producing` (/repo/transition_graph.go:364-374). -/
def ptProduces (h : TgHeap) : Option Nat → Bool
  | none => true
  | some n => producing (h.elem n)

/-- `nodeEmit` (/repo/transition_graph.go:864-938): `emptyNode` writes nothing, in one way. -/
def ptEmit (h : TgHeap) : Option Nat → Nat → Bytes × Nat
  | none, _ => ([], 1)
  | some n, i => nodeEmit (h.elem n) i

/-! ## Preparation -/

/-- The loop over nodes in `collect` (/repo/transition_graph.go:399-401 and 403-405). -/
def collectEach (rec : Option Nat → Pts → Run Pts) : Pts → Pts → Run Pts
  | [], all => .ok all
  | n :: ns, all => (rec n all).bnd (collectEach rec ns)

/-- `collect` (/repo/transition_graph.go:388-402). -/
def readerCollect (h : TgHeap) : Nat → Option Nat → Pts → Run Pts
  | 0, _, _ => .fuel
  | k + 1, n, all => if n ∈ all then .ok all else collectEach (readerCollect h k) (h.nextPts n) (n :: all)

/-- The condition for `canReach` (/repo/transition_graph.go:417-425). -/
def reachNow (h : TgHeap) (f : TgFrag) (can : Option Nat → Bool) (n : Option Nat) : Bool :=
  decide (n ∈ f.outs) || (h.nextPts n).any fun m => ptProduces h m && can m

/-- One round over the map `all` (/repo/transition_graph.go:413-430), in the order given; the second result is
`changed`. -/
def reachRound (h : TgHeap) (f : TgFrag) : Pts → (Option Nat → Bool) → Bool → (Option Nat → Bool) × Bool
  | [], can, ch => (can, ch)
  | n :: ns, can, ch =>
    if can n || !ptProduces h n then reachRound h f ns can ch
    else if reachNow h f can n then reachRound h f ns (fun x => if x = n then true else can x) true
    else reachRound h f ns can ch

/-- The rounds (/repo/transition_graph.go:410-431); round `i` visits the map in the order `sched i all`. -/
def reachLoop (h : TgHeap) (f : TgFrag) (sched : Sched (Option Nat)) (all : Pts) : Nat → Nat → (Option Nat → Bool) →
    Run (Option Nat → Bool)
  | 0, _, _ => .fuel
  | k + 1, i, can =>
    let r := reachRound h f (sched i all) can false
    if r.2 then reachLoop h f sched all k (i + 1) r.1 else .ok r.1

/-- The prepared part of a `TransitionGraphReader` (/repo/transition_graph.go:315-329). -/
structure Reader where
  frag : TgFrag
  heap : TgHeap
  can : Option Nat → Bool
  entries : Pts

/-- `prepare` (/repo/transition_graph.go:376-438). -/
def readerPrepare (sched : Sched (Option Nat)) (f : TgFrag) (h : TgHeap) : Run Reader :=
  (collectEach (readerCollect h (h.size + 2)) f.ins []).bnd fun all =>
    (reachLoop h f sched all (all.length + 1) 0 fun _ => false).bnd fun can =>
      .ok { frag := f, heap := h, can := can, entries := f.ins.filter fun e => ptProduces h e && can e }

/-! ## Trails -/

/-- `pathFrame` (/repo/transition_graph.go:348-352). -/
structure TrailFrame where
  node : Option Nat
  cursor : Nat
  allowed : Pts

/-- The edges counted in `usedEdges` (/repo/transition_graph.go:334). -/
abbrev EdgeCount := Option Nat × Option Nat → Int

/-- `usedEdges[e] += d` unless the frame is the first one (/repo/transition_graph.go:474-476, 485-487 and 491-493). -/
def useEdge (d : Int) (rest : List TrailFrame) (n : Option Nat) (used : EdgeCount) : EdgeCount :=
  match rest with
  | [] => used
  | p :: _ => fun e => if e = (p.node, n) then used e + d else used e

/-- `allowedAt(len(stack))` (/repo/transition_graph.go:447-466).  The head of the stack is its end in Go. -/
def Reader.allowedAt (R : Reader) (stack : List TrailFrame) (used : EdgeCount) : Pts :=
  match stack with
  | [] => R.entries
  | p :: _ => (R.heap.nextPts p.node).filter fun m => R.can m && !decide (used (p.node, m) > 0)

/-- `pushFirst` (/repo/transition_graph.go:468-479). -/
def Reader.pushFirst (R : Reader) (stack : List TrailFrame) (used : EdgeCount) : Option (List TrailFrame × EdgeCount) :=
  match R.allowedAt stack used with
  | [] => none
  | n :: ns => some (⟨n, 0, n :: ns⟩ :: stack, useEdge 1 stack n used)

/-- `bump` (/repo/transition_graph.go:481-499). -/
def bumpTrail : List TrailFrame → EdgeCount → Bool × List TrailFrame × EdgeCount
  | [], used => (false, [], used)
  | fr :: rest, used =>
    let used := useEdge (-1) rest fr.node used
    match fr.allowed[fr.cursor + 1]? with
    | some n => (true, ⟨n, fr.cursor + 1, fr.allowed⟩ :: rest, useEdge 1 rest n used)
    | none => bumpTrail rest used

/-- The state of the enumeration (/repo/transition_graph.go:331-345). -/
structure TrailSt where
  length : Nat := 0
  stack : List TrailFrame := []
  used : EdgeCount := fun _ => 0
  had : Bool := false
  exhausted : Bool := false
  havePath : Bool := false
  varIdx : List Nat := []
  varTot : List Nat := []
  staged : Option Bytes := none

/-- `nextLeaf` (/repo/transition_graph.go:501-522). -/
def Reader.nextLeaf (R : Reader) : Nat → TrailSt → Run (Bool × TrailSt)
  | 0, _ => .fuel
  | k + 1, st =>
    let go := fun (p : List TrailFrame × EdgeCount) =>
      let st := { st with stack := p.1, used := p.2 }
      if st.stack.length = st.length then .ok (true, { st with had := true }) else R.nextLeaf k st
    let back := fun (_ : Unit) =>
      match bumpTrail st.stack st.used with
      | (true, s, u) => go (s, u)
      | (false, s, u) => .ok (false, { st with stack := s, used := u })
    if st.stack.length = st.length then back ()
    else if st.stack.length < st.length then
      match R.pushFirst st.stack st.used with
      | some p => go p
      | none => back ()
    else R.nextLeaf k st

/-- `resetLevel` (/repo/transition_graph.go:524-530), with the new length. -/
def TrailSt.level (st : TrailSt) (l : Nat) : TrailSt :=
  { st with length := l, stack := [], used := fun _ => 0, had := false }

/-- `advancePath` (/repo/transition_graph.go:534-551).  The top of the stack is the node checked. -/
def Reader.advancePath (R : Reader) : Nat → TrailSt → Run (Bool × TrailSt)
  | 0, _ => .fuel
  | k + 1, st =>
    let st := if st.length = 0 then st.level 1 else st
    (R.nextLeaf k st).bnd fun r =>
      if r.1 then
        match r.2.stack with
        | [] => .panic
        | fr :: _ => if fr.node ∈ R.frag.outs then .ok (true, r.2) else R.advancePath k r.2
      else if r.2.had then R.advancePath k (r.2.level (r.2.length + 1))
      else .ok (false, r.2)

/-- The nodes of the trail, first one first (/repo/transition_graph.go:333). -/
def TrailSt.path (st : TrailSt) : Pts := (st.stack.map TrailFrame.node).reverse

/-- Writing the trail (/repo/transition_graph.go:574-578). -/
def trailText (h : TgHeap) : Pts → List Nat → Bytes
  | n :: ns, i :: is => (ptEmit h n i).1 ++ trailText h ns is
  | _, _ => []

/-- The staging of the text (/repo/transition_graph.go:574-579). -/
def TrailSt.stage (st : TrailSt) (h : TgHeap) : TrailSt := { st with staged := some (trailText h st.path st.varIdx) }

/-- `ensureStaged` (/repo/transition_graph.go:553-580).  The number of variations is never below 1. -/
def Reader.ensureStaged (R : Reader) (k : Nat) (st : TrailSt) : Run TrailSt :=
  if st.staged.isSome || st.exhausted then .ok st
  else if st.havePath then .ok (st.stage R.heap)
  else
    (R.advancePath k st).bnd fun r =>
      if r.1 then
        let st := r.2
        .ok (TrailSt.stage { st with havePath := true, varTot := st.path.map fun n => (ptEmit R.heap n 0).2,
                                     varIdx := st.path.map fun _ => 0 } R.heap)
      else .ok { r.2 with exhausted := true }

/-- The odometer (/repo/transition_graph.go:584-592); the result is whether it ran over, and the new indices. -/
def odometer : List Nat → List Nat → Bool × List Nat
  | t :: ts, i :: is =>
    let r := odometer ts is
    if r.1 then (if i + 1 < t then (false, (i + 1) :: r.2) else (true, 0 :: r.2)) else (false, i :: r.2)
  | _, is => (true, is)

/-- `consumeStaged` (/repo/transition_graph.go:582-596). -/
def TrailSt.consume (st : TrailSt) : TrailSt :=
  let r := odometer st.varTot st.varIdx
  { st with staged := none, varIdx := r.2, havePath := if r.1 then false else st.havePath }

/-- `Next` (/repo/transition_graph.go:599-607) in the mode `CoverageAllTrails`. -/
def Reader.next (R : Reader) (k : Nat) (st : TrailSt) : Run (Bool × TrailSt) :=
  (R.ensureStaged k st).bnd fun st => .ok (st.staged.isSome, st)

/-- `Scan` (/repo/transition_graph.go:610-629) in the mode `CoverageAllTrails`; `none` is nil. -/
def Reader.scan (R : Reader) (k : Nat) (st : TrailSt) : Run (Option Bytes × TrailSt) :=
  (R.ensureStaged k st).bnd fun st =>
    match st.staged with
    | none => .ok (none, st)
    | some b => .ok (some b, st.consume)

/-! ## The compact mode -/

/-- `viable` (/repo/transition_graph.go:642-653). -/
def Reader.viable (R : Reader) (n : Option Nat) : Pts := (R.heap.nextPts n).filter fun m => ptProduces R.heap m && R.can m

/-- What the forward search keeps (/repo/transition_graph.go:657-664); `disc` also holds the keys of `predEntry`,
`nodeByID` and `discOrder`. -/
structure FwdSt where
  pred : Option Nat → Option Nat := fun x => x
  disc : Pts := []
  edges : List (Option Nat × Option Nat) := []
  queue : Pts := []

/-- `see` on the entry points (/repo/transition_graph.go:665-678). -/
def seeAll : Pts → FwdSt → FwdSt
  | [], st => st
  | n :: ns, st =>
    if n ∈ st.disc then seeAll ns st
    else seeAll ns { st with pred := fun x => if x = n then n else st.pred x, disc := st.disc ++ [n], queue := st.queue ++ [n] }

/-- The loop over the successors of a node (/repo/transition_graph.go:682-696). -/
def seeNexts (n : Option Nat) : Pts → FwdSt → FwdSt
  | [], st => st
  | m :: ms, st =>
    let st := if (n, m) ∈ st.edges then st else { st with edges := st.edges ++ [(n, m)] }
    if m ∈ st.disc then seeNexts n ms st
    else seeNexts n ms { st with pred := fun x => if x = m then n else st.pred x, disc := st.disc ++ [m], queue := st.queue ++ [m] }

/-- The forward search (/repo/transition_graph.go:679-697). -/
def Reader.forward (R : Reader) : Nat → FwdSt → Run FwdSt
  | 0, _ => .fuel
  | k + 1, st =>
    match st.queue with
    | [] => .ok st
    | n :: q => R.forward k (seeNexts n (R.viable n) { st with queue := q })

/-- `revAdj[id]` (/repo/transition_graph.go:703-709). -/
def Reader.revAdj (R : Reader) (disc : Pts) (x : Option Nat) : Pts :=
  disc.flatMap fun n => ((R.viable n).filter fun m => m = x).map fun _ => n

/-- The loop over the nodes before one (/repo/transition_graph.go:721-727). -/
def endPreds (n : Option Nat) : Pts → Pts → (Option Nat → Option (Option Nat)) → Pts × (Option Nat → Option (Option Nat))
  | [], q, succ => (q, succ)
  | p :: ps, q, succ =>
    if (succ p).isSome then endPreds n ps q succ
    else endPreds n ps (q ++ [p]) fun x => if x = p then some n else succ x

/-- The backward search (/repo/transition_graph.go:718-728). -/
def Reader.backward (R : Reader) (disc : Pts) : Nat → Pts → (Option Nat → Option (Option Nat)) → Run (Option Nat → Option (Option Nat))
  | 0, _, _ => .fuel
  | _ + 1, [], succ => .ok succ
  | k + 1, n :: q, succ =>
    let r := endPreds n (R.revAdj disc n) q succ
    R.backward disc k r.1 r.2

/-- `entryPath` (/repo/transition_graph.go:730-746), from the end on. -/
def entryPathRev (pred : Option Nat → Option Nat) : Nat → Option Nat → Run Pts
  | 0, _ => .fuel
  | k + 1, cur => if pred cur = cur then .ok [cur] else (entryPathRev pred k (pred cur)).bnd fun l => .ok (cur :: l)

/-- `endPath` (/repo/transition_graph.go:747-760).  An unknown node would give the nil pointer. -/
def endPathFrom (succ : Option Nat → Option (Option Nat)) : Nat → Option Nat → Run Pts
  | 0, _ => .fuel
  | k + 1, cur =>
    if (succ cur).getD none = cur then .ok [cur] else (endPathFrom succ k ((succ cur).getD none)).bnd fun l => .ok (cur :: l)

/-- The variables of the covering (/repo/transition_graph.go:762-767 and 811): `next` is `nextVal`. -/
structure CoverSt where
  nodes : Option Nat → Bool := fun _ => false
  edges : Option Nat × Option Nat → Bool := fun _ => false
  next : Option Nat → Nat := fun _ => 0
  prods : List Bytes := []
  walks : List Pts := []

/-- `markWalk` (/repo/transition_graph.go:769-776). -/
def markWalk : Pts → CoverSt → CoverSt
  | [], st => st
  | [n], st => { st with nodes := fun x => if x = n then true else st.nodes x }
  | n :: m :: w, st =>
    markWalk (m :: w) { st with nodes := fun x => if x = n then true else st.nodes x,
                                edges := fun e => if e = (n, m) then true else st.edges e }

/-- The choice of variations in `emit` (/repo/transition_graph.go:778-795): the indices, `claimed` and `newCount`. -/
def claimEach (h : TgHeap) (next : Option Nat → Nat) : Pts → (Option Nat → Nat) → Nat → List Nat × (Option Nat → Nat) × Nat
  | [], claimed, new => ([], claimed, new)
  | n :: w, claimed, new =>
    if next n + claimed n < (ptEmit h n 0).2 then
      let r := claimEach h next w (fun x => if x = n then claimed x + 1 else claimed x) (new + 1)
      ((next n + claimed n) :: r.1, r.2)
    else
      let r := claimEach h next w claimed new
      (0 :: r.1, r.2)

/-- `emit` (/repo/transition_graph.go:777-809). -/
def emitWalk (h : TgHeap) (w : Pts) (force : Bool) (st : CoverSt) : Bool × CoverSt :=
  let r := claimEach h st.next w (fun _ => 0) 0
  if !force && decide (r.2.2 = 0) then (false, st)
  else (true, { st with next := fun x => st.next x + r.2.1 x, prods := st.prods ++ [trailText h w r.1] })

/-- A new walk (/repo/transition_graph.go:829-831 and 849-851). -/
def addWalk (h : TgHeap) (w : Pts) (st : CoverSt) : CoverSt :=
  markWalk w (emitWalk h w true { st with walks := st.walks ++ [w] }).2

/-- What the two searches found (/repo/transition_graph.go:657-663 and 710). -/
structure CoverMaps where
  pred : Option Nat → Option Nat
  succ : Option Nat → Option (Option Nat)
  disc : Pts
  edges : List (Option Nat × Option Nat)

/-- The loop over the edges (/repo/transition_graph.go:820-832). -/
def coverEdges (h : TgHeap) (M : CoverMaps) : List (Option Nat × Option Nat) → CoverSt → Run CoverSt
  | [], st => .ok st
  | (u, w) :: es, st =>
    if st.edges (u, w) || (M.succ w).isNone then coverEdges h M es st
    else
      (entryPathRev M.pred (M.disc.length + 1) u).bnd fun p =>
        (endPathFrom M.succ (M.disc.length + 1) w).bnd fun q => coverEdges h M es (addWalk h (p.reverse ++ q) st)

/-- The loop over the nodes (/repo/transition_graph.go:834-852). -/
def coverNodes (h : TgHeap) (outs : Pts) (M : CoverMaps) : Pts → CoverSt → Run CoverSt
  | [], st => .ok st
  | v :: vs, st =>
    if st.nodes v || (M.succ v).isNone then coverNodes h outs M vs st
    else
      (entryPathRev M.pred (M.disc.length + 1) v).bnd fun p =>
        if v ∈ outs then coverNodes h outs M vs (addWalk h p.reverse st)
        else
          (endPathFrom M.succ (M.disc.length + 1) v).bnd fun q => coverNodes h outs M vs (addWalk h (p.reverse ++ q.drop 1) st)

/-- `for emit(w, false) {}` (/repo/transition_graph.go:855-856). -/
def coverValues (h : TgHeap) (w : Pts) : Nat → CoverSt → Run CoverSt
  | 0, _ => .fuel
  | k + 1, st =>
    let r := emitWalk h w false st
    if r.1 then coverValues h w k r.2 else .ok r.2

/-- The loop over the walks (/repo/transition_graph.go:854-857).  The rounds for one walk are at most the variations of
its nodes. -/
def coverWalks (h : TgHeap) : List Pts → CoverSt → Run CoverSt
  | [], st => .ok st
  | w :: ws, st => (coverValues h w ((w.map fun n => (ptEmit h n 0).2).sum + 1) st).bnd (coverWalks h ws)

/-- The order of the edges (/repo/transition_graph.go:813-819). -/
def edgeBefore (disc : Pts) (a b : Option Nat × Option Nat) : Bool :=
  if disc.idxOf a.1 ≠ disc.idxOf b.1 then decide (disc.idxOf a.1 < disc.idxOf b.1)
  else decide (disc.idxOf a.2 ≤ disc.idxOf b.2)

/-- `buildCompact` (/repo/transition_graph.go:636-858): the texts `Scan` returns, in this order. -/
def Reader.compact (R : Reader) : Run (List Bytes) :=
  (R.forward (R.heap.size + 2) (seeAll R.entries {})).bnd fun fw =>
    let ends := fw.disc.filter fun n => decide (n ∈ R.frag.outs)
    (R.backward fw.disc (fw.disc.length + 1) ends fun x => if x ∈ ends then some x else none).bnd fun succ =>
      let M : CoverMaps := ⟨fw.pred, succ, fw.disc, fw.edges⟩
      (coverEdges R.heap M (fw.edges.insertionSort fun a b => edgeBefore fw.disc a b = true) {}).bnd fun st =>
        (coverNodes R.heap R.frag.outs M fw.disc st).bnd fun st =>
          (coverWalks R.heap st.walks st).bnd fun st => .ok st.prods

end Verif
