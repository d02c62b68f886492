import Verif.Analysis

/-!
# Strongly connected components and cycles

Model of /repo/dag.go:79-237: `IsDAG`, `RuleContainsCycle`, `ruleContainsCycle`, `ruleCycleVisit` and the traversal
`cycle.find` / `cycle.strongconnect`.
-/

namespace Verif

/-- Outcome of running Go code: a value, a run-time panic, or not enough fuel for the recursion of the model. -/
inductive Run (α : Type) where
  | ok (a : α)
  | panic
  | fuel
  deriving DecidableEq

/-- A `Depgraph` (/repo/dag.go:19): folded name to node. -/
abbrev Depgraph := List (Str × DepNode)

/-- Assignment to a field of one node. -/
def upd {α : Type} (f : Str → α) (k : Str) (v : α) : Str → α := fun x => if x = k then v else f x

/-- The state of `cycle` (/repo/dag.go:180-186) together with the scratch fields `index`, `lowlink`, `onStack` of the
nodes (/repo/dag.go:10-12); a node is its key in the graph.  The head of `stack` is the end of the Go slice. -/
structure TSt where
  next : Nat
  idx : Str → Nat
  low : Str → Nat
  on : Str → Bool
  stack : List Str
  sccs : List (List Str)

/-- The initial state (/repo/dag.go:84-88). -/
def tInit : TSt := ⟨0, fun _ => 0, fun _ => 0, fun _ => false, [], []⟩

/-- `dg[v].Dependencies`. -/
def dgDeps (dg : Depgraph) (v : Str) : List Str :=
  match dg.lookup v with
  | some nd => nd.deps
  | none => []

/-- The loop over the successors of `v` (/repo/dag.go:205-224); `rec` is the recursive call. -/
def scDeps (dg : Depgraph) (rec : Str → TSt → Run TSt) (v : Str) : List Str → TSt → Run TSt
  | [], st => .ok st
  | d :: ds, st =>
    match dg.lookup d with
    | none => scDeps dg rec v ds st
    | some _ =>
      if st.idx d = 0 then
        match rec d st with
        | .ok st' => scDeps dg rec v ds { st' with low := upd st'.low v (min (st'.low v) (st'.low d)) }
        | .panic => .panic
        | .fuel => .fuel
      else if st.on d then scDeps dg rec v ds { st with low := upd st.low v (min (st.low v) (st.idx d)) }
      else scDeps dg rec v ds st

/-- The popping loop (/repo/dag.go:227-234): pops up to and including `v`; `none` is an index panic on the empty
stack.  Returns the remaining stack and the component. -/
def popUntil (v : Str) : List Str → Option (List Str × List Str)
  | [] => none
  | w :: s =>
    if w = v then some (s, [w])
    else (popUntil v s).map fun p => (p.1, w :: p.2)

/-- `strongconnect` (/repo/dag.go:196-237). -/
def strongconnect (dg : Depgraph) : Nat → Str → TSt → Run TSt
  | 0, _, _ => .fuel
  | n + 1, v, st =>
    match scDeps dg (strongconnect dg n) v (dgDeps dg v)
        { st with next := st.next + 1, idx := upd st.idx v st.next, low := upd st.low v st.next, stack := v :: st.stack,
                  on := upd st.on v true } with
    | .panic => .panic
    | .fuel => .fuel
    | .ok st =>
      if st.low v = st.idx v then
        match popUntil v st.stack with
        | none => .panic
        | some (s, scc) =>
          .ok { st with stack := s, on := fun x => if x ∈ scc then false else st.on x, sccs := st.sccs ++ [scc] }
      else .ok st

/-- `find` (/repo/dag.go:188-194), the map iterated in the given order. -/
def findFrom (dg : Depgraph) (fuel : Nat) : List Str → TSt → Run TSt
  | [], st => .ok st
  | v :: vs, st =>
    if st.idx v = 0 then
      match strongconnect dg fuel v st with
      | .ok st' => findFrom dg fuel vs st'
      | .panic => .panic
      | .fuel => .fuel
    else findFrom dg fuel vs st

/-- Depth of recursion that always suffices (`C22_terminates`). -/
def tFuel (dg : Depgraph) : Nat := dg.length + 2

/-- The components found, in order of discovery (/repo/dag.go:188-237). -/
def findSCCs (dg : Depgraph) (order : List Str) : Run (List (List Str)) :=
  match findFrom dg (tFuel dg) order tInit with
  | .ok st => .ok st.sccs
  | .panic => .panic
  | .fuel => .fuel

/-- `IsDAG` (/repo/dag.go:83-97). -/
def isDAG (core : List Rule) (g : Grammar) (order : List Str) : Run Bool :=
  match findSCCs (dependencyGraph core g) order with
  | .ok sccs => .ok (sccs.all fun s => !decide (s.length > 1))
  | .panic => .panic
  | .fuel => .fuel

/-- The two maps built by `ruleContainsCycle` (/repo/dag.go:126-136): `nodeOf` has a key for every member of a
component, `inCycle` remembers for each key whether the last component listing it has several members. -/
def inCycleMap (sccs : List (List Str)) : List (Str × Bool) :=
  (sccs.flatMap fun s => s.map fun k => (k, decide (s.length > 1))).reverse

/-- The last loop of `ruleCycleVisit` (/repo/dag.go:168-176); `rec` is the recursive call. -/
def cycleLoop (rec : Str → List Str → Run (Bool × List Str)) (key : Str) : List Str → List Str → Run (Bool × List Str)
  | [], visited => .ok (false, visited)
  | d :: ds, visited =>
    if canon d = key then cycleLoop rec key ds visited
    else
      match rec (canon d) visited with
      | .ok (true, visited') => .ok (true, visited')
      | .ok (false, visited') => cycleLoop rec key ds visited'
      | .panic => .panic
      | .fuel => .fuel

/-- `ruleCycleVisit` (/repo/dag.go:146-178); returns the answer and the set of visited keys. -/
def ruleCycleVisit (dg : Depgraph) (inCycle : List (Str × Bool)) : Nat → Str → List Str → Run (Bool × List Str)
  | 0, _, _ => .fuel
  | n + 1, key, visited =>
    if key ∈ visited then .ok (false, visited)
    else
      match inCycle.lookup key with
      | none => .ok (false, key :: visited)
      | some inc =>
        if (dgDeps dg key).any (fun d => canon d == key) then .ok (true, key :: visited)
        else if inc then .ok (true, key :: visited)
        else cycleLoop (ruleCycleVisit dg inCycle n) key (dgDeps dg key) (key :: visited)

/-- `RuleContainsCycle` (/repo/dag.go:102-120); `none` is `ErrRuleNotFound`. -/
def ruleContainsCycle (core : List Rule) (g : Grammar) (order : List Str) (rulename : Str) : Option (Run Bool) :=
  match getRule rulename g.rules with
  | none => none
  | some _ => some (
    match findSCCs (dependencyGraph core g) order with
    | .panic => .panic
    | .fuel => .fuel
    | .ok sccs =>
      match ruleCycleVisit (dependencyGraph core g) (inCycleMap sccs) (tFuel (dependencyGraph core g)) (canon rulename) [] with
      | .ok (b, _) => .ok b
      | .panic => .panic
      | .fuel => .fuel)

end Verif
