import Verif.LeftRec
import Verif.Sppf

/-!
# The recogniser behind `IsValid`

Model of /repo/recognize.go and /repo/grammar.go:19-40.  A Go set of positions is a duplicate-free list; every `range`
over a set goes through a schedule that may permute it (`sched`), so nothing depends on the representation.  Maps
returned by reference are never written to after they are returned, except the seeds in `growing`, which are read
back from the state; value semantics is therefore faithful.  `Run.panic` is a write to a nil map
(/repo/recognize.go:184-187, when the seed was deleted by a nested call).
-/

namespace Verif

/-- Sequencing. -/
def Run.bnd {α β : Type} (x : Run α) (f : α → Run β) : Run β :=
  match x with
  | .ok a => f a
  | .panic => .panic
  | .fuel => .fuel

/-- Set union; keeps the first occurrence. -/
def union (a : List Nat) : List Nat → List Nat
  | [] => a
  | x :: b => union (if x ∈ a then a else a ++ [x]) b

/-- The mutable fields of `recognizer` (/repo/recognize.go:22-34); `tick` counts the ranges over sets so far. -/
structure RSt where
  memo : List (Str × List Nat)
  inProgress : List Str
  growing : List (Str × List Nat)
  tick : Nat

/-- The state `IsValid` starts from (/repo/grammar.go:30-37). -/
def rInit : RSt := ⟨[], [], [], 0⟩

/-- What is fixed during a run: the grammar, the input, the left-recursive rules and the order of ranges. -/
structure REnv where
  g : Grammar
  inp : Bytes
  leftRec : List (Str × List Str)
  sched : Sched Nat

/-- A recursive call of `reachElem`. -/
abbrev RCall := Elem → Nat → RSt → Run (List Nat × RSt)

/-- `element.String() + "@" + index` (/repo/recognize.go:133, 162-163). -/
def memoKey (s : Str) (i : Nat) : Str := s ++ '@' :: itoa i

/-- The loops `for p := range s { for e := range f(p) { acc[e] = true } }` (/repo/recognize.go:58-62, 94-98). -/
def forEach (f : Nat → RSt → Run (List Nat × RSt)) : List Nat → List Nat → RSt → Run (List Nat × RSt)
  | [], acc, st => .ok (acc, st)
  | p :: ps, acc, st => (f p st).bnd fun r => forEach f ps (union acc r.1) r.2

/-- A range over a set: the schedule orders it. -/
def rangeSet (E : REnv) (f : Nat → RSt → Run (List Nat × RSt)) (s : List Nat) (st : RSt) : Run (List Nat × RSt) :=
  forEach f (E.sched st.tick s) [] { st with tick := st.tick + 1 }

/-- `rep.Max != inf && c > rep.Max` (/repo/recognize.go:90). -/
def beyond (c : Nat) : Option Nat → Bool
  | none => false
  | some m => decide (c > m)

/-- The loop of `reachRep` (/repo/recognize.go:89-119); the first argument counts the rounds left up to `cap`. -/
def repLoop (E : REnv) (rec : RCall) (mn : Nat) (mx : Option Nat) (e : Elem) :
    Nat → Nat → List Nat → List Nat → List Nat → RSt → Run (List Nat × RSt)
  | 0, _, _, _, ends, st => .ok (ends, st)
  | k + 1, c, level, seen, ends, st =>
    if beyond c mx then .ok (ends, st)
    else
      (rangeSet E (rec e) level st).bnd fun r =>
        if r.1 = [] then .ok (ends, r.2)
        else if (r.1.any fun x => decide (x ∉ seen)) = false ∧ mn ≤ c then
          .ok ((if mn ≤ c then union ends r.1 else ends), r.2)
        else repLoop E rec mn mx e k (c + 1) r.1 (union seen r.1) (if mn ≤ c then union ends r.1 else ends) r.2

/-- `reachRep` (/repo/recognize.go:71-121). -/
def reachRep (E : REnv) (rec : RCall) (r : Rep) (i : Nat) (st : RSt) : Run (List Nat × RSt) :=
  repLoop E rec r.min r.max r.elem (E.inp.length + 2) 1 [i] [i] (if r.min = 0 then [i] else []) st

/-- The loop of `reachConcat` (/repo/recognize.go:56-67). -/
def reachConcatFrom (E : REnv) (rec : RCall) : List Rep → List Nat → RSt → Run (List Nat × RSt)
  | [], cur, st => .ok (cur, st)
  | r :: c, cur, st =>
    (rangeSet E (reachRep E rec r) cur st).bnd fun x =>
      if x.1 = [] then .ok ([], x.2) else reachConcatFrom E rec c x.1 x.2

/-- `reachConcat` (/repo/recognize.go:54-69). -/
def reachConcat (E : REnv) (rec : RCall) (c : Concat) (i : Nat) (st : RSt) : Run (List Nat × RSt) :=
  reachConcatFrom E rec c [i] st

/-- The loop of `reachAlt` (/repo/recognize.go:45-51). -/
def reachAltFrom (E : REnv) (rec : RCall) (i : Nat) : List Concat → List Nat → RSt → Run (List Nat × RSt)
  | [], out, st => .ok (out, st)
  | c :: a, out, st => (reachConcat E rec c i st).bnd fun x => reachAltFrom E rec i a (union out x.1) x.2

/-- `reachAlt` (/repo/recognize.go:44-52). -/
def reachAlt (E : REnv) (rec : RCall) (a : Alt) (i : Nat) (st : RSt) : Run (List Nat × RSt) :=
  reachAltFrom E rec i a [] st

/-- `computeElem` (/repo/recognize.go:210-292). -/
def computeElem (E : REnv) (rec : RCall) (e : Elem) (i : Nat) (st : RSt) : Run (List Nat × RSt) :=
  match e with
  | .rulename n =>
    match getRule n E.g.rules with
    | none => .ok ([], st)
    | some r => reachAlt E rec r.alt i st
  | .group a => reachAlt E rec a i st
  | .option a => (reachAlt E rec a i st).bnd fun x => .ok (union [i] x.1, x.2)
  | .charVal s vs => .ok ((matchElem E.inp (.charVal s vs) i).toList, st)
  | .numVal b s es => .ok ((matchElem E.inp (.numVal b s es) i).toList, st)
  | .proseVal _ => .ok ([], st)

/-- `r.growing[key] = v`. -/
def setKey (k : Str) (v : List Nat) (m : List (Str × List Nat)) : List (Str × List Nat) :=
  (k, v) :: m.filter fun p => p.1 ≠ k

/-- `delete(r.growing, key)`. -/
def delKey (k : Str) (m : List (Str × List Nat)) : List (Str × List Nat) := m.filter fun p => p.1 ≠ k

/-- One round over the component (/repo/recognize.go:177-191); the Boolean is `changed`. -/
def growRound (E : REnv) (rec : RCall) (i : Nat) : List Str → Bool → RSt → Run (Bool × RSt)
  | [], ch, st => .ok (ch, st)
  | x :: xs, ch, st =>
    match getRule x E.g.rules with
    | none => growRound E rec i xs ch st
    | some r =>
      (reachAlt E rec r.alt i st).bnd fun y =>
        match y.2.growing.lookup (memoKey x i) with
        | none => if y.1 = [] then growRound E rec i xs ch y.2 else .panic
        | some cur =>
          if (y.1.any fun e => decide (e ∉ cur)) then
            growRound E rec i xs true { y.2 with growing := setKey (memoKey x i) (union cur y.1) y.2.growing }
          else growRound E rec i xs ch y.2

/-- The growth loop (/repo/recognize.go:176-192). -/
def growLoop (E : REnv) (rec : RCall) (i : Nat) (scc : List Str) : Nat → RSt → Run RSt
  | 0, _ => .fuel
  | n + 1, st =>
    (growRound E rec i scc false st).bnd fun y => if y.1 then growLoop E rec i scc n y.2 else .ok y.2

/-- Initialisation of the seeds (/repo/recognize.go:171-175). -/
def growInit (i : Nat) : List Str → RSt → RSt
  | [], st => st
  | x :: xs, st => growInit i xs { st with growing := setKey (memoKey x i) [] st.growing }

/-- The final loop (/repo/recognize.go:198-207). -/
def growDone (i : Nat) (name : Str) : List Str → List Nat → RSt → List Nat × RSt
  | [], result, st => (result, st)
  | x :: xs, result, st =>
    growDone i name xs (if x = name then (st.growing.lookup (memoKey x i)).getD [] else result)
      { st with growing := delKey (memoKey x i) st.growing,
                memo := (memoKey x i, (st.growing.lookup (memoKey x i)).getD []) :: st.memo }

/-- `reachLeftRec` (/repo/recognize.go:161-208); each round of the growth loop but the last adds a position, so the
number of rounds allowed here always suffices. -/
def reachLeftRec (E : REnv) (rec : RCall) (name : Str) (scc : List Str) (i : Nat) (st : RSt) : Run (List Nat × RSt) :=
  match st.memo.lookup (memoKey name i) with
  | some cached => .ok (cached, st)
  | none =>
    match st.growing.lookup (memoKey name i) with
    | some seed => .ok (seed, st)
    | none =>
      (growLoop E rec i scc (scc.length * (E.inp.length + 1) + 1) (growInit i scc st)).bnd fun st =>
        .ok (growDone i name scc [] st)

/-- The part of `reachElem` after the test for left recursion (/repo/recognize.go:133-152). -/
def reachMemo (E : REnv) (rec : RCall) (e : Elem) (i : Nat) (st : RSt) : Run (List Nat × RSt) :=
  match st.memo.lookup (memoKey e.str i) with
  | some cached => .ok (cached, st)
  | none =>
    if memoKey e.str i ∈ st.inProgress then .ok ([], st)
    else
      (computeElem E rec e i { st with inProgress := memoKey e.str i :: st.inProgress }).bnd fun x =>
        .ok (x.1, { x.2 with inProgress := x.2.inProgress.filter (fun k => k ≠ memoKey e.str i),
                             memo := (memoKey e.str i, x.1) :: x.2.memo })

/-- The left-corner component of a left-recursive rule name (/repo/recognize.go:127-128). -/
def leftRecOf (E : REnv) : Elem → Option (Str × List Str)
  | .rulename n => (E.leftRec.lookup (canon n)).map fun scc => (canon n, scc)
  | _ => none

/-- `reachElem` (/repo/recognize.go:123-153). -/
def reachElem (E : REnv) : Nat → RCall
  | 0 => fun _ _ _ => .fuel
  | n + 1 => fun e i st =>
    match leftRecOf E e with
    | some (name, scc) => reachLeftRec E (reachElem E n) name scc i st
    | none => reachMemo E (reachElem E n) e i st

/-- Depth of recursion that always suffices (`C44_terminates`): one frame for each element and position. -/
def rFuel (g : Grammar) (inp : Bytes) : Nat :=
  ((Spec.rulesReps (g.rules ++ Core.rules)).length + 1) * (inp.length + 1) + 1

/-- `IsValid` (/repo/grammar.go:19-40) once the left-recursive rules are known; `none` is `ErrRuleNotFound`. -/
def isValidWith (E : REnv) (name : Str) : Option (Run Bool) :=
  match getRule name E.g.rules with
  | none => none
  | some _ => some ((reachElem E (rFuel E.g E.inp) (.rulename name) 0 rInit).bnd fun x =>
      .ok (decide (E.inp.length ∈ x.1)))

/-- `IsValid` (/repo/grammar.go:19-40); `o` and `sched` are the iteration orders of the analysis and of the sets. -/
def isValid (o : LOrders) (sched : Sched Nat) (g : Grammar) (name : Str) (inp : Bytes) : Option (Run Bool) :=
  match getRule name g.rules with
  | none => none
  | some _ =>
    match leftRecursiveSCCs o g with
    | .panic => some .panic
    | .fuel => some .fuel
    | .ok m => isValidWith ⟨g, inp, m, sched⟩ name

end Verif
