import Verif.Sppf

/-!
# The BSR engine

Model of `bsrParser` and `ParseBSR` (/repo/bsr.go).  The representation choices are those of `Verif.Sppf`:
interned GSS nodes are their keys, maps used as sets are lists without duplicates, and the order of a `range`
over a map is chosen by a schedule.
-/

namespace Verif

/-- `bsrElem` (/repo/bsr.go:30-33). -/
structure BsrElem where
  slot : Slot
  l : Nat
  k : Nat
  r : Nat
  deriving DecidableEq

/-- `bsrDesc` (/repo/bsr.go:46-51). -/
structure BDesc where
  L : Slot
  u : GNode
  i : Nat
  rc : Nat
  deriving DecidableEq

/-- The mutable part of `bsrParser` (/repo/bsr.go:53-66); `edges` holds the edges of all GSS nodes. -/
structure BsrSt where
  set : List BsrElem := []
  edges : List (GKey × GNode) := []
  popped : List (GKey × Nat) := []
  seen : List BDesc := []
  work : List BDesc := []
  aborted : Bool := false
  tick : Nat := 0

section
variable (sg : SG) (inp : Bytes) (maxElems : Nat) (sched : Sched Nat)

/-- `bsrParser.add` (/repo/bsr.go:68-75). -/
def bsrAdd (d : BDesc) (st : BsrSt) : BsrSt :=
  if d ∈ st.seen then st else { st with seen := d :: st.seen, work := d :: st.work }

/-- Insertion into `p.set` (/repo/bsr.go:99). -/
def bsrInsert (e : BsrElem) (st : BsrSt) : BsrSt :=
  if e ∈ st.set then st else { st with set := e :: st.set }

/-- `bsrParser.record` (/repo/bsr.go:92-101). -/
def bsrRecord (L : Slot) (l k r : Nat) (st : BsrSt) : BsrSt :=
  if L.dot ≥ 2 ∨ L.dot = (sg.prod L).length then
    if maxElems > 0 ∧ st.set.length ≥ maxElems then { st with aborted := true }
    else bsrInsert ⟨L, l, k, r⟩ st
  else st

/-- One round of the loops of `create` and `pop` (/repo/bsr.go:109-110, 125-126). -/
def bsrResume (v : GKey) (u : GNode) (j : Nat) (st : BsrSt) : BsrSt :=
  bsrAdd ⟨v.ret, u, j, v.rc⟩ (bsrRecord sg maxElems v.ret (posOf u) v.pos j st)

/-- `p.popped[v]`. -/
def bsrPoppedOf (v : GKey) (st : BsrSt) : List Nat :=
  (st.popped.filter fun p => p.1 = v).map Prod.snd

/-- `u.edges`. -/
def bsrEdgesOf (v : GKey) (st : BsrSt) : List GNode :=
  (st.edges.filter fun p => p.1 = v).map Prod.snd

/-- `bsrParser.create` (/repo/bsr.go:103-114); the node created is `⟨L, i, rc⟩`. -/
def bsrCreate (L : Slot) (u : GNode) (i rc : Nat) (st : BsrSt) : BsrSt :=
  let v : GKey := ⟨L, i, rc⟩
  if (v, u) ∈ st.edges then st
  else
    let js := sched st.tick (bsrPoppedOf v st)
    let st := { st with edges := st.edges ++ [(v, u)], tick := st.tick + 1 }
    js.foldl (fun st j => bsrResume sg maxElems v u j st) st

/-- `bsrParser.pop` (/repo/bsr.go:116-128). -/
def bsrPop (u : GNode) (j : Nat) (st : BsrSt) : BsrSt :=
  match u with
  | none => st
  | some v =>
    let st := if (v, j) ∈ st.popped then st else { st with popped := (v, j) :: st.popped }
    (bsrEdgesOf v st).foldl (fun st u => bsrResume sg maxElems v u j st) st

/-- The loop of `bsrParser.process` (/repo/bsr.go:213-249) on the symbols that remain after the dot of `L`. -/
def bsrProcessFrom (u : GNode) (rc : Nat) : List Sym → Slot → Nat → BsrSt → BsrSt
  | [], _, i, st => bsrPop sg maxElems u i st
  | .nt s :: _, L, i, st =>
    let st := bsrCreate sg maxElems sched L.next u i rc st
    let c := childRC sg L.nt rc s
    (startAlts sg s c).foldl (fun st alt => bsrAdd ⟨⟨s, alt, 0⟩, some ⟨L.next, i, rc⟩, i, c⟩ st) st
  | s :: rest, L, i, st =>
    match matchSym inp s i with
    | none => st
    | some j => bsrProcessFrom u rc rest L.next j (bsrRecord sg maxElems L.next (posOf u) i j st)

/-- `bsrParser.process` (/repo/bsr.go:213-249). -/
def bsrProcess (d : BDesc) (st : BsrSt) : BsrSt :=
  bsrProcessFrom sg inp maxElems sched d.u d.rc ((sg.prod d.L).drop d.L.dot) d.L d.i st

/-- The loop of `bsrParser.parse` (/repo/bsr.go:203-210); `none` is "out of fuel". -/
def bsrLoop : Nat → BsrSt → Option BsrSt
  | fuel, st =>
    match st.work with
    | [] => some st
    | d :: work =>
      if st.aborted then some st
      else
        match fuel with
        | 0 => none
        | fuel + 1 => bsrLoop fuel (bsrProcess sg inp maxElems sched d { st with work := work })

/-- The state in which the loop of `bsrParser.parse` starts (/repo/bsr.go:198-202). -/
def bsrInit : BsrSt :=
  (List.range (sg.alts sg.start).length).foldl
    (fun st alt => bsrAdd ⟨⟨sg.start, alt, 0⟩, none, 0, 0⟩ st) {}

end

/-- `BSRForest` (/repo/bsr.go:257-265); `index` is computed from `set` on demand. -/
structure BsrForest where
  sg : SG
  input : Bytes
  set : List BsrElem

/-- `ParseBSR` (/repo/bsr.go:557-589) with the values of its two options. -/
def parseBSR (sched : Sched Nat) (inp : Bytes) (g : Grammar) (root : Str) (maxElems maxSlots : Nat) :
    Except ParseErr BsrForest :=
  match compileSlots g root maxSlots with
  | .error e => .error e
  | .ok sg =>
    match bsrLoop sg inp maxElems sched (gllFuel sg inp.length) (bsrInit sg) with
    | none => .error .outOfFuel
    | some st => if st.aborted then .error (.forestTooLarge maxElems) else .ok ⟨sg, inp, st.set⟩

/-- `f.index[bsrKey{sl, l, r}]` (/repo/bsr.go:270-276), in the order of the list. -/
def BsrForest.pivots (f : BsrForest) (sl : Slot) (l r : Nat) : List Nat :=
  (f.set.filter fun e => e.slot = sl ∧ e.l = l ∧ e.r = r).map BsrElem.k

/-- The slot at the end of alternate `alt` of `nt`. -/
def SG.endSlot (sg : SG) (nt alt : Nat) : Slot := ⟨nt, alt, (sg.prod ⟨nt, alt, 0⟩).length⟩

/-- `BSRForest.Valid` (/repo/bsr.go:291-299). -/
def BsrForest.valid (f : BsrForest) : Bool :=
  (List.range (f.sg.alts f.sg.start).length).any fun ai =>
    (f.pivots (f.sg.endSlot f.sg.start ai) 0 f.input.length).length > 0

end Verif
