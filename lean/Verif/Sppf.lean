import Verif.GLL

/-!
# The SPPF engine

Model of `gllParser` and `ParseForest` (/repo/sppf.go:233-692).  Pointers to interned objects are represented by
the keys they are interned under: an SPPF node by its `nodeKey`, a GSS node by its `gssKey`.  Maps and sets are
lists without duplicates in insertion order; where the code ranges over a map, the order is chosen by an
arbitrary schedule.  The work list grows and shrinks at its head.
-/

namespace Verif

/-- `nodeKey` (/repo/sppf.go:321-329). -/
inductive NodeKey where
  | sym (nt s e : Nat)
  | inter (L : Slot) (s e : Nat)
  | term (s e : Nat)
  deriving DecidableEq

/-- Field `Start` of `gnode` (/repo/sppf.go:248, 391). -/
def NodeKey.start : NodeKey → Nat
  | .sym _ s _ => s
  | .inter _ s _ => s
  | .term s _ => s

/-- Field `End` of `gnode` (/repo/sppf.go:248, 391). -/
def NodeKey.fin : NodeKey → Nat
  | .sym _ _ e => e
  | .inter _ _ e => e
  | .term _ e => e

/-- `gssEdge` (/repo/sppf.go:285-288). -/
structure GEdge where
  w : Option NodeKey
  dst : GNode
  deriving DecidableEq

/-- `descriptor` (/repo/sppf.go:290-296). -/
structure Desc where
  L : Slot
  u : GNode
  i : Nat
  w : Option NodeKey
  rc : Nat
  deriving DecidableEq

/-- A pack: a node and one list of children (/repo/sppf.go:249). -/
abbrev Pack := NodeKey × List NodeKey

/-- The mutable part of `gllParser` (/repo/sppf.go:298-319).  `packs` holds the packs of all nodes, `edges` those
of all GSS nodes; `tick` counts map iterations, to give the schedule a fresh choice each time. -/
structure SppfSt where
  nodes : List NodeKey := []
  packs : List Pack := []
  edges : List (GKey × GEdge) := []
  popped : List (GKey × NodeKey) := []
  seen : List Desc := []
  work : List Desc := []
  aborted : Bool := false
  maxPos : Nat := 0
  expected : List Str := []
  tick : Nat := 0

/-- A choice of iteration order for each `range` over a map. -/
abbrev Sched (α : Type) := Nat → List α → List α

/-- A schedule only reorders. -/
def Sched.Fair {α : Type} (s : Sched α) : Prop := ∀ n l, (s n l).Perm l

section
variable (sg : SG) (inp : Bytes) (maxNodes : Nat) (sched : Sched NodeKey)

/-- `gllParser.add` (/repo/sppf.go:337-344). -/
def sppfAdd (d : Desc) (st : SppfSt) : SppfSt :=
  if d ∈ st.seen then st else { st with seen := d :: st.seen, work := d :: st.work }

/-- `gllParser.findNode` (/repo/sppf.go:384-394); the node is its key. -/
def findNode (k : NodeKey) (st : SppfSt) : SppfSt :=
  if k ∈ st.nodes then st
  else { st with
    nodes := k :: st.nodes
    aborted := st.aborted || decide (maxNodes > 0 ∧ st.nodes.length ≥ maxNodes) }

/-- `gnode.addPack` (/repo/sppf.go:252-269). -/
def addPack (p : Pack) (st : SppfSt) : SppfSt :=
  if p ∈ st.packs then st else { st with packs := st.packs ++ [p] }

/-- `gllParser.getNodeP` (/repo/sppf.go:401-424). -/
def getNodeP (L : Slot) (w : Option NodeKey) (z : NodeKey) (st : SppfSt) : NodeKey × SppfSt :=
  let betaEmpty := decide (L.dot = (sg.prod L).length)
  if L.dot = 1 ∧ betaEmpty = false then (z, st)
  else
    let start := match w with | some w => w.start | none => z.start
    let k := if betaEmpty then NodeKey.sym L.nt start z.fin else NodeKey.inter L start z.fin
    (k, addPack (k, match w with | some w => [w, z] | none => [z]) (findNode maxNodes k st))

/-- One round of the loops of `create` and `pop` (/repo/sppf.go:363-364, 379-380). -/
def resume (L : Slot) (u : GNode) (j : Nat) (w : Option NodeKey) (rc : Nat) (z : NodeKey) (st : SppfSt) : SppfSt :=
  let (y, st) := getNodeP sg maxNodes L w z st
  sppfAdd ⟨L, u, j, some y, rc⟩ st

/-- `p.popped[v]`. -/
def poppedOf (v : GKey) (st : SppfSt) : List NodeKey :=
  (st.popped.filter fun p => p.1 = v).map Prod.snd

/-- `u.edges`. -/
def edgesOf (v : GKey) (st : SppfSt) : List GEdge :=
  (st.edges.filter fun p => p.1 = v).map Prod.snd

/-- `gllParser.create` (/repo/sppf.go:356-368); the node created is `⟨L, i, rc⟩`. -/
def create (L : Slot) (u : GNode) (i : Nat) (w : Option NodeKey) (rc : Nat) (st : SppfSt) : SppfSt :=
  let v : GKey := ⟨L, i, rc⟩
  let e : GEdge := ⟨w, u⟩
  if (v, e) ∈ st.edges then st
  else
    let zs := sched st.tick (poppedOf v st)
    let st := { st with edges := st.edges ++ [(v, e)], tick := st.tick + 1 }
    zs.foldl (fun st z => resume sg maxNodes L u z.fin w rc z st) st

/-- `gllParser.pop` (/repo/sppf.go:370-382). -/
def gllPop (u : GNode) (i : Nat) (z : NodeKey) (st : SppfSt) : SppfSt :=
  match u with
  | none => st
  | some v =>
    let st := if (v, z) ∈ st.popped then st else { st with popped := (v, z) :: st.popped }
    (edgesOf v st).foldl (fun st e => resume sg maxNodes v.ret e.dst i e.w v.rc z st) st

/-- The text of a symbol in diagnostics (/repo/sppf.go:567-570). -/
def symDesc : Sym → Str
  | .term e => e.str
  | _ => ['?']

/-- `gllParser.noteFail` (/repo/sppf.go:558-578); `expectedSeen` is the set of members of `expected`. -/
def noteFail (i : Nat) (s : Sym) (st : SppfSt) : SppfSt :=
  let st := if i > st.maxPos then { st with maxPos := i, expected := [] } else st
  if i ≠ st.maxPos then st
  else if symDesc s ∈ st.expected then st
  else { st with expected := st.expected ++ [symDesc s] }

/-- The loop of `gllParser.process` (/repo/sppf.go:507-552) on the symbols that remain after the dot of `L`. -/
def processFrom (u : GNode) (rc : Nat) : List Sym → Slot → Nat → Option NodeKey → SppfSt → SppfSt
  | [], _, i, w, st =>
    match w with
    | some z => gllPop sg maxNodes u i z st
    | none => gllPop sg maxNodes u i (.term i i) (findNode maxNodes (.term i i) st)
  | .nt s :: _, L, i, w, st =>
    let st := create sg maxNodes sched L.next u i w rc st
    let c := childRC sg L.nt rc s
    (startAlts sg s c).foldl (fun st alt => sppfAdd ⟨⟨s, alt, 0⟩, some ⟨L.next, i, rc⟩, i, none, c⟩ st) st
  | s :: rest, L, i, w, st =>
    match matchSym inp s i with
    | none => noteFail i s st
    | some j =>
      let st := findNode maxNodes (.term i j) st
      let (y, st) := getNodeP sg maxNodes L.next w (.term i j) st
      processFrom u rc rest L.next j (some y) st

/-- `gllParser.process` (/repo/sppf.go:507-552). -/
def process (d : Desc) (st : SppfSt) : SppfSt :=
  processFrom sg inp maxNodes sched d.u d.rc ((sg.prod d.L).drop d.L.dot) d.L d.i d.w st

/-- The loop of `gllParser.parse` (/repo/sppf.go:495-502); `none` is "out of fuel", which `sppf_terminates`
excludes. -/
def sppfLoop : Nat → SppfSt → Option SppfSt
  | fuel, st =>
    match st.work with
    | [] => some st
    | d :: work =>
      if st.aborted then some st
      else
        match fuel with
        | 0 => none
        | fuel + 1 => sppfLoop fuel (process sg inp maxNodes sched d { st with work := work })

/-- The state in which the loop of `gllParser.parse` starts (/repo/sppf.go:490-494). -/
def sppfInit : SppfSt :=
  (List.range (sg.alts sg.start).length).foldl
    (fun st alt => sppfAdd ⟨⟨sg.start, alt, 0⟩, none, 0, none, 0⟩ st) {}

end

/-- Number of slots of the slot grammar. -/
def slotCount (sg : SG) : Nat :=
  (sg.nts.map fun n => (n.alts.map fun p => p.length + 1).sum).sum

/-- Largest count a repetition can reach. -/
def maxCount (sg : SG) : Nat :=
  (sg.nts.map fun n => match n.repMax with | none => n.repMin | some m => m).foldl max 0

/-- An upper bound on the number of rounds of the loop, polynomial in the length of the input, the number of
slots and the largest count: see `sppf_terminates`. -/
def gllFuel (sg : SG) (n : Nat) : Nat :=
  slotCount sg * (1 + slotCount sg * (n + 1) * (maxCount sg + 1)) * (n + 1)

/-- `Forest` (/repo/sppf.go:615-626). -/
structure Forest where
  sg : SG
  input : Bytes
  root : Option NodeKey
  st : SppfSt

/-- `ParseForest` (/repo/sppf.go:668-691) with the values of its two options. -/
def parseForest (sched : Sched NodeKey) (inp : Bytes) (g : Grammar) (root : Str) (maxNodes maxSlots : Nat) :
    Except ParseErr Forest :=
  match compileSlots g root maxSlots with
  | .error e => .error e
  | .ok sg =>
    match sppfLoop sg inp maxNodes sched (gllFuel sg inp.length) (sppfInit sg) with
    | none => .error .outOfFuel
    | some st =>
      if st.aborted then .error (.forestTooLarge maxNodes)
      else
        let k := NodeKey.sym sg.start 0 inp.length
        .ok ⟨sg, inp, if k ∈ st.nodes then some k else none, st⟩

/-- `Forest.Valid` (/repo/sppf.go:694). -/
def Forest.valid (f : Forest) : Bool := f.root.isSome

end Verif
