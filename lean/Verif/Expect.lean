import Verif.Fuzz

/-!
# Expected octets

Model of /repo/fuzz.go:533-775.
-/

namespace Verif

/-- `octetSet` (/repo/fuzz.go:534): four words of 64 bits. -/
abbrev OctetSet := Nat → Nat

/-- The empty set: all words are zero. -/
def octetNone : OctetSet := fun _ => 0

/-- `add` (/repo/fuzz.go:536-538). -/
def octetAdd (s : OctetSet) (b : UInt8) : OctetSet :=
  fun i => if i = b.toNat >>> 6 then s i ||| 1 <<< (b.toNat &&& 63) else s i

/-- `has` (/repo/fuzz.go:540-542). -/
def octetHas (s : OctetSet) (b : UInt8) : Bool := decide (s (b.toNat >>> 6) &&& (1 <<< (b.toNat &&& 63)) ≠ 0)

/-- `union` (/repo/fuzz.go:544-546). -/
def octetUnion (s t : OctetSet) : OctetSet := fun i => s i ||| t i

/-- `bytes` (/repo/fuzz.go:548-556). -/
def octetBytes (s : OctetSet) : Bytes := ((List.range 256).map UInt8.ofNat).filter (octetHas s)

/-- `emission` (/repo/fuzz.go:561-563). -/
abbrev Emission := List OctetSet

/-- One set per byte of a character (/repo/fuzz.go:603-607 and 622-626). -/
def runeSets (c : Char) : Emission := (encodeRune c).map (octetAdd octetNone)

/-- The loop over a literal (/repo/fuzz.go:588-609). -/
def charSets (sensitive : Bool) : List Char → Emission
  | [] => []
  | c :: cs =>
    if !sensitive && isLetter c then
      octetAdd (octetAdd octetNone (UInt8.ofNat (lowerChar c).toNat)) (UInt8.ofNat (upperChar c).toNat) :: charSets sensitive cs
    else runeSets c ++ charSets sensitive cs

/-- The loop over a series (/repo/fuzz.go:615-628). -/
def seriesSets (base : Str) : List Str → Option Emission
  | [] => some []
  | s :: ss =>
    if validRune (numvalToRune s base) then (seriesSets base ss).map (runeSets (runeChar (numvalToRune s base)) ++ ·) else none

/-- The loop over an ASCII range (/repo/fuzz.go:642-645), for the values from `b` on. -/
def asciiSet : Nat → Nat → OctetSet → OctetSet
  | 0, _, s => s
  | k + 1, b, s => asciiSet k (b + 1) (octetAdd s (UInt8.ofNat b))

/-- `e.pos[j].add(b)` for all bytes of a rune (/repo/fuzz.go:659-661). -/
def addBytes : Emission → Bytes → Emission
  | s :: ss, b :: bs => octetAdd s b :: addBytes ss bs
  | ss, _ => ss

/-- One round of the loop over a range (/repo/fuzz.go:653-661); the map is a list of pairs of a length and an emission. -/
def addRune (bs : Bytes) : List (Nat × Emission) → List (Nat × Emission)
  | [] => [(bs.length, addBytes (bs.map fun _ => octetNone) bs)]
  | (l, e) :: m => if l = bs.length then (l, addBytes e bs) :: m else (l, e) :: addRune bs m

/-- The loop over a range (/repo/fuzz.go:651-662), for `k` runes from `r` on. -/
def rangeSets : Nat → Nat → List (Nat × Emission) → List (Nat × Emission)
  | 0, _, m => m
  | k + 1, r, m => rangeSets k (r + 1) (addRune (encodeRune (runeChar r)) m)

/-- `expectedNextRangeCap` (/repo/fuzz.go:568). -/
def rangeCap : Nat := 65536

/-- `nodeEmissions` (/repo/fuzz.go:585-671); the map is visited in the order `ord`. -/
def nodeEmissions (ord : List Emission → List Emission) : Elem → Option (List Emission)
  | .charVal sensitive vs => some [charSets sensitive vs]
  | .numVal base .series es => (seriesSets base es).map fun e => [e]
  | .numVal base .range es =>
    let lo := numvalToRune (es.getD 0 []) base
    let hi := min (numvalToRune (es.getD 1 []) base) maxRune
    if lo > maxRune ∨ lo > hi then none
    else if hi ≤ 0x7f then some [[asciiSet (hi + 1 - lo) lo octetNone]]
    else if hi - lo + 1 > rangeCap then none
    else some (ord ((rangeSets (hi + 1 - lo) lo []).map Prod.snd))
  | _ => none

/-- `state` (/repo/fuzz.go:679-682). -/
structure ExpState where
  node : Nat
  em : Nat
  pos : Nat
  deriving DecidableEq

/-- `push` and `push2` (/repo/fuzz.go:685-690 and 717-722). -/
def expPush (s : ExpState) (l : List ExpState) : List ExpState := if s ∈ l then l else l ++ [s]

/-- The loops over the emissions of a node (/repo/fuzz.go:696-700 and 742-746); `i` is the index of the first one. -/
def expStart (n : Nat) : Nat → List Emission → List ExpState → List ExpState
  | _, [], l => l
  | i, e :: es, l => expStart n (i + 1) es (if e.length > 0 then expPush ⟨n, i, 0⟩ l else l)

/-- `emissions` (/repo/fuzz.go:570-583).  The cache keeps the order in which the map of a node was visited first. -/
def emissionsOf (h : TgHeap) (ord : Nat → List Emission → List Emission) (n : Nat) : Option (List Emission) :=
  nodeEmissions (ord n) (h.elem n)

/-- The loops over nodes (/repo/fuzz.go:703-710 and 734-747); `none` is the early return. -/
def expStartAll (ems : Nat → Option (List Emission)) : List Nat → List ExpState → Option (List ExpState)
  | [], l => some l
  | n :: ns, l =>
    match ems n with
    | none => none
    | some es => expStartAll ems ns (expStart n 0 es l)

/-- The set at a state (/repo/fuzz.go:725-727). -/
def setAt (ems : Nat → Option (List Emission)) (s : ExpState) : OctetSet :=
  ((((ems s.node).getD []).getD s.em []).getD s.pos octetNone)

/-- `len(em.pos)` (/repo/fuzz.go:730). -/
def lenAt (ems : Nat → Option (List Emission)) (s : ExpState) : Nat := (((ems s.node).getD []).getD s.em []).length

/-- The loop over the states for one octet (/repo/fuzz.go:724-751): the new states and `lastCompletedEndpoint`. -/
def expStep (h : TgHeap) (f : TgFrag) (ems : Nat → Option (List Emission)) (b : UInt8) :
    List ExpState → List ExpState → Bool → Option (List ExpState × Bool)
  | [], l, last => some (l, last)
  | s :: ss, l, last =>
    if octetHas (setAt ems s) b then
      if s.pos + 1 = lenAt ems s then
        match expStartAll ems (h.nexts s.node) l with
        | none => none
        | some l' => expStep h f ems b ss l' (last || decide (some s.node ∈ f.outs))
      else expStep h f ems b ss (expPush ⟨s.node, s.em, s.pos + 1⟩ l) last
    else expStep h f ems b ss l last

/-- The loop over the prefix (/repo/fuzz.go:712-759).  The results: `ready`, `lastCompletedEndpoint` and
`consumedAll`. -/
def expLoop (h : TgHeap) (f : TgFrag) (ems : Nat → Option (List Emission)) :
    Bytes → List ExpState → Bool → Option (List ExpState × Bool × Bool)
  | [], ready, last => some (ready, last, true)
  | b :: bs, ready, _ =>
    match expStep h f ems b ready [] false with
    | none => none
    | some ([], last) => some ([], last, bs.isEmpty)
    | some (r :: rs, last) => expLoop h f ems bs (r :: rs) last

/-- `ExpectedNext` (/repo/fuzz.go:678-775): `next` and `accepts`; `none` if not `ok`. -/
def expectedNext (G : FuzzGen) (ord : Nat → List Emission → List Emission) (pre : Bytes) : Option (Bytes × Bool) :=
  let ems := emissionsOf G.heap ord
  match expStartAll ems (G.frag.ins.filterMap id) [] with
  | none => none
  | some ready =>
    match expLoop G.heap G.frag ems pre ready false with
    | none => none
    | some (ready, last, all) =>
      if !all then some ([], false)
      else
        some (octetBytes (ready.foldl (fun acc s => octetUnion acc (setAt ems s)) octetNone),
          if pre.isEmpty then decide (none ∈ G.frag.outs) else last)

end Verif
