import Verif.Tg
import Verif.Ast

/-!
# Walks over transition graphs

Model of /repo/fuzz.go:111-372 and of `nodeEmit` in /repo/transition_graph.go.  A node is `none` for `emptyNode`; the
number of a node stands for its identifier.
-/

namespace Verif

/-- The loop writing a case-insensitive string (/repo/transition_graph.go:890-912); `bit` counts the letters.  A shift
by more than 31 gives 0. -/
def caseText (tpos : Nat) : List Char → Nat → List Char
  | [], _ => []
  | c :: cs, bit =>
    if isLetter c then (if (tpos >>> bit) % 2 = 1 then upperChar c else lowerChar c) :: caseText tpos cs (bit + 1)
    else c :: caseText tpos cs bit

/-- The letters of a string (/repo/transition_graph.go:876-881). -/
def letterCount (vs : List Char) : Nat := (vs.filter isLetter).length

/-- `nodeEmit` (/repo/transition_graph.go:864-938): the bytes of variation `tpos` and the number of variations. -/
def nodeEmit : Elem → Nat → Bytes × Nat
  | .charVal true vs, _ => (encodeAll vs, 1)
  | .charVal false vs, tpos => (encodeAll (caseText tpos vs 0), 2 ^ min (letterCount vs) 30)
  | .numVal base .series es, _ => (encodeAll (es.map fun s => runeChar (numvalToRune s base)), 1)
  | .numVal base .range es, tpos =>
    let lo := numvalToRune (es.getD 0 []) base
    let hi := min (numvalToRune (es.getD 1 []) base) maxRune
    if lo > maxRune ∨ lo > hi then ([], 1) else (encodeAll [runeChar (lo + tpos)], hi - lo + 1)
  | _, _ => ([], 1)

/-- `producing` (/repo/transition_graph.go:364-374) on a node that is not `emptyNode`. -/
def producing : Elem → Bool
  | .charVal _ _ => true
  | .numVal _ _ _ => true
  | _ => false

/-- The options of a generator (/repo/fuzz.go:115-119) with the defaults of `NewGenerator` (/repo/fuzz.go:183-188). -/
structure FuzzOpts where
  maxLength : Int := 4096
  maxReps : Int := 32
  maxSteps : Int := 100000
  stable : Bool := false

/-- `Generator` (/repo/fuzz.go:112-128): `dist` is `distToEnd` where `canReach` is true; `endSet` is membership in the
end points. -/
structure FuzzGen where
  frag : TgFrag
  heap : TgHeap
  opts : FuzzOpts
  dist : Option Nat → Option Nat
  entries : Pts

/-- The loop collecting the nodes (/repo/fuzz.go:203-221): `rev` holds pairs of a node and one before it, in the order
of `revAdj`.  The head of the stack is the end of the Go slice.  The error carries the element of the first node that
produces nothing. -/
def fuzzCollect (h : TgHeap) : Nat → List Nat → List Nat → List (Nat × Nat) → Run (Except Elem (List (Nat × Nat)))
  | 0, _, _, _ => .fuel
  | _ + 1, [], _, rev => .ok (.ok rev)
  | k + 1, n :: stack, seen, rev =>
    if n ∈ seen then fuzzCollect h k stack seen rev
    else if producing (h.elem n) = false then .ok (.error (h.elem n))
    else fuzzCollect h k ((h.nexts n).reverse ++ stack) (n :: seen) (rev ++ (h.nexts n).map fun m => (m, n))

/-- The loop over the end points (/repo/fuzz.go:228-236). -/
def fuzzEnds : Pts → List (Option Nat) → (Option Nat → Option Nat) → List (Option Nat) × (Option Nat → Option Nat)
  | [], q, d => (q, d)
  | e :: es, q, d =>
    if (d e).isSome then fuzzEnds es q d else fuzzEnds es (q ++ [e]) (fun x => if x = e then some 0 else d x)

/-- The loop over the nodes before one (/repo/fuzz.go:240-248), `v` being the distance of that one. -/
def fuzzPreds (v : Nat) : List Nat → List (Option Nat) → (Option Nat → Option Nat) →
    List (Option Nat) × (Option Nat → Option Nat)
  | [], q, d => (q, d)
  | p :: ps, q, d =>
    if (d (some p)).isSome then fuzzPreds v ps q d
    else fuzzPreds v ps (q ++ [some p]) (fun x => if x = some p then some (v + 1) else d x)

/-- `revAdj[id]` (/repo/fuzz.go:195). -/
def revOf (rev : List (Nat × Nat)) (x : Option Nat) : List Nat := (rev.filter fun p => some p.1 = x).map Prod.snd

/-- The backward search (/repo/fuzz.go:237-249). -/
def fuzzBfs (rev : List (Nat × Nat)) : Nat → List (Option Nat) → (Option Nat → Option Nat) → Run (Option Nat → Option Nat)
  | 0, _, _ => .fuel
  | _ + 1, [], d => .ok d
  | k + 1, x :: q, d =>
    fuzzBfs rev k (fuzzPreds ((d x).getD 0) (revOf rev x) q d).1 (fuzzPreds ((d x).getD 0) (revOf rev x) q d).2

/-- `NewGenerator` (/repo/fuzz.go:182-257). -/
def newGenerator (o : FuzzOpts) (f : TgFrag) (h : TgHeap) : Run (Except Elem FuzzGen) :=
  (fuzzCollect h (f.ins.length + h.edges + 1) ((f.ins.filterMap id).reverse) [] []).bnd fun r =>
    match r with
    | .error e => .ok (.error e)
    | .ok rev =>
      (fuzzBfs rev (f.outs.length + rev.length + 1) (fuzzEnds f.outs [] fun _ => none).1
          (fuzzEnds f.outs [] fun _ => none).2).bnd fun d =>
        .ok (.ok { frag := f, heap := h, opts := o, dist := d, entries := f.ins.filter fun e => (d e).isSome })

/-! ## Walking -/

/-- `traceSeg` (/repo/fuzz.go:275-278). -/
structure TraceSeg where
  off : Nat
  len : Nat
  elem : Elem

/-- The variables of `walk` (/repo/fuzz.go:281-288): `visits` counts the passages of an edge. -/
structure WalkSt (σ : Type) where
  src : σ
  out : Bytes := []
  visits : Nat × Nat → Nat := fun _ => 0
  steps : Nat := 0
  trace : List TraceSeg := []

/-- Writing a node (/repo/fuzz.go:290-304).  The number of variations is never below 1. -/
def emitNode {σ : Type} (S : Source σ) (e : Elem) (st : WalkSt σ) : WalkSt σ :=
  if producing e then
    let vt := (nodeEmit e 0).2
    let d := if vt > 1 then S.intn st.src vt else (0, st.src)
    let b := (nodeEmit e d.1).1
    { st with src := d.2, out := st.out ++ b,
              trace := if b.length > 0 then st.trace ++ [⟨st.out.length, b.length, e⟩] else st.trace }
  else st

/-- `nearestToEnd` (/repo/fuzz.go:363-372) on `best :: cands`. -/
def nearestToEnd (d : Option Nat → Option Nat) : Nat → List Nat → Nat
  | best, [] => best
  | best, c :: cs => nearestToEnd d (if (d (some c)).getD 0 < (d (some best)).getD 0 then c else best) cs

/-- `liveAll` (/repo/fuzz.go:319-324). -/
def FuzzGen.liveAll (G : FuzzGen) (n : Nat) : List Nat := (G.heap.nexts n).filter fun m => (G.dist (some m)).isSome

/-- `liveCapped` (/repo/fuzz.go:325-327). -/
def FuzzGen.liveCapped (G : FuzzGen) (visits : Nat × Nat → Nat) (n : Nat) : List Nat :=
  (G.liveAll n).filter fun m => (visits (n, m) : Int) < G.opts.maxReps

/-- The step to the next node (/repo/fuzz.go:353-355). -/
def WalkSt.go {σ : Type} (st : WalkSt σ) (n m : Nat) (src : σ) : WalkSt σ :=
  { st with src := src, visits := fun p => if p = (n, m) then st.visits p + 1 else st.visits p, steps := st.steps + 1 }

/-- The loop of `walk` (/repo/fuzz.go:289-356). -/
def walkLoop {σ : Type} (S : Source σ) (G : FuzzGen) : Nat → Option Nat → WalkSt σ → Run (WalkSt σ)
  | 0, _, _ => .fuel
  | _ + 1, none, st => .ok st
  | k + 1, some n, st =>
    let st := emitNode S (G.heap.elem n) st
    match G.liveAll n with
    | [] => .ok st
    | best :: cands =>
      let capped := G.liveCapped st.visits n
      let terminating := (st.out.length : Int) ≥ G.opts.maxLength ∨ (st.steps : Int) ≥ G.opts.maxSteps ∨ capped = []
      if some n ∈ G.frag.outs then
        if terminating then .ok st
        else
          let d := S.intn st.src (capped.length + 1)
          if d.1 = 0 then .ok { st with src := d.2 }
          else
            match capped[d.1 - 1]? with
            | none => .panic
            | some m => walkLoop S G k (some m) (st.go n m d.2)
      else if terminating then
        let m := nearestToEnd G.dist best cands
        walkLoop S G k (some m) (st.go n m st.src)
      else
        let d := S.intn st.src capped.length
        match capped[d.1]? with
        | none => .panic
        | some m => walkLoop S G k (some m) (st.go n m d.2)

/-- The largest distance of a node. -/
def FuzzGen.farthest (G : FuzzGen) : Nat := ((List.range G.heap.size).map fun n => (G.dist (some n)).getD 0).foldr max 0

/-- `walk` (/repo/fuzz.go:280-358). -/
def fuzzWalk {σ : Type} (S : Source σ) (G : FuzzGen) (s : σ) : Run (WalkSt σ) :=
  if G.entries = [] then .ok { src := s }
  else
    let d := S.intn s G.entries.length
    match G.entries[d.1]? with
    | none => .panic
    | some e => walkLoop S G (G.opts.maxSteps.toNat + G.farthest + 2) e { src := d.2 }

/-- `Generator.Generate` (/repo/fuzz.go:262-267). -/
def fuzzGenerate (G : FuzzGen) (tape : Bytes) : Run Bytes :=
  if G.opts.stable then (fuzzWalk indexedSource G ⟨tape, 0⟩).bnd fun st => .ok st.out
  else (fuzzWalk tapeSource G ⟨tape, 0⟩).bnd fun st => .ok st.out

/-- `GenerateRand` (/repo/fuzz.go:270-272). -/
def fuzzGenerateRand (G : FuzzGen) (rnd : Nat → Nat) : Run Bytes := (fuzzWalk (randSource rnd) G 0).bnd fun st => .ok st.out

end Verif
