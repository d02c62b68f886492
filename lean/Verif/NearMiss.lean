import Verif.Fuzz
import Verif.Recog

/-!
# `NearMiss`

Model of /repo/fuzz.go:390-519.  The wording of labels is not modelled; a label is what is printed into it.
-/

namespace Verif

/-- The five formats of labels (/repo/fuzz.go:453, 467, 477, 483 and 490) with their arguments. -/
inductive Miss where
  | range (off : Nat) (above : Bool) (elem : Elem)
  | subst (off : Nat) (b : UInt8)
  | truncated (n len : Nat)
  | trailing (b : UInt8)
  | deleted (off : Nat)

/-- `candidate` (/repo/fuzz.go:415-418); its bytes are never nil. -/
abbrev Candidate := Bytes × Miss

/-- `base` with a segment replaced by a rune (/repo/fuzz.go:450-452). -/
def splice (base : Bytes) (s : TraceSeg) (r : Nat) : Bytes :=
  base.take s.off ++ encodeRune (runeChar r) ++ base.drop (s.off + s.len)

/-- Boundary violations (/repo/fuzz.go:435-455) with `numvalRange` (/repo/fuzz.go:507-519) for one segment. -/
def rangeMisses (base : Bytes) (s : TraceSeg) : List Candidate :=
  match s.elem with
  | .numVal b .range es =>
    let lo := numvalToRune (es.getD 0 []) b
    let hi := min (numvalToRune (es.getD 1 []) b) maxRune
    (if 1 ≤ lo ∧ lo - 1 ≤ maxRune then [(splice base s (lo - 1), .range s.off false s.elem)] else []) ++
    (if hi + 1 ≤ maxRune then [(splice base s (hi + 1), .range s.off true s.elem)] else [])
  | _ => []

/-- Substitutions (/repo/fuzz.go:459-469). -/
def substMisses {σ : Type} (S : Source σ) (src : σ) (base : Bytes) : Run (List Candidate × σ) :=
  if base.length > 0 then
    let d := S.intn src base.length
    match base[d.1]? with
    | none => .panic
    | some b => .ok ((([0x00, 0xFF, b ^^^ 0x20, b + 1, 0x21] : Bytes).filter (· ≠ b)).map fun nb => (base.set d.1 nb, .subst d.1 nb), d.2)
  else .ok ([], src)

/-- Truncations (/repo/fuzz.go:473-478).  The last number is -1 for the empty text, here 0; both are skipped. -/
def truncMisses (base : Bytes) : List Candidate :=
  ([1, 2, base.length / 2, base.length - 1].filter fun n => ¬ (n = 0 ∨ n > base.length)).map fun n =>
    (base.take (base.length - n), .truncated n (base.length - n))

/-- Trailing bytes (/repo/fuzz.go:481-484). -/
def trailMisses (base : Bytes) : List Candidate := ([0x00, 0x21, 0xFF, 0x41] : Bytes).map fun nb => (base ++ [nb], .trailing nb)

/-- Deletion (/repo/fuzz.go:487-491). -/
def deleteMisses {σ : Type} (S : Source σ) (src : σ) (base : Bytes) : Run (List Candidate × σ) :=
  if base.length ≥ 2 then
    let d := S.intn src base.length
    if d.1 < base.length then .ok ([(base.take d.1 ++ base.drop (d.1 + 1), .deleted d.1)], d.2) else .panic
  else .ok ([], src)

/-- `nearMissCandidates` (/repo/fuzz.go:430-499). -/
def nearMissCandidates {σ : Type} (S : Source σ) (src : σ) (base : Bytes) (trace : List TraceSeg) : Run (List Candidate) :=
  (substMisses S src base).bnd fun a =>
    (deleteMisses S a.2 base).bnd fun b =>
      let cs := trace.flatMap (rangeMisses base) ++ a.1 ++ truncMisses base ++ trailMisses base ++ b.1
      if cs.length > 1 then
        let k := (S.intn b.2 cs.length).1
        if k ≤ cs.length then .ok (cs.drop k ++ cs.take k) else .panic
      else .ok cs

/-- The loop of `NearMiss` (/repo/fuzz.go:395-403); `check i` is the call of `IsValid` for candidate `i`. -/
def nearMissLoop (check : Nat → Bytes → Option (Run Bool)) (base : Bytes) : Nat → List Candidate → Run (Option Candidate)
  | _, [] => .ok none
  | i, c :: cs =>
    if c.1 = base then nearMissLoop check base (i + 1) cs
    else
      match check i c.1 with
      | some (.ok false) => .ok (some c)
      | some .panic => .panic
      | some .fuel => .fuel
      | _ => nearMissLoop check base (i + 1) cs

/-- `NearMiss` (/repo/fuzz.go:390-405); `o i` and `sched i` are the iteration orders in the call of `IsValid` for
candidate `i`. -/
def nearMiss (o : Nat → LOrders) (sched : Nat → Sched Nat) (g : Grammar) (name : Str) (G : FuzzGen) (tape : Bytes) : Run (Option Candidate) :=
  (fuzzWalk tapeSource G ⟨tape, 0⟩).bnd fun st =>
    (nearMissCandidates tapeSource st.src st.out st.trace).bnd fun cs =>
      nearMissLoop (fun i c => isValid (o i) (sched i) g name c) st.out 0 cs

/-- `NearMissRand` (/repo/fuzz.go:408-413); `rnd` are the bytes the generator gives. -/
def nearMissRand (o : Nat → LOrders) (sched : Nat → Sched Nat) (g : Grammar) (name : Str) (G : FuzzGen) (rnd : Nat → UInt8) :
    Run (Option Candidate) :=
  nearMiss o sched g name G ((List.range 64).map rnd)

end Verif
