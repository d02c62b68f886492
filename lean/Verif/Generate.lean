import Verif.Regex
import Verif.Recog

/-!
# Random generation

Model of /repo/generate.go.  The pseudo-random source is a stream of non-negative 63-bit numbers, any stream; `int` is
64 bits wide and the few additions on bounds do not overflow.
-/

namespace Verif

/-- `genOpts` (/repo/generate.go:129-132) with the defaults of `Generate` (/repo/generate.go:30-33). -/
structure GenOpts where
  repMax : Int := 16
  threshold : Int := 256

/-- Where the source stands, and the output so far. -/
structure GenSt where
  pos : Nat := 0
  out : Bytes := []

/-- `appendPtr` (/repo/generate.go:110-114) for one rune. -/
def GenSt.emit (st : GenSt) (r : Nat) : GenSt := { st with out := st.out ++ encodeAll [runeChar r] }

/-- `generateKeepGoing` (/repo/generate.go:116-122). -/
def generateKeepGoing (i torep minrep lenout : Nat) (threshold : Int) : Bool :=
  if i = 0 ∧ minrep = 0 ∧ (lenout : Int) ≥ threshold then false else i < torep

/-- The loop of a repetition (/repo/generate.go:56-106); `k` rounds are left of `torep = i + k`. -/
def genLoop (step : GenSt → Run GenSt) (minrep : Nat) (threshold : Int) : Nat → Nat → GenSt → Run GenSt
  | 0, _, st => .ok st
  | k + 1, i, st =>
    if generateKeepGoing i (i + (k + 1)) minrep st.out.length threshold then
      (step st).bnd (genLoop step minrep threshold k (i + 1))
    else .ok st

/-- `torep` (/repo/generate.go:51-55); `none` is the panic of a division by zero.  `%` truncates towards zero. -/
def toRep (draw mn : Nat) (mx : Option Nat) (repMax : Int) : Option Nat :=
  let repmax : Int := match mx with | none => repMax | some m => m
  let d := repmax - mn + 1
  if d = 0 then none else some (mn + Int.tmod draw d).toNat

/-- The characters of a char-val (/repo/generate.go:96-103). -/
def genChars (rnd : Nat → Nat) (sensitive : Bool) : List Char → GenSt → GenSt
  | [], st => st
  | c :: cs, st =>
    if sensitive then genChars rnd sensitive cs (st.emit c.toNat)
    else
      let v := if rnd st.pos % 2 = 0 then upperChar c else c
      genChars rnd sensitive cs (GenSt.emit { st with pos := st.pos + 1 } v.toNat)

/-- The case `StatRange` (/repo/generate.go:73-83). -/
def genRange (rnd : Nat → Nat) (base : Str) (es : List Str) (st : GenSt) : GenSt :=
  let lo := numvalToRune (es.getD 0 []) base
  let hi := min (numvalToRune (es.getD 1 []) base) maxRune
  if lo ≤ maxRune ∧ lo ≤ hi then
    GenSt.emit { st with pos := st.pos + 1 } (lo + (rnd st.pos % 16) % (hi - lo + 1))
  else st

/-- The case `StatSeries` (/repo/generate.go:85-93). -/
def genSeries (base : Str) : List Str → GenSt → GenSt
  | [], st => st
  | s :: es, st =>
    let r := numvalToRune s base
    genSeries base es (if validRune r then st.emit r else st)

mutual
/-- The concatenation at an index (/repo/generate.go:47), generated; `rec` generates a rule. -/
def genPick (rnd : Nat → Nat) (o : GenOpts) (rec : Str → GenSt → Run GenSt) : List (List Rep) → Nat → GenSt → Run GenSt
  | [], _, _ => .panic
  | c :: _, 0, st => genReps rnd o rec c st
  | _ :: a, k + 1, st => genPick rnd o rec a k st
/-- The repetitions (/repo/generate.go:50-107). -/
def genReps (rnd : Nat → Nat) (o : GenOpts) (rec : Str → GenSt → Run GenSt) : List Rep → GenSt → Run GenSt
  | [], st => .ok st
  | ⟨mn, mx, e⟩ :: c, st =>
    match toRep (rnd st.pos) mn mx o.repMax with
    | none => .panic
    | some torep =>
      (genLoop (fun st => genElem rnd o rec e st) mn o.threshold torep 0 { st with pos := st.pos + 1 }).bnd
        fun st => genReps rnd o rec c st
/-- One round (/repo/generate.go:57-104). -/
def genElem (rnd : Nat → Nat) (o : GenOpts) (rec : Str → GenSt → Run GenSt) : Elem → GenSt → Run GenSt
  | .rulename n, st => rec n st
  | .option a, st =>
    if rnd st.pos % 2 = 0 then 
      genPick rnd o rec a (rnd (st.pos + 1) % a.length) { st with pos := st.pos + 2 }
    else .ok { st with pos := st.pos + 1 }
  | .group a, st => genPick rnd o rec a (rnd st.pos % a.length) { st with pos := st.pos + 1 }
  | .numVal base .range es, st => .ok (genRange rnd base es st)
  | .numVal base .series es, st => .ok (genSeries base es st)
  | .charVal sensitive vs, st => .ok (genChars rnd sensitive vs st)
  | .proseVal _, st => .ok st
end

/-- `generateAlt` (/repo/generate.go:45-108), written out in the cases of `genElem`.  No concatenation is a division by
zero, a panic. -/
def genAlt (rnd : Nat → Nat) (o : GenOpts) (rec : Str → GenSt → Run GenSt) (a : Alt) (st : GenSt) : Run GenSt :=
  genPick rnd o rec a (rnd st.pos % a.length) { st with pos := st.pos + 1 }

/-- The case `ElemRulename` (/repo/generate.go:58-60); `GetRule` returning nil makes the field access panic. -/
def genRule (rnd : Nat → Nat) (o : GenOpts) (g : Grammar) : Nat → Str → GenSt → Run GenSt
  | 0, _, _ => .fuel
  | k + 1, n, st =>
    match getRule n g.rules with
    | none => .panic
    | some r => genAlt rnd o (genRule rnd o g k) r.alt st

/-! ## The check before generating -/

/-- The end of `checkCanGenerateSafelyAlt` (/repo/generate.go:188-197): `errors.Join` of no errors is nil. -/
def joinErrs (errs : List Bool) : Bool := !errs.isEmpty && errs.all id

mutual
/-- The loop of `checkCanGenerateSafelyAlt` (/repo/generate.go:184-187): whether each concatenation has a non-nil
error.  All are checked, even after one succeeded.  What the errors say is not modelled: `checkCanGenerateSafely` turns
every one of them into an `ErrCyclicRule`. -/
def checkGenConcats (rec : List Str → Str → Run Bool) (known : List Str) : List (List Rep) → Run (List Bool)
  | [] => .ok []
  | c :: a => (checkGenConcat rec known c).bnd fun e => (checkGenConcats rec known a).bnd fun es => .ok (e :: es)
/-- `checkCanGenerateSafelyConcat` (/repo/generate.go:200-247). -/
def checkGenConcat (rec : List Str → Str → Run Bool) (known : List Str) : List Rep → Run Bool
  | [] => .ok false
  | ⟨mn, _, e⟩ :: c =>
    if mn = 0 then checkGenConcat rec known c
    else (checkGenElem rec known e).bnd fun err => if err then .ok true else checkGenConcat rec known c
/-- The switch on the element (/repo/generate.go:209-244); `rec` is the case `ElemRulename`. -/
def checkGenElem (rec : List Str → Str → Run Bool) (known : List Str) : Elem → Run Bool
  | .rulename n => rec known n
  | .group a => (checkGenConcats rec known a).bnd fun errs => .ok (joinErrs errs)
  | .proseVal _ => .ok true
  | _ => .ok false
end

/-- `checkCanGenerateSafelyAlt` (/repo/generate.go:183-198). -/
def checkGenAlt (rec : List Str → Str → Run Bool) (known : List Str) (a : Alt) : Run Bool :=
  (checkGenConcats rec known a).bnd fun errs => .ok (joinErrs errs)

/-- The case `ElemRulename` of `checkCanGenerateSafelyConcat` (/repo/generate.go:210-231).  The set of known rules is
only searched, so a list models the map; `GetRule` returning nil makes the field access panic. -/
def checkGenRule (g : Grammar) : Nat → List Str → Str → Run Bool
  | 0, _, _ => .fuel
  | k + 1, known, n =>
    if known.any fun x => equalFold n x then .ok true
    else
      match getRule n g.rules with
      | none => .panic
      | some r => checkGenAlt (checkGenRule g k) (n :: known) r.alt

/-- Errors of `Generate`. -/
inductive GenErr where
  | ruleNotFound
  | cyclicRule
  deriving DecidableEq

/-- `checkCanGenerateSafely` (/repo/generate.go:162-181); `none` is a nil error. -/
def checkCanGenerateSafely (g : Grammar) (name : Str) : Run (Option GenErr) :=
  match getRule name g.rules with
  | none => .ok (some .ruleNotFound)
  | some r => (checkGenAlt (checkGenRule g (g.rules.length + Core.rules.length + 1)) [name] r.alt).bnd fun err =>
      .ok (if err then some .cyclicRule else none)

/-- `Generate` (/repo/generate.go:21-43). -/
def generate (rnd : Nat → Nat) (o : GenOpts) (g : Grammar) (fuel : Nat) (name : Str) : Run (Except GenErr Bytes) :=
  (checkCanGenerateSafely g name).bnd fun err =>
    match err with
    | some e => .ok (.error e)
    | none =>
      match getRule name g.rules with
      | none => .panic
      | some r => (genAlt rnd o (genRule rnd o g fuel) r.alt {}).bnd fun st => .ok (.ok st.out)

end Verif
