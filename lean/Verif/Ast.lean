import Verif.Generate
import Verif.Entropy
import Verif.Sppf

/-!
# Generation over the AST

Model of /repo/ast.go.  Costs are computed as in the code, multiplication on 64 bits included; the map of rules is
visited in an order chosen anew for each round.
-/

namespace Verif

/-- `astUnbounded` (/repo/ast.go:23). -/
def astUnbounded : Nat := 2 ^ 30

/-- `addClamp` (/repo/ast.go:359-367); the sum of two numbers below 2^30 does not overflow. -/
def addClamp (a b : Nat) : Nat :=
  if a ≥ astUnbounded ∨ b ≥ astUnbounded then astUnbounded
  else if a + b < astUnbounded then a + b else astUnbounded

/-- `mulClamp` (/repo/ast.go:369-380). -/
def mulClamp (n c : Nat) : Nat :=
  if n = 0 then 0
  else if c ≥ astUnbounded then astUnbounded
  else
    let p := wrap64 (n * c)
    if 0 ≤ p ∧ p < astUnbounded then p.toNat else astUnbounded

/-- `minCost` (/repo/ast.go:35): rule name to cost. -/
abbrev CostMap := Str → Option Nat

/-- The bytes of `string(r)` for the rune of a num-val (/repo/ast.go:347, 351). -/
def runeLen (s base : Str) : Nat := (encodeAll [runeChar (numvalToRune s base)]).length

mutual
/-- The loop of `costAlt` (/repo/ast.go:304-309). -/
def costAlts (rs : List Rule) (m : CostMap) (best : Nat) : List (List Rep) → Nat
  | [] => best
  | c :: a => costAlts rs m (if costReps rs m 0 c < best then costReps rs m 0 c else best) a
/-- The loop of `costConcat` (/repo/ast.go:314-317). -/
def costReps (rs : List Rule) (m : CostMap) (total : Nat) : List Rep → Nat
  | [] => total
  | ⟨mn, _, e⟩ :: c => costReps rs m (addClamp total (mulClamp mn (costElem rs m e))) c
/-- `costElem` (/repo/ast.go:321-357); the case `ElemGroup` has `costAlt` written out.  A range has two numerals. -/
def costElem (rs : List Rule) (m : CostMap) : Elem → Nat
  | .rulename n =>
    match getRule n rs with
    | none => astUnbounded
    | some r => match m r.name with
      | some c => addClamp 1 c
      | none => astUnbounded
  | .group a => if a.isEmpty then 0 else costAlts rs m astUnbounded a
  | .option _ => 0
  | .charVal _ vs => (encodeAll vs).length
  | .numVal base .series es => (es.map fun s => runeLen s base).sum
  | .numVal base .range es => runeLen (es.getD 0 []) base
  | .proseVal _ => 0
end

/-- `costConcat` (/repo/ast.go:313-319). -/
def costConcat (rs : List Rule) (m : CostMap) (c : Concat) : Nat := costReps rs m 0 c

/-- `costAlt` (/repo/ast.go:300-311). -/
def costAlt (rs : List Rule) (m : CostMap) (a : Alt) : Nat := if a.isEmpty then 0 else costAlts rs m astUnbounded a

/-- `effective[r.Name] = r` on a map kept as an association list. -/
def effSet (r : Rule) : List (Str × Rule) → List (Str × Rule)
  | [] => [(r.name, r)]
  | p :: m => if p.1 = r.name then (r.name, r) :: m else p :: effSet r m

/-- The two loops filling `effective` (/repo/ast.go:100-109). -/
def effAdd (rs : List Rule) (m : List (Str × Rule)) : List Str → List (Str × Rule)
  | [] => m
  | n :: ns =>
    match getRule n rs with
    | some r => effAdd rs (effSet r m) ns
    | none => effAdd rs m ns

/-- `effective` (/repo/ast.go:99-109); a later loop may visit it in any order. -/
def effective (rs : List Rule) : List (Str × Rule) :=
  effAdd rs (effAdd rs [] (rs.map Rule.name)) (Core.rules.map Rule.name)

/-- `minCost[name] = c`. -/
def CostMap.set (m : CostMap) (k : Str) (c : Nat) : CostMap := fun x => if x = k then some c else m x

/-- One round of the fixpoint (/repo/ast.go:115-121). -/
def costRound (rs : List Rule) : List (Str × Rule) → CostMap → Bool → CostMap × Bool
  | [], m, changed => (m, changed)
  | (name, r) :: ps, m, changed =>
    let c := costAlt rs m r.alt
    if c < (m name).getD 0 then costRound rs ps (m.set name c) true else costRound rs ps m changed

/-- The fixpoint (/repo/ast.go:114-122): `sched i` is the order in which round `i` visits the map. -/
def costLoop (rs : List Rule) (sched : Sched (Str × Rule)) (eff : List (Str × Rule)) : Nat → Nat → CostMap → Run CostMap
  | 0, _, _ => .fuel
  | k + 1, i, m =>
    match costRound rs (sched i eff) m false with
    | (m', true) => costLoop rs sched eff k (i + 1) m'
    | (m', false) => .ok m'

/-- The map before the first round (/repo/ast.go:110-113). -/
def costInit (eff : List (Str × Rule)) : CostMap := fun x => if x ∈ eff.map Prod.fst then some astUnbounded else none

/-- Errors of `NewASTGenerator` (/repo/ast.go:78-166). -/
inductive AstErr where
  | ruleNotFound
  | undefinedRule (name : Str)
  | nonProductive (name : Str)
  deriving DecidableEq

mutual
/-- `visitAlt` (/repo/ast.go:149-158); `rec` is the case `ElemRulename`, and the set of seen rules is threaded. -/
def visitAlt (rec : Str → List Str → Run (Except AstErr (List Str))) : List (List Rep) → List Str → Run (Except AstErr (List Str))
  | [], seen => .ok (.ok seen)
  | c :: a, seen =>
    (visitConcat rec c seen).bnd fun res =>
      match res with
      | .error e => .ok (.error e)
      | .ok seen' => visitAlt rec a seen'
/-- The inner loop of `visitAlt` (/repo/ast.go:151-155). -/
def visitConcat (rec : Str → List Str → Run (Except AstErr (List Str))) : List Rep → List Str → Run (Except AstErr (List Str))
  | [], seen => .ok (.ok seen)
  | ⟨_, _, e⟩ :: c, seen =>
    (visitElem rec e seen).bnd fun res =>
      match res with
      | .error e => .ok (.error e)
      | .ok seen' => visitConcat rec c seen'
/-- `visitElem` (/repo/ast.go:127-148). -/
def visitElem (rec : Str → List Str → Run (Except AstErr (List Str))) : Elem → List Str → Run (Except AstErr (List Str))
  | .rulename n, seen => rec n seen
  | .group a, seen => visitAlt rec a seen
  | .option a, seen => visitAlt rec a seen
  | _, seen => .ok (.ok seen)
end

/-- The case `ElemRulename` of `visitElem` (/repo/ast.go:129-141). -/
def visitRule (rs : List Rule) (m : CostMap) : Nat → Str → List Str → Run (Except AstErr (List Str))
  | 0, _, _ => .fuel
  | k + 1, n, seen =>
    match getRule n rs with
    | none => .ok (.error (.undefinedRule n))
    | some r =>
      if r.name ∈ seen then .ok (.ok seen)
      else if (m r.name).getD 0 ≥ astUnbounded then .ok (.error (.nonProductive r.name))
      else visitAlt (visitRule rs m k) r.alt (r.name :: seen)

/-- `ASTGenerator` (/repo/ast.go:27-36) with the defaults of `NewASTGenerator` (/repo/ast.go:83-89). -/
structure AstOpts where
  maxDepth : Int := 32
  maxLen : Int := 4096
  maxRepeat : Int := 16

/-- `NewASTGenerator` (/repo/ast.go:78-166): the start rule and the costs.  `fuel` bounds the rounds of the fixpoint. -/
def newASTGenerator (sched : Sched (Str × Rule)) (fuel : Nat) (g : Grammar) (name : Str) : Run (Except AstErr (Rule × CostMap)) :=
  match getRule name g.rules with
  | none => .ok (.error .ruleNotFound)
  | some start =>
    let eff := effective g.rules
    (costLoop g.rules sched eff fuel 0 (costInit eff)).bnd fun m =>
      if (m start.name).getD 0 ≥ astUnbounded then .ok (.error (.nonProductive name))
      else (visitAlt (visitRule g.rules m (g.rules.length + Core.rules.length)) start.alt [start.name]).bnd fun res =>
        match res with
        | .error e => .ok (.error e)
        | .ok _ => .ok (.ok (start, m))

/-! ## Generating -/

/-- The source and the output so far. -/
structure AstSt (σ : Type) where
  src : σ
  out : Bytes

/-- `*out = append(*out, []byte(string(r))...)`. -/
def AstSt.emit {σ : Type} (st : AstSt σ) (r : Nat) : AstSt σ := { st with out := st.out ++ encodeAll [runeChar r] }

/-- `over` (/repo/ast.go:186-190). -/
def astOver {σ : Type} (o : AstOpts) (st : AstSt σ) (depth : Nat) : Bool :=
  decide ((depth : Int) ≥ o.maxDepth) || decide ((st.out.length : Int) ≥ o.maxLen)

/-- The loop of `cheapestConcat` (/repo/ast.go:290-294). -/
def cheapestFrom (rs : List Rule) (m : CostMap) : List Concat → Nat → Nat → Nat → Nat
  | [], _, best, _ => best
  | c :: cs, i, best, bestCost =>
    if costConcat rs m c < bestCost then cheapestFrom rs m cs (i + 1) i (costConcat rs m c)
    else cheapestFrom rs m cs (i + 1) best bestCost

/-- `cheapestConcat` (/repo/ast.go:288-296). -/
def cheapestConcat (rs : List Rule) (m : CostMap) : Alt → Nat
  | [] => 0
  | c :: cs => cheapestFrom rs m cs 1 0 (costConcat rs m c)

/-- The index chosen by `genAlt` (/repo/ast.go:197-202). -/
def astIdx {σ : Type} (S : Source σ) (o : AstOpts) (rs : List Rule) (m : CostMap) (a : Alt) (depth : Nat) (st : AstSt σ) :
    Nat × AstSt σ :=
  if astOver o st depth then (cheapestConcat rs m a, st)
  else if a.length > 1 then
    let d := S.intn st.src a.length
    (d.1, { st with src := d.2 })
  else (0, st)

/-- The number of repetitions (/repo/ast.go:213-221).  `Min + maxRepeat` and `hi - lo + 1` may wrap; a source asked for a number
below one gives 0 and reads nothing (/repo/fuzz.go:41-43, 69-71 and 90-92). -/
def astCount {σ : Type} (S : Source σ) (o : AstOpts) (lo : Nat) (mx : Option Nat) (depth : Nat) (st : AstSt σ) : Nat × AstSt σ :=
  let hi : Int := match mx with
    | none => wrap64 (lo + o.maxRepeat)
    | some m => if m < lo then wrap64 (lo + o.maxRepeat) else m
  if !astOver o st depth && decide (hi > lo) && decide (0 < wrap64 (hi - lo + 1)) then
    let d := S.intn st.src (wrap64 (hi - lo + 1)).toNat
    (lo + d.1, { st with src := d.2 })
  else (lo, st)

/-- The loop of `genRep` (/repo/ast.go:222-228); `k` rounds are left. -/
def astLoop {σ : Type} (o : AstOpts) (step : AstSt σ → Run (AstSt σ)) (lo : Nat) : Nat → Nat → AstSt σ → Run (AstSt σ)
  | 0, _, st => .ok st
  | k + 1, i, st =>
    (step st).bnd fun st =>
      if i + 1 ≥ lo ∧ (st.out.length : Int) ≥ o.maxLen then .ok st else astLoop o step lo k (i + 1) st

/-- `flipASCIICase` (/repo/ast.go:386-394), and `isASCIILetter` (/repo/ast.go:382-384). -/
def flipCase (c : Char) : Char :=
  if 'a' ≤ c ∧ c ≤ 'z' then Char.ofNat (c.toNat - 32) else if 'A' ≤ c ∧ c ≤ 'Z' then Char.ofNat (c.toNat + 32) else c
@[inherit_doc flipCase]
def isLetter (c : Char) : Bool := ('a' ≤ c ∧ c ≤ 'z') ∨ ('A' ≤ c ∧ c ≤ 'Z')

/-- The case `ElemCharVal` (/repo/ast.go:246-252). -/
def astChars {σ : Type} (S : Source σ) (sensitive : Bool) : List Char → AstSt σ → AstSt σ
  | [], st => st
  | c :: cs, st =>
    if !sensitive && isLetter c then
      let d := S.intn st.src 2
      astChars S sensitive cs (AstSt.emit { st with src := d.2 } (if d.1 = 1 then flipCase c else c).toNat)
    else astChars S sensitive cs (st.emit c.toNat)

/-- The case `StatSeries` (/repo/ast.go:256-264). -/
def astSeries {σ : Type} (base : Str) : List Str → AstSt σ → AstSt σ
  | [], st => st
  | s :: es, st =>
    let r := numvalToRune s base
    astSeries base es (if validRune r then st.emit r else st)

/-- The case `StatRange` (/repo/ast.go:265-278). -/
def astRange {σ : Type} (S : Source σ) (base : Str) (es : List Str) (st : AstSt σ) : AstSt σ :=
  let lo := numvalToRune (es.getD 0 []) base
  let hi := min (numvalToRune (es.getD 1 []) base) maxRune
  if lo > maxRune ∨ lo > hi then st
  else
    let d := S.intn st.src (hi - lo + 1)
    AstSt.emit { st with src := d.2 } (lo + d.1)

mutual
/-- The concatenation at an index (/repo/ast.go:203), generated; `rec` is the case `ElemRulename` of `genElem`. -/
def astPick {σ : Type} (S : Source σ) (o : AstOpts) (rs : List Rule) (m : CostMap) (rec : Str → Nat → AstSt σ → Run (AstSt σ)) :
    List (List Rep) → Nat → Nat → AstSt σ → Run (AstSt σ)
  | [], _, _, _ => .panic
  | c :: _, 0, depth, st => astReps S o rs m rec c depth st
  | _ :: a, k + 1, depth, st => astPick S o rs m rec a k depth st
/-- `genConcat` (/repo/ast.go:206-210) and `genRep` (/repo/ast.go:212-229). -/
def astReps {σ : Type} (S : Source σ) (o : AstOpts) (rs : List Rule) (m : CostMap) (rec : Str → Nat → AstSt σ → Run (AstSt σ)) :
    List Rep → Nat → AstSt σ → Run (AstSt σ)
  | [], _, st => .ok st
  | ⟨mn, mx, e⟩ :: c, depth, st =>
    (astLoop o (fun st => astElem S o rs m rec e depth st) mn (astCount S o mn mx depth st).1 0 (astCount S o mn mx depth st).2).bnd
      fun st => astReps S o rs m rec c depth st
/-- `genElem` (/repo/ast.go:231-284); `genAlt` is written out. -/
def astElem {σ : Type} (S : Source σ) (o : AstOpts) (rs : List Rule) (m : CostMap) (rec : Str → Nat → AstSt σ → Run (AstSt σ)) :
    Elem → Nat → AstSt σ → Run (AstSt σ)
  | .rulename n, depth, st => rec n (depth + 1) st
  | .group a, depth, st =>
    if a.isEmpty then .ok st
    else astPick S o rs m rec a (astIdx S o rs m a depth st).1 depth (astIdx S o rs m a depth st).2
  | .option a, depth, st =>
    if astOver o st depth then .ok st
    else
      let d := S.intn st.src 2
      let st : AstSt σ := { st with src := d.2 }
      if d.1 = 1 then
        if a.isEmpty then .ok st
        else astPick S o rs m rec a (astIdx S o rs m a depth st).1 depth (astIdx S o rs m a depth st).2
      else .ok st
  | .charVal sensitive vs, _, st => .ok (astChars S sensitive vs st)
  | .numVal base .series es, _, st => .ok (astSeries base es st)
  | .numVal base .range es, _, st => .ok (astRange S base es st)
  | .proseVal _, _, st => .ok st
end

/-- `genAlt` (/repo/ast.go:192-204). -/
def astAlt {σ : Type} (S : Source σ) (o : AstOpts) (rs : List Rule) (m : CostMap) (rec : Str → Nat → AstSt σ → Run (AstSt σ))
    (a : Alt) (depth : Nat) (st : AstSt σ) : Run (AstSt σ) :=
  if a.isEmpty then .ok st
  else astPick S o rs m rec a (astIdx S o rs m a depth st).1 depth (astIdx S o rs m a depth st).2

/-- The case `ElemRulename` of `genElem` (/repo/ast.go:233-236); `GetRule` returning nil makes the field access panic. -/
def astRule {σ : Type} (S : Source σ) (o : AstOpts) (rs : List Rule) (m : CostMap) : Nat → Str → Nat → AstSt σ → Run (AstSt σ)
  | 0, _, _, _ => .fuel
  | k + 1, n, depth, st =>
    match getRule n rs with
    | none => .panic
    | some r => astAlt S o rs m (astRule S o rs m k) r.alt depth st

/-- `walk` (/repo/ast.go:180-184), hence `Generate` and `GenerateRand` (/repo/ast.go:168-178); `fuel` bounds the nesting
of rules. -/
def astWalk {σ : Type} (S : Source σ) (o : AstOpts) (rs : List Rule) (m : CostMap) (fuel : Nat) (start : Rule) (s : σ) : Run Bytes :=
  (astAlt S o rs m (astRule S o rs m fuel) start.alt 0 ⟨s, []⟩).bnd fun st => .ok st.out

end Verif
