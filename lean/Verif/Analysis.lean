import Verif.SlotsLang
import Verif.BoundLemmas
import Verif.Examples

/-!
# Dependencies, semantic validation, rule list evaluation and options

Model of /repo/dag.go:22-64 (`DependencyGraph`, `getDependencies`, `appendDeps`), /repo/grammar.go:389-443
(`SemvalABNF`, `semvalAlternation`), /repo/grammar.go:162-194 (`feval.rulelist`) and /repo/option.go.
-/

namespace Verif
open Spec

/-! ## Dependencies -/

/-- `appendDeps` (/repo/dag.go:57-64). -/
def appendDeps (deps : List Str) : List Str → List Str
  | [] => deps
  | n :: ns => appendDeps (if n ∈ deps then deps else deps ++ [n]) ns

mutual
/-- The names one element contributes: the `switch` of `getDependencies` (/repo/dag.go:44-51). -/
def elemDeps : Elem → List Str
  | .group a => altDepsFrom [] a
  | .option a => altDepsFrom [] a
  | .rulename n => [canon n]
  | .charVal .. => []
  | .numVal .. => []
  | .proseVal .. => []
/-- The same for a repetition. -/
def repDeps : Rep → List Str
  | ⟨_, _, e⟩ => elemDeps e
/-- The inner loop of `getDependencies` (/repo/dag.go:43-52). -/
def concatDepsFrom (deps : List Str) : List Rep → List Str
  | [] => deps
  | r :: c => concatDepsFrom (appendDeps deps (repDeps r)) c
/-- The outer loop of `getDependencies` (/repo/dag.go:42-53). -/
def altDepsFrom (deps : List Str) : List (List Rep) → List Str
  | [] => deps
  | c :: a => altDepsFrom (concatDepsFrom deps c) a
end

/-- `getDependencies` (/repo/dag.go:40-55). -/
def getDependencies (a : Alt) : List Str := altDepsFrom [] a

/-- `node` (/repo/dag.go:9-14), without the scratch fields of Tarjan's algorithm. -/
structure DepNode where
  rulename : Str
  deps : List Str
  deriving DecidableEq

/-- `graph[key] = node` on a map kept as an association list. -/
def dgSet (k : Str) (v : DepNode) : List (Str × DepNode) → List (Str × DepNode)
  | [] => [(k, v)]
  | p :: m => if p.1 = k then (k, v) :: m else p :: dgSet k v m

/-- The two loops of `DependencyGraph` (/repo/dag.go:24-36) over a list of rules. -/
def dgAdd (m : List (Str × DepNode)) : List Rule → List (Str × DepNode)
  | [] => m
  | r :: rs => dgAdd (dgSet (canon r.name) ⟨r.name, getDependencies r.alt⟩ m) rs

/-- `DependencyGraph` (/repo/dag.go:22-38), `coreRules` iterated in the order `core`. -/
def dependencyGraph (core : List Rule) (g : Grammar) : List (Str × DepNode) := dgAdd (dgAdd [] core) g.rules

/-! ## Semantic validation -/

/-- Errors of `SemvalABNF` (/repo/errors.go). -/
inductive SemErr where
  | dependencyNotFound (name : Str)
  | semanticRepetition (r : Rep)
  | tooLargeNumeral (base value : Str)

/-- The loop over the values of a num-val (/repo/grammar.go:424-428). -/
def semvalNums (base : Str) : List Str → Option SemErr
  | [] => none
  | s :: es => if checkBounds s base then semvalNums base es else some (.tooLargeNumeral base (trimZeros s))

/-- `rep.Max != inf && rep.Min > rep.Max` (/repo/grammar.go:415). -/
def boundsCross (mn : Nat) : Option Nat → Bool
  | none => false
  | some m => m < mn

mutual
/-- The `switch` of `semvalAlternation` (/repo/grammar.go:421-440). -/
def semvalElem : Elem → Option SemErr
  | .numVal b _ es => semvalNums b es
  | .group a => semvalAlternation a
  | .option a => semvalAlternation a
  | .rulename _ => none
  | .charVal .. => none
  | .proseVal .. => none
/-- One round of the inner loop of `semvalAlternation` (/repo/grammar.go:413-440). -/
def semvalRep : Rep → Option SemErr
  | ⟨mn, mx, e⟩ => if boundsCross mn mx then some (.semanticRepetition ⟨mn, mx, e⟩) else semvalElem e
/-- The inner loop (/repo/grammar.go:413). -/
def semvalConcat : List Rep → Option SemErr
  | [] => none
  | r :: c => (semvalRep r).or (semvalConcat c)
/-- `semvalAlternation` (/repo/grammar.go:411-443). -/
def semvalAlternation : List (List Rep) → Option SemErr
  | [] => none
  | c :: a => (semvalConcat c).or (semvalAlternation a)
end

/-- The inner loop of the dependency check (/repo/grammar.go:393-400). -/
def semvalDeps (rs : List Rule) : List Str → Option SemErr
  | [] => none
  | d :: ds => if (getRule d rs).isSome then semvalDeps rs ds else some (.dependencyNotFound d)

/-- `SemvalABNF` (/repo/grammar.go:389-409); `none` is a nil error.  Both loops visit the rules in the order of
`g.rules`; `C17_order` shows that the order does not influence whether an error is found. -/
def semvalABNF (g : Grammar) : Option SemErr :=
  (g.rules.findSome? fun r => semvalDeps g.rules (getDependencies r.alt)).or
    (g.rules.findSome? fun r => semvalAlternation r.alt)

/-! ## Evaluating a rule list -/

/-- What `feval.rule` (/repo/grammar.go:196-216) returns for one definition: name, `=/` or `=`, alternatives. -/
structure Def where
  name : Str
  extend : Bool
  alt : Alt

/-- Errors of `feval.rulelist` (/repo/grammar.go:162-194). -/
inductive EvalErr where
  | coreRuleModify (name : Str)
  | duplicatedRule (name : Str)
  | ruleNotFound (name : Str)
  deriving DecidableEq

/-- The map `mp` (/repo/grammar.go:163), each entry with a flag telling whether the pointer stored is the one of the
global `coreRules`, and the global `coreRules` itself (/repo/rules.go:7), which `=/` can modify. -/
structure EvalSt where
  mp : List (Rule × Bool)
  core : List Rule

/-- `mp[rl.Name] = rl` (/repo/grammar.go:179,190). -/
def mpSet (e : Rule × Bool) : List (Rule × Bool) → List (Rule × Bool)
  | [] => [e]
  | p :: m => if p.1.name = e.1.name then e :: m else p :: mpSet e m

/-- Append alternatives to the first rule whose name matches: the assignment through the pointer at
/repo/grammar.go:189. -/
def extendIn (name : Str) (alt : Alt) : List Rule → List Rule
  | [] => []
  | r :: rs => if equalFold name r.name then ⟨r.name, r.alt ++ alt⟩ :: rs else r :: extendIn name alt rs

/-- The same assignment for an entry of `mp`; also tells whether the entry is shared with `coreRules`. -/
def extendMp (name : Str) (alt : Alt) : List (Rule × Bool) → Option (List (Rule × Bool) × Bool)
  | [] => none
  | p :: m =>
    if equalFold name p.1.name then some ((⟨p.1.name, p.1.alt ++ alt⟩, p.2) :: m, p.2)
    else (extendMp name alt m).map fun q => (p :: q.1, q.2)

/-- One round of the loop of `feval.rulelist` (/repo/grammar.go:164-192).  Map iteration inside `GetRule` is in
insertion order; `C104_verdict` and `C104_order` treat other orders. -/
def evalDef (redefineCore : Bool) (st : EvalSt) (d : Def) : Except EvalErr EvalSt :=
  let isCore := (getRuleIn d.name st.core).isSome
  if d.extend = false then
    if isCore = true then
      if redefineCore = false then .error (.coreRuleModify d.name)
      else .ok { st with mp := mpSet (⟨d.name, d.alt⟩, false) st.mp }
    else if (getRuleIn d.name (st.mp.map Prod.fst)).isSome = true then .error (.duplicatedRule d.name)
    else .ok { st with mp := mpSet (⟨d.name, d.alt⟩, false) st.mp }
  else if redefineCore = false ∧ isCore = true then .error (.coreRuleModify d.name)
  else
    match extendMp d.name d.alt st.mp with
    | some (mp, shared) => .ok ⟨mp, if shared then extendIn d.name d.alt st.core else st.core⟩
    | none =>
      match getRuleIn d.name st.core with
      | none => .error (.ruleNotFound d.name)
      | some r => .ok ⟨mpSet (⟨r.name, r.alt ++ d.alt⟩, true) st.mp, extendIn d.name d.alt st.core⟩

/-- The loop of `feval.rulelist` (/repo/grammar.go:164-192). -/
def evalDefsFrom (redefineCore : Bool) (st : EvalSt) : List Def → Except EvalErr EvalSt
  | [] => .ok st
  | d :: ds =>
    match evalDef redefineCore st d with
    | .error e => .error e
    | .ok st' => evalDefsFrom redefineCore st' ds

/-- `feval.rulelist` (/repo/grammar.go:162-194) on the evaluated rule definitions; returns the rules of the map and
the value of the global `coreRules` afterwards. -/
def evalRulelist (redefineCore : Bool) (defs : List Def) : Except EvalErr EvalSt :=
  evalDefsFrom redefineCore ⟨[], Core.rules⟩ defs

/-! ## Options -/

/-- `abnfOptions` (/repo/option.go:25-28). -/
structure AbnfOptions where
  validate : Bool
  redefineCore : Bool
  deriving DecidableEq

/-- `ABNFOption`: `WithValidation` and `WithRedefineCoreRules` (/repo/option.go:20-64). -/
inductive ABNFOption where
  | withValidation (b : Bool)
  | withRedefineCoreRules (b : Bool)
  deriving DecidableEq

/-- `ABNFOption.apply` (/repo/option.go:34-36, 50-52). -/
def ABNFOption.apply (o : AbnfOptions) : ABNFOption → AbnfOptions
  | .withValidation b => { o with validate := b }
  | .withRedefineCoreRules b => { o with redefineCore := b }

/-- `process` (/repo/option.go:8-17). -/
def processOptions (opts : List ABNFOption) : AbnfOptions := opts.foldl ABNFOption.apply ⟨true, false⟩

end Verif
