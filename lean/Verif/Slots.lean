import Verif.Term

/-!
# Lowering a grammar to slots

Model of `compileSlots` and `lowerer` (/repo/sppf.go:25-221).
-/

namespace Verif

/-- `ssym` (/repo/sppf.go:29-41). -/
inductive Sym where
  | nt (id : Nat)
  | term (e : Elem)
  | eps
  deriving DecidableEq

/-- `sgNT` (/repo/sppf.go:43-57) without the diagnostic label; the defaults are Go's zero values. -/
structure NT where
  isRule : Bool := false
  ruleName : Str := []
  alts : List (List Sym) := []
  isRep : Bool := false
  repMin : Nat := 0
  repMax : Option Nat := some 0
  deriving DecidableEq

/-- `slotGrammar` (/repo/sppf.go:59-63) without the index, which is not used after lowering. -/
structure SG where
  nts : List NT
  start : Nat
  deriving DecidableEq

/-- The mutable state of `lowerer` (/repo/sppf.go:94-100) with the grammar under construction: `index` is the
dedup map, listed in insertion order.  `lowerer.err` is never assigned in the code. -/
structure LowerSt where
  nts : List NT
  index : List (Str × Nat)
  over : Bool

/-- `slotGrammar.reserve` (/repo/sppf.go:65-73): the id and whether it existed. -/
def reserve (key : Str) (st : LowerSt) : Nat × Bool × LowerSt :=
  match st.index.lookup key with
  | some id => (id, true, st)
  | none =>
    (st.nts.length, false,
      { st with nts := st.nts ++ [{}], index := st.index ++ [(key, st.nts.length)] })

/-- `lowerer.budgetExceeded` (/repo/sppf.go:102-107): the new state; its `over` field is the result. -/
def budgetExceeded (max : Nat) (st : LowerSt) : LowerSt :=
  if max > 0 ∧ st.nts.length ≥ max then { st with over := true } else st

/-- Assignment to fields of `c.sg.nts[id]`. -/
def setNT (id : Nat) (n : NT) (st : LowerSt) : LowerSt := { st with nts := st.nts.set id n }

/-- The dedup key of a rule name (/repo/sppf.go:110). -/
def ruleKey (name : Str) : Str := str% "rule:" ++ canon name
/-- The dedup key of a repetition (/repo/sppf.go:149). -/
def repKey (r : Rep) : Str := str% "rep:" ++ r.str
/-- The dedup key of a group (/repo/sppf.go:196). -/
def grpKey (a : Alt) : Str := str% "grp:" ++ (Elem.group a).str
/-- The dedup key of an option (/repo/sppf.go:209). -/
def optKey (a : Alt) : Str := str% "opt:" ++ (Elem.option a).str

/-- `rep.Max != inf && rep.Max < rep.Min` (/repo/sppf.go:160). -/
def badBounds (mn : Nat) (mx : Option Nat) : Bool :=
  match mx with
  | some m => decide (m < mn)
  | none => false

/-- The type of `lowerer.rule`; `none` is "out of fuel", which `lower_terminates` excludes. -/
abbrev LowerRuleFn := Str → LowerSt → Option (Nat × LowerSt)

mutual
/-- The concatenation loop of `lowerer.alts` (/repo/sppf.go:130-143). -/
def lowerAlts (rule : LowerRuleFn) (max : Nat) :
    List (List Rep) → LowerSt → Option (List (List Sym) × LowerSt)
  | [], st => some ([], st)
  | c :: a, st =>
    match lowerConcat rule max c st with
    | none => none
    | some (seq, st) =>
      match lowerAlts rule max a st with
      | none => none
      | some (out, st) => some ((if seq = [] then [.eps] else seq) :: out, st)
/-- The repetition loop of `lowerer.alts` (/repo/sppf.go:133-136). -/
def lowerConcat (rule : LowerRuleFn) (max : Nat) : List Rep → LowerSt → Option (List Sym × LowerSt)
  | [], st => some ([], st)
  | r :: c, st =>
    match lowerRep rule max r st with
    | none => none
    | some (s, st) =>
      match lowerConcat rule max c st with
      | none => none
      | some (seq, st) => some (s :: seq, st)
/-- `lowerer.rep` (/repo/sppf.go:145-179). -/
def lowerRep (rule : LowerRuleFn) (max : Nat) : Rep → LowerSt → Option (Sym × LowerSt)
  | ⟨mn, mx, e⟩, st =>
    if mn = 1 ∧ mx = some 1 then lowerElem rule max e st
    else
      match reserve (repKey ⟨mn, mx, e⟩) st with
      | (id, true, st) => some (.nt id, st)
      | (id, false, st) =>
        let st := budgetExceeded max st
        if st.over then some (.nt id, st)
        else if badBounds mn mx then some (.nt id, st)
        else
          match lowerElem rule max e st with
          | none => none
          | some (esym, st) =>
            some (.nt id, setNT id
              { alts := [[.eps], [esym, .nt id]], isRep := true, repMin := mn, repMax := mx } st)
/-- `lowerer.elem`, `lowerer.group` and `lowerer.option` (/repo/sppf.go:181-221). -/
def lowerElem (rule : LowerRuleFn) (max : Nat) : Elem → LowerSt → Option (Sym × LowerSt)
  | .rulename n, st =>
    match rule n st with
    | none => none
    | some (id, st) => some (.nt id, st)
  | .group a, st =>
    match reserve (grpKey a) st with
    | (id, true, st) => some (.nt id, st)
    | (id, false, st) =>
      let st := budgetExceeded max st
      if st.over then some (.nt id, st)
      else
        match lowerAlts rule max a st with
        | none => none
        | some (out, st) => some (.nt id, setNT id { alts := out } st)
  | .option a, st =>
    match reserve (optKey a) st with
    | (id, true, st) => some (.nt id, st)
    | (id, false, st) =>
      let st := budgetExceeded max st
      if st.over then some (.nt id, st)
      else
        match lowerAlts rule max a st with
        | none => none
        | some (out, st) => some (.nt id, setNT id { alts := [.eps] :: out } st)
  | e, st => some (.term e, st)
end

/-- `lowerer.rule` (/repo/sppf.go:109-128), recursion through rule references bounded by fuel. -/
def lowerRule (g : Grammar) (max : Nat) : Nat → LowerRuleFn
  | 0, _, _ => none
  | fuel + 1, name, st =>
    match reserve (ruleKey name) st with
    | (id, true, st) => some (id, st)
    | (id, false, st) =>
      let st := budgetExceeded max st
      if st.over then some (id, st)
      else
        match getRule name g.rules with
        | none => some (id, st)
        | some r =>
          match lowerAlts (lowerRule g max fuel) max r.alt st with
          | none => none
          | some (out, st) => some (id, setNT id { isRule := true, ruleName := r.name, alts := out } st)

/-- Errors of `compileSlots` and of the two parse functions. -/
inductive ParseErr where
  | ruleNotFound
  | grammarTooLarge (max : Nat)
  | forestTooLarge (max : Nat)
  | outOfFuel
  deriving DecidableEq

/-- Enough recursion depth for any grammar: see `lower_terminates`. -/
def lowerFuel (g : Grammar) : Nat := g.rules.length + Core.rules.length + 1

/-- `compileSlots` (/repo/sppf.go:78-92). -/
def compileSlots (g : Grammar) (root : Str) (maxSlots : Nat) : Except ParseErr SG :=
  match getRule root g.rules with
  | none => .error .ruleNotFound
  | some _ =>
    match lowerRule g maxSlots (lowerFuel g) root ⟨[], [], false⟩ with
    | none => .error .outOfFuel
    | some (id, st) =>
      if st.over then .error (.grammarTooLarge maxSlots) else .ok ⟨st.nts, id⟩

end Verif
