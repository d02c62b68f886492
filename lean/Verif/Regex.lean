import Verif.Tarjan
import Verif.Numval
import Mathlib.Data.List.Sort

/-!
# Regular expressions

Model of /repo/regex.go: the intermediate representation, the builder, the simplifier, the renderer and `Regex`.
-/

namespace Verif

/-- `reNode` and its implementations (/repo/regex.go:92-108).  `max = none` is `inf`. -/
inductive Re where
  | cls (ranges : List (Nat × Nat))
  | concat (parts : List Re)
  | alt (opts : List Re)
  | rep (sub : Re) (min : Nat) (max : Option Nat)
  | empty
  | never

/-! ## Building -/

/-- `reBuilder` (/repo/regex.go:124-128); `err` tells whether `ErrHandlingProseVal` was recorded. -/
structure ReSt where
  memo : List (Str × Re) := []
  err : Bool := false

/-- `charClass` (/repo/regex.go:212-224). -/
def charClass (c : Char) (sensitive : Bool) : Re :=
  if !sensitive && ('A'.toNat ≤ c.toNat && c.toNat ≤ 'Z'.toNat) then
    .cls [(c.toNat, c.toNat), (c.toNat + 32, c.toNat + 32)]
  else if !sensitive && ('a'.toNat ≤ c.toNat && c.toNat ≤ 'z'.toNat) then
    .cls [(c.toNat - 32, c.toNat - 32), (c.toNat, c.toNat)]
  else .cls [(c.toNat, c.toNat)]

/-- `utf8.MaxRune`. -/
def maxRune : Nat := 0x10FFFF

/-- The case `StatRange` of `reBuilder.elem` (/repo/regex.go:170-180). -/
def reRangeOf (base : Str) (elems : List Str) : Re :=
  let lo := numvalToRune (elems.getD 0 []) base
  let hi := min (numvalToRune (elems.getD 1 []) base) maxRune
  if lo > maxRune ∨ lo > hi then .never else .cls [(lo, hi)]

/-- The case `StatSeries` of `reBuilder.elem` (/repo/regex.go:181-192). -/
def reSeriesOf (base : Str) (elems : List Str) : Re :=
  if elems.all fun s => validRune (numvalToRune s base) then
    .concat (elems.map fun s => .cls [(numvalToRune s base, numvalToRune s base)])
  else .never

mutual
/-- `reBuilder.elem` (/repo/regex.go:160-210); `rec` is `reBuilder.rule`. -/
def reElem (rec : Str → ReSt → Option (Re × ReSt)) : Elem → ReSt → Option (Re × ReSt)
  | .rulename n, st => rec n st
  | .group a, st => (reAlts rec a st).map fun (os, st) => (.alt os, st)
  | .option a, st => (reAlts rec a st).map fun (os, st) => (.rep (.alt os) 0 (some 1), st)
  | .numVal base .range es, st => some (reRangeOf base es, st)
  | .numVal base .series es, st => some (reSeriesOf base es, st)
  | .charVal sensitive vs, st => some (.concat (vs.map fun c => charClass c sensitive), st)
  | .proseVal _, st => some (.empty, { st with err := true })
/-- The loop of `reBuilder.alt` (/repo/regex.go:144-150). -/
def reAlts (rec : Str → ReSt → Option (Re × ReSt)) : List (List Rep) → ReSt → Option (List Re × ReSt)
  | [], st => some ([], st)
  | c :: a, st =>
    (reParts rec c st).bind fun (ps, st) => (reAlts rec a st).map fun (os, st) => (.concat ps :: os, st)
/-- The loop of `reBuilder.concat` (/repo/regex.go:152-158). -/
def reParts (rec : Str → ReSt → Option (Re × ReSt)) : List Rep → ReSt → Option (List Re × ReSt)
  | [], st => some ([], st)
  | ⟨mn, mx, e⟩ :: c, st =>
    (reElem rec e st).bind fun (s, st) => (reParts rec c st).map fun (ps, st) => (.rep s mn mx :: ps, st)
end

/-- `reBuilder.rule` (/repo/regex.go:130-142); `none` is "out of fuel". -/
def reRule (g : Grammar) : Nat → Str → ReSt → Option (Re × ReSt)
  | 0, _, _ => none
  | n + 1, name, st =>
    match st.memo.lookup (canon name) with
    | some r => some (r, st)
    | none =>
      match getRule name g.rules with
      | none => some (.empty, st)
      | some r => (reAlts (reRule g n) r.alt st).map fun (os, st) =>
          (.alt os, { st with memo := (canon name, .alt os) :: st.memo })

/-! ## Simplifying -/

/-- The order of `sort.Slice` in `normalizeRanges` (/repo/regex.go:341-343). -/
def rangeLe (a b : Nat × Nat) : Prop := a.1 < b.1 ∨ (a.1 = b.1 ∧ a.2 ≤ b.2)

instance (a b : Nat × Nat) : Decidable (rangeLe a b) := by unfold rangeLe; infer_instance

/-- The coalescing loop (/repo/regex.go:344-354), with the last range of `out` apart. -/
def coalesce (last : Nat × Nat) : List (Nat × Nat) → List (Nat × Nat)
  | [] => [last]
  | r :: rs =>
    if r.1 ≤ last.2 + 1 then coalesce (last.1, if r.2 > last.2 then r.2 else last.2) rs
    else last :: coalesce r rs

/-- `normalizeRanges` (/repo/regex.go:336-356).  The order is total on pairs, so every sorting algorithm gives the
same list. -/
def normalizeRanges (rs : List (Nat × Nat)) : List (Nat × Nat) :=
  if rs.length ≤ 1 then rs
  else
    match rs.insertionSort rangeLe with
    | [] => []
    | r :: rest => coalesce r rest

/-- `isNever` (/repo/regex.go:120). -/
def Re.isNever : Re → Bool
  | .never => true
  | _ => false

/-- `isEmpty` (/repo/regex.go:333). -/
def Re.isEmpty : Re → Bool
  | .empty => true
  | _ => false

/-- What a simplified part contributes to a concatenation (/repo/regex.go:246-257). -/
def concatParts : Re → List Re
  | .empty => []
  | .never => []
  | .concat ps => ps
  | p => [p]

/-- The case `reConcat` (/repo/regex.go:243-267) on the simplified parts. -/
def mkConcat (sps : List Re) : Re :=
  let parts := sps.flatMap concatParts
  if sps.any Re.isNever then .never
  else
    match parts with
    | [] => .empty
    | [p] => p
    | ps => .concat ps

/-- What a simplified option contributes to an alternation (/repo/regex.go:270-280). -/
def altOpts : Re → List Re
  | .never => []
  | .alt os => os
  | o => [o]

/-- The ranges of the classes among the options (/repo/regex.go:283-293). -/
def classRanges : List Re → List (Nat × Nat)
  | [] => []
  | .cls rs :: os => rs ++ classRanges os
  | _ :: os => classRanges os

/-- Is the option a class? -/
def Re.isClass : Re → Bool
  | .cls _ => true
  | _ => false

/-- The case `reAlt` (/repo/regex.go:268-307) on the simplified options. -/
def mkAlt (sos : List Re) : Re :=
  let opts := sos.flatMap altOpts
  let others := opts.filter fun o => !o.isClass
  let merged := if opts.any Re.isClass then .cls (normalizeRanges (classRanges opts)) :: others else others
  match merged with
  | [] => .never
  | [o] => o
  | os => .alt os

/-- The case `reRepeat` (/repo/regex.go:308-325) on the simplified operand. -/
def mkRep (sub : Re) (mn : Nat) (mx : Option Nat) : Re :=
  if sub.isNever then (if mn = 0 then .empty else .never)
  else if sub.isEmpty then .empty
  else if mn = 1 ∧ mx = some 1 then sub
  else .rep sub mn mx

mutual
/-- `simplify` (/repo/regex.go:228-331).  The memo is keyed by pointers, and equal pointers are equal nodes, so it only
saves work and is left out. -/
def simplify : Re → Re
  | .cls rs => .cls (normalizeRanges rs)
  | .empty => .empty
  | .never => .never
  | .concat ps => mkConcat (simplifyAll ps)
  | .alt os => mkAlt (simplifyAll os)
  | .rep p mn mx => mkRep (simplify p) mn mx
/-- On a list. -/
def simplifyAll : List Re → List Re
  | [] => []
  | p :: ps => simplify p :: simplifyAll ps
end

/-! ## Rendering -/

/-- `string(r)`: a rune that is no Unicode scalar value becomes U+FFFD. -/
def runeChar (r : Nat) : Char := if validRune r then Char.ofNat r else Char.ofNat 0xFFFD

/-- The characters `regexp.QuoteMeta` escapes (stdlib). -/
def reMeta : List Char := ['\\', '.', '+', '*', '?', '(', ')', '|', '[', ']', '{', '}', '^', '$']

/-- `regescape` (/repo/regex.go:458). -/
def regescape (r : Nat) : Str := if runeChar r ∈ reMeta then ['\\', runeChar r] else [runeChar r]

/-- ASCII letters and digits. -/
def isAlnum (r : Nat) : Bool :=
  ('a'.toNat ≤ r && r ≤ 'z'.toNat) || ('A'.toNat ≤ r && r ≤ 'Z'.toNat) || ('0'.toNat ≤ r && r ≤ '9'.toNat)

/-- `classEscape` (/repo/regex.go:463-468). -/
def classEscape (r : Nat) : Str :=
  if isAlnum r then [Char.ofNat r] else ['\\', 'x', '{'] ++ Nat.toDigits 16 r ++ ['}']

/-- One range of a class (/repo/regex.go:425-433). -/
def renderRange (r : Nat × Nat) : Str :=
  if r.1 = r.2 then classEscape r.1 else classEscape r.1 ++ ['-'] ++ classEscape r.2

/-- `renderClass` (/repo/regex.go:419-436). -/
def renderClass (rs : List (Nat × Nat)) : Str :=
  match rs with
  | [r] => if r.1 = r.2 then regescape r.1 else ['['] ++ renderRange r ++ [']']
  | rs => ['['] ++ rs.flatMap renderRange ++ [']']

/-- `quantifier` (/repo/regex.go:438-455). -/
def quantifier (mn : Nat) (mx : Option Nat) : Str :=
  if mn = 0 ∧ mx = some 1 then ['?']
  else if mn = 0 ∧ mx = none then ['*']
  else if mn = 1 ∧ mx = none then ['+']
  else
    match mx with
    | none => ['{'] ++ itoa mn ++ [',', '}']
    | some m =>
      if mn = m then ['{'] ++ itoa mn ++ ['}']
      else if mn = 0 then ['{', '0', ','] ++ itoa m ++ ['}']
      else ['{'] ++ itoa mn ++ [','] ++ itoa m ++ ['}']

/-- The methods `prec` (/repo/regex.go:85-90, 110-115). -/
def Re.prec : Re → Nat
  | .cls _ => 4
  | .concat _ => 2
  | .alt _ => 1
  | .rep _ _ _ => 3
  | .empty => 4
  | .never => 4

/-- The opening and closing writes around a node (/repo/regex.go:384-387, 414-416). -/
def grouped (grp : Bool) (ws : List Str) : List Str :=
  if grp then [str% "(?:"] ++ ws ++ [str% ")"] else ws

mutual
/-- The strings `render` passes to `write`, in order (/repo/regex.go:380-417), as long as the budget lasts. -/
def renderWrites : Re → Nat → List Str
  | .empty, ctx => grouped (Re.empty.prec < ctx) (if Re.empty.prec < ctx then [] else [str% "(?:)"])
  | .never, ctx => grouped (Re.never.prec < ctx) [str% "[^\\x00-\\x{10ffff}]"]
  | .cls rs, ctx => grouped ((Re.cls rs).prec < ctx) [renderClass rs]
  | .concat ps, ctx => grouped ((Re.concat ps).prec < ctx) (renderParts ps)
  | .alt os, ctx => grouped ((Re.alt os).prec < ctx) (renderOpts os)
  | .rep p mn mx, ctx => grouped ((Re.rep p mn mx).prec < ctx) (renderWrites p 4 ++ [quantifier mn mx])
/-- The parts of a concatenation (/repo/regex.go:399-402). -/
def renderParts : List Re → List Str
  | [] => []
  | p :: ps => renderWrites p 2 ++ renderParts ps
/-- The options of an alternation (/repo/regex.go:403-409). -/
def renderOpts : List Re → List Str
  | [] => []
  | o :: os => renderWrites o 1 ++ renderMore os
/-- The options after the first. -/
def renderMore : List Re → List Str
  | [] => []
  | o :: os => [str% "|"] ++ renderWrites o 1 ++ renderMore os
end

/-- `reRenderer` with the builder it writes to (/repo/regex.go:360-364). -/
structure RenderSt where
  n : Nat := 0
  err : Bool := false
  out : Str := []

/-- `len(s)`: the number of bytes. -/
def byteLen (s : Str) : Nat := (encodeAll s).length

/-- `reRenderer.write` (/repo/regex.go:366-376); a budget of 0 (or less) is none. -/
def RenderSt.write (max : Nat) (st : RenderSt) (s : Str) : RenderSt :=
  if st.err then st
  else
    let n := st.n + byteLen s
    if max > 0 ∧ n > max then { st with n := n, err := true } else { st with n := n, out := st.out ++ s }

/-- Rendering with a budget; `none` is `ErrRegexTooLarge`. -/
def renderBudget (max : Nat) (r : Re) : Option Str :=
  let st := (renderWrites r 1).foldl (RenderSt.write max) {}
  if st.err then none else some st.out

/-- Errors of `Regex`. -/
inductive RegexErr where
  | ruleNotFound
  | cyclicRule
  | proseVal
  | tooLarge
  | panic
  | outOfFuel
  deriving DecidableEq

/-- `Regex` (/repo/regex.go:22-54).  `core` and `order` are the iteration orders `RuleContainsCycle` meets. -/
def regex (core : List Rule) (order : List Str) (g : Grammar) (maxLen : Nat) (name : Str) : Except RegexErr Str :=
  match ruleContainsCycle core g order name with
  | none => .error .ruleNotFound
  | some .panic => .error .panic
  | some .fuel => .error .outOfFuel
  | some (.ok true) => .error .cyclicRule
  | some (.ok false) =>
    match getRule name g.rules with
    | none => .error .ruleNotFound
    | some rule =>
      match reAlts (reRule g (g.rules.length + Core.rules.length + 1)) rule.alt {} with
      | none => .error .outOfFuel
      | some (os, st) =>
        if st.err then .error .proseVal
        else
          match renderBudget maxLen (simplify (.alt os)) with
          | none => .error .tooLarge
          | some s => .ok s

end Verif
