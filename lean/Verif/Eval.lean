import Verif.Meta
import Verif.Errors
import Verif.Analysis

/-!
# Evaluating the parse tree of an ABNF text; `ParseABNF`

Model of /repo/grammar.go:77-106 (`ParseABNF`), 122-133 (`EvaluateABNF`, `evalForest`) and 135-360 (`feval`).
-/

namespace Verif
open Spec

namespace Eval

/-- Why no value comes out of a tree: `ErrNoSolutionFound` (/repo/errors.go), or the use of a nil tree. -/
inductive TreeErr where
  | noSolution
  | nilTree
  deriving DecidableEq

/-- `feval.span` (/repo/grammar.go:160).  Each byte becomes the character with that number: this is what Go does
with the text when it is ASCII, and every text the grammar of ABNF derives is.  The bounds of a tree are not
checked against the input, as those of a forest are always right. -/
def span (inp : Bytes) (t : ParseTree) : Str :=
  ((inp.drop t.start).take (t.fin - t.start)).map fun b => Char.ofNat b.toNat

/-- `ptFirst` (/repo/grammar.go:151-158) with one name. -/
def ptFirst (name : Str) (ts : List ParseTree) : Option ParseTree := ts.find? fun t => t.rule = name

/-- `strings.Cut(s, "*")` (/repo/grammar.go:260), for any character. -/
def cutAt (c : Char) : Str → Option (Str × Str)
  | [] => none
  | d :: s => if d = c then some ([], s) else (cutAt c s).map fun p => (d :: p.1, p.2)

/-- `strings.Split` (/repo/grammar.go:342, 344) at a character. -/
def splitAt (c : Char) : Str → List Str
  | [] => [[]]
  | d :: s =>
    match splitAt c s with
    | [] => [[]]
    | p :: ps => if d = c then [] :: p :: ps else (d :: p) :: ps

/-- `strings.Contains` (/repo/grammar.go:204). -/
def contains (x : Str) : Str → Bool
  | [] => x.isPrefixOf []
  | c :: s => x.isPrefixOf (c :: s) || contains x s

/-- The value of a decimal numeral. -/
def value (s : Str) : Nat := s.foldl (fun n c => 10 * n + (c.toNat - 0x30)) 0

/-- `strconv.Atoi` with its error ignored (/repo/grammar.go:262, 267, 270), on a text of decimal digits: beyond the
largest `int` the result is the largest `int`. -/
def atoi (s : Str) : Nat := min (value s) (2 ^ 63 - 1)

/-- `feval.parseRepeat` (/repo/grammar.go:258-273). -/
def parseRepeat (s : Str) : Nat × Option Nat :=
  match cutAt '*' s with
  | none => (atoi s, some (atoi s))
  | some (pre, post) => (if pre ≠ [] then atoi pre else 0, if post ≠ [] then some (atoi post) else none)

/-- What lies between the first and the last `"` (/repo/grammar.go:314-319). -/
def quoted (s : Str) : Str :=
  match s.dropWhile (· ≠ '"') with
  | [] => []
  | _ :: r =>
    match r.reverse.dropWhile (· ≠ '"') with
    | [] => []
    | _ :: q => q.reverse

/-- `feval.charVal` (/repo/grammar.go:305-321). -/
def charVal (s : Str) : Elem :=
  match s with
  | '%' :: m :: r => .charVal (m = 's' ∨ m = 'S') (quoted r)
  | s => .charVal false (quoted s)

/-- The base of a numeric value (/repo/grammar.go:327-337). -/
def numBase (m : Char) : Str :=
  if m = 'b' ∨ m = 'B' then str% "b" else if m = 'd' ∨ m = 'D' then str% "d" else if m = 'x' ∨ m = 'X' then str% "x"
  else str% "d"

/-- The numerals of a numeric value (/repo/grammar.go:338-345). -/
def numElems (base rest : Str) : Elem :=
  if '-' ∈ rest then .numVal base .range (splitAt '-' rest) else .numVal base .series (splitAt '.' rest)

/-- `feval.numVal` (/repo/grammar.go:323-352). -/
def numVal (s : Str) : Elem :=
  match s with
  | '%' :: m :: r => numElems (numBase m) r
  | _ => numElems (str% "d") []

/-- `feval.proseVal` (/repo/grammar.go:354-360): every byte but the first and the last, each as a string. -/
def proseVal (s : Str) : Elem := .proseVal ((s.drop 1).dropLast.map fun c => [c])

section
variable (inp : Bytes)

mutual
/-- `feval.alternation` (/repo/grammar.go:218-228). -/
def alternation : ParseTree → Except TreeErr Alt
  | .node _ _ _ ch => concatenations ch
/-- Its loop, over the children called `concatenation` (/repo/grammar.go:220-226). -/
def concatenations : List ParseTree → Except TreeErr Alt
  | [] => .ok []
  | t :: ts =>
    if t.rule = str% "concatenation" then
      match concatenation t with
      | .error e => .error e
      | .ok c => match concatenations ts with
        | .error e => .error e
        | .ok cs => .ok (c :: cs)
    else concatenations ts
/-- `feval.concatenation` (/repo/grammar.go:230-240). -/
def concatenation : ParseTree → Except TreeErr Concat
  | .node _ _ _ ch => repetitions ch
/-- Its loop, over the children called `repetition` (/repo/grammar.go:232-238). -/
def repetitions : List ParseTree → Except TreeErr Concat
  | [] => .ok []
  | t :: ts =>
    if t.rule = str% "repetition" then
      match repetition t with
      | .error e => .error e
      | .ok r => match repetitions ts with
        | .error e => .error e
        | .ok rs => .ok (r :: rs)
    else repetitions ts
/-- `feval.repetition` (/repo/grammar.go:242-256). -/
def repetition : ParseTree → Except TreeErr Rep
  | .node _ _ _ ch =>
    match elementIn ch with
    | .error e => .error e
    | .ok e =>
      match ptFirst (str% "repeat") ch with
      | none => .ok ⟨1, some 1, e⟩
      | some t => .ok ⟨(parseRepeat (span inp t)).1, (parseRepeat (span inp t)).2, e⟩
/-- The value of the first child called `element` (/repo/grammar.go:247-254). -/
def elementIn : List ParseTree → Except TreeErr Elem
  | [] => .error .noSolution
  | t :: ts => if t.rule = str% "element" then element t else elementIn ts
/-- `feval.element` (/repo/grammar.go:275-303). -/
def element : ParseTree → Except TreeErr Elem
  | .node _ _ _ ch => firstOf ch
/-- The value of the first child with one of six names (/repo/grammar.go:276-302). -/
def firstOf : List ParseTree → Except TreeErr Elem
  | [] => .error .noSolution
  | .node n s e ch :: ts =>
    if n = str% "rulename" then .ok (.rulename (span inp (.node n s e ch)))
    else if n = str% "group" then
      match alternationIn ch with
      | .error e => .error e
      | .ok a => .ok (.group a)
    else if n = str% "option" then
      match alternationIn ch with
      | .error e => .error e
      | .ok a => .ok (.option a)
    else if n = str% "char-val" then .ok (charVal (span inp (.node n s e ch)))
    else if n = str% "num-val" then .ok (numVal (span inp (.node n s e ch)))
    else if n = str% "prose-val" then .ok (proseVal (span inp (.node n s e ch)))
    else firstOf ts
/-- The value of the first child called `alternation` (/repo/grammar.go:284, 290). -/
def alternationIn : List ParseTree → Except TreeErr Alt
  | [] => .error .nilTree
  | t :: ts => if t.rule = str% "alternation" then alternation t else alternationIn ts
end

/-- `feval.rule` (/repo/grammar.go:196-216). -/
def rule (t : ParseTree) : Except TreeErr Def :=
  match ptFirst (str% "rulename") t.children, ptFirst (str% "defined-as") t.children,
    ptFirst (str% "elements") t.children with
  | some n, some d, some es =>
    match ptFirst (str% "alternation") es.children with
    | none => .error .noSolution
    | some a =>
      match alternation inp a with
      | .error e => .error e
      | .ok alt => .ok ⟨span inp n, contains (str% "=/") (span inp d), alt⟩
  | _, _, _ => .error .noSolution

end

/-- Errors of `ParseABNF` (/repo/grammar.go:77-106). -/
inductive AbnfErr where
  | forest (e : ParseErr)
  | syntax (e : Option ParseError)
  | multipleSolutions
  | tree (e : TreeErr)
  | eval (e : EvalErr)
  | semantic (e : SemErr)
  | stuck

/-- The loop of `feval.rulelist` over the children called `rule` (/repo/grammar.go:164-192). -/
def rules (inp : Bytes) (redefineCore : Bool) (st : EvalSt) : List ParseTree → Except AbnfErr EvalSt
  | [] => .ok st
  | t :: ts =>
    if t.rule = str% "rule" then
      match rule inp t with
      | .error e => .error (.tree e)
      | .ok d =>
        match evalDef redefineCore st d with
        | .error e => .error (.eval e)
        | .ok st' => rules inp redefineCore st' ts
    else rules inp redefineCore st ts

/-- `evalForest` (/repo/grammar.go:124-131) on the tree of the forest, `feval.rulelist` (/repo/grammar.go:162-194);
the global `coreRules` is as it is when the program starts. -/
def evaluate (inp : Bytes) (o : AbnfOptions) : Option ParseTree → Except AbnfErr EvalSt
  | none => .error (.tree .noSolution)
  | some t => rules inp o.redefineCore ⟨[], Core.rules⟩ t.children

/-- The grammar a successful evaluation returns (/repo/grammar.go:193). -/
def grammarOf (st : EvalSt) : Grammar := ⟨st.mp.map Prod.fst⟩

/-- `ParseABNF` (/repo/grammar.go:77-106); the options of `ParseForest` have their defaults (/repo/sppf.go:76, 668-672).
`stuck` stands for a traversal of the forest that does not end, which never happens (C40). -/
def parseABNF (sched : Sched NodeKey) (inp : Bytes) (opts : List ABNFOption) : Except AbnfErr Grammar :=
  let o := processOptions opts
  match parseForest sched inp Abnf.grammar (str% "rulelist") 0 65536 with
  | .error e => .error (.forest e)
  | .ok f =>
    if f.valid = false then .error (.syntax f.parseError)
    else
      match f.ambiguous with
      | none => .error .stuck
      | some true => .error .multipleSolutions
      | some false =>
        match evaluate inp o f.tree with
        | .error e => .error e
        | .ok st =>
          if o.validate = true then
            match semvalABNF (grammarOf st) with
            | some e => .error (.semantic e)
            | none => .ok (grammarOf st)
          else .ok (grammarOf st)

end Eval
end Verif
