import Verif.Bsr
import Verif.Forest

/-!
# The parser generator

Model of `GenerateGoParser` (/repo/codegen.go): what it emits and how the emitted program runs.

The emitted file consists of fixed text (`headerBoilerplate`, `queryBoilerplate`) and of text that depends on the
grammar: the cases of `process`, the calls of `seed`, the series literals and the metadata tables.  The part that
depends on the grammar is modelled as the list of Go statements written (`Stmt`), one constructor per
`Fprintf`/`WriteString` template; the fixed part is modelled as functions, like the rest of /repo.  Comments in the
emitted file, the name of the package and `format.Source` are not modelled.

The representation of the runtime state is that of `Verif.Bsr`: interned GSS nodes are their keys, maps used as
sets are lists, and the order of a `range` over a map is chosen by a schedule.
-/

namespace Verif
namespace Cg

/-! ## Numbering the slots -/

/-- `sInfo` (/repo/codegen.go:60-62). -/
structure SInfo where
  nt : Nat
  alt : Nat
  dot : Nat
  plen : Nat
  deriving DecidableEq

/-- The loop over alternates of `assignSlots` (/repo/codegen.go:86-91). -/
def assignAlts (nt : Nat) : Nat → List (List Sym) → List SInfo → List Nat × List SInfo
  | _, [], slots => ([], slots)
  | alt, prod :: rest, slots =>
    let out := assignAlts nt (alt + 1) rest
      (slots ++ (List.range (prod.length + 1)).map fun dot => ⟨nt, alt, dot, prod.length⟩)
    (slots.length :: out.1, out.2)

/-- The loop over nonterminals of `assignSlots` (/repo/codegen.go:83-92): `idOf` and `slots`. -/
def assignNTs : Nat → List NT → List SInfo → List (List Nat) × List SInfo
  | _, [], slots => ([], slots)
  | nt, n :: rest, slots =>
    let a := assignAlts nt 0 n.alts slots
    let out := assignNTs (nt + 1) rest a.2
    (a.1 :: out.1, out.2)

/-- `assignSlots` (/repo/codegen.go:79-93). -/
def assignSlots (sg : SG) : List (List Nat) × List SInfo := assignNTs 0 sg.nts []

/-- `codegen.startID` (/repo/codegen.go:76). -/
def startID (ids : List (List Nat)) (nt alt : Nat) : Nat := (ids.getD nt []).getD alt 0

/-- `codegen.compID` (/repo/codegen.go:77). -/
def compID (sg : SG) (ids : List (List Nat)) (nt alt : Nat) : Nat :=
  startID ids nt alt + ((sg.alts nt).getD alt []).length

/-! ## Emitted statements -/

/-- The statements `emitProcess` can write into a case (/repo/codegen.go:146-292). -/
inductive Stmt where
  /-- `p.pop(u, i)` (/repo/codegen.go:155). -/
  | pop
  /-- `return` (/repo/codegen.go:155, 202, 235, 238, 284). -/
  | ret
  /-- `v := p.create(ret, u, i, rc)` (/repo/codegen.go:172). -/
  | create (ret : Nat)
  /-- `crc := rc + 1` (/repo/codegen.go:178, 180). -/
  | crcNext
  /-- `if crc > m { crc = m }` (/repo/codegen.go:178). -/
  | crcCap (m : Nat)
  /-- `if crc >= m { p.add(id, v, i, crc) }` (/repo/codegen.go:182). -/
  | addIfGe (m id : Nat)
  /-- `if crc < m { p.add(id, v, i, crc) }` (/repo/codegen.go:186). -/
  | addIfLt (m id : Nat)
  /-- `p.add(id, v, i, crc)` (/repo/codegen.go:184). -/
  | addCrc (id : Nat)
  /-- `p.add(id, v, i, 0)` (/repo/codegen.go:191, 194, 199). -/
  | add0 (id : Nat)
  /-- `p.record(next, u.pos, i, i)` (/repo/codegen.go:207). -/
  | recordEps (next : Nat)
  /-- `p.record(next, u.pos, i, j)` (/repo/codegen.go:212). -/
  | record (next : Nat)
  /-- `i = j` (/repo/codegen.go:213). -/
  | setI
  /-- `L = next; continue` (/repo/codegen.go:208, 213). -/
  | goto (next : Nat)
  /-- `if i+n > len(p.input) { return }` (/repo/codegen.go:251). -/
  | needLen (n : Nat)
  /-- `if p.input[i+off] != b { return }` (/repo/codegen.go:255). -/
  | byteNe (off : Nat) (b : UInt8)
  /-- `if foldB(p.input[i+off]) != b { return }` (/repo/codegen.go:257). -/
  | foldNe (off : Nat) (b : UInt8)
  /-- `j := i + n` (/repo/codegen.go:260). -/
  | setJ (n : Nat)
  /-- `j := i` (/repo/codegen.go:264). -/
  | startJ
  /-- The block that decodes a rune at `j` and compares it (/repo/codegen.go:266-275). -/
  | runeNe (fold : Bool) (r : Nat)
  /-- `if i >= len(p.input) { return }` (/repo/codegen.go:227). -/
  | needOne
  /-- `rv, rs := utf8.DecodeRune(p.input[i:])` with the test for an error that follows
  (/repo/codegen.go:228-229). -/
  | decode
  /-- `if rv < lo || rv > hi { return }` (/repo/codegen.go:230). -/
  | outside (lo hi : Nat)
  /-- `j := i + rs` (/repo/codegen.go:231). -/
  | setJRune
  /-- `if i+len(seriesK) > len(p.input) || !bytesEqual(p.input[i:i+len(seriesK)], seriesK) { return }`
  (/repo/codegen.go:290). -/
  | seriesNe (k : Nat)
  /-- `j := i + len(seriesK)` (/repo/codegen.go:291). -/
  | setJSeries (k : Nat)
  deriving DecidableEq

/-- `foldByte` (/repo/codegen.go:433-438); `foldB` (/repo/codegen.go:515-520) is the same function. -/
def foldByte (b : UInt8) : UInt8 := if 65 ≤ b ∧ b ≤ 90 then b - 65 + 97 else b

/-- `foldRune` (/repo/codegen.go:440-445); `foldR` (/repo/codegen.go:522-527) is the same function. -/
def foldRune (r : Nat) : Nat := if 65 ≤ r ∧ r ≤ 90 then r - 65 + 97 else r

/-- `seriesVar` (/repo/codegen.go:294-307): the index and the table of literals. -/
def seriesVar (bs : Bytes) (series : List Bytes) : Nat × List Bytes :=
  match series.findIdx? (· == bs) with
  | some k => (k, series)
  | none => (series.length, series ++ [bs])

/-- `string(ru)` of all elements, or `none` when one is not a Unicode scalar value
(/repo/codegen.go:280-288). -/
def seriesBytes (base : Str) : List Str → Option Bytes
  | [] => some []
  | e :: es =>
    let r := numvalToRune e base
    if !validRune r then none
    else (seriesBytes base es).map fun bs => encodeRune (Char.ofNat r) ++ bs

/-- The byte tests of `emitCharVal` for an ASCII literal (/repo/codegen.go:252-259). -/
def emitBytes (sensitive : Bool) : Nat → List Char → List Stmt
  | _, [] => []
  | off, r :: rs =>
    let bb := UInt8.ofNat r.toNat
    (if sensitive then Stmt.byteNe off bb else .foldNe off (foldByte bb)) :: emitBytes sensitive (off + 1) rs

/-- `emitCharVal` (/repo/codegen.go:242-277). -/
def emitCharVal (sensitive : Bool) (vs : List Char) : List Stmt :=
  if vs.all (fun r => decide (r.toNat ≤ 0x7f)) then
    .needLen vs.length :: (emitBytes sensitive 0 vs ++ [.setJ vs.length])
  else
    .startJ :: vs.map fun r => if sensitive then .runeNe false r.toNat else .runeNe true (foldRune r.toNat)

/-- `emitSeries` (/repo/codegen.go:279-292). -/
def emitSeries (base : Str) (es : List Str) (series : List Bytes) : List Stmt × List Bytes :=
  match seriesBytes base es with
  | none => ([.ret], series)
  | some bs =>
    let out := seriesVar bs series
    ([.seriesNe out.1, .setJSeries out.1], out.2)

/-- `emitMatch` (/repo/codegen.go:216-240).  A range with fewer than two bounds would be an index panic in the
generator; such elements are excluded by well-formedness. -/
def emitMatch (e : Elem) (series : List Bytes) : List Stmt × List Bytes :=
  match e with
  | .charVal s vs => (emitCharVal s vs, series)
  | .numVal b .range es =>
    match es with
    | lo :: hi :: _ =>
      ([.needOne, .decode, .outside (numvalToRune lo b) (numvalToRune hi b), .setJRune], series)
    | _ => ([.ret], series)
  | .numVal b .series es => emitSeries b es series
  | _ => ([.ret], series)

/-- `emitTerminal` (/repo/codegen.go:205-214); a nonterminal does not reach it. -/
def emitTerminal (s : Sym) (next : Nat) (series : List Bytes) : List Stmt × List Bytes :=
  match s with
  | .term e =>
    let out := emitMatch e series
    (out.1 ++ [.record next, .setI, .goto next], out.2)
  | _ => ([.recordEps next, .goto next], series)

/-- `emitCall` (/repo/codegen.go:171-203). -/
def emitCall (sg : SG) (ids : List (List Nat)) (self callee retID : Nat) : List Stmt :=
  let ci := sg.nt callee
  .create retID ::
    ((if ci.isRep then
        if callee = self then
          match ci.repMax with
          | none =>
            [.crcNext, .crcCap ci.repMin, .addIfGe ci.repMin (startID ids callee 0),
              .addCrc (startID ids callee 1)]
          | some m =>
            [.crcNext, .addIfGe ci.repMin (startID ids callee 0), .addIfLt m (startID ids callee 1)]
        else
          (if ci.repMin = 0 then [.add0 (startID ids callee 0)] else []) ++
            (if (match ci.repMax with | none => true | some m => decide (0 < m)) then
              [.add0 (startID ids callee 1)] else [])
      else (List.range ci.alts.length).map fun alt => .add0 (startID ids callee alt)) ++ [.ret])

/-- One case of `emitProcess` (/repo/codegen.go:151-166). -/
def emitCase (sg : SG) (ids : List (List Nat)) (id : Nat) (s : SInfo) (series : List Bytes) :
    List Stmt × List Bytes :=
  if s.dot = s.plen then ([.pop, .ret], series)
  else
    match ((sg.alts s.nt).getD s.alt []).getD s.dot .eps with
    | .nt callee => (emitCall sg ids s.nt callee (id + 1), series)
    | sym => emitTerminal sym (id + 1) series

/-- The cases of `emitProcess` in order (/repo/codegen.go:151-166) with the literals collected on the way. -/
def emitCases (sg : SG) (ids : List (List Nat)) : Nat → List SInfo → List Bytes → List (List Stmt) × List Bytes
  | _, [], series => ([], series)
  | id, s :: rest, series =>
    let c := emitCase sg ids id s series
    let out := emitCases sg ids (id + 1) rest c.2
    (c.1 :: out.1, out.2)

/-- `scanUTF8` (/repo/codegen.go:110-134). -/
def scanUTF8 (sg : SG) : Bool :=
  sg.nts.any fun n => n.alts.any fun prod => prod.any fun s =>
    match s with
    | .term (.numVal _ .range _) => true
    | .term (.charVal _ vs) => vs.any fun r => decide (r.toNat > 0x7f)
    | _ => false

/-- `qSym` (/repo/codegen.go:471): the kinds of symbols in the metadata. -/
inductive QSym where
  | nt (id : Nat)
  | term
  | eps
  deriving DecidableEq

/-- What `emitMetadata` writes for a symbol (/repo/codegen.go:355-362). -/
def qSym : Sym → QSym
  | .nt id => .nt id
  | .eps => .eps
  | .term _ => .term

/-- `qNT` (/repo/codegen.go:474-478). -/
structure QNT where
  isRule : Bool
  ruleName : Str
  alts : List (List QSym)
  deriving DecidableEq

/-- The emitted program: everything in the file that depends on the grammar (/repo/codegen.go:95-108). -/
structure Prog where
  /-- The cases of `process`. -/
  cases : List (List Stmt)
  /-- The slots `seed` adds (/repo/codegen.go:309-315). -/
  seeds : List Nat
  /-- `series0`, `series1`, … (/repo/codegen.go:374-382). -/
  series : List Bytes
  /-- Whether `unicode/utf8` is imported (/repo/codegen.go:136-142). -/
  importUTF8 : Bool
  /-- `gRootName` (/repo/codegen.go:319). -/
  rootName : Str
  /-- `gStart` (/repo/codegen.go:320). -/
  start : Nat
  /-- `slotInfo` (/repo/codegen.go:322-326). -/
  slotInfo : List SInfo
  /-- `ntComplete` (/repo/codegen.go:328-338). -/
  ntComplete : List (List Nat)
  /-- `qNTs` (/repo/codegen.go:340-371). -/
  qNTs : List QNT
  deriving DecidableEq

/-- `emit` with `assignSlots` (/repo/codegen.go:51-52, 95-108). -/
def emit (sg : SG) (root : Str) : Prog :=
  let a := assignSlots sg
  let c := emitCases sg a.1 0 a.2 []
  { cases := c.1
    seeds := (List.range (sg.alts sg.start).length).map fun alt => startID a.1 sg.start alt
    series := c.2
    importUTF8 := scanUTF8 sg
    rootName := root
    start := sg.start
    slotInfo := a.2
    ntComplete := (List.range sg.nts.length).map fun nt =>
      (List.range (sg.alts nt).length).map fun alt => compID sg a.1 nt alt
    qNTs := sg.nts.map fun n => ⟨n.isRule, n.ruleName, n.alts.map fun p => p.map qSym⟩ }

/-- `defaultMaxSlots` (/repo/sppf.go:76). -/
def defaultMaxSlots : Nat := 65536

/-- `GenerateGoParser` (/repo/codegen.go:45-58).  `format.Source` parses the file but does not type-check it; every
file emitted is syntactically correct, so it never fails. -/
def generate (g : Grammar) (root : Str) : Except ParseErr Prog :=
  match compileSlots g root defaultMaxSlots with
  | .error e => .error e
  | .ok sg => .ok (emit sg root)

/-! ## The emitted runtime -/

/-- The emitted `bsrElem` (/repo/codegen.go:480-483). -/
structure GElem where
  sl : Nat
  l : Nat
  k : Nat
  r : Nat
  deriving DecidableEq

/-- The emitted `gssKey` (/repo/codegen.go:485-489). -/
structure GnKey where
  ret : Nat
  pos : Nat
  rc : Nat
  deriving DecidableEq

/-- An emitted `gnode` (/repo/codegen.go:491-497); `none` is `p.u0`. -/
abbrev GnNode := Option GnKey

/-- Field `pos` of a node (/repo/codegen.go:493, 878). -/
def gpos : GnNode → Nat
  | none => 0
  | some v => v.pos

/-- The emitted `desc` (/repo/codegen.go:499-502). -/
structure GDesc where
  L : Nat
  i : Nat
  rc : Nat
  u : GnNode
  deriving DecidableEq

/-- The emitted `parser` (/repo/codegen.go:504-513).  `fault` is not a field: it is set when the program would
panic on an index, or when it uses a variable that is not declared. -/
structure PSt where
  set : List GElem := []
  edges : List (GnKey × GnNode) := []
  popped : List (GnKey × Nat) := []
  seen : List GDesc := []
  work : List GDesc := []
  aborted : Bool := false
  fault : Bool := false
  tick : Nat := 0

section
variable (p : Prog) (inp : Bytes) (maxElements : Nat) (sched : Sched Nat)

/-- `parser.add` (/repo/codegen.go:541-548). -/
def add (d : GDesc) (st : PSt) : PSt :=
  if d ∈ st.seen then st else { st with seen := d :: st.seen, work := d :: st.work }

/-- Insertion into `p.set` (/repo/codegen.go:569). -/
def insert (e : GElem) (st : PSt) : PSt :=
  if e ∈ st.set then st else { st with set := e :: st.set }

/-- `parser.record` (/repo/codegen.go:562-571). -/
def record (L l k r : Nat) (st : PSt) : PSt :=
  match p.slotInfo[L]? with
  | none => { st with fault := true }
  | some si =>
    if si.dot ≥ 2 ∨ si.dot = si.plen then
      if maxElements > 0 ∧ st.set.length ≥ maxElements then { st with aborted := true }
      else insert ⟨L, l, k, r⟩ st
    else st

/-- One round of the loops of `create` and `pop` (/repo/codegen.go:579-580, 595-596). -/
def resume (v : GnKey) (u : GnNode) (j : Nat) (st : PSt) : PSt :=
  add ⟨v.ret, j, v.rc, u⟩ (record p maxElements v.ret (gpos u) v.pos j st)

/-- `p.popped[v]`. -/
def poppedOf (v : GnKey) (st : PSt) : List Nat := (st.popped.filter fun q => q.1 = v).map Prod.snd

/-- `u.edges`. -/
def edgesOf (v : GnKey) (st : PSt) : List GnNode := (st.edges.filter fun q => q.1 = v).map Prod.snd

/-- `parser.create` (/repo/codegen.go:573-584) with `gssNodeFor` (/repo/codegen.go:550-558); the node returned is `⟨ret, i, rc⟩`. -/
def create (ret : Nat) (u : GnNode) (i rc : Nat) (st : PSt) : PSt :=
  let v : GnKey := ⟨ret, i, rc⟩
  if (v, u) ∈ st.edges then st
  else
    let js := sched st.tick (poppedOf v st)
    let st := { st with edges := st.edges ++ [(v, u)], tick := st.tick + 1 }
    js.foldl (fun st j => resume p maxElements v u j st) st

/-- `parser.pop` (/repo/codegen.go:586-598). -/
def pop (u : GnNode) (j : Nat) (st : PSt) : PSt :=
  match u with
  | none => st
  | some v =>
    let st := if (v, j) ∈ st.popped then st else { st with popped := (v, j) :: st.popped }
    (edgesOf v st).foldl (fun st u => resume p maxElements v u j st) st

/-- The variables of `process` in a case: `i`, and those the case declares. -/
structure Env where
  i : Nat
  j : Option Nat := none
  v : Option GnKey := none
  crc : Option Nat := none
  /-- `rv, rs`. -/
  dec : Option (Nat × Nat) := none

/-- How a case ends: `return`, or `continue` with new values of `L` and `i`. -/
inductive Out where
  | ret (st : PSt)
  | cont (L i : Nat) (st : PSt)

/-- The program panics, or would not have compiled. -/
def faulty (st : PSt) : Out := .ret { st with fault := true }

/-- The statements of a case, with `u` and `rc` of the descriptor (/repo/codegen.go:146-292). -/
def exec (u : GnNode) (rc L : Nat) : List Stmt → Env → PSt → Out
  | [], e, st => .cont L e.i st
  | s :: rest, e, st =>
    match s with
    | .pop => exec u rc L rest e (pop p maxElements u e.i st)
    | .ret => .ret st
    | .create ret =>
      exec u rc L rest { e with v := some ⟨ret, e.i, rc⟩ } (create p maxElements sched ret u e.i rc st)
    | .crcNext => exec u rc L rest { e with crc := some (rc + 1) } st
    | .crcCap m =>
      match e.crc with
      | none => faulty st
      | some c => exec u rc L rest { e with crc := some (if c > m then m else c) } st
    | .addIfGe m id =>
      match e.crc, e.v with
      | some c, some v => exec u rc L rest e (if c ≥ m then add ⟨id, e.i, c, some v⟩ st else st)
      | _, _ => faulty st
    | .addIfLt m id =>
      match e.crc, e.v with
      | some c, some v => exec u rc L rest e (if c < m then add ⟨id, e.i, c, some v⟩ st else st)
      | _, _ => faulty st
    | .addCrc id =>
      match e.crc, e.v with
      | some c, some v => exec u rc L rest e (add ⟨id, e.i, c, some v⟩ st)
      | _, _ => faulty st
    | .add0 id =>
      match e.v with
      | some v => exec u rc L rest e (add ⟨id, e.i, 0, some v⟩ st)
      | none => faulty st
    | .recordEps next => exec u rc L rest e (record p maxElements next (gpos u) e.i e.i st)
    | .record next =>
      match e.j with
      | some j => exec u rc L rest e (record p maxElements next (gpos u) e.i j st)
      | none => faulty st
    | .setI =>
      match e.j with
      | some j => exec u rc L rest { e with i := j } st
      | none => faulty st
    | .goto next => .cont next e.i st
    | .needLen n => if e.i + n > inp.length then .ret st else exec u rc L rest e st
    | .byteNe off b =>
      match inp[e.i + off]? with
      | none => faulty st
      | some x => if x ≠ b then .ret st else exec u rc L rest e st
    | .foldNe off b =>
      match inp[e.i + off]? with
      | none => faulty st
      | some x => if foldByte x ≠ b then .ret st else exec u rc L rest e st
    | .setJ n => exec u rc L rest { e with j := some (e.i + n) } st
    | .startJ => exec u rc L rest { e with j := some e.i } st
    | .runeNe fold r =>
      match e.j with
      | none => faulty st
      | some j =>
        if j ≥ inp.length then .ret st
        else match decodeRune (inp.drop j) with
          | none => .ret st
          | some (c, size) =>
            if (if fold then foldRune c.toNat else c.toNat) ≠ r then .ret st
            else exec u rc L rest { e with j := some (j + size) } st
    | .needOne => if e.i ≥ inp.length then .ret st else exec u rc L rest e st
    | .decode =>
      if e.i > inp.length then faulty st
      else match decodeRune (inp.drop e.i) with
        | none => .ret st
        | some (c, size) => exec u rc L rest { e with dec := some (c.toNat, size) } st
    | .outside lo hi =>
      match e.dec with
      | none => faulty st
      | some (rv, _) => if rv < lo ∨ rv > hi then .ret st else exec u rc L rest e st
    | .setJRune =>
      match e.dec with
      | none => faulty st
      | some (_, rs) => exec u rc L rest { e with j := some (e.i + rs) } st
    | .seriesNe k =>
      match p.series[k]? with
      | none => faulty st
      | some bs =>
        if e.i + bs.length > inp.length ∨ (inp.drop e.i).take bs.length ≠ bs then .ret st
        else exec u rc L rest e st
    | .setJSeries k =>
      match p.series[k]? with
      | none => faulty st
      | some bs => exec u rc L rest { e with j := some (e.i + bs.length) } st

/-- The loop of `process` (/repo/codegen.go:150-168); running out of fuel is a fault. -/
def processLoop (u : GnNode) (rc : Nat) : Nat → Nat → Nat → PSt → PSt
  | 0, _, _, st => { st with fault := true }
  | fuel + 1, L, i, st =>
    match p.cases[L]? with
    | none => st
    | some body =>
      match exec p inp maxElements sched u rc L body { i := i } st with
      | .ret st => st
      | .cont L i st => processLoop u rc fuel L i st

/-- `process` (/repo/codegen.go:146-169). -/
def process (d : GDesc) (st : PSt) : PSt :=
  processLoop p inp maxElements sched d.u d.rc (p.cases.length + 1) d.L d.i st

/-- How the loop of `Parse` ends: `ErrTooLarge`, or the loop is over. -/
inductive Stop where
  | tooLarge (st : PSt)
  | done (st : PSt)

/-- The loop of `Parse` (/repo/codegen.go:880-887); `none` is "out of fuel". -/
def parseLoop : Nat → PSt → Option Stop
  | fuel, st =>
    match st.work with
    | [] => some (.done st)
    | d :: work =>
      if st.aborted then some (.tooLarge st)
      else
        match fuel with
        | 0 => none
        | fuel + 1 => parseLoop fuel (process p inp maxElements sched d { st with work := work })

/-- The state after `seed` (/repo/codegen.go:309-315, 871-879). -/
def seeded : PSt := p.seeds.foldl (fun st id => add ⟨id, 0, 0, none⟩ st) {}

end

/-- `Result` (/repo/codegen.go:623-629); `index` is computed from `set` on demand and `n` is the length of the
input. -/
structure Result where
  input : Bytes
  set : List GElem
  deriving DecidableEq

/-- How a call to the emitted `Parse` ends. -/
inductive Outcome where
  /-- `nil, ErrTooLarge`. -/
  | tooLarge
  /-- A `Result` and a nil error. -/
  | result (r : Result)
  /-- A panic. -/
  | panic
  /-- It does not return within the fuel. -/
  | diverges

/-- The emitted `Parse` (/repo/codegen.go:869-889), run for at most `fuel` rounds, with the value of the variable
`MaxElements`. -/
def parse (p : Prog) (maxElements : Nat) (sched : Sched Nat) (fuel : Nat) (inp : Bytes) : Outcome :=
  match parseLoop p inp maxElements sched fuel (seeded p) with
  | none => .diverges
  | some (.tooLarge st) => if st.fault then .panic else .tooLarge
  | some (.done st) => if st.fault then .panic else .result ⟨inp, st.set⟩

/-- `r.index[bsrKey{sl, l, rr}]` (/repo/codegen.go:631-640), in the order of the list. -/
def Result.pivots (r : Result) (sl l rr : Nat) : List Nat :=
  (r.set.filter fun e => e.sl = sl ∧ e.l = l ∧ e.r = rr).map GElem.k

/-- `Result.Valid` (/repo/codegen.go:642-651). -/
def Result.valid (p : Prog) (r : Result) : Bool :=
  (p.ntComplete.getD p.start []).any fun sl => (r.pivots sl 0 r.input.length).length > 0

/-- `Result.Elements` (/repo/codegen.go:653-654). -/
def Result.elements (r : Result) : Nat := r.set.length

/-! ## The emitted queries

The searches are those of `Verif.Packed`, over the nodes of the emitted program. -/

/-- The emitted `nodeID` (/repo/codegen.go:617-621): a symbol node has `sl = -1`, an intermediate one `nt = -1`. -/
inductive NodeID where
  | sym (nt l r : Nat)
  | inter (sl l r : Nat)
  deriving DecidableEq

/-- `slotInfo[sl]`; the slots of a result are in the table (`Verif.CodegenQuery`). -/
def Prog.info (p : Prog) (sl : Nat) : SInfo := p.slotInfo.getD sl ⟨0, 0, 0, 0⟩

/-- `qNTs[nt]`. -/
def Prog.qnt (p : Prog) (nt : Nat) : QNT := p.qNTs.getD nt ⟨false, [], []⟩

/-- `qNTs[si.nt].alts[si.alt]` (/repo/codegen.go:677-678, 753-754, 826-827). -/
def Prog.prod (p : Prog) (sl : Nat) : List QSym := (p.qnt (p.info sl).nt).alts.getD (p.info sl).alt []

/-- `ntComplete[nt]`. -/
def Prog.complete (p : Prog) (nt : Nat) : List Nat := p.ntComplete.getD nt []

/-- `symWays` and `symOf` (/repo/codegen.go:670-675, 746-751): the node a symbol leads to. -/
def qKid (s : QSym) (a b : Nat) : List NodeID :=
  match s with
  | .nt n => [.sym n a b]
  | _ => []

/-- `countElem` and `elemAmb` (/repo/codegen.go:676-690, 752-766): the nodes an element leads to, in the order they
are visited. -/
def qElemKids (p : Prog) (sl l k r : Nat) : List NodeID :=
  qKid ((p.prod sl).getD ((p.info sl).dot - 1) .eps) k r ++
    (if (p.info sl).dot = 1 then []
    else if (p.info sl).dot = 2 then qKid ((p.prod sl).getD 0 .eps) l k
    else [.inter (sl - 1) l k])

/-- The elements of a node (/repo/codegen.go:702-704, 720-724, 773-781, 790-803). -/
def Result.packsOf (p : Prog) (r : Result) : NodeID → List (List NodeID)
  | .sym n l rr => (p.complete n).flatMap fun sl => (r.pivots sl l rr).map fun k => qElemKids p sl l k rr
  | .inter sl l rr => (r.pivots sl l rr).map fun k => qElemKids p sl l k rr

/-- The root of the searches (/repo/codegen.go:729, 806). -/
def Result.root (p : Prog) (r : Result) : NodeID := .sym p.start 0 r.input.length

/-- Fuel for a search. -/
def Result.fuel (r : Result) : Nat := r.set.length + 2

/-- `Result.NumTrees` (/repo/codegen.go:656-734); `none` is "out of fuel". -/
def Result.numTrees (p : Prog) (r : Result) : Option Int :=
  if r.valid p then numTreesFrom (r.packsOf p) false r.fuel (r.root p) else some 0

/-- `Result.Ambiguous` (/repo/codegen.go:736-807). -/
def Result.ambiguous (p : Prog) (r : Result) : Option Bool :=
  if r.valid p then ambiguousFrom (r.packsOf p) r.fuel (r.root p) else some false

/-- The first complete slot with a pivot, and the pivot (/repo/codegen.go:815-816, 853-854). -/
def Result.pick (p : Prog) (r : Result) (n a b : Nat) : Option (Nat × Nat) :=
  (p.complete n).findSome? fun sl => (r.pivots sl a b).head?.map fun k => (sl, k)

/-- `Result.collectChild` (/repo/codegen.go:840-867); `visited` is set before and cleared after each call, so it is
passed down. -/
def Result.collectChild (p : Prog) (r : Result)
    (rec : List NodeID → Nat → Nat → Nat → Nat → Option (List ParseTree)) (visited : List NodeID)
    (s : QSym) (a b : Nat) : Option (List ParseTree) :=
  match s with
  | .eps => some []
  | .term => some [.node [] a b []]
  | .nt n =>
    if NodeID.sym n a b ∈ visited then some []
    else
      match r.pick p n a b with
      | none => some []
      | some (sl, k) =>
        (rec (.sym n a b :: visited) sl a k b).map fun ch =>
          if (p.qnt n).isRule then [.node (p.qnt n).ruleName a b ch] else ch

/-- `Result.collectElem` (/repo/codegen.go:825-838). -/
def Result.collectElem (p : Prog) (r : Result) :
    Nat → List NodeID → Nat → Nat → Nat → Nat → Option (List ParseTree)
  | 0, _, _, _, _, _ => none
  | fuel + 1, visited, sl, l, k, rr =>
    let pre :=
      if (p.info sl).dot = 1 then some []
      else if (p.info sl).dot = 2 then
        r.collectChild p (r.collectElem p fuel) visited ((p.prod sl).getD 0 .eps) l k
      else
        match r.pivots (sl - 1) l k with
        | [] => some []
        | k' :: _ => r.collectElem p fuel visited (sl - 1) l k' k
    pre.bind fun a =>
      (r.collectChild p (r.collectElem p fuel) visited ((p.prod sl).getD ((p.info sl).dot - 1) .eps) k rr).map
        fun b => a ++ b

/-- `Result.Tree` (/repo/codegen.go:809-823) with the fuel as a parameter; `none` is `nil` or "out of fuel". -/
def Result.treeWith (p : Prog) (r : Result) (fuel : Nat) : Option ParseTree :=
  if r.valid p then
    match r.pick p p.start 0 r.input.length with
    | none => none
    | some (sl, k) =>
      (r.collectElem p fuel [] sl 0 k r.input.length).map fun ch =>
        .node (p.qnt p.start).ruleName 0 r.input.length ch
  else none

end Cg
end Verif
