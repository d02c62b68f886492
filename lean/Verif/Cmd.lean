import Verif.PropsAbnf
import Verif.PropsGen
import Verif.PropsRegex
import Verif.Mermaid
import Verif.Sizes

/-!
# The command line tools

Model of /repo/cmd/pap/commands and /repo/cmd/abnf-gen.  The reading of flags by `urfave/cli` and `flag` is left out: a
flag is `none` if it is not set.  A command that returns an error writes nothing to the standard output and ends with
status 1; otherwise the value is what it writes to the standard output, and the status is 0.
-/

namespace Verif
namespace Cli
open Spec Text Eval Props

/-- What a command can read: the standard input, and files by name; `none` is an error of `os.ReadFile`. -/
structure World where
  stdin : Bytes
  files : Str → Option Bytes

/-- The errors of the commands. -/
inductive CliErr where
  | read
  | abnf (e : AbnfErr)
  | generate (e : Verif.GenErr)
  | regex (e : RegexErr)
  | graph (e : TgErr)

/-- `readInput` (/repo/cmd/pap/commands/utils.go:11-18). -/
def readInput (w : World) (input : Str) : Option Bytes := if input = ['-'] then some w.stdin else w.files input

/-- `findSeed` (/repo/cmd/pap/commands/utils.go:20-29); `b` is the byte `rand.Read` gives. -/
def findSeed (seed : Option Int) (b : UInt8) : Int :=
  match seed with
  | some s => s
  | none => b.toNat

/-- Reading the grammar, as all commands do (/repo/cmd/pap/commands/validate.go:31-44, generate.go:43-52,
regex.go:30-39, transition_graph.go:42-51). -/
def readGrammar (w : World) (sched : Sched NodeKey) (input : Str) (opts : List ABNFOption) : Except CliErr Grammar :=
  match readInput w input with
  | none => .error .read
  | some src =>
    match parseABNF sched src opts with
    | .error e => .error (.abnf e)
    | .ok g => .ok g

/-- The options of `validate` (/repo/cmd/pap/commands/validate.go:37-40). -/
def validateOpts (semVal : Option Bool) : List ABNFOption :=
  match semVal with
  | none => []
  | some b => [.withValidation b]

/-- `validate` (/repo/cmd/pap/commands/validate.go:30-48); `order` is the order in which `PrettyPrint` visits the map. -/
def papValidate (w : World) (sched : Sched NodeKey) (order : List Rule → List Rule) (input : Str) (semVal : Option Bool) :
    Except CliErr Bytes :=
  match readGrammar w sched input (validateOpts semVal) with
  | .error e => .error e
  | .ok g => .ok (utf8 (Grammar.pretty ⟨order g.rules⟩) ++ [0x0A])

/-- The options of `generate` (/repo/cmd/pap/commands/generate.go:55-61). -/
def genOpts (repMax threshold : Option Int) : GenOpts :=
  let o : GenOpts := {}
  let o := match repMax with | none => o | some n => { o with repMax := n }
  match threshold with | none => o | some n => { o with threshold := n }

/-- `generate` (/repo/cmd/pap/commands/generate.go:42-69); `stream s` are the numbers of `rand.NewSource(s)`. -/
def papGenerate (w : World) (sched : Sched NodeKey) (stream : Int → Nat → Nat) (b : UInt8) (fuel : Nat) (input name : Str)
    (seed repMax threshold : Option Int) : Run (Except CliErr Bytes) :=
  match readGrammar w sched input [] with
  | .error e => .ok (.error e)
  | .ok g =>
    (generate (stream (findSeed seed b)) (genOpts repMax threshold) g fuel name).bnd fun r =>
      match r with
      | .error e => .ok (.error (.generate e))
      | .ok out => .ok (.ok (out ++ [0x0A]))

/-- `regex` (/repo/cmd/pap/commands/regex.go:29-49); `core` and `order` are orders of map iteration, for each grammar. -/
def papRegex (w : World) (sched : Sched NodeKey) (core : List Rule) (order : Grammar → List Str) (input name : Str) :
    Except CliErr Bytes :=
  match readGrammar w sched input [] with
  | .error e => .error e
  | .ok g =>
    match regex core (order g) g 0 name with
    | .error e => .error (.regex e)
    | .ok out => .ok (utf8 out ++ [0x0A])

/-- The flags of `transition-graph` (/repo/cmd/pap/commands/transition_graph.go:26-37). -/
structure TgFlags where
  rules : Option Bool := none
  chars : Option Bool := none
  nums : Option Bool := none
  threshold : Option Int := none

/-- The options of `transition-graph` (/repo/cmd/pap/commands/transition_graph.go:54-66). -/
def tgOpts (f : TgFlags) : TgOpts :=
  let o : TgOpts := {}
  let o := if f.rules.isSome then { o with rules := true } else o
  let o := if f.chars.isSome then { o with chars := true } else o
  let o := if f.nums.isSome then { o with nums := true } else o
  match f.threshold with | none => o | some n => { o with threshold := n }

/-- `transitionGraph` (/repo/cmd/pap/commands/transition_graph.go:41-76); `core`, `order` and `visit` are orders of map
iteration, `ident` the identifiers of the nodes. -/
def papTransitionGraph (w : World) (sched : Sched NodeKey) (core : List Rule) (order : Grammar → List Str) (ident : Nat → Str)
    (visit : List Nat → List Nat) (input name : Str) (fl : TgFlags) : Run (Except CliErr Bytes) :=
  match readGrammar w sched input [] with
  | .error e => .ok (.error e)
  | .ok g =>
    (transitionGraph (tgOpts fl) core g (order g) name).bnd fun r =>
      match r with
      | .error e => .ok (.error (.graph e))
      | .ok (f, h) => (toMermaid ident visit f h).bnd fun s => .ok (.ok (utf8 s ++ [0x0A]))

/-- The flags of `abnf-gen` (/repo/cmd/abnf-gen/main.go:30-34). -/
structure GenFlags where
  inp : Str := []
  out : Str := ['-']
  root : Str := []
  pkg : Str := []
  noValidate : Bool := false

/-- The errors of `abnf-gen`. -/
inductive RunErr where
  | missing (flag : Str)
  | read
  | generate (e : Props.GenErr)
  | write

/-- `run` (/repo/cmd/abnf-gen/main.go:28-72): where the program goes, `none` being the standard output, and the program.
The package name appears in the text of the program only.  `canWrite` tells which files can be written. -/
def abnfGen (w : World) (canWrite : Str → Bool) (sched : Sched NodeKey) (fl : GenFlags) : Except RunErr (Option Str × Cg.Prog) :=
  if fl.inp = [] then .error (.missing (str% "in"))
  else if fl.root = [] then .error (.missing (str% "root"))
  else if fl.pkg = [] then .error (.missing (str% "pkg"))
  else
    match w.files fl.inp with
    | none => .error .read
    | some src =>
      match generateFromABNF sched src fl.root (if fl.noValidate then [.withValidation false] else []) with
      | .error e => .error (.generate e)
      | .ok p =>
        if fl.out = ['-'] then .ok (none, p)
        else if canWrite fl.out then .ok (some fl.out, p)
        else .error .write

/-! ## Reading the grammar -/

theorem readGrammar_ok {w : World} {sched : Sched NodeKey} {input : Str} {opts : List ABNFOption} {g : Grammar} :
    readGrammar w sched input opts = .ok g ↔ ∃ src, readInput w input = some src ∧ parseABNF sched src opts = .ok g := by
  unfold readGrammar
  cases readInput w input with
  | none => simp
  | some src =>
    cases h : parseABNF sched src opts with
    | error e => simp [h]
    | ok g' => simp [h]

theorem papValidate_ok {w : World} {sched : Sched NodeKey} {order : List Rule → List Rule} {input : Str} {semVal : Option Bool}
    {out : Bytes} : papValidate w sched order input semVal = .ok out ↔
      ∃ g, readGrammar w sched input (validateOpts semVal) = .ok g ∧ out = utf8 (Grammar.pretty ⟨order g.rules⟩) ++ [0x0A] := by
  unfold papValidate
  generalize readGrammar w sched input (validateOpts semVal) = x
  cases x with
  | error e => simp
  | ok g =>
    constructor
    · intro h; exact ⟨g, rfl, (Except.ok.inj h).symm⟩
    · rintro ⟨_, h1, rfl⟩; cases h1; rfl

/-- The input is a source text with the definitions `ds`, read as RFC 5234 has it, without the two traps of C78. -/
structure Says (src : Bytes) (ds : List Def) : Prop where
  reads : ∃ s, src = utf8 s ∧ ReadsFile rfc s ds ∧ Quiet s
  fits : ∀ d ∈ ds, ∀ r ∈ altReps d.alt, Fits r

theorem Says.parses {src : Bytes} {ds : List Def} (h : Says src ds) (sched : Sched NodeKey) (hf : sched.Fair) (opts : List ABNFOption)
    (hrc : (processOptions opts).redefineCore = false) (g : Grammar) :
    parseABNF sched src opts = .ok g ↔
      g = ⟨rulesOf ds⟩ ∧ Ordered ds ∧ ((processOptions opts).validate = true → Props.Sound ⟨rulesOf ds⟩) := by
  obtain ⟨⟨s, rfl, h1, h3⟩, h2⟩ := h
  rw [C78_exact_partial sched hf opts s ds h1 h2 h3 (.inl hrc) g]
  obtain ⟨rs⟩ := g
  constructor
  · rintro ⟨h6, rfl, h7⟩
    exact ⟨rfl, h6, h7⟩
  · rintro ⟨h6, h4, h7⟩
    cases h6
    exact ⟨h4, rfl, h7⟩

theorem Says.sched {src : Bytes} {ds : List Def} (h : Says src ds) {s s' : Sched NodeKey} (hs : s.Fair) (hs' : s'.Fair)
    (opts : List ABNFOption) : parseABNF s src opts = parseABNF s' src opts := by
  obtain ⟨⟨t, rfl, h1, h3⟩, h2⟩ := h
  rw [parseABNF_reads s hs opts t ds (file_code h1 h2 h3), parseABNF_reads s' hs' opts t ds (file_code h1 h2 h3)]

theorem tgOpts_nums (fl : TgFlags) : (tgOpts fl).nums = fl.nums.isSome := by
  obtain ⟨a, b, c, d⟩ := fl
  cases a <;> cases b <;> cases c <;> cases d <;> rfl

/-- The options of `validate` never allow redefining core rules, and validate unless told not to. -/
theorem validate_opts (semVal : Option Bool) :
    processOptions (validateOpts semVal) = ⟨semVal ≠ some false, false⟩ := by
  rcases semVal with _ | _ | _ <;> rfl

/-- What is printed, if the command succeeds. -/
def stdoutOf : Run (Except CliErr Bytes) → Option Bytes
  | .ok (.ok out) => some out
  | _ => none

theorem stdoutOf_some {x : Run (Except CliErr Bytes)} {out : Bytes} (h : stdoutOf x = some out) : x = .ok (.ok out) := by
  unfold stdoutOf at h
  split at h
  · cases h; rfl
  · cases h

theorem lineEnd_crlf {s : Str} (h : LineEnd s) : ∃ t, s = t ++ ['\r', '\n'] := by
  cases h with
  | plain => exact ⟨[], rfl⟩
  | comment s _ => exact ⟨';' :: s, rfl⟩

/-- A source text ends with an end of line. -/
theorem lines_crlf {cv : Conv} {s : Str} {ds : List Def} (h : ReadsLines cv s ds) : s = [] ∨ ∃ t, s = t ++ ['\r', '\n'] := by
  have key : ∀ (a nl t : Str), LineEnd nl → (t = [] ∨ ∃ u, t = u ++ ['\r', '\n']) → ∃ u, a ++ (nl ++ t) = u ++ ['\r', '\n'] := by
    rintro a nl t h (rfl | ⟨u, rfl⟩)
    · obtain ⟨u, rfl⟩ := lineEnd_crlf h
      exact ⟨a ++ u, by simp⟩
    · exact ⟨a ++ (nl ++ u), by simp⟩
  induction h with
  | nil => exact .inl rfl
  | rule s d t ds hr _ ih =>
    right
    cases hr with
    | define n g₁ g₂ s a ws nl _ _ _ _ _ hnl =>
      obtain ⟨u, hu⟩ := key (n ++ (g₁ ++ '=' :: (g₂ ++ (s ++ ws)))) nl t hnl ih
      exact ⟨u, by rw [← hu]; simp⟩
    | extend n g₁ g₂ s a ws nl _ _ _ _ _ hnl =>
      obtain ⟨u, hu⟩ := key (n ++ (g₁ ++ '=' :: '/' :: (g₂ ++ (s ++ ws)))) nl t hnl ih
      exact ⟨u, by rw [← hu]; simp⟩
  | blank ws nl t ds _ hnl _ ih =>
    right
    obtain ⟨u, hu⟩ := key ws nl t hnl ih
    exact ⟨u, hu⟩

end Cli

namespace Props
open Spec Text Eval Cli

/-! ## C90, C91: `pap validate` -/

/-- C90.  The exit status of `pap validate`: for an input that is not an ABNF text it reports a syntax error and where it is;
for a text with the definitions `ds` it succeeds exactly if every name is defined once before it is extended and, unless
`--sem-val=false` is given, the grammar is sound. -/
theorem C90_status (w : World) (sched : Sched NodeKey) (hf : sched.Fair) (order : List Rule → List Rule) (input : Str)
    (semVal : Option Bool) (src : Bytes) (hin : readInput w input = some src) :
    ((¬ ∃ s ds, src = utf8 s ∧ ReadsFile rfc s ds) →
      ∃ e, papValidate w sched order input semVal = .error (.abnf (.syntax (some e)))) ∧
    ∀ ds, Says src ds → ((∃ out, papValidate w sched order input semVal = .ok out) ↔
      Ordered ds ∧ (semVal ≠ some false → Sound ⟨rulesOf ds⟩)) := by
  constructor
  · intro h
    obtain ⟨e, he⟩ := parseABNF_rejects sched hf (validateOpts semVal) src h
    refine ⟨e, ?_⟩
    unfold papValidate readGrammar
    rw [hin]
    simp only
    rw [he]
  · intro ds h
    have hv := validate_opts semVal
    have hp := h.parses sched hf (validateOpts semVal) (by rw [hv])
    rw [hv] at hp
    simp only [papValidate_ok, readGrammar_ok]
    constructor
    · rintro ⟨_, g, ⟨_, h1, h2⟩, _⟩
      rw [hin] at h1
      cases h1
      obtain ⟨rfl, h3, h4⟩ := (hp g).mp h2
      exact ⟨h3, fun h5 => h4 (by simpa using h5)⟩
    · rintro ⟨h1, h2⟩
      exact ⟨_, _, ⟨src, hin, (hp ⟨rulesOf ds⟩).mpr ⟨rfl, h1, fun h3 => h2 (by simpa using h3)⟩⟩, rfl⟩

/-- C90.  Where the text comes from: standard input for `-`, a file for anything else; if that cannot be read, every command
fails before it does anything else. -/
theorem C90_input (w : World) (input : Str) : readInput w ['-'] = some w.stdin ∧ (input ≠ ['-'] → readInput w input = w.files input) ∧
    (readInput w input = none → ∀ sched opts, readGrammar w sched input opts = .error .read) := by
  refine ⟨rfl, fun h => if_neg h, fun h sched opts => ?_⟩
  unfold readGrammar
  rw [h]

/-- C90.  What `pap validate` prints: the rules of the text, in some order, and a line feed. -/
theorem C90_prints (w : World) (sched : Sched NodeKey) (hf : sched.Fair) (order : List Rule → List Rule)
    (ho : ∀ l, (order l).Perm l) (input : Str) (semVal : Option Bool) (src : Bytes) (hin : readInput w input = some src)
    (ds : List Def) (h : Says src ds) (out : Bytes) (hout : papValidate w sched order input semVal = .ok out) :
    ∃ rs, rs.Perm (rulesOf ds) ∧ out = utf8 (Grammar.pretty ⟨rs⟩) ++ [0x0A] := by
  obtain ⟨g, hr, rfl⟩ := papValidate_ok.mp hout
  obtain ⟨src', h1, h2⟩ := readGrammar_ok.mp hr
  rw [hin] at h1
  cases h1
  obtain ⟨rfl, h3, h4⟩ := (h.parses sched hf _ (by rw [validate_opts]) g).mp h2
  exact ⟨_, ho _, rfl⟩

/-- C91 is false: what `pap validate` prints is never an ABNF text, because of the line feed it adds. -/
theorem C91_fails (w : World) (sched : Sched NodeKey) (order : List Rule → List Rule) (input : Str)
    (semVal : Option Bool) (out : Bytes) (hout : papValidate w sched order input semVal = .ok out)
    (sched' : Sched NodeKey) (hf' : sched'.Fair) (opts : List ABNFOption) :
    ∃ e, parseABNF sched' out opts = .error (.syntax (some e)) := by
  refine parseABNF_rejects sched' hf' opts out ?_
  rintro ⟨s, ds, he, h0, h⟩
  obtain ⟨t, rfl⟩ := (lines_crlf h).resolve_left h0
  obtain ⟨g, hr, hout⟩ := papValidate_ok.mp hout
  rw [hout] at he
  have e1 : utf8 (t ++ ['\r', '\n']) = utf8 (t ++ ['\r']) ++ [0x0A] := by
    rw [show t ++ ['\r', '\n'] = (t ++ ['\r']) ++ ['\n'] by simp, utf8_append]
    rfl
  rw [e1] at he
  have h2 := utf8_inj (List.append_cancel_right he)
  generalize order g.rules = rs at h2
  unfold Grammar.pretty at h2
  simp only at h2
  generalize rs.foldl (fun m r => max m (utf8 r.name).length) 0 = k at h2
  rcases List.eq_nil_or_concat rs with rfl | ⟨l, r, rfl⟩
  · simp at h2
  · rw [List.concat_eq_append, List.flatMap_append, List.flatMap_singleton] at h2
    have := congrArg List.getLast? h2
    rw [List.getLast?_concat, List.getLast?_append, List.getLast?_append, List.getLast?_append, List.getLast?_append,
      List.getLast?_append] at this
    simp at this

/-- C91, part.  Without its last byte, what `pap validate` prints is read back as the rules of the text; missing: the line feed
(`C91_fails`), `%s` (C79) and texts without rules. -/
theorem C91_trimmed_partial (w : World) (sched : Sched NodeKey) (hf : sched.Fair) (order : List Rule → List Rule)
    (ho : ∀ l, (order l).Perm l) (input : Str) (semVal : Option Bool) (src : Bytes) (hin : readInput w input = some src)
    (ds : List Def) (h : Says src ds) (out : Bytes) (hout : papValidate w sched order input semVal = .ok out)
    (h0 : rulesOf ds ≠ []) (hi : ∀ p ∈ (rulesOf ds).flatMap (fun r => altStrings r.alt), p.1 = false)
    (sched' : Sched NodeKey) (hf' : sched'.Fair) :
    ∃ g, parseABNF sched' out.dropLast (validateOpts semVal) = .ok g ∧ g.rules.Perm (rulesOf ds) := by
  obtain ⟨g, hr, rfl⟩ := papValidate_ok.mp hout
  obtain ⟨src', h1, h2⟩ := readGrammar_ok.mp hr
  rw [hin] at h1
  cases h1
  have hrc : (processOptions (validateOpts semVal)).redefineCore = false := by rw [validate_opts]
  obtain ⟨rfl, h3, h4⟩ := (h.parses sched hf _ hrc g).mp h2
  refine ⟨⟨order (rulesOf ds)⟩, ?_, ho _⟩
  rw [List.dropLast_concat]
  exact (C79_parsed_partial sched hf _ src _ hrc h2 h0 hi ⟨order (rulesOf ds)⟩ (ho _) sched' hf').2

theorem src_says : Says (utf8 srcText) srcDefs := ⟨⟨_, rfl, src_reads, src_quiet⟩, by unfold Fits; decide⟩

/-- A world whose standard input is the text of the examples of C78. -/
def srcWorld : World := ⟨utf8 srcText, fun _ => none⟩

/-- C90 and C91 for that text. -/
example (sched : Sched NodeKey) (hf : sched.Fair) : readInput srcWorld ['-'] = some (utf8 srcText) ∧ Says (utf8 srcText) srcDefs ∧
    papValidate srcWorld sched id ['-'] none = .ok (utf8 (str% "a = \"x\" / 2*3%x41-5A\r\n\n")) ∧ rulesOf srcDefs ≠ [] ∧
    ∀ p ∈ (rulesOf srcDefs).flatMap (fun r => altStrings r.alt), p.1 = false := by
  refine ⟨rfl, src_says, papValidate_ok.mpr ⟨srcGrammar, readGrammar_ok.mpr ⟨_, rfl, src_parses sched hf⟩, by decide +kernel⟩, ?_, ?_⟩
  · rw [rulesOf_eq]; decide
  · rw [rulesOf_eq]; decide

/-! ## C92: `pap generate` -/

/-- C92.  What `pap generate` prints is a text of the rule, and a line feed. -/
theorem C92_member (w : World) (sched : Sched NodeKey) (hf : sched.Fair) (stream : Int → Nat → Nat) (b : UInt8) (fuel : Nat)
    (input name : Str) (seed repMax threshold : Option Int) (src : Bytes) (hin : readInput w input = some src)
    (ds : List Def) (h : Says src ds) (r : Rule) (hr : Resolves ⟨rulesOf ds⟩ name r) (he : EmitReach ⟨rulesOf ds⟩ r) (out : Bytes)
    (hout : papGenerate w sched stream b fuel input name seed repMax threshold = .ok (.ok out)) :
    ∃ x, out = x ++ [0x0A] ∧ DerivesRule ⟨rulesOf ds⟩ name x := by
  unfold papGenerate at hout
  cases hg : readGrammar w sched input [] with
  | error e => rw [hg] at hout; simp at hout
  | ok g =>
    rw [hg] at hout
    simp only at hout
    obtain ⟨src', h1, h2⟩ := readGrammar_ok.mp hg
    rw [hin] at h1
    cases h1
    have hd := (C80_wellformed sched hf [] _ g rfl h2).2.1
    obtain ⟨rfl, _, _⟩ := (h.parses sched hf [] rfl g).mp h2
    cases hx : generate (stream (findSeed seed b)) (genOpts repMax threshold) ⟨rulesOf ds⟩ fuel name with
    | panic => rw [hx] at hout; cases hout
    | fuel => rw [hx] at hout; cases hout
    | ok res =>
      rw [hx, Run.bnd] at hout
      cases res with
      | error e => simp at hout
      | ok x =>
        simp only [Run.ok.injEq, Except.ok.injEq] at hout
        exact ⟨x, hout.symm, C27_members_partial _ hd name r hr he _ _ fuel x hx⟩

/-- C92.  For a text, the output depends on the text, the rule, the seed and the options only; without `--seed` it is one of
256. -/
theorem C92_seed (w w' : World) (sched sched' : Sched NodeKey) (hf : sched.Fair) (hf' : sched'.Fair) (stream : Int → Nat → Nat)
    (b b' : UInt8) (fuel : Nat) (input input' name : Str) (repMax threshold : Option Int) (src : Bytes)
    (hin : readInput w input = some src) (hin' : readInput w' input' = some src) (ds : List Def) (h : Says src ds) :
    (∀ s, papGenerate w sched stream b fuel input name (some s) repMax threshold =
      papGenerate w' sched' stream b' fuel input' name (some s) repMax threshold) ∧
    ∃ n : Fin 256, papGenerate w sched stream b fuel input name none repMax threshold =
      papGenerate w' sched' stream b' fuel input' name (some n.val) repMax threshold := by
  have e : readGrammar w sched input [] = readGrammar w' sched' input' [] := by
    unfold readGrammar
    rw [hin, hin']
    simp only
    rw [h.sched hf hf']
  unfold papGenerate
  rw [e]
  exact ⟨fun _ => rfl, ⟨b.toNat, b.toNat_lt⟩, rfl⟩

/-- C92.  What is printed exactly: for a text that `ParseABNF` accepts, what `Generate` returns for the numbers of the given
seed, or else of the byte that was drawn, under the given bounds or else 16 and 256, and a line feed; its error if it fails. -/
theorem C92_exact (w : World) (sched : Sched NodeKey) (hf : sched.Fair) (stream : Int → Nat → Nat) (b : UInt8) (fuel : Nat)
    (input name : Str) (seed repMax threshold : Option Int) (src : Bytes) (hin : readInput w input = some src)
    (ds : List Def) (h : Says src ds) (ho : Ordered ds) (hs : Sound ⟨rulesOf ds⟩) :
    papGenerate w sched stream b fuel input name seed repMax threshold =
      (generate (stream (seed.getD b.toNat)) { repMax := repMax.getD 16, threshold := threshold.getD 256 } ⟨rulesOf ds⟩ fuel name).bnd
        fun r => .ok (match r with
          | .error e => .error (.generate e)
          | .ok out => .ok (out ++ [0x0A])) := by
  have hg : readGrammar w sched input [] = .ok ⟨rulesOf ds⟩ :=
    readGrammar_ok.mpr ⟨src, hin, (h.parses sched hf [] rfl _).mpr ⟨rfl, ho, fun _ => hs⟩⟩
  unfold papGenerate
  rw [hg]
  have h1 : findSeed seed b = seed.getD b.toNat := by cases seed <;> rfl
  have h2 : genOpts repMax threshold = { repMax := repMax.getD 16, threshold := threshold.getD 256 } := by
    cases repMax <;> cases threshold <;> rfl
  simp only [h1, h2]
  congr 1
  funext r
  rcases r with e | out <;> rfl

theorem src_rules : (⟨rulesOf srcDefs⟩ : Grammar) = srcGrammar := by rw [rulesOf_eq]; rfl

theorem src_resolves : Resolves srcGrammar ['a'] (srcGrammar.rules.getD 0 ⟨[], []⟩) :=
  (getRule_iff (namesDistinct_of (by decide))).mp (by decide +kernel)

/-- C92 for the text of the examples: with 1 at every draw, `BBB` is generated. -/
example (sched : Sched NodeKey) (hf : sched.Fair) : EmitReach srcGrammar (srcGrammar.rules.getD 0 ⟨[], []⟩) ∧
    papGenerate srcWorld sched (fun _ _ => 1) 0 9 ['-'] ['a'] (some 5) none none = .ok (.ok (bytes% "BBB\n")) := by
  refine ⟨emitReach_of (by decide +kernel) src_resolves, ?_⟩
  unfold papGenerate
  rw [readGrammar_ok.mpr ⟨_, rfl, src_parses sched hf⟩]
  exact stdoutOf_some (by decide +kernel)

/-- C92_exact for that text: it is in order and sound. -/
example (sched : Sched NodeKey) (hf : sched.Fair) : Ordered srcDefs ∧ Sound ⟨rulesOf srcDefs⟩ := by
  have h := (src_says.parses sched hf [] rfl srcGrammar).mp (src_parses sched hf)
  exact ⟨h.2.1, h.2.2 rfl⟩

/-! ## C93: `pap regex` -/

/-- C93.  `pap regex` succeeds exactly if the rule is defined, reaches no cycle and reaches no prose; it prints a pattern, and a
line feed, and the pattern matches exactly the texts of the rule. -/
theorem C93_pattern (w : World) (sched : Sched NodeKey) (hf : sched.Fair) (core : List Rule) (hcore : core.Perm Core.rules)
    (order : Grammar → List Str) (ho : ∀ g, (order g).Perm ((dependencyGraph core g).map Prod.fst)) (input name : Str)
    (src : Bytes) (hin : readInput w input = some src) (ds : List Def) (h : Says src ds) :
    ((∃ out, papRegex w sched core order input name = .ok out) ↔
      Ordered ds ∧ Sound ⟨rulesOf ds⟩ ∧ ∃ r, Resolves ⟨rulesOf ds⟩ name r ∧
        (¬ ∃ r', Relation.ReflTransGen (Refers ⟨rulesOf ds⟩) r r' ∧ Cyclic ⟨rulesOf ds⟩ r') ∧ ¬ ReachesProse ⟨rulesOf ds⟩ r) ∧
    ∀ out r, papRegex w sched core order input name = .ok out → Resolves ⟨rulesOf ds⟩ name r → ReachOK ⟨rulesOf ds⟩ r →
      ∃ s p, out = utf8 s ++ [0x0A] ∧ (∀ q, RE2.Reads s q ↔ q = p) ∧ ∀ cs, p.Lang cs ↔ DerivesRule ⟨rulesOf ds⟩ name (utf8 cs) := by
  have hiff : ∀ out, papRegex w sched core order input name = .ok out ↔ ∃ g s, readGrammar w sched input [] = .ok g ∧
      regex core (order g) g 0 name = .ok s ∧ out = utf8 s ++ [0x0A] := by
    intro out
    unfold papRegex
    cases readGrammar w sched input [] with
    | error e => simp
    | ok g =>
      simp only
      cases hx : regex core (order g) g 0 name with
      | error e => simp [hx]
      | ok s =>
        constructor
        · intro h; exact ⟨g, s, rfl, hx, (Except.ok.inj h).symm⟩
        · rintro ⟨_, _, h1, h2, rfl⟩
          cases h1
          rw [hx] at h2
          cases h2
          rfl
  have hread : ∀ g, readGrammar w sched input [] = .ok g ↔ g = ⟨rulesOf ds⟩ ∧ Ordered ds ∧ Sound ⟨rulesOf ds⟩ := by
    intro g
    rw [readGrammar_ok]
    constructor
    · rintro ⟨_, h1, h2⟩
      rw [hin] at h1
      cases h1
      obtain ⟨h3, h4, h5⟩ := (h.parses sched hf [] rfl g).mp h2
      exact ⟨h3, h4, h5 rfl⟩
    · rintro ⟨h3, h4, h5⟩
      exact ⟨src, hin, (h.parses sched hf [] rfl g).mpr ⟨h3, h4, fun _ => h5⟩⟩
  have hd : ∀ g, readGrammar w sched input [] = .ok g → NamesDistinct g := by
    intro g hg
    obtain ⟨_, h1, h2⟩ := readGrammar_ok.mp hg
    exact (C80_wellformed sched hf [] _ g rfl h2).2.1
  constructor
  · simp only [hiff]
    constructor
    · rintro ⟨_, g, s, h1, h2, _⟩
      have hd := hd g h1
      obtain ⟨rfl, h3, h4⟩ := (hread g).mp h1
      refine ⟨h3, h4, ?_⟩
      rcases regex_cases hd hcore (ho _) 0 name with ⟨_, he⟩ | ⟨r', hr', ⟨_, he⟩ | ⟨hc, ⟨_, he⟩ | ⟨hp, re, _, he⟩⟩⟩
      · rw [he] at h2; cases h2
      · rw [he] at h2; cases h2
      · rw [he] at h2; cases h2
      · exact ⟨r', hr', hc, hp⟩
    · rintro ⟨h3, h4, r, hr, hc, hp⟩
      have h1 := (hread _).mpr ⟨rfl, h3, h4⟩
      have hd := hd _ h1
      rcases regex_cases hd hcore (ho _) 0 name with ⟨hno, _⟩ | ⟨r', hr', ⟨hc', _⟩ | ⟨_, ⟨hp', _⟩ | ⟨_, re, _, he⟩⟩⟩
      · exact absurd ⟨r, hr⟩ hno
      · obtain rfl := resolves_unique hd hr hr' rfl; exact absurd hc' hc
      · obtain rfl := resolves_unique hd hr hr' rfl; exact absurd hp' hp
      · exact ⟨_, _, _, h1, by rw [he, if_neg (by simp)], rfl⟩
  · intro out r hout hr hok
    obtain ⟨g, s, h1, h2, rfl⟩ := (hiff out).mp hout
    have hd := hd g h1
    obtain ⟨rfl, h3, h4⟩ := (hread g).mp h1
    obtain ⟨p, h5, h6⟩ := C24_language_partial _ hd core hcore _ (ho _) 0 name r hr hok s h2
    exact ⟨s, p, rfl, h5, h6⟩

/-- C93 for the text of the examples. -/
example (sched : Sched NodeKey) (hf : sched.Fair) : ReachOK srcGrammar (srcGrammar.rules.getD 0 ⟨[], []⟩) ∧
    papRegex srcWorld sched Core.rules plainOrder ['-'] ['a'] = .ok (bytes% "[Xx]|[A-Z]{2,3}\n") := by
  refine ⟨reachOK_of (by decide +kernel) src_resolves, ?_⟩
  unfold papRegex
  rw [readGrammar_ok.mpr ⟨_, rfl, src_parses sched hf⟩]
  exact Run.ok.inj (stdoutOf_some (by decide +kernel))

/-! ## C94: `pap transition-graph` -/

/-- C94.  What `pap transition-graph` prints is the drawing of a graph of exactly the texts of the rule, and a line feed;
missing: num-vals of several characters if they are deflated (C30), and that a flag set to false counts as true. -/
theorem C94_draws_partial (w : World) (sched : Sched NodeKey) (hf : sched.Fair) (core : List Rule) (hcore : core.Perm Core.rules)
    (order : Grammar → List Str) (ho : ∀ g, (order g).Perm ((dependencyGraph core g).map Prod.fst)) (ident : Nat → Str)
    (visit : List Nat → List Nat) (hv : ∀ l, (visit l).Perm l) (input name : Str) (fl : TgFlags)
    (src : Bytes) (hin : readInput w input = some src) (ds : List Def) (h : Says src ds)
    (hlen : src.length < 2 ^ 62)
    (hn : fl.nums.isSome → ∀ r, Visits (tgOpts fl) ⟨rulesOf ds⟩ name r → OneChar r) :
    ∃ res, papTransitionGraph w sched core order ident visit input name fl = .ok res ∧ ∀ out, res = .ok out →
      ∃ f hp ns lab, out = utf8 (unlines (drawing ident f hp lab ns)) ++ [0x0A] ∧
        (∀ x, GraphWord (Derives ⟨rulesOf ds⟩) hp f x ↔ DerivesRule ⟨rulesOf ds⟩ name x) ∧
        ns.Nodup ∧ (∀ n, n ∈ ns ↔ ReachedFrom hp f.ins n) ∧ ∀ n ∈ ns, Label (hp.elem n) (lab n) := by
  unfold papTransitionGraph
  cases hg : readGrammar w sched input [] with
  | error e => exact ⟨_, rfl, fun out h => by cases h⟩
  | ok g =>
    obtain ⟨_, h1, h2⟩ := readGrammar_ok.mp hg
    rw [hin] at h1
    cases h1
    have hw := C80_wellformed sched hf [] _ g rfl h2
    obtain ⟨rfl, h3, h4⟩ := (h.parses sched hf [] rfl g).mp h2
    simp only
    have hp := parsed_plain sched hf [] _ _ rfl h2 hlen (o := tgOpts fl) (name := name)
    obtain ⟨res, hres⟩ := C61_total (tgOpts fl) _ hw.2.1 core hcore _ (ho _) name hp
    rw [hres, Run.bnd]
    cases res with
    | error e => exact ⟨_, rfl, fun out h => by cases h⟩
    | ok q =>
      obtain ⟨f, hh⟩ := q
      simp only
      have hrange := parsed_ranges sched hf [] _ _ rfl h2 (o := tgOpts fl) (name := name)
      obtain ⟨ns, lab, h5, h6, h7, h8⟩ := C87_total (tgOpts fl) _ hw.2.1 core hcore _ (ho _) name hp hrange f hh hres ident visit hv
      rw [h8, Run.bnd]
      refine ⟨_, rfl, fun out hout => ⟨f, hh, ns, lab, (Except.ok.inj hout).symm, ?_, h5, h6, h7⟩⟩
      exact C30_exact_partial (tgOpts fl) _ hw.2.1 core hcore _ (ho _) name hp (fun h9 => hn (by rwa [tgOpts_nums] at h9)) f hh hres

/-- C94 as stated is false: `--deflate-charvals=false` deflates, where leaving the flag out does not. -/
theorem C94_fails (sched : Sched NodeKey) (hf : sched.Fair) :
    papTransitionGraph srcWorld sched Core.rules plainOrder itoa id ['-'] ['a'] {} ≠
      papTransitionGraph srcWorld sched Core.rules plainOrder itoa id ['-'] ['a'] { chars := some false } := by
  unfold papTransitionGraph
  rw [readGrammar_ok.mpr ⟨_, rfl, src_parses sched hf⟩]
  intro h
  have := congrArg stdoutOf h
  revert this
  decide +kernel

/-- C94: setting a flag to either value has the same effect. -/
theorem C94_flags (w : World) (sched : Sched NodeKey) (core : List Rule) (order : Grammar → List Str) (ident : Nat → Str)
    (visit : List Nat → List Nat) (input name : Str) (fl fl' : TgFlags) (h1 : fl.rules.isSome = fl'.rules.isSome)
    (h2 : fl.chars.isSome = fl'.chars.isSome) (h3 : fl.nums.isSome = fl'.nums.isSome) (h4 : fl.threshold = fl'.threshold) :
    papTransitionGraph w sched core order ident visit input name fl = papTransitionGraph w sched core order ident visit input name fl' := by
  have : tgOpts fl = tgOpts fl' := by unfold tgOpts; rw [h1, h2, h3, h4]
  unfold papTransitionGraph
  rw [this]

/-- C94: the options the library is called with; a flag that is left out leaves the default of the library. -/
theorem C94_options (w : World) (sched : Sched NodeKey) (core : List Rule) (order : Grammar → List Str) (ident : Nat → Str)
    (visit : List Nat → List Nat) (input name : Str) (fl : TgFlags) (src : Bytes) (hin : readInput w input = some src)
    (g : Grammar) (hg : parseABNF sched src [] = .ok g) (res : Except TgErr (TgFrag × TgHeap))
    (h : transitionGraph ⟨fl.rules.isSome, fl.nums.isSome, fl.chars.isSome, fl.threshold.getD 256, 0⟩ core g (order g) name = .ok res) :
    papTransitionGraph w sched core order ident visit input name fl = match res with
      | .error e => .ok (.error (.graph e))
      | .ok (f, hp) => (toMermaid ident visit f hp).bnd fun s => .ok (.ok (utf8 s ++ [0x0A])) := by
  have ht : tgOpts fl = ⟨fl.rules.isSome, fl.nums.isSome, fl.chars.isSome, fl.threshold.getD 256, 0⟩ := by
    obtain ⟨a, b, c, d⟩ := fl
    cases a <;> cases b <;> cases c <;> cases d <;> rfl
  unfold papTransitionGraph
  rw [readGrammar_ok.mpr ⟨_, hin, hg⟩]
  simp only [ht, h]
  rcases res with e | ⟨f, hp⟩ <;> rfl

example (sched : Sched NodeKey) (hf : sched.Fair) : (utf8 srcText).length < 2 ^ 62 ∧
    papTransitionGraph srcWorld sched Core.rules plainOrder itoa id ['-'] ['a'] {} = .ok (.ok (utf8 (unlines [
      str% "flowchart LR", str% "    classDef entrypoint fill:#479abf", [],
      str% "    0(((\"x\"))):::entrypoint", [],
      str% "    2[\"0x41-5A\"]:::entrypoint", str% "    2 --> 3", [],
      str% "    3(((\"0x41-5A\")))", str% "    3 --> 4", [],
      str% "    4(((\"0x41-5A\")))", [], []]))) := by
  refine ⟨by decide, ?_⟩
  unfold papTransitionGraph
  rw [readGrammar_ok.mpr ⟨_, rfl, src_parses sched hf⟩]
  exact stdoutOf_some (by decide +kernel)

/-! ## C95: `abnf-gen` -/

theorem abnfGen_ok {w : World} {canWrite : Str → Bool} {sched : Sched NodeKey} {fl : GenFlags} {dst : Option Str} {p : Cg.Prog} :
    abnfGen w canWrite sched fl = .ok (dst, p) ↔ fl.inp ≠ [] ∧ fl.root ≠ [] ∧ fl.pkg ≠ [] ∧
      (dst = if fl.out = ['-'] then none else some fl.out) ∧ (fl.out ≠ ['-'] → canWrite fl.out = true) ∧
      ∃ src, w.files fl.inp = some src ∧
        generateFromABNF sched src fl.root (if fl.noValidate then [.withValidation false] else []) = .ok p := by
  unfold abnfGen
  by_cases h1 : fl.inp = []
  · rw [if_pos h1]; simp [h1]
  by_cases h2 : fl.root = []
  · rw [if_neg h1, if_pos h2]; simp [h2]
  by_cases h3 : fl.pkg = []
  · rw [if_neg h1, if_neg h2, if_pos h3]; simp [h3]
  rw [if_neg h1, if_neg h2, if_neg h3]
  cases hs : w.files fl.inp with
  | none => simp
  | some src =>
    simp only
    generalize hx : generateFromABNF sched src fl.root (if fl.noValidate then [.withValidation false] else []) = x
    cases x with
    | error e =>
      constructor
      · intro h; cases h
      · rintro ⟨_, _, _, _, _, _, h4, h5⟩; rw [← Option.some.inj h4, hx] at h5; cases h5
    | ok q =>
      by_cases h4 : fl.out = ['-']
      · simp only [if_pos h4]
        constructor
        · intro h
          cases h
          exact ⟨h1, h2, h3, rfl, fun h => absurd h4 h, _, rfl, hx⟩
        · rintro ⟨_, _, _, rfl, _, _, h5, h6⟩
          rw [← Option.some.inj h5, hx] at h6
          cases h6
          rfl
      · simp only [if_neg h4]
        cases h5 : canWrite fl.out with
        | true =>
          rw [if_pos rfl]
          constructor
          · intro h
            cases h
            exact ⟨h1, h2, h3, rfl, fun _ => rfl, _, rfl, hx⟩
          · rintro ⟨_, _, _, rfl, _, _, h6, h7⟩
            rw [← Option.some.inj h6, hx] at h7
            cases h7
            rfl
        | false =>
          rw [if_neg (by simp)]
          constructor
          · intro h; cases h
          · rintro ⟨_, _, _, _, h6, _⟩; cases h6 h4

/-- C95.  `abnf-gen` succeeds exactly if the three flags are given, the grammar can be read and the program can be written, the
text defines every name once before it extends it, the grammar is sound unless `-no-validate` is given, the root rule is
defined and the rules are not too many. -/
theorem C95_status (w : World) (canWrite : Str → Bool) (sched : Sched NodeKey) (hf : sched.Fair) (fl : GenFlags) (src : Bytes)
    (hin : w.files fl.inp = some src) (ds : List Def) (h : Says src ds) :
    (∃ dst p, abnfGen w canWrite sched fl = .ok (dst, p)) ↔
      fl.inp ≠ [] ∧ fl.root ≠ [] ∧ fl.pkg ≠ [] ∧ (fl.out ≠ ['-'] → canWrite fl.out = true) ∧ Ordered ds ∧
      (fl.noValidate = false → Sound ⟨rulesOf ds⟩) ∧ (∃ r, Resolves ⟨rulesOf ds⟩ fl.root r) ∧
      ∃ sg, compileSlots ⟨rulesOf ds⟩ fl.root 0 = .ok sg ∧ sg.nts.length < 65536 := by
  have hopt : processOptions (if fl.noValidate then [.withValidation false] else []) = ⟨!fl.noValidate, false⟩ := by
    cases fl.noValidate <;> rfl
  have hp := h.parses sched hf (if fl.noValidate then [.withValidation false] else []) (by rw [hopt])
  rw [hopt] at hp
  simp only [abnfGen_ok]
  constructor
  · rintro ⟨dst, p, h1, h2, h3, _, h4, src', h5, h6⟩
    rw [hin] at h5
    cases h5
    obtain ⟨g, h7, sg, h8⟩ := (C81_generates sched _ src fl.root).mp ⟨p, h6⟩
    obtain ⟨rfl, h9, h10⟩ := (hp g).mp h7
    obtain ⟨h11, h12⟩ := (compileSlots_budget (by decide) sg).mp h8
    exact ⟨h1, h2, h3, h4, h9, fun h => h10 (by simp [h]), (C11_unbounded _ fl.root).mp ⟨sg, h11⟩, sg, h11, h12⟩
  · rintro ⟨h1, h2, h3, h4, h5, h6, _, sg, h7, h8⟩
    obtain ⟨p, h9⟩ := (C81_generates sched (if fl.noValidate then [.withValidation false] else []) src fl.root).mpr
      ⟨⟨rulesOf ds⟩, (hp _).mpr ⟨rfl, h5, fun h => h6 (by simpa using h)⟩, sg, (compileSlots_budget (by decide) sg).mpr ⟨h7, h8⟩⟩
    exact ⟨_, p, h1, h2, h3, rfl, h4, src, hin, h9⟩

/-- C95.  The program accepts exactly the texts of the root rule, and goes where `-out` says. -/
theorem C95_program (w : World) (canWrite : Str → Bool) (sched : Sched NodeKey) (hf : sched.Fair) (fl : GenFlags) (src : Bytes)
    (hin : w.files fl.inp = some src) (ds : List Def) (h : Says src ds) (hc : CaseConsistent (Grammar.mk (rulesOf ds)).strings)
    (dst : Option Str) (p : Cg.Prog) (hout : abnfGen w canWrite sched fl = .ok (dst, p)) :
    (dst = none ↔ fl.out = ['-']) ∧ (∀ d, dst = some d → d = fl.out) ∧
    ∀ (sched' : Sched Nat), sched'.Fair → ∀ inp : Bytes, ∃ r F, (∀ fuel, F ≤ fuel → Cg.parse p 0 sched' fuel inp = .result r) ∧
      (r.valid p = true ↔ DerivesRule ⟨rulesOf ds⟩ fl.root inp) := by
  obtain ⟨_, _, _, h1, _, src', h2, h3⟩ := abnfGen_ok.mp hout
  rw [hin] at h2
  cases h2
  refine ⟨by rw [h1]; split_ifs with h <;> simp [h], fun d hd => ?_, fun sched' hf' inp => ?_⟩
  · rw [h1] at hd
    split_ifs at hd
    exact (Option.some.inj hd).symm
  · obtain ⟨⟨s, rfl, h4, h6⟩, h5⟩ := h
    exact C81_language_partial sched hf _ s ds h4 h5 h6 (by cases fl.noValidate <;> rfl) hc fl.root p h3 sched' hf' inp

/-- C95 for the text of the examples, in a file. -/
example (sched : Sched NodeKey) (hf : sched.Fair) :
    (∃ p, abnfGen ⟨[], fun n => if n = ['f'] then some (utf8 srcText) else none⟩ (fun _ => false) sched
      { inp := ['f'], root := ['a'], pkg := ['p'] } = .ok (none, p)) ∧ CaseConsistent (Grammar.mk (rulesOf srcDefs)).strings := by
  constructor
  · obtain ⟨p, hp⟩ := (C81_generates sched [] (utf8 srcText) ['a']).mpr ⟨_, src_parses sched hf, by
      have h : (match compileSlots srcGrammar (str% "a") 65536 with | .ok _ => true | .error _ => false) = true := by decide +kernel
      cases hc : compileSlots srcGrammar (str% "a") 65536 with
      | ok sg => exact ⟨sg, rfl⟩
      | error e => rw [hc] at h; cases h⟩
    exact ⟨p, abnfGen_ok.mpr ⟨by simp, by simp, by simp, rfl, by simp, _, rfl, hp⟩⟩
  · rw [rulesOf_eq]
    unfold CaseConsistent
    decide

end Props
end Verif
