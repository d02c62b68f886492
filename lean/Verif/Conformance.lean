import Verif.PropsAst
import Verif.PropsRecog
import Verif.ExampleTargets

/-!
# Rows of the tests of the project

The tables of /repo/*_test.go, evaluated in the model.  These are tests of the model and not proofs of anything: they are here so that a
change to a definition that makes it differ from the code where the project's tests look is noticed when the model is built.  What the
rows expect follows the tests; no theorem uses them.
-/

namespace Verif.Conformance
open Text Eval Props

/-- Map iteration as it comes. -/
def asIs : Sched NodeKey := fun _ l => l
/-- `[]byte(s)`. -/
def octets (s : String) : Bytes := s.toUTF8.toList
/-- `ParseABNF` with the options of /repo/grammar_test.go:230-233. -/
def parse (s : String) (v : Bool := true) (red : Bool := false) : Except AbnfErr Grammar :=
  parseABNF asIs (octets s) [.withValidation v, .withRedefineCoreRules red]
/-- `mustGrammar` of the tests (/repo/dag_test.go, /repo/sppf_test.go). -/
def must (s : String) (v : Bool := true) : Grammar := match parse s v with | .ok g => g | .error _ => ⟨[]⟩
/-- What a call gave, to be compared. -/
def said {α} [ToString α] : Option (Run α) → String
  | none => "notfound" | some (.ok b) => toString b | some .panic => "panic" | some .fuel => "fuel"

/-! ## Test_U_IsValid and Test_U_Unicode (/repo/grammar_test.go:493-640, /repo/unicode_test.go:9-49) -/

/-- `g.IsValid(rule, input)`. -/
def accepts (s r w : String) : String := let g := must s; said (isValid (plainOrders g) plainSched g r.toList (octets w))

#guard accepts "s = \"abc\"\r\n" "s" "abc" = "true"
#guard accepts "s = \"abc\"\r\n" "s" "abd" = "false"
#guard accepts "s = 2*4\"a\"\r\n" "s" "aaa" = "true"
#guard accepts "s = 2*4\"a\"\r\n" "s" "a" = "false"
#guard accepts "s = 2*4\"a\"\r\n" "s" "aaaaa" = "false"
#guard accepts "s = [\"a\"] \"b\"\r\n" "s" "ab" = "true"
#guard accepts "s = [\"a\"] \"b\"\r\n" "s" "b" = "true"
#guard accepts "s = %x61-63\r\n" "s" "b" = "true"
#guard accepts "s = %x61-63\r\n" "s" "d" = "false"
#guard accepts "s = 1*DIGIT\r\n" "s" "0042" = "true"
#guard accepts "s = *\"ab\" \"a\"\r\n" "s" "ababa" = "true"
#guard accepts "a = \"x\" b\r\nb = \"y\" / \"y\" a\r\n" "a" "xyxy" = "true"
#guard accepts "s = *(\"a\" / \"a\")\r\n" "s" "aaaa" = "true"
#guard accepts "s = *(\"a\" / \"a\")\r\n" "s" (String.ofList (List.replicate 200 'a')) = "true"
#guard accepts "a = *\"\"\r\n" "a" "test" = "false"
#guard accepts "s = s \"a\" / \"a\"\r\n" "s" "aaaa" = "true"
#guard accepts "s = t \"a\"\r\nt = s / \"b\"\r\n" "s" "ba" = "true"
#guard accepts "s = \"a\"\r\n" "nope" "a" = "notfound"
#guard accepts "a=%x61\r\n" "a" "a" = "true"
#guard accepts "a=%x03c0\r\n" "a" "π" = "true"
#guard accepts "a=%x2603\r\n" "a" "☃" = "true"
#guard accepts "a=%x1F973\r\n" "a" "🥳" = "true"

/-! ## Test_U_ParseAmbiguity, Test_U_NativeRepetition, Test_U_BSR_AgreesWithSPPF
(/repo/grammar_test.go:438-491, /repo/sppf_test.go:70-96, 181-250, /repo/bsr_test.go:15-93) -/

/-- `Valid`, `Ambiguous`, `NumTrees` of both engines. -/
def verdicts (s r w : String) : Option ((Bool × Option Bool × Option Int) × Bool × Option Bool × Option Int) :=
  match parseForest asIs (octets w) (must s) r.toList 0 65536, parseBSR plainSched (octets w) (must s) r.toList 0 65536 with
  | .ok f, .ok b => some ((f.valid, f.ambiguous, f.numTrees), b.valid, b.ambiguous, b.numTrees)
  | _, _ => none
/-- The same of both. -/
def both (v : Bool) (a : Bool) (n : Int) : Option ((Bool × Option Bool × Option Int) × Bool × Option Bool × Option Int) :=
  some ((v, some a, some n), v, some a, some n)

#guard verdicts "s = \"a\" \"b\"\r\n" "s" "ab" = both true false 1
#guard verdicts "s = \"a\" / \"b\"\r\n" "s" "a" = both true false 1
#guard verdicts "s = \"a\" \"a\" / \"aa\"\r\n" "s" "aa" = both true true 2
#guard verdicts "expr = expr \"+\" term / term\r\nterm = 1*DIGIT\r\n" "expr" "1+2+3" = both true false 1
#guard verdicts "a = a / \"x\"\r\n" "a" "x" = both true true (-1)
#guard verdicts "s = \"a\"\r\n" "s" "b" = both false false 0
#guard verdicts "e = e \"+\" e / \"1\"\r\n" "e" "1+1+1" = both true true 2
#guard verdicts "e = e \"+\" e / \"1\"\r\n" "e" "1+1+1+1" = both true true 5
#guard verdicts "e = e \"+\" e / \"1\"\r\n" "e" "1+1+1+1+1" = both true true 14
#guard verdicts "a = 9999999999\"x\"\r\n" "a" "x" = both false false 0
#guard verdicts "ip = 1*3DIGIT 3(\".\" 1*3DIGIT)\r\n" "ip" "12.34.56.78" = both true false 1
#guard verdicts "ip = 1*3DIGIT 3(\".\" 1*3DIGIT)\r\n" "ip" "12.34.56" = both false false 0

/-! ## Test_U_RepGraphIO, Test_U_ConcatGraphIO, Test_U_AltGraphIO (/repo/transition_graph_test.go:12-270) -/

/-- Numbers of entries and of ends. -/
def points (f : TgOut (TgFrag × TgSt)) : Option (Nat × Nat) :=
  match f with
  | .ok (.ok (f, _)) => some (f.ins.length, f.outs.length)
  | _ => none
/-- The alternatives of the one rule of a text. -/
def altOf (s : String) : Alt := match (must (s ++ "\r\n") false).rules with | r :: _ => r.alt | [] => []
/-- `concatGraph` on the first of them. -/
def concatPoints (s : String) : Option (Nat × Nat) := points (concatGraph {} (ruleGraph {} ⟨[]⟩ 30) ((altOf s).headD []) {})
/-- `altGraph`. -/
def altPoints (s : String) : Option (Nat × Nat) := points (altGraph { chars := true } (ruleGraph {} ⟨[]⟩ 30) (altOf s) {} {})

#guard concatPoints "a = 0*1b" = some (2, 2)
#guard concatPoints "a = 0*2b" = some (2, 3)
#guard concatPoints "a = 0*b" = some (2, 2)
#guard concatPoints "a = 1*1b" = some (1, 1)
#guard concatPoints "a = 1*3b" = some (1, 3)
#guard concatPoints "a = 2*3b" = some (1, 2)
#guard concatPoints "a = 1*b" = some (1, 1)
#guard concatPoints "a = 2*b" = some (1, 1)
#guard concatPoints "a = 3b" = some (1, 1)
#guard concatPoints "a = *(0*1c)" = some (2, 2)
#guard concatPoints "a = b *1c" = some (1, 2)
#guard concatPoints "a = b *1c *1d" = some (1, 3)
#guard concatPoints "a = *1b c" = some (2, 1)
#guard concatPoints "a = b 2*c d" = some (1, 1)
#guard concatPoints "a = 1*3b c" = some (1, 1)
#guard concatPoints "a = *1b *1c" = some (3, 3)
#guard concatPoints "a = *b" = some (2, 2)
#guard concatPoints "a = *b c" = some (2, 1)
#guard concatPoints "a = *b *c" = some (3, 3)
#guard altPoints "a = *a / b" = some (3, 3)
#guard altPoints "a = \";\" *(b / c) d" = some (1, 1)
#guard altPoints "a = b [c / \";\"] *d" = some (1, 4)
#guard altPoints "a = [b [c / \";\"]]" = some (2, 4)
#guard altPoints "a=1*(0(P))" = some (1, 1)
#guard altPoints "a=1*(*P)" = some (2, 2)
#guard altPoints "a=1*3(*P)" = some (2, 4)
#guard altPoints "a=2\"\" a" = some (1, 1)

/-! ## Test_U_TransitionGraphExhaustiveCombinations, Test_U_TGReader_ModeA_KnownCounts (/repo/transition_graph_test.go:275-480, 549-574) -/

/-- The texts `Next` and `Scan` give, at most a hundred thousand. -/
def readAll (R : Reader) (k : Nat) : Nat → TrailSt → List Bytes → Option (List Bytes)
  | 0, _, _ => none
  | n + 1, st, acc =>
    match R.next k st with
    | .ok (true, st) =>
      match R.scan k st with
      | .ok (some b, st) => readAll R k n st (b :: acc)
      | _ => none
    | .ok (false, _) => some acc.reverse
    | _ => none
/-- The reader of a rule. -/
def readerOf (s r : String) (o : TgOpts := {}) : Option Reader :=
  let g := must (s ++ "\r\n") false
  match transitionGraph o Core.rules g (plainOrder g) r.toList with
  | .ok (.ok (f, h)) => match readerPrepare (fun _ l => l) f h with | .ok R => some R | _ => none
  | _ => none
/-- All texts of the reader. -/
def texts (s r : String) (o : TgOpts := {}) : Option (List Bytes) := (readerOf s r o).bind fun R => readAll R 100000 100000 {} []
/-- They are those, in any order. -/
def textsAre (s : String) (l : List String) : Bool := match texts s "a" with | some t => decide (t.Perm (l.map octets)) | none => false

#guard textsAre "a = \"a\"" ["a", "A"]
#guard textsAre "a = [\"a\"]" ["a", "A", ""]
#guard textsAre "a = \"a\" / \"b\"" ["a", "A", "b", "B"]
#guard textsAre "a = \"a\" \"b\"" ["ab", "aB", "Ab", "AB"]
#guard textsAre "a = 0*3%s\"a\"" ["", "a", "aa", "aaa"]
#guard textsAre "a = %x61-63" ["a", "b", "c"]
#guard textsAre "a = 0*3\"a\"" ["", "a", "A", "aa", "aA", "Aa", "AA", "aaa", "aaA", "aAa", "aAA", "Aaa", "AaA", "AAa", "AAA"]
#guard textsAre "a = %s\"a\" 1*%s\"b\" %s\"c\"" ["abc", "abbc"]
#guard textsAre "a = %s\"a\" 1*\"b\" \"c\"" ["abc", "aBc", "abbc", "abBc", "aBbc", "aBBc", "abC", "aBC", "abbC", "abBC", "aBbC", "aBBC"]
#guard textsAre "a = [b [c / \";\"]]" [""]
#guard (texts "a = 1*\"a\"" "a").map List.length = some 6
#guard (texts "s = \"a\" / \"b\"" "s").map List.length = some 4
#guard (texts "s = *\"a\"" "s").map List.length = some 7
#guard (texts "s = *(\"ab\")" "s").map List.length = some 21

/-! ## Test_U_Regex (/repo/regex_test.go:53-106), Test_U_IsDAG and Test_U_RuleContainsCycle (/repo/dag_test.go:16-110) -/

/-- `g.Regex(rule)`. -/
def rx (s r : String) (v : Bool := true) : String :=
  let g := must s v
  match regex Core.rules (plainOrder g) g 0 r.toList with
  | .ok s => String.ofList s
  | .error .ruleNotFound => "rule not found"
  | .error .cyclicRule => "cyclic"
  | .error _ => "other"
/-- `g.IsDAG()`. -/
def dag (s : String) : String := let g := must s; said (some (isDAG Core.rules g (plainOrder g)))
/-- `g.RuleContainsCycle(rule)`. -/
def cycle (s r : String) : String := let g := must s; said (ruleContainsCycle Core.rules g (plainOrder g) r.toList)

#guard rx "phone = \"+\" 4*15DIGIT\r\n" "phone" = "\\+[0-9]{4,15}"
#guard rx "opt = *3DIGIT\r\n" "opt" = "[0-9]{0,3}"
#guard rx "a = 1*(*[\"b.\"] *3%x61.7a)\r\n" "a" = "(?:(?:(?:[Bb]\\.)?)*(?:az){0,3})+"
#guard rx "\r\n" "" = "rule not found"
#guard dag "a = B\r\nb = A\r\n" = "false"
#guard cycle "a = a \"a\"\r\n" "a" = "true"
#guard cycle "a = b \"a\"\r\nb = a \"b\"\r\n" "a" = "true"
#guard said (ruleContainsCycle Core.rules Abnf.grammar (plainOrder Abnf.grammar) "rulelist".toList) = "true"

/-! ## Test_U_ParseError_Position, Test_U_ParseError_BareLF (/repo/errors_test.go:14-56) -/

/-- Offset, line, column and whether there is a hint. -/
def place (s : String) : Option (Nat × Nat × Nat × Bool) :=
  match parse s with
  | .error (.syntax (some e)) => some (e.offset, e.line, e.col, e.hint)
  | _ => none

#guard place "a = \"x\"\r\nb = \"y\"\r\nc = = \r\n" = some (22, 3, 5, false)
#guard place "a = b\n" = some (5, 1, 6, true)

/-! ## Test_U_NumvalToRune, Test_U_NumvalConversion (/repo/utils_test.go:9-43, /repo/sppf_test.go:311-373) -/

#guard numvalToRune "3c".toList "x".toList = 60
#guard numvalToRune "10".toList "b".toList = 2
#guard numvalToRune "56".toList "d".toList = 56
#guard numvalToUint64 "BCDE3BCD9AFBCAD3".toList "x".toList = some 0xBCDE3BCD9AFBCAD3
#guard numvalToUint64 "1FFFFFFFFFFFFFFFF".toList "x".toList = none
#guard numvalToRune "80000000".toList "x".toList = 0x7FFFFFFF

/-! ## Test_U_Generate (/repo/generate_test.go) -/

/-- `g.Generate` with some stream. -/
def gen (s r : String) (k : Nat) : Option Bytes :=
  match generate (fun n => n * 7 + k) { repMax := 4, threshold := 64 } (must s) 100000 r.toList with
  | .ok (.ok b) => some b
  | _ => none

#guard gen "a=a\r\n" "a" 0 = none
#guard gen "a=b\r\nb=\"b\" a\r\n" "a" 0 = none
#guard (gen "a=*a b\r\nb=\"b\" *a\r\n" "a" 0).isSome
#guard gen "a=%x03c0\r\n" "a" 0 = some (octets "π")
#guard gen "a=%x1F973\r\n" "a" 5 = some (octets "🥳")

end Verif.Conformance
