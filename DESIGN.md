# Formal model of pandatix/go-abnf — design

The Lean 4 project in `/verif/lean` models the Go code of `/repo` function by function and proves the
properties of `properties.jsonl`. `MANIFEST.json` maps every property to the theorems that settle it.

## 1. Trusted base

* Lean 4.33.0's kernel. Every theorem depends on at most `propext`, `Classical.choice` and `Quot.sound`.
  No axioms of our own, no `sorry`, no `native_decide`, no `bv_decide`.
* The reading of the Go code: each Lean definition cites the file and lines it transcribes. The Go code was
  read as text, never run.
  The grammar `ABNF` and the core rules (`abnf.go`, `rules.go`) were also translated into Lean literals by a script outside
  `/verif` and found equal to `Abnf.grammar` and `Core.rules` by `rfl`.
* The Go standard library is modelled, not verified: `utf8.DecodeRune`, `string(rune)`, `utf8.ValidRune`,
  `strconv.ParseUint/FormatInt`, `strings.EqualFold/ToLower` (ASCII only), `sort.Slice`, maps with arbitrary
  iteration order, `regexp.QuoteMeta`.
* RE2 is specified by the relations of `RegexSpec` (`RE2.Reads`, `Pat.Lang`): the fragment of its documented syntax that
  `Regex` emits, with the limit of 1000 on each count. Limits on nested counts, nesting depth and program size are left
  out. Matching means matching the whole text.
* The rules of Go that `CodegenCheck` checks of an emitted file (declaration before use, unused variables and imports); the
  fixed part of the file is taken to compile.
* The streams of `math/rand` are arbitrary sequences of numbers: a claim for every stream holds for every seed. The reading of
  flags by `urfave/cli` and `flag` is left out; a flag is a value or `none`.
* The Go compiler/runtime, memory limits, stack depth and integer overflow of `int` (64 bit) are outside the
  model, except where a definition says otherwise (num-val saturation).

## 2. Modelling conventions

| Go | Lean |
|---|---|
| `[]byte` | `List UInt8` |
| `rune` in a char-val, decoded rune | `Char` (a Unicode scalar value) |
| `rune` from a num-val (`int32`, saturated) | `Nat` |
| `string` (rule names, digits, printed elements) | `List Char` (`Str`) |
| `Min, Max int`, `inf = -1` | `Nat`, `Option Nat` (`none` = `inf`) |
| `map` used as a set / dictionary | `List`/`Finset`/function; iteration order is an explicit schedule argument |
| pointer identity of interned nodes | the interning key itself |
| error return | `Option`/`Except` value |
| loops without an obvious bound | fuel + a separate theorem that enough fuel exists, or a relation |

Grammars are arbitrary Lean values of the AST type, so programmatically built grammars are covered too;
theorems that need well-formedness (for instance a range num-val has two bounds) say so as a hypothesis.

The specification (`Verif/Spec.lean`) is a set of inductive predicates over byte strings: `Derives g e w` says
that element `e` of grammar `g` derives the byte string `w`. It mentions none of the parser's data structures.
C111 and C112 tie it to Mathlib: rules derive exactly the context-free languages, rules without cycles exactly the regular ones.

## 3. Modules

| Module | Content |
|---|---|
| `Utf8`, `Numval`, `Syntax`, `Term` | runes, num-vals, the AST, terminals, names |
| `Spec` | the specification: derivations over byte strings |
| `NumLemmas`, `TermLemmas`, `BoundLemmas`, `PropsTerm` | C12–C16, C43 |
| `Slots`, `SlotsLemmas`, `SlotsLang`, `SlotsBudget`, `PropsSlots` | `compileSlots`: the lowering to slot grammars, its language, its budget |
| `GLL`, `GLLBounds` | the abstract GLL relation both engines are proved equal to, and the counting bound |
| `Sppf`, `SppfLemmas`, `PropsSppf` | the SPPF engine (C01, C02, …) |
| `Bsr`, `BsrLemmas`, `PropsBsr` | the BSR engine |
| `Packed`, `PackedLemmas` | `NumTrees`, `Ambiguous`, `Nodes` over any packed graph |
| `Forest`, `ForestLemmas`, `ForestCompare`, `BsrTree`, `TreeSpec`, `PropsForest` | queries over forests, trees (C39–C41, C48–C50) |
| `Unambig`, `OnceKit`, `PropsUnambig` | grammars that settle every choice have one tree per text (C74) |
| `Meta` | the grammar of ABNF itself, as `abnf.go` and `rules.go` hold it |
| `AbnfText` | what RFC 5234 and RFC 7405 say an ABNF source text is and says, independent of any grammar object |
| `AbnfLex`, `AbnfReads`, `AbnfOnce`, `AbnfUnambig` | the meta-grammar derives exactly those texts; each is read in one way; the meta-grammar settles every choice (C75, C76) |
| `TreeText`, `Eval`, `EvalSound`, `AbnfConv`, `AbnfPrint`, `PropsAbnf` | `ParseABNF` and `EvaluateABNF`: the evaluator of parse trees, what it gives for the tree of a source text, reading back what is printed (C77 to C81) |
| `PropsMeta` | the recogniser and the two generators on the ABNF grammar itself (C82 to C84) |
| `Mermaid` | `ToMermaid`, `mapNodes`, `elemToString`, `Depgraph.Mermaid` (C87, C89); the elements of graphs and `NewGenerator` (C88) |
| `Cmd` | the commands `pap validate`, `generate`, `regex`, `transition-graph` and `abnf-gen` (C90 to C95) |
| `Sizes` | elements of a grammar that was read are no longer than its text, so its transition graphs can be built |
| `Targets` | the fuzz targets for transition graphs and regular expressions (C96, C97) |
| `GenExact` | exactly the texts that `Generate` can return (C98, C99) |
| `Messages` | the texts of the errors of `ParseABNF` (C100) |
| `TgCause` | why `TransitionGraph` fails (C101) |
| `Options` | the functional options of all functions but `ParseABNF` (C102) |
| `Spread` | the graph of a grammar with deflated series is that of another grammar (C103) |
| `Redefine` | rule lists that redefine core rules, with the order of map iteration as a parameter (C104) |
| `AllTrees`, `PropsAllTrees` | every derivation tree is in the forest; what Tree returns when Ambiguous is false (C105) |
| `EndToEnd` | ParseABNF followed by ParseForest, ParseBSR, IsValid or an emitted parser (C106) |
| `RecogCost` | how many loops over positions IsValid makes (C107) |
| `Reopen` | printing, reading back and parsing with grammars that redefine core rules (C108) |
| `GenCost` | the number of lookups of the check before `Generate` (C109) |
| `RegexCost` | the size of what `Regex` builds (C110) |
| `Chomsky` | grammars and Mathlib's context-free languages (C111) |
| `Regular` | rules without cycles and Mathlib's regular languages (C112) |
| `GllCost` | bounds on the rounds of the GLL loops, below and above (C113) |
| `Errata` | the grammar of ABNF before the errata, its language and its ambiguous texts (C114) |
| `SlotSize` | bounds on the number of slots and of emitted cases (C115) |
| `ExampleTargets` | the fuzz targets of examples/fuzzing, for any function under test (C116); map orders do not matter to graphs (C61) |
| `FlatCount`, `CatalanCount` | trees of forests against derivation trees, the number of trees of flat grammars, sums and Catalan numbers (C117) |
| `AbnfItself` | the ABNF of ABNF reads itself under every map order (C118) |
| `Conformance` | rows of the project's own test tables, evaluated in the model with `#guard`: tests of the model, not proofs |
| `Part`, `PartMiss` | what a rule uses, and that `IsValid` and `NearMiss` depend on nothing else (C05, C44, C32, C71, C119) |
| `Deter` | that `IsValid` and `NearMiss` do not depend on map order (C119, C120) |
| `Rename` | readers and generators do not depend on node identifiers (C121) |
| `ForestOrder` | what forests answer does not depend on map order, and where it does (C122) |
| `Session` | several calls of `ParseABNF` in one program, through the package variable `coreRules` (C86) |
| `CodegenText` | the comments of the emitted parser (C85) |
| `Print`, `PropsPrint` | `String` methods and what they determine |
| `Analysis`, `PropsAnalysis` | semantic validation, dependencies, rule lists, nullability |
| `Tarjan`, `TarjanLemmas`, `PropsTarjan`, `LeftRec*` | SCC finder, cycle and left-recursion detection |
| `Recog*`, `PropsRecog` | the memoising recogniser behind `IsValid` |
| `PropsCore` | the core rules are those of RFC 5234 (C51) |
| `Errors` | positions and content of `ErrParse` (C34) |
| `Regex`, `RegexSpec`, `RegexLemmas`, `RegexRender`, `RegexBuild`, `RegexDet`, `PropsRegex` | `Regex`: builder, simplifier, renderer, and an independent reading relation for RE2 pattern texts (C24–C26, C46, C52) |
| `Generate`, `GenLemmas`, `GenCheck`, `PropsGen`, `GenErrs` | `Generate`: random generation and its guard (C27, C53–C55); what its errors and those of `Regex` and `TransitionGraph` say (C126) |
| `Entropy`, `PropsEntropy` | the sources of randomness of `fuzz.go` (C29, C56, C57) |
| `Ast`, `AstCost`, `AstVisit`, `AstLemmas`, `AstExact`, `PropsAst`, `AstWrap`, `AstCap`, `AstAll` | `ASTGenerator`: costs, the constructor, steered generation (C28, C58, C59); what large counts break; what the options bound (C123); which texts are reached (C125) |
| `Tg`, `TgLang`, `TgClone`, `TgRep`, `TgBuild`, `TgElem`, `TgFails`, `PropsTg` | `TransitionGraph`: a heap of nodes, its language, cloning, repetitions, the budget, failures (C30, C60, C61) |
| `Fuzz`, `FuzzNew`, `FuzzWalk`, `FuzzNode`, `FuzzAll`, `PropsFuzz`, `FuzzReps` | `Generator`: distances, walks, what a node writes, decisions for every path, passages of an edge (C31, C62, C63, C124) |
| `Reader`, `ReaderPrep`, `ReaderTrails`, `ReaderScan`, `ReaderAll`, `ReaderSearch`, `ReaderCompact`, `PropsReader` | `TransitionGraphReader`: preparation, trails, iteration, the covering of the compact mode (C31, C64 to C67) |
| `Expect`, `ExpectLemmas`, `ExpectElem`, `ExpectRun`, `TgNodes`, `TgText`, `PropsExpect` | `ExpectedNext`: octet sets, emissions of elements, the simulation; what the elements of a graph are, from the rules (C33, C68, C69) |
| `NearMiss`, `PropsMiss`, `PropsMissAll`, `PropsRule` | `NearMiss`: candidates, the loop, labels (C32, C70, C71, C73); C31 and C63 from conditions on rules |
| `Codegen`, `CodegenIds`, `CodegenMatch`, `CodegenSim`, `PackedMap`, `CodegenQuery`, `PropsCodegen`, `CodegenCheck`, `PropsCompile` | `GenerateGoParser`: what is emitted, statement by statement, and how the emitted program runs; slot numbers; emitted matchers; simulation of the interpreter; queries; what the Go compiler checks of the emitted text (C45, C72) |
| `Local` | only the rules a rule uses matter for the answers about it (C127) |
| `Casing` | the letter case of rule names does not matter (C128) |
| `Appending` | source texts written one after the other (C129) |
| `Loosen` | loosening a grammar loses no input (C130) |
| `Renaming` | renaming rules (C131) |
| `Inlining` | writing references out (C132) |
| `Laws` | pieces that can be interchanged in every grammar, and the laws of RFC 5234 (C133) |
| `TermLaws` | the same for quoted strings and num-vals (C134) |
| `RefsOnly` | cycles depend on references only (C135) |
| `Found` | what `Found` of a parse error says (C34) |
| `Findings`, `Examples` | counterexamples and the grammars used in examples |

Soundness of the engines is an invariant over machine states, completeness is closure of the final state,
termination a counting argument over the descriptor set. Every `range` over a Go map takes its order from a
schedule argument (`Sched`), and theorems quantify over all fair schedules (permutations).

## 4. Findings

Claims of `properties.jsonl` that the code does not meet stay as written, are marked `partial`, and have a theorem
with the suffix `_fails` that exhibits a counterexample, beside `_partial` theorems for what does hold.

1. `reachRep` stops early: `a = 3*("a" / "aaa")` rejects `aaaa`.
2. `reachRep` caps the count at `len(input)+2`: `a = 3("a" / "")` rejects the empty input.
3. Groups and options are memoised while a seed grows: `a = (a "x") / "y"` rejects `yx`.
4. `ElemCharVal.String` drops `%s`, so memo and slot keys of `%s"x"` and `"x"` collide.
5. Tarjan uses index 0 for "unvisited": the first visited node is visited twice.
6. `IsDAG` ignores self loops.
7. Repetition nodes are not keyed by their count: `NumTrees` overcounts and `Tree` may return a tree with too many
   children for `2e` (C50).
8. The SPPF removes equal packings, the BSR set does not: they disagree on `a = "x" / "x"` (C41).
9. `BSRForest.Tree` loses text on cyclic grammars (C49).
10. `=/` on a core rule changes the shared core rule.
11. `Regex` writes a range of one surrogate (`%xD800-D800`) as `string(rune)`, which is U+FFFD (C24).
12. `Regex` writes counts over 1000 that RE2 refuses to compile (C24).
13. `simplify` turns a repetition of nothing with crossed bounds into the empty match (C25).
14. `Generate` writes nothing for a prose-val (C27) and U+FFFD for a surrogate (C27).
15. `Generate` divides by zero when an unbounded repetition has a minimum of `repMax + 1`: `a = 17*"x"` (C54).
16. `Generate` recurses without limit under some random streams: `a = "x" / a` (C55 needs the absence of recursion).
17. `NewASTGenerator` accepts prose-vals at no cost, and writes nothing for them: `a = <any word>` (C28).
18. `mulClamp` overflows: `4611686018427387904"xxxx"` costs nothing (C58).
19. `TransitionGraph` with `WithDeflateNumVals` turns a series into alternatives: `a = %x61.62` becomes `a` or `b` (C30).
20. `cloneTransitionGraph` clones a root again when it is already known: more nodes are allocated than `reserveClones`
    counts. They are unreachable, so the returned graph stays within the budget (C60).
21. `Generator` passes a range without members in silence: `a = "x" %x62-61 "y"` gives `xy`; a graph without words gives
    the empty text; surrogates come out as U+FFFD (C31).
22. `WithMaxReps`, `WithMaxLength` and `WithMaxSteps` are exceeded on the way to an end point: `a = *("x" "y")` with
    `WithMaxReps(1)` gives `xyxy` (example beside C62).
23. Trails do not cover the graph: for `a = 1*("a" "b")` the edge from `b` to `a` is on no trail (C66).
24. With `CoverageCompact` `Scan` returns nil for the empty text, as if coverage were complete: `a = *"x"` (C67).
25. `ExpectedNext` on a graph with deflated series expects nothing after `a` for `a = %x61.62`, a consequence of 19 (C33).
26. `ExpectedNext` merges the bytes of a range position by position: `%xFF-100` allows `C3 80` (C68).
27. Cloning turns an end point that no entry point reaches into nil, which reads as the empty text: with rules and num-vals
    deflated, `a = %x62-61 "y"`, `b = a / a / "z"` makes `ExpectedNext` accept the empty prefix (C68).
28. `NearMiss` trusts `IsValid`: for `a = 3*("a" / "aaa")` it returns `aaaA`, a text of the rule (C32). `ok` is never false (C71).
29. The emitted `Parse` looks at `aborted` only before it takes the next descriptor. When the budget is hit on the last one it returns a truncated result and a nil error: for `a = "x" "y" "z"` with `MaxElements = 1`, `Parse("xyz")` returns a result whose `Valid` is false (C45). `ParseBSR` tests the flag after the loop as well.
30. `GenerateGoParser` returns a nil error and a file that does not compile when a reachable rule contains a prose-val or a series that names a surrogate, such as `x = <p>` or `x = %xD800`, both accepted by `SemvalABNF`: the case it writes returns first and then uses `j`, which is not declared (C72). Without `SemvalABNF` a reference without a rule has the same effect: `v := p.create(...)` is not used.
31. `parseRepeat` ignores the error of `strconv.Atoi`, which returns the largest `int` on overflow: `a = 9223372036854775808"x"` is read as the count 9223372036854775807 (C78).
32. `feval.rule` decides between `=` and `=/` by searching the whole `defined-as` span, comments included: in `b ; =/` newline ` = "x"` the definition is taken for an extension, and `ParseABNF` returns `ErrRuleNotFound` (C78).
33. `ElemCharVal.String` does not write `%s`, so a grammar with case-sensitive strings is read back with another language (C79).
34. A source of blank lines gives a grammar without rules, whose `String` is empty; `ParseABNF` refuses the empty text (C79).
35. `slotComment` sanitises terminals but not the labels of groups, options and repetitions (nor `symStr` where it writes them), so in a grammar built in Go rather than read from ABNF a line feed in a string inside a group ends the comment and the rest of the label becomes code of the emitted file (C85).
36. The meta-grammar that `ParseABNF` parses with takes its core rules from the package variable `coreRules`, which `=/` on a core rule under `WithRedefineCoreRules(true)` changes, even if the call then fails: after `ALPHA =/ "-"` every later call, also one with default options, reads `-=A` as a definition instead of reporting a syntax error (C86).
37. `Depgraph.Mermaid` names the rule an arrow starts from as it is defined, but the rule it leads to in lower case.  Mermaid distinguishes the case of names, so the drawing of `A = B`, `B = A` has four nodes and no cycle, and no arrow ever leads to a core rule (C89).
38. `pap validate` prints a line feed after the grammar, whose last line already ends with CR LF.  A bare line feed is not ABNF, so `pap validate` never accepts its own output (C91).
39. `pap transition-graph` tests whether `--deflate-rules`, `--deflate-charvals` and `--deflate-numvals` are set, not what they are set to: `--deflate-rules=false` deflates the rules (C94).
40. `pap generate` without `--seed` takes its seed from a single random byte, so it has at most 256 outcomes for a grammar and rule (C92).
41. `FuzzRegex` fails for some seeds: `ABNF.Generate` can write a rule that names itself, on which `Regex` returns `ErrCyclicRule`, which the target does not expect, and repeat counts over 1000, which `regexp.Compile` refuses (C97).
42. `Generate` masks the number it draws for a range with 0x0F, so it only ever writes the first 16 characters of a range: no letter of `ALPHA` after P or p. Strings written with capitals never come out in small letters (C98, C99).
43. With `WithRedefineCoreRules(true)` a core rule may be redefined in two spellings; both rules end up in the grammar, and which of them a later `=/` extends, or a reference means, depends on the order of map iteration (C104_order_fails).
44. `checkCanGenerateSafely` forgets what it found for a rule, so on n rules that each refer to the next one twice it does 2^n lookups before `Generate` writes a single character (C109_at_least).
45. `simplify` is said to be linear (/repo/regex.go:226), but flattening copies the parts of shared concatenations: n rules can give a slice of 2^n nodes, and `WithMaxRegexLen` does not prevent it, because the budget only applies when the expression is written (C110_fails).
46. `ParseForest` is promised to be cubic for any grammar (/repo/sppf.go:664-667) and `WithMaxForestNodes` to cap its time (/repo/sppf.go:636-639), but a counted repetition of an element that can be empty makes `ParseForest` and `ParseBSR` take as many rounds as its count: `a = 9223372036854775807""` never ends in practice, on any input and under any budgets (C113_fails), and neither does the parser emitted for it, whatever `MaxElements` (C113_emitted_fails).
47. `FuzzAST` of the example checks its productions against the rule `list` (/repo/examples/fuzzing/example_test.go:189), which `my-grammar.abnf` does not define, so it fails for every tape whatever the function under test does (C116_ast_fails).  The README of the example refers to a target `FuzzValidList` that does not exist.  Its claim that near misses make a sound oracle is false for `a = 3*("a" / "aaa")`: with the options of the example a function that decides the rule is failed (C116_near_fails).
48. The answer of `IsValid` can depend on Go's randomised map iteration.  With `a = a "x" / b "y" / "z"`, `b = a "w"`, the components that the finder reports depend on where it starts, and `IsValid` panics for some orders and answers rightly for others (C120_fails_panic); so the panic of C44_fails is flaky.  With `a = ("x" / "xy") ("y" "a" / %s"a")`, where `"a"` and `%s"a"` share a memo key, the text `xyA` is accepted or refused depending on the order in which a set of two positions is visited (C120_fails), and `NearMiss`, documented as deterministic in the tape, gives `xyb` or the valid `xyA` for one tape (C119_fails).
49. `Tree` of an ambiguous forest depends on Go's map iteration: with `a = a b / b` and `b = "x" / "xx"`, the text `xxx` is split after two characters or after one (C122_tree_fails).  `ParseBSR` checks its budget before looking whether an element is new (/repo/bsr.go:95), so with a budget that is exactly the number of elements it returns the forest or `ErrForestTooLarge`, which says that the budget was exceeded, and which of them can depend on map iteration too (C122_budget_fails).
50. The cost of a repetition is a product of machine integers, checked for a wrap only by its sign (/repo/ast.go:369-380).  With `a = 4611686018427387904b / "xxxx"` and `b = a "xx"` the costs become 0 and 3 in every order of the maps, so the steering that should bound the recursion always takes the first alternative: `NewASTGenerator` accepts `a`, and `Generate`, documented as total, recurses without end, on the empty tape and with any source when `MaxDepth` is not positive (C28_total_fails).  With `a = 4611686018427387904b`, `b = c / "xxx"` and `c = ""`, whether `NewASTGenerator` accepts `a` depends on the order of the maps (C59_fails).
51. The comment of `Generate` says that an exhausted tape biases toward the shortest production (/repo/ast.go:168-170).  It takes the first alternative everywhere: `a = "xx" / "x"` gives `xx` (C123_first_fails); only past `MaxDepth` or `MaxLen` are choices steered to the cheapest.  `WithMaxRepeat(math.MaxInt)` wraps in `hi = rep.Min + ag.maxRepeat` or in `hi-lo+1`, so an unbounded repetition is never unrolled: `*"x"` only gives the empty text (C123_wraps, C123_largest_fails).
52. The comment of `WithMaxReps` says that it bounds how many times a single edge may be traversed (/repo/fuzz.go:150-151).  A node all of whose edges have been passed that often is still left, by the edge nearest to an end point, each time the walk comes back to it: with `WithMaxReps(1)` the empty tape for `a = *(("x" / "y") "w" "v") "e"` gives `xwvxwvywve` and passes the edge from `w` to `v` three times (C124_fails).  What does hold is a bound of 1 + MaxReps·E passages for E edges (C124_bounds).  For the same reason the comment of `nearestToEnd`, that steering never repeats an edge (/repo/fuzz.go:360-362), only holds once a length or step limit is reached.  And an exhausted tape takes the first successor everywhere, so `a = *"x" "y"` gives 33 times `x` (C124_shortest_fails), against the comments of `Generate` and of the sources.
53. `checkCanGenerateSafely` and its helper return an inner `*ErrCyclicRule` if the type assertion holds (/repo/generate.go:173-175, 225-227).  What they look at comes from `checkCanGenerateSafelyAlt`, which returns nil or what `errors.Join` gives, so the assertion never holds.  `Generate` therefore always blames the rule that was asked for: for `a = b`, `b = b` it says that `a` is cyclic, and for `a = <any word>` it says that `a` involves an unavoidable cycle, though it refers to no rule; `errors.Is(err, ErrHandlingProseVal)` is false for every error of `Generate` (C126_names, C126_fails).
54. `TransitionGraph` with `WithDeflateRules(true)` validates the whole grammar (/repo/transition_graph.go:68-70), where `Regex`, `Generate`, `ParseForest`, `ParseBSR` and `GenerateGoParser` look at the rules in use only: `a = "x"` gets a graph, but not beside `b = c` (C127_graph, C127_fails).
55. Lowering interns groups, options and repetitions by what they print (/repo/sppf.go:149, 196, 209), and rules by their lower-case names.  References in another case are therefore lowered twice: with `b = "x"`, `WithMaxSlots(4)` is enough for `a = (b) (b)` and `ErrGrammarTooLarge` results for `a = (b) (B)` (C128_fails).
56. `IsValid` may reject an input because an alternative was added: with `a = 3*("a")` it accepts `aaaa`, with `a = 3*("a" / "aaa")` it does not, though the rule derives it (C130_fails; the cause is that of C05_fails).  `ParseForest` and `ParseBSR` have no such case (C130_accepts).
57. `IsValid` may reject an input because a reference was written out: it accepts `yx` with `a = b / "y"`, `b = a "x"`, and rejects it with `a = (a "x") / "y"` (C132_fails; the cause is that of C05_fails_brackets).  `ParseForest` and `ParseBSR` do not change (C132_forests).
58. `IsValid` may change its answer when one occurrence of a repeated element is written in front: it rejects `aaaa` with `a = 3*("a" / "aaa")` and accepts it with `a = ("a" / "aaa") 2*("a" / "aaa")` (C133_fails).  `ParseForest`, `ParseBSR` and `Regex` do not change (C133_forests, C133_regex).

## 5. Status

Regenerated from `MANIFEST.json`.

<!-- status table -->

| Property | Title | Status | Theorems |
|---|---|---|---|
| C01 | ParseForest acceptance is exact | proved | `C01_exact`, `C01_order`, `C01_exact_written` |
| C02 | ParseBSR acceptance is exact | proved | `C02_exact`, `C02_order`, `C02_exact_written` |
| C03 | The two GLL engines agree on acceptance | proved | `C03_agree` |
| C04 | IsValid never accepts a non-member | proved | `C04_sound`, `C04_sound_written`, `C04_needs_printing`, `C04_rule` |
| C05 | IsValid accepts every member | partial | `C05_complete_partial`, `C05_complete_written_partial`, `C05_fails`, `C05_fails_brackets`, `C05_fails_cap`, `C05_phone`, `C05_rule_partial`, `C05_acyclic_partial`, `C05_graph_partial` |
| C06 | IsValid agrees with ParseForest | partial | `C06_accepts_partial`, `C06_agree_partial`, `C06_fails` |
| C07 | ParseForest always terminates, in polynomially many steps | proved | `C07_terminates`, `C07_returns` |
| C08 | ParseBSR always terminates, in polynomially many steps | proved | `C08_terminates`, `C08_returns` |
| C09 | WithMaxForestNodes is never exceeded silently (SPPF) | proved | `C09_budget`, `C09_error` |
| C10 | WithMaxForestNodes is never exceeded silently (BSR) | proved | `C10_budget`, `C10_error` |
| C11 | Lowering to slots terminates, respects WithMaxSlots and keeps the language | proved | `C11_terminates`, `C11_budget`, `C11_unbounded`, `C11_size`, `C11_language` |
| C12 | Terminals match exactly their UTF-8 text | proved | `C12_terminal_exact`, `C12_prose_never`, `C12_match_wellformed` |
| C13 | Case-insensitive matching is exactly ASCII folding | proved | `C13_insensitive`, `C13_sensitive` |
| C14 | num-val decoding never wraps | proved | `C14_value_exact`, `C14_saturates`, `C14_series_no_match`, `C14_range` |
| C15 | The Unicode bound check is exact | proved | `C15_checkBounds_exact` |
| C16 | num-val encode/decode round trip | proved | `C16_roundtrip`, `C16_denotes` |
| C17 | SemvalABNF accepts exactly the semantically valid grammars | proved | `C17_exact`, `C17_order` |
| C18 | Rule lookup is case-insensitive, prefers user rules and is order independent | proved | `C18_lookup`, `C18_order`, `C18_case`, `C18_missing` |
| C19 | DependencyGraph edges are exactly the rule references | proved | `C19_graph` |
| C20 | RuleContainsCycle is exact | proved | `C20_exact` |
| C21 | IsDAG is exact | partial | `C21_isDAG_partial`, `C21_fails` |
| C22 | The SCC finder returns the strongly connected components | partial | `C22_components_partial`, `C22_exact_partial`, `C22_fails` |
| C23 | Nullability analysis is sound and exact | proved | `C23_complete`, `C23_exact`, `C23_complete_written`, `C23_needs_series` |
| C24 | Regex denotes the rule's language | partial | `C24_language_partial`, `C24_texts`, `C24_fails`, `C24_fails_count` |
| C25 | Regex simplification keeps the language | partial | `C25_simplify_partial`, `C25_fails` |
| C26 | Character-class normalisation is exact and canonical | proved | `C26_normal`, `C26_canonical` |
| C27 | Generate only produces members | partial | `C27_members_partial`, `C27_fails`, `C27_fails_surrogate` |
| C28 | The AST generator only produces members and always terminates | partial | `C28_ends`, `C28_members_partial`, `C28_fails`, `C28_total_fails` |
| C29 | Random draws are always in range | proved | `C29_range`, `C29_sources` |
| C30 | TransitionGraph accepts exactly the rule's language | partial | `C30_exact_partial`, `C30_fails` |
| C31 | Graph-based generation is sound and terminates | partial | `C31_new`, `C31_walk_partial`, `C31_member_partial`, `C31_reader_partial`, `C31_rule_partial`, `C31_fails` |
| C32 | NearMiss outputs are rejected | partial | `C32_partial`, `C32_written_partial`, `C32_fails`, `C32_rule_partial` |
| C33 | ExpectedNext misses no continuation | partial | `C33_partial`, `C33_graph`, `C33_spoils_partial`, `C33_fails` |
| C34 | Parse errors point inside the input with correct line and column | proved | `C34_position`, `C34_content`, `C34_forest`, `C34_found` |
| C35 | The furthest-failure offset is meaningful | proved | `C35_furthest` |
| C36 | Incremental alternatives equal a single definition | proved | `C36_incremental`, `C36_redefine_fails`, `C36_shared` |
| C37 | Duplicate and core redefinitions are refused | proved | `C37_strict_iff`, `C37_distinct`, `C37_flag`, `C37_redefine_fails` |
| C38 | Printing a grammar and reading it back preserves it | partial | `C38_alternation_partial`, `C38_grammar_partial`, `C38_grammar_nocase_partial`, `C38_fails` |
| C39 | Parse trees cover exactly the input | proved | `C39_tree`, `C39_text` |
| C40 | NumTrees and Ambiguous are consistent | proved | `C40_consistent`, `C40_bsr` |
| C41 | The SPPF and BSR engines agree on ambiguity | partial | `C41_agree_partial`, `C41_equal_partial`, `C41_fails` |
| C42 | Options: the last one wins and defaults are strict | proved | `C42_options` |
| C43 | UTF-8 decoding is the inverse of encoding and rejects everything else | proved | `C43_decode_exact`, `C43_prefix_code` |
| C44 | IsValid always terminates without panicking | partial | `C44_terminates_partial`, `C44_returns_partial`, `C44_fails`, `C44_rule_partial` |
| C45 | The generated parser never returns a truncated result | partial | `C45_unbounded_partial`, `C45_bounded_partial`, `C45_language_partial`, `C45_errors_partial`, `C45_fails` |
| C46 | Renderer budget | proved | `C46_budget`, `C46_regex` |
| C47 | GLL positions never leave the input | proved | `C47_spans`, `C47_spans_bsr` |
| C48 | NumTrees counts the trees of the shared forest exactly | proved | `C48_counts` |
| C49 | Trees of the BSR engine cover exactly the input | partial | `C49_terminates_partial`, `C49_tree_partial`, `C49_fails` |
| C50 | Tree returns a derivation tree | partial | `C50_derivation_partial`, `C50_bsr_partial`, `C50_fails`, `C50_bsr_fails` |
| C51 | The core rules are those of RFC 5234 appendix B.1 | proved | `C51_names`, `C51_core`, `C51_octet` |
| C52 | Regex fails only for the reasons it names | proved | `C52_outcome` |
| C53 | Generate refuses exactly the rules it cannot generate from | proved | `C53_refuses` |
| C54 | Generate never panics | partial | `C54_nopanic_partial`, `C54_fails` |
| C55 | Generate ends on rules without recursion | proved | `C55_ends`, `C55_recursive` |
| C56 | Every choice can be drawn from a tape | proved | `C56_choices` |
| C57 | Stable addressing is local | proved | `C57_stable` |
| C58 | NewASTGenerator accepts exactly the productive rules | proved | `C58_errors`, `C58_accepts`, `C58_refuses`, `C58_returns` |
| C59 | The AST generator does not depend on map order | proved | `C59_order`, `C59_fails` |
| C60 | WithMaxNodes bounds the graph | proved | `C60_budget` |
| C61 | TransitionGraph fails exactly when it must | proved | `C61_total`, `C61_errors`, `C61_exact`, `C61_order` |
| C62 | Walks keep close to their limits | proved | `C62_limits` |
| C63 | Every text can be generated from some tape | proved | `C63_reaches`, `C63_rule` |
| C64 | CoverageAllTrails lists every trail with every variation | proved | `C64_trails` |
| C65 | CoverageCompact covers vertices, edges and values within its bound | proved | `C65_compact`, `C65_values` |
| C66 | CoverageAllTrails covers the graph | partial | `C66_fails`, `C66_partial`, `C66_language_partial` |
| C67 | Scan returns nil only once coverage is complete | partial | `C67_trails_partial`, `C67_compact_partial`, `C67_fails` |
| C68 | ExpectedNext invents no continuation | partial | `C68_partial`, `C68_graph`, `C68_fails` |
| C69 | ExpectedNext is deterministic, and succeeds on what it can expand | proved | `C69_order`, `C69_elems`, `C69_ok` |
| C70 | NearMiss returns what its label says | proved | `C70_label`, `C70_near` |
| C71 | NearMiss always finds a near miss | proved | `C71_finds`, `C71_rule` |
| C72 | The file GenerateGoParser returns compiles | partial | `C72_exact`, `C72_partial`, `C72_fails` |
| C73 | NearMiss tries every kind of variation | proved | `C73_tries`, `C73_rand` |
| C74 | A grammar that settles every choice is never ambiguous | proved | `C74_sppf`, `C74_bsr` |
| C75 | The ABNF variable is the grammar of RFC 5234 and RFC 7405 | proved | `C75_texts`, `C75_once` |
| C76 | Parsing with the ABNF grammar is never ambiguous | proved | `C76_sppf`, `C76_bsr` |
| C77 | ParseABNF returns a syntax error exactly for what is not an ABNF text | proved | `C77_syntax`, `C77_errors`, `C77_evaluate` |
| C78 | ParseABNF returns the grammar the text says | partial | `C78_exact_partial`, `C78_count_fails`, `C78_comment_fails` |
| C79 | ParseABNF reads back what String and PrettyPrint write | partial | `C79_uncased_partial`, `C79_same_partial`, `C79_parsed_partial`, `C79_case_fails`, `C79_empty_fails` |
| C80 | Grammars from ParseABNF are well formed | proved | `C80_wellformed`, `C80_language` |
| C81 | GenerateGoParserFromABNF emits a parser for the language of the source | partial | `C81_language_partial`, `C81_generates`, `C81_redefined` |
| C82 | IsValid answers exactly on the ABNF grammar | proved | `C82_exact`, `C82_text` |
| C83 | What Generate writes from the ABNF grammar is valid and is ABNF source | proved | `C83_generated`, `C83_source` |
| C84 | The AST generator works on the whole ABNF grammar | proved | `C84_accepts`, `C84_members` |
| C85 | The grammar cannot leave the comments of the emitted parser | proved | `C85_comments`, `C85_comments_fails`, `C85_cases` |
| C86 | Calls of ParseABNF do not influence each other | proved | `C86_strict`, `C86_independent`, `C86_core`, `C86_redefine_fails` |
| C87 | ToMermaid draws exactly the graph | proved | `C87_draws`, `C87_total`, `C87_arrows`, `C87_labels` |
| C88 | NewGenerator accepts every deflated graph | proved | `C88_accepts`, `C88_refuses` |
| C89 | Depgraph.Mermaid draws an arrow between two rules iff one refers to the other | partial | `C89_lines_partial`, `C89_arrows_partial`, `C89_fails` |
| C90 | pap validate reports exactly the invalid grammars | proved | `C90_status`, `C90_prints`, `C90_input` |
| C91 | The output of pap validate can be read back | partial | `C91_trimmed_partial`, `C91_fails` |
| C92 | pap generate prints a text of the rule, determined by the seed | proved | `C92_member`, `C92_seed`, `C92_exact` |
| C93 | pap regex prints a pattern of exactly the texts of the rule | proved | `C93_pattern` |
| C94 | pap transition-graph draws the graph its flags ask for | partial | `C94_draws_partial`, `C94_flags`, `C94_fails`, `C94_options` |
| C95 | abnf-gen writes a parser of exactly the texts of the root rule | proved | `C95_status`, `C95_program` |
| C96 | The fuzz targets for transition graphs never fail | proved | `C96_graph`, `C96_trails` |
| C97 | FuzzRegex never fails | partial | `C97_verdict_partial`, `C97_fails` |
| C98 | Generate returns exactly the texts the rule can become | proved | `C98_exact` |
| C99 | Generate can return every text of a rule | partial | `C99_reaches_partial`, `C99_fails` |
| C100 | Errors of ParseABNF tell what is wrong | proved | `C100_definition`, `C100_validation`, `C100_messages`, `C100_found` |
| C101 | Errors of TransitionGraph name their cause | proved | `C101_cause` |
| C102 | The last option of a kind decides | proved | `C102_generate`, `C102_graph`, `C102_generator`, `C102_ast`, `C102_forest`, `C102_single` |
| C103 | With numeric values deflated a series is read as alternatives | proved | `C103_same`, `C103_exact`, `C103_expected` |
| C104 | Redefined core rules | proved | `C104_verdict`, `C104_order`, `C104_rules`, `C104_parse`, `C104_order_fails` |
| C105 | No derivation tree is lost, and a tree that is reported to be the only one is | proved | `C105_all`, `C105_unique`, `C105_bsr_all`, `C105_bsr_unique`, `C105_generated` |
| C106 | From the text of a grammar to answers about inputs | proved | `C106_forest`, `C106_bsr`, `C106_isValid`, `C106_generated` |
| C107 | IsValid takes polynomially many steps | proved | `C107_steps`, `C107_steps_plain` |
| C108 | Grammars that redefine core rules | proved | `C108_wellformed`, `C108_reread`, `C108_strict`, `C108_parsed`, `C108_lookup`, `C108_order`, `C108_own`, `C108_language` |
| C109 | What the check before Generate costs | proved | `C109_same`, `C109_at_most`, `C109_at_least`, `C109_parsed` |
| C110 | What Regex holds in memory | proved | `C110_fails` |
| C111 | Grammars describe exactly the context-free languages | proved | `C111_context_free`, `C111_every` |
| C112 | Rules without cycles describe exactly the regular languages | proved | `C112_regular`, `C112_every` |
| C113 | The rounds of ParseForest and ParseBSR | proved | `C113_rounds`, `C113_at_least`, `C113_fails`, `C113_emitted`, `C113_emitted_fails` |
| C114 | What the errata to RFC 5234 change | proved | `C114_same`, `C114_ambiguous`, `C114_emitted`, `C114_errata` |
| C115 | How large the lowered grammar and the emitted parser are | proved | `C115_slots`, `C115_emitted`, `C115_rounds` |
| C116 | The example fuzz targets are sound and sensitive | partial | `C116_stable`, `C116_valid_partial`, `C116_near_partial`, `C116_position`, `C116_both_partial`, `C116_silent_partial`, `C116_example`, `C116_shipped`, `C116_ast_partial`, `C116_ast_fails`, `C116_near_fails`, `C116_baseline`, `C116_finds_partial`, `C116_octet`, `C116_octets`, `C116_valid_fails` |
| C117 | NumTrees counts derivation trees | proved | `C117_reads`, `C117_count`, `C117_catalan`, `C117_catalan_bsr` |
| C118 | The ABNF of ABNF reads itself | proved | `C118_itself` |
| C119 | NearMiss is deterministic in tape and total | proved | `C119_nearMiss`, `C119_nearMiss_partial`, `C119_fails` |
| C120 | IsValid is a function of its arguments | partial | `C120_rule_partial`, `C120_exact_partial`, `C120_fails`, `C120_fails_panic` |
| C121 | Readers and generators do not depend on node identifiers | proved | `C121_graph`, `C121_reader`, `C121_generator` |
| C122 | What a parse forest says does not depend on map order | proved | `C122_forest`, `C122_bsr`, `C122_bsr_outcome`, `C122_generated`, `C122_tree_fails`, `C122_budget_fails` |
| C123 | What the options of the AST generator bound | proved | `C123_repeat`, `C123_smallest`, `C123_first_fails`, `C123_wraps`, `C123_largest_fails` |
| C124 | How often a walk of Generator passes an edge | proved | `C124_bounds`, `C124_fails`, `C124_shortest_fails` |
| C125 | The AST generator can write exactly the texts of the capped grammar | proved | `C125_reaches`, `C125_exact`, `C125_all` |
| C126 | What the errors of Generate, Regex and TransitionGraph say | proved | `C126_same`, `C126_names`, `C126_fails`, `C126_regex`, `C126_graph` |
| C127 | Only the rules a rule uses matter | proved | `C127_texts`, `C127_forests`, `C127_cycle`, `C127_regex`, `C127_generate`, `C127_graph`, `C127_add`, `C127_fails` |
| C128 | The letter case of rule names does not matter | proved | `C128_texts`, `C128_forests`, `C128_cycle`, `C128_regex`, `C128_generate`, `C128_valid`, `C128_graph`, `C128_fails` |
| C129 | Source texts can be written one after the other | proved | `C129_concat`, `C129_disjoint`, `C129_widens`, `C129_accepts` |
| C130 | Loosening a grammar loses no input | proved | `C130_texts`, `C130_accepts`, `C130_same`, `C130_regex`, `C130_fails` |
| C131 | The names of rules do not matter | proved | `C131_texts`, `C131_forests`, `C131_cycle`, `C131_regex`, `C131_generate`, `C131_valid` |
| C132 | A reference can be written out | proved | `C132_texts`, `C132_forests`, `C132_fails` |
| C133 | The laws of the notation hold for the parsers | proved | `C133_texts`, `C133_forests`, `C133_regex`, `C133_within`, `C133_laws`, `C133_fails` |
| C134 | The laws of terminals | proved | `C134_cut`, `C134_base`, `C134_range`, `C134_chars`, `C133_texts`, `C133_forests`, `C133_regex` |
| C135 | Only references matter to cycles | proved | `C135_cycle`, `C135_dag` |
