{"id": "C01", "title": "ParseForest acceptance is exact", "statement": "When ParseForest(input, g, rule) returns a forest (no error), forest.Valid() is true if and only if the whole input is derivable from the rule under the RFC 5234/7405 semantics of the grammar (concatenation, alternation, counted repetition, group, option, char-val, num-val, core rules), including left-recursive, hidden-left-recursive and nullable grammars.", "quantifier": "every grammar whose distinct groups/options/repetitions print differently, every rule name of it, every byte string, every Go map iteration order", "why_tests_cant": "Acceptance has to be right on infinitely many (grammar, input) pairs and for every iteration order of the Go maps in the parser; tests sample a corpus and one order per run.", "anchors": ["/repo/sppf.go: ParseForest, compileSlots, lowerer.rule, lowerer.rep, gllParser.parse, gllParser.process, gllParser.create, gllParser.pop, gllParser.addRepAlts, capRC, Forest.Valid", "/repo/grammar.go: Parse"]}
{"id": "C02", "title": "ParseBSR acceptance is exact", "statement": "When ParseBSR(input, g, rule) returns a forest (no error), Valid() is true if and only if the whole input is derivable from the rule.", "quantifier": "every grammar (same printing condition as C01), rule, byte string and map iteration order", "why_tests_cant": "Same as C01: an equivalence over all inputs and schedules.", "anchors": ["/repo/bsr.go: ParseBSR, bsrParser.parse, bsrParser.process, bsrParser.create, bsrParser.pop, bsrParser.record, BSRForest.Valid"]}
{"id": "C03", "title": "The two GLL engines agree on acceptance", "statement": "Whenever ParseForest and ParseBSR both return without error for the same input, grammar and rule, their Valid() results are equal.", "quantifier": "every grammar (no printing condition needed), rule, input and pair of map iteration orders", "why_tests_cant": "The differential corpus in the tests only compares finitely many inputs.", "anchors": ["/repo/sppf.go: Forest.Valid", "/repo/bsr.go: BSRForest.Valid"]}
{"id": "C04", "title": "IsValid never accepts a non-member", "statement": "If IsValid(rule, input) returns (true, nil) then the input is derivable from the rule.", "quantifier": "every grammar whose distinct elements print differently, every rule and input, every map iteration order, left recursion included", "why_tests_cant": "Soundness of a memoising, seed-growing recogniser must hold at every interleaving of memo fills; a test cannot visit them all.", "anchors": ["/repo/grammar.go: IsValid", "/repo/recognize.go: reachAlt, reachConcat, reachRep, reachElem, reachLeftRec, computeElem"]}
{"id": "C05", "title": "IsValid accepts every member", "statement": "If the input is derivable from the rule then IsValid(rule, input) returns (true, nil).", "quantifier": "every grammar, rule and input", "why_tests_cant": "Completeness quantifies over all derivations; the tests only try a handful of grammars.", "anchors": ["/repo/grammar.go: IsValid", "/repo/recognize.go: reachRep, reachElem, reachLeftRec"]}
{"id": "C06", "title": "IsValid agrees with ParseForest", "statement": "IsValid(rule, input) equals ParseForest(input, g, rule).Valid().", "quantifier": "every grammar, rule and input", "why_tests_cant": "The two engines use different algorithms (memoised sets / GLL); agreement on a corpus says nothing about all grammars.", "anchors": ["/repo/grammar.go: IsValid", "/repo/sppf.go: ParseForest"]}
{"id": "C07", "title": "ParseForest always terminates, in polynomially many steps", "statement": "The ParseForest main loop stops on every grammar and input (left recursion, nullable repetitions, huge counted repetitions, cycles) after a number of descriptor steps bounded by an explicit polynomial in the input length, the number of grammar slots and the largest repetition bound.", "quantifier": "every grammar, rule, input, map iteration order", "why_tests_cant": "Non-termination cannot be observed by a finite test, and a worst-case bound ranges over all inputs.", "anchors": ["/repo/sppf.go: gllParser.parse, gllParser.process, gllParser.add, capRC"]}
{"id": "C08", "title": "ParseBSR always terminates, in polynomially many steps", "statement": "The ParseBSR main loop stops on every grammar and input after a number of descriptor steps bounded by an explicit polynomial.", "quantifier": "every grammar, rule, input, map iteration order", "why_tests_cant": "As C07.", "anchors": ["/repo/bsr.go: bsrParser.parse, bsrParser.process, bsrParser.add"]}
{"id": "C09", "title": "WithMaxForestNodes is never exceeded silently (SPPF)", "statement": "With WithMaxForestNodes(N), N>0, ParseForest either returns ErrForestTooLarge or returns a forest that allocated at most N nodes and is identical in acceptance to the unbounded run: a truncated forest is never returned.", "quantifier": "every grammar, rule, input, N and map iteration order", "why_tests_cant": "The abort can strike at any allocation in any run; tests pick a few N.", "anchors": ["/repo/sppf.go: gllParser.findNode, gllParser.parse, ParseForest, WithMaxForestNodes"]}
{"id": "C10", "title": "WithMaxForestNodes is never exceeded silently (BSR)", "statement": "With WithMaxForestNodes(N), N>0, ParseBSR either returns ErrForestTooLarge or a set of at most N elements whose Valid() answer is that of the unbounded run.", "quantifier": "every grammar, rule, input, N and map iteration order", "why_tests_cant": "As C09.", "anchors": ["/repo/bsr.go: bsrParser.record, ParseBSR"]}
{"id": "C11", "title": "Lowering to slots terminates, respects WithMaxSlots and keeps the language", "statement": "compileSlots terminates on every grammar; if it succeeds with budget N>0 the slot grammar has fewer than N nonterminals; and its size does not depend on the numeric bounds of repetitions. If it succeeds, the slot grammar derives exactly the language of the root rule.", "quantifier": "every grammar, root rule and budget", "why_tests_cant": "Recursive grammars and numeric bounds are unbounded families.", "anchors": ["/repo/sppf.go: compileSlots, lowerer.rule, lowerer.alts, lowerer.rep, lowerer.elem, lowerer.group, lowerer.option, slotGrammar.reserve, WithMaxSlots"]}
{"id": "C12", "title": "Terminals match exactly their UTF-8 text", "statement": "A char-val, num-val series or num-val range matches at a position of the input iff the bytes there are the UTF-8 encoding of a character sequence the terminal denotes (ASCII-only case folding for case-insensitive char-vals, inclusive numeric bounds for ranges), and never matches inside or across ill-formed UTF-8; prose-vals never match.", "quantifier": "every terminal, every byte string, every position", "why_tests_cant": "The property ranges over all byte strings, including all ill-formed UTF-8.", "anchors": ["/repo/sppf.go: matchTerm", "/repo/bsr.go: matchTerm", "/repo/recognize.go: computeElem", "/repo/grammar.go: sensequal, runeMin"]}
{"id": "C13", "title": "Case-insensitive matching is exactly ASCII folding", "statement": "A case-insensitive char-val accepts a text iff it equals the literal up to swapping a-z/A-Z; a case-sensitive one iff it equals the literal.", "quantifier": "every literal and every text", "why_tests_cant": "Ranges over all pairs of Unicode characters.", "anchors": ["/repo/grammar.go: sensequal, runeMin, runeMax"]}
{"id": "C14", "title": "num-val decoding never wraps", "statement": "The rune used for a num-val literal equals its mathematical value when that fits an int32, and otherwise is a value above U+10FFFF that matches no text; a range straddling U+10FFFF still matches exactly its Unicode part.", "quantifier": "every digit string in base 2, 10 or 16, of any length", "why_tests_cant": "Digit strings are unbounded; overflow shows only on particular lengths.", "anchors": ["/repo/utils.go: numvalToUint64, numvalToInt32, numvalToRune, baseRadix"]}
{"id": "C15", "title": "The Unicode bound check is exact", "statement": "checkBounds (surfaced as ErrTooLargeNumeral by SemvalABNF/ParseABNF) rejects a num-val iff its value is above U+10FFFF.", "quantifier": "every digit string in base 2, 10 or 16 with any leading zeros", "why_tests_cant": "Infinitely many digit strings, hand-written lexicographic comparison.", "anchors": ["/repo/utils.go: checkBounds"]}
{"id": "C16", "title": "num-val encode/decode round trip", "statement": "Rendering a non-negative int32 in a base and reading it back yields the same value.", "quantifier": "every int32 >= 0 and base", "why_tests_cant": "2^31 values x 3 bases.", "anchors": ["/repo/utils.go: int32ToNumval, numvalToInt32"]}
{"id": "C17", "title": "SemvalABNF accepts exactly the semantically valid grammars", "statement": "SemvalABNF(g) returns nil iff every referenced rule exists (core or user, case-insensitively), every finite repetition has min <= max, and every num-val is at most U+10FFFF, at any nesting depth; the verdict does not depend on map iteration order.", "quantifier": "every grammar and map iteration order", "why_tests_cant": "All nesting depths and shapes.", "anchors": ["/repo/grammar.go: SemvalABNF, semvalAlternation", "/repo/dag.go: getDependencies"]}
{"id": "C18", "title": "Rule lookup is case-insensitive, prefers user rules and is order independent", "statement": "GetRule(name, rules) returns the user rule whose name equals name up to ASCII case, else the core rule, else nil; the result does not depend on map iteration order provided no two user rules collide up to case, and names differing only in case always give the same answer.", "quantifier": "every rule map, name and iteration order", "why_tests_cant": "Map order is randomised by the runtime.", "anchors": ["/repo/utils.go: GetRule, getRuleIn"]}
{"id": "C19", "title": "DependencyGraph edges are exactly the rule references", "statement": "b is a dependency of rule a iff a's definition mentions b (up to case) at some nesting depth; each dependency is listed once.", "quantifier": "every grammar", "why_tests_cant": "All nesting depths.", "anchors": ["/repo/dag.go: DependencyGraph, getDependencies, appendDeps"]}
{"id": "C20", "title": "RuleContainsCycle is exact", "statement": "RuleContainsCycle(r) is true iff a rule that (transitively) refers to itself is reachable from r through rule references.", "quantifier": "every grammar, rule and map iteration order", "why_tests_cant": "The SCC traversal order is the Go map order; graphs are unbounded.", "anchors": ["/repo/dag.go: RuleContainsCycle, ruleContainsCycle, ruleCycleVisit, cycle.find, cycle.strongconnect"]}
{"id": "C21", "title": "IsDAG is exact", "statement": "IsDAG() is true iff no rule transitively refers to itself.", "quantifier": "every grammar and map iteration order", "why_tests_cant": "As C20.", "anchors": ["/repo/dag.go: IsDAG, cycle.strongconnect"]}
{"id": "C22", "title": "The SCC finder returns the strongly connected components", "statement": "The components found by the Tarjan traversal are the strongly connected components of the dependency graph.", "quantifier": "every graph and every visiting order", "why_tests_cant": "Order dependent; graphs unbounded.", "anchors": ["/repo/dag.go: cycle.find, cycle.strongconnect", "/repo/leftrec.go: leftRecursiveSCCs"]}
{"id": "C23", "title": "Nullability analysis is sound and exact", "statement": "On grammars whose num-val series are not empty, nullableRules marks every rule that derives the empty string, whatever the order rules are visited in; if moreover no repetition has an upper bound below its lower bound, it marks only those.", "quantifier": "every grammar and iteration order", "why_tests_cant": "A least fixpoint over all grammars.", "anchors": ["/repo/leftrec.go: nullableRules, altNullable, repNullable, elemNullable"]}
{"id": "C24", "title": "Regex denotes the rule's language", "statement": "When Regex(rule) succeeds on a grammar whose references all resolve, the regular expression denotes exactly the language of the rule.", "quantifier": "every acyclic rule without prose-val, every text", "why_tests_cant": "Language equality over all words.", "anchors": ["/repo/regex.go: Regex, reBuilder, simplify, normalizeRanges"]}
{"id": "C25", "title": "Regex simplification keeps the language", "statement": "simplify applied to any regex tree yields a tree with the same language.", "quantifier": "every regex tree and every text", "why_tests_cant": "Language equality over all words.", "anchors": ["/repo/regex.go: simplify, normalizeRanges"]}
{"id": "C26", "title": "Character-class normalisation is exact and canonical", "statement": "normalizeRanges returns sorted, disjoint, non-adjacent ranges that contain exactly the characters of the input ranges.", "quantifier": "every list of ranges", "why_tests_cant": "Ranges over all lists of ranges.", "anchors": ["/repo/regex.go: normalizeRanges"]}
{"id": "C27", "title": "Generate only produces members", "statement": "Every byte string Generate(seed, rule, ...) returns without error is derivable from the rule.", "quantifier": "every grammar, every random stream, every threshold option", "why_tests_cant": "Quantifies over all random streams.", "anchors": ["/repo/generate.go: Generate, generateAlt, generateKeepGoing, checkCanGenerateSafely"]}
{"id": "C28", "title": "The AST generator only produces members and always terminates", "statement": "Every string an ASTGenerator produces is derivable from its start rule, for every source of randomness, and generation terminates.", "quantifier": "every grammar accepted by NewASTGenerator, every random stream and depth option", "why_tests_cant": "Quantifies over all random streams and recursion depths.", "anchors": ["/repo/ast.go: NewASTGenerator, genAlt, genConcat, genRep, genElem, cheapestConcat, costAlt"]}
{"id": "C29", "title": "Random draws are always in range", "statement": "intn(n) of every source returns a value in [0,n) for every n>0, whatever bytes the tape holds and however short it is.", "quantifier": "every tape, position and n", "why_tests_cant": "All byte tapes.", "anchors": ["/repo/fuzz.go: tapeSource.intn, indexedSource.intn"]}
{"id": "C30", "title": "TransitionGraph accepts exactly the rule's language", "statement": "The words spelled by paths from an entry point to an end point of TransitionGraph(rule) are exactly the texts derivable from the rule.", "quantifier": "every acyclic rule of every grammar, every text", "why_tests_cant": "Language equality over all words.", "anchors": ["/repo/transition_graph.go: TransitionGraph, altGraph, concatGraph, repGraph, elemGraph, concatTransitionGraphs, cloneTransitionGraph"]}
{"id": "C31", "title": "Graph-based generation is sound and terminates", "statement": "Every output of Generator/Reader walks is a text spelled by the transition graph, and each walk terminates.", "quantifier": "every graph and every source of randomness", "why_tests_cant": "All random streams.", "anchors": ["/repo/fuzz.go: walk, nearestToEnd", "/repo/transition_graph.go: Next, Scan"]}
{"id": "C32", "title": "NearMiss outputs are rejected", "statement": "A string returned by NearMiss is never derivable from the rule.", "quantifier": "every grammar, rule and random stream", "why_tests_cant": "All random streams.", "anchors": ["/repo/fuzz.go: NearMiss, nearMissCandidates"]}
{"id": "C33", "title": "ExpectedNext misses no continuation", "statement": "If some byte b makes prefix+b a prefix of a text of the rule then ExpectedNext(prefix) contains b.", "quantifier": "every graph-convertible rule and every prefix", "why_tests_cant": "All prefixes.", "anchors": ["/repo/fuzz.go: ExpectedNext, nodeEmissions, octetSet"]}
{"id": "C34", "title": "Parse errors point inside the input with correct line and column", "statement": "A ParseError's offset is in [0,len(input)], its line is 1 plus the number of LF bytes before the offset, its column is 1 plus the number of bytes since the last LF. Expected is what was expected, sorted. Found is EOF exactly at the end of the input; otherwise it shows the byte at the offset: a visible character in quotes, escaped if it is a quote or a backslash, every other byte as % x and two upper-case hexadecimal digits, with its name if it is CR, LF, HTAB or SP. Hint is set exactly at an LF that no CR precedes.", "quantifier": "every input and offset", "why_tests_cant": "All inputs.", "anchors": ["/repo/errors.go: newParseError, describeByte"]}
{"id": "C35", "title": "The furthest-failure offset is meaningful", "statement": "For an input that ParseForest rejects, every terminal listed as expected at the reported offset failed to match there, the offset is at most len(input), and no terminal failed further right.", "quantifier": "every grammar, input, map order", "why_tests_cant": "All runs.", "anchors": ["/repo/sppf.go: noteFail, ParseError"]}
{"id": "C36", "title": "Incremental alternatives equal a single definition", "statement": "With default options, evaluating a rulelist in which a rule is defined once with = and extended with =/ gives the rule whose alternatives are those of all its definitions in source order; other rules and the core rules are unaffected.", "quantifier": "every sequence of rule definitions", "why_tests_cant": "All sequences of definitions.", "anchors": ["/repo/grammar.go: feval.rulelist"]}
{"id": "C37", "title": "Duplicate and core redefinitions are refused", "statement": "With default options, rulelist evaluation fails iff some definition repeats a user rule with =, extends a rule not defined before with =/, or defines or extends a core rule; after success all user rule names are distinct up to case and none is a core name. WithRedefineCoreRules changes nothing for rulelists that name no core rule.", "quantifier": "every sequence of rule definitions and both option values", "why_tests_cant": "All sequences of definitions.", "anchors": ["/repo/grammar.go: feval.rulelist", "/repo/option.go"]}
{"id": "C38", "title": "Printing a grammar and reading it back preserves it", "statement": "The String() of an alternation/rule determines it: two well-formed ASTs that print equally are equal.", "quantifier": "every well-formed AST", "why_tests_cant": "All ASTs.", "anchors": ["/repo/abnf.go: String methods"]}
{"id": "C39", "title": "Parse trees cover exactly the input", "statement": "Forest.Tree() of a valid forest is rooted at the start rule over [0,len(input)], and the leaves of every node, read left to right, tile its span; every rule node spans a text derivable from that rule.", "quantifier": "every grammar, valid input, map order", "why_tests_cant": "All forests.", "anchors": ["/repo/sppf.go: Tree, emitSymbol, collect, collectChild"]}
{"id": "C40", "title": "NumTrees and Ambiguous are consistent", "statement": "For a valid forest NumTrees is never 0; Ambiguous() is false iff NumTrees() is 1 (infinite counts as ambiguous).", "quantifier": "every forest", "why_tests_cant": "All forest shapes incl. cyclic ones.", "anchors": ["/repo/sppf.go: NumTrees, Ambiguous"]}
{"id": "C41", "title": "The SPPF and BSR engines agree on ambiguity", "statement": "ParseForest and ParseBSR report the same NumTrees and Ambiguous for the same input (claimed in the header of bsr.go).", "quantifier": "every grammar and input", "why_tests_cant": "A differential corpus cannot settle it.", "anchors": ["/repo/bsr.go: NumTrees, Ambiguous", "/repo/sppf.go: NumTrees, Ambiguous"]}
{"id": "C42", "title": "Options: the last one wins and defaults are strict", "statement": "process(opts...) yields validate=true, redefineCore=false with no options, and otherwise the value of the last option of each kind.", "quantifier": "every option list", "why_tests_cant": "All lists.", "anchors": ["/repo/option.go: process"]}
{"id": "C43", "title": "UTF-8 decoding is the inverse of encoding and rejects everything else", "statement": "Decoding at a position yields character c with width k iff the k bytes there are the UTF-8 encoding of c; surrogates, overlong forms and values above U+10FFFF are never decoded.", "quantifier": "every byte string", "why_tests_cant": "All byte strings.", "anchors": ["/repo/sppf.go: matchTerm (utf8.DecodeRune)", "/repo/recognize.go: computeElem"]}
{"id": "C44", "title": "IsValid always terminates without panicking", "statement": "IsValid returns (no panic, no infinite recursion) on every grammar, rule and input, including left-recursive ones.", "quantifier": "every grammar, rule, input, map iteration order", "why_tests_cant": "Non-termination/panic may depend on map order.", "anchors": ["/repo/recognize.go: reachElem, reachLeftRec", "/repo/leftrec.go: leftRecursiveSCCs"]}
{"id": "C45", "title": "The generated parser never returns a truncated result", "statement": "The parser emitted by GenerateGoParser returns either an error or a result with the same acceptance as ParseBSR, for every MaxElements.", "quantifier": "every grammar, input and MaxElements", "why_tests_cant": "All inputs and budgets.", "anchors": ["/repo/codegen.go: GenerateGoParser (emitted Parse, emitProcess, emitCharVal, emitSeries)"]}
{"id": "C46", "title": "Renderer budget", "statement": "Regex rendering with a length budget of n bytes either fails with the budget error, exactly when the UTF-8 text of the unbudgeted pattern is longer than n bytes, or returns that pattern.", "quantifier": "every regex tree and budget", "why_tests_cant": "All trees.", "anchors": ["/repo/regex.go: reRenderer"]}
{"id": "C47", "title": "GLL positions never leave the input", "statement": "All spans recorded in a forest lie within [0,len(input)] with start <= end.", "quantifier": "every grammar, input, map order", "why_tests_cant": "All runs.", "anchors": ["/repo/sppf.go: getNodeT, getNodeP", "/repo/bsr.go: record"]}
{"id": "C48", "title": "NumTrees counts the trees of the shared forest exactly", "statement": "For a valid forest NumTrees() is the number of trees obtained by choosing one packing at every node occurrence below the root, and -1 exactly when that number is infinite, which is exactly when some node lies below itself; Nodes() is the number of nodes at or below the root.", "quantifier": "every grammar, valid input, map order", "why_tests_cant": "All forests, including cyclic ones; exact counts grow exponentially.", "anchors": ["/repo/sppf.go: NumTrees, Ambiguous, Nodes"]}
{"id": "C49", "title": "Trees of the BSR engine cover exactly the input", "statement": "BSRForest.Tree() terminates, returns nil exactly for invalid forests, is rooted at the start rule over [0,len(input)], and the leaves of every node tile its span.", "quantifier": "every grammar, input, map order", "why_tests_cant": "All BSR sets and all iteration orders of a Go map.", "anchors": ["/repo/bsr.go: Tree, collectElem, collectChild, pick"]}
{"id": "C50", "title": "Tree returns a derivation tree", "statement": "In the tree returned by Forest.Tree() or BSRForest.Tree() the children of every rule node are a way the rule's definition covers the node's span, repetition bounds included.", "quantifier": "every grammar, valid input, map order", "why_tests_cant": "All grammars and trees.", "anchors": ["/repo/sppf.go: Tree, collect", "/repo/bsr.go: Tree, collectElem"]}
{"id": "C51", "title": "The core rules are those of RFC 5234 appendix B.1", "statement": "In a grammar that defines none of them itself, each of the sixteen core rules derives exactly the texts RFC 5234 appendix B.1 gives it, numbers being read as Unicode code points in UTF-8.", "quantifier": "every grammar that keeps the core rules and every byte string", "why_tests_cant": "All byte strings; tests use a handful of characters per rule.", "anchors": ["/repo/rules.go: coreRules"]}
{"id": "C52", "title": "Regex fails only for the reasons it names", "statement": "Without a length budget, Regex returns ErrRuleNotFound exactly when the rule does not exist, ErrCyclicRule exactly when a self-referring rule can be reached, ErrHandlingProseVal exactly when no such rule but a prose-val can be reached, and a pattern in every other case; it always terminates.", "quantifier": "every grammar with distinct rule names, every rule name, every map iteration order", "why_tests_cant": "All grammars; termination depends on reachability through the rule graph.", "anchors": ["/repo/regex.go: Regex, reBuilder", "/repo/dag.go: RuleContainsCycle"]}
{"id": "C53", "title": "Generate refuses exactly the rules it cannot generate from", "statement": "Generate returns ErrRuleNotFound exactly when no rule has the given name, and ErrCyclicRule exactly when the rule derives no text at all.", "quantifier": "every grammar with distinct rule names whose reachable references are defined and whose terminals are encodable, every random stream, every option", "why_tests_cant": "All grammars: the check is a recursive walk over the rule graph with pruning of repeated rules.", "anchors": ["/repo/generate.go: Generate, checkCanGenerateSafely, checkCanGenerateSafelyAlt"]}
{"id": "C54", "title": "Generate never panics", "statement": "For a semantically valid grammar Generate returns bytes or an error; it never panics.", "quantifier": "every semantically valid grammar, rule name, random stream and option", "why_tests_cant": "Quantifies over all repetition bounds and options.", "anchors": ["/repo/generate.go: Generate, generateAlt, generateKeepGoing"]}
{"id": "C55", "title": "Generate ends on rules without recursion", "statement": "If no rule reachable from the given one refers back to itself, Generate returns after nesting at most as many rules as there are, whatever the random stream.", "quantifier": "every grammar with distinct names, non-recursive rule, random stream, option", "why_tests_cant": "Quantifies over all random streams and grammars.", "anchors": ["/repo/generate.go: Generate, generateAlt"]}
{"id": "C56", "title": "Every choice can be drawn from a tape", "statement": "For every n and every x below n some tape makes intn(n) return x at the current position, and an exhausted tape makes it return 0.", "quantifier": "every n up to 2^63-256 (2^32 for slots), every x below n, every position", "why_tests_cant": "All counts, values and positions.", "anchors": ["/repo/fuzz.go: tapeSource.intn, indexedSource.intn"]}
{"id": "C57", "title": "Stable addressing is local", "statement": "Under stable addressing the i-th decision depends only on the four bytes of slot i of the tape, so editing, extending or truncating the tape elsewhere leaves it unchanged.", "quantifier": "every pair of tapes agreeing on a slot, every n", "why_tests_cant": "All tapes and positions.", "anchors": ["/repo/fuzz.go: indexedSource.intn"]}
{"id": "C58", "title": "NewASTGenerator accepts exactly the productive rules", "statement": "NewASTGenerator always returns. It returns ErrRuleNotFound exactly for unknown names; otherwise it succeeds exactly if every rule reachable from the given one has its references defined and derives some text by a derivation of size below 2^30 (bytes plus rules passed through), and an error names a rule for which this fails.", "quantifier": "every grammar with distinct names and repetition minima below 2^33 whose reachable terminals can be written, every rule name", "why_tests_cant": "Needs the exactness of a fixpoint over all recursive grammars.", "anchors": ["/repo/ast.go: NewASTGenerator, costAlt, costConcat, costElem, addClamp, mulClamp"]}
{"id": "C59", "title": "The AST generator does not depend on map order", "statement": "Neither the outcome of NewASTGenerator nor the text generated from a given source depends on the iteration order of Go's maps.", "quantifier": "every grammar with distinct names and repetition minima below 2^33, every pair of iteration orders, chosen anew for each pass", "why_tests_cant": "All iteration orders.", "anchors": ["/repo/ast.go: NewASTGenerator"]}
{"id": "C60", "title": "WithMaxNodes bounds the graph", "statement": "A graph returned by TransitionGraph under WithMaxNodes(n), n > 0, has at most n nodes, counting its end points and everything reachable from its entry points.", "quantifier": "every grammar with distinct names, rule, map order and options with threshold * n below 2^63", "why_tests_cant": "All grammars and options; the accounting is separate from the allocation.", "anchors": ["/repo/transition_graph.go: reserve, reserveClones, countReachable, cloneTransitionGraph, chainTransitionGraph"]}
{"id": "C61", "title": "TransitionGraph fails exactly when it must", "statement": "TransitionGraph never panics and always returns. Without a budget it returns a graph exactly when the rule exists, the grammar is valid if rules are deflated, no reachable rule is cyclic, and every repetition visited has ordered bounds within the threshold and is no prose-val. With a budget the only other error is ErrMaxNodesExceeded.", "quantifier": "every grammar with distinct names and no empty concatenation, rule, map order and options", "why_tests_cant": "All grammars and options.", "anchors": ["/repo/transition_graph.go: TransitionGraph, repGraph, elemGraph"]}
{"id": "C62", "title": "Walks keep close to their limits", "statement": "A walk of Generator makes at most max(maxSteps,0)+F steps and writes at most max(maxLength,0)+(F+1)*E bytes, where F is the largest number of steps from a reachable node to the nearest end point and E the most bytes a node writes.", "quantifier": "every finite graph, options and source of randomness", "why_tests_cant": "All graphs, options and random streams.", "anchors": ["/repo/fuzz.go: walk, nearestToEnd, NewGenerator (distToEnd)"]}
{"id": "C63", "title": "Every text can be generated from some tape", "statement": "For every text of a rule whose graph NewGenerator accepts there is a bound such that Generate returns it for some tape, under either addressing, and GenerateRand for some stream, whenever maxReps, maxSteps and maxLength exceed the bound.", "quantifier": "every grammar, graph, text and options; literals of at most 30 letters", "why_tests_cant": "Surjectivity over an infinite language.", "anchors": ["/repo/fuzz.go: walk, Generate, GenerateRand, tapeSource.intn, indexedSource.intn", "/repo/transition_graph.go: nodeEmit"]}
{"id": "C64", "title": "CoverageAllTrails lists every trail with every variation", "statement": "In the mode CoverageAllTrails a reader returns, shortest first, one text for every trail (walk from an entry point to an end point using each edge at most once) and every combination of its nodes' variations, each once if no node lists a successor twice; then it is exhausted. Mixing Next and Scan calls and the map order do not change the sequence.", "quantifier": "every finite graph, cyclic or not, every sequence of Next and Scan calls, every map order", "why_tests_cant": "All graphs and call sequences; needs termination of a stateful backtracking enumeration.", "anchors": ["/repo/transition_graph.go: prepare, allowedAt, pushFirst, bump, nextLeaf, advancePath, ensureStaged, consumeStaged, Next, Scan"]}
{"id": "C65", "title": "CoverageCompact covers vertices, edges and values within its bound", "statement": "In the mode CoverageCompact a reader returns finitely many texts of walks such that every vertex and edge lying on some walk is passed and every value of such a vertex is written, and their number is at most #edges + #vertices + the sum of the variation counts.", "quantifier": "every finite graph, every map order", "why_tests_cant": "All graphs; needs the searches and the greedy claiming of values to be exact.", "anchors": ["/repo/transition_graph.go: buildCompact, prepare, CoverageCompact"]}
{"id": "C66", "title": "CoverageAllTrails covers the graph", "statement": "Every reachable vertex and edge that lies on some walk from an entry point to an end point appears in at least one text produced by the reader.", "quantifier": "every finite graph", "why_tests_cant": "All graphs.", "anchors": ["/repo/transition_graph.go: TransitionGraphReader"]}
{"id": "C67", "title": "Scan returns nil only once coverage is complete", "statement": "Scan returns nil exactly when Next reports that no text is left.", "quantifier": "every finite graph, both modes, every sequence of calls", "why_tests_cant": "All graphs and call sequences.", "anchors": ["/repo/transition_graph.go: Next, Scan, buildCompact (emit)"]}
{"id": "C68", "title": "ExpectedNext invents no continuation", "statement": "Every octet returned by ExpectedNext(prefix) extends the prefix to the beginning of a text of the rule, and accepts is true exactly if the prefix is a text.", "quantifier": "every graph-convertible rule and every prefix", "why_tests_cant": "All prefixes; that no continuation exists is a statement about all texts.", "anchors": ["/repo/fuzz.go: ExpectedNext, nodeEmissions", "/repo/transition_graph.go: cloneTransitionGraph"]}
{"id": "C69", "title": "ExpectedNext is deterministic, and succeeds on what it can expand", "statement": "The result of ExpectedNext does not depend on map iteration order; ok is true for every prefix if all elements of the graph are literals, series of characters, or nonempty ranges within ASCII or of at most 65536 code points, and exactly those elements can be expanded.", "quantifier": "every graph, prefix and iteration order", "why_tests_cant": "Go randomises map iteration: a run shows one order.", "anchors": ["/repo/fuzz.go: ExpectedNext, nodeEmissions, expectedNextRangeCap"]}
{"id": "C70", "title": "NearMiss returns what its label says", "statement": "The string returned by NearMiss differs from a text written by the walk by exactly the perturbation its label names (a range segment replaced by a neighbour of the range, one byte substituted, a suffix cut, a byte appended, one byte deleted), and IsValid rejects it; if the rule consists of characters, the text it starts from is derivable.", "quantifier": "every graph NewGenerator accepts, every tape and iteration order", "why_tests_cant": "All tapes and graphs.", "anchors": ["/repo/fuzz.go: NearMiss, nearMissCandidates, numvalRange, walk (trace)"]}
{"id": "C71", "title": "NearMiss always finds a near miss", "statement": "NearMiss and NearMissRand return with ok = true for every tape, because the octet FF after any text is a candidate that no rule derives.", "quantifier": "every rule that has a transition graph and uses rules that can be written in ABNF, and every rule of a grammar whose left recursion is simple; every tape and iteration order", "why_tests_cant": "All tapes and grammars; totality over every random stream.", "anchors": ["/repo/fuzz.go: NearMiss, NearMissRand, nearMissCandidates"]}
{"id": "C72", "title": "The file GenerateGoParser returns compiles", "statement": "Whenever GenerateGoParser returns a nil error for a grammar that passes SemvalABNF, the Go source it returns compiles: every variable a case of the emitted switch uses is declared before, every variable declared is used, package unicode/utf8 is imported exactly when it is used, and every series literal referred to is declared.", "quantifier": "every grammar that can be written in ABNF and passes SemvalABNF, and every root", "why_tests_cant": "All grammars: the emitted text depends on the elements of every reachable rule, and the project's tests compile the output for a handful of grammars only.", "anchors": ["/repo/codegen.go: GenerateGoParser, emitProcess, emitCall, emitTerminal, emitMatch, emitSeries, emitImports, scanUTF8"]}
{"id": "C73", "title": "NearMiss tries every kind of variation", "statement": "The variations NearMiss considers are exactly: for each num-val range that wrote a piece of the text, the rune just below and the rune just above in place of the piece; five substitutes for one drawn byte; the text without its last byte, last two bytes, last half, and all but its first byte; the bytes 00, 21, FF and 41 appended; and one drawn byte deleted. They are tried in cyclic order from a drawn position, and the first that differs from the text and that IsValid rejects is returned. NearMissRand is NearMiss for a tape of 64 bytes.", "quantifier": "every grammar, finite graph and tape", "why_tests_cant": "The set of variations depends on the text and its derivation; a test sees the one variation returned, so a missing or never-tried variation stays invisible.", "anchors": ["/repo/fuzz.go: NearMiss, NearMissRand, nearMissCandidates, numvalRange"]}
{"id": "C74", "title": "A grammar that settles every choice is never ambiguous", "statement": "If in a grammar no text is derived by two alternatives of a rule, group or option, no concatenation can cut a text in two places, and no repeated element is empty or can end in two places, then for every input Ambiguous returns false, and if the input is accepted NumTrees returns 1 and Tree returns a derivation tree; this holds for the shared forest and for the BSR set.", "quantifier": "every such grammar, every start rule, every input, every map iteration order", "why_tests_cant": "A test can only find that some inputs have one tree; ambiguity reported on another input, or a node packed twice by a different schedule, stays unseen.", "anchors": ["/repo/sppf.go: Ambiguous, NumTrees, Tree", "/repo/bsr.go: Ambiguous, NumTrees, Tree"]}
{"id": "C75", "title": "The ABNF variable is the grammar of RFC 5234 and RFC 7405", "statement": "The grammar held in the variable ABNF derives from `rulelist` exactly the source texts RFC 5234 section 4 with errata 2968 and 3076 and RFC 7405 describe: definitions one per line or continued on indented lines, comments, repetitions, groups, options, strings, num-vals and prose-vals. Every source text says one list of definitions only.", "quantifier": "every byte string", "why_tests_cant": "The set of source texts is infinite; a test compares a few texts, so a rule of the meta-grammar that is slightly too wide or too narrow is not noticed.", "anchors": ["/repo/abnf.go: ABNF", "/repo/rules.go: coreRules"]}
{"id": "C76", "title": "Parsing with the ABNF grammar is never ambiguous", "statement": "For every input and every start rule, the forest that ParseForest or ParseBSR returns with the grammar ABNF is not ambiguous; if the input is accepted NumTrees returns 1 and Tree returns its derivation tree.", "quantifier": "every input, start rule, map iteration order and budget within which parsing ends", "why_tests_cant": "Ambiguity of a grammar is undecidable in general and depends on all inputs; a test sees one tree for the sources it has.", "anchors": ["/repo/abnf.go: ABNF", "/repo/sppf.go: Ambiguous, NumTrees, Tree", "/repo/bsr.go: Ambiguous, NumTrees, Tree"]}
{"id": "C77", "title": "ParseABNF returns a syntax error exactly for what is not an ABNF text", "statement": "ParseABNF returns a *ParseError exactly if the input is not an ABNF source text. Its other errors come from the definitions (a name defined twice, extended before it is defined, or that of a core rule) or, if validation is on, from SemvalABNF; it never returns ErrMultipleSolutionsFound, never finds a budget exhausted and never panics. EvaluateABNF on a forest of a source text gives what the definitions give, and on the forest of any other input ErrNoSolutionFound.", "quantifier": "every input, every list of options, every map iteration order", "why_tests_cant": "A fuzz target sees that some inputs do not panic; that no source text at all is refused or found ambiguous needs an argument over all texts.", "anchors": ["/repo/grammar.go: ParseABNF, EvaluateABNF, evalForest"]}
{"id": "C78", "title": "ParseABNF returns the grammar the text says", "statement": "If the input is an ABNF source text, ParseABNF returns a grammar exactly if each name is defined by `=` once and before `=/` extends it, no name is that of a core rule and, under validation, the grammar is sound; the grammar then has one rule per name, whose alternatives are those written for the name, in order, with the repetitions, groups, options, strings, num-vals and prose-vals as the RFC reads them.", "quantifier": "every source text, every list of options, every map iteration order", "why_tests_cant": "The evaluator walks trees of unlimited shape; a test compares a few grammars with a few expected values.", "anchors": ["/repo/grammar.go: ParseABNF, rulelist, rule, alternation, concatenation, repetition, parseRepeat, element, charVal, numVal, proseVal"]}
{"id": "C79", "title": "ParseABNF reads back what String and PrettyPrint write", "statement": "Applying ParseABNF with the same options to what String or PrettyPrint writes for a grammar that ParseABNF returned gives the same rules, whatever the order of the map iteration.", "quantifier": "every grammar ParseABNF returns, every list of options, every map iteration order", "why_tests_cant": "A round trip over a few grammars says nothing about the others, and the printed order changes from run to run.", "anchors": ["/repo/grammar.go: String, PrettyPrint, ParseABNF", "/repo/abnf.go: String methods"]}
{"id": "C80", "title": "Grammars from ParseABNF are well formed", "statement": "A grammar ParseABNF returns without WithRedefineCoreRules can be written down again (names, strings and digits have the form the RFC asks for), no two rules share a name, no rule has the name of a core rule, the repeat counts fit in an int, and under validation it is sound. If no text occurs in it both with and without %s, ParseForest accepts exactly the texts it derives.", "quantifier": "every input, every list of options, every map iteration order", "why_tests_cant": "The conditions range over all grammars that can be written; a test checks the ones it has.", "anchors": ["/repo/grammar.go: ParseABNF, rulelist", "/repo/sppf.go: ParseForest"]}
{"id": "C81", "title": "GenerateGoParserFromABNF emits a parser for the language of the source", "statement": "The parser that GenerateGoParserFromABNF emits for an ABNF source and a start rule accepts exactly the texts the source's rules derive from it. It emits one exactly if ParseABNF returns a grammar and the start rule can be compiled within the slot budget.", "quantifier": "every source, start rule, list of options and input", "why_tests_cant": "The emitted parser is run on a few inputs in tests; that it has exactly the language of an arbitrary source cannot be tested.", "anchors": ["/repo/codegen.go: GenerateGoParserFromABNF, GenerateGoParser"]}
{"id": "C82", "title": "IsValid answers exactly on the ABNF grammar", "statement": "ABNF.IsValid(rule, input) returns true exactly if the rule derives the input and false otherwise, for every rule of the grammar in the variable ABNF and every core rule; for other names it returns the rule-not-found error. So ABNF.IsValid(\"rulelist\", input) is true exactly for ABNF source texts.", "quantifier": "every rule name, every byte string, every map iteration order", "why_tests_cant": "The recogniser is exact only for grammars that meet several conditions; tests try some sources, not all byte strings.", "anchors": ["/repo/grammar.go: IsValid", "/repo/abnf.go: ABNF"]}
{"id": "C83", "title": "What Generate writes from the ABNF grammar is valid and is ABNF source", "statement": "Whatever the seed and the options, what ABNF.Generate(seed, rule) returns is derived from the rule and accepted by IsValid, it does not panic if the repetition limit is at least 1, and ParseABNF never returns a syntax error for what is generated from `rulelist`. This is what the fuzz targets FuzzGeneratedValid and FuzzGeneratedABNF look for.", "quantifier": "every seed, every option value, every rule name", "why_tests_cant": "A fuzz target tries seeds one by one and cannot cover the unlimited set of generated texts.", "anchors": ["/repo/generate.go: Generate", "/repo/generate_fuzz.go: FuzzGeneratedValid", "/repo/grammar_fuzz.go: FuzzGeneratedABNF"]}
{"id": "C84", "title": "The AST generator works on the whole ABNF grammar", "statement": "NewASTGenerator(ABNF, rule) returns a generator for every rule of ABNF and every core rule, and everything it generates is derived from the rule; what it generates from `rulelist` is ABNF source text.", "quantifier": "every rule, every source of randomness, every option value, every map iteration order", "why_tests_cant": "Generated texts are unlimited in number and depend on random choices.", "anchors": ["/repo/ast.go: NewASTGenerator, Generate"]}
{"id": "C85", "title": "The grammar cannot leave the comments of the emitted parser", "statement": "Every comment that GenerateGoParserFromABNF, used without WithRedefineCoreRules, writes beside a case of the emitted parser is made of printable ASCII only, so text of the grammar never continues on the next line as code. There is one comment for each case, and it tells the production with the dot and the three numbers of the slot the case is for.", "quantifier": "every ABNF source, every start rule, every list of options without WithRedefineCoreRules(true)", "why_tests_cant": "An injected line break needs one particular grammar; tests generate parsers for a few.", "anchors": ["/repo/codegen.go: slotComment, symStr, sanitizeComment, emitProcess"]}
{"id": "C86", "title": "Calls of ParseABNF do not influence each other", "statement": "In a program that starts with the core rules of the RFC, every call of ParseABNF returns what it would return as the first call of the program, and leaves the core rules as they are, as long as each call is made without WithRedefineCoreRules(true) or its text extends no core rule by `=/`.", "quantifier": "every list of calls, with any inputs, options and map iteration orders", "why_tests_cant": "The influence goes through a package variable and shows only for particular sequences of calls; the number of sequences is unlimited.", "anchors": ["/repo/grammar.go: ParseABNF, rulelist", "/repo/rules.go: coreRules", "/repo/utils.go: GetRule"]}
{"id": "C87", "title": "ToMermaid draws exactly the graph", "statement": "For a transition graph, ToMermaid returns a text that lists every node that can be reached from an entry point exactly once, with one line per edge, marks exactly the entry points and the end points, and lists the empty node iff it is an entry point. It never panics on a graph made by TransitionGraph from rules whose ranges have two bounds, and the labels of written grammars neither close their quotes nor break the line.", "quantifier": "every grammar, rule, set of options, every order of the node map and all node identifiers", "why_tests_cant": "Graphs are unbounded and may be cyclic; the order of the drawing is the Go map order.", "anchors": ["/repo/transition_graph.go: ToMermaid, mapNodes, elemToString"]}
{"id": "C88", "title": "NewGenerator accepts every deflated graph", "statement": "Every graph that TransitionGraph makes with rules deflated is accepted by NewGenerator; with rules kept it is refused iff a rule name can be reached.", "quantifier": "every grammar, rule, and set of options", "why_tests_cant": "All grammars.", "anchors": ["/repo/transition_graph.go: TransitionGraph, elemGraph", "/repo/fuzz.go: NewGenerator"]}
{"id": "C89", "title": "Depgraph.Mermaid draws an arrow between two rules iff one refers to the other", "statement": "For rules a and b the text of Mermaid has an arrow from the name of a to the name of b iff a refers to b.", "quantifier": "every grammar and map iteration order", "why_tests_cant": "All grammars and orders.", "anchors": ["/repo/dag.go: Mermaid, DependencyGraph"]}
{"id": "C90", "title": "pap validate reports exactly the invalid grammars", "statement": "pap validate fails with a syntax error and its position if the input is no ABNF text; for an ABNF text it succeeds iff every name is defined exactly once before it is extended and, unless --sem-val=false is given, the grammar is semantically sound. It prints the rules of the text.", "quantifier": "every input, flag value and map iteration order", "why_tests_cant": "All inputs; map iteration order.", "anchors": ["/repo/cmd/pap/commands/validate.go: validate", "/repo/cmd/pap/commands/utils.go: readInput"]}
{"id": "C91", "title": "The output of pap validate can be read back", "statement": "What pap validate prints is an ABNF text of the same rules, which pap validate accepts.", "quantifier": "every input that is accepted", "why_tests_cant": "All inputs.", "anchors": ["/repo/cmd/pap/commands/validate.go: validate", "/repo/grammar.go: PrettyPrint"]}
{"id": "C92", "title": "pap generate prints a text of the rule, determined by the seed", "statement": "What pap generate prints is a text of the rule and a line feed. It depends on the grammar, the rule, the seed and the options only; without --seed it is one of at most 256 outputs.", "quantifier": "every grammar text, rule, seed and options; rules reaching only emittable elements", "why_tests_cant": "All grammars and seeds.", "anchors": ["/repo/cmd/pap/commands/generate.go: generate", "/repo/cmd/pap/commands/utils.go: findSeed"]}
{"id": "C93", "title": "pap regex prints a pattern of exactly the texts of the rule", "statement": "pap regex succeeds iff the grammar is valid, the rule is defined and reaches neither a cycle nor prose; it prints an RE2 pattern that matches exactly the texts of the rule (repetition counts up to 1000 with ordered bounds, no range of a single surrogate), and a line feed.", "quantifier": "every input, rule and iteration order", "why_tests_cant": "All grammars and all texts.", "anchors": ["/repo/cmd/pap/commands/regex.go: regex"]}
{"id": "C94", "title": "pap transition-graph draws the graph its flags ask for", "statement": "pap transition-graph prints the drawing of a graph of exactly the texts of the rule, deflated as the flags ask: a flag set to false is the same as a flag left out.", "quantifier": "every input, rule, flags and iteration order", "why_tests_cant": "All grammars.", "anchors": ["/repo/cmd/pap/commands/transition_graph.go: transitionGraph"]}
{"id": "C95", "title": "abnf-gen writes a parser of exactly the texts of the root rule", "statement": "abnf-gen succeeds iff -in, -root and -pkg are given, the files can be read and written, the grammar is valid (sound unless -no-validate), the root is defined and lowering stays under 65536 nonterminals; the program it writes to the file or the standard output accepts exactly the texts of the root rule.", "quantifier": "every grammar text, flags, input of the generated parser and iteration order", "why_tests_cant": "All grammars and inputs.", "anchors": ["/repo/cmd/abnf-gen/main.go: run"]}
{"id": "C96", "title": "The fuzz targets for transition graphs never fail", "statement": "On every input text and rule name, fuzzTarget_GrammarToTransitionGraph and fuzzTarget_ExhaustiveCombinations end without a panic: the input is skipped, or the graph is built and drawn, and the loop of Next and Scan ends after listing exactly the texts of the trails with their variations.", "quantifier": "every byte string shorter than 2^62, rule name and map iteration order", "why_tests_cant": "All inputs; fuzzing meets a few.", "anchors": ["/repo/transition_graph_fuzz.go: fuzzTarget_GrammarToTransitionGraph", "/repo/transition_graph_fuzz.go: fuzzTarget_ExhaustiveCombinations"]}
{"id": "C97", "title": "FuzzRegex never fails", "statement": "For every grammar that ABNF.Generate writes and every rule name, Regex returns no error but that the rule does not exist or reaches prose, and its result compiles.", "quantifier": "every random stream, rule name and map iteration order", "why_tests_cant": "All random streams.", "anchors": ["/repo/regex_fuzz.go: FuzzRegex", "/repo/regex.go: Regex"]}
{"id": "C98", "title": "Generate returns exactly the texts the rule can become", "statement": "The texts that Grammar.Generate can return for a rule and options are exactly those built from its elements one after the other, where a repetition is repeated between its bounds (WithRepMax standing in for a missing maximum), one that may be left out is left out once the text has the length of WithThreshold, a string is written with each letter as it stands or as a capital, and a range gives one of its first 16 characters.", "quantifier": "every grammar, rule, option and stream of random numbers", "why_tests_cant": "All streams of random numbers, and that nothing within reach is missed.", "anchors": ["/repo/generate.go: Generate", "/repo/generate.go: generateAlt", "/repo/generate.go: generateKeepGoing"]}
{"id": "C99", "title": "Generate can return every text of a rule", "statement": "Every text of the rule that is shorter than the threshold, with no more repetitions than WithRepMax allows, is returned by Generate for some stream of random numbers.", "quantifier": "every grammar, rule and text", "why_tests_cant": "It speaks of all texts and all seeds.", "anchors": ["/repo/generate.go: Generate"]}
{"id": "C100", "title": "Errors of ParseABNF tell what is wrong", "statement": "An error of the evaluation of a rule list names the first definition that may not be made, with its reason; an error of SemvalABNF names an element of the grammar that has that fault; two errors of ParseABNF with the same text are of the same kind and speak of the same position, rule, repetition or number; and the text of a parse error ends with what was found and contains every terminal expected.", "quantifier": "every input, every list of options, every grammar", "why_tests_cant": "The texts of all errors of all inputs.", "anchors": ["/repo/errors.go: ParseError.Error", "/repo/errors.go: ErrSemanticRepetition.Error", "/repo/grammar.go: SemvalABNF", "/repo/grammar.go: ParseABNF"]}
{"id": "C101", "title": "Errors of TransitionGraph name their cause", "statement": "An error of Grammar.TransitionGraph has the cause that its kind names: the rule does not exist, SemvalABNF finds that error and rules are deflated, a rule within reach is cyclic, a budget of nodes is set, or a rule that is visited contains a repetition over the threshold, one whose bounds cross or a prose-val.", "quantifier": "every grammar with distinct rule names, rule and options", "why_tests_cant": "All grammars and options, and every kind of failure.", "anchors": ["/repo/transition_graph.go: TransitionGraph", "/repo/transition_graph.go: repGraph", "/repo/transition_graph.go: elemGraph"]}
{"id": "C102", "title": "The last option of a kind decides", "statement": "For Generate, TransitionGraph, Reader, Regex, NewGenerator, NewASTGenerator and ParseForest, each setting has the value given by the last option that sets it, or its documented default if none does.", "quantifier": "every list of options", "why_tests_cant": "All lists of options, in every order.", "anchors": ["/repo/generate.go: WithRepMax", "/repo/transition_graph.go: WithMaxNodes", "/repo/regex.go: WithMaxRegexLen", "/repo/fuzz.go: NewGenerator", "/repo/ast.go: NewASTGenerator", "/repo/sppf.go: ParseForest"]}
{"id": "C103", "title": "With numeric values deflated a series is read as alternatives", "statement": "With WithDeflateNumVals, Grammar.TransitionGraph returns exactly the graph it returns for the grammar in which every series of several numbers is written as a choice between them; the words of the graph are exactly the texts of the rule in that other grammar, and every byte that can follow a prefix there is among those ExpectedNext reports.", "quantifier": "every grammar with distinct rule names whose series have a length that fits in an int, every rule that can be visited without meeting a prose-val, every option set with WithDeflateNumVals", "why_tests_cant": "All grammars with series, all options and all words.", "anchors": ["/repo/transition_graph.go: elemGraph", "/repo/transition_graph.go: WithDeflateNumVals", "/repo/fuzz.go: ExpectedNext"]}
{"id": "C104", "title": "Redefined core rules", "statement": "With WithRedefineCoreRules(true), ParseABNF refuses a text exactly if it defines a name other than a core rule's twice or extends it before it is defined. Otherwise the grammar has one rule for each name in the text: the alternatives of its last `=` and of the extensions after it, or, for a core rule that is only extended, its own alternatives and the extensions. The verdict never depends on the order of map iteration, and the grammar does not if the rules found have distinct names.", "quantifier": "every source text in which `=` definitions of core rules are written in capitals (the verdict: every rule list), every order of map iteration", "why_tests_cant": "All texts and all map orders.", "anchors": ["/repo/grammar.go: ParseABNF", "/repo/grammar.go: feval.rulelist", "/repo/utils.go: GetRule"]}
{"id": "C105", "title": "No derivation tree is lost, and a tree that is reported to be the only one is", "statement": "NumTrees is infinite or at least the number of derivation trees of the input under the grammar. If the input is valid and Ambiguous returns false, the input has exactly one derivation tree and Tree returns it (ParseBSR and generated parsers keep leaves without text in it, ParseForest does not).", "quantifier": "every grammar whose rules have distinct names, whose elements print distinctly, whose num-vals are well formed and which references no empty name; every input, map order and budget within which parsing ends; ParseForest, ParseBSR and generated parsers without a budget", "why_tests_cant": "The trees a sharing or a deduplication loses are those nobody thought of; a test compares the trees it lists.", "anchors": ["/repo/sppf.go: NumTrees, Ambiguous, Tree", "/repo/bsr.go: NumTrees, Ambiguous, Tree", "/repo/codegen.go: GenerateGoParser"]}
{"id": "C106", "title": "From the text of a grammar to answers about inputs", "statement": "If ParseABNF reads a grammar from a source text, then with that grammar ParseForest and ParseBSR call an input valid exactly if the rules stated in the source derive it, ParseForest without budgets returns a forest exactly if the start rule is stated in the source or is a core rule, IsValid accepts only such inputs and reports a missing rule exactly for other start rules, NumTrees is never below the number of derivation trees, and where Ambiguous is false Tree is the one derivation tree. The same holds of the parser that is emitted for the source.", "quantifier": "every source text that RFC 5234 reads, whose repeat counts fit an int, with no =/ after a semicolon on the line and no string both with and without %s; every option except redefining core rules; every start rule, input and map order", "why_tests_cant": "The chain goes through an interpreter that parses the grammar with the engine under test; a test of one source and one input crosses it once.", "anchors": ["/repo/grammar.go: ParseABNF, IsValid", "/repo/sppf.go: ParseForest", "/repo/bsr.go: ParseBSR", "/repo/codegen.go: GenerateGoParserFromABNF"]}
{"id": "C107", "title": "IsValid takes polynomially many steps", "statement": "A call of IsValid that returns makes at most a polynomial number of ranges over sets of positions, explicit in the length of the input, the number of repetitions and the number of rules: of fourth degree in the length of the input, of third degree if no rule can start with itself. Each range looks at no more positions than the input has.", "quantifier": "every grammar whose rules have distinct names, every rule, input and map order", "why_tests_cant": "The comments of recognize.go promise polynomial work; an exponential case that memoisation misses would need its grammar to be guessed.", "anchors": ["/repo/recognize.go: recognizer", "/repo/grammar.go: IsValid"]}
{"id": "C108", "title": "Grammars that redefine core rules", "statement": "Every grammar that ParseABNF returns has distinct names, which differ in case only if they are those of a core rule. Printed by String or PrettyPrint, with its rules in any order, and read again with WithRedefineCoreRules(true), it gives the same rules (without %s); without that option the text is refused if a rule has the name of a core rule. ParseForest and ParseBSR see a grammar only through what GetRule finds, so the order of map iteration does not matter; and though such a text may change the package's core rules, parsers run with its own grammar answer as if it had not, and accept exactly the texts that the grammar derives.", "quantifier": "every source text, every order of the rules, every input, rule and budget", "why_tests_cant": "All texts, and package state that a test would have to observe before and after.", "anchors": ["/repo/grammar.go: ParseABNF", "/repo/grammar.go: feval.rulelist", "/repo/grammar.go: Grammar.String", "/repo/utils.go: GetRule", "/repo/sppf.go: compileSlots"]}
{"id": "C109", "title": "What the check before Generate costs", "statement": "checkCanGenerateSafely, which Generate runs first, looks up at most (R+1)^(n+16+2) rules for a grammar of n rules with at most R repetitions each, and there are grammars on which it needs about that many: for every n one of n+1 rules, returned by ParseABNF with validation, on which it looks up 2^(n+1)-2 rules before it answers that the rule can be generated.", "quantifier": "every grammar and rule name; every n", "why_tests_cant": "A test would need an input that takes exponential time.", "anchors": ["/repo/generate.go: checkCanGenerateSafely", "/repo/generate.go: Generate"]}
{"id": "C110", "title": "What Regex holds in memory", "statement": "The size of what Grammar.Regex builds is not linear in the grammar, and WithMaxRegexLen does not bound it: for every n there is a grammar of n+1 rules with two references each on which the simplified expression is one slice of 2^(n+1) nodes whatever the budget; under every positive budget below 2^(n+3) bytes Regex then returns ErrRegexTooLarge.", "quantifier": "every n, every order of map iteration, every budget", "why_tests_cant": "Memory use that is exponential in the grammar is not visible to a test of results.", "anchors": ["/repo/regex.go: simplify", "/repo/regex.go: Regex", "/repo/regex.go: WithMaxRegexLen"]}
{"id": "C111", "title": "Grammars describe exactly the context-free languages", "statement": "For every grammar and rule name, the set of Unicode texts that the rule derives is context-free in the sense of Mathlib (a finite set of rewriting rules). Conversely, for every context-free language of Unicode texts there is a grammar such that ParseABNF accepts its printed form with validation and returns it, and ParseForest accepts an input exactly if it is the UTF-8 encoding of a text of the language.", "quantifier": "every grammar and rule; every context-free language and every input", "why_tests_cant": "Ties the meaning of grammars, which all other claims rest on, to an independent definition; no test quantifies over languages.", "anchors": ["/repo/grammar.go: ParseABNF", "/repo/sppf.go: ParseForest"]}
{"id": "C112", "title": "Rules without cycles describe exactly the regular languages", "statement": "If RuleContainsCycle answers false for a rule, the set of texts the rule derives is regular in the sense of Mathlib (accepted by a finite automaton). Conversely, for every regular language of Unicode texts there is a grammar of one rule that ParseABNF accepts in its printed form, for which RuleContainsCycle answers false, and which derives exactly the UTF-8 encodings of the language.", "quantifier": "every grammar, rule and order of map iteration; every regular language", "why_tests_cant": "This is what makes Regex and TransitionGraph possible for exactly these rules; no test quantifies over languages.", "anchors": ["/repo/dag.go: RuleContainsCycle", "/repo/grammar.go: ParseABNF"]}
{"id": "C113", "title": "The rounds of ParseForest and ParseBSR", "statement": "For every grammar, root and input, let S be the number of slots of the compiled grammar, n the length of the input and B a bound on the counts of those repetitions whose element can be empty. Then the main loops of ParseForest and ParseBSR end after at most S(1 + S(n+1)(max(n,B)+1))(n+1) rounds, so at most cubically many in the input for a fixed grammar; counts of elements that consume input do not matter, however large. B cannot be dropped: for a = n\"\" both loops make more than n rounds on every input, whatever WithMaxForestNodes and WithMaxSlots (at least 3) say, and a text of 27 bytes that ParseABNF accepts makes them exceed 2^63-1 rounds on the empty input.", "quantifier": "every grammar, root, input, budget and order of map iteration; every count for the lower bound", "why_tests_cant": "A cost is a statement about all inputs; a test that ran the bad grammar would not end.", "anchors": ["/repo/sppf.go: ParseForest", "/repo/sppf.go: WithMaxForestNodes", "/repo/sppf.go: capRC", "/repo/sppf.go: addRepAlts", "/repo/bsr.go: ParseBSR"]}
{"id": "C114", "title": "What the errata to RFC 5234 change", "statement": "Take the variable ABNF with the rules rulelist and elements as RFC 5234 has them, before errata 2968 and 3076. It describes exactly the texts that ABNF describes, so the errata change no verdict of ParseForest. But every text made of rules, then a line that begins with a space or a tab and holds nothing else than further white space and comments, then any further rules, is valid and ambiguous: ParseForest, ParseBSR and the parser that GenerateGoParser emits say so under any budget that lets them finish, and the same holds of the grammar of RFC 5234 as it stands (without RFC 7405). The variable ABNF has exactly one tree for each of those texts.", "quantifier": "every text, budget and order of map iteration", "why_tests_cant": "Equality of two languages and ambiguity on an infinite family of texts are beyond any finite set of texts.", "anchors": ["/repo/rules.go: abnfRulelist", "/repo/rules.go: abnfElements", "/repo/abnf.go: ABNF", "/repo/testdata/abnf.abnf", "/repo/README.md", "/repo/codegen.go: GenerateGoParser", "/repo/sppf.go: ParseForest", "/repo/bsr.go: ParseBSR"]}
{"id": "C115", "title": "How large the lowered grammar and the emitted parser are", "statement": "Let R be the number of repetitions and K the number of alternatives written in a grammar and in the core rules, at any depth. Then the grammar that ParseForest and ParseBSR work on has at most S = 8R + 2K slots, whatever the bounds of the repetitions are, and the parser that GenerateGoParser emits has exactly one case per slot, so at most S. Hence the parsers end after at most S(1 + S(n+1)(max(n,B)+1))(n+1) rounds, B bounding the counts of those repetitions whose element can be empty.", "quantifier": "every grammar, root, input and budget", "why_tests_cant": "The absence of a blow-up is a statement about all grammars.", "anchors": ["/repo/sppf.go: compileSlots", "/repo/sppf.go: ParseForest", "/repo/bsr.go: ParseBSR", "/repo/codegen.go: GenerateGoParser", "/repo/codegen.go: assignSlots"]}
{"id": "C116", "title": "The example fuzz targets are sound and sensitive", "statement": "Let a fuzz target be built as in examples/fuzzing with a function under test. For a rule of a grammar that can be written in ABNF, that has a text, a graph and no trap of C05, and for every tape: FuzzValidAccepted and FuzzValidAcceptedStable fail exactly if the function rejects the production of the tape, which is a text of the rule; FuzzNearMissRejected always has a near miss and fails exactly if the function accepts it, and it is no text of the rule; FuzzExpectedNextErrorPosition fails only if the function accepts a text whose part before the injected octet begins a text of the rule and with which no text of the rule begins; FuzzDifferentialBothDirections fails exactly in the first and third case. So a function that decides the rule never fails any of them. Whatever text of the rule the function rejects, with limits that are high enough the acceptance targets fail for some tape. For the grammar of the example they pass for all tapes exactly if the function accepts a and A. FuzzAST of the example should be sound likewise.", "quantifier": "every grammar of the class, function under test, tape and map iteration order", "why_tests_cant": "The function under test and the tape are arbitrary; a fuzzer only ever tries some tapes.", "anchors": ["/repo/examples/fuzzing/example_test.go: FuzzValidAccepted", "/repo/examples/fuzzing/example_test.go: FuzzNearMissRejected", "/repo/examples/fuzzing/example_test.go: FuzzExpectedNextErrorPosition", "/repo/examples/fuzzing/example_test.go: FuzzDifferentialBothDirections", "/repo/examples/fuzzing/example_test.go: FuzzAST", "/repo/fuzz.go: NearMiss", "/repo/fuzz.go: ExpectedNext"]}
{"id": "C117", "title": "NumTrees counts derivation trees", "statement": "If repetition counts are settled, the trees packed in the forest of ParseForest, read as trees of rules and terminals, are exactly the derivation trees of the whole input. If moreover every rule that can be reached from the root has only names of rules and terminals in it, each once, no terminal for the empty text, and any two alternatives differ in length or have at some place elements that nothing belongs to both of, then NumTrees is the number of derivation trees of the whole input, and -1 exactly if there are infinitely many. In particular, for the grammar e = e \"+\" e / \"1\" a sum of k+1 operands has NumTrees equal to the k-th Catalan number, and Ambiguous tells whether k is at least 2; for ParseForest and ParseBSR.", "quantifier": "every grammar of the class, root, input, budget that lets the parser finish and order of map iteration; every number of operands", "why_tests_cant": "Tests count the trees of sums of up to seven operands; the count for all inputs of all such grammars needs a proof.", "anchors": ["/repo/sppf.go: NumTrees", "/repo/sppf.go: ParseForest", "/repo/bsr.go: NumTrees", "/repo/bsr.go: ParseBSR", "/repo/sppf_test.go: Test_U_ParseForest_AmbiguityCount_Catalan", "/repo/sppf.go: Ambiguous"]}
{"id": "C118", "title": "The ABNF of ABNF reads itself", "statement": "However the map of rules is iterated, ParseABNF reads what String and PrettyPrint write for the variable ABNF as that same grammar, whatever the options; the same holds of what is written for the grammar that was read; and Parse with the grammar that was read accepts what is written for it from rulelist.", "quantifier": "every order of map iteration in printing and parsing, every list of options", "why_tests_cant": "The test runs under one order of map iteration and without options; there are 24! orders of the rules.", "anchors": ["/repo/abnf.go: ABNF", "/repo/grammar.go: ParseABNF", "/repo/grammar.go: String", "/repo/grammar.go: PrettyPrint", "/repo/grammar_test.go: Test_U_ABNFParseItself"]}
{"id": "C119", "title": "NearMiss is deterministic in tape and total", "statement": "For every rule with a transition graph such that the rules it uses can be written in ABNF and no two strings in them differ in case-sensitivity alone, and every tape, NearMiss returns, with ok, and always the same text and label, however Go's maps are iterated. The text is the first candidate that differs from the production of the tape and that IsValid refuses.", "quantifier": "every such grammar, rule, options and tape; every order of map iteration at every call of IsValid", "why_tests_cant": "A run of a test sees one order of iteration; the dependence shows only where two memoised elements print alike.", "anchors": ["/repo/fuzz.go: NearMiss", "/repo/fuzz.go: nearMissCandidates"]}
{"id": "C120", "title": "IsValid is a function of its arguments", "statement": "For every grammar, rule of it and input, all calls of IsValid give the same answer, whatever the iteration orders of Go's maps, provided the rules that the given one uses can be written in ABNF and no two strings in them differ in case-sensitivity alone.", "quantifier": "every such grammar, rule and input; every pair of orders of map iteration", "why_tests_cant": "Go randomises map iteration, so a test sees a sample of the orders, and an answer that depends on them shows as a flaky test at best.", "anchors": ["/repo/grammar.go: IsValid", "/repo/recognize.go", "/repo/leftrec.go: leftRecursiveSCCs"]}
{"id": "C121", "title": "Readers and generators do not depend on node identifiers", "statement": "For every grammar and rule, two calls of TransitionGraph that succeed give the same graph up to the identifiers of nodes, however Go's maps are iterated. The texts that a Reader lists for it, in both modes, and their order are the same for all identifiers and orders of iteration, and so are the texts and near misses that a Generator gives for a tape.", "quantifier": "every grammar, rule and options; every assignment of identifiers; every order of map iteration; every tape and every sequence of calls of Next and Scan", "why_tests_cant": "Identifiers are random UUIDs and map order is randomised, so a dependence shows as a rare flaky test; a test cannot run all assignments.", "anchors": ["/repo/transition_graph.go: buildCompact", "/repo/transition_graph.go: prepare", "/repo/transition_graph.go: TransitionGraph", "/repo/fuzz.go: NewGenerator", "/repo/fuzz.go: walk"]}
{"id": "C122", "title": "What a parse forest says does not depend on map order", "statement": "For every grammar, rule, input and budget, ParseForest returns the same error, or forests that agree on Valid, NumTrees, Ambiguous, Nodes and ParseError, however Go's maps are iterated; so does ParseBSR on Valid, NumTrees, Ambiguous and Nodes, and a generated parser without a budget. Tree is the same if the input is not ambiguous; the tree of an ambiguous input does depend on the order. So does, against the wording of ErrForestTooLarge, whether ParseBSR succeeds when its budget is exactly the number of elements of the forest; for all other budgets it does not.", "quantifier": "every grammar, rule, input, budgets; every pair of fair orders of map iteration in the parsers and in the queries", "why_tests_cant": "Go randomises map order, so a dependence shows as a rare flaky test; a test cannot run all orders.", "anchors": ["/repo/sppf.go: create", "/repo/sppf.go: Tree", "/repo/sppf.go: NumTrees", "/repo/sppf.go: ParseError", "/repo/bsr.go: create", "/repo/bsr.go: record", "/repo/bsr.go: buildIndex", "/repo/bsr.go: Tree", "/repo/codegen.go: GenerateGoParser"]}
{"id": "C123", "title": "What the options of the AST generator bound", "statement": "A text an ASTGenerator writes is one of the grammar in which every unbounded repetition (also in core rules) ends after MaxRepeat more than its minimum, whatever the counts in the grammar and whatever the source. When MaxDepth or MaxLen is not positive and the tape is exhausted, the text written has a smallest derivation, counting bytes and rules passed through. Two limits are shown: with the default options an exhausted tape takes the first alternative, not a shortest one, though the comment of Generate says it biases toward the shortest; and the largest int as MaxRepeat wraps, so that unbounded repetitions are never unrolled.", "quantifier": "every grammar with distinct names whose reachable terminals can be written, every source, every option; minima below 2^33 for the second part", "why_tests_cant": "All grammars, random streams and option values; optimality is a statement about all other derivations.", "anchors": ["/repo/ast.go: WithMaxDepth, WithMaxLen, WithMaxRepeat, Generate, genRep, genAlt, cheapestConcat"]}
{"id": "C124", "title": "How often a walk of Generator passes an edge", "statement": "A walk of Generator ends within a number of steps that depends on the graph and MaxReps alone: with E edges it makes at most E(1+MaxReps*E) steps, no edge is passed more than 1+MaxReps*E times, out of each node at most one edge is passed more than MaxReps times and none out of an end point, and the text has at most one more node than steps. Two limits are shown: an edge can be passed more than MaxReps times although the comment of WithMaxReps says it bounds the passages of a single edge, and the text of an exhausted tape need not be a shortest one.", "quantifier": "every finite graph, options (also negative ones) and source of randomness", "why_tests_cant": "All graphs, options and random streams; the bound holds without the step and length limits, which tests would have to run into.", "anchors": ["/repo/fuzz.go: WithMaxReps, walk, nearestToEnd, Generate"]}
{"id": "C125", "title": "The AST generator can write exactly the texts of the capped grammar", "statement": "For a given MaxRepeat R, what ASTGenerators return over all MaxDepth, MaxLen and tapes is exactly the language of the grammar in which every unbounded repetition ends after R more than its minimum. In detail, for every text of that grammar there is a depth such that every generator with MaxRepeat R, a larger MaxDepth and a MaxLen above the length of the text returns the text for some tape, and for some stream of random numbers. Every text of the rule is a text of the capped grammar for all large enough R.", "quantifier": "every grammar with distinct names whose counts are below 2^62 and whose alternations have at most 2^62 members, every rule, every R below 2^62, every text, all costs; for the converse the reachable terminals can be written", "why_tests_cant": "that a text can be reached is a statement about the existence of a tape for each of infinitely many texts; a test sees the texts of the tapes it tries", "anchors": ["ast.go:168-329", "fuzz.go:21-86"]}
{"id": "C126", "title": "What the errors of Generate, Regex and TransitionGraph say", "statement": "An error of Generate is ErrRuleNotFound or ErrCyclicRule with the name that was asked for, whatever rule is at fault, and errors.Is(err, ErrHandlingProseVal) is false for all of them, also for a rule that is a prose-val. From the message of an error of Regex or of TransitionGraph one can tell which error it is, and the rule or the budget it names.", "quantifier": "every grammar, rule name, random stream and option; every two errors, names and budgets", "why_tests_cant": "which error a nested check returns depends on the grammar; the claim is about all grammars, and about all pairs of errors", "anchors": ["generate.go:162-247", "errors.go:16-38", "errors.go:153-245", "regex.go:73-81"]}
{"id": "C127", "title": "Only the rules a rule uses matter", "statement": "If a rule, and every name in the rules it uses directly or through others, means the same in two grammars, then ParseForest, ParseBSR, GenerateGoParser, RuleContainsCycle and Regex give the same results for that rule in both, errors included; so does Generate for the same source of randomness, if all names in use are defined; and so does TransitionGraph, if both grammars are valid or rules are not deflated. In particular rules whose names are not in use may be added or removed, wherever they stand and however they refer to each other.", "quantifier": "every two grammars with distinct names, every rule name, input, budget, option, random source and iteration order of maps", "why_tests_cant": "the claim compares answers for all pairs of grammars and inputs; a table indexed by position, a fuel or a limit taken from the whole grammar could tell them apart only for some", "anchors": ["/repo/sppf.go: ParseForest, compileSlots", "/repo/bsr.go: ParseBSR", "/repo/codegen.go: GenerateGoParser", "/repo/regex.go: Regex", "/repo/generate.go: Generate", "/repo/transition_graph.go: TransitionGraph", "/repo/dag.go: Grammar.RuleContainsCycle"]}
{"id": "C128", "title": "The letter case of rule names does not matter", "statement": "If two grammars differ in the letter case of rule names only, in definitions or references, and a rule is asked for in any case, then the rule has the same texts in both; ParseForest and ParseBSR accept the same inputs where neither runs into a budget; SemvalABNF accepts both or none; RuleContainsCycle, Regex and Generate return the same; and TransitionGraph with rules deflated returns the same graph. Budgets are different: groups are interned by what they print, so WithMaxSlots(4) is enough for a = (b) (b) but not for a = (b) (B).", "quantifier": "every two grammars that differ in the case of rule names only, every spelling of the rule, input, random source, option and iteration order of maps", "why_tests_cant": "one lookup that compares names exactly, in one memo table or visited set, shows only for grammars that spell a name in two ways at that place", "anchors": ["/repo/utils.go: GetRule, getRuleIn", "/repo/dag.go: Grammar.RuleContainsCycle", "/repo/regex.go: Regex, reBuilder.rule", "/repo/generate.go: Generate, checkCanGenerateSafely", "/repo/transition_graph.go: TransitionGraph, elemGraph", "/repo/sppf.go: ParseForest, lowerer.group", "/repo/bsr.go: ParseBSR", "/repo/grammar.go: SemvalABNF"]}
{"id": "C129", "title": "Source texts can be written one after the other", "statement": "If a source text says some definitions and another says others, then ParseABNF of the two written one after the other returns exactly the rules of all the definitions, under the same conditions as for one text. If both parse and have no rule name in common, then the two together parse, to the rules of the first followed by the rules of the second. Whatever is appended, new rules or =/ alternatives for old ones, every rule keeps all the texts it derives, and an input that ParseForest accepts under the first grammar it accepts under the longer one.", "quantifier": "every two source texts that RFC 5234 reads, whose repeat counts fit an int, with no =/ after a semicolon on the line; every option except redefining core rules; every start rule, input and map order; for ParseForest no string both with and without %s", "why_tests_cant": "the end of one text and the start of the next could be read together in unboundedly many ways, as continuation lines, comments or blank lines; and that no input is lost is about all inputs", "anchors": ["/repo/grammar.go: ParseABNF, SemvalABNF", "/repo/grammar.go: evalForest", "/repo/sppf.go: ParseForest"]}
{"id": "C130", "title": "Loosening a grammar loses no input", "statement": "Let one grammar become another by adding, moving or repeating alternatives, lowering a minimum or raising a maximum of a repetition, making a group an option, inserting a part that may be left out, widening a range, or dropping %s from a string, at any depth and in any rules, and by adding rules. Then every rule keeps all its texts; what ParseForest or ParseBSR accepted they accept; and the pattern Regex returns matches all it matched. If this holds both ways, as for reordered alternatives, ParseForest answers alike. IsValid is different: it accepts aaaa with a = 3*(\"a\") and not with a = 3*(\"a\" / \"aaa\").", "quantifier": "every two grammars so related, with the conditions of C01 and C02 on both for the parsers and those of C24 for Regex; every rule, input, budget and iteration order of maps for which both calls return", "why_tests_cant": "the two grammars can differ in unboundedly many places at once, and the claim is about all inputs of the first", "anchors": ["/repo/sppf.go: ParseForest, compileSlots", "/repo/bsr.go: ParseBSR", "/repo/regex.go: Regex", "/repo/grammar.go: Grammar.IsValid"]}
{"id": "C131", "title": "The names of rules do not matter", "statement": "Rename the rules of a grammar, definitions and references alike, so that names that differ up to case still do and the names of core rules stay. Then each renamed rule has the texts it had; ParseForest and ParseBSR accept the same inputs; RuleContainsCycle answers the same; Regex returns the same pattern or error; Generate returns the same bytes or error from the same random source; and SemvalABNF accepts both grammars or none.", "quantifier": "every grammar, every such renaming, every rule, input, random source, option, budget for which both parsers return, and iteration order of maps; with the conditions of C01 and C02 for the parsers", "why_tests_cant": "names are keys of memo tables, graphs and sort orders all over the code, and an answer that depends on how names sort or hash shows only for particular names", "anchors": ["/repo/utils.go: GetRule", "/repo/sppf.go: ParseForest, compileSlots", "/repo/bsr.go: ParseBSR", "/repo/dag.go: Grammar.RuleContainsCycle", "/repo/regex.go: Regex, reBuilder.rule", "/repo/generate.go: Generate, checkCanGenerateSafely", "/repo/grammar.go: SemvalABNF"]}
{"id": "C132", "title": "A reference can be written out", "statement": "Replace some references in a grammar by the alternatives of the rule they mean, in brackets, at any depth and also within what was written out. Then every rule keeps exactly its texts, and ParseForest and ParseBSR accept the same inputs. IsValid is different: it accepts yx with a = b / \"y\" and b = a \"x\", and rejects it once b is written out as (a \"x\").", "quantifier": "every grammar with distinct rule names, every such replacement, every rule and input, every budget and iteration order of maps for which both calls return; with the conditions of C01 and C02 on both grammars for the parsers", "why_tests_cant": "recursion through groups is compiled to other slots than recursion through rules, and that both mean the same is about all grammars and inputs", "anchors": ["/repo/sppf.go: ParseForest, compileSlots, lowerer.group", "/repo/bsr.go: ParseBSR", "/repo/grammar.go: Grammar.IsValid"]}
{"id": "C133", "title": "The laws of the notation hold for the parsers", "statement": "Call two pieces of grammar alike if they have the same texts in every grammar. [x] and *1(x) are alike; so are (x) and x, a concatenation with and without brackets, (a / b) / c and a / b / c, 3*x and x 2*x (for all bounds), 0x and nothing, alternatives in another order or written twice, and (a / b) c and a c / b c; and what is built from alike pieces is alike. Interchange alike pieces anywhere in a grammar: every rule keeps exactly its texts, ParseForest and ParseBSR accept the same inputs, and the patterns of Regex match the same texts. IsValid is different: it rejects aaaa with a = 3*(\"a\" / \"aaa\") and accepts it with a = (\"a\" / \"aaa\") 2*(\"a\" / \"aaa\").", "quantifier": "every two grammars with the same rule names whose rules are alike one by one, every rule and input, every budget and iteration order of maps for which both calls return; with the conditions of C01, C02 and C24 on both grammars for the parsers and Regex", "why_tests_cant": "each law is about all pieces and all grammars around them, recursive ones included", "anchors": ["/repo/abnf.go: Alternation, Concatenation, Repetition, ElemGroup, ElemOption", "/repo/sppf.go: ParseForest, compileSlots", "/repo/bsr.go: ParseBSR", "/repo/regex.go: Regex", "/repo/grammar.go: Grammar.IsValid"]}
{"id": "C134", "title": "The laws of terminals", "statement": "In every grammar, these can be interchanged without changing the texts of any rule, and by C133 without changing what ParseForest and ParseBSR accept and what the pattern of Regex matches: a quoted string or a series of numbers, and the same cut in two; a number and the same number in another base or with leading zeros, in series and ranges; a range, and the two ranges it is cut into; a range of one number, and that number; a case-sensitive string, and the series of its code points; a letter in quotes, and the letter in either case as alternatives; any other character in quotes, and the same with %s.", "quantifier": "every string, every list of numerals in bases 2, 10 and 16 that denote numbers, every point at which to cut, every grammar around them", "why_tests_cant": "the spellings of terminals and the grammars around them are unbounded", "anchors": ["/repo/abnf.go: ElemCharVal, ElemNumVal", "/repo/sppf.go: ParseForest, compileSlots", "/repo/bsr.go: ParseBSR", "/repo/regex.go: Regex"]}
{"id": "C135", "title": "Only references matter to cycles", "statement": "If two grammars have the same rule names, one by one, and corresponding rules mention the same rule names (in whatever letter case, order, number and depth, with whatever repetitions and terminals around), then RuleContainsCycle gives the same answer for every rule name, errors included, and IsDAG gives the same answer; also if the two calls meet their maps in different orders.", "quantifier": "every two such grammars with distinct rule names, every rule name, all iteration orders of the maps on either side", "why_tests_cant": "the ways of mentioning a name and the iteration orders are unbounded", "anchors": ["/repo/dag.go: RuleContainsCycle, IsDAG, cycle.find", "/repo/utils.go: GetRule"]}
