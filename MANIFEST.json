{
 "claims": [
  {
   "property": "C01",
   "status": "proved",
   "theorems": [
    "Verif.Props.C01_exact",
    "Verif.Props.C01_order",
    "Verif.Props.C01_exact_written"
   ],
   "note": "For every fair map-iteration schedule and every budget; needs that printing tells repetitions, groups and options apart (DistinctPrint); C01_needs_printing shows the claim false without it."
  },
  {
   "property": "C02",
   "status": "proved",
   "theorems": [
    "Verif.Props.C02_exact",
    "Verif.Props.C02_order",
    "Verif.Props.C02_exact_written"
   ],
   "note": "As C01."
  },
  {
   "property": "C03",
   "status": "proved",
   "theorems": [
    "Verif.Props.C03_agree"
   ],
   "note": "Every grammar, no condition."
  },
  {
   "property": "C04",
   "status": "proved",
   "theorems": [
    "Verif.Props.C04_sound",
    "Verif.Props.C04_sound_written",
    "Verif.Props.C04_needs_printing",
    "Verif.Props.C04_rule"
   ],
   "note": "Any grammar whose elements print distinctly (shown for every grammar that can be written in ABNF without using one text both case-sensitively and case-insensitively; C04_needs_printing shows the condition is needed), any iteration order, left recursion included."
  },
  {
   "property": "C05",
   "status": "partial",
   "theorems": [
    "Verif.Props.C05_complete_partial",
    "Verif.Props.C05_complete_written_partial",
    "Verif.Props.C05_fails",
    "Verif.Props.C05_fails_brackets",
    "Verif.Props.C05_fails_cap",
    "Verif.Props.C05_phone",
    "Verif.Props.C05_rule_partial",
    "Verif.Props.C05_acyclic_partial",
    "Verif.Props.C05_graph_partial"
   ],
   "note": "False as stated: three kernel-checked counterexamples (early stop of repetitions, memoised groups during seed growth, cap on repetition rounds). Proved for grammars with simple, unbracketed left recursion and repetitions that have a lower bound of at most two, or equal bounds, or an element whose texts are prefix-free (as all texts of one length are) or closed under concatenation (as a loop is). Verif/Counts.lean recognises such grammars by evaluation. For one rule only the rules it uses matter: if none of them is left-recursive (RuleContainsCycle is false, or there is a transition graph), IsValid is exact however bad the rest of the grammar is."
  },
  {
   "property": "C06",
   "status": "partial",
   "theorems": [
    "Verif.Props.C06_accepts_partial",
    "Verif.Props.C06_agree_partial",
    "Verif.Props.C06_fails"
   ],
   "note": "False as stated (C06_fails). One direction holds for all grammars that print distinctly, the other on the grammars of C05_complete_partial."
  },
  {
   "property": "C07",
   "status": "proved",
   "theorems": [
    "Verif.Props.C07_terminates",
    "Verif.Props.C07_returns"
   ],
   "note": "Explicit polynomial bound on rounds of the descriptor loop; every grammar, input, schedule and budget."
  },
  {
   "property": "C08",
   "status": "proved",
   "theorems": [
    "Verif.Props.C08_terminates",
    "Verif.Props.C08_returns"
   ],
   "note": "As C07."
  },
  {
   "property": "C09",
   "status": "proved",
   "theorems": [
    "Verif.Props.C09_budget",
    "Verif.Props.C09_error"
   ],
   "note": "A bounded run succeeds exactly when the unbounded forest fits, and returns that very forest."
  },
  {
   "property": "C10",
   "status": "proved",
   "theorems": [
    "Verif.Props.C10_budget",
    "Verif.Props.C10_error"
   ],
   "note": "A returned set is that of the unbounded run and has at most N elements."
  },
  {
   "property": "C100",
   "status": "proved",
   "theorems": [
    "Verif.Props.C100_definition",
    "Verif.Props.C100_validation",
    "Verif.Props.C100_messages",
    "Verif.Props.C100_found"
   ],
   "note": "C100_validation assumes num-vals of the shape that parsing gives."
  },
  {
   "property": "C101",
   "status": "proved",
   "theorems": [
    "Verif.Props.C101_cause"
   ],
   "note": ""
  },
  {
   "property": "C102",
   "status": "proved",
   "theorems": [
    "Verif.Props.C102_generate",
    "Verif.Props.C102_graph",
    "Verif.Props.C102_generator",
    "Verif.Props.C102_ast",
    "Verif.Props.C102_forest",
    "Verif.Props.C102_single"
   ],
   "note": ""
  },
  {
   "property": "C103",
   "status": "proved",
   "theorems": [
    "Verif.Props.C103_same",
    "Verif.Props.C103_exact",
    "Verif.Props.C103_expected"
   ],
   "note": "The case that C30_exact_partial and C33_partial leave out."
  },
  {
   "property": "C104",
   "status": "proved",
   "theorems": [
    "Verif.Props.C104_verdict",
    "Verif.Props.C104_order",
    "Verif.Props.C104_rules",
    "Verif.Props.C104_parse",
    "Verif.Props.C104_order_fails"
   ],
   "note": "C104_parse is for the texts of C78_exact_partial. C104_order_fails shows why names must be distinct: a core rule redefined in two spellings gives two rules, and which of them a later =/ extends depends on map order."
  },
  {
   "property": "C105",
   "status": "proved",
   "theorems": [
    "Verif.Props.C105_all",
    "Verif.Props.C105_unique",
    "Verif.Props.C105_bsr_all",
    "Verif.Props.C105_bsr_unique",
    "Verif.Props.C105_generated"
   ],
   "note": "Derivation trees are those of C50, without leaves that have no text. NumTrees may be larger than their number: it also tells apart ways that differ only in groups, options and repetitions, which have no node in a tree. C105_unique needs no condition on repetition bounds, so on inputs that are not ambiguous C50 holds without CountsSettled."
  },
  {
   "property": "C106",
   "status": "proved",
   "theorems": [
    "Verif.Props.C106_forest",
    "Verif.Props.C106_bsr",
    "Verif.Props.C106_isValid",
    "Verif.Props.C106_generated"
   ],
   "note": "Says (Cmd.lean) is the reading of the source by RFC 5234 together with the conditions of the quantifier. That IsValid also accepts all such inputs is C05, under the conditions stated there."
  },
  {
   "property": "C107",
   "status": "proved",
   "theorems": [
    "Verif.Props.C107_steps",
    "Verif.Props.C107_steps_plain"
   ],
   "note": "The ranges counted are those of reachConcat and reachRep. Between two of them the recogniser makes a number of map operations bounded by the sizes of the sets and bodies at hand. That calls return is C44."
  },
  {
   "property": "C108",
   "status": "proved",
   "theorems": [
    "Verif.Props.C108_wellformed",
    "Verif.Props.C108_reread",
    "Verif.Props.C108_strict",
    "Verif.Props.C108_parsed",
    "Verif.Props.C108_lookup",
    "Verif.Props.C108_order",
    "Verif.Props.C108_own",
    "Verif.Props.C108_language"
   ],
   "note": "C108_own and C108_language are about a first call in a program; the language is stated for texts as in C104, in which core rules are redefined in capitals."
  },
  {
   "property": "C109",
   "status": "proved",
   "theorems": [
    "Verif.Props.C109_same",
    "Verif.Props.C109_at_most",
    "Verif.Props.C109_at_least",
    "Verif.Props.C109_parsed"
   ],
   "note": "The cost is counted by an instrumented copy of the check, which C109_same shows to answer the same."
  },
  {
   "property": "C11",
   "status": "proved",
   "theorems": [
    "Verif.Props.C11_terminates",
    "Verif.Props.C11_budget",
    "Verif.Props.C11_unbounded",
    "Verif.Props.C11_size",
    "Verif.Props.C11_language"
   ],
   "note": "Language equality assumes well-formed num-vals, distinct rule names and that distinct repetitions, groups and options print differently."
  },
  {
   "property": "C110",
   "status": "proved",
   "theorems": [
    "Verif.Props.C110_fails"
   ],
   "note": "Counts the nodes of the slice that simplify returns, not bytes of memory; the sharing of nodes by pointers does not reduce a slice."
  },
  {
   "property": "C111",
   "status": "proved",
   "theorems": [
    "Verif.Props.C111_context_free",
    "Verif.Props.C111_every"
   ],
   "note": "Checks the specification Spec.Derives against Mathlib's ContextFreeGrammar."
  },
  {
   "property": "C112",
   "status": "proved",
   "theorems": [
    "Verif.Props.C112_regular",
    "Verif.Props.C112_every"
   ],
   "note": "Checks the specification against Mathlib's DFA; closure under concatenation and star is proved by Myhill-Nerode, the converse by Kleene's construction."
  },
  {
   "property": "C113",
   "status": "proved",
   "theorems": [
    "Verif.Props.C113_rounds",
    "Verif.Props.C113_at_least",
    "Verif.Props.C113_fails",
    "Verif.Props.C113_emitted",
    "Verif.Props.C113_emitted_fails"
   ],
   "note": "The property is stated as it holds. The doc comments promise more: cubic time for any grammar (/repo/sppf.go:664-667) and a cap on time by WithMaxForestNodes (/repo/sppf.go:637-639); C113_fails refutes both. Rounds of the loops are counted, not the map operations within one. C113_emitted and C113_emitted_fails are the same for emitted parsers and MaxElements."
  },
  {
   "property": "C114",
   "status": "proved",
   "theorems": [
    "Verif.Props.C114_same",
    "Verif.Props.C114_ambiguous",
    "Verif.Props.C114_emitted",
    "Verif.Props.C114_errata"
   ],
   "note": "That other texts are not ambiguous before the errata is not claimed."
  },
  {
   "property": "C115",
   "status": "proved",
   "theorems": [
    "Verif.Props.C115_slots",
    "Verif.Props.C115_emitted",
    "Verif.Props.C115_rounds"
   ],
   "note": "The statements within one case are not counted."
  },
  {
   "property": "C116",
   "status": "partial",
   "theorems": [
    "Verif.Props.C116_stable",
    "Verif.Props.C116_valid_partial",
    "Verif.Props.C116_near_partial",
    "Verif.Props.C116_position",
    "Verif.Props.C116_both_partial",
    "Verif.Props.C116_silent_partial",
    "Verif.Props.C116_example",
    "Verif.Props.C116_shipped",
    "Verif.Props.C116_ast_partial",
    "Verif.Props.C116_ast_fails",
    "Verif.Props.C116_near_fails",
    "Verif.Props.C116_baseline",
    "Verif.Props.C116_finds_partial",
    "Verif.Props.C116_octet",
    "Verif.Props.C116_octets",
    "Verif.Props.C116_valid_fails"
   ],
   "note": "Outside the class of C05 the near-miss oracle is unsound (C116_near_fails), and FuzzAST as shipped fails for every tape, as it asks for a rule that the grammar has not (C116_ast_fails). That the acceptance targets find every wrong rejection (C116_finds_partial) is shown for literals of at most thirty letters and limits that are high enough; C116_example shows it for the limits and the grammar of the example."
  },
  {
   "property": "C117",
   "status": "proved",
   "theorems": [
    "Verif.Props.C117_reads",
    "Verif.Props.C117_count",
    "Verif.Props.C117_catalan",
    "Verif.Props.C117_catalan_bsr"
   ],
   "note": ""
  },
  {
   "property": "C118",
   "status": "proved",
   "theorems": [
    "Verif.Props.C118_itself"
   ],
   "note": ""
  },
  {
   "property": "C119",
   "status": "proved",
   "theorems": [
    "Verif.Props.C119_nearMiss",
    "Verif.Props.C119_nearMiss_partial",
    "Verif.Props.C119_fails"
   ],
   "note": "Holds also where IsValid misjudges texts. Without the condition on strings it is false: for one tape of a = (\"x\" / \"xy\") (\"y\" \"a\" / %s\"a\"), NearMiss gives xyb in one order of iteration and xyA, a text of the rule, in another (C119_fails)."
  },
  {
   "property": "C12",
   "status": "proved",
   "theorems": [
    "Verif.Props.C12_terminal_exact",
    "Verif.Props.C12_prose_never",
    "Verif.Props.C12_match_wellformed"
   ],
   "note": "All well-formed terminals (numerals of a known base, two bounds for a range), all inputs and positions."
  },
  {
   "property": "C120",
   "status": "partial",
   "theorems": [
    "Verif.Props.C120_rule_partial",
    "Verif.Props.C120_exact_partial",
    "Verif.Props.C120_fails",
    "Verif.Props.C120_fails_panic"
   ],
   "note": "Proved for every rule that uses no left-recursive one, also where the answer is wrong, and for left recursion on the grammars of C05_complete_written_partial. False for left recursion in general: whether IsValid panics on a = a \"x\" / b \"y\" / \"z\", b = a \"w\" depends on map order (C120_fails_panic). Without the condition on strings it is false too (C120_fails)."
  },
  {
   "property": "C121",
   "status": "proved",
   "theorems": [
    "Verif.Props.C121_graph",
    "Verif.Props.C121_reader",
    "Verif.Props.C121_generator"
   ],
   "note": "Identifiers are modelled as numbers that any permutation may replace; that random UUIDs of different nodes differ is assumed. Readers: for graphs whose reachable nodes exist, which TransitionGraph always gives (tg_finite)."
  },
  {
   "property": "C122",
   "status": "proved",
   "theorems": [
    "Verif.Props.C122_forest",
    "Verif.Props.C122_bsr",
    "Verif.Props.C122_bsr_outcome",
    "Verif.Props.C122_generated",
    "Verif.Props.C122_tree_fails",
    "Verif.Props.C122_budget_fails"
   ],
   "note": "Two runs of ParseForest in any two fair orders give the same error, or forests whose nodes and packings are permutations of each other and that agree on Valid, NumTrees, Ambiguous, Nodes and ParseError, and on Tree unless ambiguous. The same for ParseBSR, with the queries in orders of their own, and for generated parsers without a budget. C122_tree_fails and C122_budget_fails give the two dependences: the tree of an ambiguous forest, and a budget equal to the number of elements."
  },
  {
   "property": "C123",
   "status": "proved",
   "theorems": [
    "Verif.Props.C123_repeat",
    "Verif.Props.C123_smallest",
    "Verif.Props.C123_first_fails",
    "Verif.Props.C123_wraps",
    "Verif.Props.C123_largest_fails"
   ],
   "note": "C123_repeat asks nothing of the costs, so it also holds where counts wrap and generation may not end (C28_total_fails)."
  },
  {
   "property": "C124",
   "status": "proved",
   "theorems": [
    "Verif.Props.C124_bounds",
    "Verif.Props.C124_fails",
    "Verif.Props.C124_shortest_fails"
   ],
   "note": "The passages of an edge are counted by the map visits of walk. The two _fails theorems show where the comments of WithMaxReps and Generate promise more than the code does."
  },
  {
   "property": "C125",
   "status": "proved",
   "theorems": [
    "Verif.Props.C125_reaches",
    "Verif.Props.C125_exact",
    "Verif.Props.C125_all"
   ],
   "note": "Counts and numbers of alternatives below 2^62, so that draws do not wrap (AstWrap shows what wraps do)."
  },
  {
   "property": "C126",
   "status": "proved",
   "theorems": [
    "Verif.Props.C126_same",
    "Verif.Props.C126_names",
    "Verif.Props.C126_fails",
    "Verif.Props.C126_regex",
    "Verif.Props.C126_graph"
   ],
   "note": "C126_fails has the consequences that contradict the comment of checkCanGenerateSafely."
  },
  {
   "property": "C127",
   "status": "proved",
   "theorems": [
    "Verif.Props.C127_texts",
    "Verif.Props.C127_forests",
    "Verif.Props.C127_cycle",
    "Verif.Props.C127_regex",
    "Verif.Props.C127_generate",
    "Verif.Props.C127_graph",
    "Verif.Props.C127_add",
    "Verif.Props.C127_fails"
   ],
   "note": "C127_add has the sufficient condition for added rules. C127_fails shows that TransitionGraph with rules deflated needs the whole grammar to be valid."
  },
  {
   "property": "C128",
   "status": "proved",
   "theorems": [
    "Verif.Props.C128_texts",
    "Verif.Props.C128_forests",
    "Verif.Props.C128_cycle",
    "Verif.Props.C128_regex",
    "Verif.Props.C128_generate",
    "Verif.Props.C128_valid",
    "Verif.Props.C128_graph",
    "Verif.Props.C128_fails"
   ],
   "note": "C128_forests needs the conditions of C01 and C02 on both grammars. C128_fails has the budget."
  },
  {
   "property": "C129",
   "status": "proved",
   "theorems": [
    "Verif.Props.C129_concat",
    "Verif.Props.C129_disjoint",
    "Verif.Props.C129_widens",
    "Verif.Props.C129_accepts"
   ],
   "note": "Says (Cmd.lean) is the reading of the source by RFC 5234 together with the conditions of the quantifier."
  },
  {
   "property": "C13",
   "status": "proved",
   "theorems": [
    "Verif.Props.C13_insensitive",
    "Verif.Props.C13_sensitive"
   ],
   "note": "All literals and texts over Unicode scalar values."
  },
  {
   "property": "C130",
   "status": "proved",
   "theorems": [
    "Verif.Props.C130_texts",
    "Verif.Props.C130_accepts",
    "Verif.Props.C130_same",
    "Verif.Props.C130_regex",
    "Verif.Props.C130_fails"
   ],
   "note": "Looser (Loosen.lean) is defined on the grammars as written; looser_rules gives it rule by rule. Core rules that the grammar comes to replace are not covered. C130_fails has IsValid."
  },
  {
   "property": "C131",
   "status": "proved",
   "theorems": [
    "Verif.Props.C131_texts",
    "Verif.Props.C131_forests",
    "Verif.Props.C131_cycle",
    "Verif.Props.C131_regex",
    "Verif.Props.C131_generate",
    "Verif.Props.C131_valid"
   ],
   "note": "C131_forests asks for DistinctPrint of both grammars, as a new name could contain a space."
  },
  {
   "property": "C132",
   "status": "proved",
   "theorems": [
    "Verif.Props.C132_texts",
    "Verif.Props.C132_forests",
    "Verif.Props.C132_fails"
   ],
   "note": "Inlined (Inlining.lean) is defined on the grammars as written. C132_fails has IsValid."
  },
  {
   "property": "C133",
   "status": "proved",
   "theorems": [
    "Verif.Props.C133_texts",
    "Verif.Props.C133_forests",
    "Verif.Props.C133_regex",
    "Verif.Props.C133_within",
    "Verif.Props.C133_laws",
    "Verif.Props.C133_fails"
   ],
   "note": "AlikeAlt etc. (Laws.lean) quantify over every grammar and text of the specification. C133_fails has IsValid."
  },
  {
   "property": "C134",
   "status": "proved",
   "theorems": [
    "Verif.Props.C134_cut",
    "Verif.Props.C134_base",
    "Verif.Props.C134_range",
    "Verif.Props.C134_chars",
    "Verif.Props.C133_texts",
    "Verif.Props.C133_forests",
    "Verif.Props.C133_regex"
   ],
   "note": "Each law is in terms of AlikeElem, AlikeConcat or AlikeAlt (Laws.lean); C133_texts, C133_forests and C133_regex carry them over to grammars."
  },
  {
   "property": "C135",
   "status": "proved",
   "theorems": [
    "Verif.Props.C135_cycle",
    "Verif.Props.C135_dag"
   ],
   "note": "SameRefs (RefsOnly.lean) is stated on the grammars as written. Uses C20_exact and C21_isDAG_partial: IsDAG overlooks rules that refer to themselves only (C21_fails), but does so alike for both grammars."
  },
  {
   "property": "C14",
   "status": "proved",
   "theorems": [
    "Verif.Props.C14_value_exact",
    "Verif.Props.C14_saturates",
    "Verif.Props.C14_series_no_match",
    "Verif.Props.C14_range"
   ],
   "note": "All digit strings of any length in bases 2, 10, 16."
  },
  {
   "property": "C15",
   "status": "proved",
   "theorems": [
    "Verif.Props.C15_checkBounds_exact"
   ],
   "note": "All digit strings, any leading zeros, three bases."
  },
  {
   "property": "C16",
   "status": "proved",
   "theorems": [
    "Verif.Props.C16_roundtrip",
    "Verif.Props.C16_denotes"
   ],
   "note": "All non-negative int32 values."
  },
  {
   "property": "C17",
   "status": "proved",
   "theorems": [
    "Verif.Props.C17_exact",
    "Verif.Props.C17_order"
   ],
   "note": "For grammars whose num-vals are numerals of a known base."
  },
  {
   "property": "C18",
   "status": "proved",
   "theorems": [
    "Verif.Props.C18_lookup",
    "Verif.Props.C18_order",
    "Verif.Props.C18_case",
    "Verif.Props.C18_missing"
   ],
   "note": "ASCII names."
  },
  {
   "property": "C19",
   "status": "proved",
   "theorems": [
    "Verif.Props.C19_graph"
   ],
   "note": "Node presence, rule name and dependency list, for every iteration order of the core rules."
  },
  {
   "property": "C20",
   "status": "proved",
   "theorems": [
    "Verif.Props.C20_exact"
   ],
   "note": "RuleContainsCycle, on the model of ruleContainsCycle and its dependency graph, for every iteration order of the map: true exactly when the rule reaches a rule lying on a reference cycle; always terminates."
  },
  {
   "property": "C21",
   "status": "partial",
   "theorems": [
    "Verif.Props.C21_isDAG_partial",
    "Verif.Props.C21_fails"
   ],
   "note": "False as stated: IsDAG accepts a = a (C21_fails). Proved instead: IsDAG answers true exactly when no two different rules reach each other."
  },
  {
   "property": "C22",
   "status": "partial",
   "theorems": [
    "Verif.Props.C22_components_partial",
    "Verif.Props.C22_exact_partial",
    "Verif.Props.C22_fails"
   ],
   "note": "False as stated: index 0 doubles as 'unvisited', so the first visited node may be reported a second time (C22_fails). Proved: the answer is the partition into strongly connected components, except for at most one additional singleton made of the first visited node; and it is exactly the partition when that node has no edge to itself and shares its component."
  },
  {
   "property": "C23",
   "status": "proved",
   "theorems": [
    "Verif.Props.C23_complete",
    "Verif.Props.C23_exact",
    "Verif.Props.C23_complete_written",
    "Verif.Props.C23_needs_series"
   ],
   "note": "Also proves that the fixpoint loop ends. C23_needs_series shows the condition on series is needed."
  },
  {
   "property": "C24",
   "status": "partial",
   "theorems": [
    "Verif.Props.C24_language_partial",
    "Verif.Props.C24_texts",
    "Verif.Props.C24_fails",
    "Verif.Props.C24_fails_count"
   ],
   "note": "Proved end to end, from grammar to pattern text and back through an independent reading relation for RE2 syntax, for rules that reach no crossed bounds, no count over 1000 and no range of one surrogate. False in general: C24_fails (%xD800-D800 gives a pattern matching U+FFFD) and C24_fails_count (1001\"-\" gives a pattern RE2 refuses)."
  },
  {
   "property": "C25",
   "status": "partial",
   "theorems": [
    "Verif.Props.C25_simplify_partial",
    "Verif.Props.C25_fails"
   ],
   "note": "Proved for trees whose repetition bounds do not cross; false for crossed bounds around an empty operand (C25_fails)."
  },
  {
   "property": "C26",
   "status": "proved",
   "theorems": [
    "Verif.Props.C26_normal",
    "Verif.Props.C26_canonical"
   ],
   "note": "For every list of ranges; canonical for lists of non-empty ranges."
  },
  {
   "property": "C27",
   "status": "partial",
   "theorems": [
    "Verif.Props.C27_members_partial",
    "Verif.Props.C27_fails",
    "Verif.Props.C27_fails_surrogate"
   ],
   "note": "Proved for rules from which only encodable terminals and repetitions with Min at most Max are reachable. False for prose-vals, for which nothing is written, and for surrogates, written as U+FFFD."
  },
  {
   "property": "C28",
   "status": "partial",
   "theorems": [
    "Verif.Props.C28_ends",
    "Verif.Props.C28_members_partial",
    "Verif.Props.C28_fails",
    "Verif.Props.C28_total_fails"
   ],
   "note": "Termination is proved for every accepted grammar whose repetition minima are below 2^33, and refuted without that bound (C28_total_fails). Membership is proved when what the rule reaches can be written, and refuted for prose-vals, which cost nothing and for which nothing is written."
  },
  {
   "property": "C29",
   "status": "proved",
   "theorems": [
    "Verif.Props.C29_range",
    "Verif.Props.C29_sources"
   ],
   "note": "All three sources, any tape and position, 64-bit wrap-around of the accumulator included."
  },
  {
   "property": "C30",
   "status": "partial",
   "theorems": [
    "Verif.Props.C30_exact_partial",
    "Verif.Props.C30_fails"
   ],
   "note": "Exact for every option set and map order, given that no series of several numbers is deflated. With WithDeflateNumVals a series becomes alternatives, so the claim as written is false (C30_fails: %x61.62); C103 gives the words in that case."
  },
  {
   "property": "C31",
   "status": "partial",
   "theorems": [
    "Verif.Props.C31_new",
    "Verif.Props.C31_walk_partial",
    "Verif.Props.C31_member_partial",
    "Verif.Props.C31_reader_partial",
    "Verif.Props.C31_rule_partial",
    "Verif.Props.C31_fails"
   ],
   "note": "Generator walks and readers: termination for every source; every output is a word of the graph if the graph has a word and its elements can be written as UTF-8. The claim as written is false (C31_fails)."
  },
  {
   "property": "C32",
   "status": "partial",
   "theorems": [
    "Verif.Props.C32_partial",
    "Verif.Props.C32_written_partial",
    "Verif.Props.C32_fails",
    "Verif.Props.C32_rule_partial"
   ],
   "note": "False as stated: NearMiss relies on IsValid, which miscounts some repetitions (C32_fails). Proved for every rule with a transition graph whose repetitions are counted correctly (C32_rule_partial), and wherever IsValid is proved complete (C05)."
  },
  {
   "property": "C33",
   "status": "partial",
   "theorems": [
    "Verif.Props.C33_partial",
    "Verif.Props.C33_graph",
    "Verif.Props.C33_spoils_partial",
    "Verif.Props.C33_fails"
   ],
   "note": "For every prefix, map order and options, given that the analysis succeeds (characterised by C69) and no series of several numbers is deflated; with deflated series the claim is false (C33_fails: %x61.62)."
  },
  {
   "property": "C34",
   "status": "proved",
   "theorems": [
    "Verif.Props.C34_position",
    "Verif.Props.C34_content",
    "Verif.Props.C34_forest",
    "Verif.Props.C34_found"
   ],
   "note": "Position, sorted expectations, found byte and hint, for every input and offset, and for the error of every forest."
  },
  {
   "property": "C35",
   "status": "proved",
   "theorems": [
    "Verif.Props.C35_furthest"
   ],
   "note": "In terms of the terminals the GLL rules try."
  },
  {
   "property": "C36",
   "status": "proved",
   "theorems": [
    "Verif.Props.C36_incremental",
    "Verif.Props.C36_redefine_fails",
    "Verif.Props.C36_shared"
   ],
   "note": "With WithRedefineCoreRules the claim fails: extending a core rule modifies the global core rules (C36_redefine_fails)."
  },
  {
   "property": "C37",
   "status": "proved",
   "theorems": [
    "Verif.Props.C37_strict_iff",
    "Verif.Props.C37_distinct",
    "Verif.Props.C37_flag",
    "Verif.Props.C37_redefine_fails"
   ],
   "note": "With WithRedefineCoreRules names need not stay distinct (C37_redefine_fails)."
  },
  {
   "property": "C38",
   "status": "partial",
   "theorems": [
    "Verif.Props.C38_alternation_partial",
    "Verif.Props.C38_grammar_partial",
    "Verif.Props.C38_grammar_nocase_partial",
    "Verif.Props.C38_fails"
   ],
   "note": "False in general: the %s marker is not printed (C38_fails). Proved up to that marker, and exactly when no text is used both case-sensitively and case-insensitively. Reading the printed text back through ParseABNF is C79."
  },
  {
   "property": "C39",
   "status": "proved",
   "theorems": [
    "Verif.Props.C39_tree",
    "Verif.Props.C39_text"
   ],
   "note": "Every valid forest, map order and budget that does not abort. Leaves are childless unnamed nodes."
  },
  {
   "property": "C40",
   "status": "proved",
   "theorems": [
    "Verif.Props.C40_consistent",
    "Verif.Props.C40_bsr"
   ],
   "note": "For both engines."
  },
  {
   "property": "C41",
   "status": "partial",
   "theorems": [
    "Verif.Props.C41_agree_partial",
    "Verif.Props.C41_equal_partial",
    "Verif.Props.C41_fails"
   ],
   "note": "False as stated: a = \"x\" / \"x\" has one tree in the SPPF and two in the BSR set (C41_fails). Proved: both are infinite together, the SPPF count is at most the BSR count, SPPF ambiguity implies BSR ambiguity, and they are equal when no two alternatives of a rule can cover a text in the same way."
  },
  {
   "property": "C42",
   "status": "proved",
   "theorems": [
    "Verif.Props.C42_options"
   ],
   "note": ""
  },
  {
   "property": "C43",
   "status": "proved",
   "theorems": [
    "Verif.Props.C43_decode_exact",
    "Verif.Props.C43_prefix_code"
   ],
   "note": "utf8.DecodeRune is standard library code; its documented behaviour is transcribed and compared with Lean core's String.utf8EncodeChar."
  },
  {
   "property": "C44",
   "status": "partial",
   "theorems": [
    "Verif.Props.C44_terminates_partial",
    "Verif.Props.C44_returns_partial",
    "Verif.Props.C44_fails",
    "Verif.Props.C44_rule_partial"
   ],
   "note": "False as stated: C44_fails is a grammar and iteration order on which IsValid writes to a nil map. It always ends, and it returns on every grammar without a self-starting rule on a longer left-recursive cycle. For one rule only the rules it uses matter: it returns if none of them is left-recursive, whatever the rest of the grammar."
  },
  {
   "property": "C45",
   "status": "partial",
   "theorems": [
    "Verif.Props.C45_unbounded_partial",
    "Verif.Props.C45_bounded_partial",
    "Verif.Props.C45_language_partial",
    "Verif.Props.C45_errors_partial",
    "Verif.Props.C45_fails"
   ],
   "note": "Proved for MaxElements = 0: the emitted program never panics, always returns and all five queries agree with ParseBSR. With a budget: an error or a result; a result below the budget agrees on all queries; a valid result is never wrong. The claim as written is refuted by C45_fails: a run that hits the budget on its last descriptor returns a truncated result and a nil error."
  },
  {
   "property": "C46",
   "status": "proved",
   "theorems": [
    "Verif.Props.C46_budget",
    "Verif.Props.C46_regex"
   ],
   "note": "For every tree and every budget."
  },
  {
   "property": "C47",
   "status": "proved",
   "theorems": [
    "Verif.Props.C47_spans",
    "Verif.Props.C47_spans_bsr"
   ],
   "note": "All nodes and packs of the SPPF, all elements of the BSR set."
  },
  {
   "property": "C48",
   "status": "proved",
   "theorems": [
    "Verif.Props.C48_counts"
   ],
   "note": "The trees counted are those of the forest; they need not be in bijection with derivations (see C50)."
  },
  {
   "property": "C49",
   "status": "partial",
   "theorems": [
    "Verif.Props.C49_terminates_partial",
    "Verif.Props.C49_tree_partial",
    "Verif.Props.C49_fails"
   ],
   "note": "False as stated on cyclic grammars: for a = a / \"x\" the tree of x has no leaf (C49_fails). Termination, root and validity hold always; the rest holds when NumTrees is not -1."
  },
  {
   "property": "C50",
   "status": "partial",
   "theorems": [
    "Verif.Props.C50_derivation_partial",
    "Verif.Props.C50_bsr_partial",
    "Verif.Props.C50_fails",
    "Verif.Props.C50_bsr_fails"
   ],
   "note": "False as stated: repetition counts are not part of node keys, so s = r / e r \"z\", r = 2e yields an r with three children (C50_fails, C50_bsr_fails). Holds when a text that can be cut into occurrences of a repeated element in two ways is allowed by the bounds both ways or neither (CountsSettled), in particular when repetitions are only 1 or *, and for every grammar that settles its choices (C74)."
  },
  {
   "property": "C51",
   "status": "proved",
   "theorems": [
    "Verif.Props.C51_names",
    "Verif.Props.C51_core",
    "Verif.Props.C51_octet"
   ],
   "note": "OCTET is a code point up to U+00FF in UTF-8, so no single byte above 7F is one (C51_octet)."
  },
  {
   "property": "C52",
   "status": "proved",
   "theorems": [
    "Verif.Props.C52_outcome"
   ],
   "note": "For all grammars with distinct names and all map orders."
  },
  {
   "property": "C53",
   "status": "proved",
   "theorems": [
    "Verif.Props.C53_refuses"
   ],
   "note": "The random stream is any function from the number of draws so far to the value drawn."
  },
  {
   "property": "C54",
   "status": "partial",
   "theorems": [
    "Verif.Props.C54_nopanic_partial",
    "Verif.Props.C54_fails"
   ],
   "note": "Proved when the reachable references are defined and no reachable repetition has a minimum one more than its maximum, the option standing in for a missing maximum. False for 17*\"x\" with the default options."
  },
  {
   "property": "C55",
   "status": "proved",
   "theorems": [
    "Verif.Props.C55_ends",
    "Verif.Props.C55_recursive"
   ],
   "note": "C55_recursive shows that the hypothesis on recursion is needed."
  },
  {
   "property": "C56",
   "status": "proved",
   "theorems": [
    "Verif.Props.C56_choices"
   ],
   "note": "Surjectivity of the draws, and 0 from an exhausted tape."
  },
  {
   "property": "C57",
   "status": "proved",
   "theorems": [
    "Verif.Props.C57_stable"
   ],
   "note": ""
  },
  {
   "property": "C58",
   "status": "proved",
   "theorems": [
    "Verif.Props.C58_errors",
    "Verif.Props.C58_accepts",
    "Verif.Props.C58_refuses",
    "Verif.Props.C58_returns"
   ],
   "note": "From 2^33 repetitions on the cost wraps (C58_wraps), so the limit on the minima is needed; that the constructor returns is proved without it (C58_returns)."
  },
  {
   "property": "C59",
   "status": "proved",
   "theorems": [
    "Verif.Props.C59_order",
    "Verif.Props.C59_fails"
   ],
   "note": "The costs are the unique solution of their equations, because every reference adds one. Without the limit on the minima the outcome does depend on the order (C59_fails)."
  },
  {
   "property": "C60",
   "status": "proved",
   "theorems": [
    "Verif.Props.C60_budget"
   ],
   "note": "The product threshold * n must fit in 63 bits; reps * countReachable overflows otherwise."
  },
  {
   "property": "C61",
   "status": "proved",
   "theorems": [
    "Verif.Props.C61_total",
    "Verif.Props.C61_errors",
    "Verif.Props.C61_exact",
    "Verif.Props.C61_order"
   ],
   "note": "Literals and series are assumed shorter than 2^62 elements."
  },
  {
   "property": "C62",
   "status": "proved",
   "theorems": [
    "Verif.Props.C62_limits"
   ],
   "note": ""
  },
  {
   "property": "C63",
   "status": "proved",
   "theorems": [
    "Verif.Props.C63_reaches",
    "Verif.Props.C63_rule"
   ],
   "note": "Out-degree and entry points below 2^32, no deflated series of several numbers."
  },
  {
   "property": "C64",
   "status": "proved",
   "theorems": [
    "Verif.Props.C64_trails"
   ],
   "note": "Loops are given fuel; the outcome is the same for every sufficient amount."
  },
  {
   "property": "C65",
   "status": "proved",
   "theorems": [
    "Verif.Props.C65_compact",
    "Verif.Props.C65_values"
   ],
   "note": "All finite graphs; values as listed by nodeEmit, whose counts are capped at 2^30."
  },
  {
   "property": "C66",
   "status": "partial",
   "theorems": [
    "Verif.Props.C66_fails",
    "Verif.Props.C66_partial",
    "Verif.Props.C66_language_partial"
   ],
   "note": "False as written (C66_fails). For graphs without cycles every walk is covered and the reader lists the whole language."
  },
  {
   "property": "C67",
   "status": "partial",
   "theorems": [
    "Verif.Props.C67_trails_partial",
    "Verif.Props.C67_compact_partial",
    "Verif.Props.C67_fails"
   ],
   "note": "Holds for CoverageAllTrails; false for CoverageCompact when a text is empty (C67_fails)."
  },
  {
   "property": "C68",
   "status": "partial",
   "theorems": [
    "Verif.Props.C68_partial",
    "Verif.Props.C68_graph",
    "Verif.Props.C68_fails"
   ],
   "note": "False as stated (C68_fails): multi-byte ranges are over-approximated, and a lost end point makes the empty prefix accepted. Exact for nonempty prefixes when ranges are within ASCII or one block of 64 code points, elements are characters, and every node leads to an end point."
  },
  {
   "property": "C69",
   "status": "proved",
   "theorems": [
    "Verif.Props.C69_order",
    "Verif.Props.C69_elems",
    "Verif.Props.C69_ok"
   ],
   "note": "Order independence for every graph and prefix; elements that can be expanded characterised exactly; success for graphs of such elements."
  },
  {
   "property": "C70",
   "status": "proved",
   "theorems": [
    "Verif.Props.C70_label",
    "Verif.Props.C70_near"
   ],
   "note": "C70_label for every grammar; C70_near adds that the text perturbed is derivable."
  },
  {
   "property": "C71",
   "status": "proved",
   "theorems": [
    "Verif.Props.C71_finds",
    "Verif.Props.C71_rule"
   ],
   "note": "C71_rule: every rule with a transition graph whose rules can be written in ABNF, however left-recursive the rest of the grammar. C71_finds: grammars on which IsValid is proved not to panic (C44) and to be sound (C04)."
  },
  {
   "property": "C72",
   "status": "partial",
   "theorems": [
    "Verif.Props.C72_exact",
    "Verif.Props.C72_partial",
    "Verif.Props.C72_fails"
   ],
   "note": "C72_exact: the file compiles iff no terminal of the compiled grammar is prose or a series naming a surrogate. C72_partial: it compiles when no rule contains such an element. C72_fails: the claim as stated is false for x = %xD800. What is checked of the Go text is in CodegenCheck (declared/used variables, imports, literals); the fixed part of the file is trusted to compile."
  },
  {
   "property": "C73",
   "status": "proved",
   "theorems": [
    "Verif.Props.C73_tries",
    "Verif.Props.C73_rand"
   ],
   "note": "The trace is proved to divide the text into what reachable nodes wrote. Hypothesis: num-vals of the graph are well formed, the graph is finite."
  },
  {
   "property": "C74",
   "status": "proved",
   "theorems": [
    "Verif.Props.C74_sppf",
    "Verif.Props.C74_bsr"
   ],
   "note": "The condition is on the languages of the parts of the grammar (Spec.Unambiguous), not on the parser. Example: l = DIGIT *(\",\" DIGIT)."
  },
  {
   "property": "C75",
   "status": "proved",
   "theorems": [
    "Verif.Props.C75_texts",
    "Verif.Props.C75_once"
   ],
   "note": "ReadsFile in AbnfText is the RFC's description of source texts, written without the meta-grammar."
  },
  {
   "property": "C76",
   "status": "proved",
   "theorems": [
    "Verif.Props.C76_sppf",
    "Verif.Props.C76_bsr"
   ],
   "note": "From C74: the ABNF grammar settles every choice (AbnfOnce, AbnfUnambig)."
  },
  {
   "property": "C77",
   "status": "proved",
   "theorems": [
    "Verif.Props.C77_syntax",
    "Verif.Props.C77_errors",
    "Verif.Props.C77_evaluate"
   ],
   "note": ""
  },
  {
   "property": "C78",
   "status": "partial",
   "theorems": [
    "Verif.Props.C78_exact_partial",
    "Verif.Props.C78_count_fails",
    "Verif.Props.C78_comment_fails"
   ],
   "note": "Missing: a repeat count beyond an int is read as another count and `=/` in a comment after the name is taken for the operator, both refuted. Texts that redefine core rules are C104."
  },
  {
   "property": "C79",
   "status": "partial",
   "theorems": [
    "Verif.Props.C79_uncased_partial",
    "Verif.Props.C79_same_partial",
    "Verif.Props.C79_parsed_partial",
    "Verif.Props.C79_case_fails",
    "Verif.Props.C79_empty_fails"
   ],
   "note": "Missing: the marker %s is not printed, and a grammar without rules prints a text that is refused, both refuted. Grammars with redefined core rules are C108."
  },
  {
   "property": "C80",
   "status": "proved",
   "theorems": [
    "Verif.Props.C80_wellformed",
    "Verif.Props.C80_language"
   ],
   "note": ""
  },
  {
   "property": "C81",
   "status": "partial",
   "theorems": [
    "Verif.Props.C81_language_partial",
    "Verif.Props.C81_generates",
    "Verif.Props.C81_redefined"
   ],
   "note": "Missing: sources outside C78_exact_partial, a text both with and without %s (finding 4), parsers run with a budget (C45). C81_redefined has texts that redefine core rules in capitals, as in C104."
  },
  {
   "property": "C82",
   "status": "proved",
   "theorems": [
    "Verif.Props.C82_exact",
    "Verif.Props.C82_text"
   ],
   "note": "From C01: the ABNF grammar meets its conditions. `none` is the rule-not-found error."
  },
  {
   "property": "C83",
   "status": "proved",
   "theorems": [
    "Verif.Props.C83_generated",
    "Verif.Props.C83_source"
   ],
   "note": ""
  },
  {
   "property": "C84",
   "status": "proved",
   "theorems": [
    "Verif.Props.C84_accepts",
    "Verif.Props.C84_members"
   ],
   "note": ""
  },
  {
   "property": "C85",
   "status": "proved",
   "theorems": [
    "Verif.Props.C85_comments",
    "Verif.Props.C85_comments_fails",
    "Verif.Props.C85_cases"
   ],
   "note": "C85_comments_fails: the claim does not extend to grammars built by other means, whose group, option and repetition labels are written unsanitised."
  },
  {
   "property": "C86",
   "status": "proved",
   "theorems": [
    "Verif.Props.C86_strict",
    "Verif.Props.C86_independent",
    "Verif.Props.C86_core",
    "Verif.Props.C86_redefine_fails"
   ],
   "note": "C86_redefine_fails: the condition is needed. After ALPHA =/ \"-\" under WithRedefineCoreRules(true), ParseABNF with default options reads a text it refuses otherwise."
  },
  {
   "property": "C87",
   "status": "proved",
   "theorems": [
    "Verif.Props.C87_draws",
    "Verif.Props.C87_total",
    "Verif.Props.C87_arrows",
    "Verif.Props.C87_labels"
   ],
   "note": "A range with fewer than two bounds, which only a grammar built by hand can have, makes ToMermaid panic (C87_draws)."
  },
  {
   "property": "C88",
   "status": "proved",
   "theorems": [
    "Verif.Props.C88_accepts",
    "Verif.Props.C88_refuses"
   ],
   "note": ""
  },
  {
   "property": "C89",
   "status": "partial",
   "theorems": [
    "Verif.Props.C89_lines_partial",
    "Verif.Props.C89_arrows_partial",
    "Verif.Props.C89_fails"
   ],
   "note": "The claim is false (C89_fails): dependencies are folded to lower case, the rules they start from are not, so no arrow leads to a rule defined with upper case letters. Proved: the lines that are written, and the claim for arrows to rules defined in lower case."
  },
  {
   "property": "C90",
   "status": "proved",
   "theorems": [
    "Verif.Props.C90_status",
    "Verif.Props.C90_prints",
    "Verif.Props.C90_input"
   ],
   "note": "ABNF texts are taken without the two traps of C78 (Says)."
  },
  {
   "property": "C91",
   "status": "partial",
   "theorems": [
    "Verif.Props.C91_trimmed_partial",
    "Verif.Props.C91_fails"
   ],
   "note": "The claim is false for every input (C91_fails): validate adds a line feed after the final CR LF, and a bare line feed is not ABNF. Proved: without that byte the output is read back as the same rules, if no string is case-sensitive (C79)."
  },
  {
   "property": "C92",
   "status": "proved",
   "theorems": [
    "Verif.Props.C92_member",
    "Verif.Props.C92_seed",
    "Verif.Props.C92_exact"
   ],
   "note": ""
  },
  {
   "property": "C93",
   "status": "proved",
   "theorems": [
    "Verif.Props.C93_pattern"
   ],
   "note": ""
  },
  {
   "property": "C94",
   "status": "partial",
   "theorems": [
    "Verif.Props.C94_draws_partial",
    "Verif.Props.C94_flags",
    "Verif.Props.C94_fails",
    "Verif.Props.C94_options"
   ],
   "note": "The claim is false (C94_fails): the command tests whether a flag is set, not its value, so --deflate-charvals=false deflates. Proved: the drawing is that of a graph of exactly the texts of the rule, and the value of a flag is ignored."
  },
  {
   "property": "C95",
   "status": "proved",
   "theorems": [
    "Verif.Props.C95_status",
    "Verif.Props.C95_program"
   ],
   "note": "Strings that differ in case only are excluded as in C45."
  },
  {
   "property": "C96",
   "status": "proved",
   "theorems": [
    "Verif.Props.C96_graph",
    "Verif.Props.C96_trails"
   ],
   "note": ""
  },
  {
   "property": "C97",
   "status": "partial",
   "theorems": [
    "Verif.Props.C97_verdict_partial",
    "Verif.Props.C97_fails"
   ],
   "note": "The claim is false (C97_fails): if all draws are 0 the generated grammar is A=0A, on which Regex returns ErrCyclicRule, and other draws give A=2000%I\" \", whose pattern RE2 refuses. Proved: these are the only ways to fail."
  },
  {
   "property": "C98",
   "status": "proved",
   "theorems": [
    "Verif.Props.C98_exact"
   ],
   "note": ""
  },
  {
   "property": "C99",
   "status": "partial",
   "theorems": [
    "Verif.Props.C99_reaches_partial",
    "Verif.Props.C99_fails"
   ],
   "note": "The claim is false (C99_fails): only the first 16 characters of a range are drawn, so ALPHA never gives a letter after P. Proved: it holds if ranges have at most 16 characters and strings have no capitals."
  }
 ]
}
