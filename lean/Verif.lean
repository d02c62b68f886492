import Verif.Utf8
import Verif.Syntax
import Verif.Numval
import Verif.Spec
import Verif.Term
import Verif.NumLemmas
import Verif.TermLemmas
import Verif.BoundLemmas
import Verif.PropsTerm
import Verif.Slots
import Verif.SlotsLemmas
import Verif.GLL
import Verif.SlotsLang
import Verif.SlotsBudget
import Verif.Examples
import Verif.PropsSlots
import Verif.Sppf
import Verif.GLLBounds
import Verif.SppfLemmas
import Verif.PropsSppf
import Verif.Bsr
import Verif.BsrLemmas
import Verif.PropsBsr
import Verif.Findings
import Verif.Print
import Verif.PropsPrint
import Verif.Analysis
import Verif.PropsAnalysis
import Verif.Tarjan
import Verif.TarjanLemmas
import Verif.PropsTarjan
import Verif.LeftRec
import Verif.Recog
import Verif.RecogLemmas
import Verif.RecogSpec
import Verif.RecogSound
import Verif.RecogTerm
import Verif.LeftRecLemmas
import Verif.LeftRecMap
import Verif.RecogComplete
import Verif.RecogCheck
import Verif.PropsRecog
import Verif.Packed
import Verif.PackedLemmas
import Verif.Forest
import Verif.ForestLemmas
import Verif.ForestCompare
import Verif.TreeSpec
import Verif.BsrTree
import Verif.PropsForest
import Verif.PropsCore
import Verif.Errors
import Verif.Regex
import Verif.RegexSpec
import Verif.RegexLemmas
import Verif.RegexRender
import Verif.RegexBuild
import Verif.RegexDet
import Verif.PropsRegex
import Verif.Generate
import Verif.GenLemmas
import Verif.GenCheck
import Verif.PropsGen
import Verif.Entropy
import Verif.PropsEntropy
import Verif.Ast
import Verif.AstCost
import Verif.AstVisit
import Verif.AstLemmas
import Verif.AstExact
import Verif.PropsAst
import Verif.AstWrap
import Verif.AstCap
import Verif.Tg
import Verif.TgLang
import Verif.TgClone
import Verif.TgRep
import Verif.TgBuild
import Verif.TgElem
import Verif.TgFails
import Verif.PropsTg
import Verif.Fuzz
import Verif.FuzzNew
import Verif.FuzzWalk
import Verif.FuzzNode
import Verif.FuzzAll
import Verif.PropsFuzz
import Verif.Reader
import Verif.ReaderPrep
import Verif.ReaderTrails
import Verif.ReaderScan
import Verif.ReaderAll
import Verif.ReaderSearch
import Verif.ReaderCompact
import Verif.PropsReader
import Verif.Expect
import Verif.ExpectLemmas
import Verif.ExpectElem
import Verif.ExpectRun
import Verif.TgNodes
import Verif.TgText
import Verif.PropsExpect
import Verif.NearMiss
import Verif.PropsMiss
import Verif.PropsMissAll
import Verif.PropsRule
import Verif.PackedMap
import Verif.Codegen
import Verif.CodegenIds
import Verif.CodegenMatch
import Verif.CodegenSim
import Verif.CodegenQuery
import Verif.PropsCodegen
import Verif.CodegenCheck
import Verif.PropsCompile
import Verif.Meta
import Verif.Unambig
import Verif.OnceKit
import Verif.PropsUnambig
import Verif.AbnfText
import Verif.AbnfOnce
import Verif.TreeText
import Verif.AbnfLex
import Verif.Eval
import Verif.EvalSound
import Verif.AbnfReads
import Verif.AbnfUnambig
import Verif.AbnfConv
import Verif.AbnfPrint
import Verif.PropsAbnf
import Verif.PropsMeta
import Verif.CodegenText
import Verif.Session
import Verif.Mermaid
import Verif.Cmd
import Verif.Sizes
import Verif.Targets
import Verif.GenExact
import Verif.Messages
import Verif.TgCause
import Verif.Options
import Verif.Spread
import Verif.Redefine
import Verif.AllTrees
import Verif.PropsAllTrees
import Verif.EndToEnd
import Verif.RecogCost
import Verif.Reopen
import Verif.GenCost
import Verif.RegexCost
import Verif.Chomsky
import Verif.Regular
import Verif.GllCost
import Verif.Errata
import Verif.SlotSize
import Verif.ExampleTargets
import Verif.Counts
import Verif.FlatCount
import Verif.CatalanCount
import Verif.AbnfItself
import Verif.Conformance
import Verif.Part
import Verif.PartMiss
import Verif.Deter
import Verif.Rename
import Verif.ForestOrder
import Verif.FuzzReps
import Verif.AstAll
import Verif.GenErrs
import Verif.Local
import Verif.Casing
import Verif.Appending
import Verif.Loosen
import Verif.Renaming
import Verif.Inlining
import Verif.Laws
import Verif.TermLaws
import Verif.RefsOnly
import Verif.Found
