import Verif.Examples
import Verif.Print

/-!
# The grammar of ABNF itself

`abnf.go` 216–243 (the variable `ABNF`) and `rules.go` 518–1867 (the rules it holds).  A Go map has no
order; the list below is in the order of the source, and C18 is what makes the order immaterial.
-/

namespace Verif
open Spec

namespace Abnf

/-- One occurrence (`Min: 1, Max: 1` in `rules.go`). -/
abbrev one (e : Elem) : Rep := ⟨1, some 1, e⟩
/-- Any number of occurrences (`Min: 0, Max: inf` in `rules.go`). -/
abbrev many (e : Elem) : Rep := ⟨0, none, e⟩
/-- At least one occurrence (`Min: 1, Max: inf` in `rules.go`). -/
abbrev some1 (e : Elem) : Rep := ⟨1, none, e⟩
/-- `ElemCharVal{Sensitive: false, …}` (`rules.go` 518–1867). -/
abbrev lit (s : Str) : Elem := .charVal false s
/-- `ElemRulename{…}` (`rules.go` 518–1867). -/
abbrev ref (s : Str) : Elem := .rulename s
/-- `ElemNumVal{Base: "x", Status: StatRange, …}` (`rules.go` 1373–1430, 1804–1867). -/
abbrev rng (lo hi : Str) : Elem := .numVal (str% "x") .range [lo, hi]

/-- `rules.go` 518–579. -/
def rulelist : Rule := ⟨str% "rulelist", [[some1 (.group [[one (ref (str% "rule"))],
  [one (.group [[many (ref (str% "WSP")), one (ref (str% "c-nl"))]])]])]]⟩
/-- `rules.go` 581–616. -/
def rule : Rule := ⟨str% "rule", [[one (ref (str% "rulename")), one (ref (str% "defined-as")),
  one (ref (str% "elements")), one (ref (str% "c-nl"))]]⟩
/-- `rules.go` 618–676. -/
def rulename : Rule := ⟨str% "rulename", [[one (ref (str% "ALPHA")),
  many (.group [[one (ref (str% "ALPHA"))], [one (ref (str% "DIGIT"))], [one (lit (str% "-"))]])]]⟩
/-- `rules.go` 678–733. -/
def definedAs : Rule := ⟨str% "defined-as", [[many (ref (str% "c-wsp")),
  one (.group [[one (lit (str% "="))], [one (lit (str% "=/"))]]), many (ref (str% "c-wsp"))]]⟩
/-- `rules.go` 735–758. -/
def elements : Rule := ⟨str% "elements", [[one (ref (str% "alternation")), many (ref (str% "WSP"))]]⟩
/-- `rules.go` 760–807. -/
def cWsp : Rule := ⟨str% "c-wsp", [[one (ref (str% "WSP"))],
  [one (.group [[one (ref (str% "c-nl")), one (ref (str% "WSP"))]])]]⟩
/-- `rules.go` 809–836. -/
def cNl : Rule := ⟨str% "c-nl", [[one (ref (str% "comment"))], [one (ref (str% "CRLF"))]]⟩
/-- `rules.go` 838–895. -/
def comment : Rule := ⟨str% "comment", [[one (lit (str% ";")),
  many (.group [[one (ref (str% "WSP"))], [one (ref (str% "VCHAR"))]]), one (ref (str% "CRLF"))]]⟩
/-- `rules.go` 897–957. -/
def alternation : Rule := ⟨str% "alternation", [[one (ref (str% "concatenation")),
  many (.group [[many (ref (str% "c-wsp")), one (lit (str% "/")), many (ref (str% "c-wsp")),
    one (ref (str% "concatenation"))]])]]⟩
/-- `rules.go` 959–1004. -/
def concatenation : Rule := ⟨str% "concatenation", [[one (ref (str% "repetition")),
  many (.group [[some1 (ref (str% "c-wsp")), one (ref (str% "repetition"))]])]]⟩
/-- `rules.go` 1006–1044. -/
def repetition : Rule := ⟨str% "repetition", [[one (.option [[one (ref (str% "repeat"))]]),
  one (ref (str% "element"))]]⟩
/-- `rules.go` 1046–1103. -/
def repeat_ : Rule := ⟨str% "repeat", [[some1 (ref (str% "DIGIT"))],
  [one (.group [[many (ref (str% "DIGIT")), one (lit (str% "*")), many (ref (str% "DIGIT"))]])]]⟩
/-- `rules.go` 1105–1177. -/
def element : Rule := ⟨str% "element", [[one (ref (str% "rulename"))], [one (ref (str% "group"))],
  [one (ref (str% "option"))], [one (ref (str% "char-val"))], [one (ref (str% "num-val"))],
  [one (ref (str% "prose-val"))]]⟩
/-- `rules.go` 1179–1226. -/
def group : Rule := ⟨str% "group", [[one (lit (str% "(")), many (ref (str% "c-wsp")),
  one (ref (str% "alternation")), many (ref (str% "c-wsp")), one (lit (str% ")"))]]⟩
/-- `rules.go` 1228–1275. -/
def option : Rule := ⟨str% "option", [[one (lit (str% "[")), many (ref (str% "c-wsp")),
  one (ref (str% "alternation")), many (ref (str% "c-wsp")), one (lit (str% "]"))]]⟩
/-- `rules.go` 1278–1305. -/
def charVal : Rule := ⟨str% "char-val", [[one (ref (str% "case-insensitive-string"))],
  [one (ref (str% "case-sensitive-string"))]]⟩
/-- `rules.go` 1307–1345. -/
def ciString : Rule := ⟨str% "case-insensitive-string", [[one (.option [[one (lit (str% "%i"))]]),
  one (ref (str% "quoted-string"))]]⟩
/-- `rules.go` 1347–1371. -/
def csString : Rule := ⟨str% "case-sensitive-string", [[one (lit (str% "%s")),
  one (ref (str% "quoted-string"))]]⟩
/-- `rules.go` 1373–1430. -/
def quotedString : Rule := ⟨str% "quoted-string", [[one (ref (str% "DQUOTE")),
  many (.group [[one (rng (str% "20") (str% "21"))], [one (rng (str% "23") (str% "7E"))]]),
  one (ref (str% "DQUOTE"))]]⟩
/-- `rules.go` 1432–1493. -/
def numVal : Rule := ⟨str% "num-val", [[one (lit (str% "%")),
  one (.group [[one (ref (str% "bin-val"))], [one (ref (str% "dec-val"))], [one (ref (str% "hex-val"))]])]]⟩
/-- The shape shared by the three kinds of numeric value (`rules.go` 1495–1802). -/
abbrev valBody (letter digit : Str) : Alt := [[one (lit letter), some1 (ref digit),
  one (.option [[some1 (.group [[one (lit (str% ".")), some1 (ref digit)]])],
    [one (.group [[one (lit (str% "-")), some1 (ref digit)]])]])]]
/-- `rules.go` 1495–1596. -/
def binVal : Rule := ⟨str% "bin-val", valBody (str% "b") (str% "BIT")⟩
/-- `rules.go` 1598–1699. -/
def decVal : Rule := ⟨str% "dec-val", valBody (str% "d") (str% "DIGIT")⟩
/-- `rules.go` 1701–1802. -/
def hexVal : Rule := ⟨str% "hex-val", valBody (str% "x") (str% "HEXDIG")⟩
/-- `rules.go` 1804–1867. -/
def proseVal : Rule := ⟨str% "prose-val", [[one (lit (str% "<")),
  many (.group [[one (rng (str% "20") (str% "3D"))], [one (rng (str% "3F") (str% "7E"))]]),
  one (lit (str% ">"))]]⟩

/-- `abnf.go` 216–243: the variable `ABNF`. -/
def grammar : Grammar := ⟨[rulelist, rule, rulename, definedAs, elements, cWsp, cNl, comment, alternation,
  concatenation, repetition, repeat_, element, group, option, charVal, ciString, csString, quotedString,
  numVal, binVal, decVal, hexVal, proseVal]⟩

theorem numValsWF : NumValsWF grammar := numValsWF_of (by decide)
theorem namesDistinct : NamesDistinct grammar := namesDistinct_of (by decide)
theorem distinctPrint : DistinctPrint grammar := distinctPrint_of (by decide +kernel)

end Abnf
end Verif
