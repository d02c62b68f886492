import Verif.PropsAllTrees
import Verif.AbnfReads
import Verif.PropsAbnf
import Verif.PropsCodegen

/-!
# C114: what the errata to RFC 5234 are for

The variable `ABNF` has the rules `rulelist` and `elements` as errata 2968 and 3076 have them
(/repo/rules.go:545-560, 735-758).  The README (/repo/README.md:138) says that the grammar of RFC 5234 itself gives an
ambiguous parser and the corrected one does not.  Here is that grammar (/repo/testdata/abnf.abnf:1-56), the texts on
which it is ambiguous, and the proof that the correction changes no verdict.
-/

namespace Verif
open Spec Text

namespace Errata
open Abnf

/-- An item of a `rulelist` before the errata (/repo/testdata/abnf.abnf:1). -/
abbrev item : Elem := .group [[one (ref (str% "rule"))], [one (.group [[many (ref (str% "c-wsp")), one (ref (str% "c-nl"))]])]]
/-- `rulelist = 1*( rule / (*c-wsp c-nl) )` (/repo/testdata/abnf.abnf:1). -/
def rulelist : Rule := ⟨str% "rulelist", [[some1 item]]⟩
/-- `elements = alternation *c-wsp` (/repo/testdata/abnf.abnf:13). -/
def elements : Rule := ⟨str% "elements", [[one (ref (str% "alternation")), many (ref (str% "c-wsp"))]]⟩
/-- `char-val = DQUOTE *(%x20-21 / %x23-7E) DQUOTE` (/repo/testdata/abnf.abnf:38). -/
def charVal : Rule := ⟨str% "char-val", quotedString.alt⟩

/-- The rules the errata leave alone. -/
def kept : List Rule := [rulename, definedAs, cWsp, cNl, comment, alternation, concatenation, repetition, repeat_, element,
  group, option, Abnf.charVal, ciString, csString, quotedString, numVal, binVal, decVal, hexVal, proseVal]

/-- The variable `ABNF` (/repo/abnf.go:216-243) without the two errata. -/
def before : Grammar := ⟨rulelist :: rule :: elements :: kept⟩

/-- RFC 5234 without errata and without RFC 7405 (/repo/testdata/abnf.abnf:1-56). -/
def rfc5234 : Grammar := ⟨[rulelist, rule, rulename, definedAs, elements, cWsp, cNl, comment, alternation,
  concatenation, repetition, repeat_, element, group, option, charVal, numVal, binVal, decVal, hexVal, proseVal]⟩

/-- A grammar with the rules that matter, as RFC 5234 has them. -/
structure Raw (g : Grammar) : Prop where
  wf : NumValsWF g
  distinct : NamesDistinct g
  print : DistinctPrint g
  named : Spelt.Named (rulesReps (g.rules ++ Core.rules))
  rulelist : rulelist ∈ g.rules
  rule : rule ∈ g.rules
  elements : elements ∈ g.rules
  cWsp : cWsp ∈ g.rules

theorem before_raw : Raw before where
  wf := numValsWF_of (by decide)
  distinct := namesDistinct_of (by decide)
  print := distinctPrint_of (by decide +kernel)
  named := Props.named_of (by decide +kernel)
  rulelist := by simp [before]
  rule := by simp [before]
  elements := by simp [before]
  cWsp := by simp [before, kept]

theorem rfc5234_raw : Raw rfc5234 where
  wf := numValsWF_of (by decide)
  distinct := namesDistinct_of (by decide)
  print := distinctPrint_of (by decide +kernel)
  named := Props.named_of (by decide +kernel)
  rulelist := by simp [rfc5234]
  rule := by simp [rfc5234]
  elements := by simp [rfc5234]
  cWsp := by simp [rfc5234]

/-! ## What the rules derive -/

section
variable {g : Grammar}

theorem own {r : Rule} (hr : r ∈ g.rules) : Resolves g r.name r := .user hr ((sameName_iff _ _).mpr rfl)

theorem rule_iff (hd : NamesDistinct g) {r : Rule} (hr : r ∈ g.rules) {w : Bytes} :
    Derives g (.rulename r.name) w ↔ DerivesAlt g r.alt w := derives_rule_of hd (own hr)

theorem many_iff {e : Elem} {w : Bytes} : DerivesRep g (many e) w ↔ ∃ n, DerivesTimes g e n w := by
  constructor
  · intro h
    cases h with
    | mk _ _ _ n _ _ _ h => exact ⟨n, h⟩
  · rintro ⟨n, h⟩
    exact .mk _ _ _ n _ (Nat.zero_le _) (fun m hm => by cases hm) h

theorem some_iff {e : Elem} {w : Bytes} : DerivesRep g (some1 e) w ↔ ∃ n, 1 ≤ n ∧ DerivesTimes g e n w := by
  constructor
  · intro h
    cases h with
    | mk _ _ _ n _ h1 _ h => exact ⟨n, h1, h⟩
  · rintro ⟨n, h1, h⟩
    exact .mk _ _ _ n _ h1 (fun m hm => by cases hm) h

/-- Blank lines and comments as the rule `rulelist` before the errata has them. -/
def Blank (g : Grammar) (w : Bytes) : Prop :=
  ∃ a b n, w = a ++ b ∧ DerivesTimes g (ref (str% "c-wsp")) n a ∧ Derives g (ref (str% "c-nl")) b

theorem blank_iff {w : Bytes} : Derives g (.group [[many (ref (str% "c-wsp")), one (ref (str% "c-nl"))]]) w ↔ Blank g w := by
  rw [derives_group, derivesAlt_cons, derivesConcat_cons]
  simp only [derivesAlt_nil, or_false, derivesConcat_one, derivesRep_one, many_iff]
  constructor
  · rintro ⟨a, b, rfl, ⟨n, h1⟩, h2⟩; exact ⟨a, b, n, rfl, h1, h2⟩
  · rintro ⟨a, b, n, rfl, h1, h2⟩; exact ⟨a, b, rfl, ⟨n, h1⟩, h2⟩

theorem item_iff {w : Bytes} : Derives g item w ↔ Derives g (ref (str% "rule")) w ∨ Blank g w := by
  rw [derives_group, derivesAlt_cons, derivesAlt_cons]
  simp only [derivesAlt_nil, or_false, derivesConcat_one, derivesRep_one, blank_iff]

theorem list_iff (h : Raw g) {w : Bytes} : DerivesRule g (str% "rulelist") w ↔ ∃ n, 1 ≤ n ∧ DerivesTimes g item n w := by
  refine (rule_iff h.distinct h.rulelist).trans ?_
  simp only [rulelist, derivesAlt_cons, derivesAlt_nil, or_false, derivesConcat_one, some_iff]

theorem rule_parts (h : Raw g) {w : Bytes} : Derives g (ref (str% "rule")) w ↔ ∃ a b c d e n, w = a ++ (b ++ ((c ++ d) ++ e)) ∧
    Derives g (ref (str% "rulename")) a ∧ Derives g (ref (str% "defined-as")) b ∧ Derives g (ref (str% "alternation")) c ∧
    DerivesTimes g (ref (str% "c-wsp")) n d ∧ Derives g (ref (str% "c-nl")) e := by
  refine (rule_iff h.distinct h.rule).trans ?_
  have he : ∀ v, Derives g (ref (str% "elements")) v ↔ ∃ c d n, v = c ++ d ∧ Derives g (ref (str% "alternation")) c ∧
      DerivesTimes g (ref (str% "c-wsp")) n d := by
    intro v
    refine (rule_iff h.distinct h.elements).trans ?_
    simp only [elements, derivesAlt_cons, derivesAlt_nil, or_false, derivesConcat_cons (r := one _), derivesConcat_one, derivesRep_one, many_iff]
    constructor
    · rintro ⟨c, d, rfl, h1, n, h2⟩; exact ⟨c, d, n, rfl, h1, h2⟩
    · rintro ⟨c, d, n, rfl, h1, h2⟩; exact ⟨c, d, rfl, h1, n, h2⟩
  simp only [rule, derivesAlt_cons, derivesAlt_nil, or_false, derivesConcat_cons, derivesConcat_nil, derivesRep_one, he]
  constructor
  · rintro ⟨a, _, rfl, h1, b, _, rfl, h2, _, _, rfl, ⟨c, d, n, rfl, h3, h4⟩, e, _, rfl, h5, rfl⟩
    exact ⟨a, b, c, d, e, n, by simp, h1, h2, h3, h4, h5⟩
  · rintro ⟨a, b, c, d, e, n, rfl, h1, h2, h3, h4, h5⟩
    exact ⟨a, _, rfl, h1, b, _, rfl, h2, _, _, rfl, ⟨c, d, n, rfl, h3, h4⟩, e, [], by simp, h5, rfl⟩

/-! ## Trees -/

variable {inp : Bytes}

/-- All of them are derivation trees without empty leaves. -/
def Good (g : Grammar) (inp : Bytes) (ts : List ParseTree) : Prop := ∀ t ∈ ts, DerivationTree g inp t ∧ Tidy t

theorem good_append {ts us : List ParseTree} (h1 : Good g inp ts) (h2 : Good g inp us) : Good g inp (ts ++ us) := by
  intro t ht
  rcases List.mem_append.mp ht with ht | ht
  · exact h1 t ht
  · exact h2 t ht

theorem good_nil : Good g inp [] := by simp [Good]

theorem node_good {r : Rule} (hr : Resolves g r.name r) (hn : r.name ≠ []) {ch : List ParseTree} {i j : Nat}
    (h : AltTrees inp r.alt ch i j) (hg : Good g inp ch) : Good g inp [.node r.name i j ch] := by
  intro t ht
  rw [List.mem_singleton.mp ht]
  exact ⟨.rule r i j ch hr h fun c hc => (hg c hc).1, .mk _ _ _ _ (fun h0 => absurd h0 hn) fun c hc => (hg c hc).2⟩

theorem node_tree {r : Rule} (hr : r ∈ g.rules) (hn : r.name ≠ []) {ch : List ParseTree} {i j : Nat}
    (h : AltTrees inp r.alt ch i j) (hg : Good g inp ch) :
    ElemTrees inp (.rulename r.name) [.node r.name i j ch] i j ∧ Good g inp [.node r.name i j ch] :=
  ⟨.rule _ _ _ _ _ ((sameName_iff _ _).mpr rfl), node_good (own hr) hn h hg⟩

/-- A reference that derives a text has a tree for it. -/
theorem ref_tree (h : Raw g) {n : Str} (hn : n ≠ []) {w : Bytes} (hd : Derives g (.rulename n) w) {i j : Nat} (hat : At inp i j w) :
    ∃ t, ElemTrees inp (.rulename n) [t] i j ∧ Good g inp [t] := by
  obtain ⟨r, hr, ha⟩ := derives_rulename.mp hd
  obtain ⟨ch, h1, h2⟩ := alt_tree h.named ha (fun p hp => by
    refine List.mem_flatMap.mpr ⟨r, ?_, hp⟩
    cases hr with
    | user h1 _ => exact List.mem_append_left _ h1
    | core h1 _ _ => exact List.mem_append_right _ h1) i j hat
  have hs := sameName_of_resolves hr
  exact ⟨_, .rule _ _ _ _ _ hs, node_good (resolves_self hr) (nonempty_of_sameName hs hn) h1 h2⟩

theorem refs_tree (h : Raw g) {n : Str} (hn : n ≠ []) : ∀ {k : Nat} {w : Bytes}, DerivesTimes g (.rulename n) k w → ∀ {i j : Nat}, At inp i j w →
    ∃ ts, TimesTrees inp (.rulename n) k ts i j ∧ Good g inp ts
  | 0, _, hd, i, j, hat => by
    generalize hk : 0 = k at hd
    cases hd with
    | zero => rw [at_nil] at hat; subst hat; exact ⟨[], .zero _ _, good_nil⟩
    | succ => cases hk
  | k + 1, _, hd, i, j, hat => by
    cases hd with
    | succ _ _ u v h1 h2 =>
      obtain ⟨ha, hb⟩ := (at_append _ _ _ _ _).mp hat
      obtain ⟨t, h3, h4⟩ := ref_tree h hn h1 ha
      obtain ⟨ts, h5, h6⟩ := refs_tree h hn h2 hb
      exact ⟨_, .succ _ _ _ _ _ _ _ h3 h5, good_append h4 h6⟩

theorem times_append {e : Elem} {m : Nat} {ts : List ParseTree} {i j : Nat} : TimesTrees inp e m ts i j → ∀ {n : Nat} {us : List ParseTree} {k : Nat},
    TimesTrees inp e n us j k → TimesTrees inp e (m + n) (ts ++ us) i k := by
  induction m generalizing ts i with
  | zero =>
    intro h n us k h'
    generalize hm : 0 = m at h
    cases h with
    | zero => rw [Nat.zero_add]; exact h'
    | succ => cases hm
  | succ m ih =>
    intro h n us k h'
    cases h with
    | succ _ _ t1 t2 _ _ _ h1 h2 =>
      rw [Nat.add_right_comm, List.append_assoc]
      exact .succ _ _ _ _ _ _ _ h1 (ih h2 h')

theorem times_single {e : Elem} {ts : List ParseTree} {i j : Nat} (h : ElemTrees inp e ts i j) : TimesTrees inp e 1 ts i j := by
  have := TimesTrees.succ e 0 ts [] i j j h (.zero e j)
  rwa [List.append_nil] at this

theorem rep_single {e : Elem} {ts : List ParseTree} {i j : Nat} (h : ElemTrees inp e ts i j) : RepTrees inp (one e) ts i j :=
  .mk 1 (some 1) e 1 _ i j (Nat.le_refl _) (fun m hm => by cases hm; exact Nat.le_refl _) (times_single h)

theorem rep_times {e : Elem} {n : Nat} {ts : List ParseTree} {i j : Nat} (h : TimesTrees inp e n ts i j) : RepTrees inp (many e) ts i j :=
  .mk 0 none e n _ i j (Nat.zero_le _) (fun m hm => by cases hm) h

theorem item_rule {ts : List ParseTree} {i j : Nat} (h : ElemTrees inp (ref (str% "rule")) ts i j) : ElemTrees inp item ts i j := by
  have := ConcatTrees.cons _ [] _ [] i j j (rep_single h) (.nil j)
  rw [List.append_nil] at this
  exact .group _ _ _ _ (.mk _ _ _ _ _ (by simp) this)

theorem item_blank {n : Nat} {ts us : List ParseTree} {i j k : Nat} (h : TimesTrees inp (ref (str% "c-wsp")) n ts i j)
    (h' : ElemTrees inp (ref (str% "c-nl")) us j k) : ElemTrees inp item (ts ++ us) i k := by
  have h1 := ConcatTrees.cons _ [] _ [] j k k (rep_single h') (.nil k)
  rw [List.append_nil] at h1
  have h2 := ConcatTrees.cons _ _ _ _ i j k (rep_times h) h1
  have h3 := ConcatTrees.cons _ [] _ [] i k k (rep_single (ElemTrees.group _ _ _ _ (.mk _ _ _ _ _ (List.mem_singleton_self _) h2))) (.nil k)
  rw [List.append_nil] at h3
  exact .group _ _ _ _ (.mk _ _ _ _ _ (by simp) h3)

theorem item_tree (h : Raw g) {w : Bytes} (hd : Derives g item w) {i j : Nat} (hat : At inp i j w) :
    ∃ ts, ElemTrees inp item ts i j ∧ Good g inp ts := by
  rcases item_iff.mp hd with hd | ⟨a, b, n, rfl, h1, h2⟩
  · obtain ⟨t, h1, h2⟩ := ref_tree h (by decide) hd hat
    exact ⟨_, item_rule h1, h2⟩
  · obtain ⟨ha, hb⟩ := (at_append _ _ _ _ _).mp hat
    obtain ⟨ts, h3, h4⟩ := refs_tree h (by decide) h1 ha
    obtain ⟨t, h5, h6⟩ := ref_tree h (by decide) h2 hb
    exact ⟨_, item_blank h3 h5, good_append h4 h6⟩

theorem items_tree (h : Raw g) : ∀ {k : Nat} {w : Bytes}, DerivesTimes g item k w → ∀ {i j : Nat}, At inp i j w →
    ∃ ts, TimesTrees inp item k ts i j ∧ Good g inp ts
  | 0, _, hd, i, j, hat => by
    generalize hk : 0 = k at hd
    cases hd with
    | zero => rw [at_nil] at hat; subst hat; exact ⟨[], .zero _ _, good_nil⟩
    | succ => cases hk
  | k + 1, _, hd, i, j, hat => by
    cases hd with
    | succ _ _ u v h1 h2 =>
      obtain ⟨ha, hb⟩ := (at_append _ _ _ _ _).mp hat
      obtain ⟨t, h3, h4⟩ := item_tree h h1 ha
      obtain ⟨ts, h5, h6⟩ := items_tree h h2 hb
      exact ⟨_, .succ _ _ _ _ _ _ _ h3 h5, good_append h4 h6⟩

theorem times_last {e : Elem} : ∀ {k : Nat} {w : Bytes}, DerivesTimes g e (k + 1) w → ∃ u v, w = u ++ v ∧ DerivesTimes g e k u ∧ Derives g e v
  | 0, w, h => ⟨[], w, rfl, .zero _, derivesTimes_one_iff.mp h⟩
  | k + 1, w, h => by
    cases h with
    | succ _ _ u v h1 h2 =>
      obtain ⟨u', v', rfl, h3, h4⟩ := times_last h2
      exact ⟨u ++ u', v', by simp, .succ _ _ _ _ h1 h3, h4⟩

/-- Items give a tree of the whole input. -/
theorem whole (h : Raw g) {k : Nat} (hk : 1 ≤ k) {ts : List ParseTree} (ht : TimesTrees inp item k ts 0 inp.length) (hg : Good g inp ts) :
    WholeTree g (str% "rulelist") inp (.node (str% "rulelist") 0 inp.length ts) := by
  have h1 : RepTrees inp (some1 item) ts 0 inp.length := .mk 1 none item k _ _ _ hk (fun m hm => by cases hm) ht
  have h2 := ConcatTrees.cons _ [] _ [] _ _ _ h1 (.nil _)
  rw [List.append_nil] at h2
  have h3 := node_good (own h.rulelist) (by decide) (AltTrees.mk _ _ _ _ _ (List.mem_singleton_self _) h2) hg _ (List.mem_singleton_self _)
  exact ⟨h3.1, h3.2, (sameName_iff _ _).mpr rfl, by show (str% "rulelist") ≠ []; decide, rfl, rfl⟩

/-- White space and the rest of a line, after a line: two ways to read it. -/
theorem two_trees (h : Raw g) {u c b v : Bytes} {k m : Nat} (hu : DerivesTimes g item (k + 1) u) (hc : Derives g (ref (str% "WSP")) c)
    (hb : Blank g b) (hv : DerivesTimes g item m v) (hinp : inp = u ++ (c ++ (b ++ v))) :
    ∃ t t', t ≠ t' ∧ WholeTree g (str% "rulelist") inp t ∧ WholeTree g (str% "rulelist") inp t' := by
  obtain ⟨u, l, rfl, hu, hl⟩ := times_last hu
  obtain ⟨a, e, n, rfl, ha, he⟩ := hb
  have hat : At inp 0 inp.length inp := ⟨by simp, by simp⟩
  rw [hinp] at hat
  obtain ⟨h1, h2⟩ := (at_append _ _ _ _ _).mp hat
  obtain ⟨h3, h4⟩ := (at_append _ _ _ _ _).mp h2
  obtain ⟨h5, h6⟩ := (at_append _ _ _ _ _).mp h4
  obtain ⟨h7, h8⟩ := (at_append _ _ _ _ _).mp h1
  obtain ⟨h9, h10⟩ := (at_append _ _ _ _ _).mp h5
  rw [← hinp] at *
  obtain ⟨tu, u1, u2⟩ := items_tree h hu h7
  obtain ⟨tc, c1, c2⟩ := ref_tree h (by decide) hc h3
  obtain ⟨ta, a1, a2⟩ := refs_tree h (by decide) ha h9
  obtain ⟨te, e1, e2⟩ := ref_tree h (by decide) he h10
  obtain ⟨tv, v1, v2⟩ := items_tree h hv h6
  generalize 0 + u.length = p1 at *
  generalize 0 + (u ++ l).length = p2 at *
  generalize p2 + c.length = p3 at *
  generalize p3 + (a ++ e).length = p4 at *
  generalize p3 + a.length = p5 at *
  -- the white space as `c-wsp`
  have hw : AltTrees inp cWsp.alt [tc] p2 p3 := by
    have := ConcatTrees.cons _ [] _ [] _ _ _ (rep_single c1) (.nil _)
    exact .mk _ _ _ _ _ (by simp [cWsp]) this
  have hwg := node_good (own h.cWsp) (by decide) hw c2
  have hwe : ElemTrees inp (ref (str% "c-wsp")) [.node cWsp.name p2 p3 [tc]] p2 p3 := .rule _ _ _ _ _ ((sameName_iff _ _).mpr rfl)
  -- the line break and the white space as `c-wsp`
  have hj : ∀ {q : Nat} {tl : ParseTree}, ElemTrees inp (ref (str% "c-nl")) [tl] q p2 → Good g inp [tl] →
      ElemTrees inp (ref (str% "c-wsp")) [.node cWsp.name q p3 [tl, tc]] q p3 ∧ Good g inp [.node cWsp.name q p3 [tl, tc]] := by
    intro q tl g1 g2
    refine ⟨.rule _ _ _ _ _ ((sameName_iff _ _).mpr rfl), node_good (own h.cWsp) (by decide) ?_ (good_append g2 c2)⟩
    have k1 := ConcatTrees.cons _ [] _ [] _ _ _ (rep_single c1) (.nil _)
    have k2 := ConcatTrees.cons _ _ _ _ _ _ _ (rep_single g1) k1
    have k3 := ConcatTrees.cons _ [] _ [] _ _ _ (rep_single (ElemTrees.group _ _ _ _ (.mk _ _ _ _ _ (List.mem_singleton_self _) k2))) (.nil _)
    exact .mk _ _ _ _ _ (by simp [cWsp]) k3
  -- the first tree
  have hfirst : ∀ {tl : List ParseTree}, ElemTrees inp item tl p1 p2 → Good g inp tl →
      WholeTree g (str% "rulelist") inp (.node (str% "rulelist") 0 inp.length
        (tu ++ (tl ++ ((([ParseTree.node cWsp.name p2 p3 [tc]] ++ ta) ++ [te]) ++ tv)))) := by
    intro tl g1 g2
    have k1 := item_blank (TimesTrees.succ _ _ _ _ _ _ _ hwe a1) e1
    exact whole h (k := k + ((m + 1) + 1)) (by omega) (times_append u1 (.succ _ _ _ _ _ _ _ g1 (.succ _ _ _ _ _ _ _ k1 v1)))
      (good_append u2 (good_append g2 (good_append (good_append (good_append hwg a2) e2) v2)))
  rcases item_iff.mp hl with hl | ⟨x, y, i, rfl, hx, hy⟩
  · obtain ⟨r1, r2, r3, r4, r5, i, rfl, d1, d2, d3, d4, d5⟩ := (rule_parts h).mp hl
    obtain ⟨j1, k1⟩ := (at_append _ _ _ _ _).mp h8
    obtain ⟨j2, k2⟩ := (at_append _ _ _ _ _).mp k1
    obtain ⟨j3, k3⟩ := (at_append _ _ _ _ _).mp k2
    obtain ⟨j4, k4⟩ := (at_append _ _ _ _ _).mp j3
    obtain ⟨tl, l1, l2⟩ := ref_tree h (by decide) hl h8
    obtain ⟨t1, f1, g1⟩ := ref_tree h (by decide) d1 j1
    obtain ⟨t2, f2, g2⟩ := ref_tree h (by decide) d2 j2
    obtain ⟨t3, f3, g3⟩ := ref_tree h (by decide) d3 j4
    obtain ⟨t4, f4, g4⟩ := refs_tree h (by decide) d4 k4
    obtain ⟨t5, f5, g5⟩ := ref_tree h (by decide) d5 k3
    obtain ⟨f6, g6⟩ := hj f5 g5
    -- the second tree
    have q1 := rep_times (times_append f4 (.succ _ _ _ _ _ _ _ f6 a1))
    have q2 := ConcatTrees.cons _ [] _ [] _ _ _ q1 (.nil _)
    have q3 := ConcatTrees.cons _ _ _ _ _ _ _ (rep_single f3) q2
    have q4 : AltTrees inp elements.alt _ _ _ := .mk _ _ _ _ _ (List.mem_singleton_self _) q3
    obtain ⟨q6, q5⟩ := node_tree h.elements (by decide) q4
      (good_append g3 (good_append (good_append g4 (good_append g6 a2)) good_nil))
    have q7 := ConcatTrees.cons _ [] _ [] _ _ _ (rep_single e1) (.nil _)
    have q8 := ConcatTrees.cons _ _ _ _ _ _ _ (rep_single q6) q7
    have q9 := ConcatTrees.cons _ _ _ _ _ _ _ (rep_single f2) q8
    have q10 := ConcatTrees.cons _ _ _ _ _ _ _ (rep_single f1) q9
    have q11 : AltTrees inp rule.alt _ _ _ := .mk _ _ _ _ _ (List.mem_singleton_self _) q10
    obtain ⟨q13, q12⟩ := node_tree h.rule (by decide) q11 (good_append g1 (good_append g2 (good_append q5 (good_append e2 good_nil))))
    refine ⟨_, _, ?_, hfirst (item_rule l1) l2, whole h (k := k + (m + 1)) (by omega)
      (times_append u1 (.succ _ _ _ _ _ _ _ (item_rule q13) v1)) (good_append u2 (good_append q12 v2))⟩
    intro heq
    have := congrArg (fun t => match t with | ParseTree.node _ _ _ ch => ch.length) heq
    simp at this
    omega
  · obtain ⟨j1, j2⟩ := (at_append _ _ _ _ _).mp h8
    obtain ⟨tx, x1, x2⟩ := refs_tree h (by decide) hx j1
    obtain ⟨ty, y1, y2⟩ := ref_tree h (by decide) hy j2
    obtain ⟨f6, g6⟩ := hj y1 y2
    have q1 := item_blank (times_append x1 (.succ _ _ _ _ _ _ _ f6 a1)) e1
    refine ⟨_, _, ?_, hfirst (item_blank x1 y1) (good_append x2 y2),
      whole h (k := k + (m + 1)) (by omega) (times_append u1 (.succ _ _ _ _ _ _ _ q1 v1))
        (good_append u2 (good_append (good_append (good_append x2 (good_append g6 a2)) e2) v2))⟩
    intro heq
    have := congrArg (fun t => match t with | ParseTree.node _ _ _ ch => ch.length) heq
    simp at this

end

/-! ## The correction changes no verdict -/

/-- Rules from which only rules that are the same in `h` can be reached derive the same in `h`. -/
theorem carry {g h : Grammar} {A : List Rep} (hin : ∀ r ∈ A, ∀ p ∈ elemReps r.elem, p ∈ A)
    (href : ∀ r ∈ A, ∀ n, r.elem = .rulename n → ∀ q, Resolves g n q → Resolves h n q ∧ ∀ p ∈ altReps q.alt, p ∈ A)
    {a : Alt} {w : Bytes} (hd : DerivesAlt g a w) : (∀ p ∈ altReps a, p ∈ A) → DerivesAlt h a w := by
  refine DerivesAlt.rec
    (motive_1 := fun e w _ => (∃ r ∈ A, r.elem = e) → Derives h e w)
    (motive_2 := fun a w _ => (∀ p ∈ altReps a, p ∈ A) → DerivesAlt h a w)
    (motive_3 := fun c w _ => (∀ r ∈ c, r ∈ A) → DerivesConcat h c w)
    (motive_4 := fun r w _ => r ∈ A → DerivesRep h r w)
    (motive_5 := fun e n w _ => (∃ r ∈ A, r.elem = e) → DerivesTimes h e n w)
    ?_ ?_ ?_ ?_ ?_ ?_ ?_ ?_ ?_ ?_ ?_ hd
  · rintro n r w hres _ ih ⟨q, hq, he⟩
    obtain ⟨h1, h2⟩ := href q hq n he r hres
    exact .rule _ _ _ h1 (ih h2)
  · rintro a w _ ih ⟨q, hq, he⟩
    exact .group _ _ (ih fun p hp => hin q hq p (by rw [he]; exact hp))
  · rintro a _; exact .optNone _
  · rintro a w _ ih ⟨q, hq, he⟩
    exact .optSome _ _ (ih fun p hp => hin q hq p (by rw [he]; exact hp))
  · rintro e cs ht _; exact .term _ _ ht
  · intro a c w hc _ ih hall
    exact .mk _ _ _ hc (ih fun r hr => hall r (mem_altReps hc hr))
  · intro _; exact .nil
  · intro r c u v _ _ ih1 ih2 hall
    exact .cons _ _ _ _ (ih1 (hall r (by simp))) (ih2 fun r hr => hall r (List.mem_cons_of_mem _ hr))
  · intro mn mx e n w h1 h2 _ ih hr
    exact .mk _ _ _ n _ h1 h2 (ih ⟨_, hr, rfl⟩)
  · intro e _; exact .zero _
  · intro e n u v _ _ ih1 ih2 hocc
    exact .succ _ _ _ _ (ih1 hocc) (ih2 hocc)

/-- The repetitions in the rules that are kept, and a reference to `defined-as`. -/
def pool : List Rep := one (ref (str% "defined-as")) :: rulesReps (kept ++ Core.rules)

/-- The references of the rules that are kept lead to rules that are kept or core rules, in both grammars. -/
def sharedB : Bool := (pool).all fun r => match r.elem with
  | .rulename n => getRule n before.rules == getRule n Abnf.grammar.rules &&
      (kept ++ Core.rules).any fun q => getRule n before.rules == some q
  | _ => true

theorem shared {n : Str} {r : Rep} (hr : r ∈ pool) (he : r.elem = .rulename n) :
    getRule n before.rules = getRule n Abnf.grammar.rules ∧ ∃ q ∈ kept ++ Core.rules, getRule n before.rules = some q := by
  have hs : sharedB = true := by decide +kernel
  have := List.all_eq_true.mp hs r hr
  rw [he] at this
  simp only [Bool.and_eq_true, beq_iff_eq, List.any_eq_true] at this
  exact this

theorem in_kept {q : Rule} (hq : q ∈ kept ++ Core.rules) : ∀ p ∈ altReps q.alt, p ∈ pool :=
  fun _ hp => List.mem_cons_of_mem _ (List.mem_flatMap.mpr ⟨q, hq, hp⟩)

theorem kept_closed : ∀ r ∈ pool, ∀ p ∈ elemReps r.elem, p ∈ pool := by
  intro r hr p hp
  rcases List.mem_cons.mp hr with rfl | hr
  · simp [elemReps] at hp
  · obtain ⟨q, hq, hr⟩ := List.mem_flatMap.mp hr
    exact List.mem_cons_of_mem _ (List.mem_flatMap.mpr ⟨q, hq, altReps_closed _ r hr p hp⟩)

/-- The rules that are kept derive the same before and after. -/
theorem kept_same {n : Str} {r : Rep} (hr : r ∈ pool) (he : r.elem = .rulename n) {w : Bytes} :
    Derives before (.rulename n) w ↔ Derives Abnf.grammar (.rulename n) w := by
  constructor
  · intro h
    obtain ⟨q, hq, ha⟩ := derives_rulename.mp h
    have step : ∀ r ∈ pool, ∀ n, r.elem = .rulename n → ∀ q, Resolves before n q →
        Resolves Abnf.grammar n q ∧ ∀ p ∈ altReps q.alt, p ∈ pool := by
      intro r hr n he q hq
      obtain ⟨h1, q', h2, h3⟩ := shared hr he
      have hq' := (getRule_iff before_raw.distinct).mpr hq
      rw [h3] at hq'
      cases hq'
      exact ⟨(getRule_iff Abnf.namesDistinct).mp (h1 ▸ h3), in_kept h2⟩
    obtain ⟨h1, h2⟩ := step r hr n he q hq
    exact derives_rulename.mpr ⟨q, h1, carry kept_closed step ha h2⟩
  · intro h
    obtain ⟨q, hq, ha⟩ := derives_rulename.mp h
    have step : ∀ r ∈ pool, ∀ n, r.elem = .rulename n → ∀ q, Resolves Abnf.grammar n q →
        Resolves before n q ∧ ∀ p ∈ altReps q.alt, p ∈ pool := by
      intro r hr n he q hq
      obtain ⟨h1, q', h2, h3⟩ := shared hr he
      have hq' := (getRule_iff Abnf.namesDistinct).mpr hq
      rw [← h1, h3] at hq'
      cases hq'
      exact ⟨(getRule_iff before_raw.distinct).mp h3, in_kept h2⟩
    obtain ⟨h1, h2⟩ := step r hr n he q hq
    exact derives_rulename.mpr ⟨q, h1, carry kept_closed step ha h2⟩

/-- A name one of the kept rules refers to. -/
def referred (n : Str) : Bool := (pool).any fun r => r.elem == .rulename n

theorem same_of {n : Str} (h : referred n = true) {w : Bytes} : Derives before (.rulename n) w ↔ Derives Abnf.grammar (.rulename n) w := by
  obtain ⟨r, hr, he⟩ := List.any_eq_true.mp h
  exact kept_same hr (beq_iff_eq.mp he)

theorem same_times {n : Str} (h : referred n = true) : ∀ {k : Nat} {w : Bytes},
    DerivesTimes before (.rulename n) k w ↔ DerivesTimes Abnf.grammar (.rulename n) k w
  | 0, w => by
    constructor <;> (intro h; generalize hk : 0 = k at h; cases h with
      | zero => exact .zero _
      | succ => cases hk)
  | k + 1, w => by
    constructor <;> (intro h'; cases h' with
      | succ _ _ u v h1 h2 => first | exact .succ _ _ _ _ ((same_of h).mp h1) ((same_times h).mp h2) | exact .succ _ _ _ _ ((same_of h).mpr h1) ((same_times h).mpr h2))

/-- An item of a `rulelist` after the errata (/repo/rules.go:518-579). -/
abbrev line : Elem := .group [[one (ref (str% "rule"))], [one (.group [[many (ref (str% "WSP")), one (ref (str% "c-nl"))]])]]

/-- Blank lines and comments after the errata. -/
def Empty (g : Grammar) (w : Bytes) : Prop :=
  ∃ a b n, w = a ++ b ∧ DerivesTimes g (ref (str% "WSP")) n a ∧ Derives g (ref (str% "c-nl")) b

theorem line_iff {w : Bytes} : Derives Abnf.grammar line w ↔ Derives Abnf.grammar (ref (str% "rule")) w ∨ Empty Abnf.grammar w := by
  rw [derives_group, derivesAlt_cons, derivesAlt_cons]
  simp only [derivesAlt_nil, or_false, derivesConcat_one, derivesRep_one]
  refine or_congr Iff.rfl ?_
  rw [derives_group, derivesAlt_cons, derivesConcat_cons]
  simp only [derivesAlt_nil, or_false, derivesConcat_one, derivesRep_one, many_iff]
  constructor
  · rintro ⟨a, b, rfl, ⟨n, h1⟩, h2⟩; exact ⟨a, b, n, rfl, h1, h2⟩
  · rintro ⟨a, b, n, rfl, h1, h2⟩; exact ⟨a, b, rfl, ⟨n, h1⟩, h2⟩

theorem lines_iff {w : Bytes} : DerivesRule Abnf.grammar (str% "rulelist") w ↔ ∃ n, 1 ≤ n ∧ DerivesTimes Abnf.grammar line n w := by
  refine (rule_iff (r := Abnf.rulelist) Abnf.namesDistinct (by simp [Abnf.grammar])).trans ?_
  simp only [Abnf.rulelist, derivesAlt_cons, derivesAlt_nil, or_false, derivesConcat_one, some_iff]

theorem line_parts {w : Bytes} : Derives Abnf.grammar (ref (str% "rule")) w ↔ ∃ a b c d e n, w = a ++ (b ++ ((c ++ d) ++ e)) ∧
    Derives Abnf.grammar (ref (str% "rulename")) a ∧ Derives Abnf.grammar (ref (str% "defined-as")) b ∧
    Derives Abnf.grammar (ref (str% "alternation")) c ∧
    DerivesTimes Abnf.grammar (ref (str% "WSP")) n d ∧ Derives Abnf.grammar (ref (str% "c-nl")) e := by
  refine (rule_iff (r := rule) Abnf.namesDistinct (by simp [Abnf.grammar])).trans ?_
  have he : ∀ v, Derives Abnf.grammar (ref (str% "elements")) v ↔ ∃ c d n, v = c ++ d ∧ Derives Abnf.grammar (ref (str% "alternation")) c ∧
      DerivesTimes Abnf.grammar (ref (str% "WSP")) n d := by
    intro v
    refine (rule_iff (r := Abnf.elements) Abnf.namesDistinct (by simp [Abnf.grammar])).trans ?_
    simp only [Abnf.elements, derivesAlt_cons, derivesAlt_nil, or_false, derivesConcat_cons (r := one _), derivesConcat_one, derivesRep_one, many_iff]
    constructor
    · rintro ⟨c, d, rfl, h1, n, h2⟩; exact ⟨c, d, n, rfl, h1, h2⟩
    · rintro ⟨c, d, n, rfl, h1, h2⟩; exact ⟨c, d, rfl, h1, n, h2⟩
  simp only [rule, derivesAlt_cons, derivesAlt_nil, or_false, derivesConcat_cons, derivesConcat_nil, derivesRep_one, he]
  constructor
  · rintro ⟨a, _, rfl, h1, b, _, rfl, h2, _, _, rfl, ⟨c, d, n, rfl, h3, h4⟩, e, _, rfl, h5, rfl⟩
    exact ⟨a, b, c, d, e, n, by simp, h1, h2, h3, h4, h5⟩
  · rintro ⟨a, b, c, d, e, n, rfl, h1, h2, h3, h4, h5⟩
    exact ⟨a, _, rfl, h1, b, _, rfl, h2, _, _, rfl, ⟨c, d, n, rfl, h3, h4⟩, e, [], by simp, h5, rfl⟩

/-- `c-wsp = WSP / (c-nl WSP)`. -/
theorem cwsp_iff {g : Grammar} (hd : NamesDistinct g) (hc : cWsp ∈ g.rules) {w : Bytes} : Derives g (ref (str% "c-wsp")) w ↔
    Derives g (ref (str% "WSP")) w ∨ ∃ a b, w = a ++ b ∧ Derives g (ref (str% "c-nl")) a ∧ Derives g (ref (str% "WSP")) b := by
  refine (rule_iff hd hc).trans ?_
  simp only [cWsp, derivesAlt_cons, derivesAlt_nil, or_false, derivesConcat_one, derivesRep_one, derives_group,
    derivesConcat_cons (r := one (ref (str% "c-nl")))]

/-- Lines in a row. -/
theorem blank_lines : ∀ {n : Nat} {a b : Bytes}, DerivesTimes Abnf.grammar (ref (str% "c-wsp")) n a →
    Derives Abnf.grammar (ref (str% "c-nl")) b → ∃ u v m, a ++ b = u ++ v ∧ Empty Abnf.grammar u ∧ DerivesTimes Abnf.grammar line m v
  | 0, a, b, ha, hb => by
    generalize hk : 0 = k at ha
    cases ha with
    | zero => exact ⟨b, [], 0, by simp, ⟨[], b, 0, rfl, .zero _, hb⟩, .zero _⟩
    | succ => cases hk
  | n + 1, a, b, ha, hb => by
    cases ha with
    | succ _ _ x y hx hy =>
      obtain ⟨u, v, m, huv, ⟨p, q, k, rfl, hp, hq⟩, hv⟩ := blank_lines hy hb
      rcases (cwsp_iff Abnf.namesDistinct (by simp [Abnf.grammar])).mp hx with hx | ⟨c, d, rfl, hc, hd⟩
      · exact ⟨x ++ (p ++ q), v, m, by rw [List.append_assoc, huv]; simp, ⟨x ++ p, q, k + 1, by simp, .succ _ _ _ _ hx hp, hq⟩, hv⟩
      · refine ⟨c, (d ++ (p ++ q)) ++ v, m + 1, by rw [List.append_assoc, huv]; simp, ⟨[], c, 0, rfl, .zero _, hc⟩, .succ _ _ _ _ ?_ hv⟩
        exact line_iff.mpr (.inr ⟨d ++ p, q, k + 1, by simp, .succ _ _ _ _ hd hp, hq⟩)

theorem times_add {g : Grammar} {e : Elem} : ∀ {m : Nat} {u : Bytes}, DerivesTimes g e m u → ∀ {n : Nat} {v : Bytes}, DerivesTimes g e n v →
    DerivesTimes g e (m + n) (u ++ v)
  | 0, u, hu, n, v, hv => by
    generalize hk : 0 = k at hu
    cases hu with
    | zero => rw [Nat.zero_add]; exact hv
    | succ => cases hk
  | m + 1, u, hu, n, v, hv => by
    cases hu with
    | succ _ _ x y h1 h2 =>
      rw [Nat.add_right_comm, List.append_assoc]
      exact .succ _ _ _ _ h1 (times_add h2 hv)

/-- An item before the errata is some lines after them. -/
theorem item_lines {w : Bytes} (h : Derives before item w) : ∃ n, 1 ≤ n ∧ DerivesTimes Abnf.grammar line n w := by
  rcases item_iff.mp h with h | ⟨a, b, n, rfl, ha, hb⟩
  · obtain ⟨a, b, c, d, e, n, rfl, h1, h2, h3, h4, h5⟩ := (rule_parts before_raw).mp h
    obtain ⟨u, v, m, huv, ⟨p, q, k, rfl, hp, hq⟩, hv⟩ := blank_lines ((same_times (by decide +kernel)).mp h4) ((same_of (by decide +kernel)).mp h5)
    have := DerivesTimes.succ line m _ v (line_iff.mpr (.inl (line_parts.mpr ⟨a, b, c, p, q, k, rfl,
      ((same_of (by decide +kernel)).mp h1), ((same_of (by decide +kernel)).mp h2), ((same_of (by decide +kernel)).mp h3), hp, hq⟩))) hv
    refine ⟨m + 1, by omega, ?_⟩
    have he : a ++ (b ++ (c ++ d ++ e)) = a ++ (b ++ (c ++ p ++ q)) ++ v := by
      simp only [List.append_assoc] at huv ⊢
      rw [huv]
    rw [he]
    exact this
  · obtain ⟨u, v, m, huv, he, hv⟩ := blank_lines ((same_times (by decide +kernel)).mp ha) ((same_of (by decide +kernel)).mp hb)
    exact ⟨m + 1, by omega, huv ▸ .succ _ _ _ _ (line_iff.mpr (.inr he)) hv⟩

theorem items_lines : ∀ {k : Nat} {w : Bytes}, DerivesTimes before item k w → ∃ n, k ≤ n ∧ DerivesTimes Abnf.grammar line n w
  | 0, w, h => by
    generalize hk : 0 = k at h
    cases h with
    | zero => exact ⟨0, Nat.le_refl _, .zero _⟩
    | succ => cases hk
  | k + 1, w, h => by
    cases h with
    | succ _ _ u v h1 h2 =>
      obtain ⟨m, hm, h3⟩ := item_lines h1
      obtain ⟨n, hn, h4⟩ := items_lines h2
      exact ⟨m + n, by omega, times_add h3 h4⟩

theorem wsps {k : Nat} : ∀ {w : Bytes}, DerivesTimes Abnf.grammar (ref (str% "WSP")) k w → DerivesTimes before (ref (str% "c-wsp")) k w := by
  induction k with
  | zero =>
    intro w h
    generalize hk : 0 = k at h
    cases h with
    | zero => exact .zero _
    | succ => cases hk
  | succ k ih =>
    intro w h
    cases h with
    | succ _ _ u v h1 h2 =>
      exact .succ _ _ _ _ ((cwsp_iff before_raw.distinct before_raw.cWsp).mpr (.inl ((same_of (by decide +kernel)).mpr h1))) (ih h2)

/-- A line after the errata is an item before them. -/
theorem line_item {w : Bytes} (h : Derives Abnf.grammar line w) : Derives before item w := by
  rcases line_iff.mp h with h | ⟨a, b, n, rfl, ha, hb⟩
  · obtain ⟨a, b, c, d, e, n, rfl, h1, h2, h3, h4, h5⟩ := line_parts.mp h
    exact item_iff.mpr (.inl ((rule_parts before_raw).mpr ⟨a, b, c, d, e, n, rfl, (same_of (by decide +kernel)).mpr h1,
      (same_of (by decide +kernel)).mpr h2, (same_of (by decide +kernel)).mpr h3, wsps h4, (same_of (by decide +kernel)).mpr h5⟩))
  · exact item_iff.mpr (.inr ⟨a, b, n, rfl, wsps ha, (same_of (by decide +kernel)).mpr hb⟩)

theorem lines_items {k : Nat} : ∀ {w : Bytes}, DerivesTimes Abnf.grammar line k w → DerivesTimes before item k w := by
  induction k with
  | zero =>
    intro w h
    generalize hk : 0 = k at h
    cases h with
    | zero => exact .zero _
    | succ => cases hk
  | succ k ih =>
    intro w h
    cases h with
    | succ _ _ u v h1 h2 => exact .succ _ _ _ _ (line_item h1) (ih h2)

end Errata

namespace Props
open Errata

/-- C114.  The errata change no verdict: `rulelist` derives the same texts without them. -/
theorem C114_same (w : Bytes) : DerivesRule before (str% "rulelist") w ↔ DerivesRule Abnf.grammar (str% "rulelist") w := by
  rw [list_iff before_raw, lines_iff]
  constructor
  · rintro ⟨k, hk, h⟩
    obtain ⟨n, hn, h⟩ := items_lines h
    exact ⟨n, by omega, h⟩
  · rintro ⟨k, hk, h⟩
    exact ⟨k, hk, lines_items h⟩

theorem keeps_of {g : Grammar} (h : (g.rules.all fun u => Core.rules.all fun r => canon u.name != canon r.name) = true) : KeepsCore g := by
  intro u hu r hr hn
  have := List.all_eq_true.mp (List.all_eq_true.mp h u hu) r hr
  rw [(sameName_iff _ _).mp hn] at this
  simp at this

theorem raw_keeps {g : Grammar} (hg : g = before ∨ g = rfc5234) : KeepsCore g := by
  rcases hg with rfl | rfl
  · exact keeps_of (by decide +kernel)
  · exact keeps_of (by decide +kernel)

theorem raw_of {g : Grammar} (hg : g = before ∨ g = rfc5234) : Raw g := by
  rcases hg with rfl | rfl
  · exact before_raw
  · exact rfc5234_raw

/-- What is ambiguous before the errata: a text of rules, followed by a line that begins with white space and has nothing
else than a comment, possibly followed by more of the same kind, and possibly by more rules. -/
def Continued (g : Grammar) (w : Bytes) : Prop := ∃ u c b v, w = u ++ (c ++ (b ++ v)) ∧ DerivesRule g (str% "rulelist") u ∧
  (c = [0x20] ∨ c = [0x09]) ∧ Derives g (.group [[Abnf.many (.rulename (str% "c-wsp")), Abnf.one (.rulename (str% "c-nl"))]]) b ∧
  (v = [] ∨ DerivesRule g (str% "rulelist") v)

theorem continued_trees {g : Grammar} (hg : g = before ∨ g = rfc5234) {w : Bytes} (h : Continued g w) :
    ∃ t t', t ≠ t' ∧ WholeTree g (str% "rulelist") w t ∧ WholeTree g (str% "rulelist") w t' := by
  obtain ⟨u, c, b, v, rfl, hu, hc, hb, hv⟩ := h
  obtain ⟨n, hn, hu⟩ := (list_iff (raw_of hg)).mp hu
  obtain ⟨n, rfl⟩ := Nat.exists_eq_add_of_le' hn
  have hv : ∃ m, DerivesTimes g item m v := by
    rcases hv with rfl | hv
    · exact ⟨0, .zero _⟩
    · obtain ⟨m, _, h⟩ := (list_iff (raw_of hg)).mp hv
      exact ⟨m, h⟩
  obtain ⟨m, hv⟩ := hv
  exact Errata.two_trees (raw_of hg) hu ((core_WSP (raw_keeps hg)).mpr hc) (blank_iff.mp hb) hv rfl

/-- C114.  Without the errata `ParseForest` reports such texts to be ambiguous. -/
theorem C114_ambiguous (g : Grammar) (hg : g = before ∨ g = rfc5234) (w : Bytes) (hw : Continued g w)
    (sched : Sched NodeKey) (hf : sched.Fair) (N M : Nat) (f : Forest) (h : parseForest sched w g (str% "rulelist") N M = .ok f) :
    f.valid = true ∧ f.ambiguous = some true := by
  have hr := raw_of hg
  obtain ⟨t, t', hne, h1, h2⟩ := continued_trees hg hw
  obtain ⟨n, hn, hge⟩ := C105_all g hr.wf hr.distinct hr.print hr.named sched hf w _ N M f h [t, t'] (by simp [hne])
    (by intro d hd; rcases List.mem_cons.mp hd with rfl | hd; exacts [h1, List.mem_singleton.mp hd ▸ h2])
  obtain ⟨n', b, k1, k2, k3, k4, _⟩ := C40_consistent g sched hf w _ N M f h
  rw [hn] at k1
  cases k1
  have hv : f.valid = true := k3.mpr (by rcases hge with rfl | hge; · decide
                                         · simp at hge; omega)
  refine ⟨hv, ?_⟩
  cases b with
  | true => exact k2
  | false =>
    have := (k4 hv).mp rfl
    subst this
    simp at hge

/-- The compilation of both grammars succeeds. -/
theorem raw_compiles {g : Grammar} (hg : g = before ∨ g = rfc5234) : ∃ sg, compileSlots g (str% "rulelist") 65536 = .ok sg := by
  have h : (match compileSlots g (str% "rulelist") 65536 with | .ok _ => true | .error _ => false) = true := by
    rcases hg with rfl | rfl
    · decide +kernel
    · decide +kernel
  cases hc : compileSlots g (str% "rulelist") 65536 with
  | ok sg => exact ⟨sg, rfl⟩
  | error e => rw [hc] at h; cases h

/-- C114.  So do `ParseBSR` and the parser that is emitted. -/
theorem C114_emitted (g : Grammar) (hg : g = before ∨ g = rfc5234) (w : Bytes) (hw : Continued g w)
    (sched : Sched Nat) (hf : sched.Fair) : ∃ p f r F, Cg.generate g (str% "rulelist") = .ok p ∧
      parseBSR sched w g (str% "rulelist") 0 65536 = .ok f ∧ f.ambiguous = some true ∧
      (∀ fuel, F ≤ fuel → Cg.parse p 0 sched fuel w = .result r) ∧ r.ambiguous p = some true := by
  have hp : ∃ p, Cg.generate g (str% "rulelist") = .ok p := by
    obtain ⟨sg, h⟩ := raw_compiles hg
    exact ⟨_, by unfold Cg.generate; rw [show Cg.defaultMaxSlots = 65536 from rfl, h]⟩
  obtain ⟨p, hp⟩ := hp
  obtain ⟨r, f, h1, h2, F, h3⟩ := C45_unbounded_partial g _ p hp sched hf w
  obtain ⟨fs, hfs⟩ := forest_for hf h1
  obtain ⟨_, _, b, b', _, _, k1, k2, _, _, k3⟩ := C41_agree_partial g fwd sched fwd_fair hf w _ 0 0 _ _ fs f hfs h1 f rfl rfl (.refl _)
  have := (C114_ambiguous g hg w hw fwd fwd_fair _ _ fs hfs).2
  rw [k1] at this
  cases this
  cases k3 rfl
  exact ⟨p, f, r, F, hp, h1, k2, h3, h2.ambiguous.trans k2⟩

theorem before_valid {w : Bytes} {sched : Sched NodeKey} (hf : sched.Fair) {N M : Nat} {f : Forest}
    (h : parseForest sched w before (str% "rulelist") N M = .ok f) {sched' : Sched NodeKey} (hf' : sched'.Fair) {N' M' : Nat}
    {f' : Forest} (h' : parseForest sched' w Abnf.grammar (str% "rulelist") N' M' = .ok f') : f.valid = true ↔ f'.valid = true := by
  rw [C01_exact before before_raw.wf before_raw.distinct before_raw.print sched hf w _ N M f h,
    C01_exact Abnf.grammar Abnf.numValsWF Abnf.namesDistinct Abnf.distinctPrint sched' hf' w _ N' M' f' h']
  exact C114_same w

/-- C114.  With the errata the same texts are recognised, and none is ambiguous. -/
theorem C114_errata (w : Bytes) (sched sched' : Sched NodeKey) (hf : sched.Fair) (hf' : sched'.Fair) (N M N' M' : Nat)
    (f f' : Forest) (h : parseForest sched w before (str% "rulelist") N M = .ok f)
    (h' : parseForest sched' w Abnf.grammar (str% "rulelist") N' M' = .ok f') :
    (f.valid = true ↔ f'.valid = true) ∧ f'.ambiguous = some false ∧ (f'.valid = true → f'.numTrees = some 1) ∧
      (Continued before w → f'.valid = true ∧ f.ambiguous = some true) := by
  have hk := C76_sppf sched' hf' w _ N' M' f' h'
  have hv := before_valid hf h hf' h'
  refine ⟨hv, hk.1, fun hv => (hk.2 hv).1, fun hc => ?_⟩
  obtain ⟨h1, h2⟩ := C114_ambiguous before (.inl rfl) w hc sched hf N M f h
  exact ⟨hv.mp h1, h2⟩

/-- `a=b` and the end of a line. -/
theorem one_rule {g : Grammar} (hg : g = before ∨ g = rfc5234) : DerivesRule g (str% "rulelist") (utf8 (str% "a=b\r\n")) := by
  have h : validOf (parseForest fwd (utf8 (str% "a=b\r\n")) g (str% "rulelist") 0 65536) = some true := by
    rcases hg with rfl | rfl
    · decide +kernel
    · decide +kernel
  cases hp : parseForest fwd (utf8 (str% "a=b\r\n")) g (str% "rulelist") 0 65536 with
  | ok f =>
    rw [hp] at h
    have hr := raw_of hg
    exact (C01_exact g hr.wf hr.distinct hr.print fwd fwd_fair _ _ _ _ f hp).mp (Option.some.inj h)
  | error e => rw [hp] at h; cases h

/-- The hypotheses of the C114 theorems for a rule and a line with one space. -/
example (g : Grammar) (hg : g = before ∨ g = rfc5234) : Continued g (utf8 (str% "a=b\r\n \r\n")) := by
  refine ⟨utf8 (str% "a=b\r\n"), [0x20], utf8 (str% "\r\n"), [], by decide, one_rule hg, .inl rfl, blank_iff.mpr ?_, .inl rfl⟩
  have hc : Abnf.cNl ∈ g.rules := by
    rcases hg with rfl | rfl
    · simp [before, kept]
    · simp [rfc5234]
  refine ⟨[], _, 0, rfl, .zero _, (rule_iff (raw_of hg).distinct hc).mpr ?_⟩
  simp only [Abnf.cNl, derivesAlt_cons, derivesConcat_one, derivesRep_one]
  exact .inr (.inl ((core_CRLF (raw_keeps hg)).mpr (by decide)))

end Props
end Verif
