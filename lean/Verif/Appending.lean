import Verif.EndToEnd

/-!
# C129: appending source texts

`ParseABNF` (/repo/grammar.go:77-106) on two source texts written one after the other.
-/

namespace Verif.Props
open Spec Text Eval Cli

/-! ## Reading -/

theorem readsLines_append {cv : Conv} {s t : Str} {ds es : List Def} (h : ReadsLines cv s ds) (h' : ReadsLines cv t es) :
    ReadsLines cv (s ++ t) (ds ++ es) := by
  induction h with
  | nil => exact h'
  | rule s d u ds h1 _ ih => rw [List.append_assoc, List.cons_append]; exact .rule s d _ _ h1 ih
  | blank ws nl u ds h1 h2 _ ih => rw [List.append_assoc, List.append_assoc]; exact .blank ws nl _ _ h1 h2 ih

theorem readsRule_crlf {cv : Conv} {s : Str} {d : Def} (h : ReadsRule cv s d) : ∃ t, s = t ++ ['\r', '\n'] := by
  cases h with
  | define n g₁ g₂ s a ws nl _ _ _ _ _ h =>
    obtain ⟨t, rfl⟩ := lineEnd_crlf h
    exact ⟨n ++ (g₁ ++ '=' :: (g₂ ++ (s ++ (ws ++ t)))), by simp⟩
  | extend n g₁ g₂ s a ws nl _ _ _ _ _ h =>
    obtain ⟨t, rfl⟩ := lineEnd_crlf h
    exact ⟨n ++ (g₁ ++ '=' :: '/' :: (g₂ ++ (s ++ (ws ++ t)))), by simp⟩

/-- A source text ends with the end of a line. -/
theorem readsLines_crlf {cv : Conv} {s : Str} {ds : List Def} (h : ReadsLines cv s ds) : s = [] ∨ ∃ t, s = t ++ ['\r', '\n'] := by
  induction h with
  | nil => exact .inl rfl
  | rule s d u ds h1 _ ih =>
    obtain ⟨t, ht⟩ := readsRule_crlf h1
    rcases ih with rfl | ⟨v, rfl⟩
    · exact .inr ⟨t, by simpa using ht⟩
    · exact .inr ⟨s ++ v, by simp⟩
  | blank ws nl u ds h1 h2 _ ih =>
    obtain ⟨t, ht⟩ := lineEnd_crlf h2
    rcases ih with rfl | ⟨v, rfl⟩
    · exact .inr ⟨ws ++ t, by simp [ht]⟩
    · exact .inr ⟨ws ++ (nl ++ v), by simp⟩

/-- After a semicolon in a text that ends a line comes a carriage return. -/
theorem cr_after {s a x : Str} (h : s ++ ['\r', '\n'] = a ++ ';' :: x) : '\r' ∈ x := by
  rcases List.append_eq_append_iff.mp h with ⟨z, _, h2⟩ | ⟨z, _, h2⟩
  · match z, h2 with
    | [], h2 => simp at h2
    | [p], h2 => simp at h2
    | p :: q :: z, h2 => simp at h2
  · match z, h2 with
    | [], h2 => simp at h2
    | p :: z, h2 =>
      simp only [List.cons_append, List.cons.injEq] at h2
      rw [h2.2]
      simp

theorem quiet_append {s t : Str} (hs : Quiet (s ++ ['\r', '\n'])) (ht : Quiet t) : Quiet (s ++ ['\r', '\n'] ++ t) := by
  intro a c b h
  rcases List.append_eq_append_iff.mp h with ⟨x, _, h2⟩ | ⟨x, h1, h2⟩
  · exact ht x c b h2
  · cases x with
    | nil => exact ht [] c b (by simpa using h2.symm)
    | cons y x =>
      simp only [List.cons_append, List.cons.injEq] at h2
      obtain ⟨rfl, h2⟩ := h2
      rcases List.append_eq_append_iff.mp h2 with ⟨z, h3, h4⟩ | ⟨z, h3, h4⟩
      · subst h3
        have hm := cr_after h1
        rcases List.mem_append.mp hm with hm | hm
        · exact hm
        · match z, h4, hm, h1 with
          | [p], h4, hm, _ =>
            simp only [List.cons_append, List.nil_append, List.cons.injEq] at h4
            simp [← h4.1] at hm
          | p :: q :: z, h4, _, h1 =>
            simp only [List.cons_append, List.cons.injEq] at h4
            obtain ⟨rfl, rfl, _⟩ := h4
            exact hs a c z h1
      · subst h3
        exact List.mem_append_left _ (cr_after h1)

theorem says_append {src src' : Bytes} {ds ds' : List Def} (h : Says src ds) (h' : Says src' ds') :
    Says (src ++ src') (ds ++ ds') := by
  obtain ⟨⟨s, rfl, ⟨h1, h2⟩, h3⟩, h4⟩ := h
  obtain ⟨⟨t, rfl, ⟨_, h6⟩, h7⟩, h8⟩ := h'
  refine ⟨⟨s ++ t, (utf8_append s t).symm, ⟨by simp [h1], readsLines_append h2 h6⟩, ?_⟩, ?_⟩
  · rcases readsLines_crlf h2 with rfl | ⟨u, rfl⟩
    · exact absurd rfl h1
    · exact quiet_append h3 h7
  · intro d hd
    rcases List.mem_append.mp hd with hd | hd
    · exact h4 d hd
    · exact h8 d hd

/-! ## Rules -/

theorem resolves_sub {x y : List Rule} {n : Str} {r : Rule} (hs : x ⊆ y) (hc : ∀ u ∈ y, ¬ IsCoreName u.name)
    (h : Resolves ⟨x⟩ n r) : Resolves ⟨y⟩ n r := by
  cases h with
  | user h1 h2 => exact .user (hs h1) h2
  | core h1 h2 _ =>
    refine .core h1 h2 fun u hu hn => hc u hu ⟨r, h1, ?_⟩
    rw [sameName_iff] at h2 hn ⊢
    exact hn.symm.trans h2

theorem rulesOf_core {ds : List Def} (h : Ordered ds) : ∀ u ∈ rulesOf ds, ¬ IsCoreName u.name := by
  intro u hu
  unfold rulesOf at hu
  obtain ⟨d, hd, rfl⟩ := List.mem_map.mp hu
  exact h.1 d (List.mem_filter.mp hd).1

theorem ordered_append {ds ds' : List Def} (h : Ordered ds) (h' : Ordered ds')
    (hn : ∀ d ∈ ds, ∀ e ∈ ds', ¬ SameName d.name e.name) : Ordered (ds ++ ds') := by
  refine ⟨fun d hd => (List.mem_append.mp hd).elim (h.1 d) (h'.1 d), fun i d hi => ?_⟩
  by_cases hl : i < ds.length
  · rw [List.getElem?_append_left hl] at hi
    rw [List.take_append_of_le_length (by omega)]
    exact h.2 i d hi
  · have hl := Nat.le_of_not_lt hl
    rw [List.getElem?_append_right hl] at hi
    obtain ⟨h1, h2⟩ := h'.2 _ d hi
    rw [List.take_append, List.take_of_length_le hl]
    refine ⟨fun he e hm hs => ?_, fun he => ?_⟩
    · rcases List.mem_append.mp hm with hm | hm
      · refine hn e hm d (List.mem_of_getElem? hi) ?_
        rw [sameName_iff] at hs ⊢
        exact hs.symm
      · exact h1 he e hm hs
    · obtain ⟨e, hm, hs⟩ := h2 he
      exact ⟨e, List.mem_append_right _ hm, hs⟩

open scoped Classical in
theorem rulesOf_append {ds ds' : List Def} (hn : ∀ d ∈ ds, ∀ e ∈ ds', ¬ SameName d.name e.name) :
    rulesOf (ds ++ ds') = rulesOf ds ++ rulesOf ds' := by
  unfold rulesOf
  rw [List.filter_append, List.map_append]
  congr 1
  · refine List.map_congr_left fun d hd => ?_
    have hd := (List.mem_filter.mp hd).1
    have h0 : (ds'.filter fun e => decide (SameName d.name e.name)) = [] :=
      List.filter_eq_nil_iff.mpr fun e he => by simpa using hn d hd e he
    rw [List.filter_append, h0, List.append_nil]
  · refine List.map_congr_left fun d hd => ?_
    have hd := (List.mem_filter.mp hd).1
    have h0 : (ds.filter fun e => decide (SameName d.name e.name)) = [] := by
      refine List.filter_eq_nil_iff.mpr fun e he hs => hn e he d hd ?_
      have hs := of_decide_eq_true hs
      rw [sameName_iff] at hs ⊢
      exact hs.symm
    rw [List.filter_append, h0, List.nil_append]

theorem sound_append {ds ds' : List Def} (ho : Ordered (ds ++ ds')) (hn : ∀ d ∈ ds, ∀ e ∈ ds', ¬ SameName d.name e.name)
    (h : Sound ⟨rulesOf ds⟩) (h' : Sound ⟨rulesOf ds'⟩) : Sound ⟨rulesOf ds ++ rulesOf ds'⟩ := by
  have hc := rulesOf_core ho
  rw [rulesOf_append hn] at hc
  intro q hq
  unfold rulesReps at hq
  rw [List.flatMap_append] at hq
  rcases List.mem_append.mp hq with hq | hq
  · obtain ⟨h1, h2⟩ := h q hq
    exact ⟨fun n e => (h1 n e).imp fun _ hr => resolves_sub (List.subset_append_left _ _) hc hr, h2⟩
  · obtain ⟨h1, h2⟩ := h' q hq
    exact ⟨fun n e => (h1 n e).imp fun _ hr => resolves_sub (List.subset_append_right _ _) hc hr, h2⟩

/-- Every name of `g` has in `g'` a rule with at least the alternatives it has in `g`. -/
def Widens (g g' : Grammar) : Prop := ∀ n r, Resolves g n r → ∃ r', Resolves g' n r' ∧ r.alt ⊆ r'.alt

/-- A grammar that widens another derives all its texts. -/
theorem derives_widens {g g' : Grammar} (h : Widens g g') {e : Elem} {w : Bytes} (hd : Derives g e w) : Derives g' e w := by
  refine Derives.rec (g := g) (motive_1 := fun e w _ => Derives g' e w) (motive_2 := fun a w _ => DerivesAlt g' a w)
    (motive_3 := fun c w _ => DerivesConcat g' c w) (motive_4 := fun r w _ => DerivesRep g' r w)
    (motive_5 := fun e n w _ => DerivesTimes g' e n w) ?_ ?_ ?_ ?_ ?_ ?_ ?_ ?_ ?_ ?_ ?_ hd
  · intro n r w hr _ ih
    obtain ⟨r', hr', hs⟩ := h n r hr
    obtain ⟨_, c, _, hc, hw⟩ := ih
    exact .rule n r' w hr' (.mk _ c w (hs hc) hw)
  · intro a w _ ih; exact .group a w ih
  · intro a; exact .optNone a
  · intro a w _ ih; exact .optSome a w ih
  · intro e cs ht; exact .term e cs ht
  · intro a c w hc _ ih; exact .mk a c w hc ih
  · exact .nil
  · intro r c u v _ _ ih1 ih2; exact .cons r c u v ih1 ih2
  · intro mn mx e n w h1 h2 _ ih; exact .mk mn mx e n w h1 h2 ih
  · intro e; exact .zero e
  · intro e n u v _ _ ih1 ih2; exact .succ e n u v ih1 ih2

theorem widens_append {ds ds' : List Def} (ho : Ordered (ds ++ ds')) : Widens ⟨rulesOf ds⟩ ⟨rulesOf (ds ++ ds')⟩ := by
  intro n r hr
  cases hr with
  | user h1 h2 =>
    unfold rulesOf at h1
    obtain ⟨d, hd, rfl⟩ := List.mem_map.mp h1
    obtain ⟨hd, he⟩ := List.mem_filter.mp hd
    refine ⟨⟨d.name, _⟩, .user (List.mem_map.mpr ⟨d, List.mem_filter.mpr ⟨List.mem_append_left _ hd, he⟩, rfl⟩) h2, ?_⟩
    simp only [List.filter_append, List.flatMap_append]
    exact List.subset_append_left _ _
  | core h1 h2 h3 =>
    refine ⟨r, .core h1 h2 fun u hu hn => rulesOf_core ho u hu ⟨r, h1, ?_⟩, List.Subset.refl _⟩
    rw [sameName_iff] at h2 hn ⊢
    exact hn.symm.trans h2

/-! ## C129 -/

/-- C129, appended texts.  Two source texts written one after the other say what the first says and then what the second says:
`ParseABNF` returns exactly the rules of all the definitions. -/
theorem C129_concat (sched : Sched NodeKey) (hf : sched.Fair) (opts : List ABNFOption) (hrc : (processOptions opts).redefineCore = false)
    (src src' : Bytes) (ds ds' : List Def) (h : Says src ds) (h' : Says src' ds') (g : Grammar) :
    parseABNF sched (src ++ src') opts = .ok g ↔
      g = ⟨rulesOf (ds ++ ds')⟩ ∧ Ordered (ds ++ ds') ∧ ((processOptions opts).validate = true → Sound ⟨rulesOf (ds ++ ds')⟩) :=
  (says_append h h').parses sched hf opts hrc g

/-- C129, separate names.  If both texts parse and they name no rule in common, then the two together parse, to the rules of the
first followed by the rules of the second. -/
theorem C129_disjoint (sched : Sched NodeKey) (hf : sched.Fair) (opts : List ABNFOption) (hrc : (processOptions opts).redefineCore = false)
    (src src' : Bytes) (ds ds' : List Def) (h : Says src ds) (h' : Says src' ds')
    (hn : ∀ d ∈ ds, ∀ e ∈ ds', ¬ SameName d.name e.name) (g g' : Grammar)
    (hg : parseABNF sched src opts = .ok g) (hg' : parseABNF sched src' opts = .ok g') :
    parseABNF sched (src ++ src') opts = .ok ⟨g.rules ++ g'.rules⟩ := by
  obtain ⟨rfl, h1, h2⟩ := (h.parses sched hf opts hrc g).mp hg
  obtain ⟨rfl, h3, h4⟩ := (h'.parses sched hf opts hrc g').mp hg'
  have ho := ordered_append h1 h3 hn
  refine (C129_concat sched hf opts hrc src src' ds ds' h h' _).mpr ⟨by rw [rulesOf_append hn], ho, fun hv => ?_⟩
  rw [rulesOf_append hn]
  exact sound_append ho hn (h2 hv) (h4 hv)

/-- C129, more texts.  Whatever is appended, be it new rules or further alternatives of old ones, every rule keeps the texts it
derives. -/
theorem C129_widens (sched : Sched NodeKey) (hf : sched.Fair) (opts : List ABNFOption) (hrc : (processOptions opts).redefineCore = false)
    (src src' : Bytes) (ds ds' : List Def) (h : Says src ds) (h' : Says src' ds') (g g' : Grammar)
    (hg : parseABNF sched src opts = .ok g) (hg' : parseABNF sched (src ++ src') opts = .ok g') (root : Str) (w : Bytes)
    (hw : DerivesRule g root w) : DerivesRule g' root w := by
  obtain ⟨rfl, _, _⟩ := (h.parses sched hf opts hrc g).mp hg
  obtain ⟨rfl, ho, _⟩ := (C129_concat sched hf opts hrc src src' ds ds' h h' g').mp hg'
  exact derives_widens (widens_append ho) hw

/-- C129, acceptance.  A text `ParseForest` accepts under the first grammar it accepts under the longer one. -/
theorem C129_accepts (sched : Sched NodeKey) (hf : sched.Fair) (opts : List ABNFOption) (hrc : (processOptions opts).redefineCore = false)
    (src src' : Bytes) (ds ds' : List Def) (h : Says src ds) (h' : Says src' ds')
    (hc : CaseConsistent (Grammar.mk (rulesOf (ds ++ ds'))).strings) (hc0 : CaseConsistent (Grammar.mk (rulesOf ds)).strings)
    (g g' : Grammar) (hg : parseABNF sched src opts = .ok g) (hg' : parseABNF sched (src ++ src') opts = .ok g') (root : Str)
    (inp : Bytes) (s s' : Sched NodeKey) (hs : s.Fair) (hs' : s'.Fair) (N M N' M' : Nat) (f f' : Forest)
    (e : parseForest s inp g root N M = .ok f) (e' : parseForest s' inp g' root N' M' = .ok f') (hv : f.valid = true) :
    f'.valid = true := by
  have h1 := ((C106_forest sched hf opts hrc src ds h hc0 g hg root s hs inp).2 N M f e).1.mp hv
  have h2 := ((C106_forest sched hf opts hrc _ _ (says_append h h') hc g' hg' root s' hs' inp).2 N' M' f' e').1
  obtain ⟨_, ho, _⟩ := (C129_concat sched hf opts hrc src src' ds ds' h h' g').mp hg'
  exact h2.mpr (derives_widens (widens_append ho) h1)

/-! ## Examples -/

/-- A text with one more alternative for `a`. -/
def moreText : Str := str% "a =/ \"y\"\r\n"
/-- What it says. -/
def moreDefs : List Def := [⟨str% "a", true, [[Ex.one (Ex.lit (str% "y"))]]⟩]
/-- A text with a rule of its own. -/
def otherText : Str := str% "b = \"y\"\r\n"
/-- What it says. -/
def otherDefs : List Def := [⟨str% "b", false, [[Ex.one (Ex.lit (str% "y"))]]⟩]

theorem y_reads : ReadsAlt rfc (str% "\"y\"") [[Ex.one (Ex.lit (str% "y"))]] :=
  .one _ _ (.one _ _ (.mk [] _ _ _ _ .none (.string ['y'] (by decide))))

theorem more_says : Says (utf8 moreText) moreDefs := by
  have l := ReadsRule.extend (str% "a") [' '] [' '] _ _ [] (str% "\r\n") (nameOK_iff.mp (by decide)) gap_space gap_space y_reads
    (by simp) .plain
  exact ⟨⟨_, rfl, ⟨by decide, .rule _ _ [] _ l .nil⟩, quiet_of (by decide)⟩, by unfold Fits; decide⟩

theorem other_says : Says (utf8 otherText) otherDefs := by
  have l := ReadsRule.define (str% "b") [' '] [' '] _ _ [] (str% "\r\n") (nameOK_iff.mp (by decide)) gap_space gap_space y_reads
    (by simp) .plain
  exact ⟨⟨_, rfl, ⟨by decide, .rule _ _ [] _ l .nil⟩, quiet_of (by decide)⟩, by unfold Fits; decide⟩

/-- The grammar of the two texts: `a = "x" / 2*3%x41-5A / "y"`. -/
def moreGrammar : Grammar := ⟨[⟨str% "a", [[Ex.one (Ex.lit (str% "x"))],
  [⟨2, some 3, .numVal (str% "x") .range [str% "41", str% "5A"]⟩], [Ex.one (Ex.lit (str% "y"))]]⟩]⟩

theorem more_parses (sched : Sched NodeKey) (hf : sched.Fair) : parseABNF sched (utf8 srcText ++ utf8 moreText) [] = .ok moreGrammar := by
  have e : rulesOf (srcDefs ++ moreDefs) = moreGrammar.rules := by rw [rulesOf_eq]; rfl
  refine (C129_concat sched hf [] rfl _ _ _ _ src_says more_says _).mpr ⟨by rw [e], ordered_of ⟨_, rfl⟩, fun _ => ?_⟩
  rw [e]
  exact sound_of (by decide) (by decide)

/-- C129_concat, C129_widens and C129_accepts: the hypotheses hold for `AB` with a further alternative appended; the text `y` is new. -/
example (sched : Sched NodeKey) (hf : sched.Fair) : Says (utf8 srcText) srcDefs ∧ Says (utf8 moreText) moreDefs ∧
    CaseConsistent (Grammar.mk (rulesOf (srcDefs ++ moreDefs))).strings ∧ CaseConsistent (Grammar.mk (rulesOf srcDefs)).strings ∧
    parseABNF sched (utf8 srcText) [] = .ok srcGrammar ∧ parseABNF sched (utf8 srcText ++ utf8 moreText) [] = .ok moreGrammar ∧
    (match parseForest fwd (bytes% "AB") srcGrammar ['a'] 0 0, parseForest fwd (bytes% "AB") moreGrammar ['a'] 0 0 with
      | .ok f, .ok f' => f.valid && f'.valid | _, _ => false) = true ∧
    (match parseForest fwd (bytes% "y") srcGrammar ['a'] 0 0, parseForest fwd (bytes% "y") moreGrammar ['a'] 0 0 with
      | .ok f, .ok f' => !f.valid && f'.valid | _, _ => false) = true :=
  ⟨src_says, more_says, by rw [rulesOf_eq]; unfold CaseConsistent; decide, by rw [rulesOf_eq]; unfold CaseConsistent; decide,
    src_parses sched hf, more_parses sched hf, by decide +kernel, by decide +kernel⟩

/-- C129_disjoint: two texts that parse and share no name. -/
example (sched : Sched NodeKey) (hf : sched.Fair) : Says (utf8 srcText) srcDefs ∧ Says (utf8 otherText) otherDefs ∧
    (∀ d ∈ srcDefs, ∀ e ∈ otherDefs, ¬ SameName d.name e.name) ∧ parseABNF sched (utf8 srcText) [] = .ok srcGrammar ∧
    parseABNF sched (utf8 otherText) [] = .ok ⟨[⟨str% "b", [[Ex.one (Ex.lit (str% "y"))]]⟩]⟩ := by
  refine ⟨src_says, other_says, by simp only [sameName_iff]; decide, src_parses sched hf, ?_⟩
  have e : rulesOf otherDefs = [⟨str% "b", [[Ex.one (Ex.lit (str% "y"))]]⟩] := by rw [rulesOf_eq]; rfl
  refine (other_says.parses sched hf [] rfl _).mpr ⟨by rw [e], ordered_of ⟨_, rfl⟩, fun _ => ?_⟩
  rw [e]
  exact sound_of (by decide) (by decide)

end Verif.Props
