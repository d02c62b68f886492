import Verif.EvalSound

/-!
# The grammar of ABNF describes the ABNF texts

`abnf.go` 216–243 against RFC 5234: what each rule derives is what the text specification reads.
-/

namespace Verif
open Spec Once Text Spelt
open Eval (code)

namespace Abnf

variable {s : Str}

/-- A node with its text, for every phrase the grammar derives. -/
theorem node_of {n : Str} (hn : n ≠ []) (h : Derives grammar (.rulename n) (utf8 s)) :
    ∃ t, Eval.Node (utf8 s) n t s := by
  obtain ⟨r, ch, hr, ht⟩ := rule_tree h
  have hr0 : r ≠ [] := by
    rintro rfl
    have := (sameName_iff _ _).mp hr
    simp only [canon, List.map_nil, List.map_eq_nil_iff] at this
    exact hn this
  obtain ⟨s', ⟨hat, hN⟩⟩ := Eval.tree_means ht hr0
  have : s' = s := by
    apply utf8_inj
    obtain ⟨h1, h2⟩ := hat
    rw [List.drop_zero] at h1
    exact h1.eq_of_length (by omega)
  subst this
  exact ⟨_, hN n hr⟩

theorem reads_element (h : Derives grammar (ref (str% "element")) (utf8 s)) : ∃ e, ReadsElem code s e := by
  obtain ⟨t, ht⟩ := node_of (by simp) h
  obtain ⟨e, he, _⟩ := ht.means.elem (ht.rule_name (by decide +kernel))
  exact ⟨e, he⟩
theorem reads_group (h : Derives grammar (ref (str% "group")) (utf8 s)) : ∃ a, ReadsElem code s (.group a) := by
  obtain ⟨t, ht⟩ := node_of (by simp) h
  obtain ⟨e, he, _⟩ := ht.means.group (ht.rule_name (by decide +kernel))
  exact ⟨e, he⟩
theorem reads_option (h : Derives grammar (ref (str% "option")) (utf8 s)) : ∃ a, ReadsElem code s (.option a) := by
  obtain ⟨t, ht⟩ := node_of (by simp) h
  obtain ⟨e, he, _⟩ := ht.means.option (ht.rule_name (by decide +kernel))
  exact ⟨e, he⟩
theorem reads_repetition (h : Derives grammar (ref (str% "repetition")) (utf8 s)) : ∃ r, ReadsRep code s r := by
  obtain ⟨t, ht⟩ := node_of (by simp) h
  obtain ⟨e, he, _⟩ := ht.means.rep (ht.rule_name (by decide +kernel))
  exact ⟨e, he⟩
theorem reads_concatenation (h : Derives grammar (ref (str% "concatenation")) (utf8 s)) : ∃ c, ReadsConcat code s c := by
  obtain ⟨t, ht⟩ := node_of (by simp) h
  obtain ⟨e, he, _⟩ := ht.means.concat (ht.rule_name (by decide +kernel))
  exact ⟨e, he⟩
theorem reads_alternation (h : Derives grammar (ref (str% "alternation")) (utf8 s)) : ∃ a, ReadsAlt code s a := by
  obtain ⟨t, ht⟩ := node_of (by simp) h
  obtain ⟨e, he, _⟩ := ht.means.alt (ht.rule_name (by decide +kernel))
  exact ⟨e, he⟩
theorem reads_elements (h : Derives grammar (ref (str% "elements")) (utf8 s)) :
    ∃ x ws a, s = x ++ ws ∧ (∀ c ∈ ws, Wsp c) ∧ ReadsAlt code x a := by
  obtain ⟨t, ht⟩ := node_of (by simp) h
  obtain ⟨x, ws, a, _, h1, h2, h3, _⟩ := ht.means.elements (ht.rule_name (by decide +kernel))
  exact ⟨x, ws, a, h1, h2, h3⟩
theorem reads_rule (h : Derives grammar (ref (str% "rule")) (utf8 s)) : ∃ d, ReadsRule code s d := by
  obtain ⟨t, ht⟩ := node_of (by simp) h
  obtain ⟨e, he, _⟩ := ht.means.rule (ht.rule_name (by decide +kernel))
  exact ⟨e, he⟩
theorem reads_rulelist (h : Derives grammar (ref (str% "rulelist")) (utf8 s)) : ∃ ds, ReadsFile code s ds := by
  obtain ⟨t, ht⟩ := node_of (by simp) h
  obtain ⟨e, he, _⟩ := ht.means.list (ht.rule_name (by decide +kernel))
  exact ⟨e, he⟩

/-! ## Every text is derived -/

variable {cv : Conv}

theorem elem_of {s : Str} (h : Derives grammar (ref (str% "rulename")) (utf8 s) ∨ Derives grammar (ref (str% "group")) (utf8 s) ∨
    Derives grammar (ref (str% "option")) (utf8 s) ∨ Derives grammar (ref (str% "char-val")) (utf8 s) ∨
    Derives grammar (ref (str% "num-val")) (utf8 s) ∨ Derives grammar (ref (str% "prose-val")) (utf8 s)) :
    Derives grammar (ref (str% "element")) (utf8 s) := by
  rw [show ref (str% "element") = .rulename element.name from rfl, own (by simp [grammar])]
  simpa only [element, derivesAlt_cons, derivesAlt_nil, or_false, derivesConcat_one, derivesRep_one] using h

theorem inside_of {o c : Char} {g₁ x g₂ : Str} (h1 : Gap g₁) (h2 : Derives grammar (ref (str% "alternation")) (utf8 x)) (h3 : Gap g₂)
    (ho : ¬ (65 ≤ o.toNat ∧ o.toNat ≤ 90) ∧ ¬ (97 ≤ o.toNat ∧ o.toNat ≤ 122))
    (hc : ¬ (65 ≤ c.toNat ∧ c.toNat ≤ 90) ∧ ¬ (97 ≤ c.toNat ∧ c.toNat ≤ 122)) :
    DerivesAlt grammar [[one (lit [o]), many (ref (str% "c-wsp")), one (ref (str% "alternation")), many (ref (str% "c-wsp")),
      one (lit [c])]] (utf8 (o :: (g₁ ++ (x ++ (g₂ ++ [c]))))) := by
  simp only [derivesAlt_cons, derivesAlt_nil, or_false, concat_more, derivesConcat_one, derivesRep_one, rep_many, lit_self ho,
    lit_self hc, star_cwsp]
  exact ⟨[o], _, rfl, rfl, g₁, _, rfl, h1, x, _, rfl, h2, g₂, _, rfl, h3, rfl⟩

theorem says_dotted {b : Str} {es : List Str} {s : Str} (h : ∀ e ∈ es, NumeralOf b e) (hd : Dotted es s) : Numerals b s :=
  .inl ⟨es, h, hd⟩

theorem derives_all : (∀ {s e}, ReadsElem cv s e → Derives grammar (ref (str% "element")) (utf8 s)) ∧
    (∀ {s r}, ReadsRep cv s r → Derives grammar (ref (str% "repetition")) (utf8 s)) ∧
    (∀ {s c}, ReadsConcat cv s c → Derives grammar (ref (str% "concatenation")) (utf8 s)) ∧
    ∀ {s a}, ReadsAlt cv s a → Derives grammar (ref (str% "alternation")) (utf8 s) := by
  refine reads_ind ?_ ?_ ?_ ?_ ?_ ?_ ?_ ?_ ?_ ?_ ?_ ?_ ?_ ?_
  · exact fun n h => elem_of (.inl (says_rulename.mpr h))
  · intro g₁ s g₂ a h1 _ h3 ih
    refine elem_of (.inr (.inl ?_))
    rw [show ref (str% "group") = .rulename group.name from rfl, own (by simp [grammar])]
    exact inside_of h1 ih h3 (by decide) (by decide)
  · intro g₁ s g₂ a h1 _ h3 ih
    refine elem_of (.inr (.inr (.inl ?_)))
    rw [show ref (str% "option") = .rulename option.name from rfl, own (by simp [grammar])]
    exact inside_of h1 ih h3 (by decide) (by decide)
  · exact fun s h => elem_of (.inr (.inr (.inr (.inl (says_charVal.mpr (.inl (says_ci.mpr ⟨[], s, .inl rfl, h, rfl⟩)))))))
  · exact fun m s hm h => elem_of (.inr (.inr (.inr (.inl (says_charVal.mpr
      (.inl (says_ci.mpr ⟨['%', m], s, .inr ⟨m, hm, rfl⟩, h, rfl⟩)))))))
  · exact fun m s hm h => elem_of (.inr (.inr (.inr (.inl (says_charVal.mpr (.inr (says_cs.mpr ⟨m, s, hm, h, rfl⟩)))))))
  · exact fun m b es s hb he hd => elem_of (.inr (.inr (.inr (.inr (.inl (says_numVal.mpr ⟨m, b, s, hb, .inl ⟨es, he, hd⟩, rfl⟩))))))
  · exact fun m b lo hi hb h1 h2 => elem_of (.inr (.inr (.inr (.inr (.inl (says_numVal.mpr
      ⟨m, b, _, hb, .inr ⟨lo, hi, h1, h2, rfl⟩, rfl⟩))))))
  · exact fun s h => elem_of (.inr (.inr (.inr (.inr (.inr (says_prose.mpr ⟨s, h, rfl⟩))))))
  · intro p mn mx s e hp _ ih
    rw [show ref (str% "repetition") = .rulename repetition.name from rfl, own (by simp [grammar])]
    simp only [repetition, derivesAlt_cons, derivesAlt_nil, or_false, concat_more, derivesConcat_one, derivesRep_one, derives_option,
      text_nil]
    refine ⟨p, s, rfl, ?_, ih⟩
    cases hp with
    | none => exact .inl rfl
    | exactly _ h1 h2 => exact .inr (says_repeat.mpr (.inl ⟨h1, h2⟩))
    | between a b h1 h2 => exact .inr (says_repeat.mpr (.inr ⟨a, b, rfl, h1, h2⟩))
  · intro s r _ ih
    rw [show ref (str% "concatenation") = .rulename concatenation.name from rfl, own (by simp [grammar])]
    simp only [concatenation, derivesAlt_cons, derivesAlt_nil, or_false, concat_more, derivesConcat_one, derivesRep_one, rep_many]
    exact ⟨s, [], by simp, ih, .nil⟩
  · intro s r gap t c _ hg hg0 _ ih1 ih2
    rw [show ref (str% "concatenation") = .rulename concatenation.name from rfl, own (by simp [grammar])] at ih2 ⊢
    simp only [concatenation, derivesAlt_cons, derivesAlt_nil, or_false, concat_more, derivesConcat_one, derivesRep_one, rep_many] at ih2 ⊢
    obtain ⟨t₁, t₂, rfl, h1, h2⟩ := ih2
    refine ⟨s, _, rfl, ih1, ?_⟩
    rw [← List.append_assoc]
    refine .cons _ _ ?_ h2
    simp only [derives_group, derivesAlt_cons, derivesAlt_nil, or_false, concat_more, derivesConcat_one, derivesRep_one, rep_some,
      says_cwsp, star_gap, some_gap]
    exact ⟨gap, t₁, rfl, ⟨hg, hg0⟩, h1⟩
  · intro s r _ ih
    rw [show ref (str% "alternation") = .rulename alternation.name from rfl, own (by simp [grammar])]
    simp only [alternation, derivesAlt_cons, derivesAlt_nil, or_false, concat_more, derivesConcat_one, derivesRep_one, rep_many]
    exact ⟨s, [], by simp, ih, .nil⟩
  · intro s c g₁ g₂ t a _ hg₁ hg₂ _ ih1 ih2
    rw [show ref (str% "alternation") = .rulename alternation.name from rfl, own (by simp [grammar])] at ih2 ⊢
    simp only [alternation, derivesAlt_cons, derivesAlt_nil, or_false, concat_more, derivesConcat_one, derivesRep_one, rep_many] at ih2 ⊢
    obtain ⟨t₁, t₂, rfl, h1, h2⟩ := ih2
    refine ⟨s, _, rfl, ih1, ?_⟩
    have : g₁ ++ '/' :: (g₂ ++ (t₁ ++ t₂)) = (g₁ ++ (['/'] ++ (g₂ ++ t₁))) ++ t₂ := by simp
    rw [this]
    refine .cons _ _ ?_ h2
    simp only [derives_group, derivesAlt_cons, derivesAlt_nil, or_false, concat_more, derivesConcat_one, derivesRep_one, rep_many,
      star_cwsp, lit_self (show ¬ (65 ≤ ('/' : Char).toNat ∧ ('/' : Char).toNat ≤ 90) ∧
      ¬ (97 ≤ ('/' : Char).toNat ∧ ('/' : Char).toNat ≤ 122) by decide)]
    exact ⟨g₁, _, rfl, hg₁, ['/'], _, rfl, rfl, g₂, t₁, rfl, hg₂, h1⟩

theorem says_element : Derives grammar (ref (str% "element")) (utf8 s) ↔ ∃ e, ReadsElem code s e :=
  ⟨reads_element, fun ⟨_, h⟩ => derives_all.1 h⟩
theorem says_repetition : Derives grammar (ref (str% "repetition")) (utf8 s) ↔ ∃ r, ReadsRep code s r :=
  ⟨reads_repetition, fun ⟨_, h⟩ => derives_all.2.1 h⟩
theorem says_concatenation : Derives grammar (ref (str% "concatenation")) (utf8 s) ↔ ∃ c, ReadsConcat code s c :=
  ⟨reads_concatenation, fun ⟨_, h⟩ => derives_all.2.2.1 h⟩
theorem says_alternation : Derives grammar (ref (str% "alternation")) (utf8 s) ↔ ∃ a, ReadsAlt code s a :=
  ⟨reads_alternation, fun ⟨_, h⟩ => derives_all.2.2.2 h⟩
theorem says_elements : Derives grammar (ref (str% "elements")) (utf8 s) ↔
    ∃ x ws a, s = x ++ ws ∧ (∀ c ∈ ws, Wsp c) ∧ ReadsAlt code x a := by
  refine ⟨reads_elements, ?_⟩
  rintro ⟨x, ws, a, rfl, h1, h2⟩
  rw [show ref (str% "elements") = .rulename elements.name from rfl, own (by simp [grammar])]
  simp only [elements, derivesAlt_cons, derivesAlt_nil, or_false, concat_more, derivesConcat_one, derivesRep_one, rep_many, star_wsp]
  exact ⟨x, ws, rfl, derives_all.2.2.2 h2, h1⟩
theorem says_rule : Derives grammar (ref (str% "rule")) (utf8 s) ↔ ∃ d, ReadsRule code s d := by
  refine ⟨reads_rule, ?_⟩
  rintro ⟨d, h⟩
  rw [show ref (str% "rule") = .rulename rule.name from rfl, own (by simp [grammar])]
  simp only [rule, derivesAlt_cons, derivesAlt_nil, or_false, concat_more, derivesConcat_one, derivesRep_one, says_rulename,
    says_definedAs, says_elements, says_cnl]
  cases h with
  | define n g₁ g₂ s a ws nl h1 h2 h3 h4 h5 h6 =>
    exact ⟨n, _, rfl, h1, g₁ ++ (['='] ++ g₂), s ++ ws ++ nl, by simp, ⟨g₁, _, g₂, rfl, h2, .inl rfl, h3⟩, s ++ ws, nl, rfl,
      ⟨s, ws, a, rfl, h5, h4⟩, h6⟩
  | extend n g₁ g₂ s a ws nl h1 h2 h3 h4 h5 h6 =>
    exact ⟨n, _, rfl, h1, g₁ ++ (['=', '/'] ++ g₂), s ++ ws ++ nl, by simp, ⟨g₁, _, g₂, rfl, h2, .inr rfl, h3⟩, s ++ ws, nl, rfl,
      ⟨s, ws, a, rfl, h5, h4⟩, h6⟩

/-- One line of a source text: a rule or a blank line. -/
theorem says_line : Derives grammar (.group [[one (ref (str% "rule"))], [one (.group [[many (ref (str% "WSP")), one (ref (str% "c-nl"))]])]])
    (utf8 s) ↔ (∃ d, ReadsRule code s d) ∨ ∃ ws nl, s = ws ++ nl ∧ (∀ c ∈ ws, Wsp c) ∧ LineEnd nl := by
  simp only [derives_group, derivesAlt_cons, derivesAlt_nil, or_false, concat_more, derivesConcat_one, derivesRep_one, rep_many,
    says_rule, star_wsp, says_cnl]

theorem says_lines : Star (fun s => Derives grammar (.group [[one (ref (str% "rule"))],
    [one (.group [[many (ref (str% "WSP")), one (ref (str% "c-nl"))]])]]) (utf8 s)) s ↔ ∃ ds, ReadsLines code s ds := by
  constructor
  · intro h
    induction h with
    | nil => exact ⟨[], .nil⟩
    | cons a b h _ ih =>
      obtain ⟨ds, hds⟩ := ih
      rcases says_line.mp h with ⟨d, hd⟩ | ⟨ws, nl, rfl, h1, h2⟩
      · exact ⟨d :: ds, .rule _ _ _ _ hd hds⟩
      · rw [List.append_assoc]
        exact ⟨ds, .blank _ _ _ _ h1 h2 hds⟩
  · rintro ⟨ds, h⟩
    induction h with
    | nil => exact .nil
    | rule s d t ds h _ ih => exact .cons _ _ (says_line.mpr (.inl ⟨d, h⟩)) ih
    | blank ws nl t ds h1 h2 _ ih =>
      rw [← List.append_assoc]
      exact .cons _ _ (says_line.mpr (.inr ⟨ws, nl, rfl, h1, h2⟩)) ih

theorem says_rulelist : Derives grammar (ref (str% "rulelist")) (utf8 s) ↔ ∃ ds, ReadsFile code s ds := by
  refine ⟨reads_rulelist, ?_⟩
  rintro ⟨ds, h0, h⟩
  rw [show ref (str% "rulelist") = .rulename rulelist.name from rfl, own (by simp [grammar])]
  simp only [rulelist, derivesAlt_cons, derivesAlt_nil, or_false, derivesConcat_one, rep_some]
  have := says_lines.mpr ⟨ds, h⟩
  cases this with
  | nil => exact absurd rfl h0
  | cons a b h1 h2 => exact ⟨a, b, rfl, h1, h2⟩

end Abnf
end Verif
