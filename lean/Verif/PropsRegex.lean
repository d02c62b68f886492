import Verif.RegexDet

/-! # Property theorems: regular expressions (C24, C25, C26, C46, C52) -/

namespace Verif
open Spec RE2

section
variable {g : Grammar} (hd : NamesDistinct g) {core : List Rule} (hcore : core.Perm Core.rules)
  {order : List Str} (ho : order.Perm ((dependencyGraph core g).map Prod.fst))
include hd hcore ho

/-- What `regex` does, by cases. -/
theorem regex_cases (max : Nat) (name : Str) :
    ((¬ ∃ r, Resolves g name r) ∧ regex core order g max name = .error .ruleNotFound) ∨
    ∃ r, Resolves g name r ∧
      (((∃ r', Relation.ReflTransGen (Refers g) r r' ∧ Cyclic g r') ∧ regex core order g max name = .error .cyclicRule) ∨
      (NoCycleBelow g r ∧ ((ReachesProse g r ∧ regex core order g max name = .error .proseVal) ∨
        (¬ ReachesProse g r ∧ ∃ re : Re, (ReachOK g r → GoodRe g (.rulename name) re) ∧
          regex core order g max name = if max > 0 ∧ byteLen (renderStr (simplify re) 1) > max then .error .tooLarge
            else .ok (renderStr (simplify re) 1))))) := by
  obtain ⟨h1, h2⟩ := Props.C20_exact g hd core hcore order ho name
  by_cases hr : ∃ r, Resolves g name r
  · obtain ⟨r, hr⟩ := hr
    obtain ⟨b, h3, h4⟩ := h2 r hr
    refine .inr ⟨r, hr, ?_⟩
    cases b with
    | true => exact .inl ⟨h4.mp rfl, by simp [regex, h3]⟩
    | false =>
      have hno : NoCycleBelow g r := fun h => by have := h4.mpr h; simp at this
      refine .inr ⟨hno, ?_⟩
      have hg : getRule name g.rules = some r := (getRule_iff hd).mpr hr
      have hend : (reAlts (reRule g (g.rules.length + Core.rules.length + 1)) r.alt {}).isSome = true := by
        refine reAlts_ends r.alt (fun q hq m hm st' => ?_) {}
        refine reRule_ends hd _ [canon r.name] m st' (by simp) ?_ ?_ ?_
        · intro x hx
          rw [List.mem_singleton] at hx
          exact hx ▸ resolves_key hr
        · intro r2 hr2
          have hstep : Refers g r r2 := ⟨q, hq, m, hm, hr2⟩
          refine ⟨fun ⟨r3, h3, h4⟩ => hno ⟨r3, .head hstep h3, h4⟩, fun x hx => ?_⟩
          rw [List.mem_singleton] at hx
          exact ⟨r, hx.symm, resolves_self hr, .single hstep⟩
        · simp only [ruleKeys, List.length_map, List.length_append, List.length_singleton]
          omega
      obtain ⟨⟨os, st⟩, hx⟩ := Option.isSome_iff_exists.mp hend
      obtain ⟨_, h6, h7⟩ := reAlts_post (g := g) (reRule_post hd _) r.alt {} os st (fun n r h => by simp at h) hx
      have h6' : st.err = true ↔ ReachesProse g r := by
        rw [h6, reachesProse_iff]
        exact ⟨fun h => h.elim (fun h => by simp at h) id, .inr⟩
      cases he : st.err with
      | true => exact .inl ⟨h6'.mp he, by simp [regex, h3, hg, hx, he]⟩
      | false =>
        refine .inr ⟨fun h => by rw [h6'.mpr h] at he; simp at he, .alt os, fun hok => ?_, ?_⟩
        · obtain ⟨h8, h9⟩ := h7 he (reachOK_reps hok)
          refine ⟨fun cs => ?_, fun h => h.elim, h9⟩
          rw [Re.Lang, h8, derives_rulename]
          constructor
          · intro h; exact ⟨r, hr, h⟩
          · rintro ⟨r', hr', h⟩
            rwa [resolves_unique hd hr hr' rfl]
        · simp only [regex, h3, hg, hx, he, renderBudget_eq]
          split_ifs <;> simp_all
  · exact .inl ⟨hr, by rw [regex, h1.mpr hr]⟩

end

/-! ## Checking the hypotheses -/

/-- A test for `NoLoneSurrogate`. -/
def noLoneSurrogateB : Elem → Bool
  | .numVal b .range [s, t] => !(numvalToRune s b == numvalToRune t b && 0xD800 ≤ numvalToRune s b && numvalToRune s b ≤ 0xDFFF)
  | _ => true

theorem noLoneSurrogate_of {e : Elem} (h : noLoneSurrogateB e = true) : NoLoneSurrogate e := by
  unfold NoLoneSurrogate
  split
  · next b s t =>
    intro v h1 h2 h3
    simp only [noLoneSurrogateB, numvalToRune_denotes h1, numvalToRune_denotes h2, maxInt32, Bool.not_eq_true',
      Bool.and_eq_false_iff, beq_eq_false_iff_ne, decide_eq_false_iff_not] at h
    omega
  · trivial

/-- A test for `ReRepOK`. -/
def reRepOKb (g : Grammar) (q : Rep) : Bool :=
  termWFb q.elem && (match q.elem with | .rulename n => (getRule n g.rules).isSome | _ => true) && noLoneSurrogateB q.elem &&
    decide (q.min ≤ 1000) && (match q.max with | some m => decide (q.min ≤ m) && decide (m ≤ 1000) | none => true)

theorem reRepOK_of {g : Grammar} {q : Rep} (h : reRepOKb g q = true) : ReRepOK g q := by
  simp only [reRepOKb, Bool.and_eq_true, decide_eq_true_eq] at h
  obtain ⟨⟨⟨⟨h1, h2⟩, h3⟩, h4⟩, h5⟩ := h
  refine ⟨termWFb_sound h1, fun n hn => ?_, noLoneSurrogate_of h3, h4, fun m hm => ?_⟩
  · rw [hn] at h2
    exact getRule_isSome.mp h2
  · rw [hm] at h5
    simpa using h5

theorem reachOK_of {g : Grammar} (h : ((rulesReps (g.rules ++ Core.rules)).all fun q => reRepOKb g q) = true) {n : Str}
    {r : Rule} (hr : Resolves g n r) : ReachOK g r := by
  intro r' hr' q hq
  have hres : ∃ m, Resolves g m r' := by
    rcases Relation.ReflTransGen.cases_tail hr' with e | ⟨_, _, h4⟩
    · exact ⟨n, e ▸ hr⟩
    · exact ⟨_, refers_resolves h4⟩
  obtain ⟨m, hm⟩ := hres
  refine reRepOK_of (List.all_eq_true.mp h q (List.mem_flatMap.mpr ⟨r', ?_, hq⟩))
  cases hm with
  | user h _ => exact List.mem_append_left _ h
  | core h _ _ => exact List.mem_append_right _ h

namespace Props

/-- C24.  When `Regex` succeeds, its result is a pattern in RE2 syntax, read in one way only, and it matches from end to
end exactly the texts whose encodings the rule derives.  Missing from the full claim, and false there: rules that reach
a repetition whose bounds cross or whose counts RE2 refuses (over 1000), or a range of a single surrogate. -/
theorem C24_language_partial (g : Grammar) (hd : NamesDistinct g) (core : List Rule) (hcore : core.Perm Core.rules)
    (order : List Str) (ho : order.Perm ((dependencyGraph core g).map Prod.fst)) (max : Nat) (name : Str) (r : Rule)
    (hr : Resolves g name r) (hok : ReachOK g r) (s : Str) (h : regex core order g max name = .ok s) :
    ∃ p, (∀ q, Reads s q ↔ q = p) ∧ ∀ cs, p.Lang cs ↔ DerivesRule g name (utf8 cs) := by
  rcases regex_cases hd hcore ho max name with ⟨hno, _⟩ | ⟨r', hr', ⟨_, he⟩ | ⟨_, ⟨_, he⟩ | ⟨_, re, hgood, he⟩⟩⟩
  · exact absurd ⟨r, hr⟩ hno
  · rw [he] at h; cases h
  · rw [he] at h; cases h
  · obtain rfl := resolves_unique hd hr hr' rfl
    obtain ⟨h1, h2⟩ := hgood hok
    rw [he] at h
    split_ifs at h
    cases h
    obtain ⟨p, h3, h4⟩ := render_reads (simplify_ready re h2)
    refine ⟨p, fun q => ⟨fun hq => reads_unique hq h3, fun e => e ▸ h3⟩, fun cs => ?_⟩
    rw [h4, simplify_lang re (shape_bounds re h2)]
    exact h1 cs

/-- The words a rule derives are encodings of texts, so comparing texts compares the whole languages. -/
theorem C24_texts (g : Grammar) (name : Str) (w : Bytes) (h : DerivesRule g name w) : ∃ cs, w = utf8 cs := derives_isText h

/-- A grammar for the examples: `greeting = %s"Hi" *2("." / "!" / %x61-7A) [name]`, `name = 1*ALPHA %x2D.41`. -/
def greeting : Grammar := ⟨[
  ⟨str% "greeting", [[⟨1, some 1, .charVal true (str% "Hi")⟩,
    ⟨0, some 2, .group [[⟨1, some 1, .charVal false ['.']⟩], [⟨1, some 1, .charVal false ['!']⟩],
      [⟨1, some 1, .numVal ['x'] .range [str% "61", str% "7A"]⟩]]⟩,
    ⟨1, some 1, .option [[⟨1, some 1, .rulename (str% "Name")⟩]]⟩]]⟩,
  ⟨str% "name", [[⟨1, none, .rulename (str% "alpha")⟩, ⟨1, some 1, .numVal ['x'] .series [str% "2D", str% "41"]⟩]]⟩]⟩

theorem greeting_resolves : Resolves greeting (str% "GREETING") (greeting.rules[0]) :=
  (getRule_iff (namesDistinct_of (by decide))).mp (by decide +kernel)

example : NamesDistinct greeting ∧ ReachOK greeting (greeting.rules[0]) ∧
    regex Core.rules (plainOrder greeting) greeting 0 (str% "GREETING") = .ok (str% "Hi[\\x{21}\\x{2e}a-z]{0,2}(?:[A-Za-z]+-A)?") :=
  ⟨namesDistinct_of (by decide), reachOK_of (by decide +kernel) greeting_resolves, by decide +kernel⟩

/-- `a = %xD800-D800`. -/
def surrogate : Grammar := ⟨[⟨['a'], [[⟨1, some 1, .numVal ['x'] .range [str% "D800", str% "D800"]⟩]]⟩]⟩

/-- C24 fails as stated: a range of one surrogate derives nothing, but its regular expression is the replacement
character, which matches itself. -/
theorem C24_fails : NamesDistinct surrogate ∧ semvalABNF surrogate = none ∧
    ∃ s, regex Core.rules (plainOrder surrogate) surrogate 0 ['a'] = .ok s ∧
    ∃ p, Reads s p ∧ p.Lang [Char.ofNat 0xFFFD] ∧ ∀ w, ¬ DerivesRule surrogate ['a'] w := by
  have hd : NamesDistinct surrogate := namesDistinct_of (by decide)
  refine ⟨hd, by decide +kernel, [Char.ofNat 0xFFFD], by decide +kernel,
    .any [.seq [.set false [(0xFFFD, 0xFFFD)]]], ⟨_, ?_, rfl⟩, ?_, ?_⟩
  · refine .last _ _ _ (.item _ _ _ _ _ _ (.lit (Char.ofNat 0xFFFD) [] (by decide)) (.none [] rfl) (.stop [] (.inl rfl))) (.inl rfl)
  · refine .inl ⟨_, [], (List.append_nil _).symm, ⟨Char.ofNat 0xFFFD, rfl, ?_⟩, rfl⟩
    exact ⟨_, List.mem_singleton.mpr rfl, by decide, by decide⟩
  · intro w h
    obtain ⟨r, hr, h1⟩ := derives_rulename.mp h
    have hr' : Resolves surrogate ['a'] surrogate.rules[0] := (getRule_iff hd).mp (by decide +kernel)
    obtain rfl := resolves_unique hd hr hr' rfl
    change DerivesAlt surrogate [[⟨1, some 1, .numVal ['x'] .range [str% "D800", str% "D800"]⟩]] w at h1
    have hv : Denotes ['x'] (str% "D800") 0xD800 := denotes_hex [13, 8, 0, 0] _ (by decide)
    rw [derivesAlt_cons, derivesConcat_one, derivesRep_one, derives_range hv hv] at h1
    rcases h1 with ⟨c, h2, h3, _⟩ | h1
    · have := char_valid c
      omega
    · exact derivesAlt_nil h1

/-- No pattern is one literal with an exact count over 1000. -/
theorem refused_count {c : Char} {ds : Str} {v : Nat} (hv : Denotes ['d'] ds v) (hbig : 1000 < v)
    (hat : ∀ {q t}, Atom (c :: '{' :: (ds ++ ['}'])) q t → t = '{' :: (ds ++ ['}'])) (hc : c ≠ '|' ∧ c ≠ ')') :
    ¬ ∃ p, Reads (c :: '{' :: (ds ++ ['}'])) p := by
  rintro ⟨p, ps, h, _⟩
  have hD : ∀ c ∈ ds, Digital c := denotes_digital hv
  have hq : ∀ {q t}, ¬ Quant ('{' :: (ds ++ ['}'])) q t := by
    intro q t h
    generalize hs : '{' :: (ds ++ ['}']) = u at h
    cases h with
    | none _ h => rw [← hs] at h; simp [opensQuant] at h
    | opt => simp at hs
    | star => simp at hs
    | plus => simp at hs
    | exactly es m _ h' _ =>
      simp only [List.cons_append, List.cons.injEq, true_and] at hs
      obtain ⟨he, _⟩ := cut_unique (s := []) hD (count_digital h') brace_not brace_not hs
      rw [← he] at h'
      have := denotes_fun h'.1 hv
      have := h'.2.2
      omega
    | atLeast es m _ h' _ =>
      simp only [List.cons_append, List.cons.injEq, true_and] at hs
      obtain ⟨_, he, _⟩ := cut_unique (s := []) hD (count_digital h') brace_not comma_not hs
      exact absurd he (by decide)
    | between es fs m k _ h' _ _ =>
      simp only [List.cons_append, List.append_assoc, List.cons.injEq, true_and] at hs
      obtain ⟨_, he, _⟩ := cut_unique (s := []) hD (count_digital h') brace_not comma_not hs
      exact absurd he (by decide)
  have hi : ∀ {qs t}, ¬ Items (c :: '{' :: (ds ++ ['}'])) qs t := by
    intro qs t h
    generalize hs : c :: '{' :: (ds ++ ['}']) = u at h
    cases h with
    | stop _ h => rw [← hs] at h; simp [hc.1, hc.2] at h
    | item _ _ _ _ _ _ h1 h2 => subst hs; rw [hat h1] at h2; exact hq h2
    | rep _ _ _ _ _ _ _ _ h1 h2 => subst hs; rw [hat h1] at h2; exact hq h2
  cases h with
  | last _ _ _ h => exact hi h
  | more _ _ _ _ _ h => exact hi h

/-- `a = 1001"-"`. -/
def manyTimes : Grammar := ⟨[⟨['a'], [[⟨1001, some 1001, .charVal false ['-']⟩]]⟩]⟩

/-- C24 fails as stated: a count over 1000 is written as it is, and RE2 refuses it. -/
theorem C24_fails_count : NamesDistinct manyTimes ∧ semvalABNF manyTimes = none ∧
    ∃ s, regex Core.rules (plainOrder manyTimes) manyTimes 0 ['a'] = .ok s ∧ ¬ ∃ p, Reads s p := by
  refine ⟨namesDistinct_of (by decide), by decide +kernel, str% "-{1001}", by decide +kernel, ?_⟩
  refine refused_count (ds := str% "1001") (v := 1001) ⟨10, [1, 0, 0, 1], .dec, by simp, by
    repeat first | exact .nil | refine .cons (by unfold HasDigit; decide) ?_, by decide⟩ (by decide) ?_ (by decide)
  intro q t h
  cases h with
  | lit => rfl

/-- C25.  Simplification keeps the language of a tree.  Missing from the full claim, and false there: trees with a
repetition whose bounds cross. -/
theorem C25_simplify_partial (r : Re) (h : r.BoundsOK) (w : List Char) : (simplify r).Lang w ↔ r.Lang w :=
  simplify_lang r h w

example : (Re.alt [.concat [.rep (.alt [.cls [(97, 99), (98, 120)], .never, .cls [(121, 121)]]) 0 (some 3), .empty], .never]).BoundsOK :=
  ⟨⟨⟨fun _ h => by cases h; decide, trivial, trivial, trivial, trivial⟩, trivial, trivial⟩, trivial, trivial⟩

/-- C25 fails as stated: no count lies between 2 and 1, but a repetition of nothing with these bounds is simplified to
nothing. -/
theorem C25_fails : ∃ r w, (simplify r).Lang w ∧ ¬ r.Lang w := by
  refine ⟨.rep .empty 2 (some 1), [], rfl, ?_⟩
  rintro ⟨n, h1, h2, _⟩
  have := h2 1 rfl
  omega

/-- C26.  `normalizeRanges` returns ranges in increasing order, with a gap between any two, that contain exactly the
numbers of the given ranges. -/
theorem C26_normal (rs : List (Nat × Nat)) :
    (∀ n, InRanges (normalizeRanges rs) n ↔ InRanges rs n) ∧
    (normalizeRanges rs).Pairwise (fun a b => a.1 ≤ b.1 ∧ a.2 + 1 < b.1) ∧
    ∀ m, (∀ r ∈ rs, r.1 ≤ r.2 ∧ r.2 ≤ m) → ∀ r ∈ normalizeRanges rs, r.1 ≤ r.2 ∧ r.2 ≤ m :=
  ⟨normalize_mem rs, normalize_apart rs, fun _ h => normalize_valid h⟩

/-- C26.  The result depends only on the set of characters: it is a canonical form. -/
theorem C26_canonical (rs ss : List (Nat × Nat)) (hr : ∀ r ∈ rs, r.1 ≤ r.2) (hs : ∀ r ∈ ss, r.1 ≤ r.2)
    (h : ∀ n, InRanges rs n ↔ InRanges ss n) : normalizeRanges rs = normalizeRanges ss := by
  have valid : ∀ ts : List (Nat × Nat), (∀ r ∈ ts, r.1 ≤ r.2) → ∀ r ∈ normalizeRanges ts, r.1 ≤ r.2 := by
    intro ts ht r hr
    obtain ⟨m, hm⟩ : ∃ m, ∀ q ∈ ts, q.2 ≤ m := by
      clear ht hr
      induction ts with
      | nil => exact ⟨0, by simp⟩
      | cons t ts ih =>
        obtain ⟨m, hm⟩ := ih
        refine ⟨max t.2 m, fun q hq => ?_⟩
        rcases List.mem_cons.mp hq with rfl | hq
        · omega
        · have := hm q hq
          omega
    exact (normalize_valid (fun q hq => ⟨ht q hq, hm q hq⟩) r hr).1
  exact apart_unique _ _ (valid rs hr) (valid ss hs) ((normalize_apart rs).imp fun h => h.2)
    ((normalize_apart ss).imp fun h => h.2) fun n => by rw [normalize_mem, normalize_mem, h]

example : (∀ r ∈ [(5, 9), (1, 3), (4, 6), (20, 20)], r.1 ≤ r.2) ∧ normalizeRanges [(5, 9), (1, 3), (4, 6), (20, 20)] = [(1, 9), (20, 20)] ∧
    normalizeRanges [(20, 20), (1, 9)] = [(1, 9), (20, 20)] := by decide +kernel

/-- The budget counts bytes of UTF-8. -/
theorem byteLen_utf8 (s : Str) : byteLen s = (utf8 s).length := by rw [byteLen, encodeAll_eq_utf8]

/-- C46.  Rendering with a positive budget fails exactly when the text is longer than the budget, and otherwise returns
the same text as rendering without one. -/
theorem C46_budget (r : Re) : ∃ s, renderBudget 0 r = some s ∧ ∀ max, max > 0 →
    (renderBudget max r = none ∧ (utf8 s).length > max) ∨ (renderBudget max r = some s ∧ (utf8 s).length ≤ max) := by
  refine ⟨renderStr r 1, by simp [renderBudget_eq], fun max hm => ?_⟩
  rw [renderBudget_eq, byteLen_utf8]
  split_ifs with h
  · exact .inl ⟨rfl, h.2⟩
  · exact .inr ⟨rfl, by by_contra h'; exact h ⟨hm, by omega⟩⟩

/-- C46.  The same seen from `Regex`. -/
theorem C46_regex (g : Grammar) (core : List Rule) (order : List Str) (max : Nat) (hm : max > 0) (name : Str) (s : Str)
    (h : regex core order g 0 name = .ok s) :
    regex core order g max name = if (utf8 s).length > max then .error .tooLarge else .ok s := by
  rw [← byteLen_utf8]
  have hdet : ∀ m, regex core order g m name = if m > 0 ∧ byteLen s > m then .error .tooLarge else .ok s := by
    intro m
    unfold regex at h ⊢
    cases hc : ruleContainsCycle core g order name with
    | none => simp [hc] at h
    | some x =>
      cases x with
      | panic => simp [hc] at h
      | fuel => simp [hc] at h
      | ok b =>
        cases b with
        | true => simp [hc] at h
        | false =>
          simp only [hc] at h ⊢
          cases hg : getRule name g.rules with
          | none => simp [hg] at h
          | some rule =>
            simp only [hg] at h ⊢
            cases hr : reAlts (reRule g (g.rules.length + Core.rules.length + 1)) rule.alt {} with
            | none => simp [hr] at h
            | some x =>
              simp only [hr, renderBudget_eq] at h ⊢
              by_cases h1 : x.2.err = true
              · simp [h1] at h
              · rw [if_neg h1] at h ⊢
                simp only [gt_iff_lt, lt_self_iff_false, false_and, if_false, Except.ok.injEq] at h
                subst h
                split_ifs <;> rfl
  rw [hdet max]
  simp [hm]

example : regex Core.rules (plainOrder greeting) greeting 45 (str% "greeting") = .ok (str% "Hi[\\x{21}\\x{2e}a-z]{0,2}(?:[A-Za-z]+-A)?") ∧
    regex Core.rules (plainOrder greeting) greeting 10 (str% "greeting") = .error .tooLarge := by
  decide +kernel

/-- C52.  Without a budget, `Regex` fails exactly for the reasons it names: the rule does not exist, a rule that refers
to itself can be reached, or else a prose-val can be reached.  It neither crashes nor runs on. -/
theorem C52_outcome (g : Grammar) (hd : NamesDistinct g) (core : List Rule) (hcore : core.Perm Core.rules)
    (order : List Str) (ho : order.Perm ((dependencyGraph core g).map Prod.fst)) (name : Str) :
    (regex core order g 0 name = .error .ruleNotFound ↔ ¬ ∃ r, Resolves g name r) ∧
    ∀ r, Resolves g name r →
      (regex core order g 0 name = .error .cyclicRule ↔ ∃ r', Relation.ReflTransGen (Refers g) r r' ∧ Cyclic g r') ∧
      (regex core order g 0 name = .error .proseVal ↔ NoCycleBelow g r ∧ ReachesProse g r) ∧
      ((∃ s, regex core order g 0 name = .ok s) ↔ NoCycleBelow g r ∧ ¬ ReachesProse g r) := by
  rcases regex_cases hd hcore ho 0 name with ⟨hno, he⟩ | ⟨r', hr', ⟨hc, he⟩ | ⟨hc, ⟨hp, he⟩ | ⟨hp, re, hgood, he⟩⟩⟩
  · refine ⟨by simp [he, hno], fun r hr => absurd ⟨r, hr⟩ hno⟩
  · refine ⟨by simp [he]; exact ⟨r', hr'⟩, fun r hr => ?_⟩
    obtain rfl := resolves_unique hd hr hr' rfl
    have : ¬ NoCycleBelow g r := fun h => h hc
    simp [he, hc, this]
  · refine ⟨by simp [he]; exact ⟨r', hr'⟩, fun r hr => ?_⟩
    obtain rfl := resolves_unique hd hr hr' rfl
    have h1 : ¬ ∃ r', Relation.ReflTransGen (Refers g) r r' ∧ Cyclic g r' := hc
    simp [he, hc, hp, h1]
  · simp only [gt_iff_lt, lt_self_iff_false, false_and, if_false] at he
    refine ⟨by simp [he]; exact ⟨r', hr'⟩, fun r hr => ?_⟩
    obtain rfl := resolves_unique hd hr hr' rfl
    have h1 : ¬ ∃ r', Relation.ReflTransGen (Refers g) r r' ∧ Cyclic g r' := hc
    simp [he, hc, hp, h1]

/-- `a = b <words>`, `b = "x"`, `c = c`. -/
def prosy : Grammar := ⟨[⟨['a'], [[Ex.one (Ex.ref ['b']), Ex.one (.proseVal [str% "words"])]]⟩, ⟨['b'], [[Ex.one (.charVal false ['x'])]]⟩,
  ⟨['c'], [[Ex.one (Ex.ref ['c'])]]⟩]⟩

example : NamesDistinct prosy ∧ regex Core.rules (plainOrder prosy) prosy 0 ['a'] = .error .proseVal ∧
    regex Core.rules (plainOrder prosy) prosy 0 ['b'] = .ok (str% "[Xx]") ∧
    regex Core.rules (plainOrder prosy) prosy 0 ['c'] = .error .cyclicRule ∧
    regex Core.rules (plainOrder prosy) prosy 0 ['d'] = .error .ruleNotFound :=
  ⟨namesDistinct_of (by decide), by decide +kernel, by decide +kernel, by decide +kernel, by decide +kernel⟩

end Props
end Verif
