import Verif.AstExact
import Verif.PropsEntropy

/-!
# The AST generator: the claims C28, C58 and C59
-/

namespace Verif

open Spec

/-- Enough rounds for the costs. -/
def astRounds (g : Grammar) : Nat := (g.rules.length + Core.rules.length) * 2 ^ 30 + 1

theorem newAst_eq {g : Grammar} (hd : NamesDistinct g) (hs : SmallMins g) {sched : Sched (Str × Rule)} (hf : sched.Fair)
    {fuel : Nat} (hfuel : astRounds g ≤ fuel) {name : Str} {r : Rule} (hr : Resolves g name r) :
    ∃ m, CostFix g m ∧ newASTGenerator sched fuel g name =
      if (m r.name).getD 0 ≥ astUnbounded then .ok (.error (.nonProductive name))
      else (visitAlt (visitRule g.rules m (g.rules.length + Core.rules.length)) r.alt [r.name]).bnd fun res =>
        match res with
        | .error e => .ok (.error e)
        | .ok _ => .ok (.ok (r, m)) := by
  obtain ⟨m, h1, h2⟩ := costs_found hd hs hf (fuel := fuel) (by unfold astRounds at hfuel; omega)
  refine ⟨m, h2, ?_⟩
  unfold newASTGenerator
  rw [(getRule_iff hd).mpr hr]
  simp only
  rw [h1]
  rfl

/-- What the constructor returns, in terms of the costs. -/
theorem newAst_cases {g : Grammar} (hd : NamesDistinct g) (hs : SmallMins g) {sched : Sched (Str × Rule)} (hf : sched.Fair)
    {fuel : Nat} (hfuel : astRounds g ≤ fuel) {name : Str} {r : Rule} (hr : Resolves g name r) :
    ∃ m, CostFix g m ∧ ((newASTGenerator sched fuel g name = .ok (.ok (r, m)) ∧ GoodReach g m r) ∨
      ∃ e, newASTGenerator sched fuel g name = .ok (.error e) ∧
        (AstBad g m (Relation.ReflTransGen (Refers g) r) e ∨ (e = .nonProductive name ∧ (m r.name).getD 0 ≥ astUnbounded))) := by
  obtain ⟨m, h1, h2⟩ := newAst_eq hd hs hf hfuel hr
  refine ⟨m, h1, ?_⟩
  rw [h2]
  by_cases hc : (m r.name).getD 0 ≥ astUnbounded
  · rw [if_pos hc]
    exact .inr ⟨_, rfl, .inr ⟨rfl, hc⟩⟩
  · rw [if_neg hc]
    obtain ⟨res, h3, h4⟩ := visit_start (m := m) hd hr (by omega)
    rw [h3]
    cases res with
    | error e => exact .inr ⟨e, rfl, .inl h4⟩
    | ok s => exact .inl ⟨rfl, h4⟩

/-! ## Checking the hypotheses -/

theorem smallMins_of {g : Grammar} (h : ((rulesReps (g.rules ++ Core.rules)).all fun q => decide (q.min < 2 ^ 33)) = true) : SmallMins g :=
  fun q hq => by simpa using List.all_eq_true.mp h q hq

theorem writable_of {g : Grammar}
    (h : ((rulesReps (g.rules ++ Core.rules)).all fun q => emittableB q.elem && boundsB q && closedRepB g q) = true)
    (h' : ((g.rules ++ Core.rules).all fun r => !r.alt.isEmpty) = true) {n : Str} {r : Rule} (hr : Resolves g n r) :
    WritableReach g r := by
  intro r' hr'
  refine ⟨(by have := List.all_eq_true.mp h' r' (reach_rule hr hr'); intro e; rw [e] at this; cases this), fun q hq => ?_⟩
  have := List.all_eq_true.mp h q (reach_reps hr hr' hq)
  rw [Bool.and_eq_true, Bool.and_eq_true] at this
  exact ⟨emittable_of this.1.1, bounds_of this.1.2, fun a ha => (closedRep_of this.2).2 a (.inl ha)⟩

/-- Every rule the rule leads to has its references defined, and derives some text. -/
def AllProductive (g : Grammar) (r : Rule) : Prop :=
  ∀ r', Relation.ReflTransGen (Refers g) r r' →
    (∀ q ∈ altReps r'.alt, ∀ n, q.elem = .rulename n → ∃ r2, Resolves g n r2) ∧ ∃ w, DerivesAlt g r'.alt w

/-- The same, and of a size below 2^30: the bytes of the text and the rules passed through, counted together. -/
def ProductiveWithin (g : Grammar) (r : Rule) : Prop :=
  ∀ r', Relation.ReflTransGen (Refers g) r r' →
    (∀ q ∈ altReps r'.alt, ∀ n, q.elem = .rulename n → ∃ r2, Resolves g n r2) ∧ ∃ w k, SizedAlt g r'.alt w k ∧ w.length + k < 2 ^ 30

theorem reach_self {g : Grammar} {name : Str} {r r' : Rule} (hr : Resolves g name r) (h : Relation.ReflTransGen (Refers g) r r') :
    Resolves g r'.name r' := by
  rcases Relation.ReflTransGen.cases_tail h with e | ⟨_, _, h4⟩
  · exact e ▸ resolves_self hr
  · exact refers_resolves h4

/-- Costs below the limit are derivations below the limit. -/
theorem good_iff {g : Grammar} (hd : NamesDistinct g) (hs : SmallMins g) {m : CostMap} (hfix : CostFix g m) {name : Str} {r : Rule}
    (hr : Resolves g name r) (hw : WritableReach g r) : GoodReach g m r ↔ ProductiveWithin g r := by
  constructor
  · intro h r' hr'
    obtain ⟨w, k, h1, h2⟩ := cheap_rule hd hs hfix _ (h r' hr').1 r' (reach_self hr hr') (fun r3 h3 => hw r3 (hr'.trans h3))
      (Nat.le_refl _) (fun r3 h3 => (h r3 (hr'.trans h3)).2)
    exact ⟨(h r' hr').2, w, k, h1, lt_of_le_of_lt h2 (h r' hr').1⟩
  · intro h r' hr'
    obtain ⟨h1, w, k, h2, h3⟩ := h r' hr'
    refine ⟨?_, h1⟩
    rw [(costElem_rule hd hfix (reach_self hr hr')).2]
    exact lt_of_le_of_lt (sized_cost hd hs hfix h2 (small_rule hs (reach_self hr hr'))) h3

namespace Props

/-- C28.  Whatever the source of randomness and the options, a generator that was built returns: it does not panic, and
rules nest at most as deep as the option for the depth and the largest cost together. -/
theorem C28_ends (g : Grammar) (hd : NamesDistinct g) (hs : SmallMins g) (sched : Sched (Str × Rule)) (hf : sched.Fair)
    (rounds : Nat) (hrounds : astRounds g ≤ rounds) (name : Str) (start : Rule) (m : CostMap)
    (h : newASTGenerator sched rounds g name = .ok (.ok (start, m)))
    {σ : Type} (S : Source σ) (hS : S.InRange) (o : AstOpts) (fuel : Nat) (hfuel : o.maxDepth.toNat + 2 ^ 30 ≤ fuel) (s : σ) :
    ∃ w, astWalk S o g.rules m fuel start s = .ok w := by
  cases hg : getRule name g.rules with
  | none => unfold newASTGenerator at h; rw [hg] at h; cases h
  | some r =>
    have hr := (getRule_iff hd).mp hg
    obtain ⟨m', h1, ⟨h2, h3⟩ | ⟨e, h2, _⟩⟩ := newAst_cases hd hs hf hrounds hr
    · rw [h2] at h
      cases h
      obtain ⟨w, h4, _⟩ := astWalk_sat (mem := False) hS hd hs h1 _ (resolves_self hr) h3 (fun h => h.elim) fuel hfuel s
      exact ⟨w, h4⟩
    · rw [h2] at h; cases h

/-- C28.  What a generator returns is derivable from its rule.  Missing from the full claim, and false there: rules that
reach a prose-val, an empty num-val range or one that starts with surrogates, a series with values that are no
characters, bounds that cross, or an empty group. -/
theorem C28_members_partial (g : Grammar) (hd : NamesDistinct g) (hs : SmallMins g) (sched : Sched (Str × Rule)) (hf : sched.Fair)
    (rounds : Nat) (hrounds : astRounds g ≤ rounds) (name : Str) (start : Rule) (m : CostMap)
    (h : newASTGenerator sched rounds g name = .ok (.ok (start, m))) (hw : WritableReach g start)
    {σ : Type} (S : Source σ) (hS : S.InRange) (o : AstOpts) (fuel : Nat) (hfuel : o.maxDepth.toNat + 2 ^ 30 ≤ fuel) (s : σ) :
    ∃ w, astWalk S o g.rules m fuel start s = .ok w ∧ DerivesRule g name w := by
  cases hg : getRule name g.rules with
  | none => unfold newASTGenerator at h; rw [hg] at h; cases h
  | some r =>
    have hr := (getRule_iff hd).mp hg
    obtain ⟨m', h1, ⟨h2, h3⟩ | ⟨e, h2, _⟩⟩ := newAst_cases hd hs hf hrounds hr
    · rw [h2] at h
      cases h
      obtain ⟨w, h4, h5⟩ := astWalk_sat (mem := True) hS hd hs h1 _ (resolves_self hr) h3 (fun _ => hw) fuel hfuel s
      exact ⟨w, h4, .rule _ _ _ hr (h5 trivial)⟩
    · rw [h2] at h; cases h

/-- A fair order. -/
def plainRules : Sched (Str × Rule) := fun _ l => l

theorem plainRules_fair : plainRules.Fair := fun _ l => .refl l

/-- Building a generator and generating, for the examples. -/
def astRun {σ : Type} (S : Source σ) (o : AstOpts) (g : Grammar) (name : Str) (s : σ) : Run Bytes :=
  (newASTGenerator plainRules (astRounds g) g name).bnd fun res =>
    match res with
    | .error _ => .panic
    | .ok (start, m) => astWalk S o g.rules m (o.maxDepth.toNat + 2 ^ 30) start s

theorem astRun_ok {σ : Type} {S : Source σ} {o : AstOpts} {g : Grammar} {name : Str} {s : σ} {w : Bytes} (h : astRun S o g name s = .ok w) :
    ∃ start m, newASTGenerator plainRules (astRounds g) g name = .ok (.ok (start, m)) ∧
      astWalk S o g.rules m (o.maxDepth.toNat + 2 ^ 30) start s = .ok w := by
  unfold astRun at h
  cases hn : newASTGenerator plainRules (astRounds g) g name with
  | panic => rw [hn] at h; cases h
  | fuel => rw [hn] at h; cases h
  | ok res =>
    rw [hn] at h
    cases res with
    | error e => cases h
    | ok p => exact ⟨p.1, p.2, rfl, h⟩

example : NamesDistinct lists ∧ SmallMins lists ∧ (∀ r, Resolves lists (str% "List") r → WritableReach lists r) ∧ tapeSource.InRange ∧
    (∃ start m, newASTGenerator plainRules (astRounds lists) lists (str% "List") = .ok (.ok (start, m)) ∧
      astWalk tapeSource {} lists.rules m (32 + 2 ^ 30) start ⟨[2, 1, 0, 1, 2, 0, 0, 3, 9, 4, 1, 2, 3, 4, 5, 6, 7, 8, 9, 1, 2, 4], 0⟩ =
        .ok (bytes% "(()(j(01)))")) :=
  ⟨namesDistinct_of (by decide), smallMins_of (by decide +kernel), fun _ hr => writable_of (by decide +kernel) (by decide +kernel) hr,
   C29_sources.1, astRun_ok (by decide +kernel)⟩

/-- The grammar `a = <any word>`. -/
def proseOnly : Grammar := ⟨[⟨['a'], [[⟨1, some 1, .proseVal [str% "any word"]⟩]]⟩]⟩

/-- C28 fails for prose-vals: the constructor takes them to cost nothing, and nothing is written for them. -/
theorem C28_fails : NamesDistinct proseOnly ∧ semvalABNF proseOnly = none ∧
    (∃ start m, newASTGenerator plainRules (astRounds proseOnly) proseOnly ['a'] = .ok (.ok (start, m)) ∧
      astWalk tapeSource {} proseOnly.rules m (32 + 2 ^ 30) start ⟨[], 0⟩ = .ok []) ∧
    ∀ w, ¬ DerivesRule proseOnly ['a'] w := by
  have hd : NamesDistinct proseOnly := namesDistinct_of (by decide)
  refine ⟨hd, by decide +kernel, astRun_ok (by decide +kernel), fun w h => ?_⟩
  have hr : Resolves proseOnly ['a'] (proseOnly.rules[0]) := (getRule_iff hd).mp (by decide +kernel)
  obtain ⟨r, hr', h⟩ := derives_rulename.mp h
  obtain rfl := resolves_unique hd hr' hr rfl
  change DerivesAlt proseOnly [[⟨1, some 1, .proseVal [str% "any word"]⟩]] w at h
  rcases derivesAlt_cons.mp h with h | h
  · rw [derivesConcat_one, derivesRep_one] at h
    obtain ⟨cs, rfl⟩ := derives_isText h
    have := (derives_term (by simp) (by simp) (by simp) cs).mp h
    cases this
  · cases h with
    | mk _ _ _ hc _ => cases hc

/-- C58.  The constructor always returns.  It reports an unknown rule exactly when no rule has the name; an undefined
rule it names is referred to and not defined; a rule it calls non-productive has no derivation of a size below 2^30. -/
theorem C58_errors (g : Grammar) (hd : NamesDistinct g) (hs : SmallMins g) (sched : Sched (Str × Rule)) (hf : sched.Fair)
    (rounds : Nat) (hrounds : astRounds g ≤ rounds) (name : Str) :
    ∃ res, newASTGenerator sched rounds g name = .ok res ∧
      (res = .error .ruleNotFound ↔ ¬ ∃ r, Resolves g name r) ∧
      (∀ start m, res = .ok (start, m) → Resolves g name start) ∧
      (∀ n, res = .error (.undefinedRule n) → (¬ ∃ r, Resolves g n r) ∧
        ∃ r r', Resolves g name r ∧ Relation.ReflTransGen (Refers g) r r' ∧ ∃ q ∈ altReps r'.alt, q.elem = .rulename n) ∧
      ∀ x, res = .error (.nonProductive x) → ∃ r r', Resolves g name r ∧ Relation.ReflTransGen (Refers g) r r' ∧ Resolves g x r' ∧
        ∀ w k, SizedAlt g r'.alt w k → 2 ^ 30 ≤ w.length + k := by
  by_cases hr : ∃ r, Resolves g name r
  · obtain ⟨r, hr⟩ := hr
    obtain ⟨m, h1, h2⟩ := newAst_cases hd hs hf hrounds hr
    have hbig : ∀ r', Resolves g r'.name r' → (m r'.name).getD 0 ≥ astUnbounded → ∀ w k, SizedAlt g r'.alt w k → 2 ^ 30 ≤ w.length + k := by
      intro r' hr' hc w k h
      have := sized_cost hd hs h1 h (small_rule hs hr')
      rw [(costElem_rule hd h1 hr').2] at hc
      exact le_trans hc this
    rcases h2 with ⟨h2, h3⟩ | ⟨e, h2, h3⟩
    · refine ⟨_, h2, ⟨fun h => (by cases h), fun h => absurd ⟨r, hr⟩ h⟩, fun s m' h => ?_, fun n h => (by cases h), fun x h => (by cases h)⟩
      cases h
      exact hr
    · refine ⟨_, h2, ⟨fun h => ?_, fun h => absurd ⟨r, hr⟩ h⟩, fun s m' h => (by cases h), fun n h => ?_, fun x h => ?_⟩
      · cases h
        rcases h3 with h3 | h3
        · exact h3.elim
        · cases h3.1
      · cases h
        rcases h3 with ⟨⟨r', h4, q, h5, h6⟩, h7⟩ | h3
        · exact ⟨h7, r, r', hr, h4, q, h5, h6⟩
        · cases h3.1
      · cases h
        rcases h3 with ⟨r', h4, h5, h6, h7⟩ | ⟨h3, h4⟩
        · subst h6
          exact ⟨r, r', hr, h4, h5, hbig r' h5 h7⟩
        · cases h3
          exact ⟨r, r, hr, .refl, hr, hbig r (resolves_self hr) h4⟩
  · have hn : getRule name g.rules = none := by
      cases hg : getRule name g.rules with
      | none => rfl
      | some r => exact absurd ⟨r, (getRule_iff hd).mp hg⟩ hr
    refine ⟨.error .ruleNotFound, by unfold newASTGenerator; rw [hn], ⟨fun _ => hr, fun _ => rfl⟩, fun s m' h => (by cases h),
      fun n h => (by cases h), fun x h => (by cases h)⟩

/-- C58.  If what the rule leads to can be written, the constructor accepts it exactly if every rule it leads to has its
references defined and a derivation of a size below 2^30. -/
theorem C58_accepts (g : Grammar) (hd : NamesDistinct g) (hs : SmallMins g) (sched : Sched (Str × Rule)) (hf : sched.Fair)
    (rounds : Nat) (hrounds : astRounds g ≤ rounds) (name : Str) (r : Rule) (hr : Resolves g name r) (hw : WritableReach g r) :
    (∃ m, newASTGenerator sched rounds g name = .ok (.ok (r, m))) ↔ ProductiveWithin g r := by
  obtain ⟨m, h1, h2⟩ := newAst_cases hd hs hf hrounds hr
  rw [← good_iff hd hs h1 hr hw]
  rcases h2 with ⟨h2, h3⟩ | ⟨e, h2, h3⟩
  · exact ⟨fun _ => h3, fun _ => ⟨m, h2⟩⟩
  · constructor
    · rintro ⟨m', h4⟩
      rw [h2] at h4
      cases h4
    · intro hg
      rcases h3 with h3 | ⟨_, h3⟩
      · exact absurd hg (bad_not_good h3)
      · have := (hg r .refl).1
        omega

/-- C58.  So a rule is refused if anything it leads to is undefined or derives nothing. -/
theorem C58_refuses (g : Grammar) (hd : NamesDistinct g) (hs : SmallMins g) (sched : Sched (Str × Rule)) (hf : sched.Fair)
    (rounds : Nat) (hrounds : astRounds g ≤ rounds) (name : Str) (r : Rule) (hr : Resolves g name r) (hw : WritableReach g r)
    (hn : ¬ AllProductive g r) : ∃ e, newASTGenerator sched rounds g name = .ok (.error e) := by
  have h := C58_accepts g hd hs sched hf rounds hrounds name r hr hw
  obtain ⟨m, h1, ⟨h2, h3⟩ | ⟨e, h2, h3⟩⟩ := newAst_cases hd hs hf hrounds hr
  · refine absurd (h.mp ⟨m, h2⟩) fun hp => hn fun r' hr' => ?_
    obtain ⟨h4, w, k, h5, _⟩ := hp r' hr'
    exact ⟨h4, w, sizedAlt_derives h5⟩
  · exact ⟨e, h2⟩

/-- The grammar `a = "x" / [b]`, `b = "(" b ")"`. -/
def hidden : Grammar := ⟨[⟨['a'], [[⟨1, some 1, .charVal false ['x']⟩], [⟨1, some 1, .option [[⟨1, some 1, .rulename ['b']⟩]]⟩]]⟩,
  ⟨['b'], [[⟨1, some 1, .charVal false ['(']⟩, ⟨1, some 1, .rulename ['b']⟩, ⟨1, some 1, .charVal false [')']⟩]]⟩]⟩

example : NamesDistinct hidden ∧ SmallMins hidden ∧ (∀ r, Resolves hidden ['A'] r → WritableReach hidden r) ∧
    newASTGenerator plainRules (astRounds hidden) hidden ['A'] = .ok (.error (.nonProductive ['b'])) ∧
    newASTGenerator plainRules (astRounds hidden) hidden ['B'] = .ok (.error (.nonProductive ['B'])) := by
  have key : ∀ {g : Grammar} {n : Str} {e : AstErr}, (match newASTGenerator plainRules (astRounds g) g n with
      | .ok (.error e') => decide (e' = e) | _ => false) = true → newASTGenerator plainRules (astRounds g) g n = .ok (.error e) := by
    intro g n e h
    split at h
    · rename_i e' he
      rw [he, of_decide_eq_true h]
    · cases h
  exact ⟨namesDistinct_of (by decide), smallMins_of (by decide +kernel), fun _ hr => writable_of (by decide +kernel) (by decide +kernel) hr,
    key (by decide +kernel), key (by decide +kernel)⟩

/-- For counts from 2^33 on the costs are not those of C58: the product wraps, so that more than 2^64 bytes cost nothing. -/
theorem C58_wraps : mulClamp (2 ^ 62) (costElem [] (fun _ => none) (.charVal true (str% "xxxx"))) = 0 := by decide +kernel

/-- C59.  The order in which the rules are visited changes neither the outcome of the constructor nor, then, what a
source generates. -/
theorem C59_order (g : Grammar) (hd : NamesDistinct g) (hs : SmallMins g) (sched sched' : Sched (Str × Rule)) (hf : sched.Fair)
    (hf' : sched'.Fair) (rounds rounds' : Nat) (h : astRounds g ≤ rounds) (h' : astRounds g ≤ rounds') (name : Str) :
    newASTGenerator sched rounds g name = newASTGenerator sched' rounds' g name := by
  cases hg : getRule name g.rules with
  | none => unfold newASTGenerator; rw [hg]
  | some r =>
    have hr := (getRule_iff hd).mp hg
    obtain ⟨m, h1, h2⟩ := newAst_eq hd hs hf h hr
    obtain ⟨m', h3, h4⟩ := newAst_eq hd hs hf' h' hr
    obtain rfl := costFix_unique hd hs h1 h3
    rw [h2, h4]

/-- Another fair order, for the example. -/
def backwards : Sched (Str × Rule) := fun _ l => l.reverse

example : NamesDistinct lists ∧ SmallMins lists ∧ plainRules.Fair ∧ backwards.Fair ∧
    plainRules 0 (effective lists.rules) ≠ backwards 0 (effective lists.rules) := by
  refine ⟨namesDistinct_of (by decide), smallMins_of (by decide +kernel), plainRules_fair, fun _ l => List.reverse_perm l, fun h => ?_⟩
  have h2 : (plainRules 0 (effective lists.rules)).map Prod.fst ≠ (backwards 0 (effective lists.rules)).map Prod.fst := by decide +kernel
  exact h2 (by rw [h])

end Props
end Verif
