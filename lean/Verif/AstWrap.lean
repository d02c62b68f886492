import Verif.PropsAst

/-!
# The AST generator when counts are large

The product in `mulClamp` (/repo/ast.go:369-380) is one of machine integers, which C28, C58 and C59 keep from wrapping by asking
for counts below 2^33.  Without that the constructor still returns (`C58_returns`), but whether it accepts a rule depends on
the order of Go's maps (`C59_fails`), and `Generate` can recurse without end (`C28_total_fails`).
-/

namespace Verif

open Spec

section
variable {rs : List Rule} {eff : List (Str × Rule)}

theorem costSet_sum {m : CostMap} {p : Str × Rule} {c : Nat} (hp : p ∈ eff) (hlt : c < (m p.1).getD 0) :
    costSum eff (m.set p.1 c) < costSum eff m := by
  refine costSum_lt (fun q _ => ?_) hp (by simpa [CostMap.set] using hlt)
  unfold CostMap.set
  by_cases h : q.1 = p.1
  · rw [if_pos h, h]; exact Nat.le_of_lt hlt
  · rw [if_neg h]

theorem costRound_true (l : List (Str × Rule)) : ∀ m, (costRound rs l m true).2 = true := by
  induction l with
  | nil => intro m; rfl
  | cons q l ih => intro m; rw [costRound]; split_ifs <;> exact ih _

/-- What every improvement of one cost preserves, a round preserves; a round that changes something lowers the sum. -/
theorem costRound_keeps (P : CostMap → Prop)
    (hP : ∀ m, P m → ∀ p ∈ eff, costAlt rs m p.2.alt < (m p.1).getD 0 → P (m.set p.1 (costAlt rs m p.2.alt)))
    (ps : List (Str × Rule)) : ∀ m ch, (∀ p ∈ ps, p ∈ eff) → P m →
      P (costRound rs ps m ch).1 ∧ costSum eff (costRound rs ps m ch).1 ≤ costSum eff m ∧
      (((costRound rs ps m ch).2 = true ∧ (ch = true ∨ costSum eff (costRound rs ps m ch).1 < costSum eff m)) ∨
        ((costRound rs ps m ch).2 = false ∧ (costRound rs ps m ch).1 = m ∧ ∀ p ∈ ps, (m p.1).getD 0 ≤ costAlt rs m p.2.alt)) := by
  induction ps with
  | nil =>
    intro m ch _ hi
    refine ⟨hi, Nat.le_refl _, ?_⟩
    cases ch with
    | true => exact .inl ⟨rfl, .inl rfl⟩
    | false => exact .inr ⟨rfl, rfl, fun p hp => by cases hp⟩
  | cons p ps ih =>
    intro m ch hsub hi
    have hp := hsub p (List.mem_cons_self ..)
    have hsub' : ∀ p ∈ ps, p ∈ eff := fun q hq => hsub q (List.mem_cons_of_mem _ hq)
    obtain ⟨name, r⟩ := p
    rw [costRound]
    by_cases hlt : costAlt rs m r.alt < (m name).getD 0
    · rw [if_pos hlt]
      obtain ⟨i1, i2, _⟩ := ih _ true hsub' (hP m hi _ hp hlt)
      have h3 := costSet_sum hp hlt
      simp only at i1 i2 h3
      exact ⟨i1, by omega, .inl ⟨costRound_true _ _, .inr (by omega)⟩⟩
    · rw [if_neg hlt]
      obtain ⟨i1, i2, i3⟩ := ih m ch hsub' hi
      refine ⟨i1, i2, i3.imp_right fun ⟨h1, h2, h3⟩ => ⟨h1, h2, fun q hq => ?_⟩⟩
      rcases List.mem_cons.mp hq with rfl | hq
      · exact Nat.le_of_not_lt hlt
      · exact h3 q hq

/-- The loop ends, whatever the counts, with costs that no rule improves. -/
theorem costLoop_stops (P : CostMap → Prop)
    (hP : ∀ m, P m → ∀ p ∈ eff, costAlt rs m p.2.alt < (m p.1).getD 0 → P (m.set p.1 (costAlt rs m p.2.alt)))
    {sched : Sched (Str × Rule)} (hf : sched.Fair) (k : Nat) : ∀ i m, P m → costSum eff m < k →
      ∃ m', costLoop rs sched eff k i m = .ok m' ∧ P m' ∧ ∀ p ∈ eff, (m' p.1).getD 0 ≤ costAlt rs m' p.2.alt := by
  induction k with
  | zero => intro i m _ h; omega
  | succ k ih =>
    intro i m hi hk
    have hperm := hf i eff
    obtain ⟨i1, i2, i3⟩ := costRound_keeps P hP (sched i eff) m false (fun p hp => hperm.mem_iff.mp hp) hi
    rw [costLoop]
    rcases hr : costRound rs (sched i eff) m false with ⟨m', b⟩
    rw [hr] at i1 i2 i3
    simp only at i1 i2 i3
    rcases i3 with ⟨rfl, h | h⟩ | ⟨rfl, rfl, h⟩
    · cases h
    · exact ih (i + 1) m' i1 (by omega)
    · exact ⟨m', rfl, i1, fun p hp => h p (hperm.mem_iff.mpr hp)⟩

end

/-- Enough rounds for the costs of any grammar. -/
theorem costs_stop {g : Grammar} (hd : NamesDistinct g) (P : CostMap → Prop) (h0 : P (costInit (effective g.rules)))
    (hP : ∀ m, P m → ∀ p ∈ effective g.rules, costAlt g.rules m p.2.alt < (m p.1).getD 0 → P (m.set p.1 (costAlt g.rules m p.2.alt)))
    {sched : Sched (Str × Rule)} (hf : sched.Fair) {fuel : Nat} (hfuel : astRounds g ≤ fuel) :
    ∃ m, costLoop g.rules sched (effective g.rules) fuel 0 (costInit (effective g.rules)) = .ok m ∧ P m ∧
      ∀ p ∈ effective g.rules, (m p.1).getD 0 ≤ costAlt g.rules m p.2.alt := by
  obtain ⟨_, e2, _⟩ := effective_ok hd
  have hlen : (ruleKeys g).length = g.rules.length + Core.rules.length := by simp [ruleKeys]
  rw [hlen] at e2
  refine costLoop_stops P hP hf fuel 0 _ h0 (lt_of_le_of_lt (le_trans costInit_sum (Nat.mul_le_mul_right _ e2)) ?_)
  unfold astRounds at hfuel
  unfold astUnbounded
  omega

namespace Props

/-- C58: whatever the counts, the constructor returns a generator or an error. -/
theorem C58_returns (g : Grammar) (hd : NamesDistinct g) (sched : Sched (Str × Rule)) (hf : sched.Fair) (rounds : Nat)
    (h : astRounds g ≤ rounds) (name : Str) : ∃ res, newASTGenerator sched rounds g name = .ok res := by
  cases hg : getRule name g.rules with
  | none => exact ⟨.error .ruleNotFound, by unfold newASTGenerator; rw [hg]⟩
  | some r =>
    have hr := (getRule_iff hd).mp hg
    obtain ⟨m, h1, _, _⟩ := costs_stop hd (fun _ => True) trivial (fun _ _ _ _ _ => trivial) hf h
    unfold newASTGenerator
    rw [hg]
    simp only
    rw [h1]
    simp only [Run.bnd]
    by_cases hc : (m r.name).getD 0 ≥ astUnbounded
    · rw [if_pos hc]; exact ⟨_, rfl⟩
    · rw [if_neg hc]
      obtain ⟨res, h3, _⟩ := visit_start (m := m) hd hr (by omega)
      rw [h3]
      cases res with
      | error e => exact ⟨_, rfl⟩
      | ok s => exact ⟨_, rfl⟩

/-- `a = 4611686018427387904b`, `b = c / "xxx"` and `c = ""`. -/
def wrapOnce : Grammar :=
  ⟨[⟨['a'], [[⟨2 ^ 62, some (2 ^ 62), .rulename ['b']⟩]]⟩,
    ⟨['b'], [[⟨1, some 1, .rulename ['c']⟩], [⟨1, some 1, .charVal false (str% "xxx")⟩]]⟩,
    ⟨['c'], [[⟨1, some 1, .charVal false []⟩]]⟩]⟩

/-- What is asked in `C59_fails`. -/
def accepted : Run (Except AstErr (Rule × CostMap)) → Option (Option AstErr)
  | .ok (.ok _) => some none
  | .ok (.error e) => some (some e)
  | _ => none

example : NamesDistinct wrapOnce ∧ ¬ SmallMins wrapOnce ∧ backwards.Fair ∧
    accepted (newASTGenerator backwards (astRounds wrapOnce) wrapOnce ['c']) = some none :=
  ⟨namesDistinct_of (by decide), fun h => absurd (h ⟨2 ^ 62, some (2 ^ 62), .rulename ['b']⟩ (List.mem_cons_self ..)) (by decide),
   fun _ l => List.reverse_perm l, by decide +kernel⟩

/-- C59 without the bound on counts fails: whether `NewASTGenerator` accepts a rule depends on the order in which Go ranges over
a map.  With `wrapOnce` the rule `a` is accepted or refused as not productive. -/
theorem C59_fails : ∃ (g : Grammar) (name : Str) (s s' : Sched (Str × Rule)) (start : Rule) (m : CostMap), NamesDistinct g ∧
    semvalABNF g = none ∧ s.Fair ∧ s'.Fair ∧ newASTGenerator s (astRounds g) g name = .ok (.ok (start, m)) ∧
    newASTGenerator s' (astRounds g) g name = .ok (.error (.nonProductive name)) := by
  have h : accepted (newASTGenerator plainRules (astRounds wrapOnce) wrapOnce ['a']) = some none := by decide +kernel
  have h' : accepted (newASTGenerator backwards (astRounds wrapOnce) wrapOnce ['a']) = some (some (.nonProductive ['a'])) := by
    decide +kernel
  have hs : (semvalABNF wrapOnce).isNone = true := by decide +kernel
  revert h h'
  cases e : newASTGenerator plainRules (astRounds wrapOnce) wrapOnce ['a'] with
  | panic => intro h; cases h
  | fuel => intro h; cases h
  | ok res =>
    cases res with
    | error _ => intro h; cases h
    | ok q =>
      cases e' : newASTGenerator backwards (astRounds wrapOnce) wrapOnce ['a'] with
      | panic => intro _ h; cases h
      | fuel => intro _ h; cases h
      | ok res' =>
        cases res' with
        | ok _ => intro _ h; cases h
        | error e2 =>
          intro _ h
          simp only [accepted, Option.some.injEq] at h
          subst h
          exact ⟨_, _, _, _, q.1, q.2, namesDistinct_of (by decide), Option.isNone_iff_eq_none.mp hs, plainRules_fair,
            fun _ l => List.reverse_perm l, e, e'⟩

/-- `a = 4611686018427387904b / "xxxx"` and `b = a "xx"`. -/
def steers : Grammar :=
  ⟨[⟨['a'], [[⟨2 ^ 62, some (2 ^ 62), .rulename ['b']⟩], [⟨1, some 1, .charVal false (str% "xxxx")⟩]]⟩,
    ⟨['b'], [[⟨1, some 1, .rulename ['a']⟩, ⟨1, some 1, .charVal false (str% "xx")⟩]]⟩]⟩

theorem steers_nd : NamesDistinct steers := namesDistinct_of (by decide)

/-- The rule `a` of `steers`. -/
def steerA : Rule := ⟨['a'], [[⟨2 ^ 62, some (2 ^ 62), .rulename ['b']⟩], [⟨1, some 1, .charVal false (str% "xxxx")⟩]]⟩
/-- The rule `b` of `steers`. -/
def steerB : Rule := ⟨['b'], [[⟨1, some 1, .rulename ['a']⟩, ⟨1, some 1, .charVal false (str% "xx")⟩]]⟩

theorem get_a : getRule ['a'] steers.rules = some steerA := by rfl
theorem get_b : getRule ['b'] steers.rules = some steerB := by rfl

theorem cost_b {m : CostMap} {y : Nat} (h : m ['b'] = some y) : costElem steers.rules m (.rulename ['b']) = addClamp 1 y := by
  rw [costElem, get_b]
  simp only [steerB]
  rw [h]

theorem cost_a {m : CostMap} {x : Nat} (h : m ['a'] = some x) : costElem steers.rules m (.rulename ['a']) = addClamp 1 x := by
  rw [costElem, get_a]
  simp only [steerA]
  rw [h]

theorem cost_text (m : CostMap) (vs : Str) : costElem steers.rules m (.charVal false vs) = (encodeAll vs).length := by
  rw [costElem]

theorem costAlt_a {m : CostMap} {y : Nat} (h : m ['b'] = some y) :
    costAlt steers.rules m steerA.alt = costAlt steers.rules (fun _ => some y) steerA.alt := by
  simp only [costAlt, steerA, costAlts, costReps, cost_b h, cost_b (m := fun _ => some y) rfl, cost_text]

theorem costAlt_b {m : CostMap} {x : Nat} (h : m ['a'] = some x) :
    costAlt steers.rules m steerB.alt = costAlt steers.rules (fun _ => some x) steerB.alt := by
  simp only [costAlt, steerB, costAlts, costReps, cost_a h, cost_a (m := fun _ => some x) rfl, cost_text]

/-- The costs of `a` and `b` on the way, in any order. -/
def SteerInv (m : CostMap) : Prop :=
  ∃ x y, m ['a'] = some x ∧ m ['b'] = some y ∧
    (x, y) ∈ [(2 ^ 30, 2 ^ 30), (4, 2 ^ 30), (4, 7), (0, 7), (0, 3)]

theorem steer_rule {p : Str × Rule} (hp : p ∈ effective steers.rules) :
    (p.1 = ['a'] → p.2 = steerA) ∧ (p.1 = ['b'] → p.2 = steerB) := by
  obtain ⟨e, hr⟩ := (effective_iff steers_nd).mp hp
  have hg := (getRule_iff steers_nd).mpr hr
  rw [← e] at hg
  constructor
  · intro h; rw [h, get_a] at hg; exact (Option.some.inj hg).symm
  · intro h; rw [h, get_b] at hg; exact (Option.some.inj hg).symm

theorem steer_step (m : CostMap) (hm : SteerInv m) (p : Str × Rule) (hp : p ∈ effective steers.rules)
    (hlt : costAlt steers.rules m p.2.alt < (m p.1).getD 0) : SteerInv (m.set p.1 (costAlt steers.rules m p.2.alt)) := by
  obtain ⟨x, y, hx, hy, hxy⟩ := hm
  by_cases ha : p.1 = ['a']
  · rw [(steer_rule hp).1 ha, costAlt_a hy] at hlt ⊢
    rw [ha, hx] at hlt
    refine ⟨_, y, by rw [ha]; exact if_pos rfl, by rw [ha]; exact (if_neg (by decide)).trans hy, ?_⟩
    revert hxy hlt
    generalize hc : costAlt steers.rules (fun _ => some y) steerA.alt = c
    have h1 : costAlt steers.rules (fun _ => some (2 ^ 30)) steerA.alt = 4 := by decide +kernel
    have h2 : costAlt steers.rules (fun _ => some 7) steerA.alt = 0 := by decide +kernel
    have h3 : costAlt steers.rules (fun _ => some 3) steerA.alt = 0 := by decide +kernel
    simp only [List.mem_cons, Prod.mk.injEq, List.not_mem_nil, or_false, Option.getD_some]
    rintro hlt (⟨rfl, rfl⟩ | ⟨rfl, rfl⟩ | ⟨rfl, rfl⟩ | ⟨rfl, rfl⟩ | ⟨rfl, rfl⟩) <;> simp only [h1, h2, h3] at hc <;> subst hc <;> simp at hlt ⊢
  · by_cases hb : p.1 = ['b']
    · rw [(steer_rule hp).2 hb, costAlt_b hx] at hlt ⊢
      rw [hb, hy] at hlt
      refine ⟨x, _, by rw [hb]; exact (if_neg (by decide)).trans hx, by rw [hb]; exact if_pos rfl, ?_⟩
      revert hxy hlt
      generalize hc : costAlt steers.rules (fun _ => some x) steerB.alt = c
      have h1 : costAlt steers.rules (fun _ => some (2 ^ 30)) steerB.alt = 2 ^ 30 := by decide +kernel
      have h2 : costAlt steers.rules (fun _ => some 4) steerB.alt = 7 := by decide +kernel
      have h3 : costAlt steers.rules (fun _ => some 0) steerB.alt = 3 := by decide +kernel
      simp only [List.mem_cons, Prod.mk.injEq, List.not_mem_nil, or_false, Option.getD_some]
      rintro hlt (⟨rfl, rfl⟩ | ⟨rfl, rfl⟩ | ⟨rfl, rfl⟩ | ⟨rfl, rfl⟩ | ⟨rfl, rfl⟩) <;> simp only [h1, h2, h3] at hc <;> subst hc <;> simp at hlt ⊢
    · exact ⟨x, y, (if_neg fun h => ha h.symm).trans hx, (if_neg fun h => hb h.symm).trans hy, hxy⟩

/-- Whatever the order, the costs of `a` and `b` are 0 and 3 in the end. -/
theorem steer_costs {sched : Sched (Str × Rule)} (hf : sched.Fair) {rounds : Nat} (h : astRounds steers ≤ rounds) :
    ∃ m, costLoop steers.rules sched (effective steers.rules) rounds 0 (costInit (effective steers.rules)) = .ok m ∧
      m ['a'] = some 0 ∧ m ['b'] = some 3 := by
  have h0 : SteerInv (costInit (effective steers.rules)) :=
    ⟨2 ^ 30, 2 ^ 30, by decide +kernel, by decide +kernel, List.mem_cons_self ..⟩
  obtain ⟨m, h1, ⟨x, y, hx, hy, hxy⟩, h3⟩ := costs_stop steers_nd SteerInv h0 steer_step hf h
  refine ⟨m, h1, ?_⟩
  have ka := h3 (['a'], steerA) ((effective_iff steers_nd).mpr ⟨rfl, (getRule_iff steers_nd).mp get_a⟩)
  have kb := h3 (['b'], steerB) ((effective_iff steers_nd).mpr ⟨rfl, (getRule_iff steers_nd).mp get_b⟩)
  simp only at ka kb
  rw [costAlt_a hy, hx] at ka
  rw [costAlt_b hx, hy] at kb
  have a1 : costAlt steers.rules (fun _ => some (2 ^ 30)) steerA.alt = 4 := by decide +kernel
  have a2 : costAlt steers.rules (fun _ => some 7) steerA.alt = 0 := by decide +kernel
  have b2 : costAlt steers.rules (fun _ => some 4) steerB.alt = 7 := by decide +kernel
  have b3 : costAlt steers.rules (fun _ => some 0) steerB.alt = 3 := by decide +kernel
  rw [hx, hy]
  simp only [List.mem_cons, Prod.mk.injEq, List.not_mem_nil, or_false] at hxy
  simp only [Option.getD_some] at ka kb
  rcases hxy with ⟨rfl, rfl⟩ | ⟨rfl, rfl⟩ | ⟨rfl, rfl⟩ | ⟨rfl, rfl⟩ | ⟨rfl, rfl⟩
  · rw [a1] at ka; exact absurd ka (by decide)
  · rw [b2] at kb; exact absurd kb (by decide)
  · rw [a2] at ka; exact absurd ka (by decide)
  · rw [b3] at kb; exact absurd kb (by decide)
  · exact ⟨rfl, rfl⟩

theorem astLoop_stuck {σ : Type} (o : AstOpts) (step : AstSt σ → Run (AstSt σ)) (lo n i : Nat) (hn : 0 < n) (st : AstSt σ)
    (h : step st = .fuel) : astLoop o step lo n i st = .fuel := by
  obtain ⟨k, rfl⟩ := Nat.exists_eq_succ_of_ne_zero (Nat.pos_iff_ne_zero.mp hn)
  rw [astLoop, h]
  rfl

/-- What is generated from `a` and `b` recurses at once; `K` are states in which the source only gives zeros. -/
theorem steer_alt {σ : Type} (S : Source σ) (o : AstOpts) (K : σ → Prop)
    (hK : ∀ s n, K s → (S.intn s n).1 = 0 ∧ K (S.intn s n).2) {m : CostMap} (hb : m ['b'] = some 3)
    (rec : Str → Nat → AstSt σ → Run (AstSt σ))
    (hrec : ∀ (depth : Nat) (st : AstSt σ), (o.maxDepth ≤ depth ∨ K st.src) → rec ['a'] depth st = .fuel ∧ rec ['b'] depth st = .fuel)
    (depth : Nat) (st : AstSt σ) (hd : o.maxDepth ≤ depth ∨ K st.src) :
    astAlt S o steers.rules m rec steerA.alt depth st = .fuel ∧ astAlt S o steers.rules m rec steerB.alt depth st = .fuel := by
  have c1 : cheapestConcat steers.rules m steerA.alt = 0 := by
    have e1 : costConcat steers.rules m [⟨2 ^ 62, some (2 ^ 62), .rulename ['b']⟩] = 0 := by
      simp only [costConcat, costReps, cost_b hb]; decide +kernel
    rw [steerA, cheapestConcat, e1, cheapestFrom, if_neg (Nat.not_lt_zero _), cheapestFrom]
  have hnext : ∀ st : AstSt σ, (o.maxDepth ≤ depth ∨ K st.src) → (o.maxDepth ≤ ((depth + 1 : Nat) : Int) ∨ K st.src) := by
    intro st h
    rcases h with h | h
    · left; push_cast; omega
    · exact .inr h
  have count : ∀ (n : Nat) (st : AstSt σ), astCount S o n (some n) depth st = (n, st) := by
    intro n st
    unfold astCount
    simp
  constructor
  · have hi : (astIdx S o steers.rules m steerA.alt depth st).1 = 0 ∧
        (o.maxDepth ≤ depth ∨ K (astIdx S o steers.rules m steerA.alt depth st).2.src) := by
      unfold astIdx
      by_cases ho : astOver o st depth = true
      · rw [if_pos ho]; exact ⟨c1, hd⟩
      · rw [if_neg ho, if_pos (by decide)]
        have hk : K st.src := by
          rcases hd with h | h
          · exact absurd (by unfold astOver; simp [h]) ho
          · exact h
        exact ⟨(hK _ _ hk).1, .inr (hK _ _ hk).2⟩
    unfold astAlt
    rw [if_neg (by decide), hi.1]
    simp only [steerA, astPick, astReps] at hi ⊢
    rw [count]
    simp only
    rw [astLoop_stuck _ _ _ _ _ (by decide) _ (by simp only [astElem]; exact (hrec _ _ (hnext _ hi.2)).2)]
    rfl
  · have hi : astIdx S o steers.rules m steerB.alt depth st = (0, st) := by
      unfold astIdx
      by_cases ho : astOver o st depth = true
      · rw [if_pos ho]; rfl
      · rw [if_neg ho, if_neg (by decide)]
    unfold astAlt
    rw [if_neg (by decide), hi]
    simp only [steerB, astPick, astReps]
    rw [count]
    simp only
    rw [astLoop_stuck _ _ _ _ _ (by decide) _ (by simp only [astElem]; exact (hrec _ _ (hnext _ hd)).1)]
    rfl

/-- Generating from `a` or `b` never ends: no depth of nesting suffices. -/
theorem steer_stuck {σ : Type} (S : Source σ) (o : AstOpts) (K : σ → Prop)
    (hK : ∀ s n, K s → (S.intn s n).1 = 0 ∧ K (S.intn s n).2) {m : CostMap} (hb : m ['b'] = some 3) (k : Nat) :
    ∀ (depth : Nat) (st : AstSt σ), (o.maxDepth ≤ depth ∨ K st.src) →
      astRule S o steers.rules m k ['a'] depth st = .fuel ∧ astRule S o steers.rules m k ['b'] depth st = .fuel := by
  induction k with
  | zero => intro _ _ _; exact ⟨rfl, rfl⟩
  | succ k ih =>
    intro depth st hd
    have h := steer_alt S o K hK hb (astRule S o steers.rules m k) ih depth st hd
    rw [astRule, get_a, astRule, get_b]
    exact h

/-- What is visited from `a` are `a` and `b`. -/
theorem steer_visit {m : CostMap} (hb : m ['b'] = some 3) :
    ∃ s, visitAlt (visitRule steers.rules m (steers.rules.length + Core.rules.length)) steerA.alt [steerA.name] = .ok (.ok s) := by
  have e : steers.rules.length + Core.rules.length = 16 + 1 + 1 := by decide
  rw [e]
  refine ⟨[['b'], ['a']], ?_⟩
  simp [visitAlt, visitConcat, visitElem, visitRule, steerA, get_b, steerB, hb, Run.bnd, astUnbounded, get_a]

theorem steer_new {sched : Sched (Str × Rule)} (hf : sched.Fair) {rounds : Nat} (h : astRounds steers ≤ rounds) :
    ∃ m, newASTGenerator sched rounds steers ['a'] = .ok (.ok (steerA, m)) ∧ m ['b'] = some 3 := by
  obtain ⟨m, h1, ha, hb⟩ := steer_costs hf h
  obtain ⟨s, hs⟩ := steer_visit hb
  refine ⟨m, ?_, hb⟩
  unfold newASTGenerator
  rw [get_a]
  simp only
  rw [h1]
  simp only [Run.bnd]
  rw [if_neg (by rw [show steerA.name = ['a'] from rfl, ha]; decide), hs]

/-- C28 without the bound on counts fails: the constructor accepts a rule, in every order of the maps, from which `Generate`
recurses without end; with the options unset and the empty tape, and, when `MaxDepth` is not positive, with every source.  `Generate`
is documented as total (/repo/ast.go:168-170). -/
theorem C28_total_fails : ∃ (g : Grammar) (name : Str) (start : Rule), NamesDistinct g ∧ semvalABNF g = none ∧
    DerivesRule g name (bytes% "xxxx") ∧
    ∀ (sched : Sched (Str × Rule)), sched.Fair → ∀ rounds, astRounds g ≤ rounds →
      ∃ m, newASTGenerator sched rounds g name = .ok (.ok (start, m)) ∧
        (∀ fuel, astWalk tapeSource {} g.rules m fuel start ⟨[], 0⟩ = .fuel) ∧
        ∀ (σ : Type) (S : Source σ) (o : AstOpts), o.maxDepth ≤ 0 → ∀ fuel s, astWalk S o g.rules m fuel start s = .fuel := by
  have hs : (semvalABNF steers).isNone = true := by decide +kernel
  refine ⟨steers, ['a'], steerA, steers_nd, Option.isNone_iff_eq_none.mp hs, ?_, ?_⟩
  · refine .rule _ _ _ ((getRule_iff steers_nd).mp get_a) (derivesAlt_cons.mpr (.inr (derivesAlt_cons.mpr (.inl ?_))))
    exact derivesConcat_one.mpr (derivesRep_one.mpr (.term _ (str% "xxxx") (.insensitive _ _ (List.forall₂_same.mpr fun _ _ => .inl rfl))))
  · intro sched hf rounds hr
    obtain ⟨m, h1, hb⟩ := steer_new hf hr
    refine ⟨m, h1, fun fuel => ?_, fun σ S o ho fuel s => ?_⟩
    · have hK : ∀ (s : TapeSource) n, s = ⟨[], 0⟩ → (tapeSource.intn s n).1 = 0 ∧ (tapeSource.intn s n).2 = ⟨[], 0⟩ := by
        rintro s n rfl
        have hz : tapePush 0 0 = 0 := by decide +kernel
        have hread : ∀ k, TapeSource.read k 0 ⟨[], 0⟩ = (0, ⟨[], 0⟩) := by
          intro k
          induction k with
          | zero => rfl
          | succ k ih => rw [TapeSource.read]; simpa [hz] using ih
        show ((TapeSource.intn ⟨[], 0⟩ n).1.toNat = 0 ∧ (TapeSource.intn ⟨[], 0⟩ n).2 = ⟨[], 0⟩)
        unfold TapeSource.intn
        by_cases h1 : n ≤ 1
        · rw [if_pos h1]; exact ⟨rfl, rfl⟩
        · rw [if_neg h1]; simp only; rw [hread]; exact ⟨by simp, rfl⟩
      unfold astWalk
      rw [(steer_alt tapeSource {} (· = ⟨[], 0⟩) hK hb _ (steer_stuck tapeSource {} (· = ⟨[], 0⟩) hK hb fuel) 0 ⟨⟨[], 0⟩, []⟩ (.inr rfl)).1]
      rfl
    · have hK : ∀ (s : σ) n, False → (S.intn s n).1 = 0 ∧ False := fun _ _ h => h.elim
      unfold astWalk
      rw [(steer_alt S o (fun _ => False) hK hb _ (steer_stuck S o (fun _ => False) hK hb fuel) 0 ⟨s, []⟩ (.inl ho)).1]
      rfl

end Props
end Verif
