import Verif.AstCost

/-!
# The rules `NewASTGenerator` visits
-/

namespace Verif

open Spec

section
variable {g : Grammar} {m : CostMap} {R : Rule → Prop}

/-- What an error says: a rule of `R` mentions a name that stands for nothing, or is too costly. -/
def AstBad (g : Grammar) (m : CostMap) (R : Rule → Prop) : AstErr → Prop
  | .ruleNotFound => False
  | .undefinedRule n => (∃ r, R r ∧ ∃ q ∈ altReps r.alt, q.elem = .rulename n) ∧ ¬ ∃ r, Resolves g n r
  | .nonProductive x => ∃ r, R r ∧ Resolves g x r ∧ r.name = x ∧ astUnbounded ≤ (m x).getD 0

/-- What holds of the set of seen rules; `k` is the fuel left. -/
structure SeenInv (g : Grammar) (R : Rule → Prop) (k : Nat) (seen : List Str) : Prop where
  nodup : (seen.map canon).Nodup
  rule : ∀ x ∈ seen, ∃ r, R r ∧ Resolves g x r ∧ r.name = x
  fuel : (ruleKeys g).length < seen.length + k

/-- All references among the repetitions stand for seen rules. -/
def RefsSeen (g : Grammar) (seen : List Str) (qs : List Rep) : Prop :=
  ∀ q ∈ qs, ∀ n, q.elem = .rulename n → ∃ r, Resolves g n r ∧ r.name ∈ seen

/-- The rule called `x` is not too costly and refers to seen rules. -/
def VisitDone (g : Grammar) (m : CostMap) (seen : List Str) (x : Str) : Prop :=
  ∃ r, Resolves g x r ∧ r.name = x ∧ (m x).getD 0 < astUnbounded ∧ RefsSeen g seen (altReps r.alt)

/-- What a visit of repetitions `qs` achieves. -/
def SeePost (g : Grammar) (m : CostMap) (R : Rule → Prop) (k : Nat) (seen : List Str) (qs : List Rep) : Except AstErr (List Str) → Prop
  | .error e => AstBad g m R e
  | .ok seen' => seen ⊆ seen' ∧ SeenInv g R k seen' ∧ (∀ x ∈ seen', x ∈ seen ∨ VisitDone g m seen' x) ∧ RefsSeen g seen' qs

theorem RefsSeen.mono {s s' : List Str} {qs : List Rep} (h : s ⊆ s') (hr : RefsSeen g s qs) : RefsSeen g s' qs := by
  intro q hq n hn
  obtain ⟨r, h1, h2⟩ := hr q hq n hn
  exact ⟨r, h1, h h2⟩

theorem VisitDone.mono {s s' : List Str} {x : Str} (h : s ⊆ s') (hr : VisitDone g m s x) : VisitDone g m s' x := by
  obtain ⟨r, h1, h2, h3, h4⟩ := hr
  exact ⟨r, h1, h2, h3, h4.mono h⟩

theorem seePost_seq {k : Nat} {s s1 : List Str} {A B : List Rep} {res : Except AstErr (List Str)}
    (h1 : SeePost g m R k s A (.ok s1)) (h2 : SeePost g m R k s1 B res) : SeePost g m R k s (A ++ B) res := by
  cases res with
  | error e => exact h2
  | ok s2 =>
    obtain ⟨a1, _, a3, a4⟩ := h1
    obtain ⟨b1, b2, b3, b4⟩ := h2
    refine ⟨fun x hx => b1 (a1 hx), b2, fun x hx => ?_, fun q hq => ?_⟩
    · rcases b3 x hx with h | h
      · exact (a3 x h).imp_right (VisitDone.mono b1)
      · exact .inr h
    · rcases List.mem_append.mp hq with hq | hq
      · exact a4.mono b1 q hq
      · exact b4 q hq

theorem seePost_nil {k : Nat} {s : List Str} (h : SeenInv g R k s) {qs : List Rep} (hq : ∀ q ∈ qs, ∀ n, q.elem ≠ .rulename n) :
    SeePost g m R k s qs (.ok s) :=
  ⟨fun _ h => h, h, fun _ hx => .inl hx, fun q h n hn => absurd hn (hq q h n)⟩

variable {rec : Str → List Str → Run (Except AstErr (List Str))} {k : Nat}

/-- What is assumed of the call for a reference. -/
def VisitCall (g : Grammar) (m : CostMap) (R : Rule → Prop) (k : Nat) (rec : Str → List Str → Run (Except AstErr (List Str))) (q : Rep) : Prop :=
  ∀ n, q.elem = .rulename n → ∀ seen, SeenInv g R k seen → (rec n seen).Sat False False (SeePost g m R k seen [q])

mutual
theorem visitElem_sat : (e : Elem) → ∀ mn mx, (∀ q ∈ repReps ⟨mn, mx, e⟩, VisitCall g m R k rec q) → ∀ seen, SeenInv g R k seen →
    (visitElem rec e seen).Sat False False (SeePost g m R k seen (repReps ⟨mn, mx, e⟩))
  | .rulename n, mn, mx, h, seen, hi => by
    rw [visitElem]
    exact h _ (List.mem_cons_self ..) n rfl seen hi
  | .group a, mn, mx, h, seen, hi => by
    rw [visitElem, repReps, elemReps]
    refine (visitAlt_sat a (fun q hq => h q (List.mem_cons_of_mem _ hq)) seen hi).mono fun res h1 => ?_
    exact seePost_seq (A := [⟨mn, mx, .group a⟩]) (seePost_nil hi (by simp)) h1
  | .option a, mn, mx, h, seen, hi => by
    rw [visitElem, repReps, elemReps]
    refine (visitAlt_sat a (fun q hq => h q (List.mem_cons_of_mem _ hq)) seen hi).mono fun res h1 => ?_
    exact seePost_seq (A := [⟨mn, mx, .option a⟩]) (seePost_nil hi (by simp)) h1
  | .charVal _ _, _, _, _, _, hi => by rw [visitElem]; exacts [seePost_nil hi (by simp [repReps, elemReps]), by simp, by simp, by simp]
  | .numVal _ _ _, _, _, _, _, hi => by rw [visitElem]; exacts [seePost_nil hi (by simp [repReps, elemReps]), by simp, by simp, by simp]
  | .proseVal _, _, _, _, _, hi => by rw [visitElem]; exacts [seePost_nil hi (by simp [repReps, elemReps]), by simp, by simp, by simp]
theorem visitAlt_sat : (a : List (List Rep)) → (∀ q ∈ altReps a, VisitCall g m R k rec q) → ∀ seen, SeenInv g R k seen →
    (visitAlt rec a seen).Sat False False (SeePost g m R k seen (altReps a))
  | [], _, seen, hi => by
    rw [visitAlt]
    exact seePost_nil hi (by simp [altReps])
  | c :: a, h, seen, hi => by
    rw [visitAlt]
    refine (visitConcat_sat c (fun q hq => h q (by simp [altReps, hq])) seen hi).bnd fun res h1 => ?_
    cases res with
    | error e => exact h1
    | ok s1 =>
      rw [altReps]
      exact (visitAlt_sat a (fun q hq => h q (by simp [altReps, hq])) s1 h1.2.1).mono fun res h2 => seePost_seq h1 h2
theorem visitConcat_sat : (c : List Rep) → (∀ q ∈ concatReps c, VisitCall g m R k rec q) → ∀ seen, SeenInv g R k seen →
    (visitConcat rec c seen).Sat False False (SeePost g m R k seen (concatReps c))
  | [], _, seen, hi => by
    rw [visitConcat]
    exact seePost_nil hi (by simp [concatReps])
  | ⟨mn, mx, e⟩ :: c, h, seen, hi => by
    rw [visitConcat]
    refine (visitElem_sat e mn mx (fun q hq => h q (by simp [concatReps, hq])) seen hi).bnd fun res h1 => ?_
    cases res with
    | error e => exact h1
    | ok s1 =>
      rw [concatReps]
      exact (visitConcat_sat c (fun q hq => h q (by simp [concatReps, hq])) s1 h1.2.1).mono fun res h2 => seePost_seq h1 h2
end

theorem SeenInv.length_le {s s' : List Str} (h : SeenInv g R k s) (hs : s ⊆ s') : s.length ≤ s'.length :=
  (List.subperm_of_subset (List.Nodup.of_map _ h.nodup) hs).length_le

theorem visitRule_sat (hd : NamesDistinct g) (hR : ∀ r r', R r → Refers g r r' → R r') (k : Nat) : ∀ r0, R r0 → ∀ q ∈ altReps r0.alt, ∀ n,
    q.elem = .rulename n → ∀ seen, SeenInv g R k seen → (visitRule g.rules m k n seen).Sat False False (SeePost g m R k seen [q]) := by
  induction k with
  | zero =>
    intro r0 _ q _ n _ seen hi
    have h1 := hi.fuel
    have hs : seen.map canon ⊆ ruleKeys g := by
      intro x hx
      obtain ⟨y, hy, rfl⟩ := List.mem_map.mp hx
      obtain ⟨r, _, hr, rfl⟩ := hi.rule y hy
      exact resolves_key hr
    have := (List.subperm_of_subset hi.nodup hs).length_le
    rw [List.length_map] at this
    omega
  | succ k ih =>
    intro r0 hr0 q hq n hn seen hi
    rw [visitRule]
    cases hg : getRule n g.rules with
    | none =>
      refine ⟨⟨r0, hr0, q, hq, hn⟩, fun ⟨r, hr⟩ => ?_⟩
      rw [(getRule_iff hd).mpr hr] at hg
      cases hg
    | some r =>
      have hr := (getRule_iff hd).mp hg
      have hRr : R r := hR r0 r hr0 ⟨q, hq, n, hn, hr⟩
      have hself := resolves_self hr
      have hone : ∀ s, r.name ∈ s → RefsSeen g s [q] := by
        intro s hs q' hq' n' hn'
        obtain rfl := List.mem_singleton.mp hq'
        rw [hn] at hn'
        cases hn'
        exact ⟨r, hr, hs⟩
      simp only
      by_cases hm : r.name ∈ seen
      · rw [if_pos hm]
        exact ⟨fun _ h => h, hi, fun x hx => .inl hx, hone _ hm⟩
      rw [if_neg hm]
      by_cases hc : (m r.name).getD 0 ≥ astUnbounded
      · rw [if_pos hc]
        exact ⟨r, hRr, hself, rfl, hc⟩
      rw [if_neg hc]
      have hfresh : canon r.name ∉ seen.map canon := by
        intro hx
        obtain ⟨y, hy, e⟩ := List.mem_map.mp hx
        obtain ⟨r', _, hr', rfl⟩ := hi.rule y hy
        obtain rfl := resolves_unique hd hr' hself e
        exact hm hy
      have hi' : SeenInv g R k (r.name :: seen) := by
        refine ⟨?_, fun x hx => ?_, ?_⟩
        · rw [List.map_cons]; exact List.nodup_cons.mpr ⟨hfresh, hi.nodup⟩
        · rcases List.mem_cons.mp hx with rfl | hx
          · exact ⟨r, hRr, hself, rfl⟩
          · exact hi.rule x hx
        · have := hi.fuel
          rw [List.length_cons]
          omega
      refine (visitAlt_sat r.alt (fun q' hq' n' hn' seen' hi' => ih r hRr q' hq' n' hn' seen' hi') _ hi').mono fun res h1 => ?_
      cases res with
      | error e => exact h1
      | ok s1 =>
        obtain ⟨a1, a2, a3, a4⟩ := h1
        have hmem : r.name ∈ s1 := a1 (List.mem_cons_self ..)
        refine ⟨fun x hx => a1 (List.mem_cons_of_mem _ hx), ⟨a2.nodup, a2.rule, ?_⟩, fun x hx => ?_, hone _ hmem⟩
        · have := a2.fuel; omega
        · rcases a3 x hx with h | h
          · rcases List.mem_cons.mp h with rfl | h
            · exact .inr ⟨r, hself, rfl, Nat.lt_of_not_le hc, a4⟩
            · exact .inl h
          · exact .inr h

end

/-- What can be reached from a rule is defined and not too costly. -/
def GoodReach (g : Grammar) (m : CostMap) (r : Rule) : Prop :=
  ∀ r', Relation.ReflTransGen (Refers g) r r' → (m r'.name).getD 0 < astUnbounded ∧
    ∀ q ∈ altReps r'.alt, ∀ n, q.elem = .rulename n → ∃ r2, Resolves g n r2

/-- The visit from the start rule succeeds exactly if what can be reached is good, and otherwise names what is not. -/
theorem visit_start {g : Grammar} (hd : NamesDistinct g) {m : CostMap} {name : Str} {r : Rule} (hr : Resolves g name r)
    (hc : (m r.name).getD 0 < astUnbounded) :
    ∃ res, visitAlt (visitRule g.rules m (g.rules.length + Core.rules.length)) r.alt [r.name] = .ok res ∧
      match res with
      | .ok _ => GoodReach g m r
      | .error e => AstBad g m (Relation.ReflTransGen (Refers g) r) e := by
  have hself := resolves_self hr
  have hlen : (ruleKeys g).length = g.rules.length + Core.rules.length := by simp [ruleKeys]
  have hi : SeenInv g (Relation.ReflTransGen (Refers g) r) (g.rules.length + Core.rules.length) [r.name] := by
    refine ⟨by simp, fun x hx => ?_, by rw [hlen]; simp⟩
    rw [List.mem_singleton.mp hx]
    exact ⟨r, .refl, hself, rfl⟩
  have h := visitAlt_sat (m := m) r.alt (fun q hq n hn seen hi => visitRule_sat hd (fun _ _ h h' => .tail h h') _ r .refl q hq n hn seen hi) _ hi
  cases hv : visitAlt (visitRule g.rules m (g.rules.length + Core.rules.length)) r.alt [r.name] with
  | panic => rw [hv] at h; exact h.elim
  | fuel => rw [hv] at h; exact h.elim
  | ok res =>
    rw [hv] at h
    refine ⟨res, rfl, ?_⟩
    cases res with
    | error e => exact h
    | ok s =>
      obtain ⟨h1, h2, h3, h4⟩ := h
      have hdone : ∀ x ∈ s, VisitDone g m s x := by
        intro x hx
        rcases h3 x hx with h | h
        · rw [List.mem_singleton.mp h]
          exact ⟨r, hself, rfl, hc, h4⟩
        · exact h
      have key : ∀ r', Relation.ReflTransGen (Refers g) r r' → r'.name ∈ s ∧ Resolves g r'.name r' := by
        intro r' h
        induction h with
        | refl => exact ⟨h1 (List.mem_singleton.mpr rfl), hself⟩
        | tail h5 h6 ih =>
          obtain ⟨r2, e1, _, _, e4⟩ := hdone _ ih.1
          obtain rfl := resolves_unique hd e1 ih.2 rfl
          obtain ⟨q, hq, n, hn, hres⟩ := h6
          obtain ⟨r3, e5, e6⟩ := e4 q hq n hn
          obtain rfl := resolves_unique hd e5 hres rfl
          exact ⟨e6, resolves_self hres⟩
      intro r' hr'
      obtain ⟨k1, k2⟩ := key r' hr'
      obtain ⟨r2, e1, _, e3, e4⟩ := hdone _ k1
      obtain rfl := resolves_unique hd e1 k2 rfl
      exact ⟨e3, fun q hq n hn => by obtain ⟨r3, e5, _⟩ := e4 q hq n hn; exact ⟨r3, e5⟩⟩

/-- An error contradicts goodness. -/
theorem bad_not_good {g : Grammar} {m : CostMap} {r : Rule} {e : AstErr}
    (h : AstBad g m (Relation.ReflTransGen (Refers g) r) e) : ¬ GoodReach g m r := by
  intro hg
  cases e with
  | ruleNotFound => exact h
  | undefinedRule n =>
    obtain ⟨⟨r', h1, q, hq, hn⟩, h2⟩ := h
    exact h2 ((hg r' h1).2 q hq n hn)
  | nonProductive x =>
    obtain ⟨r', h1, _, rfl, h2⟩ := h
    have := (hg r' h1).1
    omega

end Verif
