import Verif.Ast
import Verif.GenCheck

/-!
# The costs of `NewASTGenerator`

The loop ends, and the costs it finds satisfy the equations they are computed from.
-/

namespace Verif

open Spec

/-! ## Clamped arithmetic -/

theorem addClamp_eq (a b : Nat) : addClamp a b = min (a + b) astUnbounded := by
  unfold addClamp
  split_ifs <;> omega

theorem mulClamp_eq {n : Nat} (h : n < 2 ^ 33) (c : Nat) : mulClamp n c = min (n * c) astUnbounded := by
  unfold mulClamp
  by_cases h0 : n = 0
  · subst h0; simp
  rw [if_neg h0]
  by_cases hc : c ≥ astUnbounded
  · rw [if_pos hc]
    have : 1 * astUnbounded ≤ n * c := Nat.mul_le_mul (by omega) hc
    omega
  rw [if_neg hc]
  have hlt : n * c < 2 ^ 33 * 2 ^ 30 := Nat.mul_lt_mul_of_lt_of_le h (by unfold astUnbounded at hc; omega) (by norm_num)
  have hw : wrap64 (n * c) = n * c := wrap64_eq (by omega) (by norm_cast)
  simp only [hw]
  split_ifs with h1
  · omega
  · omega

/-! ## The cost of an expression -/

/-- No repetition asks for 2^33 occurrences or more, so that no product of costs overflows. -/
def SmallMins (g : Grammar) : Prop := ∀ q ∈ rulesReps (g.rules ++ Core.rules), q.min < 2 ^ 33

section
variable {rs : List Rule} {m m' : CostMap}

theorem costReps_le (total : Nat) (h : total ≤ astUnbounded) (c : List Rep) : costReps rs m total c ≤ astUnbounded := by
  induction c generalizing total with
  | nil => unfold costReps; exact h
  | cons q c ih =>
    obtain ⟨mn, mx, e⟩ := q
    rw [costReps]
    exact ih _ (by rw [addClamp_eq]; exact Nat.min_le_right _ _)

theorem costReps_total (c : List Rep) (hs : ∀ q ∈ c, q.min < 2 ^ 33) : ∀ total, total ≤ astUnbounded →
    costReps rs m total c = min (total + costReps rs m 0 c) astUnbounded := by
  induction c with
  | nil => intro total h; unfold costReps; omega
  | cons q c ih =>
    obtain ⟨mn, mx, e⟩ := q
    intro total h
    have hs' : ∀ q ∈ c, q.min < 2 ^ 33 := fun q hq => hs q (List.mem_cons_of_mem _ hq)
    have := mulClamp_eq (hs ⟨mn, mx, e⟩ (List.mem_cons_self ..)) (costElem rs m e)
    simp only [Rep.min_mk] at this
    rw [costReps, costReps, ih hs' _ (by rw [addClamp_eq]; exact Nat.min_le_right _ _),
      ih hs' (addClamp 0 _) (by rw [addClamp_eq]; exact Nat.min_le_right _ _), addClamp_eq, addClamp_eq]
    omega

theorem costConcat_nil : costConcat rs m [] = 0 := by unfold costConcat; rw [costReps]

theorem costConcat_cons {mn : Nat} {mx : Option Nat} {e : Elem} {c : List Rep} (hs : ∀ q ∈ (⟨mn, mx, e⟩ :: c : List Rep), q.min < 2 ^ 33) :
    costConcat rs m (⟨mn, mx, e⟩ :: c) = min (mn * costElem rs m e + costConcat rs m c) astUnbounded := by
  have := mulClamp_eq (hs ⟨mn, mx, e⟩ (List.mem_cons_self ..)) (costElem rs m e)
  simp only [Rep.min_mk] at this
  unfold costConcat
  rw [costReps, costReps_total c (fun q hq => hs q (List.mem_cons_of_mem _ hq)) _ (by rw [addClamp_eq]; exact Nat.min_le_right _ _),
    addClamp_eq, this]
  omega

theorem costConcat_le (c : List Rep) : costConcat rs m c ≤ astUnbounded := costReps_le 0 (Nat.zero_le _) c

theorem costAlts_le_iff (a : List (List Rep)) : ∀ best x, costAlts rs m best a ≤ x ↔ best ≤ x ∨ ∃ c ∈ a, costConcat rs m c ≤ x := by
  induction a with
  | nil => intro best x; rw [costAlts]; simp
  | cons c a ih =>
    intro best x
    rw [costAlts, ih]
    have : (if costReps rs m 0 c < best then costReps rs m 0 c else best) ≤ x ↔ best ≤ x ∨ costConcat rs m c ≤ x := by
      unfold costConcat
      split_ifs <;> omega
    rw [this]
    simp only [List.mem_cons, exists_eq_or_imp]
    tauto

theorem costAlt_le_iff {a : Alt} (ha : a ≠ []) (x : Nat) :
    costAlt rs m a ≤ x ↔ astUnbounded ≤ x ∨ ∃ c ∈ a, costConcat rs m c ≤ x := by
  unfold costAlt
  rw [if_neg (by simpa using ha), costAlts_le_iff]

theorem costAlt_nil : costAlt rs m [] = 0 := by simp [costAlt]

theorem costAlt_le (a : Alt) : costAlt rs m a ≤ astUnbounded := by
  by_cases ha : a = []
  · subst ha; rw [costAlt_nil]; exact Nat.zero_le _
  · exact (costAlt_le_iff ha _).mpr (.inl (Nat.le_refl _))

theorem costElem_group (a : Alt) : costElem rs m (.group a) = costAlt rs m a := by rw [costElem]; rfl

/-! ## Monotony -/

/-- `m` gives every rule at most the cost `m'` gives it. -/
def CostLe (m m' : CostMap) : Prop := ∀ x c', m' x = some c' → ∃ c, m x = some c ∧ c ≤ c'

theorem CostLe.refl (m : CostMap) : CostLe m m := fun _ c h => ⟨c, h, Nat.le_refl _⟩

theorem CostLe.trans {m₁ m₂ m₃ : CostMap} (h : CostLe m₁ m₂) (h' : CostLe m₂ m₃) : CostLe m₁ m₃ := by
  intro x c hc
  obtain ⟨c', h1, h2⟩ := h' x c hc
  obtain ⟨c'', h3, h4⟩ := h x c' h1
  exact ⟨c'', h3, by omega⟩

mutual
theorem costElem_mono (h : CostLe m m') : (e : Elem) → ∀ mn mx, (∀ q ∈ repReps ⟨mn, mx, e⟩, q.min < 2 ^ 33) → costElem rs m e ≤ costElem rs m' e
  | .rulename n, _, _, _ => by
    rw [costElem, costElem]
    cases getRule n rs with
    | none => exact Nat.le_refl _
    | some r =>
      simp only
      cases hm : m' r.name with
      | none =>
        cases m r.name with
        | none => exact Nat.le_refl _
        | some c => simp only [addClamp_eq]; exact Nat.min_le_right _ _
      | some c' =>
        obtain ⟨c, hc, hle⟩ := h _ _ hm
        rw [hc]
        simp only [addClamp_eq]
        omega
  | .group a, _, _, hs => by
    rw [costElem_group, costElem_group]
    exact costAlt_mono h a fun q hq => hs q (List.mem_cons_of_mem _ hq)
  | .option _, _, _, _ => by rw [costElem, costElem]
  | .charVal _ _, _, _, _ => by rw [costElem, costElem]
  | .numVal _ .series _, _, _, _ => by rw [costElem, costElem]
  | .numVal _ .range _, _, _, _ => by rw [costElem, costElem]
  | .proseVal _, _, _, _ => by rw [costElem, costElem]
theorem costAlt_mono (h : CostLe m m') : (a : List (List Rep)) → (∀ q ∈ altReps a, q.min < 2 ^ 33) → costAlt rs m a ≤ costAlt rs m' a
  | [], _ => by rw [costAlt_nil]; exact Nat.zero_le _
  | [c], hs => by
    have h1 := costConcat_mono h c fun q hq => hs q (by simp [altReps, hq])
    rw [costAlt_le_iff (by simp)]
    have h2 := (costAlt_le_iff (rs := rs) (m := m') (a := [c]) (by simp) _).mp (Nat.le_refl _)
    rcases h2 with h2 | ⟨d, hd, h2⟩
    · exact .inl h2
    · rw [List.mem_singleton.mp hd] at h2
      exact .inr ⟨c, List.mem_singleton.mpr rfl, by omega⟩
  | c :: c' :: a, hs => by
    have h1 := costConcat_mono h c fun q hq => hs q (by simp [altReps, hq])
    have ih := costAlt_mono h (c' :: a) fun q hq => hs q (by rw [altReps]; exact List.mem_append_right _ hq)
    rw [costAlt_le_iff (by simp)]
    have h2 := (costAlt_le_iff (rs := rs) (m := m') (a := c :: c' :: a) (by simp) _).mp (Nat.le_refl _)
    rcases h2 with h2 | ⟨d, hd, h2⟩
    · exact .inl h2
    · rcases List.mem_cons.mp hd with rfl | hd
      · exact .inr ⟨d, List.mem_cons_self .., by omega⟩
      · have h3 : costAlt rs m (c' :: a) ≤ costAlt rs m' (c :: c' :: a) :=
          le_trans ih ((costAlt_le_iff (by simp) _).mpr (.inr ⟨d, hd, h2⟩))
        rcases (costAlt_le_iff (by simp) _).mp h3 with h4 | ⟨d', hd', h4⟩
        · exact .inl h4
        · exact .inr ⟨d', List.mem_cons_of_mem _ hd', h4⟩
theorem costConcat_mono (h : CostLe m m') : (c : List Rep) → (∀ q ∈ concatReps c, q.min < 2 ^ 33) → costConcat rs m c ≤ costConcat rs m' c
  | [], _ => by rw [costConcat_nil]; exact Nat.zero_le _
  | ⟨mn, mx, e⟩ :: c, hs => by
    have hs' : ∀ q ∈ (⟨mn, mx, e⟩ :: c : List Rep), q.min < 2 ^ 33 := fun q hq => hs q (mem_concatReps hq)
    rw [costConcat_cons hs', costConcat_cons hs']
    have h1 := costElem_mono h e mn mx fun q hq => hs q (by simp [concatReps, hq])
    have h2 := costConcat_mono h c fun q hq => hs q (by simp [concatReps, hq])
    have h3 : mn * costElem rs m e ≤ mn * costElem rs m' e := Nat.mul_le_mul_left _ h1
    omega
end
end

/-! ## The map of rules -/

theorem effSet_mem {r : Rule} {m : List (Str × Rule)} {p : Str × Rule} (h : p ∈ effSet r m) : p = (r.name, r) ∨ p ∈ m := by
  induction m with
  | nil => exact .inl (List.mem_singleton.mp h)
  | cons q m ih =>
    unfold effSet at h
    split_ifs at h with hq
    · rcases List.mem_cons.mp h with h | h
      · exact .inl h
      · exact .inr (List.mem_cons_of_mem _ h)
    · rcases List.mem_cons.mp h with h | h
      · exact .inr (h ▸ List.mem_cons_self ..)
      · exact (ih h).imp_right (List.mem_cons_of_mem _)

theorem effSet_self (r : Rule) (m : List (Str × Rule)) : (r.name, r) ∈ effSet r m := by
  induction m with
  | nil => exact List.mem_singleton.mpr rfl
  | cons q m ih =>
    unfold effSet
    split_ifs
    · exact List.mem_cons_self ..
    · exact List.mem_cons_of_mem _ ih

theorem effSet_keep {r : Rule} {m : List (Str × Rule)} {p : Str × Rule} (h : p ∈ m) (hp : p.1 = r.name → p = (r.name, r)) :
    p ∈ effSet r m := by
  induction m with
  | nil => cases h
  | cons q m ih =>
    unfold effSet
    split_ifs with hq
    · rcases List.mem_cons.mp h with h | h
      · subst h; rw [hp hq]; exact List.mem_cons_self ..
      · exact List.mem_cons_of_mem _ h
    · rcases List.mem_cons.mp h with h | h
      · exact h ▸ List.mem_cons_self ..
      · exact List.mem_cons_of_mem _ (ih h)

theorem effSet_keys (r : Rule) (m : List (Str × Rule)) :
    (effSet r m).map Prod.fst = if r.name ∈ m.map Prod.fst then m.map Prod.fst else m.map Prod.fst ++ [r.name] := by
  induction m with
  | nil => simp [effSet]
  | cons q m ih =>
    unfold effSet
    by_cases hq : q.1 = r.name
    · rw [if_pos hq]; simp [hq]
    · rw [if_neg hq, List.map_cons, ih]
      simp only [List.map_cons, List.mem_cons, Ne.symm hq, false_or]
      split_ifs <;> simp

section
variable {g : Grammar} (hd : NamesDistinct g)
include hd

/-- What holds of the map while it is filled. -/
def EffOK (g : Grammar) (m : List (Str × Rule)) : Prop :=
  (m.map Prod.fst).Nodup ∧ m.length ≤ (ruleKeys g).length ∧ ∀ p ∈ m, p.1 = p.2.name ∧ Resolves g p.2.name p.2

omit hd in
theorem effOK_length {m : List (Str × Rule)} (hd : NamesDistinct g) (h : (m.map Prod.fst).Nodup)
    (h' : ∀ p ∈ m, p.1 = p.2.name ∧ Resolves g p.2.name p.2) : m.length ≤ (ruleKeys g).length := by
  have hn : (m.map fun p => canon p.1).Nodup := by
    rw [List.nodup_map_iff_inj_on (List.Nodup.of_map _ h)]
    intro p hp q hq e
    obtain ⟨h1, h2⟩ := h' p hp
    obtain ⟨h3, h4⟩ := h' q hq
    have := resolves_unique hd h2 h4 (by rw [← h1, ← h3]; exact e)
    exact Prod.ext (by rw [h1, h3, this]) this
  have hs : (m.map fun p => canon p.1) ⊆ ruleKeys g := by
    intro x hx
    obtain ⟨p, hp, rfl⟩ := List.mem_map.mp hx
    rw [(h' p hp).1]
    exact resolves_key (h' p hp).2
  have := (List.subperm_of_subset hn hs).length_le
  simpa using this

theorem effAdd_ok (ns : List Str) : ∀ m, EffOK g m → EffOK g (effAdd g.rules m ns) ∧
    (∀ p ∈ m, p ∈ effAdd g.rules m ns) ∧ ∀ n ∈ ns, ∀ r, Resolves g n r → (r.name, r) ∈ effAdd g.rules m ns := by
  induction ns with
  | nil => intro m h; exact ⟨h, fun _ h => h, fun n hn => by cases hn⟩
  | cons n ns ih =>
    intro m h
    unfold effAdd
    cases hg : getRule n g.rules with
    | none =>
      obtain ⟨i1, i2, i3⟩ := ih m h
      refine ⟨i1, i2, fun n' hn' r hr => ?_⟩
      rcases List.mem_cons.mp hn' with rfl | hn'
      · rw [(getRule_iff hd).mpr hr] at hg; cases hg
      · exact i3 n' hn' r hr
    | some r =>
      have hr := (getRule_iff hd).mp hg
      have hres := resolves_self hr
      have hok : EffOK g (effSet r m) := by
        have h1 : ((effSet r m).map Prod.fst).Nodup := by
          rw [effSet_keys]
          split_ifs with hm
          · exact h.1
          · rw [List.nodup_append]
            exact ⟨h.1, List.nodup_singleton _, fun a ha b hb e => hm (by rw [← List.mem_singleton.mp hb, ← e]; exact ha)⟩
        have h2 : ∀ p ∈ effSet r m, p.1 = p.2.name ∧ Resolves g p.2.name p.2 := by
          intro p hp
          rcases effSet_mem hp with rfl | hp
          · exact ⟨rfl, hres⟩
          · exact h.2.2 p hp
        exact ⟨h1, effOK_length hd h1 h2, h2⟩
      obtain ⟨i1, i2, i3⟩ := ih (effSet r m) hok
      refine ⟨i1, fun p hp => i2 p (effSet_keep hp fun e => ?_), fun n' hn' r' hr' => ?_⟩
      · obtain ⟨e1, e2⟩ := h.2.2 p hp
        have := resolves_unique hd e2 hres (by rw [← e1, e])
        exact Prod.ext e this
      · rcases List.mem_cons.mp hn' with rfl | hn'
        · obtain rfl := resolves_unique hd hr' hr rfl
          exact i2 _ (effSet_self _ _)
        · exact i3 n' hn' r' hr'

/-- The rules names can refer to, each under its own name. -/
theorem effective_iff {p : Str × Rule} : p ∈ effective g.rules ↔ p.1 = p.2.name ∧ Resolves g p.2.name p.2 := by
  obtain ⟨h1, h2, h3⟩ := effAdd_ok hd (g.rules.map Rule.name) [] ⟨List.nodup_nil, Nat.zero_le _, fun p hp => by cases hp⟩
  obtain ⟨h4, h5, h6⟩ := effAdd_ok hd (Core.rules.map Rule.name) _ h1
  refine ⟨h4.2.2 p, fun ⟨e, hr⟩ => ?_⟩
  obtain ⟨x, r⟩ := p
  obtain rfl : x = r.name := e
  have key : r.name ∈ g.rules.map Rule.name ∨ r.name ∈ Core.rules.map Rule.name := by
    cases hr with
    | user h _ => exact .inl (List.mem_map_of_mem h)
    | core h _ _ => exact .inr (List.mem_map_of_mem h)
  rcases key with key | key
  · exact h5 _ (h3 _ key r hr)
  · exact h6 _ key r hr

theorem effective_ok : EffOK g (effective g.rules) := by
  obtain ⟨h1, h2, h3⟩ := effAdd_ok hd (g.rules.map Rule.name) [] ⟨List.nodup_nil, Nat.zero_le _, fun p hp => by cases hp⟩
  exact (effAdd_ok hd (Core.rules.map Rule.name) _ h1).1

end

/-! ## The fixpoint -/

section
variable {rs : List Rule} {eff : List (Str × Rule)}

/-- What holds between the rounds: exactly the rules of the map have a cost, and it is no less than what computing it
again gives. -/
structure CostInv (rs : List Rule) (eff : List (Str × Rule)) (m : CostMap) : Prop where
  dom : ∀ p ∈ eff, ∃ c, m p.1 = some c
  out : ∀ x, x ∉ eff.map Prod.fst → m x = none
  le : ∀ p ∈ eff, ∀ c, m p.1 = some c → c ≤ astUnbounded ∧ costAlt rs m p.2.alt ≤ c

/-- The sum of the costs of the rules of the map. -/
def costSum (eff : List (Str × Rule)) (m : CostMap) : Nat := (eff.map fun p => (m p.1).getD 0).sum

theorem costSum_le {eff : List (Str × Rule)} {m m' : CostMap} (h : ∀ p ∈ eff, (m' p.1).getD 0 ≤ (m p.1).getD 0) :
    costSum eff m' ≤ costSum eff m := by
  induction eff with
  | nil => exact Nat.le_refl _
  | cons p eff ih =>
    have h1 := h p (List.mem_cons_self ..)
    have h2 := ih fun q hq => h q (List.mem_cons_of_mem _ hq)
    simp only [costSum, List.map_cons, List.sum_cons] at h2 ⊢
    omega

theorem costSum_lt {eff : List (Str × Rule)} {m m' : CostMap} (h : ∀ p ∈ eff, (m' p.1).getD 0 ≤ (m p.1).getD 0)
    {q : Str × Rule} (hq : q ∈ eff) (hlt : (m' q.1).getD 0 < (m q.1).getD 0) : costSum eff m' < costSum eff m := by
  induction eff with
  | nil => cases hq
  | cons p eff ih =>
    have h1 := h p (List.mem_cons_self ..)
    have h2 : ∀ q ∈ eff, _ := fun q hq => h q (List.mem_cons_of_mem _ hq)
    have h3 := costSum_le h2
    rcases List.mem_cons.mp hq with rfl | hq
    · simp only [costSum, List.map_cons, List.sum_cons] at h3 ⊢
      omega
    · have h4 := ih h2 hq
      simp only [costSum, List.map_cons, List.sum_cons] at h4 ⊢
      omega

variable (hn : (eff.map Prod.fst).Nodup) (hs : ∀ p ∈ eff, ∀ q ∈ altReps p.2.alt, q.min < 2 ^ 33)
include hn hs

theorem costSet_inv {m : CostMap} (hi : CostInv rs eff m) {p : Str × Rule} (hp : p ∈ eff)
    (hlt : costAlt rs m p.2.alt < (m p.1).getD 0) : CostInv rs eff (m.set p.1 (costAlt rs m p.2.alt)) ∧
      CostLe (m.set p.1 (costAlt rs m p.2.alt)) m ∧ costSum eff (m.set p.1 (costAlt rs m p.2.alt)) < costSum eff m := by
  obtain ⟨c0, hc0⟩ := hi.dom p hp
  have hle : CostLe (m.set p.1 (costAlt rs m p.2.alt)) m := by
    intro x c hc
    unfold CostMap.set
    by_cases hx : x = p.1
    · subst hx
      rw [if_pos rfl]
      rw [hc] at hlt
      exact ⟨_, rfl, by simpa using Nat.le_of_lt hlt⟩
    · rw [if_neg hx]
      exact ⟨c, hc, Nat.le_refl _⟩
  refine ⟨⟨fun q hq => ?_, fun x hx => ?_, fun q hq c hc => ?_⟩, hle, costSum_lt (fun q hq => ?_) hp ?_⟩
  · unfold CostMap.set
    by_cases hx : q.1 = p.1
    · exact ⟨_, if_pos hx⟩
    · rw [if_neg hx]; exact hi.dom q hq
  · unfold CostMap.set
    rw [if_neg (by rintro rfl; exact hx (List.mem_map_of_mem hp))]
    exact hi.out x hx
  · have hmono := costAlt_mono (rs := rs) hle q.2.alt (hs q hq)
    unfold CostMap.set at hc
    by_cases hx : q.1 = p.1
    · have e : q = p := List.inj_on_of_nodup_map hn hq hp hx
      subst e
      rw [if_pos rfl] at hc
      cases hc
      exact ⟨costAlt_le _, hmono⟩
    · rw [if_neg hx] at hc
      obtain ⟨h1, h2⟩ := hi.le q hq c hc
      exact ⟨h1, le_trans hmono h2⟩
  · obtain ⟨c, hc⟩ := hi.dom q hq
    obtain ⟨c', hc', hle'⟩ := hle _ _ hc
    rw [hc, hc']
    exact hle'
  · simpa [CostMap.set] using hlt

theorem costRound_inv (ps : List (Str × Rule)) : ∀ m ch, (∀ p ∈ ps, p ∈ eff) → CostInv rs eff m →
    CostInv rs eff (costRound rs ps m ch).1 ∧ costSum eff (costRound rs ps m ch).1 ≤ costSum eff m ∧
    (((costRound rs ps m ch).2 = true ∧ (ch = true ∨ costSum eff (costRound rs ps m ch).1 < costSum eff m)) ∨
      ((costRound rs ps m ch).2 = false ∧ (costRound rs ps m ch).1 = m ∧
        ∀ p ∈ ps, (m p.1).getD 0 ≤ costAlt rs m p.2.alt)) := by
  induction ps with
  | nil =>
    intro m ch _ hi
    refine ⟨hi, Nat.le_refl _, ?_⟩
    cases ch with
    | true => exact .inl ⟨rfl, .inl rfl⟩
    | false => exact .inr ⟨rfl, rfl, fun p hp => by cases hp⟩
  | cons p ps ih =>
    intro m ch hsub hi
    have hp := hsub p (List.mem_cons_self ..)
    have hsub' : ∀ p ∈ ps, p ∈ eff := fun q hq => hsub q (List.mem_cons_of_mem _ hq)
    obtain ⟨name, r⟩ := p
    rw [costRound]
    by_cases hlt : costAlt rs m r.alt < (m name).getD 0
    · rw [if_pos hlt]
      obtain ⟨h1, _, h3⟩ := costSet_inv hn hs hi hp hlt
      obtain ⟨i1, i2, i3⟩ := ih _ true hsub' h1
      simp only at i1 i2 i3 h3
      refine ⟨i1, by omega, .inl ⟨?_, .inr (by omega)⟩⟩
      rcases i3 with ⟨i3, _⟩ | ⟨i3, i4, _⟩
      · exact i3
      · exfalso
        have key : ∀ (l : List (Str × Rule)) m, (costRound rs l m true).2 = true := by
          intro l
          induction l with
          | nil => intro m; rfl
          | cons q l ih => intro m; rw [costRound]; split_ifs <;> exact ih _
        rw [key] at i3
        cases i3
    · rw [if_neg hlt]
      obtain ⟨i1, i2, i3⟩ := ih m ch hsub' hi
      refine ⟨i1, i2, i3.imp_right fun ⟨h1, h2, h3⟩ => ⟨h1, h2, fun q hq => ?_⟩⟩
      rcases List.mem_cons.mp hq with rfl | hq
      · exact Nat.le_of_not_lt hlt
      · exact h3 q hq

/-- The loop ends after at most as many rounds as the sum of the costs it starts with, and one more; then every cost is
what computing it again gives. -/
theorem costLoop_ends {sched : Sched (Str × Rule)} (hf : sched.Fair) (k : Nat) : ∀ i m, CostInv rs eff m → costSum eff m < k →
    ∃ m', costLoop rs sched eff k i m = .ok m' ∧ CostInv rs eff m' ∧ ∀ p ∈ eff, m' p.1 = some (costAlt rs m' p.2.alt) := by
  induction k with
  | zero => intro i m _ h; omega
  | succ k ih =>
    intro i m hi hk
    have hperm := hf i eff
    obtain ⟨i1, i2, i3⟩ := costRound_inv hn hs (sched i eff) m false (fun p hp => hperm.mem_iff.mp hp) hi
    rw [costLoop]
    rcases hr : costRound rs (sched i eff) m false with ⟨m', b⟩
    rw [hr] at i1 i2 i3
    simp only at i1 i2 i3
    rcases i3 with ⟨rfl, h | h⟩ | ⟨rfl, rfl, h⟩
    · cases h
    · exact ih (i + 1) m' i1 (by omega)
    · refine ⟨m', rfl, i1, fun p hp => ?_⟩
      obtain ⟨c, hc⟩ := i1.dom p hp
      have h1 := (i1.le p hp c hc).2
      have h2 := h p (hperm.mem_iff.mpr hp)
      rw [hc] at h2 ⊢
      simp only [Option.getD_some] at h2
      rw [Nat.le_antisymm h2 h1]

omit hn hs in
theorem costInit_inv : CostInv rs eff (costInit eff) := by
  refine ⟨fun p hp => ⟨astUnbounded, if_pos (List.mem_map_of_mem hp)⟩, fun x hx => if_neg hx, fun p hp c hc => ?_⟩
  rw [costInit, if_pos (List.mem_map_of_mem hp)] at hc
  cases hc
  exact ⟨Nat.le_refl _, costAlt_le _⟩

omit hn hs in
theorem costInit_sum : costSum eff (costInit eff) ≤ eff.length * astUnbounded := by
  have : ∀ l : List (Str × Rule), (l.map fun p => (costInit eff p.1).getD 0).sum ≤ l.length * astUnbounded := by
    intro l
    induction l with
    | nil => simp
    | cons p l ih =>
      have h1 : (costInit eff p.1).getD 0 ≤ astUnbounded := by
        unfold costInit
        split_ifs <;> simp
      simp only [List.map_cons, List.sum_cons, List.length_cons, Nat.add_mul, Nat.one_mul]
      omega
  exact this eff

end

/-- The costs of every rule satisfy the equations they are computed from. -/
structure CostFix (g : Grammar) (m : CostMap) : Prop where
  eq : ∀ r, Resolves g r.name r → m r.name = some (costAlt g.rules m r.alt)
  out : ∀ x c, m x = some c → ∃ r, Resolves g r.name r ∧ r.name = x

theorem small_rule {g : Grammar} (hs : SmallMins g) {n : Str} {r : Rule} (hr : Resolves g n r) : ∀ q ∈ altReps r.alt, q.min < 2 ^ 33 := by
  intro q hq
  refine hs q (List.mem_flatMap.mpr ⟨r, ?_, hq⟩)
  cases hr with
  | user h _ => exact List.mem_append_left _ h
  | core h _ _ => exact List.mem_append_right _ h

/-- Whatever the order of the map, the costs are found within a bounded number of rounds. -/
theorem costs_found {g : Grammar} (hd : NamesDistinct g) (hs : SmallMins g) {sched : Sched (Str × Rule)} (hf : sched.Fair)
    {fuel : Nat} (hfuel : (g.rules.length + Core.rules.length) * 2 ^ 30 < fuel) :
    ∃ m, costLoop g.rules sched (effective g.rules) fuel 0 (costInit (effective g.rules)) = .ok m ∧ CostFix g m := by
  obtain ⟨e1, e2, e3⟩ := effective_ok hd
  have hlen : (ruleKeys g).length = g.rules.length + Core.rules.length := by simp [ruleKeys]
  rw [hlen] at e2
  obtain ⟨m, h1, h2, h3⟩ := costLoop_ends (rs := g.rules) e1 (fun p hp => small_rule hs (e3 p hp).2) hf fuel 0 _ costInit_inv
    (lt_of_le_of_lt (le_trans costInit_sum (Nat.mul_le_mul_right _ e2)) hfuel)
  refine ⟨m, h1, ⟨fun r hr => h3 (r.name, r) ((effective_iff hd).mpr ⟨rfl, hr⟩), fun x c hc => ?_⟩⟩
  by_contra hno
  have : x ∉ (effective g.rules).map Prod.fst := by
    intro hx
    obtain ⟨p, hp, rfl⟩ := List.mem_map.mp hx
    exact hno ⟨p.2, (e3 p hp).2, (e3 p hp).1.symm⟩
  rw [h2.out x this] at hc
  cases hc

end Verif
