import Verif.PropsGen
import Verif.PropsAbnf

/-!
# C109: how many rules the check before generating looks up

`checkCanGenerateSafely` (/repo/generate.go:162-247) follows every reference that is not optional, and forgets what it
found: `scopeRules` (/repo/generate.go:214) only holds the rules on the way.  Here the check also counts the calls of
`GetRule` at /repo/generate.go:222.
-/

namespace Verif
open Spec

namespace GenCost

/-- One thing after another, with what they cost. -/
def after {α β : Type} (x : Run α × Nat) (f : α → Run β × Nat) : Run β × Nat :=
  match x with
  | (.ok a, n) => ((f a).1, n + (f a).2)
  | (.panic, n) => (.panic, n)
  | (.fuel, n) => (.fuel, n)

mutual
/-- `checkGenConcats` with its cost (/repo/generate.go:184-187). -/
def costConcats (rec : List Str → Str → Run Bool × Nat) (known : List Str) : List (List Rep) → Run (List Bool) × Nat
  | [] => (.ok [], 0)
  | c :: a => after (costConcat rec known c) fun e => after (costConcats rec known a) fun es => (.ok (e :: es), 0)
/-- `checkGenConcat` with its cost (/repo/generate.go:200-247). -/
def costConcat (rec : List Str → Str → Run Bool × Nat) (known : List Str) : List Rep → Run Bool × Nat
  | [] => (.ok false, 0)
  | ⟨mn, _, e⟩ :: c =>
    if mn = 0 then costConcat rec known c
    else after (costElem rec known e) fun err => if err then (.ok true, 0) else costConcat rec known c
/-- `checkGenElem` with its cost (/repo/generate.go:209-244). -/
def costElem (rec : List Str → Str → Run Bool × Nat) (known : List Str) : Elem → Run Bool × Nat
  | .rulename n => rec known n
  | .group a => after (costConcats rec known a) fun errs => (.ok (joinErrs errs), 0)
  | .proseVal _ => (.ok true, 0)
  | _ => (.ok false, 0)
end

/-- `checkGenAlt` with its cost (/repo/generate.go:183-198). -/
def costAlt (rec : List Str → Str → Run Bool × Nat) (known : List Str) (a : Alt) : Run Bool × Nat :=
  after (costConcats rec known a) fun errs => (.ok (joinErrs errs), 0)

/-- `checkGenRule` with its cost: one for the call of `GetRule` (/repo/generate.go:222). -/
def costRule (g : Grammar) : Nat → List Str → Str → Run Bool × Nat
  | 0, _, _ => (.fuel, 0)
  | k + 1, known, n =>
    if known.any fun x => equalFold n x then (.ok true, 0)
    else
      match getRule n g.rules with
      | none => (.panic, 1)
      | some r => ((costAlt (costRule g k) (n :: known) r.alt).1, 1 + (costAlt (costRule g k) (n :: known) r.alt).2)

/-- `checkCanGenerateSafely` with its cost (/repo/generate.go:162-181). -/
def costSafely (g : Grammar) (name : Str) : Run (Option GenErr) × Nat :=
  match getRule name g.rules with
  | none => (.ok (some .ruleNotFound), 0)
  | some r => after (costAlt (costRule g (g.rules.length + Core.rules.length + 1)) [name] r.alt) fun err =>
      (.ok (if err then some .cyclicRule else none), 0)

/-! ## It is the same check -/

theorem after_fst {α β : Type} {x : Run α × Nat} {y : Run α} {f : α → Run β × Nat} {h : α → Run β} (hx : x.1 = y) (hf : ∀ a, (f a).1 = h a) :
    (after x f).1 = y.bnd h := by
  obtain ⟨r, n⟩ := x
  subst hx
  cases r with
  | ok a => exact hf a
  | panic => rfl
  | fuel => rfl

section
variable {rec : List Str → Str → Run Bool × Nat} {rec' : List Str → Str → Run Bool}

mutual
theorem costConcats_fst (hr : ∀ k n, (rec k n).1 = rec' k n) (known : List Str) : ∀ a : List (List Rep),
    (costConcats rec known a).1 = checkGenConcats rec' known a
  | [] => by rw [costConcats, checkGenConcats]
  | c :: a => by
    rw [costConcats, checkGenConcats]
    exact after_fst (costConcat_fst hr known c) fun e => after_fst (costConcats_fst hr known a) fun es => rfl
theorem costConcat_fst (hr : ∀ k n, (rec k n).1 = rec' k n) (known : List Str) : ∀ c : List Rep,
    (costConcat rec known c).1 = checkGenConcat rec' known c
  | [] => by rw [costConcat, checkGenConcat]
  | ⟨mn, mx, e⟩ :: c => by
    rw [costConcat, checkGenConcat]
    by_cases h : mn = 0
    · rw [if_pos h, if_pos h]
      exact costConcat_fst hr known c
    · rw [if_neg h, if_neg h]
      refine after_fst (costElem_fst hr known e) fun err => ?_
      cases err
      · exact costConcat_fst hr known c
      · rfl
theorem costElem_fst (hr : ∀ k n, (rec k n).1 = rec' k n) (known : List Str) : ∀ e : Elem,
    (costElem rec known e).1 = checkGenElem rec' known e
  | .rulename n => by rw [costElem, checkGenElem]; exact hr known n
  | .group a => by
    rw [costElem, checkGenElem]
    exact after_fst (costConcats_fst hr known a) fun errs => rfl
  | .proseVal _ => by rw [costElem, checkGenElem]
  | .option _ => by simp [costElem, checkGenElem]
  | .charVal _ _ => by simp [costElem, checkGenElem]
  | .numVal _ _ _ => by simp [costElem, checkGenElem]
end

theorem costAlt_fst (hr : ∀ k n, (rec k n).1 = rec' k n) (known : List Str) (a : Alt) : (costAlt rec known a).1 = checkGenAlt rec' known a :=
  after_fst (costConcats_fst hr known a) fun _ => rfl

end

theorem costRule_fst (g : Grammar) : ∀ (k : Nat) (known : List Str) (n : Str), (costRule g k known n).1 = checkGenRule g k known n
  | 0, _, _ => rfl
  | k + 1, known, n => by
    rw [costRule, checkGenRule]
    split_ifs
    · rfl
    · cases getRule n g.rules with
      | none => rfl
      | some r => exact costAlt_fst (costRule_fst g k) _ _

/-- Counting does not change the check. -/
theorem costSafely_fst (g : Grammar) (name : Str) : (costSafely g name).1 = checkCanGenerateSafely g name := by
  unfold costSafely checkCanGenerateSafely
  cases getRule name g.rules with
  | none => rfl
  | some r => exact after_fst (costAlt_fst (costRule_fst g _) _ _) fun _ => rfl

/-! ## At most -/

theorem after_le {α β : Type} {x : Run α × Nat} {f : α → Run β × Nat} {p q : Nat} (hx : x.2 ≤ p) (hf : ∀ a, (f a).2 ≤ q) : (after x f).2 ≤ p + q := by
  obtain ⟨r, n⟩ := x
  cases r with
  | ok a => exact Nat.add_le_add hx (hf a)
  | panic => exact Nat.le_add_right_of_le hx
  | fuel => exact Nat.le_add_right_of_le hx

section
variable {rec : List Str → Str → Run Bool × Nat} {B : Nat}

mutual
theorem costConcats_le (hr : ∀ k n, (rec k n).2 ≤ B) (known : List Str) : ∀ a : List (List Rep), (costConcats rec known a).2 ≤ (altReps a).length * B
  | [] => by rw [costConcats]; exact Nat.zero_le _
  | c :: a => by
    rw [costConcats, altReps, List.length_append, Nat.add_mul]
    exact after_le (costConcat_le hr known c) fun e => after_le (q := 0) (costConcats_le hr known a) fun es => Nat.le_refl _
theorem costConcat_le (hr : ∀ k n, (rec k n).2 ≤ B) (known : List Str) : ∀ c : List Rep, (costConcat rec known c).2 ≤ (concatReps c).length * B
  | [] => by rw [costConcat]; exact Nat.zero_le _
  | ⟨mn, mx, e⟩ :: c => by
    have ih := costConcat_le hr known c
    rw [costConcat, concatReps, List.length_append, Nat.add_mul]
    by_cases h : mn = 0
    · rw [if_pos h]
      exact Nat.le_add_left_of_le ih
    · rw [if_neg h]
      refine after_le ?_ fun err => ?_
      · rw [repReps, List.length_cons]
        exact costElem_le hr known e
      · cases err
        · exact ih
        · exact Nat.zero_le _
theorem costElem_le (hr : ∀ k n, (rec k n).2 ≤ B) (known : List Str) : ∀ e : Elem, (costElem rec known e).2 ≤ ((elemReps e).length + 1) * B
  | .rulename n => by
    rw [costElem, Nat.succ_mul]
    exact Nat.le_add_left_of_le (hr known n)
  | .group a => by
    rw [costElem, elemReps, Nat.succ_mul]
    exact Nat.le_add_right_of_le (after_le (q := 0) (costConcats_le hr known a) fun errs => Nat.le_refl _)
  | .proseVal _ => by rw [costElem]; exact Nat.zero_le _
  | .option _ => by simp [costElem]
  | .charVal _ _ => by simp [costElem]
  | .numVal _ _ _ => by simp [costElem]
end

end

theorem costAlt_le {rec : List Str → Str → Run Bool × Nat} {B : Nat} (hr : ∀ k n, (rec k n).2 ≤ B) (known : List Str) (a : Alt) :
    (costAlt rec known a).2 ≤ (altReps a).length * B :=
  after_le (q := 0) (costConcats_le hr known a) fun _ => Nat.le_refl _

theorem getRule_mem {n : Str} {rs : List Rule} {r : Rule} (h : getRule n rs = some r) : r ∈ rs ++ Core.rules := by
  unfold getRule getRuleIn at h
  rw [Option.or_eq_some_iff] at h
  rcases h with h | ⟨_, h⟩
  · exact List.mem_append_left _ (List.mem_of_find?_eq_some h)
  · exact List.mem_append_right _ (List.mem_of_find?_eq_some h)

theorem costRule_le {g : Grammar} {R : Nat} (hR : ∀ r ∈ g.rules ++ Core.rules, (altReps r.alt).length ≤ R) : ∀ (k : Nat) (known : List Str) (n : Str),
    (costRule g k known n).2 ≤ (R + 1) ^ k
  | 0, _, _ => Nat.zero_le _
  | k + 1, known, n => by
    have h1 : 1 ≤ (R + 1) ^ k := Nat.one_le_pow _ _ (by omega)
    have h2 : (R + 1) ^ (k + 1) = R * (R + 1) ^ k + (R + 1) ^ k := by rw [Nat.pow_succ, Nat.mul_comm, Nat.succ_mul]
    rw [costRule]
    split_ifs
    · exact Nat.zero_le _
    · cases hg : getRule n g.rules with
      | none => simp only; omega
      | some r =>
        have h3 := costAlt_le (costRule_le hR k) (n :: known) r.alt
        have h4 := Nat.mul_le_mul_right ((R + 1) ^ k) (hR r (getRule_mem hg))
        simp only
        omega

/-! ## At least -/

/-- The name of the `i`-th rule. -/
def nm (i : Nat) : Str := List.replicate (i + 1) 'a'

/-- The `i`-th of `n` rules that refer to the next one twice. -/
def twice (n i : Nat) : Rule := ⟨nm i, if i < n then [[⟨1, some 1, .rulename (nm (i + 1))⟩], [⟨1, some 1, .rulename (nm (i + 1))⟩]]
  else [[⟨1, some 1, .charVal false ['x']⟩]]⟩

/-- `a = aa / aa`, `aa = aaa / aaa` and so on, and a last rule `"x"`. -/
def doubling (n : Nat) : Grammar := ⟨(List.range (n + 1)).map (twice n)⟩

theorem nm_fold (i j : Nat) : equalFold (nm i) (nm j) = true ↔ i = j := by
  rw [equalFold_iff, sameName_iff]
  constructor
  · intro h
    have := congrArg List.length h
    simpa [nm, canon] using this
  · rintro rfl
    rfl

theorem getRule_doubling {n i : Nat} (h : i ≤ n) : getRule (nm i) (doubling n).rules = some (twice n i) := by
  unfold getRule
  have : getRuleIn (nm i) (doubling n).rules = some (twice n i) := by
    refine find?_unique ?_ (List.mem_map.mpr ⟨i, List.mem_range.mpr (by omega), rfl⟩) ((sameName_iff _ _).mpr rfl)
    unfold doubling
    rw [List.pairwise_map]
    refine List.Pairwise.imp ?_ List.nodup_range
    intro a b hab hs
    exact hab ((nm_fold a b).mp ((equalFold_iff _ _).mpr hs))
  rw [this]
  rfl

theorem cost_doubling (n : Nat) : ∀ (d i k : Nat) (known : List Str), i + d = n → d < k → (∀ x ∈ known, ∃ j, j < i ∧ x = nm j) →
    costRule (doubling n) k known (nm i) = (.ok false, 2 ^ (d + 1) - 1) := by
  intro d
  induction d with
  | zero =>
    intro i k known hi hk hx
    obtain ⟨k, rfl⟩ : ∃ k', k = k' + 1 := ⟨k - 1, by omega⟩
    rw [costRule, if_neg, getRule_doubling (by omega)]
    · simp [twice, show ¬ i < n by omega, costAlt, costConcats, costConcat, costElem, after, joinErrs]
    · rw [List.any_eq_true]
      rintro ⟨x, hx', he⟩
      obtain ⟨j, hj, rfl⟩ := hx x hx'
      have := (nm_fold _ _).mp he
      omega
  | succ d ih =>
    intro i k known hi hk hx
    obtain ⟨k, rfl⟩ : ∃ k', k = k' + 1 := ⟨k - 1, by omega⟩
    have h1 := ih (i + 1) k (nm i :: known) (by omega) (by omega) fun x hx' => by
      rcases List.mem_cons.mp hx' with rfl | hx'
      · exact ⟨i, by omega, rfl⟩
      · obtain ⟨j, hj, rfl⟩ := hx x hx'
        exact ⟨j, by omega, rfl⟩
    rw [costRule, if_neg, getRule_doubling (by omega)]
    · have h2 : 2 ^ (d + 1 + 1) = 2 * 2 ^ (d + 1) := Nat.pow_succ'
      have h3 : 1 ≤ 2 ^ (d + 1) := Nat.one_le_two_pow
      simp only [twice, show i < n by omega, if_true, costAlt, costConcats, costConcat, costElem, after, joinErrs, h1]
      simp
      omega
    · rw [List.any_eq_true]
      rintro ⟨x, hx', he⟩
      obtain ⟨j, hj, rfl⟩ := hx x hx'
      have := (nm_fold _ _).mp he
      omega

theorem doubling_distinct (n : Nat) : NamesDistinct (doubling n) := by
  unfold NamesDistinct doubling
  rw [List.pairwise_map]
  refine List.Pairwise.imp ?_ List.nodup_range
  intro a b hab hs
  exact hab ((nm_fold a b).mp ((equalFold_iff _ _).mpr hs))

theorem doubling_written (n : Nat) : ∀ r ∈ (doubling n).rules, r.written = true := by
  intro r hr
  obtain ⟨i, _, rfl⟩ := List.mem_map.mp hr
  have hn : ∀ i, nameOK (nm i) = true := by
    intro i
    unfold nm
    rw [List.replicate_succ]
    simp [nameOK, List.all_replicate, show nameChar 'a' = true by decide]
  unfold twice
  by_cases h : i < n
  · simp [h, Rule.written, altWritten, concatWritten, Rep.written, Elem.written, hn]
  · simp [h, Rule.written, altWritten, concatWritten, Rep.written, Elem.written, hn]
    decide

theorem nm_plain {i : Nat} : ¬ Props.IsCoreName (nm i) := by
  rintro ⟨r, hr, hs⟩
  rw [← equalFold_iff] at hs
  have key : ∀ r ∈ Core.rules, ∀ s, canon r.name ≠ 'a' :: s ∨ s.any (· ≠ 'a') = true := by
    intro r hr s
    have : ∀ r ∈ Core.rules, (canon r.name).any (· ≠ 'a') = true := by decide +kernel
    have h1 := this r hr
    by_cases h : canon r.name = 'a' :: s
    · right
      rw [h] at h1
      simpa using h1
    · exact .inl h
  rw [equalFold, beq_iff_eq] at hs
  have h1 : canon (nm i) = 'a' :: List.replicate i 'a' := by
    unfold canon nm
    rw [List.map_replicate, List.replicate_succ]
    rfl
  rcases key r hr (List.replicate i 'a') with h | h
  · exact h (hs.symm.trans h1)
  · simp at h

end GenCost

namespace Props
open GenCost Text Eval

/-- C109.  Counting the rules looked up does not change the check. -/
theorem C109_same (g : Grammar) (name : Str) : (costSafely g name).1 = checkCanGenerateSafely g name := costSafely_fst g name

/-- C109.  At most a power of the number of repetitions in a rule, the exponent being the number of rules. -/
theorem C109_at_most (g : Grammar) (R : Nat) (hR : ∀ r ∈ g.rules ++ Core.rules, (altReps r.alt).length ≤ R) (name : Str) :
    (costSafely g name).2 ≤ (R + 1) ^ (g.rules.length + Core.rules.length + 2) := by
  unfold costSafely
  cases hg : getRule name g.rules with
  | none => exact Nat.zero_le _
  | some r =>
    have h1 := costAlt_le (costRule_le hR (g.rules.length + Core.rules.length + 1)) [name] r.alt
    have h2 := Nat.mul_le_mul (Nat.le_succ_of_le (hR r (getRule_mem hg))) (Nat.le_refl ((R + 1) ^ (g.rules.length + Core.rules.length + 1)))
    rw [Nat.mul_comm (R.succ), ← Nat.pow_succ] at h2
    exact after_le (q := 0) (h1.trans h2) fun _ => Nat.le_refl _

/-- C109.  For every `n` there is a sound grammar of `n + 1` rules with at most two references each, for which it is
`2 ^ (n + 1) - 2`, and then the check passes. -/
theorem C109_at_least (n : Nat) : (doubling n).rules.length = n + 1 ∧ (∀ r ∈ (doubling n).rules, (altReps r.alt).length ≤ 2) ∧
    (∀ r ∈ (doubling n).rules, r.written = true) ∧ NamesDistinct (doubling n) ∧ Props.Sound (doubling n) ∧
    costSafely (doubling n) (nm 0) = (.ok none, 2 ^ (n + 1) - 2) := by
  have hreps : ∀ i, altReps (twice n i).alt = if i < n then [⟨1, some 1, .rulename (nm (i + 1))⟩, ⟨1, some 1, .rulename (nm (i + 1))⟩]
      else [⟨1, some 1, .charVal false ['x']⟩] := by
    intro i
    unfold twice
    by_cases h : i < n
    · simp [h, altReps, concatReps, repReps, elemReps]
    · simp [h, altReps, concatReps, repReps, elemReps]
  refine ⟨by simp [doubling], ?_, doubling_written n, doubling_distinct n, ?_, ?_⟩
  · intro r hr
    obtain ⟨i, _, rfl⟩ := List.mem_map.mp hr
    rw [hreps]
    split_ifs <;> simp
  · intro q hq
    obtain ⟨r, hr, hq⟩ := List.mem_flatMap.mp hq
    obtain ⟨i, hi, rfl⟩ := List.mem_map.mp hr
    rw [hreps] at hq
    split_ifs at hq with h
    · have : q = ⟨1, some 1, .rulename (nm (i + 1))⟩ := by simpa using hq
      subst this
      refine ⟨fun m hm => ⟨twice n (i + 1), ?_⟩, ?_, fun b st es he => by cases he⟩
      · cases hm
        exact getRule_resolves (getRule_doubling (by omega))
      · intro m hm
        cases hm
        exact Nat.le_refl _
    · rw [List.mem_singleton] at hq
      subst hq
      refine ⟨fun m hm => (by cases hm), ?_, fun b st es he => (by cases he)⟩
      intro m hm
      cases hm
      exact Nat.le_refl _
  · unfold costSafely
    rw [getRule_doubling (Nat.zero_le n)]
    cases n with
    | zero => simp [twice, costAlt, costConcats, costConcat, costElem, after, joinErrs]
    | succ n =>
      have h1 := cost_doubling (n + 1) n 1 ((doubling (n + 1)).rules.length + Core.rules.length + 1) [nm 0] (by omega)
        (by simp [doubling]; omega) (by simp)
      have h2 : 2 ^ (n + 1 + 1) = 2 * 2 ^ (n + 1) := Nat.pow_succ'
      have h3 : 1 ≤ 2 ^ (n + 1) := Nat.one_le_two_pow
      simp only [twice, Nat.zero_lt_succ, if_true, costAlt, costConcats, costConcat, costElem, after, joinErrs, Nat.zero_add, h1]
      simp
      omega

theorem doubling_strings (n : Nat) : ∀ p ∈ (doubling n).rules.flatMap (fun r => altStrings r.alt), p.1 = false := by
  intro p hp
  obtain ⟨r, hr, hp⟩ := List.mem_flatMap.mp hp
  obtain ⟨i, _, rfl⟩ := List.mem_map.mp hr
  unfold twice at hp
  by_cases h : i < n
  · simp [h, altStrings, concatStrings, Rep.strings, Elem.strings] at hp
  · simp [h, altStrings, concatStrings, Rep.strings, Elem.strings] at hp
    rw [hp]

/-- C109.  Such a grammar comes out of `ParseABNF` with validation. -/
theorem C109_parsed (n : Nat) (sched : Sched NodeKey) (hf : sched.Fair) : parseABNF sched (utf8 (doubling n).str) [] = .ok (doubling n) := by
  obtain ⟨h1, h2, h3, h4, h5, _⟩ := C109_at_least n
  refine (C79_same_partial _ h3 ?_ h4 ?_ ?_ (doubling_strings n) sched hf [] fun _ => h5).1
  · intro h
    rw [h] at h1
    simp at h1
  · intro r hr
    obtain ⟨i, _, rfl⟩ := List.mem_map.mp hr
    exact nm_plain
  · intro q hq
    obtain ⟨r, hr, hq⟩ := List.mem_flatMap.mp hq
    obtain ⟨i, _, rfl⟩ := List.mem_map.mp hr
    have : q.min = 1 ∧ q.max = some 1 := by
      unfold twice at hq
      by_cases h : i < n
      · simp [h, altReps, concatReps, repReps, elemReps] at hq
        rw [hq]
        exact ⟨rfl, rfl⟩
      · simp [h, altReps, concatReps, repReps, elemReps] at hq
        rw [hq]
        exact ⟨rfl, rfl⟩
    refine ⟨by rw [this.1]; decide, fun m hm => ?_⟩
    rw [this.2] at hm
    cases hm
    decide

/-- C109_at_most: with `n = 3` fourteen rules are looked up; core rules have at most seven repetitions. -/
example : (costSafely (doubling 3) (nm 0)).2 = 14 ∧ ∀ r ∈ (doubling 3).rules ++ Core.rules, (altReps r.alt).length ≤ 7 :=
  ⟨by decide +kernel, by decide +kernel⟩

end Props
end Verif
