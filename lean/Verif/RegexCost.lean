import Verif.GenCost
import Verif.PropsRegex

/-!
# C110: what `Regex` holds before it writes

`simplify` (/repo/regex.go:228-331) copies the parts of a simplified concatenation into the concatenation around it
(/repo/regex.go:253-254).  The memo saves visits, not copies, and the budget of `WithMaxRegexLen` (/repo/regex.go:69-71)
only applies to what is written afterwards.
-/

namespace Verif
open Spec

namespace RegexCost
open GenCost

/-- The `i`-th of `n` rules that refer to the next one twice. -/
def pairs (n i : Nat) : Rule := ⟨nm i, if i < n then [[⟨1, some 1, .rulename (nm (i + 1))⟩, ⟨1, some 1, .rulename (nm (i + 1))⟩]]
  else [[⟨1, some 1, .charVal false ['x', 'y']⟩]]⟩

/-- `a = aa aa`, `aa = aaa aaa` and so on, and a last rule `"xy"`. -/
def powers (n : Nat) : Grammar := ⟨(List.range (n + 1)).map (pairs n)⟩

/-- What is built for a rule, by the number of rules after it. -/
def built : Nat → Re
  | 0 => .alt [.concat [.rep (.concat [charClass 'x' false, charClass 'y' false]) 1 (some 1)]]
  | d + 1 => .alt [.concat [.rep (built d) 1 (some 1), .rep (built d) 1 (some 1)]]

/-- The parts of what it is simplified to. -/
def flat : Nat → List Re
  | 0 => [.cls [(88, 88), (120, 120)], .cls [(89, 89), (121, 121)]]
  | d + 1 => flat d ++ flat d

theorem flat_length : ∀ d, (flat d).length = 2 ^ (d + 1)
  | 0 => rfl
  | d + 1 => by
    rw [flat, List.length_append, flat_length d, Nat.pow_succ 2 (d + 1), Nat.mul_two]

theorem mkConcat_two {ps qs : List Re} (hp : 2 ≤ ps.length) : mkConcat [.concat ps, .concat qs] = .concat (ps ++ qs) := by
  unfold mkConcat
  match ps, hp with
  | a :: b :: ps, _ => simp [concatParts, Re.isNever]

theorem mkConcat_one {ps : List Re} (hp : 2 ≤ ps.length) : mkConcat [.concat ps] = .concat ps := by
  unfold mkConcat
  match ps, hp with
  | a :: b :: ps, _ => simp [concatParts, Re.isNever]

theorem mkAlt_one {ps : List Re} : mkAlt [.concat ps] = .concat ps := by
  simp [mkAlt, altOpts, Re.isClass]

theorem mkRep_one {ps : List Re} : mkRep (.concat ps) 1 (some 1) = .concat ps := by
  simp [mkRep, Re.isNever, Re.isEmpty]

theorem simplify_built : ∀ d, simplify (built d) = .concat (flat d)
  | 0 => by
    have h : simplify (.concat [charClass 'x' false, charClass 'y' false]) = .concat (flat 0) := by
      simp only [simplify, simplifyAll, flat, charClass]
      rfl
    rw [built, simplify, simplifyAll, simplifyAll, simplify, simplifyAll, simplifyAll, simplify, h, mkRep_one, mkConcat_one (by rw [flat_length]; decide), mkAlt_one]
  | d + 1 => by
    have h1 : 2 ≤ (flat d).length := by
      rw [flat_length, Nat.pow_succ]
      have : 1 ≤ 2 ^ d := Nat.one_le_two_pow
      omega
    rw [built, simplify, simplifyAll, simplifyAll, simplify, simplifyAll, simplifyAll, simplifyAll, simplify, simplify_built d, mkRep_one,
      mkConcat_two h1, mkAlt_one, flat]

theorem powers_distinct (n : Nat) : NamesDistinct (powers n) := by
  unfold NamesDistinct powers
  rw [List.pairwise_map]
  refine List.Pairwise.imp ?_ List.nodup_range
  intro a b hab hs
  exact hab ((nm_fold a b).mp ((equalFold_iff _ _).mpr hs))

theorem getRule_powers {n i : Nat} (h : i ≤ n) : getRule (nm i) (powers n).rules = some (pairs n i) := by
  unfold getRule
  have : getRuleIn (nm i) (powers n).rules = some (pairs n i) :=
    find?_unique (powers_distinct n) (List.mem_map.mpr ⟨i, List.mem_range.mpr (by omega), rfl⟩) ((sameName_iff _ _).mpr rfl)
  rw [this]
  rfl

theorem canon_nm (i : Nat) : canon (nm i) = nm i := by
  unfold canon nm
  rw [List.map_replicate]
  rfl

theorem nm_inj {i j : Nat} (h : nm i = nm j) : i = j := by
  have := congrArg List.length h
  simpa [nm] using this

/-- Building the `i`-th rule with no later rule in the memo. -/
theorem build_rule (n : Nat) : ∀ (d i k : Nat) (st : ReSt), i + d = n → d < k → (∀ j, i ≤ j → st.memo.lookup (nm j) = none) →
    ∃ st', reRule (powers n) k (nm i) st = some (built d, st') ∧ st'.err = st.err ∧ st'.memo.lookup (nm i) = some (built d) ∧
      ∀ j, j < i → st'.memo.lookup (nm j) = st.memo.lookup (nm j) := by
  intro d
  induction d with
  | zero =>
    intro i k st hi hk hm
    obtain ⟨k, rfl⟩ : ∃ k', k = k' + 1 := ⟨k - 1, by omega⟩
    refine ⟨{ st with memo := (nm i, built 0) :: st.memo }, ?_, ?_, ?_, ?_⟩
    · rw [reRule, canon_nm, hm i (Nat.le_refl i), getRule_powers (by omega)]
      simp only [pairs, show ¬ i < n by omega, if_false]
      simp only [reAlts, reParts, reElem, Option.bind_some, Option.map_some]
      rfl
    · rfl
    · simp [built]
    · intro j hj
      rw [List.lookup_cons]
      rw [show (nm j == nm i) = false from beq_eq_false_iff_ne.mpr fun h => by have := nm_inj h; omega]
  | succ d ih =>
    intro i k st hi hk hm
    obtain ⟨k, rfl⟩ : ∃ k', k = k' + 1 := ⟨k - 1, by omega⟩
    obtain ⟨st1, h1, h2, h3, h4⟩ := ih (i + 1) k st (by omega) (by omega) fun j hj => hm j (by omega)
    obtain ⟨k, rfl⟩ : ∃ k', k = k' + 1 := ⟨k - 1, by omega⟩
    have h5 : reRule (powers n) (k + 1) (nm (i + 1)) st1 = some (built d, st1) := by
      rw [reRule, canon_nm, h3]
    refine ⟨{ st1 with memo := (nm i, built (d + 1)) :: st1.memo }, ?_, ?_, ?_, ?_⟩
    · rw [reRule, canon_nm, hm i (Nat.le_refl i), getRule_powers (by omega)]
      simp only [pairs, show i < n by omega, if_true]
      simp only [reAlts, reParts, reElem, h1, h5, Option.bind_some, Option.map_some]
      rfl
    · exact h2
    · simp [built]
    · intro j hj
      rw [List.lookup_cons, h4 j (by omega)]
      rw [show (nm j == nm i) = false from beq_eq_false_iff_ne.mpr fun h => by have := nm_inj h; omega]

theorem build_root (n : Nat) : ∃ os st, reAlts (reRule (powers n) ((powers n).rules.length + Core.rules.length + 1)) (pairs n 0).alt {} = some (os, st) ∧
    st.err = false ∧ Re.alt os = built n := by
  cases n with
  | zero => exact ⟨_, _, rfl, rfl, rfl⟩
  | succ n =>
    have hk : n < (powers (n + 1)).rules.length + Core.rules.length + 1 := by
      simp [powers]
      omega
    generalize (powers (n + 1)).rules.length + Core.rules.length + 1 = k at hk
    obtain ⟨st1, h1, h2, h3, _⟩ := build_rule (n + 1) n 1 k {} (by omega) hk fun j _ => rfl
    obtain ⟨k, rfl⟩ : ∃ k', k = k' + 1 := ⟨k - 1, by omega⟩
    have h5 : reRule (powers (n + 1)) (k + 1) (nm 1) st1 = some (built n, st1) := by
      rw [reRule, canon_nm, h3]
    refine ⟨[.concat [.rep (built n) 1 (some 1), .rep (built n) 1 (some 1)]], st1, ?_, h2, rfl⟩
    simp only [pairs, Nat.zero_lt_succ, if_true, Nat.zero_add]
    simp only [reAlts, reParts, reElem, h1, h5, Option.bind_some, Option.map_some]

theorem pairs_reps (n i : Nat) : altReps (pairs n i).alt = if i < n then [⟨1, some 1, .rulename (nm (i + 1))⟩, ⟨1, some 1, .rulename (nm (i + 1))⟩]
    else [⟨1, some 1, .charVal false ['x', 'y']⟩] := by
  unfold pairs
  by_cases h : i < n
  · simp [h, altReps, concatReps, repReps, elemReps]
  · simp [h, altReps, concatReps, repReps, elemReps]

theorem refers_next {n i : Nat} {r : Rule} (h : Refers (powers n) (pairs n i) r) : i < n ∧ r = pairs n (i + 1) := by
  obtain ⟨q, hq, m, hm, hr⟩ := h
  rw [pairs_reps] at hq
  split_ifs at hq with hi
  · have : q = ⟨1, some 1, .rulename (nm (i + 1))⟩ := by simpa using hq
    subst this
    cases hm
    have := resolves_getRule (powers_distinct n) hr
    rw [getRule_powers (by omega)] at this
    exact ⟨hi, (Option.some.inj this).symm⟩
  · rw [List.mem_singleton] at hq
    subst hq
    cases hm

theorem reach_later {n i : Nat} {r : Rule} (h : Relation.ReflTransGen (Refers (powers n)) (pairs n i) r) : ∃ j, i ≤ j ∧ r = pairs n j := by
  induction h with
  | refl => exact ⟨i, Nat.le_refl i, rfl⟩
  | tail _ h ih =>
    obtain ⟨j, hj, rfl⟩ := ih
    exact ⟨j + 1, by omega, (refers_next h).2⟩

theorem no_cycle (n i : Nat) : NoCycleBelow (powers n) (pairs n i) := by
  rintro ⟨r, h1, h2⟩
  obtain ⟨j, _, rfl⟩ := reach_later h1
  obtain ⟨r, h3, h4⟩ := Relation.TransGen.head'_iff.mp h2
  obtain ⟨_, rfl⟩ := refers_next h3
  obtain ⟨l, hl, he⟩ := reach_later h4
  have := nm_inj (congrArg Rule.name he)
  omega

theorem parts_append : ∀ a b : List Re, renderParts (a ++ b) = renderParts a ++ renderParts b
  | [], b => by rw [renderParts]; rfl
  | x :: a, b => by rw [List.cons_append, renderParts, renderParts, parts_append a b, List.append_assoc]

theorem flat_bytes : ∀ d, byteLen (renderParts (flat d)).flatten = 2 ^ (d + 3)
  | 0 => by decide +kernel
  | d + 1 => by
    rw [flat, parts_append, List.flatten_append, byteLen_append, flat_bytes d, Nat.pow_succ 2 (d + 3), Nat.mul_two]

end RegexCost

namespace Props
open GenCost RegexCost

/-- C110, refuted.  For every `n` there is a grammar of `n + 1` rules with at most two references each for which `Regex`
makes a list of `2 ^ (n + 1)` nodes, whatever the budget, and then refuses to write them if the budget is below
`2 ^ (n + 3)` bytes. -/
theorem C110_fails (n : Nat) (core : List Rule) (hcore : core.Perm Core.rules)
    (order : List Str) (ho : order.Perm ((dependencyGraph core (powers n)).map Prod.fst)) :
    (powers n).rules.length = n + 1 ∧ (∀ r ∈ (powers n).rules, (altReps r.alt).length ≤ 2) ∧
    (∃ os st ps, reAlts (reRule (powers n) ((powers n).rules.length + Core.rules.length + 1)) (pairs n 0).alt {} = some (os, st) ∧
      simplify (.alt os) = .concat ps ∧ ps.length = 2 ^ (n + 1)) ∧
    ∀ max, 0 < max → max < 2 ^ (n + 3) → regex core order (powers n) max (nm 0) = .error .tooLarge := by
  obtain ⟨os, st, h1, h2, h3⟩ := build_root n
  have hs : simplify (.alt os) = .concat (flat n) := by rw [h3, simplify_built]
  refine ⟨by simp [powers], ?_, ⟨os, st, flat n, h1, hs, flat_length n⟩, fun max h4 h5 => ?_⟩
  · intro r hr
    obtain ⟨i, _, rfl⟩ := List.mem_map.mp hr
    rw [pairs_reps]
    split_ifs <;> simp
  · have hg := getRule_powers (Nat.zero_le n)
    obtain ⟨_, h6⟩ := C20_exact (powers n) (powers_distinct n) core hcore order ho (nm 0)
    obtain ⟨b, h7, h8⟩ := h6 _ (getRule_resolves hg)
    cases b with
    | true => exact absurd (h8.mp rfl) (no_cycle n 0)
    | false =>
      have hb : byteLen (renderStr (.concat (flat n)) 1) = 2 ^ (n + 3) := by
        unfold renderStr
        rw [renderWrites]
        simp only [grouped, Re.prec]
        exact flat_bytes n
      simp only [regex, h7, hg, h1, h2, hs, renderBudget_eq, hb]
      rw [if_neg (by simp), if_pos ⟨h4, h5⟩]

/-- For twenty rules, a million nodes. -/
example : (flat 19).length = 1048576 ∧ Core.rules.Perm Core.rules := ⟨flat_length 19, .refl _⟩

end Props
end Verif
