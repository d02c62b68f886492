import Verif.Messages
import Verif.Session

/-!
# Redefining core rules

What `ParseABNF` makes of definitions of core rules under `WithRedefineCoreRules(true)`.  The map of the rules read so far is indexed by
the name as written, but `GetRule` compares names regardless of case and takes the first entry it meets (/repo/utils.go:145-152); here the
order in which it meets them is a parameter.
-/

namespace Verif
open Spec

/-- One round of the loop of `feval.rulelist` (/repo/grammar.go:164-192) when `GetRule` meets the entries of the map in the order `ord`.
The names of the core rules are distinct whatever their case, so the order in which these are met does not matter. -/
def evalDefO (ord : List (Rule × Bool) → List (Rule × Bool)) (redefineCore : Bool) (st : EvalSt) (d : Def) : Except EvalErr EvalSt :=
  let isCore := (getRuleIn d.name st.core).isSome
  if d.extend = false then
    if isCore = true then
      if redefineCore = false then .error (.coreRuleModify d.name)
      else .ok { st with mp := mpSet (⟨d.name, d.alt⟩, false) st.mp }
    else if (getRuleIn d.name ((ord st.mp).map Prod.fst)).isSome = true then .error (.duplicatedRule d.name)
    else .ok { st with mp := mpSet (⟨d.name, d.alt⟩, false) st.mp }
  else if redefineCore = false ∧ isCore = true then .error (.coreRuleModify d.name)
  else
    match (ord st.mp).find? (fun p => equalFold d.name p.1.name) with
    | some p => .ok ⟨mpSet (⟨p.1.name, p.1.alt ++ d.alt⟩, p.2) st.mp, if p.2 then extendIn d.name d.alt st.core else st.core⟩
    | none =>
      match getRuleIn d.name st.core with
      | none => .error (.ruleNotFound d.name)
      | some r => .ok ⟨mpSet (⟨r.name, r.alt ++ d.alt⟩, true) st.mp, extendIn d.name d.alt st.core⟩

/-- The loop of `feval.rulelist` (/repo/grammar.go:164-192); the order may be another one in each round. -/
def evalDefsO (ord : Nat → List (Rule × Bool) → List (Rule × Bool)) (redefineCore : Bool) : Nat → EvalSt → List Def → Except EvalErr EvalSt
  | _, st, [] => .ok st
  | k, st, d :: ds =>
    match evalDefO (ord k) redefineCore st d with
    | .error e => .error e
    | .ok st' => evalDefsO ord redefineCore (k + 1) st' ds

/-- `feval.rulelist` (/repo/grammar.go:162-194) for an order of map iteration. -/
def evalRulelistO (ord : Nat → List (Rule × Bool) → List (Rule × Bool)) (redefineCore : Bool) (defs : List Def) : Except EvalErr EvalSt :=
  evalDefsO ord redefineCore 0 ⟨[], Core.rules⟩ defs

/-! ## The verdict does not depend on the order -/

/-- The map has an entry of that name. -/
def HasEntry (m : List (Rule × Bool)) (n : Str) : Prop := ∃ p ∈ m, equalFold n p.1.name = true

/-- Two states with the same names. -/
structure SameKeys (a b : EvalSt) : Prop where
  core : a.core.map Rule.name = b.core.map Rule.name
  keys : ∀ n, HasEntry a.mp n ↔ HasEntry b.mp n

theorem getRuleIn_names {n : Str} {a b : List Rule} (h : a.map Rule.name = b.map Rule.name) :
    (getRuleIn n a).map Rule.name = (getRuleIn n b).map Rule.name := by
  unfold getRuleIn
  induction a generalizing b with
  | nil =>
    cases b with
    | nil => rfl
    | cons _ _ => cases h
  | cons r a ih =>
    cases b with
    | nil => cases h
    | cons r' b =>
      simp only [List.map_cons, List.cons.injEq] at h
      rw [List.find?_cons, List.find?_cons, h.1]
      cases equalFold n r'.name with
      | true => simp [h.1]
      | false => exact ih h.2

theorem hasEntry_mpSet (e : Rule × Bool) (m : List (Rule × Bool)) (n : Str) :
    HasEntry (mpSet e m) n ↔ equalFold n e.1.name = true ∨ HasEntry m n := by
  unfold HasEntry
  have h := fun x => mpSet_names e m x
  simp only [List.mem_map] at h
  constructor
  · rintro ⟨p, hp, hn⟩
    rcases (h p.1.name).mp ⟨p, hp, rfl⟩ with h1 | ⟨q, h1, h2⟩
    · exact .inl (h1 ▸ hn)
    · exact .inr ⟨q, h1, h2 ▸ hn⟩
  · rintro (hn | ⟨p, hp, hn⟩)
    · obtain ⟨q, h1, h2⟩ := (h e.1.name).mpr (.inl rfl)
      exact ⟨q, h1, h2 ▸ hn⟩
    · obtain ⟨q, h1, h2⟩ := (h p.1.name).mpr (.inr ⟨p, hp, rfl⟩)
      exact ⟨q, h1, h2 ▸ hn⟩

theorem hasEntry_perm {m m' : List (Rule × Bool)} (h : m.Perm m') (n : Str) : HasEntry m n ↔ HasEntry m' n := by
  unfold HasEntry
  simp only [h.mem_iff]

theorem getRuleIn_entry {m : List (Rule × Bool)} {n : Str} : (getRuleIn n (m.map Prod.fst)).isSome = true ↔ HasEntry m n := by
  unfold getRuleIn HasEntry
  rw [List.find?_isSome]
  simp

theorem hasEntry_of_names {m m' : List (Rule × Bool)} (h : m.map (fun p => p.1.name) = m'.map (fun p => p.1.name)) (n : Str) :
    HasEntry m n ↔ HasEntry m' n := by
  have h1 : ∀ l : List (Rule × Bool), HasEntry l n ↔ ∃ x ∈ l.map (fun p => p.1.name), equalFold n x = true := by
    intro l
    unfold HasEntry
    simp
  rw [h1, h1, h]

theorem hasEntry_trans {m : List (Rule × Bool)} {a b : Str} (h : equalFold a b = true) : HasEntry m a ↔ HasEntry m b := by
  unfold HasEntry
  simp only [equalFold_trans h]

theorem if_core_names {c : List Rule} {n : Str} {a : Alt} {b : Bool} : (if b then extendIn n a c else c).map Rule.name = c.map Rule.name := by
  cases b
  · rfl
  · exact extendIn_names n a c

/-- In states with the same names a definition is refused for the same reason or accepted, and the names stay the same. -/
theorem evalDef_keys {ord : List (Rule × Bool) → List (Rule × Bool)} {rc : Bool} {a b : EvalSt} (h : SameKeys a b) (ho : (ord a.mp).Perm a.mp) (d : Def) :
    match evalDefO ord rc a d, evalDef rc b d with
    | .ok a', .ok b' => SameKeys a' b'
    | .error e, .error e' => e = e'
    | _, _ => False := by
  have hc : (getRuleIn d.name a.core).isSome = (getRuleIn d.name b.core).isSome := by
    have := congrArg Option.isSome (getRuleIn_names (n := d.name) h.core)
    simpa using this
  unfold evalDefO evalDef
  simp only [hc]
  by_cases he : d.extend = false
  · rw [if_pos he, if_pos he]
    by_cases h1 : (getRuleIn d.name b.core).isSome = true
    · rw [if_pos h1, if_pos h1]
      by_cases h2 : rc = false
      · rw [if_pos h2, if_pos h2]
      · rw [if_neg h2, if_neg h2]
        exact ⟨h.core, fun n => by simp only [hasEntry_mpSet, h.keys]⟩
    · rw [if_neg h1, if_neg h1]
      have hk : (getRuleIn d.name ((ord a.mp).map Prod.fst)).isSome = true ↔ (getRuleIn d.name (b.mp.map Prod.fst)).isSome = true := by
        rw [getRuleIn_entry, getRuleIn_entry, hasEntry_perm ho, h.keys]
      by_cases h2 : (getRuleIn d.name (b.mp.map Prod.fst)).isSome = true
      · rw [if_pos h2, if_pos (hk.mpr h2)]
      · rw [if_neg h2, if_neg (fun x => h2 (hk.mp x))]
        exact ⟨h.core, fun n => by simp only [hasEntry_mpSet, h.keys]⟩
  · rw [if_neg he, if_neg he]
    by_cases h1 : rc = false ∧ (getRuleIn d.name b.core).isSome = true
    · rw [if_pos h1, if_pos h1]
    · rw [if_neg h1, if_neg h1]
      have hx := extendMp_names (n := d.name) (a := d.alt) (m := b.mp)
      cases hf : (ord a.mp).find? (fun p => equalFold d.name p.1.name) with
      | some p =>
        have hp := List.find?_some hf
        have hin : HasEntry b.mp d.name := (h.keys _).mp ((hasEntry_perm ho _).mp ⟨p, List.mem_of_find?_eq_some hf, hp⟩)
        cases hm : extendMp d.name d.alt b.mp with
        | none =>
          obtain ⟨q, h2, h3⟩ := hin
          exact absurd h3 (by rw [Props.extendMp_isNone hm q h2]; exact Bool.false_ne_true)
        | some q =>
          rw [hm] at hx
          refine ⟨?_, fun n => ?_⟩
          · show List.map Rule.name (if p.2 then _ else _) = List.map Rule.name (if q.2 then _ else _)
            rw [if_core_names, if_core_names, h.core]
          · show HasEntry (mpSet _ a.mp) n ↔ HasEntry q.1 n
            rw [hasEntry_mpSet, hasEntry_of_names hx.1 n, ← h.keys]
            refine or_iff_right_of_imp fun hn => ?_
            have hpm := (List.Perm.mem_iff ho).mp (List.mem_of_find?_eq_some hf)
            exact ⟨p, hpm, hn⟩
      | none =>
        have hno : ¬ HasEntry b.mp d.name := by
          rw [← h.keys, ← hasEntry_perm ho]
          rintro ⟨p, h2, h3⟩
          exact List.find?_eq_none.mp hf p h2 h3
        cases hm : extendMp d.name d.alt b.mp with
        | some q =>
          rw [hm] at hx
          obtain ⟨_, x, h2, h3⟩ := hx
          obtain ⟨p, h4, rfl⟩ := List.mem_map.mp h2
          exact (hno ⟨p, h4, (equalFold_iff _ _).mpr h3⟩).elim
        | none =>
          simp only
          have hg := getRuleIn_names (n := d.name) h.core
          cases h2 : getRuleIn d.name a.core with
          | none =>
            rw [h2] at hg
            cases h3 : getRuleIn d.name b.core with
            | none => rfl
            | some r => rw [h3] at hg; cases hg
          | some r =>
            rw [h2] at hg
            cases h3 : getRuleIn d.name b.core with
            | none => rw [h3] at hg; cases hg
            | some r' =>
              rw [h3] at hg
              simp only [Option.map_some, Option.some.injEq] at hg
              refine ⟨by simp only [extendIn_names, h.core], fun n => ?_⟩
              simp only [hasEntry_mpSet, h.keys, hg]

theorem evalDefs_keys {ord : Nat → List (Rule × Bool) → List (Rule × Bool)} (ho : ∀ k m, (ord k m).Perm m) {rc : Bool} :
    ∀ (ds : List Def) (k : Nat) (a b : EvalSt), SameKeys a b →
    match evalDefsO ord rc k a ds, evalDefsFrom rc b ds with
    | .ok a', .ok b' => SameKeys a' b'
    | .error e, .error e' => e = e'
    | _, _ => False
  | [], k, a, b, h => h
  | d :: ds, k, a, b, h => by
    have h1 := evalDef_keys (rc := rc) h (ho k a.mp) d
    rw [evalDefsO, evalDefsFrom]
    cases hx : evalDefO (ord k) rc a d with
    | error e =>
      rw [hx] at h1
      cases hy : evalDef rc b d with
      | error e' => rw [hy] at h1; exact h1
      | ok b' => rw [hy] at h1; exact h1.elim
    | ok a' =>
      rw [hx] at h1
      cases hy : evalDef rc b d with
      | error e' => rw [hy] at h1; exact h1.elim
      | ok b' => rw [hy] at h1; exact evalDefs_keys ho ds (k + 1) a' b' h1

/-! ## If the names are distinct, neither does the result -/

/-- No two entries of the map have the same name, whatever their case. -/
def Separate (m : List (Rule × Bool)) : Prop := m.Pairwise fun p q => equalFold p.1.name q.1.name = false

theorem separate_unique {m : List (Rule × Bool)} (h : Separate m) {p q : Rule × Bool} {n : Str} (hp : p ∈ m) (hq : q ∈ m)
    (h1 : equalFold n p.1.name = true) (h2 : equalFold n q.1.name = true) : p = q := by
  induction m with
  | nil => cases hp
  | cons r m ih =>
    obtain ⟨h3, h4⟩ := List.pairwise_cons.mp h
    have key : ∀ x ∈ m, equalFold n x.1.name = true → equalFold n r.1.name = true → False := by
      intro x hx h5 h6
      have h7 := h3 x hx
      rw [← equalFold_trans h6, h5] at h7
      cases h7
    rcases List.mem_cons.mp hp with hp | hp <;> rcases List.mem_cons.mp hq with hq | hq
    · rw [hp, hq]
    · exact (key q hq h2 (hp ▸ h1)).elim
    · exact (key p hp h1 (hq ▸ h2)).elim
    · exact ih h4 hp hq

theorem extendMp_find {n : Str} {a : Alt} : ∀ {m : List (Rule × Bool)} {p : Rule × Bool}, Separate m → p ∈ m → equalFold n p.1.name = true →
    extendMp n a m = some (mpSet (⟨p.1.name, p.1.alt ++ a⟩, p.2) m, p.2)
  | q :: m, p, hs, hp, hn => by
    obtain ⟨h3, h4⟩ := List.pairwise_cons.mp hs
    rw [extendMp, mpSet]
    rcases List.mem_cons.mp hp with rfl | hp
    · rw [if_pos hn, if_pos rfl]
    · have hne : equalFold n q.1.name = false := by
        rw [← Bool.not_eq_true]
        intro hq
        have := h3 p hp
        rw [← equalFold_trans hq, hn] at this
        cases this
      rw [if_neg (by rw [hne]; exact Bool.false_ne_true), extendMp_find h4 hp hn, if_neg]
      · rfl
      · intro he
        simp only at he
        rw [he, hn] at hne
        cases hne

/-- If the names are distinct, the order does not matter. -/
theorem evalDefO_eq {ord : List (Rule × Bool) → List (Rule × Bool)} {rc : Bool} {st : EvalSt} (hs : Separate st.mp) (ho : (ord st.mp).Perm st.mp) (d : Def) :
    evalDefO ord rc st d = evalDef rc st d := by
  unfold evalDefO evalDef
  have hk : (getRuleIn d.name ((ord st.mp).map Prod.fst)).isSome = (getRuleIn d.name (st.mp.map Prod.fst)).isSome := by
    rw [Bool.eq_iff_iff, getRuleIn_entry, getRuleIn_entry, hasEntry_perm ho]
  simp only [hk]
  cases hf : (ord st.mp).find? (fun p => equalFold d.name p.1.name) with
  | some p =>
    have h1 : equalFold d.name p.1.name = true := by simpa using List.find?_some hf
    rw [extendMp_find hs ((List.Perm.mem_iff ho).mp (List.mem_of_find?_eq_some hf)) h1]
  | none =>
    have hm : extendMp d.name d.alt st.mp = none := by
      have hx := extendMp_names (n := d.name) (a := d.alt) (m := st.mp)
      cases hm : extendMp d.name d.alt st.mp with
      | none => rfl
      | some q =>
        rw [hm] at hx
        obtain ⟨_, x, h2, h3⟩ := hx
        obtain ⟨p, h4, rfl⟩ := List.mem_map.mp h2
        exact absurd ((equalFold_iff _ _).mpr h3) (List.find?_eq_none.mp hf p ((List.Perm.mem_iff ho).mpr h4))
    rw [hm]
    rfl

theorem mpSet_prefix (e : Rule × Bool) : ∀ m : List (Rule × Bool), m.map (fun p => p.1.name) <+: (mpSet e m).map (fun p => p.1.name)
  | [] => List.nil_prefix
  | p :: m => by
    rw [mpSet]
    split_ifs with h
    · simp [h]
    · simp only [List.map_cons]
      exact (List.cons_prefix_cons).mpr ⟨rfl, mpSet_prefix e m⟩

theorem evalDef_prefix {rc : Bool} {st st' : EvalSt} {d : Def} (h : evalDef rc st d = .ok st') :
    st.mp.map (fun p => p.1.name) <+: st'.mp.map (fun p => p.1.name) := by
  unfold evalDef at h
  simp only at h
  by_cases he : d.extend = false
  · rw [if_pos he] at h
    split_ifs at h <;> (cases h; exact mpSet_prefix _ _)
  · rw [if_neg he] at h
    split_ifs at h with hc
    have hx := extendMp_names (n := d.name) (a := d.alt) (m := st.mp)
    cases hm : extendMp d.name d.alt st.mp with
    | some q =>
      rw [hm] at h hx
      cases h
      show _ <+: q.1.map _
      rw [hx.1]
    | none =>
      rw [hm] at h
      simp only at h
      cases hg : getRuleIn d.name st.core with
      | none => rw [hg] at h; cases h
      | some r => rw [hg] at h; cases h; exact mpSet_prefix _ _

theorem separate_of_prefix {a b : List (Rule × Bool)} (h : a.map (fun p => p.1.name) <+: b.map (fun p => p.1.name)) (hb : Separate b) : Separate a := by
  have h1 : ∀ m : List (Rule × Bool), Separate m ↔ (m.map fun p => p.1.name).Pairwise fun x y => equalFold x y = false := by
    intro m
    unfold Separate
    rw [List.pairwise_map]
  rw [h1] at hb ⊢
  exact hb.sublist h.sublist

theorem evalDefs_prefix {rc : Bool} : ∀ (ds : List Def) (st st' : EvalSt), evalDefsFrom rc st ds = .ok st' →
    st.mp.map (fun p => p.1.name) <+: st'.mp.map (fun p => p.1.name)
  | [], st, st', h => by cases h; exact List.prefix_rfl
  | d :: ds, st, st', h => by
    rw [evalDefsFrom] at h
    cases hd : evalDef rc st d with
    | error e => rw [hd] at h; cases h
    | ok s =>
      rw [hd] at h
      exact (evalDef_prefix hd).trans (evalDefs_prefix ds s st' h)

theorem evalDefsO_eq {ord : Nat → List (Rule × Bool) → List (Rule × Bool)} (ho : ∀ k m, (ord k m).Perm m) {rc : Bool} :
    ∀ (ds : List Def) (k : Nat) (st st' : EvalSt), evalDefsFrom rc st ds = .ok st' → Separate st'.mp → evalDefsO ord rc k st ds = .ok st'
  | [], k, st, st', h, _ => h
  | d :: ds, k, st, st', h, hs => by
    have hs0 := separate_of_prefix (evalDefs_prefix _ _ _ h) hs
    rw [evalDefsO, evalDefO_eq hs0 (ho k _)]
    rw [evalDefsFrom] at h
    cases hd : evalDef rc st d with
    | error e => rw [hd] at h; cases h
    | ok s =>
      rw [hd] at h
      exact evalDefsO_eq ho ds (k + 1) s st' h hs

/-! ## What the definitions say -/

open scoped Classical in
/-- The definitions of a name. -/
noncomputable def defsOf (ds : List Def) (n : Str) : List Def := ds.filter fun d => decide (SameName n d.name)

/-- What the definitions say about a name when core rules may be redefined: the last `=` and the extensions after it; or, for a core rule
that is only extended, its alternatives and the extensions. -/
inductive Given (ds : List Def) (n : Str) : Alt → Prop
  | set (pre : List Def) (d : Def) (post : List Def) : ds = pre ++ d :: post → d.extend = false → SameName n d.name →
      (∀ e ∈ defsOf post n, e.extend = true) → Given ds n (d.alt ++ (defsOf post n).flatMap Def.alt)
  | grown (r : Rule) : r ∈ Core.rules → SameName n r.name → defsOf ds n ≠ [] → (∀ e ∈ defsOf ds n, e.extend = true) →
      Given ds n (r.alt ++ (defsOf ds n).flatMap Def.alt)

/-- Where core rules are redefined, they are written as in RFC 5234, in capitals. -/
def Spelled (ds : List Def) : Prop := ∀ d ∈ ds, d.extend = false → ∀ r ∈ Core.rules, SameName d.name r.name → d.name = r.name

/-- Names other than those of core rules are defined once, before they are extended. -/
def InTurn (ds : List Def) : Prop := ∀ pre d post, ds = pre ++ d :: post → ¬ Props.IsCoreName d.name →
  (d.extend = false ↔ defsOf pre d.name = [])

/-- The core rules after the definitions: each has gained its extensions up to where it is redefined. -/
def CoreAfter (ds : List Def) (core : List Rule) : Prop :=
  List.Forall₂ (fun r r' : Rule => r'.name = r.name ∧ r'.alt = r.alt ++ ((defsOf ds r.name).takeWhile Def.extend).flatMap Def.alt) Core.rules core

section
variable {pre : List Def} {d : Def} {n : Str}

theorem defsOf_same (h : SameName n d.name) : defsOf (pre ++ [d]) n = defsOf pre n ++ [d] := by
  unfold defsOf
  rw [List.filter_append]
  simp [h]

theorem defsOf_other (h : ¬ SameName n d.name) : defsOf (pre ++ [d]) n = defsOf pre n := by
  unfold defsOf
  rw [List.filter_append]
  simp [h]

theorem defsOf_congr {m : Str} (h : SameName n m) (ds : List Def) : defsOf ds n = defsOf ds m := by
  unfold defsOf
  congr 1
  funext e
  rw [decide_eq_decide, sameName_iff, sameName_iff, (sameName_iff _ _).mp h]

theorem given_congr {m : Str} (h : SameName n m) {ds : List Def} {a : Alt} (hg : Given ds n a) : Given ds m a := by
  have hs : ∀ x, SameName n x → SameName m x := fun x hx => by
    rw [sameName_iff] at hx h ⊢
    rw [← h, hx]
  cases hg with
  | set pre d post h1 h2 h3 h4 =>
    rw [defsOf_congr h] at h4 ⊢
    exact .set pre d post h1 h2 (hs _ h3) h4
  | grown r h1 h2 h3 h4 =>
    rw [defsOf_congr h] at h3 h4 ⊢
    exact .grown r h1 (hs _ h2) h3 h4

theorem given_other (h : ¬ SameName n d.name) {a : Alt} (hg : Given pre n a) : Given (pre ++ [d]) n a := by
  cases hg with
  | set p e post h1 h2 h3 h4 =>
    rw [← defsOf_other h] at h4 ⊢
    exact .set p e (post ++ [d]) (by rw [h1]; simp) h2 h3 h4
  | grown r h1 h2 h3 h4 =>
    rw [← defsOf_other h] at h3 h4 ⊢
    exact .grown r h1 h2 h3 h4

theorem given_ext (h : SameName n d.name) (he : d.extend = true) {a : Alt} (hg : Given pre n a) : Given (pre ++ [d]) n (a ++ d.alt) := by
  have key : ∀ l : List Def, (∀ e ∈ l, e.extend = true) → ∀ e ∈ l ++ [d], e.extend = true := by
    intro l hl e hm
    rcases List.mem_append.mp hm with hm | hm
    · exact hl e hm
    · rw [List.mem_singleton.mp hm]; exact he
  cases hg with
  | set p e post h1 h2 h3 h4 =>
    have := Given.set (ds := pre ++ [d]) p e (post ++ [d]) (by rw [h1]; simp) h2 h3 (by rw [defsOf_same h]; exact key _ h4)
    rwa [defsOf_same h, List.flatMap_append, List.flatMap_singleton, ← List.append_assoc] at this
  | grown r h1 h2 h3 h4 =>
    have := Given.grown (ds := pre ++ [d]) r h1 h2 (by rw [defsOf_same h]; simp) (by rw [defsOf_same h]; exact key _ h4)
    rwa [defsOf_same h, List.flatMap_append, List.flatMap_singleton, ← List.append_assoc] at this

theorem given_set (h : SameName n d.name) (he : d.extend = false) : Given (pre ++ [d]) n d.alt := by
  have := Given.set (ds := pre ++ [d]) (n := n) pre d [] rfl he h (by simp [defsOf])
  simpa [defsOf] using this

theorem given_grown (h : SameName n d.name) (he : d.extend = true) (hn : defsOf pre n = []) {r : Rule} (hr : r ∈ Core.rules) (hs : SameName n r.name) :
    Given (pre ++ [d]) n (r.alt ++ d.alt) := by
  have := Given.grown (ds := pre ++ [d]) (n := n) r hr hs (by rw [defsOf_same h]; simp) (by rw [defsOf_same h, hn]; simpa using he)
  rwa [defsOf_same h, hn, List.nil_append, List.flatMap_singleton] at this

end

/-- What a run keeps. -/
structure Follows (pre : List Def) (st : EvalSt) : Prop where
  sep : Separate st.mp
  given : ∀ p ∈ st.mp, Given pre p.1.name p.1.alt
  flag : ∀ p ∈ st.mp, p.2 = true ↔ ∀ e ∈ defsOf pre p.1.name, e.extend = true
  spelled : ∀ p ∈ st.mp, ∀ r ∈ Core.rules, SameName p.1.name r.name → p.1.name = r.name
  keys : ∀ n, HasEntry st.mp n ↔ defsOf pre n ≠ []
  core : CoreAfter pre st.core

theorem mpSet_sep {e : Rule × Bool} : ∀ {m : List (Rule × Bool)}, Separate m → (∀ p ∈ m, equalFold e.1.name p.1.name = true → p.1.name = e.1.name) →
    Separate (mpSet e m) ∧ ∀ p ∈ mpSet e m, p = e ∨ p ∈ m ∧ equalFold e.1.name p.1.name = false
  | [], _, _ => ⟨by simp [mpSet, Separate], by simp [mpSet]⟩
  | q :: m, hs, hn => by
    obtain ⟨h3, h4⟩ := List.pairwise_cons.mp hs
    rw [mpSet]
    split_ifs with hq
    · have h5 : ∀ p ∈ m, equalFold e.1.name p.1.name = false := by rw [← hq]; exact h3
      refine ⟨List.pairwise_cons.mpr ⟨h5, h4⟩, fun p hp => ?_⟩
      rcases List.mem_cons.mp hp with rfl | hp
      · exact .inl rfl
      · exact .inr ⟨by simp [hp], h5 p hp⟩
    · obtain ⟨h5, h6⟩ := mpSet_sep h4 fun p hp => hn p (by simp [hp])
      have h7 : equalFold e.1.name q.1.name = false := by
        rw [← Bool.not_eq_true]
        exact fun hx => hq (hn q (by simp) hx)
      refine ⟨List.pairwise_cons.mpr ⟨fun p hp => ?_, h5⟩, fun p hp => ?_⟩
      · rcases h6 p hp with rfl | ⟨hp, _⟩
        · rw [equalFold_comm]; exact h7
        · exact h3 p hp
      · rcases List.mem_cons.mp hp with rfl | hp
        · exact .inr ⟨by simp, h7⟩
        · rcases h6 p hp with h | ⟨h8, h9⟩
          · exact .inl h
          · exact .inr ⟨by simp [h8], h9⟩

theorem extendIn_map {n : Str} {a : Alt} : ∀ {c : List Rule}, (c.Pairwise fun p q => equalFold p.name q.name = false) →
    extendIn n a c = c.map fun r => if equalFold n r.name then ⟨r.name, r.alt ++ a⟩ else r
  | [], _ => rfl
  | r :: c, h => by
    obtain ⟨h1, h2⟩ := List.pairwise_cons.mp h
    rw [extendIn, List.map_cons]
    split_ifs with hr
    · congr 1
      symm
      conv_rhs => rw [← List.map_id c]
      apply List.map_congr_left
      intro q hq
      have := h1 q hq
      rw [← equalFold_trans hr] at this
      rw [this]
      rfl
    · rw [extendIn_map h2]

theorem coreAfter_distinct {pre : List Def} {c : List Rule} (h : CoreAfter pre c) : c.Pairwise fun p q => equalFold p.name q.name = false :=
  Props.core_distinct_of (h.imp fun _ _ h => ⟨h.1, _, h.2⟩)

theorem takeWhile_concat_false {α : Type} {p : α → Bool} {x : α} (hx : p x = false) : ∀ l : List α, (l ++ [x]).takeWhile p = l.takeWhile p
  | [] => by simp [hx]
  | y :: l => by
    rw [List.cons_append, List.takeWhile_cons, List.takeWhile_cons, takeWhile_concat_false hx l]

theorem takeWhile_all {α : Type} {p : α → Bool} : ∀ {l : List α}, (∀ x ∈ l, p x = true) → l.takeWhile p = l
  | [], _ => rfl
  | y :: l, h => by rw [List.takeWhile_cons, h y (by simp), if_pos rfl, takeWhile_all fun x hx => h x (by simp [hx])]

theorem takeWhile_concat_stop {α : Type} {p : α → Bool} {x : α} : ∀ {l : List α}, (∃ y ∈ l, p y = false) → (l ++ [x]).takeWhile p = l.takeWhile p
  | [], h => by simp at h
  | y :: l, h => by
    rw [List.cons_append, List.takeWhile_cons, List.takeWhile_cons]
    cases hy : p y with
    | false => rfl
    | true =>
      simp only [if_true]
      rw [takeWhile_concat_stop]
      obtain ⟨z, hz, h⟩ := h
      rcases List.mem_cons.mp hz with rfl | hz
      · rw [hy] at h; cases h
      · exact ⟨z, hz, h⟩

/-- The core rules stay as they are if the definition is no extension or the rule has been redefined. -/
theorem coreAfter_keep {pre : List Def} {d : Def} {c : List Rule} (h : CoreAfter pre c)
    (hd : d.extend = false ∨ ∃ e ∈ defsOf pre d.name, e.extend = false) : CoreAfter (pre ++ [d]) c := by
  refine List.Forall₂.imp (fun r r' h => ⟨h.1, ?_⟩) h
  rw [h.2]
  by_cases hs : SameName r.name d.name
  · rw [defsOf_same hs]
    rcases hd with hd | hd
    · rw [takeWhile_concat_false hd]
    · rw [← defsOf_congr hs] at hd
      rw [takeWhile_concat_stop hd]
  · rw [defsOf_other hs]

theorem coreAfter_extend {pre : List Def} {d : Def} {c : List Rule} (h : CoreAfter pre c) (hd : d.extend = true)
    (he : ∀ e ∈ defsOf pre d.name, e.extend = true) : CoreAfter (pre ++ [d]) (extendIn d.name d.alt c) := by
  rw [extendIn_map (coreAfter_distinct h)]
  unfold CoreAfter
  rw [List.forall₂_map_right_iff]
  refine List.Forall₂.imp (fun r r' h => ?_) h
  have hc : equalFold d.name r'.name = true ↔ SameName r.name d.name := by
    rw [equalFold_iff, h.1, sameName_iff, sameName_iff, eq_comm]
  by_cases hs : SameName r.name d.name
  · rw [if_pos (hc.mpr hs)]
    refine ⟨h.1, ?_⟩
    rw [defsOf_same hs]
    rw [← defsOf_congr hs] at he
    have h1 : (defsOf pre r.name).takeWhile Def.extend = defsOf pre r.name := takeWhile_all he
    have h2 : (defsOf pre r.name ++ [d]).takeWhile Def.extend = defsOf pre r.name ++ [d] := by
      refine takeWhile_all fun e hm => ?_
      rcases List.mem_append.mp hm with hm | hm
      · exact he e hm
      · rw [List.mem_singleton.mp hm]; exact hd
    show r'.alt ++ d.alt = _
    rw [h.2, h1, h2, List.flatMap_append, List.flatMap_singleton, List.append_assoc]
  · rw [if_neg (fun x => hs (hc.mp x)), defsOf_other hs]
    exact h

/-- An entry is written for a name, the others stay. -/
theorem follows_put {pre : List Def} {st : EvalSt} {d : Def} (h : Follows pre st) {e : Rule × Bool} {core : List Rule}
    (hn : ∀ p ∈ st.mp, equalFold e.1.name p.1.name = true → p.1.name = e.1.name) (hs : SameName e.1.name d.name)
    (hg : Given (pre ++ [d]) e.1.name e.1.alt) (hf : e.2 = true ↔ ∀ x ∈ defsOf (pre ++ [d]) e.1.name, x.extend = true)
    (hsp : ∀ r ∈ Core.rules, SameName e.1.name r.name → e.1.name = r.name) (hc : CoreAfter (pre ++ [d]) core) :
    Follows (pre ++ [d]) ⟨mpSet e st.mp, core⟩ := by
  obtain ⟨h1, h2⟩ := mpSet_sep h.sep hn
  have hne : ∀ p : Rule × Bool, equalFold e.1.name p.1.name = false → ¬ SameName p.1.name d.name := by
    intro p hp hx
    have : equalFold e.1.name p.1.name = true := (equalFold_iff _ _).mpr
      ((sameName_iff _ _).mpr (((sameName_iff _ _).mp hs).trans ((sameName_iff _ _).mp hx).symm))
    rw [hp] at this
    cases this
  refine ⟨h1, fun p hp => ?_, fun p hp => ?_, fun p hp => ?_, fun n => ?_, hc⟩
  · rcases h2 p hp with rfl | ⟨hp, hx⟩
    · exact hg
    · exact given_other (hne p hx) (h.given p hp)
  · rcases h2 p hp with rfl | ⟨hp, hx⟩
    · exact hf
    · rw [defsOf_other (hne p hx)]
      exact h.flag p hp
  · rcases h2 p hp with rfl | ⟨hp, _⟩
    · exact hsp
    · exact h.spelled p hp
  · rw [hasEntry_mpSet, h.keys]
    by_cases hx : SameName n d.name
    · rw [defsOf_same hx]
      have : equalFold n e.1.name = true := (equalFold_iff _ _).mpr
        ((sameName_iff _ _).mpr (((sameName_iff _ _).mp hx).trans ((sameName_iff _ _).mp hs).symm))
      simp [this]
    · rw [defsOf_other hx]
      have : ¬ equalFold n e.1.name = true := by
        rw [equalFold_iff, sameName_iff]
        intro hy
        exact hx ((sameName_iff _ _).mpr (hy.trans ((sameName_iff _ _).mp hs)))
      simp [this]

theorem sameName_refl (n : Str) : SameName n n := (sameName_iff _ _).mpr rfl
theorem sameName_symm {a b : Str} (h : SameName a b) : SameName b a := (sameName_iff _ _).mpr ((sameName_iff _ _).mp h).symm
theorem sameName_trans {a b c : Str} (h : SameName a b) (h' : SameName b c) : SameName a c :=
  (sameName_iff _ _).mpr (((sameName_iff _ _).mp h).trans ((sameName_iff _ _).mp h'))

theorem coreAfter_isCore {pre : List Def} {c : List Rule} (h : CoreAfter pre c) (n : Str) : (getRuleIn n c).isSome = true ↔ Props.IsCoreName n := by
  have h1 : c.map Rule.name = Core.rules.map Rule.name := by
    unfold CoreAfter at h
    generalize Core.rules = cs at h
    induction h with
    | nil => rfl
    | cons h _ ih => simp [h.1, ih]
  have h2 : (getRuleIn n c).isSome = (getRuleIn n Core.rules).isSome := by
    simpa using congrArg Option.isSome (getRuleIn_names (n := n) h1)
  rw [h2, ← not_iff_not, ← Props.isCoreName_iff]
  simp

/-- One definition. -/
theorem evalDef_follows {pre : List Def} {st : EvalSt} (h : Follows pre st) (d : Def)
    (hsp : d.extend = false → ∀ r ∈ Core.rules, SameName d.name r.name → d.name = r.name) :
    match evalDef true st d with
    | .ok st' => Follows (pre ++ [d]) st' ∧ (¬ Props.IsCoreName d.name → (d.extend = false ↔ defsOf pre d.name = []))
    | .error _ => ¬ Props.IsCoreName d.name ∧ ¬ (d.extend = false ↔ defsOf pre d.name = []) := by
  have hput : d.extend = false → (Props.IsCoreName d.name ∨ ¬ HasEntry st.mp d.name) →
      Follows (pre ++ [d]) { st with mp := mpSet (⟨d.name, d.alt⟩, false) st.mp } := by
    intro he hor
    refine follows_put (e := (⟨d.name, d.alt⟩, false)) (core := st.core) h ?_ (sameName_refl _) (given_set (sameName_refl _) he) ?_ (hsp he) (coreAfter_keep h.core (.inl he))
    · intro p hp hx
      rcases hor with ⟨r, hr, hs⟩ | hno
      · have h1 := h.spelled p hp r hr (sameName_trans (sameName_symm ((equalFold_iff _ _).mp hx)) hs)
        exact h1.trans (hsp he r hr hs).symm
      · exact absurd ⟨p, hp, hx⟩ hno
    · simp only [Bool.false_eq_true, false_iff]
      intro hx
      have := hx d (by rw [defsOf_same (sameName_refl _)]; simp)
      rw [he] at this
      cases this
  unfold evalDef
  simp only
  by_cases he : d.extend = false
  · rw [if_pos he]
    by_cases hc : (getRuleIn d.name st.core).isSome = true
    · have hc' := (coreAfter_isCore h.core _).mp hc
      rw [if_pos hc, if_neg (by simp)]
      exact ⟨hput he (.inl hc'), fun x => absurd hc' x⟩
    · have hc' := fun x => hc ((coreAfter_isCore h.core _).mpr x)
      rw [if_neg hc]
      by_cases hm : (getRuleIn d.name (st.mp.map Prod.fst)).isSome = true
      · rw [if_pos hm]
        refine ⟨hc', fun hx => ?_⟩
        exact (h.keys _).mp (getRuleIn_entry.mp hm) (hx.mp he)
      · rw [if_neg hm]
        have hno : ¬ HasEntry st.mp d.name := fun x => hm (getRuleIn_entry.mpr x)
        refine ⟨hput he (.inr hno), fun _ => ⟨fun _ => ?_, fun _ => he⟩⟩
        by_contra hx
        exact hno ((h.keys _).mpr hx)
  · have he' : d.extend = true := by simpa using he
    rw [if_neg he, if_neg (by simp)]
    by_cases hk : HasEntry st.mp d.name
    · obtain ⟨p, hp, hx⟩ := hk
      rw [extendMp_find h.sep hp hx]
      simp only
      have hs : SameName p.1.name d.name := sameName_symm ((equalFold_iff _ _).mp hx)
      have hdn : defsOf pre d.name ≠ [] := (h.keys _).mp ⟨p, hp, hx⟩
      refine ⟨?_, fun _ => ⟨fun hy => absurd hy he, fun hy => absurd hy hdn⟩⟩
      have hf : p.2 = true ↔ ∀ x ∈ defsOf (pre ++ [d]) p.1.name, x.extend = true := by
        rw [h.flag p hp, defsOf_same hs]
        constructor
        · intro hy x hm
          rcases List.mem_append.mp hm with hm | hm
          · exact hy x hm
          · rw [List.mem_singleton.mp hm]; exact he'
        · exact fun hy x hm => hy x (by simp [hm])
      refine follows_put (e := (⟨p.1.name, p.1.alt ++ d.alt⟩, p.2)) h ?_ hs (given_ext hs he' (h.given p hp)) hf (h.spelled p hp) ?_
      · intro q hq hy
        rw [separate_unique h.sep hq hp hy ((equalFold_iff _ _).mpr (sameName_refl _))]
      · cases hb : p.2 with
        | true =>
          refine coreAfter_extend h.core he' ?_
          rw [← defsOf_congr hs]
          exact (h.flag p hp).mp hb
        | false =>
          refine coreAfter_keep h.core (.inr ?_)
          rw [← defsOf_congr hs]
          by_contra hy
          push Not at hy
          have := (h.flag p hp).mpr fun e hm => by simpa using hy e hm
          rw [hb] at this
          cases this
    · have hdn : defsOf pre d.name = [] := by
        by_contra hx
        exact hk ((h.keys _).mpr hx)
      have hm : extendMp d.name d.alt st.mp = none := by
        have hx := extendMp_names (n := d.name) (a := d.alt) (m := st.mp)
        cases hm : extendMp d.name d.alt st.mp with
        | none => rfl
        | some q =>
          rw [hm] at hx
          obtain ⟨_, x, h2, h3⟩ := hx
          obtain ⟨p, h4, rfl⟩ := List.mem_map.mp h2
          exact absurd ⟨p, h4, (equalFold_iff _ _).mpr h3⟩ hk
      rw [hm]
      simp only
      cases hg : getRuleIn d.name st.core with
      | none =>
        refine ⟨fun hx => ?_, fun hx => he (hx.mpr hdn)⟩
        have := (coreAfter_isCore h.core _).mpr hx
        rw [hg] at this
        cases this
      | some r' =>
        have hx : SameName d.name r'.name := by
          have := List.find?_some hg
          exact (equalFold_iff _ _).mp this
        have hr' : r' ∈ st.core := List.mem_of_find?_eq_some hg
        obtain ⟨r, hr, h1, h2⟩ : ∃ r ∈ Core.rules, r'.name = r.name ∧ r'.alt = r.alt ++ ((defsOf pre r.name).takeWhile Def.extend).flatMap Def.alt := by
          have hc := h.core
          unfold CoreAfter at hc
          generalize Core.rules = cs at hc
          generalize st.core = c at hc hr'
          induction hc with
          | nil => cases hr'
          | @cons a b _ _ hab _ ih =>
            rcases List.mem_cons.mp hr' with rfl | hr'
            · exact ⟨a, by simp, hab⟩
            · obtain ⟨r, h3, h4⟩ := ih hr'
              exact ⟨r, by simp [h3], h4⟩
        have hxr : SameName d.name r.name := h1 ▸ hx
        rw [← defsOf_congr hxr, hdn] at h2
        simp only [List.takeWhile_nil, List.flatMap_nil, List.append_nil] at h2
        refine ⟨?_, fun hy => absurd ⟨r, hr, hxr⟩ hy⟩
        refine follows_put (e := (⟨r'.name, r'.alt ++ d.alt⟩, true)) h ?_ (sameName_symm hx) ?_ ?_ ?_ (coreAfter_extend h.core he' (by rw [hdn]; simp))
        · intro p hp hy
          exact absurd ⟨p, hp, (equalFold_trans ((equalFold_iff _ _).mpr hx)).trans hy⟩ hk
        · show Given _ r'.name (r'.alt ++ d.alt)
          rw [h2]
          exact given_grown (sameName_symm hx) he' (by rw [← defsOf_congr hx]; exact hdn) hr (h1 ▸ sameName_refl _)
        · simp only [true_iff]
          intro x hm
          rw [defsOf_same (sameName_symm hx), ← defsOf_congr hx, hdn, List.nil_append, List.mem_singleton] at hm
          rw [hm]; exact he'
        · intro q hq hs
          show r'.name = q.name
          have h3 : SameName r.name q.name := h1 ▸ hs
          have := find?_unique core_distinct hr (sameName_refl r.name)
          have h4 := find?_unique core_distinct hq h3
          rw [this] at h4
          rw [h1, Option.some.inj h4]

theorem evalDefs_follows : ∀ (ds pre : List Def) (st : EvalSt), Follows pre st → Spelled ds →
    match evalDefsFrom true st ds with
    | .ok st' => Follows (pre ++ ds) st' ∧ ∀ a d b, ds = a ++ d :: b → ¬ Props.IsCoreName d.name → (d.extend = false ↔ defsOf (pre ++ a) d.name = [])
    | .error _ => ∃ a d b, ds = a ++ d :: b ∧ ¬ Props.IsCoreName d.name ∧ ¬ (d.extend = false ↔ defsOf (pre ++ a) d.name = [])
  | [], pre, st, h, _ => ⟨by rwa [List.append_nil], fun a d b h => (by simp at h)⟩
  | d :: ds, pre, st, h, hs => by
    have h1 := evalDef_follows h d (hs d (by simp))
    rw [evalDefsFrom]
    cases hd : evalDef true st d with
    | error e =>
      rw [hd] at h1
      exact ⟨[], d, ds, rfl, h1.1, by rw [List.append_nil]; exact h1.2⟩
    | ok st' =>
      rw [hd] at h1
      have h2 := evalDefs_follows ds (pre ++ [d]) st' h1.1 fun e he => hs e (by simp [he])
      simp only
      cases hx : evalDefsFrom true st' ds with
      | error e =>
        rw [hx] at h2
        obtain ⟨a, e, b, rfl, h3, h4⟩ := h2
        exact ⟨d :: a, e, b, rfl, h3, by simpa using h4⟩
      | ok st'' =>
        rw [hx] at h2
        refine ⟨by simpa using h2.1, fun a e b he hc => ?_⟩
        cases a with
        | nil =>
          simp only [List.nil_append, List.cons.injEq] at he
          obtain ⟨rfl, rfl⟩ := he
          rw [List.append_nil]
          exact h1.2 hc
        | cons x a =>
          simp only [List.cons_append, List.cons.injEq] at he
          obtain ⟨rfl, he⟩ := he
          have := h2.2 a e b he hc
          simpa using this

theorem follows_nil : Follows [] ⟨[], Core.rules⟩ :=
  ⟨List.Pairwise.nil, by simp, by simp, by simp, by simp [HasEntry, defsOf], List.forall₂_same.mpr fun r _ => ⟨rfl, by simp [defsOf]⟩⟩

theorem altWritten_append : ∀ a b : List (List Rep), altWritten (a ++ b) = (altWritten a && altWritten b)
  | [], b => by simp [altWritten]
  | c :: a, b => by simp [altWritten, altWritten_append a b, Bool.and_assoc]

theorem written_append {n : Str} {a b : Alt} (h1 : (Rule.mk n a).written = true) {m : Str} (h2 : (Rule.mk m b).written = true) :
    (Rule.mk n (a ++ b)).written = true := by
  simp only [Rule.written, Bool.and_eq_true, Bool.not_eq_true', List.isEmpty_eq_false_iff] at h1 h2 ⊢
  refine ⟨⟨h1.1.1, by simp [h1.1.2]⟩, ?_⟩
  rw [altWritten_append, h1.2, h2.2]
  rfl

theorem extendIn_written {d : Def} (hd : (Rule.mk d.name d.alt).written = true) : ∀ {c : List Rule}, (∀ r ∈ c, r.written = true) →
    ∀ r ∈ extendIn d.name d.alt c, r.written = true
  | [], h => h
  | q :: c, h => by
    intro r hr
    rw [extendIn] at hr
    split_ifs at hr
    · rcases List.mem_cons.mp hr with rfl | hr
      · exact written_append (h q (by simp)) hd
      · exact h r (by simp [hr])
    · rcases List.mem_cons.mp hr with rfl | hr
      · exact h r (by simp)
      · exact extendIn_written hd (fun r hr => h r (by simp [hr])) r hr

theorem extendMp_written {d : Def} (hd : (Rule.mk d.name d.alt).written = true) : ∀ {m : List (Rule × Bool)} {q : List (Rule × Bool) × Bool},
    (∀ p ∈ m, p.1.written = true) → extendMp d.name d.alt m = some q → ∀ p ∈ q.1, p.1.written = true
  | [], q, _, h => by cases h
  | x :: m, q, hm, h => by
    rw [extendMp] at h
    split_ifs at h
    · cases h
      intro p hp
      rcases List.mem_cons.mp hp with rfl | hp
      · exact written_append (hm x (by simp)) hd
      · exact hm p (by simp [hp])
    · cases hx : extendMp d.name d.alt m with
      | none => rw [hx] at h; cases h
      | some y =>
        rw [hx] at h
        cases h
        intro p hp
        rcases List.mem_cons.mp hp with rfl | hp
        · exact hm p (by simp)
        · exact extendMp_written hd (fun p hp => hm p (by simp [hp])) hx p hp

theorem evalDefs_written {rc : Bool} : ∀ (ds : List Def) (st st' : EvalSt), (∀ d ∈ ds, (Rule.mk d.name d.alt).written = true) →
    (∀ p ∈ st.mp, p.1.written = true) → (∀ r ∈ st.core, r.written = true) → evalDefsFrom rc st ds = .ok st' → ∀ p ∈ st'.mp, p.1.written = true
  | [], st, st', _, hm, _, h => by cases h; exact hm
  | d :: ds, st, st', hd, hm, hc, h => by
    rw [evalDefsFrom] at h
    cases hx : evalDef rc st d with
    | error e => rw [hx] at h; cases h
    | ok s =>
      rw [hx] at h
      have hd1 := hd d (by simp)
      have hput : ∀ e : Rule × Bool, e.1.written = true → ∀ p ∈ mpSet e st.mp, p.1.written = true := by
        intro e he p hp
        rcases Props.mem_mpSet hp with rfl | hp
        · exact he
        · exact hm p hp
      have : (∀ p ∈ s.mp, p.1.written = true) ∧ ∀ r ∈ s.core, r.written = true := by
        unfold evalDef at hx
        simp only at hx
        by_cases he : d.extend = false
        · rw [if_pos he] at hx
          split_ifs at hx <;> (cases hx; exact ⟨hput _ hd1, hc⟩)
        · rw [if_neg he] at hx
          split_ifs at hx with hb
          cases hq : extendMp d.name d.alt st.mp with
          | some q =>
            rw [hq] at hx
            cases hx
            refine ⟨extendMp_written hd1 hm hq, ?_⟩
            show ∀ r ∈ (if q.2 then _ else _), _
            split_ifs
            · exact extendIn_written hd1 hc
            · exact hc
          | none =>
            rw [hq] at hx
            simp only at hx
            cases hg : getRuleIn d.name st.core with
            | none => rw [hg] at hx; cases hx
            | some r =>
              rw [hg] at hx
              cases hx
              exact ⟨hput _ (written_append (hc r (List.mem_of_find?_eq_some hg)) hd1), extendIn_written hd1 hc⟩
      exact evalDefs_written ds s st' (fun e he => hd e (by simp [he])) this.1 this.2 h

/-- The definitions say one thing about a name. -/
theorem given_unique {ds : List Def} {n : Str} {a b : Alt} (ha : Given ds n a) (hb : Given ds n b) : a = b := by
  have mem : ∀ {l : List Def} {d : Def}, d ∈ l → SameName n d.name → d ∈ defsOf l n := by
    intro l d h1 h2
    exact List.mem_filter.mpr ⟨h1, by simpa using h2⟩
  have clash : ∀ {p q : List Def} {d e : Def} {t u : List Def}, p ++ d :: t = q ++ e :: u → e.extend = false → SameName n e.name →
      (∀ x ∈ defsOf t n, x.extend = true) → q.length ≤ p.length := by
    intro p q d e t u h h1 h2 h3
    by_contra hlt
    push Not at hlt
    have hget : e ∈ t := by
      have h4 : (p ++ d :: t)[q.length]? = some e := by rw [h]; simp
      rw [List.getElem?_append_right (by omega)] at h4
      obtain ⟨k, hk⟩ : ∃ k, q.length - p.length = k + 1 := ⟨q.length - p.length - 1, by omega⟩
      rw [hk, List.getElem?_cons_succ] at h4
      exact List.mem_of_getElem? h4
    have := h3 e (mem hget h2)
    rw [h1] at this
    cases this
  cases ha with
  | set p d t h1 h2 h3 h4 =>
    cases hb with
    | set q e u g1 g2 g3 g4 =>
      have h5 := clash (h1.symm.trans g1) g2 g3 h4
      have h6 := clash (g1.symm.trans h1) h2 h3 g4
      have := List.append_inj (h1.symm.trans g1) (by omega)
      simp only [List.cons.injEq] at this
      obtain ⟨_, rfl, rfl⟩ := this
      rfl
    | grown r _ _ _ g4 =>
      have := g4 d (mem (by rw [h1]; simp) h3)
      rw [h2] at this
      cases this
  | grown r h1 h2 h3 h4 =>
    cases hb with
    | set q e u g1 g2 g3 _ =>
      have := h4 e (mem (by rw [g1]; simp) g3)
      rw [g2] at this
      cases this
    | grown r' g1 g2 _ _ =>
      have e1 := find?_unique core_distinct h1 h2
      have e2 := find?_unique core_distinct g1 g2
      rw [e1] at e2
      rw [Option.some.inj e2]

namespace Props
open Text Eval

/-! ## C104: redefined core rules -/

/-- The rules of the grammar are what the definitions say: one rule for each name, as given. -/
structure Gives (ds : List Def) (g : Grammar) : Prop where
  distinct : NamesDistinct g
  given : ∀ r ∈ g.rules, Given ds r.name r.alt
  names : ∀ n, (∃ r ∈ g.rules, SameName n r.name) ↔ ∃ d ∈ ds, SameName n d.name

theorem namesDistinct_iff (st : EvalSt) : NamesDistinct (grammarOf st) ↔ Separate st.mp := by
  unfold NamesDistinct Separate grammarOf
  rw [List.pairwise_map]
  simp only [← equalFold_iff, Bool.not_eq_true]

theorem follows_gives {ds : List Def} {st : EvalSt} (h : Follows ds st) : Gives ds (grammarOf st) := by
  refine ⟨(namesDistinct_iff st).mpr h.sep, fun r hr => ?_, fun n => ?_⟩
  · obtain ⟨p, hp, rfl⟩ := List.mem_map.mp hr
    exact h.given p hp
  · have h1 := h.keys n
    unfold HasEntry defsOf at h1
    rw [ne_eq, List.filter_eq_nil_iff] at h1
    push Not at h1
    simp only [equalFold_iff, decide_eq_true_eq] at h1
    rw [← h1]
    constructor
    · rintro ⟨r, hr, hn⟩
      obtain ⟨p, hp, rfl⟩ := List.mem_map.mp hr
      exact ⟨p, hp, hn⟩
    · rintro ⟨p, hp, hn⟩
      exact ⟨p.1, List.mem_map.mpr ⟨p, hp, rfl⟩, hn⟩

/-- C104.  Whether a rule list is accepted, and if not the error, does not depend on the order in which maps are iterated. -/
theorem C104_verdict (ord : Nat → List (Rule × Bool) → List (Rule × Bool)) (ho : ∀ k m, (ord k m).Perm m) (rc : Bool) (ds : List Def) (e : EvalErr) :
    evalRulelistO ord rc ds = .error e ↔ evalRulelist rc ds = .error e := by
  have h := evalDefs_keys ho (rc := rc) ds 0 ⟨[], Core.rules⟩ ⟨[], Core.rules⟩ ⟨rfl, fun _ => Iff.rfl⟩
  unfold evalRulelistO evalRulelist
  cases h1 : evalDefsO ord rc 0 ⟨[], Core.rules⟩ ds with
  | error x =>
    rw [h1] at h
    cases h2 : evalDefsFrom rc ⟨[], Core.rules⟩ ds with
    | error y => rw [h2] at h; rw [show x = y from h]
    | ok y => rw [h2] at h; exact h.elim
  | ok x =>
    rw [h1] at h
    cases h2 : evalDefsFrom rc ⟨[], Core.rules⟩ ds with
    | error y => rw [h2] at h; exact h.elim
    | ok y => exact ⟨fun hx => (by cases hx), fun hx => (by cases hx)⟩

/-- C104.  If the rules found have distinct names, those found for another order of iteration are the same. -/
theorem C104_order (ord : Nat → List (Rule × Bool) → List (Rule × Bool)) (ho : ∀ k m, (ord k m).Perm m) (rc : Bool) (ds : List Def) (st : EvalSt)
    (h : evalRulelist rc ds = .ok st) (hd : NamesDistinct (grammarOf st)) : evalRulelistO ord rc ds = .ok st :=
  evalDefsO_eq ho ds 0 _ st h ((namesDistinct_iff st).mp hd)

/-- C104.  With core rules open to redefinition a rule list is accepted exactly if other names are defined once and before they are extended;
the rules are then what the definitions say, and the core rules have gained the extensions made before redefinitions. -/
theorem C104_rules (ds : List Def) (hs : Spelled ds) :
    ((∃ st, evalRulelist true ds = .ok st) ↔ InTurn ds) ∧
    ∀ st, evalRulelist true ds = .ok st → Gives ds (grammarOf st) ∧ CoreAfter ds st.core := by
  have h := evalDefs_follows ds [] _ follows_nil hs
  unfold evalRulelist
  cases hx : evalDefsFrom true ⟨[], Core.rules⟩ ds with
  | error e =>
    rw [hx] at h
    obtain ⟨a, d, b, h1, h2, h3⟩ := h
    refine ⟨⟨fun ⟨_, h⟩ => (by cases h), fun hal => absurd (hal a d b h1 h2) h3⟩, fun _ h => (by cases h)⟩
  | ok st =>
    rw [hx] at h
    refine ⟨⟨fun _ a d b h1 h2 => h.2 a d b h1 h2, fun _ => ⟨st, rfl⟩⟩, fun st' h' => ?_⟩
    cases h'
    exact ⟨follows_gives h.1, h.1.core⟩

/-- C104.  `ParseABNF` with `WithRedefineCoreRules(true)`: an error about a definition if the text defines a name that is no core rule's twice
or extends it before it is defined; otherwise the grammar that the text says, which can be written down, or under validation an error if it is not sound. -/
theorem C104_parse (sched : Sched NodeKey) (hf : sched.Fair) (opts : List ABNFOption) (s : Str) (ds : List Def)
    (h : ReadsFile rfc s ds) (hfit : ∀ d ∈ ds, ∀ r ∈ altReps d.alt, Fits r) (hq : Quiet s)
    (hrc : (processOptions opts).redefineCore = true) (hs : Spelled ds) :
    (¬ InTurn ds → ∃ e, parseABNF sched (utf8 s) opts = .error (.eval e)) ∧
    (InTurn ds → ∃ g, Gives ds g ∧ (∀ r ∈ g.rules, r.written = true) ∧
      (((processOptions opts).validate = true → Sound g) → parseABNF sched (utf8 s) opts = .ok g) ∧
      ((processOptions opts).validate = true → ¬ Sound g → ∃ e, parseABNF sched (utf8 s) opts = .error (.semantic e))) := by
  have hr := file_code h hfit hq
  rw [parseABNF_reads sched hf opts s ds hr]
  unfold outcome
  rw [hrc]
  obtain ⟨h1, h2⟩ := C104_rules ds hs
  constructor
  · intro hn
    cases hx : evalRulelist true ds with
    | error e => exact ⟨e, rfl⟩
    | ok st => exact absurd (h1.mp ⟨st, hx⟩) hn
  · intro hal
    obtain ⟨st, hst⟩ := h1.mpr hal
    rw [hst]
    simp only
    have hw : ∀ r ∈ (grammarOf st).rules, r.written = true := by
      intro r hr
      obtain ⟨p, hp, rfl⟩ := List.mem_map.mp hr
      exact evalDefs_written ds _ st (file_written h) (by simp) core_written hst p hp
    have hsound := C17_exact _ (numValsWF_of_written hw)
    refine ⟨grammarOf st, (h2 st hst).1, hw, fun hv => ?_, fun hv hn => ?_⟩
    · split_ifs with hx
      · rw [hsound.mpr (hv hx)]
      · rfl
    · rw [if_pos hv]
      cases hx : semvalABNF (grammarOf st) with
      | none => exact absurd (hsound.mp hx) hn
      | some e => exact ⟨e, rfl⟩

/-- `ALPHA=/"-"`, `DIGIT="0"` and `alpha=/"+"`: a core rule extended twice and one redefined. -/
def coreText : Str := str% "ALPHA=/\"-\"\r\nDIGIT=\"0\"\r\nalpha=/\"+\"\r\n"
/-- What it says. -/
def coreDefs : List Def := [⟨str% "ALPHA", true, [[Ex.one (Ex.lit (str% "-"))]]⟩, ⟨str% "DIGIT", false, [[Ex.one (Ex.lit (str% "0"))]]⟩,
  ⟨str% "alpha", true, [[Ex.one (Ex.lit (str% "+"))]]⟩]

theorem coreText_reads : ReadsFile rfc coreText coreDefs := by
  refine ⟨by decide, ?_⟩
  have hx : ∀ c, c ∈ ['-', '0', '+'] → ReadsAlt rfc ['"', c, '"'] [[Ex.one (Ex.lit [c])]] := by
    intro c hc
    refine .one _ _ (.one _ _ (.mk [] _ _ _ _ .none (.string [c] ?_)))
    revert c
    decide
  have l1 := ReadsRule.extend (str% "ALPHA") [] [] _ _ [] (str% "\r\n") (nameOK_iff.mp (by decide)) .nil .nil (hx '-' (by decide)) (by simp) .plain
  have l2 := ReadsRule.define (str% "DIGIT") [] [] _ _ [] (str% "\r\n") (nameOK_iff.mp (by decide)) .nil .nil (hx '0' (by decide)) (by simp) .plain
  have l3 := ReadsRule.extend (str% "alpha") [] [] _ _ [] (str% "\r\n") (nameOK_iff.mp (by decide)) .nil .nil (hx '+' (by decide)) (by simp) .plain
  exact .rule _ _ _ _ l1 (.rule _ _ _ _ l2 (.rule _ _ _ _ l3 .nil))

theorem spelled_of {ds : List Def} (h : ∀ d ∈ ds, d.extend = false → ∀ r ∈ Core.rules, equalFold d.name r.name = true → d.name = r.name) : Spelled ds :=
  fun d hd he r hr hs => h d hd he r hr ((equalFold_iff _ _).mpr hs)

theorem coreDefs_spelled : Spelled coreDefs := spelled_of (by decide +kernel)

/-- C104: the text is read, and its grammar has `ALPHA` with four alternatives and `DIGIT` with one. -/
example (sched : Sched NodeKey) (hf : sched.Fair) : ∃ g, parseABNF sched (utf8 coreText) [.withRedefineCoreRules true] = .ok g ∧
    Gives coreDefs g ∧ g.rules.map (fun r => (r.name, r.alt.length)) = [(str% "ALPHA", 4), (str% "DIGIT", 1)] := by
  have hok : ∃ st, evalRulelist true coreDefs = .ok st := ⟨_, rfl⟩
  obtain ⟨st, hst⟩ := hok
  have hl : (grammarOf st).rules.map (fun r => (r.name, r.alt.length)) = [(str% "ALPHA", 4), (str% "DIGIT", 1)] ∧ semvalABNF (grammarOf st) = none := by
    have : evalRulelist true coreDefs = .ok st := hst
    cases this
    exact ⟨by decide +kernel, by decide +kernel⟩
  refine ⟨grammarOf st, ?_, ((C104_rules coreDefs coreDefs_spelled).2 st hst).1, hl.1⟩
  rw [parseABNF_reads sched hf _ coreText coreDefs (file_code coreText_reads (by unfold Fits; decide) (quiet_of (by decide)))]
  unfold outcome
  rw [show (processOptions [.withRedefineCoreRules true]).redefineCore = true from rfl, hst]
  simp only [hl.2]
  rfl

example : (processOptions [.withRedefineCoreRules true]).redefineCore = true ∧ InTurn coreDefs :=
  ⟨rfl, (C104_rules coreDefs coreDefs_spelled).1.mp ⟨_, rfl⟩⟩

/-- C104 fails for core rules written in two ways: of `ALPHA = "a"`, `alpha = "b"` and `Alpha =/ "c"` the third extends the first or the second,
depending on the order of map iteration. -/
theorem C104_order_fails : ∃ (ds : List Def) (o o' : Nat → List (Rule × Bool) → List (Rule × Bool)), (∀ k m, (o k m).Perm m) ∧ (∀ k m, (o' k m).Perm m) ∧
    ∃ st st', evalRulelistO o true ds = .ok st ∧ evalRulelistO o' true ds = .ok st' ∧
      st.mp.map (fun p => p.1.alt.length) = [2, 1] ∧ st'.mp.map (fun p => p.1.alt.length) = [1, 2] := by
  refine ⟨[⟨str% "ALPHA", false, [[Ex.one (Ex.lit (str% "a"))]]⟩, ⟨str% "alpha", false, [[Ex.one (Ex.lit (str% "b"))]]⟩,
    ⟨str% "Alpha", true, [[Ex.one (Ex.lit (str% "c"))]]⟩], fun _ m => m, fun _ m => m.reverse, fun _ _ => List.Perm.refl _,
    fun _ m => List.reverse_perm m, _, _, rfl, rfl, by decide +kernel, by decide +kernel⟩

-- C104_verdict and C104_order: the orders are permutations, and a list with distinct names is accepted
example : ∃ st, evalRulelist true coreDefs = .ok st ∧ NamesDistinct (grammarOf st) ∧ ∃ e, evalRulelist true [⟨str% "a", true, []⟩] = .error e :=
  ⟨_, rfl, ((C104_rules coreDefs coreDefs_spelled).2 _ rfl).1.distinct, _, rfl⟩

end Props
end Verif
