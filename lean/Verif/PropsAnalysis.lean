import Verif.Analysis

/-!
# Property theorems: rule lookup, dependencies, validation, rule lists, options (C17, C18, C19, C36, C37, C42)
-/

namespace Verif
open Spec

/-! ## Dependencies -/

theorem mem_appendDeps {deps ns : List Str} {x : Str} : x ∈ appendDeps deps ns ↔ x ∈ deps ∨ x ∈ ns := by
  induction ns generalizing deps with
  | nil => simp [appendDeps]
  | cons n ns ih =>
    rw [appendDeps, ih]
    split_ifs with h
    · simp only [List.mem_cons]
      constructor
      · rintro (h1 | h1)
        · exact .inl h1
        · exact .inr (.inr h1)
      · rintro (h1 | rfl | h1)
        · exact .inl h1
        · exact .inl h
        · exact .inr h1
    · simp only [List.mem_append, List.mem_cons, List.not_mem_nil, or_false]
      tauto

theorem nodup_appendDeps {deps ns : List Str} (h : deps.Nodup) : (appendDeps deps ns).Nodup := by
  induction ns generalizing deps with
  | nil => exact h
  | cons n ns ih =>
    rw [appendDeps]
    apply ih
    split_ifs with hm
    · exact h
    · rw [List.nodup_append]
      exact ⟨h, List.nodup_singleton _, fun a ha b hb hab => hm (by simp at hb; rw [← hb, ← hab]; exact ha)⟩

mutual
theorem nodup_elemDeps : (e : Elem) → (elemDeps e).Nodup
  | .group a => nodup_altDepsFrom [] a List.nodup_nil
  | .option a => nodup_altDepsFrom [] a List.nodup_nil
  | .rulename _ => List.nodup_singleton _
  | .charVal .. => List.nodup_nil
  | .numVal .. => List.nodup_nil
  | .proseVal .. => List.nodup_nil
theorem nodup_repDeps : (r : Rep) → (repDeps r).Nodup
  | ⟨_, _, e⟩ => nodup_elemDeps e
theorem nodup_concatDepsFrom : (deps : List Str) → (c : List Rep) → deps.Nodup → (concatDepsFrom deps c).Nodup
  | _, [], h => h
  | _, _ :: c, h => nodup_concatDepsFrom _ c (nodup_appendDeps h)
theorem nodup_altDepsFrom : (deps : List Str) → (a : List (List Rep)) → deps.Nodup → (altDepsFrom deps a).Nodup
  | _, [], h => h
  | _, c :: a, h => nodup_altDepsFrom _ a (nodup_concatDepsFrom _ c h)
end

/-- `x` is the folded name of a rule mentioned by one of the repetitions. -/
def MentionedIn (x : Str) (rs : List Rep) : Prop := ∃ r ∈ rs, ∃ n, r.elem = .rulename n ∧ x = canon n

theorem mentionedIn_append {x : Str} {l m : List Rep} : MentionedIn x (l ++ m) ↔ MentionedIn x l ∨ MentionedIn x m := by
  simp only [MentionedIn, List.mem_append]
  constructor
  · rintro ⟨r, h | h, h'⟩
    · exact .inl ⟨r, h, h'⟩
    · exact .inr ⟨r, h, h'⟩
  · rintro (⟨r, h, h'⟩ | ⟨r, h, h'⟩)
    · exact ⟨r, .inl h, h'⟩
    · exact ⟨r, .inr h, h'⟩

mutual
theorem mem_elemDeps (x : Str) : (e : Elem) → (x ∈ elemDeps e ↔ (∃ n, e = .rulename n ∧ x = canon n) ∨ MentionedIn x (elemReps e))
  | .group a => by rw [elemDeps, mem_altDepsFrom x [] a]; simp [elemReps]
  | .option a => by rw [elemDeps, mem_altDepsFrom x [] a]; simp [elemReps]
  | .rulename n => by simp [elemDeps, elemReps, MentionedIn]
  | .charVal .. => by simp [elemDeps, elemReps, MentionedIn]
  | .numVal .. => by simp [elemDeps, elemReps, MentionedIn]
  | .proseVal .. => by simp [elemDeps, elemReps, MentionedIn]
theorem mem_repDeps (x : Str) : (r : Rep) → (x ∈ repDeps r ↔ MentionedIn x (repReps r))
  | ⟨mn, mx, e⟩ => by
    rw [repDeps, mem_elemDeps x e, repReps, show (⟨mn, mx, e⟩ :: elemReps e) = [⟨mn, mx, e⟩] ++ elemReps e from rfl,
      mentionedIn_append]
    simp [MentionedIn]
theorem mem_concatDepsFrom (x : Str) : (deps : List Str) → (c : List Rep) →
    (x ∈ concatDepsFrom deps c ↔ x ∈ deps ∨ MentionedIn x (concatReps c))
  | deps, [] => by simp [concatDepsFrom, concatReps, MentionedIn]
  | deps, r :: c => by
    rw [concatDepsFrom, mem_concatDepsFrom x _ c, mem_appendDeps, mem_repDeps x r, concatReps, mentionedIn_append, or_assoc]
theorem mem_altDepsFrom (x : Str) : (deps : List Str) → (a : List (List Rep)) →
    (x ∈ altDepsFrom deps a ↔ x ∈ deps ∨ MentionedIn x (altReps a))
  | deps, [] => by simp [altDepsFrom, altReps, MentionedIn]
  | deps, c :: a => by
    rw [altDepsFrom, mem_altDepsFrom x _ a, mem_concatDepsFrom x _ c, altReps, mentionedIn_append, or_assoc]
end

theorem mem_getDependencies {x : Str} {a : Alt} : x ∈ getDependencies a ↔ MentionedIn x (altReps a) := by
  rw [getDependencies, mem_altDepsFrom]; simp

theorem lookup_dgSet (k k' : Str) (v : DepNode) (m : List (Str × DepNode)) :
    (dgSet k v m).lookup k' = if k' = k then some v else m.lookup k' := by
  induction m with
  | nil =>
    simp only [dgSet, List.lookup]
    by_cases h : k' = k
    · simp [h]
    · simp [h, beq_eq_false_iff_ne.mpr h]
  | cons p m ih =>
    obtain ⟨q, w⟩ := p
    rw [dgSet]
    simp only
    by_cases hq : q = k
    · subst hq
      simp only [if_true, List.lookup]
      by_cases h : k' = q
      · simp [h]
      · simp [h, beq_eq_false_iff_ne.mpr h]
    · simp only [if_neg hq, List.lookup]
      by_cases h : k' = q
      · subst h; simp [hq]
      · simp only [beq_eq_false_iff_ne.mpr h, ih]

theorem lookup_dgAdd (m : List (Str × DepNode)) (rs : List Rule) (hd : rs.Pairwise fun a b => ¬ SameName a.name b.name)
    (k : Str) : (dgAdd m rs).lookup k =
      match rs.find? fun r => canon r.name == k with
      | some r => some ⟨r.name, getDependencies r.alt⟩
      | none => m.lookup k := by
  induction rs generalizing m with
  | nil => rfl
  | cons r rs ih =>
    rw [List.pairwise_cons] at hd
    rw [dgAdd, ih _ hd.2, List.find?_cons]
    by_cases h : canon r.name = k
    · have : (canon r.name == k) = true := by simpa using h
      simp only [this]
      have hnone : rs.find? (fun r => canon r.name == k) = none := by
        rw [List.find?_eq_none]
        intro x hx hx'
        simp only [beq_iff_eq] at hx'
        exact hd.1 x hx ((sameName_iff _ _).mpr (h.trans hx'.symm))
      rw [hnone]
      simp only [lookup_dgSet, h, if_true]
    · have : (canon r.name == k) = false := by simpa using h
      simp only [this]
      cases rs.find? (fun r => canon r.name == k) with
      | some _ => rfl
      | none => simp only; rw [lookup_dgSet, if_neg fun hk => h hk.symm]

theorem lower_lower (c : Char) : lowerChar (lowerChar c) = lowerChar c := by
  by_cases h : 'A'.toNat ≤ c.toNat ∧ c.toNat ≤ 'Z'.toNat
  · have hv : (c.toNat + 32).isValidChar := by
      have h1 : c.toNat ≤ 90 := h.2
      exact Or.inl (by omega)
    have hn : (lowerChar c).toNat = c.toNat + 32 := by
      rw [lowerChar, if_pos h, Char.ofNat, dif_pos hv]
      rfl
    have : ¬ ('A'.toNat ≤ (lowerChar c).toNat ∧ (lowerChar c).toNat ≤ 'Z'.toNat) := by
      rw [hn]
      have h1 : 65 ≤ c.toNat := h.1
      rintro ⟨_, h2⟩
      have h2 : c.toNat + 32 ≤ 90 := h2
      omega
    rw [lowerChar, if_neg this]
  · rw [show lowerChar c = c by rw [lowerChar, if_neg h]]
    rw [lowerChar, if_neg h]

theorem canon_canon (s : Str) : canon (canon s) = canon s := by
  simp only [canon, List.map_map]
  apply List.map_congr_left
  intro c _
  exact lower_lower c

theorem find?_congr' {α : Type} {p q : α → Bool} {l : List α} (h : ∀ x ∈ l, p x = q x) : l.find? p = l.find? q := by
  induction l with
  | nil => rfl
  | cons x l ih =>
    rw [List.find?_cons, List.find?_cons, h x (by simp), ih fun y hy => h y (by simp [hy])]

theorem getRuleIn_eq (n : Str) (rs : List Rule) : getRuleIn n rs = rs.find? fun r => canon r.name == canon n := by
  unfold getRuleIn
  apply find?_congr'
  intro r _
  rw [Bool.eq_iff_iff]
  simp only [equalFold, beq_iff_eq]
  exact eq_comm

/-- Rule lookup finds exactly the rule a name refers to. -/
theorem getRule_iff {g : Grammar} (hd : NamesDistinct g) {n : Str} {r : Rule} :
    getRule n g.rules = some r ↔ Resolves g n r := by
  refine ⟨getRule_resolves, fun h => ?_⟩
  unfold getRule
  cases h with
  | user hm hs =>
    have : getRuleIn n g.rules = some r := find?_unique hd hm hs
    rw [this]; rfl
  | core hm hs hu =>
    have h1 : getRuleIn n g.rules = none := List.find?_eq_none.mpr fun u hu' he => hu u hu' ((equalFold_iff _ _).mp he)
    have h2 : getRuleIn n Core.rules = some r := find?_unique core_distinct hm hs
    rw [h1, h2]; rfl

/-! ## Semantic validation -/

theorem semvalNums_none {b : Str} {es : List Str} : semvalNums b es = none ↔ ∀ s ∈ es, checkBounds s b = true := by
  induction es with
  | nil => simp [semvalNums]
  | cons s es ih =>
    rw [semvalNums]
    split_ifs with h
    · simp [ih, h]
    · simp [h]

/-- What `semvalAlternation` demands of one repetition. -/
def RepOK (r : Rep) : Prop :=
  (∀ m, r.max = some m → r.min ≤ m) ∧ ∀ b st es, r.elem = .numVal b st es → ∀ s ∈ es, checkBounds s b = true

mutual
theorem semvalElem_none : (e : Elem) → (semvalElem e = none ↔
    (∀ b st es, e = .numVal b st es → ∀ s ∈ es, checkBounds s b = true) ∧ ∀ r ∈ elemReps e, RepOK r)
  | .numVal b st es => by
    rw [semvalElem, semvalNums_none]
    simp only [elemReps, List.not_mem_nil, false_implies, implies_true, and_true]
    constructor
    · rintro h _ _ _ he
      injection he with h1 h2 h3
      subst h1 h3
      exact h
    · intro h; exact h b st es rfl
  | .group a => by rw [semvalElem, semvalAlternation_none a]; simp [elemReps]
  | .option a => by rw [semvalElem, semvalAlternation_none a]; simp [elemReps]
  | .rulename _ => by simp [semvalElem, elemReps]
  | .charVal .. => by simp [semvalElem, elemReps]
  | .proseVal .. => by simp [semvalElem, elemReps]
theorem semvalRep_none : (q : Rep) → (semvalRep q = none ↔ ∀ r ∈ repReps q, RepOK r)
  | ⟨mn, mx, e⟩ => by
    have hb : boundsCross mn mx = false ↔ ∀ m, mx = some m → mn ≤ m := by
      cases mx <;> simp [boundsCross]
    rw [semvalRep, repReps, List.forall_mem_cons]
    split_ifs with h
    · simp only [false_iff, not_and]
      intro h1
      exact absurd (hb.mpr h1.1) (by simp [h])
    · rw [semvalElem_none e]
      have := hb.mp (by simpa using h)
      simp only [RepOK, Rep.max_mk, Rep.min_mk, Rep.elem_mk]
      tauto
theorem semvalConcat_none : (c : List Rep) → (semvalConcat c = none ↔ ∀ r ∈ concatReps c, RepOK r)
  | [] => by simp [semvalConcat, concatReps]
  | r :: c => by
    rw [semvalConcat, Option.or_eq_none_iff, semvalRep_none r, semvalConcat_none c, concatReps, List.forall_mem_append]
theorem semvalAlternation_none : (a : List (List Rep)) → (semvalAlternation a = none ↔ ∀ r ∈ altReps a, RepOK r)
  | [] => by simp [semvalAlternation, altReps]
  | c :: a => by
    rw [semvalAlternation, Option.or_eq_none_iff, semvalConcat_none c, semvalAlternation_none a, altReps,
      List.forall_mem_append]
end

theorem semvalDeps_none {rs : List Rule} {ds : List Str} :
    semvalDeps rs ds = none ↔ ∀ d ∈ ds, (getRule d rs).isSome = true := by
  induction ds with
  | nil => simp [semvalDeps]
  | cons d ds ih =>
    rw [semvalDeps]
    split_ifs with h
    · simp [ih, h]
    · simp [h]

/-- A rule of that name exists, in the grammar or among the core rules. -/
theorem getRule_isSome {g : Grammar} {n : Str} : (getRule n g.rules).isSome = true ↔ ∃ r, Resolves g n r := by
  constructor
  · intro h
    obtain ⟨r, hr⟩ := Option.isSome_iff_exists.mp h
    exact ⟨r, getRule_resolves hr⟩
  · rintro ⟨r, h⟩
    unfold getRule
    cases hu : getRuleIn n g.rules with
    | some u => rfl
    | none =>
      cases h with
      | user hm hs => exact absurd ((equalFold_iff _ _).mpr hs) (List.find?_eq_none.mp hu r hm)
      | core hm hs _ =>
        have : getRuleIn n Core.rules = some r := find?_unique core_distinct hm hs
        rw [this]; rfl

theorem resolves_congr {g : Grammar} {n m : Str} (h : canon n = canon m) {r : Rule} :
    Resolves g n r ↔ Resolves g m r := by
  have key : ∀ {n m : Str}, canon n = canon m → Resolves g n r → Resolves g m r := by
    intro n m h hr
    cases hr with
    | user hm hs =>
      exact .user hm ((sameName_iff _ _).mpr (h.symm.trans ((sameName_iff _ _).mp hs)))
    | core hm hs hu =>
      exact .core hm ((sameName_iff _ _).mpr (h.symm.trans ((sameName_iff _ _).mp hs)))
        fun u hu' hs' => hu u hu' ((sameName_iff _ _).mpr (h.trans ((sameName_iff _ _).mp hs')))
  exact ⟨key h, key h.symm⟩

/-! ## Rule lists -/

/-- The rules a list of definitions stands for: one rule per `=`, with the alternatives of all definitions of that
name in order. -/
def build (defs : List Def) : List Rule :=
  (defs.filter fun d => !d.extend).map fun d => ⟨d.name, (defs.filter fun e => equalFold d.name e.name).flatMap Def.alt⟩

/-- Every `=/` has an earlier or later `=` of the same name, and those of `=` are distinct. -/
structure PreOK (pre : List Def) : Prop where
  base : ∀ d ∈ pre, ∃ e ∈ pre, e.extend = false ∧ equalFold d.name e.name = true
  dist : (build pre).Pairwise fun a b => equalFold a.name b.name = false

/-- The conditions of strict evaluation, definition by definition. -/
def Acceptable (pre : List Def) : List Def → Prop
  | [] => True
  | d :: ds => (getRuleIn d.name Core.rules = none ∧
      (d.extend = false → ∀ e ∈ pre, equalFold d.name e.name = false) ∧
      (d.extend = true → ∃ e ∈ pre, equalFold d.name e.name = true)) ∧ Acceptable (pre ++ [d]) ds

theorem equalFold_comm (a b : Str) : equalFold a b = equalFold b a := by
  rw [Bool.eq_iff_iff]; simp only [equalFold, beq_iff_eq]; exact eq_comm
theorem equalFold_refl (a : Str) : equalFold a a = true := by simp [equalFold]
theorem equalFold_trans {a b c : Str} (h : equalFold a b = true) : equalFold a c = equalFold b c := by
  simp only [equalFold, beq_iff_eq] at h; simp only [equalFold, h]

theorem mpSet_new {e : Rule × Bool} {m : List (Rule × Bool)} (h : ∀ p ∈ m, equalFold e.1.name p.1.name = false) :
    mpSet e m = m ++ [e] := by
  induction m with
  | nil => rfl
  | cons p m ih =>
    have hp : p.1.name ≠ e.1.name := by
      intro he
      have := h p (by simp)
      rw [he, equalFold_refl] at this
      cases this
    rw [mpSet, if_neg hp, ih fun q hq => h q (by simp [hq])]
    rfl

theorem extendMp_spec {name : Str} {alt : Alt} {rs : List Rule} (hd : rs.Pairwise fun a b => equalFold a.name b.name = false)
    (h : ∃ r ∈ rs, equalFold name r.name = true) :
    extendMp name alt (rs.map fun r => (r, false)) =
      some (rs.map fun r => (⟨r.name, if equalFold name r.name then r.alt ++ alt else r.alt⟩, false), false) := by
  induction rs with
  | nil => simp at h
  | cons r rs ih =>
    rw [List.pairwise_cons] at hd
    rw [List.map_cons, extendMp]
    by_cases hr : equalFold name r.name = true
    · simp only [hr, if_true, List.map_cons, Option.some.injEq, Prod.mk.injEq, List.cons.injEq, true_and, and_true]
      apply List.map_congr_left
      intro x hx
      have : equalFold name x.name = false := by rw [equalFold_trans hr]; exact hd.1 x hx
      simp [this]
    · have h' : ∃ r ∈ rs, equalFold name r.name = true := by
        obtain ⟨x, hx, hxn⟩ := h
        rcases List.mem_cons.mp hx with rfl | hx
        · exact absurd hxn hr
        · exact ⟨x, hx, hxn⟩
      simp only [hr, Bool.false_eq_true, if_false]
      rw [ih hd.2 h']
      simp [hr]

theorem extendMp_none {name : Str} {alt : Alt} {rs : List Rule} (h : ∀ r ∈ rs, equalFold name r.name = false) :
    extendMp name alt (rs.map fun r => (r, false)) = none := by
  induction rs with
  | nil => rfl
  | cons r rs ih =>
    rw [List.map_cons, extendMp]
    simp only [h r (by simp), Bool.false_eq_true, if_false]
    rw [ih fun x hx => h x (by simp [hx])]
    rfl

theorem mem_build_names {pre : List Def} {n : Str} :
    (∃ r ∈ build pre, equalFold n r.name = true) ↔ ∃ d ∈ pre, d.extend = false ∧ equalFold n d.name = true := by
  simp only [build, List.mem_map, List.mem_filter, Bool.not_eq_true']
  constructor
  · rintro ⟨r, ⟨d, ⟨h1, h2⟩, rfl⟩, h3⟩; exact ⟨d, h1, h2, h3⟩
  · rintro ⟨d, h1, h2, h3⟩; exact ⟨_, ⟨d, ⟨h1, h2⟩, rfl⟩, h3⟩

theorem build_snoc_new {pre : List Def} {d : Def} (hd : d.extend = false)
    (h : ∀ e ∈ pre, equalFold d.name e.name = false) : build (pre ++ [d]) = build pre ++ [⟨d.name, d.alt⟩] := by
  simp only [build, List.filter_append, List.filter_cons, hd, Bool.not_false, if_true, List.filter_nil, List.map_append,
    List.map_cons, List.map_nil]
  congr 1
  · apply List.map_congr_left
    intro e he
    have he' := (List.mem_filter.mp he).1
    have : equalFold e.name d.name = false := by rw [equalFold_comm]; exact h e he'
    simp [this]
  · have : pre.filter (fun e => equalFold d.name e.name) = [] := by
      rw [List.filter_eq_nil_iff]; intro e he; simp [h e he]
    simp [this, equalFold_refl]

theorem build_snoc_ext {pre : List Def} {d : Def} (hd : d.extend = true) :
    build (pre ++ [d]) = (build pre).map fun r => ⟨r.name, if equalFold d.name r.name then r.alt ++ d.alt else r.alt⟩ := by
  simp only [build, List.filter_append, List.filter_cons, hd, Bool.not_true, Bool.false_eq_true, if_false, List.filter_nil,
    List.append_nil, List.map_map]
  apply List.map_congr_left
  intro e he
  simp only [Function.comp]
  rw [equalFold_comm d.name e.name]
  split_ifs <;> simp

theorem evalDefs_strict (pre : List Def) (hpre : PreOK pre) (ds : List Def) (st : EvalSt) :
    evalDefsFrom false ⟨(build pre).map fun r => (r, false), Core.rules⟩ ds = .ok st ↔
      Acceptable pre ds ∧ st = ⟨(build (pre ++ ds)).map fun r => (r, false), Core.rules⟩ := by
  induction ds generalizing pre with
  | nil => simp [evalDefsFrom, Acceptable, eq_comm]
  | cons d ds ih =>
    rw [evalDefsFrom, Acceptable, evalDef]
    have hmap : ((build pre).map fun r => (r, false)).map Prod.fst = build pre := by
      rw [List.map_map]; exact List.map_id _
    simp only [hmap, true_and, if_true]
    have hassoc : pre ++ d :: ds = (pre ++ [d]) ++ ds := by simp
    cases hc : getRuleIn d.name Core.rules with
    | some r =>
      simp only [Option.isSome_some, if_true, reduceCtorEq, false_and, iff_false]
      split_ifs <;> simp
    | none =>
      simp only [Option.isSome_none, Bool.false_eq_true, if_false, true_and]
      cases he : d.extend with
      | false =>
        simp only [if_true, Bool.false_eq_true, false_implies, and_true, true_implies]
        cases hm : getRuleIn d.name (build pre) with
        | some r =>
          simp only [Option.isSome_some, if_true, reduceCtorEq, false_iff, not_and]
          intro h
          have hr1 := List.mem_of_find?_eq_some hm
          have hr2 : equalFold d.name r.name = true := by simpa using List.find?_some hm
          obtain ⟨e, h1, h2, h3⟩ := mem_build_names.mp ⟨r, hr1, hr2⟩
          exact absurd h3 (by simp [h.1 e h1])
        | none =>
          have hb : ∀ r ∈ build pre, equalFold d.name r.name = false := fun r hr => by
            simpa using List.find?_eq_none.mp hm r hr
          have hp : ∀ e ∈ pre, equalFold d.name e.name = false := by
            intro e hep
            obtain ⟨f, h1, h2, h3⟩ := hpre.base e hep
            cases hde : equalFold d.name e.name with
            | false => rfl
            | true =>
              have hdf : equalFold d.name f.name = true := by rw [equalFold_trans hde]; exact h3
              obtain ⟨r, hr, hrn⟩ := mem_build_names.mpr ⟨f, h1, h2, hdf⟩
              exact absurd hrn (by simp [hb r hr])
          have hbuild := build_snoc_new he hp
          have hset : mpSet (⟨d.name, d.alt⟩, false) ((build pre).map fun r => (r, false)) =
              (build (pre ++ [d])).map fun r => (r, false) := by
            rw [mpSet_new, hbuild]
            · simp
            · intro p hp
              obtain ⟨r, hr, rfl⟩ := List.mem_map.mp hp
              exact hb r hr
          have hpre' : PreOK (pre ++ [d]) := by
            refine ⟨?_, ?_⟩
            · intro x hx
              rcases List.mem_append.mp hx with hx | hx
              · obtain ⟨f, h1, h2⟩ := hpre.base x hx; exact ⟨f, by simp [h1], h2⟩
              · simp only [List.mem_singleton] at hx
                subst hx
                exact ⟨x, by simp, he, equalFold_refl _⟩
            · rw [hbuild, List.pairwise_append]
              refine ⟨hpre.dist, List.pairwise_singleton _ _, ?_⟩
              intro a ha b hb'
              simp only [List.mem_singleton] at hb'
              subst hb'
              rw [equalFold_comm]; exact hb a ha
          simp only [Option.isSome_none, Bool.false_eq_true, if_false]
          rw [hset, ih _ hpre', hassoc]
          constructor
          · rintro ⟨h1, h2⟩; exact ⟨⟨hp, h1⟩, h2⟩
          · rintro ⟨⟨_, h1⟩, h2⟩; exact ⟨h1, h2⟩
      | true =>
        simp only [Bool.true_eq_false, if_false, false_implies, true_and, true_implies]
        by_cases hex : ∃ e ∈ pre, equalFold d.name e.name = true
        · obtain ⟨e, hep, hde⟩ := hex
          obtain ⟨f, h1, h2, h3⟩ := hpre.base e hep
          have hdf : equalFold d.name f.name = true := by rw [equalFold_trans hde]; exact h3
          have hb := mem_build_names.mpr ⟨f, h1, h2, hdf⟩
          rw [extendMp_spec hpre.dist hb]
          have hbuild := build_snoc_ext (pre := pre) he
          have hmp : ((build pre).map fun r => ((⟨r.name, if equalFold d.name r.name then r.alt ++ d.alt else r.alt⟩ : Rule), false)) =
              (build (pre ++ [d])).map fun r => (r, false) := by
            rw [hbuild, List.map_map]; rfl
          have hpre' : PreOK (pre ++ [d]) := by
            refine ⟨?_, ?_⟩
            · intro x hx
              rcases List.mem_append.mp hx with hx | hx
              · obtain ⟨f, h1, h2⟩ := hpre.base x hx; exact ⟨f, by simp [h1], h2⟩
              · simp only [List.mem_singleton] at hx
                subst hx
                exact ⟨f, by simp [h1], h2, hdf⟩
            · rw [hbuild, List.pairwise_map]
              exact hpre.dist
          simp only [Bool.false_eq_true, if_false]
          rw [hmp, ih _ hpre', hassoc]
          constructor
          · rintro ⟨h1, h2⟩; exact ⟨⟨⟨e, hep, hde⟩, h1⟩, h2⟩
          · rintro ⟨⟨_, h1⟩, h2⟩; exact ⟨h1, h2⟩
        · have hb : ∀ r ∈ build pre, equalFold d.name r.name = false := by
            intro r hr
            cases hrn : equalFold d.name r.name with
            | false => rfl
            | true =>
              obtain ⟨f, h1, h2, h3⟩ := mem_build_names.mp ⟨r, hr, hrn⟩
              exact absurd ⟨f, h1, h3⟩ hex
          rw [extendMp_none hb]
          simp only [reduceCtorEq, false_iff, not_and]
          rintro ⟨h, _⟩
          exact absurd h hex

theorem acceptable_iff (pre ds : List Def) : Acceptable pre ds ↔
    (∀ d ∈ ds, getRuleIn d.name Core.rules = none) ∧
    (∀ i d, ds[i]? = some d →
      (d.extend = false → ∀ e ∈ pre ++ ds.take i, equalFold d.name e.name = false) ∧
      (d.extend = true → ∃ e ∈ pre ++ ds.take i, equalFold d.name e.name = true)) := by
  induction ds generalizing pre with
  | nil => simp [Acceptable]
  | cons d ds ih =>
    rw [Acceptable, ih]
    constructor
    · rintro ⟨⟨h1, h2, h3⟩, h4, h5⟩
      refine ⟨?_, ?_⟩
      · intro x hx
        rcases List.mem_cons.mp hx with rfl | hx
        · exact h1
        · exact h4 x hx
      · intro i x hx
        cases i with
        | zero =>
          simp only [List.getElem?_cons_zero, Option.some.injEq] at hx
          subst hx
          simpa using ⟨h2, h3⟩
        | succ i =>
          have := h5 i x (by simpa using hx)
          simpa using this
    · rintro ⟨h1, h2⟩
      refine ⟨⟨h1 d (by simp), ?_⟩, fun x hx => h1 x (by simp [hx]), ?_⟩
      · have := h2 0 d (by simp)
        simpa using this
      · intro i x hx
        have := h2 (i + 1) x (by simpa using hx)
        simpa using this

namespace Props

/-! ## C18: rule lookup -/

/-- C18.  `GetRule` returns the rule of the grammar with that name up to case, else the core rule, else nothing. -/
theorem C18_lookup (g : Grammar) (hd : NamesDistinct g) (name : Str) (r : Rule) :
    getRule name g.rules = some r ↔ Resolves g name r := getRule_iff hd

/-- C18.  The order in which the map is visited does not matter. -/
theorem C18_order (g g' : Grammar) (hd : NamesDistinct g) (hp : g.rules.Perm g'.rules) (name : Str) :
    getRule name g.rules = getRule name g'.rules := by
  have hd' : NamesDistinct g' := hp.pairwise hd fun h hs => h ((sameName_iff _ _).mpr ((sameName_iff _ _).mp hs).symm)
  apply Option.ext
  intro r
  rw [getRule_iff hd, getRule_iff hd']
  constructor
  · intro h
    cases h with
    | user hm hs => exact .user (hp.mem_iff.mp hm) hs
    | core hm hs hu => exact .core hm hs fun u hu' => hu u (hp.mem_iff.mpr hu')
  · intro h
    cases h with
    | user hm hs => exact .user (hp.mem_iff.mpr hm) hs
    | core hm hs hu => exact .core hm hs fun u hu' => hu u (hp.mem_iff.mp hu')

/-- C18.  Names that differ only in case give the same answer, for every map and every iteration order. -/
theorem C18_case (rs : List Rule) (n m : Str) (h : SameName n m) : getRule n rs = getRule m rs := by
  rw [sameName_iff] at h
  unfold getRule
  rw [getRuleIn_eq, getRuleIn_eq, getRuleIn_eq, getRuleIn_eq, h]

/-- C18.  Nothing is found exactly when no rule and no core rule has the name. -/
theorem C18_missing (g : Grammar) (name : Str) :
    getRule name g.rules = none ↔ ∀ r ∈ g.rules ++ Core.rules, ¬ SameName name r.name := by
  rw [← Option.not_isSome_iff_eq_none, getRule_isSome]
  constructor
  · intro h r hr hs
    by_cases hu : ∃ u ∈ g.rules, SameName name u.name
    · obtain ⟨u, hu, hs'⟩ := hu
      exact h ⟨u, .user hu hs'⟩
    · push Not at hu
      rcases List.mem_append.mp hr with hr | hr
      · exact hu r hr hs
      · exact h ⟨r, .core hr hs hu⟩
  · rintro h ⟨r, hr⟩
    cases hr with
    | user hm hs => exact h r (by simp [hm]) hs
    | core hm hs _ => exact h r (by simp [hm]) hs

example : NamesDistinct Ex.expr ∧ (getRule (str% "TeRm") Ex.expr.rules).map Rule.name = some (str% "term") ∧
    (getRule (str% "digit") Ex.expr.rules).map Rule.name = some (str% "DIGIT") ∧
    (getRule (str% "x") Ex.expr.rules).map Rule.name = none := ⟨Ex.expr_wf.2.1, by decide, by decide, by decide⟩

/-! ## C19: the dependency graph -/

/-- C19.  The graph has a node for a name exactly when the name resolves, and the node carries the name of the rule
and, each once, the folded names of the rules its definition mentions at any depth. -/
theorem C19_graph (g : Grammar) (hd : NamesDistinct g) (core : List Rule) (hcore : core.Perm Core.rules) (name : Str) :
    (∀ nd, (dependencyGraph core g).lookup (canon name) = some nd ↔
      ∃ r, Resolves g name r ∧ nd.rulename = r.name ∧ nd.deps = getDependencies r.alt) ∧
    (∀ r, Resolves g name r → (getDependencies r.alt).Nodup ∧
      ∀ b, canon b ∈ getDependencies r.alt ↔ ∃ q ∈ altReps r.alt, ∃ n, q.elem = .rulename n ∧ SameName b n) := by
  refine ⟨fun nd => ?_, fun r _ => ⟨nodup_altDepsFrom _ _ List.nodup_nil, fun b => ?_⟩⟩
  · have hcd : core.Pairwise fun a b => ¬ SameName a.name b.name :=
      hcore.symm.pairwise core_distinct fun h hs => h ((sameName_iff _ _).mpr ((sameName_iff _ _).mp hs).symm)
    rw [dependencyGraph, lookup_dgAdd _ _ hd, lookup_dgAdd _ _ hcd, ← getRuleIn_eq, ← getRuleIn_eq]
    have hc : getRuleIn name core = getRuleIn name Core.rules := by
      apply Option.ext
      intro r
      constructor
      · intro h
        exact find?_unique core_distinct (hcore.mem_iff.mp (List.mem_of_find?_eq_some h))
          ((equalFold_iff _ _).mp (by simpa using List.find?_some h))
      · intro h
        exact find?_unique hcd (hcore.mem_iff.mpr (List.mem_of_find?_eq_some h))
          ((equalFold_iff _ _).mp (by simpa using List.find?_some h))
    rw [hc]
    simp only [← getRule_iff hd]
    unfold getRule
    cases getRuleIn name g.rules with
    | some r =>
      simp only [Option.some.injEq, Option.some_or]
      constructor
      · rintro rfl; exact ⟨r, rfl, rfl, rfl⟩
      · rintro ⟨_, rfl, h1, h2⟩; cases nd; simp only at h1 h2; rw [h1, h2]
    | none =>
      simp only [Option.none_or]
      cases getRuleIn name Core.rules with
      | none => simp
      | some r =>
        simp only [Option.some.injEq]
        constructor
        · rintro rfl; exact ⟨r, rfl, rfl, rfl⟩
        · rintro ⟨_, rfl, h1, h2⟩; cases nd; simp only at h1 h2; rw [h1, h2]
  · rw [mem_getDependencies]
    constructor
    · rintro ⟨q, hq, n, hn, he⟩; exact ⟨q, hq, n, hn, (sameName_iff _ _).mpr he⟩
    · rintro ⟨q, hq, n, hn, he⟩; exact ⟨q, hq, n, hn, (sameName_iff _ _).mp he⟩

example : (dependencyGraph Core.rules Ex.expr).lookup (canon (str% "Expr")) = some ⟨str% "expr", [str% "expr", str% "term"]⟩ ∧
    (dependencyGraph Core.rules Ex.nul).lookup (str% "a") = some ⟨str% "a", [str% "a"]⟩ := by decide +kernel

/-! ## C17: semantic validation -/

/-- C17.  `SemvalABNF` finds no error exactly when every mentioned rule exists, all finite bounds are ordered and every
num-val is at most U+10FFFF, at any depth. -/
theorem C17_exact (g : Grammar) (hwf : NumValsWF g) :
    semvalABNF g = none ↔
      ∀ q ∈ rulesReps g.rules,
        (∀ n, q.elem = .rulename n → ∃ r, Resolves g n r) ∧
        (∀ m, q.max = some m → q.min ≤ m) ∧
        (∀ b st es, q.elem = .numVal b st es → ∀ s ∈ es, ∃ v, Denotes b s v ∧ v ≤ 0x10FFFF) := by
  unfold semvalABNF
  rw [Option.or_eq_none_iff, List.findSome?_eq_none_iff, List.findSome?_eq_none_iff]
  simp only [semvalDeps_none, semvalAlternation_none, mem_getDependencies, getRule_isSome]
  have hnum : ∀ q ∈ rulesReps g.rules, ∀ b st es, q.elem = .numVal b st es → ∀ s ∈ es, ∃ v, Denotes b s v := by
    intro q hq b st es he s hs
    have := hwf q hq
    rw [he] at this
    cases st with
    | series => exact this s hs
    | range =>
      obtain ⟨x, y, v, w, rfl, h1, h2⟩ := this
      simp only [List.mem_cons, List.not_mem_nil, or_false] at hs
      rcases hs with rfl | rfl
      · exact ⟨v, h1⟩
      · exact ⟨w, h2⟩
  constructor
  · rintro ⟨h1, h2⟩ q hq
    obtain ⟨r, hr, hq'⟩ := List.mem_flatMap.mp hq
    obtain ⟨h3, h4⟩ := h2 r hr q hq'
    refine ⟨fun n hn => ?_, h3, fun b st es he s hs => ?_⟩
    · obtain ⟨x, hx⟩ := h1 r hr (canon n) ⟨q, hq', n, hn, rfl⟩
      exact ⟨x, (resolves_congr (canon_canon n)).mp hx⟩
    · obtain ⟨v, hv⟩ := hnum q hq b st es he s hs
      exact ⟨v, hv, (C15' hv).mp (h4 b st es he s hs)⟩
  · intro h
    refine ⟨?_, ?_⟩
    · rintro r hr d ⟨q, hq, n, hn, rfl⟩
      obtain ⟨x, hx⟩ := (h q (List.mem_flatMap.mpr ⟨r, hr, hq⟩)).1 n hn
      exact ⟨x, (resolves_congr (canon_canon n)).mpr hx⟩
    · intro r hr q hq
      obtain ⟨_, h3, h4⟩ := h q (List.mem_flatMap.mpr ⟨r, hr, hq⟩)
      refine ⟨h3, fun b st es he s hs => ?_⟩
      obtain ⟨v, hv, hle⟩ := h4 b st es he s hs
      exact (C15' hv).mpr hle
where
  C15' {base s : Str} {v : Nat} (h : Denotes base s v) : checkBounds s base = true ↔ v ≤ 0x10FFFF := checkBounds_denotes h

/-- C17.  Whether an error is found does not depend on the order in which the rules are visited. -/
theorem C17_order (g g' : Grammar) (hp : g.rules.Perm g'.rules) : semvalABNF g = none ↔ semvalABNF g' = none := by
  have hres : ∀ n, (getRule n g.rules).isSome = true ↔ (getRule n g'.rules).isSome = true := by
    intro n
    rw [← Bool.not_eq_false, ← Bool.not_eq_false, not_iff_not, Option.isSome_eq_false_iff, Option.isSome_eq_false_iff,
      Option.isNone_iff_eq_none, Option.isNone_iff_eq_none, C18_missing g, C18_missing g']
    have : ∀ r, r ∈ g.rules ++ Core.rules ↔ r ∈ g'.rules ++ Core.rules := by
      intro r; simp only [List.mem_append, hp.mem_iff]
    simp only [this]
  unfold semvalABNF
  simp only [Option.or_eq_none_iff, List.findSome?_eq_none_iff, semvalDeps_none, hp.mem_iff, hres]

/-- `a = 2*1("x") b / %x110000`: three errors at different depths. -/
def badGrammar : Grammar := ⟨[⟨str% "a", [[⟨2, some 1, .group [[Ex.one (Ex.lit (str% "x"))]]⟩],
  [Ex.one (.option [[Ex.one (Ex.ref (str% "b"))]])], [Ex.one (.numVal (str% "x") .series [str% "110000"])]]⟩]⟩

example : NumValsWF badGrammar ∧ (semvalABNF badGrammar).isSome = true ∧ NumValsWF Ex.expr ∧ (semvalABNF Ex.expr).isNone = true :=
  ⟨numValsWF_of (by decide), by decide, Ex.expr_wf.1, by decide⟩

/-! ## C36, C37: rule lists -/

/-- A core rule has that name. -/
def IsCoreName (n : Str) : Prop := ∃ r ∈ Core.rules, SameName n r.name

theorem isCoreName_iff (n : Str) : getRuleIn n Core.rules = none ↔ ¬ IsCoreName n := by
  unfold getRuleIn IsCoreName
  rw [List.find?_eq_none]
  push Not
  simp only [Bool.not_eq_true, ← equalFold_iff]

/-- C37.  Strict evaluation succeeds exactly when no definition names a core rule, no `=` repeats an earlier name and
every `=/` names a rule defined before. -/
theorem C37_strict_iff (defs : List Def) :
    (∃ st, evalRulelist false defs = .ok st) ↔
      (∀ d ∈ defs, ¬ IsCoreName d.name) ∧
      (∀ i d, defs[i]? = some d →
        (d.extend = false → ∀ e ∈ defs.take i, ¬ SameName d.name e.name) ∧
        (d.extend = true → ∃ e ∈ defs.take i, SameName d.name e.name)) := by
  have hpre : PreOK [] := ⟨by simp, by simp [build]⟩
  have hkey := fun st => evalDefs_strict [] hpre defs st
  have hnil : (⟨(build []).map fun r => (r, false), Core.rules⟩ : EvalSt) = ⟨[], Core.rules⟩ := rfl
  rw [hnil] at hkey
  unfold evalRulelist
  simp only [hkey, exists_and_left, exists_eq, and_true, acceptable_iff, isCoreName_iff, List.nil_append, ← equalFold_iff,
    Bool.not_eq_true]

/-- C36.  When strict evaluation succeeds, the rules are those of the `=` definitions, in source order, each with the
alternatives of all definitions of its name in source order; the core rules are left alone. -/
theorem C36_incremental (defs : List Def) (st : EvalSt) (h : evalRulelist false defs = .ok st) :
    st.mp.map Prod.fst = (defs.filter fun d => !d.extend).map
      (fun d => ⟨d.name, (defs.filter fun e => equalFold d.name e.name).flatMap Def.alt⟩) ∧ st.core = Core.rules := by
  have hpre : PreOK [] := ⟨by simp, by simp [build]⟩
  obtain ⟨_, rfl⟩ := (evalDefs_strict [] hpre defs st).mp h
  constructor
  · simp only [List.nil_append, List.map_map]
    simp [build, Function.comp]
  · rfl

/-- C37.  After strict evaluation all rule names are distinct up to case and none is a core name. -/
theorem C37_distinct (defs : List Def) (st : EvalSt) (h : evalRulelist false defs = .ok st) :
    NamesDistinct ⟨st.mp.map Prod.fst⟩ ∧ ∀ r ∈ st.mp.map Prod.fst, ¬ IsCoreName r.name := by
  obtain ⟨h1, h2⟩ := (C37_strict_iff defs).mp ⟨st, h⟩
  obtain ⟨h3, _⟩ := C36_incremental defs st h
  rw [h3]
  constructor
  · unfold NamesDistinct
    simp only [List.pairwise_map]
    have key : ∀ ds : List Def, (∀ i d, ds[i]? = some d → d.extend = false → ∀ e ∈ ds.take i, ¬ SameName d.name e.name) →
        (ds.filter fun d => !d.extend).Pairwise fun a b => ¬ SameName a.name b.name := by
      intro ds
      induction ds using List.reverseRecOn with
      | nil => simp
      | append_singleton ds d ih =>
        intro hds
        rw [List.filter_append, List.pairwise_append]
        refine ⟨ih ?_, ?_, ?_⟩
        · intro i x hx hxe e he
          have hi : i < ds.length := (List.getElem?_eq_some_iff.mp hx).1
          refine hds i x (by rw [List.getElem?_append_left hi]; exact hx) hxe e ?_
          rw [List.take_append_of_le_length (by omega)]; exact he
        · cases hd : d.extend <;> simp [hd]
        · intro a ha b hb hs
          simp only [List.mem_filter, List.mem_singleton, Bool.not_eq_true'] at ha hb
          obtain ⟨rfl, hbe⟩ := hb
          refine hds ds.length b (by simp) hbe a (by simp [ha.1]) ?_
          exact (sameName_iff _ _).mpr ((sameName_iff _ _).mp hs).symm
    exact key defs fun i d hd => (h2 i d hd).1
  · intro r hr
    obtain ⟨d, hd, rfl⟩ := List.mem_map.mp hr
    exact h1 d (List.mem_filter.mp hd).1

theorem mpSet_core {e : Rule × Bool} {st : EvalSt} : ({ st with mp := mpSet e st.mp } : EvalSt).core = st.core := rfl

/-- C37.  Allowing core rules to be redefined changes nothing for rule lists that name none. -/
theorem C37_flag (defs : List Def) (h : ∀ d ∈ defs, ¬ IsCoreName d.name) :
    evalRulelist true defs = evalRulelist false defs := by
  have key : ∀ (ds : List Def) (st : EvalSt), (∀ d ∈ ds, ¬ IsCoreName d.name) → st.core = Core.rules →
      (∀ p ∈ st.mp, p.2 = false) → evalDefsFrom true st ds = evalDefsFrom false st ds := by
    intro ds
    induction ds with
    | nil => intros; rfl
    | cons d ds ih =>
      intro st hd hc hs
      have hn := (isCoreName_iff d.name).mpr (hd d (by simp))
      have heq : evalDef true st d = evalDef false st d := by
        simp only [evalDef, hc, hn, Option.isSome_none, Bool.false_eq_true, and_false, if_false]
      rw [evalDefsFrom, evalDefsFrom, heq]
      have hset : ∀ (e : Rule × Bool) (m : List (Rule × Bool)), e.2 = false → (∀ p ∈ m, p.2 = false) → ∀ p ∈ mpSet e m, p.2 = false := by
        intro e m he hm
        induction m with
        | nil => intro p hp; simp only [mpSet, List.mem_singleton] at hp; rw [hp]; exact he
        | cons q m ihm =>
          intro p hp
          rw [mpSet] at hp
          split_ifs at hp with hq
          · rcases List.mem_cons.mp hp with rfl | hp
            · exact he
            · exact hm p (by simp [hp])
          · rcases List.mem_cons.mp hp with rfl | hp
            · exact hm p (by simp)
            · exact ihm (fun x hx => hm x (by simp [hx])) p hp
      have hext : ∀ (n : Str) (a : Alt) (m m' : List (Rule × Bool)) (b : Bool), extendMp n a m = some (m', b) →
          (∀ p ∈ m, p.2 = false) → b = false ∧ ∀ p ∈ m', p.2 = false := by
        intro n a m
        induction m with
        | nil => intro m' b hm; simp [extendMp] at hm
        | cons q m ihm =>
          intro m' b hm hall
          rw [extendMp] at hm
          split_ifs at hm with hq
          · simp only [Option.some.injEq, Prod.mk.injEq] at hm
            obtain ⟨rfl, rfl⟩ := hm
            refine ⟨hall q (by simp), fun p hp => ?_⟩
            rcases List.mem_cons.mp hp with rfl | hp
            · exact hall q (by simp)
            · exact hall p (by simp [hp])
          · cases hr : extendMp n a m with
            | none => simp [hr] at hm
            | some x =>
              obtain ⟨m2, b2⟩ := x
              simp only [hr, Option.map_some, Option.some.injEq, Prod.mk.injEq] at hm
              obtain ⟨rfl, rfl⟩ := hm
              obtain ⟨h1, h2⟩ := ihm m2 b2 hr fun p hp => hall p (by simp [hp])
              refine ⟨h1, fun p hp => ?_⟩
              rcases List.mem_cons.mp hp with rfl | hp
              · exact hall _ (by simp)
              · exact h2 p hp
      cases hres : evalDef false st d with
      | error e => rfl
      | ok st' =>
        have : st'.core = Core.rules ∧ ∀ p ∈ st'.mp, p.2 = false := by
          simp only [evalDef, hc, hn, Option.isSome_none, Bool.false_eq_true, and_false, if_false] at hres
          split_ifs at hres
          · simp only [Except.ok.injEq] at hres
            subst hres
            exact ⟨rfl, hset _ _ rfl hs⟩
          · cases hm : extendMp d.name d.alt st.mp with
            | none => simp [hm] at hres
            | some x =>
              obtain ⟨m', b⟩ := x
              simp only [hm, Except.ok.injEq] at hres
              subst hres
              obtain ⟨h1, h2⟩ := hext _ _ _ _ _ hm hs
              exact ⟨by simp [h1], h2⟩
        exact ih st' (fun x hx => hd x (by simp [hx])) this.1 this.2
  exact key defs ⟨[], Core.rules⟩ h rfl (by simp)

/-- `a = "x"`, `b = "y"`, `A =/ "z"`. -/
def exDefs : List Def := [⟨str% "a", false, [[Ex.one (Ex.lit (str% "x"))]]⟩, ⟨str% "b", false, [[Ex.one (Ex.lit (str% "y"))]]⟩,
  ⟨str% "A", true, [[Ex.one (Ex.lit (str% "z"))]]⟩]

example : (match evalRulelist false exDefs with | .ok st => st.mp.map Prod.fst | .error _ => []) =
    [⟨str% "a", [[Ex.one (Ex.lit (str% "x"))], [Ex.one (Ex.lit (str% "z"))]]⟩, ⟨str% "b", [[Ex.one (Ex.lit (str% "y"))]]⟩] := rfl
example : ∀ d ∈ exDefs, ¬ IsCoreName d.name := fun d hd => (isCoreName_iff _).mp (by revert d; decide +kernel)

/-- C37 fails when core rules may be redefined: `=` on a core name skips the duplicate check, and the result holds two
rules with the same name up to case. -/
theorem C37_redefine_fails : ∃ defs : List Def, ∃ st, evalRulelist true defs = .ok st ∧
    ¬ NamesDistinct ⟨st.mp.map Prod.fst⟩ := by
  refine ⟨[⟨str% "ALPHA", false, []⟩, ⟨str% "alpha", false, []⟩], _, rfl, ?_⟩
  intro h
  have h1 := List.pairwise_cons.mp h
  exact h1.1 ⟨str% "alpha", []⟩ (by decide +kernel) ((sameName_iff _ _).mpr (by decide))

/-- C36 fails when core rules may be redefined: `ALPHA =/ "-"` changes the global core rule, hence every other
grammar of the program. -/
theorem C36_redefine_fails : ∃ defs : List Def, ∃ st, evalRulelist true defs = .ok st ∧ st.core ≠ Core.rules := by
  refine ⟨[⟨str% "ALPHA", true, [[Ex.one (Ex.lit (str% "-"))]]⟩], _, rfl, ?_⟩
  intro h
  have : (List.map (fun r : Rule => r.alt.length) _) = _ := congrArg (List.map fun r : Rule => r.alt.length) h
  revert this
  decide +kernel

/-- What a run keeps: the core rules keep their names and order and only gain alternatives; an entry of the map that
is shared with them is one of them, and no two shared entries have the same name. -/
structure SharedInv (st : EvalSt) : Prop where
  grown : List.Forall₂ (fun r r' : Rule => r'.name = r.name ∧ ∃ more, r'.alt = r.alt ++ more) Core.rules st.core
  mem : ∀ p ∈ st.mp, p.2 = true → p.1 ∈ st.core
  dist : st.mp.Pairwise fun p q => p.2 = true → q.2 = true → equalFold p.1.name q.1.name = false

theorem mem_mpSet {e p : Rule × Bool} {m : List (Rule × Bool)} (h : p ∈ mpSet e m) : p = e ∨ p ∈ m := by
  induction m with
  | nil => simp only [mpSet, List.mem_singleton] at h; exact .inl h
  | cons q m ih =>
    rw [mpSet] at h
    split_ifs at h
    · rcases List.mem_cons.mp h with h | h
      · exact .inl h
      · exact .inr (List.mem_cons_of_mem _ h)
    · rcases List.mem_cons.mp h with rfl | h
      · exact .inr (List.mem_cons_self ..)
      · exact (ih h).imp id (List.mem_cons_of_mem _)

theorem pairwise_mpSet {e : Rule × Bool} {m : List (Rule × Bool)}
    (hm : m.Pairwise fun p q => p.2 = true → q.2 = true → equalFold p.1.name q.1.name = false)
    (he : e.2 = true → ∀ p ∈ m, equalFold e.1.name p.1.name = false) :
    (mpSet e m).Pairwise fun p q => p.2 = true → q.2 = true → equalFold p.1.name q.1.name = false := by
  induction m with
  | nil => simp [mpSet]
  | cons q m ih =>
    obtain ⟨h1, h2⟩ := List.pairwise_cons.mp hm
    rw [mpSet]
    split_ifs
    · exact List.pairwise_cons.mpr ⟨fun p hp ht _ => he ht p (List.mem_cons_of_mem _ hp), h2⟩
    · refine List.pairwise_cons.mpr ⟨fun p hp hq ht => ?_, ih h2 fun ht p hp => he ht p (List.mem_cons_of_mem _ hp)⟩
      rcases mem_mpSet hp with rfl | hp
      · rw [equalFold_comm]; exact he ht q (List.mem_cons_self ..)
      · exact h1 p hp hq ht

/-- How `extendMp` changes a map. -/
theorem extendMp_some {n : Str} {a : Alt} {m m' : List (Rule × Bool)} {b : Bool} (h : extendMp n a m = some (m', b)) :
    ∃ l r q, m = l ++ q :: r ∧ m' = l ++ (⟨q.1.name, q.1.alt ++ a⟩, b) :: r ∧ q.2 = b ∧ equalFold n q.1.name = true := by
  induction m generalizing m' with
  | nil => simp [extendMp] at h
  | cons q m ih =>
    rw [extendMp] at h
    split_ifs at h with hq
    · simp only [Option.some.injEq, Prod.mk.injEq] at h
      obtain ⟨rfl, rfl⟩ := h
      exact ⟨[], m, q, rfl, rfl, rfl, hq⟩
    · cases hr : extendMp n a m with
      | none => simp [hr] at h
      | some x =>
        obtain ⟨m2, b2⟩ := x
        simp only [hr, Option.map_some, Option.some.injEq, Prod.mk.injEq] at h
        obtain ⟨rfl, rfl⟩ := h
        obtain ⟨l, r, q', rfl, rfl, h3, h4⟩ := ih hr
        exact ⟨q :: l, r, q', rfl, rfl, h3, h4⟩

theorem extendMp_isNone {n : Str} {a : Alt} {m : List (Rule × Bool)} (h : extendMp n a m = none) :
    ∀ p ∈ m, equalFold n p.1.name = false := by
  induction m with
  | nil => simp
  | cons q m ih =>
    rw [extendMp] at h
    split_ifs at h with hq
    simp only [Option.map_eq_none_iff] at h
    intro p hp
    rcases List.mem_cons.mp hp with rfl | hp
    · simpa using hq
    · exact ih h p hp

theorem extendIn_grown {n : Str} {a : Alt} {c c' : List Rule}
    (h : List.Forall₂ (fun r r' : Rule => r'.name = r.name ∧ ∃ more, r'.alt = r.alt ++ more) c c') :
    List.Forall₂ (fun r r' : Rule => r'.name = r.name ∧ ∃ more, r'.alt = r.alt ++ more) c (extendIn n a c') := by
  induction h with
  | nil => exact .nil
  | @cons r r' c c' h _ ih =>
    obtain ⟨h1, more, h2⟩ := h
    rw [extendIn]
    split_ifs
    · exact .cons ⟨h1, more ++ a, by rw [h2, List.append_assoc]⟩ ‹_›
    · exact .cons ⟨h1, more, h2⟩ ih

theorem extendIn_other {n : Str} {a : Alt} {c : List Rule} {r : Rule} (h : r ∈ c) (hn : equalFold n r.name = false) :
    r ∈ extendIn n a c := by
  induction c with
  | nil => cases h
  | cons q c ih =>
    rw [extendIn]
    rcases List.mem_cons.mp h with rfl | h
    · rw [if_neg (by simp [hn])]; exact List.mem_cons_self ..
    · split_ifs
      · exact List.mem_cons_of_mem _ h
      · exact List.mem_cons_of_mem _ (ih h)

theorem extendIn_this {n : Str} {a : Alt} {c : List Rule} {r : Rule} (h : r ∈ c) (hn : equalFold n r.name = true)
    (hd : c.Pairwise fun p q => equalFold p.name q.name = false) : ⟨r.name, r.alt ++ a⟩ ∈ extendIn n a c := by
  induction c with
  | nil => cases h
  | cons q c ih =>
    obtain ⟨h1, h2⟩ := List.pairwise_cons.mp hd
    rw [extendIn]
    rcases List.mem_cons.mp h with rfl | h
    · rw [if_pos hn]; exact List.mem_cons_self ..
    · rw [if_neg, List.mem_cons]
      · exact .inr (ih h h2)
      · intro hq
        have := h1 r h
        rw [equalFold_comm, ← equalFold_trans hn, hq] at this
        cases this

theorem core_distinct_of {c : List Rule}
    (h : List.Forall₂ (fun r r' : Rule => r'.name = r.name ∧ ∃ more, r'.alt = r.alt ++ more) Core.rules c) :
    c.Pairwise fun p q => equalFold p.name q.name = false := by
  have h1 : c.map Rule.name = Core.rules.map Rule.name := by
    generalize Core.rules = cs at h
    induction h with
    | nil => rfl
    | cons h _ ih => simp [h.1, ih]
  have h2 : (Core.rules.map Rule.name).Pairwise fun a b => equalFold a b = false := by decide +kernel
  rw [← h1, List.pairwise_map] at h2
  exact h2

theorem evalDef_shared {rc : Bool} {st st' : EvalSt} {d : Def} (h : evalDef rc st d = .ok st') (hi : SharedInv st) :
    SharedInv st' := by
  have hset : SharedInv { st with mp := mpSet (⟨d.name, d.alt⟩, false) st.mp } := by
    refine ⟨hi.grown, fun p hp ht => ?_, pairwise_mpSet hi.dist (by simp)⟩
    rcases mem_mpSet hp with rfl | hp
    · cases ht
    · exact hi.mem p hp ht
  unfold evalDef at h
  simp only at h
  by_cases he : d.extend = false
  · rw [if_pos he] at h
    split_ifs at h
    all_goals
      obtain rfl := Except.ok.inj h
      exact hset
  · rw [if_neg he] at h
    split_ifs at h with h1
    cases hm : extendMp d.name d.alt st.mp with
    | some x =>
      obtain ⟨m', b⟩ := x
      rw [hm] at h
      obtain rfl := Except.ok.inj h
      obtain ⟨l, r, q, h3, rfl, rfl, h5⟩ := extendMp_some hm
      have hdist := hi.dist
      rw [h3] at hdist
      have hmem := hi.mem
      rw [h3] at hmem
      have hd' : (l ++ (⟨q.1.name, q.1.alt ++ d.alt⟩, q.2) :: r).Pairwise
          fun p q : Rule × Bool => p.2 = true → q.2 = true → equalFold p.1.name q.1.name = false := by
        rw [List.pairwise_append, List.pairwise_cons] at hdist ⊢
        refine ⟨hdist.1, ⟨fun p hp => hdist.2.1.1 p hp, hdist.2.1.2⟩, fun p hp x hx => ?_⟩
        rcases List.mem_cons.mp hx with rfl | hx
        · exact hdist.2.2 p hp q (List.mem_cons_self ..)
        · exact hdist.2.2 p hp x (List.mem_cons_of_mem _ hx)
      cases hb : q.2 with
      | false =>
        rw [hb] at hd'
        refine ⟨hi.grown, fun p hp ht => ?_, hd'⟩
        rcases List.mem_append.mp hp with hp | hp
        · exact hmem p (List.mem_append_left _ hp) ht
        · rcases List.mem_cons.mp hp with rfl | hp
          · cases ht
          · exact hmem p (List.mem_append_right _ (List.mem_cons_of_mem _ hp)) ht
      | true =>
        rw [hb] at hd'
        refine ⟨extendIn_grown hi.grown, fun p hp ht => ?_, hd'⟩
        have hq := hmem q (List.mem_append_right _ (List.mem_cons_self ..)) hb
        have hne : ∀ p : Rule × Bool, p ∈ l ∨ p ∈ r → p.2 = true → equalFold d.name p.1.name = false := by
          intro p hp ht
          rw [equalFold_trans h5]
          rw [List.pairwise_append, List.pairwise_cons] at hdist
          rcases hp with hp | hp
          · rw [equalFold_comm]; exact hdist.2.2 p hp q (List.mem_cons_self ..) ht hb
          · exact hdist.2.1.1 p hp hb ht
        simp only [if_true]
        rcases List.mem_append.mp hp with hp | hp
        · exact extendIn_other (hmem p (List.mem_append_left _ hp) ht) (hne p (.inl hp) ht)
        · rcases List.mem_cons.mp hp with rfl | hp
          · exact extendIn_this hq h5 (core_distinct_of hi.grown)
          · exact extendIn_other (hmem p (List.mem_append_right _ (List.mem_cons_of_mem _ hp)) ht) (hne p (.inr hp) ht)
    | none =>
      rw [hm] at h
      have hno := extendMp_isNone hm
      cases hg : getRuleIn d.name st.core with
      | none => rw [hg] at h; cases h
      | some r =>
        rw [hg] at h
        obtain rfl := Except.ok.inj h
        have h5 : equalFold d.name r.name = true := by simpa using List.find?_some hg
        have hr := List.mem_of_find?_eq_some hg
        refine ⟨extendIn_grown hi.grown, fun p hp ht => ?_, pairwise_mpSet hi.dist fun _ p hp => ?_⟩
        · rcases mem_mpSet hp with rfl | hp
          · exact extendIn_this hr h5 (core_distinct_of hi.grown)
          · exact extendIn_other (hi.mem p hp ht) (hno p hp)
        · rw [← equalFold_trans h5]; exact hno p hp

/-- C36.  What `=/` on core rules does when it is allowed: the core rules keep their names and order and only gain
alternatives, and a rule of the grammar that came from a core rule is that core rule, with everything it has gained. -/
theorem C36_shared (rc : Bool) (defs : List Def) (st : EvalSt) (h : evalRulelist rc defs = .ok st) :
    List.Forall₂ (fun r r' : Rule => r'.name = r.name ∧ ∃ more, r'.alt = r.alt ++ more) Core.rules st.core ∧
    ∀ p ∈ st.mp, p.2 = true → p.1 ∈ st.core := by
  have key : ∀ (ds : List Def) (s : EvalSt), evalDefsFrom rc s ds = .ok st → SharedInv s → SharedInv st := by
    intro ds
    induction ds with
    | nil => intro s h hi; rw [evalDefsFrom] at h; exact Except.ok.inj h ▸ hi
    | cons d ds ih =>
      intro s h hi
      rw [evalDefsFrom] at h
      cases hd : evalDef rc s d with
      | error e => rw [hd] at h; cases h
      | ok s' =>
        rw [hd] at h
        exact ih s' h (evalDef_shared hd hi)
  have := key defs _ h ⟨List.forall₂_same.mpr fun r _ => ⟨rfl, [], by simp⟩, by simp, List.Pairwise.nil⟩
  exact ⟨this.grown, this.mem⟩

-- two extensions of one core rule
example : ∃ st, evalRulelist true [⟨str% "alpha", true, [[Ex.one (Ex.lit (str% "-"))]]⟩,
    ⟨str% "ALPHA", true, [[Ex.one (Ex.lit (str% "_"))]]⟩] = .ok st ∧ st.mp.length = 1 ∧ ∀ p ∈ st.mp, p.2 = true ∧ p.1.alt.length = 4 :=
  ⟨_, rfl, by decide, by decide +kernel⟩

/-! ## C42: options -/

/-- C42.  With no options validation is on and core rules may not be redefined; otherwise the last option of each kind
decides. -/
theorem C42_options (opts : List ABNFOption) :
    (processOptions opts).validate =
      ((opts.reverse.findSome? fun | .withValidation b => some b | _ => none).getD true) ∧
    (processOptions opts).redefineCore =
      ((opts.reverse.findSome? fun | .withRedefineCoreRules b => some b | _ => none).getD false) := by
  unfold processOptions
  induction opts using List.reverseRecOn with
  | nil => exact ⟨rfl, rfl⟩
  | append_singleton opts o ih =>
    rw [List.foldl_append, List.reverse_append]
    cases o with
    | withValidation b => exact ⟨rfl, ih.2⟩
    | withRedefineCoreRules b => exact ⟨ih.1, rfl⟩

example : processOptions [] = ⟨true, false⟩ ∧
    processOptions [.withValidation false, .withRedefineCoreRules true, .withValidation true] = ⟨true, true⟩ := ⟨rfl, rfl⟩

end Props
end Verif
