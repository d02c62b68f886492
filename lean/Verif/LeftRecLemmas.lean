import Verif.RecogSound
import Verif.PropsTarjan

/-!
# Nullability and left corners
-/

namespace Verif
open Spec

/-! ## Shape and derivations -/

section
variable {g : Grammar}

/-- The elements of the alternation occur in the grammar. -/
def AltOccurs (g : Grammar) (a : Alt) : Prop := ∀ c ∈ a, ∀ r ∈ c, Occurs g r.elem

theorem occurs_alt {e : Elem} (h : Occurs g e) {a : Alt} (ha : elemReps e = altReps a) : AltOccurs g a :=
  fun _ hc _ hr => occurs_inner h ha hc hr

theorem resolves_alt {n : Str} {r : Rule} (h : Resolves g n r) : AltOccurs g r.alt := fun _ hc _ hr => occurs_rule h hc hr

/-- What derives nothing may derive nothing. -/
theorem vanishes_of_derives (hne : NoEmptySeries g) {e : Elem} {w : Bytes} (h : Derives g e w) :
    (Occurs g e ∨ ∃ n, e = .rulename n) → w = [] → Vanishes g e := by
  refine Derives.rec (g := g)
    (motive_1 := fun e w _ => (Occurs g e ∨ ∃ n, e = .rulename n) → w = [] → Vanishes g e)
    (motive_2 := fun a w _ => AltOccurs g a → w = [] → VanishesAlt g a)
    (motive_3 := fun c w _ => (∀ r ∈ c, Occurs g r.elem) → w = [] → VanishesConcat g c)
    (motive_4 := fun r w _ => Occurs g r.elem → w = [] → VanishesRep g r)
    (motive_5 := fun e n w _ => Occurs g e → w = [] → n = 0 ∨ Vanishes g e)
    ?_ ?_ ?_ ?_ ?_ ?_ ?_ ?_ ?_ ?_ ?_ h
  · intro n r w hr _ ih _ hw
    exact .rule n r hr (ih (resolves_alt hr) hw)
  · intro a w _ ih ho hw
    rcases ho with ho | ⟨n, hn⟩
    · exact .group a (ih (occurs_alt ho rfl) hw)
    · cases hn
  · intro a _ _; exact .option a
  · intro a w _ _ _ _; exact .option a
  · intro e cs ht ho hw
    have hcs : cs = [] := by
      cases cs with
      | nil => rfl
      | cons c cs =>
        rw [← encodeAll_eq_utf8, encodeAll_cons] at hw
        exact absurd (List.append_eq_nil_iff.mp hw).1 (encodeRune_ne_nil c)
    subst hcs
    rcases ho with ho | ⟨n, rfl⟩
    · cases ht with
      | sensitive => exact .empty _
      | insensitive vs _ hf =>
        cases hf
        exact .empty _
      | series b es _ hf =>
        cases hf
        exact absurd ho (hne b)
    · cases ht
  · intro a c w hc _ ih ho hw
    exact .mk a c hc (ih (ho c hc) hw)
  · intro _ _; exact .nil
  · intro r c u v _ _ ih1 ih2 ho hw
    obtain ⟨h1, h2⟩ := List.append_eq_nil_iff.mp hw
    exact .cons r c (ih1 (ho r (by simp)) h1) (ih2 (fun q hq => ho q (by simp [hq])) h2)
  · intro mn mx e n w hmn _ _ ih ho hw
    rcases ih ho hw with h | h
    · rw [show mn = 0 by omega]; exact .none mx e
    · exact .elem mn mx e h
  · intro e _ _; exact Or.inl rfl
  · intro e n u v _ _ ih1 _ ho hw
    exact Or.inr (ih1 (Or.inl ho) (List.append_eq_nil_iff.mp hw).1)

theorem derivesTimes_nil {e : Elem} (h : Derives g e []) : ∀ n, DerivesTimes g e n [] := by
  intro n
  induction n with
  | zero => exact .zero e
  | succ n ih => exact .succ e n [] [] h ih

/-- With ordered bounds, what may derive nothing does. -/
theorem derives_of_vanishes (hb : BoundsOrdered g) {e : Elem} (h : Vanishes g e) :
    (elemReps e ⊆ rulesReps (g.rules ++ Core.rules)) → Derives g e [] := by
  have hsub : ∀ {n : Str} {r : Rule}, Resolves g n r → altReps r.alt ⊆ rulesReps (g.rules ++ Core.rules) :=
    fun {n r} hr x hx => List.mem_flatMap.mpr ⟨r, resolves_mem hr, hx⟩
  refine Vanishes.rec (g := g)
    (motive_1 := fun e _ => elemReps e ⊆ rulesReps (g.rules ++ Core.rules) → Derives g e [])
    (motive_2 := fun a _ => altReps a ⊆ rulesReps (g.rules ++ Core.rules) → DerivesAlt g a [])
    (motive_3 := fun c _ => concatReps c ⊆ rulesReps (g.rules ++ Core.rules) → DerivesConcat g c [])
    (motive_4 := fun r _ => repReps r ⊆ rulesReps (g.rules ++ Core.rules) → DerivesRep g r [])
    ?_ ?_ ?_ ?_ ?_ ?_ ?_ ?_ ?_ h
  · intro n r hr _ ih _; exact .rule n r [] hr (ih (hsub hr))
  · intro a _ ih ho; exact .group a [] (ih ho)
  · intro a _; exact .optNone a
  · intro s _
    have : Terminal (.charVal s []) [] := by
      cases s
      · exact .insensitive [] [] .nil
      · exact .sensitive []
    exact .term _ [] this
  · intro a c hc _ ih ho
    refine .mk a c [] hc (ih fun x hx => ho ?_)
    clear ih ho
    induction a with
    | nil => cases hc
    | cons d a iha =>
      simp only [altReps]
      rcases List.mem_cons.mp hc with rfl | hc
      · exact List.mem_append.mpr (Or.inl hx)
      · exact List.mem_append.mpr (Or.inr (iha hc))
  · intro _; exact .nil
  · intro r c _ _ ih1 ih2 ho
    simp only [concatReps] at ho
    have := DerivesConcat.cons r c [] [] (ih1 fun x hx => ho (List.mem_append.mpr (Or.inl hx)))
      (ih2 fun x hx => ho (List.mem_append.mpr (Or.inr hx)))
    exact this
  · intro mx e _
    exact .mk 0 mx e 0 [] (le_refl _) (fun _ _ => Nat.zero_le _) (.zero e)
  · intro mn mx e _ ih ho
    simp only [repReps] at ho
    have hd := ih fun x hx => ho (List.mem_cons_of_mem _ hx)
    exact .mk mn mx e mn [] (le_refl _) (hb ⟨mn, mx, e⟩ (ho (by simp))) (derivesTimes_nil hd mn)

/-! ## The recursive functions -/

mutual
theorem elemNullable_sound {null : List Str} (hn : ∀ n, canon n ∈ null → Vanishes g (.rulename n)) :
    (e : Elem) → elemNullable null e = true → Vanishes g e
  | .option a, _ => .option a
  | .group a, h => .group a (altNullable_sound hn a (by simpa [elemNullable] using h))
  | .rulename n, h => hn n (by simpa [elemNullable] using h)
  | .charVal s vs, h => by
    simp only [elemNullable, List.isEmpty_iff] at h
    subst h
    exact .empty s
  | .numVal .., h => by simp [elemNullable] at h
  | .proseVal .., h => by simp [elemNullable] at h
theorem repNullable_sound {null : List Str} (hn : ∀ n, canon n ∈ null → Vanishes g (.rulename n)) :
    (r : Rep) → repNullable null r = true → VanishesRep g r
  | ⟨mn, mx, e⟩, h => by
    simp only [repNullable, Bool.or_eq_true, beq_iff_eq] at h
    rcases h with rfl | h
    · exact .none mx e
    · exact .elem mn mx e (elemNullable_sound hn e h)
theorem concatNullable_sound {null : List Str} (hn : ∀ n, canon n ∈ null → Vanishes g (.rulename n)) :
    (c : List Rep) → concatNullable null c = true → VanishesConcat g c
  | [], _ => .nil
  | r :: c, h => by
    simp only [concatNullable, Bool.and_eq_true] at h
    exact .cons r c (repNullable_sound hn r h.1) (concatNullable_sound hn c h.2)
theorem altNullable_sound {null : List Str} (hn : ∀ n, canon n ∈ null → Vanishes g (.rulename n)) :
    (a : List (List Rep)) → altNullable null a = true → VanishesAlt g a
  | [], h => by simp [altNullable] at h
  | c :: a, h => by
    simp only [altNullable, Bool.or_eq_true] at h
    rcases h with h | h
    · exact .mk _ c (by simp) (concatNullable_sound hn c h)
    · cases altNullable_sound hn a h with
      | mk _ d hd hv => exact .mk _ d (List.mem_cons_of_mem _ hd) hv
end

theorem altNullable_of {null : List Str} {a : Alt} {c : Concat} (hc : c ∈ a) (h : concatNullable null c = true) :
    altNullable null a = true := by
  induction a with
  | nil => cases hc
  | cons d a ih =>
    simp only [altNullable, Bool.or_eq_true]
    rcases List.mem_cons.mp hc with rfl | hc
    · exact Or.inl h
    · exact Or.inr (ih hc)

/-- If the marks are closed, everything that may derive nothing is recognised. -/
theorem elemNullable_complete {null : List Str}
    (hcl : ∀ n r, Resolves g n r → altNullable null r.alt = true → canon n ∈ null) {e : Elem} (h : Vanishes g e) :
    elemNullable null e = true := by
  refine Vanishes.rec (g := g)
    (motive_1 := fun e _ => elemNullable null e = true)
    (motive_2 := fun a _ => altNullable null a = true)
    (motive_3 := fun c _ => concatNullable null c = true)
    (motive_4 := fun r _ => repNullable null r = true)
    ?_ ?_ ?_ ?_ ?_ ?_ ?_ ?_ ?_ h
  · intro n r hr _ ih; simpa [elemNullable] using hcl n r hr ih
  · intro a _ ih; simpa [elemNullable] using ih
  · intro a; rfl
  · intro s; rfl
  · intro a c hc _ ih; exact altNullable_of hc ih
  · rfl
  · intro r c _ _ ih1 ih2; simp [concatNullable, ih1, ih2]
  · intro mx e; simp [repNullable]
  · intro mn mx e _ ih; simp [repNullable, ih]

theorem repNullable_complete {null : List Str} (hcl : ∀ n r, Resolves g n r → altNullable null r.alt = true → canon n ∈ null)
    {r : Rep} (h : VanishesRep g r) : repNullable null r = true := by
  cases h with
  | none mx e => simp [repNullable]
  | elem mn mx e h => simp [repNullable, elemNullable_complete hcl h]

/-! ## The map of rules -/

/-- What the map of rules contains, for any order of the names. -/
theorem resolvedRules_spec {names : List Str} (hn : names.Perm (g.rules.map Rule.name ++ Core.rules.map Rule.name)) :
    ((resolvedRules g names).map Prod.fst).Nodup ∧
    ∀ k r, (k, r) ∈ resolvedRules g names ↔ canon k = k ∧ getRule k g.rules = some r := by
  have hcanon : ∀ {n r}, getRule n g.rules = some r → canon r.name = canon n := by
    intro n r h
    cases getRule_resolves h with
    | user _ hs => exact ((sameName_iff _ _).mp hs).symm
    | core _ hs _ => exact ((sameName_iff _ _).mp hs).symm
  have hcong : ∀ {n m : Str}, canon n = canon m → getRule n g.rules = getRule m g.rules :=
    fun h => Props.C18_case g.rules _ _ ((sameName_iff _ _).mpr h)
  -- the fold
  have hfold : ∀ (l m : List (Str × Rule)), (m.map Prod.fst).Nodup →
      (∀ k r, (k, r) ∈ m → canon k = k ∧ getRule k g.rules = some r) →
      (∀ k r, (k, r) ∈ l → canon k = k ∧ getRule k g.rules = some r) →
      ((l.foldl (fun m p => if p.1 ∈ m.map Prod.fst then m else m ++ [p]) m).map Prod.fst).Nodup ∧
      (∀ k r, (k, r) ∈ l.foldl (fun m p => if p.1 ∈ m.map Prod.fst then m else m ++ [p]) m →
        canon k = k ∧ getRule k g.rules = some r) ∧
      (∀ k r, (k, r) ∈ m ∨ (k, r) ∈ l → (k, r) ∈ l.foldl (fun m p => if p.1 ∈ m.map Prod.fst then m else m ++ [p]) m) := by
    intro l
    induction l with
    | nil => intro m h1 h2 _; exact ⟨h1, h2, fun k r h => by simpa using h⟩
    | cons p l ih =>
      intro m h1 h2 h3
      rw [List.foldl_cons]
      obtain ⟨x, y⟩ := p
      have hxy := h3 x y (by simp)
      by_cases hp : x ∈ m.map Prod.fst
      · rw [if_pos hp]
        obtain ⟨g1, g2, g3⟩ := ih m h1 h2 (fun k r h => h3 k r (List.mem_cons_of_mem _ h))
        refine ⟨g1, g2, fun k r h => ?_⟩
        rcases h with h | h
        · exact g3 k r (Or.inl h)
        · rcases List.mem_cons.mp h with h | h
          · injection h with hk hr
            subst hk hr
            obtain ⟨⟨k', r'⟩, hm, rfl⟩ := List.mem_map.mp hp
            have := (h2 _ _ hm).2
            rw [hxy.2] at this
            injection this with this
            subst this
            exact g3 _ _ (Or.inl hm)
          · exact g3 k r (Or.inr h)
      · rw [if_neg hp]
        obtain ⟨g1, g2, g3⟩ := ih (m ++ [(x, y)]) (by
            rw [List.map_append, List.nodup_append]
            refine ⟨h1, by simp, ?_⟩
            intro a ha b hb
            simp only [List.map_cons, List.map_nil, List.mem_singleton] at hb
            rintro rfl
            rw [hb] at ha
            exact hp ha) (by
            intro k r h
            rcases List.mem_append.mp h with h | h
            · exact h2 k r h
            · simp only [List.mem_singleton, Prod.mk.injEq] at h
              rw [h.1, h.2]; exact hxy) (fun k r h => h3 k r (List.mem_cons_of_mem _ h))
        refine ⟨g1, g2, fun k r h => g3 k r ?_⟩
        rcases h with h | h
        · exact Or.inl (List.mem_append.mpr (Or.inl h))
        · rcases List.mem_cons.mp h with h | h
          · exact Or.inl (List.mem_append.mpr (Or.inr (by simp [h])))
          · exact Or.inr h
  have hsrc : ∀ k r, (k, r) ∈ (names.filterMap fun n => (getRule n g.rules).map fun r => (canon r.name, r)) →
      canon k = k ∧ getRule k g.rules = some r := by
    intro k r h
    obtain ⟨n, _, h⟩ := List.mem_filterMap.mp h
    cases hg : getRule n g.rules with
    | none => rw [hg] at h; cases h
    | some r' =>
      rw [hg] at h
      simp only [Option.map_some, Option.some.injEq, Prod.mk.injEq] at h
      obtain ⟨h1, h2⟩ := h
      subst h1 h2
      refine ⟨canon_canon _, ?_⟩
      rw [hcong (n := canon r'.name) (m := n) (by rw [canon_canon, hcanon hg]), hg]
  obtain ⟨g1, g2, g3⟩ := hfold _ [] (by simp) (fun _ _ h => by cases h) hsrc
  refine ⟨g1, fun k r => ⟨g2 k r, ?_⟩⟩
  rintro ⟨hk, hr⟩
  refine g3 k r (Or.inr ?_)
  have hmem : r.name ∈ names := by
    rw [hn.mem_iff, ← List.map_append]
    exact List.mem_map.mpr ⟨r, resolves_mem (getRule_resolves hr), rfl⟩
  refine List.mem_filterMap.mpr ⟨r.name, hmem, ?_⟩
  rw [hcong (hcanon hr), hr]
  simp only [Option.map_some, Option.some.injEq, Prod.mk.injEq, and_true]
  rw [hcanon hr, hk]

/-! ## The fixpoint -/

theorem nullPass_spec : ∀ (rs : List (Str × Rule)) (null : List Str),
    (null ⊆ (nullPass rs null).1) ∧
    ((nullPass rs null).2 = false → (nullPass rs null).1 = null ∧ ∀ k r, (k, r) ∈ rs → altNullable null r.alt = true → k ∈ null) ∧
    ((nullPass rs null).2 = true → null.length < (nullPass rs null).1.length) ∧
    (null.Nodup → (nullPass rs null).1.Nodup) ∧
    (∀ k ∈ (nullPass rs null).1, k ∈ null ∨ ∃ r, (k, r) ∈ rs) ∧
    ∀ P : Str → Prop, (∀ k ∈ null, P k) → (∀ k r null', (k, r) ∈ rs → (∀ k ∈ null', P k) → altNullable null' r.alt = true → P k) →
      ∀ k ∈ (nullPass rs null).1, P k := by
  intro rs
  induction rs with
  | nil =>
    intro null
    refine ⟨fun _ h => h, fun _ => ⟨rfl, fun _ _ h => (by cases h)⟩, (fun h => by cases h), fun h => h, fun k h => Or.inl h, fun P h _ => h⟩
  | cons p rs ih =>
    obtain ⟨k, r⟩ := p
    intro null
    rw [nullPass]
    split_ifs with h
    · obtain ⟨i1, i2, i3, i4, i5, i6⟩ := ih (null ++ [k])
      have hle : (null ++ [k]).length ≤ (nullPass rs (null ++ [k])).1.length := by
        cases hc : (nullPass rs (null ++ [k])).2 with
        | false => rw [(i2 hc).1]
        | true => exact le_of_lt (i3 hc)
      refine ⟨fun x hx => i1 (List.mem_append.mpr (Or.inl hx)), fun h => by simp at h, fun _ => ?_, fun hn => i4 ?_, ?_, ?_⟩
      · simp only [List.length_append, List.length_cons, List.length_nil] at hle
        simp only
        omega
      · rw [List.nodup_append]
        refine ⟨hn, by simp, fun a ha b hb => ?_⟩
        rw [List.mem_singleton.mp hb]
        rintro rfl
        exact h.1 ha
      · intro x hx
        rcases i5 x hx with hx | ⟨r', hr'⟩
        · rcases List.mem_append.mp hx with hx | hx
          · exact Or.inl hx
          · rw [List.mem_singleton.mp hx]; exact Or.inr ⟨r, by simp⟩
        · exact Or.inr ⟨r', List.mem_cons_of_mem _ hr'⟩
      · intro P hP hstep
        refine i6 P ?_ (fun k' r' null' hm => hstep k' r' null' (List.mem_cons_of_mem _ hm))
        intro x hx
        rcases List.mem_append.mp hx with hx | hx
        · exact hP x hx
        · rw [List.mem_singleton.mp hx]
          exact hstep k r null (by simp) hP h.2
    · obtain ⟨i1, i2, i3, i4, i5, i6⟩ := ih null
      refine ⟨i1, fun hc => ⟨(i2 hc).1, fun k' r' hm ha => ?_⟩, i3, i4, ?_, ?_⟩
      · rcases List.mem_cons.mp hm with hm | hm
        · injection hm with h1 h2
          subst h1 h2
          by_contra hk
          exact h ⟨hk, ha⟩
        · exact (i2 hc).2 k' r' hm ha
      · intro x hx
        rcases i5 x hx with hx | ⟨r', hr'⟩
        · exact Or.inl hx
        · exact Or.inr ⟨r', List.mem_cons_of_mem _ hr'⟩
      · intro P hP hstep
        exact i6 P hP (fun k' r' null' hm => hstep k' r' null' (List.mem_cons_of_mem _ hm))

theorem nullLoop_spec {sched : Nat → List (Str × Rule) → List (Str × Rule)} (hs : ∀ t l, (sched t l).Perm l)
    (rules : List (Str × Rule)) (P : Str → Prop)
    (hstep : ∀ k r null', (k, r) ∈ rules → (∀ k ∈ null', P k) → altNullable null' r.alt = true → P k) :
    ∀ (n t : Nat) (null : List Str), rules.length < n + null.length → null.Nodup → (∀ k ∈ null, ∃ r, (k, r) ∈ rules) → (∀ k ∈ null, P k) →
      ∃ null', nullLoop sched rules n t null = .ok null' ∧ (∀ k ∈ null', P k) ∧
        ∀ k r, (k, r) ∈ rules → altNullable null' r.alt = true → k ∈ null' := by
  intro n
  induction n with
  | zero =>
    intro t null hl hn hk hP
    exfalso
    have : null ⊆ rules.map Prod.fst := fun k h => by
      obtain ⟨r, hr⟩ := hk k h
      exact List.mem_map.mpr ⟨_, hr, rfl⟩
    have := (List.subperm_of_subset hn this).length_le
    simp only [List.length_map] at this
    omega
  | succ n ih =>
    intro t null hl hn hk hP
    obtain ⟨i1, i2, i3, i4, i5, i6⟩ := nullPass_spec (sched t rules) null
    have hmem : ∀ p, p ∈ sched t rules ↔ p ∈ rules := fun p => (hs t rules).mem_iff
    rw [nullLoop]
    cases hp : nullPass (sched t rules) null with
    | mk null' ch =>
      rw [hp] at i1 i2 i3 i4 i5 i6
      simp only at i1 i2 i3 i4 i5 i6
      cases ch with
      | false =>
        obtain ⟨h1, h2⟩ := i2 rfl
        subst h1
        exact ⟨_, rfl, hP, fun k r hm ha => h2 k r ((hmem _).mpr hm) ha⟩
      | true =>
        simp only
        have := i3 rfl
        refine ih (t + 1) null' (by omega) (i4 hn) ?_ ?_
        · intro k h
          rcases i5 k h with h | ⟨r, hr⟩
          · exact hk k h
          · exact ⟨r, (hmem _).mp hr⟩
        · exact i6 P hP (fun k r null' hm => hstep k r null' ((hmem _).mp hm))

/-- The marks are exactly the rules that may derive nothing. -/
theorem nullableRules_spec (hd : NamesDistinct g) {sched : Nat → List (Str × Rule) → List (Str × Rule)}
    (hs : ∀ t l, (sched t l).Perm l) {names : List Str} (hn : names.Perm (g.rules.map Rule.name ++ Core.rules.map Rule.name)) :
    ∃ null, nullableRules sched g names = .ok null ∧
      (∀ n, canon n ∈ null → Vanishes g (.rulename n)) ∧
      ∀ n r, Resolves g n r → altNullable null r.alt = true → canon n ∈ null := by
  obtain ⟨h1, h2⟩ := resolvedRules_spec (g := g) hn
  obtain ⟨null, h3, h4, h5⟩ := nullLoop_spec hs (resolvedRules g names) (fun k => canon k = k ∧ Vanishes g (.rulename k))
    (by
      intro k r null' hm hP ha
      obtain ⟨hk, hr⟩ := (h2 k r).mp hm
      refine ⟨hk, .rule k r (getRule_resolves hr) (altNullable_sound ?_ r.alt ha)⟩
      intro n hn
      have := (hP _ hn).2
      cases this with
      | rule _ r' hr' hv => exact .rule n r' ((resolves_congr (canon_canon n)).mp hr') hv)
    ((resolvedRules g names).length + 1) 0 [] (by simp) (by simp) (fun _ h => by cases h) (fun _ h => by cases h)
  refine ⟨null, h3, ?_, ?_⟩
  · intro n hn
    cases (h4 _ hn).2 with
    | rule _ r' hr' hv => exact .rule n r' ((resolves_congr (canon_canon n)).mp hr') hv
  · intro n r hr ha
    refine h5 (canon n) r ((h2 _ _).mpr ⟨canon_canon n, ?_⟩) ha
    exact (getRule_iff hd).mpr ((resolves_congr (canon_canon n)).mpr hr)

/-! ## Left corners -/

theorem innerCorner_corner {e e' : Elem} (h : InnerCorner g e e') : LeftCorner g e e' := by
  cases h with
  | group a _ h => exact .group a _ h
  | option a _ h => exact .option a _ h

/-- A reference to `m` is reached through groups and options. -/
def ReachName (g : Grammar) (e : Elem) (m : Str) : Prop :=
  ∃ n, Relation.ReflTransGen (InnerCorner g) e (.rulename n) ∧ canon n = m

/-- The marks decide which repetitions may derive nothing. -/
def NullExact (g : Grammar) (null : List Str) : Prop := ∀ r, repNullable null r = true ↔ VanishesRep g r

theorem reachName_rule {n m : Str} : ReachName g (.rulename n) m ↔ canon n = m := by
  constructor
  · rintro ⟨k, h, hk⟩
    rcases Relation.ReflTransGen.cases_head h with h | ⟨e, h, _⟩
    · injection h with h; rw [h]; exact hk
    · cases h
  · intro h; exact ⟨n, .refl, h⟩

theorem reachName_step {e : Elem} {m : Str} (hn : ∀ n, e ≠ .rulename n) :
    ReachName g e m ↔ ∃ e', InnerCorner g e e' ∧ ReachName g e' m := by
  constructor
  · rintro ⟨k, h, hk⟩
    rcases Relation.ReflTransGen.cases_head h with h | ⟨e', h, h'⟩
    · exact absurd h (hn k)
    · exact ⟨e', h, k, h', hk⟩
  · rintro ⟨e', h, k, h', hk⟩
    exact ⟨k, .head h h', hk⟩

/-- The concatenation can start with `e`. -/
def StartsC (g : Grammar) (c : Concat) (e : Elem) : Prop :=
  ∃ pre mn mx post, c = pre ++ ⟨mn, mx, e⟩ :: post ∧ VanishesConcat g pre

theorem starts_iff {a : Alt} {e : Elem} : Starts g a e ↔ ∃ c ∈ a, StartsC g c e := by
  constructor
  · rintro ⟨pre, mn, mx, post, hm, hv⟩
    exact ⟨_, hm, pre, mn, mx, post, rfl, hv⟩
  · rintro ⟨c, hm, pre, mn, mx, post, rfl, hv⟩
    exact ⟨pre, mn, mx, post, hm, hv⟩

theorem startsC_cons {mn : Nat} {mx : Option Nat} {e : Elem} {c : Concat} {e' : Elem} :
    StartsC g (⟨mn, mx, e⟩ :: c) e' ↔ e' = e ∨ VanishesRep g ⟨mn, mx, e⟩ ∧ StartsC g c e' := by
  constructor
  · rintro ⟨pre, mn', mx', post, h, hv⟩
    cases pre with
    | nil =>
      simp only [List.nil_append, List.cons.injEq, Rep.mk.injEq] at h
      exact Or.inl h.1.2.2.symm
    | cons r pre =>
      simp only [List.cons_append, List.cons.injEq] at h
      obtain ⟨rfl, rfl⟩ := h
      cases hv with
      | cons _ _ h1 h2 => exact Or.inr ⟨h1, pre, mn', mx', post, rfl, h2⟩
  · rintro (rfl | ⟨h1, pre, mn', mx', post, rfl, h2⟩)
    · exact ⟨[], mn, mx, c, rfl, .nil⟩
    · exact ⟨⟨mn, mx, e⟩ :: pre, mn', mx', post, rfl, .cons _ _ h1 h2⟩

mutual
theorem mem_lcElem {null : List Str} (hx : NullExact g null) : (e : Elem) → ∀ (deps : List Str) (m : Str),
    m ∈ lcElem null deps e ↔ m ∈ deps ∨ ReachName g e m
  | .rulename n, deps, m => by
    rw [lcElem, mem_appendDeps, List.mem_singleton, reachName_rule]
    constructor
    · rintro (h | h)
      · exact Or.inl h
      · exact Or.inr h.symm
    · rintro (h | h)
      · exact Or.inl h
      · exact Or.inr h.symm
  | .group a, deps, m => by
    rw [lcElem, mem_lcAlt hx a, reachName_step (by simp)]
    refine or_congr_right ⟨?_, ?_⟩
    · rintro ⟨e, h1, h2⟩; exact ⟨e, .group a e h1, h2⟩
    · rintro ⟨e, h1, h2⟩
      cases h1 with
      | group _ _ h1 => exact ⟨e, h1, h2⟩
  | .option a, deps, m => by
    rw [lcElem, mem_lcAlt hx a, reachName_step (by simp)]
    refine or_congr_right ⟨?_, ?_⟩
    · rintro ⟨e, h1, h2⟩; exact ⟨e, .option a e h1, h2⟩
    · rintro ⟨e, h1, h2⟩
      cases h1 with
      | option _ _ h1 => exact ⟨e, h1, h2⟩
  | .charVal s vs, deps, m => by
    rw [lcElem, reachName_step (by simp)]
    refine ⟨fun h => Or.inl h, ?_⟩
    rintro (h | ⟨e, h, _⟩)
    · exact h
    · cases h
  | .numVal b s es, deps, m => by
    rw [lcElem, reachName_step (by simp)]
    refine ⟨fun h => Or.inl h, ?_⟩
    rintro (h | ⟨e, h, _⟩)
    · exact h
    · cases h
  | .proseVal s, deps, m => by
    rw [lcElem, reachName_step (by simp)]
    refine ⟨fun h => Or.inl h, ?_⟩
    rintro (h | ⟨e, h, _⟩)
    · exact h
    · cases h
theorem mem_lcRep {null : List Str} (hx : NullExact g null) : (r : Rep) → ∀ (deps : List Str) (m : Str),
    m ∈ lcRep null deps r ↔ m ∈ deps ∨ ReachName g r.elem m
  | ⟨mn, mx, e⟩, deps, m => by
    rw [lcRep, mem_lcElem hx e]; rfl
theorem mem_lcConcat {null : List Str} (hx : NullExact g null) : (c : List Rep) → ∀ (deps : List Str) (m : Str),
    m ∈ lcConcat null deps c ↔ m ∈ deps ∨ ∃ e, StartsC g c e ∧ ReachName g e m
  | [], deps, m => by
    rw [lcConcat]
    refine ⟨fun h => Or.inl h, ?_⟩
    rintro (h | ⟨e, ⟨pre, mn, mx, post, h, _⟩, _⟩)
    · exact h
    · simp at h
  | ⟨mn, mx, e⟩ :: c, deps, m => by
    rw [lcConcat]
    split_ifs with h
    · rw [mem_lcConcat hx c, mem_lcRep hx]
      have hv := (hx _).mp h
      simp only [startsC_cons, Rep.elem_mk]
      constructor
      · rintro ((h | h) | ⟨e', h1, h2⟩)
        · exact Or.inl h
        · exact Or.inr ⟨e, Or.inl rfl, h⟩
        · exact Or.inr ⟨e', Or.inr ⟨hv, h1⟩, h2⟩
      · rintro (h | ⟨e', rfl | ⟨_, h1⟩, h2⟩)
        · exact Or.inl (Or.inl h)
        · exact Or.inl (Or.inr h2)
        · exact Or.inr ⟨e', h1, h2⟩
    · rw [mem_lcRep hx]
      have hv : ¬ VanishesRep g ⟨mn, mx, e⟩ := fun hv => h ((hx _).mpr hv)
      simp only [startsC_cons, Rep.elem_mk]
      refine or_congr_right ⟨fun h => ⟨e, Or.inl rfl, h⟩, ?_⟩
      rintro ⟨e', rfl | ⟨h1, _⟩, h2⟩
      · exact h2
      · exact absurd h1 hv
theorem mem_lcAlt {null : List Str} (hx : NullExact g null) : (a : List (List Rep)) → ∀ (deps : List Str) (m : Str),
    m ∈ lcAlt null deps a ↔ m ∈ deps ∨ ∃ e, Starts g a e ∧ ReachName g e m
  | [], deps, m => by
    rw [lcAlt]
    simp only [starts_iff]
    simp
  | c :: a, deps, m => by
    rw [lcAlt, mem_lcAlt hx a, mem_lcConcat hx c]
    simp only [starts_iff, List.mem_cons]
    constructor
    · rintro ((h | ⟨e, h1, h2⟩) | ⟨e, ⟨d, hd, h1⟩, h2⟩)
      · exact Or.inl h
      · exact Or.inr ⟨e, ⟨c, Or.inl rfl, h1⟩, h2⟩
      · exact Or.inr ⟨e, ⟨d, Or.inr hd, h1⟩, h2⟩
    · rintro (h | ⟨e, ⟨d, rfl | hd, h1⟩, h2⟩)
      · exact Or.inl (Or.inl h)
      · exact Or.inl (Or.inr ⟨e, h1, h2⟩)
      · exact Or.inr ⟨e, ⟨d, hd, h1⟩, h2⟩
end

/-! ## The graph -/

theorem lookup_map_snd {β : Type} (f : Str × Rule → β) (k : Str) : ∀ (l : List (Str × Rule)),
    (l.map fun p => (p.1, f p)).lookup k = (l.find? fun p => k == p.1).map f := by
  intro l
  induction l with
  | nil => rfl
  | cons p l ih =>
    obtain ⟨x, r⟩ := p
    rw [List.map_cons, List.lookup_cons, List.find?_cons]
    simp only
    cases h : (k == x) with
    | true => rfl
    | false => exact ih

theorem lcGraph_lookup {null : List Str} {names : List Str}
    (hn : names.Perm (g.rules.map Rule.name ++ Core.rules.map Rule.name)) (k : Str) :
    (leftCornerGraph null g names).lookup k =
      if canon k = k then (getRule k g.rules).map fun r => ⟨r.name, leftCornerDeps null r.alt⟩ else none := by
  obtain ⟨h1, h2⟩ := resolvedRules_spec (g := g) hn
  unfold leftCornerGraph
  rw [lookup_map_snd (fun p => (⟨p.2.name, leftCornerDeps null p.2.alt⟩ : DepNode)) k]
  cases hf : (resolvedRules g names).find? fun p => k == p.1 with
  | some p =>
    obtain ⟨x, r⟩ := p
    have hx : k = x := by simpa using List.find?_some hf
    subst hx
    obtain ⟨h3, h4⟩ := (h2 k r).mp (List.mem_of_find?_eq_some hf)
    rw [if_pos h3, h4]; rfl
  | none =>
    split_ifs with hk
    · cases hr : getRule k g.rules with
      | none => rfl
      | some r =>
        have := List.find?_eq_none.mp hf _ ((h2 k r).mpr ⟨hk, hr⟩)
        simp at this
    · rfl

theorem lcGraph_edge (hd : NamesDistinct g) {null : List Str} (hx : NullExact g null) {names : List Str}
    (hn : names.Perm (g.rules.map Rule.name ++ Core.rules.map Rule.name)) {x y : Str} :
    Edge (leftCornerGraph null g names) x y ↔ canon x = x ∧ canon y = y ∧ (∃ r, Resolves g y r) ∧
      ∃ r, Resolves g x r ∧ ∃ e, Starts g r.alt e ∧ ReachName g e y := by
  unfold Edge dgDeps
  rw [lcGraph_lookup hn x, lcGraph_lookup hn y]
  constructor
  · rintro ⟨h1, h2⟩
    split_ifs at h1 with hcx
    · split_ifs at h2 with hcy
      · cases hr : getRule x g.rules with
        | none => rw [hr] at h1; simp at h1
        | some r =>
          rw [hr] at h1
          simp only [Option.map_some] at h1
          rcases (mem_lcAlt hx r.alt [] y).mp h1 with h | h
          · cases h
          · refine ⟨hcx, hcy, ?_, r, getRule_resolves hr, h⟩
            cases hry : getRule y g.rules with
            | none => rw [hry] at h2; cases h2
            | some r' => exact ⟨r', getRule_resolves hry⟩
      · cases h2
    · simp at h1
  · rintro ⟨hcx, hcy, ⟨r', hr'⟩, r, hr, h⟩
    rw [if_pos hcx, if_pos hcy, (getRule_iff hd).mpr hr, (getRule_iff hd).mpr hr']
    simp only [Option.map_some, Option.isSome_some, and_true]
    exact (mem_lcAlt hx r.alt [] y).mpr (Or.inr h)

/-- A chain of left corners between references, seen in the graph. -/
theorem corner_edge (hd : NamesDistinct g) {null : List Str} (hx : NullExact g null) {names : List Str}
    (hn : names.Perm (g.rules.map Rule.name ++ Core.rules.map Rule.name)) {m : Str} (hm : ∃ r, Resolves g m r) {e : Elem}
    (h : Relation.TransGen (LeftCorner g) e (.rulename m)) :
    (∀ n, e = .rulename n → Relation.TransGen (Edge (leftCornerGraph null g names)) (canon n) (canon m)) ∧
    ((∀ n, e ≠ .rulename n) → ∃ n, ReachName g e n ∧ DReach (leftCornerGraph null g names) n (canon m) ∧ canon n = n ∧
      ∃ r, Resolves g n r) := by
  have hcm : ∃ r, Resolves g (canon m) r := by
    obtain ⟨r, hr⟩ := hm
    exact ⟨r, (resolves_congr (canon_canon m)).mpr hr⟩
  have hstep : ∀ {n k : Str} {r : Rule} {e : Elem}, Resolves g n r → Starts g r.alt e → ReachName g e k → canon k = k →
      (∃ r, Resolves g k r) → Edge (leftCornerGraph null g names) (canon n) k := by
    intro n k r e hr hs hre hk hrk
    exact (lcGraph_edge hd hx hn).mpr ⟨canon_canon n, hk, hrk, r, (resolves_congr (canon_canon n)).mpr hr, e, hs, hre⟩
  have hinner : ∀ {e e' : Elem}, (∀ n, e ≠ .rulename n) → LeftCorner g e e' → InnerCorner g e e' := by
    intro e e' hn h
    cases h with
    | rule n r _ _ _ => exact absurd rfl (hn n)
    | group a _ h => exact .group a _ h
    | option a _ h => exact .option a _ h
  refine Relation.TransGen.head_induction_on h ?_ ?_
  · intro e h
    constructor
    · rintro n rfl
      cases h with
      | rule _ r _ hr hs => exact .single (hstep hr hs (reachName_rule.mpr rfl) (canon_canon m) hcm)
    · intro hne
      refine ⟨canon m, (reachName_step hne).mpr ⟨_, hinner hne h, reachName_rule.mpr rfl⟩, .refl, canon_canon m, hcm⟩
  · intro e e' h _ ih
    by_cases he' : ∃ k, e' = .rulename k
    · obtain ⟨k, rfl⟩ := he'
      have ih := ih.1 k rfl
      have hk : ∃ r, Resolves g (canon k) r := by
        obtain ⟨y, hy, _⟩ := Relation.TransGen.head'_iff.mp ih
        obtain ⟨_, _, _, r, hr, _⟩ := (lcGraph_edge hd hx hn).mp hy
        exact ⟨r, hr⟩
      constructor
      · rintro n rfl
        cases h with
        | rule _ r _ hr hs => exact .head (hstep hr hs (reachName_rule.mpr rfl) (canon_canon k) hk) ih
      · intro hne
        exact ⟨canon k, (reachName_step hne).mpr ⟨_, hinner hne h, reachName_rule.mpr rfl⟩, ih.to_reflTransGen, canon_canon k, hk⟩
    · have hne' : ∀ k, e' ≠ .rulename k := fun k hk => he' ⟨k, hk⟩
      obtain ⟨k, h1, h2, h3, h4⟩ := ih.2 hne'
      constructor
      · rintro n rfl
        cases h with
        | rule _ r _ hr hs =>
          rcases Relation.reflTransGen_iff_eq_or_transGen.mp h2 with h5 | h5
          · rw [h5]; exact .single (hstep hr hs h1 h3 h4)
          · exact .head (hstep hr hs h1 h3 h4) h5
      · intro hne
        exact ⟨k, (reachName_step hne).mpr ⟨_, hinner hne h, h1⟩, h2, h3, h4⟩

/-- An edge of the graph is a chain of left corners. -/
theorem edge_corner (hd : NamesDistinct g) {null : List Str} (hx : NullExact g null) {names : List Str}
    (hn : names.Perm (g.rules.map Rule.name ++ Core.rules.map Rule.name)) {x y : Str}
    (h : Edge (leftCornerGraph null g names) x y) : ∃ m, canon m = y ∧ Relation.TransGen (LeftCorner g) (.rulename x) (.rulename m) := by
  obtain ⟨_, _, _, r, hr, e, hs, m, hm, hc⟩ := (lcGraph_edge hd hx hn).mp h
  refine ⟨m, hc, ?_⟩
  have : Relation.ReflTransGen (LeftCorner g) e (.rulename m) := Relation.ReflTransGen.mono (fun _ _ h => innerCorner_corner h) _ _ hm
  exact Relation.TransGen.head' (.rule x r e hr hs) this

theorem corner_congr {n m : Str} (h : canon n = canon m) {e : Elem} :
    LeftCorner g (.rulename n) e ↔ LeftCorner g (.rulename m) e := by
  constructor
  · intro h'
    cases h' with
    | rule _ r _ hr hs => exact .rule m r e ((resolves_congr h).mp hr) hs
  · intro h'
    cases h' with
    | rule _ r _ hr hs => exact .rule n r e ((resolves_congr h).mpr hr) hs

theorem corner_trans_congr {n m : Str} (h : canon n = canon m) {e : Elem} (ht : Relation.TransGen (LeftCorner g) (.rulename n) e) :
    Relation.TransGen (LeftCorner g) (.rulename m) e := by
  obtain ⟨e', h1, h2⟩ := Relation.TransGen.head'_iff.mp ht
  exact Relation.TransGen.head' ((corner_congr h).mp h1) h2

/-- Reachability in the graph is a chain of left corners. -/
theorem reach_corner (hd : NamesDistinct g) {null : List Str} (hx : NullExact g null) {names : List Str}
    (hn : names.Perm (g.rules.map Rule.name ++ Core.rules.map Rule.name)) {x y : Str}
    (h : Relation.TransGen (Edge (leftCornerGraph null g names)) x y) :
    ∃ m, canon m = y ∧ Relation.TransGen (LeftCorner g) (.rulename x) (.rulename m) := by
  induction h with
  | single h => exact edge_corner hd hx hn h
  | tail _ h2 ih =>
    obtain ⟨m, hm, h3⟩ := ih
    obtain ⟨m', hm', h4⟩ := edge_corner hd hx hn h2
    have hb := ((lcGraph_edge hd hx hn).mp h2).1
    refine ⟨m', hm', h3.trans (corner_trans_congr ?_ h4)⟩
    rw [hm, hb]

theorem nullExact (hd : NamesDistinct g) {sched : Nat → List (Str × Rule) → List (Str × Rule)}
    (hs : ∀ t l, (sched t l).Perm l) {names : List Str} (hn : names.Perm (g.rules.map Rule.name ++ Core.rules.map Rule.name)) :
    ∃ null, nullableRules sched g names = .ok null ∧ NullExact g null ∧ ∀ n, canon n ∈ null ↔ Vanishes g (.rulename n) := by
  obtain ⟨null, h1, h2, h3⟩ := nullableRules_spec hd hs hn
  refine ⟨null, h1, fun r => ⟨repNullable_sound h2 r, repNullable_complete h3⟩, fun n => ⟨h2 n, fun hv => ?_⟩⟩
  have := elemNullable_complete h3 hv
  simpa [elemNullable] using this

end

end Verif
