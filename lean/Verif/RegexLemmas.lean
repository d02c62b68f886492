import Verif.RegexSpec

/-! # Lemmas: normalised classes and simplified trees -/

namespace Verif

/-! ## Ranges -/

instance : Std.Total rangeLe := ⟨fun a b => by unfold rangeLe; omega⟩
instance : IsTrans (Nat × Nat) rangeLe := ⟨fun a b c => by unfold rangeLe; omega⟩

theorem inRanges_cons {r : Nat × Nat} {rs : List (Nat × Nat)} {n : Nat} :
    InRanges (r :: rs) n ↔ (r.1 ≤ n ∧ n ≤ r.2) ∨ InRanges rs n := by
  simp [InRanges]

theorem inRanges_nil {n : Nat} : ¬ InRanges [] n := by simp [InRanges]

theorem inRanges_append {rs ss : List (Nat × Nat)} {n : Nat} :
    InRanges (rs ++ ss) n ↔ InRanges rs n ∨ InRanges ss n := by
  simp [InRanges, or_and_right, exists_or]

theorem coalesce_mem (n : Nat) : ∀ (rs : List (Nat × Nat)) (last : Nat × Nat), (∀ r ∈ rs, last.1 ≤ r.1) →
    rs.Pairwise rangeLe → (InRanges (coalesce last rs) n ↔ InRanges (last :: rs) n)
  | [], _, _, _ => Iff.rfl
  | r :: rs, last, hl, hp => by
    have hlr := hl r (List.mem_cons_self ..)
    rw [List.pairwise_cons] at hp
    unfold coalesce
    split_ifs with h1 h2
    · rw [coalesce_mem n rs (last.1, r.2) (fun s hs => hl s (List.mem_cons_of_mem _ hs)) hp.2]
      simp only [inRanges_cons]
      constructor
      · rintro (h | h)
        · by_cases hn : n ≤ last.2
          · exact .inl ⟨h.1, hn⟩
          · exact .inr (.inl ⟨by omega, h.2⟩)
        · exact .inr (.inr h)
      · rintro (h | h | h)
        · exact .inl ⟨h.1, by omega⟩
        · exact .inl ⟨by omega, h.2⟩
        · exact .inr h
    · rw [coalesce_mem n rs (last.1, last.2) (fun s hs => hl s (List.mem_cons_of_mem _ hs)) hp.2]
      simp only [inRanges_cons]
      constructor
      · rintro (h | h)
        · exact .inl h
        · exact .inr (.inr h)
      · rintro (h | h | h)
        · exact .inl h
        · exact .inl ⟨by omega, by omega⟩
        · exact .inr h
    · rw [inRanges_cons, coalesce_mem n rs r (fun s hs => by have := hp.1 s hs; unfold rangeLe at this; omega) hp.2,
        inRanges_cons (r := last)]

/-- What the coalesced list is: it starts where the given one does, and the ranges are apart from each other. -/
theorem coalesce_apart : ∀ (rs : List (Nat × Nat)) (last : Nat × Nat), (∀ r ∈ rs, last.1 ≤ r.1) →
    rs.Pairwise rangeLe → (∀ r ∈ coalesce last rs, last.1 ≤ r.1) ∧
      (coalesce last rs).Pairwise (fun a b => a.1 ≤ b.1 ∧ a.2 + 1 < b.1)
  | [], last, _, _ => by simp [coalesce]
  | r :: rs, last, hl, hp => by
    have hlr := hl r (List.mem_cons_self ..)
    rw [List.pairwise_cons] at hp
    unfold coalesce
    split_ifs with h1 h2
    · exact coalesce_apart rs (last.1, r.2) (fun s hs => hl s (List.mem_cons_of_mem _ hs)) hp.2
    · exact coalesce_apart rs (last.1, last.2) (fun s hs => hl s (List.mem_cons_of_mem _ hs)) hp.2
    · obtain ⟨h3, h4⟩ := coalesce_apart rs r (fun s hs => by have := hp.1 s hs; unfold rangeLe at this; omega) hp.2
      refine ⟨fun s hs => ?_, List.pairwise_cons.mpr ⟨fun s hs => ?_, h4⟩⟩
      · rcases List.mem_cons.mp hs with rfl | hs
        · exact Nat.le_refl _
        · exact Nat.le_trans hlr (h3 s hs)
      · have := h3 s hs
        omega

theorem coalesce_valid : ∀ (rs : List (Nat × Nat)) (last : Nat × Nat) (m : Nat), (last.1 ≤ last.2 ∧ last.2 ≤ m) →
    (∀ r ∈ rs, r.1 ≤ r.2 ∧ r.2 ≤ m) → ∀ r ∈ coalesce last rs, r.1 ≤ r.2 ∧ r.2 ≤ m
  | [], last, m, h1, _, r, hr => by simp only [coalesce, List.mem_singleton] at hr; exact hr ▸ h1
  | r :: rs, last, m, h1, h2, s, hs => by
    have hr := h2 r (List.mem_cons_self ..)
    have h3 : ∀ r ∈ rs, r.1 ≤ r.2 ∧ r.2 ≤ m := fun s hs => h2 s (List.mem_cons_of_mem _ hs)
    unfold coalesce at hs
    split_ifs at hs with h4 h5
    · exact coalesce_valid rs (last.1, r.2) m ⟨by simp only; omega, hr.2⟩ h3 s hs
    · exact coalesce_valid rs (last.1, last.2) m ⟨by simp only; omega, h1.2⟩ h3 s hs
    · rcases List.mem_cons.mp hs with rfl | hs
      · exact h1
      · exact coalesce_valid rs r m hr h3 s hs

theorem coalesce_ne_nil (rs : List (Nat × Nat)) (last : Nat × Nat) : coalesce last rs ≠ [] := by
  induction rs generalizing last with
  | nil => simp [coalesce]
  | cons r rs ih =>
    unfold coalesce
    split_ifs <;> simp [ih]

/-- Every range is contained in one of the coalesced ones. -/
theorem coalesce_covers : ∀ (rs : List (Nat × Nat)) (last : Nat × Nat), (∀ r ∈ rs, last.1 ≤ r.1) →
    rs.Pairwise rangeLe → ∀ r ∈ last :: rs, ∃ s ∈ coalesce last rs, s.1 ≤ r.1 ∧ r.2 ≤ s.2
  | [], last, _, _, r, hr => by
    rw [List.mem_singleton] at hr
    exact ⟨last, by simp [coalesce], by simp [hr]⟩
  | q :: rs, last, hl, hp, r, hr => by
    have hlr := hl q (List.mem_cons_self ..)
    rw [List.pairwise_cons] at hp
    have hl' : ∀ r ∈ rs, last.1 ≤ r.1 := fun s hs => hl s (List.mem_cons_of_mem _ hs)
    unfold coalesce
    split_ifs with h1 h2
    · have ih := coalesce_covers rs (last.1, q.2) hl' hp.2
      rcases List.mem_cons.mp hr with rfl | hr
      · obtain ⟨s, hs, h3, h4⟩ := ih _ (List.mem_cons_self ..)
        exact ⟨s, hs, h3, by simp only at h4; omega⟩
      · rcases List.mem_cons.mp hr with rfl | hr
        · obtain ⟨s, hs, h3, h4⟩ := ih _ (List.mem_cons_self ..)
          exact ⟨s, hs, by simp only at h3; omega, h4⟩
        · exact ih r (List.mem_cons_of_mem _ hr)
    · have ih := coalesce_covers rs (last.1, last.2) hl' hp.2
      rcases List.mem_cons.mp hr with rfl | hr
      · exact ih _ (List.mem_cons_self ..)
      · rcases List.mem_cons.mp hr with rfl | hr
        · obtain ⟨s, hs, h3, h4⟩ := ih _ (List.mem_cons_self ..)
          exact ⟨s, hs, by simp only at h3; omega, by simp only at h4; omega⟩
        · exact ih r (List.mem_cons_of_mem _ hr)
    · have ih := coalesce_covers rs q (fun s hs => by have := hp.1 s hs; unfold rangeLe at this; omega) hp.2
      rcases List.mem_cons.mp hr with rfl | hr
      · exact ⟨r, List.mem_cons_self .., Nat.le_refl _, Nat.le_refl _⟩
      · obtain ⟨s, hs, h3⟩ := ih r hr
        exact ⟨s, List.mem_cons_of_mem _ hs, h3⟩

/-- The facts about the sorted list that the loop needs. -/
theorem sorted_ranges {rs : List (Nat × Nat)} {r : Nat × Nat} {rest : List (Nat × Nat)}
    (h : rs.insertionSort rangeLe = r :: rest) : (r :: rest).Perm rs ∧ (∀ s ∈ rest, r.1 ≤ s.1) ∧ rest.Pairwise rangeLe := by
  have hp := List.pairwise_insertionSort rangeLe rs
  rw [h, List.pairwise_cons] at hp
  exact ⟨h ▸ List.perm_insertionSort rangeLe rs, fun s hs => by have := hp.1 s hs; unfold rangeLe at this; omega, hp.2⟩

theorem inRanges_perm {rs ss : List (Nat × Nat)} (h : rs.Perm ss) {n : Nat} : InRanges rs n ↔ InRanges ss n := by
  unfold InRanges
  constructor
  · rintro ⟨r, h1, h2⟩; exact ⟨r, h.subset h1, h2⟩
  · rintro ⟨r, h1, h2⟩; exact ⟨r, h.symm.subset h1, h2⟩

/-- A normalised list is empty, or it is the coalesced sorted list, also when there is one range. -/
theorem normalize_eq (rs : List (Nat × Nat)) : (rs = [] ∧ normalizeRanges rs = []) ∨
    ∃ r rest, (r :: rest).Perm rs ∧ (∀ s ∈ rest, r.1 ≤ s.1) ∧ rest.Pairwise rangeLe ∧ normalizeRanges rs = coalesce r rest := by
  unfold normalizeRanges
  split_ifs with h
  · match rs, h with
    | [], _ => exact .inl ⟨rfl, rfl⟩
    | [r], _ => exact .inr ⟨r, [], .refl _, by simp, by simp, rfl⟩
  · right
    cases hs : rs.insertionSort rangeLe with
    | nil =>
      have := (List.perm_insertionSort rangeLe rs).length_eq
      rw [hs] at this
      simp only [List.length_nil] at this
      omega
    | cons r rest =>
      obtain ⟨h1, h2, h3⟩ := sorted_ranges hs
      exact ⟨r, rest, h1, h2, h3, rfl⟩

theorem normalize_mem (rs : List (Nat × Nat)) (n : Nat) : InRanges (normalizeRanges rs) n ↔ InRanges rs n := by
  rcases normalize_eq rs with ⟨h1, h2⟩ | ⟨r, rest, h1, h2, h3, h4⟩
  · rw [h1, h2] at *
  · rw [h4, coalesce_mem n rest r h2 h3, inRanges_perm h1]

theorem normalize_apart (rs : List (Nat × Nat)) :
    (normalizeRanges rs).Pairwise (fun a b => a.1 ≤ b.1 ∧ a.2 + 1 < b.1) := by
  rcases normalize_eq rs with ⟨h1, h2⟩ | ⟨r, rest, h1, h2, h3, h4⟩
  · rw [h2]; exact .nil
  · rw [h4]; exact (coalesce_apart rest r h2 h3).2

theorem normalize_valid {rs : List (Nat × Nat)} {m : Nat} (h : ∀ r ∈ rs, r.1 ≤ r.2 ∧ r.2 ≤ m) :
    ∀ r ∈ normalizeRanges rs, r.1 ≤ r.2 ∧ r.2 ≤ m := by
  rcases normalize_eq rs with ⟨h1, h2⟩ | ⟨r, rest, h1, h2, h3, h4⟩
  · rw [h2]; simp
  · rw [h4]
    exact coalesce_valid rest r m (h r (h1.subset (List.mem_cons_self ..)))
      fun s hs => h s (h1.subset (List.mem_cons_of_mem _ hs))

theorem normalize_ne_nil {rs : List (Nat × Nat)} (h : rs ≠ []) : normalizeRanges rs ≠ [] := by
  rcases normalize_eq rs with ⟨h1, h2⟩ | ⟨r, rest, h1, h2, h3, h4⟩
  · exact absurd h1 h
  · rw [h4]; exact coalesce_ne_nil _ _

theorem normalize_covers (rs : List (Nat × Nat)) : ∀ r ∈ rs, ∃ s ∈ normalizeRanges rs, s.1 ≤ r.1 ∧ r.2 ≤ s.2 := by
  rcases normalize_eq rs with ⟨h1, h2⟩ | ⟨r, rest, h1, h2, h3, h4⟩
  · rw [h1]; simp
  · rw [h4]
    intro q hq
    exact coalesce_covers rest r h2 h3 q (h1.symm.subset hq)

/-- Two lists of ranges that are apart from each other are equal if they contain the same numbers. -/
theorem apart_unique : ∀ (rs ss : List (Nat × Nat)), (∀ r ∈ rs, r.1 ≤ r.2) → (∀ r ∈ ss, r.1 ≤ r.2) →
    rs.Pairwise (fun a b => a.2 + 1 < b.1) → ss.Pairwise (fun a b => a.2 + 1 < b.1) →
    (∀ n, InRanges rs n ↔ InRanges ss n) → rs = ss
  | [], [], _, _, _, _, _ => rfl
  | [], s :: ss, _, h2, _, _, h => by
    have := (h s.1).mpr ⟨s, List.mem_cons_self .., Nat.le_refl _, h2 s (List.mem_cons_self ..)⟩
    exact absurd this inRanges_nil
  | r :: rs, [], h1, _, _, _, h => by
    have := (h r.1).mp ⟨r, List.mem_cons_self .., Nat.le_refl _, h1 r (List.mem_cons_self ..)⟩
    exact absurd this inRanges_nil
  | r :: rs, s :: ss, h1, h2, hp, hq, h => by
    have hr := h1 r (List.mem_cons_self ..)
    have hs := h2 s (List.mem_cons_self ..)
    rw [List.pairwise_cons] at hp hq
    have low : ∀ {t : Nat × Nat} {ts : List (Nat × Nat)}, (∀ b ∈ ts, t.2 + 1 < b.1) → ∀ {n}, InRanges ts n → t.2 + 1 < n := by
      rintro t ts ht n ⟨b, hb, h3, _⟩
      have := ht b hb
      omega
    have e1 : r.1 = s.1 := by
      have a := (h r.1).mp (inRanges_cons.mpr (.inl ⟨Nat.le_refl _, hr⟩))
      have b := (h s.1).mpr (inRanges_cons.mpr (.inl ⟨Nat.le_refl _, hs⟩))
      rw [inRanges_cons] at a b
      rcases a with a | a <;> rcases b with b | b
      · omega
      · have := low hp.1 b; omega
      · have := low hq.1 a; omega
      · have := low hp.1 b; have := low hq.1 a; omega
    have e2 : r.2 = s.2 := by
      rcases Nat.lt_trichotomy r.2 s.2 with hlt | he | hlt
      · have a := (h (r.2 + 1)).mpr (inRanges_cons.mpr (.inl ⟨by omega, by omega⟩))
        rw [inRanges_cons] at a
        rcases a with a | a
        · omega
        · have := low hp.1 a; omega
      · exact he
      · have a := (h (s.2 + 1)).mp (inRanges_cons.mpr (.inl ⟨by omega, by omega⟩))
        rw [inRanges_cons] at a
        rcases a with a | a
        · omega
        · have := low hq.1 a; omega
    have e : r = s := Prod.ext e1 e2
    subst e
    congr 1
    refine apart_unique rs ss (fun q hq => h1 q (List.mem_cons_of_mem _ hq)) (fun q hq => h2 q (List.mem_cons_of_mem _ hq))
      hp.2 hq.2 fun n => ?_
    have := h n
    rw [inRanges_cons, inRanges_cons] at this
    constructor
    · intro hn
      have h3 := low hp.1 hn
      rcases this.mp (.inr hn) with h4 | h4
      · omega
      · exact h4
    · intro hn
      have h3 := low hq.1 hn
      rcases this.mpr (.inr hn) with h4 | h4
      · omega
      · exact h4

/-! ## Simplification -/

theorem seqLang_append (ps qs : List Re) (w : List Char) :
    seqLang (ps ++ qs) w ↔ ∃ u v, w = u ++ v ∧ seqLang ps u ∧ seqLang qs v := by
  induction ps generalizing w with
  | nil => simp [seqLang]
  | cons p ps ih =>
    simp only [List.cons_append, seqLang, ih]
    constructor
    · rintro ⟨u, v, rfl, h1, a, b, rfl, h2, h3⟩
      exact ⟨u ++ a, b, by simp, ⟨u, a, rfl, h1, h2⟩, h3⟩
    · rintro ⟨_, b, rfl, ⟨u, a, rfl, h1, h2⟩, h3⟩
      exact ⟨u, a ++ b, by simp, h1, a, b, rfl, h2, h3⟩

theorem altLang_iff (ps : List Re) (w : List Char) : altLang ps w ↔ ∃ p ∈ ps, p.Lang w := by
  induction ps with
  | nil => simp [altLang]
  | cons p ps ih => simp [altLang, ih]

theorem seqLang_one (p : Re) (w : List Char) : seqLang [p] w ↔ p.Lang w := by
  simp [seqLang]

theorem concatParts_lang (p : Re) (h : p.isNever = false) (w : List Char) : seqLang (concatParts p) w ↔ p.Lang w := by
  cases p with
  | empty => simp [concatParts, seqLang, Re.Lang]
  | never => simp [Re.isNever] at h
  | concat ps => simp [concatParts, Re.Lang]
  | cls rs => rw [concatParts, seqLang_one] <;> intros <;> simp_all
  | alt rs => rw [concatParts, seqLang_one] <;> intros <;> simp_all
  | rep a b c => rw [concatParts, seqLang_one] <;> intros <;> simp_all

theorem seq_flatMap (sps : List Re) (h : sps.any Re.isNever = false) (w : List Char) :
    seqLang (sps.flatMap concatParts) w ↔ seqLang sps w := by
  induction sps generalizing w with
  | nil => exact Iff.rfl
  | cons p ps ih =>
    simp only [List.any_cons, Bool.or_eq_false_iff] at h
    simp only [List.flatMap_cons, seqLang_append, seqLang]
    simp only [ih h.2, concatParts_lang p h.1]

theorem seq_never (sps : List Re) (h : sps.any Re.isNever = true) (w : List Char) : ¬ seqLang sps w := by
  induction sps generalizing w with
  | nil => simp at h
  | cons p ps ih =>
    simp only [List.any_cons, Bool.or_eq_true] at h
    rintro ⟨u, v, rfl, h1, h2⟩
    rcases h with h | h
    · cases p <;> simp [Re.isNever] at h
      exact h1
    · exact ih h v h2

theorem mkConcat_lang (sps : List Re) (w : List Char) : (mkConcat sps).Lang w ↔ seqLang sps w := by
  unfold mkConcat
  cases hn : sps.any Re.isNever with
  | true =>
    simp only [if_true]
    exact ⟨False.elim, fun h => seq_never sps hn w h⟩
  | false =>
    rw [← seq_flatMap sps hn w]
    simp only [Bool.false_eq_true, if_false]
    match sps.flatMap concatParts with
    | [] => exact Iff.rfl
    | [p] => exact (seqLang_one p w).symm
    | p :: q :: ps => exact Iff.rfl

theorem altOpts_lang (o : Re) (w : List Char) : altLang (altOpts o) w ↔ o.Lang w := by
  cases o with
  | never => simp [altOpts, altLang, Re.Lang]
  | alt os => simp [altOpts, Re.Lang]
  | cls rs => rw [altOpts] <;> simp [altLang]
  | concat rs => rw [altOpts] <;> simp [altLang]
  | empty => rw [altOpts] <;> simp [altLang]
  | rep a b c => rw [altOpts] <;> simp [altLang]

theorem alt_flatMap (sos : List Re) (w : List Char) : altLang (sos.flatMap altOpts) w ↔ altLang sos w := by
  simp only [altLang_iff, List.mem_flatMap]
  constructor
  · rintro ⟨p, ⟨o, h1, h2⟩, h3⟩
    exact ⟨o, h1, (altOpts_lang o w).mp ((altLang_iff _ _).mpr ⟨p, h2, h3⟩)⟩
  · rintro ⟨o, h1, h2⟩
    obtain ⟨p, h3, h4⟩ := (altLang_iff _ _).mp ((altOpts_lang o w).mpr h2)
    exact ⟨p, ⟨o, h1, h3⟩, h4⟩

theorem classRanges_mem (os : List Re) (n : Nat) : InRanges (classRanges os) n ↔ ∃ rs, .cls rs ∈ os ∧ InRanges rs n := by
  induction os with
  | nil => simp [classRanges, InRanges]
  | cons o os ih =>
    cases o with
    | cls rs =>
      rw [classRanges, inRanges_append, ih]
      constructor
      · rintro (h | ⟨ss, h1, h2⟩)
        · exact ⟨rs, List.mem_cons_self .., h⟩
        · exact ⟨ss, List.mem_cons_of_mem _ h1, h2⟩
      · rintro ⟨ss, h1, h2⟩
        rcases List.mem_cons.mp h1 with h1 | h1
        · cases h1; exact .inl h2
        · exact .inr ⟨ss, h1, h2⟩
    | _ =>
      rw [classRanges, ih]
      · simp
      · intro; simp

theorem merged_lang (opts : List Re) (w : List Char) :
    altLang (if opts.any Re.isClass then .cls (normalizeRanges (classRanges opts)) :: opts.filter (fun o => !o.isClass)
      else opts.filter fun o => !o.isClass) w ↔ altLang opts w := by
  split_ifs with h
  · simp only [altLang, Re.Lang, altLang_iff]
    constructor
    · rintro (⟨c, rfl, h1⟩ | ⟨p, h1, h2⟩)
      · rw [normalize_mem] at h1
        obtain ⟨rs, h2, h3⟩ := (classRanges_mem opts _).mp h1
        exact ⟨_, h2, c, rfl, h3⟩
      · exact ⟨p, (List.mem_filter.mp h1).1, h2⟩
    · rintro ⟨p, h1, h2⟩
      cases hp : p.isClass with
      | true =>
        cases p <;> simp [Re.isClass] at hp
        obtain ⟨c, rfl, h3⟩ := h2
        exact .inl ⟨c, rfl, (normalize_mem _ _).mpr ((classRanges_mem opts _).mpr ⟨_, h1, h3⟩)⟩
      | false => exact .inr ⟨p, List.mem_filter.mpr ⟨h1, by simp [hp]⟩, h2⟩
  · have : opts.filter (fun o => !o.isClass) = opts := by
      rw [List.filter_eq_self]
      intro o ho
      simp only [List.any_eq_true, not_exists, not_and] at h
      simpa using h o ho
    rw [this]

theorem mkAlt_lang (sos : List Re) (w : List Char) : (mkAlt sos).Lang w ↔ altLang sos w := by
  rw [← alt_flatMap sos w, ← merged_lang (sos.flatMap altOpts) w]
  unfold mkAlt
  simp only
  match (if (sos.flatMap altOpts).any Re.isClass then Re.cls (normalizeRanges (classRanges (sos.flatMap altOpts))) ::
      (sos.flatMap altOpts).filter (fun o => !o.isClass) else (sos.flatMap altOpts).filter fun o => !o.isClass) with
  | [] => exact Iff.rfl
  | [o] => simp [altLang]
  | o :: p :: os => exact Iff.rfl

theorem pow_empty {L : List Char → Prop} (h : ∀ w, L w ↔ w = []) (n : Nat) (w : List Char) : Pow L n w ↔ w = [] := by
  induction n generalizing w with
  | zero => exact Iff.rfl
  | succ n ih => simp [Pow, h, ih]

theorem pow_congr {L M : List Char → Prop} (h : ∀ w, L w ↔ M w) (n : Nat) (w : List Char) : Pow L n w ↔ Pow M n w := by
  have : L = M := funext fun w => propext (h w)
  rw [this]

theorem repBetween_congr {L M : List Char → Prop} (h : ∀ w, L w ↔ M w) (mn : Nat) (mx : Option Nat) (w : List Char) :
    RepBetween L mn mx w ↔ RepBetween M mn mx w := by
  have : L = M := funext fun w => propext (h w)
  rw [this]

theorem repBetween_one (L : List Char → Prop) (w : List Char) : RepBetween L 1 (some 1) w ↔ L w := by
  unfold RepBetween
  constructor
  · rintro ⟨n, h1, h2, h3⟩
    obtain rfl : n = 1 := by have := h2 1 rfl; omega
    simpa [Pow] using h3
  · intro h
    exact ⟨1, Nat.le_refl _, by simp, by simpa [Pow] using h⟩

theorem mkRep_lang (sub : Re) (mn : Nat) (mx : Option Nat) (hb : ∀ m, mx = some m → mn ≤ m) (w : List Char) :
    (mkRep sub mn mx).Lang w ↔ RepBetween sub.Lang mn mx w := by
  unfold mkRep
  split_ifs with h1 h2 h3 h4
  · cases sub <;> simp [Re.isNever] at h1
    subst h2
    simp only [Re.Lang]
    constructor
    · rintro rfl
      exact ⟨0, Nat.le_refl _, by simp, rfl⟩
    · rintro ⟨n, _, _, h⟩
      cases n with
      | zero => exact h
      | succ n => obtain ⟨_, _, _, h, _⟩ := h; exact h.elim
  · cases sub <;> simp [Re.isNever] at h1
    simp only [Re.Lang]
    constructor
    · exact False.elim
    · rintro ⟨n, h3, _, h⟩
      cases n with
      | zero => omega
      | succ n => obtain ⟨_, _, _, h, _⟩ := h; exact h
  · cases sub <;> simp [Re.isEmpty] at h3
    simp only [Re.Lang]
    constructor
    · rintro rfl
      exact ⟨mn, Nat.le_refl _, hb, (pow_empty (fun w => Iff.rfl) _ _).mpr rfl⟩
    · rintro ⟨n, _, _, h⟩
      exact (pow_empty (fun w => Iff.rfl) _ _).mp h
  · obtain ⟨rfl, rfl⟩ := h4
    exact (repBetween_one _ w).symm
  · exact Iff.rfl

mutual
theorem simplify_lang : (r : Re) → r.BoundsOK → ∀ w, (simplify r).Lang w ↔ r.Lang w
  | .cls rs, _, w => by simp only [simplify, Re.Lang, normalize_mem]
  | .empty, _, w => Iff.rfl
  | .never, _, w => Iff.rfl
  | .concat ps, h, w => by rw [simplify, mkConcat_lang]; exact (simplifyAll_lang ps h).1 w
  | .alt os, h, w => by rw [simplify, mkAlt_lang]; exact (simplifyAll_lang os h).2 w
  | .rep p mn mx, h, w => by
    rw [simplify, mkRep_lang _ _ _ h.1]
    exact repBetween_congr (simplify_lang p h.2) _ _ _
theorem simplifyAll_lang : (ps : List Re) → allBoundsOK ps → (∀ w, seqLang (simplifyAll ps) w ↔ seqLang ps w) ∧
    ∀ w, altLang (simplifyAll ps) w ↔ altLang ps w
  | [], _ => ⟨fun _ => Iff.rfl, fun _ => Iff.rfl⟩
  | p :: ps, h => by
    obtain ⟨h1, h2⟩ := simplifyAll_lang ps h.2
    have h3 := simplify_lang p h.1
    exact ⟨fun w => by simp only [simplifyAll, seqLang, h1, h3], fun w => by simp only [simplifyAll, altLang, h2, h3]⟩
end

/-! ## Budget -/

theorem byteLen_append (a b : Str) : byteLen (a ++ b) = byteLen a + byteLen b := by
  simp [byteLen, encodeAll_append]

theorem write_err (max : Nat) (ws : List Str) (st : RenderSt) (h : st.err = true) :
    (ws.foldl (RenderSt.write max) st).err = true := by
  induction ws generalizing st with
  | nil => exact h
  | cons w ws ih => exact ih _ (by simp [RenderSt.write, h])

theorem write_all (max : Nat) (ws : List Str) (st : RenderSt) (h : st.err = false) (hn : st.n = byteLen st.out)
    (hm : max > 0 → st.n ≤ max) : ((ws.foldl (RenderSt.write max) st).err = true ↔ max > 0 ∧ byteLen (st.out ++ ws.flatten) > max) ∧
    ((ws.foldl (RenderSt.write max) st).err = false → (ws.foldl (RenderSt.write max) st).out = st.out ++ ws.flatten) := by
  induction ws generalizing st with
  | nil =>
    simp only [List.foldl_nil, List.flatten_nil, List.append_nil, h, ← hn]
    exact ⟨⟨by simp, fun ⟨h1, h2⟩ => absurd (hm h1) (by omega)⟩, fun _ => by trivial⟩
  | cons w ws ih =>
    simp only [List.foldl_cons, List.flatten_cons]
    by_cases hb : max > 0 ∧ st.n + byteLen w > max
    · have h1 : (RenderSt.write max st w).err = true := by simp [RenderSt.write, h, hb]
      have h2 := write_err max ws _ h1
      rw [h2]
      refine ⟨⟨fun _ => ⟨hb.1, ?_⟩, fun _ => by trivial⟩, by simp⟩
      rw [byteLen_append, byteLen_append]
      omega
    · have e : RenderSt.write max st w = { st with n := st.n + byteLen w, out := st.out ++ w } := by
        simp only [RenderSt.write, h, Bool.false_eq_true, if_false]
        rw [if_neg hb]
      rw [e]
      have := ih { st with n := st.n + byteLen w, out := st.out ++ w } h (by simp [byteLen_append, hn])
        (fun h1 => by
          simp only
          by_contra h2
          exact hb ⟨h1, by omega⟩)
      simpa only [List.append_assoc] using this

/-- The whole text of a tree, without a budget. -/
def renderStr (r : Re) (ctx : Nat) : Str := (renderWrites r ctx).flatten

theorem renderBudget_eq (max : Nat) (r : Re) :
    renderBudget max r = if max > 0 ∧ byteLen (renderStr r 1) > max then none else some (renderStr r 1) := by
  have h := write_all max (renderWrites r 1) {} rfl rfl (by simp)
  simp only [List.nil_append] at h
  unfold renderBudget renderStr
  simp only
  split_ifs with h1 h2 h2
  · rfl
  · exact absurd (h.1.mp h1) h2
  · exact absurd (h.1.mpr h2) h1
  · rw [h.2 (by simpa using h1)]

end Verif
