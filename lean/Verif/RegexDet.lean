import Verif.RegexBuild

/-! # Lemmas: a pattern text is read in one way only -/

namespace Verif
open Spec RE2

/-- A prefix of characters of one kind, ended by a character of another, can be cut off in one way. -/
theorem cut_unique {D : Char → Prop} : ∀ {ds es : Str} {x y : Char} {s t : Str}, (∀ c ∈ ds, D c) → (∀ c ∈ es, D c) →
    ¬ D x → ¬ D y → ds ++ x :: s = es ++ y :: t → ds = es ∧ x = y ∧ s = t
  | [], [], x, y, s, t, _, _, _, _, h => by
    simp only [List.nil_append, List.cons.injEq] at h
    exact ⟨rfl, h⟩
  | [], e :: es, x, y, s, t, _, h2, h3, _, h => by
    simp only [List.nil_append, List.cons_append, List.cons.injEq] at h
    exact absurd (h2 e (List.mem_cons_self ..)) (h.1 ▸ h3)
  | d :: ds, [], x, y, s, t, h1, _, _, h4, h => by
    simp only [List.nil_append, List.cons_append, List.cons.injEq] at h
    exact absurd (h1 d (List.mem_cons_self ..)) (h.1 ▸ h4)
  | d :: ds, e :: es, x, y, s, t, h1, h2, h3, h4, h => by
    simp only [List.cons_append, List.cons.injEq] at h
    obtain ⟨h5, h6, h7⟩ := cut_unique (D := D) (fun c hc => h1 c (List.mem_cons_of_mem _ hc))
      (fun c hc => h2 c (List.mem_cons_of_mem _ hc)) h3 h4 h.2
    exact ⟨by rw [h.1, h5], h6, h7⟩

/-- A character that can be a digit. -/
def Digital (c : Char) : Prop := ∃ r d, r ≤ 16 ∧ HasDigit r c d

theorem digital_range {c : Char} (h : Digital c) : (48 ≤ c.toNat ∧ c.toNat < 58) ∨ (65 ≤ c.toNat ∧ c.toNat < 71) ∨
    (97 ≤ c.toNat ∧ c.toNat < 103) := by
  obtain ⟨r, d, h1, h2, h3⟩ := h
  omega

theorem denotes_digital {b s : Str} {v : Nat} (h : Denotes b s v) : ∀ c ∈ s, Digital c := by
  obtain ⟨r, ds, hr, hne, hds, hv⟩ := h
  have hr' := (radix_le hr).2
  intro c hc
  clear hr hne hv
  induction hds with
  | nil => cases hc
  | @cons a d s ds h _ ih =>
    rcases List.mem_cons.mp hc with rfl | hc
    · exact ⟨r, d, hr', h⟩
    · exact ih hc

theorem digital_not {c : Char} (h : ¬ ((48 ≤ c.toNat ∧ c.toNat < 58) ∨ (65 ≤ c.toNat ∧ c.toNat < 71) ∨
    (97 ≤ c.toNat ∧ c.toNat < 103))) : ¬ Digital c := fun h' => h (digital_range h')

theorem brace_not : ¬ Digital '}' := digital_not (by decide)
theorem obrace_not : ¬ Digital '{' := digital_not (by decide)
theorem comma_not : ¬ Digital ',' := digital_not (by decide)

theorem count_digital {s : Str} {n : Nat} (h : Count s n) : ∀ c ∈ s, Digital c := denotes_digital h.1

theorem quant_det {s t t' : Str} {q q' : Option (Nat × Option Nat)} (h : Quant s q t) (h' : Quant s q' t') : q = q' ∧ t = t' := by
  cases h with
  | none _ h =>
    cases h' with
    | none => exact ⟨rfl, rfl⟩
    | _ => simp [opensQuant] at h
  | opt _ h =>
    cases h' with
    | none _ h' => simp [opensQuant] at h'
    | opt => exact ⟨rfl, rfl⟩
  | star _ h =>
    cases h' with
    | none _ h' => simp [opensQuant] at h'
    | star => exact ⟨rfl, rfl⟩
  | plus _ h =>
    cases h' with
    | none _ h' => simp [opensQuant] at h'
    | plus => exact ⟨rfl, rfl⟩
  | exactly ds n _ h _ =>
    generalize hs : '{' :: ds ++ '}' :: t = s at h'
    cases h' with
    | none _ h' => rw [← hs] at h'; simp [opensQuant] at h'
    | opt => simp at hs
    | star => simp at hs
    | plus => simp at hs
    | exactly es m _ h' _ =>
      simp only [List.cons_append, List.cons.injEq, true_and] at hs
      obtain ⟨rfl, _, rfl⟩ := cut_unique (count_digital h) (count_digital h') brace_not brace_not hs
      rw [denotes_fun h.1 h'.1]
      exact ⟨rfl, rfl⟩
    | atLeast es m _ h' _ =>
      simp only [List.cons_append, List.cons.injEq, true_and] at hs
      obtain ⟨_, he, _⟩ := cut_unique (count_digital h) (count_digital h') brace_not comma_not hs
      exact absurd he (by decide)
    | between es fs m k _ h' _ _ =>
      simp only [List.cons_append, List.append_assoc, List.cons.injEq, true_and] at hs
      obtain ⟨_, he, _⟩ := cut_unique (count_digital h) (count_digital h') brace_not comma_not hs
      exact absurd he (by decide)
  | atLeast ds n _ h _ =>
    generalize hs : '{' :: ds ++ ',' :: '}' :: t = s at h'
    cases h' with
    | none _ h' => rw [← hs] at h'; simp [opensQuant] at h'
    | opt => simp at hs
    | star => simp at hs
    | plus => simp at hs
    | exactly es m _ h' _ =>
      simp only [List.cons_append, List.cons.injEq, true_and] at hs
      obtain ⟨_, he, _⟩ := cut_unique (count_digital h) (count_digital h') comma_not brace_not hs
      exact absurd he (by decide)
    | atLeast es m _ h' _ =>
      simp only [List.cons_append, List.cons.injEq, true_and] at hs
      obtain ⟨rfl, _, hs⟩ := cut_unique (count_digital h) (count_digital h') comma_not comma_not hs
      simp only [List.cons.injEq, true_and] at hs
      rw [denotes_fun h.1 h'.1]
      exact ⟨rfl, hs⟩
    | between es fs m k _ h' h'' _ =>
      simp only [List.cons_append, List.append_assoc, List.cons.injEq, true_and] at hs
      obtain ⟨_, _, hs⟩ := cut_unique (count_digital h) (count_digital h') comma_not comma_not hs
      have := cut_unique (ds := []) (by simp) (count_digital h'') brace_not brace_not hs
      exact absurd this.1.symm h''.1.choose_spec.choose_spec.2.1
  | between ds es n m _ h1 h2 _ _ =>
    generalize hs : '{' :: ds ++ ',' :: es ++ '}' :: t = s at h'
    cases h' with
    | none _ h' => rw [← hs] at h'; simp [opensQuant] at h'
    | opt => simp at hs
    | star => simp at hs
    | plus => simp at hs
    | exactly es m _ h' _ =>
      simp only [List.cons_append, List.append_assoc, List.cons.injEq, true_and] at hs
      obtain ⟨_, he, _⟩ := cut_unique (count_digital h1) (count_digital h') comma_not brace_not hs
      exact absurd he (by decide)
    | atLeast fs m _ h' _ =>
      simp only [List.cons_append, List.append_assoc, List.cons.injEq, true_and] at hs
      obtain ⟨_, _, hs⟩ := cut_unique (count_digital h1) (count_digital h') comma_not comma_not hs
      have := cut_unique (es := []) (count_digital h2) (by simp) brace_not brace_not hs
      exact absurd this.1 h2.1.choose_spec.choose_spec.2.1
    | between fs gs m k _ h' h'' _ =>
      simp only [List.cons_append, List.append_assoc, List.cons.injEq, true_and] at hs
      obtain ⟨rfl, _, hs⟩ := cut_unique (count_digital h1) (count_digital h') comma_not comma_not hs
      obtain ⟨rfl, _, rfl⟩ := cut_unique (count_digital h2) (count_digital h'') brace_not brace_not hs
      rw [denotes_fun h1.1 h'.1, denotes_fun h2.1 h''.1]
      exact ⟨rfl, rfl⟩

theorem member_det {s t t' : Str} {v v' : Nat} (h : Member s v t) (h' : Member s v' t') : v = v' ∧ t = t' := by
  cases h with
  | plain c _ h =>
    cases h' with
    | plain => exact ⟨rfl, rfl⟩
    | hex2 => exact absurd h (by decide)
    | hex => exact absurd h (by decide)
  | hex2 a b v _ h =>
    generalize hs : '\\' :: 'x' :: a :: b :: t = s at h'
    cases h' with
    | plain c _ h' =>
      simp only [List.cons.injEq] at hs
      rw [← hs.1] at h'
      exact absurd h' (by decide)
    | hex2 a' b' v' _ h' =>
      simp only [List.cons.injEq, true_and] at hs
      obtain ⟨rfl, rfl, rfl⟩ := hs
      exact ⟨denotes_fun h h', rfl⟩
    | hex =>
      simp only [List.cons_append, List.cons.injEq, true_and] at hs
      have := denotes_digital h a (by simp)
      rw [hs.1] at this
      exact absurd this obrace_not
  | hex ds v _ h _ =>
    generalize hs : '\\' :: 'x' :: '{' :: ds ++ '}' :: t = s at h'
    cases h' with
    | plain c _ h' =>
      simp only [List.cons_append, List.cons.injEq] at hs
      rw [← hs.1] at h'
      exact absurd h' (by decide)
    | hex2 a' b' v' _ h' =>
      simp only [List.cons_append, List.cons.injEq, true_and] at hs
      have := denotes_digital h' a' (by simp)
      rw [← hs.1] at this
      exact absurd this obrace_not
    | hex es w _ h' _ =>
      simp only [List.cons_append, List.cons.injEq, true_and] at hs
      obtain ⟨rfl, _, rfl⟩ := cut_unique (denotes_digital h) (denotes_digital h') brace_not brace_not hs
      exact ⟨denotes_fun h h', rfl⟩

theorem member_not_close {s t : Str} {v : Nat} (h : Member (']' :: s) v t) : False := by
  cases h with
  | plain _ _ h => exact absurd h (by decide)

theorem members_det {s t : Str} {rs : List (Nat × Nat)} (h : Members s rs t) : ∀ {rs' t'}, Members s rs' t' → rs = rs' ∧ t = t' := by
  induction h with
  | close s =>
    intro rs' t' h'
    generalize hs : ']' :: s = u at h'
    cases h' with
    | close => simp only [List.cons.injEq, true_and] at hs; exact ⟨rfl, hs⟩
    | one _ _ _ _ _ h => rw [← hs] at h; exact (member_not_close h).elim
    | range _ _ _ _ _ _ _ h => rw [← hs] at h; exact (member_not_close h).elim
  | one s v s' rs t h1 h2 _ ih =>
    intro rs' t' h'
    cases h' with
    | close => exact (member_not_close h1).elim
    | one _ _ _ _ _ h3 h4 h5 =>
      obtain ⟨rfl, rfl⟩ := member_det h1 h3
      obtain ⟨rfl, rfl⟩ := ih h5
      exact ⟨rfl, rfl⟩
    | range _ _ _ _ _ _ _ h3 =>
      obtain ⟨_, rfl⟩ := member_det h1 h3
      exact absurd rfl (h2 _)
  | range s lo s' hi s'' rs t h1 h2 h3 _ ih =>
    intro rs' t' h'
    cases h' with
    | close => exact (member_not_close h1).elim
    | one _ _ _ _ _ h4 h5 _ =>
      obtain ⟨_, rfl⟩ := member_det h1 h4
      exact absurd rfl (h5 _)
    | range _ _ _ _ _ _ _ h4 h5 _ h6 =>
      obtain ⟨rfl, he⟩ := member_det h1 h4
      simp only [List.cons.injEq, true_and] at he
      subst he
      obtain ⟨rfl, rfl⟩ := member_det h2 h5
      obtain ⟨rfl, rfl⟩ := ih h6
      exact ⟨rfl, rfl⟩

/-- A class does not start with a caret. -/
theorem members_caret {s t : Str} {rs : List (Nat × Nat)} (h : Members ('^' :: s) rs t) : False := by
  have : ∀ {v u}, ¬ Member ('^' :: s) v u := by
    intro v u h
    cases h with
    | plain _ _ h => exact absurd h (by decide)
  cases h with
  | one _ _ _ _ _ h => exact this h
  | range _ _ _ _ _ _ _ h => exact this h

/-- An atom starts neither at the end nor at a bar nor at a closing parenthesis. -/
theorem atom_not_stop {s t : Str} {p : Pat} (h : Atom s p t) : ¬ (s = [] ∨ (∃ t, s = '|' :: t) ∨ ∃ t, s = ')' :: t) := by
  rintro (rfl | ⟨u, rfl⟩ | ⟨u, rfl⟩)
  · cases h
  · cases h with | lit _ _ h => exact absurd h (by decide)
  · cases h with | lit _ _ h => exact absurd h (by decide)

theorem alts_det {s t : Str} {ps : List Pat} (h : Alts s ps t) : ∀ ps' t', Alts s ps' t' → ps = ps' ∧ t = t' := by
  refine Alts.rec (motive_1 := fun s p t _ => ∀ p' t', Atom s p' t' → p = p' ∧ t = t')
    (motive_2 := fun s ps t _ => ∀ ps' t', Items s ps' t' → ps = ps' ∧ t = t')
    (motive_3 := fun s ps t _ => ∀ ps' t', Alts s ps' t' → ps = ps' ∧ t = t')
    ?_ ?_ ?_ ?_ ?_ ?_ ?_ ?_ ?_ ?_ h
  · intro c s hc p' t' h'
    cases h' with
    | lit => exact ⟨rfl, rfl⟩
    | esc => exact absurd hc (by decide)
    | cls => exact absurd hc (by decide)
    | negCls => exact absurd hc (by decide)
    | group => exact absurd hc (by decide)
  · intro c s hc p' t' h'
    cases h' with
    | lit _ _ h => exact absurd h (by decide)
    | esc => exact ⟨rfl, rfl⟩
  · intro s rs t hm hne p' t' h'
    cases h' with
    | lit _ _ h => exact absurd h (by decide)
    | cls _ _ _ hm' _ =>
      obtain ⟨rfl, rfl⟩ := members_det hm hm'
      exact ⟨rfl, rfl⟩
    | negCls => exact (members_caret hm).elim
  · intro s rs t hm hne p' t' h'
    cases h' with
    | lit _ _ h => exact absurd h (by decide)
    | cls _ _ _ hm' _ => exact (members_caret hm').elim
    | negCls _ _ _ hm' _ =>
      obtain ⟨rfl, rfl⟩ := members_det hm hm'
      exact ⟨rfl, rfl⟩
  · intro s ps t _ ih p' t' h'
    cases h' with
    | lit _ _ h => exact absurd h (by decide)
    | group _ _ _ h =>
      obtain ⟨rfl, he⟩ := ih _ _ h
      simp only [List.cons.injEq, true_and] at he
      exact ⟨rfl, he⟩
  · intro s hs ps' t' h'
    cases h' with
    | stop => exact ⟨rfl, rfl⟩
    | item _ _ _ _ _ _ h => exact absurd hs (atom_not_stop h)
    | rep _ _ _ _ _ _ _ _ h => exact absurd hs (atom_not_stop h)
  · intro s p t u ps v ha hq _ iha ihi ps' t' h'
    cases h' with
    | stop _ hs => exact absurd hs (atom_not_stop ha)
    | item _ _ _ _ _ _ h1 h2 h3 =>
      obtain ⟨rfl, rfl⟩ := iha _ _ h1
      obtain ⟨_, rfl⟩ := quant_det hq h2
      obtain ⟨rfl, rfl⟩ := ihi _ _ h3
      exact ⟨rfl, rfl⟩
    | rep _ _ _ _ _ _ _ _ h1 h2 h3 =>
      obtain ⟨rfl, rfl⟩ := iha _ _ h1
      exact absurd (quant_det hq h2).1 (by simp)
  · intro s p t mn mx u ps v ha hq _ iha ihi ps' t' h'
    cases h' with
    | stop _ hs => exact absurd hs (atom_not_stop ha)
    | item _ _ _ _ _ _ h1 h2 h3 =>
      obtain ⟨rfl, rfl⟩ := iha _ _ h1
      exact absurd (quant_det hq h2).1 (by simp)
    | rep _ _ _ _ _ _ _ _ h1 h2 h3 =>
      obtain ⟨rfl, rfl⟩ := iha _ _ h1
      obtain ⟨he, rfl⟩ := quant_det hq h2
      simp only [Option.some.injEq, Prod.mk.injEq] at he
      obtain ⟨rfl, rfl⟩ := he
      obtain ⟨rfl, rfl⟩ := ihi _ _ h3
      exact ⟨rfl, rfl⟩
  · intro s ps t _ ht ih ps' t' h'
    cases h' with
    | last _ _ _ h _ =>
      obtain ⟨rfl, rfl⟩ := ih _ _ h
      exact ⟨rfl, rfl⟩
    | more _ _ _ _ _ h _ =>
      obtain ⟨_, rfl⟩ := ih _ _ h
      simp at ht
  · intro s ps t qs u _ _ ih1 ih2 ps' t' h'
    cases h' with
    | last _ _ _ h ht =>
      obtain ⟨_, rfl⟩ := ih1 _ _ h
      simp at ht
    | more _ _ _ _ _ h1 h2 =>
      obtain ⟨rfl, he⟩ := ih1 _ _ h1
      simp only [List.cons.injEq, true_and] at he
      subst he
      obtain ⟨rfl, rfl⟩ := ih2 _ _ h2
      exact ⟨rfl, rfl⟩

theorem reads_unique {s : Str} {p q : Pat} (h : Reads s p) (h' : Reads s q) : p = q := by
  obtain ⟨ps, h1, rfl⟩ := h
  obtain ⟨qs, h2, rfl⟩ := h'
  rw [(alts_det h1 _ _ h2).1]

end Verif
