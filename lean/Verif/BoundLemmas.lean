import Verif.NumLemmas
import Mathlib.Tactic.IntervalCases

/-! # Lemmas about `checkBounds` and `int32ToNumval` -/

namespace Verif
open Spec

theorem hasDigit_zero {r : Nat} (hr : 0 < r) (hr' : r ≤ 36) (c : Char) : HasDigit r c 0 ↔ c = '0' := by
  have h0 : '0'.toNat = 48 := rfl
  unfold HasDigit
  constructor
  · rintro ⟨_, h⟩
    apply char_ext
    omega
  · rintro rfl
    rw [h0]
    omega

theorem trim_digits {r : Nat} (hr : 0 < r) (hr' : r ≤ 36) {s : Str} {ds : List Nat}
    (h : List.Forall₂ (HasDigit r) s ds) :
    ∃ es, List.Forall₂ (HasDigit r) (trimZeros s) es ∧ valueOf r es = valueOf r ds ∧
      ∀ d t, es = d :: t → 0 < d := by
  induction h with
  | nil => exact ⟨[], by simp [trimZeros], rfl, by simp⟩
  | @cons c d s ds hd hs ih =>
    by_cases hc : c = '0'
    · obtain ⟨es, h1, h2, h3⟩ := ih
      refine ⟨es, ?_, ?_, h3⟩
      · simpa [trimZeros, hc] using h1
      · have : d = 0 := hasDigit_fun hr' hd ((hasDigit_zero hr hr' c).mpr hc)
        simp [valueOf, this, h2]
    · refine ⟨d :: ds, ?_, rfl, ?_⟩
      · have : trimZeros (c :: s) = c :: s := by simp [trimZeros, hc]
        rw [this]
        exact List.Forall₂.cons hd hs
      · rintro d' t ⟨rfl, rfl⟩
        rcases Nat.eq_zero_or_pos d with rfl | h
        · exact absurd ((hasDigit_zero hr hr' c).mp hd) hc
        · exact h

theorem digits_length {r : Nat} {s : Str} {ds : List Nat} (h : List.Forall₂ (HasDigit r) s ds) :
    s.length = ds.length := h.length_eq

theorem valueOf_ge {r : Nat} {d : Nat} {t : List Nat} (hd : 0 < d) :
    r ^ t.length ≤ valueOf r (d :: t) := by
  simp only [valueOf]
  exact Nat.le_add_right_of_le (Nat.le_mul_of_pos_left _ hd)

theorem length_le_of_valueOf {r : Nat} (hr : 0 < r) {es : List Nat} (h : ∀ d t, es = d :: t → 0 < d) {n : Nat}
    (hn : n < es.length) : r ^ n ≤ valueOf r es := by
  cases es with
  | nil => simp at hn
  | cons d t =>
    refine le_trans ?_ (valueOf_ge (r := r) (h d t rfl))
    exact Nat.pow_le_pow_right hr (by simp at hn; omega)

theorem valueOf_lt_of_length {r : Nat} (hr : 0 < r) {s : Str} {es : List Nat}
    (h : List.Forall₂ (HasDigit r) s es) {n : Nat} (hn : es.length ≤ n) : valueOf r es < r ^ n :=
  lt_of_lt_of_le (valueOf_lt es (digits_lt h)) (Nat.pow_le_pow_right hr hn)

theorem digit_bin {c : Char} {d : Nat} (h : HasDigit 2 c d) : c.toNat = 48 + d ∧ d < 2 := by
  unfold HasDigit at h; omega
theorem digit_dec {c : Char} {d : Nat} (h : HasDigit 10 c d) : c.toNat = 48 + d ∧ d < 10 := by
  unfold HasDigit at h; omega
theorem digit_hex {c : Char} {d : Nat} (h : HasDigit 16 c d) :
    (c.toNat > 49 ↔ d > 1) ∧ (c.toNat = 49 ↔ d = 1) ∧ (c.toNat > 48 ↔ d > 0) ∧ d < 16 := by
  unfold HasDigit at h; omega

theorem checkBounds_bin {s : Str} {es : List Nat} (hs : List.Forall₂ (HasDigit 2) s es)
    (hp : ∀ d t, es = d :: t → 0 < d) :
    (s.length > 21 ∨ (s.length = 21 ∧ (at' s 1 ≠ 48 ∨ at' s 2 ≠ 48 ∨ at' s 3 ≠ 48 ∨ at' s 4 ≠ 48))) ↔
      1114111 < valueOf 2 es := by
  have hl := digits_length hs
  rcases Nat.lt_trichotomy s.length 21 with h | h | h
  · have := valueOf_lt_of_length (by norm_num) hs (n := 20) (by omega)
    constructor
    · intro h'; omega
    · intro h'; norm_num at this; omega
  · rcases hs with _ | ⟨a0, _ | ⟨a1, _ | ⟨a2, _ | ⟨a3, _ | ⟨a4, ht⟩⟩⟩⟩⟩
    all_goals try (simp at h; done)
    rename_i t u
    have hlt := valueOf_lt u (digits_lt ht)
    have hul : u.length = 16 := by simp at hl h; omega
    have := hp _ _ rfl
    have := digit_bin a0; have := digit_bin a1; have := digit_bin a2; have := digit_bin a3
    have := digit_bin a4
    simp only [valueOf, List.length_cons, hul, h, at', List.getD_cons_zero, List.getD_cons_succ] at hlt ⊢
    norm_num at hlt ⊢
    omega
  · have := length_le_of_valueOf (r := 2) (by norm_num) hp (n := 21) (by omega)
    norm_num at this
    constructor
    · intro _; omega
    · intro _; exact Or.inl h

theorem checkBounds_dec {s : Str} {es : List Nat} (hs : List.Forall₂ (HasDigit 10) s es)
    (hp : ∀ d t, es = d :: t → 0 < d) :
    (s.length > 7 ∨ (s.length = 7 ∧ (at' s 0 > 49 ∨ (at' s 0 = 49 ∧
      (at' s 1 > 49 ∨ (at' s 1 = 49 ∧ (at' s 2 > 49 ∨ (at' s 2 = 49 ∧ (at' s 3 > 52 ∨ (at' s 3 = 52 ∧
      (at' s 4 > 49 ∨ (at' s 4 = 49 ∧ (at' s 5 > 49 ∨ (at' s 5 = 49 ∧ at' s 6 > 49)))))))))))))) ↔
      1114111 < valueOf 10 es := by
  have hl := digits_length hs
  rcases Nat.lt_trichotomy s.length 7 with h | h | h
  · have := valueOf_lt_of_length (by norm_num) hs (n := 6) (by omega)
    constructor
    · intro h'; omega
    · intro h'; norm_num at this; omega
  · rcases hs with _ | ⟨a0, _ | ⟨a1, _ | ⟨a2, _ | ⟨a3, _ | ⟨a4, _ | ⟨a5, _ | ⟨a6, ht⟩⟩⟩⟩⟩⟩⟩
    all_goals try (simp at h; done)
    rename_i t u
    have hul : u.length = 0 := by
      have := ht.length_eq
      simp only [List.length_cons] at h; omega
    obtain rfl := List.length_eq_zero_iff.mp hul
    have := hp _ _ rfl
    have := digit_dec a0; have := digit_dec a1; have := digit_dec a2; have := digit_dec a3
    have := digit_dec a4; have := digit_dec a5; have := digit_dec a6
    simp only [valueOf, List.length_cons, hul, h, at', List.getD_cons_zero, List.getD_cons_succ]
    norm_num
    omega
  · have := length_le_of_valueOf (r := 10) (by norm_num) hp (n := 7) (by omega)
    norm_num at this
    constructor
    · intro _; omega
    · intro _; exact Or.inl h

theorem checkBounds_hex {s : Str} {es : List Nat} (hs : List.Forall₂ (HasDigit 16) s es)
    (hp : ∀ d t, es = d :: t → 0 < d) :
    (s.length > 6 ∨ (s.length = 6 ∧ (at' s 0 > 49 ∨ (at' s 0 = 49 ∧ at' s 1 > 48)))) ↔
      1114111 < valueOf 16 es := by
  have hl := digits_length hs
  rcases Nat.lt_trichotomy s.length 6 with h | h | h
  · have := valueOf_lt_of_length (by norm_num) hs (n := 5) (by omega)
    constructor
    · intro h'; omega
    · intro h'; norm_num at this; omega
  · rcases hs with _ | ⟨a0, _ | ⟨a1, ht⟩⟩
    all_goals try (simp at h; done)
    rename_i t u
    have hlt := valueOf_lt u (digits_lt ht)
    have hul : u.length = 4 := by simp at hl h; omega
    have := hp _ _ rfl
    have := digit_hex a0; have := digit_hex a1
    simp only [valueOf, List.length_cons, hul, h, at', List.getD_cons_zero, List.getD_cons_succ] at hlt ⊢
    norm_num at hlt ⊢
    omega
  · have := length_le_of_valueOf (r := 16) (by norm_num) hp (n := 6) (by omega)
    norm_num at this
    constructor
    · intro _; omega
    · intro _; exact Or.inl h

theorem checkBounds_denotes {b s : Str} {v : Nat} (h : Denotes b s v) :
    checkBounds s b = true ↔ v ≤ 0x10FFFF := by
  obtain ⟨r, ds, hr, _, hds, rfl⟩ := h
  obtain ⟨es, h1, h2, h3⟩ := trim_digits (by have := radix_le hr; omega) (by have := radix_le hr; omega) hds
  have e0 : '0'.toNat = 48 := rfl
  have e1 : '1'.toNat = 49 := rfl
  have e4 : '4'.toNat = 52 := rfl
  rw [← h2, ← not_lt]
  cases hr
  case bin | binU =>
    rw [← checkBounds_bin h1 h3]
    simp only [checkBounds, e0, e1, e4]
    simp
    omega
  case dec | decU =>
    rw [← checkBounds_dec h1 h3]
    simp only [checkBounds, e0, e1, e4]
    simp
    omega
  case hex | hexU =>
    rw [← checkBounds_hex h1 h3]
    simp only [checkBounds, e0, e1, e4]
    simp
    omega

theorem hasDigit_digitChar {r d : Nat} (hr : r ≤ 16) (hd : d < r) : HasDigit r (Nat.digitChar d) d := by
  refine ⟨hd, ?_⟩
  have : d < 16 := by omega
  interval_cases d <;> decide

theorem hasDigit_upper {r d : Nat} {c : Char} (hr : r ≤ 36) (h : HasDigit r c d) :
    HasDigit r (upperChar c) d := by
  have h3 : 'a'.toNat = 97 := rfl
  have h4 : 'z'.toNat = 122 := rfl
  obtain ⟨hd, h⟩ := h
  refine ⟨hd, ?_⟩
  unfold upperChar
  rw [h3, h4]
  split_ifs with hc
  · rw [toNat_ofNat_char (by omega)]; omega
  · omega

theorem forall₂_append' {α β : Type _} {R : α → β → Prop} {a : List α} {b : List β} {c : List α} {d : List β}
    (h1 : List.Forall₂ R a b) (h2 : List.Forall₂ R c d) : List.Forall₂ R (a ++ c) (b ++ d) := by
  induction h1 with
  | nil => exact h2
  | cons h _ ih => exact List.Forall₂.cons h ih

theorem toDigits_digits {r : Nat} (h2 : 2 ≤ r) (hr : r ≤ 16) (n : Nat) :
    ∃ ds, List.Forall₂ (HasDigit r) (Nat.toDigits r n) ds ∧ valueOf r ds = n := by
  induction n using Nat.strongRecOn with
  | _ n ih =>
    rw [Nat.toDigits_eq_if (by omega)]
    split_ifs with h
    · exact ⟨[n], .cons (hasDigit_digitChar hr h) .nil, by simp [valueOf]⟩
    · obtain ⟨ds, h3, h4⟩ := ih (n / r) (Nat.div_lt_self (by omega) (by omega))
      refine ⟨ds ++ [n % r], forall₂_append' h3 (.cons (hasDigit_digitChar hr (Nat.mod_lt _ (by omega))) .nil), ?_⟩
      rw [valueOf_append, h4]
      simp only [valueOf, List.length_cons, List.length_nil]
      have := Nat.div_add_mod n r
      rw [Nat.mul_comm] at this
      simpa using this

theorem int32ToNumval_denotes {b : Str} {r : Nat} (hb : Radix b r) (n : Nat) :
    Denotes b (int32ToNumval n b) n := by
  obtain ⟨h2, h16⟩ := radix_le hb
  obtain ⟨ds, h3, h4⟩ := toDigits_digits h2 h16 n
  have hup : List.Forall₂ (HasDigit r) (upperStr (Nat.toDigits r n)) ds := by
    unfold upperStr
    rw [List.forall₂_map_left_iff]
    exact h3.imp fun _ _ h => hasDigit_upper (by omega) h
  have hne : Nat.toDigits r n ≠ [] := Nat.toDigits_ne_nil
  have hne' : upperStr (Nat.toDigits r n) ≠ [] := by simp [upperStr, hne]
  refine ⟨r, ds, hb, ?_, ?_, h4.symm⟩
  · cases hb <;> simp [int32ToNumval, hne, hne']
  · cases hb <;> simp only [int32ToNumval] <;> simpa using (by assumption)

end Verif
