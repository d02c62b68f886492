import Verif.Term

/-! # Lemmas about numeric values -/

namespace Verif
open Spec

theorem radix_le {b : Str} {r : Nat} (h : Radix b r) : 2 ≤ r ∧ r ≤ 16 := by
  cases h <;> simp

theorem baseRadix_of {b : Str} {r : Nat} (h : Radix b r) : baseRadix b = r := by
  cases h <;> decide

theorem hasDigit_iff {r : Nat} (hr : r ≤ 36) (c : Char) (d : Nat) :
    HasDigit r c d ↔ digitVal c = some d ∧ d < r := by
  have h1 : '0'.toNat = 48 := rfl
  have h2 : '9'.toNat = 57 := rfl
  have h3 : 'a'.toNat = 97 := rfl
  have h4 : 'z'.toNat = 122 := rfl
  have h5 : 'A'.toNat = 65 := rfl
  have h6 : 'Z'.toNat = 90 := rfl
  unfold HasDigit digitVal
  rw [h1, h2, h3, h4, h5, h6]
  constructor
  · rintro ⟨h, h'⟩
    refine ⟨?_, h⟩
    split_ifs <;> (congr 1; omega)
  · rintro ⟨h, h'⟩
    refine ⟨h', ?_⟩
    split_ifs at h <;> simp at h <;> omega

theorem hasDigit_fun {r : Nat} (hr : r ≤ 36) {c : Char} {d e : Nat} (h1 : HasDigit r c d) (h2 : HasDigit r c e) :
    d = e := by
  obtain ⟨_, h1⟩ := h1
  obtain ⟨_, h2⟩ := h2
  omega

theorem forall₂_digit_fun {r : Nat} (hr : r ≤ 36) {s : Str} {ds es : List Nat} (h1 : List.Forall₂ (HasDigit r) s ds)
    (h2 : List.Forall₂ (HasDigit r) s es) : ds = es := by
  induction h1 generalizing es with
  | nil => cases h2; rfl
  | cons a _ ih => cases h2 with
    | cons b t => rw [hasDigit_fun hr a b, ih t]

theorem radix_fun {b : Str} {r q : Nat} (h1 : Radix b r) (h2 : Radix b q) : r = q := by
  rw [← baseRadix_of h1, baseRadix_of h2]

theorem denotes_fun {b s : Str} {v w : Nat} (h1 : Denotes b s v) (h2 : Denotes b s w) : v = w := by
  obtain ⟨r, ds, hr, _, h1, rfl⟩ := h1
  obtain ⟨q, es, hq, _, h2, rfl⟩ := h2
  obtain rfl := radix_fun hr hq
  rw [forall₂_digit_fun (by have := radix_le hr; omega) h1 h2]

theorem valueOf_append (r : Nat) (a b : List Nat) :
    valueOf r (a ++ b) = valueOf r a * r ^ b.length + valueOf r b := by
  induction a with
  | nil => simp [valueOf]
  | cons d a ih => simp [valueOf, ih, pow_add]; ring

theorem valueOf_lt {r : Nat} (ds : List Nat) (h : ∀ d ∈ ds, d < r) : valueOf r ds < r ^ ds.length := by
  induction ds with
  | nil => simp [valueOf]
  | cons d ds ih =>
    simp only [valueOf, List.length_cons, pow_succ]
    have h1 := ih fun x hx => h x (by simp [hx])
    have h2 : d < r := h d (by simp)
    calc d * r ^ ds.length + valueOf r ds < d * r ^ ds.length + r ^ ds.length := by omega
      _ = (d + 1) * r ^ ds.length := by ring
      _ ≤ r * r ^ ds.length := Nat.mul_le_mul_right _ h2
      _ = r ^ ds.length * r := by ring

theorem digits_lt {r : Nat} {s : Str} {ds : List Nat} (h : List.Forall₂ (HasDigit r) s ds) :
    ∀ d ∈ ds, d < r := by
  induction h with
  | nil => simp
  | cons a _ ih =>
    intro d hd
    rcases List.mem_cons.mp hd with rfl | hd
    · exact a.1
    · exact ih d hd

theorem parseUintLoop_digits {r : Nat} (hr : 1 ≤ r) (hr' : r ≤ 36) {s : Str} {ds : List Nat}
    (h : List.Forall₂ (HasDigit r) s ds) (acc : Nat) (hacc : acc < 2 ^ 64) :
    parseUintLoop r s acc =
      if acc * r ^ ds.length + valueOf r ds < 2 ^ 64 then some (acc * r ^ ds.length + valueOf r ds)
      else none := by
  induction h generalizing acc with
  | nil => simpa [parseUintLoop, valueOf] using hacc
  | @cons c d s ds hd hs ih =>
    obtain ⟨h1, h2⟩ := (hasDigit_iff hr' c d).mp hd
    have hpos : 1 ≤ r ^ ds.length := Nat.one_le_pow _ _ hr
    have he : acc * r ^ (d :: ds).length + valueOf r (d :: ds)
        = (acc * r + d) * r ^ ds.length + valueOf r ds := by
      simp only [valueOf, List.length_cons]; ring
    rw [he]
    simp only [parseUintLoop, h1, h2, if_true]
    by_cases hlt : acc * r + d < 2 ^ 64
    · rw [if_pos hlt, ih _ hlt]
    · rw [if_neg hlt, if_neg]
      have : acc * r + d ≤ (acc * r + d) * r ^ ds.length := Nat.le_mul_of_pos_right _ hpos
      omega

/-- A literal is read as its value, or as `math.MaxInt32` when the value does not fit. -/
theorem numvalToRune_denotes {b s : Str} {v : Nat} (h : Denotes b s v) :
    numvalToRune s b = min v maxInt32 := by
  obtain ⟨r, ds, hr, hne, hds, rfl⟩ := h
  obtain ⟨h2, h16⟩ := radix_le hr
  unfold numvalToRune numvalToUint64
  rw [if_neg hne, baseRadix_of hr, parseUintLoop_digits (by omega) (by omega) hds 0 (by norm_num)]
  simp only [zero_mul, zero_add]
  unfold maxInt32
  split_ifs with h
  · simp only []
    split_ifs <;> omega
  · simp only []
    omega

theorem validRune_iff (n : Nat) : validRune n = true ↔ (n < 0xD800 ∨ (0xDFFF < n ∧ n < 0x110000)) := by
  simp [validRune]

theorem validRune_char (c : Char) : validRune c.toNat = true := (validRune_iff _).mpr (char_valid c)

/-! ## Checking well-formedness of concrete grammars by evaluation -/

/-- The base marker is known and the string a non-empty string of its digits. -/
def numeralB (b s : Str) : Bool :=
  (b == ['b'] || b == ['B'] || b == ['d'] || b == ['D'] || b == ['x'] || b == ['X']) && !s.isEmpty &&
    s.all fun c => match digitVal c with | some d => d < baseRadix b | none => false

theorem numeralB_sound {b s : Str} (h : numeralB b s = true) : ∃ v, Denotes b s v := by
  unfold numeralB at h
  simp only [Bool.and_eq_true, Bool.or_eq_true, beq_iff_eq, Bool.not_eq_true', List.isEmpty_eq_false_iff,
    List.all_eq_true] at h
  obtain ⟨⟨hb, hne⟩, hd⟩ := h
  obtain ⟨r, hr⟩ : ∃ r, Radix b r := by
    rcases hb with ((((rfl | rfl) | rfl) | rfl) | rfl) | rfl
    exacts [⟨_, .bin⟩, ⟨_, .binU⟩, ⟨_, .dec⟩, ⟨_, .decU⟩, ⟨_, .hex⟩, ⟨_, .hexU⟩]
  rw [baseRadix_of hr] at hd
  have hr' := radix_le hr
  obtain ⟨ds, hds⟩ : ∃ ds, List.Forall₂ (HasDigit r) s ds := by
    clear hne
    induction s with
    | nil => exact ⟨[], .nil⟩
    | cons c s ih =>
      obtain ⟨ds, ih⟩ := ih fun x hx => hd x (by simp [hx])
      have hc := hd c (by simp)
      cases hv : digitVal c with
      | none => simp [hv] at hc
      | some d =>
        refine ⟨d :: ds, .cons ((hasDigit_iff (by omega) c d).mpr ⟨hv, ?_⟩) ih⟩
        simpa [hv] using hc
  exact ⟨_, r, ds, hr, hne, hds, rfl⟩

/-- Boolean version of `TermWF`. -/
def termWFb : Elem → Bool
  | .numVal b .series es => es.all (numeralB b)
  | .numVal b .range [s, t] => numeralB b s && numeralB b t
  | .numVal _ .range _ => false
  | _ => true

theorem termWFb_sound {e : Elem} (h : termWFb e = true) : TermWF e := by
  cases e with
  | numVal b st es =>
    cases st with
    | series =>
      intro s hs
      simp only [termWFb, List.all_eq_true] at h
      exact numeralB_sound (h s hs)
    | range =>
      match es, h with
      | [s, t], h =>
        simp only [termWFb, Bool.and_eq_true] at h
        obtain ⟨v, hv⟩ := numeralB_sound h.1
        obtain ⟨w, hw⟩ := numeralB_sound h.2
        exact ⟨s, t, v, w, rfl, hv, hw⟩
  | _ => exact trivial

theorem numValsWF_of {g : Grammar} (h : ((rulesReps g.rules).all fun r => termWFb r.elem) = true) :
    NumValsWF g := fun r hr => termWFb_sound (List.all_eq_true.mp h r hr)

end Verif
