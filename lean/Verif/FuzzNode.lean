import Verif.FuzzWalk
import Verif.TgElem
import Verif.AstExact

/-!
# What a node writes

`NodeSays` against the texts of the element.
-/

namespace Verif

open Spec

theorem upperChar_toNat (c : Char) :
    (upperChar c).toNat = if 97 ≤ c.toNat ∧ c.toNat ≤ 122 then c.toNat - 32 else c.toNat := by
  have h3 : 'a'.toNat = 97 := rfl
  have h4 : 'z'.toNat = 122 := rfl
  unfold upperChar
  rw [h3, h4]
  split_ifs with h
  · exact toNat_ofNat_char (by omega)
  · rfl

theorem isLetter_iff (c : Char) : isLetter c = true ↔ (97 ≤ c.toNat ∧ c.toNat ≤ 122) ∨ (65 ≤ c.toNat ∧ c.toNat ≤ 90) := by
  unfold isLetter
  rw [decide_eq_true_iff]
  exact Iff.rfl

theorem lowerChar_same (c : Char) : SameLetter c (lowerChar c) := by rw [sameLetter_iff, lower_lower]

/-- A letter has two cases. -/
theorem sameLetter_cases {c d : Char} (h : SameLetter c d) : d = lowerChar c ∨ d = upperChar c := by
  rcases h with rfl | ⟨h1, h2, h3⟩ | ⟨h1, h2, h3⟩
  · by_cases h : 65 ≤ c.toNat ∧ c.toNat ≤ 90
    · right
      apply Char.toNat_inj.mp
      rw [upperChar_toNat, if_neg (by omega)]
    · left
      apply Char.toNat_inj.mp
      rw [lowerChar_toNat, if_neg h]
  · left
    have h1' : 65 ≤ c.toNat := h1
    have h2' : c.toNat ≤ 90 := h2
    apply Char.toNat_inj.mp
    rw [lowerChar_toNat, if_pos ⟨h1', h2'⟩, h3]
  · right
    have h1' : 97 ≤ c.toNat := h1
    have h2' : c.toNat ≤ 122 := h2
    apply Char.toNat_inj.mp
    rw [upperChar_toNat, if_pos ⟨h1', h2'⟩]
    omega

/-- Anything else has one. -/
theorem sameLetter_other {c d : Char} (h : SameLetter c d) (hc : isLetter c = false) : d = c := by
  have hn : ¬ ((97 ≤ c.toNat ∧ c.toNat ≤ 122) ∨ (65 ≤ c.toNat ∧ c.toNat ≤ 90)) := fun h' => by
    rw [(isLetter_iff c).mpr h'] at hc
    cases hc
  rcases h with rfl | ⟨h1, h2, h3⟩ | ⟨h1, h2, h3⟩
  · rfl
  · exact absurd (.inr ⟨h1, h2⟩) hn
  · exact absurd (.inl ⟨h1, h2⟩) hn

theorem caseText_same (tpos : Nat) (vs : List Char) : ∀ bit, List.Forall₂ SameLetter vs (caseText tpos vs bit) := by
  induction vs with
  | nil => intro bit; exact .nil
  | cons c vs ih =>
    intro bit
    rw [caseText]
    by_cases h : isLetter c = true
    · rw [if_pos h]
      refine .cons ?_ (ih _)
      split_ifs
      · exact upperChar_same c
      · exact lowerChar_same c
    · rw [if_neg h]
      exact .cons (sameLetter_refl c) (ih _)

theorem caseText_all {vs ws : List Char} (h : List.Forall₂ SameLetter vs ws) :
    ∃ t, t < 2 ^ letterCount vs ∧ ∀ tpos bit, tpos >>> bit = t → caseText tpos vs bit = ws := by
  induction h with
  | nil => exact ⟨0, by simp [letterCount], fun _ _ _ => rfl⟩
  | @cons c d vs ws hcd _ ih =>
    obtain ⟨t, h1, h2⟩ := ih
    by_cases hc : isLetter c = true
    · have hcount : letterCount (c :: vs) = letterCount vs + 1 := by
        unfold letterCount
        rw [List.filter_cons_of_pos hc, List.length_cons]
      have key : ∀ b, b < 2 → (if b = 1 then upperChar c else lowerChar c) = d → ∃ t', t' < 2 ^ letterCount (c :: vs) ∧
          ∀ tpos bit, tpos >>> bit = t' → caseText tpos (c :: vs) bit = d :: ws := by
        intro b hb hd
        refine ⟨2 * t + b, by rw [hcount, pow_succ]; omega, fun tpos bit ht => ?_⟩
        rw [caseText, if_pos hc, ht, show (2 * t + b) % 2 = b by omega, hd, h2 tpos (bit + 1)]
        rw [Nat.shiftRight_add, ht]
        simp only [Nat.shiftRight_succ, Nat.shiftRight_zero]
        omega
      rcases sameLetter_cases hcd with e | e
      · exact key 0 (by omega) (by rw [if_neg (by omega)]; exact e.symm)
      · exact key 1 (by omega) (by rw [if_pos rfl]; exact e.symm)
    · have hc' : isLetter c = false := by simpa using hc
      have hcount : letterCount (c :: vs) = letterCount vs := by
        unfold letterCount
        rw [List.filter_cons_of_neg hc]
      refine ⟨t, by rw [hcount]; exact h1, fun tpos bit ht => ?_⟩
      rw [caseText, if_neg hc, h2 tpos bit ht, sameLetter_other hcd hc']

variable {g : Grammar}

/-- The walk writes only texts of the element. -/
theorem nodeSays_derives {e : Elem} (he : Emittable e) (hp : producing e = true) {w : Bytes} (h : NodeSays e w) : Derives g e w := by
  obtain ⟨i, hi, rfl⟩ := h
  cases e with
  | charVal s vs =>
    cases s with
    | true =>
      simp only [nodeEmit]
      rw [encodeAll_eq_utf8]
      exact .term _ _ (.sensitive _)
    | false =>
      simp only [nodeEmit]
      rw [encodeAll_eq_utf8]
      exact .term _ _ (.insensitive _ _ (caseText_same i vs 0))
  | numVal b st es =>
    cases st with
    | series =>
      simp only [nodeEmit]
      rw [encodeAll_eq_utf8]
      refine .term _ _ (.series _ _ _ ?_)
      rw [List.forall₂_map_right_iff]
      refine List.forall₂_same.mpr fun s hs => (series_char (he s hs)).2
    | range =>
      obtain ⟨h1, h2⟩ := range_nonempty he
      simp only [nodeEmit] at hi ⊢
      rw [if_neg (by omega)] at hi ⊢
      rw [encodeAll_eq_utf8]
      exact range_emits he (by omega) (by simp only at hi; omega)
  | _ => cases hp

/-- At most thirty letters that may be written in either case. -/
def FewLetters : Elem → Prop
  | .charVal false vs => letterCount vs ≤ 30
  | _ => True

/-- The walk can write every text of the element. -/
theorem derives_nodeSays {e : Elem} (hl : FewLetters e) (hp : producing e = true) {w : Bytes} (h : Derives g e w) : NodeSays e w := by
  cases h with
  | rule => cases hp
  | group => cases hp
  | optNone => cases hp
  | optSome => cases hp
  | term _ cs ht =>
    rw [← encodeAll_eq_utf8]
    cases ht with
    | sensitive => exact ⟨0, by simp [nodeEmit], rfl⟩
    | insensitive vs ws hw =>
      obtain ⟨t, h1, h2⟩ := caseText_all hw
      refine ⟨t, ?_, ?_⟩
      · simp only [nodeEmit]
        rw [min_eq_left hl]
        exact h1
      · simp only [nodeEmit]
        rw [h2 t 0 rfl]
    | series b es cs hc =>
      refine ⟨0, by simp [nodeEmit], ?_⟩
      simp only [nodeEmit]
      congr 1
      induction hc with
      | nil => rfl
      | @cons s c es cs h1 _ ih =>
        rw [List.map_cons, ih (by trivial) rfl]
        congr 1
        rw [numvalToRune_denotes h1]
        have := char_valid c
        rw [min_eq_left (by unfold maxInt32; omega)]
        exact runeChar_char c
    | range b s t lo hi c hs ht h1 h2 =>
      have hc := char_valid c
      have e1 : numvalToRune s b = lo := by rw [numvalToRune_denotes hs]; unfold maxInt32; omega
      have e2 : min (numvalToRune t b) maxRune = min hi maxRune := by
        rw [numvalToRune_denotes ht]; unfold maxInt32 maxRune; omega
      have hcond : ¬ (lo > maxRune ∨ lo > min hi maxRune) := by unfold maxRune; omega
      refine ⟨c.toNat - lo, ?_, ?_⟩
      · simp only [nodeEmit, List.getD_cons_zero, List.getD_cons_succ, e1, e2, if_neg hcond]
        unfold maxRune
        omega
      · simp only [nodeEmit, List.getD_cons_zero, List.getD_cons_succ, e1, e2, if_neg hcond]
        rw [show lo + (c.toNat - lo) = c.toNat by omega, runeChar_char]

theorem spells_mono {D D' : Elem → Bytes → Prop} {h : TgHeap} {outs : Pts} {P : Nat → Prop} (hP : ∀ n, P n → ∀ m ∈ h.nexts n, P m)
    (hD : ∀ n, P n → ∀ w, D (h.elem n) w → D' (h.elem n) w) {n : Nat} {w : Bytes} (hs : Spells D h outs n w) (hn : P n) :
    Spells D' h outs n w := by
  induction hs with
  | stop n w h1 h2 => exact .stop n w h1 (hD n hn w h2)
  | step n m u v h1 h2 _ ih => exact .step n m u v (hD n hn u h1) h2 (ih (hP n hn m h2))

theorem graphWord_mono {D D' : Elem → Bytes → Prop} {h : TgHeap} {f : TgFrag}
    (hD : ∀ n, ReachedFrom h f.ins n → ∀ w, D (h.elem n) w → D' (h.elem n) w) {w : Bytes} (hw : GraphWord D h f w) :
    GraphWord D' h f w := by
  rcases hw with h1 | ⟨n, h1, h2⟩
  · exact .inl h1
  · refine .inr ⟨n, h1, spells_mono (P := ReachedFrom h f.ins) (fun n hn m hm => ?_) hD h2 ⟨n, h1, .refl⟩⟩
    obtain ⟨i, h5, h6⟩ := hn
    exact ⟨i, h5, h6.tail hm⟩

end Verif
