import Verif.AbnfConv
import Verif.Print
import Mathlib.Tactic.Ring

/-!
# What can be written is what can be read, and printing writes it
-/

namespace Verif
open Spec

namespace Text

variable {cv : Conv}

theorem isAlpha_iff {c : Char} : c.isAlpha = true ↔ Letter c := by
  unfold Letter Char.isAlpha Char.isUpper Char.isLower
  simp only [Bool.or_eq_true, Bool.and_eq_true, decide_eq_true_eq, ge_iff_le, UInt32.le_iff_toNat_le]
  rfl

theorem isDigit_iff {c : Char} : c.isDigit = true ↔ Digit c := by
  unfold Digit Char.isDigit
  simp only [Bool.and_eq_true, decide_eq_true_eq, ge_iff_le, UInt32.le_iff_toNat_le]
  rfl

theorem nameOK_iff {n : Str} : nameOK n = true ↔ Name n := by
  cases n with
  | nil => simp [nameOK, Name]
  | cons c s =>
    simp only [nameOK, Name, Bool.and_eq_true, List.all_eq_true, isAlpha_iff, nameChar, Char.isAlphanum, Bool.or_eq_true,
      isDigit_iff, beq_iff_eq, or_assoc]

theorem plainChar_iff {x c : Char} : plainChar x c = true ↔ 0x20 ≤ c.toNat ∧ c.toNat ≤ 0x7E ∧ c ≠ x := by
  simp [plainChar, and_assoc]

theorem numeral_iff {b s : Str} (hb : b = ['b'] ∨ b = ['d'] ∨ b = ['x']) :
    (numeralB b s = true ∧ s.all Char.isAlphanum = true) ↔ NumeralOf b s := by
  have ha : ∀ c : Char, c.isAlphanum = true ↔ Letter c ∨ Digit c := fun c => by
    rw [Char.isAlphanum, Bool.or_eq_true, isAlpha_iff, isDigit_iff]
  have hn : ∀ c d : Char, c = d ↔ c.toNat = d.toNat := fun c d => ⟨fun h => h ▸ rfl, char_of_toNat⟩
  have key : ∀ c, ((match digitVal c with | some d => decide (d < baseRadix b) | none => false) = true ∧ c.isAlphanum = true) ↔ DigitOf b c := by
    intro c
    rw [ha]
    have hr : baseRadix ['b'] = 2 ∧ baseRadix ['d'] = 10 ∧ baseRadix ['x'] = 16 := by decide
    unfold digitVal Letter Digit
    simp only [Char.reduceToNat]
    rcases hb with rfl | rfl | rfl
    all_goals
      simp only [hr, DigitOf, Digit, hn, Char.reduceToNat]
      by_cases h1 : 48 ≤ c.toNat ∧ c.toNat ≤ 57
      · rw [if_pos h1]; simp only [decide_eq_true_eq]; omega
      · rw [if_neg h1]
        by_cases h2 : 97 ≤ c.toNat ∧ c.toNat ≤ 122
        · rw [if_pos h2]; simp only [decide_eq_true_eq]; omega
        · rw [if_neg h2]
          by_cases h3 : 65 ≤ c.toNat ∧ c.toNat ≤ 90
          · rw [if_pos h3]; simp only [decide_eq_true_eq]; omega
          · rw [if_neg h3]; simp only [Bool.false_eq_true]; omega
  unfold numeralB NumeralOf
  simp only [Bool.and_eq_true, Bool.or_eq_true, beq_iff_eq, Bool.not_eq_true', List.isEmpty_eq_false_iff, List.all_eq_true]
  constructor
  · rintro ⟨⟨⟨_, h1⟩, h2⟩, h3⟩
    exact ⟨h1, fun c hc => (key c).mp ⟨h2 c hc, h3 c hc⟩⟩
  · rintro ⟨h1, h2⟩
    refine ⟨⟨⟨?_, h1⟩, fun c hc => ((key c).mpr (h2 c hc)).1⟩, fun c hc => ((key c).mpr (h2 c hc)).2⟩
    rcases hb with rfl | rfl | rfl <;> simp

/-! ## What is read can be written -/

theorem alt_written {s : Str} {a : Alt} (h : ReadsAlt cv s a) : a ≠ [] ∧ altWritten a = true := by
  refine (reads_ind (cv := cv) (P1 := fun _ e => e.written = true) (P2 := fun _ q => q.written = true)
    (P3 := fun _ c => c ≠ [] ∧ concatWritten c = true) (P4 := fun _ a => a ≠ [] ∧ altWritten a = true)
    ?_ ?_ ?_ ?_ ?_ ?_ ?_ ?_ ?_ ?_ ?_ ?_ ?_ ?_).2.2.2 h
  · exact fun n h => nameOK_iff.mpr h
  · intro g₁ s g₂ a _ _ _ h
    simp [Elem.written, h.2, h.1]
  · intro g₁ s g₂ a _ _ _ h
    simp [Elem.written, h.2, h.1]
  · exact fun s h => List.all_eq_true.mpr fun c hc => plainChar_iff.mpr (h c hc)
  · exact fun _ s _ h => List.all_eq_true.mpr fun c hc => plainChar_iff.mpr (h c hc)
  · exact fun _ s _ h => List.all_eq_true.mpr fun c hc => plainChar_iff.mpr (h c hc)
  · intro m b es s hm hes hd
    have hb : b = ['b'] ∨ b = ['d'] ∨ b = ['x'] := by
      rcases hm with h | h | h
      · exact .inl h.2
      · exact .inr (.inl h.2)
      · exact .inr (.inr h.2)
    have hne : es ≠ [] := by cases hd <;> simp
    simp only [Elem.written, Bool.and_eq_true, Bool.or_eq_true, beq_iff_eq, List.all_eq_true, or_assoc]
    refine ⟨⟨hb, by simpa using hne⟩, fun e he => ?_⟩
    simpa using (numeral_iff hb).mpr (hes e he)
  · intro m b lo hi hm hlo hhi
    have hb : b = ['b'] ∨ b = ['d'] ∨ b = ['x'] := by
      rcases hm with h | h | h
      · exact .inl h.2
      · exact .inr (.inl h.2)
      · exact .inr (.inr h.2)
    simp only [Elem.written, Bool.and_eq_true, Bool.or_eq_true, beq_iff_eq, List.all_eq_true, or_assoc]
    refine ⟨⟨hb, rfl⟩, fun e he => ?_⟩
    have : NumeralOf b e := by
      simp only [List.mem_cons, List.not_mem_nil, or_false] at he
      rcases he with rfl | rfl <;> assumption
    simpa using (numeral_iff hb).mpr this
  · intro s h
    simp only [Elem.written, List.all_map, List.all_eq_true]
    intro c hc
    simpa using plainChar_iff.mpr (h c hc)
  · exact fun p mn mx s e _ _ h => h
  · intro s r _ h
    simp [concatWritten, h]
  · intro s r gap t c _ _ _ _ h h'
    simp [concatWritten, h, h'.2]
  · intro s c _ h
    simp [altWritten, h.1, h.2]
  · intro s c g₁ g₂ t a _ _ _ _ h h'
    simp [altWritten, h.1, h.2, h'.2]

/-- Whatever is read can be written. -/
theorem file_written {s : Str} {ds : List Def} (h : ReadsFile cv s ds) : ∀ d ∈ ds, (Rule.mk d.name d.alt).written = true := by
  obtain ⟨h0, h⟩ := h
  clear h0
  induction h with
  | nil => simp
  | rule s d t ds h _ ih =>
    intro e he
    rcases List.mem_cons.mp he with rfl | he
    · cases h with
      | define n g₁ g₂ s a ws nl h1 h2 h3 h4 h5 h6 =>
        have := alt_written h4
        simp [Rule.written, nameOK_iff.mpr h1, this.1, this.2]
      | extend n g₁ g₂ s a ws nl h1 h2 h3 h4 h5 h6 =>
        have := alt_written h4
        simp [Rule.written, nameOK_iff.mpr h1, this.1, this.2]
    · exact ih e he
  | blank ws nl t ds h1 h2 _ ih => exact ih

/-! ## What is printed is read -/

theorem decimal_digits {s : Str} {ds : List Nat} (h : List.Forall₂ (HasDigit 10) s ds) (n : Nat) :
    s.foldl (fun n c => 10 * n + (c.toNat - 0x30)) n = n * 10 ^ ds.length + valueOf 10 ds := by
  induction h generalizing n with
  | nil => simp [valueOf]
  | @cons c d s ds h _ ih =>
    have : c.toNat - 0x30 = d := by
      obtain ⟨h, h'⟩ := h
      omega
    rw [List.foldl_cons, ih, this, valueOf, List.length_cons, pow_succ]
    ring

theorem decimal_itoa (n : Nat) : decimal (itoa n) = n := by
  obtain ⟨ds, h1, h2⟩ := toDigits_digits (r := 10) (by decide) (by decide) n
  have := decimal_digits h1 0
  rw [Nat.zero_mul, Nat.zero_add, h2] at this
  exact this

theorem repeat_print (mn : Nat) (mx : Option Nat) : Repeat rfc (repPrefix mn mx) mn mx := by
  have hd : ∀ n, ∀ c ∈ itoa n, Digit c := fun n c hc => isDigit_iff.mp (itoa_digit hc)
  have ex : ∀ n, Repeat rfc (itoa n) n (some n) := by
    intro n
    have := Repeat.exactly (cv := rfc) (itoa n) (itoa_ne_nil n) (hd n)
    rwa [show rfc.num (itoa n) = n from decimal_itoa n] at this
  unfold repPrefix
  split_ifs with h1 h2 h3
  · subst h2
    rw [h1]
    exact .none
  · rw [h1]
    exact ex mn
  · cases mx with
    | none =>
      have := Repeat.between (cv := rfc) (itoa mn) [] (hd mn) (by simp)
      simpa [itoa_ne_nil, show rfc.num (itoa mn) = mn from decimal_itoa mn] using this
    | some m =>
      have := Repeat.between (cv := rfc) (itoa mn) (itoa m) (hd mn) (hd m)
      simpa [itoa_ne_nil, show rfc.num (itoa mn) = mn from decimal_itoa mn, show rfc.num (itoa m) = m from decimal_itoa m] using this
  · have h3 : mn = 0 := by simpa using h3
    subst h3
    cases mx with
    | none =>
      have := Repeat.between (cv := rfc) [] [] (by simp) (by simp)
      simpa using this
    | some m =>
      have := Repeat.between (cv := rfc) [] (itoa m) (by simp) (hd m)
      simpa [itoa_ne_nil, show rfc.num (itoa m) = m from decimal_itoa m] using this

theorem gap_space : Gap [' '] := .cons [' '] [] (.wsp ' ' (.inl rfl)) .nil

theorem dotted_join : ∀ es : List Str, es ≠ [] → Dotted es (joinWith ['.'] es)
  | [], h => absurd rfl h
  | [s], _ => .one s
  | s :: t :: es, _ => by
    have := Dotted.more s _ _ (dotted_join (t :: es) (by simp))
    simpa [joinWith] using this

mutual
theorem elem_print : ∀ e : Elem, e.written = true → ReadsElem rfc e.str e.uncased
  | .rulename n, h => .rulename n (nameOK_iff.mp h)
  | .group a, h => by
    simp only [Elem.written, Bool.and_eq_true, Bool.not_eq_true', List.isEmpty_eq_false_iff] at h
    have := ReadsElem.group [] _ [] _ .nil (alt_print a h.1 h.2) .nil
    simpa [Elem.str, Elem.uncased] using this
  | .option a, h => by
    simp only [Elem.written, Bool.and_eq_true, Bool.not_eq_true', List.isEmpty_eq_false_iff] at h
    have := ReadsElem.option [] _ [] _ .nil (alt_print a h.1 h.2) .nil
    simpa [Elem.str, Elem.uncased] using this
  | .charVal b vs, h => .string vs fun c hc => plainChar_iff.mp (List.all_eq_true.mp h c hc)
  | .numVal b st es, h => by
    simp only [Elem.written, Bool.and_eq_true, Bool.or_eq_true, beq_iff_eq, List.all_eq_true, or_assoc] at h
    obtain ⟨⟨hb, hst⟩, hes⟩ := h
    have hn : ∀ e ∈ es, NumeralOf b e := fun e he => (numeral_iff hb).mp (by simpa using hes e he)
    obtain ⟨m, rfl, hm⟩ : ∃ m, b = [m] ∧ BaseLetter m b := by
      rcases hb with rfl | rfl | rfl
      · exact ⟨_, rfl, .inl ⟨.inl rfl, rfl⟩⟩
      · exact ⟨_, rfl, .inr (.inl ⟨.inl rfl, rfl⟩)⟩
      · exact ⟨_, rfl, .inr (.inr ⟨.inl rfl, rfl⟩)⟩
    cases st with
    | series =>
      have := ReadsElem.series (cv := rfc) m [m] es _ hm hn (dotted_join es (by simpa using hst))
      simpa [Elem.str, Elem.uncased] using this
    | range =>
      match es, hst, hn with
      | [lo, hi], _, hn =>
        have := ReadsElem.range (cv := rfc) m [m] lo hi hm (hn lo (by simp)) (hn hi (by simp))
        simpa [Elem.str, Elem.uncased, joinWith] using this
  | .proseVal vs, h => by
    simp only [Elem.written, List.all_eq_true, Bool.and_eq_true, beq_iff_eq] at h
    have hvs : vs.flatten.map (fun c => [c]) = vs := by
      induction vs with
      | nil => rfl
      | cons v vs ih =>
        obtain ⟨c, rfl⟩ := List.length_eq_one_iff.mp (h v (by simp)).1
        simp only [List.flatten_cons, List.map_append, ih fun w hw => h w (by simp [hw])]
        rfl
    have := ReadsElem.prose (cv := rfc) vs.flatten (by
      intro c hc
      obtain ⟨v, hv, hc⟩ := List.mem_flatten.mp hc
      exact plainChar_iff.mp ((h v hv).2 c hc))
    rw [hvs] at this
    simpa [Elem.str, Elem.uncased] using this
theorem rep_print : ∀ r : Rep, r.written = true → ReadsRep rfc r.str r.uncased
  | ⟨mn, mx, e⟩, h => .mk _ mn mx _ _ (repeat_print mn mx) (elem_print e h)
theorem concat_print : ∀ c : List Rep, c ≠ [] → concatWritten c = true → ReadsConcat rfc (concatStr c) (concatUncased c)
  | [], h, _ => absurd rfl h
  | [r], _, h => by
    simp only [concatWritten, Bool.and_true] at h
    exact .one _ _ (rep_print r h)
  | r :: q :: c, _, h => by
    simp only [concatWritten, Bool.and_eq_true] at h
    have := ReadsConcat.more _ _ [' '] _ _ (rep_print r h.1) gap_space (by simp)
      (concat_print (q :: c) (by simp) (by simp [concatWritten, h.2]))
    simpa [concatStr, concatUncased] using this
theorem alt_print : ∀ a : List (List Rep), a ≠ [] → altWritten a = true → ReadsAlt rfc (altStr a) (altUncased a)
  | [], h, _ => absurd rfl h
  | [c], _, h => by
    simp only [altWritten, Bool.and_true, Bool.and_eq_true, Bool.not_eq_true', List.isEmpty_eq_false_iff] at h
    exact .one _ _ (concat_print c h.1 h.2)
  | c :: d :: a, _, h => by
    simp only [altWritten, Bool.and_eq_true, Bool.not_eq_true', List.isEmpty_eq_false_iff] at h
    have := ReadsAlt.more _ _ [' '] [' '] _ _ (concat_print c h.1.1 h.1.2) gap_space gap_space
      (alt_print (d :: a) (by simp) (by simp [altWritten, h.2]))
    simpa [altStr, altUncased] using this
end

/-! ## Grammars -/

theorem gap_spaces : ∀ n, Gap (List.replicate n ' ')
  | 0 => .nil
  | n + 1 => .cons [' '] _ (.wsp ' ' (.inl rfl)) (gap_spaces n)

theorem contains_none {x : Str} {c : Char} (hc : c ∈ x) {s : Str} (h : c ∉ s) : Eval.contains x s = false := by
  rw [← Bool.not_eq_true, contains_iff]
  rintro ⟨a, b, rfl⟩
  exact h (by simp [hc])

/-- A line with a definition, as the code reads it. -/
theorem rule_line (n : Nat) (r : Rule) (hw : r.written = true) (hf : ∀ q ∈ altReps (altUncased r.alt), Fits q) :
    ReadsRule Eval.code (r.name ++ (List.replicate n ' ' ++ ([' ', '=', ' '] ++ (altStr r.alt ++ ['\r', '\n']))))
      ⟨r.name, false, altUncased r.alt⟩ := by
  simp only [Rule.written, Bool.and_eq_true, Bool.not_eq_true', List.isEmpty_eq_false_iff] at hw
  have := ReadsRule.define (cv := Eval.code) r.name (List.replicate (n + 1) ' ') [' '] _ _ [] _ (nameOK_iff.mp hw.1.1) (gap_spaces _)
    gap_space (alt_code (alt_print r.alt hw.1.2 hw.2) hf) (by simp) .plain
  have hx : Eval.code.extends_ (List.replicate (n + 1) ' ') false [' '] = false :=
    contains_none (c := '/') (by simp) (by simp [List.mem_replicate])
  rw [hx] at this
  simpa [List.replicate_succ'] using this

mutual
theorem elemReps_uncased : ∀ e : Elem, elemReps e.uncased = (elemReps e).map Rep.uncased
  | .group a => altReps_uncased a
  | .option a => altReps_uncased a
  | .charVal _ _ => rfl
  | .rulename _ => rfl
  | .numVal .. => rfl
  | .proseVal _ => rfl
theorem repReps_uncased : ∀ r : Rep, repReps r.uncased = (repReps r).map Rep.uncased
  | ⟨mn, mx, e⟩ => by
    rw [Rep.uncased, repReps, repReps, List.map_cons, Rep.uncased, elemReps_uncased e]
theorem concatReps_uncased : ∀ c : List Rep, concatReps (concatUncased c) = (concatReps c).map Rep.uncased
  | [] => rfl
  | r :: c => by
    rw [concatUncased, concatReps, concatReps, List.map_append, repReps_uncased r, concatReps_uncased c]
theorem altReps_uncased : ∀ a : List (List Rep), altReps (altUncased a) = (altReps a).map Rep.uncased
  | [] => rfl
  | c :: a => by
    rw [altUncased, altReps, altReps, List.map_append, concatReps_uncased c, altReps_uncased a]
end

mutual
theorem elem_uncased : ∀ e : Elem, (∀ p ∈ e.strings, p.1 = false) → e.uncased = e
  | .group a, h => by rw [Elem.uncased, alt_uncased a h]
  | .option a, h => by rw [Elem.uncased, alt_uncased a h]
  | .charVal b vs, h => by rw [Elem.uncased, show b = false from h (b, vs) (by simp [Elem.strings])]
  | .rulename _, _ => rfl
  | .numVal .., _ => rfl
  | .proseVal _, _ => rfl
theorem rep_uncased : ∀ r : Rep, (∀ p ∈ r.strings, p.1 = false) → r.uncased = r
  | ⟨mn, mx, e⟩, h => by rw [Rep.uncased, elem_uncased e h]
theorem concat_uncased : ∀ c : List Rep, (∀ p ∈ concatStrings c, p.1 = false) → concatUncased c = c
  | [], _ => rfl
  | r :: c, h => by
    rw [concatUncased, rep_uncased r fun p hp => h p (List.mem_append_left _ hp),
      concat_uncased c fun p hp => h p (List.mem_append_right _ hp)]
theorem alt_uncased : ∀ a : List (List Rep), (∀ p ∈ altStrings a, p.1 = false) → altUncased a = a
  | [], _ => rfl
  | c :: a, h => by
    rw [altUncased, concat_uncased c fun p hp => h p (List.mem_append_left _ hp),
      alt_uncased a fun p hp => h p (List.mem_append_right _ hp)]
end

theorem fits_uncased {a : Alt} (h : ∀ q ∈ altReps a, Fits q) : ∀ q ∈ altReps (altUncased a), Fits q := by
  rw [altReps_uncased]
  intro q hq
  obtain ⟨⟨mn, mx, e⟩, hp, rfl⟩ := List.mem_map.mp hq
  exact ⟨(h _ hp).1, (h _ hp).2⟩

/-- Counts the code reads fit in an `int`. -/
theorem alt_fits {s : Str} {a : Alt} (h : ReadsAlt Eval.code s a) : ∀ q ∈ altReps a, Fits q := by
  have hn : ∀ s, Eval.code.num s < 2 ^ 63 := by
    intro s
    have : Eval.code.num s ≤ 2 ^ 63 - 1 := Nat.min_le_right _ _
    omega
  refine (reads_ind (cv := Eval.code) (P1 := fun _ e => ∀ q ∈ elemReps e, Fits q) (P2 := fun _ r => ∀ q ∈ repReps r, Fits q)
    (P3 := fun _ c => ∀ q ∈ concatReps c, Fits q) (P4 := fun _ a => ∀ q ∈ altReps a, Fits q)
    ?_ ?_ ?_ ?_ ?_ ?_ ?_ ?_ ?_ ?_ ?_ ?_ ?_ ?_).2.2.2 h
  · exact fun n h q hq => by cases hq
  · exact fun g₁ s g₂ a h1 _ h2 ih => ih
  · exact fun g₁ s g₂ a h1 _ h2 ih => ih
  · exact fun n h q hq => by cases hq
  · exact fun n h _ _ q hq => by cases hq
  · exact fun n h _ _ q hq => by cases hq
  · exact fun m b es s h1 h2 h3 q hq => by cases hq
  · exact fun m b es s h1 h2 h3 q hq => by cases hq
  · exact fun n h q hq => by cases hq
  · intro p mn mx s e hp _ ih q hq
    rw [repReps] at hq
    rcases List.mem_cons.mp hq with rfl | hq
    · cases hp with
      | none => exact ⟨by show 1 < _; norm_num, fun m hm => by cases hm; norm_num⟩
      | exactly _ h1 h2 => exact ⟨hn _, fun m hm => by cases hm; exact hn _⟩
      | between a b h1 h2 =>
        refine ⟨?_, fun m hm => ?_⟩
        · show (if a = [] then 0 else Eval.code.num a) < _
          split_ifs
          · norm_num
          · exact hn _
        · change (if b = [] then Option.none else some (Eval.code.num b)) = some m at hm
          split_ifs at hm
          cases hm
          exact hn _
    · exact ih q hq
  · intro s r _ ih q hq
    exact ih q (by simpa [concatReps] using hq)
  · intro s r gap t c _ hg h0 _ ih ih' q hq
    rcases List.mem_append.mp hq with hq | hq
    · exact ih q hq
    · exact ih' q hq
  · intro s r _ ih q hq
    exact ih q (by simpa [altReps] using hq)
  · intro s c g₁ g₂ t a _ h1 h2 _ ih ih' q hq
    rcases List.mem_append.mp hq with hq | hq
    · exact ih q hq
    · exact ih' q hq

theorem file_fits {s : Str} {ds : List Def} (h : ReadsFile Eval.code s ds) : ∀ d ∈ ds, ∀ q ∈ altReps d.alt, Fits q := by
  obtain ⟨h0, h⟩ := h
  clear h0
  induction h with
  | nil => simp
  | rule s d t ds h _ ih =>
    intro e he
    rcases List.mem_cons.mp he with rfl | he
    · cases h with
      | define n g₁ g₂ s a ws nl h1 h2 h3 h4 h5 h6 => exact alt_fits h4
      | extend n g₁ g₂ s a ws nl h1 h2 h3 h4 h5 h6 => exact alt_fits h4
    · exact ih e he
  | blank ws nl t ds h1 h2 _ ih => exact ih

end Text

/-- `Grammar.PrettyPrint` (/repo/grammar.go:54-75), the rules in the order the map iteration visits them; the key of
a rule in the map is its name. -/
def Grammar.pretty (g : Grammar) : Str :=
  let width := g.rules.foldl (fun m r => max m (utf8 r.name).length) 0
  g.rules.flatMap fun r => r.name ++ (List.replicate (width - (utf8 r.name).length) ' ' ++ ([' ', '=', ' '] ++ (altStr r.alt ++ ['\r', '\n'])))

/-- The grammar with every string case-insensitive. -/
def Grammar.uncased (g : Grammar) : Grammar := ⟨g.rules.map fun r => ⟨r.name, altUncased r.alt⟩⟩

namespace Text

theorem lines_print (f : Rule → Nat) : ∀ rs : List Rule, (∀ r ∈ rs, r.written = true) → (∀ q ∈ rulesReps rs, Fits q) →
    ReadsLines Eval.code (rs.flatMap fun r => r.name ++ (List.replicate (f r) ' ' ++ ([' ', '=', ' '] ++ (altStr r.alt ++ ['\r', '\n']))))
      (rs.map fun r => ⟨r.name, false, altUncased r.alt⟩)
  | [], _, _ => .nil
  | r :: rs, hw, hf => by
    rw [List.flatMap_cons, List.map_cons]
    refine .rule _ _ _ _ (rule_line _ r (hw r (by simp)) (fits_uncased fun q hq => hf q ?_))
      (lines_print f rs (fun x hx => hw x (by simp [hx])) fun q hq => hf q ?_)
    · exact List.mem_flatMap.mpr ⟨r, by simp, hq⟩
    · obtain ⟨x, hx, hq⟩ := List.mem_flatMap.mp hq
      exact List.mem_flatMap.mpr ⟨x, by simp [hx], hq⟩

theorem flatMap_ne {α : Type} {f : α → Str} {l : List α} (h : l ≠ []) (hf : ∀ a, f a ≠ []) : l.flatMap f ≠ [] := by
  cases l with
  | nil => exact absurd rfl h
  | cons a l =>
    rw [List.flatMap_cons]
    intro hn
    exact hf a (List.append_eq_nil_iff.mp hn).1

theorem pretty_reads (g : Grammar) (hw : ∀ r ∈ g.rules, r.written = true) (hf : ∀ q ∈ rulesReps g.rules, Fits q) (h0 : g.rules ≠ []) :
    ReadsFile Eval.code g.pretty (g.rules.map fun r => ⟨r.name, false, altUncased r.alt⟩) :=
  ⟨flatMap_ne h0 (by simp), lines_print _ g.rules hw hf⟩

theorem str_reads (g : Grammar) (hw : ∀ r ∈ g.rules, r.written = true) (hf : ∀ q ∈ rulesReps g.rules, Fits q) (h0 : g.rules ≠ []) :
    ReadsFile Eval.code g.str (g.rules.map fun r => ⟨r.name, false, altUncased r.alt⟩) := by
  have h := lines_print (fun _ => 0) g.rules hw hf
  simp only [List.replicate_zero, List.nil_append] at h
  refine ⟨flatMap_ne h0 (by simp), ?_⟩
  unfold Grammar.str Rule.str
  simpa using h

end Text
end Verif
