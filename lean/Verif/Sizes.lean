import Verif.PropsAbnf
import Verif.PropsTg

/-!
# Grammars that were read are plain

No element of a grammar that `ParseABNF` returns is longer than the text it was read from, so that the transition graph of any of
its rules can be built (C61) if the text fits in memory.
-/

namespace Verif
open Spec Text Eval Props

/-- The number of characters of a string or of numerals of a num-val. -/
def elemWidth : Elem → Nat
  | .charVal _ vs => vs.length
  | .numVal _ _ es => es.length
  | _ => 0

theorem dotted_length {es : List Str} {s : Str} (h : Dotted es s) : es.length ≤ s.length + 1 := by
  induction h with
  | one s => simp
  | more s es t _ ih => simp; omega

theorem alt_width {cv : Conv} {s : Str} {a : Alt} (h : ReadsAlt cv s a) : ∀ q ∈ altReps a, elemWidth q.elem ≤ s.length := by
  refine (reads_ind (cv := cv) (P1 := fun s e => elemWidth e ≤ s.length ∧ ∀ q ∈ elemReps e, elemWidth q.elem ≤ s.length)
    (P2 := fun s r => ∀ q ∈ repReps r, elemWidth q.elem ≤ s.length)
    (P3 := fun s c => ∀ q ∈ concatReps c, elemWidth q.elem ≤ s.length) (P4 := fun s a => ∀ q ∈ altReps a, elemWidth q.elem ≤ s.length)
    ?_ ?_ ?_ ?_ ?_ ?_ ?_ ?_ ?_ ?_ ?_ ?_ ?_ ?_).2.2.2 h
  · exact fun n h => ⟨Nat.zero_le _, fun q hq => by cases hq⟩
  · exact fun g₁ s g₂ a h1 _ h2 ih => ⟨Nat.zero_le _, fun q hq => (ih q hq).trans (by simp; omega)⟩
  · exact fun g₁ s g₂ a h1 _ h2 ih => ⟨Nat.zero_le _, fun q hq => (ih q hq).trans (by simp; omega)⟩
  · exact fun n h => ⟨by simp [elemWidth]; omega, fun q hq => by cases hq⟩
  · exact fun n h _ _ => ⟨by simp [elemWidth]; omega, fun q hq => by cases hq⟩
  · exact fun n h _ _ => ⟨by simp [elemWidth]; omega, fun q hq => by cases hq⟩
  · exact fun m b es s h1 h2 h3 => ⟨by have := dotted_length h3; simp [elemWidth]; omega, fun q hq => by cases hq⟩
  · exact fun m b es s h1 h2 h3 => ⟨by simp [elemWidth], fun q hq => by cases hq⟩
  · exact fun n h => ⟨Nat.zero_le _, fun q hq => by cases hq⟩
  · intro p mn mx s e hp _ ih q hq
    rw [repReps] at hq
    rcases List.mem_cons.mp hq with rfl | hq
    · exact ih.1.trans (by simp)
    · exact (ih.2 q hq).trans (by simp)
  · intro s r _ ih q hq
    exact ih q (by simpa [concatReps] using hq)
  · intro s r gap t c _ hg h0 _ ih ih' q hq
    rcases List.mem_append.mp hq with hq | hq
    · exact (ih q hq).trans (by simp)
    · exact (ih' q hq).trans (by simp; omega)
  · intro s r _ ih q hq
    exact ih q (by simpa [altReps] using hq)
  · intro s c g₁ g₂ t a _ h1 h2 _ ih ih' q hq
    rcases List.mem_append.mp hq with hq | hq
    · exact (ih q hq).trans (by simp)
    · exact (ih' q hq).trans (by simp; omega)

theorem file_width {cv : Conv} {s : Str} {ds : List Def} (h : ReadsFile cv s ds) : ∀ d ∈ ds, ∀ q ∈ altReps d.alt, elemWidth q.elem ≤ s.length := by
  obtain ⟨h0, h⟩ := h
  clear h0
  induction h with
  | nil => simp
  | rule s d t ds h _ ih =>
    intro e he q hq
    rcases List.mem_cons.mp he with rfl | he
    · cases h with
      | define n g₁ g₂ s a ws nl h1 h2 h3 h4 h5 h6 => exact (alt_width h4 q hq).trans (by simp; omega)
      | extend n g₁ g₂ s a ws nl h1 h2 h3 h4 h5 h6 => exact (alt_width h4 q hq).trans (by simp; omega)
    · exact (ih e he q hq).trans (by simp)
  | blank ws nl t ds h1 h2 _ ih => exact fun e he q hq => (ih e he q hq).trans (by simp; omega)

theorem utf8_long (s : Str) : s.length ≤ (utf8 s).length := by
  induction s with
  | nil => simp
  | cons c s ih =>
    have h1 : (utf8 (c :: s)).length = c.utf8Size + (utf8 s).length := by
      unfold utf8
      simp [String.length_utf8EncodeChar]
    have := Char.utf8Size_pos c
    rw [h1, List.length_cons]
    omega

/-- No element of a grammar that was read is longer than its text. -/
theorem parsed_width (sched : Sched NodeKey) (hf : sched.Fair) (opts : List ABNFOption) (inp : Bytes) (g : Grammar)
    (hrc : (processOptions opts).redefineCore = false) (h : parseABNF sched inp opts = .ok g) :
    ∀ q ∈ rulesReps g.rules, elemWidth q.elem ≤ inp.length := by
  by_cases ht : ∃ s ds, inp = utf8 s ∧ ReadsFile rfc s ds
  · obtain ⟨s, ds, rfl, hr⟩ := ht
    obtain ⟨ds', hr'⟩ := file_any (cv' := code) hr
    rw [parseABNF_reads sched hf opts s ds' hr', outcome_ok hr' (.inl hrc)] at h
    obtain ⟨_, hg, _⟩ := h
    intro q hq
    obtain ⟨r, hr, hq⟩ := List.mem_flatMap.mp hq
    rw [hg] at hr
    obtain ⟨d, hd, rfl⟩ := List.mem_map.mp hr
    rw [altReps_flat] at hq
    obtain ⟨c, hc, hq⟩ := List.mem_flatMap.mp hq
    obtain ⟨e, he, hc⟩ := List.mem_flatMap.mp hc
    refine (file_width hr' e (List.mem_filter.mp he).1 q ?_).trans (utf8_long s)
    rw [altReps_flat]
    exact List.mem_flatMap.mpr ⟨c, hc, hq⟩
  · obtain ⟨p, hp⟩ := parseABNF_rejects sched hf opts inp ht
    rw [hp] at h
    cases h

mutual
theorem elem_full : (e : Elem) → e.written = true → elemFull e = true
  | .rulename _, _ => rfl
  | .group a, h => by
    simp only [Elem.written, Bool.and_eq_true] at h
    exact alt_full a h.2
  | .option a, h => by
    simp only [Elem.written, Bool.and_eq_true] at h
    exact alt_full a h.2
  | .charVal _ _, _ => rfl
  | .numVal _ _ _, _ => rfl
  | .proseVal _, _ => rfl
theorem concat_full : (c : List Rep) → concatWritten c = true → repsFull c = true
  | [], _ => rfl
  | ⟨mn, mx, e⟩ :: c, h => by
    simp only [concatWritten, Rep.written, Bool.and_eq_true] at h
    rw [repsFull, elem_full e h.1, concat_full c h.2]
    rfl
theorem alt_full : (a : List (List Rep)) → altWritten a = true → altFull a = true
  | [], _ => rfl
  | c :: a, h => by
    simp only [altWritten, Bool.and_eq_true] at h
    rw [altFull, concat_full c h.1.2, alt_full a h.2, h.1.1]
    rfl
end

/-- The rules of a grammar that was read from a text that fits in memory are plain. -/
theorem parsed_plain (sched : Sched NodeKey) (hf : sched.Fair) (opts : List ABNFOption) (inp : Bytes) (g : Grammar)
    (hrc : (processOptions opts).redefineCore = false) (h : parseABNF sched inp opts = .ok g) (hlen : inp.length < 2 ^ 62)
    {o : TgOpts} {name : Str} : ∀ r, Visits o g name r → Plain r := by
  intro r hr
  have hw := C80_wellformed sched hf opts inp g hrc h
  have hl := parsed_width sched hf opts inp g hrc h
  rcases List.mem_append.mp (visits_mem hr) with hm | hm
  · have h1 := hw.1 r hm
    simp only [Rule.written, Bool.and_eq_true] at h1
    refine ⟨alt_full _ h1.2, fun q hq => ?_⟩
    have := hl q (List.mem_flatMap.mpr ⟨r, hm, hq⟩)
    constructor
    · intro s vs he
      rw [he] at this
      exact lt_of_le_of_lt this hlen
    · intro b st es he
      rw [he] at this
      exact lt_of_le_of_lt this hlen
  · have hc : Core.rules.all plainb = true := by decide +kernel
    have h1 := List.all_eq_true.mp hc r hm
    simp only [plainb, Bool.and_eq_true, List.all_eq_true] at h1
    refine ⟨h1.1, fun q hq => ⟨fun s vs he => ?_, fun b st es he => ?_⟩⟩
    · have := h1.2 q hq
      rw [he] at this
      exact of_decide_eq_true this
    · have := h1.2 q hq
      rw [he] at this
      exact of_decide_eq_true this

/-- The ranges of a grammar that was read have two bounds. -/
theorem parsed_ranges (sched : Sched NodeKey) (hf : sched.Fair) (opts : List ABNFOption) (inp : Bytes) (g : Grammar)
    (hrc : (processOptions opts).redefineCore = false) (h : parseABNF sched inp opts = .ok g)
    {o : TgOpts} {name : Str} : ∀ r, Visits o g name r → ∀ q ∈ altReps r.alt, ∀ b es, q.elem = .numVal b .range es → 2 ≤ es.length := by
  intro r hr q hq b es he
  have hw := C80_wellformed sched hf opts inp g hrc h
  have hwf : TermWF q.elem := by
    rcases List.mem_append.mp (visits_mem hr) with hm | hm
    · exact numValsWF_of_written hw.1 q (List.mem_flatMap.mpr ⟨r, hm, hq⟩)
    · have hc : (rulesReps Core.rules).all (fun q => termWFb q.elem) = true := by decide +kernel
      exact termWFb_sound (List.all_eq_true.mp hc q (List.mem_flatMap.mpr ⟨r, hm, hq⟩))
  rw [he] at hwf
  match es, hwf with
  | [s, t], _ => simp

end Verif
