import Verif.Generate
import Verif.RecogLemmas
import Verif.RegexBuild

/-!
# What `Generate` emits

`Emittable` says when a terminal can be written down by a generator that emits UTF-8 text.
-/

namespace Verif

open Spec

/-! ## Terminals that can be written -/

/-- The terminal has texts, and those a generator picks are among them: a series consists of characters; a range is not
empty, starts within Unicode, and if it contains surrogates then it also contains U+FFFD, which is what Go writes for
them.  Prose has no texts. -/
def Emittable : Elem → Prop
  | .numVal b .series es => ∀ s ∈ es, ∃ c : Char, Denotes b s c.toNat
  | .numVal b .range es => ∃ s t lo hi, es = [s, t] ∧ Denotes b s lo ∧ Denotes b t hi ∧ lo ≤ hi ∧ lo ≤ 0x10FFFF ∧
      (hi < 0xD800 ∨ 0xDFFF < lo ∨ 0xFFFD ≤ hi)
  | .proseVal _ => False
  | _ => True

theorem runeChar_char (c : Char) : runeChar c.toNat = c := by
  unfold runeChar
  rw [if_pos (validRune_char c)]
  exact Char.ofNat_toNat c

theorem encode_rune (r : Nat) : encodeAll [runeChar r] = utf8 [runeChar r] := encodeAll_eq_utf8 _

theorem upperChar_same (c : Char) : SameLetter c (upperChar c) := by
  rw [sameLetter_iff]
  have h1 : 'A'.toNat = 65 := rfl
  have h2 : 'Z'.toNat = 90 := rfl
  have h3 : 'a'.toNat = 97 := rfl
  have h4 : 'z'.toNat = 122 := rfl
  unfold upperChar
  split_ifs with h
  · rw [h3, h4] at h
    have e : (Char.ofNat (c.toNat - 32)).toNat = c.toNat - 32 := toNat_ofNat_char (by omega)
    unfold lowerChar
    rw [e, h1, h2, if_neg (by omega), if_pos (by omega)]
    rw [show c.toNat - 32 + 32 = c.toNat by omega, Char.ofNat_toNat]
  · rfl

/-- Any rune between the ends, clamped to Unicode, is written as a member of the range. -/
theorem range_emits {g : Grammar} {b : Str} {es : List Str} (h : Emittable (.numVal b .range es)) {v : Nat}
    (h1 : numvalToRune (es.getD 0 []) b ≤ v) (h2 : v ≤ min (numvalToRune (es.getD 1 []) b) maxRune) :
    Derives g (.numVal b .range es) (utf8 [runeChar v]) := by
  obtain ⟨s, t, lo, hi, rfl, hs, ht, hle, hlo, hsur⟩ := h
  simp only [List.getD_cons_zero, List.getD_cons_succ, numvalToRune_denotes hs, numvalToRune_denotes ht, maxInt32, maxRune] at h1 h2
  rw [derives_range hs ht]
  refine ⟨runeChar v, ?_, ?_, rfl⟩
  all_goals
    by_cases hv : validRune v = true
    · rw [runeChar_toNat hv]; omega
    · have e : (runeChar v).toNat = 0xFFFD := by
        unfold runeChar
        rw [if_neg hv]
        exact toNat_ofNat_char (by omega)
      rw [validRune_iff] at hv
      rw [e]; omega

theorem range_nonempty {b : Str} {es : List Str} (h : Emittable (.numVal b .range es)) :
    numvalToRune (es.getD 0 []) b ≤ maxRune ∧
      numvalToRune (es.getD 0 []) b ≤ min (numvalToRune (es.getD 1 []) b) maxRune := by
  obtain ⟨s, t, lo, hi, rfl, hs, ht, hle, hlo, hsur⟩ := h
  simp only [List.getD_cons_zero, List.getD_cons_succ, numvalToRune_denotes hs, numvalToRune_denotes ht, maxInt32, maxRune]
  omega

/-- The characters of a series that can be written. -/
theorem series_char {b s : Str} (h : ∃ c : Char, Denotes b s c.toNat) :
    validRune (numvalToRune s b) = true ∧ Denotes b s (runeChar (numvalToRune s b)).toNat := by
  obtain ⟨c, hc⟩ := h
  have e : numvalToRune s b = c.toNat := by
    rw [numvalToRune_denotes hc]
    have := char_valid c
    unfold maxInt32
    omega
  rw [e, runeChar_char]
  exact ⟨validRune_char c, hc⟩

/-! ## Emitting -/

theorem genChars_out (rnd : Nat → Nat) (sensitive : Bool) (vs : List Char) : ∀ st, ∃ ws,
    (genChars rnd sensitive vs st).out = st.out ++ utf8 ws ∧ Terminal (.charVal sensitive vs) ws := by
  have key : ∀ st, ∃ ws, (genChars rnd sensitive vs st).out = st.out ++ utf8 ws ∧
      List.Forall₂ (fun c d => if sensitive then c = d else SameLetter c d) vs ws := by
    induction vs with
    | nil => intro st; exact ⟨[], by simp [genChars, utf8], .nil⟩
    | cons c vs ih =>
      intro st
      unfold genChars
      cases sensitive with
      | true =>
        obtain ⟨ws, h1, h2⟩ := ih (st.emit c.toNat)
        refine ⟨c :: ws, ?_, .cons (by simp) h2⟩
        simp only [if_true]
        rw [h1, GenSt.emit, encode_rune, runeChar_char, List.append_assoc, ← utf8_append]
        rfl
      | false =>
        simp only [Bool.false_eq_true, if_false]
        obtain ⟨ws, h1, h2⟩ := ih (GenSt.emit { st with pos := st.pos + 1 } (if rnd st.pos % 2 = 0 then upperChar c else c).toNat)
        refine ⟨(if rnd st.pos % 2 = 0 then upperChar c else c) :: ws, ?_, .cons ?_ h2⟩
        · rw [h1, GenSt.emit, encode_rune, runeChar_char, List.append_assoc, ← utf8_append]
          rfl
        · show SameLetter _ _
          split_ifs
          · exact upperChar_same c
          · exact sameLetter_refl c
  intro st
  obtain ⟨ws, h1, h2⟩ := key st
  refine ⟨ws, h1, ?_⟩
  cases sensitive with
  | true =>
    simp only [if_true, List.forall₂_eq_eq_eq] at h2
    exact h2 ▸ .sensitive vs
  | false => exact .insensitive vs ws (by simpa using h2)

theorem genSeries_out (b : Str) (es : List Str) (h : ∀ s ∈ es, ∃ c : Char, Denotes b s c.toNat) : ∀ st, ∃ ws,
    (genSeries b es st).out = st.out ++ utf8 ws ∧ Terminal (.numVal b .series es) ws := by
  have key : ∀ st, ∃ ws, (genSeries b es st).out = st.out ++ utf8 ws ∧
      List.Forall₂ (fun s c => Denotes b s (Char.toNat c)) es ws := by
    induction es with
    | nil => intro st; exact ⟨[], by simp [genSeries, utf8], .nil⟩
    | cons s es ih =>
      intro st
      obtain ⟨hv, hd⟩ := series_char (h s (List.mem_cons_self ..))
      unfold genSeries
      simp only [hv, if_true]
      obtain ⟨ws, h1, h2⟩ := ih (fun s hs => h s (List.mem_cons_of_mem _ hs)) (st.emit (numvalToRune s b))
      refine ⟨runeChar (numvalToRune s b) :: ws, ?_, .cons hd h2⟩
      rw [h1, GenSt.emit, encode_rune, List.append_assoc, ← utf8_append]
      rfl
  intro st
  obtain ⟨ws, h1, h2⟩ := key st
  exact ⟨ws, h1, .series b es ws h2⟩

theorem genRange_out {g : Grammar} (rnd : Nat → Nat) (b : Str) (es : List Str) (h : Emittable (.numVal b .range es)) (st : GenSt) :
    ∃ w, (genRange rnd b es st).out = st.out ++ w ∧ Derives g (.numVal b .range es) w := by
  obtain ⟨h1, h2⟩ := range_nonempty h
  unfold genRange
  rw [if_pos ⟨h1, h2⟩]
  refine ⟨_, by rw [GenSt.emit, encode_rune], range_emits h (Nat.le_add_right _ _) ?_⟩
  have := Nat.mod_lt (rnd st.pos % 16)
    (show min (numvalToRune (es.getD 1 []) b) maxRune - numvalToRune (es.getD 0 []) b + 1 > 0 by omega)
  omega

theorem toRep_bounds {draw mn n : Nat} {mx : Option Nat} {repMax : Int} (h : toRep draw mn mx repMax = some n) :
    mn ≤ n ∧ ∀ m, mx = some m → mn ≤ m → n ≤ m := by
  have hn : ∀ d : Int, 0 ≤ Int.tmod (draw : Int) d := fun d => Int.tmod_nonneg d (Int.natCast_nonneg draw)
  unfold toRep at h
  cases mx with
  | none =>
    simp only at h
    split_ifs at h with h1
    cases h
    have := hn (repMax - mn + 1)
    exact ⟨by omega, fun m hm => by cases hm⟩
  | some m =>
    simp only at h
    split_ifs at h with h1
    cases h
    have := hn (m - mn + 1)
    refine ⟨by omega, fun m' hm hle => ?_⟩
    cases hm
    have h3 := Int.tmod_lt_of_pos (draw : Int) (b := (m : Int) - mn + 1) (by omega)
    omega

/-! ## Generating -/

section
variable {g : Grammar} {rnd : Nat → Nat} {o : GenOpts} {rec : Str → GenSt → Run GenSt} {pan fu mem : Prop}

/-- If `mem`, the output grew by something the element derives. -/
def GenPost (mem : Prop) (D : Bytes → Prop) (st st' : GenSt) : Prop :=
  mem → ∃ w, st'.out = st.out ++ w ∧ D w

/-- What is assumed of a repetition: about the rule it refers to; if `mem`, that its texts can be written; unless `pan`,
that it makes nothing panic. -/
structure GenRepOK (g : Grammar) (o : GenOpts) (rec : Str → GenSt → Run GenSt) (pan fu mem : Prop) (q : Rep) : Prop where
  call : ∀ n, q.elem = .rulename n → ∀ st, (rec n st).Sat pan fu (GenPost mem (Derives g (.rulename n)) st)
  emit : mem → Emittable q.elem ∧ ∀ m, q.max = some m → q.min ≤ m
  safe : pan ∨ ((∀ m, q.max = some m → q.min ≠ m + 1) ∧ (q.max = none → (q.min : Int) ≠ o.repMax + 1) ∧
    (∀ a, q.elem = .group a ∨ q.elem = .option a → a ≠ []))

theorem genLoop_sat {e : Elem} {step : GenSt → Run GenSt} {mn : Nat} {th : Int}
    (hstep : ∀ st, (step st).Sat pan fu (GenPost mem (Derives g e) st)) (k : Nat) : ∀ i st,
    (genLoop step mn th k i st).Sat pan fu (GenPost mem (fun w => DerivesTimes g e k w ∨ (i = 0 ∧ mn = 0 ∧ w = [])) st) := by
  induction k with
  | zero => intro i st _; exact ⟨[], by simp, .inl (.zero e)⟩
  | succ k ih =>
    intro i st
    unfold genLoop
    split_ifs with h
    · refine (hstep st).bnd fun st' h1 => (ih (i + 1) st').mono fun st'' h2 hm => ?_
      obtain ⟨u, hu, hd⟩ := h1 hm
      obtain ⟨v, hv, h3⟩ := h2 hm
      refine ⟨u ++ v, by rw [hv, hu, List.append_assoc], .inl ?_⟩
      rcases h3 with h3 | ⟨h3, _⟩
      · exact .succ e k u v hd h3
      · omega
    · intro _
      refine ⟨[], by simp, .inr ?_⟩
      unfold generateKeepGoing at h
      split_ifs at h with h1
      · exact ⟨h1.1, h1.2.1, rfl⟩
      · simp at h

mutual
theorem genPick_sat : (a : List (List Rep)) → (∀ q ∈ altReps a, GenRepOK g o rec pan fu mem q) → ∀ k st, (pan ∨ k < a.length) →
    (genPick rnd o rec a k st).Sat pan fu (GenPost mem (DerivesAlt g a) st)
  | [], _, k, st, hk => by
    rcases hk with hk | hk
    · exact hk
    · exact absurd hk (Nat.not_lt_zero _)
  | c :: a, h, 0, st, _ => by
    rw [genPick]
    refine (genReps_sat c (fun q hq => h q (by simp [altReps, hq])) st).mono fun st' h1 hm => ?_
    obtain ⟨w, hw, hd⟩ := h1 hm
    exact ⟨w, hw, derivesAlt_cons.mpr (.inl hd)⟩
  | c :: a, h, k + 1, st, hk => by
    rw [genPick]
    refine (genPick_sat a (fun q hq => h q (by simp [altReps, hq])) k st
      (hk.imp_right fun hk => by simpa using hk)).mono fun st' h1 hm => ?_
    obtain ⟨w, hw, hd⟩ := h1 hm
    exact ⟨w, hw, derivesAlt_cons.mpr (.inr hd)⟩
theorem genReps_sat : (c : List Rep) → (∀ q ∈ concatReps c, GenRepOK g o rec pan fu mem q) → ∀ st,
    (genReps rnd o rec c st).Sat pan fu (GenPost mem (DerivesConcat g c) st)
  | [], _, st => by
    intro _
    exact ⟨[], by simp, .nil⟩
  | ⟨mn, mx, e⟩ :: c, h, st => by
    have hq := h ⟨mn, mx, e⟩ (by simp [concatReps, repReps])
    rw [genReps]
    cases hn : toRep (rnd st.pos) mn mx o.repMax with
    | none =>
      rcases hq.safe with hp | ⟨h1, h2, _⟩
      · exact hp
      · exfalso
        unfold toRep at hn
        simp only at hn
        split_ifs at hn with h3
        cases mx with
        | none => exact h2 rfl (by simp only [Rep.min_mk]; simp only at h3; omega)
        | some m => exact h1 m rfl (by simp only [Rep.min_mk]; simp only at h3; omega)
    | some n =>
      obtain ⟨hb1, hb2⟩ := toRep_bounds hn
      refine (genLoop_sat (fun st => genElem_sat e mn mx (fun q hq => h q (by simp [concatReps, hq])) st) n 0 _).bnd
        fun st1 h1 => (genReps_sat c (fun q hq => h q (by simp [concatReps, hq])) st1).mono fun st2 h2 hm => ?_
      obtain ⟨u, hu, hd⟩ := h1 hm
      obtain ⟨v, hv, hd'⟩ := h2 hm
      refine ⟨u ++ v, by rw [hv, hu, List.append_assoc], .cons _ _ _ _ ?_ hd'⟩
      have hmax := (hq.emit hm).2
      simp only [Rep.max_mk, Rep.min_mk] at hmax
      rcases hd with hd | ⟨_, h0, rfl⟩
      · exact .mk mn mx e n u hb1 (fun m hm => hb2 m hm (hmax m hm)) hd
      · exact .mk mn mx e 0 [] (by omega) (fun m _ => Nat.zero_le m) (.zero e)
theorem genElem_sat : (e : Elem) → ∀ mn mx, (∀ q ∈ repReps ⟨mn, mx, e⟩, GenRepOK g o rec pan fu mem q) → ∀ st,
    (genElem rnd o rec e st).Sat pan fu (GenPost mem (Derives g e) st)
  | .rulename n, mn, mx, h, st => by
    rw [genElem]
    exact (h _ (List.mem_cons_self ..)).call n rfl st
  | .group a, mn, mx, h, st => by
    rw [genElem]
    have hp : pan ∨ rnd st.pos % a.length < a.length := (h _ (List.mem_cons_self ..)).safe.imp_right fun hs =>
      Nat.mod_lt _ (List.length_pos_iff.mpr (hs.2.2 a (.inl rfl)))
    refine (genPick_sat a (fun q hq => h q (List.mem_cons_of_mem _ hq)) _ _ hp).mono fun st' h1 hm => ?_
    obtain ⟨w, hw, hd⟩ := h1 hm
    exact ⟨w, hw, .group a w hd⟩
  | .option a, mn, mx, h, st => by
    rw [genElem]
    have hp : pan ∨ rnd (st.pos + 1) % a.length < a.length := (h _ (List.mem_cons_self ..)).safe.imp_right fun hs =>
      Nat.mod_lt _ (List.length_pos_iff.mpr (hs.2.2 a (.inr rfl)))
    split_ifs
    · refine (genPick_sat a (fun q hq => h q (List.mem_cons_of_mem _ hq)) _ _ hp).mono fun st' h1 hm => ?_
      obtain ⟨w, hw, hd⟩ := h1 hm
      exact ⟨w, hw, .optSome a w hd⟩
    · intro _
      exact ⟨[], by simp, .optNone a⟩
  | .numVal b .range es, mn, mx, h, st => fun hm => genRange_out rnd b es ((h _ (List.mem_cons_self ..)).emit hm).1 st
  | .numVal b .series es, mn, mx, h, st => fun hm => by
    obtain ⟨ws, h1, h2⟩ := genSeries_out b es ((h _ (List.mem_cons_self ..)).emit hm).1 st
    exact ⟨_, h1, .term _ _ h2⟩
  | .charVal s vs, mn, mx, h, st => fun hm => by
    obtain ⟨ws, h1, h2⟩ := genChars_out rnd s vs st
    exact ⟨_, h1, .term _ _ h2⟩
  | .proseVal v, mn, mx, h, st => fun hm => ((h _ (List.mem_cons_self ..)).emit hm).1.elim
end

theorem genAlt_sat (a : Alt) (h : ∀ q ∈ altReps a, GenRepOK g o rec pan fu mem q) (hne : pan ∨ a ≠ []) (st : GenSt) :
    (genAlt rnd o rec a st).Sat pan fu (GenPost mem (DerivesAlt g a) st) :=
  genPick_sat a h _ _ (hne.imp_right fun h => Nat.mod_lt _ (List.length_pos_iff.mpr h))

end
end Verif
