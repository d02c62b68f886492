import Verif.Entropy

/-!
# Sources of entropy: the claims C29, C56 and C57
-/

namespace Verif.Props

/-- C29.  Every draw is in range, whatever the tape, its length, and the position on it. -/
theorem C29_range (n : Nat) (hn : 0 < n) :
    (∀ s : TapeSource, 0 ≤ (s.intn n).1 ∧ (s.intn n).1 < n) ∧
    (∀ s : IndexedSource, 0 ≤ (s.intn n).1 ∧ (s.intn n).1 < n) ∧
    ∀ rnd pos, (randIntn rnd pos n).1 < n := by
  refine ⟨fun s => ?_, fun s => ?_, fun rnd pos => ?_⟩
  · unfold TapeSource.intn
    split_ifs
    · exact ⟨le_refl _, by simpa using hn⟩
    · exact tmod_range (read_nonneg _ _ _ (le_refl _)) hn
  · unfold IndexedSource.intn
    split_ifs
    · exact ⟨le_refl _, by simpa using hn⟩
    · have h := indexedRead_nonneg s.tape indexedStride (s.i * indexedStride) 0 (Int.le_refl 0)
      simp only
      exact tmod_range h hn
  · unfold randIntn
    split_ifs
    · exact hn
    · exact Nat.mod_lt _ hn

/-- C29.  The three sources keep the contract of the interface. -/
theorem C29_sources : tapeSource.InRange ∧ indexedSource.InRange ∧ ∀ rnd, (randSource rnd).InRange := by
  refine ⟨fun s n hn => ?_, fun s n hn => ?_, fun rnd s n hn => (C29_range n hn).2.2 rnd s⟩
  · have := (C29_range n hn).1 s
    show ((s.intn n).1.toNat) < n
    omega
  · have := (C29_range n hn).2.1 s
    show ((s.intn n).1.toNat) < n
    omega

example : (TapeSource.intn ⟨[1, 2, 3], 1⟩ 1000).1 = 515 ∧ (TapeSource.intn ⟨[255, 255, 255, 255, 255, 255, 255, 255], 0⟩ (2 ^ 62)).1 = 2 ^ 31 - 1 ∧
    (IndexedSource.intn ⟨[1, 2, 3, 4, 5, 6], 1⟩ 1000).1 = 296 := by decide +kernel

/-- C56.  Every choice can be drawn: for a tape read with a cursor, up to counts of choices near the largest `int`; for
a tape read by slots, up to 2^32.  An exhausted tape draws 0. -/
theorem C56_choices (n x : Nat) (hx : x < n) :
    (n ≤ 2 ^ 63 - 256 → ∀ pre post : Bytes, ∃ bs, (TapeSource.intn ⟨pre ++ bs ++ post, pre.length⟩ n).1 = x) ∧
    (n ≤ 2 ^ 32 → ∀ i (pre post : Bytes), pre.length = 4 * i →
      ∃ bs, bs.length = 4 ∧ (n = 1 ∨ (IndexedSource.intn ⟨pre ++ bs ++ post, i⟩ n).1 = x)) ∧
    (∀ tape pos, tape.length ≤ pos → (TapeSource.intn ⟨tape, pos⟩ n).1 = 0) ∧
    ∀ tape i, tape.length ≤ 4 * i → (IndexedSource.intn ⟨tape, i⟩ n).1 = 0 := by
  have hz : tapePush 0 0 = 0 := by decide +kernel
  refine ⟨fun hn pre post => ?_, fun hn i pre post hp => ?_, fun tape pos hp => ?_, fun tape i hp => ?_⟩
  · unfold TapeSource.intn
    by_cases h1 : n ≤ 1
    · exact ⟨[], by rw [if_pos h1]; simp only; omega⟩
    · obtain ⟨w1, w2, w3⟩ := tapeWidth_enough 8 (n : Int) 1 (by omega) (by omega) (by omega)
      rw [show tapeWidth 8 n 1 - 1 + 1 = tapeWidth 8 n 1 by omega] at w2
      obtain ⟨bs, hl, hv⟩ := beValue_surj (tapeWidth 8 n 1) 0 x (by simp) (by
        simp only [Nat.zero_add, Nat.one_mul]
        have : n ≤ 256 ^ tapeWidth 8 n 1 := by exact_mod_cast w2
        omega)
      refine ⟨bs, ?_⟩
      rw [if_neg h1]
      simp only
      rw [← hl]
      have hv' : beValue 0 bs = (x : Int) := hv
      rw [read_digits bs 0 pre post (le_refl _) (by omega)]
      simp only
      rw [hv', Int.tmod_eq_of_lt (by omega) (by omega)]
  · unfold IndexedSource.intn
    obtain ⟨bs, hl, hv⟩ := beValue_surj 4 0 x (by simp) (by norm_num; omega)
    refine ⟨bs, hl, ?_⟩
    by_cases h1 : n ≤ 1
    · exact .inl (by omega)
    · right
      rw [if_neg h1]
      simp only
      have hv' : beValue 0 bs = (x : Int) := hv
      have := indexedRead_digits bs 0 pre post (le_refl _) (by omega)
      rw [hl, hp] at this
      rw [indexedStride, Nat.mul_comm i 4, this, hv', Int.tmod_eq_of_lt (by omega) (by omega)]
  · unfold TapeSource.intn
    split_ifs with h1
    · rfl
    · have key : ∀ k, TapeSource.read k 0 ⟨tape, pos⟩ = (0, ⟨tape, pos⟩) := by
        intro k
        induction k with
        | zero => rfl
        | succ k ih =>
          rw [TapeSource.read]
          have e : tape[pos]? = none := List.getElem?_eq_none hp
          simp only [e, hz]
          exact ih
      simp [key]
  · unfold IndexedSource.intn
    split_ifs with h1
    · rfl
    · have key : ∀ k off, tape.length ≤ off → indexedRead tape k off 0 = 0 := by
        intro k
        induction k with
        | zero => intro off _; rfl
        | succ k ih =>
          intro off ho
          have e : tape.getD off 0 = 0 := by rw [List.getD_eq_getElem?_getD, List.getElem?_eq_none ho]; rfl
          rw [indexedRead, e, hz]
          exact ih _ (by omega)
      simp [key indexedStride (i * indexedStride) (by unfold indexedStride; omega)]

example : (TapeSource.intn ⟨[7] ++ [3, 231] ++ [9], 1⟩ 1000).1 = 999 := by decide +kernel

/-- C57.  With stable addressing the `i`-th decision depends only on the bytes of slot `i`, and a decision moves the
source on by one slot whatever the tape: an edit of the tape outside slot `i` leaves decision `i` as it was. -/
theorem C57_stable (t t' : Bytes) (i n : Nat) :
    ((∀ j, 4 * i ≤ j → j < 4 * i + 4 → t.getD j 0 = t'.getD j 0) →
      (IndexedSource.intn ⟨t, i⟩ n).1 = (IndexedSource.intn ⟨t', i⟩ n).1) ∧
    (IndexedSource.intn ⟨t, i⟩ n).2 = ⟨t, if n ≤ 1 then i else i + 1⟩ := by
  constructor
  · intro h
    unfold IndexedSource.intn
    split_ifs
    · rfl
    · simp only
      rw [indexedRead_congr indexedStride (i * indexedStride) 0 fun j h1 h2 => h j (by unfold indexedStride at *; omega)
        (by unfold indexedStride at *; omega)]
  · unfold IndexedSource.intn
    split_ifs <;> rfl

example : (∀ j, 4 * 1 ≤ j → j < 4 * 1 + 4 → ([1, 2, 3, 4, 5, 6, 7, 8, 9] : Bytes).getD j 0 = ([0, 2, 3, 4, 5, 6, 7, 8] : Bytes).getD j 0) ∧
    (IndexedSource.intn ⟨[1, 2, 3, 4, 5, 6, 7, 8, 9], 1⟩ 100).1 = 96 ∧ (IndexedSource.intn ⟨[1, 2, 3, 4, 5, 6, 7, 8, 9], 0⟩ 100).1 = 60 := by
  refine ⟨fun j h1 h2 => ?_, by decide +kernel, by decide +kernel⟩
  obtain rfl | rfl | rfl | rfl : j = 4 ∨ j = 5 ∨ j = 6 ∨ j = 7 := by omega
  all_goals rfl

end Verif.Props
