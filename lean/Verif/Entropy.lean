import Verif.Term
import Mathlib.Tactic.SplitIfs
import Mathlib.Tactic.Ring
import Mathlib.Tactic.NormNum
import Mathlib.Data.Int.Order.Basic

/-!
# Sources of entropy

Model of the `source`s of /repo/fuzz.go:25-109.  `int` is 64 bits wide: `wrap64` is what a sum, product or shift keeps.
-/

namespace Verif

/-- The 64-bit two's complement integer congruent to `x`. -/
def wrap64 (x : Int) : Int := Int.bmod x (2 ^ 64)

/-- A `source` (/repo/fuzz.go:31-33): what `intn(n)` returns in a state, and the next state. -/
structure Source (σ : Type) where
  intn : σ → Nat → Nat × σ

/-- The contract of `source` (/repo/fuzz.go:25-30): values in `[0, n)`. -/
def Source.InRange {σ : Type} (S : Source σ) : Prop := ∀ s n, 0 < n → (S.intn s n).1 < n

/-- One more byte (/repo/fuzz.go:58-61 and 103-106).  The low eight bits of `v<<8` are zero, so `|` adds; `&` with
`0x7fffffff` keeps the lowest 31 bits. -/
def tapePush (v : Int) (b : UInt8) : Int :=
  let v := wrap64 (v * 256) + b.toNat
  if v < 0 then v % 2 ^ 31 else v

/-- The loop finding the width (/repo/fuzz.go:47-50), for at most `fuel` rounds. -/
def tapeWidth : Nat → Int → Nat → Nat
  | 0, _, width => width
  | fuel + 1, max, width => if max > 256 then tapeWidth fuel (Int.tdiv (wrap64 (max + 255)) 256) (width + 1) else width

/-- `tapeSource` (/repo/fuzz.go:35-38). -/
structure TapeSource where
  tape : Bytes
  pos : Nat := 0

/-- The loop reading the bytes (/repo/fuzz.go:51-62). -/
def TapeSource.read : Nat → Int → TapeSource → Int × TapeSource
  | 0, v, s => (v, s)
  | k + 1, v, s =>
    match s.tape[s.pos]? with
    | some b => TapeSource.read k (tapePush v b) { s with pos := s.pos + 1 }
    | none => TapeSource.read k (tapePush v 0) s

/-- `tapeSource.intn` (/repo/fuzz.go:40-64).  Eight rounds of the first loop are enough for every `int`. -/
def TapeSource.intn (s : TapeSource) (n : Nat) : Int × TapeSource :=
  if n ≤ 1 then (0, s)
  else
    let r := TapeSource.read (tapeWidth 8 n 1) 0 s
    (Int.tmod r.1 n, r.2)

/-- `indexedSource` (/repo/fuzz.go:84-87). -/
structure IndexedSource where
  tape : Bytes
  i : Nat := 0

/-- `indexedStride` (/repo/fuzz.go:89). -/
def indexedStride : Nat := 4

/-- The loop reading a slot (/repo/fuzz.go:97-107), from offset `off` on. -/
def indexedRead (tape : Bytes) : Nat → Nat → Int → Int
  | 0, _, v => v
  | k + 1, off, v => indexedRead tape k (off + 1) (tapePush v (tape.getD off 0))

/-- `indexedSource.intn` (/repo/fuzz.go:91-109). -/
def IndexedSource.intn (s : IndexedSource) (n : Nat) : Int × IndexedSource :=
  if n ≤ 1 then (0, s)
  else (Int.tmod (indexedRead s.tape indexedStride (s.i * indexedStride) 0) n, { s with i := s.i + 1 })

/-- `randSource.intn` (/repo/fuzz.go:68-73).  `rand.Rand.Intn` returns a value of `[0, n)`, by its documentation; the
stream of values is arbitrary. -/
def randIntn (rnd : Nat → Nat) (pos n : Nat) : Nat × Nat :=
  if n ≤ 1 then (0, pos) else (rnd pos % n, pos + 1)

/-- The three sources (/repo/fuzz.go:35-109) as sources; C29 shows that no draw is negative. -/
def tapeSource : Source TapeSource := ⟨fun s n => ((s.intn n).1.toNat, (s.intn n).2)⟩
@[inherit_doc tapeSource]
def indexedSource : Source IndexedSource := ⟨fun s n => ((s.intn n).1.toNat, (s.intn n).2)⟩
/-- `randSource` (/repo/fuzz.go:66-73). -/
def randSource (rnd : Nat → Nat) : Source Nat := ⟨randIntn rnd⟩

/-! ## Reading bytes -/

theorem wrap64_eq {x : Int} (h : -2 ^ 63 ≤ x) (h' : x < 2 ^ 63) : wrap64 x = x := by
  unfold wrap64
  exact Int.bmod_eq_of_le (by norm_num; omega) (by norm_num; omega)

theorem tapePush_nonneg (v : Int) (b : UInt8) : 0 ≤ tapePush v b := by
  unfold tapePush
  simp only
  split_ifs with h
  · exact Int.emod_nonneg _ (by norm_num)
  · omega

theorem tapePush_eq {v : Int} (b : UInt8) (h : 0 ≤ v) (h' : v * 256 + 255 < 2 ^ 63) : tapePush v b = v * 256 + b.toNat := by
  unfold tapePush
  rw [wrap64_eq (by omega) (by omega)]
  simp only
  rw [if_neg (by omega)]

theorem read_nonneg (k : Nat) : ∀ (v : Int) (s : TapeSource), 0 ≤ v → 0 ≤ (TapeSource.read k v s).1 := by
  induction k with
  | zero => intro v s h; exact h
  | succ k ih =>
    intro v s h
    unfold TapeSource.read
    split <;> exact ih _ _ (tapePush_nonneg _ _)

theorem indexedRead_nonneg (tape : Bytes) (k : Nat) : ∀ (off : Nat) (v : Int), 0 ≤ v → 0 ≤ indexedRead tape k off v := by
  induction k with
  | zero => intro off v h; exact h
  | succ k ih => intro off v _; exact ih _ _ (tapePush_nonneg _ _)

theorem tmod_range {v : Int} {n : Nat} (h : 0 ≤ v) (hn : 0 < n) : 0 ≤ Int.tmod v n ∧ Int.tmod v n < n :=
  ⟨Int.tmod_nonneg _ h, Int.tmod_lt_of_pos _ (by omega)⟩

/-- The number with the given digits of base 256, most significant first. -/
def beValue : Int → Bytes → Int
  | v, [] => v
  | v, b :: bs => beValue (v * 256 + b.toNat) bs

/-- Any number below `256 ^ k` has `k` digits of base 256. -/
theorem beValue_surj (k : Nat) : ∀ (v x : Nat), v * 256 ^ k ≤ x → x < (v + 1) * 256 ^ k →
    ∃ bs : Bytes, bs.length = k ∧ beValue v bs = x := by
  induction k with
  | zero =>
    intro v x h h'
    simp only [pow_zero, Nat.mul_one] at h h'
    exact ⟨[], rfl, by unfold beValue; omega⟩
  | succ k ih =>
    intro v x h h'
    have hk : 0 < 256 ^ k := Nat.pow_pos (by norm_num)
    rw [pow_succ] at h h'
    let d := x / 256 ^ k - v * 256
    have hlo : v * 256 ≤ x / 256 ^ k := by
      rw [Nat.le_div_iff_mul_le hk]
      calc v * 256 * 256 ^ k = v * (256 ^ k * 256) := by ring
        _ ≤ x := h
    have hhi : x / 256 ^ k < (v + 1) * 256 := by
      rw [Nat.div_lt_iff_lt_mul hk]
      calc x < (v + 1) * (256 ^ k * 256) := h'
        _ = (v + 1) * 256 * 256 ^ k := by ring
    have hd : d < 256 := by omega
    have hv : v * 256 + d = x / 256 ^ k := by omega
    obtain ⟨bs, h1, h2⟩ := ih (v * 256 + d) x (by rw [hv]; exact Nat.div_mul_le_self _ _)
      (by rw [hv, ← Nat.div_lt_iff_lt_mul hk]; omega)
    refine ⟨UInt8.ofNat d :: bs, by simp [h1], ?_⟩
    rw [beValue]
    have e : (UInt8.ofNat d).toNat = d := by simp [UInt8.toNat_ofNat']; omega
    rw [e]
    push_cast at h2
    exact h2

/-- The digits seen so far never exceed the whole. -/
theorem beValue_mono (bs : Bytes) : ∀ v : Int, 0 ≤ v → v ≤ beValue v bs := by
  induction bs with
  | nil => intro v _; exact le_refl v
  | cons b bs ih =>
    intro v h
    have := ih (v * 256 + b.toNat) (by omega)
    rw [beValue]
    omega

/-- Reading digits that make a small enough number reads that number. -/
theorem read_digits (bs : Bytes) : ∀ (v : Int) (pre post : Bytes), 0 ≤ v → beValue v bs < 2 ^ 63 - 255 →
    TapeSource.read bs.length v ⟨pre ++ bs ++ post, pre.length⟩ = (beValue v bs, ⟨pre ++ bs ++ post, pre.length + bs.length⟩) := by
  induction bs with
  | nil => intro v pre post _ _; simp [TapeSource.read, beValue]
  | cons b bs ih =>
    intro v pre post hv hlt
    rw [beValue] at hlt ⊢
    have h1 := beValue_mono bs (v * 256 + b.toNat) (by omega)
    have hb := b.toNat_lt
    rw [List.length_cons, TapeSource.read]
    have e : (pre ++ b :: bs ++ post)[pre.length]? = some b := by simp
    simp only [e]
    rw [tapePush_eq b hv (by omega)]
    have := ih (v * 256 + b.toNat) (pre ++ [b]) post (by omega) hlt
    simp only [List.append_assoc, List.cons_append, List.nil_append, List.length_append, List.length_singleton] at this
    simp only [List.append_assoc, List.cons_append]
    rw [this, Nat.add_assoc, Nat.add_comm 1]

theorem indexedRead_digits (bs : Bytes) : ∀ (v : Int) (pre post : Bytes), 0 ≤ v → beValue v bs < 2 ^ 63 - 255 →
    indexedRead (pre ++ bs ++ post) bs.length pre.length v = beValue v bs := by
  induction bs with
  | nil => intro v pre post _ _; rfl
  | cons b bs ih =>
    intro v pre post hv hlt
    rw [beValue] at hlt ⊢
    have h1 := beValue_mono bs (v * 256 + b.toNat) (by omega)
    have hb := b.toNat_lt
    rw [List.length_cons, indexedRead]
    have e : (pre ++ b :: bs ++ post).getD pre.length 0 = b := by simp
    rw [e, tapePush_eq b hv (by omega)]
    have := ih (v * 256 + b.toNat) (pre ++ [b]) post (by omega) hlt
    simpa using this

theorem indexedRead_congr {t t' : Bytes} (k : Nat) : ∀ off v, (∀ j, off ≤ j → j < off + k → t.getD j 0 = t'.getD j 0) →
    indexedRead t k off v = indexedRead t' k off v := by
  induction k with
  | zero => intro off v _; rfl
  | succ k ih =>
    intro off v h
    rw [indexedRead, indexedRead, h off (Nat.le_refl _) (by omega)]
    exact ih _ _ fun j h1 h2 => h j (by omega) (by omega)

/-- The width found is enough for `n`, unless `n` is within 256 of the largest `int`. -/
theorem tapeWidth_enough (fuel : Nat) : ∀ (mx : Int) (width : Nat), 1 ≤ mx → mx ≤ 2 ^ 63 - 256 → mx ≤ 256 ^ (fuel + 1) →
    width ≤ tapeWidth fuel mx width ∧ mx ≤ 256 ^ (tapeWidth fuel mx width - width + 1) ∧ tapeWidth fuel mx width ≤ width + fuel := by
  induction fuel with
  | zero =>
    intro mx width _ _ h
    simpa [tapeWidth] using h
  | succ k ih =>
    intro mx width h1 h2 h3
    unfold tapeWidth
    split_ifs with h
    · rw [wrap64_eq (by omega) (by omega)]
      have hq : Int.tdiv (mx + 255) 256 = (mx + 255) / 256 := Int.tdiv_eq_ediv_of_nonneg (by omega)
      rw [hq]
      have hle : (mx + 255) / 256 ≤ 256 ^ (k + 1) := by
        have : mx ≤ 256 ^ (k + 1) * 256 := by rw [← pow_succ]; exact h3
        omega
      obtain ⟨i1, i2, i3⟩ := ih ((mx + 255) / 256) (width + 1) (by omega) (by omega) hle
      refine ⟨by omega, ?_, by omega⟩
      have : tapeWidth k ((mx + 255) / 256) (width + 1) - width + 1 = tapeWidth k ((mx + 255) / 256) (width + 1) - (width + 1) + 1 + 1 := by
        omega
      rw [this, pow_succ]
      omega
    · refine ⟨Nat.le_refl _, ?_, by omega⟩
      simp only [Nat.sub_self, Nat.zero_add, pow_one]
      omega

/-- Eight rounds are enough: the loop has ended by then. -/
theorem tapeWidth_done (fuel : Nat) : ∀ (mx : Int) (width : Nat), mx < 2 ^ 63 → mx ≤ 256 ^ (fuel + 1) → ∀ extra,
    tapeWidth (fuel + extra) mx width = tapeWidth fuel mx width := by
  induction fuel with
  | zero =>
    intro mx width _ h extra
    cases extra with
    | zero => rfl
    | succ e =>
      rw [Nat.zero_add, tapeWidth, tapeWidth, if_neg (by simpa using h)]
  | succ k ih =>
    intro mx width h1 h3 extra
    rw [Nat.succ_add_eq_add_succ, Nat.add_succ, tapeWidth, tapeWidth]
    split_ifs with h
    · refine ih _ _ ?_ ?_ extra
      all_goals
        by_cases ho : mx + 255 < 2 ^ 63
        · rw [wrap64_eq (by omega) ho, Int.tdiv_eq_ediv_of_nonneg (by omega)]
          have : mx ≤ 256 ^ (k + 1) * 256 := by rw [← pow_succ]; exact h3
          omega
        · have hw : wrap64 (mx + 255) = mx + 255 - 2 ^ 64 := by
            have : wrap64 (mx + 255) = wrap64 (mx + 255 - 2 ^ 64) := by
              unfold wrap64
              rw [Int.bmod_def, Int.bmod_def, show ((2 ^ 64 : Nat) : Int) = 2 ^ 64 by norm_num]
              have : (mx + 255 - 2 ^ 64) % 2 ^ 64 = (mx + 255) % 2 ^ 64 := by omega
              rw [this]
            rw [this, wrap64_eq (by omega) (by omega)]
          have hneg : Int.tdiv (wrap64 (mx + 255)) 256 ≤ 0 := by
            rw [hw]
            rw [show mx + 255 - 2 ^ 64 = -(2 ^ 64 - 255 - mx) by omega, Int.neg_tdiv]
            have := Int.tdiv_nonneg (show 0 ≤ 2 ^ 64 - 255 - mx by omega) (show (0 : Int) ≤ 256 by norm_num)
            omega
          have : (0 : Int) < 256 ^ (k + 1) := by positivity
          omega
    · rfl

end Verif
