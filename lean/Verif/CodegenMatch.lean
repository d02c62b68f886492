import Verif.CodegenIds

/-!
# The inlined matchers

The statements emitted for a terminal (/repo/codegen.go:205-292) do what `matchTerm` does (/repo/bsr.go:140-195).
-/

namespace Verif
namespace Cg

theorem foldByte_toNat (b : UInt8) : (foldByte b).toNat = foldRune b.toNat := by
  unfold foldByte foldRune
  have h1 : (65 ≤ b ∧ b ≤ 90) ↔ (65 ≤ b.toNat ∧ b.toNat ≤ 90) := by
    rw [UInt8.le_iff_toNat_le, UInt8.le_iff_toNat_le]; rfl
  by_cases h : 65 ≤ b.toNat ∧ b.toNat ≤ 90
  · rw [if_pos (h1.mpr h), if_pos h]
    have hs : (b - 65).toNat = b.toNat - 65 := by
      rw [UInt8.toNat_sub_of_le _ _ (by rw [UInt8.le_iff_toNat_le]; exact h.1)]; rfl
    rw [UInt8.toNat_add, hs]
    have : (97 : UInt8).toNat = 97 := rfl
    rw [this]
    omega
  · rw [if_neg (fun x => h (h1.mp x)), if_neg h]

theorem lowerChar_fold (c : Char) : (lowerChar c).toNat = foldRune c.toNat := by
  rw [lowerChar_toNat]
  unfold foldRune
  split_ifs <;> omega

theorem sensequal_iff (v c : Char) (s : Bool) :
    sensequal v c s = true ↔ (if s then v.toNat = c.toNat else foldRune v.toNat = foldRune c.toNat) := by
  unfold sensequal
  cases s
  · simp only [Bool.not_false, if_true, beq_iff_eq, Bool.false_eq_true, if_false]
    rw [← lowerChar_fold, ← lowerChar_fold]
    exact ⟨fun h => by rw [h], char_ext⟩
  · simp only [Bool.not_true, Bool.false_eq_true, if_false, beq_iff_eq, if_true]
    exact ⟨fun h => by rw [h], char_ext⟩

/-- What is decoded at a byte that is not ASCII is not ASCII. -/
theorem decode_high {x : UInt8} {t : Bytes} {c : Char} {k : Nat} (hx : ¬ x.toNat < 0x80)
    (h : decodeRune (x :: t) = some (c, k)) : ¬ c.toNat < 0x80 := by
  intro hc
  obtain ⟨rest, h1, _⟩ := decode_sound h
  have : encodeRune c = [UInt8.ofNat c.toNat] := by simp only [encodeRune]; rw [if_pos hc]
  rw [this] at h1
  simp only [List.cons_append, List.cons.injEq] at h1
  rw [h1.1] at hx
  simp only [UInt8.toNat_ofNat'] at hx
  omega

theorem foldRune_lt {n : Nat} (h : n < 0x80) : foldRune n < 0x80 := by unfold foldRune; split_ifs <;> omega
theorem foldRune_ge {n : Nat} (h : ¬ n < 0x80) : foldRune n = n := by unfold foldRune; rw [if_neg (by omega)]

/-- The test of one byte of an ASCII literal. -/
theorem ascii_step {r : Char} (hr : r.toNat ≤ 0x7f) (s : Bool) {x : UInt8} {t : Bytes} :
    (∃ c k, decodeRune (x :: t) = some (c, k) ∧ sensequal r c s = true) ↔
      (if s then x = UInt8.ofNat r.toNat else foldByte x = foldByte (UInt8.ofNat r.toNat)) := by
  have e0 : (UInt8.ofNat r.toNat).toNat = r.toNat := by simp only [UInt8.toNat_ofNat']; omega
  have key : (if s then x = UInt8.ofNat r.toNat else foldByte x = foldByte (UInt8.ofNat r.toNat)) ↔
      (if s then r.toNat = x.toNat else foldRune r.toNat = foldRune x.toNat) := by
    cases s
    · simp only [Bool.false_eq_true, if_false]
      rw [← UInt8.toNat_inj, foldByte_toNat, foldByte_toNat, e0]
      exact eq_comm
    · simp only [if_true]
      rw [← UInt8.toNat_inj, e0]
      exact eq_comm
  rw [key]
  by_cases hx : x.toNat < 0x80
  · have hd : decodeRune (x :: t) = some (Char.ofNat x.toNat, 1) := by simp only [decodeRune]; rw [if_pos hx]
    have hc : (Char.ofNat x.toNat).toNat = x.toNat := toNat_ofNat_char (by omega)
    constructor
    · rintro ⟨c, k, h1, h2⟩
      rw [hd] at h1
      simp only [Option.some.injEq, Prod.mk.injEq] at h1
      rw [sensequal_iff, ← h1.1, hc] at h2
      exact h2
    · intro h
      exact ⟨_, _, hd, (sensequal_iff _ _ _).mpr (by rw [hc]; exact h)⟩
  · constructor
    · rintro ⟨c, k, h1, h2⟩
      have hc := decode_high hx h1
      rw [sensequal_iff] at h2
      cases s
      · simp only [Bool.false_eq_true, if_false] at h2
        have := foldRune_lt (n := r.toNat) (by omega)
        rw [foldRune_ge hc] at h2
        omega
      · simp only [if_true] at h2
        omega
    · intro h
      cases s
      · simp only [Bool.false_eq_true, if_false] at h
        have := foldRune_lt (n := r.toNat) (by omega)
        rw [foldRune_ge hx] at h
        omega
      · simp only [if_true] at h
        omega

/-- Where an ASCII literal matches, it consumes as many bytes as it has characters. -/
theorem ascii_size {r : Char} (hr : r.toNat ≤ 0x7f) {s : Bool} {bs : Bytes} {c : Char} {k : Nat}
    (h : decodeRune bs = some (c, k)) (he : sensequal r c s = true) : k = 1 := by
  obtain ⟨rest, _, h2⟩ := decode_sound h
  have hc : c.toNat < 0x80 := by
    by_contra hc
    rw [sensequal_iff] at he
    cases s
    · simp only [Bool.false_eq_true, if_false] at he
      have := foldRune_lt (n := r.toNat) (by omega)
      rw [foldRune_ge hc] at he
      omega
    · simp only [if_true] at he
      omega
  rw [h2]
  simp only [encodeRune]
  rw [if_pos hc]
  rfl

theorem ascii_length {inp : Bytes} {s : Bool} {vs : List Char} (hv : ∀ r ∈ vs, r.toNat ≤ 0x7f) {i j : Nat}
    (h : matchCharVal inp s vs i = some j) : j = i + vs.length := by
  induction vs generalizing i with
  | nil => simp only [matchCharVal, Option.some.injEq] at h; simp [h]
  | cons v vs ih =>
    simp only [matchCharVal] at h
    split_ifs at h
    split at h
    · cases h
    · rename_i c k hd
      split_ifs at h with he
      simp only [Bool.not_eq_true, Bool.not_eq_false'] at he
      have hk := ascii_size (hv v (by simp)) hd (s := s) (by simpa using he)
      have := ih (fun r hr => hv r (by simp [hr])) h
      rw [List.length_cons]
      omega

section
variable {p : Prog} {inp : Bytes} {N : Nat} {sched : Sched Nat} {u : GnNode} {rc L : Nat}

theorem exec_bytes {s : Bool} (tail : List Stmt) (st : PSt) (e : Env) : ∀ (vs : List Char) (off : Nat),
    (∀ r ∈ vs, r.toNat ≤ 0x7f) → e.i + off + vs.length ≤ inp.length →
    exec p inp N sched u rc L (emitBytes s off vs ++ tail) e st =
      match matchCharVal inp s vs (e.i + off) with
      | none => .ret st
      | some _ => exec p inp N sched u rc L tail e st := by
  intro vs
  induction vs with
  | nil => intro off _ _; rfl
  | cons v vs ih =>
    intro off hv hle
    rw [List.length_cons] at hle
    have hlt : e.i + off < inp.length := by omega
    have hget : inp[e.i + off]? = some inp[e.i + off] := List.getElem?_eq_getElem hlt
    have hdrop : inp.drop (e.i + off) = inp[e.i + off] :: inp.drop (e.i + off + 1) := List.drop_eq_getElem_cons hlt
    have hv' := hv v (by simp)
    have hstep := ascii_step hv' s (x := inp[e.i + off]) (t := inp.drop (e.i + off + 1))
    rw [← hdrop] at hstep
    have ih' := ih (off + 1) (fun r hr => hv r (by simp [hr])) (by omega)
    have hm : matchCharVal inp s (v :: vs) (e.i + off) =
        if (if s then inp[e.i + off] = UInt8.ofNat v.toNat else foldByte inp[e.i + off] = foldByte (UInt8.ofNat v.toNat))
        then matchCharVal inp s vs (e.i + (off + 1)) else none := by
      simp only [matchCharVal]
      rw [if_neg (by omega)]
      by_cases hc : (if s then inp[e.i + off] = UInt8.ofNat v.toNat else foldByte inp[e.i + off] = foldByte (UInt8.ofNat v.toNat))
      · rw [if_pos hc]
        obtain ⟨c, k, h1, h2⟩ := hstep.mpr hc
        rw [h1]
        simp only [h2, Bool.not_true, Bool.false_eq_true, if_false]
        rw [ascii_size hv' h1 h2, Nat.add_assoc]
      · rw [if_neg hc]
        split
        · rfl
        · rename_i c k hd
          cases hs : sensequal v c s
          · rfl
          · exact absurd (hstep.mp ⟨c, k, hd, hs⟩) hc
    rw [hm]
    cases s
    · simp only [emitBytes, Bool.false_eq_true, if_false, List.cons_append, exec, hget]
      by_cases hc : foldByte inp[e.i + off] = foldByte (UInt8.ofNat v.toNat)
      · rw [if_neg (not_not.mpr hc), if_pos hc]; exact ih'
      · rw [if_pos hc, if_neg hc]
    · simp only [emitBytes, if_true, List.cons_append, exec, hget]
      by_cases hc : inp[e.i + off] = UInt8.ofNat v.toNat
      · rw [if_neg (not_not.mpr hc), if_pos hc]; exact ih'
      · rw [if_pos hc, if_neg hc]

theorem exec_runes {s : Bool} (tail : List Stmt) (st : PSt) : ∀ (vs : List Char) (e : Env) (j : Nat), e.j = some j →
    exec p inp N sched u rc L
        ((vs.map fun r => if s then Stmt.runeNe false r.toNat else .runeNe true (foldRune r.toNat)) ++ tail) e st =
      match matchCharVal inp s vs j with
      | none => .ret st
      | some j' => exec p inp N sched u rc L tail { e with j := some j' } st := by
  intro vs
  induction vs with
  | nil =>
    intro e j hj
    simp only [List.map_nil, List.nil_append, matchCharVal]
    rw [← hj]
  | cons v vs ih =>
    intro e j hj
    have hstmt : ∀ rest, exec p inp N sched u rc L
        ((if s then Stmt.runeNe false v.toNat else .runeNe true (foldRune v.toNat)) :: rest) e st =
        if j ≥ inp.length then .ret st
        else match decodeRune (inp.drop j) with
          | none => .ret st
          | some (c, size) =>
            if ¬ sensequal v c s = true then .ret st
            else exec p inp N sched u rc L rest { e with j := some (j + size) } st := by
      intro rest
      cases s
      · simp only [Bool.false_eq_true, if_false, exec, hj, if_true]
        split_ifs
        · rfl
        · cases decodeRune (inp.drop j) with
          | none => rfl
          | some q =>
            obtain ⟨c, size⟩ := q
            simp only
            have := sensequal_iff v c false
            simp only [Bool.false_eq_true, if_false] at this
            by_cases h : foldRune v.toNat = foldRune c.toNat
            · rw [if_neg (not_not.mpr h.symm), if_neg (not_not.mpr (this.mpr h))]
            · rw [if_pos (fun x => h x.symm), if_pos (fun x => h (this.mp x))]
      · simp only [if_true, exec, hj, Bool.false_eq_true, if_false]
        split_ifs
        · rfl
        · cases decodeRune (inp.drop j) with
          | none => rfl
          | some q =>
            obtain ⟨c, size⟩ := q
            simp only
            have := sensequal_iff v c true
            simp only [if_true] at this
            by_cases h : v.toNat = c.toNat
            · rw [if_neg (not_not.mpr h.symm), if_neg (not_not.mpr (this.mpr h))]
            · rw [if_pos (fun x => h x.symm), if_pos (fun x => h (this.mp x))]
    rw [List.map_cons, List.cons_append, hstmt]
    simp only [matchCharVal]
    by_cases h1 : j ≥ inp.length
    · rw [if_pos h1, if_pos h1]
    · rw [if_neg h1, if_neg h1]
      cases hd : decodeRune (inp.drop j) with
      | none => rfl
      | some q =>
        obtain ⟨c, size⟩ := q
        simp only
        cases hs : sensequal v c s
        · simp
        · simp only [not_true_eq_false, if_false, Bool.not_true, Bool.false_eq_true]
          exact ih { e with j := some (j + size) } (j + size) rfl

theorem exec_charVal {s : Bool} {vs : List Char} (tail : List Stmt) (st : PSt) {i : Nat} (hi : i ≤ inp.length) :
    exec p inp N sched u rc L (emitCharVal s vs ++ tail) { i := i } st =
      match matchCharVal inp s vs i with
      | none => .ret st
      | some j => exec p inp N sched u rc L tail { i := i, j := some j } st := by
  unfold emitCharVal
  by_cases ha : (vs.all fun r => decide (r.toNat ≤ 0x7f)) = true
  · rw [if_pos ha]
    have hv : ∀ r ∈ vs, r.toNat ≤ 0x7f := by simpa using ha
    rw [List.cons_append, List.append_assoc]
    show (if i + vs.length > inp.length then _ else _) = _
    by_cases hlen : i + vs.length > inp.length
    · rw [if_pos hlen]
      cases hm : matchCharVal inp s vs i with
      | none => rfl
      | some j =>
        have h1 := ascii_length hv hm
        have h2 := (matchCharVal_bounds hi hm).2
        omega
    · rw [if_neg hlen, exec_bytes _ _ _ vs 0 hv (by simp only; omega)]
      simp only [Nat.add_zero]
      cases hm : matchCharVal inp s vs i with
      | none => rfl
      | some j =>
        rw [ascii_length hv hm]
        rfl
  · rw [if_neg ha, List.cons_append]
    show exec p inp N sched u rc L _ { i := i, j := some i } st = _
    rw [exec_runes _ _ vs _ i rfl]

theorem matchSeries_bytes {base : Str} {es : List Str} {i : Nat} (hi : i ≤ inp.length) :
    matchSeries inp base es i =
      match seriesBytes base es with
      | none => none
      | some bs => if i + bs.length > inp.length ∨ (inp.drop i).take bs.length ≠ bs then none else some (i + bs.length) := by
  induction es generalizing i with
  | nil =>
    simp only [matchSeries, seriesBytes, List.length_nil, Nat.add_zero, List.take_zero, ne_eq, not_true_eq_false, or_false]
    rw [if_neg (by omega)]
  | cons x es ih =>
    simp only [matchSeries, seriesBytes]
    by_cases hv : (!validRune (numvalToRune x base)) = true
    · rw [if_pos hv, if_pos hv]
    · rw [if_neg hv, if_neg hv]
      set str := encodeRune (Char.ofNat (numvalToRune x base)) with hstr
      by_cases hc : i + str.length > inp.length ∨ str ≠ (inp.drop i).take str.length
      · rw [if_pos hc]
        cases seriesBytes base es with
        | none => rfl
        | some bs =>
          simp only [Option.map_some]
          rw [if_pos]
          rw [List.length_append]
          rcases hc with hc | hc
          · left; omega
          · right
            intro h
            apply hc
            have := congrArg (List.take str.length) h
            rw [List.take_take, List.take_left, Nat.min_eq_left (by omega)] at this
            exact this.symm
      · rw [if_neg hc]
        push Not at hc
        obtain ⟨h1, h2⟩ := hc
        rw [ih (by omega)]
        cases seriesBytes base es with
        | none => rfl
        | some bs =>
          simp only [Option.map_some, List.length_append]
          have hsplit : (inp.drop i).take (str.length + bs.length) = str ++ (inp.drop (i + str.length)).take bs.length := by
            rw [List.take_add, ← h2, List.drop_drop]
          have hiff : (i + str.length + bs.length > inp.length ∨ (inp.drop (i + str.length)).take bs.length ≠ bs) ↔
              (i + (str.length + bs.length) > inp.length ∨ (inp.drop i).take (str.length + bs.length) ≠ str ++ bs) := by
            rw [hsplit, Nat.add_assoc]
            simp
          by_cases hd : i + (str.length + bs.length) > inp.length ∨ (inp.drop i).take (str.length + bs.length) ≠ str ++ bs
          · rw [if_pos hd, if_pos (hiff.mpr hd)]
          · rw [if_neg hd, if_neg (fun x => hd (hiff.mp x)), Nat.add_assoc]

theorem exec_series {base : Str} {es : List Str} {ser : List Bytes} (hp : (emitSeries base es ser).2 <+: p.series)
    (tail : List Stmt) (st : PSt) {i : Nat} (hi : i ≤ inp.length) :
    exec p inp N sched u rc L ((emitSeries base es ser).1 ++ tail) { i := i } st =
      match matchSeries inp base es i with
      | none => .ret st
      | some j => exec p inp N sched u rc L tail { i := i, j := some j } st := by
  rw [matchSeries_bytes hi]
  unfold emitSeries at hp ⊢
  cases hb : seriesBytes base es with
  | none => rfl
  | some bs =>
    rw [hb] at hp
    simp only at hp ⊢
    obtain ⟨t, ht⟩ := hp
    have hk := (seriesVar_spec bs ser).2
    have hg : p.series[(seriesVar bs ser).1]? = some bs := by
      rw [← ht, List.getElem?_append_left (List.getElem?_eq_some_iff.mp hk).1, hk]
    simp only [List.cons_append, List.nil_append, exec, hg]
    by_cases hc : i + bs.length > inp.length ∨ (inp.drop i).take bs.length ≠ bs
    · rw [if_pos hc, if_pos hc]
    · rw [if_neg hc, if_neg hc]

theorem exec_match {e : Elem} {ser : List Bytes} (hp : (emitMatch e ser).2 <+: p.series)
    (tail : List Stmt) (st : PSt) {i : Nat} (hi : i ≤ inp.length) :
    ∃ dec : Nat → Option (Nat × Nat), exec p inp N sched u rc L ((emitMatch e ser).1 ++ tail) { i := i } st =
      match matchElem inp e i with
      | none => .ret st
      | some j => exec p inp N sched u rc L tail { i := i, j := some j, dec := dec j } st := by
  cases e with
  | charVal s vs => exact ⟨fun _ => none, exec_charVal _ _ hi⟩
  | numVal b status es =>
    cases status with
    | series => exact ⟨fun _ => none, exec_series hp _ _ hi⟩
    | range =>
      match es with
      | [] | [_] => exact ⟨fun _ => none, rfl⟩
      | lo :: hi' :: rest =>
        refine ⟨fun _ => (decodeRune (inp.drop i)).map fun q => (q.1.toNat, q.2), ?_⟩
        simp only [emitMatch, matchElem, matchRange, List.cons_append, List.nil_append, exec]
        by_cases h1 : i ≥ inp.length
        · rw [if_pos h1, if_pos h1]
        · rw [if_neg h1, if_neg h1, if_neg (by omega)]
          cases hd : decodeRune (inp.drop i) with
          | none => rfl
          | some q =>
            obtain ⟨c, size⟩ := q
            simp only [Option.map_some]
            by_cases h2 : numvalToRune lo b ≤ c.toNat ∧ c.toNat ≤ numvalToRune hi' b
            · rw [if_pos h2, if_neg (by omega)]
            · rw [if_neg h2, if_pos (by omega)]
  | _ => exact ⟨fun _ => none, rfl⟩

/-- The statements for a terminal or an empty symbol. -/
theorem exec_terminal {s : Sym} (hs : ∀ n, s ≠ .nt n) {next : Nat} {ser : List Bytes} (hp : (emitTerminal s next ser).2 <+: p.series)
    (st : PSt) {i : Nat} (hi : i ≤ inp.length) :
    exec p inp N sched u rc L (emitTerminal s next ser).1 { i := i } st =
      match matchSym inp s i with
      | none => .ret st
      | some j => .cont next j (record p N next (gpos u) i j st) := by
  cases s with
  | nt n => exact absurd rfl (hs n)
  | eps => rfl
  | term e =>
    obtain ⟨dec, h⟩ := exec_match (N := N) (sched := sched) (u := u) (rc := rc) (L := L) (e := e) (ser := ser) hp
      [.record next, .setI, .goto next] st hi
    show exec p inp N sched u rc L ((emitMatch e ser).1 ++ [.record next, .setI, .goto next]) { i := i } st = _
    rw [h]
    simp only [matchSym]
    cases matchElem inp e i <;> rfl

end
end Cg
end Verif
