import Verif.AstLemmas
import Verif.PropsGen

/-!
# What the costs of the AST generator mean

`Sized g e w k` is a derivation that counts the rules it passes through.  The cost of a rule is the least `|w| + k`
over its derivations, so a rule costs too much exactly when all its derivations are too large.
-/

namespace Verif

open Spec

mutual
/-- Element `e` derives `w`, passing through `k` rules. -/
inductive Sized (g : Grammar) : Elem → Bytes → Nat → Prop
  | rule (n r w k) : Resolves g n r → SizedAlt g r.alt w k → Sized g (.rulename n) w (k + 1)
  | group (a w k) : SizedAlt g a w k → Sized g (.group a) w k
  | optNone (a) : Sized g (.option a) [] 0
  | optSome (a w k) : SizedAlt g a w k → Sized g (.option a) w k
  | term (e cs) : Terminal e cs → Sized g e (utf8 cs) 0
/-- Some concatenation of the alternation derives `w`. -/
inductive SizedAlt (g : Grammar) : Alt → Bytes → Nat → Prop
  | mk (a c w k) : c ∈ a → SizedConcat g c w k → SizedAlt g a w k
/-- The repetitions derive consecutive pieces of `w`. -/
inductive SizedConcat (g : Grammar) : Concat → Bytes → Nat → Prop
  | nil : SizedConcat g [] [] 0
  | cons (r c u v k l) : SizedRep g r u k → SizedConcat g c v l → SizedConcat g (r :: c) (u ++ v) (k + l)
/-- Some number of occurrences within the bounds derives `w`. -/
inductive SizedRep (g : Grammar) : Rep → Bytes → Nat → Prop
  | mk (mn mx e n w k) : mn ≤ n → (∀ m, mx = some m → n ≤ m) → SizedTimes g e n w k → SizedRep g ⟨mn, mx, e⟩ w k
/-- Exactly `n` consecutive occurrences of `e` derive `w`. -/
inductive SizedTimes (g : Grammar) : Elem → Nat → Bytes → Nat → Prop
  | zero (e) : SizedTimes g e 0 [] 0
  | succ (e n u v k l) : Sized g e u k → SizedTimes g e n v l → SizedTimes g e (n + 1) (u ++ v) (k + l)
end

/-- Counting changes nothing. -/
theorem derives_sizedAlt {g : Grammar} {a : Alt} {w : Bytes} (h : DerivesAlt g a w) : ∃ k, SizedAlt g a w k := by
  refine DerivesAlt.rec (motive_1 := fun e w _ => ∃ k, Sized g e w k) (motive_2 := fun a w _ => ∃ k, SizedAlt g a w k)
    (motive_3 := fun c w _ => ∃ k, SizedConcat g c w k) (motive_4 := fun q w _ => ∃ k, SizedRep g q w k)
    (motive_5 := fun e n w _ => ∃ k, SizedTimes g e n w k) ?_ ?_ ?_ ?_ ?_ ?_ ?_ ?_ ?_ ?_ ?_ h
  · rintro n r w hr _ ⟨k, hk⟩; exact ⟨_, .rule n r w k hr hk⟩
  · rintro a w _ ⟨k, hk⟩; exact ⟨_, .group a w k hk⟩
  · intro a; exact ⟨_, .optNone a⟩
  · rintro a w _ ⟨k, hk⟩; exact ⟨_, .optSome a w k hk⟩
  · intro e cs h; exact ⟨_, .term e cs h⟩
  · rintro a c w hc _ ⟨k, hk⟩; exact ⟨_, .mk a c w k hc hk⟩
  · exact ⟨_, .nil⟩
  · rintro r c u v _ _ ⟨k, hk⟩ ⟨l, hl⟩; exact ⟨_, .cons r c u v k l hk hl⟩
  · rintro mn mx e n w h1 h2 _ ⟨k, hk⟩; exact ⟨_, .mk mn mx e n w k h1 h2 hk⟩
  · intro e; exact ⟨_, .zero e⟩
  · rintro e n u v _ _ ⟨k, hk⟩ ⟨l, hl⟩; exact ⟨_, .succ e n u v k l hk hl⟩

theorem sizedAlt_derives {g : Grammar} {a : Alt} {w : Bytes} {k : Nat} (h : SizedAlt g a w k) : DerivesAlt g a w := by
  refine SizedAlt.rec (motive_1 := fun e w _ _ => Derives g e w) (motive_2 := fun a w _ _ => DerivesAlt g a w)
    (motive_3 := fun c w _ _ => DerivesConcat g c w) (motive_4 := fun q w _ _ => DerivesRep g q w)
    (motive_5 := fun e n w _ _ => DerivesTimes g e n w) ?_ ?_ ?_ ?_ ?_ ?_ ?_ ?_ ?_ ?_ ?_ h
  · intro n r w k hr _ h; exact .rule n r w hr h
  · intro a w k _ h; exact .group a w h
  · intro a; exact .optNone a
  · intro a w k _ h; exact .optSome a w h
  · intro e cs h; exact .term e cs h
  · intro a c w k hc _ h; exact .mk a c w hc h
  · exact .nil
  · intro r c u v k l _ _ h1 h2; exact .cons r c u v h1 h2
  · intro mn mx e n w k h1 h2 _ h; exact .mk mn mx e n w h1 h2 h
  · intro e; exact .zero e
  · intro e n u v k l _ _ h1 h2; exact .succ e n u v h1 h2

/-! ## Lengths of terminals -/

theorem utf8Size_mono {c d : Char} (h : c.toNat ≤ d.toNat) : c.utf8Size ≤ d.utf8Size := by
  have e : ∀ x : Char, x.utf8Size = if x.toNat ≤ 0x7F then 1 else if x.toNat ≤ 0x7FF then 2 else if x.toNat ≤ 0xFFFF then 3 else 4 := by
    intro x
    unfold Char.utf8Size
    rfl
  rw [e, e]
  split_ifs <;> omega

theorem utf8_one_length (c : Char) : (utf8 [c]).length = c.utf8Size := by
  unfold utf8
  simp [String.length_utf8EncodeChar]

theorem sameLetter_size {c d : Char} (h : SameLetter c d) : c.utf8Size = d.utf8Size := by
  rcases h with rfl | ⟨h1, h2, h3⟩ | ⟨h1, h2, h3⟩
  · rfl
  · have e : ∀ x : Char, x.toNat ≤ 0x7F → x.utf8Size = 1 := fun x hx => by unfold Char.utf8Size; exact if_pos hx
    have : c.toNat ≤ 'Z'.toNat := h2
    have h4 : 'Z'.toNat = 90 := rfl
    rw [e c (by omega), e d (by omega)]
  · have e : ∀ x : Char, x.toNat ≤ 0x7F → x.utf8Size = 1 := fun x hx => by unfold Char.utf8Size; exact if_pos hx
    have : c.toNat ≤ 'z'.toNat := h2
    have h4 : 'z'.toNat = 122 := rfl
    rw [e c (by omega), e d (by omega)]

theorem utf8_cons_length (c : Char) (cs : List Char) : (utf8 (c :: cs)).length = c.utf8Size + (utf8 cs).length := by
  unfold utf8
  simp [String.length_utf8EncodeChar]

theorem runeLen_of {b s : Str} {c : Char} (h : Denotes b s c.toNat) : runeLen s b = c.utf8Size := by
  unfold runeLen
  have := char_valid c
  rw [encode_rune, numvalToRune_denotes h, min_eq_left (by unfold maxInt32; omega), runeChar_char, utf8_one_length]

/-- No text of a terminal is shorter than its cost. -/
theorem term_cost {rs : List Rule} {m : CostMap} {e : Elem} {cs : List Char} (h : Terminal e cs) : costElem rs m e ≤ (utf8 cs).length := by
  cases h with
  | sensitive vs => rw [costElem, encodeAll_eq_utf8]
  | insensitive vs ws h =>
    rw [costElem, encodeAll_eq_utf8]
    clear rs m
    induction h with
    | nil => exact Nat.le_refl _
    | cons h1 _ ih =>
      rw [utf8_cons_length, utf8_cons_length, sameLetter_size h1]
      omega
  | series b es cs h =>
    rw [costElem]
    clear rs m
    induction h with
    | nil => exact Nat.le_refl _
    | cons h1 _ ih =>
      rw [utf8_cons_length, List.map_cons, List.sum_cons, runeLen_of h1]
      omega
  | range b s t lo hi c h1 h2 h3 h4 =>
    rw [costElem, utf8_one_length]
    have hc := char_valid c
    simp only [List.getD_cons_zero]
    unfold runeLen
    rw [encode_rune, numvalToRune_denotes h1, min_eq_left (by unfold maxInt32; omega), utf8_one_length]
    unfold runeChar
    by_cases hv : validRune lo = true
    · rw [if_pos hv]
      rw [validRune_iff] at hv
      exact utf8Size_mono (by rw [toNat_ofNat_char (by omega)]; exact h3)
    · rw [if_neg hv]
      rw [validRune_iff] at hv
      have e : ∀ x : Char, x.utf8Size = if x.toNat ≤ 0x7F then 1 else if x.toNat ≤ 0x7FF then 2 else if x.toNat ≤ 0xFFFF then 3 else 4 := fun x => rfl
      have h3 : Char.utf8Size (Char.ofNat 0xFFFD) = 3 := by decide
      have : 3 ≤ c.utf8Size := by
        rw [e]
        split_ifs <;> omega
      exact le_trans (le_of_eq h3) this

/-- A terminal that can be written has a text of its cost. -/
theorem term_cheapest {g : Grammar} {rs : List Rule} {m : CostMap} {e : Elem} (he : Emittable e) (h1 : ∀ n, e ≠ .rulename n)
    (h2 : ∀ a, e ≠ .group a) (h3 : ∀ a, e ≠ .option a) : ∃ cs, Terminal e cs ∧ (utf8 cs).length = costElem rs m e := by
  cases e with
  | rulename n => exact absurd rfl (h1 n)
  | group a => exact absurd rfl (h2 a)
  | option a => exact absurd rfl (h3 a)
  | charVal s vs =>
    refine ⟨vs, ?_, by rw [costElem, encodeAll_eq_utf8]⟩
    cases s
    · exact .insensitive vs vs (List.forall₂_same.mpr fun c _ => sameLetter_refl c)
    · exact .sensitive vs
  | numVal b st es =>
    cases st with
    | series =>
      have he : ∀ s ∈ es, ∃ c : Char, Denotes b s c.toNat := he
      have key : ∃ cs, List.Forall₂ (fun s c => Denotes b s (Char.toNat c)) es cs ∧ (utf8 cs).length = (es.map fun s => runeLen s b).sum := by
        clear h1 h2 h3
        induction es with
        | nil => exact ⟨[], .nil, rfl⟩
        | cons s es ih =>
          obtain ⟨c, hc⟩ := he s (List.mem_cons_self ..)
          obtain ⟨cs, h4, h5⟩ := ih (fun s hs => he s (List.mem_cons_of_mem _ hs)) (fun s hs => he s (List.mem_cons_of_mem _ hs))
          exact ⟨c :: cs, .cons hc h4, by rw [utf8_cons_length, List.map_cons, List.sum_cons, runeLen_of hc, h5]⟩
      obtain ⟨cs, h4, h5⟩ := key
      exact ⟨cs, .series b es cs h4, by rw [costElem, h5]⟩
    | range =>
      have h4 := range_emits (g := g) he (Nat.le_refl _) (range_nonempty he).2
      exact ⟨_, (derives_term (by simp) (by simp) (by simp) _).mp h4, by rw [costElem, runeLen, encode_rune]⟩
  | proseVal v => exact he.elim

/-! ## Every derivation is at least as large as the cost -/

section
variable {g : Grammar} (hd : NamesDistinct g) (hsm : SmallMins g) {m : CostMap} (hfix : CostFix g m)
include hd hsm hfix

omit hsm in
theorem costElem_rule {n : Str} {r : Rule} (hr : Resolves g n r) :
    costElem g.rules m (.rulename n) = min (1 + (m r.name).getD 0) astUnbounded ∧ (m r.name).getD 0 = costAlt g.rules m r.alt := by
  have h := hfix.eq r (resolves_self hr)
  rw [costElem, (getRule_iff hd).mpr hr]
  simp only
  rw [h]
  exact ⟨addClamp_eq _ _, rfl⟩

theorem sized_cost {a : Alt} {w : Bytes} {k : Nat} (h : SizedAlt g a w k) (hs : ∀ q ∈ altReps a, q.min < 2 ^ 33) :
    costAlt g.rules m a ≤ w.length + k := by
  refine SizedAlt.rec
    (motive_1 := fun e w k _ => (∀ q ∈ elemReps e, q.min < 2 ^ 33) → costElem g.rules m e ≤ w.length + k)
    (motive_2 := fun a w k _ => (∀ q ∈ altReps a, q.min < 2 ^ 33) → costAlt g.rules m a ≤ w.length + k)
    (motive_3 := fun c w k _ => (∀ q ∈ concatReps c, q.min < 2 ^ 33) → costConcat g.rules m c ≤ w.length + k)
    (motive_4 := fun q w k _ => (∀ q' ∈ repReps q, q'.min < 2 ^ 33) → q.min * costElem g.rules m q.elem ≤ w.length + k)
    (motive_5 := fun e n w k _ => (∀ q ∈ elemReps e, q.min < 2 ^ 33) → n * costElem g.rules m e ≤ w.length + k)
    ?_ ?_ ?_ ?_ ?_ ?_ ?_ ?_ ?_ ?_ ?_ h hs
  · intro n r w k hr _ ih _
    obtain ⟨h1, h2⟩ := costElem_rule hd hfix hr
    have := ih (small_rule hsm hr)
    omega
  · intro a w k _ ih hs
    rw [costElem_group]
    exact ih fun q hq => hs q (by rw [elemReps]; exact hq)
  · intro a _; rw [costElem]; exact Nat.zero_le _
  · intro a w k _ _ _; rw [costElem]; exact Nat.zero_le _
  · intro e cs h _; exact term_cost h
  · intro a c w k hc _ ih hs
    have hne : a ≠ [] := by rintro rfl; cases hc
    refine (costAlt_le_iff hne _).mpr (.inr ⟨c, hc, ih fun q hq => hs q ?_⟩)
    clear ih hs hne
    induction a with
    | nil => cases hc
    | cons d a iha =>
      rw [altReps]
      rcases List.mem_cons.mp hc with rfl | hc
      · exact List.mem_append_left _ hq
      · exact List.mem_append_right _ (iha hc)
  · intro _; rw [costConcat_nil]; exact Nat.zero_le _
  · intro q c u v k l _ _ ih1 ih2 hs
    obtain ⟨mn, mx, e⟩ := q
    have h1 := ih1 fun q hq => hs q (by rw [concatReps]; exact List.mem_append_left _ hq)
    have h2 := ih2 fun q hq => hs q (by rw [concatReps]; exact List.mem_append_right _ hq)
    rw [costConcat_cons fun q hq => hs q (mem_concatReps hq), List.length_append]
    simp only [Rep.min_mk, Rep.elem_mk] at h1
    omega
  · intro mn mx e n w k h1 h2 _ ih hs
    have := ih fun q hq => hs q (by rw [repReps]; exact List.mem_cons_of_mem _ hq)
    simp only [Rep.min_mk, Rep.elem_mk]
    exact le_trans (Nat.mul_le_mul_right _ h1) this
  · intro e _; rw [Nat.zero_mul]; exact Nat.zero_le _
  · intro e n u v k l _ _ ih1 ih2 hs
    have h1 := ih1 hs
    have h2 := ih2 hs
    rw [Nat.succ_mul, List.length_append]
    omega

/-! ## Some derivation is as small as the cost -/

omit hd hsm hfix

theorem sizedTimes_rep {e : Elem} {w : Bytes} {k : Nat} (h : Sized g e w k) (n : Nat) :
    ∃ v l, SizedTimes g e n v l ∧ v.length + l = n * (w.length + k) := by
  induction n with
  | zero => exact ⟨[], 0, .zero e, by simp⟩
  | succ n ih =>
    obtain ⟨v, l, h1, h2⟩ := ih
    refine ⟨w ++ v, k + l, .succ e n w v k l h h1, ?_⟩
    rw [List.length_append, Nat.succ_mul]
    omega

/-- What is assumed of a repetition. -/
structure CheapRep (g : Grammar) (m : CostMap) (B : Nat) (q : Rep) : Prop where
  call : ∀ n, q.elem = .rulename n → costElem g.rules m (.rulename n) ≤ B →
    ∃ w k, Sized g (.rulename n) w k ∧ w.length + k ≤ costElem g.rules m (.rulename n)
  emit : Emittable q.elem ∧ (∀ u, q.max = some u → q.min ≤ u) ∧ ∀ a, q.elem = .group a → a ≠ []
  small : q.min < 2 ^ 33

variable {B : Nat} (hB : B < astUnbounded)
include hB
mutual
theorem cheapElem : (e : Elem) → ∀ mn mx, (∀ q ∈ repReps ⟨mn, mx, e⟩, CheapRep g m B q) → costElem g.rules m e ≤ B →
    ∃ w k, Sized g e w k ∧ w.length + k ≤ costElem g.rules m e
  | .rulename n, mn, mx, h, hc => (h _ (List.mem_cons_self ..)).call n rfl hc
  | .group a, mn, mx, h, hc => by
    rw [costElem_group] at hc ⊢
    obtain ⟨w, k, h1, h2⟩ := cheapAlt a (fun q hq => h q (List.mem_cons_of_mem _ hq)) ((h _ (List.mem_cons_self ..)).emit.2.2 a rfl) hc
    exact ⟨w, k, .group a w k h1, h2⟩
  | .option a, _, _, _, _ => ⟨[], 0, .optNone a, Nat.zero_le _⟩
  | .charVal s vs, mn, mx, h, _ => by
    obtain ⟨cs, h1, h2⟩ := term_cheapest (g := g) (rs := g.rules) (m := m) (h _ (List.mem_cons_self ..)).emit.1 (by simp) (by simp) (by simp)
    exact ⟨_, 0, .term _ cs h1, by rw [h2]; exact Nat.le_refl _⟩
  | .numVal b s es, mn, mx, h, _ => by
    obtain ⟨cs, h1, h2⟩ := term_cheapest (g := g) (rs := g.rules) (m := m) (h _ (List.mem_cons_self ..)).emit.1 (by simp) (by simp) (by simp)
    exact ⟨_, 0, .term _ cs h1, by rw [h2]; exact Nat.le_refl _⟩
  | .proseVal v, mn, mx, h, _ => (h _ (List.mem_cons_self ..)).emit.1.elim
theorem cheapAlt : (a : List (List Rep)) → (∀ q ∈ altReps a, CheapRep g m B q) → a ≠ [] → costAlt g.rules m a ≤ B →
    ∃ w k, SizedAlt g a w k ∧ w.length + k ≤ costAlt g.rules m a
  | [], _, h, _ => absurd rfl h
  | [c], h, _, hc => by
    have h1 := (costAlt_le_iff (rs := g.rules) (m := m) (a := [c]) (by simp) (costAlt g.rules m [c])).mp (Nat.le_refl _)
    have h2 : costConcat g.rules m c ≤ costAlt g.rules m [c] := by
      rcases h1 with h1 | ⟨d, hd, h1⟩
      · omega
      · rw [List.mem_singleton.mp hd] at h1; exact h1
    obtain ⟨w, k, h3, h4⟩ := cheapConcat c (fun q hq => h q (by rw [altReps]; exact List.mem_append_left _ hq)) (by omega)
    exact ⟨w, k, .mk _ c w k (List.mem_singleton.mpr rfl) h3, by omega⟩
  | c :: d :: a, h, _, hc => by
    have h1 := (costAlt_le_iff (rs := g.rules) (m := m) (a := c :: d :: a) (by simp) (costAlt g.rules m (c :: d :: a))).mp (Nat.le_refl _)
    rcases h1 with h1 | ⟨x, hx, h1⟩
    · omega
    · rcases List.mem_cons.mp hx with he | hx
      · rw [he] at h1
        obtain ⟨w, k, h3, h4⟩ := cheapConcat c (fun q hq => h q (by rw [altReps]; exact List.mem_append_left _ hq)) (by omega)
        exact ⟨w, k, .mk _ c w k (List.mem_cons_self ..) h3, by omega⟩
      · have h2 : costAlt g.rules m (d :: a) ≤ costAlt g.rules m (c :: d :: a) := (costAlt_le_iff (by simp) _).mpr (.inr ⟨x, hx, h1⟩)
        obtain ⟨w, k, h3, h4⟩ := cheapAlt (d :: a) (fun q hq => h q (by rw [altReps]; exact List.mem_append_right _ hq)) (by simp) (by omega)
        obtain ⟨_, y, _, _, hy, h5⟩ := h3
        exact ⟨w, k, .mk _ y w k (List.mem_cons_of_mem _ hy) h5, by omega⟩
theorem cheapConcat : (c : List Rep) → (∀ q ∈ concatReps c, CheapRep g m B q) → costConcat g.rules m c ≤ B →
    ∃ w k, SizedConcat g c w k ∧ w.length + k ≤ costConcat g.rules m c
  | [], _, _ => ⟨[], 0, .nil, Nat.zero_le _⟩
  | ⟨mn, mx, e⟩ :: c, h, hc => by
    have hcost := costConcat_cons (rs := g.rules) (m := m) (mn := mn) (mx := mx) (e := e) (c := c)
      fun q hq => (h q (mem_concatReps hq)).small
    rw [hcost] at hc ⊢
    obtain ⟨v, l, h3, h4⟩ := cheapConcat c (fun q hq => h q (by rw [concatReps]; exact List.mem_append_right _ hq)) (by omega)
    have hmax : ∀ u, mx = some u → mn ≤ u := (h ⟨mn, mx, e⟩ (by rw [concatReps, repReps]; simp)).emit.2.1
    have key : ∃ u k, SizedTimes g e mn u k ∧ u.length + k ≤ mn * costElem g.rules m e := by
      by_cases h0 : mn = 0
      · subst h0
        exact ⟨[], 0, .zero e, by simp⟩
      · have h5 : 1 * costElem g.rules m e ≤ mn * costElem g.rules m e := Nat.mul_le_mul_right _ (by omega)
        obtain ⟨w, k, h6, h7⟩ := cheapElem e mn mx (fun q hq => h q (by rw [concatReps]; exact List.mem_append_left _ hq)) (by omega)
        obtain ⟨u, j, h8, h9⟩ := sizedTimes_rep h6 mn
        exact ⟨u, j, h8, by rw [h9]; exact Nat.mul_le_mul_left _ h7⟩
    obtain ⟨u, k, h6, h7⟩ := key
    refine ⟨u ++ v, k + l, .cons _ c u v k l (.mk mn mx e mn u k (Nat.le_refl _) hmax h6) h3, ?_⟩
    rw [List.length_append]
    omega
end

end

/-- A rule of small cost has a derivation of that size. -/
theorem cheap_rule {g : Grammar} (hd : NamesDistinct g) (hsm : SmallMins g) {m : CostMap} (hfix : CostFix g m) (B : Nat)
    (hB : B < astUnbounded) : ∀ r, Resolves g r.name r → WritableReach g r → (m r.name).getD 0 ≤ B →
    (∀ r', Relation.ReflTransGen (Refers g) r r' → ∀ q ∈ altReps r'.alt, ∀ n, q.elem = .rulename n → ∃ r2, Resolves g n r2) →
    ∃ w k, SizedAlt g r.alt w k ∧ w.length + k ≤ (m r.name).getD 0 := by
  induction B using Nat.strong_induction_on with
  | _ B ih =>
    intro r hr hw hc href
    have hcost := (costElem_rule hd hfix hr).2
    have h := cheapAlt (g := g) (m := m) (B := (m r.name).getD 0) (by omega) r.alt (fun q hq => ⟨fun n hn hle => ?_, (hw r .refl).2 q hq, small_rule hsm hr q hq⟩)
      (hw r .refl).1 (by omega)
    · rwa [← hcost] at h
    · obtain ⟨r2, hr2⟩ := href r .refl q hq n hn
      have hstep : Refers g r r2 := ⟨q, hq, n, hn, hr2⟩
      obtain ⟨h1, h2⟩ := costElem_rule hd hfix hr2
      obtain ⟨w, k, h3, h4⟩ := ih ((m r2.name).getD 0) (by omega) (by omega) r2 (resolves_self hr2)
        (fun r3 h3 => hw r3 (.head hstep h3)) (Nat.le_refl _) (fun r3 h3 => href r3 (.head hstep h3))
      exact ⟨w, k + 1, .rule n r2 w k hr2 h3, by omega⟩

/-! ## The costs do not depend on the order -/

section
variable {rs : List Rule} {m m' : CostMap} {B : Nat} (hB : B < astUnbounded)
include hB
mutual
theorem agreeElem : (e : Elem) → ∀ mn mx, (∀ q ∈ repReps ⟨mn, mx, e⟩, q.min < 2 ^ 33 ∧ ∀ n, q.elem = .rulename n →
    costElem rs m (.rulename n) ≤ B → costElem rs m' (.rulename n) ≤ costElem rs m (.rulename n)) → costElem rs m e ≤ B →
    costElem rs m' e ≤ costElem rs m e
  | .rulename n, mn, mx, h, hc => (h _ (List.mem_cons_self ..)).2 n rfl hc
  | .group a, mn, mx, h, hc => by
    rw [costElem_group] at hc ⊢
    rw [costElem_group]
    exact agreeAlt a (fun q hq => h q (List.mem_cons_of_mem _ hq)) hc
  | .option a, _, _, _, _ => by rw [costElem]; exact Nat.zero_le _
  | .charVal s vs, _, _, _, _ => by rw [costElem, costElem]
  | .numVal b .series es, _, _, _, _ => by rw [costElem, costElem]
  | .numVal b .range es, _, _, _, _ => by rw [costElem, costElem]
  | .proseVal v, _, _, _, _ => by rw [costElem, costElem]
theorem agreeAlt : (a : List (List Rep)) → (∀ q ∈ altReps a, q.min < 2 ^ 33 ∧ ∀ n, q.elem = .rulename n →
    costElem rs m (.rulename n) ≤ B → costElem rs m' (.rulename n) ≤ costElem rs m (.rulename n)) → costAlt rs m a ≤ B →
    costAlt rs m' a ≤ costAlt rs m a
  | [], _, _ => by rw [costAlt_nil]; exact Nat.zero_le _
  | [c], h, hc => by
    have h1 := (costAlt_le_iff (rs := rs) (m := m) (a := [c]) (by simp) (costAlt rs m [c])).mp (Nat.le_refl _)
    rcases h1 with h1 | ⟨d, hd, h1⟩
    · omega
    · rw [List.mem_singleton.mp hd] at h1
      have := agreeConcat c (fun q hq => h q (by rw [altReps]; exact List.mem_append_left _ hq)) (by omega)
      exact (costAlt_le_iff (by simp) _).mpr (.inr ⟨c, List.mem_singleton.mpr rfl, by omega⟩)
  | c :: d :: a, h, hc => by
    have h1 := (costAlt_le_iff (rs := rs) (m := m) (a := c :: d :: a) (by simp) (costAlt rs m (c :: d :: a))).mp (Nat.le_refl _)
    rcases h1 with h1 | ⟨x, hx, h1⟩
    · omega
    · rcases List.mem_cons.mp hx with he | hx
      · rw [he] at h1
        have := agreeConcat c (fun q hq => h q (by rw [altReps]; exact List.mem_append_left _ hq)) (by omega)
        exact (costAlt_le_iff (by simp) _).mpr (.inr ⟨c, List.mem_cons_self .., by omega⟩)
      · have h2 : costAlt rs m (d :: a) ≤ costAlt rs m (c :: d :: a) := (costAlt_le_iff (by simp) _).mpr (.inr ⟨x, hx, h1⟩)
        have h3 := agreeAlt (d :: a) (fun q hq => h q (by rw [altReps]; exact List.mem_append_right _ hq)) (by omega)
        rcases (costAlt_le_iff (rs := rs) (m := m') (a := d :: a) (by simp) (costAlt rs m' (d :: a))).mp (Nat.le_refl _) with h4 | ⟨y, hy, h4⟩
        · omega
        · exact (costAlt_le_iff (by simp) _).mpr (.inr ⟨y, List.mem_cons_of_mem _ hy, by omega⟩)
theorem agreeConcat : (c : List Rep) → (∀ q ∈ concatReps c, q.min < 2 ^ 33 ∧ ∀ n, q.elem = .rulename n →
    costElem rs m (.rulename n) ≤ B → costElem rs m' (.rulename n) ≤ costElem rs m (.rulename n)) → costConcat rs m c ≤ B →
    costConcat rs m' c ≤ costConcat rs m c
  | [], _, _ => by rw [costConcat_nil]; exact Nat.zero_le _
  | ⟨mn, mx, e⟩ :: c, h, hc => by
    have hs : ∀ q ∈ (⟨mn, mx, e⟩ :: c : List Rep), q.min < 2 ^ 33 := fun q hq => (h q (mem_concatReps hq)).1
    rw [costConcat_cons hs] at hc ⊢
    rw [costConcat_cons hs]
    have h1 := agreeConcat c (fun q hq => h q (by rw [concatReps]; exact List.mem_append_right _ hq)) (by omega)
    by_cases h0 : mn = 0
    · subst h0; simp only [Nat.zero_mul, Nat.zero_add] at hc ⊢; omega
    · have h5 : 1 * costElem rs m e ≤ mn * costElem rs m e := Nat.mul_le_mul_right _ (by omega)
      have h6 := agreeElem e mn mx (fun q hq => h q (by rw [concatReps]; exact List.mem_append_left _ hq)) (by omega)
      have h7 : mn * costElem rs m' e ≤ mn * costElem rs m e := Nat.mul_le_mul_left _ h6
      omega
end
end

/-- Costs satisfying the equations are unique. -/
theorem costFix_le {g : Grammar} (hd : NamesDistinct g) (hsm : SmallMins g) {m m' : CostMap} (hfix : CostFix g m) (hfix' : CostFix g m')
    (B : Nat) : ∀ r, Resolves g r.name r → (m r.name).getD 0 ≤ B → (m' r.name).getD 0 ≤ (m r.name).getD 0 := by
  induction B using Nat.strong_induction_on with
  | _ B ih =>
    intro r hr hc
    have h1 := (costElem_rule hd hfix hr).2
    have h2 := (costElem_rule hd hfix' hr).2
    have h3 : costAlt g.rules m' r.alt ≤ astUnbounded := costAlt_le _
    by_cases hlt : (m r.name).getD 0 < astUnbounded
    · rw [h1, h2]
      refine agreeAlt (B := (m r.name).getD 0) hlt r.alt (fun q hq => ⟨small_rule hsm hr q hq, fun n hn hle => ?_⟩) (by omega)
      by_cases hres : ∃ r2, Resolves g n r2
      · obtain ⟨r2, hr2⟩ := hres
        obtain ⟨h4, h5⟩ := costElem_rule hd hfix hr2
        obtain ⟨h6, h7⟩ := costElem_rule hd hfix' hr2
        have := ih ((m r2.name).getD 0) (by omega) r2 (resolves_self hr2) (Nat.le_refl _)
        omega
      · have : getRule n g.rules = none := by
          cases hg : getRule n g.rules with
          | none => rfl
          | some r2 => exact absurd ⟨r2, (getRule_iff hd).mp hg⟩ hres
        rw [costElem, costElem, this]
    · omega

theorem costFix_unique {g : Grammar} (hd : NamesDistinct g) (hsm : SmallMins g) {m m' : CostMap} (hfix : CostFix g m) (hfix' : CostFix g m') :
    m = m' := by
  have key : ∀ r, Resolves g r.name r → m r.name = m' r.name := by
    intro r hr
    have h1 := costFix_le hd hsm hfix hfix' _ r hr (Nat.le_refl _)
    have h2 := costFix_le hd hsm hfix' hfix _ r hr (Nat.le_refl _)
    rw [hfix.eq r hr, hfix'.eq r hr] at h1 h2 ⊢
    simp only [Option.getD_some] at h1 h2
    rw [Nat.le_antisymm h2 h1]
  funext x
  by_cases h : ∃ r, Resolves g r.name r ∧ r.name = x
  · obtain ⟨r, hr, rfl⟩ := h
    exact key r hr
  · have h1 : m x = none := by
      cases hm : m x with
      | none => rfl
      | some c => exact absurd (hfix.out x c hm) h
    have h2 : m' x = none := by
      cases hm : m' x with
      | none => rfl
      | some c => exact absurd (hfix'.out x c hm) h
    rw [h1, h2]

end Verif
