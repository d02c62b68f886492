import Verif.AstVisit

/-!
# What the AST generator writes, and that it ends
-/

namespace Verif

open Spec

section
variable {σ : Type} {S : Source σ} {o : AstOpts} {g : Grammar} {m : CostMap}

/-- The output grew, if `mem` by something allowed. -/
def AstPost (mem : Prop) (D : Bytes → Prop) (st st' : AstSt σ) : Prop := ∃ w, st'.out = st.out ++ w ∧ (mem → D w)

/-! ## Terminals -/

theorem flipCase_same (c : Char) : SameLetter c (flipCase c) := by
  unfold flipCase
  have h1 : 'A'.toNat = 65 := rfl
  have h2 : 'Z'.toNat = 90 := rfl
  have h3 : 'a'.toNat = 97 := rfl
  have h4 : 'z'.toNat = 122 := rfl
  have le : ∀ a b : Char, a ≤ b ↔ a.toNat ≤ b.toNat := fun a b => Iff.rfl
  split_ifs with h h'
  · rw [le, le, h3, h4] at h
    exact .inr (.inr ⟨(le _ _).mpr (by omega), (le _ _).mpr (by omega), by rw [toNat_ofNat_char (by omega)]; omega⟩)
  · rw [le, le, h1, h2] at h'
    exact .inr (.inl ⟨(le _ _).mpr (by omega), (le _ _).mpr (by omega), by rw [toNat_ofNat_char (by omega)]⟩)
  · exact sameLetter_refl c

theorem astChars_out (sensitive : Bool) (vs : List Char) : ∀ st : AstSt σ, ∃ ws,
    (astChars S sensitive vs st).out = st.out ++ utf8 ws ∧ Terminal (.charVal sensitive vs) ws := by
  have key : ∀ st : AstSt σ, ∃ ws, (astChars S sensitive vs st).out = st.out ++ utf8 ws ∧
      List.Forall₂ (fun c d => if sensitive then c = d else SameLetter c d) vs ws := by
    induction vs with
    | nil => intro st; exact ⟨[], by simp [astChars, utf8], .nil⟩
    | cons c vs ih =>
      intro st
      unfold astChars
      by_cases hs : (!sensitive && isLetter c) = true
      · rw [if_pos hs]
        simp only
        obtain ⟨ws, h1, h2⟩ := ih (AstSt.emit { st with src := (S.intn st.src 2).2 } (if (S.intn st.src 2).1 = 1 then flipCase c else c).toNat)
        refine ⟨(if (S.intn st.src 2).1 = 1 then flipCase c else c) :: ws, ?_, .cons ?_ h2⟩
        · rw [h1, AstSt.emit, encode_rune, runeChar_char, List.append_assoc, ← utf8_append]
          rfl
        · have : sensitive = false := by cases sensitive <;> simp_all
          subst this
          show SameLetter _ _
          split_ifs
          · exact flipCase_same c
          · exact sameLetter_refl c
      · rw [if_neg hs]
        obtain ⟨ws, h1, h2⟩ := ih (st.emit c.toNat)
        refine ⟨c :: ws, ?_, .cons ?_ h2⟩
        · rw [h1, AstSt.emit, encode_rune, runeChar_char, List.append_assoc, ← utf8_append]
          rfl
        · cases sensitive
          · exact sameLetter_refl c
          · rfl
  intro st
  obtain ⟨ws, h1, h2⟩ := key st
  refine ⟨ws, h1, ?_⟩
  cases sensitive with
  | true =>
    simp only [if_true, List.forall₂_eq_eq_eq] at h2
    exact h2 ▸ .sensitive vs
  | false => exact .insensitive vs ws (by simpa using h2)

theorem astSeries_grows (b : Str) (es : List Str) : ∀ st : AstSt σ, ∃ w, (astSeries b es st).out = st.out ++ w := by
  induction es with
  | nil => intro st; exact ⟨[], by simp [astSeries]⟩
  | cons s es ih =>
    intro st
    unfold astSeries
    simp only
    split_ifs
    · obtain ⟨w, h⟩ := ih (st.emit (numvalToRune s b))
      exact ⟨_, by rw [h, AstSt.emit, List.append_assoc]⟩
    · exact ih st

theorem astSeries_out (b : Str) (es : List Str) (h : ∀ s ∈ es, ∃ c : Char, Denotes b s c.toNat) : ∀ st : AstSt σ, ∃ ws,
    (astSeries b es st).out = st.out ++ utf8 ws ∧ Terminal (.numVal b .series es) ws := by
  have key : ∀ st : AstSt σ, ∃ ws, (astSeries b es st).out = st.out ++ utf8 ws ∧
      List.Forall₂ (fun s c => Denotes b s (Char.toNat c)) es ws := by
    induction es with
    | nil => intro st; exact ⟨[], by simp [astSeries, utf8], .nil⟩
    | cons s es ih =>
      intro st
      obtain ⟨hv, hd⟩ := series_char (h s (List.mem_cons_self ..))
      unfold astSeries
      simp only [hv, if_true]
      obtain ⟨ws, h1, h2⟩ := ih (fun s hs => h s (List.mem_cons_of_mem _ hs)) (st.emit (numvalToRune s b))
      refine ⟨runeChar (numvalToRune s b) :: ws, ?_, .cons hd h2⟩
      rw [h1, AstSt.emit, encode_rune, List.append_assoc, ← utf8_append]
      rfl
  intro st
  obtain ⟨ws, h1, h2⟩ := key st
  exact ⟨ws, h1, .series b es ws h2⟩

theorem astRange_out (hS : S.InRange) (b : Str) (es : List Str) (st : AstSt σ) :
    AstPost (Emittable (.numVal b .range es)) (Derives g (.numVal b .range es)) st (astRange S b es st) := by
  unfold astRange
  simp only
  split_ifs with h
  · refine ⟨[], by simp, fun he => ?_⟩
    have := range_nonempty he
    omega
  · refine ⟨_, by rw [AstSt.emit, encode_rune], fun he => range_emits he (Nat.le_add_right _ _) ?_⟩
    have := hS st.src (min (numvalToRune (es.getD 1 []) b) maxRune - numvalToRune (es.getD 0 []) b + 1) (by omega)
    omega

/-! ## Choices -/

theorem over_mono {depth : Nat} {st st' : AstSt σ} {w : Bytes} (h : st'.out = st.out ++ w) (ho : astOver o st depth = true) :
    astOver o st' depth = true := by
  unfold astOver at ho ⊢
  rw [Bool.or_eq_true, decide_eq_true_eq, decide_eq_true_eq] at ho ⊢
  rw [h, List.length_append]
  rcases ho with ho | ho
  · exact .inl ho
  · right; push_cast; omega

theorem cheapestFrom_ok {rs : List Rule} (cs : List Concat) : ∀ (all : List Concat) (i best bestCost : Nat), all.drop i = cs → i ≤ all.length →
    best < i → costConcat rs m (all.getD best []) = bestCost → (∀ j < i, bestCost ≤ costConcat rs m (all.getD j [])) →
    cheapestFrom rs m cs i best bestCost < all.length ∧
      ∀ j < all.length, costConcat rs m (all.getD (cheapestFrom rs m cs i best bestCost) []) ≤ costConcat rs m (all.getD j []) := by
  induction cs with
  | nil =>
    intro all i best bestCost hdrop hi hb hc hmin
    have : all.length ≤ i := List.drop_eq_nil_iff.mp hdrop
    rw [cheapestFrom]
    exact ⟨by omega, fun j hj => by rw [hc]; exact hmin j (by omega)⟩
  | cons c cs ih =>
    intro all i best bestCost hdrop hi hb hc hmin
    have hlt : i < all.length := by
      by_contra h
      rw [List.drop_eq_nil_iff.mpr (by omega)] at hdrop
      cases hdrop
    have hget : all.getD i [] = c := by
      have h1 : all.drop i = all[i] :: all.drop (i + 1) := List.drop_eq_getElem_cons hlt
      rw [hdrop] at h1
      rw [List.getD_eq_getElem?_getD, List.getElem?_eq_getElem hlt]
      exact (List.cons.inj h1).1.symm
    have hdrop' : all.drop (i + 1) = cs := by
      have h1 : all.drop i = all[i] :: all.drop (i + 1) := List.drop_eq_getElem_cons hlt
      rw [hdrop] at h1
      exact (List.cons.inj h1).2.symm
    rw [cheapestFrom]
    split_ifs with h
    · refine ih all (i + 1) i _ hdrop' (by omega) (by omega) (by rw [hget]) fun j hj => ?_
      by_cases hji : j = i
      · subst hji; rw [hget]
      · have := hmin j (by omega)
        omega
    · refine ih all (i + 1) best bestCost hdrop' (by omega) (by omega) hc fun j hj => ?_
      by_cases hji : j = i
      · subst hji; rw [hget]; omega
      · exact hmin j (by omega)

theorem cheapestConcat_ok {rs : List Rule} {a : Alt} (ha : a ≠ []) : cheapestConcat rs m a < a.length ∧
    ∀ c ∈ a, costConcat rs m (a.getD (cheapestConcat rs m a) []) ≤ costConcat rs m c := by
  cases a with
  | nil => exact absurd rfl ha
  | cons c cs =>
    rw [cheapestConcat]
    obtain ⟨h1, h2⟩ := cheapestFrom_ok (rs := rs) (m := m) cs (c :: cs) 1 0 _ rfl (by simp) (by simp) rfl (fun j hj => by
      obtain rfl : j = 0 := by omega
      exact Nat.le_refl _)
    refine ⟨h1, fun d hd => ?_⟩
    obtain ⟨j, hj, rfl⟩ := List.mem_iff_getElem.mp hd
    have := h2 j hj
    rwa [List.getD_eq_getElem?_getD (i := j), List.getElem?_eq_getElem hj] at this

theorem astIdx_ok (hS : S.InRange) {rs : List Rule} {a : Alt} (ha : a ≠ []) (depth : Nat) (st : AstSt σ) :
    (astIdx S o rs m a depth st).1 < a.length ∧ (astIdx S o rs m a depth st).2.out = st.out ∧
    (astOver o st depth = true → astIdx S o rs m a depth st = (cheapestConcat rs m a, st)) := by
  have hpos := List.length_pos_iff.mpr ha
  unfold astIdx
  split_ifs with h h'
  · exact ⟨(cheapestConcat_ok ha).1, rfl, fun _ => rfl⟩
  · exact ⟨hS _ _ hpos, rfl, fun h1 => absurd h1 h⟩
  · exact ⟨hpos, rfl, fun h1 => absurd h1 h⟩

/-- Wrapping does not enlarge what is not negative. -/
theorem wrap64_le {x : Int} (h : 0 ≤ x) : wrap64 x ≤ x := by
  unfold wrap64
  rw [Int.bmod_def]
  split_ifs <;> omega

theorem astCount_ok (hS : S.InRange) (lo : Nat) (mx : Option Nat) (depth : Nat) (st : AstSt σ) :
    lo ≤ (astCount S o lo mx depth st).1 ∧ (astCount S o lo mx depth st).2.out = st.out ∧
    (∀ u, mx = some u → lo ≤ u → (astCount S o lo mx depth st).1 ≤ u) ∧
    (mx = none → -2 ^ 63 ≤ o.maxRepeat → (astCount S o lo mx depth st).1 ≤ lo + o.maxRepeat.toNat) ∧
    (astOver o st depth = true → astCount S o lo mx depth st = (lo, st)) := by
  unfold astCount
  simp only
  split_ifs with h
  · simp only [Bool.and_eq_true, decide_eq_true_eq] at h
    obtain ⟨⟨h0, h1⟩, h2⟩ := h
    refine ⟨Nat.le_add_right _ _, rfl, fun u hu hle => ?_, fun hu hr => ?_, fun h3 => ?_⟩
    · subst hu
      simp only at h1 h2 ⊢
      rw [if_neg (by omega)] at h1 h2 ⊢
      have h3 := hS st.src _ ((Int.lt_toNat).mpr h2)
      have h4 := wrap64_le (x := (u : Int) - lo + 1) (by omega)
      omega
    · subst hu
      simp only at h1 h2 ⊢
      have h3 := hS st.src _ ((Int.lt_toNat).mpr h2)
      have h4 := wrap64_le (x := wrap64 ((lo : Int) + o.maxRepeat) - lo + 1) (by omega)
      by_cases hn : 0 ≤ (lo : Int) + o.maxRepeat
      · have h5 := wrap64_le hn
        omega
      · rw [wrap64_eq (by omega) (by omega)] at h1
        omega
    · rw [h3] at h0
      simp at h0
  · exact ⟨Nat.le_refl _, rfl, fun u _ h => h, fun _ _ => Nat.le_add_right _ _, fun _ => rfl⟩

/-! ## Generating -/

variable {rec : Str → Nat → AstSt σ → Run (AstSt σ)} {free mem : Prop} {B depth : Nat}

/-- The call may be made: freely, or while steering and within the cost that is left. -/
def Allowed (o : AstOpts) (depth : Nat) (free : Prop) (B cost : Nat) (st : AstSt σ) : Prop :=
  free ∨ (astOver o st depth = true ∧ cost ≤ B)

theorem Allowed.grow {cost : Nat} {st st' : AstSt σ} {w : Bytes} (h : Allowed o depth free B cost st) (e : st'.out = st.out ++ w) :
    Allowed o depth free B cost st' := h.imp_right fun ⟨h1, h2⟩ => ⟨over_mono e h1, h2⟩

theorem Allowed.mono {cost cost' : Nat} {st : AstSt σ} (h : Allowed o depth free B cost st) (hle : cost' ≤ cost) :
    Allowed o depth free B cost' st := h.imp_right fun ⟨h1, h2⟩ => ⟨h1, le_trans hle h2⟩

/-- What is assumed of a repetition. -/
structure AstRepOK (g : Grammar) (o : AstOpts) (m : CostMap) (rec : Str → Nat → AstSt σ → Run (AstSt σ)) (free mem : Prop) (B depth : Nat)
    (q : Rep) : Prop where
  call : ∀ n, q.elem = .rulename n → ∀ st, Allowed o depth free B (costElem g.rules m (.rulename n)) st →
    (rec n (depth + 1) st).Sat False False (AstPost mem (Derives g (.rulename n)) st)
  emit : mem → Emittable q.elem ∧ (∀ u, q.max = some u → q.min ≤ u) ∧ ∀ a, q.elem = .group a → a ≠ []
  small : q.min < 2 ^ 33

theorem astLoop_sat {e : Elem} {step : AstSt σ → Run (AstSt σ)} {lo cost : Nat}
    (hstep : ∀ st, Allowed o depth free B cost st → (step st).Sat False False (AstPost mem (Derives g e) st)) (k : Nat) : ∀ i st,
    lo ≤ i + k → (k = 0 ∨ Allowed o depth free B cost st) →
    (astLoop o step lo k i st).Sat False False (AstPost mem (fun w => ∃ j, lo ≤ i + j ∧ j ≤ k ∧ DerivesTimes g e j w) st) := by
  induction k with
  | zero => intro i st h _; exact ⟨[], by simp, fun _ => ⟨0, h, Nat.le_refl _, .zero e⟩⟩
  | succ k ih =>
    intro i st h ha
    have ha : Allowed o depth free B cost st := ha.resolve_left (by omega)
    unfold astLoop
    refine (hstep st ha).bnd fun st' ⟨u, hu, hd⟩ => ?_
    split_ifs with hbr
    · refine ⟨u, hu, fun hm => ⟨1, hbr.1, by omega, ?_⟩⟩
      have := DerivesTimes.succ e 0 u [] (hd hm) (.zero e)
      rwa [List.append_nil] at this
    · refine (ih (i + 1) st' (by omega) (.inr (ha.grow hu))).mono fun st'' ⟨v, hv, hd'⟩ => ?_
      refine ⟨u ++ v, by rw [hv, hu, List.append_assoc], fun hm => ?_⟩
      obtain ⟨j, h1, h2, h3⟩ := hd' hm
      exact ⟨j + 1, by omega, by omega, .succ e j u v (hd hm) h3⟩

variable (hS : S.InRange) (hB : B < astUnbounded)
include hS hB

omit hS hB in
/-- What choosing from an alternation needs. -/
theorem pick_allowed (hS : S.InRange) (hB : B < astUnbounded) {a : Alt} (ha : a ≠ []) {st : AstSt σ} (hal : Allowed o depth free B (costAlt g.rules m a) st) :
    (astIdx S o g.rules m a depth st).1 < a.length ∧
    Allowed o depth free B (costConcat g.rules m (a.getD (astIdx S o g.rules m a depth st).1 [])) (astIdx S o g.rules m a depth st).2 := by
  obtain ⟨h1, h2, h3⟩ := astIdx_ok (o := o) (m := m) (rs := g.rules) hS ha depth st
  refine ⟨h1, ?_⟩
  rcases hal with hf | ⟨ho, hc⟩
  · exact .inl hf
  · rw [h3 ho]
    refine .inr ⟨ho, ?_⟩
    rcases (costAlt_le_iff ha B).mp hc with h | ⟨c, hc, hle⟩
    · omega
    · exact le_trans ((cheapestConcat_ok ha).2 c hc) hle

mutual
theorem astPick_sat : (a : List (List Rep)) → (∀ q ∈ altReps a, AstRepOK g o m rec free mem B depth q) → ∀ k st, k < a.length →
    Allowed o depth free B (costConcat g.rules m (a.getD k [])) st →
    (astPick S o g.rules m rec a k depth st).Sat False False (AstPost mem (DerivesAlt g a) st)
  | [], _, k, st, hk, _ => absurd hk (Nat.not_lt_zero _)
  | c :: a, h, 0, st, _, ha => by
    rw [astPick]
    refine (astReps_sat c (fun q hq => h q (by simp [altReps, hq])) st ha).mono fun st' ⟨w, hw, hd⟩ => ?_
    exact ⟨w, hw, fun hm => derivesAlt_cons.mpr (.inl (hd hm))⟩
  | c :: a, h, k + 1, st, hk, ha => by
    rw [astPick]
    refine (astPick_sat a (fun q hq => h q (by simp [altReps, hq])) k st (by simpa using hk) ha).mono fun st' ⟨w, hw, hd⟩ => ?_
    exact ⟨w, hw, fun hm => derivesAlt_cons.mpr (.inr (hd hm))⟩
theorem astReps_sat : (c : List Rep) → (∀ q ∈ concatReps c, AstRepOK g o m rec free mem B depth q) → ∀ st,
    Allowed o depth free B (costConcat g.rules m c) st →
    (astReps S o g.rules m rec c depth st).Sat False False (AstPost mem (DerivesConcat g c) st)
  | [], _, st, _ => by
    rw [astReps]
    exact ⟨[], by simp, fun _ => .nil⟩
  | ⟨mn, mx, e⟩ :: c, h, st, ha => by
    have hq := h ⟨mn, mx, e⟩ (by simp [concatReps, repReps])
    have hcost := costConcat_cons (rs := g.rules) (m := m) (mn := mn) (mx := mx) (e := e) (c := c)
      fun q hq => (h q (mem_concatReps hq)).small
    rw [hcost] at ha
    obtain ⟨c1, c2, c3, _, c4⟩ := astCount_ok (o := o) hS mn mx depth st
    rw [astReps]
    have hstep : (astCount S o mn mx depth st).1 = 0 ∨ Allowed o depth free B (costElem g.rules m e) (astCount S o mn mx depth st).2 := by
      rcases ha with hf | ⟨ho, hc⟩
      · exact .inr (.inl hf)
      · rw [c4 ho]
        by_cases h0 : mn = 0
        · exact .inl h0
        · refine .inr (.inr ⟨ho, ?_⟩)
          have : 1 * costElem g.rules m e ≤ mn * costElem g.rules m e := Nat.mul_le_mul_right _ (by omega)
          omega
    refine (astLoop_sat (fun st hst => astElem_sat e mn mx (fun q hq => h q (by simp [concatReps, hq])) st hst) _ 0 _ (by omega) hstep).bnd
      fun st1 ⟨u, hu, hd⟩ => ?_
    rw [c2] at hu
    have ha' : Allowed o depth free B (costConcat g.rules m c) st1 := by
      refine (ha.grow hu).imp_right fun ⟨h1, h2⟩ => ⟨h1, ?_⟩
      omega
    refine (astReps_sat c (fun q hq => h q (by simp [concatReps, hq])) st1 ha').mono fun st2 ⟨v, hv, hd'⟩ => ?_
    refine ⟨u ++ v, by rw [hv, hu, List.append_assoc], fun hm => ?_⟩
    obtain ⟨j, h1, h2, h3⟩ := hd hm
    have hmax := (hq.emit hm).2.1
    simp only [Rep.max_mk, Rep.min_mk] at hmax
    exact .cons _ _ _ _ (.mk mn mx e j u (by omega) (fun u' hu' => le_trans h2 (c3 u' hu' (hmax u' hu'))) h3) (hd' hm)
theorem astElem_sat : (e : Elem) → ∀ mn mx, (∀ q ∈ repReps ⟨mn, mx, e⟩, AstRepOK g o m rec free mem B depth q) → ∀ st,
    Allowed o depth free B (costElem g.rules m e) st →
    (astElem S o g.rules m rec e depth st).Sat False False (AstPost mem (Derives g e) st)
  | .rulename n, mn, mx, h, st, ha => by
    rw [astElem]
    exact (h _ (List.mem_cons_self ..)).call n rfl st ha
  | .group a, mn, mx, h, st, ha => by
    rw [astElem]
    by_cases hne : a = []
    · subst hne
      exact ⟨[], by simp, fun hm => absurd rfl (((h _ (List.mem_cons_self ..)).emit hm).2.2 [] rfl)⟩
    · rw [if_neg (by simpa using hne)]
      rw [costElem_group] at ha
      obtain ⟨h1, h2⟩ := pick_allowed hS hB hne ha
      refine (astPick_sat a (fun q hq => h q (List.mem_cons_of_mem _ hq)) _ _ h1 h2).mono fun st' ⟨w, hw, hd⟩ => ?_
      exact ⟨w, by rw [hw, (astIdx_ok hS hne depth st).2.1], fun hm => .group a w (hd hm)⟩
  | .option a, mn, mx, h, st, ha => by
    rw [astElem]
    by_cases ho : astOver o st depth = true
    · rw [if_pos ho]
      exact ⟨[], by simp, fun _ => .optNone a⟩
    · rw [if_neg ho]
      simp only
      have hfree : free := ha.resolve_right fun h => ho h.1
      by_cases hd : (S.intn st.src 2).1 = 1
      · rw [if_pos hd]
        by_cases hne : a = []
        · subst hne
          exact ⟨[], by simp, fun _ => .optNone []⟩
        · rw [if_neg (by simpa using hne)]
          obtain ⟨h1, h2⟩ := pick_allowed (g := g) (m := m) (o := o) (depth := depth) (free := free)
            (st := { st with src := (S.intn st.src 2).2 }) hS hB hne (.inl hfree)
          refine (astPick_sat a (fun q hq => h q (List.mem_cons_of_mem _ hq)) _ _ h1 h2).mono fun st' ⟨w, hw, hd⟩ => ?_
          exact ⟨w, by rw [hw, (astIdx_ok hS hne depth _).2.1], fun hm => .optSome a w (hd hm)⟩
      · rw [if_neg hd]
        exact ⟨[], by simp, fun _ => .optNone a⟩
  | .charVal s vs, _, _, _, st, _ => by
    rw [astElem]
    obtain ⟨ws, h1, h2⟩ := astChars_out (S := S) s vs st
    exact ⟨_, h1, fun _ => .term _ _ h2⟩
  | .numVal b .series es, mn, mx, h, st, _ => by
    rw [astElem]
    by_cases hm : mem
    · obtain ⟨ws, h1, h2⟩ := astSeries_out b es ((h _ (List.mem_cons_self ..)).emit hm).1 st
      exact ⟨_, h1, fun _ => .term _ _ h2⟩
    · obtain ⟨w, h1⟩ := astSeries_grows b es st
      exact ⟨w, h1, fun hm' => absurd hm' hm⟩
  | .numVal b .range es, mn, mx, h, st, _ => by
    rw [astElem]
    obtain ⟨w, h1, h2⟩ := astRange_out (g := g) hS b es st
    exact ⟨w, h1, fun hm => h2 ((h _ (List.mem_cons_self ..)).emit hm).1⟩
  | .proseVal v, mn, mx, h, st, _ => by
    rw [astElem]
    exact ⟨[], by simp, fun hm => ((h _ (List.mem_cons_self ..)).emit hm).1.elim⟩
end

theorem astAlt_sat (a : Alt) (h : ∀ q ∈ altReps a, AstRepOK g o m rec free mem B depth q) (hm : mem → a ≠ []) (st : AstSt σ)
    (ha : Allowed o depth free B (costAlt g.rules m a) st) :
    (astAlt S o g.rules m rec a depth st).Sat False False (AstPost mem (DerivesAlt g a) st) := by
  unfold astAlt
  by_cases hne : a = []
  · subst hne
    exact ⟨[], by simp, fun h => absurd rfl (hm h)⟩
  · rw [if_neg (by simpa using hne)]
    obtain ⟨h1, h2⟩ := pick_allowed hS hB hne ha
    refine (astPick_sat hS hB a h _ _ h1 h2).mono fun st' ⟨w, hw, hd⟩ => ?_
    exact ⟨w, by rw [hw, (astIdx_ok hS hne depth st).2.1], hd⟩

end

/-! ## Rules -/

/-- The nesting of rules that generating a rule needs: what it costs when steering, and otherwise what is left of the
depth on top of the largest cost. -/
def astNeed {σ : Type} (o : AstOpts) (m : CostMap) (r : Rule) (depth : Nat) (st : AstSt σ) : Nat :=
  if astOver o st depth then (m r.name).getD 0 + 1 else (o.maxDepth - depth).toNat + astUnbounded + 1

/-- What is assumed of the rules for membership: their terminals can be written, their bounds do not cross and no
alternation is empty. -/
def WritableReach (g : Grammar) (r : Rule) : Prop :=
  ∀ r', Relation.ReflTransGen (Refers g) r r' → r'.alt ≠ [] ∧ ∀ q ∈ altReps r'.alt,
    Emittable q.elem ∧ (∀ u, q.max = some u → q.min ≤ u) ∧ ∀ a, q.elem = .group a → a ≠ []

section
variable {σ : Type} {S : Source σ} (hS : S.InRange) {o : AstOpts} {g : Grammar} (hd : NamesDistinct g) (hsm : SmallMins g)
  {m : CostMap} (hfix : CostFix g m) {mem : Prop}
include hS hd hsm hfix

/-- Generating the alternation of a rule. -/
theorem astBody_sat (k : Nat) (r : Rule) (hr : Resolves g r.name r) (hg : GoodReach g m r) (hw : mem → WritableReach g r) (depth : Nat)
    (st : AstSt σ) (hk : astNeed o m r depth st ≤ k + 1)
    (ih : ∀ n r' depth' st', Resolves g n r' → GoodReach g m r' → (mem → WritableReach g r') → astNeed o m r' depth' st' ≤ k →
      (astRule S o g.rules m k n depth' st').Sat False False (AstPost mem (Derives g (.rulename n)) st')) :
    (astAlt S o g.rules m (astRule S o g.rules m k) r.alt depth st).Sat False False (AstPost mem (DerivesAlt g r.alt) st) := by
  have hcost := hfix.eq r hr
  have hlt := (hg r .refl).1
  refine astAlt_sat (g := g) (free := ¬ (astOver o st depth = true)) (B := (m r.name).getD 0) hS hlt r.alt
    (fun q hq => ⟨fun n hn st' hal => ?_, fun hm => (hw hm r .refl).2 q hq, small_rule hsm hr q hq⟩)
    (fun hm => (hw hm r .refl).1) st ?_
  · obtain ⟨r2, hr2⟩ := (hg r .refl).2 q hq n hn
    have hstep : Refers g r r2 := ⟨q, hq, n, hn, hr2⟩
    have hlt2 := (hg r2 (.single hstep)).1
    refine ih n r2 (depth + 1) st' hr2 (fun r3 h3 => hg r3 (.head hstep h3)) (fun hm r3 h3 => hw hm r3 (.head hstep h3)) ?_
    have hc2 : m r2.name = some ((m r2.name).getD 0) := by rw [hfix.eq r2 (resolves_self hr2)]; rfl
    rw [costElem, (getRule_iff hd).mpr hr2] at hal
    simp only at hal
    rw [hc2] at hal
    simp only [addClamp_eq] at hal
    unfold astNeed at hk ⊢
    rcases hal with hal | ⟨hal, hle⟩
    · rw [if_neg hal] at hk
      have hdep : (depth : Int) < o.maxDepth := by
        unfold astOver at hal
        simp only [Bool.or_eq_true, decide_eq_true_eq] at hal
        omega
      split_ifs <;> push_cast <;> omega
    · have h1 : astOver o st' (depth + 1) = true := by
        unfold astOver at hal ⊢
        simp only [Bool.or_eq_true, decide_eq_true_eq] at hal ⊢
        push_cast
        omega
      rw [if_pos h1]
      by_cases ho : astOver o st depth = true
      · rw [if_pos ho] at hk
        omega
      · rw [if_neg ho] at hk
        omega
  · by_cases ho : astOver o st depth = true
    · exact .inr ⟨ho, by rw [hcost]; exact Nat.le_refl _⟩
    · exact .inl ho

theorem astRule_sat (k : Nat) : ∀ n r depth (st : AstSt σ), Resolves g n r → GoodReach g m r → (mem → WritableReach g r) →
    astNeed o m r depth st ≤ k →
    (astRule S o g.rules m k n depth st).Sat False False (AstPost mem (Derives g (.rulename n)) st) := by
  induction k with
  | zero =>
    intro n r depth st _ _ _ h
    unfold astNeed at h
    split_ifs at h <;> omega
  | succ k ih =>
    intro n r depth st hr hg hw hk
    rw [astRule, (getRule_iff hd).mpr hr]
    refine (astBody_sat hS hd hsm hfix k r (resolves_self hr) hg hw depth st hk fun n r' depth' st' => ih n r' depth' st').mono
      fun st' ⟨w, h1, h2⟩ => ⟨w, h1, fun hm => .rule n r w hr (h2 hm)⟩

/-- The whole walk. -/
theorem astWalk_sat (r : Rule) (hr : Resolves g r.name r) (hg : GoodReach g m r) (hw : mem → WritableReach g r) (fuel : Nat)
    (hf : o.maxDepth.toNat + astUnbounded ≤ fuel) (s : σ) :
    ∃ w, astWalk S o g.rules m fuel r s = .ok w ∧ (mem → DerivesAlt g r.alt w) := by
  have hlt := (hg r .refl).1
  have h := astBody_sat (o := o) hS hd hsm hfix fuel r hr hg hw 0 ⟨s, []⟩
    (by unfold astNeed; split_ifs <;> omega)
    (fun n r' depth' st' => astRule_sat hS hd hsm hfix fuel n r' depth' st')
  unfold astWalk
  cases hrun : astAlt S o g.rules m (astRule S o g.rules m fuel) r.alt 0 ⟨s, []⟩ with
  | panic => rw [hrun] at h; exact h.elim
  | fuel => rw [hrun] at h; exact h.elim
  | ok st =>
    rw [hrun] at h
    obtain ⟨w, h1, h2⟩ := h
    exact ⟨w, by simp only [Run.bnd]; rw [h1]; rfl, h2⟩

end

end Verif
