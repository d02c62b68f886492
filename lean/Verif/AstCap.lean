import Verif.AstWrap

/-!
# What the options of the AST generator bound

`WithMaxRepeat` caps how far an unbounded repetition is unrolled (/repo/ast.go:66-72): what is written is a text of the grammar in
which every unbounded repetition has been given that bound (`C123_repeat`).  When everything is steered and the source gives zeros,
what is written is a smallest derivation (`C123_smallest`).
-/

namespace Verif

open Spec

/-! ## Grammars with bounded repetitions -/

mutual
/-- The element with every unbounded repetition in it cut off after `R` more than its minimum (no counterpart in /repo). -/
def capElem (R : Nat) : Elem → Elem
  | .rulename n => .rulename n
  | .group a => .group (capAlt R a)
  | .option a => .option (capAlt R a)
  | .charVal s vs => .charVal s vs
  | .numVal b s es => .numVal b s es
  | .proseVal v => .proseVal v
@[inherit_doc capElem]
def capAlt (R : Nat) : List (List Rep) → List (List Rep)
  | [] => []
  | c :: a => capConcat R c :: capAlt R a
@[inherit_doc capElem]
def capConcat (R : Nat) : List Rep → List Rep
  | [] => []
  | ⟨mn, mx, e⟩ :: c => ⟨mn, some (mx.getD (mn + R)), capElem R e⟩ :: capConcat R c
end

@[inherit_doc capElem]
def capRule (R : Nat) (r : Rule) : Rule := ⟨r.name, capAlt R r.alt⟩

open Classical in
/-- The grammar with every unbounded repetition cut off after `R` more than its minimum, also in the core rules, which it defines
unless the grammar does (no counterpart in /repo). -/
noncomputable def capped (R : Nat) (g : Grammar) : Grammar :=
  ⟨(g.rules ++ Core.rules.filter fun c => decide (∀ u ∈ g.rules, ¬ SameName c.name u.name)).map (capRule R)⟩

section
variable {g : Grammar} {R : Nat}

theorem names_trans {a b c : Str} (h : SameName a b) (h' : SameName b c) : SameName a c :=
  (sameName_iff _ _).mpr (((sameName_iff _ _).mp h).trans ((sameName_iff _ _).mp h'))

theorem capped_resolves {n : Str} {r : Rule} (h : Resolves g n r) : Resolves (capped R g) n (capRule R r) := by
  classical
  cases h with
  | user h1 h2 => exact .user (List.mem_map_of_mem (List.mem_append_left _ h1)) h2
  | core h1 h2 h3 =>
    refine .user (List.mem_map_of_mem (List.mem_append_right _ (List.mem_filter.mpr ⟨h1, decide_eq_true ?_⟩))) h2
    exact fun u hu h => h3 u hu (names_trans h2 h)

theorem resolves_capped {n : Str} {r' : Rule} (h : Resolves (capped R g) n r') : ∃ r, Resolves g n r ∧ r' = capRule R r := by
  classical
  cases h with
  | user h1 h2 =>
    obtain ⟨r, hr, rfl⟩ := List.mem_map.mp h1
    refine ⟨r, ?_, rfl⟩
    rcases List.mem_append.mp hr with hr | hr
    · exact .user hr h2
    · obtain ⟨h3, h4⟩ := List.mem_filter.mp hr
      exact .core h3 h2 fun u hu h => of_decide_eq_true h4 u hu ((sameName_iff _ _).mpr (((sameName_iff _ _).mp h2).symm.trans ((sameName_iff _ _).mp h)))
  | core h1 h2 h3 =>
    exfalso
    by_cases h4 : ∀ u ∈ g.rules, ¬ SameName r'.name u.name
    · exact h3 _ (List.mem_map_of_mem (List.mem_append_right _ (List.mem_filter.mpr ⟨h1, decide_eq_true h4⟩))) h2
    · push Not at h4
      obtain ⟨u, hu, h5⟩ := h4
      exact h3 _ (List.mem_map_of_mem (List.mem_append_left _ hu)) (names_trans h2 h5)

theorem mem_capAlt {a : Alt} {c' : Concat} (h : c' ∈ capAlt R a) : ∃ c ∈ a, c' = capConcat R c := by
  induction a with
  | nil => rw [capAlt] at h; cases h
  | cons c a ih =>
    rw [capAlt] at h
    rcases List.mem_cons.mp h with rfl | h
    · exact ⟨c, List.mem_cons_self .., rfl⟩
    · obtain ⟨d, h1, h2⟩ := ih h
      exact ⟨d, List.mem_cons_of_mem _ h1, h2⟩

/-- Bounding repetitions allows nothing new. -/
theorem capped_derives {e' : Elem} {w : Bytes} (h : Derives (capped R g) e' w) : ∀ e, e' = capElem R e → Derives g e w := by
  refine Derives.rec (motive_1 := fun e' w _ => ∀ e, e' = capElem R e → Derives g e w)
    (motive_2 := fun a' w _ => ∀ a, a' = capAlt R a → DerivesAlt g a w)
    (motive_3 := fun c' w _ => ∀ c, c' = capConcat R c → DerivesConcat g c w)
    (motive_4 := fun q' w _ => ∀ mn mx e, q' = ⟨mn, some (mx.getD (mn + R)), capElem R e⟩ → DerivesRep g ⟨mn, mx, e⟩ w)
    (motive_5 := fun e' n w _ => ∀ e, e' = capElem R e → DerivesTimes g e n w) ?_ ?_ ?_ ?_ ?_ ?_ ?_ ?_ ?_ ?_ ?_ h
  · intro n r' w hr _ ih e he
    obtain ⟨r, h1, rfl⟩ := resolves_capped hr
    cases e <;> simp only [capElem, Elem.rulename.injEq, reduceCtorEq] at he
    subst he
    exact .rule _ r w h1 (ih r.alt rfl)
  · intro a' w _ ih e he
    cases e <;> simp only [capElem, Elem.group.injEq, reduceCtorEq] at he
    exact .group _ w (ih _ he)
  · intro a' e he
    cases e <;> simp only [capElem, Elem.option.injEq, reduceCtorEq] at he
    exact .optNone _
  · intro a' w _ ih e he
    cases e <;> simp only [capElem, Elem.option.injEq, reduceCtorEq] at he
    exact .optSome _ w (ih _ he)
  · intro e' cs ht e he
    cases e with
    | rulename n => rw [capElem] at he; subst he; cases ht
    | group a => rw [capElem] at he; subst he; cases ht
    | option a => rw [capElem] at he; subst he; cases ht
    | charVal s vs => rw [capElem] at he; exact he ▸ .term _ cs ht
    | numVal b s es => rw [capElem] at he; exact he ▸ .term _ cs ht
    | proseVal v => rw [capElem] at he; exact he ▸ .term _ cs ht
  · intro a' c' w hc _ ih a ha
    subst ha
    obtain ⟨c, h1, h2⟩ := mem_capAlt hc
    exact .mk a c w h1 (ih c h2)
  · intro c hc
    cases c with
    | nil => exact .nil
    | cons q c => obtain ⟨mn, mx, e⟩ := q; rw [capConcat] at hc; cases hc
  · intro q' c' u v _ _ ih1 ih2 c hc
    cases c with
    | nil => rw [capConcat] at hc; cases hc
    | cons q c =>
      obtain ⟨mn, mx, e⟩ := q
      rw [capConcat] at hc
      obtain ⟨h1, h2⟩ := List.cons.inj hc
      exact .cons _ _ _ _ (ih1 mn mx e h1) (ih2 c h2)
  · intro mn' mx' e' n w h1 h2 _ ih mn mx e he
    obtain ⟨rfl, rfl, rfl⟩ := Rep.mk.inj he
    refine .mk mn' mx e n w h1 (fun u hu => ?_) (ih e rfl)
    subst hu
    exact h2 u rfl
  · intro e' e _; exact .zero e
  · intro e' n u v _ _ ih1 ih2 e he
    exact .succ e n u v (ih1 e he) (ih2 e he)

end

/-! ## What is written when something is written -/

section
variable {σ : Type} {S : Source σ} {o : AstOpts} {g : Grammar} {m : CostMap} {rec : Str → Nat → AstSt σ → Run (AstSt σ)} {depth : Nat}

/-- What is assumed of a repetition. -/
structure CapRepOK (G : Grammar) (rec : Str → Nat → AstSt σ → Run (AstSt σ)) (depth : Nat) (q : Rep) : Prop where
  call : ∀ n, q.elem = .rulename n → ∀ st, (rec n (depth + 1) st).Sat True True (AstPost True (Derives G (.rulename n)) st)
  emit : Emittable q.elem ∧ (∀ u, q.max = some u → q.min ≤ u) ∧ ∀ a, q.elem = .group a → a ≠ []

theorem astLoop_cap {G : Grammar} {e : Elem} {step : AstSt σ → Run (AstSt σ)} {lo : Nat}
    (hstep : ∀ st, (step st).Sat True True (AstPost True (Derives G e) st)) (k : Nat) : ∀ i st, lo ≤ i + k →
    (astLoop o step lo k i st).Sat True True (AstPost True (fun w => ∃ j, lo ≤ i + j ∧ j ≤ k ∧ DerivesTimes G e j w) st) := by
  induction k with
  | zero => intro i st h; exact ⟨[], by simp, fun _ => ⟨0, h, Nat.le_refl _, .zero e⟩⟩
  | succ k ih =>
    intro i st h
    unfold astLoop
    refine (hstep st).bnd fun st' ⟨u, hu, hd⟩ => ?_
    split_ifs with hbr
    · refine ⟨u, hu, fun hm => ⟨1, hbr.1, by omega, ?_⟩⟩
      have := DerivesTimes.succ e 0 u [] (hd hm) (.zero e)
      rwa [List.append_nil] at this
    · refine (ih (i + 1) st' (by omega)).mono fun st'' ⟨v, hv, hd'⟩ => ?_
      refine ⟨u ++ v, by rw [hv, hu, List.append_assoc], fun hm => ?_⟩
      obtain ⟨j, h1, h2, h3⟩ := hd' hm
      exact ⟨j + 1, by omega, by omega, .succ e j u v (hd hm) h3⟩

variable (G : Grammar) (hS : S.InRange) (hR : -2 ^ 63 ≤ o.maxRepeat)
include hS hR

mutual
theorem astPick_cap : (a : List (List Rep)) → (∀ q ∈ altReps a, CapRepOK G rec depth q) → ∀ k st,
    (astPick S o g.rules m rec a k depth st).Sat True True (AstPost True (DerivesAlt G (capAlt o.maxRepeat.toNat a)) st)
  | [], _, k, st => by rw [astPick]; trivial
  | c :: a, h, 0, st => by
    rw [astPick]
    refine (astReps_cap c (fun q hq => h q (by simp [altReps, hq])) st).mono fun st' ⟨w, hw, hd⟩ => ?_
    rw [capAlt]
    exact ⟨w, hw, fun hm => derivesAlt_cons.mpr (.inl (hd hm))⟩
  | c :: a, h, k + 1, st => by
    rw [astPick]
    refine (astPick_cap a (fun q hq => h q (by simp [altReps, hq])) k st).mono fun st' ⟨w, hw, hd⟩ => ?_
    rw [capAlt]
    exact ⟨w, hw, fun hm => derivesAlt_cons.mpr (.inr (hd hm))⟩
theorem astReps_cap : (c : List Rep) → (∀ q ∈ concatReps c, CapRepOK G rec depth q) → ∀ st,
    (astReps S o g.rules m rec c depth st).Sat True True (AstPost True (DerivesConcat G (capConcat o.maxRepeat.toNat c)) st)
  | [], _, st => by
    rw [astReps, capConcat]
    exact ⟨[], by simp, fun _ => .nil⟩
  | ⟨mn, mx, e⟩ :: c, h, st => by
    have hq := h ⟨mn, mx, e⟩ (by simp [concatReps, repReps])
    obtain ⟨c1, c2, c3, c4, _⟩ := astCount_ok (o := o) hS mn mx depth st
    rw [astReps, capConcat]
    refine (astLoop_cap (fun st => astElem_cap e mn mx (fun q hq => h q (by simp [concatReps, hq])) st) _ 0 _ (by omega)).bnd
      fun st1 ⟨u, hu, hd⟩ => ?_
    rw [c2] at hu
    refine (astReps_cap c (fun q hq => h q (by simp [concatReps, hq])) st1).mono fun st2 ⟨v, hv, hd'⟩ => ?_
    refine ⟨u ++ v, by rw [hv, hu, List.append_assoc], fun hm => ?_⟩
    obtain ⟨j, h1, h2, h3⟩ := hd hm
    have hmax := hq.emit.2.1
    simp only [Rep.max_mk, Rep.min_mk] at hmax
    refine .cons _ _ _ _ (.mk mn _ _ j u (by omega) (fun u' hu' => ?_) h3) (hd' hm)
    cases hu'
    cases mx with
    | none => exact le_trans h2 (c4 rfl hR)
    | some u' => exact le_trans h2 (c3 u' rfl (hmax u' rfl))
theorem astElem_cap : (e : Elem) → ∀ mn mx, (∀ q ∈ repReps ⟨mn, mx, e⟩, CapRepOK G rec depth q) → ∀ st,
    (astElem S o g.rules m rec e depth st).Sat True True (AstPost True (Derives G (capElem o.maxRepeat.toNat e)) st)
  | .rulename n, mn, mx, h, st => by
    rw [astElem, capElem]
    exact (h _ (List.mem_cons_self ..)).call n rfl st
  | .group a, mn, mx, h, st => by
    rw [astElem, capElem]
    have hne := (h _ (List.mem_cons_self ..)).emit.2.2 a rfl
    rw [if_neg (by simpa using hne)]
    refine (astPick_cap a (fun q hq => h q (List.mem_cons_of_mem _ hq)) _ _).mono fun st' ⟨w, hw, hd⟩ => ?_
    exact ⟨w, by rw [hw, (astIdx_ok hS hne depth st).2.1], fun hm => .group _ w (hd hm)⟩
  | .option a, mn, mx, h, st => by
    rw [astElem, capElem]
    by_cases ho : astOver o st depth = true
    · rw [if_pos ho]
      exact ⟨[], by simp, fun _ => .optNone _⟩
    · rw [if_neg ho]
      simp only
      by_cases hd : (S.intn st.src 2).1 = 1
      · rw [if_pos hd]
        by_cases hne : a = []
        · subst hne
          exact ⟨[], by simp, fun _ => .optNone _⟩
        · rw [if_neg (by simpa using hne)]
          refine (astPick_cap a (fun q hq => h q (List.mem_cons_of_mem _ hq)) _ _).mono fun st' ⟨w, hw, hd⟩ => ?_
          exact ⟨w, by rw [hw, (astIdx_ok hS hne depth _).2.1], fun hm => .optSome _ w (hd hm)⟩
      · rw [if_neg hd]
        exact ⟨[], by simp, fun _ => .optNone _⟩
  | .charVal s vs, _, _, _, st => by
    rw [astElem, capElem]
    obtain ⟨ws, h1, h2⟩ := astChars_out (S := S) s vs st
    exact ⟨_, h1, fun _ => .term _ _ h2⟩
  | .numVal b .series es, mn, mx, h, st => by
    rw [astElem, capElem]
    obtain ⟨ws, h1, h2⟩ := astSeries_out b es (h _ (List.mem_cons_self ..)).emit.1 st
    exact ⟨_, h1, fun _ => .term _ _ h2⟩
  | .numVal b .range es, mn, mx, h, st => by
    rw [astElem, capElem]
    obtain ⟨w, h1, h2⟩ := astRange_out (g := G) hS b es st
    exact ⟨w, h1, fun _ => h2 (h _ (List.mem_cons_self ..)).emit.1⟩
  | .proseVal v, mn, mx, h, st => (h _ (List.mem_cons_self ..)).emit.1.elim
end

omit G
theorem astAlt_cap (hd : NamesDistinct g) (k : Nat) : ∀ r, WritableReach g r → ∀ depth (st : AstSt σ),
    (astAlt S o g.rules m (astRule S o g.rules m k) r.alt depth st).Sat True True
      (AstPost True (DerivesAlt (capped o.maxRepeat.toNat g) (capAlt o.maxRepeat.toNat r.alt)) st) := by
  have body : ∀ (rec : Str → Nat → AstSt σ → Run (AstSt σ)) r, WritableReach g r → ∀ depth (st : AstSt σ),
      (∀ q ∈ altReps r.alt, ∀ n, q.elem = .rulename n → ∀ st, (rec n (depth + 1) st).Sat True True
        (AstPost True (Derives (capped o.maxRepeat.toNat g) (.rulename n)) st)) →
      (astAlt S o g.rules m rec r.alt depth st).Sat True True
        (AstPost True (DerivesAlt (capped o.maxRepeat.toNat g) (capAlt o.maxRepeat.toNat r.alt)) st) := by
    intro rec r hw depth st hrec
    obtain ⟨hne, hq⟩ := hw r .refl
    unfold astAlt
    rw [if_neg (by simpa using hne)]
    refine (astPick_cap (g := g) (m := m) (capped o.maxRepeat.toNat g) hS hR r.alt (fun q h => ⟨hrec q h, hq q h⟩) _ _).mono
      fun st' ⟨w, hw, hd⟩ => ?_
    exact ⟨w, by rw [hw, (astIdx_ok hS hne depth st).2.1], hd⟩
  induction k with
  | zero =>
    intro r hw depth st
    refine body _ r hw depth st fun q _ n _ st => ?_
    rw [astRule]
    trivial
  | succ k ih =>
    intro r hw depth st
    refine body _ r hw depth st fun q hq n hn st => ?_
    rw [astRule]
    cases hg : getRule n g.rules with
    | none => trivial
    | some r2 =>
      have hr2 := (getRule_iff hd).mp hg
      simp only
      refine (ih r2 (fun r3 h3 => hw r3 (.head ⟨q, hq, n, hn, hr2⟩ h3)) (depth + 1) st).mono fun st' ⟨w, h1, h2⟩ => ?_
      exact ⟨w, h1, fun hm => .rule n _ w (capped_resolves hr2) (h2 hm)⟩

end

/-! ## What is written when every choice is steered -/

/-- The output grew by something of at most the size, and the source still gives zeros. -/
def SmallPost {σ : Type} (K : σ → Prop) (D : Bytes → Nat → Prop) (cost : Nat) (st st' : AstSt σ) : Prop :=
  K st'.src ∧ ∃ w k, st'.out = st.out ++ w ∧ D w k ∧ w.length + k ≤ cost

theorem sameLetters_length {vs ws : List Char} (h : List.Forall₂ SameLetter vs ws) : (utf8 ws).length = (utf8 vs).length := by
  induction h with
  | nil => rfl
  | cons h _ ih => rw [utf8_cons_length, utf8_cons_length, ih, sameLetter_size h]

section
variable {σ : Type} {S : Source σ} {o : AstOpts} {g : Grammar} {m : CostMap} {K : σ → Prop}
  {rec : Str → Nat → AstSt σ → Run (AstSt σ)} {depth B : Nat}

theorem astChars_src (hK : ∀ s n, K s → (S.intn s n).1 = 0 ∧ K (S.intn s n).2) (sensitive : Bool) (vs : List Char) :
    ∀ st : AstSt σ, K st.src → K (astChars S sensitive vs st).src := by
  induction vs with
  | nil => intro st h; exact h
  | cons c vs ih =>
    intro st h
    unfold astChars
    by_cases hs : (!sensitive && isLetter c) = true
    · rw [if_pos hs]
      exact ih _ (hK st.src 2 h).2
    · rw [if_neg hs]
      exact ih _ h

theorem astSeries_src (b : Str) (es : List Str) : ∀ st : AstSt σ, (astSeries b es st).src = st.src := by
  induction es with
  | nil => intro st; rfl
  | cons s es ih =>
    intro st
    unfold astSeries
    simp only
    rw [ih]
    split_ifs <;> rfl

theorem series_length {b : Str} {es : List Str} {cs : List Char} (h : Terminal (.numVal b .series es) cs) :
    (utf8 cs).length = (es.map fun s => runeLen s b).sum := by
  cases h with
  | series _ _ _ h =>
    induction h with
    | nil => rfl
    | cons h _ ih => rw [utf8_cons_length, List.map_cons, List.sum_cons, runeLen_of h, ih]

/-- What is assumed of a repetition. -/
structure SmallRep (g : Grammar) (m : CostMap) (K : σ → Prop) (rec : Str → Nat → AstSt σ → Run (AstSt σ)) (depth B : Nat) (q : Rep) : Prop where
  call : ∀ n, q.elem = .rulename n → costElem g.rules m (.rulename n) ≤ B → ∀ st, K st.src →
    (rec n (depth + 1) st).Sat True True (SmallPost K (Sized g (.rulename n)) (costElem g.rules m (.rulename n)) st)
  emit : Emittable q.elem ∧ (∀ u, q.max = some u → q.min ≤ u) ∧ ∀ a, q.elem = .group a → a ≠ []
  small : q.min < 2 ^ 33

theorem astLoop_small {e : Elem} {step : AstSt σ → Run (AstSt σ)} {lo cost : Nat}
    (hstep : ∀ st, K st.src → (step st).Sat True True (SmallPost K (Sized g e) cost st)) (k : Nat) : ∀ i st, lo ≤ i + k → K st.src →
    (astLoop o step lo k i st).Sat True True
      (SmallPost K (fun w l => ∃ j, lo ≤ i + j ∧ j ≤ k ∧ SizedTimes g e j w l) (k * cost) st) := by
  induction k with
  | zero => intro i st h hk; exact ⟨hk, [], 0, by simp, ⟨0, h, Nat.le_refl _, .zero e⟩, by simp⟩
  | succ k ih =>
    intro i st h hk
    unfold astLoop
    refine (hstep st hk).bnd fun st' ⟨hk', u, a, hu, hd, hc⟩ => ?_
    split_ifs with hbr
    · refine ⟨hk', u, a, hu, ⟨1, hbr.1, by omega, ?_⟩, ?_⟩
      · have := SizedTimes.succ e 0 u [] a 0 hd (.zero e)
        rwa [List.append_nil] at this
      · rw [Nat.succ_mul]; omega
    · refine (ih (i + 1) st' (by omega) hk').mono fun st'' ⟨hk'', v, b, hv, ⟨j, h1, h2, h3⟩, hc'⟩ => ?_
      refine ⟨hk'', u ++ v, a + b, by rw [hv, hu, List.append_assoc], ⟨j + 1, by omega, by omega, .succ e j u v a b hd h3⟩, ?_⟩
      rw [List.length_append, Nat.succ_mul]
      omega

variable (hK : ∀ s n, K s → (S.intn s n).1 = 0 ∧ K (S.intn s n).2) (hover : ∀ (st : AstSt σ) depth, astOver o st depth = true)
  (hB : B < astUnbounded)
include hK hover hB

mutual
theorem astPick_small : (a : List (List Rep)) → (∀ q ∈ altReps a, SmallRep g m K rec depth B q) → ∀ k st, k < a.length →
    costConcat g.rules m (a.getD k []) ≤ B → K st.src →
    (astPick S o g.rules m rec a k depth st).Sat True True (SmallPost K (SizedAlt g a) (costConcat g.rules m (a.getD k [])) st)
  | [], _, k, st, hk, _, _ => absurd hk (Nat.not_lt_zero _)
  | c :: a, h, 0, st, _, hc, hs => by
    rw [astPick]
    refine (astReps_small c (fun q hq => h q (by simp [altReps, hq])) st hc hs).mono fun st' ⟨hk, w, l, hw, hd, hl⟩ => ?_
    exact ⟨hk, w, l, hw, .mk _ c w l (List.mem_cons_self ..) hd, hl⟩
  | c :: a, h, k + 1, st, hk, hc, hs => by
    rw [astPick]
    refine (astPick_small a (fun q hq => h q (by simp [altReps, hq])) k st (by simpa using hk) hc hs).mono
      fun st' ⟨hk, w, l, hw, hd, hl⟩ => ?_
    obtain ⟨_, y, _, _, hy, h5⟩ := hd
    exact ⟨hk, w, l, hw, .mk _ y w l (List.mem_cons_of_mem _ hy) h5, hl⟩
theorem astReps_small : (c : List Rep) → (∀ q ∈ concatReps c, SmallRep g m K rec depth B q) → ∀ st,
    costConcat g.rules m c ≤ B → K st.src →
    (astReps S o g.rules m rec c depth st).Sat True True (SmallPost K (SizedConcat g c) (costConcat g.rules m c) st)
  | [], _, st, _, hs => by
    rw [astReps]
    exact ⟨hs, [], 0, by simp, .nil, Nat.zero_le _⟩
  | ⟨mn, mx, e⟩ :: c, h, st, hc, hs => by
    have hq := h ⟨mn, mx, e⟩ (by simp [concatReps, repReps])
    have hcost := costConcat_cons (rs := g.rules) (m := m) (mn := mn) (mx := mx) (e := e) (c := c)
      fun q hq => (h q (mem_concatReps hq)).small
    rw [hcost] at hc ⊢
    have hcount : astCount S o mn mx depth st = (mn, st) := by
      unfold astCount
      rw [hover]
      simp
    rw [astReps, hcount]
    simp only
    have hloop : (astLoop o (fun st => astElem S o g.rules m rec e depth st) mn mn 0 st).Sat True True
        (SmallPost K (fun w l => ∃ j, mn ≤ 0 + j ∧ j ≤ mn ∧ SizedTimes g e j w l) (mn * costElem g.rules m e) st) := by
      by_cases h0 : mn = 0
      · subst h0
        rw [astLoop]
        exact ⟨hs, [], 0, by simp, ⟨0, by omega, by omega, .zero e⟩, by simp⟩
      · have h5 : 1 * costElem g.rules m e ≤ mn * costElem g.rules m e := Nat.mul_le_mul_right _ (by omega)
        exact astLoop_small (fun st hs => astElem_small e mn mx (fun q hq => h q (by simp [concatReps, hq])) st (by omega) hs) mn 0 st
          (by omega) hs
    refine hloop.bnd fun st1 ⟨hk1, u, k, hu, ⟨j, h1, h2, h3⟩, hl1⟩ => ?_
    refine (astReps_small c (fun q hq => h q (by simp [concatReps, hq])) st1 (by omega) hk1).mono fun st2 ⟨hk2, v, l, hv, hd', hl2⟩ => ?_
    have hmax := hq.emit.2.1
    simp only [Rep.max_mk, Rep.min_mk] at hmax
    refine ⟨hk2, u ++ v, k + l, by rw [hv, hu, List.append_assoc],
      .cons _ _ _ _ _ _ (.mk mn mx e j u k (by omega) (fun u' hu' => le_trans h2 (hmax u' hu')) h3) hd', ?_⟩
    rw [List.length_append]
    omega
theorem astElem_small : (e : Elem) → ∀ mn mx, (∀ q ∈ repReps ⟨mn, mx, e⟩, SmallRep g m K rec depth B q) → ∀ st,
    costElem g.rules m e ≤ B → K st.src →
    (astElem S o g.rules m rec e depth st).Sat True True (SmallPost K (Sized g e) (costElem g.rules m e) st)
  | .rulename n, mn, mx, h, st, hc, hs => by
    rw [astElem]
    exact (h _ (List.mem_cons_self ..)).call n rfl hc st hs
  | .group a, mn, mx, h, st, hc, hs => by
    rw [astElem]
    have hne := (h _ (List.mem_cons_self ..)).emit.2.2 a rfl
    rw [if_neg (by simpa using hne)]
    rw [costElem_group] at hc ⊢
    obtain ⟨i1, i2⟩ := cheapestConcat_ok (m := m) (rs := g.rules) hne
    have i3 : costConcat g.rules m (a.getD (cheapestConcat g.rules m a) []) ≤ costAlt g.rules m a := by
      rcases (costAlt_le_iff (rs := g.rules) (m := m) hne _).mp (Nat.le_refl _) with h1 | ⟨d, hd, h1⟩
      · omega
      · exact le_trans (i2 d hd) h1
    have hidx : astIdx S o g.rules m a depth st = (cheapestConcat g.rules m a, st) := by unfold astIdx; rw [if_pos (hover st depth)]
    rw [hidx]
    refine (astPick_small a (fun q hq => h q (List.mem_cons_of_mem _ hq)) _ st i1 (by omega) hs).mono fun st' ⟨hk, w, l, hw, hd, hl⟩ => ?_
    exact ⟨hk, w, l, hw, .group a w l hd, by omega⟩
  | .option a, mn, mx, h, st, _, hs => by
    rw [astElem, if_pos (hover st depth)]
    exact ⟨hs, [], 0, by simp, .optNone a, Nat.zero_le _⟩
  | .charVal s vs, _, _, _, st, _, hs => by
    rw [astElem]
    obtain ⟨ws, h1, h2⟩ := astChars_out (S := S) s vs st
    refine ⟨astChars_src hK s vs st hs, _, 0, h1, .term _ _ h2, ?_⟩
    rw [costElem, encodeAll_eq_utf8]
    cases h2 with
    | sensitive => exact Nat.le_refl _
    | insensitive _ _ h => exact le_of_eq (sameLetters_length h)
  | .numVal b .series es, mn, mx, h, st, _, hs => by
    rw [astElem]
    obtain ⟨ws, h1, h2⟩ := astSeries_out b es (h _ (List.mem_cons_self ..)).emit.1 st
    refine ⟨by rw [astSeries_src]; exact hs, _, 0, h1, .term _ _ h2, ?_⟩
    rw [costElem]
    exact le_of_eq (series_length h2)
  | .numVal b .range es, mn, mx, h, st, _, hs => by
    have he := (h _ (List.mem_cons_self ..)).emit.1
    have hr := range_nonempty he
    rw [astElem]
    unfold astRange
    simp only
    rw [if_neg (by omega), (hK _ _ hs).1]
    have h4 := range_emits (g := g) he (Nat.le_refl _) hr.2
    refine ⟨(hK _ _ hs).2, _, 0, by simp only [AstSt.emit, encode_rune, Nat.add_zero], .term _ _ ((derives_term (by simp) (by simp) (by simp) _).mp h4), ?_⟩
    rw [costElem, runeLen, encode_rune]
    exact Nat.le_refl _
  | .proseVal v, mn, mx, h, st, _, _ => (h _ (List.mem_cons_self ..)).emit.1.elim
end

omit hB in
theorem astAlt_small (hd : NamesDistinct g) (hsm : SmallMins g) (hfix : CostFix g m) (k : Nat) : ∀ r, Resolves g r.name r → WritableReach g r →
    costAlt g.rules m r.alt < astUnbounded → ∀ depth (st : AstSt σ), K st.src →
    (astAlt S o g.rules m (astRule S o g.rules m k) r.alt depth st).Sat True True
      (SmallPost K (SizedAlt g r.alt) (costAlt g.rules m r.alt) st) := by
  have body : ∀ (rec : Str → Nat → AstSt σ → Run (AstSt σ)) r, Resolves g r.name r → WritableReach g r → costAlt g.rules m r.alt < astUnbounded →
      ∀ depth (st : AstSt σ), K st.src →
      (∀ q ∈ altReps r.alt, ∀ n, q.elem = .rulename n → costElem g.rules m (.rulename n) ≤ costAlt g.rules m r.alt → ∀ st, K st.src →
        (rec n (depth + 1) st).Sat True True (SmallPost K (Sized g (.rulename n)) (costElem g.rules m (.rulename n)) st)) →
      (astAlt S o g.rules m rec r.alt depth st).Sat True True (SmallPost K (SizedAlt g r.alt) (costAlt g.rules m r.alt) st) := by
    intro rec r hr hw hlt depth st hs hrec
    obtain ⟨hne, hq⟩ := hw r .refl
    unfold astAlt
    rw [if_neg (by simpa using hne)]
    obtain ⟨i1, i2⟩ := cheapestConcat_ok (m := m) (rs := g.rules) hne
    have i3 : costConcat g.rules m (r.alt.getD (cheapestConcat g.rules m r.alt) []) ≤ costAlt g.rules m r.alt := by
      rcases (costAlt_le_iff (rs := g.rules) (m := m) hne _).mp (Nat.le_refl _) with h1 | ⟨d, hd, h1⟩
      · omega
      · exact le_trans (i2 d hd) h1
    have hidx : astIdx S o g.rules m r.alt depth st = (cheapestConcat g.rules m r.alt, st) := by unfold astIdx; rw [if_pos (hover st depth)]
    rw [hidx]
    refine (astPick_small hK hover hlt r.alt (fun q h => ⟨hrec q h, hq q h, small_rule hsm hr q h⟩) _ st i1 i3 hs).mono
      fun st' ⟨hk, w, l, hw, hd, hl⟩ => ?_
    exact ⟨hk, w, l, hw, hd, by omega⟩
  induction k with
  | zero =>
    intro r hr hw hlt depth st hs
    refine body _ r hr hw hlt depth st hs fun q _ n _ _ st _ => ?_
    rw [astRule]
    trivial
  | succ k ih =>
    intro r hr hw hlt depth st hs
    refine body _ r hr hw hlt depth st hs fun q hq n hn hle st hs => ?_
    rw [astRule]
    cases hg : getRule n g.rules with
    | none => trivial
    | some r2 =>
      have hr2 := (getRule_iff hd).mp hg
      obtain ⟨h1, h2⟩ := costElem_rule hd hfix hr2
      simp only
      refine (ih r2 (resolves_self hr2) (fun r3 h3 => hw r3 (.head ⟨q, hq, n, hn, hr2⟩ h3)) (by omega) (depth + 1) st hs).mono
        fun st' ⟨hk, w, l, hw, hd, hl⟩ => ?_
      exact ⟨hk, w, l + 1, hw, .rule n r2 w l hr2 hd, by omega⟩

end

namespace Props

/-- C123: whatever the costs and however much the rules nest, a text that is written for a rule is one of the grammar in which
every unbounded repetition ends after `MaxRepeat` more than its minimum, and so one of the grammar itself. -/
theorem C123_repeat (g : Grammar) (hd : NamesDistinct g) (m : CostMap) (name : Str) (start : Rule) (hr : Resolves g name start)
    (hw : WritableReach g start) {σ : Type} (S : Source σ) (hS : S.InRange) (o : AstOpts) (hR : -2 ^ 63 ≤ o.maxRepeat) (fuel : Nat) (s : σ)
    (w : Bytes) (h : astWalk S o g.rules m fuel start s = .ok w) :
    DerivesRule (capped o.maxRepeat.toNat g) name w ∧ DerivesRule g name w := by
  have key := astAlt_cap (m := m) hS hR hd fuel start hw 0 ⟨s, []⟩
  unfold astWalk at h
  have h1 : DerivesRule (capped o.maxRepeat.toNat g) name w := by
    cases hrun : astAlt S o g.rules m (astRule S o g.rules m fuel) start.alt 0 ⟨s, []⟩ with
    | panic => rw [hrun] at h; cases h
    | fuel => rw [hrun] at h; cases h
    | ok st =>
      rw [hrun] at h key
      obtain ⟨v, h1, h2⟩ := key
      cases h
      rw [h1]
      exact .rule name _ _ (capped_resolves hr) (h2 trivial)
  exact ⟨h1, capped_derives h1 (.rulename name) (by rw [capElem])⟩

example : NamesDistinct lists ∧ (∀ r, Resolves lists (str% "List") r → WritableReach lists r) ∧ tapeSource.InRange ∧
    (∃ start m, newASTGenerator plainRules (astRounds lists) lists (str% "List") = .ok (.ok (start, m)) ∧
      astWalk tapeSource { maxRepeat := 2 } lists.rules m (32 + 2 ^ 30) start ⟨[2, 1, 0, 1, 2, 0, 0, 3, 9, 4, 1, 2, 3, 4, 5, 6, 7, 8, 9, 1, 2, 4], 0⟩ =
        .ok (bytes% "(()(j(01)))")) :=
  ⟨namesDistinct_of (by decide), fun _ hr => writable_of (by decide +kernel) (by decide +kernel) hr, C29_sources.1,
   astRun_ok (by decide +kernel)⟩

/-- The grammar `a = *"x"`. -/
def stars : Grammar := ⟨[⟨['a'], [[⟨0, none, .charVal false ['x']⟩]]⟩]⟩

/-- The bound of C123 is one: capped at two, `*"x"` derives `xx` and does not derive `xxx`. -/
example : DerivesRule (capped 2 stars) ['a'] (bytes% "xx") ∧ ¬ DerivesRule (capped 2 stars) ['a'] (bytes% "xxx") ∧
    DerivesRule stars ['a'] (bytes% "xxx") := by
  have x : ∀ G, Derives G (.charVal false ['x']) (bytes% "x") :=
    fun G => .term _ ['x'] (.insensitive _ _ (List.forall₂_same.mpr fun _ _ => .inl rfl))
  have ra : Resolves stars ['a'] (stars.rules[0]) := (getRule_iff (namesDistinct_of (by decide))).mp (by decide +kernel)
  have len : ∀ {G n w}, DerivesTimes G (.charVal false ['x']) n w → w.length = n := by
    intro G n
    induction n with
    | zero => intro w h; cases h; rfl
    | succ n ih =>
      intro w h
      cases h with
      | succ _ _ u v h1 h2 =>
        cases h1 with
        | term _ cs h1 =>
          cases h1 with
          | insensitive _ _ h1 => rw [List.length_append, sameLetters_length h1, ih h2, Nat.add_comm]; rfl
  refine ⟨.rule _ _ _ (capped_resolves ra) ?_, fun h => ?_, .rule _ _ _ ra ?_⟩
  · refine .mk _ _ _ (List.mem_cons_self ..) (derivesConcat_one.mpr (.mk 0 (some 2) (.charVal false ['x']) 2 _ (by decide) ?_ ?_))
    · intro m h; cases h; exact Nat.le_refl _
    · exact .succ _ 1 _ (bytes% "x") (x _) (.succ _ 0 _ [] (x _) (.zero _))
  · obtain ⟨r', hr', h⟩ := derives_rulename.mp h
    obtain ⟨r, hr, rfl⟩ := resolves_capped hr'
    obtain rfl := resolves_unique (namesDistinct_of (by decide)) hr ra rfl
    change DerivesAlt _ [[⟨0, some 2, .charVal false ['x']⟩]] _ at h
    rcases derivesAlt_cons.mp h with h | h
    · have h := derivesConcat_one.mp h
      generalize hw : (bytes% "xxx") = w at h
      cases h with
      | mk _ _ _ n _ _ h2 h3 =>
        have := len h3
        have := h2 2 rfl
        subst hw
        simp at *
        omega
    · cases h with
      | mk _ _ _ hc _ => cases hc
  · refine .mk _ _ _ (List.mem_cons_self ..) (derivesConcat_one.mpr (.mk 0 none (.charVal false ['x']) 3 _ (by decide) ?_ ?_))
    · intro m h; cases h
    · exact .succ _ 2 _ (bytes% "xx") (x _) (.succ _ 1 _ (bytes% "x") (x _) (.succ _ 0 _ [] (x _) (.zero _)))

/-- C123: when the depth or the length allowed is not positive, so that every choice is steered, and the source gives zeros, as an
exhausted tape does, a generator that was built writes a smallest derivation: bytes and rules passed through counted together. -/
theorem C123_smallest (g : Grammar) (hd : NamesDistinct g) (hs : SmallMins g) (sched : Sched (Str × Rule)) (hf : sched.Fair)
    (rounds : Nat) (hrounds : astRounds g ≤ rounds) (name : Str) (start : Rule) (m : CostMap)
    (h : newASTGenerator sched rounds g name = .ok (.ok (start, m))) (hw : WritableReach g start)
    {σ : Type} (S : Source σ) (hS : S.InRange) (K : σ → Prop) (hK : ∀ s n, K s → (S.intn s n).1 = 0 ∧ K (S.intn s n).2)
    (o : AstOpts) (ho : o.maxDepth ≤ 0 ∨ o.maxLen ≤ 0) (fuel : Nat) (hfuel : 2 ^ 30 + o.maxDepth.toNat ≤ fuel) (s : σ) (hks : K s) :
    ∃ w k, astWalk S o g.rules m fuel start s = .ok w ∧ SizedAlt g start.alt w k ∧
      ∀ w' k', SizedAlt g start.alt w' k' → w.length + k ≤ w'.length + k' := by
  obtain ⟨w, hwalk⟩ := C28_ends g hd hs sched hf rounds hrounds name start m h S hS o fuel (by omega) s
  cases hg : getRule name g.rules with
  | none => unfold newASTGenerator at h; rw [hg] at h; cases h
  | some r =>
    have hr := (getRule_iff hd).mp hg
    obtain ⟨m', h1, ⟨h2, h3⟩ | ⟨e, h2, _⟩⟩ := newAst_cases hd hs hf hrounds hr
    · rw [h2] at h
      cases h
      have hlt := (h3 _ .refl).1
      rw [(costElem_rule hd h1 (resolves_self hr)).2] at hlt
      have hover : ∀ (st : AstSt σ) depth, astOver o st depth = true := by
        intro st depth
        unfold astOver
        rw [Bool.or_eq_true, decide_eq_true_eq, decide_eq_true_eq]
        omega
      have key := astAlt_small (m := m) hK hover hd hs h1 fuel start (resolves_self hr) hw hlt 0 ⟨s, []⟩ hks
      have hwalk' := hwalk
      unfold astWalk at hwalk'
      cases hrun : astAlt S o g.rules m (astRule S o g.rules m fuel) start.alt 0 ⟨s, []⟩ with
      | panic => rw [hrun] at hwalk'; cases hwalk'
      | fuel => rw [hrun] at hwalk'; cases hwalk'
      | ok st =>
        rw [hrun] at hwalk' key
        obtain ⟨_, v, k, e1, e2, e3⟩ := key
        cases hwalk'
        refine ⟨_, k, hwalk, by rw [e1]; exact e2, fun w' k' h' => ?_⟩
        rw [e1]
        exact le_trans e3 (sized_cost hd hs h1 h' (small_rule hs (resolves_self hr)))
    · rw [h2] at h; cases h

/-- A tape that has been read gives zeros. -/
theorem tape_zeros (s : TapeSource) (n : Nat) (h : s.tape.length ≤ s.pos) :
    (tapeSource.intn s n).1 = 0 ∧ (tapeSource.intn s n).2.tape.length ≤ (tapeSource.intn s n).2.pos := by
  have hz : tapePush 0 0 = 0 := by decide +kernel
  have hread : ∀ k, TapeSource.read k 0 s = (0, s) := by
    intro k
    induction k with
    | zero => rfl
    | succ k ih => rw [TapeSource.read, List.getElem?_eq_none h]; simpa only [hz] using ih
  show ((s.intn n).1.toNat = 0 ∧ (s.intn n).2.tape.length ≤ (s.intn n).2.pos)
  unfold TapeSource.intn
  by_cases h1 : n ≤ 1
  · rw [if_pos h1]; exact ⟨rfl, h⟩
  · rw [if_neg h1]; simp only; rw [hread]; exact ⟨by simp, h⟩

example : NamesDistinct lists ∧ SmallMins lists ∧ (∀ r, Resolves lists (str% "List") r → WritableReach lists r) ∧ tapeSource.InRange ∧
    (∀ (s : TapeSource) n, s.tape.length ≤ s.pos →
      (tapeSource.intn s n).1 = 0 ∧ (tapeSource.intn s n).2.tape.length ≤ (tapeSource.intn s n).2.pos) ∧
    (∃ start m, newASTGenerator plainRules (astRounds lists) lists (str% "List") = .ok (.ok (start, m)) ∧
      astWalk tapeSource { maxDepth := 0 } lists.rules m (0 + 2 ^ 30) start ⟨[], 0⟩ = .ok (bytes% "()")) :=
  ⟨namesDistinct_of (by decide), smallMins_of (by decide +kernel), fun _ hr => writable_of (by decide +kernel) (by decide +kernel) hr,
   C29_sources.1, tape_zeros, astRun_ok (by decide +kernel)⟩

/-- The grammar `a = "xx" / "x"`. -/
def longFirst : Grammar :=
  ⟨[⟨['a'], [[⟨1, some 1, .charVal false ['x', 'x']⟩], [⟨1, some 1, .charVal false ['x']⟩]]⟩]⟩

/-- C123 without the bound on the options fails: an exhausted tape takes the first alternative and not the shortest, as long as the
depth and the length are within what is allowed.  The comment of `Generate` says that it biases toward the shortest production
(/repo/ast.go:168-170). -/
theorem C123_first_fails : ∃ (g : Grammar) (name : Str), NamesDistinct g ∧ semvalABNF g = none ∧
    (∃ start m, newASTGenerator plainRules (astRounds g) g name = .ok (.ok (start, m)) ∧
      astWalk tapeSource {} g.rules m (32 + 2 ^ 30) start ⟨[], 0⟩ = .ok (bytes% "xx")) ∧ DerivesRule g name (bytes% "x") := by
  have hd : NamesDistinct longFirst := namesDistinct_of (by decide)
  have hs : (semvalABNF longFirst).isNone = true := by decide +kernel
  refine ⟨longFirst, ['a'], hd, Option.isNone_iff_eq_none.mp hs, astRun_ok (by decide +kernel), ?_⟩
  refine .rule _ _ _ ((getRule_iff hd).mp (by decide +kernel : getRule ['a'] longFirst.rules = some (longFirst.rules[0])))
    (derivesAlt_cons.mpr (.inr (derivesAlt_cons.mpr (.inl ?_))))
  exact derivesConcat_one.mpr (derivesRep_one.mpr (.term _ ['x'] (.insensitive _ _ (List.forall₂_same.mpr fun _ _ => .inl rfl))))

/-- The largest `MaxRepeat` unrolls least: the sum with the minimum wraps, or for the minimum 0 the number of choices does, so an
unbounded repetition is always written its minimum of times. -/
theorem C123_wraps {σ : Type} (S : Source σ) (o : AstOpts) (ho : o.maxRepeat = 2 ^ 63 - 1) (lo : Nat) (hlo : lo < 2 ^ 63) (depth : Nat)
    (st : AstSt σ) : astCount S o lo none depth st = (lo, st) := by
  unfold astCount
  simp only
  rw [if_neg]
  simp only [Bool.and_eq_true, decide_eq_true_eq, not_and, not_lt]
  rintro ⟨_, h⟩
  rw [ho] at h ⊢
  by_cases h0 : lo = 0
  · subst h0; decide
  · exfalso
    have e : wrap64 ((lo : Int) + (2 ^ 63 - 1)) = lo - 1 - 2 ^ 63 := by
      unfold wrap64
      rw [Int.bmod_def, if_neg] <;> omega
    omega

/-- So `WithMaxRepeat(math.MaxInt)` leaves of `*"x"` only the empty text, whatever the source. -/
theorem C123_largest_fails : ∃ (g : Grammar) (name : Str), NamesDistinct g ∧ semvalABNF g = none ∧ DerivesRule g name (bytes% "x") ∧
    ∃ start m, newASTGenerator plainRules (astRounds g) g name = .ok (.ok (start, m)) ∧
      ∀ {σ : Type} (S : Source σ) (s : σ) (fuel : Nat), astWalk S { maxRepeat := 2 ^ 63 - 1 } g.rules m fuel start s = .ok [] := by
  have hd : NamesDistinct stars := namesDistinct_of (by decide)
  have hs : (semvalABNF stars).isNone = true := by decide +kernel
  have hg : getRule ['a'] stars.rules = some (stars.rules[0]) := by decide +kernel
  refine ⟨stars, ['a'], hd, Option.isNone_iff_eq_none.mp hs, .rule _ _ _ ((getRule_iff hd).mp hg) ?_, ?_⟩
  · refine .mk _ _ _ (List.mem_cons_self ..) (derivesConcat_one.mpr (.mk 0 none (.charVal false ['x']) 1 _ (by decide) ?_ ?_))
    · intro m h; cases h
    · exact .succ _ 0 _ [] (.term _ ['x'] (.insensitive _ _ (List.forall₂_same.mpr fun _ _ => .inl rfl))) (.zero _)
  · obtain ⟨start, m, h1, _⟩ := astRun_ok (S := tapeSource) (o := {}) (g := stars) (name := ['a']) (s := ⟨[], 0⟩) (w := []) (by decide +kernel)
    refine ⟨start, m, h1, fun S s fuel => ?_⟩
    have hst : start = stars.rules[0] := by
      unfold newASTGenerator at h1
      rw [hg] at h1
      simp only at h1
      revert h1
      generalize costLoop stars.rules plainRules _ _ _ _ = x
      cases x with
      | panic => intro h; cases h
      | fuel => intro h; cases h
      | ok m' =>
        simp only [Run.bnd]
        split_ifs
        · intro h; cases h
        · generalize visitAlt _ _ _ = y
          cases y with
          | panic => intro h; cases h
          | fuel => intro h; cases h
          | ok z =>
            cases z with
            | error e => intro h; cases h
            | ok z => intro h; cases h; rfl
    subst hst
    have hi : ∀ st, astIdx S { maxRepeat := 2 ^ 63 - 1 } stars.rules m (stars.rules[0]).alt 0 st = (0, st) := by
      intro st
      unfold astIdx
      by_cases ho : astOver { maxRepeat := 2 ^ 63 - 1 } st 0 = true
      · rw [if_pos ho]; rfl
      · rw [if_neg ho, if_neg (by decide)]
    unfold astWalk astAlt
    rw [if_neg (by decide), hi]
    simp only [stars, List.getElem_cons_zero, astPick, astReps]
    rw [C123_wraps S _ rfl 0 (by decide)]
    rfl

end Props
end Verif
