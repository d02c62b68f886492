import Verif.LeftRecMap

/-!
# Completeness of the recogniser

Under conditions that rule out the ways in which it is incomplete, the sets computed by the recogniser contain every end.
-/

namespace Verif
open Spec

section
variable {g : Grammar} {inp : Bytes}

theorem times_cons {A : Rel} {e : Elem} : ∀ {n i k j : Nat}, A e i k → Times A e n k j → Times A e (n + 1) i j := by
  intro n
  induction n with
  | zero => intro i k j h1 h2; rw [Times] at h2; subst h2; exact ⟨i, rfl, h1⟩
  | succ n ih =>
    rintro i k j h1 ⟨m, h2, h3⟩
    exact ⟨m, ih h1 h2, h3⟩

/-- A relation closed under the constructions of the grammar contains every end from `i` on. -/
theorem ends_induction {A : Rel} {i : Nat}
    (hrule : ∀ n r, Resolves g n r → ∀ p j, i ≤ p → Ends g inp (.rulename n) p j → AltEnds A r.alt p j → A (.rulename n) p j)
    (hother : ∀ e, (∀ n, e ≠ .rulename n) → ∀ p j, i ≤ p → Ends g inp e p j → A e p j) {e : Elem} {w : Bytes} (h : Derives g e w) :
    ∀ p j, i ≤ p → At inp p j w → A e p j := by
  refine Derives.rec (g := g)
    (motive_1 := fun e w _ => ∀ p j, i ≤ p → At inp p j w → A e p j)
    (motive_2 := fun a w _ => ∀ p j, i ≤ p → At inp p j w → AltEnds A a p j)
    (motive_3 := fun c w _ => ∀ p j, i ≤ p → At inp p j w → ConcatEnds A c p j)
    (motive_4 := fun r w _ => ∀ p j, i ≤ p → At inp p j w → RepEnds A r p j)
    (motive_5 := fun e n w _ => ∀ p j, i ≤ p → At inp p j w → Times A e n p j)
    ?_ ?_ ?_ ?_ ?_ ?_ ?_ ?_ ?_ ?_ ?_ h
  · intro n r w hr hd ih p j hp hat
    exact hrule n r hr p j hp ⟨w, .rule n r w hr hd, hat⟩ (ih p j hp hat)
  · intro a w hd _ p j hp hat
    exact hother _ (by simp) p j hp ⟨w, .group a w hd, hat⟩
  · intro a p j hp hat
    exact hother _ (by simp) p j hp ⟨[], .optNone a, hat⟩
  · intro a w hd _ p j hp hat
    exact hother _ (by simp) p j hp ⟨w, .optSome a w hd, hat⟩
  · intro e cs ht p j hp hat
    refine hother e ?_ p j hp ⟨_, .term e cs ht, hat⟩
    rintro n rfl
    cases ht
  · intro a c w hc _ ih p j hp hat
    exact ⟨c, hc, ih p j hp hat⟩
  · intro p j _ hat
    exact (at_nil _ _ _).mp hat
  · intro r c u v _ _ ih1 ih2 p j hp hat
    obtain ⟨k, h1, h2⟩ := at_split hat
    have : p ≤ k := by have := h1.2; omega
    exact ⟨k, ih1 p k hp h1, ih2 k j (by omega) h2⟩
  · intro mn mx e n w h1 h2 _ ih p j hp hat
    exact ⟨n, h1, h2, ih p j hp hat⟩
  · intro e p j _ hat
    exact (at_nil _ _ _).mp hat
  · intro e n u v _ _ ih1 ih2 p j hp hat
    obtain ⟨k, h1, h2⟩ := at_split hat
    have : p ≤ k := by have := h1.2; omega
    exact times_cons (ih1 p k hp h1) (ih2 k j (by omega) h2)

theorem altEnds_of_derives {a : Alt} {w : Bytes} (h : DerivesAlt g a w) {i j : Nat} (hat : At inp i j w) :
    AltEnds (Ends g inp) a i j := by
  have hel : ∀ {e : Elem} {w : Bytes}, Derives g e w → ∀ p j, At inp p j w → Ends g inp e p j :=
    fun h p j hat => ⟨_, h, hat⟩
  have htimes : ∀ (e : Elem) (n : Nat) (w : Bytes), DerivesTimes g e n w → ∀ p j, At inp p j w → Times (Ends g inp) e n p j := by
    intro e n
    induction n with
    | zero => intro w h p j hat; cases h; exact (at_nil _ _ _).mp hat
    | succ n ih =>
      intro w h p j hat
      cases h with
      | succ _ _ u v hu hv =>
        obtain ⟨k, h1, h2⟩ := at_split hat
        exact times_cons (hel hu p k h1) (ih v hv k j h2)
  have hconcat : ∀ (c : Concat) (w : Bytes), DerivesConcat g c w → ∀ p j, At inp p j w → ConcatEnds (Ends g inp) c p j := by
    intro c
    induction c with
    | nil => intro w h p j hat; cases h; exact (at_nil _ _ _).mp hat
    | cons r c ih =>
      intro w h p j hat
      cases h with
      | cons _ _ u v hu hv =>
        obtain ⟨k, h1, h2⟩ := at_split hat
        cases hu with
        | mk mn mx e n _ hn hx ht => exact ⟨k, ⟨n, hn, hx, htimes e n u ht p k h1⟩, ih v hv k j h2⟩
  cases h with
  | mk _ c _ hc h => exact ⟨c, hc, hconcat c w h i j hat⟩

/-- Replacing a relation by another one that agrees where it matters. -/
theorem altEnds_congr {A B : Rel} {a : Alt} {i j : Nat}
    (h : ∀ c ∈ a, ∀ pre r post, c = pre ++ r :: post → ∀ p, ConcatEnds A pre i p → ∀ k q, Times A r.elem k p q →
      ∀ j, A r.elem q j → B r.elem q j) (ha : AltEnds A a i j) : AltEnds B a i j := by
  obtain ⟨c, hc, ha⟩ := ha
  refine ⟨c, hc, ?_⟩
  have key : ∀ (post pre : Concat) (p : Nat), c = pre ++ post → ConcatEnds A pre i p → ConcatEnds A post p j → ConcatEnds B post p j := by
    intro post
    induction post with
    | nil => intro pre p _ _ h2; exact h2
    | cons r post ih =>
      rintro pre p hcp h1 ⟨k, hk, h2⟩
      refine ⟨k, ?_, ih (pre ++ [r]) k (by rw [hcp]; simp) (concatEnds_snoc h1 hk) h2⟩
      obtain ⟨n, hn, hx, ht⟩ := hk
      refine ⟨n, hn, hx, ?_⟩
      clear hn hx h2
      induction n generalizing k with
      | zero => exact ht
      | succ n ihn =>
        obtain ⟨m, h3, h4⟩ := ht
        exact ⟨m, ihn m h3, h c hc pre r post hcp p h1 n m h3 k h4⟩
  exact key c [] i rfl rfl ha

theorem concatEnds_mono {A B : Rel} {c : Concat} (h : ∀ r ∈ c, ∀ p j, A r.elem p j → B r.elem p j) {i j : Nat}
    (hc : ConcatEnds A c i j) : ConcatEnds B c i j := by
  induction c generalizing i with
  | nil => exact hc
  | cons r c ih =>
    obtain ⟨k, ⟨n, hn, hx, ht⟩, h2⟩ := hc
    exact ⟨k, ⟨n, hn, hx, times_mono (h r (by simp)) ht⟩, ih (fun r hr => h r (by simp [hr])) h2⟩

/-- Repetitions that together end where they start may derive nothing. -/
theorem vanishes_back (hne : NoEmptySeries g) {c : Concat} (ho : ∀ r ∈ c, Occurs g r.elem) {i : Nat}
    (h : ConcatEnds (Ends g inp) c i i) : VanishesConcat g c := by
  have key : ∀ (c : Concat), (∀ r ∈ c, Occurs g r.elem) → DerivesConcat g c [] → VanishesConcat g c := by
    intro c
    induction c with
    | nil => intro _ _; exact .nil
    | cons r c ih =>
      intro ho h
      generalize hw : ([] : Bytes) = w at h
      cases h with
      | cons _ _ u v hu hv =>
        obtain ⟨rfl, rfl⟩ := List.append_eq_nil_iff.mp hw.symm
        refine .cons r c ?_ (ih (fun r hr => ho r (by simp [hr])) hv)
        generalize hw' : ([] : Bytes) = w' at hu
        cases hu with
        | mk mn mx e n _ hn _ ht =>
          cases ht with
          | zero =>
            have : mn = 0 := by omega
            subst this
            exact .none mx e
          | succ _ n u v hu' _ =>
            obtain ⟨rfl, _⟩ := List.append_eq_nil_iff.mp hw'.symm
            exact .elem mn mx e (vanishes_of_derives hne hu' (Or.inl (ho ⟨mn, mx, e⟩ (by simp))) rfl)
  obtain ⟨w, h1, h2⟩ := concat_derives h
  have : w = [] := List.length_eq_zero_iff.mp (by have := h2.2; omega)
  subst this
  exact key c ho h1

/-- An element reached at the start position is one the alternation can start with. -/
theorem starts_of_back (hne : NoEmptySeries g) {a : Alt} (ha : AltOccurs g a) {A : Rel}
    (hA : ∀ e p j, A e p j → Ends g inp e p j) {i : Nat} (hi : i ≤ inp.length)
    {c pre post : Concat} {r : Rep} (hc : c ∈ a) (hp : c = pre ++ r :: post) {p k q : Nat} (h1 : ConcatEnds A pre i p)
    (h2 : Times A r.elem k p q) : i ≤ q ∧ q ≤ inp.length ∧ (q = i → Starts g a r.elem) := by
  have h1' := concatEnds_mono (B := Ends g inp) (fun r _ p j h => hA _ p j h) h1
  have h2' := times_mono (A := Ends g inp) (fun p j h => hA _ p j h) h2
  have hle : ∀ (e : Elem) p j, p ≤ inp.length → Ends g inp e p j → p ≤ j ∧ j ≤ inp.length := fun e p j hp h => ends_le hp h
  have h3 := concatEnds_le (fun r _ => hle r.elem) hi h1'
  have h4 := times_le (hle r.elem) h3.2 h2'
  refine ⟨by omega, h4.2, ?_⟩
  rintro rfl
  have : p = q := by omega
  subst this
  refine ⟨pre, r.min, r.max, post, ?_, vanishes_back hne (fun s hs => ha c hc s (by rw [hp]; simp [hs])) h1'⟩
  have : (⟨r.min, r.max, r.elem⟩ : Rep) = r := by cases r; rfl
  rw [this, ← hp]; exact hc

end

/-! ## Invariants -/

/-- What the grammar and the analysis must satisfy. -/
structure Fit (E : REnv) : Prop where
  nd : NamesDistinct E.g
  de : DistinctElems E.g
  wf : ∀ e, Occurs E.g e → TermWF e
  ne : NoEmptySeries E.g
  lr : LRGood E.g E.leftRec
  br : UnbracketedLeftRecursion E.g
  rep : ∀ r ∈ rulesReps (E.g.rules ++ Core.rules), Countable E.g E.inp.length r
  hs : E.sched.Fair

/-- The entries of the memo contain every end. -/
def MemoFull (g : Grammar) (inp : Bytes) (m : List (Str × List Nat)) : Prop :=
  ∀ k v, (k, v) ∈ m → ∀ e i, Asked g e → k = memoKey e.str i → ∀ j, Ends g inp e i j → j ∈ v

/-- The memo is exact and the seeds are sound. -/
def RFull (g : Grammar) (inp : Bytes) (st : RSt) : Prop := RSound g inp st ∧ MemoFull g inp st.memo

/-- The same calls are active, with the same seeds. -/
def SameActive (st st' : RSt) : Prop :=
  (∀ k, k ∈ st'.inProgress ↔ k ∈ st.inProgress) ∧ ∀ k, st'.growing.lookup k = st.growing.lookup k

theorem SameActive.refl (st : RSt) : SameActive st st := ⟨fun _ => Iff.rfl, fun _ => rfl⟩
theorem SameActive.trans {a b c : RSt} (h : SameActive a b) (h' : SameActive b c) : SameActive a c :=
  ⟨fun k => (h'.1 k).trans (h.1 k), fun k => (h'.2 k).trans (h.2 k)⟩
theorem SameActive.symm {a b : RSt} (h : SameActive a b) : SameActive b a :=
  ⟨fun k => (h.1 k).symm, fun k => (h.2 k).symm⟩

/-- The ends a call finds: all, or those in the seed if the element is a growing rule. -/
def SeedEnds (g : Grammar) (inp : Bytes) (gr : List (Str × List Nat)) : Rel := fun e p j =>
  Ends g inp e p j ∧ ∀ m s, e = .rulename m → gr.lookup (memoKey (canon m) p) = some s → j ∈ s

/-- Active calls are at positions up to `i`, and growing rules are left-recursive and grow as components. -/
structure Below (E : REnv) (st : RSt) (i : Nat) : Prop where
  ppos : ∀ s p, memoKey s p ∈ st.inProgress → p ≤ i
  gpos : ∀ s p v, st.growing.lookup (memoKey s p) = some v → p ≤ i
  lr : ∀ x p v, st.growing.lookup (memoKey x p) = some v → (E.leftRec.lookup x).isSome
  closed : GrowClosed E.leftRec st.growing

/-- Moreover those at position `i` have the element as a left corner. -/
structure CallOK (E : REnv) (st : RSt) (e : Elem) (i : Nat) : Prop extends Below E st i where
  prog : ∀ f, Asked E.g f → memoKey f.str i ∈ st.inProgress → Relation.TransGen (LeftCorner E.g) f e
  grow : ∀ x v, st.growing.lookup (memoKey x i) = some v → Relation.TransGen (LeftCorner E.g) (.rulename x) e

theorem CallOK.same {E : REnv} {st st' : RSt} {e : Elem} {i : Nat} (h : CallOK E st e i) (hs : SameActive st st') :
    CallOK E st' e i where
  ppos := fun s p hm => h.ppos s p ((hs.1 _).mp hm)
  gpos := fun s p v hm => h.gpos s p v ((hs.2 _).symm.trans hm)
  prog := fun f hf hm => h.prog f hf ((hs.1 _).mp hm)
  grow := fun x v hm => h.grow x v ((hs.2 _).symm.trans hm)
  lr := fun x p v hm => h.lr x p v ((hs.2 _).symm.trans hm)
  closed := fun n s p hn hp y hy => by
    rw [hs.2] at hp ⊢
    exact h.closed n s p hn hp y hy

/-- Beyond the positions of the active calls anything may be called. -/
theorem Below.later {E : REnv} {st : RSt} {i : Nat} (h : Below E st i) {q : Nat} (hq : i < q) (e : Elem) : CallOK E st e q where
  ppos := fun s p hm => by have := h.ppos s p hm; omega
  gpos := fun s p v hm => by have := h.gpos s p v hm; omega
  prog := fun f _ hm => by have := h.ppos _ _ hm; omega
  grow := fun x v hm => by have := h.gpos _ _ _ hm; omega
  lr := h.lr
  closed := h.closed

/-- A complete way of making calls. -/
def FullCall (E : REnv) (rec : RCall) : Prop :=
  ∀ e i st, Asked E.g e → i ≤ E.inp.length → RFull E.g E.inp st → CallOK E st e i →
    (rec e i st).Sat True True (Ret (RFull E.g E.inp) SameActive (Ends E.g E.inp e i) (SeedEnds E.g E.inp st.growing e i) st)

theorem full_frame {g : Grammar} {inp : Bytes} (st0 : RSt) :
    RFrame (fun st => RFull g inp st ∧ SameActive st0 st) SameActive where
  refl := SameActive.refl
  trans := fun _ _ _ => SameActive.trans
  tick := fun _ _ h => h
  rtick := fun _ _ => ⟨fun _ => Iff.rfl, fun _ => rfl⟩

section
variable {E : REnv} {rec : RCall}

/-- A rule with a seed is left-recursive. -/
theorem leftRec_cycle (hF : Fit E) {n : Str} {s : List Str} (h : E.leftRec.lookup (canon n) = some s) : LeftRecursive E.g n := by
  have hm := hF.lr.mem _ _ h
  obtain ⟨y, hy, ht⟩ := hF.lr.conn _ _ h _ hm _ hm
  exact ⟨y, (sameName_iff _ _).mpr hy.symm, corner_trans_congr (canon_canon n) ht⟩

theorem repFit_of (hF : Fit E) {gr : List (Str × List Nat)}
    (hlr : ∀ x p v, gr.lookup (memoKey x p) = some v → (E.leftRec.lookup x).isSome) {r : Rep}
    (hr : r ∈ rulesReps (E.g.rules ++ Core.rules)) :
    RepFit E.inp.length (Ends E.g E.inp) (SeedEnds E.g E.inp gr) r.min r.max r.elem := by
  have hnull : ∀ {p : Nat}, Ends E.g E.inp r.elem p p → Derives E.g r.elem [] := by
    rintro p ⟨w, h1, h2⟩
    have : w = [] := List.length_eq_zero_iff.mp (by have := h2.2; omega)
    subst this; exact h1
  rcases hF.rep r hr with h | ⟨h1, h2⟩ | ⟨h1, h2, h3⟩ | ⟨h1, h2⟩ | ⟨h1, h2, h3⟩
  · exact Or.inl h
  · refine Or.inr (Or.inl ⟨h1, ?_⟩)
    rcases h2 with h2 | h2
    · exact Or.inl h2
    · exact Or.inr fun p hp => h2 (hnull hp.1)
  · refine Or.inr (Or.inr (Or.inl ⟨fun p _ => ⟨⟨[], h1, (at_nil _ _ _).mpr rfl⟩, ?_⟩, h2⟩))
    intro m s he hl
    obtain ⟨S, hS⟩ := Option.isSome_iff_exists.mp (hlr _ _ _ hl)
    exact absurd (leftRec_cycle hF hS) (h3 m he)
  rotate_left
  · refine Or.inr (Or.inr (Or.inr (Or.inr ⟨?_, ?_⟩)))
    · rintro p j k ⟨⟨v, hv, hat⟩, _⟩ ⟨⟨w, hw, hat'⟩, _⟩
      refine ⟨⟨v ++ w, h1 v w hv hw, (at_append _ _ _ _ _).mpr ?_⟩, fun m s he hl => ?_⟩
      · rw [← hat.2]; exact ⟨hat, hat'⟩
      · obtain ⟨S, hS⟩ := Option.isSome_iff_exists.mp (hlr _ _ _ hl)
        exact absurd (leftRec_cycle hF hS) (h3 m he)
    · rcases h2 with h2 | h2
      · exact Or.inl h2
      · exact Or.inr fun p hp => h2 (hnull hp.1)
  · refine Or.inr (Or.inr (Or.inr (Or.inl ⟨?_, fun p hp => h2 (hnull hp)⟩)))
    rintro p j k ⟨w, hw, hat⟩ ⟨w', hw', hat'⟩
    have : w = w' := by
      rcases List.prefix_or_prefix_of_prefix hat.1 hat'.1 with h | h
      · exact h1 w w' hw hw' h
      · exact (h1 w' w hw' hw h).symm
    rw [hat.2, hat'.2, this]

/-- A body evaluated at the start of an element. -/
theorem reachAlt_full (hF : Fit E) (hrec : FullCall E rec) (a : Alt)
    (ha : ∀ c ∈ a, ∀ r ∈ c, r ∈ rulesReps (E.g.rules ++ Core.rules)) (i : Nat) (hi : i ≤ E.inp.length) (st : RSt)
    (hI : RFull E.g E.inp st) (hb : Below E st i) (hstart : ∀ e, Starts E.g a e → CallOK E st e i) :
    (reachAlt E rec a i st).Sat True True (Ret (RFull E.g E.inp) SameActive (AltEnds (Ends E.g E.inp) a i)
      (AltEnds (SeedEnds E.g E.inp st.growing) a i) st) := by
  have hocc : AltOccurs E.g a := fun c hc r hr => ⟨r, ha c hc r hr, rfl⟩
  refine (reachAlt_spec (A := Ends E.g E.inp) (B := SeedEnds E.g E.inp st.growing)
    (I := fun st' => RFull E.g E.inp st' ∧ SameActive st st') (full_frame st) hF.hs i hi a ?_ ?_ ?_ st ⟨hI, .refl st⟩).mono ?_
  · intro c hc pre r post hp p h1 k q h2 st' hI'
    obtain ⟨h3, h4, h5⟩ := starts_of_back hF.ne hocc (fun _ _ _ h => h) hi hc hp h1 h2
    have hok : CallOK E st' r.elem q := by
      refine CallOK.same ?_ hI'.2
      rcases Nat.lt_or_ge i q with h | h
      · exact hb.later h r.elem
      · have : q = i := by omega
        rw [this]; exact hstart _ (h5 this)
    refine (hrec r.elem q st' (Or.inl (hocc c hc r (by rw [hp]; simp))) h4 hI'.1 hok).mono ?_
    rintro ⟨x, st1⟩ ⟨g1, g2, g3, g4, g5⟩
    refine ⟨⟨g1, hI'.2.trans g2⟩, g2, g3, fun j hj => g4 j ⟨hj.1, fun m s he hl => hj.2 m s he ?_⟩, g5⟩
    rw [← hI'.2.2]; exact hl
  · exact fun c _ r _ p j hp h => ends_le hp h
  · exact fun c _ r _ p j h => h.1
  · rintro ⟨x, st1⟩ ⟨g1, g2, g3, g4, g5⟩
    refine ⟨g1.1, g2, g3, fun j hj => g4 j ⟨?_, hj⟩, g5⟩
    exact fun c hc r hr => repFit_of hF hb.lr (ha c hc r hr)

theorem reps_rule {g : Grammar} {n : Str} {R : Rule} (h : Resolves g n R) :
    ∀ c ∈ R.alt, ∀ r ∈ c, r ∈ rulesReps (g.rules ++ Core.rules) :=
  fun _ hc _ hr => List.mem_flatMap.mpr ⟨R, resolves_mem h, mem_altReps hc hr⟩

theorem reps_inner {g : Grammar} {e : Elem} (h : Occurs g e) {a : Alt} (ha : elemReps e = altReps a) :
    ∀ c ∈ a, ∀ r ∈ c, r ∈ rulesReps (g.rules ++ Core.rules) := by
  intro c hc r hr
  obtain ⟨q, hq, rfl⟩ := h
  obtain ⟨R, hR, hq⟩ := List.mem_flatMap.mp hq
  exact List.mem_flatMap.mpr ⟨R, hR, altReps_sub R.alt q hq (by rw [ha]; exact mem_altReps hc hr)⟩

/-- An element that is not left-recursive has no growing rule as a left corner while it is one of theirs. -/
theorem no_seed (hF : Fit E) {e : Elem} (he : Asked E.g e) {st : RSt} {i : Nat} (hok : CallOK E st e i)
    (hnl : leftRecOf E e = none) {m : Str} (hc : LeftCorner E.g e (.rulename m)) :
    st.growing.lookup (memoKey (canon m) i) = none := by
  cases hl : st.growing.lookup (memoKey (canon m) i) with
  | none => rfl
  | some s =>
    exfalso
    have h1 := hok.grow _ _ hl
    obtain ⟨S, hS⟩ := Option.isSome_iff_exists.mp (hok.lr _ _ _ hl)
    have hm := hF.lr.mem _ _ hS
    by_cases hr : ∃ k, e = .rulename k
    · obtain ⟨k, rfl⟩ := hr
      have := hF.lr.same _ _ hS _ hm k m h1 (.single hc) hm
      rw [leftRecOf, hF.lr.cons _ _ hS _ this] at hnl
      cases hnl
    · have hn : ∀ n, e ≠ .rulename n := fun n h => hr ⟨n, h⟩
      have hocc : Occurs E.g e := by
        rcases he with h | ⟨n, _, h, _⟩
        · exact h
        · exact absurd h (hn n)
      exact hF.br e hocc hn (.head hc (corner_trans_congr (canon_canon m) h1))

theorem computeElem_full (hF : Fit E) (hrec : FullCall E rec) (e : Elem) (he : Asked E.g e) (i : Nat) (hi : i ≤ E.inp.length)
    (st : RSt) (hI : RFull E.g E.inp st) (hok : CallOK E st e i) (hnl : leftRecOf E e = none) :
    (computeElem E rec e i { st with inProgress := memoKey e.str i :: st.inProgress }).Sat True True
      (Ret (RFull E.g E.inp) SameActive (Ends E.g E.inp e i) (Ends E.g E.inp e i)
        { st with inProgress := memoKey e.str i :: st.inProgress }) := by
  have hbelow : Below E { st with inProgress := memoKey e.str i :: st.inProgress } i := by
    refine ⟨fun s p hm => ?_, hok.gpos, hok.lr, hok.closed⟩
    rcases List.mem_cons.mp hm with h | h
    · exact le_of_eq (memoKey_inj h).2
    · exact hok.ppos s p h
  have body : ∀ a : Alt, (∀ c ∈ a, ∀ r ∈ c, r ∈ rulesReps (E.g.rules ++ Core.rules)) → (∀ e1, Starts E.g a e1 → LeftCorner E.g e e1) →
      (reachAlt E rec a i { st with inProgress := memoKey e.str i :: st.inProgress }).Sat True True
        (Ret (RFull E.g E.inp) SameActive (AltEnds (Ends E.g E.inp) a i) (AltEnds (Ends E.g E.inp) a i)
          { st with inProgress := memoKey e.str i :: st.inProgress }) := by
    intro a ha hlc
    refine (reachAlt_full hF hrec a ha i hi { st with inProgress := memoKey e.str i :: st.inProgress } hI hbelow ?_).mono ?_
    · intro e1 hs
      refine { hbelow with prog := ?_, grow := ?_ }
      · intro f hf hm
        rcases List.mem_cons.mp hm with h | h
        · rw [asked_eq hF.de hf he (memoKey_inj h).1]
          exact .single (hlc e1 hs)
        · exact .tail (hok.prog f hf h) (hlc e1 hs)
      · intro x v hx
        exact .tail (hok.grow x v hx) (hlc e1 hs)
    · rintro ⟨x, st1⟩ ⟨g1, g2, g3, g4, g5⟩
      refine ⟨g1, g2, g3, fun j hj => g4 j (altEnds_congr ?_ hj), g5⟩
      intro c hc pre r post hp p h1 k q h2 j hj
      obtain ⟨h3, h4, h5⟩ := starts_of_back hF.ne (fun c hc r hr => ⟨r, ha c hc r hr, rfl⟩) (fun _ _ _ h => h) hi hc hp h1 h2
      refine ⟨hj, fun m s hm hl => ?_⟩
      have hq : q = i := by
        have := hok.gpos _ _ _ hl
        omega
      subst hq
      have hcorner := hlc _ (h5 rfl)
      rw [hm] at hcorner
      have := no_seed hF he hok hnl hcorner
      simp only at hl
      rw [this] at hl
      cases hl
  have hocc : (∀ n, e ≠ .rulename n) → Occurs E.g e := by
    intro hn
    rcases he with h | ⟨n, _, h, _⟩
    · exact h
    · exact absurd h (hn n)
  have hterm : ∀ (e : Elem), TermWF e → (∀ w, Derives E.g e w → ∃ cs, Terminal e cs ∧ w = utf8 cs) →
      Run.Sat True True (Ret (RFull E.g E.inp) SameActive (Ends E.g E.inp e i) (Ends E.g E.inp e i) 
        { st with inProgress := memoKey e.str i :: st.inProgress })
        (.ok ((matchElem E.inp e i).toList, { st with inProgress := memoKey e.str i :: st.inProgress })) := by
    intro e hw ht
    refine ⟨hI, .refl _, ?_, ?_, ?_⟩
    · intro j hj
      have hj : matchElem E.inp e i = some j := by simpa using hj
      obtain ⟨cs, h1, h2⟩ := (matchElem_iff E.inp e hw i j).mp hj
      exact ⟨_, .term e cs h1, by rw [← encodeAll_eq_utf8]; exact h2⟩
    · rintro j ⟨w, h1, h2⟩
      obtain ⟨cs, h3, rfl⟩ := ht w h1
      have := (matchElem_iff E.inp e hw i j).mpr ⟨cs, h3, by rw [encodeAll_eq_utf8]; exact h2⟩
      simp [this]
    · cases matchElem E.inp e i <;> simp
  cases e with
  | rulename n =>
    rw [computeElem]
    cases hr : getRule n E.g.rules with
    | none =>
      refine ⟨hI, .refl _, by simp, ?_, List.nodup_nil⟩
      rintro j ⟨w, h1, _⟩
      cases h1 with
      | rule _ r _ hres _ => rw [(getRule_iff hF.nd).mpr hres] at hr; cases hr
      | term _ cs ht => cases ht
    | some r =>
      have hres := getRule_resolves hr
      refine (body r.alt (reps_rule hres) (fun e1 hs => .rule n r e1 hres hs)).mono ?_
      rintro ⟨x, st1⟩ ⟨g1, g2, g3, g4, g5⟩
      refine ⟨g1, g2, fun j hj => ?_, ?_, g5⟩
      · obtain ⟨w, h6, h7⟩ := alt_derives (g3 j hj)
        exact ⟨w, .rule n r w hres h6, h7⟩
      · rintro j ⟨w, h1, h2⟩
        cases h1 with
        | rule _ r' _ hres' hd =>
          have : r' = r := by
            have := (getRule_iff hF.nd).mpr hres'
            rw [hr] at this; injection this with h; exact h.symm
          subst this
          exact g4 j (altEnds_of_derives hd h2)
        | term _ cs ht => cases ht
  | group a =>
    rw [computeElem]
    refine (body a (reps_inner (hocc (by simp)) rfl) (fun e1 hs => .group a e1 hs)).mono ?_
    rintro ⟨x, st1⟩ ⟨g1, g2, g3, g4, g5⟩
    refine ⟨g1, g2, fun j hj => ?_, ?_, g5⟩
    · obtain ⟨w, h6, h7⟩ := alt_derives (g3 j hj)
      exact ⟨w, .group a w h6, h7⟩
    · rintro j ⟨w, h1, h2⟩
      cases h1 with
      | group _ _ hd => exact g4 j (altEnds_of_derives hd h2)
      | term _ cs ht => cases ht
  | option a =>
    rw [computeElem]
    refine (body a (reps_inner (hocc (by simp)) rfl) (fun e1 hs => .option a e1 hs)).bnd ?_
    rintro ⟨x, st1⟩ ⟨g1, g2, g3, g4, g5⟩
    refine ⟨g1, g2, fun j hj => ?_, ?_, nodup_union (List.nodup_singleton i)⟩
    · rcases mem_union.mp hj with hj | hj
      · rw [List.mem_singleton.mp hj]
        exact ⟨[], .optNone a, (at_nil _ _ _).mpr rfl⟩
      · obtain ⟨w, h6, h7⟩ := alt_derives (g3 j hj)
        exact ⟨w, .optSome a w h6, h7⟩
    · rintro j ⟨w, h1, h2⟩
      apply mem_union.mpr
      generalize hoe : Elem.option a = oe at h1
      cases h1 with
      | optNone _ => left; rw [(at_nil _ _ _).mp h2]; simp
      | optSome _ _ hd =>
        injection hoe with hoe
        subst hoe
        exact Or.inr (g4 j (altEnds_of_derives hd h2))
      | term _ cs ht => subst hoe; cases ht
      | rule _ _ _ _ _ => cases hoe
      | group _ _ _ => cases hoe
  | charVal s vs =>
    rw [computeElem]
    exact hterm _ (hF.wf _ (hocc (by simp))) (fun w h => by cases h with | term _ cs ht => exact ⟨cs, ht, rfl⟩)
  | numVal b s es =>
    rw [computeElem]
    exact hterm _ (hF.wf _ (hocc (by simp))) (fun w h => by cases h with | term _ cs ht => exact ⟨cs, ht, rfl⟩)
  | proseVal s =>
    rw [computeElem]
    refine ⟨hI, .refl _, by simp, ?_, List.nodup_nil⟩
    rintro j ⟨w, h1, _⟩
    cases h1 with
    | term _ cs ht => cases ht

/-! ## Growing seeds -/

/-- The state while the component `S` grows at `i`, the growth having started from `st0`. -/
structure Grown (E : REnv) (st0 : RSt) (S : List Str) (i : Nat) (st : RSt) : Prop where
  full : RFull E.g E.inp st
  prog : ∀ k, k ∈ st.inProgress ↔ k ∈ st0.inProgress
  other : ∀ k, (∀ x ∈ S, k ≠ memoKey x i) → st.growing.lookup k = st0.growing.lookup k
  seeds : ∀ x ∈ S, (st.growing.lookup (memoKey x i)).isSome

theorem Grown.same {st0 st st' : RSt} {S : List Str} {i : Nat} (h : Grown E st0 S i st) (hf : RFull E.g E.inp st')
    (hs : SameActive st st') : Grown E st0 S i st' where
  full := hf
  prog := fun k => (hs.1 k).trans (h.prog k)
  other := fun k hk => (hs.2 k).trans (h.other k hk)
  seeds := fun x hx => by rw [hs.2]; exact h.seeds x hx

theorem Grown.below (hF : Fit E) {st0 st : RSt} {name : Str} {S : List Str} {i : Nat} (hS : E.leftRec.lookup name = some S)
    (hok : Below E st0 i) (h : Grown E st0 S i st) : Below E st i where
  ppos := fun s p hm => hok.ppos s p ((h.prog _).mp hm)
  gpos := fun s p v hl => by
    by_cases hk : ∃ x ∈ S, memoKey s p = memoKey x i
    · obtain ⟨x, _, hk⟩ := hk
      exact le_of_eq (memoKey_inj hk).2
    · push Not at hk
      rw [h.other _ hk] at hl
      exact hok.gpos s p v hl
  lr := fun s p v hl => by
    by_cases hk : ∃ x ∈ S, memoKey s p = memoKey x i
    · obtain ⟨x, hx, hk⟩ := hk
      rw [(memoKey_inj hk).1, hF.lr.cons _ _ hS x hx]; rfl
    · push Not at hk
      rw [h.other _ hk] at hl
      exact hok.lr s p v hl
  closed := fun n T p hn hp y hy => by
    by_cases hyk : ∃ x ∈ S, memoKey y p = memoKey x i
    · obtain ⟨x, hx, hk⟩ := hyk
      rw [hk]; exact h.seeds x hx
    · by_cases hk : ∃ x ∈ S, memoKey n p = memoKey x i
      · obtain ⟨x, hx, hk⟩ := hk
        obtain ⟨h1, h2⟩ := memoKey_inj hk
        subst h1 h2
        rw [hF.lr.cons _ _ hS n hx] at hn
        injection hn with hn
        exact absurd ⟨y, by rw [hn]; exact hy, rfl⟩ hyk
      · push Not at hk hyk
        rw [h.other _ hk] at hp
        rw [h.other _ hyk]
        exact hok.closed n T p hn hp y hy

/-- A member of the component is a left corner of whatever has another member as one. -/
theorem corner_via (hF : Fit E) {name : Str} {S : List Str} (hS : E.leftRec.lookup name = some S) {x y : Str} (hx : x ∈ S) (hy : y ∈ S)
    {r : Rule} (hr : Resolves E.g y r) {e : Elem} (hs : Starts E.g r.alt e) : Relation.TransGen (LeftCorner E.g) (.rulename x) e := by
  obtain ⟨y', hy', ht⟩ := hF.lr.conn _ _ hS x hx y hy
  refine .tail ht (.rule y' r e ((resolves_congr ?_).mp hr) hs)
  rw [hy', (hF.lr.res _ _ hS y hy).1]

theorem Grown.call (hF : Fit E) {st0 st : RSt} {m : Str} {S : List Str} {i : Nat} (hS : E.leftRec.lookup (canon m) = some S)
    (hok : CallOK E st0 (.rulename m) i) (h : Grown E st0 S i st) {x : Str} (hx : x ∈ S) {r : Rule} (hr : Resolves E.g x r)
    {e : Elem} (hs : Starts E.g r.alt e) : CallOK E st e i := by
  have hm := hF.lr.mem _ _ hS
  have hme : Relation.TransGen (LeftCorner E.g) (.rulename m) e := corner_trans_congr (canon_canon m) (corner_via hF hS hm hx hr hs)
  refine { h.below hF hS hok.toBelow with prog := ?_, grow := ?_ }
  · intro f hf hp
    exact (hok.prog f hf ((h.prog _).mp hp)).trans hme
  · intro y v hl
    by_cases hk : ∃ z ∈ S, memoKey y i = memoKey z i
    · obtain ⟨z, hz, hk⟩ := hk
      rw [(memoKey_inj hk).1]
      exact corner_via hF hS hz hx hr hs
    · push Not at hk
      rw [h.other _ hk] at hl
      exact (hok.grow y v hl).trans hme

theorem seedEnds_same {gr gr' : List (Str × List Nat)} (h : ∀ k, gr'.lookup k = gr.lookup k) :
    SeedEnds E.g E.inp gr' = SeedEnds E.g E.inp gr := by
  funext e p j
  unfold SeedEnds
  simp only [h]

theorem growRound_full (hF : Fit E) (hrec : FullCall E rec) {st0 : RSt} {m : Str} {S : List Str} {i : Nat} (hi : i ≤ E.inp.length)
    (hS : E.leftRec.lookup (canon m) = some S) (hok : CallOK E st0 (.rulename m) i) : ∀ (xs : List Str) (ch : Bool) (st : RSt),
    (∀ x ∈ xs, x ∈ S) → Grown E st0 S i st → (growRound E rec i xs ch st).Sat True True fun y =>
      Grown E st0 S i y.2 ∧ (y.1 = false → ch = false ∧ (∀ k, y.2.growing.lookup k = st.growing.lookup k) ∧
        ∀ x ∈ xs, ∀ r, Resolves E.g x r → ∀ j, AltEnds (SeedEnds E.g E.inp st.growing) r.alt i j →
          ∃ s, st.growing.lookup (memoKey x i) = some s ∧ j ∈ s) := by
  intro xs
  induction xs with
  | nil => intro ch st _ h; exact ⟨h, fun hc => ⟨hc, fun _ => rfl, fun _ hx => by cases hx⟩⟩
  | cons x xs ih =>
    intro ch st hxs h
    have hx := hxs x (by simp)
    have hxs' : ∀ y ∈ xs, y ∈ S := fun y hy => hxs y (by simp [hy])
    rw [growRound]
    cases hr : getRule x E.g.rules with
    | none =>
      refine (ih ch st hxs' h).mono ?_
      rintro ⟨c, st2⟩ ⟨g1, g2⟩
      refine ⟨g1, fun hc => ?_⟩
      obtain ⟨g3, g4, g5⟩ := g2 hc
      refine ⟨g3, g4, fun y hy r hres => ?_⟩
      rcases List.mem_cons.mp hy with rfl | hy
      · rw [(getRule_iff hF.nd).mpr hres] at hr; cases hr
      · exact g5 y hy r hres
    | some r =>
      have hres := getRule_resolves hr
      refine (reachAlt_full hF hrec r.alt (reps_rule hres) i hi st h.full (h.below hF hS hok.toBelow)
        (fun e hs => h.call hF hS hok hx hres hs)).bnd ?_
      rintro ⟨y, st1⟩ ⟨h1, h2, h3, h4, h5⟩
      simp only at h1 h2 h3 h4 h5 ⊢
      have hg1 := h.same h1 h2
      cases hl : st1.growing.lookup (memoKey x i) with
      | none =>
        have := hg1.seeds x hx
        rw [hl] at this; cases this
      | some cur =>
        simp only
        split_ifs with hany
        · -- the seed grew
          refine (ih true _ hxs' ?_).mono ?_
          · refine ⟨⟨⟨h1.1.1, ?_⟩, h1.2⟩, hg1.prog, fun k hk => ?_, fun z hz => ?_⟩
            · have hcur := h1.1.2 _ _ (lookup_mem hl)
              have hask : Asked E.g (.rulename x) := Or.inr ⟨x, r, rfl, hres⟩
              refine mapSound_set (e := .rulename x) hF.de h1.1.2 hask (nodup_union hcur.1) ?_
              intro j hj
              rcases mem_union.mp hj with hj | hj
              · exact hcur.2 (.rulename x) i hask rfl j hj
              · obtain ⟨w, h6, h7⟩ := alt_derives (h3 j hj)
                exact ⟨w, .rule x r w hres h6, h7⟩
            · simp only
              rw [lookup_setKey, if_neg (hk x hx)]
              exact hg1.other k hk
            · simp only
              rw [lookup_setKey]
              split_ifs
              · rfl
              · exact hg1.seeds z hz
          · rintro ⟨c, st2⟩ ⟨g1, g2⟩
            exact ⟨g1, fun hc => absurd (g2 hc).1 (by simp)⟩
        · refine (ih ch st1 hxs' hg1).mono ?_
          rintro ⟨c, st2⟩ ⟨g1, g2⟩
          refine ⟨g1, fun hc => ?_⟩
          obtain ⟨g3, g4, g5⟩ := g2 hc
          refine ⟨g3, fun k => (g4 k).trans (h2.2 k), fun z hz r' hres' j hj => ?_⟩
          rcases List.mem_cons.mp hz with rfl | hz
          · have : r' = r := by
              have := (getRule_iff hF.nd).mpr hres'
              rw [hr] at this; injection this with h; exact h.symm
            subst this
            refine ⟨cur, by rw [← h2.2]; exact hl, ?_⟩
            have hjy := h4 j hj
            by_contra hno
            exact hany (List.any_eq_true.mpr ⟨j, hjy, by simpa using hno⟩)
          · rw [← h2.2]
            exact g5 z hz r' hres' j (by rw [seedEnds_same h2.2]; exact hj)

theorem growLoop_full (hF : Fit E) (hrec : FullCall E rec) {st0 : RSt} {m : Str} {S : List Str} {i : Nat} (hi : i ≤ E.inp.length)
    (hS : E.leftRec.lookup (canon m) = some S) (hok : CallOK E st0 (.rulename m) i) : ∀ (n : Nat) (st : RSt), Grown E st0 S i st →
    (growLoop E rec i S n st).Sat True True fun st' => Grown E st0 S i st' ∧
      ∀ x ∈ S, ∀ r, Resolves E.g x r → ∀ j, AltEnds (SeedEnds E.g E.inp st'.growing) r.alt i j →
        ∃ s, st'.growing.lookup (memoKey x i) = some s ∧ j ∈ s := by
  intro n
  induction n with
  | zero => intro st _; trivial
  | succ n ih =>
    intro st h
    rw [growLoop]
    refine (growRound_full hF hrec hi hS hok S false st (fun _ h => h) h).bnd ?_
    rintro ⟨ch, st1⟩ ⟨h1, h2⟩
    simp only at h1 h2 ⊢
    cases ch with
    | true => exact ih st1 h1
    | false =>
      refine ⟨h1, ?_⟩
      obtain ⟨_, h3, h4⟩ := h2 rfl
      intro x hx r hr j hj
      rw [h3]
      exact h4 x hx r hr j (by rw [← seedEnds_same h3]; exact hj)

/-- Seeds that no longer grow contain every end. -/
theorem seeds_full (hF : Fit E) {st0 st : RSt} {m : Str} {S : List Str} {i : Nat} (hi : i ≤ E.inp.length)
    (hS : E.leftRec.lookup (canon m) = some S) (hok : CallOK E st0 (.rulename m) i) (h : Grown E st0 S i st)
    (hcl : ∀ x ∈ S, ∀ r, Resolves E.g x r → ∀ j, AltEnds (SeedEnds E.g E.inp st.growing) r.alt i j →
      ∃ s, st.growing.lookup (memoKey x i) = some s ∧ j ∈ s) {x : Str} (hx : x ∈ S) {j : Nat}
    (he : Ends E.g E.inp (.rulename x) i j) : ∃ s, st.growing.lookup (memoKey x i) = some s ∧ j ∈ s := by
  obtain ⟨w, hw, hat⟩ := he
  have hxc := (hF.lr.res _ _ hS x hx).1
  have key := ends_induction (g := E.g) (inp := E.inp) (i := i)
    (A := fun e p j => Ends E.g E.inp e p j ∧ ∀ k, e = .rulename k → canon k ∈ S → p = i →
      ∃ s, st.growing.lookup (memoKey (canon k) i) = some s ∧ j ∈ s) ?_ ?_ hw i j (le_refl i) hat
  · have := key.2 x rfl (by rw [hxc]; exact hx) rfl
    rwa [hxc] at this
  · intro n r hr p j hp hends halt
    refine ⟨hends, ?_⟩
    rintro k hk hkS rfl
    injection hk with hk
    subst hk
    have hrc : Resolves E.g (canon n) r := (resolves_congr (canon_canon n)).mpr hr
    refine hcl _ hkS r hrc j (altEnds_congr ?_ halt)
    intro c hc pre q post hpre a h1 b d h2 j' hj'
    obtain ⟨h3, h4, h5⟩ := starts_of_back hF.ne (resolves_alt hr) (fun _ _ _ h => h.1) hi hc hpre h1 h2
    refine ⟨hj'.1, fun l s hl hlk => ?_⟩
    have hd : d = p := by
      have := (h.below hF hS hok.toBelow).gpos _ _ _ hlk
      omega
    subst hd
    have hst : Starts E.g r.alt (.rulename l) := by rw [← hl]; exact h5 rfl
    have hlS : canon l ∈ S := by
      by_cases hk : ∃ z ∈ S, memoKey (canon l) d = memoKey z d
      · obtain ⟨z, hz, hk⟩ := hk
        rw [(memoKey_inj hk).1]; exact hz
      · push Not at hk
        have hl0 := hlk
        rw [h.other _ hk] at hl0
        obtain ⟨T, hT⟩ := Option.isSome_iff_exists.mp (hok.lr _ _ _ hl0)
        have hlT := hF.lr.mem _ _ hT
        have hm := hF.lr.mem _ _ hS
        have hme : Relation.TransGen (LeftCorner E.g) (.rulename m) (.rulename l) :=
          corner_trans_congr (canon_canon m) (corner_via hF hS hm hkS hrc hst)
        have hmT := hF.lr.same _ _ hT _ hlT m l (hok.grow _ _ hl0) hme hlT
        have := hF.lr.cons _ _ hT _ hmT
        rw [hS] at this
        injection this with this
        rw [this]; exact hlT
    obtain ⟨s', hs', hj⟩ := hj'.2 l hl hlS rfl
    rw [hlk] at hs'
    injection hs' with hs'
    rw [hs']; exact hj
  · intro e hn p j _ hends
    exact ⟨hends, fun k hk => absurd hk (hn k)⟩

theorem memoFull_cons (hd : DistinctElems E.g) {m : List (Str × List Nat)} (h : MemoFull E.g E.inp m) {e : Elem} {i : Nat} {v : List Nat}
    (he : Asked E.g e) (hv : ∀ j, Ends E.g E.inp e i j → j ∈ v) : MemoFull E.g E.inp ((memoKey e.str i, v) :: m) := by
  intro k w hkw
  rcases List.mem_cons.mp hkw with heq | hkw
  · injection heq with h1 h2
    subst h1 h2
    intro e' i' he' hk j hj
    obtain ⟨h1, h2⟩ := memoKey_inj hk
    rw [← asked_eq hd he he' h1, ← h2] at hj
    exact hv j hj
  · exact h k w hkw

theorem growDone_full (hd : DistinctElems E.g) (i : Nat) (name : Str) : ∀ (xs : List Str) (res : List Nat) (st : RSt), xs.Nodup →
    MemoFull E.g E.inp st.memo →
    (∀ x ∈ xs, Asked E.g (.rulename x) ∧ ∀ j, Ends E.g E.inp (.rulename x) i j → ∃ s, st.growing.lookup (memoKey x i) = some s ∧ j ∈ s) →
    MemoFull E.g E.inp (growDone i name xs res st).2.memo ∧
      (name ∈ xs → ∀ j, Ends E.g E.inp (.rulename name) i j → j ∈ (growDone i name xs res st).1) ∧
      (name ∉ xs → (growDone i name xs res st).1 = res) := by
  intro xs
  induction xs with
  | nil => intro res st _ h _; exact ⟨h, fun hn => (List.not_mem_nil hn).elim, fun _ => rfl⟩
  | cons x xs ih =>
    intro res st hnd h hx
    obtain ⟨hxs, hnd⟩ := List.nodup_cons.mp hnd
    obtain ⟨hask, hfull⟩ := hx x (by simp)
    have hseed : ∀ j, Ends E.g E.inp (.rulename x) i j → j ∈ (st.growing.lookup (memoKey x i)).getD [] := by
      intro j hj
      obtain ⟨s, h1, h2⟩ := hfull j hj
      rw [h1]; exact h2
    rw [growDone]
    have hside : ∀ y ∈ xs, Asked E.g (.rulename y) ∧ ∀ j, Ends E.g E.inp (.rulename y) i j →
        ∃ s, (delKey (memoKey x i) st.growing).lookup (memoKey y i) = some s ∧ j ∈ s := by
      intro y hy
      obtain ⟨h1, h2⟩ := hx y (by simp [hy])
      refine ⟨h1, fun j hj => ?_⟩
      obtain ⟨s, h3, h4⟩ := h2 j hj
      refine ⟨s, ?_, h4⟩
      rw [lookup_delKey, if_neg, h3]
      intro hk
      rw [(memoKey_inj hk).1] at hy
      exact hxs hy
    obtain ⟨g1, g2, g3⟩ := ih (if x = name then (st.growing.lookup (memoKey x i)).getD [] else res)
      { st with growing := delKey (memoKey x i) st.growing,
                memo := (memoKey x i, (st.growing.lookup (memoKey x i)).getD []) :: st.memo } hnd
      (memoFull_cons (e := .rulename x) hd h hask hseed) hside
    refine ⟨g1, fun hn j hj => ?_, fun hn => ?_⟩
    · rcases List.mem_cons.mp hn with rfl | hn
      · rw [g3 hxs, if_pos rfl]
        exact hseed j hj
      · exact g2 hn j hj
    · simp only [List.mem_cons, not_or] at hn
      rw [g3 hn.2, if_neg (fun h => hn.1 h.symm)]

theorem reachElem_full (hF : Fit E) : ∀ n, FullCall E (reachElem E n) := by
  intro n
  induction n with
  | zero => intro e i st _ _ _ _; trivial
  | succ n ih =>
    intro e i st he hi hI hok
    rw [reachElem_succ]
    cases hl : leftRecOf E e with
    | none =>
      simp only
      -- an element that is not left-recursive has no seed
      unfold reachMemo
      cases hm : st.memo.lookup (memoKey e.str i) with
      | some v =>
        obtain ⟨h1, h2⟩ := hI.1.1 _ _ (lookup_mem hm)
        exact ⟨hI, .refl st, h2 e i he rfl, fun j hj => hI.2 _ _ (lookup_mem hm) e i he rfl j hj.1, h1⟩
      | none =>
        simp only
        split_ifs with hp
        · exfalso
          have ht := hok.prog e he hp
          by_cases hr : ∃ k, e = .rulename k
          · obtain ⟨k, rfl⟩ := hr
            have := hF.lr.cyc k ⟨k, (sameName_iff _ _).mpr rfl, ht⟩
            obtain ⟨S, hS⟩ := Option.isSome_iff_exists.mp this
            rw [leftRecOf, hS] at hl
            cases hl
          · have hn : ∀ n, e ≠ .rulename n := fun n h => hr ⟨n, h⟩
            have hocc : Occurs E.g e := by
              rcases he with h | ⟨n, _, h, _⟩
              · exact h
              · exact absurd h (hn n)
            exact hF.br e hocc hn ht
        · refine (computeElem_full hF ih e he i hi st hI hok hl).bnd ?_
          rintro ⟨x, st1⟩ ⟨h1, h2, h3, h4, h5⟩
          simp only at h1 h2 h3 h4 h5
          refine ⟨⟨⟨mapSound_cons hF.de h1.1.1 he h5 h3, h1.1.2⟩, memoFull_cons hF.de h1.2 he h4⟩, ⟨fun k => ?_, h2.2⟩, h3,
            fun j hj => h4 j hj.1, h5⟩
          simp only [List.mem_filter, ne_eq, decide_not, Bool.not_eq_true', decide_eq_false_iff_not]
          rw [h2.1 k, List.mem_cons]
          constructor
          · rintro ⟨rfl | h, hne⟩
            · exact absurd rfl hne
            · exact h
          · intro h
            refine ⟨Or.inr h, ?_⟩
            rintro rfl
            exact hp h
    | some p =>
      obtain ⟨name, S⟩ := p
      simp only
      cases e with
      | rulename m =>
        simp only [leftRecOf, Option.map_eq_some_iff, Prod.mk.injEq] at hl
        obtain ⟨S', hS, rfl, rfl⟩ := hl
        have hmS := hF.lr.mem _ _ hS
        have hask : ∀ x ∈ S', Asked E.g (.rulename x) := by
          intro x hx
          obtain ⟨r, hr⟩ := (hF.lr.res _ _ hS x hx).2
          exact Or.inr ⟨_, r, rfl, hr⟩
        have hback : ∀ j, Ends E.g E.inp (.rulename (canon m)) i j ↔ Ends E.g E.inp (.rulename m) i j :=
          fun j => ⟨ends_canon (canon_canon m), ends_canon (canon_canon m).symm⟩
        unfold reachLeftRec
        cases hm : st.memo.lookup (memoKey (canon m) i) with
        | some v =>
          obtain ⟨h1, h2⟩ := hI.1.1 _ _ (lookup_mem hm)
          exact ⟨hI, .refl st, fun j hj => (hback j).mp (h2 _ i (hask _ hmS) rfl j hj),
            fun j hj => hI.2 _ _ (lookup_mem hm) _ i (hask _ hmS) rfl j ((hback j).mpr hj.1), h1⟩
        | none =>
          simp only
          cases hg : st.growing.lookup (memoKey (canon m) i) with
          | some v =>
            obtain ⟨h1, h2⟩ := hI.1.2 _ _ (lookup_mem hg)
            exact ⟨hI, .refl st, fun j hj => (hback j).mp (h2 _ i (hask _ hmS) rfl j hj), fun j hj => hj.2 m v rfl hg, h1⟩
          | none =>
            simp only
            have hlk := growInit_lookup i S' st
            obtain ⟨hme, hpe⟩ := growInit_other i S' st
            have hg0 : Grown E st S' i (growInit i S' st) := by
              refine ⟨⟨growInit_sound i S' st hI.1, by rw [hme]; exact hI.2⟩, fun k => by rw [hpe], fun k hk => ?_, fun x hx => ?_⟩
              · rw [hlk, if_neg]
                rintro hmem
                obtain ⟨z, hz, rfl⟩ := List.mem_map.mp hmem
                exact hk z hz rfl
              · rw [hlk, if_pos (List.mem_map.mpr ⟨x, hx, rfl⟩)]; rfl
            refine (growLoop_full hF ih hi hS hok _ _ hg0).bnd ?_
            rintro st1 ⟨h1, hcl⟩
            have hfull : ∀ x ∈ S', ∀ j, Ends E.g E.inp (.rulename x) i j → ∃ s, st1.growing.lookup (memoKey x i) = some s ∧ j ∈ s :=
              fun x hx j hj => seeds_full hF hi hS hok h1 hcl hx hj
            obtain ⟨h2, h3, h4⟩ := growDone_sound i (canon m) S' [] st1 h1.full.1 List.nodup_nil (fun _ _ _ _ hj => by cases hj)
            obtain ⟨h5, h6, _⟩ := growDone_full hF.de i (canon m) S' [] st1 (hF.lr.nodup _ _ hS) h1.full.2
              (fun x hx => ⟨hask x hx, hfull x hx⟩)
            have hdn := growDone_lookup i (canon m) S' [] st1
            refine ⟨⟨h2, h5⟩, ⟨fun k => ?_, fun k => ?_⟩, fun j hj => (hback j).mp (h4 _ (hask _ hmS) rfl j hj),
              fun j hj => h6 hmS j ((hback j).mpr hj.1), h3⟩
            · rw [(hdn k).2.2]
              exact h1.prog k
            · rw [(hdn k).1]
              split_ifs with hks
              · obtain ⟨z, hz, rfl⟩ := List.mem_map.mp hks
                cases hzl : st.growing.lookup (memoKey z i) with
                | none => rfl
                | some v =>
                  have := hok.closed z S' i (hF.lr.cons _ _ hS z hz) (by rw [hzl]; rfl) _ hmS
                  rw [hg] at this
                  cases this
              · refine h1.other k ?_
                rintro x hx rfl
                exact hks (List.mem_map.mpr ⟨x, hx, rfl⟩)
      | _ => simp [leftRecOf] at hl

/-- If the recogniser answers at all, it accepts every derivable input. -/
theorem isValidWith_complete (hF : Fit E) {name : Str} (hd : DerivesRule E.g name E.inp) {b : Bool}
    (h : isValidWith E name = some (.ok b)) : b = true := by
  unfold isValidWith at h
  cases hr : getRule name E.g.rules with
  | none => rw [hr] at h; cases h
  | some r =>
    rw [hr] at h
    simp only [Option.some.injEq] at h
    have := reachElem_full hF (rFuel E.g E.inp) (.rulename name) 0 rInit
      (Or.inr ⟨name, r, rfl, getRule_resolves hr⟩) (Nat.zero_le _)
      ⟨⟨fun _ _ h => (List.not_mem_nil h).elim, fun _ _ h => (List.not_mem_nil h).elim⟩, fun _ _ h => (List.not_mem_nil h).elim⟩
      { ppos := fun _ _ h => (List.not_mem_nil h).elim
        gpos := fun _ _ _ h => by cases h
        lr := fun _ _ _ h => by cases h
        closed := fun _ _ _ _ h => by cases h
        prog := fun _ _ h => (List.not_mem_nil h).elim
        grow := fun _ _ h => by cases h }
    cases hx : reachElem E (rFuel E.g E.inp) (.rulename name) 0 rInit with
    | panic => rw [hx] at h; cases h
    | fuel => rw [hx] at h; cases h
    | ok x =>
      rw [hx] at h this
      simp only [Run.bnd, Run.ok.injEq] at h
      rw [← h, decide_eq_true_eq]
      refine this.2.2.2.1 _ ⟨⟨E.inp, hd, ?_⟩, fun m s _ hl => by cases hl⟩
      exact ⟨⟨[], by simp⟩, by simp⟩

end

end Verif
