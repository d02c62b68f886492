import Verif.RecogSpec
import Verif.RecogLemmas
import Verif.SlotsLemmas
import Verif.PropsAnalysis
import Verif.Print

/-!
# Soundness of the recogniser

Every end in the memo and in the seeds is the end of a derivation.
-/

namespace Verif
open Spec

/-- Ends of derivations of `e` from position `i`. -/
def Ends (g : Grammar) (inp : Bytes) : Rel := fun e i j => ∃ w, Derives g e w ∧ At inp i j w

theorem ends_le {g : Grammar} {inp : Bytes} {e : Elem} {i j : Nat} (hi : i ≤ inp.length) (h : Ends g inp e i j) :
    i ≤ j ∧ j ≤ inp.length := by
  obtain ⟨w, _, hw⟩ := h
  exact at_le hw hi

theorem derivesTimes_snoc {g : Grammar} {e : Elem} : ∀ (n : Nat) (u v : Bytes), DerivesTimes g e n u → Derives g e v →
    DerivesTimes g e (n + 1) (u ++ v) := by
  intro n
  induction n with
  | zero =>
    intro u v hu hv
    cases hu
    have := DerivesTimes.succ e 0 v [] hv (.zero e)
    rwa [List.append_nil] at this
  | succ n ih =>
    intro u v hu hv
    cases hu with
    | succ _ _ x y hx hy =>
      rw [List.append_assoc]
      exact .succ e (n + 1) x (y ++ v) hx (ih y v hy hv)

theorem at_join {inp : Bytes} {i k j : Nat} {a b : Bytes} (h1 : At inp i k a) (h2 : At inp k j b) : At inp i j (a ++ b) := by
  have : k = i + a.length := h1.2
  subst this
  exact (at_append inp i j a b).mpr ⟨h1, h2⟩

theorem at_split {inp : Bytes} {i j : Nat} {a b : Bytes} (h : At inp i j (a ++ b)) : ∃ k, At inp i k a ∧ At inp k j b :=
  ⟨_, ((at_append inp i j a b).mp h).1, ((at_append inp i j a b).mp h).2⟩

section
variable {g : Grammar} {inp : Bytes}

theorem times_derives {e : Elem} : ∀ (n i j : Nat), Times (Ends g inp) e n i j → ∃ w, DerivesTimes g e n w ∧ At inp i j w := by
  intro n
  induction n with
  | zero => intro i j h; exact ⟨[], .zero e, (at_nil _ _ _).mpr h⟩
  | succ n ih =>
    rintro i j ⟨k, h1, w2, h2, h3⟩
    obtain ⟨w1, h4, h5⟩ := ih i k h1
    exact ⟨w1 ++ w2, derivesTimes_snoc n w1 w2 h4 h2, at_join h5 h3⟩

theorem rep_derives {r : Rep} {i j : Nat} (h : RepEnds (Ends g inp) r i j) : ∃ w, DerivesRep g r w ∧ At inp i j w := by
  obtain ⟨mn, mx, e⟩ := r
  obtain ⟨n, h1, h2, h3⟩ := h
  obtain ⟨w, h4, h5⟩ := times_derives n i j h3
  exact ⟨w, .mk mn mx e n w h1 h2 h4, h5⟩

theorem concat_derives : ∀ {c : Concat} {i j : Nat}, ConcatEnds (Ends g inp) c i j → ∃ w, DerivesConcat g c w ∧ At inp i j w := by
  intro c
  induction c with
  | nil => intro i j h; exact ⟨[], .nil, (at_nil _ _ _).mpr h⟩
  | cons r c ih =>
    rintro i j ⟨k, h1, h2⟩
    obtain ⟨w1, h3, h4⟩ := rep_derives h1
    obtain ⟨w2, h5, h6⟩ := ih h2
    exact ⟨w1 ++ w2, .cons r c w1 w2 h3 h5, at_join h4 h6⟩

theorem alt_derives {a : Alt} {i j : Nat} (h : AltEnds (Ends g inp) a i j) : ∃ w, DerivesAlt g a w ∧ At inp i j w := by
  obtain ⟨c, hc, h⟩ := h
  obtain ⟨w, h1, h2⟩ := concat_derives h
  exact ⟨w, .mk a c w hc h1, h2⟩

end

/-! ## Keys -/

theorem memoKey_inj {s t : Str} {i j : Nat} (h : memoKey s i = memoKey t j) : s = t ∧ i = j := by
  have hd : ∀ n, '@' ∉ itoa n := fun n h => by have := itoa_digit h; revert this; decide
  have key : ∀ (s t a b : Str), '@' ∉ a → '@' ∉ b → s ++ '@' :: a = t ++ '@' :: b → s = t ∧ a = b := by
    intro s
    induction s with
    | nil =>
      intro t a b ha hb h
      cases t with
      | nil => exact ⟨rfl, by simpa using h⟩
      | cons c t =>
        simp only [List.nil_append, List.cons_append, List.cons.injEq] at h
        rw [h.2] at ha
        simp at ha
    | cons c s ih =>
      intro t a b ha hb h
      cases t with
      | nil =>
        simp only [List.nil_append, List.cons_append, List.cons.injEq] at h
        rw [← h.2] at hb
        simp at hb
      | cons d t =>
        simp only [List.cons_append, List.cons.injEq] at h
        obtain ⟨h1, h2⟩ := ih t a b ha hb h.2
        exact ⟨by rw [h.1, h1], h2⟩
  obtain ⟨h1, h2⟩ := key s t _ _ (hd i) (hd j) h
  exact ⟨h1, itoa_inj h2⟩

theorem lookup_mem {α : Type} {k : Str} {v : α} : ∀ {l : List (Str × α)}, l.lookup k = some v → (k, v) ∈ l := by
  intro l
  induction l with
  | nil => intro h; simp at h
  | cons p l ih =>
    obtain ⟨x, y⟩ := p
    intro h
    by_cases hx : k = x
    · subst hx
      simp at h
      simp [h]
    · rw [List.lookup_cons, beq_eq_false_iff_ne.mpr hx] at h
      exact List.mem_cons_of_mem _ (ih h)

/-! ## Soundness -/

section
variable {g : Grammar} {inp : Bytes}

/-- The elements the recogniser may be asked about. -/
def Asked (g : Grammar) (e : Elem) : Prop := Occurs g e ∨ ∃ n r, e = .rulename n ∧ Resolves g n r

/-- The entries of a map of sets are ends of derivations. -/
def MapSound (g : Grammar) (inp : Bytes) (m : List (Str × List Nat)) : Prop :=
  ∀ k v, (k, v) ∈ m → v.Nodup ∧ ∀ e i, Asked g e → k = memoKey e.str i → ∀ j ∈ v, Ends g inp e i j

/-- Memo and seeds are sound. -/
def RSound (g : Grammar) (inp : Bytes) (st : RSt) : Prop := MapSound g inp st.memo ∧ MapSound g inp st.growing

theorem asked_eq (hd : DistinctElems g) {e e' : Elem} (h : Asked g e) (h' : Asked g e') (hs : e.str = e'.str) : e = e' := by
  rcases h with h | ⟨n, r, rfl, hr⟩
  · rcases h' with h' | ⟨n', r', rfl, hr'⟩
    · exact hd.1 e e' h h' hs
    · rcases hd.2 e h with ⟨n, rfl⟩ | hno
      · simp only [Elem.str] at hs; rw [hs]
      · exact absurd ⟨r', by rw [hs]; exact hr'⟩ hno
  · rcases h' with h' | ⟨n', r', rfl, hr'⟩
    · rcases hd.2 e' h' with ⟨n', rfl⟩ | hno
      · simp only [Elem.str] at hs; rw [hs]
      · exact absurd ⟨r, by rw [← hs]; exact hr⟩ hno
    · simp only [Elem.str] at hs; rw [hs]

theorem mapSound_cons (hd : DistinctElems g) {m : List (Str × List Nat)} (h : MapSound g inp m) {e : Elem} {i : Nat} {v : List Nat}
    (he : Asked g e) (hn : v.Nodup) (hv : ∀ j ∈ v, Ends g inp e i j) : MapSound g inp ((memoKey e.str i, v) :: m) := by
  intro k w hkw
  rcases List.mem_cons.mp hkw with heq | hkw
  · injection heq with h1 h2
    subst h1 h2
    refine ⟨hn, ?_⟩
    intro e' i' he' hk j hj
    obtain ⟨h1, h2⟩ := memoKey_inj hk
    rw [← asked_eq hd he he' h1, ← h2]
    exact hv j hj
  · exact h k w hkw

theorem mapSound_filter {m : List (Str × List Nat)} (h : MapSound g inp m) (p : Str × List Nat → Bool) :
    MapSound g inp (m.filter p) := fun k v hkv => h k v (List.mem_filter.mp hkv).1

theorem rsound_frame : RFrame (RSound g inp) (fun _ _ => True) where
  refl := fun _ => trivial
  trans := fun _ _ _ _ _ => trivial
  tick := fun _ _ h => h
  rtick := fun _ _ => trivial

/-- What a sound call returns. -/
abbrev SoundRet (g : Grammar) (inp : Bytes) (up : Nat → Prop) (st : RSt) (x : List Nat × RSt) : Prop :=
  Ret (RSound g inp) (fun _ _ => True) up (fun _ => False) st x

/-- A sound way of making calls. -/
def SoundCall (g : Grammar) (inp : Bytes) (rec : RCall) : Prop :=
  ∀ e i st, Asked g e → i ≤ inp.length → RSound g inp st → (rec e i st).Sat True True (SoundRet g inp (Ends g inp e i) st)

mutual
theorem elemReps_sub : (e : Elem) → ∀ r ∈ elemReps e, elemReps r.elem ⊆ elemReps e
  | .group a, r, h => by
    simp only [elemReps] at h ⊢
    exact altReps_sub a r h
  | .option a, r, h => by
    simp only [elemReps] at h ⊢
    exact altReps_sub a r h
  | .rulename _, _, h => by simp [elemReps] at h
  | .charVal _ _, _, h => by simp [elemReps] at h
  | .numVal _ _ _, _, h => by simp [elemReps] at h
  | .proseVal _, _, h => by simp [elemReps] at h
theorem repReps_sub : (q : Rep) → ∀ r ∈ repReps q, elemReps r.elem ⊆ repReps q
  | ⟨mn, mx, e⟩, r, h => by
    simp only [repReps] at h ⊢
    rcases List.mem_cons.mp h with rfl | h
    · exact fun x hx => List.mem_cons_of_mem _ hx
    · exact fun x hx => List.mem_cons_of_mem _ (elemReps_sub e r h hx)
theorem concatReps_sub : (c : List Rep) → ∀ r ∈ concatReps c, elemReps r.elem ⊆ concatReps c
  | [], _, h => by simp [concatReps] at h
  | q :: c, r, h => by
    simp only [concatReps] at h ⊢
    rcases List.mem_append.mp h with h | h
    · exact fun x hx => List.mem_append.mpr (Or.inl (repReps_sub q r h hx))
    · exact fun x hx => List.mem_append.mpr (Or.inr (concatReps_sub c r h hx))
theorem altReps_sub : (a : List (List Rep)) → ∀ r ∈ altReps a, elemReps r.elem ⊆ altReps a
  | [], _, h => by simp [altReps] at h
  | c :: a, r, h => by
    simp only [altReps] at h ⊢
    rcases List.mem_append.mp h with h | h
    · exact fun x hx => List.mem_append.mpr (Or.inl (concatReps_sub c r h hx))
    · exact fun x hx => List.mem_append.mpr (Or.inr (altReps_sub a r h hx))
end

/-- Elements of the body of an element occur. -/
theorem occurs_inner {e : Elem} (h : Occurs g e) {a : Alt} (ha : elemReps e = altReps a) {c : Concat} {r : Rep} (hc : c ∈ a)
    (hr : r ∈ c) : Occurs g r.elem := by
  obtain ⟨q, hq, rfl⟩ := h
  obtain ⟨R, hR, hq⟩ := List.mem_flatMap.mp hq
  refine ⟨r, List.mem_flatMap.mpr ⟨R, hR, ?_⟩, rfl⟩
  exact altReps_sub R.alt q hq (by rw [ha]; exact mem_altReps hc hr)

theorem resolves_mem {n : Str} {r : Rule} (h : Resolves g n r) : r ∈ g.rules ++ Core.rules := by
  cases h with
  | user h _ => exact List.mem_append.mpr (Or.inl h)
  | core h _ _ => exact List.mem_append.mpr (Or.inr h)

theorem occurs_rule {n : Str} {R : Rule} (h : Resolves g n R) {c : Concat} {r : Rep} (hc : c ∈ R.alt) (hr : r ∈ c) :
    Occurs g r.elem :=
  ⟨r, List.mem_flatMap.mpr ⟨R, resolves_mem h, mem_altReps hc hr⟩, rfl⟩

/-- A call of `reachAlt` on an alternation whose elements occur. -/
theorem reachAlt_sound {E : REnv} {rec : RCall} (hs : E.sched.Fair) (hrec : SoundCall E.g E.inp rec) (a : Alt)
    (ha : ∀ c ∈ a, ∀ r ∈ c, Occurs E.g r.elem) (i : Nat) (hi : i ≤ E.inp.length) (st : RSt) (hI : RSound E.g E.inp st) :
    (reachAlt E rec a i st).Sat True True (SoundRet E.g E.inp (AltEnds (Ends E.g E.inp) a i) st) := by
  refine (reachAlt_spec (A := Ends E.g E.inp) (B := fun _ _ _ => False) rsound_frame hs i hi a ?_ ?_ ?_ st hI).mono ?_
  · intro c hc pre r post hpre p hp k q hq st hI
    have hA : ∀ s ∈ c, ∀ p j, p ≤ E.inp.length → Ends E.g E.inp s.elem p j → p ≤ j ∧ j ≤ E.inp.length :=
      fun s _ p j hp h => ends_le hp h
    have hp' := concatEnds_le (fun s hs => hA s (by rw [hpre]; simp [hs])) hi hp
    have hq' := times_le (hA r (by rw [hpre]; simp)) hp'.2 hq
    exact hrec r.elem q st (Or.inl (ha c hc r (by rw [hpre]; simp))) hq'.2 hI
  · exact fun c _ r _ p j hp h => ends_le hp h
  · exact fun _ _ _ _ _ _ h => h.elim
  · rintro ⟨x, st1⟩ ⟨h1, h2, h3, _, h5⟩
    exact ⟨h1, h2, h3, fun _ h => h.elim, h5⟩

theorem computeElem_sound {E : REnv} {rec : RCall} (hwf : ∀ e, Occurs E.g e → TermWF e)
    (hs : E.sched.Fair) (hrec : SoundCall E.g E.inp rec) (e : Elem) (he : Asked E.g e) (i : Nat) (hi : i ≤ E.inp.length)
    (st : RSt) (hI : RSound E.g E.inp st) :
    (computeElem E rec e i st).Sat True True (SoundRet E.g E.inp (Ends E.g E.inp e i) st) := by
  have hin : ∀ a, elemReps e = altReps a → (∀ n, e ≠ .rulename n) → ∀ c ∈ a, ∀ r ∈ c, Occurs E.g r.elem := by
    intro a ha hn c hc r hr
    rcases he with he | ⟨n, r', rfl, _⟩
    · exact occurs_inner he ha hc hr
    · exact absurd rfl (hn n)
  have hterm : ∀ (e : Elem), Asked E.g e → (∀ n, e ≠ .rulename n) → 
      Run.Sat True True (SoundRet E.g E.inp (Ends E.g E.inp e i) st) (.ok ((matchElem E.inp e i).toList, st)) := by
    intro e he hn
    refine ⟨hI, trivial, ?_, fun _ h => h.elim, ?_⟩
    · intro j hj
      have hj : matchElem E.inp e i = some j := by simpa using hj
      have hw : TermWF e := by
        rcases he with he | ⟨n, r', rfl, _⟩
        · exact hwf e he
        · exact absurd rfl (hn n)
      obtain ⟨cs, h1, h2⟩ := (matchElem_iff E.inp e hw i j).mp hj
      exact ⟨_, .term e cs h1, by rw [← encodeAll_eq_utf8]; exact h2⟩
    · cases matchElem E.inp e i <;> simp
  cases e with
  | rulename n =>
    rw [computeElem]
    cases hr : getRule n E.g.rules with
    | none => exact ⟨hI, trivial, by simp, fun _ h => h.elim, List.nodup_nil⟩
    | some r =>
      have hres := getRule_resolves hr
      refine (reachAlt_sound hs hrec r.alt (fun c hc q hq => occurs_rule hres hc hq) i hi st hI).mono ?_
      rintro ⟨x, st1⟩ ⟨h1, h2, h3, h4, h5⟩
      refine ⟨h1, h2, fun j hj => ?_, h4, h5⟩
      obtain ⟨w, h6, h7⟩ := alt_derives (h3 j hj)
      exact ⟨w, .rule n r w hres h6, h7⟩
  | group a =>
    rw [computeElem]
    refine (reachAlt_sound hs hrec a (hin a rfl (by simp)) i hi st hI).mono ?_
    rintro ⟨x, st1⟩ ⟨h1, h2, h3, h4, h5⟩
    refine ⟨h1, h2, fun j hj => ?_, h4, h5⟩
    obtain ⟨w, h6, h7⟩ := alt_derives (h3 j hj)
    exact ⟨w, .group a w h6, h7⟩
  | option a =>
    rw [computeElem]
    refine (reachAlt_sound hs hrec a (hin a rfl (by simp)) i hi st hI).bnd ?_
    rintro ⟨x, st1⟩ ⟨h1, h2, h3, h4, h5⟩
    refine ⟨h1, h2, fun j hj => ?_, fun _ h => h.elim, nodup_union (List.nodup_singleton i)⟩
    rcases mem_union.mp hj with hj | hj
    · rw [List.mem_singleton.mp hj]
      exact ⟨[], .optNone a, (at_nil _ _ _).mpr rfl⟩
    · obtain ⟨w, h6, h7⟩ := alt_derives (h3 j hj)
      exact ⟨w, .optSome a w h6, h7⟩
  | charVal s vs => rw [computeElem]; exact hterm _ he (by simp)
  | numVal b s es => rw [computeElem]; exact hterm _ he (by simp)
  | proseVal s => rw [computeElem]; exact ⟨hI, trivial, by simp, fun _ h => h.elim, List.nodup_nil⟩

theorem mapSound_set (hd : DistinctElems g) {m : List (Str × List Nat)} (h : MapSound g inp m) {e : Elem} {i : Nat} {v : List Nat}
    (he : Asked g e) (hn : v.Nodup) (hv : ∀ j ∈ v, Ends g inp e i j) : MapSound g inp (setKey (memoKey e.str i) v m) :=
  mapSound_cons hd (mapSound_filter h _) he hn hv

theorem mapSound_nil {m : List (Str × List Nat)} (h : MapSound g inp m) (k : Str) : MapSound g inp ((k, []) :: m) := by
  intro k' v hkv
  rcases List.mem_cons.mp hkv with heq | hkv
  · injection heq with h1 h2
    subst h1 h2
    exact ⟨List.nodup_nil, fun _ _ _ _ _ hj => by cases hj⟩
  · exact h k' v hkv

theorem mapSound_copy {m m' : List (Str × List Nat)} (h : MapSound g inp m) (h' : MapSound g inp m') (k : Str) :
    MapSound g inp ((k, (m'.lookup k).getD []) :: m) := by
  cases hl : m'.lookup k with
  | none => exact mapSound_nil h k
  | some v =>
    intro k' w hkw
    rcases List.mem_cons.mp hkw with heq | hkw
    · injection heq with h1 h2
      rw [h1, h2]
      exact h' k v (lookup_mem hl)
    · exact h k' w hkw

theorem growInit_sound (i : Nat) : ∀ (xs : List Str) (st : RSt), RSound g inp st → RSound g inp (growInit i xs st) := by
  intro xs
  induction xs with
  | nil => intro st h; exact h
  | cons x xs ih =>
    intro st h
    exact ih _ ⟨h.1, mapSound_nil (mapSound_filter h.2 _) _⟩

theorem growRound_sound {E : REnv} {rec : RCall} (hde : DistinctElems E.g) (hs : E.sched.Fair)
    (hrec : SoundCall E.g E.inp rec) (i : Nat) (hi : i ≤ E.inp.length) : ∀ (xs : List Str) (ch : Bool) (st : RSt),
    RSound E.g E.inp st → (growRound E rec i xs ch st).Sat True True fun y => RSound E.g E.inp y.2 := by
  intro xs
  induction xs with
  | nil => intro ch st h; exact h
  | cons x xs ih =>
    intro ch st h
    rw [growRound]
    cases hr : getRule x E.g.rules with
    | none => exact ih ch st h
    | some r =>
      have hres := getRule_resolves hr
      refine (reachAlt_sound hs hrec r.alt (fun c hc q hq => occurs_rule hres hc hq) i hi st h).bnd ?_
      rintro ⟨y, st1⟩ ⟨h1, -, h3, -, h5⟩
      simp only at h1 h3 h5 ⊢
      cases hl : st1.growing.lookup (memoKey x i) with
      | none =>
        simp only
        split_ifs
        · exact ih ch st1 h1
        · trivial
      | some cur =>
        simp only
        split_ifs
        · refine ih true _ ⟨h1.1, ?_⟩
          have hcur := h1.2 _ _ (lookup_mem hl)
          have hask : Asked E.g (.rulename x) := Or.inr ⟨x, r, rfl, hres⟩
          refine mapSound_set (e := .rulename x) hde h1.2 hask (nodup_union hcur.1) ?_
          intro j hj
          rcases mem_union.mp hj with hj | hj
          · exact hcur.2 (.rulename x) i hask rfl j hj
          · obtain ⟨w, h6, h7⟩ := alt_derives (h3 j hj)
            exact ⟨w, .rule x r w hres h6, h7⟩
        · exact ih ch st1 h1

theorem growLoop_sound {E : REnv} {rec : RCall} (hde : DistinctElems E.g) (hs : E.sched.Fair)
    (hrec : SoundCall E.g E.inp rec) (i : Nat) (hi : i ≤ E.inp.length) (scc : List Str) : ∀ (n : Nat) (st : RSt),
    RSound E.g E.inp st → (growLoop E rec i scc n st).Sat True True fun y => RSound E.g E.inp y := by
  intro n
  induction n with
  | zero => intro st _; trivial
  | succ n ih =>
    intro st h
    rw [growLoop]
    refine (growRound_sound hde hs hrec i hi scc false st h).bnd ?_
    rintro ⟨ch, st1⟩ h1
    simp only
    split_ifs
    · exact ih st1 h1
    · exact h1

theorem growDone_sound (i : Nat) (name : Str) : ∀ (xs : List Str) (res : List Nat) (st : RSt), RSound g inp st → res.Nodup →
    (∀ e, Asked g e → e.str = name → ∀ j ∈ res, Ends g inp e i j) →
    RSound g inp (growDone i name xs res st).2 ∧ (growDone i name xs res st).1.Nodup ∧
      ∀ e, Asked g e → e.str = name → ∀ j ∈ (growDone i name xs res st).1, Ends g inp e i j := by
  intro xs
  induction xs with
  | nil => intro res st h hn hr; exact ⟨h, hn, hr⟩
  | cons x xs ih =>
    intro res st h hn hr
    rw [growDone]
    have hg : ((st.growing.lookup (memoKey x i)).getD []).Nodup ∧
        ∀ e, Asked g e → e.str = x → ∀ j ∈ (st.growing.lookup (memoKey x i)).getD [], Ends g inp e i j := by
      cases hl : st.growing.lookup (memoKey x i) with
      | none => exact ⟨List.nodup_nil, fun _ _ _ _ hj => by cases hj⟩
      | some v =>
        obtain ⟨h1, h2⟩ := h.2 _ _ (lookup_mem hl)
        exact ⟨h1, fun e he hx j hj => h2 e i he (by rw [hx]) j hj⟩
    apply ih
    · exact ⟨mapSound_copy h.1 h.2 _, mapSound_filter h.2 _⟩
    · split_ifs
      · exact hg.1
      · exact hn
    · intro e he hname
      split_ifs with hx
      · exact hg.2 e he (by rw [hname, hx])
      · exact hr e he hname

theorem ends_canon {n m : Str} (h : canon n = canon m) {i j : Nat} (he : Ends g inp (.rulename n) i j) :
    Ends g inp (.rulename m) i j := by
  obtain ⟨w, hw, hat⟩ := he
  cases hw with
  | rule _ r _ hres hd => exact ⟨w, .rule m r w ((resolves_congr h).mp hres) hd, hat⟩
  | term _ cs ht => cases ht

theorem reachElem_succ (E : REnv) (n : Nat) (e : Elem) (i : Nat) (st : RSt) : reachElem E (n + 1) e i st =
    match leftRecOf E e with
    | some (name, scc) => reachLeftRec E (reachElem E n) name scc i st
    | none => reachMemo E (reachElem E n) e i st := rfl

theorem reachElem_sound {E : REnv} (hde : DistinctElems E.g) (hwf : ∀ e, Occurs E.g e → TermWF e)
    (hlr : ∀ n scc, E.leftRec.lookup n = some scc → ∃ r, Resolves E.g n r)
    (hs : E.sched.Fair) : ∀ n, SoundCall E.g E.inp (reachElem E n) := by
  intro n
  induction n with
  | zero => intro e i st _ _ _; trivial
  | succ n ih =>
    intro e i st he hi hI
    rw [reachElem_succ]
    cases hl : leftRecOf E e with
    | none =>
      simp only
      unfold reachMemo
      cases hm : st.memo.lookup (memoKey e.str i) with
      | some v =>
        obtain ⟨h1, h2⟩ := hI.1 _ _ (lookup_mem hm)
        exact ⟨hI, trivial, h2 e i he rfl, fun _ h => h.elim, h1⟩
      | none =>
        simp only
        split_ifs
        · exact ⟨hI, trivial, by simp, fun _ h => h.elim, List.nodup_nil⟩
        · refine (computeElem_sound hwf hs ih e he i hi { st with inProgress := memoKey e.str i :: st.inProgress } hI).bnd ?_
          rintro ⟨x, st1⟩ ⟨h1, h2, h3, h4, h5⟩
          exact ⟨⟨mapSound_cons hde h1.1 he h5 h3, h1.2⟩, trivial, h3, fun _ h => h.elim, h5⟩
    | some p =>
      obtain ⟨name, scc⟩ := p
      simp only
      cases e with
      | rulename m =>
        simp only [leftRecOf, Option.map_eq_some_iff, Prod.mk.injEq] at hl
        obtain ⟨scc', hl, rfl, rfl⟩ := hl
        -- the folded name refers to the same rule
        have hask : Asked E.g (.rulename (canon m)) := by
          obtain ⟨r, hr⟩ := hlr _ _ hl
          exact Or.inr ⟨_, r, rfl, hr⟩
        have hback : ∀ j, Ends E.g E.inp (.rulename (canon m)) i j → Ends E.g E.inp (.rulename m) i j :=
          fun j => ends_canon (by rw [canon_canon])
        unfold reachLeftRec
        cases hm : st.memo.lookup (memoKey (canon m) i) with
        | some v =>
          obtain ⟨h1, h2⟩ := hI.1 _ _ (lookup_mem hm)
          exact ⟨hI, trivial, fun j hj => hback j (h2 _ i hask rfl j hj), fun _ h => h.elim, h1⟩
        | none =>
          simp only
          cases hg : st.growing.lookup (memoKey (canon m) i) with
          | some v =>
            obtain ⟨h1, h2⟩ := hI.2 _ _ (lookup_mem hg)
            exact ⟨hI, trivial, fun j hj => hback j (h2 _ i hask rfl j hj), fun _ h => h.elim, h1⟩
          | none =>
            simp only
            refine (growLoop_sound hde hs ih i hi scc' _ _ (growInit_sound i scc' st hI)).bnd ?_
            intro st1 h1
            obtain ⟨h2, h3, h4⟩ := growDone_sound i (canon m) scc' [] st1 h1 List.nodup_nil (fun _ _ _ _ hj => by cases hj)
            exact ⟨h2, trivial, fun j hj => hback j (h4 _ hask rfl j hj), fun _ h => h.elim, h3⟩
      | _ => simp [leftRecOf] at hl

/-- If `IsValid` accepts, whatever the left-recursive rules are taken to be, the input is derivable. -/
theorem isValidWith_sound {E : REnv} (hde : DistinctElems E.g) (hwf : ∀ e, Occurs E.g e → TermWF e)
    (hlr : ∀ n scc, E.leftRec.lookup n = some scc → ∃ r, Resolves E.g n r) (hs : E.sched.Fair) {name : Str}
    (h : isValidWith E name = some (.ok true)) : DerivesRule E.g name E.inp := by
  unfold isValidWith at h
  cases hr : getRule name E.g.rules with
  | none => rw [hr] at h; cases h
  | some r =>
    rw [hr] at h
    simp only [Option.some.injEq] at h
    have := reachElem_sound hde hwf hlr hs (rFuel E.g E.inp) (.rulename name) 0 rInit
      (Or.inr ⟨name, r, rfl, getRule_resolves hr⟩) (Nat.zero_le _)
      ⟨fun _ _ h => (List.not_mem_nil h).elim, fun _ _ h => (List.not_mem_nil h).elim⟩
    cases hx : reachElem E (rFuel E.g E.inp) (.rulename name) 0 rInit with
    | panic => rw [hx] at h; cases h
    | fuel => rw [hx] at h; cases h
    | ok x =>
      rw [hx] at h this
      simp only [Run.bnd, Run.ok.injEq, decide_eq_true_eq] at h
      obtain ⟨w, h1, ⟨t, ht⟩, h2⟩ := this.2.2.1 _ h
      have : t = [] := by
        have := congrArg List.length ht
        simp only [List.length_append, List.drop_zero] at this
        exact List.length_eq_zero_iff.mp (by omega)
      subst this
      simp only [List.append_nil, List.drop_zero] at ht
      rw [← ht]; exact h1

end

end Verif
