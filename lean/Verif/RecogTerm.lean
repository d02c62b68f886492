import Verif.RecogSound
import Verif.PropsTarjan

/-!
# Termination of the recogniser

A key is blocked once it is in progress, memoised or growing.  Blocked keys stay blocked, every call that does some
work blocks one more key, and there are finitely many keys; each round of seed growing but the last adds a position to
some seed.
-/

namespace Verif
open Spec

/-! ## Ends of terminals lie in the input -/

theorem matchSeries_le {inp : Bytes} {b : Str} : ∀ {es : List Str} {i j : Nat}, i ≤ inp.length →
    matchSeries inp b es i = some j → i ≤ j ∧ j ≤ inp.length := by
  intro es
  induction es with
  | nil => intro i j hi h; simp only [matchSeries, Option.some.injEq] at h; omega
  | cons e es ih =>
    intro i j hi h
    simp only [matchSeries] at h
    split_ifs at h with h1 h2
    have := ih (by omega) h
    omega

theorem matchElem_le {inp : Bytes} {e : Elem} {i j : Nat} (hi : i ≤ inp.length) (h : matchElem inp e i = some j) :
    i ≤ j ∧ j ≤ inp.length := by
  cases e with
  | charVal s vs =>
    simp only [matchElem] at h
    obtain ⟨cs, _, hat⟩ := (matchCharVal_iff inp s vs i j).mp h
    exact at_le hat hi
  | numVal b st es =>
    cases st with
    | series => simp only [matchElem] at h; exact matchSeries_le hi h
    | range =>
      simp only [matchElem, matchRange] at h
      split at h
      · split_ifs at h
        split at h
        · cases h
        · rename_i c k hd
          split_ifs at h
          simp only [Option.some.injEq] at h
          rw [decode_at] at hd
          have := at_le (j := i + k) hd hi
          omega
      · cases h
  | _ => simp [matchElem] at h

/-! ## Lookups -/

theorem lookup_filter_ne {k k' : Str} : ∀ {m : List (Str × List Nat)},
    (m.filter fun p => p.1 ≠ k).lookup k' = if k' = k then none else m.lookup k' := by
  intro m
  induction m with
  | nil => simp
  | cons p m ih =>
    obtain ⟨x, v⟩ := p
    by_cases hx : x = k
    · subst hx
      simp only [ne_eq, not_true_eq_false, decide_false, Bool.false_eq_true, not_false_eq_true, List.filter_cons_of_neg]
      rw [ih]
      split_ifs with h
      · rfl
      · rw [List.lookup_cons, beq_eq_false_iff_ne.mpr h]
    · rw [List.filter_cons_of_pos (by simpa using hx)]
      by_cases hk : k' = x
      · subst hk
        rw [if_neg hx]; simp
      · rw [List.lookup_cons, beq_eq_false_iff_ne.mpr hk, List.lookup_cons, beq_eq_false_iff_ne.mpr hk]
        exact ih

theorem lookup_delKey {k k' : Str} {m : List (Str × List Nat)} :
    (delKey k m).lookup k' = if k' = k then none else m.lookup k' := lookup_filter_ne

theorem lookup_setKey {k k' : Str} {v : List Nat} {m : List (Str × List Nat)} :
    (setKey k v m).lookup k' = if k' = k then some v else m.lookup k' := by
  unfold setKey
  by_cases h : k' = k
  · subst h; simp
  · rw [List.lookup_cons, beq_eq_false_iff_ne.mpr h, if_neg h]
    simp only
    rw [lookup_filter_ne, if_neg h]

/-! ## Blocked keys -/

/-- Keys of calls: `true` for calls filed in the memo directly, `false` for calls that grow seeds. -/
abbrev CallKey := Bool × Str

/-- The call is memoised, or in progress, respectively growing. -/
def blocked (st : RSt) (k : CallKey) : Bool :=
  (st.memo.lookup k.2).isSome || (if k.1 then decide (k.2 ∈ st.inProgress) else (st.growing.lookup k.2).isSome)

theorem blocked_memo {st : RSt} {k : Str} (b : Bool) (h : (st.memo.lookup k).isSome) : blocked st (b, k) = true := by
  simp [blocked, h]
theorem blocked_prog {st : RSt} {k : Str} (h : k ∈ st.inProgress) : blocked st (true, k) = true := by
  simp [blocked, h]
theorem blocked_grow {st : RSt} {k : Str} (h : (st.growing.lookup k).isSome) : blocked st (false, k) = true := by
  simp [blocked, h]

theorem blocked_of {st st' : RSt} (h1 : ∀ k, k ∈ st.inProgress → blocked st' (true, k) = true)
    (h2 : ∀ k, (st.memo.lookup k).isSome → (st'.memo.lookup k).isSome)
    (h3 : ∀ k, (st.growing.lookup k).isSome → blocked st' (false, k) = true) : ∀ k, blocked st k = true → blocked st' k = true := by
  rintro ⟨b, k⟩ hk
  simp only [blocked, Bool.or_eq_true] at hk
  rcases hk with h | h
  · exact blocked_memo b (h2 k h)
  · cases b with
    | true => exact h1 k (by simpa using h)
    | false => exact h3 k (by simpa using h)

/-- Number of keys of `K` not blocked. -/
def free (K : List CallKey) (st : RSt) : Nat := (K.filter fun k => !blocked st k).length

theorem free_le {K : List CallKey} {st st' : RSt} (h : ∀ k, blocked st k = true → blocked st' k = true) : free K st' ≤ free K st := by
  apply filter_length_le
  intro k hk
  cases hb : blocked st k with
  | false => rfl
  | true => rw [h k hb] at hk; exact hk

theorem free_lt {K : List CallKey} {st st' : RSt} (h : ∀ k, blocked st k = true → blocked st' k = true) {k : CallKey} (hk : k ∈ K)
    (h1 : blocked st k = false) (h2 : blocked st' k = true) : free K st' < free K st := by
  refine filter_length_lt K ?_ hk (by simp [h2]) (by simp [h1])
  intro k hk
  cases hb : blocked st k with
  | false => rfl
  | true => rw [h k hb] at hk; exact hk

/-- The positions in a map of sets lie between the position of the key and the end of the input. -/
def MapFits (len : Nat) (m : List (Str × List Nat)) : Prop :=
  ∀ k v, (k, v) ∈ m → v.Nodup ∧ ∀ s i, k = memoKey s i → i ≤ len → ∀ j ∈ v, i ≤ j ∧ j ≤ len

/-- The left-recursive rules fall into disjoint components. -/
def LRConsistent (leftRec : List (Str × List Str)) : Prop :=
  ∀ n scc, leftRec.lookup n = some scc → ∀ x ∈ scc, leftRec.lookup x = some scc

/-- The components growing at a position are growing as a whole. -/
def GrowClosed (leftRec : List (Str × List Str)) (gr : List (Str × List Nat)) : Prop :=
  ∀ n scc i, leftRec.lookup n = some scc → (gr.lookup (memoKey n i)).isSome → ∀ y ∈ scc, (gr.lookup (memoKey y i)).isSome

/-- The invariant: fewer than `n` keys are free. -/
def TermInv (E : REnv) (K : List CallKey) (n : Nat) (st : RSt) : Prop :=
  free K st < n ∧ MapFits E.inp.length st.memo ∧ MapFits E.inp.length st.growing ∧
    (LRConsistent E.leftRec → GrowClosed E.leftRec st.growing)

/-- What calls do to the state. -/
def TermRel (E : REnv) (st st' : RSt) : Prop :=
  (∀ k, blocked st k = true → blocked st' k = true) ∧
  (∀ k, st'.growing.lookup k = st.growing.lookup k ∨ st'.growing.lookup k = none) ∧
  (LRConsistent E.leftRec → ∀ k, st'.growing.lookup k = st.growing.lookup k)

theorem term_frame (E : REnv) (K : List CallKey) (n : Nat) : RFrame (TermInv E K n) (TermRel E) where
  refl := fun _ => ⟨fun _ h => h, fun _ => Or.inl rfl, fun _ _ => rfl⟩
  trans := by
    rintro a b c ⟨h1, h2, h3⟩ ⟨h4, h5, h6⟩
    refine ⟨fun k h => h4 k (h1 k h), fun k => ?_, fun hc k => (h6 hc k).trans (h3 hc k)⟩
    rcases h5 k with h | h
    · rw [h]; exact h2 k
    · exact Or.inr h
  tick := fun _ _ h => h
  rtick := fun _ _ => ⟨fun _ h => h, fun _ => Or.inl rfl, fun _ _ => rfl⟩

/-- Positions a call may return. -/
def Between (len : Nat) : Rel := fun _ i j => i ≤ j ∧ j ≤ len

/-- A terminating way of making calls. -/
def TermCall (E : REnv) (K : List CallKey) (U : Elem → Prop) (n : Nat) (rec : RCall) : Prop :=
  ∀ e i st, U e → i ≤ E.inp.length → TermInv E K n st →
    (rec e i st).Sat (¬ LRConsistent E.leftRec) False
      (Ret (TermInv E K n) (TermRel E) (Between E.inp.length e i) (fun _ => False) st)

theorem times_between {len : Nat} {e : Elem} {i : Nat} (hi : i ≤ len) : ∀ {n j : Nat}, Times (Between len) e n i j → i ≤ j ∧ j ≤ len :=
  fun h => times_le (fun _ _ _ h => h) hi h

theorem concat_between {len : Nat} {c : Concat} {i j : Nat} (hi : i ≤ len) (h : ConcatEnds (Between len) c i j) : i ≤ j ∧ j ≤ len :=
  concatEnds_le (fun _ _ _ _ _ h => h) hi h

section
variable {E : REnv} {K : List CallKey} {U : Elem → Prop} {n : Nat} {rec : RCall}

theorem reachAlt_term (hs : E.sched.Fair) (hrec : TermCall E K U n rec) (a : Alt) (ha : ∀ c ∈ a, ∀ r ∈ c, U r.elem) (i : Nat)
    (hi : i ≤ E.inp.length) (st : RSt) (hI : TermInv E K n st) :
    (reachAlt E rec a i st).Sat (¬ LRConsistent E.leftRec) False
      (Ret (TermInv E K n) (TermRel E) (fun j => i ≤ j ∧ j ≤ E.inp.length) (fun _ => False) st) := by
  refine (reachAlt_spec (A := Between E.inp.length) (B := fun _ _ _ => False) (term_frame E K n) hs i hi a ?_ ?_ ?_ st hI).mono ?_
  · intro c hc pre r post hpre p hp k q hq st hI
    have h1 := concat_between hi hp
    have h2 := times_between h1.2 hq
    exact hrec r.elem q st (ha c hc r (by rw [hpre]; simp)) h2.2 hI
  · exact fun _ _ _ _ _ _ _ h => h
  · exact fun _ _ _ _ _ _ h => h.elim
  · rintro ⟨x, st1⟩ ⟨h1, h2, h3, _, h5⟩
    refine ⟨h1, h2, fun j hj => ?_, fun _ h => h.elim, h5⟩
    obtain ⟨c, _, h⟩ := h3 j hj
    exact concat_between hi h

/-- The elements asked about are closed under taking the elements of a body. -/
structure Closed (g : Grammar) (U : Elem → Prop) : Prop where
  rule : ∀ n r, getRule n g.rules = some r → ∀ c ∈ r.alt, ∀ q ∈ c, U q.elem
  group : ∀ a, U (.group a) → ∀ c ∈ a, ∀ q ∈ c, U q.elem
  option : ∀ a, U (.option a) → ∀ c ∈ a, ∀ q ∈ c, U q.elem

theorem computeElem_term (hU : Closed E.g U) (hs : E.sched.Fair) (hrec : TermCall E K U n rec) (e : Elem) (he : U e) (i : Nat)
    (hi : i ≤ E.inp.length) (st : RSt) (hI : TermInv E K n st) :
    (computeElem E rec e i st).Sat (¬ LRConsistent E.leftRec) False
      (Ret (TermInv E K n) (TermRel E) (fun j => i ≤ j ∧ j ≤ E.inp.length) (fun _ => False) st) := by
  have hF := term_frame E K n
  have hterm : ∀ (e : Elem), 
      Run.Sat (¬ LRConsistent E.leftRec) False (Ret (TermInv E K n) (TermRel E) (fun j => i ≤ j ∧ j ≤ E.inp.length) (fun _ => False) st)
        (.ok ((matchElem E.inp e i).toList, st)) := by
    intro e
    refine ⟨hI, hF.refl st, ?_, fun _ h => h.elim, ?_⟩
    · intro j hj
      exact matchElem_le hi (by simpa using hj)
    · cases matchElem E.inp e i <;> simp
  cases e with
  | rulename m =>
    rw [computeElem]
    cases hr : getRule m E.g.rules with
    | none => exact ⟨hI, hF.refl st, by simp, fun _ h => h.elim, List.nodup_nil⟩
    | some r => exact reachAlt_term hs hrec r.alt (hU.rule m r hr) i hi st hI
  | group a => rw [computeElem]; exact reachAlt_term hs hrec a (hU.group a he) i hi st hI
  | option a =>
    rw [computeElem]
    refine (reachAlt_term hs hrec a (hU.option a he) i hi st hI).bnd ?_
    rintro ⟨x, st1⟩ ⟨h1, h2, h3, h4, h5⟩
    refine ⟨h1, h2, fun j hj => ?_, fun _ h => h.elim, nodup_union (List.nodup_singleton i)⟩
    rcases mem_union.mp hj with hj | hj
    · rw [List.mem_singleton.mp hj]; exact ⟨le_refl _, hi⟩
    · exact h3 j hj
  | charVal s vs => rw [computeElem]; exact hterm _
  | numVal b s es => rw [computeElem]; exact hterm _
  | proseVal s => rw [computeElem]; exact ⟨hI, hF.refl st, by simp, fun _ h => h.elim, List.nodup_nil⟩

/-! ## Growing seeds -/

/-- Room left in the seeds of the component. -/
def room (len i : Nat) (gr : List (Str × List Nat)) : List Str → Nat
  | [] => 0
  | x :: xs => (match gr.lookup (memoKey x i) with | none => 0 | some s => len + 1 - s.length) + room len i gr xs

theorem room_le {len i : Nat} {gr gr' : List (Str × List Nat)}
    (h : ∀ k, gr'.lookup k = none ∨ ∃ s s', gr.lookup k = some s ∧ gr'.lookup k = some s' ∧ s.length ≤ s'.length) (xs : List Str) :
    room len i gr' xs ≤ room len i gr xs := by
  induction xs with
  | nil => exact le_refl _
  | cons x xs ih =>
    simp only [room]
    rcases h (memoKey x i) with h1 | ⟨s, s', h1, h2, h3⟩
    · rw [h1]; simp only; omega
    · rw [h1, h2]; simp only; omega

theorem room_lt {len i : Nat} {gr gr' : List (Str × List Nat)}
    (h : ∀ k, gr'.lookup k = none ∨ ∃ s s', gr.lookup k = some s ∧ gr'.lookup k = some s' ∧ s.length ≤ s'.length) {xs : List Str}
    {x : Str} (hx : x ∈ xs) {s s' : List Nat} (h1 : gr.lookup (memoKey x i) = some s) (h2 : gr'.lookup (memoKey x i) = some s')
    (h3 : s.length < s'.length) (h4 : s'.length ≤ len + 1) : room len i gr' xs < room len i gr xs := by
  induction xs with
  | nil => cases hx
  | cons y xs ih =>
    simp only [room]
    have hle := room_le (len := len) (i := i) h xs
    by_cases hy : x = y
    · subst hy
      rw [h1, h2]; simp only; omega
    · have := ih (by rcases List.mem_cons.mp hx with h | h; exact absurd h hy; exact h)
      rcases h (memoKey y i) with g1 | ⟨s, s', g1, g2, g3⟩
      · rw [g1]; simp only; omega
      · rw [g1, g2]; simp only; omega

theorem room_rel {st st' : RSt} (h : TermRel E st st') (len i : Nat) (xs : List Str) :
    room len i st'.growing xs ≤ room len i st.growing xs := by
  apply room_le
  intro k
  rcases h.2.1 k with h1 | h1
  · cases h2 : st.growing.lookup k with
    | none => rw [h2] at h1; exact Or.inl h1
    | some s => rw [h2] at h1; exact Or.inr ⟨s, s, rfl, h1, le_refl _⟩
  · exact Or.inl h1

/-- What a round does to the state. -/
def RoundRel (E : REnv) (i : Nat) (scc : List Str) (st st' : RSt) : Prop :=
  (∀ k, blocked st k = true → blocked st' k = true) ∧
  (∀ k, (∀ x ∈ scc, k ≠ memoKey x i) → st'.growing.lookup k = st.growing.lookup k ∨ st'.growing.lookup k = none) ∧
  (LRConsistent E.leftRec → (∀ k, (∀ x ∈ scc, k ≠ memoKey x i) → st'.growing.lookup k = st.growing.lookup k) ∧
    ∀ k, (st'.growing.lookup k).isSome = (st.growing.lookup k).isSome)

theorem RoundRel.refl (i : Nat) (scc : List Str) (st : RSt) : RoundRel E i scc st st :=
  ⟨fun _ h => h, fun _ _ => Or.inl rfl, fun _ => ⟨fun _ _ => rfl, fun _ => rfl⟩⟩

theorem RoundRel.trans {i : Nat} {scc : List Str} {a b c : RSt} (h : RoundRel E i scc a b) (h' : RoundRel E i scc b c) :
    RoundRel E i scc a c := by
  refine ⟨fun k hk => h'.1 k (h.1 k hk), fun k hk => ?_, fun hc => ⟨fun k hk => ?_, fun k => ?_⟩⟩
  · rcases h'.2.1 k hk with h1 | h1
    · rw [h1]; exact h.2.1 k hk
    · exact Or.inr h1
  · rw [(h'.2.2 hc).1 k hk, (h.2.2 hc).1 k hk]
  · rw [(h'.2.2 hc).2 k, (h.2.2 hc).2 k]

theorem TermRel.round {st st' : RSt} (h : TermRel E st st') (i : Nat) (scc : List Str) : RoundRel E i scc st st' :=
  ⟨h.1, fun k _ => h.2.1 k, fun hc => ⟨fun k _ => h.2.2 hc k, fun k => by rw [h.2.2 hc k]⟩⟩

theorem mapFits_cons {len : Nat} {m : List (Str × List Nat)} (h : MapFits len m) {s : Str} {i : Nat} {v : List Nat} (hn : v.Nodup)
    (hv : ∀ j ∈ v, i ≤ j ∧ j ≤ len) : MapFits len ((memoKey s i, v) :: m) := by
  intro k w hkw
  rcases List.mem_cons.mp hkw with heq | hkw
  · injection heq with h1 h2
    subst h1 h2
    refine ⟨hn, ?_⟩
    intro s' i' hk hi j hj
    obtain ⟨_, h2⟩ := memoKey_inj hk
    rw [← h2]
    exact hv j hj
  · exact h k w hkw

theorem mapFits_filter {len : Nat} {m : List (Str × List Nat)} (h : MapFits len m) (p : Str × List Nat → Bool) :
    MapFits len (m.filter p) := fun k v hkv => h k v (List.mem_filter.mp hkv).1

theorem mapFits_copy {len : Nat} {m m' : List (Str × List Nat)} (h : MapFits len m) (h' : MapFits len m') (k : Str) :
    MapFits len ((k, (m'.lookup k).getD []) :: m) := by
  intro k' w hkw
  rcases List.mem_cons.mp hkw with heq | hkw
  · injection heq with h1 h2
    rw [h1, h2]
    cases hl : m'.lookup k with
    | none => exact ⟨List.nodup_nil, fun _ _ _ _ _ hj => by cases hj⟩
    | some v => exact h' k v (lookup_mem hl)
  · exact h k' w hkw

theorem growRound_term (hU : Closed E.g U) (hs : E.sched.Fair) (hrec : TermCall E K U n rec) (i : Nat)
    (hi : i ≤ E.inp.length) (scc : List Str) : ∀ (xs : List Str) (ch : Bool) (st : RSt), xs ⊆ scc → TermInv E K n st →
    (LRConsistent E.leftRec → ∀ x ∈ xs, (st.growing.lookup (memoKey x i)).isSome) →
    (growRound E rec i xs ch st).Sat (¬ LRConsistent E.leftRec) False fun y =>
      TermInv E K n y.2 ∧ RoundRel E i scc st y.2 ∧
      room E.inp.length i y.2.growing scc ≤ room E.inp.length i st.growing scc ∧
      (y.1 = true → ch = true ∨ room E.inp.length i y.2.growing scc < room E.inp.length i st.growing scc) := by
  intro xs
  induction xs with
  | nil => intro ch st _ h _; exact ⟨h, RoundRel.refl i scc st, le_refl _, fun h => Or.inl h⟩
  | cons x xs ih =>
    intro ch st hsub h hgr
    have hsub' : xs ⊆ scc := fun y hy => hsub (List.mem_cons_of_mem _ hy)
    have hx : x ∈ scc := hsub (by simp)
    rw [growRound]
    cases hr : getRule x E.g.rules with
    | none => exact ih ch st hsub' h fun hc y hy => hgr hc y (List.mem_cons_of_mem _ hy)
    | some r =>
      refine (reachAlt_term hs hrec r.alt (hU.rule x r hr) i hi st h).bnd ?_
      rintro ⟨y, st1⟩ ⟨h1, h2, h3, -, h5⟩
      simp only at h1 h2 h3 h5 ⊢
      have hroom := room_rel h2 E.inp.length i scc
      have hgr1 : LRConsistent E.leftRec → ∀ x ∈ xs, (st1.growing.lookup (memoKey x i)).isSome := fun hc y hy => by
        rw [h2.2.2 hc]; exact hgr hc y (List.mem_cons_of_mem _ hy)
      have hcont : (growRound E rec i xs ch st1).Sat (¬ LRConsistent E.leftRec) False fun y =>
          TermInv E K n y.2 ∧ RoundRel E i scc st y.2 ∧
          room E.inp.length i y.2.growing scc ≤ room E.inp.length i st.growing scc ∧
          (y.1 = true → ch = true ∨ room E.inp.length i y.2.growing scc < room E.inp.length i st.growing scc) := by
        refine (ih ch st1 hsub' h1 hgr1).mono ?_
        rintro ⟨z, st2⟩ ⟨g1, g2, g3, g4⟩
        refine ⟨g1, (h2.round i scc).trans g2, le_trans g3 hroom, fun hz => ?_⟩
        rcases g4 hz with g | g
        · exact Or.inl g
        · exact Or.inr (lt_of_lt_of_le g hroom)
      cases hl : st1.growing.lookup (memoKey x i) with
      | none =>
        simp only
        split_ifs
        · exact hcont
        · intro hc
          have := hgr hc x (by simp)
          rw [← h2.2.2 hc, hl] at this
          cases this
      | some cur =>
        simp only
        split_ifs with hany
        · have hcur := h1.2.2.1 _ _ (lookup_mem hl)
          have hun : (union cur y).Nodup := nodup_union hcur.1
          have hbd : ∀ j ∈ union cur y, i ≤ j ∧ j ≤ E.inp.length := by
            intro j hj
            rcases mem_union.mp hj with hj | hj
            · exact hcur.2 x i rfl hi j hj
            · exact h3 j hj
          have hblk : ∀ k, blocked st1 k = true →
              blocked { st1 with growing := setKey (memoKey x i) (union cur y) st1.growing } k = true := by
            refine blocked_of (fun k hk => ?_) (fun k hk => ?_) (fun k hk => ?_)
            · exact blocked_prog hk
            · exact hk
            · refine blocked_grow ?_
              simp only [lookup_setKey]
              split_ifs
              · rfl
              · exact hk
          have hsome : ∀ k, ((setKey (memoKey x i) (union cur y) st1.growing).lookup k).isSome = (st1.growing.lookup k).isSome := by
            intro k
            rw [lookup_setKey]
            split_ifs with hk
            · rw [hk, hl]; rfl
            · rfl
          have hI2 : TermInv E K n { st1 with growing := setKey (memoKey x i) (union cur y) st1.growing } := by
            refine ⟨lt_of_le_of_lt (free_le hblk) h1.1, h1.2.1, mapFits_cons (mapFits_filter h1.2.2.1 _) hun hbd, ?_⟩
            intro hc m scc' i' hm hi' z hz
            simp only [hsome] at hi' ⊢
            exact h1.2.2.2 hc m scc' i' hm hi' z hz
          have hrel2 : RoundRel E i scc st1 { st1 with growing := setKey (memoKey x i) (union cur y) st1.growing } := by
            refine ⟨hblk, fun k hk => Or.inl ?_, fun hc => ⟨fun k hk => ?_, hsome⟩⟩
            all_goals
              simp only [lookup_setKey]
              rw [if_neg (hk x hx)]
          have hlt : room E.inp.length i (setKey (memoKey x i) (union cur y) st1.growing) scc < room E.inp.length i st1.growing scc := by
            obtain ⟨e, he, hne⟩ := List.any_eq_true.mp hany
            simp only [decide_eq_true_eq] at hne
            have hlen : cur.length + 1 ≤ (union cur y).length := by
              have hsub : (e :: cur) ⊆ union cur y := by
                intro z hz
                rcases List.mem_cons.mp hz with rfl | hz
                · exact mem_union.mpr (Or.inr he)
                · exact mem_union.mpr (Or.inl hz)
              simpa using (List.subperm_of_subset (List.nodup_cons.mpr ⟨hne, hcur.1⟩) hsub).length_le
            refine room_lt ?_ hx hl (by rw [lookup_setKey, if_pos rfl]) hlen (nodup_le hun fun j hj => (hbd j hj).2)
            intro k
            rw [lookup_setKey]
            split_ifs with hk
            · exact Or.inr ⟨cur, _, by rw [hk, hl], rfl, by omega⟩
            · cases hlk : st1.growing.lookup k with
              | none => exact Or.inl rfl
              | some s => exact Or.inr ⟨s, s, rfl, rfl, le_refl _⟩
          refine (ih true _ hsub' hI2 fun hc z hz => ?_).mono ?_
          · simp only [hsome]; exact hgr1 hc z hz
          · rintro ⟨z, st2⟩ ⟨g1, g2, g3, g4⟩
            simp only at g3 g4 ⊢
            refine ⟨g1, ((h2.round i scc).trans hrel2).trans g2, by omega, fun _ => Or.inr (by omega)⟩
        · exact hcont

theorem growLoop_term (hU : Closed E.g U) (hs : E.sched.Fair) (hrec : TermCall E K U n rec) (i : Nat)
    (hi : i ≤ E.inp.length) (scc : List Str) : ∀ (m : Nat) (st : RSt), TermInv E K n st →
    room E.inp.length i st.growing scc < m →
    (LRConsistent E.leftRec → ∀ x ∈ scc, (st.growing.lookup (memoKey x i)).isSome) →
    (growLoop E rec i scc m st).Sat (¬ LRConsistent E.leftRec) False fun y => TermInv E K n y ∧ RoundRel E i scc st y := by
  intro m
  induction m with
  | zero => intro st _ h; omega
  | succ m ih =>
    intro st h hm hgr
    rw [growLoop]
    refine (growRound_term hU hs hrec i hi scc scc false st (fun _ h => h) h hgr).bnd ?_
    rintro ⟨ch, st1⟩ ⟨h1, h2, h3, h4⟩
    simp only at h1 h2 h3 h4 ⊢
    split_ifs with hch
    · have hlt : room E.inp.length i st1.growing scc < room E.inp.length i st.growing scc := by
        rcases h4 hch with h | h
        · cases h
        · exact h
      refine (ih st1 h1 (by omega) fun hc x hx => ?_).mono ?_
      · rw [(h2.2.2 hc).2]; exact hgr hc x hx
      · rintro st2 ⟨g1, g2⟩
        exact ⟨g1, h2.trans g2⟩
    · exact ⟨h1, h2⟩

theorem growInit_lookup (i : Nat) : ∀ (xs : List Str) (st : RSt) (k : Str),
    (growInit i xs st).growing.lookup k = if k ∈ xs.map (memoKey · i) then some [] else st.growing.lookup k := by
  intro xs
  induction xs with
  | nil => intro st k; simp [growInit]
  | cons x xs ih =>
    intro st k
    rw [growInit, ih]
    simp only [List.map_cons, List.mem_cons]
    by_cases h : k ∈ xs.map (memoKey · i)
    · rw [if_pos h, if_pos (Or.inr h)]
    · rw [if_neg h]
      simp only [lookup_setKey]
      by_cases hk : k = memoKey x i
      · rw [if_pos hk, if_pos (Or.inl hk)]
      · rw [if_neg hk, if_neg (by tauto)]

theorem growInit_other (i : Nat) : ∀ (xs : List Str) (st : RSt),
    (growInit i xs st).memo = st.memo ∧ (growInit i xs st).inProgress = st.inProgress := by
  intro xs
  induction xs with
  | nil => intro st; exact ⟨rfl, rfl⟩
  | cons x xs ih => intro st; rw [growInit]; exact ih _

theorem growInit_fits {len : Nat} (i : Nat) : ∀ (xs : List Str) (st : RSt), MapFits len st.growing →
    MapFits len (growInit i xs st).growing := by
  intro xs
  induction xs with
  | nil => intro st h; exact h
  | cons x xs ih =>
    intro st h
    rw [growInit]
    exact ih _ (mapFits_cons (mapFits_filter h _) List.nodup_nil fun _ h => by cases h)

/-- The final loop: seeds move to the memo. -/
theorem growDone_lookup (i : Nat) (name : Str) : ∀ (xs : List Str) (res : List Nat) (st : RSt) (k : Str),
    (growDone i name xs res st).2.growing.lookup k = (if k ∈ xs.map (memoKey · i) then none else st.growing.lookup k) ∧
    ((st.memo.lookup k).isSome ∨ k ∈ xs.map (memoKey · i) → ((growDone i name xs res st).2.memo.lookup k).isSome) ∧
    (growDone i name xs res st).2.inProgress = st.inProgress := by
  intro xs
  induction xs with
  | nil => intro res st k; simp [growDone]
  | cons x xs ih =>
    intro res st k
    rw [growDone]
    obtain ⟨h1, h2, h3⟩ := ih (if x = name then (st.growing.lookup (memoKey x i)).getD [] else res)
      { st with growing := delKey (memoKey x i) st.growing,
                memo := (memoKey x i, (st.growing.lookup (memoKey x i)).getD []) :: st.memo } k
    refine ⟨?_, ?_, h3⟩
    · rw [h1]
      simp only [List.map_cons, List.mem_cons, lookup_delKey]
      by_cases h : k ∈ xs.map (memoKey · i)
      · rw [if_pos h, if_pos (Or.inr h)]
      · rw [if_neg h]
        by_cases hk : k = memoKey x i
        · rw [if_pos hk, if_pos (Or.inl hk)]
        · rw [if_neg hk, if_neg (by tauto)]
    · intro h
      apply h2
      simp only [List.map_cons, List.mem_cons] at h
      by_cases hk : k = memoKey x i
      · left; rw [hk]; simp
      · rw [List.lookup_cons, beq_eq_false_iff_ne.mpr hk]
        rcases h with h | h | h
        · exact Or.inl h
        · exact absurd h hk
        · exact Or.inr h

theorem growDone_fits {len : Nat} (i : Nat) (hi : i ≤ len) (name : Str) : ∀ (xs : List Str) (res : List Nat) (st : RSt),
    MapFits len st.growing → MapFits len st.memo → res.Nodup → (∀ j ∈ res, i ≤ j ∧ j ≤ len) →
    MapFits len (growDone i name xs res st).2.growing ∧ MapFits len (growDone i name xs res st).2.memo ∧
    (growDone i name xs res st).1.Nodup ∧ ∀ j ∈ (growDone i name xs res st).1, i ≤ j ∧ j ≤ len := by
  intro xs
  induction xs with
  | nil => intro res st h1 h2 h3 h4; exact ⟨h1, h2, h3, h4⟩
  | cons x xs ih =>
    intro res st h1 h2 h3 h4
    rw [growDone]
    have hg : ((st.growing.lookup (memoKey x i)).getD []).Nodup ∧ ∀ j ∈ (st.growing.lookup (memoKey x i)).getD [], i ≤ j ∧ j ≤ len := by
      cases hl : st.growing.lookup (memoKey x i) with
      | none => exact ⟨List.nodup_nil, fun _ hj => by cases hj⟩
      | some v =>
        have := h1 _ _ (lookup_mem hl)
        exact ⟨this.1, this.2 x i rfl hi⟩
    apply ih
    · exact mapFits_filter h1 _
    · exact mapFits_copy h2 h1 _
    · split_ifs
      · exact hg.1
      · exact h3
    · split_ifs
      · exact hg.2
      · exact h4

theorem room_init {len i : Nat} (gr : List (Str × List Nat)) (xs : List Str) : room len i gr xs ≤ xs.length * (len + 1) := by
  induction xs with
  | nil => simp [room]
  | cons x xs ih =>
    simp only [room, List.length_cons, Nat.add_mul, Nat.one_mul]
    cases gr.lookup (memoKey x i) with
    | none => simp only; omega
    | some s => simp only; omega

/-- The key under which a call is filed. -/
def fileKey (E : REnv) (e : Elem) (i : Nat) : CallKey :=
  match leftRecOf E e with
  | some (name, _) => (false, memoKey name i)
  | none => (true, memoKey e.str i)

theorem TermInv.of_rel {st st' : RSt} {m : Nat} (h : TermInv E K m st) (hb : ∀ k, blocked st k = true → blocked st' k = true)
    (hm : MapFits E.inp.length st'.memo) (hg : MapFits E.inp.length st'.growing)
    (hc : LRConsistent E.leftRec → ∀ k, (st'.growing.lookup k).isSome = (st.growing.lookup k).isSome) : TermInv E K m st' := by
  refine ⟨lt_of_le_of_lt (free_le hb) h.1, hm, hg, fun hcons => ?_⟩
  intro x scc i hx hi y hy
  rw [hc hcons] at hi ⊢
  exact h.2.2.2 hcons x scc i hx hi y hy

theorem reachElem_term (hU : Closed E.g U) (hs : E.sched.Fair) (hmem : ∀ m scc, E.leftRec.lookup m = some scc → m ∈ scc)
    (hK : ∀ e i, U e → i ≤ E.inp.length → fileKey E e i ∈ K) : ∀ n, TermCall E K U n (reachElem E n) := by
  intro n
  induction n with
  | zero => intro e i st _ _ h; exact absurd h.1 (by omega)
  | succ n ih =>
    intro e i st he hi hI
    have hk := hK e i he hi
    have hF := term_frame E K (n + 1)
    rw [reachElem_succ]
    unfold fileKey at hk
    cases hl : leftRecOf E e with
    | none =>
      rw [hl] at hk
      simp only at hk ⊢
      unfold reachMemo
      cases hm : st.memo.lookup (memoKey e.str i) with
      | some v =>
        obtain ⟨h1, h2⟩ := hI.2.1 _ _ (lookup_mem hm)
        exact ⟨hI, hF.refl st, fun j hj => h2 e.str i rfl hi j hj, fun _ h => h.elim, h1⟩
      | none =>
        simp only
        split_ifs with hp
        · exact ⟨hI, hF.refl st, by simp, fun _ h => h.elim, List.nodup_nil⟩
        · -- the key becomes blocked
          have hblk : ∀ k, blocked st k = true →
              blocked { st with inProgress := memoKey e.str i :: st.inProgress } k = true :=
            blocked_of (fun k h => blocked_prog (List.mem_cons_of_mem _ h)) (fun k h => h) (fun k h => blocked_grow h)
          have hlt : free K { st with inProgress := memoKey e.str i :: st.inProgress } < free K st := by
            refine free_lt hblk hk ?_ (blocked_prog (by simp))
            simp [blocked, hm, hp]
          have hI' : TermInv E K n { st with inProgress := memoKey e.str i :: st.inProgress } :=
            ⟨by have := hI.1; omega, hI.2⟩
          refine (computeElem_term hU hs ih e he i hi _ hI').bnd ?_
          rintro ⟨x, st1⟩ ⟨h1, h2, h3, h4, h5⟩
          simp only at h1 h2 h3 h5
          have hb1 : ∀ k, blocked st1 k = true → blocked { st1 with
              inProgress := st1.inProgress.filter (fun k => k ≠ memoKey e.str i),
              memo := (memoKey e.str i, x) :: st1.memo } k = true := by
            refine blocked_of (fun k h => ?_) (fun k h => ?_) (fun k h => blocked_grow h)
            · by_cases hke : k = memoKey e.str i
              · exact blocked_memo _ (by rw [hke]; simp)
              · exact blocked_prog (List.mem_filter.mpr ⟨h, by simpa using hke⟩)
            · simp only [List.lookup_cons]
              split
              · rfl
              · exact h
          have hb := fun k hbk => hb1 k (h2.1 k (hblk k hbk))
          refine ⟨hI.of_rel hb (mapFits_cons h1.2.1 h5 h3) h1.2.2.1 (fun hc k => ?_), ⟨hb, h2.2.1, h2.2.2⟩, h3,
            fun _ h => h.elim, h5⟩
          simp only [h2.2.2 hc]
    | some p =>
      obtain ⟨name, scc⟩ := p
      rw [hl] at hk
      simp only at hk ⊢
      have hname : E.leftRec.lookup name = some scc := by
        cases e with
        | rulename m =>
          simp only [leftRecOf, Option.map_eq_some_iff, Prod.mk.injEq] at hl
          obtain ⟨scc', hl, rfl, rfl⟩ := hl
          exact hl
        | _ => simp [leftRecOf] at hl
      have hns := hmem name scc hname
      unfold reachLeftRec
      cases hm : st.memo.lookup (memoKey name i) with
      | some v =>
        obtain ⟨h1, h2⟩ := hI.2.1 _ _ (lookup_mem hm)
        exact ⟨hI, hF.refl st, fun j hj => h2 name i rfl hi j hj, fun _ h => h.elim, h1⟩
      | none =>
        simp only
        cases hg : st.growing.lookup (memoKey name i) with
        | some v =>
          obtain ⟨h1, h2⟩ := hI.2.2.1 _ _ (lookup_mem hg)
          exact ⟨hI, hF.refl st, fun j hj => h2 name i rfl hi j hj, fun _ h => h.elim, h1⟩
        | none =>
          simp only
          have hlk := growInit_lookup i scc st
          obtain ⟨hme, hpe⟩ := growInit_other i scc st
          have hblk : ∀ k, blocked st k = true → blocked (growInit i scc st) k = true := by
            refine blocked_of (fun k h => blocked_prog (by rw [hpe]; exact h)) (fun k h => by rw [hme]; exact h)
              (fun k h => blocked_grow ?_)
            rw [hlk]
            split_ifs
            · rfl
            · exact h
          have hlt : free K (growInit i scc st) < free K st := by
            refine free_lt hblk hk ?_ (blocked_grow ?_)
            · simp [blocked, hm, hg]
            · rw [hlk, if_pos (List.mem_map.mpr ⟨name, hns, rfl⟩)]; rfl
          have hI' : TermInv E K n (growInit i scc st) := by
            refine ⟨by have := hI.1; omega, by rw [hme]; exact hI.2.1, growInit_fits i scc st hI.2.2.1, fun hc => ?_⟩
            intro x scc' i' hx hi' y hy
            rw [hlk] at hi' ⊢
            split_ifs at hi' with hmem'
            · obtain ⟨z, hz, hzk⟩ := List.mem_map.mp hmem'
              obtain ⟨h1, h2⟩ := memoKey_inj hzk
              subst h1 h2
              rw [hc name scc hname z hz] at hx
              injection hx with hx
              subst hx
              rw [if_pos (List.mem_map.mpr ⟨y, hy, rfl⟩)]; rfl
            · split_ifs
              · rfl
              · exact hI.2.2.2 hc x scc' i' hx hi' y hy
          have hroom := room_init (len := E.inp.length) (i := i) (growInit i scc st).growing scc
          refine (growLoop_term hU hs ih i hi scc _ _ hI' (by omega) fun hc x hx => ?_).bnd ?_
          · rw [hlk, if_pos (List.mem_map.mpr ⟨x, hx, rfl⟩)]; rfl
          · rintro st1 ⟨h1, h2⟩
            obtain ⟨f1, f2, f3, f4⟩ := growDone_fits i hi name scc [] st1 h1.2.2.1 h1.2.1 List.nodup_nil (fun _ h => by cases h)
            have hd := growDone_lookup i name scc [] st1
            have hb : ∀ k, blocked st k = true → blocked (growDone i name scc [] st1).2 k = true := by
              intro k hbk
              refine blocked_of (st := st1) (fun k h => ?_) (fun k h => (hd k).2.1 (Or.inl h)) (fun k h => ?_) k (h2.1 k (hblk k hbk))
              · exact blocked_prog (by rw [(hd k).2.2]; exact h)
              · by_cases hks : k ∈ scc.map (memoKey · i)
                · exact blocked_memo _ ((hd k).2.1 (Or.inr hks))
                · exact blocked_grow (by rw [(hd k).1, if_neg hks]; exact h)
            have hne : ∀ k, k ∉ scc.map (memoKey · i) → ∀ x ∈ scc, k ≠ memoKey x i := by
              rintro k hk x hx rfl
              exact hk (List.mem_map.mpr ⟨x, hx, rfl⟩)
            have hsame : LRConsistent E.leftRec → ∀ k, (growDone i name scc [] st1).2.growing.lookup k = st.growing.lookup k := by
              intro hc k
              rw [(hd k).1]
              split_ifs with hks
              · obtain ⟨z, hz, rfl⟩ := List.mem_map.mp hks
                cases hzl : st.growing.lookup (memoKey z i) with
                | none => rfl
                | some v =>
                  have := hI.2.2.2 hc z scc i (hc name scc hname z hz) (by rw [hzl]; rfl) name hns
                  rw [hg] at this
                  cases this
              · rw [(h2.2.2 hc).1 k (hne k hks), hlk, if_neg hks]
            refine ⟨hI.of_rel hb f2 f1 (fun hc k => by rw [hsame hc]), ⟨hb, fun k => ?_, hsame⟩, f4, fun _ h => h.elim, f3⟩
            rw [(hd k).1]
            split_ifs with hks
            · exact Or.inr rfl
            · rcases h2.2.1 k (hne k hks) with h | h
              · rw [h, hlk, if_neg hks]; exact Or.inl rfl
              · exact Or.inr h

end

end Verif
