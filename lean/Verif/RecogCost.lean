import Verif.PropsRecog

/-!
# How much `IsValid` does

The `tick` of the state (`RSt`) counts the loops `for p := range cur` of `reachConcat` and `for p := range level` of
`reachRep` (/repo/recognize.go:58, 94), each of which looks at no more positions than the input has.
-/

namespace Verif
open Spec

/-- What has been done and what can still be charged for. -/
def charge (C : Nat) (K : List CallKey) (st : RSt) : Nat := st.tick + C * free K st

/-- Repetitions at the top of an alternation. -/
def width (a : Alt) : Nat := (a.map List.length).sum

/-- Ranges `reachConcat` makes for one repetition. -/
def perRep (len : Nat) : Nat := 1 + (len + 1) * (len + 2)

/-- What is known after a part of a run that adds at most `d`. -/
structure Spent (E : REnv) (K : List CallKey) (n C d : Nat) (st : RSt) (x : List Nat × RSt) : Prop where
  inv : TermInv E K n x.2
  rel : TermRel E st x.2
  pos : ∀ j ∈ x.1, j ≤ E.inp.length
  nodup : x.1.Nodup
  cost : charge C K x.2 ≤ charge C K st + d

/-- Calls that pay for themselves. -/
def CostCall (E : REnv) (K : List CallKey) (U : Elem → Prop) (n C : Nat) (rec : RCall) : Prop :=
  ∀ e i st, U e → i ≤ E.inp.length → TermInv E K n st → (rec e i st).Sat True True (Spent E K n C 0 st)

section
variable {E : REnv} {K : List CallKey} {U : Elem → Prop} {n C : Nat} {rec : RCall}

theorem forEach_cost {f : Nat → RSt → Run (List Nat × RSt)} {d : Nat} : ∀ (ps acc : List Nat) (st : RSt),
    (∀ p ∈ ps, ∀ st, TermInv E K n st → (f p st).Sat True True (Spent E K n C d st)) → TermInv E K n st → acc.Nodup →
    (∀ j ∈ acc, j ≤ E.inp.length) → (forEach f ps acc st).Sat True True (Spent E K n C (ps.length * d) st) := by
  intro ps
  induction ps with
  | nil =>
    intro acc st _ hI hn hp
    exact ⟨hI, (term_frame E K n).refl st, hp, hn, Nat.le_add_right _ _⟩
  | cons p ps ih =>
    intro acc st hf hI hn hp
    rw [forEach]
    refine (hf p (by simp) st hI).bnd ?_
    rintro ⟨r, st1⟩ h
    refine (ih (union acc r) st1 (fun q hq => hf q (by simp [hq])) h.inv (nodup_union hn) ?_).mono ?_
    · intro j hj
      rcases mem_union.mp hj with hj | hj
      · exact hp j hj
      · exact h.pos j hj
    · rintro ⟨r', st2⟩ g
      refine ⟨g.inv, (term_frame E K n).trans _ _ _ h.rel g.rel, g.pos, g.nodup, ?_⟩
      have h1 := h.cost
      have h2 := g.cost
      simp only [List.length_cons, Nat.add_mul, Nat.one_mul] at h1 h2 ⊢
      omega

theorem rangeSet_cost (hs : E.sched.Fair) {f : Nat → RSt → Run (List Nat × RSt)} {d : Nat} (s : List Nat) (st : RSt)
    (hf : ∀ p ∈ s, ∀ st, TermInv E K n st → (f p st).Sat True True (Spent E K n C d st)) (hI : TermInv E K n st)
    (hn : s.Nodup) (hp : ∀ j ∈ s, j ≤ E.inp.length) :
    (rangeSet E f s st).Sat True True (Spent E K n C (1 + (E.inp.length + 1) * d) st) := by
  unfold rangeSet
  have hperm := hs st.tick s
  refine (forEach_cost (d := d) (E.sched st.tick s) [] _ (fun p h => hf p (hperm.mem_iff.mp h)) ((term_frame E K n).tick st _ hI) List.nodup_nil
    (fun _ h => by cases h)).mono ?_
  rintro ⟨r, st1⟩ h
  refine ⟨h.inv, (term_frame E K n).trans _ _ _ ((term_frame E K n).rtick st _) h.rel, h.pos, h.nodup, ?_⟩
  have h1 := h.cost
  have h2 : (E.sched st.tick s).length ≤ E.inp.length + 1 := by rw [hperm.length_eq]; exact nodup_le hn hp
  have h3 := Nat.mul_le_mul_right d h2
  have h4 : charge C K { st with tick := st.tick + 1 } = charge C K st + 1 := by
    have : free K { st with tick := st.tick + 1 } = free K st := rfl
    simp only [charge, this]; omega
  omega

theorem repLoop_cost (hs : E.sched.Fair) (hrec : CostCall E K U n C rec) (mn : Nat) (mx : Option Nat) (e : Elem) (he : U e) :
    ∀ (k c : Nat) (level seen ends : List Nat) (st : RSt), TermInv E K n st → level.Nodup → (∀ j ∈ level, j ≤ E.inp.length) →
    ends.Nodup → (∀ j ∈ ends, j ≤ E.inp.length) →
    (repLoop E rec mn mx e k c level seen ends st).Sat True True (Spent E K n C k st) := by
  intro k
  induction k with
  | zero =>
    intro c level seen ends st hI _ _ h3 h4
    exact ⟨hI, (term_frame E K n).refl st, h4, h3, Nat.le_refl _⟩
  | succ k ih =>
    intro c level seen ends st hI h1 h2 h3 h4
    rw [repLoop]
    by_cases hb : beyond c mx = true
    · rw [if_pos hb]
      exact ⟨hI, (term_frame E K n).refl st, h4, h3, Nat.le_add_right _ _⟩
    · rw [if_neg hb]
      refine (rangeSet_cost hs level st (fun p hp st hI => hrec e p st he (h2 p hp) hI) hI h1 h2).bnd ?_
      rintro ⟨r, st1⟩ h
      have hc := h.cost
      simp only at hc
      have hends : (if mn ≤ c then union ends r else ends).Nodup ∧ ∀ j ∈ (if mn ≤ c then union ends r else ends), j ≤ E.inp.length := by
        split_ifs
        · refine ⟨nodup_union h3, fun j hj => ?_⟩
          rcases mem_union.mp hj with hj | hj
          · exact h4 j hj
          · exact h.pos j hj
        · exact ⟨h3, h4⟩
      simp only
      by_cases hr : r = []
      · rw [if_pos hr]
        exact ⟨h.inv, h.rel, h4, h3, by simp only; omega⟩
      · rw [if_neg hr]
        by_cases hx : (r.any fun x => decide (x ∉ seen)) = false ∧ mn ≤ c
        · rw [if_pos hx]
          exact ⟨h.inv, h.rel, hends.2, hends.1, by simp only; omega⟩
        · rw [if_neg hx]
          refine (ih (c + 1) r _ _ st1 h.inv h.nodup h.pos hends.1 hends.2).mono ?_
          rintro ⟨r', st2⟩ g
          have := g.cost
          exact ⟨g.inv, (term_frame E K n).trans _ _ _ h.rel g.rel, g.pos, g.nodup, by simp only at this ⊢; omega⟩

theorem reachRep_cost (hs : E.sched.Fair) (hrec : CostCall E K U n C rec) (r : Rep) (hr : U r.elem) (i : Nat) (hi : i ≤ E.inp.length)
    (st : RSt) (hI : TermInv E K n st) : (reachRep E rec r i st).Sat True True (Spent E K n C (E.inp.length + 2) st) := by
  unfold reachRep
  refine repLoop_cost hs hrec _ _ _ hr _ _ _ _ _ st hI (List.nodup_singleton i) (fun j hj => by rw [List.mem_singleton.mp hj]; exact hi) ?_ ?_
  · split_ifs <;> simp
  · split_ifs
    · intro j hj; rw [List.mem_singleton.mp hj]; exact hi
    · intro j hj; cases hj

theorem reachConcatFrom_cost (hs : E.sched.Fair) (hrec : CostCall E K U n C rec) : ∀ (c : List Rep) (cur : List Nat) (st : RSt),
    (∀ r ∈ c, U r.elem) → TermInv E K n st → cur.Nodup → (∀ j ∈ cur, j ≤ E.inp.length) →
    (reachConcatFrom E rec c cur st).Sat True True (Spent E K n C (c.length * perRep E.inp.length) st) := by
  intro c
  induction c with
  | nil => intro cur st _ hI h1 h2; exact ⟨hI, (term_frame E K n).refl st, h2, h1, Nat.le_add_right _ _⟩
  | cons r c ih =>
    intro cur st hU hI h1 h2
    rw [reachConcatFrom]
    refine (rangeSet_cost hs cur st (fun p hp st hI => reachRep_cost hs hrec r (hU r (by simp)) p (h2 p hp) st hI) hI h1 h2).bnd ?_
    rintro ⟨x, st1⟩ h
    have hc := h.cost
    have e : 1 + (E.inp.length + 1) * (E.inp.length + 2) = perRep E.inp.length := rfl
    rw [e] at hc
    have hm : (c.length + 1) * perRep E.inp.length = c.length * perRep E.inp.length + perRep E.inp.length := Nat.succ_mul _ _
    simp only [List.length_cons, hm] at hc ⊢
    split_ifs with hx
    · exact ⟨h.inv, h.rel, (fun j hj => by cases hj), List.nodup_nil, by simp only; omega⟩
    · refine (ih x st1 (fun q hq => hU q (by simp [hq])) h.inv h.nodup h.pos).mono ?_
      rintro ⟨r', st2⟩ g
      have := g.cost
      simp only at this
      exact ⟨g.inv, (term_frame E K n).trans _ _ _ h.rel g.rel, g.pos, g.nodup, by simp only; omega⟩

theorem reachAltFrom_cost (hs : E.sched.Fair) (hrec : CostCall E K U n C rec) (i : Nat) (hi : i ≤ E.inp.length) : ∀ (a : List Concat)
    (out : List Nat) (st : RSt), (∀ c ∈ a, ∀ r ∈ c, U r.elem) → TermInv E K n st → out.Nodup → (∀ j ∈ out, j ≤ E.inp.length) →
    (reachAltFrom E rec i a out st).Sat True True (Spent E K n C (width a * perRep E.inp.length) st) := by
  intro a
  induction a with
  | nil => intro out st _ hI h1 h2; exact ⟨hI, (term_frame E K n).refl st, h2, h1, Nat.le_add_right _ _⟩
  | cons c a ih =>
    intro out st hU hI h1 h2
    rw [reachAltFrom, reachConcat]
    refine (reachConcatFrom_cost hs hrec c [i] st (hU c (by simp)) hI (List.nodup_singleton i)
      (fun j hj => by rw [List.mem_singleton.mp hj]; exact hi)).bnd ?_
    rintro ⟨x, st1⟩ h
    refine (ih (union out x) st1 (fun q hq => hU q (by simp [hq])) h.inv (nodup_union h1) ?_).mono ?_
    · intro j hj
      rcases mem_union.mp hj with hj | hj
      · exact h2 j hj
      · exact h.pos j hj
    · rintro ⟨r', st2⟩ g
      have hc := h.cost
      have := g.cost
      refine ⟨g.inv, (term_frame E K n).trans _ _ _ h.rel g.rel, g.pos, g.nodup, ?_⟩
      simp only [width, List.map_cons, List.sum_cons, Nat.add_mul] at this hc ⊢
      omega

/-- All bodies have at most `L` repetitions at the top. -/
structure SlimBodies (g : Grammar) (U : Elem → Prop) (L : Nat) : Prop where
  rule : ∀ n r, getRule n g.rules = some r → width r.alt ≤ L
  group : ∀ a, U (.group a) → width a ≤ L
  option : ∀ a, U (.option a) → width a ≤ L

theorem Spent.weaken {d d' : Nat} {st : RSt} {x : List Nat × RSt} (h : Spent E K n C d st x) (hd : d ≤ d') : Spent E K n C d' st x :=
  ⟨h.inv, h.rel, h.pos, h.nodup, by have := h.cost; omega⟩

theorem reachAlt_cost (hs : E.sched.Fair) (hrec : CostCall E K U n C rec) (a : Alt) (ha : ∀ c ∈ a, ∀ r ∈ c, U r.elem) {L : Nat} (hL : width a ≤ L)
    (i : Nat) (hi : i ≤ E.inp.length) (st : RSt) (hI : TermInv E K n st) :
    (reachAlt E rec a i st).Sat True True (Spent E K n C (L * perRep E.inp.length) st) :=
  (reachAltFrom_cost hs hrec i hi a [] st ha hI List.nodup_nil (fun _ h => by cases h)).mono fun _ h =>
    h.weaken (Nat.mul_le_mul_right _ hL)

theorem computeElem_cost (hU : Closed E.g U) {L : Nat} (hW : SlimBodies E.g U L) (hs : E.sched.Fair) (hrec : CostCall E K U n C rec) (e : Elem)
    (he : U e) (i : Nat) (hi : i ≤ E.inp.length) (st : RSt) (hI : TermInv E K n st) :
    (computeElem E rec e i st).Sat True True (Spent E K n C (L * perRep E.inp.length) st) := by
  have hF := term_frame E K n
  have hterm : ∀ (e : Elem),
      Run.Sat True True (Spent E K n C (L * perRep E.inp.length) st) (.ok ((matchElem E.inp e i).toList, st)) := by
    intro e
    refine ⟨hI, hF.refl st, ?_, ?_, Nat.le_add_right _ _⟩
    · intro j hj
      exact (matchElem_le hi (by simpa using hj)).2
    · cases matchElem E.inp e i <;> simp
  cases e with
  | rulename m =>
    rw [computeElem]
    cases hr : getRule m E.g.rules with
    | none => exact ⟨hI, hF.refl st, by simp, List.nodup_nil, Nat.le_add_right _ _⟩
    | some r => exact reachAlt_cost hs hrec r.alt (hU.rule m r hr) (hW.rule m r hr) i hi st hI
  | group a => rw [computeElem]; exact reachAlt_cost hs hrec a (hU.group a he) (hW.group a he) i hi st hI
  | option a =>
    rw [computeElem]
    refine (reachAlt_cost hs hrec a (hU.option a he) (hW.option a he) i hi st hI).bnd ?_
    rintro ⟨x, st1⟩ h
    refine ⟨h.inv, h.rel, fun j hj => ?_, nodup_union (List.nodup_singleton i), h.cost⟩
    rcases mem_union.mp hj with hj | hj
    · rw [List.mem_singleton.mp hj]; exact hi
    · exact h.pos j hj
  | charVal s vs => rw [computeElem]; exact hterm _
  | numVal b s es => rw [computeElem]; exact hterm _
  | proseVal s => rw [computeElem]; exact ⟨hI, hF.refl st, by simp, List.nodup_nil, Nat.le_add_right _ _⟩

theorem charge_le {st st' : RSt} (ht : st'.tick = st.tick) (h : ∀ k, blocked st k = true → blocked st' k = true) :
    charge C K st' ≤ charge C K st := by
  have := Nat.mul_le_mul_left C (free_le (K := K) h)
  unfold charge
  omega

theorem charge_lt {st st' : RSt} (ht : st'.tick = st.tick) (h : free K st' < free K st) : charge C K st' + C ≤ charge C K st := by
  have := Nat.mul_le_mul_left C (Nat.succ_le_of_lt h)
  rw [Nat.mul_succ] at this
  unfold charge
  omega

theorem growRound_cost (hU : Closed E.g U) {L : Nat} (hW : SlimBodies E.g U L) (hs : E.sched.Fair) (hrecT : TermCall E K U n rec) (hrec : CostCall E K U n C rec)
    (i : Nat) (hi : i ≤ E.inp.length) : ∀ (xs : List Str) (ch : Bool) (st : RSt), TermInv E K n st →
    (growRound E rec i xs ch st).Sat True True fun y =>
      TermInv E K n y.2 ∧ charge C K y.2 ≤ charge C K st + xs.length * (L * perRep E.inp.length) := by
  intro xs
  induction xs with
  | nil => intro ch st h; exact ⟨h, Nat.le_add_right _ _⟩
  | cons x xs ih =>
    intro ch st h
    have hm : (xs.length + 1) * (L * perRep E.inp.length) = xs.length * (L * perRep E.inp.length) + L * perRep E.inp.length :=
      Nat.succ_mul _ _
    rw [growRound]
    simp only [List.length_cons, hm]
    cases hr : getRule x E.g.rules with
    | none => exact (ih ch st h).mono fun y hy => ⟨hy.1, by omega⟩
    | some r =>
      have hlow := reachAlt_term hs hrecT r.alt (hU.rule x r hr) i hi st h
      have hboth : (reachAlt E rec r.alt i st).Sat True True fun x =>
          Spent E K n C (L * perRep E.inp.length) st x ∧ ∀ j ∈ x.1, i ≤ j := by
        have := reachAlt_cost hs hrec r.alt (hU.rule x r hr) (hW.rule x r hr) i hi st h
        cases hx : reachAlt E rec r.alt i st with
        | ok x => rw [hx] at this hlow; exact ⟨this, fun j hj => (hlow.2.2.1 j hj).1⟩
        | panic => trivial
        | fuel => trivial
      refine hboth.bnd ?_
      rintro ⟨y, st1⟩ ⟨h1, hlo⟩
      have hc := h1.cost
      simp only at hc ⊢
      have hcont : (growRound E rec i xs ch st1).Sat True True fun y =>
          TermInv E K n y.2 ∧ charge C K y.2 ≤ charge C K st + (xs.length * (L * perRep E.inp.length) + L * perRep E.inp.length) :=
        (ih ch st1 h1.inv).mono fun y hy => ⟨hy.1, by have := hy.2; omega⟩
      cases hl : st1.growing.lookup (memoKey x i) with
      | none =>
        simp only
        split_ifs
        · exact hcont
        · trivial
      | some cur =>
        simp only
        split_ifs with hany
        · have hcur := h1.inv.2.2.1 _ _ (lookup_mem hl)
          have hun : (union cur y).Nodup := nodup_union hcur.1
          have hbd : ∀ j ∈ union cur y, i ≤ j ∧ j ≤ E.inp.length := by
            intro j hj
            rcases mem_union.mp hj with hj | hj
            · exact hcur.2 x i rfl hi j hj
            · exact ⟨hlo j hj, h1.pos j hj⟩
          have hblk : ∀ k, blocked st1 k = true →
              blocked { st1 with growing := setKey (memoKey x i) (union cur y) st1.growing } k = true := by
            refine blocked_of (fun k hk => blocked_prog hk) (fun k hk => hk) (fun k hk => ?_)
            refine blocked_grow ?_
            simp only [lookup_setKey]
            split_ifs
            · rfl
            · exact hk
          have hsome : ∀ k, ((setKey (memoKey x i) (union cur y) st1.growing).lookup k).isSome = (st1.growing.lookup k).isSome := by
            intro k
            rw [lookup_setKey]
            split_ifs with hk
            · rw [hk, hl]; rfl
            · rfl
          have hI2 : TermInv E K n { st1 with growing := setKey (memoKey x i) (union cur y) st1.growing } := by
            refine ⟨lt_of_le_of_lt (free_le hblk) h1.inv.1, h1.inv.2.1, mapFits_cons (mapFits_filter h1.inv.2.2.1 _) hun hbd, ?_⟩
            intro hc m scc' i' hm hi' z hz
            simp only [hsome] at hi' ⊢
            exact h1.inv.2.2.2 hc m scc' i' hm hi' z hz
          have hch := charge_le (C := C) (K := K) (st := st1) (st' := { st1 with growing := setKey (memoKey x i) (union cur y) st1.growing }) rfl hblk
          exact (ih true _ hI2).mono fun y hy => ⟨hy.1, by have := hy.2; omega⟩
        · exact hcont

theorem growLoop_cost (hU : Closed E.g U) {L : Nat} (hW : SlimBodies E.g U L) (hs : E.sched.Fair) (hrecT : TermCall E K U n rec) (hrec : CostCall E K U n C rec)
    (i : Nat) (hi : i ≤ E.inp.length) (scc : List Str) : ∀ (m : Nat) (st : RSt), TermInv E K n st →
    (growLoop E rec i scc m st).Sat True True fun y =>
      charge C K y ≤ charge C K st + m * (scc.length * (L * perRep E.inp.length)) := by
  intro m
  induction m with
  | zero => intro st _; trivial
  | succ m ih =>
    intro st h
    have hm : (m + 1) * (scc.length * (L * perRep E.inp.length)) = m * (scc.length * (L * perRep E.inp.length)) +
      scc.length * (L * perRep E.inp.length) := Nat.succ_mul _ _
    rw [growLoop, hm]
    refine (growRound_cost hU hW hs hrecT hrec i hi scc false st h).bnd ?_
    rintro ⟨ch, st1⟩ ⟨h1, h2⟩
    simp only at h1 h2 ⊢
    split_ifs with hch
    · exact (ih st1 h1).mono fun y hy => by omega
    · show charge C K st1 ≤ _
      omega

theorem growInit_tick (i : Nat) : ∀ (xs : List Str) (st : RSt), (growInit i xs st).tick = st.tick := by
  intro xs
  induction xs with
  | nil => intro st; rfl
  | cons x xs ih => intro st; rw [growInit, ih]

theorem growDone_tick (i : Nat) (name : Str) : ∀ (xs : List Str) (res : List Nat) (st : RSt), (growDone i name xs res st).2.tick = st.tick := by
  intro xs
  induction xs with
  | nil => intro res st; rfl
  | cons x xs ih => intro res st; rw [growDone, ih]

/-- Ranges one call can be charged for. -/
def callCost (S L len : Nat) : Nat := ((S * (len + 1) + 1) * S + 1) * (L * perRep len)

theorem reachElem_cost (hU : Closed E.g U) {L S : Nat} (hW : SlimBodies E.g U L) (hs : E.sched.Fair)
    (hmem : ∀ m scc, E.leftRec.lookup m = some scc → m ∈ scc) (hS : ∀ m scc, E.leftRec.lookup m = some scc → scc.length ≤ S)
    (hK : ∀ e i, U e → i ≤ E.inp.length → fileKey E e i ∈ K) :
    ∀ n, CostCall E K U n (callCost S L E.inp.length) (reachElem E n) := by
  intro n
  induction n with
  | zero => intro e i st _ _ h; exact absurd h.1 (by omega)
  | succ n ih =>
    intro e i st he hi hI
    have hT := reachElem_term hU hs hmem hK (n + 1) e i st he hi hI
    suffices hcost : (reachElem E (n + 1) e i st).Sat True True fun x =>
        charge (callCost S L E.inp.length) K x.2 ≤ charge (callCost S L E.inp.length) K st by
      cases hx : reachElem E (n + 1) e i st with
      | ok x =>
        rw [hx] at hT hcost
        exact ⟨hT.1, hT.2.1, fun j hj => (hT.2.2.1 j hj).2, hT.2.2.2.2, hcost⟩
      | panic => trivial
      | fuel => trivial
    have hLW : L * perRep E.inp.length ≤ callCost S L E.inp.length := by
      unfold callCost
      rw [Nat.add_mul _ 1, Nat.one_mul]
      exact Nat.le_add_left _ _
    have hk := hK e i he hi
    rw [reachElem_succ]
    unfold fileKey at hk
    cases hl : leftRecOf E e with
    | none =>
      rw [hl] at hk
      simp only at hk ⊢
      unfold reachMemo
      cases hm : st.memo.lookup (memoKey e.str i) with
      | some v => exact Nat.le_refl _
      | none =>
        simp only
        split_ifs with hp
        · exact Nat.le_refl _
        · have hblk : ∀ k, blocked st k = true →
              blocked { st with inProgress := memoKey e.str i :: st.inProgress } k = true :=
            blocked_of (fun k h => blocked_prog (List.mem_cons_of_mem _ h)) (fun k h => h) (fun k h => blocked_grow h)
          have hlt : free K { st with inProgress := memoKey e.str i :: st.inProgress } < free K st := by
            refine free_lt hblk hk ?_ (blocked_prog (by simp))
            simp [blocked, hm, hp]
          have hI' : TermInv E K n { st with inProgress := memoKey e.str i :: st.inProgress } :=
            ⟨by have := hI.1; omega, hI.2⟩
          have hc0 := charge_lt (C := callCost S L E.inp.length) (st := st)
            (st' := { st with inProgress := memoKey e.str i :: st.inProgress }) rfl hlt
          refine (computeElem_cost hU hW hs ih e he i hi _ hI').bnd ?_
          rintro ⟨x, st1⟩ h
          have hc1 := h.cost
          have hb1 : ∀ k, blocked st1 k = true → blocked { st1 with
              inProgress := st1.inProgress.filter (fun k => k ≠ memoKey e.str i),
              memo := (memoKey e.str i, x) :: st1.memo } k = true := by
            refine blocked_of (fun k h => ?_) (fun k h => ?_) (fun k h => blocked_grow h)
            · by_cases hke : k = memoKey e.str i
              · exact blocked_memo _ (by rw [hke]; simp)
              · exact blocked_prog (List.mem_filter.mpr ⟨h, by simpa using hke⟩)
            · simp only [List.lookup_cons]
              split
              · rfl
              · exact h
          have hc2 := charge_le (C := callCost S L E.inp.length) (K := K) (st := st1) (st' := { st1 with
              inProgress := st1.inProgress.filter (fun k => k ≠ memoKey e.str i),
              memo := (memoKey e.str i, x) :: st1.memo }) rfl hb1
          show charge _ K _ ≤ _
          simp only at hc1 hc2 ⊢
          omega
    | some p =>
      obtain ⟨name, scc⟩ := p
      rw [hl] at hk
      simp only at hk ⊢
      have hname : E.leftRec.lookup name = some scc := by
        cases e with
        | rulename m =>
          simp only [leftRecOf, Option.map_eq_some_iff, Prod.mk.injEq] at hl
          obtain ⟨scc', hl, rfl, rfl⟩ := hl
          exact hl
        | _ => simp [leftRecOf] at hl
      have hns := hmem name scc hname
      unfold reachLeftRec
      cases hm : st.memo.lookup (memoKey name i) with
      | some v => exact Nat.le_refl _
      | none =>
        simp only
        cases hg : st.growing.lookup (memoKey name i) with
        | some v => exact Nat.le_refl _
        | none =>
          simp only
          have hlk := growInit_lookup i scc st
          obtain ⟨hme, hpe⟩ := growInit_other i scc st
          have hblk : ∀ k, blocked st k = true → blocked (growInit i scc st) k = true := by
            refine blocked_of (fun k h => blocked_prog (by rw [hpe]; exact h)) (fun k h => by rw [hme]; exact h)
              (fun k h => blocked_grow ?_)
            rw [hlk]
            split_ifs
            · rfl
            · exact h
          have hlt : free K (growInit i scc st) < free K st := by
            refine free_lt hblk hk ?_ (blocked_grow ?_)
            · simp [blocked, hm, hg]
            · rw [hlk, if_pos (List.mem_map.mpr ⟨name, hns, rfl⟩)]; rfl
          have hI' : TermInv E K n (growInit i scc st) := by
            refine ⟨by have := hI.1; omega, by rw [hme]; exact hI.2.1, growInit_fits i scc st hI.2.2.1, fun hc => ?_⟩
            intro x scc' i' hx hi' y hy
            rw [hlk] at hi' ⊢
            split_ifs at hi' with hmem'
            · obtain ⟨z, hz, hzk⟩ := List.mem_map.mp hmem'
              obtain ⟨h1, h2⟩ := memoKey_inj hzk
              subst h1 h2
              rw [hc name scc hname z hz] at hx
              injection hx with hx
              subst hx
              rw [if_pos (List.mem_map.mpr ⟨y, hy, rfl⟩)]; rfl
            · split_ifs
              · rfl
              · exact hI.2.2.2 hc x scc' i' hx hi' y hy
          have hc0 := charge_lt (C := callCost S L E.inp.length) (growInit_tick i scc st) hlt
          refine (growLoop_cost hU hW hs (reachElem_term hU hs hmem hK n) ih i hi scc _ _ hI').bnd ?_
          intro st1 hc1
          have hd := growDone_lookup i name scc [] st1
          have hb : ∀ k, blocked st1 k = true → blocked (growDone i name scc [] st1).2 k = true := by
            refine blocked_of (fun k h => ?_) (fun k h => (hd k).2.1 (Or.inl h)) (fun k h => ?_)
            · exact blocked_prog (by rw [(hd k).2.2]; exact h)
            · by_cases hks : k ∈ scc.map (memoKey · i)
              · exact blocked_memo _ ((hd k).2.1 (Or.inr hks))
              · exact blocked_grow (by rw [(hd k).1, if_neg hks]; exact h)
          have hc2 := charge_le (C := callCost S L E.inp.length) (K := K) (growDone_tick i name scc [] st1) hb
          have hc3 : (scc.length * (E.inp.length + 1) + 1) * (scc.length * (L * perRep E.inp.length)) ≤ callCost S L E.inp.length := by
            have hSs := hS name scc hname
            unfold callCost
            rw [← Nat.mul_assoc]
            refine Nat.mul_le_mul_right _ (Nat.le_trans (Nat.mul_le_mul ?_ hSs) (Nat.le_succ _))
            exact Nat.succ_le_succ (Nat.mul_le_mul_right _ hSs)
          show charge _ K _ ≤ _
          omega

end

mutual
theorem elemReps_len : (e : Elem) → ∀ r ∈ elemReps e, (elemReps r.elem).length ≤ (elemReps e).length
  | .rulename _, r, h => by simp [elemReps] at h
  | .charVal _ _, r, h => by simp [elemReps] at h
  | .numVal _ _ _, r, h => by simp [elemReps] at h
  | .proseVal _, r, h => by simp [elemReps] at h
  | .group a, r, h => by
    rw [elemReps] at h ⊢
    exact altReps_len a r h
  | .option a, r, h => by
    rw [elemReps] at h ⊢
    exact altReps_len a r h
theorem repReps_len : (q : Rep) → ∀ r ∈ repReps q, (elemReps r.elem).length ≤ (repReps q).length
  | ⟨mn, mx, e⟩, r, h => by
    rw [repReps] at h ⊢
    rcases List.mem_cons.mp h with rfl | h
    · simp
    · have := elemReps_len e r h
      simp only [List.length_cons]; omega
theorem concatReps_len : (c : List Rep) → ∀ r ∈ concatReps c, (elemReps r.elem).length ≤ (concatReps c).length
  | [], r, h => by simp [concatReps] at h
  | q :: c, r, h => by
    rw [concatReps] at h ⊢
    rw [List.length_append]
    rcases List.mem_append.mp h with h | h
    · have := repReps_len q r h; omega
    · have := concatReps_len c r h; omega
theorem altReps_len : (a : List (List Rep)) → ∀ r ∈ altReps a, (elemReps r.elem).length ≤ (altReps a).length
  | [], r, h => by simp [altReps] at h
  | c :: a, r, h => by
    rw [altReps] at h ⊢
    rw [List.length_append]
    rcases List.mem_append.mp h with h | h
    · have := concatReps_len c r h; omega
    · have := altReps_len a r h; omega
end

theorem rulesReps_len {rs : List Rule} {r : Rule} (h : r ∈ rs) : (altReps r.alt).length ≤ (rulesReps rs).length :=
  (List.sublist_flatten_of_mem (List.mem_map.mpr ⟨r, h, rfl⟩) : (altReps r.alt).Sublist (rs.map fun r => altReps r.alt).flatten).length_le

theorem width_le (a : Alt) : width a ≤ (altReps a).length := by
  have hc : ∀ c : List Rep, c.length ≤ (concatReps c).length := by
    intro c
    induction c with
    | nil => exact Nat.zero_le _
    | cons r c ih => cases r; simp only [concatReps, repReps, List.length_append, List.length_cons]; omega
  induction a with
  | nil => exact Nat.zero_le _
  | cons c a ih =>
    have := hc c
    simp only [width, List.map_cons, List.sum_cons, altReps, List.length_append] at ih ⊢
    omega

theorem leftRec_size {g : Grammar} {o : LOrders} (hd : NamesDistinct g) (ho : o.Fair g) {m : List (Str × List Str)}
    (hm : leftRecursiveSCCs o g = .ok m) (n : Str) (s : List Str) (hs : m.lookup n = some s) : s.length ≤ (g.rules ++ Core.rules).length := by
  obtain ⟨m', hm', hf, _⟩ := leftRec_spec hd ho
  obtain rfl : m = m' := by rw [hm] at hm'; cases hm'; rfl
  have hnd : s.Nodup := by
    obtain ⟨null, hnull, hx, -⟩ := nullExact hd ho.pass ho.names
    obtain ⟨sccs, hfs, l, hp, hl⟩ := find_total (leftCornerGraph null g o.names') _ (ho.order _)
    unfold leftRecursiveSCCs at hm
    rw [hnull] at hm
    simp only [hfs] at hm
    cases hm
    have hin : s ∈ sccs := by
      rcases leftRecMap_some sccs [] hs with h | h
      · exact h.1
      · cases h
    rcases hl with rfl | ⟨A, B, v, _, rfl, rfl, _⟩
    · exact (hp.scc s hin).1
    · simp only [List.mem_append, List.mem_cons] at hin
      rcases hin with h | rfl | h
      · exact (hp.scc s (by simp [h])).1
      · simp
      · exact (hp.scc s (by simp [h])).1
  have hsub : s ⊆ (g.rules ++ Core.rules).map fun r => canon r.name := by
    intro x hx
    obtain ⟨h1, r, hr⟩ := hf.res n s hs x hx
    refine List.mem_map.mpr ⟨r, resolves_mem hr, ?_⟩
    have : SameName x r.name := by cases hr <;> assumption
    rw [← h1]
    exact ((sameName_iff _ _).mp this).symm
  simpa using (List.subperm_of_subset hnd hsub).length_le

namespace Props

/-- The number of ranges over sets of positions that a call of `IsValid` makes (/repo/recognize.go:58, 94), if it
returns. -/
def isValidRanges (o : LOrders) (sched : Sched Nat) (g : Grammar) (name : Str) (inp : Bytes) : Option Nat :=
  match leftRecursiveSCCs o g with
  | .ok m =>
    match reachElem ⟨g, inp, m, sched⟩ (rFuel g inp) (.rulename name) 0 rInit with
    | .ok x => some x.2.tick
    | _ => none
  | _ => none

/-- A bound for it: `reps` repetitions and `rules` rules in the grammar and the core rules, an input of `n` bytes. -/
def rangesBound (reps rules n : Nat) : Nat :=
  (reps + 1) * (n + 1) * (((rules * (n + 1) + 1) * rules + 1) * (reps * (1 + (n + 1) * (n + 2))))

theorem ranges_le (g : Grammar) (hd : NamesDistinct g) (o : LOrders) (ho : o.Fair g) (sched : Sched Nat) (hs : sched.Fair)
    (S : Nat) (hS : ∀ m, leftRecursiveSCCs o g = .ok m → ∀ n s, m.lookup n = some s → s.length ≤ S)
    (name : Str) (inp : Bytes) (b : Bool) (h : isValid o sched g name inp = some (.ok b)) :
    ∃ t, isValidRanges o sched g name inp = some t ∧
      t ≤ rangesBound (rulesReps (g.rules ++ Core.rules)).length S inp.length := by
  unfold isValid at h
  cases hr : getRule name g.rules with
  | none => rw [hr] at h; cases h
  | some r =>
    obtain ⟨m, hm, hf, _⟩ := leftRec_spec hd ho
    have hS := hS m hm
    let E : REnv := ⟨g, inp, m, sched⟩
    unfold isValidRanges
    simp only [hr, hm, isValidWith] at h ⊢
    let K : List CallKey := ((rulesReps (g.rules ++ Core.rules)).map Rep.elem ++ [Elem.rulename name]).flatMap fun e =>
      (List.range (inp.length + 1)).map fun i => fileKey E e i
    let U : Elem → Prop := fun e => Occurs g e ∨ e = .rulename name
    have hU : Closed g U := by
      refine ⟨fun n r hn c hc q hq => Or.inl (occurs_rule (getRule_resolves hn) hc hq), fun a ha c hc q hq => ?_, fun a ha c hc q hq => ?_⟩
      · rcases ha with ha | ha
        · exact Or.inl (occurs_inner ha (a := a) (by simp [elemReps]) hc hq)
        · cases ha
      · rcases ha with ha | ha
        · exact Or.inl (occurs_inner ha (a := a) (by simp [elemReps]) hc hq)
        · cases ha
    have hin : ∀ e, Occurs g e → (elemReps e).length ≤ (rulesReps (g.rules ++ Core.rules)).length := by
      rintro e ⟨q, hq, rfl⟩
      obtain ⟨R, hR, hq⟩ := List.mem_flatMap.mp hq
      have h1 := altReps_len R.alt q hq
      have h2 : (altReps R.alt).length ≤ (rulesReps (g.rules ++ Core.rules)).length :=
        rulesReps_len hR
      omega
    have hW : SlimBodies g U (rulesReps (g.rules ++ Core.rules)).length := by
      refine ⟨fun n r hn => ?_, fun a ha => ?_, fun a ha => ?_⟩
      · refine Nat.le_trans (width_le _) ?_
        exact rulesReps_len (resolves_mem (getRule_resolves hn))
      · rcases ha with ha | ha
        · have := hin _ ha
          rw [elemReps] at this
          exact Nat.le_trans (width_le _) this
        · cases ha
      · rcases ha with ha | ha
        · have := hin _ ha
          rw [elemReps] at this
          exact Nat.le_trans (width_le _) this
        · cases ha
    have hK : ∀ e i, U e → i ≤ inp.length → fileKey E e i ∈ K := by
      intro e i he hi
      refine List.mem_flatMap.mpr ⟨e, ?_, List.mem_map.mpr ⟨i, List.mem_range.mpr (by omega), rfl⟩⟩
      rcases he with ⟨q, hq, rfl⟩ | rfl
      · exact List.mem_append_left _ (List.mem_map.mpr ⟨q, hq, rfl⟩)
      · simp
    have hlen : K.length = ((rulesReps (g.rules ++ Core.rules)).length + 1) * (inp.length + 1) := by
      simp [K, List.length_flatMap, Nat.add_mul, Function.comp_def, List.map_const']
    have hfree : free K rInit ≤ K.length := List.length_filter_le _ _
    have := reachElem_cost (E := E) (K := K) hU hW hs hf.mem hS hK (rFuel g inp) (.rulename name) 0 rInit (Or.inr rfl) (Nat.zero_le _)
      ⟨lt_of_le_of_lt hfree (by rw [hlen, rFuel]; omega), fun _ _ h => (List.not_mem_nil h).elim,
        fun _ _ h => (List.not_mem_nil h).elim, fun _ _ _ _ _ h => by cases h⟩
    cases hx : reachElem E (rFuel g inp) (.rulename name) 0 rInit with
    | ok x =>
      rw [hx] at this
      refine ⟨x.2.tick, rfl, ?_⟩
      have h1 := this.cost
      have h2 : x.2.tick ≤ charge (callCost S (rulesReps (g.rules ++ Core.rules)).length inp.length) K x.2 :=
        Nat.le_add_right _ _
      have h3 := Nat.mul_le_mul_left (callCost S (rulesReps (g.rules ++ Core.rules)).length inp.length) hfree
      rw [hlen, Nat.mul_comm] at h3
      refine Nat.le_trans h2 (Nat.le_trans h1 ?_)
      simp only [charge, rInit, Nat.zero_add, Nat.add_zero] at h3 ⊢
      rw [Nat.mul_comm]
      refine Nat.le_trans h3 ?_
      rw [Nat.mul_comm]
      exact Nat.le_refl _
    | panic => rw [hx] at h; cases h
    | fuel => rw [hx] at h; cases h

/-- C107.  A call of `IsValid` that returns makes polynomially many ranges over sets of positions. -/
theorem C107_steps (g : Grammar) (hd : NamesDistinct g) (o : LOrders) (ho : o.Fair g) (sched : Sched Nat) (hs : sched.Fair)
    (name : Str) (inp : Bytes) (b : Bool) (h : isValid o sched g name inp = some (.ok b)) :
    ∃ t, isValidRanges o sched g name inp = some t ∧
      t ≤ rangesBound (rulesReps (g.rules ++ Core.rules)).length (g.rules ++ Core.rules).length inp.length :=
  ranges_le g hd o ho sched hs _ (fun _ hm => leftRec_size hd ho hm) name inp b h

/-- C107.  Without left recursion the bound is of third degree in the length of the input. -/
theorem C107_steps_plain (g : Grammar) (hd : NamesDistinct g) (hl : ∀ n, ¬ LeftRecursive g n) (o : LOrders) (ho : o.Fair g)
    (sched : Sched Nat) (hs : sched.Fair) (name : Str) (inp : Bytes) (b : Bool) (h : isValid o sched g name inp = some (.ok b)) :
    ∃ t, isValidRanges o sched g name inp = some t ∧
      t ≤ ((rulesReps (g.rules ++ Core.rules)).length + 1) * (inp.length + 1) *
        ((rulesReps (g.rules ++ Core.rules)).length * (1 + (inp.length + 1) * (inp.length + 2))) := by
  obtain ⟨t, h1, h2⟩ := ranges_le g hd o ho sched hs 0 (fun m hm n s hn => by
    obtain ⟨m', hm', hf, _⟩ := leftRec_spec hd ho
    obtain rfl : m = m' := by rw [hm] at hm'; cases hm'; rfl
    obtain ⟨y, hy, hc⟩ := hf.conn n s hn n (hf.mem n s hn) n (hf.mem n s hn)
    have hcn := (hf.res n s hn n (hf.mem n s hn)).1
    exact absurd ⟨y, (sameName_iff _ _).mpr (hcn.trans hy.symm), hc⟩ (hl n)) name inp b h
  refine ⟨t, h1, Nat.le_trans h2 (Nat.le_of_eq ?_)⟩
  simp [rangesBound]

-- a call with left recursion, and how many ranges it makes
example : NamesDistinct Ex.expr ∧ isValid (plainOrders Ex.expr) plainSched Ex.expr (str% "expr") (bytes% "(1+2)+3") = some (.ok true) ∧
    isValidRanges (plainOrders Ex.expr) plainSched Ex.expr (str% "expr") (bytes% "(1+2)+3") = some 80 :=
  ⟨Ex.expr_wf.2.1, by decide +kernel, by decide +kernel⟩

theorem no_leftRec {g : Grammar} (hd : NamesDistinct g) {o : LOrders} (ho : o.Fair g) (h : leftRecursiveSCCs o g = .ok []) (n : Str) :
    ¬ LeftRecursive g n := by
  intro hn
  obtain ⟨m, hm, hf, _⟩ := leftRec_spec hd ho
  rw [h] at hm
  cases hm
  exact absurd (hf.cyc n hn) (by simp)

/-- `a = *("x" / "xx")`. -/
def slowStar : Grammar := ⟨[⟨str% "a", [[⟨0, none, .group [[Ex.one (Ex.lit (str% "x"))], [Ex.one (Ex.lit (str% "xx"))]]⟩]]⟩]⟩

-- a call without left recursion
example : NamesDistinct slowStar ∧ (∀ n, ¬ LeftRecursive slowStar n) ∧
    isValid (plainOrders slowStar) plainSched slowStar (str% "a") (bytes% "xxxxx") = some (.ok true) ∧
    isValidRanges (plainOrders slowStar) plainSched slowStar (str% "a") (bytes% "xxxxx") = some 29 :=
  have hd : NamesDistinct slowStar := namesDistinct_of (by decide)
  ⟨hd, no_leftRec hd (plainOrders_fair _) (by decide +kernel), by decide +kernel, by decide +kernel⟩

end Props
end Verif
