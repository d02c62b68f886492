import Verif.SlotsLemmas
import Mathlib.Data.List.Perm.Subperm

/-! # The slot budget only decides between success and failure -/

namespace Verif
open Spec

/-- Two implementations of `lowerer.rule`, without and with budget `N`, agree while the budget lasts. -/
def RuleSim (g : Grammar) (root : Str) (N : Nat) (r0 rN : LowerRuleFn) : Prop :=
  ∀ name st id st', OccName g root name → Good st → st.over = false →
    (r0 name st = some (id, st') → st'.over = false ∧ (st'.nts.length < N → rN name st = some (id, st'))) ∧
    (rN name st = some (id, st') → st'.over = false → r0 name st = some (id, st'))

/-- Agreement of two lowering steps. -/
def Sim {α : Type} (N : Nat) (f0 fN : LowerSt → Option (α × LowerSt)) (st : LowerSt) : Prop :=
  ∀ x st', (f0 st = some (x, st') → st'.over = false ∧ (st'.nts.length < N → fN st = some (x, st'))) ∧
    (fN st = some (x, st') → st'.over = false → f0 st = some (x, st'))

theorem fresh_same {N : Nat} {key : Str} {st : LowerSt} (ho : st.over = false)
    (h : st.nts.length + 1 < N) : fresh N key st = fresh 0 key st ∧ (fresh 0 key st).over = false := by
  have h1 : fresh 0 key st = { st with nts := st.nts ++ [({} : NT)], index := st.index ++ [(key, st.nts.length)] } := by
    unfold fresh budgetExceeded; simp
  have h2 : fresh N key st = { st with nts := st.nts ++ [({} : NT)], index := st.index ++ [(key, st.nts.length)] } := by
    unfold fresh budgetExceeded
    rw [if_neg]
    simp; omega
  exact ⟨h2.trans h1.symm, by rw [h1]; exact ho⟩

theorem fresh_zero {key : Str} {st : LowerSt} (ho : st.over = false) : (fresh 0 key st).over = false := by
  unfold fresh budgetExceeded; simpa using ho

theorem fresh_len (N : Nat) (key : Str) (st : LowerSt) : (fresh N key st).nts.length = st.nts.length + 1 := by
  rw [fresh_nts]; simp

/-- The shape shared by repetitions, groups, options and rules: reserve, check the budget, lower the parts. -/
theorem sim_reserve {α : Type} {N : Nat} (hN : 0 < N) {key : Str} {st : LowerSt} (ho : st.over = false)
    {f0 fN : LowerSt → Option (α × LowerSt)} {mk : Nat → α} {b0 bN : LowerSt → Option (α × LowerSt)}
    (e0 : ∀ id, st.index.lookup key = some id → f0 st = some (mk id, st))
    (eN : ∀ id, st.index.lookup key = some id → fN st = some (mk id, st))
    (c0 : st.index.lookup key = none → f0 st = b0 (fresh 0 key st))
    (cN : st.index.lookup key = none →
      fN st = if (fresh N key st).over then some (mk st.nts.length, fresh N key st) else bN (fresh N key st))
    (hlen : st.index.lookup key = none → ∀ x st', b0 (fresh 0 key st) = some (x, st') →
      st.nts.length + 1 ≤ st'.nts.length)
    (hb : st.index.lookup key = none → Sim N b0 bN (fresh 0 key st)) : Sim N f0 fN st := by
  intro x st'
  cases hl : st.index.lookup key with
  | some id =>
    rw [e0 id hl, eN id hl]
    refine ⟨fun h => ?_, fun h _ => h⟩
    simp only [Option.some.injEq, Prod.mk.injEq] at h
    exact ⟨h.2 ▸ ho, fun _ => by rw [h.1, h.2]⟩
  | none =>
    rw [c0 hl, cN hl]
    constructor
    · intro h
      refine ⟨(((hb hl) x st').1 h).1, fun hlt => ?_⟩
      have h1 := hlen hl x st' h
      obtain ⟨h2, h3⟩ := fresh_same (key := key) ho (show st.nts.length + 1 < N by omega)
      rw [h2, h3]
      exact (((hb hl) x st').1 h).2 hlt
    · intro h hov
      by_cases hf : (fresh N key st).over = true
      · rw [hf] at h
        simp only [if_true, Option.some.injEq, Prod.mk.injEq] at h
        rw [← h.2, hf] at hov
        simp at hov
      · have hf' : (fresh N key st).over = false := by simpa using hf
        have := fresh_not_over _ _ _ hf' hN
        rw [fresh_len] at this
        obtain ⟨h2, h3⟩ := fresh_same (key := key) ho this
        rw [h2, h3] at h
        exact ((hb hl) x st').2 h hov

/-- Sequencing two steps. -/
theorem sim_bind {α β γ : Type} {N : Nat} {f0 fN : LowerSt → Option (α × LowerSt)}
    {g0 gN : LowerSt → Option (β × LowerSt)} {k : α → β → γ} {h0 hN : LowerSt → Option (γ × LowerSt)} {st : LowerSt}
    (e0 : ∀ st, h0 st = match f0 st with
      | none => none
      | some (a, st) => match g0 st with
        | none => none
        | some (b, st) => some (k a b, st))
    (eN : ∀ st, hN st = match fN st with
      | none => none
      | some (a, st) => match gN st with
        | none => none
        | some (b, st) => some (k a b, st))
    (hf : Sim N f0 fN st)
    (hlen : ∀ a st1 b st2, f0 st = some (a, st1) → g0 st1 = some (b, st2) → st1.nts.length ≤ st2.nts.length)
    (hover : ∀ a st1 b st2, fN st = some (a, st1) → gN st1 = some (b, st2) → st2.over = false → st1.over = false)
    (hg : ∀ a st1, (f0 st = some (a, st1) ∨ fN st = some (a, st1)) → st1.over = false → Sim N g0 gN st1) :
    Sim N h0 hN st := by
  intro x st'
  rw [e0, eN]
  constructor
  · intro h
    cases h1 : f0 st with
    | none => rw [h1] at h; simp at h
    | some p =>
      obtain ⟨a, st1⟩ := p
      rw [h1] at h
      simp only at h
      cases h2 : g0 st1 with
      | none => rw [h2] at h; simp at h
      | some q =>
        obtain ⟨b, st2⟩ := q
        rw [h2] at h
        simp only [Option.some.injEq, Prod.mk.injEq] at h
        obtain ⟨rfl, rfl⟩ := h
        have ha := (hf a st1).1 h1
        have hb := (hg a st1 (Or.inl h1) ha.1 b st2).1 h2
        refine ⟨hb.1, fun hlt => ?_⟩
        have := hlen a st1 b st2 h1 h2
        rw [ha.2 (by omega)]
        simp only
        rw [hb.2 hlt]
  · intro h hov
    cases h1 : fN st with
    | none => rw [h1] at h; simp at h
    | some p =>
      obtain ⟨a, st1⟩ := p
      rw [h1] at h
      simp only at h
      cases h2 : gN st1 with
      | none => rw [h2] at h; simp at h
      | some q =>
        obtain ⟨b, st2⟩ := q
        rw [h2] at h
        simp only [Option.some.injEq, Prod.mk.injEq] at h
        obtain ⟨rfl, rfl⟩ := h
        have ho1 := hover a st1 b st2 h1 h2 hov
        rw [(hf a st1).2 h1 ho1]
        simp only
        rw [(hg a st1 (Or.inr h1) ho1 b st2).2 h2 hov]

/-- Post-processing a step without changing its length or flag. -/
theorem sim_map {α β : Type} {N : Nat} {f0 fN : LowerSt → Option (α × LowerSt)} {k : α → LowerSt → β × LowerSt}
    (hk : ∀ a st, (k a st).2.over = st.over ∧ (k a st).2.nts.length = st.nts.length)
    {h0 hN : LowerSt → Option (β × LowerSt)} {st : LowerSt} (hf : Sim N f0 fN st)
    (e0 : h0 st = match f0 st with | none => none | some p => some (k p.1 p.2))
    (eN : hN st = match fN st with | none => none | some p => some (k p.1 p.2)) : Sim N h0 hN st := by
  intro x st'
  rw [e0, eN]
  constructor
  · intro h
    cases h1 : f0 st with
    | none => rw [h1] at h; simp at h
    | some p =>
      obtain ⟨a, st1⟩ := p
      rw [h1] at h
      simp only [Option.some.injEq] at h
      have ha := (hf a st1).1 h1
      have := hk a st1
      rw [h] at this
      simp only at this
      refine ⟨this.1.trans ha.1, fun hlt => ?_⟩
      rw [ha.2 (by omega)]
      simp only [h]
  · intro h hov
    cases h1 : fN st with
    | none => rw [h1] at h; simp at h
    | some p =>
      obtain ⟨a, st1⟩ := p
      rw [h1] at h
      simp only [Option.some.injEq] at h
      have := hk a st1
      rw [h] at this
      simp only at this
      rw [(hf a st1).2 h1 (this.1.symm.trans hov)]
      simp only [h]

theorem setNT_keeps (id : Nat) (n : NT) (st : LowerSt) :
    (setNT id n st).over = st.over ∧ (setNT id n st).nts.length = st.nts.length := by simp [setNT]

theorem sim_pure {α : Type} {N : Nat} {f0 fN : LowerSt → Option (α × LowerSt)} {st : LowerSt} {x : α}
    (ho : st.over = false) (h0 : f0 st = some (x, st)) (hN : fN st = some (x, st)) : Sim N f0 fN st := by
  intro y st'
  rw [h0, hN]
  refine ⟨fun h => ?_, fun h _ => h⟩
  simp only [Option.some.injEq, Prod.mk.injEq] at h
  exact ⟨h.2 ▸ ho, fun _ => by rw [h.1, h.2]⟩

theorem Post.len {g : Grammar} {root : Str} {max : Nat} {a b : LowerSt} (h : Post g root max a b) :
    a.nts.length ≤ b.nts.length := h.nts.length_le

section
variable {g : Grammar} {root : Str} {N : Nat} {r0 rN : LowerRuleFn}

mutual
theorem lowerAlts_sim (hN : 0 < N) (h0 : RuleSpec g root 0 r0) (hn : RuleSpec g root N rN)
    (hr : RuleSim g root N r0 rN) : (a : List (List Rep)) → (∀ r ∈ altReps a, r ∈ allReps g) → ∀ st, Good st →
      st.over = false → Sim N (lowerAlts r0 0 a) (lowerAlts rN N a) st
  | [], _, st, _, ho => sim_pure ho (by rw [lowerAlts]) (by rw [lowerAlts])
  | c :: a, hall, st, hg, ho => by
    have hc : ∀ r ∈ concatReps c, r ∈ allReps g := fun r hr => hall r (by simp [altReps, hr])
    have ha : ∀ r ∈ altReps a, r ∈ allReps g := fun r hr => hall r (by simp [altReps, hr])
    refine sim_bind (f0 := lowerConcat r0 0 c) (fN := lowerConcat rN N c) (g0 := lowerAlts r0 0 a)
      (gN := lowerAlts rN N a) (k := fun seq out => (if seq = [] then [.eps] else seq) :: out)
      (fun st => by
        rw [lowerAlts]
        cases lowerConcat r0 0 c st with
        | none => rfl
        | some p => obtain ⟨_, st1⟩ := p; dsimp only; cases lowerAlts r0 0 a st1 <;> rfl)
      (fun st => by
        rw [lowerAlts]
        cases lowerConcat rN N c st with
        | none => rfl
        | some p => obtain ⟨_, st1⟩ := p; dsimp only; cases lowerAlts rN N a st1 <;> rfl)
      (lowerConcat_sim hN h0 hn hr c hc st hg ho) ?_ ?_ ?_
    · intro x st1 y st2 h1 h2
      exact (lowerAlts_spec h0 a ha st1 y st2 (lowerConcat_spec h0 c hc st x st1 hg h1).1.good h2).1.len
    · intro x st1 y st2 h1 h2
      exact (lowerAlts_spec hn a ha st1 y st2 (lowerConcat_spec hn c hc st x st1 hg h1).1.good h2).1.not_over
    · intro x st1 h ho1
      refine lowerAlts_sim hN h0 hn hr a ha st1 ?_ ho1
      rcases h with h | h
      · exact (lowerConcat_spec h0 c hc st x st1 hg h).1.good
      · exact (lowerConcat_spec hn c hc st x st1 hg h).1.good
theorem lowerConcat_sim (hN : 0 < N) (h0 : RuleSpec g root 0 r0) (hn : RuleSpec g root N rN)
    (hr : RuleSim g root N r0 rN) : (c : List Rep) → (∀ r ∈ concatReps c, r ∈ allReps g) → ∀ st, Good st →
      st.over = false → Sim N (lowerConcat r0 0 c) (lowerConcat rN N c) st
  | [], _, st, _, ho => sim_pure ho (by rw [lowerConcat]) (by rw [lowerConcat])
  | r :: c, hall, st, hg, ho => by
    have hc : ∀ r' ∈ repReps r, r' ∈ allReps g := fun r hr => hall r (by simp [concatReps, hr])
    have ha : ∀ r ∈ concatReps c, r ∈ allReps g := fun r hr => hall r (by simp [concatReps, hr])
    refine sim_bind (f0 := lowerRep r0 0 r) (fN := lowerRep rN N r) (g0 := lowerConcat r0 0 c)
      (gN := lowerConcat rN N c) (k := fun s seq => s :: seq)
      (fun st => by
        rw [lowerConcat]
        cases lowerRep r0 0 r st with
        | none => rfl
        | some p => obtain ⟨_, st1⟩ := p; dsimp only; cases lowerConcat r0 0 c st1 <;> rfl)
      (fun st => by
        rw [lowerConcat]
        cases lowerRep rN N r st with
        | none => rfl
        | some p => obtain ⟨_, st1⟩ := p; dsimp only; cases lowerConcat rN N c st1 <;> rfl)
      (lowerRep_sim hN h0 hn hr r hc st hg ho) ?_ ?_ ?_
    · intro x st1 y st2 h1 h2
      exact (lowerConcat_spec h0 c ha st1 y st2 (lowerRep_spec h0 r hc st x st1 hg h1).1.good h2).1.len
    · intro x st1 y st2 h1 h2
      exact (lowerConcat_spec hn c ha st1 y st2 (lowerRep_spec hn r hc st x st1 hg h1).1.good h2).1.not_over
    · intro x st1 h ho1
      refine lowerConcat_sim hN h0 hn hr c ha st1 ?_ ho1
      rcases h with h | h
      · exact (lowerRep_spec h0 r hc st x st1 hg h).1.good
      · exact (lowerRep_spec hn r hc st x st1 hg h).1.good
theorem lowerRep_sim (hN : 0 < N) (h0 : RuleSpec g root 0 r0) (hn : RuleSpec g root N rN)
    (hr : RuleSim g root N r0 rN) : (r : Rep) → (∀ r' ∈ repReps r, r' ∈ allReps g) → ∀ st, Good st →
      st.over = false → Sim N (lowerRep r0 0 r) (lowerRep rN N r) st
  | ⟨mn, mx, e⟩, hall, st, hg, ho => by
    have hocc : Rep.mk mn mx e ∈ allReps g := hall _ (by simp [repReps])
    have hoe : ∀ r' ∈ elemReps e, r' ∈ allReps g := fun r' hr' => hall r' (by simp [repReps, hr'])
    by_cases h11 : mn = 1 ∧ mx = some 1
    · have e0 : lowerRep r0 0 ⟨mn, mx, e⟩ st = lowerElem r0 0 e st := by simp only [lowerRep]; rw [if_pos h11]
      have eN : lowerRep rN N ⟨mn, mx, e⟩ st = lowerElem rN N e st := by simp only [lowerRep]; rw [if_pos h11]
      have := lowerElem_sim hN h0 hn hr e hoe ⟨_, hocc, rfl⟩ st hg ho
      intro x st'
      rw [e0, eN]
      exact this x st'
    · let body : LowerRuleFn → Nat → LowerSt → Option (Sym × LowerSt) := fun rule max st2 =>
        if badBounds mn mx then some (.nt st.nts.length, st2)
        else match lowerElem rule max e st2 with
          | none => none
          | some (esym, st3) => some ((.nt st.nts.length), setNT st.nts.length
              { alts := [[.eps], [esym, .nt st.nts.length]], isRep := true, repMin := mn, repMax := mx } st3)
      refine sim_reserve hN (key := repKey ⟨mn, mx, e⟩) ho (mk := .nt) (b0 := body r0 0) (bN := body rN N)
        ?_ ?_ ?_ ?_ ?_ ?_
      · intro id hl; simp only [lowerRep]; rw [if_neg h11]; simp only [reserve, hl]
      · intro id hl; simp only [lowerRep]; rw [if_neg h11]; simp only [reserve, hl]
      · intro hl
        simp only [lowerRep]; rw [if_neg h11]; simp only [reserve, hl]
        have hz := fresh_zero (key := repKey ⟨mn, mx, e⟩) ho
        unfold fresh at hz ⊢
        rw [hz]
        rfl
      · intro hl
        simp only [lowerRep]; rw [if_neg h11]; simp only [reserve, hl]
        rfl
      · intro hl x st' h
        simp only [body] at h
        split at h
        · simp only [Option.some.injEq, Prod.mk.injEq] at h
          rw [← h.2, fresh_len]
        · split at h
          · simp at h
          rename_i es st3 h3
          simp only [Option.some.injEq, Prod.mk.injEq] at h
          rw [← h.2, (setNT_keeps _ _ _).2, ← fresh_len 0 (repKey ⟨mn, mx, e⟩) st]
          exact (lowerElem_spec h0 e hoe ⟨_, hocc, rfl⟩ _ es st3 (fresh_good hg hl) h3).1.len
      · intro hl
        by_cases hlt : badBounds mn mx = true
        · exact sim_pure (fresh_zero ho) (by simp only [body]; rw [if_pos hlt]) (by simp only [body]; rw [if_pos hlt])
        · have := sim_map (k := fun esym st3 => ((.nt st.nts.length : Sym), setNT st.nts.length
              { alts := [[.eps], [esym, .nt st.nts.length]], isRep := true, repMin := mn, repMax := mx } st3))
              (fun a st => setNT_keeps _ _ _)
              (h0 := body r0 0) (hN := body rN N)
              (lowerElem_sim hN h0 hn hr e hoe ⟨_, hocc, rfl⟩ _ (fresh_good hg hl) (fresh_zero (key := repKey ⟨mn, mx, e⟩) ho))
              (by simp only [body]; rw [if_neg hlt]; cases lowerElem r0 0 e (fresh 0 (repKey ⟨mn, mx, e⟩) st) <;> rfl)
              (by simp only [body]; rw [if_neg hlt]; cases lowerElem rN N e (fresh 0 (repKey ⟨mn, mx, e⟩) st) <;> rfl)
          exact this
theorem lowerElem_sim (hN : 0 < N) (h0 : RuleSpec g root 0 r0) (hn : RuleSpec g root N rN)
    (hr : RuleSim g root N r0 rN) : (e : Elem) → (∀ r' ∈ elemReps e, r' ∈ allReps g) →
      (∃ r ∈ allReps g, r.elem = e) → ∀ st, Good st →
      st.over = false → Sim N (lowerElem r0 0 e) (lowerElem rN N e) st
  | .rulename n, _, hex, st, hg, ho => by
    have hs : Sim N (r0 n) (rN n) st := fun x st' => hr n st x st' (Or.inr hex) hg ho
    exact sim_map (k := fun id st => ((.nt id : Sym), st)) (fun _ _ => ⟨rfl, rfl⟩) hs
      (by rw [lowerElem]; cases r0 n st <;> rfl) (by rw [lowerElem]; cases rN n st <;> rfl)
  | .group a, hall, hex, st, hg, ho => by
    have hoa : ∀ r' ∈ altReps a, r' ∈ allReps g := fun r' hr' => hall r' (by simpa [elemReps] using hr')
    let body : LowerRuleFn → Nat → LowerSt → Option (Sym × LowerSt) := fun rule max st2 =>
      match lowerAlts rule max a st2 with
      | none => none
      | some (out, st3) => some (.nt st.nts.length, setNT st.nts.length { alts := out } st3)
    refine sim_reserve hN (key := grpKey a) ho (mk := .nt) (b0 := body r0 0) (bN := body rN N)
      ?_ ?_ ?_ ?_ ?_ ?_
    · intro id hl; rw [lowerElem]; simp only [reserve, hl]
    · intro id hl; rw [lowerElem]; simp only [reserve, hl]
    · intro hl
      rw [lowerElem]; simp only [reserve, hl]
      have hz := fresh_zero (key := grpKey a) ho
      unfold fresh at hz ⊢
      rw [hz]
      rfl
    · intro hl
      rw [lowerElem]; simp only [reserve, hl]
      rfl
    · intro hl x st' h
      simp only [body] at h
      split at h
      · simp at h
      rename_i es st3 h3
      simp only [Option.some.injEq, Prod.mk.injEq] at h
      rw [← h.2, (setNT_keeps _ _ _).2, ← fresh_len 0 (grpKey a) st]
      exact (lowerAlts_spec h0 a hoa _ es st3 (fresh_good hg hl) h3).1.len
    · intro hl
      exact sim_map (k := fun out st3 => ((.nt st.nts.length : Sym), setNT st.nts.length { alts := out } st3))
        (fun a st => setNT_keeps _ _ _)
        (lowerAlts_sim hN h0 hn hr a hoa _ (fresh_good hg hl) (fresh_zero (key := grpKey a) ho))
        (by simp only [body]; cases lowerAlts r0 0 a (fresh 0 (grpKey a) st) <;> rfl)
        (by simp only [body]; cases lowerAlts rN N a (fresh 0 (grpKey a) st) <;> rfl)
  | .option a, hall, hex, st, hg, ho => by
    have hoa : ∀ r' ∈ altReps a, r' ∈ allReps g := fun r' hr' => hall r' (by simpa [elemReps] using hr')
    let body : LowerRuleFn → Nat → LowerSt → Option (Sym × LowerSt) := fun rule max st2 =>
      match lowerAlts rule max a st2 with
      | none => none
      | some (out, st3) => some (.nt st.nts.length, setNT st.nts.length { alts := [.eps] :: out } st3)
    refine sim_reserve hN (key := optKey a) ho (mk := .nt) (b0 := body r0 0) (bN := body rN N)
      ?_ ?_ ?_ ?_ ?_ ?_
    · intro id hl; rw [lowerElem]; simp only [reserve, hl]
    · intro id hl; rw [lowerElem]; simp only [reserve, hl]
    · intro hl
      rw [lowerElem]; simp only [reserve, hl]
      have hz := fresh_zero (key := optKey a) ho
      unfold fresh at hz ⊢
      rw [hz]
      rfl
    · intro hl
      rw [lowerElem]; simp only [reserve, hl]
      rfl
    · intro hl x st' h
      simp only [body] at h
      split at h
      · simp at h
      rename_i es st3 h3
      simp only [Option.some.injEq, Prod.mk.injEq] at h
      rw [← h.2, (setNT_keeps _ _ _).2, ← fresh_len 0 (optKey a) st]
      exact (lowerAlts_spec h0 a hoa _ es st3 (fresh_good hg hl) h3).1.len
    · intro hl
      exact sim_map (k := fun out st3 => ((.nt st.nts.length : Sym), setNT st.nts.length { alts := [.eps] :: out } st3))
        (fun a st => setNT_keeps _ _ _)
        (lowerAlts_sim hN h0 hn hr a hoa _ (fresh_good hg hl) (fresh_zero (key := optKey a) ho))
        (by simp only [body]; cases lowerAlts r0 0 a (fresh 0 (optKey a) st) <;> rfl)
        (by simp only [body]; cases lowerAlts rN N a (fresh 0 (optKey a) st) <;> rfl)
  | .charVal a b, _, _, _, _, ho => sim_pure (x := .term (.charVal a b)) ho (by simp [lowerElem]) (by simp [lowerElem])
  | .numVal a b c, _, _, _, _, ho => sim_pure (x := .term (.numVal a b c)) ho (by simp [lowerElem]) (by simp [lowerElem])
  | .proseVal a, _, _, _, _, ho => sim_pure (x := .term (.proseVal a)) ho (by simp [lowerElem]) (by simp [lowerElem])
end

theorem lowerRule_sim (hN : 0 < N) (fuel : Nat) : RuleSim g root N (lowerRule g 0 fuel) (lowerRule g N fuel) := by
  induction fuel with
  | zero => intro name st id st' _ _ _; simp [lowerRule]
  | succ fuel ih =>
    intro name st id st' hocc hg ho
    let body : Nat → LowerSt → Option (Nat × LowerSt) := fun max st2 =>
      match getRule name g.rules with
      | none => some (st.nts.length, st2)
      | some r =>
        match lowerAlts (lowerRule g max fuel) max r.alt st2 with
        | none => none
        | some (out, st3) =>
          some (st.nts.length, setNT st.nts.length { isRule := true, ruleName := r.name, alts := out } st3)
    refine sim_reserve (f0 := lowerRule g 0 (fuel + 1) name) (fN := lowerRule g N (fuel + 1) name)
      hN (key := ruleKey name) ho (mk := fun n => n) (b0 := body 0) (bN := body N) ?_ ?_ ?_ ?_ ?_ ?_ id st'
    all_goals clear id st'
    · intro id hl; rw [lowerRule]; simp only [reserve, hl]
    · intro id hl; rw [lowerRule]; simp only [reserve, hl]
    · intro hl
      rw [lowerRule]; simp only [reserve, hl]
      have hz := fresh_zero (key := ruleKey name) ho
      unfold fresh at hz ⊢
      rw [hz]
      rfl
    · intro hl
      rw [lowerRule]; simp only [reserve, hl]
      rfl
    · intro hl x st' h
      simp only [body] at h
      split at h
      · simp only [Option.some.injEq, Prod.mk.injEq] at h
        rw [← h.2, fresh_len]
      · rename_i r hr
        split at h
        · simp at h
        rename_i es st3 h3
        simp only [Option.some.injEq, Prod.mk.injEq] at h
        rw [← h.2, (setNT_keeps _ _ _).2, ← fresh_len 0 (ruleKey name) st]
        exact (lowerAlts_spec (lowerRule_spec g root 0 fuel) r.alt (fun _ hp => mem_allReps hr hp) _ es st3
          (fresh_good hg hl) h3).1.len
    · intro hl
      cases hr : getRule name g.rules with
      | none => exact sim_pure (x := st.nts.length) (fresh_zero ho) (by simp only [body, hr]) (by simp only [body, hr])
      | some r =>
        have := sim_map (k := fun out st3 => (st.nts.length, setNT st.nts.length
            { isRule := true, ruleName := r.name, alts := out } st3))
          (fun a st => setNT_keeps _ _ _)
          (lowerAlts_sim hN (lowerRule_spec g root 0 fuel) (lowerRule_spec g root N fuel) ih r.alt
            (fun _ hp => mem_allReps hr hp) _ (fresh_good hg hl) (fresh_zero (key := ruleKey name) ho))
          (h0 := body 0) (hN := body N)
          (by simp only [body, hr]; cases lowerAlts (lowerRule g 0 fuel) 0 r.alt (fresh 0 (ruleKey name) st) <;> rfl)
          (by simp only [body, hr]; cases lowerAlts (lowerRule g N fuel) N r.alt (fresh 0 (ruleKey name) st) <;> rfl)
        exact this

end

/-- The lowering with a budget succeeds exactly when the lowering without one stays below it, with the same
result. -/
theorem compileSlots_budget {g : Grammar} {root : Str} {N : Nat} (hN : 0 < N) (sg : SG) :
    compileSlots g root N = .ok sg ↔ compileSlots g root 0 = .ok sg ∧ sg.nts.length < N := by
  have hs := fun id st' => lowerRule_sim (g := g) (root := root) hN (lowerFuel g) root ⟨[], [], false⟩ id st'
    (Or.inl rfl) good_init rfl
  constructor
  · intro h
    obtain ⟨_, _, hb, _⟩ := compileSlots_lowered h
    refine ⟨?_, hb hN⟩
    unfold compileSlots at h ⊢
    split at h
    · simp at h
    split at h
    · simp at h
    rename_i id st hl
    split_ifs at h with ho
    have ho' : st.over = false := by simpa using ho
    rw [(hs id st).2 hl ho']
    simp only [ho']
    simpa using h
  · rintro ⟨h, hb⟩
    unfold compileSlots at h ⊢
    split at h
    · simp at h
    split at h
    · simp at h
    rename_i id st hl
    split_ifs at h with ho
    have ho' : st.over = false := by simpa using ho
    simp only [Except.ok.injEq] at h
    subst h
    rw [((hs id st).1 hl).2 hb]
    simp [ho']

/-- Without a budget, lowering fails only for an unknown root. -/
theorem compileSlots_unbounded {g : Grammar} {root : Str} {r : Rule} (hr : getRule root g.rules = some r) :
    ∃ sg, compileSlots g root 0 = .ok sg := by
  unfold compileSlots
  rw [hr]
  simp only
  have ht := lower_terminates g root 0 ⟨[], [], false⟩ good_init
  cases hl : lowerRule g 0 (lowerFuel g) root ⟨[], [], false⟩ with
  | none => exact absurd hl ht
  | some p =>
    obtain ⟨id, st⟩ := p
    have := ((lowerRule_sim (g := g) (root := root) (N := 1) (by omega) (lowerFuel g) root ⟨[], [], false⟩ id st
      (Or.inl rfl) good_init rfl).1 hl).1
    simp [this]

/-- The number of nonterminals is bounded by the number of repetitions written in the grammar. -/
theorem lowered_size {g : Grammar} {root : Str} {sg : SG} {ix : List (Str × Nat)} (h : Lowered g root sg ix) :
    sg.nts.length ≤ 1 + 2 * (allReps g).length := by
  let ekey : Elem → Str := fun e => match e with
    | .rulename n => ruleKey n
    | .group a => grpKey a
    | .option a => optKey a
    | _ => []
  let keys := ruleKey root :: (allReps g).flatMap fun r => [repKey r, ekey r.elem]
  have hsub : ix.map Prod.fst ⊆ keys := by
    intro k hk
    obtain ⟨⟨k', id⟩, hm, rfl⟩ := List.mem_map.mp hk
    have hl := lookup_of_mem h.good.keys hm
    obtain ⟨o, nt, ho, hi, _⟩ := h.filled id (h.good.lookup_lt hl)
    have := (h.good.index_get.mp hl).symm.trans hi
    simp only [Option.some.injEq, Prod.mk.injEq, and_true] at this
    simp only [this]
    cases o with
    | rule n =>
      rcases ho with rfl | ⟨r, hr, he⟩
      · exact List.mem_cons_self ..
      · refine List.mem_cons_of_mem _ (List.mem_flatMap.mpr ⟨r, hr, ?_⟩)
        simp [ekey, he, Obj.key]
    | rep r =>
      exact List.mem_cons_of_mem _ (List.mem_flatMap.mpr ⟨r, ho.1, by simp [Obj.key]⟩)
    | grp a =>
      obtain ⟨r, hr, he⟩ := ho
      exact List.mem_cons_of_mem _ (List.mem_flatMap.mpr ⟨r, hr, by simp [ekey, he, Obj.key]⟩)
    | opt a =>
      obtain ⟨r, hr, he⟩ := ho
      exact List.mem_cons_of_mem _ (List.mem_flatMap.mpr ⟨r, hr, by simp [ekey, he, Obj.key]⟩)
  have h1 : ix.length = sg.nts.length := h.good.length
  have h2 := (List.subperm_of_subset h.good.keys hsub).length_le
  simp [keys] at h2
  have h3 : ((allReps g).map (fun _ => 2)).sum = 2 * (allReps g).length := by simp [Nat.mul_comm]
  omega

end Verif
