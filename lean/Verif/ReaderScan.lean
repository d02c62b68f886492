import Verif.ReaderTrails
import Verif.FuzzWalk

/-!
# What `Next` and `Scan` return
-/

namespace Verif

/-! ## The odometer -/

/-- All vectors below `ts`, the last index moving fastest. -/
def combos : List Nat → List (List Nat)
  | [] => [[]]
  | t :: ts => (List.range t).flatMap fun i => (combos ts).map (i :: ·)

/-- The vectors from `is` on. -/
def combosFrom : List Nat → List Nat → List (List Nat)
  | t :: ts, i :: is => (combosFrom ts is).map (i :: ·) ++ (List.range' (i + 1) (t - (i + 1))).flatMap fun j => (combos ts).map (j :: ·)
  | _, _ => [[]]

/-- The vector is below `ts`. -/
inductive IdxBelow : List Nat → List Nat → Prop
  | nil : IdxBelow [] []
  | cons (t ts i is) : i < t → IdxBelow ts is → IdxBelow (t :: ts) (i :: is)

theorem mem_combos {ts : List Nat} : ∀ {is}, is ∈ combos ts ↔ IdxBelow ts is := by
  induction ts with
  | nil =>
    intro is
    simp only [combos, List.mem_singleton]
    exact ⟨fun h => h ▸ .nil, fun h => by cases h; rfl⟩
  | cons t ts ih =>
    intro is
    simp only [combos, List.mem_flatMap, List.mem_range, List.mem_map]
    constructor
    · rintro ⟨i, h1, is', h2, rfl⟩
      exact .cons _ _ _ _ h1 (ih.mp h2)
    · intro h
      cases h with
      | cons _ _ i is h1 h2 => exact ⟨i, h1, is, ih.mpr h2, rfl⟩

theorem combosFrom_zeros {ts : List Nat} (h : ∀ t ∈ ts, 0 < t) : combosFrom ts (ts.map fun _ => 0) = combos ts := by
  induction ts with
  | nil => rfl
  | cons t ts ih =>
    rw [List.map_cons, combosFrom, combos, ih fun t ht => h t (List.mem_cons_of_mem _ ht)]
    obtain ⟨d, rfl⟩ : ∃ d, t = d + 1 := ⟨t - 1, by have := h t (List.mem_cons_self ..); omega⟩
    rw [List.range_eq_range', List.range'_succ, List.flatMap_cons]
    simp

theorem odometer_spec {ts : List Nat} : ∀ {is}, IdxBelow ts is →
    ((odometer ts is).1 = true ∧ combosFrom ts is = [is] ∧ (odometer ts is).2 = ts.map fun _ => 0) ∨
    ((odometer ts is).1 = false ∧ IdxBelow ts (odometer ts is).2 ∧ combosFrom ts is = is :: combosFrom ts (odometer ts is).2) := by
  induction ts with
  | nil => intro is h; cases h; exact .inl ⟨rfl, rfl, rfl⟩
  | cons t ts ih =>
    intro is h
    cases h with
    | cons _ _ i is h1 h2 =>
      rw [odometer]
      have hpos : ∀ x ∈ ts, 0 < x := by
        clear ih h1
        induction h2 with
        | nil => simp
        | cons t ts i is h1 _ ih =>
          intro x hx
          rcases List.mem_cons.mp hx with rfl | hx
          · omega
          · exact ih x hx
      have hz : IdxBelow ts (ts.map fun _ => 0) := by
        clear ih h1 h2
        induction ts with
        | nil => exact .nil
        | cons a ts ih => exact .cons _ _ _ _ (hpos a (List.mem_cons_self ..)) (ih fun x hx => hpos x (List.mem_cons_of_mem _ hx))
      rcases ih h2 with ⟨h3, h4, h5⟩ | ⟨h3, h4, h5⟩
      · simp only [h3, if_true]
        by_cases hlt : i + 1 < t
        · right
          rw [if_pos hlt]
          refine ⟨rfl, .cons _ _ _ _ hlt (by rw [h5]; exact hz), ?_⟩
          simp only
          rw [h5, combosFrom, h4, combosFrom, combosFrom_zeros hpos]
          obtain ⟨d, hd⟩ : ∃ d, t - (i + 1) = d + 1 := ⟨t - (i + 1) - 1, by omega⟩
          rw [hd, List.range'_succ, List.flatMap_cons, show t - (i + 1 + 1) = d by omega]
          simp
        · left
          rw [if_neg hlt]
          refine ⟨rfl, ?_, by simp [h5]⟩
          rw [combosFrom, h4, show t - (i + 1) = 0 by omega]
          simp
      · right
        simp only [h3, Bool.false_eq_true, if_false]
        refine ⟨trivial, .cons _ _ _ _ h1 h4, ?_⟩
        rw [combosFrom, h5, combosFrom]
        simp

/-! ## Reading -/

/-- The numbers of variations of the nodes of a path. -/
def ptTotals (h : TgHeap) (p : Pts) : List Nat := p.map fun n => (ptEmit h n 0).2

theorem ptEmit_pos (h : TgHeap) (n : Option Nat) : 0 < (ptEmit h n 0).2 := by
  cases n with
  | none => exact Nat.one_pos
  | some n => exact nodeEmit_pos _

theorem ptTotals_pos (h : TgHeap) (p : Pts) : ∀ t ∈ ptTotals h p, 0 < t := by
  intro t ht
  obtain ⟨n, _, rfl⟩ := List.mem_map.mp ht
  exact ptEmit_pos h n

/-- The trails with their variations, for paths whose newest node comes first. -/
def trailItems (h : TgHeap) (ps : List Pts) : List (Pts × List Nat) :=
  ps.flatMap fun p => (combos (ptTotals h p.reverse)).map fun v => (p.reverse, v)

/-- What a reader has still to give. -/
inductive ReadPos (R : Reader) (M : Nat) (st : TrailSt) : List (Pts × List Nat) → Prop
  | over : st.exhausted = true → st.staged = none → ReadPos R M st []
  | between (todo) : st.exhausted = false → st.havePath = false → st.staged = none → TrailPos R M st todo →
      ReadPos R M st (trailItems R.heap (todo.filter R.atEnd))
  | within (todo) : st.exhausted = false → st.havePath = true → TrailPos R M st todo → st.varTot = ptTotals R.heap st.path →
      IdxBelow st.varTot st.varIdx → (st.staged = none ∨ st.staged = some (trailText R.heap st.path st.varIdx)) →
      ReadPos R M st (((combosFrom st.varTot st.varIdx).map fun v => (st.path, v)) ++ trailItems R.heap (todo.filter R.atEnd))

/-- `ensureStaged` leaves what is to come as it is, and stages the first of it. -/
def EnsurePost (R : Reader) (M : Nat) (items : List (Pts × List Nat)) (st : TrailSt) : Prop :=
  ReadPos R M st items ∧
    ((items = [] ∧ st.staged = none) ∨
      ∃ p v rest, items = (p, v) :: rest ∧ st.staged = some (trailText R.heap p v) ∧ ReadPos R M st.consume rest)

theorem trailPos_vars {R : Reader} {M : Nat} {st st' : TrailSt} {todo : List Pts} (h : TrailPos R M st todo)
    (e1 : st'.length = st.length) (e2 : st'.stack = st.stack) (e3 : st'.used = st.used) (e4 : st'.had = st.had) : TrailPos R M st' todo := by
  cases h with
  | start h => exact .start (by rw [e1, h])
  | fresh h1 h2 h3 h4 => rw [← e1]; exact .fresh (by omega) (by rw [e2, h2]) (by rw [e3]; exact h3) (by rw [e4, h4])
  | path h1 h2 h3 h4 h5 h6 =>
    rw [← e1, ← e2]
    exact .path (by omega) (by omega) (by rw [e2]; exact h3) (by rw [e3, e2]; exact h4) (by rw [e2, e1, h5]) (by rw [e4, h6])

theorem below_head {ts is : List Nat} (h : IdxBelow ts is) : ∃ rest, combosFrom ts is = is :: rest := by
  rcases odometer_spec h with ⟨_, h2, _⟩ | ⟨_, _, h3⟩
  · exact ⟨_, h2⟩
  · exact ⟨_, h3⟩

/-- A trail with its text staged. -/
theorem staged_post {R : Reader} {M : Nat} {st : TrailSt} {todo : List Pts} (h1 : st.exhausted = false) (h2 : st.havePath = true)
    (h3 : TrailPos R M st todo) (h4 : st.varTot = ptTotals R.heap st.path) (h5 : IdxBelow st.varTot st.varIdx)
    (h6 : st.staged = some (trailText R.heap st.path st.varIdx)) :
    EnsurePost R M (((combosFrom st.varTot st.varIdx).map fun v => (st.path, v)) ++ trailItems R.heap (todo.filter R.atEnd)) st := by
  refine ⟨.within todo h1 h2 h3 h4 h5 (.inr h6), .inr ?_⟩
  have h3' : TrailPos R M st.consume todo := trailPos_vars h3 rfl rfl rfl rfl
  rcases odometer_spec h5 with ⟨e1, e2, _⟩ | ⟨e1, e2, e3⟩
  · refine ⟨st.path, st.varIdx, _, by rw [e2]; rfl, h6, ?_⟩
    exact .between todo h1 (by simp [TrailSt.consume, e1]) rfl h3'
  · refine ⟨st.path, st.varIdx, _, by rw [e3]; rfl, h6, ?_⟩
    exact .within (st := st.consume) todo h1 (by simp [TrailSt.consume, e1, h2]) h3' h4 (by exact e2) (.inl rfl)

theorem below_zeros {ts : List Nat} (h : ∀ t ∈ ts, 0 < t) : IdxBelow ts (ts.map fun _ => 0) := by
  induction ts with
  | nil => exact .nil
  | cons a ts ih => exact .cons _ _ _ _ (h a (List.mem_cons_self ..)) (ih fun x hx => h x (List.mem_cons_of_mem _ hx))

/-- A new trail (/repo/transition_graph.go:562-579). -/
def TrailSt.begun (st : TrailSt) (h : TgHeap) : TrailSt :=
  TrailSt.stage { st with havePath := true, varTot := ptTotals h st.path, varIdx := (st.path.map fun _ => 0) } h

theorem ensure_settles {R : Reader} {M : Nat} (hM : ∀ m, M ≤ m → R.leaves m [] = []) {st : TrailSt} {items : List (Pts × List Nat)}
    (hpos : ReadPos R M st items) : Settles (fun k => R.ensureStaged k st) (EnsurePost R M items) := by
  cases hpos with
  | over h1 h2 =>
    refine (Settles.ok (x := st) ⟨.over h1 h2, .inl ⟨rfl, h2⟩⟩).congr fun k => ?_
    simp [Reader.ensureStaged, h1]
  | within todo h1 h2 h3 h4 h5 h6 =>
    rcases h6 with h6 | h6
    · refine (Settles.ok (x := st.stage R.heap) (staged_post (st := st.stage R.heap) h1 h2 (trailPos_vars h3 rfl rfl rfl rfl) h4 h5 rfl)).congr fun k => ?_
      simp [Reader.ensureStaged, h1, h2, h6]
    · refine (Settles.ok (x := st) (staged_post h1 h2 h3 h4 h5 h6)).congr fun k => ?_
      simp [Reader.ensureStaged, h6]
  | between todo h1 h2 h3 h4 =>
    refine (Settles.bnd (advance_settles hM h4) (g := fun _ r => if r.1 then .ok (r.2.begun R.heap)
      else .ok { r.2 with exhausted := true }) fun x hx => ?_).congr fun k => ?_
    · generalize todo.filter R.atEnd = l at hx ⊢
      cases hx with
      | done st' hs =>
        refine (Settles.ok (x := { st' with exhausted := true }) ⟨.over rfl (hs.2.2.trans h3), .inl ⟨rfl, hs.2.2.trans h3⟩⟩).congr fun k => ?_
        simp
      | more st' todo' hs hp hne hl =>
        refine (Settles.ok (x := st'.begun R.heap) ?_).congr fun k => by simp
        have hz : (st'.path.map fun _ => 0) = (ptTotals R.heap st'.path).map fun _ => 0 := by rw [ptTotals, List.map_map]; rfl
        have hb : IdxBelow (ptTotals R.heap st'.path) (st'.path.map fun _ => 0) := by
          rw [hz]
          exact below_zeros (ptTotals_pos _ _)
        have := staged_post (M := M) (R := R) (todo := todo') (st := st'.begun R.heap) (hs.1.trans h1) rfl (trailPos_vars hp rfl rfl rfl rfl) rfl hb rfl
        have e : combosFrom (st'.begun R.heap).varTot (st'.begun R.heap).varIdx = combos (ptTotals R.heap st'.path) := by
          show combosFrom (ptTotals R.heap st'.path) (st'.path.map fun _ => 0) = _
          rw [hz, combosFrom_zeros (ptTotals_pos _ _)]
        rw [e] at this
        exact this
    · unfold Reader.ensureStaged
      rw [h1, h2, h3]
      rfl

/-- Calls of a reader: `true` is `Next`, `false` is `Scan`. -/
inductive ReadOut where
  | next (b : Bool)
  | scan (b : Option Bytes)
  deriving DecidableEq

/-- A sequence of calls (/repo/transition_graph.go:599-629). -/
def Reader.calls (R : Reader) (k : Nat) : List Bool → TrailSt → Run (List ReadOut)
  | [], _ => .ok []
  | true :: cs, st => (R.next k st).bnd fun r => (R.calls k cs r.2).bnd fun l => .ok (.next r.1 :: l)
  | false :: cs, st => (R.scan k st).bnd fun r => (R.calls k cs r.2).bnd fun l => .ok (.scan r.1 :: l)

/-- What an iterator over a list answers. -/
def listCalls : List Bool → List Bytes → List ReadOut
  | [], _ => []
  | true :: cs, ts => .next (!ts.isEmpty) :: listCalls cs ts
  | false :: cs, ts => .scan ts.head? :: listCalls cs ts.tail

theorem calls_settles {R : Reader} {M : Nat} (hM : ∀ m, M ≤ m → R.leaves m [] = []) (cs : List Bool) : ∀ st items,
    ReadPos R M st items → Settles (fun k => R.calls k cs st) (· = listCalls cs (items.map fun i => trailText R.heap i.1 i.2)) := by
  induction cs with
  | nil => intro st items _; exact .ok rfl
  | cons c cs ih =>
    intro st items hpos
    cases c with
    | true =>
      refine (Settles.bnd (g := fun k r => (R.calls k cs r.2).bnd fun l => .ok (.next r.1 :: l))
        (Settles.bnd (g := fun _ st => .ok (st.staged.isSome, st)) (ensure_settles hM hpos)
        (Q' := fun r => ReadPos R M r.2 items ∧ r.1 = !items.isEmpty) fun st' h => ?_) fun r h => ?_).congr fun k => rfl
      · refine .ok ⟨h.1, ?_⟩
        rcases h.2 with ⟨h1, h2⟩ | ⟨p, v, rest, h1, h2, _⟩
        · simp [h1, h2]
        · simp [h1, h2]
      · refine Settles.bnd (g := fun _ l => .ok (.next r.1 :: l)) (ih _ _ h.1) fun l hl => .ok ?_
        rw [listCalls, hl, h.2]
        cases items <;> rfl
    | false =>
      refine (Settles.bnd (g := fun k r => (R.calls k cs r.2).bnd fun l => .ok (.scan r.1 :: l))
        (Settles.bnd (g := fun _ st => match st.staged with
          | none => .ok (none, st)
          | some b => .ok (some b, st.consume)) (ensure_settles hM hpos)
        (Q' := fun r => ReadPos R M r.2 items.tail ∧ r.1 = (items.map fun i => trailText R.heap i.1 i.2).head?) fun st' h => ?_) fun r h => ?_).congr fun k => rfl
      · rcases h.2 with ⟨h1, h2⟩ | ⟨p, v, rest, h1, h2, h3⟩
        · refine (Settles.ok (x := (none, st')) ?_).congr fun k => by simp [h2]
          rw [h1] at h ⊢
          exact ⟨h.1, rfl⟩
        · refine (Settles.ok (x := (some (trailText R.heap p v), st'.consume)) ?_).congr fun k => by simp [h2]
          rw [h1]
          exact ⟨h3, rfl⟩
      · refine Settles.bnd (g := fun _ l => .ok (.scan r.1 :: l)) (ih _ _ h.1) fun l hl => .ok ?_
        rw [listCalls, hl, h.2, List.map_tail]

end Verif
