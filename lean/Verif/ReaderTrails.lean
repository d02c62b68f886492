import Verif.ReaderPrep

/-!
# The enumeration of trails
-/

namespace Verif

/-- The edges of a path whose newest node comes first. -/
def pathEdges : Pts → List (Option Nat × Option Nat)
  | n :: p :: rest => (p, n) :: pathEdges (p :: rest)
  | _ => []

/-- The nodes of a stack. -/
abbrev stackPath (s : List TrailFrame) : Pts := s.map TrailFrame.node

/-- The nodes that may follow a path. -/
def Reader.steps (R : Reader) (path : Pts) : Pts :=
  match path with
  | [] => R.entries
  | p :: _ => (R.heap.nextPts p).filter fun m => R.can m && !decide ((p, m) ∈ pathEdges path)

/-- The paths that are `r` nodes longer, in the order they are visited. -/
def Reader.leaves (R : Reader) : Nat → Pts → List Pts
  | 0, path => [path]
  | r + 1, path => (R.steps path).flatMap fun n => R.leaves r (n :: path)

/-- The size of the tree below a path. -/
def Reader.work (R : Reader) : Nat → Pts → Nat
  | 0, _ => 1
  | r + 1, path => 1 + ((R.steps path).map fun n => R.work r (n :: path)).sum

/-- The paths left beside and above a stack that lacks `r` nodes. -/
def Reader.beside (R : Reader) : Nat → List TrailFrame → List Pts
  | _, [] => []
  | r, fr :: rest => ((fr.allowed.drop (fr.cursor + 1)).flatMap fun n => R.leaves r (n :: stackPath rest)) ++ R.beside (r + 1) rest

/-- The size of what is left beside and above a stack. -/
def Reader.pend (R : Reader) : Nat → List TrailFrame → Nat
  | _, [] => 0
  | r, fr :: rest => ((fr.allowed.drop (fr.cursor + 1)).map fun n => R.work r (n :: stackPath rest)).sum + R.pend (r + 1) rest

/-- The frames fit together. -/
inductive StackOK (R : Reader) : List TrailFrame → Prop
  | nil : StackOK R []
  | cons (fr rest) : StackOK R rest → fr.allowed = R.steps (stackPath rest) → fr.allowed[fr.cursor]? = some fr.node →
      StackOK R (fr :: rest)

/-- The counters are those of the edges of the stack. -/
def UsedOK (u : EdgeCount) (s : List TrailFrame) : Prop := ∀ e, u e = ((pathEdges (stackPath s)).count e : Int)

theorem usedOK_push {u : EdgeCount} {s : List TrailFrame} (H : UsedOK u s) (fr : TrailFrame) :
    UsedOK (useEdge 1 s fr.node u) (fr :: s) := by
  intro e
  cases s with
  | nil => simpa [useEdge, pathEdges] using H e
  | cons p s =>
    have h1 := H e
    simp only [useEdge, stackPath, List.map_cons, pathEdges, List.count_cons] at h1 ⊢
    by_cases he : e = (p.node, fr.node)
    · rw [if_pos he, h1, he]
      simp
    · rw [if_neg he, h1]
      have : ((p.node, fr.node) == e) = false := by simpa using fun h => he h.symm
      simp [this]

theorem usedOK_pop {u : EdgeCount} {s : List TrailFrame} {fr : TrailFrame} (H : UsedOK u (fr :: s)) :
    UsedOK (useEdge (-1) s fr.node u) s := by
  intro e
  cases s with
  | nil => simpa [useEdge, pathEdges] using H e
  | cons p s =>
    have h1 := H e
    simp only [useEdge, stackPath, List.map_cons, pathEdges, List.count_cons] at h1 ⊢
    by_cases he : e = (p.node, fr.node)
    · rw [if_pos he, h1, he]
      simp
    · rw [if_neg he, h1]
      have : ((p.node, fr.node) == e) = false := by simpa using fun h => he h.symm
      simp [this]

theorem allowedAt_eq {R : Reader} {u : EdgeCount} {s : List TrailFrame} (H : UsedOK u s) : R.allowedAt s u = R.steps (stackPath s) := by
  cases s with
  | nil => rfl
  | cons p s =>
    unfold Reader.allowedAt Reader.steps
    simp only [stackPath, List.map_cons]
    congr 1
    funext m
    have h1 := H (p.node, m)
    simp only [stackPath, List.map_cons] at h1
    congr 2
    rw [decide_eq_decide, h1, ← List.count_pos_iff]
    omega

/-- The outcome of `bump`. -/
inductive BumpPost (R : Reader) (r : Nat) (s : List TrailFrame) : Bool × List TrailFrame × EdgeCount → Prop
  | done (u') : UsedOK u' [] → R.beside r s = [] → BumpPost R r s (false, [], u')
  | more (s' u') : StackOK R s' → UsedOK u' s' → s' ≠ [] → s'.length ≤ s.length →
      R.beside r s = R.leaves (r + (s.length - s'.length)) (stackPath s') ++ R.beside (r + (s.length - s'.length)) s' →
      R.pend r s = R.work (r + (s.length - s'.length)) (stackPath s') + R.pend (r + (s.length - s'.length)) s' →
      BumpPost R r s (true, s', u')

theorem bump_post {R : Reader} (s : List TrailFrame) : ∀ r u, StackOK R s → UsedOK u s → BumpPost R r s (bumpTrail s u) := by
  induction s with
  | nil => intro r u _ hu; exact .done u hu rfl
  | cons fr rest ih =>
    intro r u hs hu
    cases hs with
    | cons _ _ hs ha hn =>
      rw [bumpTrail]
      have hu' := usedOK_pop hu
      cases hg : fr.allowed[fr.cursor + 1]? with
      | some n =>
        simp only
        obtain ⟨hlt, hget⟩ := List.getElem?_eq_some_iff.mp hg
        have hdrop : fr.allowed.drop (fr.cursor + 1) = n :: fr.allowed.drop (fr.cursor + 1 + 1) := by
          rw [List.drop_eq_getElem_cons hlt, hget]
        refine .more _ _ (.cons _ _ hs ha hg) (usedOK_push hu' ⟨n, fr.cursor + 1, fr.allowed⟩) (by simp) (by simp) ?_ ?_
        · simp only [List.length_cons, Nat.sub_self, Nat.add_zero, Reader.beside, hdrop, List.flatMap_cons, stackPath, List.map_cons,
            List.append_assoc]
        · simp only [List.length_cons, Nat.sub_self, Nat.add_zero, Reader.pend, hdrop, stackPath, List.map_cons, List.sum_cons]
          omega
      | none =>
        simp only
        have hdrop : fr.allowed.drop (fr.cursor + 1) = [] := List.drop_eq_nil_of_le (List.getElem?_eq_none_iff.mp hg)
        have hb : R.beside r (fr :: rest) = R.beside (r + 1) rest := by simp [Reader.beside, hdrop]
        have hp : R.pend r (fr :: rest) = R.pend (r + 1) rest := by simp [Reader.pend, hdrop]
        have H := ih (r + 1) _ hs hu'
        generalize bumpTrail rest (useEdge (-1) rest fr.node u) = x at H
        cases H with
        | done u' h1 h2 => exact .done u' h1 (by rw [hb, h2])
        | more s' u' h1 h2 h3 h4 h5 h6 =>
          have e : r + ((fr :: rest).length - s'.length) = r + 1 + (rest.length - s'.length) := by
            simp only [List.length_cons]; omega
          exact .more s' u' h1 h2 h3 (by simp only [List.length_cons]; omega) (by rw [hb, h5, e]) (by rw [hp, h6, e])

/-- The outcome of `nextLeaf`. -/
inductive LeafPost (R : Reader) (st : TrailSt) : List Pts → Bool × TrailSt → Prop
  | done (u) : UsedOK u [] → LeafPost R st [] (false, { st with stack := [], used := u })
  | more (s u) (t) : StackOK R s → UsedOK u s → s.length = st.length → R.beside 0 s = t →
      LeafPost R st (stackPath s :: t) (true, { st with stack := s, used := u, had := true })

theorem nextLeaf_below {R : Reader} (k : Nat) : ∀ st : TrailSt, StackOK R st.stack → UsedOK st.used st.stack →
    st.stack.length < st.length →
    R.work (st.length - st.stack.length) (stackPath st.stack) + R.pend (st.length - st.stack.length) st.stack < k →
    (R.nextLeaf k st).Sat False False (LeafPost R st (R.leaves (st.length - st.stack.length) (stackPath st.stack) ++
      R.beside (st.length - st.stack.length) st.stack)) := by
  induction k with
  | zero => intro st _ _ _ hk; omega
  | succ k ih =>
    intro st hs hu hlt hk
    rw [Reader.nextLeaf]
    rw [if_neg (by omega), if_pos hlt]
    obtain ⟨r, hr⟩ : ∃ r, st.length - st.stack.length = r + 1 := ⟨st.length - st.stack.length - 1, by omega⟩
    rw [hr] at hk ⊢
    unfold Reader.pushFirst
    rw [allowedAt_eq hu]
    cases hst : R.steps (stackPath st.stack) with
    | cons n ns =>
      simp only
      have h1 : StackOK R (⟨n, 0, n :: ns⟩ :: st.stack) := .cons _ _ hs (by rw [hst]) rfl
      have h2 := usedOK_push hu ⟨n, 0, n :: ns⟩
      have e1 : R.leaves (r + 1) (stackPath st.stack) ++ R.beside (r + 1) st.stack =
          R.leaves r (stackPath (⟨n, 0, n :: ns⟩ :: st.stack)) ++ R.beside r (⟨n, 0, n :: ns⟩ :: st.stack) := by
        simp only [Reader.leaves, Reader.beside, hst, List.flatMap_cons, List.map_cons, List.drop_succ_cons, List.drop_zero,
          List.append_assoc]
      have e2 : R.work (r + 1) (stackPath st.stack) + R.pend (r + 1) st.stack =
          1 + (R.work r (stackPath (⟨n, 0, n :: ns⟩ :: st.stack)) + R.pend r (⟨n, 0, n :: ns⟩ :: st.stack)) := by
        simp only [Reader.work, Reader.pend, hst, stackPath, List.map_cons, List.drop_succ_cons, List.drop_zero, List.sum_cons]
        omega
      rw [e1]
      by_cases hl : (⟨n, 0, n :: ns⟩ :: st.stack : List TrailFrame).length = st.length
      · rw [if_pos hl]
        obtain rfl : r = 0 := by simp only [List.length_cons] at hl; omega
        exact .more (st := st) _ _ _ h1 h2 hl rfl
      · rw [if_neg hl]
        have hlt' : (⟨n, 0, n :: ns⟩ :: st.stack : List TrailFrame).length < st.length := by
          simp only [List.length_cons] at hl ⊢; omega
        have er : st.length - (⟨n, 0, n :: ns⟩ :: st.stack : List TrailFrame).length = r := by simp only [List.length_cons]; omega
        have := ih { st with stack := ⟨n, 0, n :: ns⟩ :: st.stack, used := useEdge 1 st.stack n st.used } h1 h2 hlt'
          (by simp only [er]; omega)
        simp only [er] at this
        refine this.mono fun x hx => ?_
        generalize R.leaves r (stackPath (⟨n, 0, n :: ns⟩ :: st.stack)) ++ R.beside r (⟨n, 0, n :: ns⟩ :: st.stack) = l at hx
        cases hx with
        | done u h => exact .done u h
        | more s u t h1 h2 h3 h4 => exact .more s u t h1 h2 h3 h4
    | nil =>
      simp only
      have e1 : R.leaves (r + 1) (stackPath st.stack) = [] := by simp [Reader.leaves, hst]
      have e2 : R.work (r + 1) (stackPath st.stack) = 1 := by simp [Reader.work, hst]
      rw [e1, List.nil_append]
      rw [e2] at hk
      have H := bump_post st.stack (r + 1) st.used hs hu
      generalize bumpTrail st.stack st.used = x at H
      cases H with
      | done u' h1 h2 => rw [h2]; exact .done u' h1
      | more s' u' h1 h2 h3 h4 h5 h6 =>
        simp only
        rw [h5]
        rw [h6] at hk
        have hl : s'.length ≠ st.length := by omega
        rw [if_neg hl]
        have er : st.length - s'.length = r + 1 + (st.stack.length - s'.length) := by omega
        have := ih { st with stack := s', used := u' } h1 h2 (by simp only; omega) (by simp only [er]; omega)
        simp only [er] at this
        refine this.mono fun x hx => ?_
        generalize R.leaves (r + 1 + (st.stack.length - s'.length)) (stackPath s') ++ R.beside (r + 1 + (st.stack.length - s'.length)) s' = l at hx
        cases hx with
        | done u h => exact .done u h
        | more s u t h1 h2 h3 h4 => exact .more s u t h1 h2 h3 h4

theorem nextLeaf_at {R : Reader} (k : Nat) (st : TrailSt) (hs : StackOK R st.stack) (hu : UsedOK st.used st.stack)
    (hl : st.stack.length = st.length) (hk : R.pend 0 st.stack + 1 < k) :
    (R.nextLeaf k st).Sat False False (LeafPost R st (R.beside 0 st.stack)) := by
  obtain ⟨k, rfl⟩ : ∃ j, k = j + 1 := ⟨k - 1, by omega⟩
  rw [Reader.nextLeaf, if_pos hl]
  have H := bump_post st.stack 0 st.used hs hu
  generalize bumpTrail st.stack st.used = x at H
  cases H with
  | done u' h1 h2 => simp only; rw [h2]; exact .done u' h1
  | more s' u' h1 h2 h3 h4 h5 h6 =>
    simp only
    rw [h5]
    rw [h6] at hk
    have er : st.length - s'.length = 0 + (st.stack.length - s'.length) := by omega
    by_cases hl' : s'.length = st.length
    · rw [if_pos hl']
      rw [← er, hl', Nat.sub_self]
      exact .more (st := st) _ _ _ h1 h2 hl' rfl
    · rw [if_neg hl']
      have := nextLeaf_below k { st with stack := s', used := u' } h1 h2 (by simp only; omega) (by simp only [er]; omega)
      simp only [er] at this
      refine this.mono fun x hx => ?_
      generalize R.leaves (0 + (st.stack.length - s'.length)) (stackPath s') ++ R.beside (0 + (st.stack.length - s'.length)) s' = l at hx
      cases hx with
      | done u h => exact .done u h
      | more s u t h1 h2 h3 h4 => exact .more s u t h1 h2 h3 h4

/-! ## Levels -/

theorem leaves_snoc {R : Reader} (r : Nat) : ∀ path, R.leaves (r + 1) path = (R.leaves r path).flatMap fun p => (R.steps p).map (· :: p) := by
  induction r with
  | zero => intro path; simp [Reader.leaves]; induction R.steps path <;> simp_all
  | succ r ih =>
    intro path
    rw [Reader.leaves]
    conv_rhs => rw [Reader.leaves]
    rw [List.flatMap_assoc]
    congr 1
    funext n
    exact ih _

/-- The paths of `l` nodes and more, below `M`. -/
def Reader.levels (R : Reader) (M l : Nat) : List Pts := (List.range' l (M - l)).flatMap fun i => R.leaves i []

theorem levels_cons {R : Reader} {M l : Nat} (h : l < M) : R.levels M l = R.leaves l [] ++ R.levels M (l + 1) := by
  unfold Reader.levels
  obtain ⟨d, hd⟩ : ∃ d, M - l = d + 1 := ⟨M - l - 1, by omega⟩
  rw [hd, List.range'_succ, List.flatMap_cons, show M - (l + 1) = d by omega]

theorem levels_nil {R : Reader} {M l : Nat} (h : R.leaves l [] = []) : R.levels M l = [] := by
  have hall : ∀ d, R.leaves (l + d) [] = [] := by
    intro d
    induction d with
    | zero => exact h
    | succ d ih => rw [← Nat.add_assoc, leaves_snoc, ih]; rfl
  unfold Reader.levels
  rw [List.flatMap_eq_nil_iff]
  intro i hi
  obtain ⟨h1, _⟩ := List.mem_range'_1.mp hi
  obtain ⟨d, rfl⟩ := Nat.exists_eq_add_of_le h1
  exact hall d

/-- A path that ends at an end point. -/
def Reader.atEnd (R : Reader) : Pts → Bool
  | [] => false
  | n :: _ => decide (n ∈ R.frag.outs)

/-- The position of the enumeration between two trails; `todo` are the paths still to come. -/
inductive TrailPos (R : Reader) (M : Nat) (st : TrailSt) : List Pts → Prop
  | start : st.length = 0 → TrailPos R M st (R.levels M 1)
  | fresh : 0 < st.length → st.stack = [] → UsedOK st.used [] → st.had = false → TrailPos R M st (R.levels M st.length)
  | path : 0 < st.length → st.length < M → StackOK R st.stack → UsedOK st.used st.stack → st.stack.length = st.length → st.had = true →
      TrailPos R M st (R.beside 0 st.stack ++ R.levels M (st.length + 1))

/-- The part of the state the enumeration leaves alone. -/
def SameVars (st st' : TrailSt) : Prop := st'.exhausted = st.exhausted ∧ st'.havePath = st.havePath ∧ st'.staged = st.staged

/-- The outcome of `advancePath`. -/
inductive AdvPost (R : Reader) (M : Nat) (st : TrailSt) : List Pts → Bool × TrailSt → Prop
  | done (st') : SameVars st st' → AdvPost R M st [] (false, st')
  | more (st' todo) : SameVars st st' → TrailPos R M st' todo → st'.stack ≠ [] → st'.length = st'.stack.length →
      AdvPost R M st (stackPath st'.stack :: todo.filter R.atEnd) (true, st')

theorem AdvPost.same {R : Reader} {M : Nat} {st st1 : TrailSt} (h : SameVars st st1) {l : List Pts} {x : Bool × TrailSt}
    (H : AdvPost R M st1 l x) : AdvPost R M st l x := by
  have htr : ∀ st2, SameVars st1 st2 → SameVars st st2 := fun st2 h2 => ⟨h2.1.trans h.1, h2.2.1.trans h.2.1, h2.2.2.trans h.2.2⟩
  cases H with
  | done st' h1 => exact .done st' (htr _ h1)
  | more st' todo h1 h2 h3 h4 => exact .more st' todo (htr _ h1) h2 h3 h4

/-- With enough rounds the outcome is always the same one. -/
def Settles {α : Type} (f : Nat → Run α) (Q : α → Prop) : Prop := ∃ x K, (∀ k, K ≤ k → f k = .ok x) ∧ Q x

theorem Settles.bnd {α β : Type} {f : Nat → Run α} {g : Nat → α → Run β} {Q : α → Prop} {Q' : β → Prop} (hf : Settles f Q)
    (hg : ∀ x, Q x → Settles (fun k => g k x) Q') : Settles (fun k => (f k).bnd (g k)) Q' := by
  obtain ⟨x, K, h1, h2⟩ := hf
  obtain ⟨y, K', h3, h4⟩ := hg x h2
  refine ⟨y, max K K', fun k hk => ?_, h4⟩
  simp only
  rw [h1 k (le_trans (le_max_left ..) hk)]
  exact h3 k (le_trans (le_max_right ..) hk)

theorem Settles.succ {α : Type} {f : Nat → Run α} {Q : α → Prop} (hf : Settles (fun k => f (k + 1)) Q) : Settles f Q := by
  obtain ⟨x, K, h1, h2⟩ := hf
  refine ⟨x, K + 1, fun k hk => ?_, h2⟩
  obtain ⟨j, rfl⟩ : ∃ j, k = j + 1 := ⟨k - 1, by omega⟩
  exact h1 j (by omega)

theorem Settles.mono {α : Type} {f : Nat → Run α} {Q Q' : α → Prop} (hf : Settles f Q) (h : ∀ x, Q x → Q' x) : Settles f Q' := by
  obtain ⟨x, K, h1, h2⟩ := hf
  exact ⟨x, K, h1, h x h2⟩

theorem Settles.ok {α : Type} {x : α} {Q : α → Prop} (h : Q x) : Settles (fun _ => .ok x) Q := ⟨x, 0, fun _ _ => rfl, h⟩

theorem Settles.congr {α : Type} {f g : Nat → Run α} {Q : α → Prop} (hf : Settles f Q) (h : ∀ k, g k = f k) : Settles g Q := by
  obtain ⟨x, K, h1, h2⟩ := hf
  exact ⟨x, K, fun k hk => (h k).trans (h1 k hk), h2⟩

theorem nextLeaf_mono {R : Reader} (k : Nat) : ∀ st x, R.nextLeaf k st = .ok x → R.nextLeaf (k + 1) st = .ok x := by
  induction k with
  | zero => intro st x h; cases h
  | succ k ih =>
    intro st x h
    rw [Reader.nextLeaf] at h ⊢
    have hgo : ∀ s u, (if s.length = st.length then Run.ok (true, { st with stack := s, used := u, had := true })
          else R.nextLeaf k { st with stack := s, used := u }) = .ok x →
        (if s.length = st.length then Run.ok (true, { st with stack := s, used := u, had := true })
          else R.nextLeaf (k + 1) { st with stack := s, used := u }) = .ok x := by
      intro s u hx
      by_cases hl : s.length = st.length
      · rw [if_pos hl] at hx ⊢; exact hx
      · rw [if_neg hl] at hx ⊢; exact ih _ _ hx
    have hback : ∀ y : Bool × List TrailFrame × EdgeCount, (match y with
        | (true, s, u) => (if s.length = st.length then Run.ok (true, { st with stack := s, used := u, had := true })
          else R.nextLeaf k { st with stack := s, used := u })
        | (false, s, u) => .ok (false, { st with stack := s, used := u })) = .ok x →
        (match y with
        | (true, s, u) => (if s.length = st.length then Run.ok (true, { st with stack := s, used := u, had := true })
          else R.nextLeaf (k + 1) { st with stack := s, used := u })
        | (false, s, u) => .ok (false, { st with stack := s, used := u })) = .ok x := by
      rintro ⟨b, s, u⟩ hy
      cases b with
      | true => exact hgo s u hy
      | false => exact hy
    by_cases h1 : st.stack.length = st.length
    · rw [if_pos h1] at h ⊢
      exact hback _ h
    · rw [if_neg h1] at h ⊢
      by_cases h2 : st.stack.length < st.length
      · rw [if_pos h2] at h ⊢
        cases hp : R.pushFirst st.stack st.used with
        | some p => rw [hp] at h; exact hgo p.1 p.2 h
        | none => rw [hp] at h; exact hback _ h
      · rw [if_neg h2] at h ⊢
        exact ih _ _ h

theorem nextLeaf_settles {R : Reader} {st : TrailSt} {Q : Bool × TrailSt → Prop} {k : Nat} (h : (R.nextLeaf k st).Sat False False Q) :
    Settles (fun k => R.nextLeaf k st) Q := by
  cases hx : R.nextLeaf k st with
  | panic => rw [hx] at h; exact h.elim
  | fuel => rw [hx] at h; exact h.elim
  | ok x =>
    rw [hx] at h
    refine ⟨x, k, fun j hj => ?_, h⟩
    obtain ⟨d, rfl⟩ := Nat.exists_eq_add_of_le hj
    clear hj
    induction d with
    | zero => exact hx
    | succ d ih => exact nextLeaf_mono _ _ _ ih

/-- One search at a level, the rest being known. -/
theorem advance_level {R : Reader} {M : Nat} (hM : ∀ m, M ≤ m → R.leaves m [] = []) (N : Nat)
    (ih : ∀ st todo, TrailPos R M st todo → 0 < st.length → todo.length + (M - st.length) < N →
      Settles (fun k => R.advancePath k st) (AdvPost R M st (todo.filter R.atEnd))) :
    ∀ st todo, TrailPos R M st todo → 0 < st.length → todo.length + (M - st.length) ≤ N →
      Settles (fun k => R.advancePath k st) (AdvPost R M st (todo.filter R.atEnd)) := by
  intro st todo hpos h0 hN
  -- one search
  have hstep : ∀ l : List Pts, Settles (fun k => R.nextLeaf k st) (LeafPost R st l) → (l ≠ [] → st.length < M) → 
      (l = [] → Settles (fun k => if st.had then R.advancePath k ((TrailSt.level { st with stack := [] } (st.length + 1))) else .ok (false, st))
        fun x => AdvPost R M st ((l ++ R.levels M (st.length + 1)).filter R.atEnd) x) →
      l.length + (R.levels M (st.length + 1)).length + (M - st.length) ≤ N →
      Settles (fun k => R.advancePath k st) (AdvPost R M st ((l ++ R.levels M (st.length + 1)).filter R.atEnd)) := by
    intro l hl hlM hnil hlen
    refine Settles.succ (Settles.congr (Settles.bnd (g := fun k r => if r.1 then
        match r.2.stack with
        | [] => .panic
        | fr :: _ => if fr.node ∈ R.frag.outs then .ok (true, r.2) else R.advancePath k r.2
      else if r.2.had then R.advancePath k (r.2.level (r.2.length + 1))
      else .ok (false, r.2)) hl fun x hx => ?_) fun k => ?_)
    · cases hx with
      | done u h =>
        have := hnil rfl
        cases hh : st.had with
        | true =>
          rw [hh] at this
          exact this.congr fun k => rfl
        | false =>
          rw [hh] at this
          obtain ⟨x, K, h1, h2⟩ := this
          have h1 := h1 K (le_refl _)
          simp only [Bool.false_eq_true, if_false, Run.ok.injEq] at h1
          subst h1
          generalize ([] ++ R.levels M (st.length + 1)).filter R.atEnd = l at h2 ⊢
          cases h2 with
          | done _ h3 =>
            refine (Settles.ok (x := (false, { st with stack := [], used := u })) (.done _ ⟨rfl, rfl, rfl⟩)).congr fun k => ?_
            simp [hh]
      | more s u t h1 h2 h3 h4 =>
        have hlt := hlM (by simp)
        have hp : TrailPos R M { st with stack := s, used := u, had := true } (t ++ R.levels M (st.length + 1)) := by
          rw [← h4]
          exact .path (st := { st with stack := s, used := u, had := true }) h0 hlt h1 h2 h3 rfl
        cases s with
        | nil => simp only [List.length_nil] at h3; omega
        | cons fr s =>
          rw [List.cons_append]
          by_cases hout : fr.node ∈ R.frag.outs
          · rw [List.filter_cons_of_pos (by simpa [Reader.atEnd, stackPath] using hout)]
            refine (Settles.ok (x := (true, { st with stack := fr :: s, used := u, had := true })) ?_).congr fun k => by simp [hout]
            exact .more { st with stack := fr :: s, used := u, had := true } _ ⟨rfl, rfl, rfl⟩ hp (by simp) h3.symm
          · rw [List.filter_cons_of_neg (by simpa [Reader.atEnd, stackPath] using hout)]
            refine ((ih _ _ hp h0 ?_).congr fun k => by simp [hout]).mono fun x hx => AdvPost.same (st := st) ?_ hx
            · simp only [List.length_append, List.length_cons] at hlen ⊢
              omega
            · exact ⟨rfl, rfl, rfl⟩
    · rw [Reader.advancePath]
      simp only [if_neg (Nat.pos_iff_ne_zero.mp h0)]
      rfl
  cases hpos with
  | start h => omega
  | fresh _ hst hu hhad =>
    have hleaf : Settles (fun k => R.nextLeaf k st) (LeafPost R st (R.leaves st.length [])) := by
      refine nextLeaf_settles (k := R.work st.length [] + 1) ?_
      have := nextLeaf_below (R := R) (R.work st.length [] + 1) st (by rw [hst]; exact .nil) (by rw [hst]; exact hu) (by rw [hst]; exact h0)
      simp only [hst, List.length_nil, Nat.sub_zero, stackPath, List.map_nil, Reader.pend, Reader.beside, List.append_nil] at this
      exact this (by omega)
    have hlM : R.leaves st.length [] ≠ [] → st.length < M := fun hne => by
      by_contra hge
      exact hne (hM _ (by omega))
    have hlv : R.levels M st.length = R.leaves st.length [] ++ R.levels M (st.length + 1) := by
      by_cases hlt : st.length < M
      · exact levels_cons hlt
      · have h1 : R.leaves st.length [] = [] := hM _ (by omega)
        rw [levels_nil h1, h1, levels_nil (hM _ (by omega))]
        rfl
    rw [hlv] at hN ⊢
    refine hstep _ hleaf hlM (fun hnil => ?_) (by rw [List.length_append] at hN; omega)
    rw [← hlv, levels_nil hnil]
    refine (Settles.ok (x := (false, st)) (.done _ ⟨rfl, rfl, rfl⟩)).congr fun k => by simp [hhad]
  | path _ hlM hs hu hl hhad =>
    have hleaf : Settles (fun k => R.nextLeaf k st) (LeafPost R st (R.beside 0 st.stack)) :=
      nextLeaf_settles (nextLeaf_at (R.pend 0 st.stack + 2) st hs hu hl (by omega))
    refine hstep _ hleaf (fun _ => hlM) (fun hnil => ?_) (by rw [List.length_append] at hN; omega)
    have hp : TrailPos R M (TrailSt.level { st with stack := [] } (st.length + 1)) (R.levels M (st.length + 1)) :=
      .fresh (st := TrailSt.level { st with stack := [] } (st.length + 1)) (Nat.succ_pos _) rfl (fun e => rfl) rfl
    rw [hnil, List.nil_append]
    refine ((ih _ _ hp (Nat.succ_pos _) ?_).congr fun k => by simp [hhad]).mono fun x hx => AdvPost.same (st := st) (st1 := TrailSt.level { st with stack := [] } (st.length + 1)) ⟨rfl, rfl, rfl⟩ hx
    rw [List.length_append] at hN
    show (R.levels M (st.length + 1)).length + (M - (st.length + 1)) < N
    omega

theorem advance_settles {R : Reader} {M : Nat} (hM : ∀ m, M ≤ m → R.leaves m [] = []) {st : TrailSt} {todo : List Pts}
    (hpos : TrailPos R M st todo) : Settles (fun k => R.advancePath k st) (AdvPost R M st (todo.filter R.atEnd)) := by
  have key : ∀ N st todo, TrailPos R M st todo → 0 < st.length → todo.length + (M - st.length) ≤ N →
      Settles (fun k => R.advancePath k st) (AdvPost R M st (todo.filter R.atEnd)) := by
    intro N
    induction N with
    | zero => exact advance_level hM 0 fun st todo _ _ h => absurd h (by omega)
    | succ N ih => exact advance_level hM (N + 1) fun st todo h1 h2 h3 => ih st todo h1 h2 (by omega)
  by_cases h0 : 0 < st.length
  · exact key _ st todo hpos h0 (le_refl _)
  · have h0 : st.length = 0 := by omega
    have hp : TrailPos R M (st.level 1) (R.levels M 1) :=
      .fresh (st := st.level 1) Nat.one_pos rfl (fun e => rfl) rfl
    have htodo : todo = R.levels M 1 := by
      cases hpos with
      | start _ => rfl
      | fresh h => omega
      | path h => omega
    subst htodo
    obtain ⟨x, K, h1, h2⟩ := key _ _ _ hp Nat.one_pos (le_refl _)
    refine ⟨x, K + 1, fun k hk => ?_, AdvPost.same (st := st) (st1 := st.level 1) ⟨rfl, rfl, rfl⟩ h2⟩
    rw [← h1 k (by omega)]
    obtain ⟨j, rfl⟩ : ∃ j, k = j + 1 := ⟨k - 1, by omega⟩
    simp only [Reader.advancePath, h0, if_true]
    rfl

end Verif
