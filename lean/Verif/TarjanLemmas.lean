import Mathlib.Logic.Relation
import Mathlib.Data.List.Nodup
import Verif.Tarjan

/-!
# The traversal finds the strongly connected components

The invariant of Tarjan's algorithm for states whose counter is already positive; there `index == 0` does mean
"not visited".  The first visited node gets index 0 and is handled separately in `PropsTarjan`.
-/

namespace Verif

/-- An edge of the graph: a dependency that has a node. -/
def Edge (dg : Depgraph) (x y : Str) : Prop := y ∈ dgDeps dg x ∧ (dg.lookup y).isSome

/-- Reachability. -/
abbrev DReach (dg : Depgraph) : Str → Str → Prop := Relation.ReflTransGen (Edge dg)

/-- Two nodes in the same strongly connected component. -/
def Mutual (dg : Depgraph) (x y : Str) : Prop := DReach dg x y ∧ DReach dg y x

/-- A list of nodes is a strongly connected component. -/
def IsSCC (dg : Depgraph) (s : List Str) : Prop := s.Nodup ∧ ∃ r ∈ s, ∀ x, x ∈ s ↔ Mutual dg r x

/-- The invariant: `live` is the used part of the stack above `base`, `gray` the active calls, `out` the components
emitted so far. -/
structure TInv (dg : Depgraph) (live base gray : List Str) (out : List (List Str)) (st : TSt) : Prop where
  stack : st.stack = live ++ base
  pos : 1 ≤ st.next
  lt : ∀ x, st.idx x < st.next
  nz : ∀ x ∈ live, st.idx x ≠ 0
  on : ∀ x, st.idx x ≠ 0 → (st.on x = true ↔ x ∈ live)
  sorted : live.Pairwise fun a b => st.idx b < st.idx a
  grayl : ∀ x ∈ gray, x ∈ live
  black : ∀ x y, st.idx x ≠ 0 → x ∉ gray → Edge dg x y → st.idx y ≠ 0
  emit : ∀ x y, st.idx x ≠ 0 → x ∉ live → Edge dg x y → y ∉ live
  up : ∀ x ∈ live, ∃ g ∈ gray, st.idx g ≤ st.idx x ∧ DReach dg x g
  down : ∀ g ∈ gray, ∀ x ∈ live, st.idx g ≤ st.idx x → DReach dg g x
  lowlt : ∀ x ∈ live, x ∉ gray → st.low x < st.idx x
  lowle : ∀ x, st.idx x ≠ 0 → st.low x ≤ st.idx x
  root : ∀ x, st.idx x ≠ 0 → x ∉ live → st.low x = st.idx x → ∀ y, Mutual dg x y → st.idx x ≤ st.idx y
  scc : ∀ s ∈ out, IsSCC dg s
  disj : out.Pairwise fun a b => ∀ x ∈ a, x ∉ b
  cover : ∀ x, (∃ s ∈ out, x ∈ s) ↔ st.idx x ≠ 0 ∧ x ∉ live

/-- What a call leaves of the state it started from. -/
structure TExt (st st' : TSt) : Prop where
  next : st.next ≤ st'.next
  keep : ∀ x, st.idx x ≠ 0 → st'.idx x = st.idx x
  low : ∀ x, st.idx x ≠ 0 → st'.low x = st.low x
  unv : ∀ x, st'.idx x = 0 → st'.low x = st.low x
  new : ∀ x, st.idx x = 0 → st'.idx x ≠ 0 → st.next ≤ st'.idx x

/-- Number of unvisited nodes. -/
def unvisited (dg : Depgraph) (st : TSt) : Nat := ((dg.map Prod.fst).filter fun k => st.idx k = 0).length

theorem unvisited_mono (dg : Depgraph) {st st' : TSt} (h : ∀ x, st.idx x ≠ 0 → st'.idx x ≠ 0) :
    unvisited dg st' ≤ unvisited dg st := by
  unfold unvisited
  induction dg.map Prod.fst with
  | nil => simp
  | cons a l ih =>
    simp only [List.filter_cons]
    by_cases h1 : st'.idx a = 0
    · have h2 : st.idx a = 0 := by
        by_contra h3
        exact h a h3 h1
      simp [h1, h2, ih]
    · by_cases h2 : st.idx a = 0
      · simp [h1, h2]; omega
      · simp [h1, h2, ih]

theorem unvisited_lt (dg : Depgraph) {st st' : TSt} (h : ∀ x, st.idx x ≠ 0 → st'.idx x ≠ 0) {v : Str}
    (hv : v ∈ dg.map Prod.fst) (h0 : st.idx v = 0) (h1 : st'.idx v ≠ 0) : unvisited dg st' < unvisited dg st := by
  unfold unvisited
  generalize dg.map Prod.fst = l at hv
  induction l with
  | nil => cases hv
  | cons a l ih =>
    have hm : ((l.filter fun k => st'.idx k = 0)).length ≤ ((l.filter fun k => st.idx k = 0)).length := by
      clear ih hv
      induction l with
      | nil => simp
      | cons b l ih =>
        simp only [List.filter_cons]
        by_cases h3 : st'.idx b = 0
        · have h2 : st.idx b = 0 := by
            by_contra h4
            exact h b h4 h3
          simp [h3, h2, ih]
        · by_cases h2 : st.idx b = 0
          · simp [h3, h2]; omega
          · simp [h3, h2, ih]
    simp only [List.filter_cons]
    rcases List.mem_cons.mp hv with rfl | hv
    · simp [h0, h1]; omega
    · by_cases h3 : st'.idx a = 0
      · have h2 : st.idx a = 0 := by
          by_contra h4
          exact h a h4 h3
        simp [h3, h2]; exact ih hv
      · by_cases h2 : st.idx a = 0
        · simp [h3, h2]; omega
        · simp [h3, h2]; exact ih hv

theorem lookup_key {dg : Depgraph} {v : Str} (h : (dg.lookup v).isSome) : v ∈ dg.map Prod.fst := by
  induction dg with
  | nil => simp at h
  | cons p l ih =>
    obtain ⟨a, b⟩ := p
    simp only [List.lookup_cons] at h
    by_cases hva : v = a
    · simp [hva]
    · rw [beq_eq_false_iff_ne.mpr hva] at h
      simp only [List.map_cons, List.mem_cons]
      exact Or.inr (ih h)

theorem key_lookup {dg : Depgraph} {v : Str} (h : v ∈ dg.map Prod.fst) : (dg.lookup v).isSome := by
  induction dg with
  | nil => simp at h
  | cons p l ih =>
    obtain ⟨a, b⟩ := p
    simp only [List.lookup_cons]
    by_cases hva : v = a
    · simp [hva]
    · rw [beq_eq_false_iff_ne.mpr hva]
      simp only [List.map_cons, List.mem_cons] at h
      exact ih (h.resolve_left hva)

theorem popUntil_spec {v : Str} {new rest : List Str} (h : v ∉ new) :
    popUntil v (new ++ v :: rest) = some (rest, new ++ [v]) := by
  induction new with
  | nil => simp [popUntil]
  | cons a l ih =>
    simp only [List.mem_cons, not_or] at h
    simp only [List.cons_append, popUntil, if_neg (Ne.symm h.1), ih h.2, Option.map_some]

/-- A set closed under edges is closed under reachability. -/
theorem reach_closed {dg : Depgraph} {P : Str → Prop} (h : ∀ x y, P x → Edge dg x y → P y) {x y : Str}
    (hr : DReach dg x y) (hx : P x) : P y := by
  induction hr with
  | refl => exact hx
  | tail _ he ih => exact h _ _ ih he

theorem TExt.refl (st : TSt) : TExt st st :=
  ⟨le_refl _, fun _ _ => rfl, fun _ _ => rfl, fun _ _ => rfl, fun _ h h' => absurd h h'⟩

theorem TExt.nz {st st' : TSt} (h : TExt st st') : ∀ x, st.idx x ≠ 0 → st'.idx x ≠ 0 := by
  intro x hx
  rw [h.keep x hx]; exact hx

theorem TExt.trans {a b c : TSt} (h1 : TExt a b) (h2 : TExt b c) : TExt a c where
  next := le_trans h1.next h2.next
  keep x hx := by rw [h2.keep x (h1.nz x hx), h1.keep x hx]
  low x hx := by rw [h2.low x (h1.nz x hx), h1.low x hx]
  unv x hx := by
    have hb : b.idx x = 0 := by
      by_contra hb
      exact h2.nz x hb hx
    rw [h2.unv x hx, h1.unv x hb]
  new x hx hx' := by
    by_cases hb : b.idx x = 0
    · exact le_trans h1.next (h2.new x hb hx')
    · rw [h2.keep x hb]; exact h1.new x hx hb

/-- What a call of `strongconnect` on an unvisited `v` achieves. -/
def ScPost (dg : Depgraph) (live base gray : List Str) (out : List (List Str)) (v : Str) (st st' : TSt) : Prop :=
  ∃ new out', TInv dg (new ++ live) base gray (out ++ out') st' ∧ TExt st st' ∧ st'.sccs = st.sccs ++ out' ∧
    st'.idx v = st.next ∧ (∀ x, st.idx x = 0 → st'.idx x ≠ 0 → DReach dg v x ∧ (x ≠ v → st.next < st'.idx x)) ∧
    (∀ x ∈ new, ∀ y ∈ live, Edge dg x y → st'.low v ≤ st'.idx y) ∧
    ((new = [] ∧ st'.low v = st'.idx v) ∨ (v ∈ new ∧ ∃ y ∈ live, DReach dg v y ∧ st'.idx y = st'.low v))

/-- The specification of a recursive call with a given amount of fuel. -/
def ScSpec (dg : Depgraph) (n : Nat) : Prop :=
  ∀ (v : Str) (st : TSt) (live base gray : List Str) (out : List (List Str)), TInv dg live base gray out st →
    st.idx v = 0 → (dg.lookup v).isSome → (∀ g ∈ gray, DReach dg g v) → unvisited dg st ≤ n →
    ∃ st', strongconnect dg n v st = .ok st' ∧ ScPost dg live base gray out v st st'

/-- The state of the loop over the successors of `v`, started in `s0`, with the successors `done` behind it. -/
structure TLoop (dg : Depgraph) (live0 base gray0 : List Str) (out0 : List (List Str)) (v : Str) (s0 : TSt)
    (done : List Str) (new : List Str) (out' : List (List Str)) (st : TSt) : Prop where
  inv : TInv dg (new ++ v :: live0) base (v :: gray0) (out0 ++ out') st
  next : s0.next ≤ st.next
  keep : ∀ x, s0.idx x ≠ 0 → st.idx x = s0.idx x
  low : ∀ x, s0.idx x ≠ 0 → x ≠ v → st.low x = s0.low x
  unv : ∀ x, st.idx x = 0 → st.low x = s0.low x
  newi : ∀ x, s0.idx x = 0 → st.idx x ≠ 0 → s0.next ≤ st.idx x
  rch : ∀ x, s0.idx x = 0 → st.idx x ≠ 0 → DReach dg v x
  sccs : st.sccs = s0.sccs ++ out'
  cross : ∀ x ∈ new, ∀ y ∈ live0, Edge dg x y → st.low v ≤ st.idx y
  dn : ∀ y ∈ done, (dg.lookup y).isSome → st.idx y ≠ 0 ∧ (y ∈ live0 → st.low v ≤ st.idx y)
  lowv : st.low v = st.idx v ∨ ∃ y ∈ live0, DReach dg v y ∧ st.idx y = st.low v

theorem TInv.nodup {dg : Depgraph} {live base gray : List Str} {out : List (List Str)} {st : TSt}
    (h : TInv dg live base gray out st) : live.Nodup :=
  h.sorted.imp fun hab e => by subst e; exact lt_irrefl _ hab

/-- Changing the lowlink of a gray node keeps the invariant. -/
theorem TInv.setLow {dg : Depgraph} {live base gray : List Str} {out : List (List Str)} {st : TSt}
    (h : TInv dg live base gray out st) {v : Str} (hv : v ∈ gray) (l : Nat) (hl : l ≤ st.idx v) :
    TInv dg live base gray out { st with low := upd st.low v l } where
  stack := h.stack
  pos := h.pos
  lt := h.lt
  nz := h.nz
  on := h.on
  sorted := h.sorted
  grayl := h.grayl
  black := h.black
  emit := h.emit
  up := h.up
  down := h.down
  lowlt x hx hg := by
    have : x ≠ v := fun e => hg (e ▸ hv)
    simpa [upd, this] using h.lowlt x hx hg
  lowle x hx := by
    by_cases e : x = v
    · simpa [upd, e] using hl
    · simpa [upd, e] using h.lowle x hx
  root x hx hl := by
    have : x ≠ v := fun e => hl (e ▸ h.grayl v hv)
    simpa [upd, this] using h.root x hx hl
  scc := h.scc
  disj := h.disj
  cover := h.cover

theorem scDeps_spec (dg : Depgraph) (n : Nat) (hrec : ScSpec dg n) (live0 base gray0 : List Str)
    (out0 : List (List Str)) (v : Str) (s0 : TSt) (hn : unvisited dg s0 ≤ n) (hv0 : s0.idx v ≠ 0)
    (hg0 : ∀ g ∈ gray0, DReach dg g v) (hvk : s0.idx v < s0.next) :
    ∀ (ds done new : List Str) (out' : List (List Str)) (st : TSt), dgDeps dg v = done ++ ds →
      TLoop dg live0 base gray0 out0 v s0 done new out' st →
      ∃ st' new' out'', scDeps dg (strongconnect dg n) v ds st = .ok st' ∧
        TLoop dg live0 base gray0 out0 v s0 (dgDeps dg v) new' out'' st' := by
  intro ds
  induction ds with
  | nil =>
    intro done new out' st hd h
    rw [hd, List.append_nil]
    exact ⟨st, new, out', rfl, h⟩
  | cons d ds ih =>
    intro done new out' st hd h
    have hd' : dgDeps dg v = (done ++ [d]) ++ ds := by rw [hd]; simp
    simp only [scDeps]
    have hvl : v ∈ new ++ v :: live0 := by simp
    have hvz := h.inv.nz v hvl
    cases hl : dg.lookup d with
    | none =>
      refine ih (done ++ [d]) new out' st hd' { h with dn := ?_ }
      intro y hy hs
      rcases List.mem_append.mp hy with hy | hy
      · exact h.dn y hy hs
      · rw [List.mem_singleton.mp hy, hl] at hs; cases hs
    | some nd =>
      have he : Edge dg v d := ⟨by rw [hd]; simp, by rw [hl]; rfl⟩
      by_cases hz : st.idx d = 0
      · simp only [if_pos hz]
        have hun : unvisited dg st ≤ n := le_trans (unvisited_mono dg (fun x hx => by rw [h.keep x hx]; exact hx)) hn
        obtain ⟨st1, e1, new1, out1, hi1, hx1, hs1, hid, hrc, hcr, hlow⟩ :=
          hrec d st (new ++ v :: live0) base (v :: gray0) (out0 ++ out') h.inv hz (by rw [hl]; rfl)
            (by
              intro g hg
              rcases List.mem_cons.mp hg with rfl | hg
              · exact Relation.ReflTransGen.single he
              · exact (hg0 g hg).trans (Relation.ReflTransGen.single he)) hun
        rw [e1]
        simp only []
        have hvz1 : st1.idx v = st.idx v := hx1.keep v hvz
        have hlv : st1.low v = st.low v := hx1.low v hvz
        have hlive0 : ∀ y ∈ live0, st1.idx y = st.idx y := fun y hy => hx1.keep y (h.inv.nz y (by simp [hy]))
        have hdl : d ∉ live0 := fun hm => h.inv.nz d (by simp [hm]) hz
        -- every live0 node is below v
        have hlt0 : ∀ y ∈ live0, st.idx y < st.idx v := by
          have := (List.pairwise_append.mp h.inv.sorted).2.1
          exact (List.pairwise_cons.mp this).1
        refine ih (done ++ [d]) (new1 ++ new) (out' ++ out1) _ hd'
          { inv := ?_, next := le_trans h.next hx1.next, keep := ?_, low := ?_, unv := ?_, newi := ?_, rch := ?_, sccs := ?_,
            cross := ?_, dn := ?_, lowv := ?_ }
        · have := hi1.setLow (v := v) (by simp) (min (st1.low v) (st1.low d))
            (le_trans (min_le_left _ _) (hi1.lowle v (by rw [hvz1]; exact hvz)))
          simpa [List.append_assoc] using this
        · intro x hx
          show st1.idx x = _
          have h1 : st.idx x ≠ 0 := by rw [h.keep x hx]; exact hx
          rw [hx1.keep x h1, h.keep x hx]
        · intro x hx hxv
          have h1 : st.idx x ≠ 0 := by rw [h.keep x hx]; exact hx
          simp only [upd, if_neg hxv]
          rw [hx1.low x h1, h.low x hx hxv]
        · intro x hx
          have hxv : x ≠ v := by
            rintro rfl
            exact hvz (hvz1 ▸ hx)
          have h1 : st.idx x = 0 := by
            by_contra h2
            exact hx1.nz x h2 hx
          simp only [upd, if_neg hxv]
          rw [hx1.unv x hx, h.unv x h1]
        · intro x hx hx'
          show _ ≤ st1.idx x
          by_cases h1 : st.idx x = 0
          · exact le_trans h.next (hx1.new x h1 hx')
          · rw [hx1.keep x h1]; exact h.newi x hx h1
        · intro x hx hx'
          by_cases h1 : st.idx x = 0
          · exact (Relation.ReflTransGen.single he).trans (hrc x h1 hx').1
          · exact h.rch x hx h1
        · show st1.sccs = _
          rw [hs1, h.sccs, List.append_assoc]
        · intro x hx y hy hxy
          simp only [upd, if_true]
          show _ ≤ st1.idx y
          rcases List.mem_append.mp hx with hx | hx
          · exact le_trans (min_le_right _ _) (hcr x hx y (by simp [hy]) hxy)
          · refine le_trans (min_le_left _ _) ?_
            rw [hlv, hlive0 y hy]
            exact h.cross x hx y hy hxy
        · intro y hy hs
          rcases List.mem_append.mp hy with hy | hy
          · obtain ⟨h1, h2⟩ := h.dn y hy hs
            refine ⟨hx1.nz y h1, fun hm => ?_⟩
            simp only [upd, if_true]
            refine le_trans (min_le_left _ _) ?_
            rw [hlv, hlive0 y hm]
            exact h2 hm
          · rw [List.mem_singleton.mp hy]
            refine ⟨?_, fun hm => absurd hm hdl⟩
            show st1.idx d ≠ 0
            rw [hid]
            have := h.inv.pos
            omega
        · simp only [upd, if_true]
          show _ = st1.idx v ∨ ∃ y ∈ live0, DReach dg v y ∧ st1.idx y = _
          have hvn : st.idx v < st.next := h.inv.lt v
          have hlvle : st.low v ≤ st.idx v := by
            rcases h.lowv with e | ⟨y, hy, _, e⟩
            · omega
            · have := hlt0 y hy; omega
          rcases hlow with ⟨_, hlow⟩ | ⟨_, y, hy, hr, hlow⟩
          · have hmin : min (st1.low v) (st1.low d) = st1.low v := by
              rw [hlow, hid, hlv]
              omega
            rw [hmin, hlv, hvz1]
            rcases h.lowv with e | ⟨y, hy, hr, e⟩
            · exact Or.inl e
            · exact Or.inr ⟨y, hy, hr, by rw [hlive0 y hy, e]⟩
          · have hyz := h.inv.nz y hy
            have hy1 : st1.idx y = st.idx y := hx1.keep y hyz
            by_cases hc : st1.low d < st1.low v
            · rw [min_eq_right (le_of_lt hc)]
              right
              have hylt : st.idx y < st.idx v := by omega
              refine ⟨y, ?_, (Relation.ReflTransGen.single he).trans hr, hlow⟩
              rcases List.mem_append.mp hy with hy | hy
              · have := (List.pairwise_append.mp h.inv.sorted).2.2 y hy v (by simp)
                omega
              · rcases List.mem_cons.mp hy with rfl | hy
                · omega
                · exact hy
            · rw [min_eq_left (not_lt.mp hc), hlv, hvz1]
              rcases h.lowv with e | ⟨y, hy, hr, e⟩
              · exact Or.inl e
              · exact Or.inr ⟨y, hy, hr, by rw [hlive0 y hy, e]⟩
      · simp only [if_neg hz]
        by_cases ho : st.on d = true
        · simp only [ho, if_true]
          have hdm : d ∈ new ++ v :: live0 := (h.inv.on d hz).mp ho
          have hlt0 : ∀ y ∈ live0, st.idx y < st.idx v := by
            have := (List.pairwise_append.mp h.inv.sorted).2.1
            exact (List.pairwise_cons.mp this).1
          have hlvle : st.low v ≤ st.idx v := by
            rcases h.lowv with e | ⟨y, hy, _, e⟩
            · omega
            · have := hlt0 y hy; omega
          refine ih (done ++ [d]) new out' _ hd'
            { inv := h.inv.setLow (by simp) _ (le_trans (min_le_left _ _) (h.inv.lowle v hvz)), next := h.next,
              keep := h.keep, low := ?_, unv := ?_, newi := h.newi, rch := h.rch,
              sccs := h.sccs, cross := ?_, dn := ?_, lowv := ?_ }
          · intro x hx hxv
            simp only [upd, if_neg hxv]
            exact h.low x hx hxv
          · intro x hx
            have hxv : x ≠ v := by
              rintro rfl
              exact hvz hx
            simp only [upd, if_neg hxv]
            exact h.unv x hx
          · intro x hx y hy hxy
            simp only [upd, if_true]
            exact le_trans (min_le_left _ _) (h.cross x hx y hy hxy)
          · intro y hy hs
            simp only [upd, if_true]
            rcases List.mem_append.mp hy with hy | hy
            · exact ⟨(h.dn y hy hs).1, fun hm => le_trans (min_le_left _ _) ((h.dn y hy hs).2 hm)⟩
            · rw [List.mem_singleton.mp hy]
              exact ⟨hz, fun _ => min_le_right _ _⟩
          · simp only [upd, if_true]
            by_cases hc : st.idx d < st.low v
            · rw [min_eq_right (le_of_lt hc)]
              right
              refine ⟨d, ?_, Relation.ReflTransGen.single he, rfl⟩
              rcases List.mem_append.mp hdm with hm | hm
              · have := (List.pairwise_append.mp h.inv.sorted).2.2 d hm v (by simp)
                omega
              · rcases List.mem_cons.mp hm with rfl | hm
                · omega
                · exact hm
            · rw [min_eq_left (not_lt.mp hc)]
              exact h.lowv
        · simp only [Bool.not_eq_true] at ho
          simp only [ho, Bool.false_eq_true, if_false]
          refine ih (done ++ [d]) new out' st hd' { h with dn := ?_ }
          intro y hy hs
          rcases List.mem_append.mp hy with hy | hy
          · exact h.dn y hy hs
          · rw [List.mem_singleton.mp hy]
            refine ⟨hz, fun hm => ?_⟩
            have := (h.inv.on d hz).mpr (by simp [hm])
            rw [ho] at this; cases this

/-- The state right after `v` is pushed. -/
def pushSt (st : TSt) (v : Str) : TSt :=
  { st with next := st.next + 1, idx := upd st.idx v st.next, low := upd st.low v st.next, stack := v :: st.stack,
            on := upd st.on v true }

theorem push_loop {dg : Depgraph} {v : Str} {st : TSt} {live base gray : List Str} {out : List (List Str)}
    (h : TInv dg live base gray out st) (hz : st.idx v = 0) (hg : ∀ g ∈ gray, DReach dg g v) :
    TLoop dg live base gray out v (pushSt st v) [] [] [] (pushSt st v) := by
  have hvl : v ∉ live := fun hm => h.nz v hm hz
  have hne : ∀ x, st.idx x ≠ 0 → x ≠ v := fun x hx e => hx (e ▸ hz)
  have hpos := h.pos
  have hiv : (pushSt st v).idx v = st.next := by simp [pushSt, upd]
  have hio : ∀ x, x ≠ v → (pushSt st v).idx x = st.idx x := fun x hx => by simp [pushSt, upd, hx]
  have hlo : ∀ x, x ≠ v → (pushSt st v).low x = st.low x := fun x hx => by simp [pushSt, upd, hx]
  have hlne : ∀ x ∈ live, x ≠ v := fun x hx e => hvl (e ▸ hx)
  have hgne : ∀ x ∈ gray, x ≠ v := fun x hx => hlne x (h.grayl x hx)
  refine { inv := ?_, next := le_refl _, keep := fun _ _ => rfl, low := fun _ _ _ => rfl, unv := fun _ _ => rfl,
           newi := fun x hx hx' => absurd hx hx', rch := fun x hx hx' => absurd hx hx', sccs := by simp, cross := by simp, dn := by simp, lowv := ?_ }
  · refine { stack := ?_, pos := ?_, lt := ?_, nz := ?_, on := ?_, sorted := ?_, grayl := ?_, black := ?_, emit := ?_,
             up := ?_, down := ?_, lowlt := ?_, lowle := ?_, root := ?_, scc := by simpa using h.scc, disj := by simpa using h.disj,
             cover := ?_ }
    · simp [pushSt, h.stack]
    · show 1 ≤ st.next + 1; omega
    · intro x
      show _ < st.next + 1
      by_cases hx : x = v
      · rw [hx, hiv]; omega
      · rw [hio x hx]; have := h.lt x; omega
    · intro x hx
      rcases List.mem_cons.mp hx with rfl | hx
      · rw [hiv]; omega
      · rw [hio x (hlne x hx)]; exact h.nz x hx
    · intro x hx
      by_cases hxv : x = v
      · subst hxv; simp [pushSt, upd]
      · rw [hio x hxv] at hx
        simp only [pushSt, upd, List.nil_append, List.mem_cons, hxv, false_or]
        exact h.on x hx
    · refine List.pairwise_cons.mpr ⟨fun y hy => ?_, ?_⟩
      · rw [hiv, hio y (hlne y hy)]; exact h.lt y
      · refine List.Pairwise.imp_of_mem (fun {a b} ha hb hab => ?_) h.sorted
        rw [hio a (hlne a ha), hio b (hlne b hb)]; exact hab
    · intro x hx
      rcases List.mem_cons.mp hx with rfl | hx
      · simp
      · simp [h.grayl x hx]
    · intro x y hx hxg he
      simp only [List.mem_cons, not_or] at hxg
      rw [hio x hxg.1] at hx
      have := h.black x y hx hxg.2 he
      rw [hio y (hne y this)]; exact this
    · intro x y hx hxl he
      simp only [List.nil_append, List.mem_cons, not_or] at hxl ⊢
      rw [hio x hxl.1] at hx
      have hxg : x ∉ gray := fun hm => hxl.2 (h.grayl x hm)
      exact ⟨hne y (h.black x y hx hxg he), h.emit x y hx hxl.2 he⟩
    · intro x hx
      rcases List.mem_cons.mp hx with rfl | hx
      · exact ⟨x, by simp, le_refl _, Relation.ReflTransGen.refl⟩
      · obtain ⟨g, hg1, hg2, hg3⟩ := h.up x hx
        refine ⟨g, by simp [hg1], ?_, hg3⟩
        rw [hio g (hgne g hg1), hio x (hlne x hx)]; exact hg2
    · intro g hgm x hx hle
      rcases List.mem_cons.mp hgm with rfl | hgm1
      · rcases List.mem_cons.mp hx with rfl | hx
        · exact Relation.ReflTransGen.refl
        · rw [hiv, hio x (hlne x hx)] at hle
          have := h.lt x; omega
      · rcases List.mem_cons.mp hx with rfl | hx
        · exact hg g hgm1
        · rw [hio g (hgne g hgm1), hio x (hlne x hx)] at hle
          exact h.down g hgm1 x hx hle
    · intro x hx hxg
      simp only [List.mem_cons, not_or] at hxg
      simp only [List.nil_append, List.mem_cons, hxg.1, false_or] at hx
      rw [hio x hxg.1, hlo x hxg.1]
      exact h.lowlt x hx hxg.2
    · intro x hx
      by_cases hxv : x = v
      · subst hxv; simp [pushSt, upd]
      · rw [hio x hxv] at hx
        rw [hio x hxv, hlo x hxv]; exact h.lowle x hx
    · intro x hx hxl hlow y hm
      simp only [List.nil_append, List.mem_cons, not_or] at hxl
      rw [hio x hxl.1] at hx hlow ⊢
      rw [hlo x hxl.1] at hlow
      by_cases hyv : y = v
      · rw [hyv, hiv]; exact le_of_lt (h.lt x)
      · rw [hio y hyv]; exact h.root x hx hxl.2 hlow y hm
    · intro x
      simp only [List.append_nil, List.nil_append, List.mem_cons, not_or]
      rw [h.cover x]
      by_cases hxv : x = v
      · subst hxv
        simp [hz]
      · rw [hio x hxv]; simp [hxv]
  · left
    simp [pushSt, upd]

theorem strongconnect_spec (dg : Depgraph) : ∀ n, ScSpec dg n := by
  intro n
  induction n with
  | zero =>
    intro v st live base gray out h hz hk hg hn
    have hv := lookup_key hk
    have : v ∈ (dg.map Prod.fst).filter fun k => st.idx k = 0 := List.mem_filter.mpr ⟨hv, by simpa using hz⟩
    have := List.length_pos_of_mem this
    unfold unvisited at hn
    omega
  | succ n ih =>
    intro v st live base gray out h hz hk hg hn
    have hpos := h.pos
    have hiv : (pushSt st v).idx v = st.next := by simp [pushSt, upd]
    have hio : ∀ x, x ≠ v → (pushSt st v).idx x = st.idx x := fun x hx => by simp [pushSt, upd, hx]
    have hlo : ∀ x, x ≠ v → (pushSt st v).low x = st.low x := fun x hx => by simp [pushSt, upd, hx]
    have hne : ∀ x, st.idx x ≠ 0 → x ≠ v := fun x hx e => hx (e ▸ hz)
    have hvl0 : v ∉ live := fun hm => h.nz v hm hz
    have hpv : (pushSt st v).idx v ≠ 0 := by rw [hiv]; omega
    have hun : unvisited dg (pushSt st v) ≤ n := by
      have := unvisited_lt dg (st := st) (st' := pushSt st v)
        (fun x hx => by rw [hio x (hne x hx)]; exact hx) (lookup_key hk) hz hpv
      omega
    obtain ⟨st2, new, out', e, hl⟩ := scDeps_spec dg n ih live base gray out v (pushSt st v) hun hpv hg
      (by rw [hiv]; show _ < st.next + 1; omega) (dgDeps dg v) [] [] [] (pushSt st v) rfl (push_loop h hz hg)
    have hstep : strongconnect dg (n + 1) v st =
        match scDeps dg (strongconnect dg n) v (dgDeps dg v) (pushSt st v) with
        | .panic => .panic
        | .fuel => .fuel
        | .ok st =>
          if st.low v = st.idx v then
            match popUntil v st.stack with
            | none => .panic
            | some (s, scc) =>
              .ok { st with stack := s, on := fun x => if x ∈ scc then false else st.on x, sccs := st.sccs ++ [scc] }
          else .ok st := rfl
    rw [hstep, e]
    simp only []
    have hi := hl.inv
    have hnd := hi.nodup
    have hvnew : v ∉ new := by
      intro hm
      have := (List.pairwise_append.mp hi.sorted).2.2 v hm v (by simp)
      exact lt_irrefl _ this
    have hlt0 : ∀ y ∈ live, st2.idx y < st2.idx v :=
      (List.pairwise_cons.mp (List.pairwise_append.mp hi.sorted).2.1).1
    have hnewgt : ∀ x ∈ new, st2.idx v < st2.idx x := fun x hx =>
      (List.pairwise_append.mp hi.sorted).2.2 x hx v (by simp)
    have hnewlive : ∀ x ∈ new, x ∉ live := by
      intro x hx hm
      have h1 := hnewgt x hx
      have h2 := hlt0 x hm
      omega
    have hiv2 : st2.idx v = st.next := by rw [hl.keep v hpv, hiv]
    have hvz2 : st2.idx v ≠ 0 := by rw [hiv2]; omega
    have hkeep : ∀ x, st.idx x ≠ 0 → st2.idx x = st.idx x := by
      intro x hx
      rw [hl.keep x (by rw [hio x (hne x hx)]; exact hx), hio x (hne x hx)]
    have hext : TExt st st2 := by
      refine ⟨?_, hkeep, ?_, ?_, ?_⟩
      · have := hl.next
        have h2 : (pushSt st v).next = st.next + 1 := rfl
        omega
      · intro x hx
        rw [hl.low x (by rw [hio x (hne x hx)]; exact hx) (hne x hx), hlo x (hne x hx)]
      · intro x hx
        have hxv : x ≠ v := by
          rintro rfl
          exact hvz2 hx
        rw [hl.unv x hx, hlo x hxv]
      · intro x hx hx'
        by_cases hxv : x = v
        · rw [hxv, hiv2]
        · have := hl.newi x (by rw [hio x hxv]; exact hx) hx'
          have h2 : (pushSt st v).next = st.next + 1 := rfl
          omega
    have hsc : st2.sccs = st.sccs ++ out' := hl.sccs
    have hrch : ∀ x, st.idx x = 0 → st2.idx x ≠ 0 → DReach dg v x ∧ (x ≠ v → st.next < st2.idx x) := by
      intro x hx hx'
      by_cases hxv : x = v
      · exact ⟨by rw [hxv], fun e => absurd hxv e⟩
      · exact ⟨hl.rch x (by rw [hio x hxv]; exact hx) hx', fun _ => hl.newi x (by rw [hio x hxv]; exact hx) hx'⟩
    have hdeps : ∀ y, Edge dg v y → st2.idx y ≠ 0 ∧ (y ∈ live → st2.low v ≤ st2.idx y) :=
      fun y hy => hl.dn y hy.1 hy.2
    have hgsub : ∀ g ∈ gray, g ∈ live := h.grayl
    by_cases hroot : st2.low v = st2.idx v
    · -- v is a root
      rw [if_pos hroot, hi.stack, List.append_assoc, List.cons_append, popUntil_spec hvnew]
      simp only []
      -- no edges from the component to what lies below
      have hnoedge : ∀ x ∈ new ++ [v], ∀ y, Edge dg x y → y ∉ live := by
        intro x hx y he hy
        have h1 := hlt0 y hy
        rcases List.mem_append.mp hx with hx | hx
        · have := hl.cross x hx y hy he
          omega
        · rw [List.mem_singleton.mp hx] at he
          have := (hdeps y he).2 hy
          omega
      have hvis : ∀ x ∈ new ++ [v], ∀ y, Edge dg x y → st2.idx y ≠ 0 := by
        intro x hx y he
        rcases List.mem_append.mp hx with hx1 | hx
        · refine hi.black x y (hi.nz x (by simp [hx1])) ?_ he
          intro hm
          rcases List.mem_cons.mp hm with rfl | hm
          · exact hvnew hx1
          · exact hnewlive x hx1 (hgsub x hm)
        · rw [List.mem_singleton.mp hx] at he
          exact (hdeps y he).1
      -- visited and not below: closed
      have hclosed : ∀ x y, (st2.idx x ≠ 0 ∧ x ∉ live) → Edge dg x y → (st2.idx y ≠ 0 ∧ y ∉ live) := by
        rintro x y ⟨hx, hxl⟩ he
        by_cases hxn : x ∈ new ++ [v]
        · exact ⟨hvis x hxn y he, hnoedge x hxn y he⟩
        · have hxl' : x ∉ new ++ v :: live := by
            intro hm
            rcases List.mem_append.mp hm with hm | hm
            · exact hxn (by simp [hm])
            · rcases List.mem_cons.mp hm with rfl | hm
              · exact hxn (by simp)
              · exact hxl hm
          have hxg : x ∉ v :: gray := fun hm => hxl' (hi.grayl x hm)
          refine ⟨hi.black x y hx hxg he, fun hm => hi.emit x y hx hxl' he (by simp [hm])⟩
      have hemitcl : ∀ x y, (st2.idx x ≠ 0 ∧ x ∉ new ++ v :: live) → Edge dg x y →
          (st2.idx y ≠ 0 ∧ y ∉ new ++ v :: live) := by
        rintro x y ⟨hx, hxl⟩ he
        exact ⟨hi.black x y hx (fun hm => hxl (hi.grayl x hm)) he, hi.emit x y hx hxl he⟩
      have hvcl : st2.idx v ≠ 0 ∧ v ∉ live := ⟨hvz2, hvl0⟩
      have hback : ∀ x ∈ new ++ [v], DReach dg x v := by
        intro x hx
        rcases List.mem_append.mp hx with hx | hx
        · obtain ⟨g, hgm, _, hr⟩ := hi.up x (by simp [hx])
          rcases List.mem_cons.mp hgm with rfl | hgm
          · exact hr
          · have := reach_closed (P := fun z => st2.idx z ≠ 0 ∧ z ∉ live) hclosed hr
              ⟨hi.nz x (by simp [hx]), hnewlive x hx⟩
            exact absurd (hgsub g hgm) this.2
        · rw [List.mem_singleton.mp hx]
      have hfwd : ∀ x ∈ new ++ [v], DReach dg v x := by
        intro x hx
        rcases List.mem_append.mp hx with hx | hx
        · exact hi.down v (by simp) x (by simp [hx]) (le_of_lt (hnewgt x hx))
        · rw [List.mem_singleton.mp hx]
      have hmem : ∀ x, x ∈ new ++ [v] ↔ Mutual dg v x := by
        intro x
        refine ⟨fun hx => ⟨hfwd x hx, hback x hx⟩, fun ⟨h1, h2⟩ => ?_⟩
        obtain ⟨h3, h4⟩ := reach_closed (P := fun z => st2.idx z ≠ 0 ∧ z ∉ live) hclosed h1 hvcl
        by_contra hx
        have hxl : x ∉ new ++ v :: live := by
          intro hm
          rcases List.mem_append.mp hm with hm | hm
          · exact hx (by simp [hm])
          · rcases List.mem_cons.mp hm with rfl | hm
            · exact hx (by simp)
            · exact h4 hm
        have := reach_closed (P := fun z => st2.idx z ≠ 0 ∧ z ∉ new ++ v :: live) hemitcl h2 ⟨h3, hxl⟩
        exact this.2 (by simp)
      have hsplit : ∀ x, x ∈ new ++ v :: live ↔ x ∈ new ++ [v] ∨ x ∈ live := by
        intro x
        simp only [List.mem_append, List.mem_cons, List.not_mem_nil, or_false]
        tauto
      refine ⟨_, rfl, [], out' ++ [new ++ [v]], ?_, ⟨hext.next, hext.keep, hext.low, hext.unv, hext.new⟩,
        by simp [hsc, List.append_assoc], hiv2, hrch, by simp, Or.inl ⟨rfl, hroot⟩⟩
      refine { stack := rfl, pos := hi.pos, lt := hi.lt, nz := ?_, on := ?_, sorted := ?_, grayl := hgsub, black := ?_,
               emit := ?_, up := ?_, down := ?_, lowlt := ?_, lowle := hi.lowle, root := ?_, scc := ?_, disj := ?_, cover := ?_ }
      · intro x hx
        exact hi.nz x (by simp at hx; simp [hx])
      · intro x hx
        by_cases hxn : x ∈ new ++ [v]
        · simp only [hxn, if_true, Bool.false_eq_true, false_iff, List.nil_append]
          intro hm
          rcases List.mem_append.mp hxn with h1 | h1
          · exact hnewlive x h1 hm
          · rw [List.mem_singleton.mp h1] at hm; exact hvl0 hm
        · simp only [hxn, if_false, List.nil_append]
          rw [hi.on x hx, hsplit]
          simp [hxn]
      · exact (List.pairwise_cons.mp (List.pairwise_append.mp hi.sorted).2.1).2
      · intro x y hx hxg he
        by_cases hxv : x = v
        · rw [hxv] at he
          exact (hdeps y he).1
        · exact hi.black x y hx (by simp [hxv, hxg]) he
      · intro x y hx hxl he
        exact (hclosed x y ⟨hx, by simpa using hxl⟩ he).2
      · intro x hx
        have hx : x ∈ live := by simpa using hx
        obtain ⟨g, hgm, h1, h2⟩ := hi.up x (by simp [hx])
        rcases List.mem_cons.mp hgm with rfl | hgm
        · have := hlt0 x hx; omega
        · exact ⟨g, hgm, h1, h2⟩
      · intro g hgm x hx hle
        exact hi.down g (by simp [hgm]) x (by simp at hx; simp [hx]) hle
      · intro x hx hxg
        have hx : x ∈ live := by simpa using hx
        exact hi.lowlt x (by simp [hx]) (by
          simp only [List.mem_cons, not_or]
          exact ⟨fun e => hvl0 (e ▸ hx), hxg⟩)
      · intro x hx hxl hlow y hm
        have hxl : x ∉ live := by simpa using hxl
        by_cases hxn : x ∈ new ++ [v]
        · rcases List.mem_append.mp hxn with h1 | h1
          · have := hi.lowlt x (by simp [h1]) (by
              intro hm
              rcases List.mem_cons.mp hm with rfl | hm
              · exact hvnew h1
              · exact hnewlive x h1 (hgsub x hm))
            have h3 : st2.low x = st2.idx x := hlow
            omega
          · have hxv := List.mem_singleton.mp h1
            subst hxv
            have := (hmem y).mpr hm
            rcases List.mem_append.mp this with h2 | h2
            · exact le_of_lt (hnewgt y h2)
            · rw [List.mem_singleton.mp h2]
        · exact hi.root x hx (by rw [hsplit]; simp [hxn, hxl]) hlow y hm
      · intro s hs
        rw [← List.append_assoc] at hs
        rcases List.mem_append.mp hs with hs | hs
        · exact hi.scc s hs
        · rw [List.mem_singleton.mp hs]
          refine ⟨?_, v, by simp, hmem⟩
          have : (new ++ v :: live) = (new ++ [v]) ++ live := by simp
          rw [this] at hnd
          exact (List.nodup_append.mp hnd).1
      · rw [← List.append_assoc]
        refine List.pairwise_append.mpr ⟨hi.disj, List.pairwise_singleton _ _, ?_⟩
        intro a ha b hb x hxa hxb
        rw [List.mem_singleton.mp hb] at hxb
        have := (hi.cover x).mp ⟨a, ha, hxa⟩
        exact this.2 ((hsplit x).mpr (Or.inl hxb))
      · intro x
        rw [← List.append_assoc]
        simp only [List.nil_append]
        constructor
        · rintro ⟨s, hs, hx⟩
          rcases List.mem_append.mp hs with hs | hs
          · have := (hi.cover x).mp ⟨s, hs, hx⟩
            exact ⟨this.1, fun hm => this.2 ((hsplit x).mpr (Or.inr hm))⟩
          · rw [List.mem_singleton.mp hs] at hx
            refine ⟨hi.nz x ((hsplit x).mpr (Or.inl hx)), ?_⟩
            rcases List.mem_append.mp hx with h1 | h1
            · exact hnewlive x h1
            · rw [List.mem_singleton.mp h1]; exact hvl0
        · rintro ⟨h1, h2⟩
          by_cases hxn : x ∈ new ++ [v]
          · exact ⟨new ++ [v], by simp, hxn⟩
          · obtain ⟨s, hs, hx⟩ := (hi.cover x).mpr ⟨h1, by rw [hsplit]; simp [hxn, h2]⟩
            exact ⟨s, by simp only [List.mem_append] at hs ⊢; exact Or.inl hs, hx⟩
    · rw [if_neg hroot]
      obtain ⟨y, hy, hry, hiy⟩ := hl.lowv.resolve_left hroot
      have hylt := hlt0 y hy
      have hassoc : (new ++ [v]) ++ live = new ++ v :: live := by simp
      refine ⟨st2, rfl, new ++ [v], out', ?_, hext, hsc, hiv2, hrch, ?_, Or.inr ⟨by simp, y, hy, hry, hiy⟩⟩
      · rw [hassoc]
        refine { hi with grayl := fun x hx => hi.grayl x (by simp [hx]), black := ?_, up := ?_, down := ?_, lowlt := ?_ }
        · intro x z hx hxg he
          by_cases hxv : x = v
          · rw [hxv] at he
            exact (hdeps z he).1
          · exact hi.black x z hx (by simp [hxv, hxg]) he
        · intro x hx
          obtain ⟨g, hgm, h1, h2⟩ := hi.up x hx
          rcases List.mem_cons.mp hgm with rfl | hgm
          · obtain ⟨g', hgm', h3, h4⟩ := hi.up y (by simp [hy])
            rcases List.mem_cons.mp hgm' with rfl | hgm'
            · omega
            · exact ⟨g', hgm', by omega, h2.trans (hry.trans h4)⟩
          · exact ⟨g, hgm, h1, h2⟩
        · intro g hgm x hx hle
          exact hi.down g (by simp [hgm]) x hx hle
        · intro x hx hxg
          by_cases hxv : x = v
          · rw [hxv]
            omega
          · exact hi.lowlt x hx (by simp [hxv, hxg])
      · intro x hx z hz he
        rcases List.mem_append.mp hx with hx | hx
        · exact hl.cross x hx z hz he
        · rw [List.mem_singleton.mp hx] at he
          exact (hdeps z he).2 hz

end Verif
