import Verif.TarjanLemmas
import Verif.PropsAnalysis

/-!
# Property theorems: cycles (C20, C21, C22)
-/

namespace Verif
open Spec

/-! ## The first visited node -/

/-- Lowering the lowlink of a finished node keeps the invariant of a state without live nodes. -/
theorem TInv.lower {dg : Depgraph} {base : List Str} {out : List (List Str)} {st : TSt}
    (h : TInv dg [] base [] out st) (v : Str) (l : Nat) (hl : st.idx v ≠ 0 → l ≤ st.low v) :
    TInv dg [] base [] out { st with low := upd st.low v l } where
  stack := h.stack
  pos := h.pos
  lt := h.lt
  nz := h.nz
  on := h.on
  sorted := h.sorted
  grayl := h.grayl
  black := h.black
  emit := h.emit
  up := h.up
  down := h.down
  lowlt x hx := by simp at hx
  lowle x hx := by
    by_cases e : x = v
    · subst e
      simpa [upd] using le_trans (hl hx) (h.lowle x hx)
    · simpa [upd, e] using h.lowle x hx
  root x hx _ hlow := by
    by_cases e : x = v
    · subst e
      have h1 : l = st.idx x := by simpa [upd] using hlow
      have h2 := hl hx
      have h3 := h.lowle x hx
      exact h.root x hx (by simp) (by omega)
    · exact h.root x hx (by simp) (by simpa [upd, e] using hlow)
  scc := h.scc
  disj := h.disj
  cover := h.cover

/-- The loop over the successors of the first visited node. -/
structure FLoop (dg : Depgraph) (v : Str) (done : List Str) (st : TSt) : Prop where
  inv : TInv dg [] [v] [] st.sccs st
  dn : ∀ y ∈ done, (dg.lookup y).isSome → st.idx y ≠ 0
  zero : st.idx v = 0 → st.low v = 0
  seen : st.idx v ≠ 0 → Edge dg v v ∨ st.low v < st.idx v

theorem first_loop (dg : Depgraph) (n : Nat) (v : Str) (hn : dg.length ≤ n) : ∀ (ds done : List Str) (st : TSt),
    dgDeps dg v = done ++ ds → FLoop dg v done st →
    ∃ st', scDeps dg (strongconnect dg n) v ds st = .ok st' ∧ FLoop dg v (dgDeps dg v) st' := by
  intro ds
  induction ds with
  | nil =>
    intro done st hd h
    rw [hd, List.append_nil]
    exact ⟨st, rfl, h⟩
  | cons d ds ih =>
    intro done st hd h
    have hd' : dgDeps dg v = (done ++ [d]) ++ ds := by rw [hd]; simp
    simp only [scDeps]
    cases hl : dg.lookup d with
    | none =>
      refine ih (done ++ [d]) st hd' { h with dn := ?_ }
      intro y hy hs
      rcases List.mem_append.mp hy with hy | hy
      · exact h.dn y hy hs
      · rw [List.mem_singleton.mp hy, hl] at hs; cases hs
    | some nd =>
      have he : Edge dg v d := ⟨by rw [hd]; simp, by rw [hl]; rfl⟩
      by_cases hz : st.idx d = 0
      · simp only [if_pos hz]
        have hun : unvisited dg st ≤ n := by
          refine le_trans ?_ hn
          unfold unvisited
          exact le_trans (List.length_filter_le _ _) (by simp)
        obtain ⟨st1, e1, new1, out1, hi1, hx1, hs1, hid, hrc, -, hlow⟩ :=
          strongconnect_spec dg n d st [] [v] [] st.sccs h.inv hz (by rw [hl]; rfl) (by simp) hun
        rw [e1]
        simp only []
        have hnew : new1 = [] ∧ st1.low d = st1.idx d := by
          rcases hlow with hlow | ⟨_, y, hy, _⟩
          · exact hlow
          · simp at hy
        obtain ⟨rfl, hlow⟩ := hnew
        have hi1' : TInv dg [] [v] [] st1.sccs st1 := by rw [hs1]; simpa using hi1
        have hpos := h.inv.pos
        -- what is known of v after the call
        have hseen : st1.idx v ≠ 0 → Edge dg v v ∨ st1.low v < st1.idx v := by
          intro hv1
          by_cases hv : st.idx v = 0
          · by_cases hdv : d = v
            · left; rw [hdv] at he; exact he
            · right
              obtain ⟨hr, hlt⟩ := hrc v hv hv1
              have hlt := hlt (fun e => hdv e.symm)
              rcases lt_or_eq_of_le (hi1'.lowle v hv1) with hlt' | heq
              · exact hlt'
              · exfalso
                have hle := hi1'.root v hv1 (by simp) heq d ⟨Relation.ReflTransGen.single he, hr⟩
                omega
          · rw [hx1.keep v hv, hx1.low v hv]
            exact h.seen hv
        have hzero : st1.idx v = 0 → st1.low v = 0 := by
          intro hv1
          have hv : st.idx v = 0 := by
            by_contra hv
            exact hx1.nz v hv hv1
          rw [hx1.unv v hv1]
          exact h.zero hv
        refine ih (done ++ [d]) _ hd' { inv := hi1'.lower v _ (fun _ => min_le_left _ _), dn := ?_, zero := ?_, seen := ?_ }
        · intro y hy hs
          show st1.idx y ≠ 0
          rcases List.mem_append.mp hy with hy | hy
          · exact hx1.nz y (h.dn y hy hs)
          · rw [List.mem_singleton.mp hy, hid]; omega
        · intro hv1
          simp only [upd, if_true]
          rw [hzero hv1]; simp
        · intro hv1
          simp only [upd, if_true]
          rcases hseen hv1 with h1 | h1
          · exact Or.inl h1
          · exact Or.inr (lt_of_le_of_lt (min_le_left _ _) h1)
      · simp only [if_neg hz]
        have ho : st.on d = false := by
          have := (h.inv.on d hz)
          simpa using this
        simp only [ho, Bool.false_eq_true, if_false]
        refine ih (done ++ [d]) st hd' { h with dn := ?_ }
        intro y hy hs
        rcases List.mem_append.mp hy with hy | hy
        · exact h.dn y hy hs
        · rw [List.mem_singleton.mp hy]; exact hz

theorem push_first (dg : Depgraph) (v : Str) : FLoop dg v [] (pushSt tInit v) := by
  have hz : ∀ x, (pushSt tInit v).idx x = 0 := by
    intro x
    simp [pushSt, tInit, upd]
  refine { inv := ?_, dn := by simp, zero := by simp [pushSt, tInit, upd], seen := fun h => absurd (hz v) h }
  refine { stack := rfl, pos := le_refl _, lt := ?_, nz := by simp, on := fun x hx => absurd (hz x) hx, sorted := by simp,
           grayl := by simp, black := fun x y hx => absurd (hz x) hx, emit := fun x y hx => absurd (hz x) hx,
           up := by simp, down := by simp, lowlt := by simp, lowle := fun x hx => absurd (hz x) hx,
           root := fun x hx => absurd (hz x) hx, scc := by simp [pushSt, tInit], disj := by simp [pushSt, tInit],
           cover := ?_ }
  · intro x
    rw [hz x]; exact Nat.one_pos
  · intro x
    simp [pushSt, tInit, upd]

/-- The state after the first node is handled: the components `out`, and possibly one more `[v]`. -/
structure FirstDone (dg : Depgraph) (v : Str) (st : TSt) (out extra : List (List Str)) : Prop where
  inv : ∃ base, TInv dg [] base [] out st
  sccs : st.sccs = out ++ extra
  ext : extra = [] ∨ extra = [[v]]
  loop : extra = [[v]] → Edge dg v v ∨ IsSCC dg [v]
  open_ : st.idx v = 0 → extra = [[v]] ∧ IsSCC dg [v]

theorem first_done (dg : Depgraph) (n : Nat) (v : Str) (hn : dg.length ≤ n) :
    ∃ st out extra, strongconnect dg (n + 1) v tInit = .ok st ∧ FirstDone dg v st out extra := by
  obtain ⟨st, e, h⟩ := first_loop dg n v hn (dgDeps dg v) [] (pushSt tInit v) rfl (push_first dg v)
  have hstep : strongconnect dg (n + 1) v tInit =
      match scDeps dg (strongconnect dg n) v (dgDeps dg v) (pushSt tInit v) with
      | .panic => .panic
      | .fuel => .fuel
      | .ok st =>
        if st.low v = st.idx v then
          match popUntil v st.stack with
          | none => .panic
          | some (s, scc) =>
            .ok { st with stack := s, on := fun x => if x ∈ scc then false else st.on x, sccs := st.sccs ++ [scc] }
        else .ok st := rfl
  rw [hstep, e]
  simp only []
  have hclosed : ∀ x y, st.idx x ≠ 0 → Edge dg x y → st.idx y ≠ 0 := fun x y hx he => h.inv.black x y hx (by simp) he
  by_cases hroot : st.low v = st.idx v
  · rw [if_pos hroot, h.inv.stack]
    have hpop : popUntil v ([] ++ [v]) = some ([], [v]) := by simp [popUntil]
    rw [hpop]
    have hiso : st.idx v = 0 → IsSCC dg [v] := by
      intro hz
      refine ⟨List.nodup_singleton _, v, by simp, fun x => ?_⟩
      rw [List.mem_singleton]
      constructor
      · rintro rfl; exact ⟨Relation.ReflTransGen.refl, Relation.ReflTransGen.refl⟩
      · rintro ⟨h1, h2⟩
        rcases Relation.ReflTransGen.cases_head h1 with h3 | ⟨d, hd, h3⟩
        · exact h3.symm
        · have h4 : st.idx d ≠ 0 := h.dn d hd.1 hd.2
          have := reach_closed (P := fun z => st.idx z ≠ 0) hclosed (h3.trans h2) h4
          exact absurd hz this
    refine ⟨_, st.sccs, [[v]], rfl, ⟨[], ?_⟩, rfl, Or.inr rfl, fun _ => ?_, fun hz => ⟨rfl, hiso hz⟩⟩
    · have hi := h.inv
      refine { hi with stack := rfl, on := ?_ }
      intro x hx
      by_cases hxv : x ∈ [v]
      · simp [hxv]
      · simpa [hxv] using hi.on x hx
    · by_cases hz : st.idx v = 0
      · exact Or.inr (hiso hz)
      · rcases h.seen hz with h1 | h1
        · exact Or.inl h1
        · omega
  · rw [if_neg hroot]
    refine ⟨st, st.sccs, [], rfl, ⟨[v], h.inv⟩, by simp, Or.inl rfl, by simp, fun hz => ?_⟩
    exact absurd (by rw [h.zero hz, hz]) hroot

theorem find_rest (dg : Depgraph) (n : Nat) (hn : dg.length ≤ n) (base : List Str) : ∀ (vs : List Str) (st : TSt)
    (out : List (List Str)), (∀ v ∈ vs, (dg.lookup v).isSome) → TInv dg [] base [] out st →
    ∃ st' out', findFrom dg n vs st = .ok st' ∧ TInv dg [] base [] (out ++ out') st' ∧ st'.sccs = st.sccs ++ out' ∧
      (∀ v ∈ vs, st'.idx v ≠ 0) ∧ (∀ v, st.idx v ≠ 0 → st'.idx v ≠ 0) := by
  intro vs
  induction vs with
  | nil => intro st out _ h; exact ⟨st, [], rfl, by simpa using h, by simp, by simp, fun _ h => h⟩
  | cons v vs ih =>
    intro st out hk h
    simp only [findFrom]
    by_cases hz : st.idx v = 0
    · rw [if_pos hz]
      have hun : unvisited dg st ≤ n := by
        refine le_trans ?_ hn
        unfold unvisited
        exact le_trans (List.length_filter_le _ _) (by simp)
      obtain ⟨st1, e1, new1, out1, hi1, hx1, hs1, hid, -, -, hlow⟩ :=
        strongconnect_spec dg n v st [] base [] out h hz (hk v (by simp)) (by simp) hun
      have hnew : new1 = [] := by
        rcases hlow with ⟨hlow, _⟩ | ⟨_, y, hy, _⟩
        · exact hlow
        · simp at hy
      subst hnew
      rw [e1]
      obtain ⟨st2, out2, e2, hi2, hs2, hv2, hm2⟩ := ih st1 (out ++ out1) (fun w hw => hk w (by simp [hw])) (by simpa using hi1)
      refine ⟨st2, out1 ++ out2, e2, by simpa [List.append_assoc] using hi2, by rw [hs2, hs1]; simp, ?_, ?_⟩
      · intro w hw
        rcases List.mem_cons.mp hw with rfl | hw
        · refine hm2 w ?_
          rw [hid]
          have := h.pos
          omega
        · exact hv2 w hw
      · exact fun w hw => hm2 w (hx1.nz w hw)
    · rw [if_neg hz]
      obtain ⟨st2, out2, e2, hi2, hs2, hv2, hm2⟩ := ih st out (fun w hw => hk w (by simp [hw])) h
      refine ⟨st2, out2, e2, hi2, hs2, ?_, hm2⟩
      intro w hw
      rcases List.mem_cons.mp hw with rfl | hw
      · exact hm2 w hz
      · exact hv2 w hw

/-- A list of components is exactly the partition of the nodes into strongly connected components. -/
structure IsPartition (dg : Depgraph) (l : List (List Str)) : Prop where
  scc : ∀ s ∈ l, IsSCC dg s
  disj : l.Pairwise fun a b => ∀ x ∈ a, x ∉ b
  cover : ∀ x, (dg.lookup x).isSome → ∃ s ∈ l, x ∈ s

theorem find_spec (dg : Depgraph) (v : Str) (vs : List Str) (ho : (v :: vs).Perm (dg.map Prod.fst)) :
    ∃ A B, IsPartition dg (A ++ B) ∧
      (findSCCs dg (v :: vs) = .ok (A ++ B) ∨
        findSCCs dg (v :: vs) = .ok (A ++ [v] :: B) ∧ (Edge dg v v ∨ IsSCC dg [v])) := by
  obtain ⟨st, out, extra, e1, hf⟩ := first_done dg (dg.length + 1) v (by omega)
  obtain ⟨base, hi⟩ := hf.inv
  have hkey : ∀ w ∈ v :: vs, (dg.lookup w).isSome := fun w hw => key_lookup (ho.mem_iff.mp hw)
  obtain ⟨st', out', e2, hi2, hs2, hv2, hm2⟩ := find_rest dg (dg.length + 2) (by omega) base vs st out
    (fun w hw => hkey w (by simp [hw])) hi
  have hfind : findSCCs dg (v :: vs) = .ok (out ++ extra ++ out') := by
    unfold findSCCs findFrom tFuel
    rw [if_pos (by rfl), e1]
    simp only [e2, hs2, hf.sccs]
  by_cases hz : st'.idx v = 0
  · have hz0 : st.idx v = 0 := by
      by_contra hz0
      exact hm2 v hz0 hz
    obtain ⟨rfl, hscc⟩ := hf.open_ hz0
    refine ⟨out ++ [[v]], out', ⟨?_, ?_, ?_⟩, Or.inl hfind⟩
    · intro s hs
      rcases List.mem_append.mp hs with hs | hs
      · rcases List.mem_append.mp hs with hs | hs
        · exact hi2.scc s (by simp [hs])
        · rw [List.mem_singleton.mp hs]; exact hscc
      · exact hi2.scc s (by simp [hs])
    · have hnv : ∀ s ∈ out ++ out', v ∉ s := by
        intro s hs hm
        exact ((hi2.cover v).mp ⟨s, hs, hm⟩).1 hz
      have hd := List.pairwise_append.mp hi2.disj
      refine List.pairwise_append.mpr ⟨List.pairwise_append.mpr ⟨hd.1, List.pairwise_singleton _ _, ?_⟩, hd.2.1, ?_⟩
      · intro a ha b hb x hx hxb
        rw [List.mem_singleton.mp hb, List.mem_singleton] at hxb
        exact hnv a (by simp [ha]) (hxb ▸ hx)
      · intro a ha b hb x hx hxb
        rcases List.mem_append.mp ha with ha | ha
        · exact hd.2.2 a ha b hb x hx hxb
        · rw [List.mem_singleton.mp ha, List.mem_singleton] at hx
          exact hnv b (by simp [hb]) (hx ▸ hxb)
    · intro x hx
      have := ho.mem_iff.mpr (lookup_key hx)
      rcases List.mem_cons.mp this with rfl | hm
      · exact ⟨[x], by simp, by simp⟩
      · obtain ⟨s, hs, hm⟩ := (hi2.cover x).mpr ⟨hv2 x hm, by simp⟩
        exact ⟨s, by simp only [List.mem_append] at hs ⊢; tauto, hm⟩
  · refine ⟨out, out', ⟨hi2.scc, hi2.disj, ?_⟩, ?_⟩
    · intro x hx
      have := ho.mem_iff.mpr (lookup_key hx)
      refine (hi2.cover x).mpr ⟨?_, by simp⟩
      rcases List.mem_cons.mp this with rfl | hm
      · exact hz
      · exact hv2 x hm
    · rcases hf.ext with rfl | rfl
      · left; rw [hfind, List.append_nil]
      · right
        exact ⟨by rw [hfind]; simp, hf.loop rfl⟩

/-! ## From names to rules -/

/-- The definition of `r` mentions, at any depth, a name standing for `r'`. -/
def Refers (g : Grammar) (r r' : Rule) : Prop := ∃ q ∈ altReps r.alt, ∃ n, q.elem = .rulename n ∧ Resolves g n r'

/-- `r` refers to itself, directly or through other rules. -/
def Cyclic (g : Grammar) (r : Rule) : Prop := Relation.TransGen (Refers g) r r

theorem resolves_name {g : Grammar} {n : Str} {r : Rule} (h : Resolves g n r) : canon r.name = canon n := by
  cases h with
  | user _ hs => exact ((sameName_iff _ _).mp hs).symm
  | core _ hs _ => exact ((sameName_iff _ _).mp hs).symm

theorem resolves_self {g : Grammar} {n : Str} {r : Rule} (h : Resolves g n r) : Resolves g r.name r :=
  (resolves_congr (resolves_name h)).mpr h

theorem resolves_unique {g : Grammar} (hd : NamesDistinct g) {n m : Str} {r r' : Rule} (h : Resolves g n r)
    (h' : Resolves g m r') (e : canon n = canon m) : r = r' := by
  have h1 := (getRule_iff hd).mpr ((resolves_congr e).mp h)
  have h2 := (getRule_iff hd).mpr h'
  rw [h1] at h2
  exact Option.some.inj h2

theorem refers_resolves {g : Grammar} {r r' : Rule} (h : Refers g r r') : Resolves g r'.name r' := by
  obtain ⟨_, _, _, _, h⟩ := h
  exact resolves_self h

section
variable {g : Grammar} (hd : NamesDistinct g) {core : List Rule} (hcore : core.Perm Core.rules)
include hd hcore

theorem dgDeps_eq {n : Str} {r : Rule} (h : Resolves g n r) :
    dgDeps (dependencyGraph core g) (canon n) = getDependencies r.alt := by
  have := ((Props.C19_graph g hd core hcore n).1 ⟨r.name, getDependencies r.alt⟩).mpr ⟨r, h, rfl, rfl⟩
  simp only [dgDeps, this]

theorem lookup_iff {n : Str} : ((dependencyGraph core g).lookup (canon n)).isSome ↔ ∃ r, Resolves g n r := by
  constructor
  · intro h
    obtain ⟨nd, hnd⟩ := Option.isSome_iff_exists.mp h
    obtain ⟨r, hr, _⟩ := ((Props.C19_graph g hd core hcore n).1 nd).mp hnd
    exact ⟨r, hr⟩
  · rintro ⟨r, hr⟩
    have := ((Props.C19_graph g hd core hcore n).1 ⟨r.name, getDependencies r.alt⟩).mpr ⟨r, hr, rfl, rfl⟩
    rw [this]; rfl

theorem edge_iff {n : Str} {r : Rule} (h : Resolves g n r) (y : Str) :
    Edge (dependencyGraph core g) (canon n) y ↔ ∃ r', Refers g r r' ∧ y = canon r'.name := by
  unfold Edge
  rw [dgDeps_eq hd hcore h, mem_getDependencies]
  constructor
  · rintro ⟨⟨q, hq, m, hm, rfl⟩, hs⟩
    obtain ⟨r', hr'⟩ := (lookup_iff hd hcore).mp hs
    exact ⟨r', ⟨q, hq, m, hm, hr'⟩, (resolves_name hr').symm⟩
  · rintro ⟨r', ⟨q, hq, m, hm, hr'⟩, rfl⟩
    rw [resolves_name hr']
    exact ⟨⟨q, hq, m, hm, rfl⟩, (lookup_iff hd hcore).mpr ⟨r', hr'⟩⟩

theorem reach_iff {n : Str} {r : Rule} (h : Resolves g n r) (y : Str) :
    DReach (dependencyGraph core g) (canon n) y ↔ ∃ r', Relation.ReflTransGen (Refers g) r r' ∧ y = canon r'.name := by
  constructor
  · intro hr
    have key : ∃ r', Relation.ReflTransGen (Refers g) r r' ∧ Resolves g r'.name r' ∧ y = canon r'.name := by
      induction hr with
      | refl => exact ⟨r, Relation.ReflTransGen.refl, resolves_self h, (resolves_name h).symm⟩
      | tail _ he ih =>
        obtain ⟨r', h1, h2, rfl⟩ := ih
        obtain ⟨r'', h3, rfl⟩ := (edge_iff hd hcore h2 _).mp he
        exact ⟨r'', h1.tail h3, refers_resolves h3, rfl⟩
    obtain ⟨r', h1, _, h2⟩ := key
    exact ⟨r', h1, h2⟩
  · rintro ⟨r', hr, rfl⟩
    have key : Resolves g r'.name r' ∧ DReach (dependencyGraph core g) (canon n) (canon r'.name) := by
      induction hr with
      | refl => exact ⟨resolves_self h, by rw [resolves_name h]⟩
      | tail _ he ih => exact ⟨refers_resolves he, ih.2.tail ((edge_iff hd hcore ih.1 _).mpr ⟨_, he, rfl⟩)⟩
    exact key.2

theorem rule_reach {r r' : Rule} (h : Resolves g r.name r) (h' : Resolves g r'.name r') :
    DReach (dependencyGraph core g) (canon r.name) (canon r'.name) ↔ Relation.ReflTransGen (Refers g) r r' := by
  rw [reach_iff hd hcore h]
  constructor
  · rintro ⟨r'', h1, h2⟩
    have h3 : Resolves g r''.name r'' := by
      rcases Relation.ReflTransGen.cases_tail h1 with e | ⟨_, _, h4⟩
      · rw [e]; exact h
      · exact refers_resolves h4
    rwa [resolves_unique hd h' h3 h2]
  · intro h1; exact ⟨r', h1, rfl⟩

theorem key_canon {x : Str} (hx : ((dependencyGraph core g).lookup x).isSome) : canon x = x := by
  have hcd : core.Pairwise fun a b => ¬ SameName a.name b.name :=
    hcore.symm.pairwise core_distinct fun h hs => h ((sameName_iff _ _).mpr ((sameName_iff _ _).mp hs).symm)
  rw [dependencyGraph, lookup_dgAdd _ _ hd, lookup_dgAdd _ _ hcd] at hx
  cases h1 : g.rules.find? fun r => canon r.name == x with
  | some r =>
    have : canon r.name = x := by simpa using List.find?_some h1
    rw [← this, canon_canon]
  | none =>
    rw [h1] at hx
    cases h2 : core.find? fun r => canon r.name == x with
    | some r =>
      have : canon r.name = x := by simpa using List.find?_some h2
      rw [← this, canon_canon]
    | none => rw [h2] at hx; simp at hx

/-- A node lies on a cycle. -/
theorem cyclic_iff {n : Str} {r : Rule} (h : Resolves g n r) :
    Cyclic g r ↔ ∃ y, Edge (dependencyGraph core g) (canon n) y ∧ DReach (dependencyGraph core g) y (canon n) := by
  unfold Cyclic
  rw [Relation.TransGen.head'_iff]
  constructor
  · rintro ⟨r', h1, h2⟩
    refine ⟨canon r'.name, (edge_iff hd hcore h _).mpr ⟨r', h1, rfl⟩, ?_⟩
    rw [← resolves_name h]
    exact (rule_reach hd hcore (refers_resolves h1) (resolves_self h)).mpr h2
  · rintro ⟨y, h1, h2⟩
    obtain ⟨r', h3, rfl⟩ := (edge_iff hd hcore h _).mp h1
    rw [← resolves_name h] at h2
    exact ⟨r', h3, (rule_reach hd hcore (refers_resolves h3) (resolves_self h)).mp h2⟩

end

/-- A component with several members is one with two mutually reachable nodes. -/
theorem scc_length {dg : Depgraph} {s : List Str} (h : IsSCC dg s) :
    s.length > 1 ↔ ∃ x ∈ s, ∃ y, x ≠ y ∧ Mutual dg x y := by
  obtain ⟨hnd, r, hr, hm⟩ := h
  have hmem : ∀ x ∈ s, ∀ y, y ∈ s ↔ Mutual dg x y := by
    intro x hx y
    have h1 := (hm x).mp hx
    rw [hm y]
    exact ⟨fun h2 => ⟨h1.2.trans h2.1, h2.2.trans h1.1⟩, fun h2 => ⟨h1.1.trans h2.1, h2.2.trans h1.2⟩⟩
  constructor
  · intro hl
    match s, hl, hnd, hmem with
    | a :: b :: s, _, hnd, hmem =>
      refine ⟨a, by simp, b, ?_, (hmem a (by simp) b).mp (by simp)⟩
      rintro rfl
      simp at hnd
  · rintro ⟨x, hx, y, hne, hxy⟩
    have hy := (hmem x hx y).mpr hxy
    match s, hx, hy with
    | [a], hx, hy =>
      rw [List.mem_singleton] at hx hy
      exact absurd (hx.trans hy.symm) hne
    | a :: b :: s, _, _ => simp

theorem find_total (dg : Depgraph) (order : List Str) (ho : order.Perm (dg.map Prod.fst)) :
    ∃ sccs, findSCCs dg order = .ok sccs ∧ ∃ l, IsPartition dg l ∧
      (sccs = l ∨ ∃ A B v, order.head? = some v ∧ l = A ++ B ∧ sccs = A ++ [v] :: B ∧ (Edge dg v v ∨ IsSCC dg [v])) := by
  cases order with
  | nil =>
    refine ⟨[], rfl, [], ⟨by simp, by simp, ?_⟩, Or.inl rfl⟩
    intro x hx
    have := ho.mem_iff.mpr (lookup_key hx)
    cases this
  | cons v vs =>
    obtain ⟨A, B, hp, h | ⟨h, hs⟩⟩ := find_spec dg v vs ho
    · exact ⟨_, h, A ++ B, hp, Or.inl rfl⟩
    · exact ⟨_, h, A ++ B, hp, Or.inr ⟨A, B, v, rfl, rfl, rfl, hs⟩⟩

namespace Props

/-! ## C22: strongly connected components -/

/-- C22, the part that holds.  Whatever order the graph is visited in, the finder ends without panicking, and what it
returns is the partition of the graph into strongly connected components, possibly with one extra singleton naming
the first visited node.  The extra entry can only be a node that refers to itself or that is a component on its own.
Missing: the finder does return that extra entry on some graphs (`C22_fails`). -/
theorem C22_components_partial (dg : Depgraph) (order : List Str) (ho : order.Perm (dg.map Prod.fst)) :
    ∃ sccs, findSCCs dg order = .ok sccs ∧ ∃ l, IsPartition dg l ∧
      (sccs = l ∨ ∃ A B v, order.head? = some v ∧ l = A ++ B ∧ sccs = A ++ [v] :: B ∧ (Edge dg v v ∨ IsSCC dg [v])) :=
  find_total dg order ho

/-- C22, consequence: on any visiting order that starts at a node of a component with several members and without an
edge to itself, the answer is exactly the partition.  Missing: the other starting points. -/
theorem C22_exact_partial (dg : Depgraph) (v : Str) (vs : List Str) (ho : (v :: vs).Perm (dg.map Prod.fst))
    (hloop : ¬ Edge dg v v) (hbig : ∃ y, v ≠ y ∧ Mutual dg v y) :
    ∃ sccs, findSCCs dg (v :: vs) = .ok sccs ∧ IsPartition dg sccs := by
  obtain ⟨A, B, hp, h | ⟨h, hs⟩⟩ := find_spec dg v vs ho
  · exact ⟨_, h, hp⟩
  · rcases hs with hs | hs
    · exact absurd hs hloop
    · obtain ⟨y, hy, hm⟩ := hbig
      have := (scc_length hs).mpr ⟨v, by simp, y, hy, hm⟩
      simp at this

/-- A graph in which `a` refers to itself and to `b`, and `b` to `a`. -/
def dupGraph : Depgraph := [(str% "a", ⟨str% "a", [str% "a", str% "b"]⟩), (str% "b", ⟨str% "b", [str% "a"]⟩)]

/-- C22 as stated is false: visiting `a` first lists `a` in two components. -/
theorem C22_fails : ∃ dg order sccs, order.Perm (List.map Prod.fst dg) ∧ findSCCs dg order = .ok sccs ∧
    ¬ IsPartition dg sccs := by
  refine ⟨dupGraph, [str% "a", str% "b"], [[str% "b", str% "a"], [str% "a"]], List.Perm.refl _, by decide +kernel, ?_⟩
  intro h
  have := (List.pairwise_cons.mp h.disj).1 [str% "a"] (by simp) (str% "a") (by simp)
  exact this (by simp)

/-- The other order gives the right answer on the same graph. -/
example : findSCCs dupGraph [str% "b", str% "a"] = .ok [[str% "b", str% "a"]] ∧
    ¬ Edge dupGraph (str% "b") (str% "b") ∧ Mutual dupGraph (str% "b") (str% "a") := by
  refine ⟨by decide +kernel, fun h => ?_, Relation.ReflTransGen.single ⟨by decide, by decide⟩,
    Relation.ReflTransGen.single ⟨by decide, by decide⟩⟩
  exact absurd h.1 (by decide)

/-! ## C21: IsDAG -/

/-- C21, the part that holds.  Whatever the iteration orders, `IsDAG` returns, and it returns true exactly when no two
different rules refer to each other, directly or through other rules.  Missing: a rule that only refers to itself is
not noticed (`C21_fails`). -/
theorem C21_isDAG_partial (g : Grammar) (hd : NamesDistinct g) (core : List Rule) (hcore : core.Perm Core.rules)
    (order : List Str) (ho : order.Perm ((dependencyGraph core g).map Prod.fst)) :
    ∃ b, isDAG core g order = .ok b ∧ (b = true ↔ ¬ ∃ n m r r', Resolves g n r ∧ Resolves g m r' ∧ r ≠ r' ∧
      Relation.ReflTransGen (Refers g) r r' ∧ Relation.ReflTransGen (Refers g) r' r) := by
  obtain ⟨sccs, h, l, hp, hl⟩ := find_total _ order ho
  refine ⟨_, by unfold isDAG; rw [h], ?_⟩
  have hall : (sccs.all fun s => !decide (s.length > 1)) = true ↔ ¬ ∃ s ∈ l, s.length > 1 := by
    have h1 : (sccs.all fun s => !decide (s.length > 1)) = true ↔ ¬ ∃ s ∈ sccs, s.length > 1 := by
      simp
    rw [h1]
    rcases hl with rfl | ⟨A, B, v, _, rfl, rfl, _⟩
    · rfl
    · refine not_congr ⟨?_, ?_⟩
      · rintro ⟨s, hs, hl⟩
        simp only [List.mem_append, List.mem_cons] at hs
        rcases hs with hs | rfl | hs
        · exact ⟨s, by simp [hs], hl⟩
        · simp at hl
        · exact ⟨s, by simp [hs], hl⟩
      · rintro ⟨s, hs, hl⟩
        rcases List.mem_append.mp hs with hs | hs
        · exact ⟨s, by simp [hs], hl⟩
        · exact ⟨s, by simp [hs], hl⟩
  rw [hall]
  refine not_congr ⟨?_, ?_⟩
  · rintro ⟨s, hs, hlen⟩
    obtain ⟨x, hx, y, hne, hm⟩ := (scc_length (hp.scc s hs)).mp hlen
    -- both are nodes
    have hnode : ∀ {x y : Str}, x ≠ y → DReach (dependencyGraph core g) x y → ((dependencyGraph core g).lookup y).isSome := by
      intro x y hne hr
      rcases Relation.ReflTransGen.cases_tail hr with e | ⟨_, _, he⟩
      · exact absurd e.symm hne
      · exact he.2
    have hxn := hnode hne.symm hm.2
    have hyn := hnode hne hm.1
    have hcan : ∀ {x : Str}, ((dependencyGraph core g).lookup x).isSome → canon x = x := fun hx => key_canon hd hcore hx
    obtain ⟨r, hr⟩ := (lookup_iff hd hcore (n := x)).mp (by rw [hcan hxn]; exact hxn)
    obtain ⟨r', hr'⟩ := (lookup_iff hd hcore (n := y)).mp (by rw [hcan hyn]; exact hyn)
    have hrx : canon r.name = x := by rw [resolves_name hr, hcan hxn]
    have hry : canon r'.name = y := by rw [resolves_name hr', hcan hyn]
    refine ⟨x, y, r, r', hr, hr', ?_, ?_, ?_⟩
    · rintro rfl
      exact hne (hrx.symm.trans hry)
    · rw [← rule_reach hd hcore (resolves_self hr) (resolves_self hr'), hrx, hry]; exact hm.1
    · rw [← rule_reach hd hcore (resolves_self hr') (resolves_self hr), hrx, hry]; exact hm.2
  · rintro ⟨n, m, r, r', hr, hr', hne, h1, h2⟩
    have hx := (lookup_iff hd hcore).mpr ⟨r, resolves_self hr⟩
    obtain ⟨s, hs, hxs⟩ := hp.cover _ hx
    refine ⟨s, hs, (scc_length (hp.scc s hs)).mpr ⟨canon r.name, hxs, canon r'.name, ?_, ?_, ?_⟩⟩
    · intro e
      exact hne (resolves_unique hd (resolves_self hr) (resolves_self hr') e)
    · exact (rule_reach hd hcore (resolves_self hr) (resolves_self hr')).mpr h1
    · exact (rule_reach hd hcore (resolves_self hr') (resolves_self hr)).mpr h2

/-- A grammar with a rule that only refers to itself. -/
def selfLoop : Grammar := ⟨[⟨str% "a", [[Ex.one (Ex.ref (str% "a"))]]⟩]⟩

/-- The dependency graph is visited in the order it was filled. -/
def plainOrder (g : Grammar) : List Str := (dependencyGraph Core.rules g).map Prod.fst

/-- C21 as stated is false: `IsDAG` accepts `a = a`. -/
theorem C21_fails : ∃ g core order r, NamesDistinct g ∧ core.Perm Core.rules ∧
    order.Perm ((dependencyGraph core g).map Prod.fst) ∧ r ∈ g.rules ∧ Cyclic g r ∧ isDAG core g order = .ok true := by
  refine ⟨selfLoop, Core.rules, plainOrder selfLoop, ⟨str% "a", [[Ex.one (Ex.ref (str% "a"))]]⟩, ?_, List.Perm.refl _,
    List.Perm.refl _, by simp [selfLoop], ?_, by decide +kernel⟩
  · exact namesDistinct_of (by decide)
  · refine Relation.TransGen.single ⟨Ex.one (Ex.ref (str% "a")), ?_, str% "a", rfl, ?_⟩
    · simp [altReps, concatReps, repReps, elemReps, Ex.one, Ex.ref]
    · exact Resolves.user (by simp [selfLoop]) ((sameName_iff _ _).mpr rfl)

example : isDAG Core.rules Ex.expr (plainOrder Ex.expr) = .ok false ∧ NamesDistinct Ex.expr :=
  ⟨by decide +kernel, Ex.expr_wf.2.1⟩

end Props

/-! ## RuleContainsCycle -/

theorem lookup_flat {sccs : List (List Str)} {x : Str} {b : Bool} (h : (inCycleMap sccs).lookup x = some b) :
    ∃ s ∈ sccs, x ∈ s ∧ b = decide (s.length > 1) := by
  have hm : ∀ (l : List (Str × Bool)), l.lookup x = some b → (x, b) ∈ l := by
    intro l
    induction l with
    | nil => simp
    | cons p l ih =>
      obtain ⟨a, c⟩ := p
      simp only [List.lookup_cons]
      by_cases hxa : x = a
      · subst hxa
        simp only [beq_self_eq_true, Option.some.injEq]
        rintro rfl
        simp
      · rw [beq_eq_false_iff_ne.mpr hxa]
        intro h
        simp [ih h]
  have := hm _ h
  simp only [inCycleMap, List.mem_reverse, List.mem_flatMap, List.mem_map, Prod.mk.injEq] at this
  obtain ⟨s, hs, k, hk, rfl, rfl⟩ := this
  exact ⟨s, hs, hk, rfl⟩

theorem lookup_flat_some {sccs : List (List Str)} {x : Str} (h : ∃ s ∈ sccs, x ∈ s) :
    ∃ b, (inCycleMap sccs).lookup x = some b := by
  have hm : ∀ (l : List (Str × Bool)), (∃ b, (x, b) ∈ l) → ∃ b, l.lookup x = some b := by
    intro l
    induction l with
    | nil => simp
    | cons p l ih =>
      obtain ⟨a, c⟩ := p
      simp only [List.lookup_cons]
      by_cases hxa : x = a
      · subst hxa
        simp
      · rw [beq_eq_false_iff_ne.mpr hxa]
        rintro ⟨b, hb⟩
        refine ih ⟨b, ?_⟩
        simp only [List.mem_cons, Prod.mk.injEq, hxa, false_and, false_or] at hb
        exact hb
  apply hm
  obtain ⟨s, hs, hx⟩ := h
  refine ⟨decide (s.length > 1), ?_⟩
  simp only [inCycleMap, List.mem_reverse, List.mem_flatMap, List.mem_map, Prod.mk.injEq]
  exact ⟨s, hs, x, hx, rfl, rfl⟩

/-- A node on a cycle of the graph. -/
def DCyclic (dg : Depgraph) (x : Str) : Prop := ∃ y, Edge dg x y ∧ DReach dg y x

theorem dcyclic_iff {dg : Depgraph} {x : Str} : DCyclic dg x ↔ Edge dg x x ∨ ∃ y, x ≠ y ∧ Mutual dg x y := by
  constructor
  · rintro ⟨y, h1, h2⟩
    by_cases e : x = y
    · subst e; exact Or.inl h1
    · exact Or.inr ⟨y, e, Relation.ReflTransGen.single h1, h2⟩
  · rintro (h | ⟨y, hne, h1, h2⟩)
    · exact ⟨x, h, Relation.ReflTransGen.refl⟩
    · rcases Relation.ReflTransGen.cases_head h1 with e | ⟨z, hz, hzy⟩
      · exact absurd e hne
      · exact ⟨z, hz, hzy.trans h2⟩

theorem scc_unique {dg : Depgraph} {s t : List Str} (hs : IsSCC dg s) (ht : IsSCC dg t) {x : Str} (hx : x ∈ s)
    (hx' : x ∈ t) : ∀ y, y ∈ s ↔ y ∈ t := by
  obtain ⟨_, r, _, h1⟩ := hs
  obtain ⟨_, r', _, h2⟩ := ht
  intro y
  have a := (h1 x).mp hx
  have b := (h2 x).mp hx'
  rw [h1, h2]
  exact ⟨fun c => ⟨b.1.trans (a.2.trans c.1), c.2.trans (a.1.trans b.2)⟩,
    fun c => ⟨a.1.trans (b.2.trans c.1), c.2.trans (b.1.trans a.2)⟩⟩

/-- What `inCycle` says together with the test for a self reference is exact. -/
theorem inCycle_spec {dg : Depgraph} {order : List Str} {sccs l : List (List Str)} (hp : IsPartition dg l)
    (hl : sccs = l ∨ ∃ A B v, order.head? = some v ∧ l = A ++ B ∧ sccs = A ++ [v] :: B ∧ (Edge dg v v ∨ IsSCC dg [v]))
    (x : Str) :
    ((dg.lookup x).isSome → ∃ b, (inCycleMap sccs).lookup x = some b ∧ (Edge dg x x ∨ b = true ↔ DCyclic dg x)) ∧
    ((dg.lookup x) = none → (inCycleMap sccs).lookup x ≠ some true) := by
  have hsub : ∀ s ∈ l, s ∈ sccs := by
    intro s hs
    rcases hl with rfl | ⟨A, B, v, _, rfl, rfl, _⟩
    · exact hs
    · rcases List.mem_append.mp hs with hs | hs <;> simp [hs]
  have hsup : ∀ s ∈ sccs, s ∈ l ∨ ∃ v, s = [v] ∧ (Edge dg v v ∨ IsSCC dg [v]) := by
    intro s hs
    rcases hl with rfl | ⟨A, B, v, _, rfl, rfl, hv⟩
    · exact Or.inl hs
    · simp only [List.mem_append, List.mem_cons] at hs
      rcases hs with hs | rfl | hs
      · exact Or.inl (by simp [hs])
      · exact Or.inr ⟨v, rfl, hv⟩
      · exact Or.inl (by simp [hs])
  constructor
  · intro hx
    obtain ⟨t, ht, hxt⟩ := hp.cover x hx
    obtain ⟨b, hb⟩ := lookup_flat_some ⟨t, hsub t ht, hxt⟩
    refine ⟨b, hb, ?_⟩
    obtain ⟨s, hs, hxs, rfl⟩ := lookup_flat hb
    rw [dcyclic_iff, decide_eq_true_iff]
    rcases hsup s hs with hs | ⟨v, rfl, hv⟩
    · rw [scc_length (hp.scc s hs)]
      refine or_congr_right ⟨?_, fun h => ⟨x, hxs, h⟩⟩
      intro h
      have hlen := (scc_length (hp.scc s hs)).mpr h
      by_contra hno
      push Not at hno
      obtain ⟨hnd, r, hr, hm⟩ := hp.scc s hs
      -- every member equals x
      have hall : ∀ y ∈ s, y = x := by
        intro y hy
        by_contra hne
        have h1 := (hm x).mp hxs
        have h2 := (hm y).mp hy
        exact hno y (fun e => hne e.symm) ⟨h1.2.trans h2.1, h2.2.trans h1.1⟩
      match s, hlen, hnd, hall with
      | a :: b :: s, _, hnd, hall =>
        have h1 := hall a (by simp)
        have h2 := hall b (by simp)
        exact (List.nodup_cons.mp hnd).1 (by rw [h1, ← h2]; simp)
    · rw [List.mem_singleton] at hxs
      subst hxs
      constructor
      · rintro (h | h)
        · exact Or.inl h
        · simp at h
      · rintro (h | ⟨y, hne, hm⟩)
        · exact Or.inl h
        · rcases hv with hv | hv
          · exact Or.inl hv
          · have := (scc_length hv).mpr ⟨x, by simp, y, hne, hm⟩
            simp at this
  · intro hx hb
    obtain ⟨s, hs, hxs, hlen⟩ := lookup_flat hb
    have hlen : s.length > 1 := by simpa using hlen.symm
    rcases hsup s hs with hs | ⟨v, rfl, hv⟩
    · obtain ⟨hnd, r, hr, hm⟩ := hp.scc s hs
      have hne : ∃ y ∈ s, y ≠ x := by
        by_contra hno
        push Not at hno
        match s, hlen, hnd, hno with
        | a :: b :: s, _, hnd, hno =>
          have h1 := hno a (by simp)
          have h2 := hno b (by simp)
          exact (List.nodup_cons.mp hnd).1 (by rw [h1, ← h2]; simp)
      obtain ⟨y, hy, hne⟩ := hne
      have h1 := (hm x).mp hxs
      have h2 := (hm y).mp hy
      have h3 : DReach dg y x := h2.2.trans h1.1
      rcases Relation.ReflTransGen.cases_tail h3 with e | ⟨_, _, he⟩
      · exact hne e.symm
      · have := he.2
        rw [hx] at this; cases this
    · simp at hlen

/-- Number of nodes not in a set. -/
def outside (dg : Depgraph) (vis : List Str) : Nat := ((dg.map Prod.fst).filter fun k => k ∉ vis).length

theorem filter_length_le {α : Type} {p q : α → Bool} (l : List α) (h : ∀ x, p x = true → q x = true) :
    (l.filter p).length ≤ (l.filter q).length :=
  (List.monotone_filter_right l h).length_le

theorem filter_length_lt {α : Type} {p q : α → Bool} (l : List α) (h : ∀ x, p x = true → q x = true) {v : α}
    (hv : v ∈ l) (hp : p v = false) (hq : q v = true) : (l.filter p).length < (l.filter q).length := by
  induction l with
  | nil => cases hv
  | cons a l ih =>
    have hle := filter_length_le l h
    simp only [List.filter_cons]
    rcases List.mem_cons.mp hv with rfl | hv
    · simp [hp, hq]; omega
    · have := ih hv
      cases hpa : p a with
      | true => simp [h a hpa, this]
      | false =>
        cases hqa : q a with
        | true => simp; omega
        | false => simp [this]

theorem outside_mono (dg : Depgraph) {vis vis' : List Str} (h : ∀ x ∈ vis, x ∈ vis') : outside dg vis' ≤ outside dg vis := by
  apply filter_length_le
  intro x hx
  simp only [decide_eq_true_eq] at hx ⊢
  exact fun hm => hx (h x hm)

theorem outside_lt (dg : Depgraph) {vis : List Str} {v : Str} (hk : (dg.lookup v).isSome) (hv : v ∉ vis) :
    outside dg (v :: vis) < outside dg vis := by
  refine filter_length_lt _ ?_ (lookup_key hk) (by simp) (by simpa using hv)
  intro x hx
  simp only [List.mem_cons, not_or, decide_eq_true_eq] at hx ⊢
  exact hx.2

/-- What a visit achieves. -/
def VisitPost (dg : Depgraph) (key : Str) (vis : List Str) (b : Bool) (vis' : List Str) : Prop :=
  (∀ x ∈ vis, x ∈ vis') ∧ (b = true → ∃ y, DReach dg key y ∧ DCyclic dg y) ∧
  (b = false → key ∈ vis' ∧ ∀ x ∈ vis', x ∉ vis → ¬ DCyclic dg x ∧ ∀ y, Edge dg x y → y ∈ vis')

theorem visit_loop_spec {dg : Depgraph} {inc : List (Str × Bool)} {n : Nat} {key : Str} {vis0 : List Str}
    (hcan : ∀ x d, d ∈ dgDeps dg x → canon d = d)
    (ih : ∀ key vis, outside dg vis < n → ∃ b vis', ruleCycleVisit dg inc n key vis = .ok (b, vis') ∧
      VisitPost dg key vis b vis') (hself : ¬ Edge dg key key) (hkey : (dg.lookup key).isSome) :
    ∀ ds done vis, dgDeps dg key = done ++ ds → outside dg vis < n → (∀ x ∈ vis0, x ∈ vis) → key ∈ vis →
      (∀ y ∈ done, y ∈ vis) → (∀ x ∈ vis, x ∉ vis0 → x ≠ key → ¬ DCyclic dg x ∧ ∀ y, Edge dg x y → y ∈ vis) →
      ∃ b vis', cycleLoop (ruleCycleVisit dg inc n) key ds vis = .ok (b, vis') ∧ (∀ x ∈ vis0, x ∈ vis') ∧
        (b = true → ∃ y, DReach dg key y ∧ DCyclic dg y) ∧
        (b = false → key ∈ vis' ∧ (∀ y ∈ dgDeps dg key, y ∈ vis') ∧
          ∀ x ∈ vis', x ∉ vis0 → x ≠ key → ¬ DCyclic dg x ∧ ∀ y, Edge dg x y → y ∈ vis') := by
  intro ds
  induction ds with
  | nil =>
    intro done vis hd hn h0 hk hdone hcl
    simp only [cycleLoop]
    refine ⟨false, vis, rfl, h0, by simp, fun _ => ⟨hk, ?_, hcl⟩⟩
    rw [hd, List.append_nil]; exact hdone
  | cons d ds ihd =>
    intro done vis hd hn h0 hk hdone hcl
    have hdm : d ∈ dgDeps dg key := by rw [hd]; simp
    have hd' : dgDeps dg key = (done ++ [d]) ++ ds := by rw [hd]; simp
    have hcd := hcan key d hdm
    simp only [cycleLoop]
    rw [hcd]
    by_cases hdk : d = key
    · exact absurd ⟨hdk ▸ hdm, hkey⟩ hself
    · rw [if_neg hdk]
      obtain ⟨b, vis1, e, hm, ht, hf⟩ := ih d vis hn
      rw [e]
      cases b with
      | true =>
        refine ⟨true, vis1, rfl, fun x hx => hm x (h0 x hx), fun _ => ?_, by simp⟩
        obtain ⟨y, hy, hc⟩ := ht rfl
        by_cases hkd : (dg.lookup d).isSome
        · exact ⟨y, Relation.ReflTransGen.head ⟨hdm, hkd⟩ hy, hc⟩
        · exfalso
          have hnone : dgDeps dg d = [] := by
            unfold dgDeps
            cases h : dg.lookup d with
            | none => rfl
            | some nd => rw [h] at hkd; simp at hkd
          have hyd : y = d := by
            rcases Relation.ReflTransGen.cases_head hy with e | ⟨z, hz, _⟩
            · exact e.symm
            · rw [Edge, hnone] at hz
              simp at hz
          obtain ⟨z, hz, _⟩ := hc
          rw [hyd, Edge, hnone] at hz
          simp at hz
      | false =>
        obtain ⟨hdv, hcl1⟩ := hf rfl
        refine ihd (done ++ [d]) vis1 hd' (lt_of_le_of_lt (outside_mono dg hm) hn) (fun x hx => hm x (h0 x hx)) (hm _ hk) ?_ ?_
        · intro y hy
          rcases List.mem_append.mp hy with hy | hy
          · exact hm y (hdone y hy)
          · rw [List.mem_singleton.mp hy]; exact hdv
        · intro x hx hx0 hxk
          by_cases hxv : x ∈ vis
          · obtain ⟨h1, h2⟩ := hcl x hxv hx0 hxk
            exact ⟨h1, fun y hy => hm y (h2 y hy)⟩
          · exact hcl1 x hx hxv

theorem visit_spec {dg : Depgraph} {inc : List (Str × Bool)} (hcan : ∀ x d, d ∈ dgDeps dg x → canon d = d)
    (hinc : ∀ x, ((dg.lookup x).isSome → ∃ b, inc.lookup x = some b ∧ (Edge dg x x ∨ b = true ↔ DCyclic dg x)) ∧
      ((dg.lookup x) = none → inc.lookup x ≠ some true)) :
    ∀ n key vis, outside dg vis < n → ∃ b vis', ruleCycleVisit dg inc n key vis = .ok (b, vis') ∧
      VisitPost dg key vis b vis' := by
  intro n
  induction n with
  | zero => intro key vis h; omega
  | succ n ih =>
    intro key vis hn
    simp only [ruleCycleVisit]
    by_cases hkv : key ∈ vis
    · rw [if_pos hkv]
      exact ⟨false, vis, rfl, fun _ h => h, by simp, fun _ => ⟨hkv, fun x hx hx' => absurd hx hx'⟩⟩
    rw [if_neg hkv]
    have hmem : ∀ x ∈ vis, x ∈ key :: vis := fun x hx => by simp [hx]
    cases hlk : dg.lookup key with
    | none =>
      have hnil : dgDeps dg key = [] := by simp [dgDeps, hlk]
      have hnc : ¬ DCyclic dg key := by
        rintro ⟨y, hy, _⟩
        rw [Edge, hnil] at hy
        simp at hy
      have hpost : VisitPost dg key vis false (key :: vis) := by
        refine ⟨hmem, by simp, fun _ => ⟨by simp, fun x hx hx' => ?_⟩⟩
        rcases List.mem_cons.mp hx with rfl | hx
        · refine ⟨hnc, fun y hy => ?_⟩
          rw [Edge, hnil] at hy
          simp at hy
        · exact absurd hx hx'
      rw [hnil]
      cases hi : inc.lookup key with
      | none => exact ⟨false, _, rfl, hpost⟩
      | some b =>
        have : b = false := by
          have := (hinc key).2 hlk
          rw [hi] at this
          cases b <;> simp_all
        subst this
        exact ⟨false, _, by simp [cycleLoop], hpost⟩
    | some nd =>
      have hk : (dg.lookup key).isSome := by rw [hlk]; rfl
      obtain ⟨b, hb, hbc⟩ := (hinc key).1 hk
      rw [hb]
      simp only []
      have hany : (dgDeps dg key).any (fun d => canon d == key) = true ↔ Edge dg key key := by
        rw [List.any_eq_true]
        constructor
        · rintro ⟨d, hd, he⟩
          have : canon d = key := by simpa using he
          rw [hcan key d hd] at this
          exact ⟨this ▸ hd, hk⟩
        · rintro ⟨hd, _⟩
          exact ⟨key, hd, by simpa using hcan key key hd⟩
      by_cases hself : Edge dg key key
      · rw [if_pos (hany.mpr hself)]
        exact ⟨true, _, rfl, hmem, fun _ => ⟨key, Relation.ReflTransGen.refl, hbc.mp (Or.inl hself)⟩, by simp⟩
      · rw [if_neg (fun h => hself (hany.mp h))]
        cases b with
        | true =>
          exact ⟨true, _, rfl, hmem, fun _ => ⟨key, Relation.ReflTransGen.refl, hbc.mp (Or.inr rfl)⟩, by simp⟩
        | false =>
          have hnc : ¬ DCyclic dg key := fun h => by
            rcases hbc.mpr h with h | h
            · exact hself h
            · cases h
          have hlt := outside_lt dg hk hkv
          obtain ⟨b, vis1, e, h0, ht, hf⟩ := visit_loop_spec hcan ih hself hk (vis0 := vis) (dgDeps dg key) [] (key :: vis)
            rfl (by omega) hmem (by simp) (by simp) (by
              intro x hx hx' hne
              rcases List.mem_cons.mp hx with h | h
              · exact absurd h hne
              · exact absurd h hx')
          simp only [Bool.false_eq_true, if_false]
          refine ⟨b, vis1, e, h0, ht, fun hbf => ?_⟩
          obtain ⟨h1, h2, h3⟩ := hf hbf
          refine ⟨h1, fun x hx hx' => ?_⟩
          by_cases hxk : x = key
          · rw [hxk]
            exact ⟨hnc, fun y hy => h2 y hy.1⟩
          · exact h3 x hx hx' hxk

namespace Props

/-- C20.  Whatever the iteration orders, `RuleContainsCycle` fails exactly on names that stand for no rule, and
otherwise returns true exactly when some rule that can be reached from the given one refers to itself, directly or
through other rules. -/
theorem C20_exact (g : Grammar) (hd : NamesDistinct g) (core : List Rule) (hcore : core.Perm Core.rules)
    (order : List Str) (ho : order.Perm ((dependencyGraph core g).map Prod.fst)) (name : Str) :
    (ruleContainsCycle core g order name = none ↔ ¬ ∃ r, Resolves g name r) ∧
    ∀ r, Resolves g name r → ∃ b, ruleContainsCycle core g order name = some (.ok b) ∧
      (b = true ↔ ∃ r', Relation.ReflTransGen (Refers g) r r' ∧ Cyclic g r') := by
  constructor
  · unfold ruleContainsCycle
    rw [← getRule_isSome]
    cases getRule name g.rules <;> simp
  · intro r hr
    obtain ⟨sccs, hs, l, hp, hl⟩ := find_total _ order ho
    have hcan : ∀ x d, d ∈ dgDeps (dependencyGraph core g) x → canon d = d := by
      intro x d hdm
      cases hlk : (dependencyGraph core g).lookup x with
      | none => simp [dgDeps, hlk] at hdm
      | some nd =>
        have hx : ((dependencyGraph core g).lookup x).isSome := by rw [hlk]; rfl
        have hcx := key_canon hd hcore hx
        rw [← hcx] at hx hdm
        obtain ⟨r, hr⟩ := (lookup_iff hd hcore).mp hx
        rw [dgDeps_eq hd hcore hr, mem_getDependencies] at hdm
        obtain ⟨q, _, n, _, rfl⟩ := hdm
        exact canon_canon n
    have hfuel : outside (dependencyGraph core g) [] < tFuel (dependencyGraph core g) := by
      unfold outside tFuel
      have := List.length_filter_le (fun k => decide (k ∉ ([] : List Str))) ((dependencyGraph core g).map Prod.fst)
      simp only [List.length_map] at this
      omega
    obtain ⟨b, vis, e, h0, ht, hf⟩ := visit_spec hcan (inCycle_spec hp hl) _ (canon name) [] hfuel
    have hrule : getRule name g.rules = some r := (getRule_iff hd).mpr hr
    refine ⟨b, ?_, ?_⟩
    · unfold ruleContainsCycle
      rw [hrule, hs]
      simp only [e]
    have key : b = true ↔ ∃ y, DReach (dependencyGraph core g) (canon name) y ∧ DCyclic (dependencyGraph core g) y := by
      refine ⟨ht, ?_⟩
      rintro ⟨y, hy, hc⟩
      by_contra hb
      obtain ⟨h1, h2⟩ := hf (by simpa using hb)
      have := reach_closed (P := fun z => z ∈ vis) (fun x y hx he => (h2 x hx (by simp)).2 y he) hy h1
      exact (h2 y this (by simp)).1 hc
    rw [key]
    constructor
    · rintro ⟨y, hy, hc⟩
      obtain ⟨r', h1, rfl⟩ := (reach_iff hd hcore hr y).mp hy
      have h3 : Resolves g r'.name r' := by
        rcases Relation.ReflTransGen.cases_tail h1 with e | ⟨_, _, h4⟩
        · rw [e]; exact resolves_self hr
        · exact refers_resolves h4
      exact ⟨r', h1, (cyclic_iff hd hcore h3).mpr hc⟩
    · rintro ⟨r', h1, hc⟩
      have h3 : Resolves g r'.name r' := by
        rcases Relation.ReflTransGen.cases_tail h1 with e | ⟨_, _, h4⟩
        · rw [e]; exact resolves_self hr
        · exact refers_resolves h4
      exact ⟨canon r'.name, (reach_iff hd hcore hr _).mpr ⟨r', h1, rfl⟩, (cyclic_iff hd hcore h3).mp hc⟩

example : NamesDistinct Ex.expr ∧ ruleContainsCycle Core.rules Ex.expr (plainOrder Ex.expr) (str% "EXPR") = some (.ok true) ∧
    ruleContainsCycle Core.rules Ex.expr (plainOrder Ex.expr) (str% "digit") = some (.ok false) ∧
    ruleContainsCycle Core.rules Ex.expr (plainOrder Ex.expr) (str% "nosuch") = none :=
  ⟨Ex.expr_wf.2.1, by decide +kernel, by decide +kernel, by decide +kernel⟩

end Props

end Verif
