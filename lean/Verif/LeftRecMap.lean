import Verif.LeftRecLemmas
import Verif.RecogTerm

/-!
# The map of left-recursive rules

What `leftRecursiveSCCs` returns, in terms of left corners.
-/

namespace Verif
open Spec

/-- The component is one the recogniser treats as left-recursive. -/
def Looping (dg : Depgraph) (s : List Str) : Prop := s.length > 1 ∨ selfCorner dg s = true

theorem lookup_append_some {α : Type} {k : Str} {v : α} : ∀ {l m : List (Str × α)}, (l ++ m).lookup k = some v →
    l.lookup k = some v ∨ m.lookup k = some v := by
  intro l m h
  rw [List.lookup_append] at h
  cases hl : l.lookup k with
  | none => rw [hl] at h; exact Or.inr (by simpa using h)
  | some w => rw [hl] at h; exact Or.inl (by simpa using h)

theorem lookup_const {k : Str} {s t : List Str} : ∀ {l : List Str}, (l.map fun x => (x, s)).lookup k = some t → k ∈ l ∧ t = s := by
  intro l h
  have := lookup_mem h
  simp only [List.mem_map, Prod.mk.injEq] at this
  obtain ⟨x, hx, rfl, rfl⟩ := this
  exact ⟨hx, rfl⟩

theorem leftRecMap_some {dg : Depgraph} {n : Str} {s : List Str} : ∀ (sccs : List (List Str)) (m : List (Str × List Str)),
    (leftRecMap dg sccs m).lookup n = some s → (s ∈ sccs ∧ n ∈ s ∧ Looping dg s) ∨ m.lookup n = some s := by
  intro sccs
  induction sccs with
  | nil => intro m h; exact Or.inr h
  | cons c sccs ih =>
    intro m h
    rw [leftRecMap] at h
    split_ifs at h with hc
    · rcases ih _ h with ⟨h1, h2, h3⟩ | h1
      · exact Or.inl ⟨List.mem_cons_of_mem _ h1, h2, h3⟩
      · rcases lookup_append_some h1 with h1 | h1
        · obtain ⟨h2, rfl⟩ := lookup_const h1
          refine Or.inl ⟨by simp, h2, ?_⟩
          simpa [Looping] using hc
        · exact Or.inr h1
    · rcases ih _ h with ⟨h1, h2, h3⟩ | h1
      · exact Or.inl ⟨List.mem_cons_of_mem _ h1, h2, h3⟩
      · exact Or.inr h1

theorem lookup_isSome_of_mem {α : Type} {k : Str} : ∀ {l : List (Str × α)}, k ∈ l.map Prod.fst → (l.lookup k).isSome := by
  intro l
  induction l with
  | nil => intro h; simp at h
  | cons p l ih =>
    obtain ⟨x, y⟩ := p
    intro h
    by_cases hx : k = x
    · subst hx; simp
    · rw [List.lookup_cons, beq_eq_false_iff_ne.mpr hx]
      simp only [List.map_cons, List.mem_cons, hx, false_or] at h
      exact ih h

theorem leftRecMap_isSome {dg : Depgraph} {n : Str} : ∀ (sccs : List (List Str)) (m : List (Str × List Str)),
    (m.lookup n).isSome ∨ (∃ s ∈ sccs, n ∈ s ∧ Looping dg s) → ((leftRecMap dg sccs m).lookup n).isSome := by
  intro sccs
  induction sccs with
  | nil => rintro m (h | ⟨s, hs, _⟩); · exact h
           · cases hs
  | cons c sccs ih =>
    intro m h
    rw [leftRecMap]
    split_ifs with hc
    · apply ih
      rcases h with h | ⟨s, hs, h1, h2⟩
      · left
        rw [List.lookup_append]
        cases (c.map fun x => (x, c)).lookup n <;> simp [h]
      · rcases List.mem_cons.mp hs with rfl | hs
        · left
          rw [List.lookup_append]
          have : ((s.map fun x => (x, s)).lookup n).isSome := lookup_isSome_of_mem (by simpa using h1)
          cases h3 : (s.map fun x => (x, s)).lookup n with
          | none => rw [h3] at this; cases this
          | some v => simp
        · exact Or.inr ⟨s, hs, h1, h2⟩
    · apply ih
      rcases h with h | ⟨s, hs, h1, h2⟩
      · exact Or.inl h
      · rcases List.mem_cons.mp hs with rfl | hs
        · exact absurd (by simpa [Looping] using h2) hc
        · exact Or.inr ⟨s, hs, h1, h2⟩

/-- What is known of the left-recursive rules in general. -/
structure LRFacts (g : Grammar) (lr : List (Str × List Str)) : Prop where
  mem : ∀ n s, lr.lookup n = some s → n ∈ s
  res : ∀ n s, lr.lookup n = some s → ∀ x ∈ s, canon x = x ∧ ∃ r, Resolves g x r
  cyc : ∀ n, LeftRecursive g n → (lr.lookup (canon n)).isSome
  conn : ∀ n s, lr.lookup n = some s → ∀ x ∈ s, ∀ y ∈ s, ∃ y', canon y' = y ∧
    Relation.TransGen (LeftCorner g) (.rulename x) (.rulename y')

/-- What is known if left recursion is simple. -/
structure LRGood (g : Grammar) (lr : List (Str × List Str)) : Prop extends LRFacts g lr where
  cons : LRConsistent lr
  nodup : ∀ n s, lr.lookup n = some s → s.Nodup
  same : ∀ n s, lr.lookup n = some s → ∀ x ∈ s, ∀ m y, Relation.TransGen (LeftCorner g) (.rulename x) (.rulename m) →
    Relation.TransGen (LeftCorner g) (.rulename m) (.rulename y) → canon y ∈ s → canon m ∈ s

section
variable {g : Grammar}

theorem dgDeps_key {dg : Depgraph} {x y : Str} (h : y ∈ dgDeps dg x) : (dg.lookup x).isSome := by
  unfold dgDeps at h
  cases hl : dg.lookup x with
  | none => rw [hl] at h; cases h
  | some d => rfl

theorem edge_key {dg : Depgraph} {x y : Str} (h : Edge dg x y) : (dg.lookup x).isSome := dgDeps_key h.1

/-- A looping component is cyclic: each member reaches each. -/
theorem looping_reach {dg : Depgraph} {s : List Str} (h : IsSCC dg s ∨ ∃ v, s = [v] ∧ Edge dg v v) (hl : Looping dg s) :
    ∀ x ∈ s, ∀ y ∈ s, Relation.TransGen (Edge dg) x y := by
  have hself : ∀ v, s = [v] → Edge dg v v → ∀ x ∈ s, ∀ y ∈ s, Relation.TransGen (Edge dg) x y := by
    rintro v rfl he x hx y hy
    rw [List.mem_singleton] at hx hy
    subst hx hy
    exact .single he
  rcases h with h | ⟨v, hv, he⟩
  · rcases hl with hl | hl
    · obtain ⟨hnd, r, hr, hm⟩ := h
      have hmut : ∀ x ∈ s, ∀ y ∈ s, DReach dg x y := fun x hx y hy => ((hm x).mp hx).2.trans ((hm y).mp hy).1
      have hne : ∀ x ∈ s, ∀ y ∈ s, x ≠ y → Relation.TransGen (Edge dg) x y := by
        intro x hx y hy hne
        rcases Relation.reflTransGen_iff_eq_or_transGen.mp (hmut x hx y hy) with h | h
        · exact absurd h.symm hne
        · exact h
      intro x hx y hy
      by_cases e : x = y
      · subst e
        have : ∃ z ∈ s, x ≠ z := by
          match s, hl, hnd with
          | a :: b :: s, _, hnd =>
            by_cases hxa : x = a
            · refine ⟨b, by simp, ?_⟩
              rintro rfl
              subst hxa
              simp at hnd
            · exact ⟨a, by simp, hxa⟩
        obtain ⟨z, hz, hxz⟩ := this
        exact (hne x hx z hz hxz).trans (hne z hz x hx (Ne.symm hxz))
      · exact hne x hx y hy e
    · match s, hl with
      | a :: s', hl =>
        simp only [selfCorner, decide_eq_true_eq] at hl
        have he : Edge dg a a := ⟨hl, dgDeps_key hl⟩
        obtain ⟨hnd, r, hr, hm⟩ := h
        intro x hx y hy
        have h1 : DReach dg x a := ((hm x).mp hx).2.trans ((hm a).mp (by simp)).1
        have h2 : DReach dg a y := ((hm a).mp (by simp)).2.trans ((hm y).mp hy).1
        exact Relation.TransGen.trans_right h1 (Relation.TransGen.head' he h2)
  · exact hself v hv he

theorem transGen_keys {dg : Depgraph} {x y : Str} (h : Relation.TransGen (Edge dg) x y) :
    (dg.lookup x).isSome ∧ (dg.lookup y).isSome := by
  induction h with
  | single h => exact ⟨edge_key h, h.2⟩
  | tail _ h ih => exact ⟨ih.1, h.2⟩

theorem edge_refers (hd : NamesDistinct g) {null : List Str} (hx : NullExact g null) {names : List Str}
    (hn : names.Perm (g.rules.map Rule.name ++ Core.rules.map Rule.name)) {x y : Str}
    (h : Edge (leftCornerGraph null g names) x y) : RefersFirst g x y := by
  obtain ⟨_, hy, hr', r, hr, e, hs, k, hk, hc⟩ := (lcGraph_edge hd hx hn).mp h
  exact ⟨hr', r, e, k, hr, hs, hk, (sameName_iff _ _).mpr (hc.trans hy.symm)⟩

theorem leftRec_spec {o : LOrders} (hd : NamesDistinct g) (ho : o.Fair g) :
    ∃ m, leftRecursiveSCCs o g = .ok m ∧ LRFacts g m ∧ (SimpleLeftRecursion g → LRGood g m) := by
  obtain ⟨null, hnull, hx, -⟩ := nullExact hd ho.pass ho.names
  obtain ⟨sccs, hf, l, hp, hl⟩ := find_total (leftCornerGraph null g o.names') _ (ho.order _)
  refine ⟨leftRecMap (leftCornerGraph null g o.names') sccs [], ?_, ?_⟩
  · unfold leftRecursiveSCCs
    rw [hnull]; simp only [hf]
  set dg := leftCornerGraph null g o.names' with hdg
  have hsub : ∀ s ∈ l, s ∈ sccs := by
    intro s hs
    rcases hl with rfl | ⟨A, B, v, _, rfl, rfl, _⟩
    · exact hs
    · rcases List.mem_append.mp hs with hs | hs <;> simp [hs]
  have hsup : ∀ s ∈ sccs, IsSCC dg s ∨ ∃ v, s = [v] ∧ Edge dg v v := by
    intro s hs
    rcases hl with rfl | ⟨A, B, v, _, rfl, rfl, hv⟩
    · exact Or.inl (hp.scc s hs)
    · simp only [List.mem_append, List.mem_cons] at hs
      rcases hs with hs | rfl | hs
      · exact Or.inl (hp.scc s (by simp [hs]))
      · rcases hv with hv | hv
        · exact Or.inr ⟨v, rfl, hv⟩
        · exact Or.inl hv
      · exact Or.inl (hp.scc s (by simp [hs]))
  have hlook : ∀ n s, (leftRecMap dg sccs []).lookup n = some s → s ∈ sccs ∧ n ∈ s ∧ Looping dg s := by
    intro n s h
    rcases leftRecMap_some sccs [] h with h | h
    · exact h
    · cases h
  have hkey : ∀ x, (dg.lookup x).isSome → canon x = x ∧ ∃ r, Resolves g x r := by
    intro x h
    rw [hdg, lcGraph_lookup ho.names' x] at h
    split_ifs at h with hc
    · cases hr : getRule x g.rules with
      | none => rw [hr] at h; cases h
      | some r => exact ⟨hc, r, getRule_resolves hr⟩
    · cases h
  have hfacts : LRFacts g (leftRecMap dg sccs []) := by
    refine ⟨fun n s h => (hlook n s h).2.1, ?_, ?_, ?_⟩
    · intro n s h x hxs
      obtain ⟨h1, _, h3⟩ := hlook n s h
      exact hkey x (transGen_keys (looping_reach (hsup s h1) h3 x hxs x hxs)).1
    · rintro n ⟨m, hnm, hc⟩
      have hcan : canon n = canon m := (sameName_iff _ _).mp hnm
      have hm : ∃ r, Resolves g m r := by
        obtain ⟨e, h1, _⟩ := Relation.TransGen.head'_iff.mp hc
        cases h1 with
        | rule _ r _ hr _ => exact ⟨r, (resolves_congr hcan).mp hr⟩
      have ht := (corner_edge hd hx ho.names' hm hc).1 n rfl
      rw [← hcan] at ht
      obtain ⟨s, hs, hns⟩ := hp.cover _ (transGen_keys ht).1
      have hscc := hp.scc s hs
      refine leftRecMap_isSome sccs [] (Or.inr ⟨s, hsub s hs, hns, ?_⟩)
      have hdc : DCyclic dg (canon n) := by
        obtain ⟨y, h1, h2⟩ := Relation.TransGen.head'_iff.mp ht
        exact ⟨y, h1, h2⟩
      rcases dcyclic_iff.mp hdc with he | ⟨y, hy1, hy2⟩
      · by_cases hlen : s.length > 1
        · exact Or.inl hlen
        · match s, hns, hlen with
          | [a], hns, _ =>
            rw [List.mem_singleton] at hns
            subst hns
            exact Or.inr (by simpa [selfCorner] using he.1)
          | a :: b :: s', _, hlen => simp at hlen
      · exact Or.inl ((scc_length hscc).mpr ⟨_, hns, y, hy1, hy2⟩)
    · intro n s h x hxs y hys
      obtain ⟨h1, _, h3⟩ := hlook n s h
      exact reach_corner hd hx ho.names' (looping_reach (hsup s h1) h3 x hxs y hys)
  refine ⟨hfacts, fun hsimple => ?_⟩
  have hscc : ∀ s ∈ sccs, IsSCC dg s := by
    intro s hs
    rcases hsup s hs with h | ⟨v, rfl, he⟩
    · exact h
    · refine ⟨by simp, v, by simp, fun x => ?_⟩
      constructor
      · intro hx; rw [List.mem_singleton.mp hx]; exact ⟨.refl, .refl⟩
      · rintro ⟨h1, h2⟩
        rw [List.mem_singleton]
        by_contra hne
        have lift : ∀ a b, Relation.TransGen (Edge dg) a b → Relation.TransGen (RefersFirst g) a b :=
          fun a b h => Relation.TransGen.mono (fun _ _ h => edge_refers hd hx ho.names' h) _ _ h
        have t1 : Relation.TransGen (Edge dg) v x := by
          rcases Relation.reflTransGen_iff_eq_or_transGen.mp h1 with h | h
          · exact absurd h hne
          · exact h
        have t2 : Relation.TransGen (Edge dg) x v := by
          rcases Relation.reflTransGen_iff_eq_or_transGen.mp h2 with h | h
          · exact absurd h.symm hne
          · exact h
        have := (sameName_iff _ _).mp (hsimple v x (edge_refers hd hx ho.names' he) (lift _ _ t1) (lift _ _ t2))
        rw [(hkey v (transGen_keys t1).1).1, (hkey x (transGen_keys t1).2).1] at this
        exact hne this.symm
  refine { hfacts with cons := ?_, nodup := fun n s h => (hscc s (hlook n s h).1).1, same := ?_ }
  · intro n s h x hxs
    obtain ⟨h1, _, h3⟩ := hlook n s h
    have := leftRecMap_isSome sccs [] (Or.inr ⟨s, h1, hxs, h3⟩)
    obtain ⟨t, ht⟩ := Option.isSome_iff_exists.mp this
    rw [ht]
    obtain ⟨h4, h5, _⟩ := hlook x t ht
    have hmem := scc_unique (hscc s h1) (hscc t h4) hxs h5
    have hsing : ∀ (u : List Str) (v : Str), IsSCC dg u → (∀ y, y ∈ u ↔ y ∈ [v]) → u = [v] := by
      rintro u v ⟨hnd, _⟩ h
      exact List.perm_singleton.mp ((List.perm_ext_iff_of_nodup hnd (by simp)).mpr h)
    have hdisj : ∀ u ∈ l, ∀ u' ∈ l, x ∈ u → x ∈ u' → u = u' := by
      intro u hu u' hu' hxu hxu'
      by_contra hne
      have hsymm : Std.Symm fun a b : List Str => ∀ z ∈ a, z ∉ b := ⟨fun a b h z hz hza => h z hza hz⟩
      exact hp.disj.forall hu hu' hne x hxu hxu'
    rcases hl with rfl | ⟨A, B, v, _, rfl, rfl, _⟩
    · rw [hdisj t h4 s h1 h5 hxs]
    · have hcase : ∀ u ∈ A ++ [v] :: B, u = [v] ∨ u ∈ A ++ B := by
        intro u hu
        simp only [List.mem_append, List.mem_cons] at hu ⊢
        tauto
      rcases hcase s h1 with rfl | hs
      · rw [hsing t v (hscc t h4) (fun y => (hmem y).symm)]
      · rcases hcase t h4 with rfl | ht'
        · rw [hsing s v (hscc s h1) hmem]
        · rw [hdisj t ht' s hs h5 hxs]
  · intro n s h x hxs m y h1 h2 hy
    obtain ⟨h3, _, h5⟩ := hlook n s h
    have hm : ∃ r, Resolves g m r := by
      obtain ⟨e, h1, _⟩ := Relation.TransGen.head'_iff.mp h2
      cases h1 with
      | rule _ r _ hr _ => exact ⟨r, hr⟩
    have hyr : ∃ r, Resolves g y r := by
      obtain ⟨r, hr⟩ := (hfacts.res n s h _ hy).2
      exact ⟨r, (resolves_congr (canon_canon y)).mp hr⟩
    have t1 := (corner_edge hd hx ho.names' hm h1).1 x rfl
    have t2 := (corner_edge hd hx ho.names' hyr h2).1 m rfl
    rw [(hfacts.res n s h x hxs).1] at t1
    have t3 := looping_reach (Or.inl (hscc s h3)) h5 _ hy x hxs
    obtain ⟨_, r, _, hr⟩ := hscc s h3
    have hxr := (hr x).mp hxs
    exact (hr _).mpr ⟨hxr.1.trans t1.to_reflTransGen, (t2.trans t3).to_reflTransGen.trans hxr.2⟩

end

end Verif
