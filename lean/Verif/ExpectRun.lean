import Verif.ExpectElem
import Verif.FuzzAll

/-!
# What `ExpectedNext` returns
-/

namespace Verif

open Spec

theorem union_has {ems : Nat → Option (List Emission)} (b : UInt8) (l : List ExpState) : ∀ acc,
    octetHas (l.foldl (fun acc s => octetUnion acc (setAt ems s)) acc) b = true ↔
      octetHas acc b = true ∨ ∃ s ∈ l, octetHas (setAt ems s) b = true := by
  induction l with
  | nil => intro acc; simp
  | cons s l ih =>
    intro acc
    rw [List.foldl_cons, ih, octetHas_union]
    simp only [List.mem_cons, exists_eq_or_imp, or_assoc]

/-- The parts of a successful call. -/
theorem expectedNext_parts {G : FuzzGen} {ord : Nat → List Emission → List Emission} {pre next : Bytes} {acc : Bool}
    (he : expectedNext G ord pre = some (next, acc)) : ∃ ready ready' last all,
      expStartAll (emissionsOf G.heap ord) (G.frag.ins.filterMap id) [] = some ready ∧
      expLoop G.heap G.frag (emissionsOf G.heap ord) pre ready false = some (ready', last, all) ∧
      (all = false → next = [] ∧ acc = false) ∧
      (all = true → (∀ b, b ∈ next ↔ ∃ s ∈ ready', octetHas (setAt (emissionsOf G.heap ord) s) b = true) ∧
        (pre = [] → acc = decide (none ∈ G.frag.outs)) ∧ (pre ≠ [] → acc = last)) := by
  unfold expectedNext at he
  simp only at he
  split at he
  · cases he
  · rename_i ready hr
    split at he
    · cases he
    · rename_i ready' last all hl
      refine ⟨ready, ready', last, all, hr, hl, ?_, ?_⟩
      · rintro rfl
        simp only [Bool.not_false, if_true, Option.some.injEq, Prod.mk.injEq] at he
        exact ⟨he.1.symm, he.2.symm⟩
      · rintro rfl
        simp only [Bool.not_true, Bool.false_eq_true, if_false, Option.some.injEq, Prod.mk.injEq] at he
        obtain ⟨rfl, rfl⟩ := he
        refine ⟨fun b => ?_, ?_, fun h => ?_⟩
        · rw [mem_octetBytes, union_has, octetHas_none]
          simp
        · rintro rfl
          rfl
        · have : pre.isEmpty = false := by cases pre <;> simp_all
          rw [this]
          rfl

theorem expectedNext_complete {G : FuzzGen} {ord : Nat → List Emission → List Emission} {pre next : Bytes} {acc : Bool}
    (he : expectedNext G ord pre = some (next, acc)) {D : Elem → Bytes → Prop} (HD : Covers D G.heap (emissionsOf G.heap ord))
    {n : Nat} (hn : some n ∈ G.frag.ins) {w : Bytes} (hs : Spells D G.heap G.frag.outs n (pre ++ w)) :
    (w = [] → acc = true) ∧ ∀ b rest, w = b :: rest → b ∈ next := by
  obtain ⟨ready, ready', last, all, h1, h2, h3, h4⟩ := expectedNext_parts he
  obtain ⟨h5, h6⟩ := expStartAll_spec _ _ _ h1
  have hn' : n ∈ G.frag.ins.filterMap id := by simpa using hn
  obtain ⟨i, em, h7, h8, h9⟩ := spells_cont HD hs (h5 n hn')
  obtain ⟨h10, h11⟩ := expLoop_complete HD pre _ _ _ _ _ h2 ⟨n, i, 0⟩ ((h6 _).mpr (.inr ⟨n, hn', i, em, h7, h8, rfl⟩)) w h9
  obtain ⟨h12, h13, h14⟩ := h4 h10
  have hcont : ∀ t, ¬ Cont D G.heap G.frag.outs (emissionsOf G.heap ord) t [] := by
    rintro t ⟨em, y, v, _, _, h, h', _⟩
    cases y with
    | nil => exact h rfl
    | cons => cases h'
  refine ⟨?_, ?_⟩
  · rintro rfl
    by_cases hp : pre = []
    · subst hp
      rw [List.nil_append] at h9
      exact absurd h9 (hcont _)
    · rw [h14 hp]
      rcases h11 with ⟨_, h⟩ | ⟨t, _, h⟩
      · exact h
      · exact absurd h (hcont _)
  · rintro b rest rfl
    rcases h11 with ⟨h, _⟩ | ⟨t, ht, h⟩
    · cases h
    · exact (h12 b).mpr ⟨t, ht, (cont_has h).1⟩

/-- Every state can be left over any octet of its set, if every node leads to an end. -/
theorem state_cont {D : Elem → Bytes → Prop} {h : TgHeap} {outs : Pts} {ems : Nat → Option (List Emission)}
    (hinh : ∀ n es em, ems n = some es → em ∈ es → ∀ s ∈ em, ∃ b, octetHas s b = true) {s : ExpState} (hs : StateOK ems s)
    (hend : some s.node ∈ outs ∨ ∃ m ∈ h.nexts s.node, ∃ v, Spells D h outs m v) {b : UInt8} (hb : octetHas (setAt ems s) b = true) :
    ∃ rest, Cont D h outs ems s (b :: rest) := by
  obtain ⟨em, h1, h2⟩ := hs
  obtain ⟨es, e1, e2⟩ := h1
  have hfill : ∀ em : Emission, (∀ s ∈ em, ∃ b, octetHas s b = true) → ∃ w, Matches em w := by
    intro em
    induction em with
    | nil => exact fun _ => ⟨[], .nil⟩
    | cons s em ih =>
      intro h
      obtain ⟨b, hb⟩ := h s (List.mem_cons_self ..)
      obtain ⟨w, hw⟩ := ih fun t ht => h t (List.mem_cons_of_mem _ ht)
      exact ⟨b :: w, .cons hb hw⟩
  obtain ⟨w, hw⟩ := hfill (em.drop (s.pos + 1)) fun t ht => hinh _ _ _ e1 (List.mem_of_getElem? e2) t (List.drop_subset _ _ ht)
  have hm : Matches (em.drop s.pos) (b :: w) := by
    rw [List.drop_eq_getElem_cons h2]
    refine .cons ?_ hw
    rw [(setAt_eq ⟨es, e1, e2⟩).1, List.getD_eq_getElem _ _ h2] at hb
    exact hb
  rcases hend with h3 | ⟨m, h3, v, h4⟩
  · exact ⟨w, em, b :: w, [], ⟨es, e1, e2⟩, hm, List.cons_ne_nil _ _, by rw [List.append_nil], .inl ⟨h3, rfl⟩⟩
  · exact ⟨w ++ v, em, b :: w, v, ⟨es, e1, e2⟩, hm, List.cons_ne_nil _ _, rfl, .inr ⟨m, h3, h4⟩⟩

theorem start_reached {f : TgFrag} {ems : Nat → Option (List Emission)} {ready : List ExpState}
    (hr : expStartAll ems (f.ins.filterMap id) [] = some ready) : ∀ s ∈ ready, StateOK ems s ∧ some s.node ∈ f.ins ∧ s.pos = 0 := by
  obtain ⟨_, h6⟩ := expStartAll_spec _ _ _ hr
  intro s hs
  rcases (h6 s).mp hs with h7 | ⟨n, h7, i, em, h8, h9, rfl⟩
  · cases h7
  · exact ⟨⟨em, h8, List.length_pos_iff.mpr h9⟩, by simpa using h7, rfl⟩

theorem expLoop_reached {h : TgHeap} {f : TgFrag} {ems : Nat → Option (List Emission)} (bs : Bytes) : ∀ ready last0 ready' last all,
    expLoop h f ems bs ready last0 = some (ready', last, all) → (∀ s ∈ ready, ReachedFrom h f.ins s.node) →
    ∀ s ∈ ready', ReachedFrom h f.ins s.node := by
  induction bs with
  | nil =>
    intro ready last0 ready' last all H hr
    simp only [expLoop, Option.some.injEq, Prod.mk.injEq] at H
    obtain ⟨rfl, _⟩ := H
    exact hr
  | cons b bs ih =>
    intro ready last0 ready' last all H hr
    rw [expLoop] at H
    split at H
    · cases H
    · simp only [Option.some.injEq, Prod.mk.injEq] at H
      obtain ⟨rfl, _⟩ := H
      simp
    · rename_i r rs last1 hstep
      obtain ⟨h1, _, _⟩ := expStep_spec _ _ _ _ _ hstep
      refine ih _ _ _ _ _ H fun t ht => ?_
      rcases (h1 t).mp ht with h3 | ⟨s, h3, h4⟩
      · cases h3
      · cases h4 with
        | stay => exact hr s h3
        | next m i em h5 h6 h7 =>
          obtain ⟨i, h8, h9⟩ := hr s h3
          exact ⟨i, h8, h9.tail h7⟩

theorem expectedNext_sound {G : FuzzGen} {ord : Nat → List Emission → List Emission} (hord : ∀ n l, (ord n l).Perm l)
    {pre next : Bytes} {acc : Bool} (he : expectedNext G ord pre = some (next, acc)) {D : Elem → Bytes → Prop}
    (HD : Covered D G.heap (emissionsOf G.heap ord)) :
    (pre ≠ [] → acc = true → ∃ n, some n ∈ G.frag.ins ∧ Spells D G.heap G.frag.outs n pre) ∧
    ((∀ n, ReachedFrom G.heap G.frag.ins n → some n ∈ G.frag.outs ∨ ∃ m ∈ G.heap.nexts n, ∃ v, Spells D G.heap G.frag.outs m v) →
      ∀ b ∈ next, ∃ n rest, some n ∈ G.frag.ins ∧ Spells D G.heap G.frag.outs n (pre ++ b :: rest)) := by
  obtain ⟨ready, ready', last, all, h1, h2, h3, h4⟩ := expectedNext_parts he
  have hstart := start_reached h1
  have hspell : ∀ s ∈ ready, ∀ w, Cont D G.heap G.frag.outs (emissionsOf G.heap ord) s w →
      ∃ n, some n ∈ G.frag.ins ∧ Spells D G.heap G.frag.outs n w := by
    intro s hs w hc
    obtain ⟨_, h5, h6⟩ := hstart s hs
    obtain ⟨n, i, p⟩ := s
    simp only at h6
    subst h6
    exact ⟨n, h5, cont_spells HD hc⟩
  cases all with
  | false =>
    obtain ⟨rfl, rfl⟩ := h3 rfl
    exact ⟨fun _ h => by (cases h), fun _ b hb => by (cases hb)⟩
  | true =>
    obtain ⟨h5, _, h6⟩ := h4 rfl
    obtain ⟨h7, h8⟩ := expLoop_sound HD pre _ _ _ _ h2 fun s hs => (hstart s hs).1
    refine ⟨fun hp ha => ?_, fun hend b hb => ?_⟩
    · obtain ⟨s, h9, h10⟩ := h8 hp (by rw [← h6 hp]; exact ha)
      exact hspell s h9 _ h10
    · obtain ⟨t, h9, h10⟩ := (h5 b).mp hb
      obtain ⟨h11, s, h12, h13⟩ := h7 t h9
      have hreach := expLoop_reached pre _ _ _ _ _ h2 (fun s hs => ⟨s.node, (hstart s hs).2.1, .refl⟩) t h9
      obtain ⟨rest, h14⟩ := state_cont (D := D) (outs := G.frag.outs) (h := G.heap)
        (fun n es em e1 e2 => emissions_inhabited (hord n) e1 e2) h11 (hend t.node hreach) h10
      obtain ⟨n, h15, h16⟩ := hspell s h12 _ (h13 _ h14)
      exact ⟨n, rest, h15, h16⟩

/-! ## Independence of the order -/

/-- Two states of runs with different orders. -/
def SameState (e1 e2 : Nat → Option (List Emission)) (s t : ExpState) : Prop :=
  s.node = t.node ∧ s.pos = t.pos ∧ ∃ em, EmAt e1 s.node s.em em ∧ EmAt e2 t.node t.em em

def SameStates (e1 e2 : Nat → Option (List Emission)) (l r : List ExpState) : Prop :=
  (∀ s ∈ l, ∃ t ∈ r, SameState e1 e2 s t) ∧ ∀ t ∈ r, ∃ s ∈ l, SameState e1 e2 s t

/-- Two tables that differ in the order of the emissions of a node only. -/
def SameTable (e1 e2 : Nat → Option (List Emission)) : Prop :=
  ∀ n, (e1 n = none ↔ e2 n = none) ∧ ∀ em, (∃ i, EmAt e1 n i em) ↔ ∃ i, EmAt e2 n i em

theorem SameTable.symm {e1 e2 : Nat → Option (List Emission)} (h : SameTable e1 e2) : SameTable e2 e1 :=
  fun n => ⟨(h n).1.symm, fun em => ((h n).2 em).symm⟩

theorem SameState.symm {e1 e2 : Nat → Option (List Emission)} {s t : ExpState} (h : SameState e1 e2 s t) : SameState e2 e1 t s := by
  obtain ⟨h1, h2, em, h3, h4⟩ := h
  exact ⟨h1.symm, h2.symm, em, h4, h3⟩

theorem SameState.sets {e1 e2 : Nat → Option (List Emission)} {s t : ExpState} (h : SameState e1 e2 s t) :
    setAt e1 s = setAt e2 t ∧ lenAt e1 s = lenAt e2 t := by
  obtain ⟨h1, h2, em, h3, h4⟩ := h
  obtain ⟨a1, a2⟩ := setAt_eq h3
  obtain ⟨b1, b2⟩ := setAt_eq h4
  rw [a1, a2, b1, b2, h2]
  exact ⟨rfl, rfl⟩

theorem SameState.moves {e1 e2 : Nat → Option (List Emission)} (hT : SameTable e1 e2) {h : TgHeap} {b : UInt8} {s t s' : ExpState}
    (H : SameState e1 e2 s t) (hm : Moves h e1 b s s') : ∃ t', Moves h e2 b t t' ∧ SameState e1 e2 s' t' := by
  obtain ⟨hset, hlen⟩ := H.sets
  obtain ⟨h1, h2, em, h3, h4⟩ := H
  cases hm with
  | stay h5 h6 =>
    rw [hset] at h5
    rw [hlen, h2] at h6
    exact ⟨_, .stay h5 h6, h1, by show s.pos + 1 = t.pos + 1; rw [h2], em, h3, h4⟩
  | next m i em' h5 h6 h7 h8 h9 =>
    rw [hset] at h5
    rw [hlen, h2] at h6
    rw [h1] at h7
    obtain ⟨j, h10⟩ := ((hT m).2 em').mp ⟨i, h8⟩
    exact ⟨_, .next m j em' h5 h6 h7 h10 h9, rfl, rfl, em', h8, h10⟩

theorem expStep_none {h : TgHeap} {f : TgFrag} {ems : Nat → Option (List Emission)} {b : UInt8} (ss : List ExpState)
    (hs : ∀ s ∈ ss, octetHas (setAt ems s) b = true → s.pos + 1 = lenAt ems s → ∀ m ∈ h.nexts s.node, ∃ es, ems m = some es) :
    ∀ l last, ∃ r, expStep h f ems b ss l last = some r := by
  induction ss with
  | nil => intro l last; exact ⟨_, rfl⟩
  | cons s ss ih =>
    intro l last
    have ih := ih fun t ht => hs t (List.mem_cons_of_mem _ ht)
    rw [expStep]
    split_ifs with h1 h2
    · obtain ⟨l', hl⟩ := expStartAll_some _ (hs s (List.mem_cons_self ..) h1 h2) l
      rw [hl]
      exact ih _ _
    · exact ih _ _
    · exact ih _ _

theorem some_iff {e1 e2 : Nat → Option (List Emission)} (hT : SameTable e1 e2) {n : Nat} (h : ∃ es, e1 n = some es) : ∃ es, e2 n = some es := by
  obtain ⟨es, h⟩ := h
  cases h2 : e2 n with
  | none => rw [((hT n).1.mpr h2)] at h; cases h
  | some es' => exact ⟨es', rfl⟩

theorem expStep_same {h : TgHeap} {f : TgFrag} {e1 e2 : Nat → Option (List Emission)} (hT : SameTable e1 e2) {b : UInt8}
    {l r : List ExpState} (hlr : SameStates e1 e2 l r) {l' : List ExpState} {last : Bool}
    (hs : expStep h f e1 b l [] false = some (l', last)) : ∃ r', expStep h f e2 b r [] false = some (r', last) ∧ SameStates e1 e2 l' r' := by
  obtain ⟨h1, h2, h3⟩ := expStep_spec _ _ _ _ _ hs
  obtain ⟨⟨r', last'⟩, hr⟩ := expStep_none (h := h) (f := f) (ems := e2) (b := b) r (fun t ht a1 a2 m hm => by
    obtain ⟨s, hsl, hst⟩ := hlr.2 t ht
    obtain ⟨q1, q2⟩ := hst.sets
    refine some_iff hT (h3 s hsl (by rw [q1]; exact a1) (by rw [q2, hst.2.1]; exact a2) m ?_)
    rw [hst.1]
    exact hm) [] false
  obtain ⟨k1, k2, _⟩ := expStep_spec _ _ _ _ _ hr
  have hlast : last = last' := by
    rw [Bool.eq_iff_iff, h2, k2]
    simp only [Bool.false_eq_true, false_or]
    constructor
    · rintro ⟨s, a1, a2, a3, a4⟩
      obtain ⟨t, a5, a6⟩ := hlr.1 s a1
      obtain ⟨q1, q2⟩ := a6.sets
      exact ⟨t, a5, by rw [← q1]; exact a2, by rw [← q2, ← a6.2.1]; exact a3, by rw [← a6.1]; exact a4⟩
    · rintro ⟨t, a1, a2, a3, a4⟩
      obtain ⟨s, a5, a6⟩ := hlr.2 t a1
      obtain ⟨q1, q2⟩ := a6.sets
      exact ⟨s, a5, by rw [q1]; exact a2, by rw [q2, a6.2.1]; exact a3, by rw [a6.1]; exact a4⟩
  refine ⟨r', by rw [hr, hlast], fun s' hs' => ?_, fun t' ht' => ?_⟩
  · rcases (h1 s').mp hs' with h4 | ⟨s, h4, h5⟩
    · cases h4
    · obtain ⟨t, h6, h7⟩ := hlr.1 s h4
      obtain ⟨t', h8, h9⟩ := h7.moves hT h5
      exact ⟨t', (k1 t').mpr (.inr ⟨t, h6, h8⟩), h9⟩
  · rcases (k1 t').mp ht' with h4 | ⟨t, h4, h5⟩
    · cases h4
    · obtain ⟨s, h6, h7⟩ := hlr.2 t h4
      obtain ⟨s', h8, h9⟩ := h7.symm.moves hT.symm h5
      exact ⟨s', (h1 s').mpr (.inr ⟨s, h6, h8⟩), h9.symm⟩

theorem expLoop_same {h : TgHeap} {f : TgFrag} {e1 e2 : Nat → Option (List Emission)} (hT : SameTable e1 e2) (bs : Bytes) :
    ∀ l r last0, SameStates e1 e2 l r → ∀ l' last all, expLoop h f e1 bs l last0 = some (l', last, all) →
      ∃ r', expLoop h f e2 bs r last0 = some (r', last, all) ∧ SameStates e1 e2 l' r' := by
  induction bs with
  | nil =>
    intro l r last0 hlr l' last all H
    simp only [expLoop, Option.some.injEq, Prod.mk.injEq] at H
    obtain ⟨rfl, rfl, rfl⟩ := H
    exact ⟨r, rfl, hlr⟩
  | cons b bs ih =>
    intro l r last0 hlr l' last all H
    rw [expLoop] at H ⊢
    split at H
    · cases H
    · rename_i last1 hstep
      simp only [Option.some.injEq, Prod.mk.injEq] at H
      obtain ⟨rfl, rfl, rfl⟩ := H
      obtain ⟨r', h1, h2⟩ := expStep_same hT hlr hstep
      rw [h1]
      cases r' with
      | nil => exact ⟨[], rfl, h2⟩
      | cons t r' =>
        obtain ⟨s, h3, _⟩ := h2.2 t (List.mem_cons_self ..)
        cases h3
    · rename_i a as last1 hstep
      obtain ⟨r', h1, h2⟩ := expStep_same hT hlr hstep
      rw [h1]
      cases r' with
      | nil =>
        obtain ⟨s, h3, _⟩ := h2.1 a (List.mem_cons_self ..)
        cases h3
      | cons t r' => exact ih _ _ _ h2 _ _ _ H

theorem expStart_same {e1 e2 : Nat → Option (List Emission)} (hT : SameTable e1 e2) {ns : List Nat} {l : List ExpState}
    (hs : expStartAll e1 ns [] = some l) : ∃ r, expStartAll e2 ns [] = some r ∧ SameStates e1 e2 l r := by
  obtain ⟨h1, h2⟩ := expStartAll_spec _ _ _ hs
  obtain ⟨r, hr⟩ := expStartAll_some (ems := e2) ns (fun n hn => some_iff hT (h1 n hn)) []
  obtain ⟨_, k2⟩ := expStartAll_spec _ _ _ hr
  refine ⟨r, hr, fun s hs => ?_, fun t ht => ?_⟩
  · rcases (h2 s).mp hs with h3 | ⟨n, h3, i, em, h4, h5, rfl⟩
    · cases h3
    · obtain ⟨j, h6⟩ := ((hT n).2 em).mp ⟨i, h4⟩
      exact ⟨⟨n, j, 0⟩, (k2 _).mpr (.inr ⟨n, h3, j, em, h6, h5, rfl⟩), rfl, rfl, em, h4, h6⟩
  · rcases (k2 t).mp ht with h3 | ⟨n, h3, i, em, h4, h5, rfl⟩
    · cases h3
    · obtain ⟨j, h6⟩ := ((hT n).2 em).mpr ⟨i, h4⟩
      exact ⟨⟨n, j, 0⟩, (h2 _).mpr (.inr ⟨n, h3, j, em, h6, h5, rfl⟩), rfl, rfl, em, h6, h4⟩

theorem sameTable_of {h : TgHeap} {o1 o2 : Nat → List Emission → List Emission} (h1 : ∀ n l, (o1 n l).Perm l) (h2 : ∀ n l, (o2 n l).Perm l) :
    SameTable (emissionsOf h o1) (emissionsOf h o2) := by
  intro n
  have key : ∀ (p q : List Emission → List Emission) (hp : ∀ l, (p l).Perm l) (hq : ∀ l, (q l).Perm l) (e : Elem),
      (nodeEmissions p e = none → nodeEmissions q e = none) ∧
      ∀ es, nodeEmissions p e = some es → ∃ es', nodeEmissions q e = some es' ∧ ∀ em, em ∈ es ↔ em ∈ es' := by
    intro p q hp hq e
    cases e with
    | charVal s vs => exact ⟨fun h => h, fun es h => ⟨es, h, fun _ => Iff.rfl⟩⟩
    | numVal b st els =>
      cases st with
      | series => exact ⟨fun h => h, fun es h => ⟨es, h, fun _ => Iff.rfl⟩⟩
      | range =>
        simp only [nodeEmissions]
        split_ifs
        · exact ⟨fun h => h, fun es h => ⟨es, h, fun _ => Iff.rfl⟩⟩
        · exact ⟨fun h => h, fun es h => ⟨es, h, fun _ => Iff.rfl⟩⟩
        · exact ⟨fun h => h, fun es h => ⟨es, h, fun _ => Iff.rfl⟩⟩
        · refine ⟨fun h => by (cases h), fun es h => ⟨_, rfl, fun em => ?_⟩⟩
          obtain rfl := Option.some.inj h
          rw [(hp _).mem_iff, (hq _).mem_iff]
    | _ => exact ⟨fun h => h, fun es h => ⟨es, h, fun _ => Iff.rfl⟩⟩
  have hem : ∀ (p q : List Emission → List Emission) (hp : ∀ l, (p l).Perm l) (hq : ∀ l, (q l).Perm l) (em : Emission),
      (∃ (i : Nat) (es : List Emission), nodeEmissions p (h.elem n) = some es ∧ es[i]? = some em) →
        ∃ (i : Nat) (es : List Emission), nodeEmissions q (h.elem n) = some es ∧ es[i]? = some em := by
    rintro p q hp hq em ⟨i, es, h3, h4⟩
    obtain ⟨es', h5, h6⟩ := (key p q hp hq _).2 es h3
    obtain ⟨j, h7⟩ := List.mem_iff_getElem?.mp ((h6 em).mp (List.mem_of_getElem? h4))
    exact ⟨j, es', h5, h7⟩
  exact ⟨⟨(key _ _ (h1 n) (h2 n) _).1, (key _ _ (h2 n) (h1 n) _).1⟩,
    fun em => ⟨hem _ _ (h1 n) (h2 n) em, hem _ _ (h2 n) (h1 n) em⟩⟩

theorem octetBytes_congr {s t : OctetSet} (h : ∀ b, octetHas s b = true ↔ octetHas t b = true) : octetBytes s = octetBytes t := by
  unfold octetBytes
  congr 1
  funext b
  exact Bool.eq_iff_iff.mpr (h b)

theorem expectedNext_order {G : FuzzGen} {o1 o2 : Nat → List Emission → List Emission} (h1 : ∀ n l, (o1 n l).Perm l)
    (h2 : ∀ n l, (o2 n l).Perm l) {pre : Bytes} {r : Bytes × Bool} (he : expectedNext G o1 pre = some r) : expectedNext G o2 pre = some r := by
  have hT := sameTable_of (h := G.heap) h1 h2
  unfold expectedNext at he ⊢
  simp only at he ⊢
  split at he
  · cases he
  · rename_i ready hr
    obtain ⟨ready2, e1, e2⟩ := expStart_same hT hr
    rw [e1]
    split at he
    · cases he
    · rename_i ready' last all hl
      obtain ⟨ready2', e3, e4⟩ := expLoop_same hT pre _ _ _ e2 _ _ _ hl
      simp only [e3]
      rw [← he]
      split_ifs
      · rfl
      all_goals
        congr 2
        refine octetBytes_congr fun b => ?_
        rw [union_has, union_has]
        simp only [octetHas_none, Bool.false_eq_true, false_or]
        constructor
        · rintro ⟨t, h3, h4⟩
          obtain ⟨s, h5, h6⟩ := e4.2 t h3
          exact ⟨s, h5, by rw [h6.sets.1]; exact h4⟩
        · rintro ⟨s, h3, h4⟩
          obtain ⟨t, h5, h6⟩ := e4.1 s h3
          exact ⟨t, h5, by rw [← h6.sets.1]; exact h4⟩

end Verif
