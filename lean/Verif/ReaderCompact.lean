import Verif.ReaderSearch

/-!
# What the compact mode covers
-/

namespace Verif

/-! ## Walks -/

/-- The walks over the points of the searches. -/
def WalkR (R : Reader) (p : Pts) : Prop := ∃ e, e ∈ R.entries ∧ ToStop R e p

theorem toStop_cons {R : Reader} {x : Option Nat} {p : Pts} (H : ToStop R x p) : ∃ q, p = x :: q := by
  cases H with
  | stop => exact ⟨_, rfl⟩
  | step _ y l => exact ⟨_, rfl⟩

theorem toEntry_cons {R : Reader} {x : Option Nat} {p : Pts} (H : ToEntry R x p) : ∃ q, p = x :: q := by
  cases H with
  | entry => exact ⟨_, rfl⟩
  | step _ y l => exact ⟨_, rfl⟩

theorem walkR_of {R : Reader} {x : Option Nat} {l : Pts} (H : ToEntry R x l) : ∀ q, ToStop R x (x :: q) → WalkR R (l.reverse ++ q) := by
  induction H with
  | entry x h1 => intro q hq; exact ⟨x, h1, hq⟩
  | step x y l h1 _ ih =>
    intro q hq
    rw [List.reverse_cons, List.append_assoc]
    exact ih _ (.step y x _ h1 hq)

theorem edgesAlong_mid (a b : Pts) (x y : Option Nat) : (x, y) ∈ edgesAlong (a ++ x :: y :: b) := by
  induction a with
  | nil => exact List.mem_cons_self ..
  | cons c a ih =>
    cases a with
    | nil => exact List.mem_cons_of_mem _ ih
    | cons d a => exact List.mem_cons_of_mem _ ih

theorem edgesAlong_cons (x y : Option Nat) (l : Pts) : edgesAlong (x :: y :: l) = (x, y) :: edgesAlong (y :: l) := rfl

theorem toStop_walk {f : TgFrag} {h : TgHeap} {R : Reader} (HR : ReaderOK f h R) {x : Option Nat} {p : Pts} (H : ToStop R x p) :
    (∀ e ∈ edgesAlong p, e.2 ∈ R.viable e.1) ∧ (∃ z, p.getLast? = some z ∧ z ∈ f.outs) ∧
      (FwdReach R x → ∀ z ∈ p, FwdReach R z) := by
  induction H with
  | stop x h1 =>
    refine ⟨by simp [edgesAlong], ⟨x, rfl, by rw [← HR.frag]; exact h1⟩, fun hx z hz => ?_⟩
    rw [List.mem_singleton.mp hz]
    exact hx
  | step x y l h1 h2 ih =>
    obtain ⟨q, rfl⟩ := toStop_cons h2
    obtain ⟨h3, ⟨z, h4, h5⟩, h6⟩ := ih
    refine ⟨fun e he => ?_, ⟨z, by rw [List.getLast?_cons_cons, h4], h5⟩, fun hx z hz => ?_⟩
    · rw [edgesAlong_cons] at he
      rcases List.mem_cons.mp he with rfl | he
      · exact h1
      · exact h3 e he
    · rcases List.mem_cons.mp hz with rfl | hz
      · exact hx
      · exact h6 (.step x y hx h1) z hz

theorem walkR_walk {f : TgFrag} {h : TgHeap} {R : Reader} (HR : ReaderOK f h R) {p : Pts} (H : WalkR R p) : PtWalk h f p := by
  obtain ⟨_, _, hent⟩ := HR.entries
  obtain ⟨x, h1, h2⟩ := H
  obtain ⟨h3, h4, h5⟩ := toStop_walk HR h2
  obtain ⟨q, rfl⟩ := toStop_cons h2
  refine ⟨⟨x, rfl, ((hent x).mp h1).1⟩, fun e he => ?_, fun z hz => ?_, h4⟩
  · rw [← HR.heap]
    exact (mem_viable.mp (h3 e he)).1
  · exact ptEnds_produces (fwdReach_can HR (h5 (.entry x h1) z hz)).2

theorem walkR_reach {f : TgFrag} {h : TgHeap} {R : Reader} (HR : ReaderOK f h R) {p : Pts} (H : WalkR R p) : ∀ z ∈ p, FwdReach R z := by
  obtain ⟨x, h1, h2⟩ := H
  exact (toStop_walk HR h2).2.2 (.entry x h1)

/-- The rest of a walk that started well. -/
theorem walk_rest {f : TgFrag} {h : TgHeap} {R : Reader} (HR : ReaderOK f h R) (p : Pts) : ∀ x,
    (∀ e ∈ edgesAlong (x :: p), e.2 ∈ h.nextPts e.1) → (∀ z ∈ x :: p, ptProduces h z = true) →
    (∃ z, (x :: p).getLast? = some z ∧ z ∈ f.outs) →
    PtEnds h f x ∧ (FwdReach R x → ToStop R x (x :: p)) := by
  induction p with
  | nil =>
    intro x _ hw hs
    obtain ⟨z, h1, h2⟩ := hs
    simp only [List.getLast?_singleton, Option.some.injEq] at h1
    subst h1
    exact ⟨.stop x (hw x (List.mem_cons_self ..)) h2, fun _ => .stop x (by rw [HR.frag]; exact h2)⟩
  | cons y p ih =>
    intro x hf hw hs
    have h1 : y ∈ h.nextPts x := hf (x, y) (List.mem_cons_self ..)
    obtain ⟨h2, h3⟩ := ih y (fun e he => hf e (List.mem_cons_of_mem _ he)) (fun z hz => hw z (List.mem_cons_of_mem _ hz))
      (by rwa [List.getLast?_cons_cons] at hs)
    refine ⟨.step x y (hw x (List.mem_cons_self ..)) h1 h2, fun hx => ?_⟩
    have hv : y ∈ R.viable x := by
      rw [mem_viable, HR.heap]
      exact ⟨h1, hw y (by simp), (HR.can y).mpr ⟨.step x y (fwdReach_can HR hx).1 h1, h2⟩⟩
    exact .step x y _ hv (h3 (.step x y hx hv))

theorem walk_walkR {f : TgFrag} {h : TgHeap} {R : Reader} (HR : ReaderOK f h R) {p : Pts} (H : PtWalk h f p) : WalkR R p := by
  obtain ⟨_, _, hent⟩ := HR.entries
  obtain ⟨x, h1, h2⟩ := H.start
  cases p with
  | nil => cases h1
  | cons y p =>
    simp only [List.head?_cons, Option.some.injEq] at h1
    subst h1
    obtain ⟨h3, h4⟩ := walk_rest HR p y H.follows H.writes H.stop
    have he := (hent y).mpr ⟨h2, h3⟩
    exact ⟨y, he, h4 (.entry y he)⟩

/-! ## Claims -/

/-- What `emit` claims. -/
structure ClaimPost (h : TgHeap) (next : Option Nat → Nat) (w : Pts) (c : Option Nat → Nat) (new : Nat)
    (r : List Nat × (Option Nat → Nat) × Nat) : Prop where
  varies : Variation h w r.1
  more : ∀ x, c x ≤ r.2.1 x
  shown : ∀ x i, c x ≤ i → i < r.2.1 x → (x, next x + i) ∈ w.zip r.1
  cap : ∀ x, next x + c x ≤ (ptEmit h x 0).2 → next x + r.2.1 x ≤ (ptEmit h x 0).2
  le : new ≤ r.2.2
  none : r.2.2 = new → ∀ x ∈ w, (ptEmit h x 0).2 ≤ next x + c x
  some : r.2.2 ≠ new → ∃ x ∈ w, c x < r.2.1 x

theorem claimEach_post {h : TgHeap} {next : Option Nat → Nat} (w : Pts) : ∀ c new, ClaimPost h next w c new (claimEach h next w c new) := by
  induction w with
  | nil => intro c new; exact ⟨trivial, fun x => le_refl _, fun x i h1 h2 => absurd h2 (by simp only [claimEach]; omega), fun x hx => hx, le_refl _, by simp, fun h => absurd rfl h⟩
  | cons n w ih =>
    intro c new
    rw [claimEach]
    by_cases hlt : next n + c n < (ptEmit h n 0).2
    · rw [if_pos hlt]
      have H := ih (fun x => if x = n then c x + 1 else c x) (new + 1)
      generalize claimEach h next w (fun x => if x = n then c x + 1 else c x) (new + 1) = r at H
      have hle : ∀ x, c x ≤ (if x = n then c x + 1 else c x) := fun x => by split_ifs <;> omega
      refine ⟨⟨hlt, H.varies⟩, fun x => (hle x).trans (H.more x), fun x i h1 h2 => ?_, fun x hx => ?_, (Nat.le_succ _).trans H.le, fun h1 => ?_, fun _ => ?_⟩
      · simp only [List.zip_cons_cons, List.mem_cons, Prod.mk.injEq]
        by_cases e : x = n ∧ i = c x
        · left
          exact ⟨e.1, by rw [e.2, e.1]⟩
        · right
          refine H.shown x i ?_ h2
          split_ifs with e'
          · have : i ≠ c x := fun h => e ⟨e', h⟩
            omega
          · exact h1
      · refine H.cap x ?_
        split_ifs with e'
        · subst e'; omega
        · exact hx
      · have := H.le
        simp only at h1
        omega
      · refine ⟨n, List.mem_cons_self .., ?_⟩
        have := H.more n
        simp only [if_true] at this
        exact this
    · rw [if_neg hlt]
      have H := ih c new
      generalize claimEach h next w c new = r at H
      refine ⟨⟨ptEmit_pos h n, H.varies⟩, H.more, fun x i h1 h2 => ?_, H.cap, H.le, fun h1 x hx => ?_, fun h1 => ?_⟩
      · exact List.mem_cons_of_mem _ (H.shown x i h1 h2)
      · rcases List.mem_cons.mp hx with rfl | hx
        · omega
        · exact H.none h1 x hx
      · obtain ⟨x, h2, h3⟩ := H.some h1
        exact ⟨x, List.mem_cons_of_mem _ h2, h3⟩

/-- What was emitted so far. -/
structure RunsInv (h : TgHeap) (st : CoverSt) (runs : List (Pts × List Nat)) : Prop where
  prods : st.prods = runs.map fun r => trailText h r.1 r.2
  each : ∀ r ∈ runs, r.1 ∈ st.walks ∧ Variation h r.1 r.2
  next : ∀ x i, i < st.next x → ∃ r ∈ runs, (x, i) ∈ r.1.zip r.2
  cap : ∀ x, st.next x ≤ (ptEmit h x 0).2

/-- The outcome of `emit`. -/
structure EmitPost (h : TgHeap) (w : Pts) (st : CoverSt) (runs : List (Pts × List Nat)) (st' : CoverSt) (v : List Nat) : Prop where
  inv : RunsInv h st' (runs ++ [(w, v)])
  walks : st'.walks = st.walks
  nodes : st'.nodes = st.nodes
  edges : st'.edges = st.edges
  next : ∀ x, st.next x ≤ st'.next x

theorem emit_inv {h : TgHeap} {w : Pts} {st : CoverSt} {runs : List (Pts × List Nat)} (H : RunsInv h st runs) (hw : w ∈ st.walks)
    {r : List Nat × (Option Nat → Nat) × Nat} (C : ClaimPost h st.next w (fun _ => 0) 0 r) :
    EmitPost h w st runs { st with next := fun x => st.next x + r.2.1 x, prods := st.prods ++ [trailText h w r.1] } r.1 := by
  refine ⟨⟨by simp [H.prods], fun q hq => ?_, fun x i hi => ?_, fun x => C.cap x (H.cap x)⟩, rfl, rfl, rfl, fun x => Nat.le_add_right ..⟩
  · rcases List.mem_append.mp hq with hq | hq
    · exact H.each q hq
    · rw [List.mem_singleton.mp hq]
      exact ⟨hw, C.varies⟩
  · simp only at hi
    by_cases hlt : i < st.next x
    · obtain ⟨q, h1, h2⟩ := H.next x i hlt
      exact ⟨q, List.mem_append_left _ h1, h2⟩
    · refine ⟨(w, r.1), by simp, ?_⟩
      have := C.shown x (i - st.next x) (Nat.zero_le _) (by omega)
      rwa [show st.next x + (i - st.next x) = i by omega] at this

theorem emit_true {h : TgHeap} {w : Pts} {st : CoverSt} {runs : List (Pts × List Nat)} (H : RunsInv h st runs) (hw : w ∈ st.walks) :
    ∃ v, EmitPost h w st runs (emitWalk h w true st).2 v :=
  ⟨_, emit_inv H hw (claimEach_post w (fun _ => 0) 0)⟩

theorem emit_false {h : TgHeap} {w : Pts} {st : CoverSt} {runs : List (Pts × List Nat)} (H : RunsInv h st runs) (hw : w ∈ st.walks) :
    (emitWalk h w false st = (false, st) ∧ ∀ x ∈ w, st.next x = (ptEmit h x 0).2) ∨
    ((emitWalk h w false st).1 = true ∧ (∃ v, EmitPost h w st runs (emitWalk h w false st).2 v) ∧ ∃ x ∈ w, st.next x < (emitWalk h w false st).2.next x) := by
  unfold emitWalk
  have C := claimEach_post (h := h) (next := st.next) w (fun _ => 0) 0
  have I := emit_inv H hw C
  generalize claimEach h st.next w (fun _ => 0) 0 = r at C I
  by_cases h0 : r.2.2 = 0
  · left
    simp only [h0, Bool.not_false, decide_true, Bool.and_self, if_true, true_and]
    intro x hx
    have := C.none h0 x hx
    have := H.cap x
    omega
  · right
    simp only [h0, Bool.not_false, decide_false, Bool.and_false]
    refine ⟨rfl, ⟨r.1, I⟩, ?_⟩
    obtain ⟨x, h1, h2⟩ := C.some h0
    exact ⟨x, h1, by show st.next x < st.next x + r.2.1 x; omega⟩

/-! ## Marks -/

theorem markWalk_post (w : Pts) : ∀ st, (markWalk w st).prods = st.prods ∧ (markWalk w st).next = st.next ∧ (markWalk w st).walks = st.walks ∧
    (∀ x, (markWalk w st).nodes x = true ↔ st.nodes x = true ∨ x ∈ w) ∧
    ∀ e, (markWalk w st).edges e = true ↔ st.edges e = true ∨ e ∈ edgesAlong w := by
  induction w with
  | nil => intro st; simp [markWalk, edgesAlong]
  | cons n w ih =>
    intro st
    cases w with
    | nil =>
      refine ⟨rfl, rfl, rfl, fun x => ?_, fun e => by simp [markWalk, edgesAlong]⟩
      simp only [markWalk, List.mem_singleton]
      by_cases e : x = n <;> simp [e]
    | cons m w =>
      rw [markWalk]
      obtain ⟨h1, h2, h3, h4, h5⟩ := ih { st with nodes := (fun x => if x = n then true else st.nodes x), edges := (fun e => if e = (n, m) then true else st.edges e) }
      refine ⟨h1, h2, h3, fun x => ?_, fun e => ?_⟩
      · rw [h4, List.mem_cons (a := x) (b := n)]
        by_cases e : x = n <;> simp [e]
      · rw [h5, edgesAlong_cons, List.mem_cons]
        by_cases e' : e = (n, m) <;> simp [e']

/-- The state between two walks. -/
structure CoverInv (R : Reader) (st : CoverSt) (runs : List (Pts × List Nat)) : Prop extends RunsInv R.heap st runs where
  full : ∀ w ∈ st.walks, WalkR R w
  used : ∀ w ∈ st.walks, ∃ r ∈ runs, r.1 = w
  nodes : ∀ x, st.nodes x = true → ∃ w ∈ st.walks, x ∈ w
  edges : ∀ e, st.edges e = true → ∃ w ∈ st.walks, e ∈ edgesAlong w
  length : runs.length = st.walks.length

theorem addWalk_post {R : Reader} {st : CoverSt} {runs : List (Pts × List Nat)} (H : CoverInv R st runs) {w : Pts} (hw : WalkR R w) :
    ∃ v, CoverInv R (addWalk R.heap w st) (runs ++ [(w, v)]) ∧ (addWalk R.heap w st).walks = st.walks ++ [w] ∧
      (∀ x, st.nodes x = true ∨ x ∈ w → (addWalk R.heap w st).nodes x = true) ∧
      ∀ e, st.edges e = true ∨ e ∈ edgesAlong w → (addWalk R.heap w st).edges e = true := by
  have H1 : RunsInv R.heap { st with walks := st.walks ++ [w] } runs :=
    ⟨H.prods, fun r hr => ⟨List.mem_append_left _ (H.each r hr).1, (H.each r hr).2⟩, H.next, H.cap⟩
  obtain ⟨v, E⟩ := emit_true H1 (w := w) (by simp)
  refine ⟨v, ?_⟩
  unfold addWalk
  generalize (emitWalk R.heap w true { st with walks := st.walks ++ [w] }).2 = st1 at E
  obtain ⟨h1, h2, h3, h4, h5⟩ := markWalk_post w st1
  have hwalks : (markWalk w st1).walks = st.walks ++ [w] := by rw [h3, E.walks]
  refine ⟨⟨⟨by rw [h1]; exact E.inv.prods, fun r hr => ⟨by rw [h3]; exact (E.inv.each r hr).1, (E.inv.each r hr).2⟩,
    fun x i hi => E.inv.next x i (by rw [← h2]; exact hi), fun x => by rw [h2]; exact E.inv.cap x⟩, ?_, ?_, ?_, ?_, ?_⟩, hwalks, ?_, ?_⟩
  · intro x hx
    rw [hwalks] at hx
    rcases List.mem_append.mp hx with hx | hx
    · exact H.full x hx
    · rw [List.mem_singleton.mp hx]; exact hw
  · intro x hx
    rw [hwalks] at hx
    rcases List.mem_append.mp hx with hx | hx
    · obtain ⟨r, h6, h7⟩ := H.used x hx
      exact ⟨r, List.mem_append_left _ h6, h7⟩
    · rw [List.mem_singleton.mp hx]
      exact ⟨(w, v), by simp, rfl⟩
  · intro x hx
    rw [hwalks]
    rcases (h4 x).mp hx with h6 | h6
    · rw [E.nodes] at h6
      obtain ⟨w', h7, h8⟩ := H.nodes x h6
      exact ⟨w', List.mem_append_left _ h7, h8⟩
    · exact ⟨w, by simp, h6⟩
  · intro e he
    rw [hwalks]
    rcases (h5 e).mp he with h6 | h6
    · rw [E.edges] at h6
      obtain ⟨w', h7, h8⟩ := H.edges e h6
      exact ⟨w', List.mem_append_left _ h7, h8⟩
    · exact ⟨w, by simp, h6⟩
  · rw [hwalks, List.length_append, List.length_append, H.length]
    rfl
  · intro x hx
    rw [h4, E.nodes]
    exact hx
  · intro e he
    rw [h5, E.edges]
    exact he

/-- What the searches give. -/
structure MapsOK (R : Reader) (M : CoverMaps) : Prop where
  known : ∀ x ∈ M.disc, (M.succ x).isSome = true
  entry : ∀ x ∈ M.disc, (entryPathRev M.pred (M.disc.length + 1) x).Sat False False (ToEntry R x)
  stop : ∀ x ∈ M.disc, (endPathFrom M.succ (M.disc.length + 1) x).Sat False False (ToStop R x)
  closed : ∀ x ∈ M.disc, ∀ y ∈ R.viable x, y ∈ M.disc

/-- The outcome of the two loops. -/
structure CoverPost (R : Reader) (n : Nat) (st st' : CoverSt) : Prop where
  inv : ∃ runs, CoverInv R st' runs
  count : st'.walks.length ≤ st.walks.length + n
  nodes : ∀ x, st.nodes x = true → st'.nodes x = true
  edges : ∀ e, st.edges e = true → st'.edges e = true

theorem coverEdges_sat {R : Reader} {M : CoverMaps} (HM : MapsOK R M) (es : List (Option Nat × Option Nat)) : ∀ st,
    (∃ runs, CoverInv R st runs) → (∀ e ∈ es, e.1 ∈ M.disc ∧ e.2 ∈ R.viable e.1) →
    (coverEdges R.heap M es st).Sat False False fun st' => CoverPost R es.length st st' ∧ ∀ e ∈ es, st'.edges e = true := by
  induction es with
  | nil => intro st H _; exact ⟨⟨H, by simp, fun x h => h, fun e h => h⟩, by simp⟩
  | cons e es ih =>
    obtain ⟨u, w⟩ := e
    intro st H hes
    have hes' : ∀ e ∈ es, e.1 ∈ M.disc ∧ e.2 ∈ R.viable e.1 := fun e he => hes e (List.mem_cons_of_mem _ he)
    obtain ⟨hu, hw⟩ := hes (u, w) (List.mem_cons_self ..)
    have hwd := HM.closed u hu w hw
    rw [coverEdges]
    have hnone : (M.succ w).isNone = false := by
      have := HM.known w hwd
      cases hs : M.succ w with
      | none => rw [hs] at this; cases this
      | some y => rfl
    rw [hnone, Bool.or_false]
    by_cases hc : st.edges (u, w) = true
    · rw [if_pos hc]
      refine (ih st H hes').mono fun st' ⟨P, h1⟩ => ⟨⟨P.inv, ?_, P.nodes, P.edges⟩, fun e he => ?_⟩
      · have := P.count
        simp only [List.length_cons]
        omega
      · rcases List.mem_cons.mp he with rfl | he
        · exact P.edges _ hc
        · exact h1 e he
    · rw [if_neg hc]
      refine Run.Sat.bnd (HM.entry u hu) fun p hp => Run.Sat.bnd (HM.stop w hwd) fun q hq => ?_
      obtain ⟨runs, H⟩ := H
      obtain ⟨p', rfl⟩ := toEntry_cons hp
      obtain ⟨q', rfl⟩ := toStop_cons hq
      have hwalk := walkR_of hp (w :: q') (.step u w _ hw hq)
      obtain ⟨v, A1, A2, A3, A4⟩ := addWalk_post H hwalk
      refine (ih _ ⟨_, A1⟩ hes').mono fun st' ⟨P, h1⟩ => ⟨⟨P.inv, ?_, fun x hx => P.nodes x (A3 x (.inl hx)), fun e he => P.edges e (A4 e (.inl he))⟩, fun e he => ?_⟩
      · have := P.count
        rw [A2] at this
        simp only [List.length_append, List.length_cons, List.length_nil] at this ⊢
        omega
      · rcases List.mem_cons.mp he with rfl | he
        · refine P.edges _ (A4 _ (.inr ?_))
          rw [List.reverse_cons, List.append_assoc]
          exact edgesAlong_mid _ _ _ _
        · exact h1 e he

theorem coverNodes_sat {R : Reader} {M : CoverMaps} (HM : MapsOK R M) (vs : Pts) : ∀ st,
    (∃ runs, CoverInv R st runs) → (∀ v ∈ vs, v ∈ M.disc) →
    (coverNodes R.heap R.frag.outs M vs st).Sat False False fun st' => CoverPost R vs.length st st' ∧ ∀ v ∈ vs, st'.nodes v = true := by
  induction vs with
  | nil => intro st H _; exact ⟨⟨H, by simp, fun x h => h, fun e h => h⟩, by simp⟩
  | cons v vs ih =>
    intro st H hvs
    have hvs' : ∀ e ∈ vs, e ∈ M.disc := fun e he => hvs e (List.mem_cons_of_mem _ he)
    have hv := hvs v (List.mem_cons_self ..)
    rw [coverNodes]
    have hnone : (M.succ v).isNone = false := by
      have := HM.known v hv
      cases hs : M.succ v with
      | none => rw [hs] at this; cases this
      | some y => rfl
    rw [hnone, Bool.or_false]
    by_cases hc : st.nodes v = true
    · rw [if_pos hc]
      refine (ih st H hvs').mono fun st' ⟨P, h1⟩ => ⟨⟨P.inv, ?_, P.nodes, P.edges⟩, fun e he => ?_⟩
      · have := P.count
        simp only [List.length_cons]
        omega
      · rcases List.mem_cons.mp he with rfl | he
        · exact P.nodes _ hc
        · exact h1 e he
    · rw [if_neg hc]
      obtain ⟨runs, H⟩ := H
      have hadd : ∀ w, WalkR R w → v ∈ w → (coverNodes R.heap R.frag.outs M vs (addWalk R.heap w st)).Sat False False
          fun st' => CoverPost R (v :: vs).length st st' ∧ ∀ v' ∈ v :: vs, st'.nodes v' = true := by
        intro w hwalk hvw
        obtain ⟨_, A1, A2, A3, A4⟩ := addWalk_post H hwalk
        refine (ih _ ⟨_, A1⟩ hvs').mono fun st' ⟨P, h1⟩ => ⟨⟨P.inv, ?_, fun x hx => P.nodes x (A3 x (.inl hx)), fun e he => P.edges e (A4 e (.inl he))⟩, fun e he => ?_⟩
        · have := P.count
          rw [A2] at this
          simp only [List.length_append, List.length_cons, List.length_nil] at this ⊢
          omega
        · rcases List.mem_cons.mp he with rfl | he
          · exact P.nodes _ (A3 _ (.inr hvw))
          · exact h1 e he
      refine Run.Sat.bnd (HM.entry v hv) fun p hp => ?_
      obtain ⟨p', rfl⟩ := toEntry_cons hp
      by_cases ho : v ∈ R.frag.outs
      · rw [if_pos ho]
        have := walkR_of hp [] (.stop v ho)
        rw [List.append_nil] at this
        exact hadd _ this (by simp)
      · rw [if_neg ho]
        refine Run.Sat.bnd (HM.stop v hv) fun q hq => ?_
        obtain ⟨q', rfl⟩ := toStop_cons hq
        exact hadd _ (walkR_of hp q' hq) (by simp)

/-! ## Values -/

theorem sum_le_map {l : Pts} {a b : Option Nat → Nat} (h : ∀ x ∈ l, a x ≤ b x) : (l.map a).sum ≤ (l.map b).sum := by
  induction l with
  | nil => exact le_refl _
  | cons x l ih =>
    simp only [List.map_cons, List.sum_cons]
    have := h x (List.mem_cons_self ..)
    have := ih fun y hy => h y (List.mem_cons_of_mem _ hy)
    omega

theorem sum_lt_map {l : Pts} {a b : Option Nat → Nat} (h : ∀ x ∈ l, a x ≤ b x) {y : Option Nat} (hy : y ∈ l) (hlt : a y < b y) :
    (l.map a).sum < (l.map b).sum := by
  induction l with
  | nil => cases hy
  | cons x l ih =>
    simp only [List.map_cons, List.sum_cons]
    have h1 := h x (List.mem_cons_self ..)
    have h2 : ∀ y ∈ l, a y ≤ b y := fun y hy => h y (List.mem_cons_of_mem _ hy)
    rcases List.mem_cons.mp hy with rfl | hy
    · have := sum_le_map h2
      omega
    · have := ih h2 hy
      omega

/-- The outcome of the last loop; `L` are nodes that include those of the walks. -/
structure ValuesPost (h : TgHeap) (L : Pts) (st : CoverSt) (runs : List (Pts × List Nat)) (st' : CoverSt) (runs' : List (Pts × List Nat)) : Prop where
  inv : RunsInv h st' runs'
  walks : st'.walks = st.walks
  kept : runs ⊆ runs'
  next : ∀ x, st.next x ≤ st'.next x
  count : runs'.length + (L.map st.next).sum ≤ runs.length + (L.map st'.next).sum

theorem coverValues_sat {h : TgHeap} {L w : Pts} (hL : w ⊆ L) (k : Nat) : ∀ st runs, RunsInv h st runs → w ∈ st.walks →
    (w.map fun n => (ptEmit h n 0).2).sum < k + (w.map st.next).sum →
    (coverValues h w k st).Sat False False fun st' => (∃ runs', ValuesPost h L st runs st' runs') ∧ ∀ x ∈ w, st'.next x = (ptEmit h x 0).2 := by
  induction k with
  | zero =>
    intro st runs H _ hk
    have := sum_le_map (l := w) (a := st.next) (b := fun n => (ptEmit h n 0).2) fun x _ => H.cap x
    omega
  | succ k ih =>
    intro st runs H hw hk
    rw [coverValues]
    rcases emit_false H hw with ⟨h1, h2⟩ | ⟨h1, ⟨v, E⟩, x, h3, h4⟩
    · simp only [h1]
      exact ⟨⟨runs, H, rfl, List.Subset.refl _, fun x => le_refl _, le_refl _⟩, h2⟩
    · simp only [h1, if_true]
      generalize (emitWalk h w false st).2 = st1 at E h4
      have hlt := sum_lt_map (fun y _ => E.next y) h3 h4
      have hltL := sum_lt_map (fun y _ => E.next y) (hL h3) h4
      refine (ih st1 _ E.inv (by rw [E.walks]; exact hw) (by omega)).mono fun st' ⟨⟨runs', P⟩, h5⟩ => ⟨⟨runs', P.inv, P.walks.trans E.walks,
        fun r hr => P.kept (List.mem_append_left _ hr), fun y => (E.next y).trans (P.next y), ?_⟩, h5⟩
      have := P.count
      simp only [List.length_append, List.length_cons, List.length_nil] at this
      omega

theorem coverWalks_sat {h : TgHeap} {L : Pts} (ws : List Pts) : ∀ st runs, RunsInv h st runs → (∀ w ∈ ws, w ∈ st.walks ∧ w ⊆ L) →
    (coverWalks h ws st).Sat False False fun st' => (∃ runs', ValuesPost h L st runs st' runs') ∧ ∀ w ∈ ws, ∀ x ∈ w, st'.next x = (ptEmit h x 0).2 := by
  induction ws with
  | nil => intro st runs H _; exact ⟨⟨runs, H, rfl, List.Subset.refl _, fun x => le_refl _, le_refl _⟩, by simp⟩
  | cons w ws ih =>
    intro st runs H hws
    rw [coverWalks]
    obtain ⟨h1, h2⟩ := hws w (List.mem_cons_self ..)
    refine Run.Sat.bnd (coverValues_sat h2 _ st runs H h1 (by omega)) fun st1 ⟨⟨runs1, P1⟩, h3⟩ => ?_
    refine (ih st1 runs1 P1.inv fun w' hw' => ?_).mono fun st2 ⟨⟨runs2, P2⟩, h4⟩ => ⟨⟨runs2, P2.inv, P2.walks.trans P1.walks,
      List.Subset.trans P1.kept P2.kept, fun x => (P1.next x).trans (P2.next x), ?_⟩, fun w' hw' x hx => ?_⟩
    · rw [P1.walks]
      exact hws w' (List.mem_cons_of_mem _ hw')
    · have := P1.count
      have := P2.count
      omega
    · rcases List.mem_cons.mp hw' with rfl | hw'
      · refine le_antisymm (P2.inv.cap x) ?_
        rw [← h3 x hx]
        exact P2.next x
      · exact h4 w' hw' x hx

/-! ## All of it -/

/-- Calls in the mode `CoverageCompact` (/repo/transition_graph.go:601-604 and 612-619), with the texts still to come.
An empty text is the nil slice: nothing is appended to it (/repo/transition_graph.go:802-807). -/
def compactCalls : List Bool → List Bytes → List ReadOut
  | [], _ => []
  | true :: cs, ts => .next (!ts.isEmpty) :: compactCalls cs ts
  | false :: cs, [] => .scan none :: compactCalls cs []
  | false :: cs, t :: ts => .scan (if t = [] then none else some t) :: compactCalls cs ts

/-- The vertices and edges that lie on a walk, and what the texts written show of them. -/
structure CompactPost (f : TgFrag) (h : TgHeap) (V : Pts) (E : List (Option Nat × Option Nat)) (runs : List (Pts × List Nat)) : Prop where
  vertices : ∀ x, x ∈ V ↔ ∃ p, PtWalk h f p ∧ x ∈ p
  verticesOnce : V.Nodup
  edges : ∀ e, e ∈ E ↔ ∃ p, PtWalk h f p ∧ e ∈ edgesAlong p
  edgesOnce : E.Nodup
  sound : ∀ r ∈ runs, PtWalk h f r.1 ∧ Variation h r.1 r.2
  shows : ∀ x ∈ V, ∀ i < (ptEmit h x 0).2, ∃ r ∈ runs, (x, i) ∈ r.1.zip r.2
  passes : ∀ e ∈ E, ∃ r ∈ runs, e ∈ edgesAlong r.1
  size : runs.length ≤ E.length + V.length + (V.map fun x => (ptEmit h x 0).2).sum

theorem walkR_edges {R : Reader} {f : TgFrag} {h : TgHeap} (HR : ReaderOK f h R) {p : Pts} (H : WalkR R p) :
    ∀ e ∈ edgesAlong p, e.1 ∈ p ∧ e.2 ∈ R.viable e.1 := by
  obtain ⟨x, _, h2⟩ := H
  intro e he
  exact ⟨(List.of_mem_zip he).1, (toStop_walk HR h2).1 e he⟩

theorem compact_sat {f : TgFrag} {h : TgHeap} (hfin : GraphFin h f) {R : Reader} (HR : ReaderOK f h R) :
    R.compact.Sat False False fun prods => ∃ V E runs, CompactPost f h V E runs ∧ prods = runs.map fun r => trailText h r.1 r.2 := by
  unfold Reader.compact
  refine Run.Sat.bnd (forward_all hfin HR) fun fw F => ?_
  refine Run.Sat.bnd (backward_all HR F) fun succ ⟨marked, B, hmarked⟩ => ?_
  have hlen : marked.length ≤ fw.disc.length := (List.subperm_of_subset B.nodup B.sub).length_le
  have HM : MapsOK R ⟨fw.pred, succ, fw.disc, fw.edges⟩ := by
    refine ⟨fun x hx => (B.some x).mpr ((hmarked x).mpr hx), fun x hx => entryPath_sat F.toFwdInv _ x hx ?_, fun x hx => endPath_sat B _ x ((hmarked x).mpr hx) ?_, fun x hx y hy => ?_⟩
    · exact (List.idxOf_lt_length_of_mem hx).trans (Nat.lt_succ_self _)
    · have := List.idxOf_lt_length_of_mem ((hmarked x).mpr hx)
      simp only
      omega
    · exact (F.all y).mpr (.step x y ((F.all x).mp hx) hy)
  have H0 : CoverInv R {} [] := ⟨⟨rfl, by simp, fun x i hi => absurd hi (Nat.not_lt_zero _), fun x => Nat.zero_le _⟩, by simp, by simp,
    fun x hx => (by cases hx), fun x hx => (by cases hx), rfl⟩
  have hperm := List.perm_insertionSort (fun a b => edgeBefore fw.disc a b = true) fw.edges
  refine Run.Sat.bnd (coverEdges_sat HM _ {} ⟨[], H0⟩ fun e he => (F.allEdges e).mp (hperm.mem_iff.mp he)) fun st1 ⟨P1, c1⟩ => ?_
  refine Run.Sat.bnd (coverNodes_sat HM fw.disc st1 P1.inv fun v hv => hv) fun st2 ⟨P2, c2⟩ => ?_
  obtain ⟨runs2, I2⟩ := P2.inv
  have hsub : ∀ w ∈ st2.walks, w ∈ st2.walks ∧ w ⊆ fw.disc := fun w hw => ⟨hw, fun x hx => (F.all x).mpr (walkR_reach HR (I2.full w hw) x hx)⟩
  refine Run.Sat.bnd (coverWalks_sat (L := fw.disc) st2.walks st2 runs2 I2.toRunsInv hsub) fun st3 ⟨⟨runs3, P3⟩, c3⟩ => ?_
  have hV : ∀ x, x ∈ fw.disc ↔ ∃ p, PtWalk h f p ∧ x ∈ p := by
    intro x
    constructor
    · intro hx
      obtain ⟨w, h1, h2⟩ := I2.nodes x (c2 x hx)
      exact ⟨w, walkR_walk HR (I2.full w h1), h2⟩
    · rintro ⟨p, h1, h2⟩
      exact (F.all x).mpr (walkR_reach HR (walk_walkR HR h1) x h2)
  have hcov : ∀ e ∈ fw.edges, ∃ w ∈ st2.walks, e ∈ edgesAlong w := fun e he => I2.edges e (P2.edges e (c1 e (hperm.mem_iff.mpr he)))
  refine ⟨fw.disc, fw.edges, runs3, ⟨hV, F.nodup, fun e => ?_, F.edgesOnce, fun r hr => ?_, fun x hx i hi => ?_, fun e he => ?_, ?_⟩, ?_⟩
  · constructor
    · intro he
      obtain ⟨w, h1, h2⟩ := hcov e he
      exact ⟨w, walkR_walk HR (I2.full w h1), h2⟩
    · rintro ⟨p, h1, h2⟩
      have hw := walk_walkR HR h1
      obtain ⟨h3, h4⟩ := walkR_edges HR hw e h2
      exact (F.allEdges e).mpr ⟨(F.all _).mpr (walkR_reach HR hw _ h3), h4⟩
  · obtain ⟨h1, h2⟩ := P3.inv.each r hr
    rw [P3.walks] at h1
    rw [HR.heap] at h2
    exact ⟨walkR_walk HR (I2.full _ h1), h2⟩
  · obtain ⟨w, h1, h2⟩ := I2.nodes x (c2 x hx)
    refine P3.inv.next x i ?_
    rw [c3 w h1 x h2, HR.heap]
    exact hi
  · obtain ⟨w, h1, h2⟩ := hcov e he
    obtain ⟨r, h3, rfl⟩ := I2.used w h1
    exact ⟨r, P3.kept h3, h2⟩
  · have h1 := P3.count
    have h2 := P2.count
    have h3 := P1.count
    have h4 := I2.length
    have h5 := sum_le_map (l := fw.disc) (a := st3.next) (b := fun x => (ptEmit h x 0).2) fun x _ => by
      have := P3.inv.cap x
      rwa [HR.heap] at this
    have h6 := hperm.length_eq
    have h7 : ({} : CoverSt).walks.length = 0 := rfl
    omega
  · rw [P3.inv.prods, HR.heap]

end Verif
