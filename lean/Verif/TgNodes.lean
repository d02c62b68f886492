import Verif.PropsTg

/-!
# The elements of the nodes of a transition graph

All nodes carry elements of the rules visited, or what these are deflated to.
-/

namespace Verif

open Spec

/-- All nodes satisfy `P`. -/
def HeapP (P : Elem → Prop) (h : TgHeap) : Prop := ∀ n, P (h.elem n)

variable {P : Elem → Prop}

theorem HeapP.alloc {h : TgHeap} (H : HeapP P h) {e : Elem} (he : P e) : HeapP P (h.alloc e).2 := by
  intro n
  simp only [TgHeap.alloc]
  split_ifs
  · exact he
  · exact H n

theorem HeapP.same {h h' : TgHeap} (H : HeapP P h) (e : h'.elem = h.elem) : HeapP P h' := fun n => by rw [e]; exact H n

theorem plugAppend_elem (ins : Pts) (os : Pts) : ∀ h, (plugAppend ins os h).elem = h.elem := by
  induction os with
  | nil => intro h; rfl
  | cons o os ih =>
    intro h
    cases o with
    | none => exact ih h
    | some o => rw [plugAppend, ih]; rfl

theorem plugNodes_elem (ins : Pts) (os : Pts) : ∀ h, (plugNodes ins os h).elem = h.elem := by
  induction os with
  | nil => intro h; rfl
  | cons o os ih =>
    intro h
    cases o with
    | none => exact ih h
    | some o => rw [plugNodes, ih]; rfl

theorem linkAll_elem (curr vs : List Nat) : ∀ h, (linkAll curr vs h).elem = h.elem := by
  induction vs with
  | nil => intro h; rfl
  | cons v vs ih => intro h; rw [linkAll, ih]; rfl

theorem allocAll_P {es : List Elem} (he : ∀ e ∈ es, P e) : ∀ h, HeapP P h → HeapP P (allocAll es h).2 := by
  induction es with
  | nil => intro h H; exact H
  | cons e es ih =>
    intro h H
    rw [allocAll]
    exact ih (fun x hx => he x (List.mem_cons_of_mem _ hx)) _ (H.alloc (he e (List.mem_cons_self ..)))

theorem charLoop_P {s : Bool} {cs : List Char} (hc : ∀ c ∈ cs, ∀ d ∈ caseNodes s c, P (.charVal true [d])) : ∀ ins prevs h, HeapP P h →
    HeapP P (charLoop s cs ins prevs h).2 := by
  induction cs with
  | nil => intro ins prevs h H; exact H
  | cons c cs ih =>
    intro ins prevs h H
    rw [charLoop]
    refine ih (fun x hx => hc x (List.mem_cons_of_mem _ hx)) _ _ _ (HeapP.same ?_ (linkAll_elem _ _ _))
    refine allocAll_P (fun e he => ?_) h H
    obtain ⟨d, hd, rfl⟩ := List.mem_map.mp he
    exact hc c (List.mem_cons_self ..) d hd

/-! ## Cloning -/

theorem cloneNexts_P {rec : Nat → CloneSt → Run CloneSt}
    (hrec : ∀ n st, HeapP P st.heap → (rec n st).Sat True True fun st' => HeapP P st'.heap) (ns : List Nat) : ∀ st, HeapP P st.heap →
    (cloneNexts rec ns st).Sat True True fun st' => HeapP P st'.heap := by
  induction ns with
  | nil => intro st H; exact H
  | cons m ms ih =>
    intro st H
    rw [cloneNexts]
    by_cases hm : (st.map.lookup m).isSome = true
    · rw [if_pos hm]
      exact ih st H
    · rw [if_neg hm]
      exact (hrec m st H).bnd ih

theorem cloneTG_P (k : Nat) : ∀ n st, HeapP P st.heap → (cloneTG k n st).Sat True True fun st' => HeapP P st'.heap := by
  induction k with
  | zero => intro n st _; trivial
  | succ k ih =>
    intro n st H
    rw [cloneTG]
    exact cloneNexts_P ih _ _ (H.alloc (H n))

theorem cloneRoots_P (k : Nat) (is : Pts) : ∀ st, HeapP P st.heap → (cloneRoots k is st).Sat True True fun st' => HeapP P st'.heap := by
  induction is with
  | nil => intro st H; exact H
  | cons i is ih =>
    intro st H
    cases i with
    | none => exact ih st H
    | some i => exact (cloneTG_P k i st H).bnd ih

theorem relink_P (map ps : List (Nat × Nat)) : ∀ h, HeapP P h → (relink map ps h).Sat True True (HeapP P) := by
  induction ps with
  | nil => intro h H; exact H
  | cons p ps ih =>
    intro h H
    obtain ⟨o, c⟩ := p
    rw [relink]
    cases cloneList map (h.nexts o) with
    | none => trivial
    | some l => exact ih _ (H.same rfl)

theorem cloneGraph_P (f : TgFrag) (h : TgHeap) (H : HeapP P h) : (cloneGraph f h).Sat True True fun x => HeapP P x.2 := by
  unfold cloneGraph
  refine (cloneRoots_P _ _ _ H).bnd fun st Hst => ?_
  exact (relink_P _ _ _ Hst).bnd fun h' H' => H'

theorem chainTG_P (f : TgFrag) (n : Nat) : ∀ h, HeapP P h → (chainTG f n h).Sat True True fun x => HeapP P x.2.2 := by
  induction n with
  | zero => intro h H; exact H
  | succ n ih =>
    intro h H
    cases n with
    | zero =>
      rw [chainTG]
      exact (cloneGraph_P f h H).bnd fun x Hx => Hx
    | succ n =>
      rw [chainTG]
      refine (ih h H).bnd ?_
      rintro ⟨tgs, cur, h1⟩ H1
      refine (cloneGraph_P f h1 H1).bnd ?_
      rintro ⟨c, h2⟩ H2
      exact HeapP.same H2 (plugAppend_elem _ _ _)

/-! ## Building -/

theorem reserveNodes_heap {o : TgOpts} {n : Int} {st st' : TgSt} (h : reserveNodes o n st = some st') : st'.heap = st.heap := by
  unfold reserveNodes at h
  split_ifs at h <;> (obtain rfl := Option.some.inj h; rfl)

theorem reserveClones_P {o : TgOpts} {n : Nat} {es : Pts} {st : TgSt} (H : HeapP P st.heap) :
    (reserveClones o n es st).Sat True True (OnOk fun st' => HeapP P st'.heap) := by
  unfold reserveClones
  split_ifs
  · exact H
  · refine Run.Sat.bnd (Q := fun _ => True) ?_ fun k _ => ?_
    · cases countReachable st.heap es <;> trivial
    · cases hr : reserveNodes o (wrap64 (n * k)) st with
      | none => trivial
      | some st' =>
        show HeapP P st'.heap
        rw [reserveNodes_heap hr]
        exact H

theorem chainSt_P {o : TgOpts} {f : TgFrag} {n : Nat} {st : TgSt} (H : HeapP P st.heap) :
    (chainSt o f n st).Sat True True (OnOk fun x => HeapP P x.2.2.heap) := by
  unfold chainSt
  refine tgBind_sat (reserveClones_P H) fun st' H' => ?_
  exact (chainTG_P f n _ H').bnd fun x Hx => Hx

/-- What the builders keep. -/
abbrev KeepsP (P : Elem → Prop) (x : TgOut (TgFrag × TgSt)) : Prop := x.Sat True True (OnOk fun y => HeapP P y.2.heap)

theorem repGraph_P {o : TgOpts} {mn : Nat} {mx : Option Nat} {f : TgFrag} {st : TgSt} (H : HeapP P st.heap) : KeepsP P (repGraph o mn mx f st) := by
  unfold repGraph
  by_cases h0 : mn = 0
  · rw [if_pos h0]
    cases mx with
    | none => exact HeapP.same H (plugNodes_elem _ _ _)
    | some m =>
      simp only
      split_ifs
      · exact H
      · trivial
      · exact tgBind_sat (chainSt_P H) fun x Hx => Hx
  · rw [if_neg h0]
    cases mx with
    | none =>
      simp only
      split_ifs
      · trivial
      · refine tgBind_sat (chainSt_P H) ?_
        rintro ⟨tgs, cur, st'⟩ Hx
        simp only
        cases tgs.getLast? with
        | none => trivial
        | some last => exact HeapP.same Hx (plugNodes_elem _ _ _)
    | some m =>
      simp only
      split_ifs
      all_goals first | trivial | exact H | skip
      all_goals
        refine tgBind_sat (Q := fun x => HeapP P x.2.heap) ?_ ?_
        · first | exact tgBind_sat (chainSt_P H) fun x Hx => Hx | exact H
        · rintro ⟨first', st'⟩ H'
          first | exact tgBind_sat (chainSt_P H') fun x Hx => HeapP.same Hx (plugNodes_elem _ _ _) | exact H'

theorem oneNode_P {o : TgOpts} {e : Elem} (he : P e) {st : TgSt} (H : HeapP P st.heap) : KeepsP P (oneNode o e st) := by
  unfold oneNode
  cases hr : reserveNodes o 1 st with
  | none => trivial
  | some st' =>
    show HeapP P (st'.heap.alloc e).2
    rw [reserveNodes_heap hr]
    exact H.alloc he

theorem parNodes_P {o : TgOpts} {es : List Elem} (he : ∀ e ∈ es, P e) {st : TgSt} (H : HeapP P st.heap) : KeepsP P (parNodes o es st) := by
  unfold parNodes
  cases hr : reserveNodes o es.length st with
  | none => trivial
  | some st' =>
    show HeapP P (allocAll es st'.heap).2
    rw [reserveNodes_heap hr]
    exact allocAll_P he _ H

/-- The elements an element of a rule puts into the graph. -/
def NodeElems (o : TgOpts) : Elem → Elem → Prop
  | .charVal s vs, e => vs ≠ [] ∧ if o.chars then ∃ c ∈ vs, ∃ d ∈ caseNodes s c, e = .charVal true [d] else e = .charVal s vs
  | .numVal b .range es, e =>
    if o.nums then ∃ v, numvalToRune (es.getD 0 []) b ≤ v ∧ v ≤ min (numvalToRune (es.getD 1 []) b) maxRune ∧
      e = .numVal b .series [int32ToNumval v b]
    else e = .numVal b .range es
  | .numVal b .series es, e => if o.nums then ∃ s ∈ es, e = .numVal b .series [s] else e = .numVal b .series es
  | .rulename n, e => o.rules = false ∧ e = .rulename n
  | _, _ => False

section
variable {o : TgOpts} {rec : Str → TgSt → TgOut (TgFrag × TgSt)}

/-- What is asked of a repetition. -/
def RepP (o : TgOpts) (P : Elem → Prop) (rec : Str → TgSt → TgOut (TgFrag × TgSt)) (q : Rep) : Prop :=
  (∀ e, NodeElems o q.elem e → P e) ∧
  ∀ n, q.elem = .rulename n → o.rules = true → ∀ st, HeapP P st.heap → KeepsP P (rec n st)

mutual
theorem elemGraph_P : ∀ (e : Elem) (mn : Nat) (mx : Option Nat), (∀ q ∈ ⟨mn, mx, e⟩ :: elemReps e, RepP o P rec q) →
    ∀ st, HeapP P st.heap → KeepsP P (elemGraph o rec e st)
  | .charVal s vs, mn, mx, h, st, H => by
    have h1 : ∀ e', NodeElems o (.charVal s vs) e' → P e' := (h _ (List.mem_cons_self ..)).1
    simp only [NodeElems] at h1
    rw [elemGraph]
    by_cases hv : vs = []
    · rw [if_pos hv]; exact H
    · rw [if_neg hv]
      by_cases hc : o.chars = false
      · rw [if_pos hc]
        exact oneNode_P (h1 _ ⟨hv, by rw [if_neg (by rw [hc]; decide)]⟩) H
      · rw [if_neg hc]
        have hc' : o.chars = true := by simpa using hc
        cases hr : reserveNodes o (2 * vs.length) st with
        | none => trivial
        | some st' =>
          show HeapP P (charLoop s vs [] [] st'.heap).2
          rw [reserveNodes_heap hr]
          exact charLoop_P (fun c hcv d hd => h1 _ ⟨hv, by rw [if_pos hc']; exact ⟨c, hcv, d, hd, rfl⟩⟩) _ _ _ H
  | .numVal b .range es, mn, mx, h, st, H => by
    have h1 : ∀ e', NodeElems o (.numVal b .range es) e' → P e' := (h _ (List.mem_cons_self ..)).1
    simp only [NodeElems] at h1
    rw [elemGraph]
    by_cases hn : o.nums = true
    · rw [if_pos hn]
      unfold rangeNodes
      simp only
      split_ifs with hc
      · exact H
      · refine parNodes_P (fun e he => ?_) H
        obtain ⟨v, hv, rfl⟩ := List.mem_map.mp he
        rw [List.mem_range'_1] at hv
        exact h1 _ (by rw [if_pos hn]; exact ⟨v, hv.1, by omega, rfl⟩)
    · rw [if_neg hn]
      exact oneNode_P (h1 _ (by rw [if_neg hn])) H
  | .numVal b .series es, mn, mx, h, st, H => by
    have h1 : ∀ e', NodeElems o (.numVal b .series es) e' → P e' := (h _ (List.mem_cons_self ..)).1
    simp only [NodeElems] at h1
    rw [elemGraph]
    by_cases hn : o.nums = true
    · rw [if_pos hn]
      refine parNodes_P (fun e he => ?_) H
      obtain ⟨s, hs, rfl⟩ := List.mem_map.mp he
      exact h1 _ (by rw [if_pos hn]; exact ⟨s, hs, rfl⟩)
    · rw [if_neg hn]
      exact oneNode_P (h1 _ (by rw [if_neg hn])) H
  | .rulename n, mn, mx, h, st, H => by
    have h1 := h _ (List.mem_cons_self ..)
    rw [elemGraph]
    by_cases hr : o.rules = true
    · rw [if_pos hr]
      exact h1.2 n rfl hr st H
    · rw [if_neg hr]
      exact oneNode_P (h1.1 _ ⟨by simpa using hr, rfl⟩) H
  | .option a, mn, mx, h, st, H => by
    rw [elemGraph]
    exact tgBind_sat (altGraph_P a (fun q hq => h q (List.mem_cons_of_mem _ (by rw [elemReps]; exact hq))) {} st H) fun x Hx => Hx
  | .group a, mn, mx, h, st, H => by
    rw [elemGraph]
    exact altGraph_P a (fun q hq => h q (List.mem_cons_of_mem _ (by rw [elemReps]; exact hq))) {} st H
  | .proseVal _, _, _, _, st, _ => by rw [elemGraph]; trivial
theorem altGraph_P : ∀ (a : List (List Rep)), (∀ q ∈ altReps a, RepP o P rec q) → ∀ acc st, HeapP P st.heap → KeepsP P (altGraph o rec a acc st)
  | [], _, acc, st, H => by rw [altGraph]; exact H
  | c :: a, h, acc, st, H => by
    rw [altGraph]
    refine tgBind_sat (concatGraph_P c (fun q hq => h q (by rw [altReps]; exact List.mem_append_left _ hq)) st H) ?_
    rintro ⟨f, st'⟩ H'
    exact altGraph_P a (fun q hq => h q (by rw [altReps]; exact List.mem_append_right _ hq)) _ st' H'
theorem concatGraph_P : ∀ (c : List Rep), (∀ q ∈ concatReps c, RepP o P rec q) → ∀ st, HeapP P st.heap → KeepsP P (concatGraph o rec c st)
  | [], _, st, _ => by rw [concatGraph]; trivial
  | ⟨mn, mx, e⟩ :: c, h, st, H => by
    rw [concatGraph]
    refine tgBind_sat (elemGraph_P e mn mx (fun q hq => h q (by rw [concatReps, repReps]; simp only [List.mem_cons, List.mem_append] at hq ⊢; tauto)) st H) ?_
    rintro ⟨f, st'⟩ H'
    refine tgBind_sat (repGraph_P H') ?_
    rintro ⟨f, st''⟩ H''
    exact concatRest_P c (fun q hq => h q (by rw [concatReps]; exact List.mem_append_right _ hq)) _ st'' H''
theorem concatRest_P : ∀ (c : List Rep), (∀ q ∈ concatReps c, RepP o P rec q) → ∀ acc st, HeapP P st.heap → KeepsP P (concatRest o rec c acc st)
  | [], _, acc, st, H => by rw [concatRest]; exact H
  | ⟨mn, mx, e⟩ :: c, h, acc, st, H => by
    rw [concatRest]
    refine tgBind_sat (elemGraph_P e mn mx (fun q hq => h q (by rw [concatReps, repReps]; simp only [List.mem_cons, List.mem_append] at hq ⊢; tauto)) st H) ?_
    rintro ⟨f, st'⟩ H'
    refine tgBind_sat (repGraph_P H') ?_
    rintro ⟨f, st''⟩ H''
    exact concatRest_P c (fun q hq => h q (by rw [concatReps]; exact List.mem_append_right _ hq)) _ _ (HeapP.same H'' (plugAppend_elem _ _ _))
end
end

variable {g : Grammar} {o : TgOpts}

theorem ruleGraph_P (hd : NamesDistinct g) (k : Nat) : ∀ n, (∀ r, Resolves g n r → ∀ r', Relation.ReflTransGen (Refers g) r r' →
    ∀ q ∈ altReps r'.alt, ∀ e, NodeElems o q.elem e → P e) → ∀ st, HeapP P st.heap → KeepsP P (ruleGraph o g k n st) := by
  induction k with
  | zero => intro n _ st _; trivial
  | succ k ih =>
    intro n hn st H
    rw [ruleGraph]
    cases hlk : st.buf.lookup (canon n) with
    | some f =>
      refine tgBind_sat (reserveClones_P H) fun st1 H1 => ?_
      exact (cloneGraph_P f _ H1).bnd fun x Hx => Hx
    | none =>
      cases hg : getRule n g.rules with
      | none => trivial
      | some r =>
        have hr : Resolves g n r := (getRule_iff hd).mp hg
        refine tgBind_sat (altGraph_P r.alt (fun q hq => ⟨hn r hr r .refl q hq, fun m hm _ => ?_⟩) {} st H) ?_
        · exact ih m fun r2 hr2 r3 h3 => hn r hr r3 (.head ⟨q, hq, m, hm, hr2⟩ h3)
        · rintro ⟨f, st1⟩ H1
          refine tgBind_sat (reserveClones_P H1) fun st2 H2 => ?_
          exact (cloneGraph_P f _ H2).bnd fun x Hx => Hx

/-- Every node of the graph of a rule carries an element the visited rules put there. -/
theorem transitionGraph_P (hd : NamesDistinct g) {core : List Rule} {order : List Str} {name : Str} (h0 : P (.proseVal []))
    (hP : ∀ r, Props.Visits o g name r → ∀ q ∈ altReps r.alt, ∀ e, NodeElems o q.elem e → P e) {f : TgFrag} {h : TgHeap}
    (hok : transitionGraph o core g order name = .ok (.ok (f, h))) : HeapP P h := by
  have key : (transitionGraph o core g order name).Sat True True (OnOk fun (x : TgFrag × TgHeap) => HeapP P x.2) := by
    unfold transitionGraph
    cases hg : getRule name g.rules with
    | none => trivial
    | some r =>
      have hr : Resolves g name r := (getRule_iff hd).mp hg
      simp only
      cases (if o.rules then semvalABNF g else none) with
      | some e => trivial
      | none =>
        simp only
        cases ruleContainsCycle core g order name with
        | none => trivial
        | some cyc =>
          refine Run.Sat.bnd (Q := fun _ => True) (by cases cyc <;> trivial) fun b _ => ?_
          cases b with
          | true => trivial
          | false =>
            rw [if_neg (by simp)]
            refine tgBind_sat (altGraph_P r.alt (fun q hq => ⟨hP r ⟨r, hr, .inl rfl⟩ q hq, fun m hm hru => ?_⟩) {} {} fun _ => h0) fun x Hx => Hx
            exact ruleGraph_P hd _ m fun r2 hr2 r3 h3 => hP r3 ⟨r, hr, .inr ⟨hru, .head ⟨q, hq, m, hm, hr2⟩ h3⟩⟩
  rw [hok] at key
  exact key

end Verif
