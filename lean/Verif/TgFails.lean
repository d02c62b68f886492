import Verif.TgElem

/-!
# When the construction of transition graphs fails
-/

namespace Verif

open Spec

/-- Errors when `P` fails, or when the budget is exceeded, only. -/
def Exactly {α : Type} (o : TgOpts) (P : Prop) (Q : α → Prop) : Except TgErr α → Prop
  | .error e => ¬ P ∨ (e = .maxNodes ∧ 0 < o.maxNodes)
  | .ok a => P ∧ Q a

variable {o : TgOpts} {g : Grammar}

theorem tgBind_exactly {α β : Type} {P P' : Prop} {Q : α → Prop} {Q' : β → Prop} {x : TgOut α} {f : α → TgOut β}
    (h : x.Sat True True (Exactly o P Q)) (hf : ∀ a, P → Q a → (f a).Sat True True (Exactly o P' Q')) :
    (tgBind x f).Sat True True (Exactly o (P ∧ P') Q') := by
  refine h.bnd fun r hr => ?_
  cases r with
  | error e => exact hr.imp (fun h h' => h h'.1) id
  | ok a =>
    refine (hf a hr.1 hr.2).mono fun y hy => ?_
    cases y with
    | error e => exact hy.imp (fun h h' => h h'.2) id
    | ok b => exact ⟨⟨hr.1, hy.1⟩, hy.2⟩

theorem exactly_congr {α : Type} {P P' : Prop} {Q : α → Prop} {x : TgOut α} (h : x.Sat True True (Exactly o P Q)) (hp : P ↔ P') :
    x.Sat True True (Exactly o P' Q) :=
  h.mono fun y hy => by
    cases y with
    | error e => exact hy.imp (fun h h' => h (hp.mpr h')) id
    | ok b => exact ⟨hp.mp hy.1, hy.2⟩

theorem exactly_ok {α : Type} {Q : α → Prop} {x : TgOut α} (h : x.Sat True True (Exactly o True Q)) {P : Prop} (hp : P) :
    x.Sat True True (Exactly o P Q) := exactly_congr h ⟨fun _ => hp, fun _ => trivial⟩

/-- The repetitions that can be unrolled. -/
def Unrolls (o : TgOpts) (mn : Nat) (mx : Option Nat) : Prop :=
  match mx with
  | none => mn = 0 ∨ (mn : Int) ≤ o.threshold
  | some m => mn ≤ m ∧ (m ≤ 1 ∨ (m : Int) ≤ o.threshold) ∧ (mn = 0 → m = 0 → 0 ≤ o.threshold)

theorem reserveNodes_free (n : Int) (st : TgSt) :
    (∃ st', reserveNodes o n st = some st' ∧ st'.buf = st.buf) ∨ (reserveNodes o n st = none ∧ 0 < o.maxNodes) := by
  unfold reserveNodes
  split_ifs with h1 h2
  · exact .inl ⟨_, rfl, rfl⟩
  · exact .inr ⟨rfl, by omega⟩
  · exact .inl ⟨_, rfl, rfl⟩

theorem reserveClones_free (n : Nat) (ins : Pts) (st : TgSt) :
    (reserveClones o n ins st).Sat True True (Exactly o True fun st' => st'.buf = st.buf) := by
  unfold reserveClones
  split_ifs with h1
  · exact ⟨trivial, rfl⟩
  · cases countReachable st.heap ins with
    | panic => trivial
    | fuel => trivial
    | ok c =>
      simp only [Run.bnd]
      rcases reserveNodes_free (o := o) (wrap64 (n * c)) st with ⟨st', h, h'⟩ | ⟨h, h'⟩
      · rw [h]; exact ⟨trivial, h'⟩
      · rw [h]; exact .inr ⟨rfl, h'⟩

theorem chainSt_free (f : TgFrag) (n : Nat) (st : TgSt) :
    (chainSt o f n st).Sat True True (Exactly o True fun x => x.2.2.buf = st.buf) := by
  unfold chainSt
  refine exactly_congr (tgBind_exactly (P' := True) (reserveClones_free n f.ins st) fun st' _ hst => ?_) (by simp)
  cases chainTG f n st'.heap with
  | ok x => exact ⟨trivial, hst⟩
  | panic => trivial
  | fuel => trivial

theorem repGraph_exactly (mn : Nat) (mx : Option Nat) (f : TgFrag) (st : TgSt) :
    (repGraph o mn mx f st).Sat True True (Exactly o (Unrolls o mn mx) fun x => x.2.buf = st.buf) := by
  unfold repGraph
  by_cases h0 : mn = 0
  · rw [if_pos h0]
    cases mx with
    | none => exact ⟨.inl h0, rfl⟩
    | some m =>
      simp only
      by_cases h1 : m = 1
      · rw [if_pos h1]
        exact ⟨⟨by omega, .inl (by omega), by omega⟩, rfl⟩
      · rw [if_neg h1]
        by_cases h2 : (m : Int) > o.threshold
        · rw [if_pos h2]
          left
          rintro ⟨h3, h4, h5⟩
          omega
        · rw [if_neg h2]
          refine exactly_congr (tgBind_exactly (P' := True) (chainSt_free f m st) fun x _ hx => ⟨trivial, hx⟩) ?_
          simp only [and_true, true_iff]
          exact ⟨by omega, by omega, by omega⟩
  · rw [if_neg h0]
    cases mx with
    | none =>
      simp only
      by_cases h2 : (mn : Int) > o.threshold
      · rw [if_pos h2]
        left
        rintro (h3 | h3) <;> omega
      · rw [if_neg h2]
        refine exactly_congr (tgBind_exactly (P' := True) (chainSt_free f mn st) fun x _ hx => ?_) ?_
        · obtain ⟨tgs, cur, st1⟩ := x
          simp only
          cases tgs.getLast? with
          | none => trivial
          | some l => exact ⟨trivial, hx⟩
        · simp only [and_true, true_iff]
          exact .inr (by omega)
    | some m =>
      simp only
      by_cases h1 : m = 1
      · rw [if_pos h1]
        by_cases h2 : mn ≠ 1
        · rw [if_pos h2]
          left
          rintro ⟨h3, h4, h5⟩
          omega
        · rw [if_neg h2]
          exact ⟨⟨by omega, by omega, by omega⟩, rfl⟩
      · rw [if_neg h1]
        by_cases h2 : mn > m
        · rw [if_pos h2]
          left
          rintro ⟨h3, h4, h5⟩
          omega
        · rw [if_neg h2]
          by_cases h3 : (m : Int) > o.threshold
          · rw [if_pos h3]
            left
            rintro ⟨h4, h5, h6⟩
            omega
          · rw [if_neg h3]
            have hP : Unrolls o mn (some m) := ⟨by omega, by omega, by omega⟩
            refine exactly_ok (exactly_congr (tgBind_exactly (P := True) (P' := True) (Q := fun x => x.2.buf = st.buf) ?_ ?_) (by simp)) hP
            · by_cases h4 : mn > 1
              · rw [if_pos h4]
                exact exactly_congr (tgBind_exactly (P' := True) (chainSt_free f mn st) fun x _ hx => ⟨trivial, hx⟩) (by simp)
              · rw [if_neg h4]
                exact ⟨trivial, rfl⟩
            · rintro ⟨first, st1⟩ _ hx
              simp only at hx ⊢
              by_cases h5 : m - mn > 0
              · rw [if_pos h5]
                exact exactly_congr (tgBind_exactly (P' := True) (chainSt_free f (m - mn) st1)
                  fun x _ hx' => ⟨trivial, hx'.trans hx⟩) (by simp)
              · rw [if_neg h5]
                exact ⟨trivial, hx⟩

/-- The repetitions that have a graph, given those rules that have one. -/
def RepFine (o : TgOpts) (B : Str → Prop) (q : Rep) : Prop :=
  Unrolls o q.min q.max ∧ (∀ p, q.elem ≠ .proseVal p) ∧ (o.rules = true → ∀ n, q.elem = .rulename n → B n)

/-- An invariant of the graphs kept. -/
def BufOnly (B : Str → Prop) (st : TgSt) : Prop := ∀ p ∈ st.buf, B p.1

section
variable {rec : Str → TgSt → TgOut (TgFrag × TgSt)} {B : Str → Prop}

theorem oneNode_exactly (e : Elem) (st : TgSt) (hb : BufOnly B st) :
    (oneNode o e st).Sat True True (Exactly o True fun x => BufOnly B x.2) := by
  unfold oneNode
  rcases reserveNodes_free (o := o) _ st with ⟨st', h, h'⟩ | ⟨h, h'⟩
  · rw [h]; exact ⟨trivial, by simp only [BufOnly] at hb ⊢; rw [h']; exact hb⟩
  · rw [h]; exact .inr ⟨rfl, h'⟩

theorem parNodes_exactly (es : List Elem) (st : TgSt) (hb : BufOnly B st) :
    (parNodes o es st).Sat True True (Exactly o True fun x => BufOnly B x.2) := by
  unfold parNodes
  rcases reserveNodes_free (o := o) _ st with ⟨st', h, h'⟩ | ⟨h, h'⟩
  · rw [h]; exact ⟨trivial, by simp only [BufOnly] at hb ⊢; rw [h']; exact hb⟩
  · rw [h]; exact .inr ⟨rfl, h'⟩

/-- The elements that have a graph. -/
def ElemFine (o : TgOpts) (B : Str → Prop) (e : Elem) : Prop :=
  (∀ p, e ≠ .proseVal p) ∧ (o.rules = true → ∀ n, e = .rulename n → B n) ∧ ∀ q ∈ elemReps e, RepFine o B q

theorem elemFine_leaf {e : Elem} (h1 : ∀ p, e ≠ .proseVal p) (h2 : ∀ n, e ≠ .rulename n) (h3 : elemReps e = []) : ElemFine o B e :=
  ⟨h1, fun _ n hn => absurd hn (h2 n), by simp [h3]⟩

mutual
theorem elemGraph_exactly (hrec : o.rules = true → ∀ n st, BufOnly B st → (rec n st).Sat True True (Exactly o (B n) fun x => BufOnly B x.2)) :
    (e : Elem) → ∀ st, BufOnly B st → (elemGraph o rec e st).Sat True True (Exactly o (ElemFine o B e) fun x => BufOnly B x.2)
  | .charVal s vs, st, hb => by
    rw [elemGraph]
    have hf : ElemFine o B (.charVal s vs) := elemFine_leaf (by simp) (by simp) rfl
    by_cases hv : vs = []
    · rw [if_pos hv]
      exact ⟨hf, hb⟩
    · rw [if_neg hv]
      by_cases hch : o.chars = false
      · rw [if_pos hch]
        exact exactly_ok (oneNode_exactly _ st hb) hf
      · rw [if_neg hch]
        rcases reserveNodes_free (o := o) (2 * vs.length) st with ⟨st', h, h'⟩ | ⟨h, h'⟩
        · rw [h]; exact ⟨hf, by simp only [BufOnly] at hb ⊢; rw [h']; exact hb⟩
        · rw [h]; exact .inr ⟨rfl, h'⟩
  | .numVal b .range es, st, hb => by
    rw [elemGraph]
    have hf : ElemFine o B (.numVal b .range es) := elemFine_leaf (by simp) (by simp) rfl
    by_cases hn : o.nums = true
    · rw [if_pos hn]
      unfold rangeNodes
      simp only
      split_ifs with h1
      · exact ⟨hf, hb⟩
      · exact exactly_ok (parNodes_exactly _ st hb) hf
    · rw [if_neg hn]
      exact exactly_ok (oneNode_exactly _ st hb) hf
  | .numVal b .series es, st, hb => by
    rw [elemGraph]
    have hf : ElemFine o B (.numVal b .series es) := elemFine_leaf (by simp) (by simp) rfl
    by_cases hn : o.nums = true
    · rw [if_pos hn]
      exact exactly_ok (parNodes_exactly _ st hb) hf
    · rw [if_neg hn]
      exact exactly_ok (oneNode_exactly _ st hb) hf
  | .rulename n, st, hb => by
    rw [elemGraph]
    by_cases hr : o.rules = true
    · rw [if_pos hr]
      refine exactly_congr (hrec hr n st hb) ?_
      constructor
      · intro h
        exact ⟨by simp, fun _ m hm => by cases hm; exact h, by simp [elemReps]⟩
      · intro h
        exact h.2.1 hr n rfl
    · rw [if_neg hr]
      exact exactly_ok (oneNode_exactly _ st hb) ⟨by simp, fun h => absurd h hr, by simp [elemReps]⟩
  | .option a, st, hb => by
    rw [elemGraph]
    refine exactly_congr (tgBind_exactly (P' := True) (altGraph_exactly hrec a {} st hb) fun x _ hx => ⟨trivial, hx⟩) ?_
    constructor
    · rintro ⟨h, _⟩
      exact ⟨by simp, by simp, fun q hq => h q hq⟩
    · intro h
      exact ⟨fun q hq => h.2.2 q hq, trivial⟩
  | .group a, st, hb => by
    rw [elemGraph]
    refine exactly_congr (altGraph_exactly hrec a {} st hb) ?_
    constructor
    · intro h
      exact ⟨by simp, by simp, fun q hq => h q hq⟩
    · intro h
      exact fun q hq => h.2.2 q hq
  | .proseVal v, st, hb => by
    rw [elemGraph]
    exact .inl fun h => h.1 v rfl
theorem altGraph_exactly (hrec : o.rules = true → ∀ n st, BufOnly B st → (rec n st).Sat True True (Exactly o (B n) fun x => BufOnly B x.2)) :
    (a : List (List Rep)) → ∀ acc st, BufOnly B st → (altGraph o rec a acc st).Sat True True
      (Exactly o (∀ q ∈ altReps a, RepFine o B q) fun x => BufOnly B x.2)
  | [], acc, st, hb => by
    rw [altGraph]
    exact ⟨by simp [altReps], hb⟩
  | c :: a, acc, st, hb => by
    rw [altGraph]
    refine exactly_congr (tgBind_exactly (concatGraph_exactly hrec c st hb)
      fun x _ hx => altGraph_exactly hrec a _ x.2 hx) ?_
    simp only [altReps, List.mem_append, or_imp, forall_and]
theorem concatGraph_exactly (hrec : o.rules = true → ∀ n st, BufOnly B st → (rec n st).Sat True True (Exactly o (B n) fun x => BufOnly B x.2)) :
    (c : List Rep) → ∀ st, BufOnly B st → (concatGraph o rec c st).Sat True True
      (Exactly o (∀ q ∈ concatReps c, RepFine o B q) fun x => BufOnly B x.2)
  | [], st, hb => by
    rw [concatGraph]
    trivial
  | ⟨mn, mx, e⟩ :: c, st, hb => by
    rw [concatGraph]
    refine exactly_congr (tgBind_exactly (elemGraph_exactly hrec e st hb) fun x _ hx =>
      tgBind_exactly (P := Unrolls o mn mx) (Q := fun y => BufOnly B y.2) ((repGraph_exactly mn mx x.1 x.2).mono ?_)
        fun y _ hy => concatRest_exactly hrec c y.1 y.2 hy) ?_
    · intro y hy
      cases y with
      | error e => exact hy
      | ok y => exact ⟨hy.1, by have := hy.2; simp only [BufOnly] at hx ⊢; rw [this]; exact hx⟩
    · simp only [concatReps, repReps, List.mem_append, List.mem_cons, or_imp, forall_and, forall_eq, ElemFine, RepFine]
      tauto
theorem concatRest_exactly (hrec : o.rules = true → ∀ n st, BufOnly B st → (rec n st).Sat True True (Exactly o (B n) fun x => BufOnly B x.2)) :
    (c : List Rep) → ∀ acc st, BufOnly B st → (concatRest o rec c acc st).Sat True True
      (Exactly o (∀ q ∈ concatReps c, RepFine o B q) fun x => BufOnly B x.2)
  | [], acc, st, hb => by
    rw [concatRest]
    exact ⟨by simp [concatReps], hb⟩
  | ⟨mn, mx, e⟩ :: c, acc, st, hb => by
    rw [concatRest]
    refine exactly_congr (tgBind_exactly (elemGraph_exactly hrec e st hb) fun x _ hx =>
      tgBind_exactly (P := Unrolls o mn mx) (Q := fun y => BufOnly B y.2) ((repGraph_exactly mn mx x.1 x.2).mono ?_)
        fun y _ hy => concatRest_exactly hrec c _ { y.2 with heap := _ } hy) ?_
    · intro y hy
      cases y with
      | error e => exact hy
      | ok y => exact ⟨hy.1, by have := hy.2; simp only [BufOnly] at hx ⊢; rw [this]; exact hx⟩
    · simp only [concatReps, repReps, List.mem_append, List.mem_cons, or_imp, forall_and, forall_eq, ElemFine, RepFine]
      tauto
end
end

/-- Every repetition of a rule, and with rules deflated of every rule below, has a graph. -/
def RuleFine (o : TgOpts) (g : Grammar) (n : Str) : Prop :=
  ∃ r, Resolves g n r ∧ ∀ r', Relation.ReflTransGen (Refers g) r r' → ∀ q ∈ altReps r'.alt,
    RepFine o (fun m => ∃ s, Resolves g m s) q

theorem ruleFine_iff (hd : NamesDistinct g) (hr : o.rules = true) {n : Str} {r : Rule} (h : Resolves g n r) :
    RuleFine o g n ↔ ∀ q ∈ altReps r.alt, RepFine o (RuleFine o g) q := by
  constructor
  · rintro ⟨r', h1, h2⟩ q hq
    obtain rfl := resolves_unique hd h h1 rfl
    obtain ⟨h3, h4, h5⟩ := h2 r .refl q hq
    refine ⟨h3, h4, fun _ m hm => ?_⟩
    obtain ⟨s, hs⟩ := h5 hr m hm
    exact ⟨s, hs, fun s' hs' => h2 s' (.head ⟨q, hq, m, hm, hs⟩ hs')⟩
  · intro H
    refine ⟨r, h, fun r' hr' q hq => ?_⟩
    rcases Relation.ReflTransGen.cases_head hr' with rfl | ⟨s, ⟨q', hq', m, hm, hs⟩, hs'⟩
    · obtain ⟨h3, h4, h5⟩ := H q hq
      refine ⟨h3, h4, fun _ m hm => ?_⟩
      obtain ⟨s, hs, _⟩ := h5 hr m hm
      exact ⟨s, hs⟩
    · obtain ⟨t, ht, ht'⟩ := (H q' hq').2.2 hr m hm
      obtain rfl := resolves_unique hd hs ht rfl
      exact ht' r' hs' q hq

theorem ruleFine_congr {n m : Str} (h : canon n = canon m) : RuleFine o g n ↔ RuleFine o g m := by
  unfold RuleFine
  simp only [resolves_congr h]

theorem cloneGraph_buf {f : TgFrag} {st : TgSt} {B : Str → Prop} {k : TgFrag × TgHeap → TgOut (TgFrag × TgSt)} {P : Prop}
    (hk : ∀ x, (k x).Sat True True (Exactly o P fun x => BufOnly B x.2)) :
    ((cloneGraph f st.heap).bnd k).Sat True True (Exactly o P fun x => BufOnly B x.2) := by
  cases cloneGraph f st.heap with
  | ok x => exact hk x
  | panic => trivial
  | fuel => trivial

theorem ruleGraph_exactly (hd : NamesDistinct g) (hr : o.rules = true) (k : Nat) : ∀ n st, BufOnly (RuleFine o g) st →
    (ruleGraph o g k n st).Sat True True (Exactly o (RuleFine o g n) fun x => BufOnly (RuleFine o g) x.2) := by
  induction k with
  | zero => intro n st _; rw [ruleGraph]; trivial
  | succ k ih =>
    intro n st hb
    rw [ruleGraph]
    have hcc : canon (canon n) = canon n := canon_canon n
    cases hlk : st.buf.lookup (canon n) with
    | some f =>
      have hf : RuleFine o g n := (ruleFine_congr hcc).mp (hb _ (tgLookup_mem hlk))
      refine exactly_congr (tgBind_exactly (P' := RuleFine o g n) (reserveClones_free 1 f.ins st) fun st' _ hst => ?_) (by simp)
      exact cloneGraph_buf fun x => ⟨hf, by simp only [BufOnly] at hb ⊢; rw [hst]; exact hb⟩
    | none =>
      cases hg : getRule n g.rules with
      | none =>
        left
        rintro ⟨r, h1, _⟩
        rw [(getRule_iff hd).mpr h1] at hg
        cases hg
      | some r =>
        have hres : Resolves g n r := (getRule_iff hd).mp hg
        simp only
        refine exactly_congr (tgBind_exactly (P' := RuleFine o g n) (altGraph_exactly (fun _ => ih) r.alt {} st hb) fun x hx hx' => ?_) ?_
        · have hf := (ruleFine_iff hd hr hres).mpr hx
          refine exactly_congr (tgBind_exactly (P' := RuleFine o g n) (reserveClones_free 1 x.1.ins x.2) fun st' _ hst => ?_) (by simp)
          refine cloneGraph_buf fun y => ⟨hf, ?_⟩
          intro p hp
          rcases List.mem_cons.mp hp with rfl | hp
          · exact (ruleFine_congr hcc).mpr hf
          · exact hx' p (hst ▸ hp)
        · rw [← ruleFine_iff hd hr hres, and_self]

end Verif
