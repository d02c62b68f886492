import Verif.PropsExpect

/-!
# Deflated series

With numeric values deflated, `TransitionGraph` builds one node per number of a series and makes each of them an entry and an end point:
the series is read as alternatives.  The graph is therefore that of another grammar, in which series are written as alternatives.
-/

namespace Verif
open Spec

mutual
/-- The element with every series of other than one number written as alternatives, as the graph has it
(/repo/transition_graph.go:1382-1393). -/
def spreadElem : Elem → Elem
  | .numVal b .series es =>
    if es.length = 1 then .numVal b .series es else .group (es.map fun s => [⟨1, some 1, .numVal b .series [s]⟩])
  | .numVal b .range es => .numVal b .range es
  | .charVal s vs => .charVal s vs
  | .rulename n => .rulename n
  | .proseVal p => .proseVal p
  | .option a => .option (spreadAlt a)
  | .group a => .group (spreadAlt a)
/-- The same for an alternation. -/
def spreadAlt : List (List Rep) → List (List Rep)
  | [] => []
  | c :: a => spreadConcat c :: spreadAlt a
/-- The same for a concatenation. -/
def spreadConcat : List Rep → List Rep
  | [] => []
  | ⟨mn, mx, e⟩ :: c => ⟨mn, mx, spreadElem e⟩ :: spreadConcat c
end

/-- The same for a rule. -/
def spreadRule (r : Rule) : Rule := ⟨r.name, spreadAlt r.alt⟩

/-- The same for a grammar. -/
def spread (g : Grammar) : Grammar := ⟨g.rules.map spreadRule⟩

/-! ## Values returned -/

/-- If the call returns a value, then one with `P`. -/
def Keeps {α : Type} (P : α → Prop) (x : TgOut α) : Prop := ∀ a, x = .ok (.ok a) → P a

section
variable {α β : Type} {P : α → Prop} {Q : β → Prop}

theorem keeps_ok {a : α} (h : P a) : Keeps P (.ok (.ok a)) := by rintro b hb; cases hb; exact h
theorem keeps_panic : Keeps P (.panic : TgOut α) := by rintro b hb; cases hb
theorem keeps_fuel : Keeps P (.fuel : TgOut α) := by rintro b hb; cases hb
theorem keeps_error (e : TgErr) : Keeps P (.ok (.error e) : TgOut α) := by rintro b hb; cases hb

theorem keeps_bnd {x : Run β} {f : β → TgOut α} (hf : ∀ a, Keeps P (f a)) : Keeps P (x.bnd f) := by
  cases x with
  | ok a => exact hf a
  | panic => exact keeps_panic
  | fuel => exact keeps_fuel

theorem keeps_bind {x : TgOut β} {f : β → TgOut α} (h : Keeps Q x) (hf : ∀ a, Q a → Keeps P (f a)) : Keeps P (tgBind x f) := by
  unfold tgBind
  cases x with
  | panic => exact keeps_panic
  | fuel => exact keeps_fuel
  | ok r =>
    cases r with
    | ok a => exact hf a (h a rfl)
    | error e => exact keeps_error e
end

/-- The number of nodes is within the budget. -/
def Within (o : TgOpts) (st : TgSt) : Prop := o.maxNodes ≤ 0 ∨ (0 ≤ st.count ∧ st.count ≤ o.maxNodes)

/-- The same for a graph with the state after it. -/
def FragWithin (o : TgOpts) (x : TgFrag × TgSt) : Prop := Within o x.2

section
variable {o : TgOpts}

theorem reserveNodes_within {n : Int} {st st' : TgSt} (h : Within o st) (hr : reserveNodes o n st = some st') : Within o st' := by
  unfold reserveNodes at hr
  split_ifs at hr with h1 h2
  · cases hr; exact h
  · cases hr
    right
    simp only [not_or, not_lt, gt_iff_lt] at h2
    exact ⟨h2.2.1, h2.2.2⟩

theorem reserveClones_within (n : Nat) (ins : Pts) {st : TgSt} (h : Within o st) : Keeps (Within o) (reserveClones o n ins st) := by
  unfold reserveClones
  split_ifs
  · exact keeps_ok h
  · refine keeps_bnd fun k => ?_
    cases hr : reserveNodes o (wrap64 (n * k)) st with
    | none => exact keeps_error _
    | some st => exact keeps_ok (reserveNodes_within h hr)

theorem chainSt_within (f : TgFrag) (n : Nat) {st : TgSt} (h : Within o st) : Keeps (fun x : List TgFrag × TgFrag × TgSt => Within o x.2.2) (chainSt o f n st) :=
  keeps_bind (reserveClones_within _ _ h) fun _ h' => keeps_bnd fun _ => keeps_ok (P := fun x : List TgFrag × TgFrag × TgSt => Within o x.2.2) h'

theorem repGraph_within (mn : Nat) (mx : Option Nat) (f : TgFrag) {st : TgSt} (h : Within o st) :
    Keeps (FragWithin o) (repGraph o mn mx f st) := by
  unfold repGraph
  by_cases h0 : mn = 0
  · rw [if_pos h0]
    cases mx with
    | none => exact keeps_ok h
    | some m =>
      simp only
      split_ifs
      · exact keeps_ok h
      · exact keeps_error _
      · exact keeps_bind (chainSt_within _ _ h) fun x hx => keeps_ok (P := FragWithin o) hx
  · rw [if_neg h0]
    cases mx with
    | none =>
      simp only
      split_ifs
      · exact keeps_error _
      · refine keeps_bind (chainSt_within _ _ h) fun x hx => ?_
        obtain ⟨tgs, cur, st'⟩ := x
        simp only
        cases tgs.getLast? with
        | none => exact keeps_panic
        | some l => exact keeps_ok (P := FragWithin o) hx
    | some m =>
      simp only
      by_cases h1 : m = 1
      · rw [if_pos h1]
        split_ifs
        · exact keeps_error _
        · exact keeps_ok (P := FragWithin o) h
      · rw [if_neg h1]
        by_cases h2 : mn > m
        · rw [if_pos h2]; exact keeps_error _
        · rw [if_neg h2]
          by_cases h3 : (m : Int) > o.threshold
          · rw [if_pos h3]; exact keeps_error _
          · rw [if_neg h3]
            refine keeps_bind (Q := FragWithin o) ?_ fun x hx => ?_
            · split_ifs
              · exact keeps_bind (chainSt_within _ _ h) fun x hx => keeps_ok (P := FragWithin o) hx
              · exact keeps_ok (P := FragWithin o) h
            · obtain ⟨first, st'⟩ := x
              simp only
              split_ifs
              · exact keeps_bind (chainSt_within _ _ hx) fun x hx => keeps_ok (P := FragWithin o) hx
              · exact keeps_ok (P := FragWithin o) hx

theorem oneNode_within (e : Elem) {st : TgSt} (h : Within o st) : Keeps (FragWithin o) (oneNode o e st) := by
  unfold oneNode
  cases hr : reserveNodes o 1 st with
  | none => exact keeps_error _
  | some st => exact keeps_ok (P := FragWithin o) (by have := reserveNodes_within h hr; exact this)

theorem parNodes_within (es : List Elem) {st : TgSt} (h : Within o st) : Keeps (FragWithin o) (parNodes o es st) := by
  unfold parNodes
  cases hr : reserveNodes o es.length st with
  | none => exact keeps_error _
  | some st => exact keeps_ok (P := FragWithin o) (by have := reserveNodes_within h hr; exact this)

theorem wrap64_over {x : Int} (h : 2 ^ 63 ≤ x) (h' : x < 2 ^ 64) : wrap64 x < 0 := by
  unfold wrap64 Int.bmod
  have : x % ((2 ^ 64 : Nat) : Int) = x := Int.emod_eq_of_lt (by omega) (by simpa using h')
  simp only [this]
  split_ifs <;> omega

/-- Reserving nodes one by one. -/
theorem reserve_succ (hm : o.maxNodes < 2 ^ 63) {n : Nat} (hn : n + 1 < 2 ^ 63) {st : TgSt} (h : Within o st) :
    reserveNodes o ((n + 1 : Nat) : Int) st = (reserveNodes o 1 st).bind (reserveNodes o n) := by
  unfold reserveNodes
  split_ifs with h0 h1 h2 h2
  · rfl
  · rfl
  · rcases h with h | ⟨h3, h4⟩
    · omega
    · have e1 : wrap64 (st.count + 1) = st.count + 1 := by
        by_cases hx : st.count + 1 < 2 ^ 63
        · exact wrap64_eq (by omega) hx
        · have := wrap64_over (x := st.count + 1) (by omega) (by omega)
          simp only [not_or, not_lt] at h2
          omega
      simp only [Option.bind_some, e1] at h2 ⊢
      rw [if_pos]
      rw [show st.count + 1 + (n : Int) = st.count + ((n + 1 : Nat) : Int) by push_cast; ring]
      rcases h1 with h1 | h1
      · omega
      · exact .inr h1
  · exfalso
    rcases h with h | ⟨h3, h4⟩
    · omega
    · by_cases hx : st.count + ((n + 1 : Nat) : Int) < 2 ^ 63
      · have e1 := wrap64_eq (x := st.count + ((n + 1 : Nat) : Int)) (by omega) hx
        have e2 := wrap64_eq (x := st.count + 1) (by omega) (by push_cast at hx ⊢; omega)
        rw [e1] at h1
        rw [e2] at h2
        simp only [not_or, not_lt] at h1
        rcases h2 with h2 | h2 | h2 <;> push_cast at * <;> omega
      · have := wrap64_over (x := st.count + ((n + 1 : Nat) : Int)) (by omega) (by omega)
        simp only [not_or, not_lt] at h1
        omega
  · rcases h with h | ⟨h3, h4⟩
    · omega
    · have e1 : wrap64 (st.count + 1) = st.count + 1 := by
        by_cases hx : st.count + 1 < 2 ^ 63
        · exact wrap64_eq (by omega) hx
        · have := wrap64_over (x := st.count + 1) (by omega) (by omega)
          simp only [not_or, not_lt] at h2
          omega
      simp only [Option.bind_some, e1]
      rw [show st.count + 1 + (n : Int) = st.count + ((n + 1 : Nat) : Int) by push_cast; ring, if_neg]
      simp only [not_or, not_lt] at h1 ⊢
      exact ⟨by omega, h1.2⟩

variable {rec : Str → TgSt → TgOut (TgFrag × TgSt)}

/-- The graph of the alternatives is that of the series. -/
theorem altGraph_singles (hm : o.maxNodes < 2 ^ 63) (hnum : o.nums = true) (b : Str) : ∀ (es : List Str) (acc : TgFrag) (st : TgSt), es.length < 2 ^ 63 → Within o st →
    none ∉ acc.ins → none ∉ acc.outs →
    altGraph o rec (es.map fun s => [⟨1, some 1, .numVal b .series [s]⟩]) acc st =
      tgBind (parNodes o (es.map fun s => .numVal b .series [s]) st) fun x => .ok (.ok (⟨acc.ins ++ x.1.ins, acc.outs ++ x.1.outs⟩, x.2)) := by
  intro es
  induction es with
  | nil =>
    intro acc st _ hw _ _
    have : reserveNodes o ((0 : Nat) : Int) st = some st := by
      unfold reserveNodes
      split_ifs with h1 h2
      · rfl
      · exfalso
        rcases hw with hw | hw
        · omega
        · rw [wrap64_eq (by simp; omega) (by simp; omega)] at h2
          simp at h2
          omega
      · rcases hw with hw | hw
        · omega
        · rw [wrap64_eq (by simp; omega) (by simp; omega)]
          simp
    simp only [List.map_nil, altGraph, parNodes, List.length_nil, this, tgBind, Run.bnd, allocAll, List.append_nil, List.map_nil]
  | cons s es ih =>
    intro acc st hl hw h1 h2
    simp only [List.length_cons] at hl
    rw [List.map_cons, altGraph, concatGraph, elemGraph, if_pos hnum]
    have hone : reserveNodes o (([s].map fun s => Elem.numVal b .series [s]).length : Int) st = reserveNodes o 1 st := rfl
    conv_rhs => rw [parNodes]
    rw [parNodes, hone, show (((s :: es).map fun s => Elem.numVal b .series [s]).length : Int) = ((es.length + 1 : Nat) : Int) by simp,
      reserve_succ hm (by omega) hw]
    cases hr : reserveNodes o 1 st with
    | none => rfl
    | some st1 =>
      have hw1 := reserveNodes_within hw hr
      simp only [Option.bind_some, tgBind, allocAll, List.map_cons, List.map_nil, repGraph, appendNodes, concatRest, Run.bnd]
      simp only [one_ne_zero, if_false, ne_eq, not_true_eq_false, if_true, List.not_mem_nil, List.nil_append, altMerge, h1, h2]
      rw [ih _ _ (by omega) (by have := hw1; exact this) (by simp [h1]) (by simp [h2])]
      simp only [parNodes, tgBind, Run.bnd]
      have : ∀ hp, reserveNodes o ((es.map fun s => Elem.numVal b .series [s]).length : Int) { st1 with heap := hp } =
          (reserveNodes o es.length st1).map fun x => { x with heap := hp } := by
        intro hp
        unfold reserveNodes
        simp only [List.length_map]
        split_ifs <;> rfl
      rw [this]
      cases hr2 : reserveNodes o es.length st1 with
      | none => rfl
      | some st2 =>
        have e : st2.heap = st1.heap := by
          unfold reserveNodes at hr2
          split_ifs at hr2 <;> cases hr2 <;> rfl
        simp only [Option.map_some, List.append_assoc, List.singleton_append, e]
end

/-! ## The same graph -/

/-- The same outcome, within the budget. -/
def SameGraph (o : TgOpts) (x y : TgOut (TgFrag × TgSt)) : Prop := x = y ∧ Keeps (FragWithin o) x

section
variable {o : TgOpts}

theorem alike_bind {x y : TgOut (TgFrag × TgSt)} {F F' : TgFrag × TgSt → TgOut (TgFrag × TgSt)} (h : SameGraph o x y)
    (hf : ∀ a, FragWithin o a → SameGraph o (F a) (F' a)) : SameGraph o (tgBind x F) (tgBind y F') := by
  obtain ⟨rfl, h⟩ := h
  refine ⟨?_, keeps_bind h fun a ha => (hf a ha).2⟩
  unfold tgBind
  cases x with
  | panic => rfl
  | fuel => rfl
  | ok r =>
    cases r with
    | error e => rfl
    | ok a => exact (hf a (h a rfl)).1

theorem alike_self {x : TgOut (TgFrag × TgSt)} (h : Keeps (FragWithin o) x) : SameGraph o x x := ⟨rfl, h⟩

/-- No series has `2 ^ 63` numbers. -/
def ShortSeries (q : Rep) : Prop := ∀ b es, q.elem = .numVal b .series es → es.length < 2 ^ 63

variable (hm : o.maxNodes < 2 ^ 63) (hnum : o.nums = true) {rec rec' : Str → TgSt → TgOut (TgFrag × TgSt)}
  (hrec : ∀ n st, Within o st → SameGraph o (rec n st) (rec' n st))
include hm hnum hrec

mutual
theorem elemGraph_spread (mn : Nat) (mx : Option Nat) : (e : Elem) → (∀ q ∈ repReps ⟨mn, mx, e⟩, ShortSeries q) → ∀ st, Within o st →
    SameGraph o (elemGraph o rec e st) (elemGraph o rec' (spreadElem e) st)
  | .charVal s vs, _, st, hw => by
    rw [spreadElem, elemGraph, elemGraph]
    refine alike_self ?_
    split_ifs
    · exact keeps_ok (P := FragWithin o) hw
    · exact oneNode_within _ hw
    · cases h : reserveNodes o (2 * vs.length) st with
      | none => exact keeps_error _
      | some st1 =>
        have := reserveNodes_within hw h
        exact keeps_ok (P := FragWithin o) this
  | .numVal b .range es, _, st, hw => by
    rw [spreadElem, elemGraph, elemGraph]
    refine alike_self ?_
    rw [if_pos hnum]
    unfold rangeNodes
    simp only
    split_ifs
    · exact keeps_ok (P := FragWithin o) hw
    · exact parNodes_within _ hw
  | .numVal b .series es, hq, st, hw => by
    have hk : Keeps (FragWithin o) (elemGraph o rec (.numVal b .series es) st) := by
      rw [elemGraph, if_pos hnum]
      exact parNodes_within _ hw
    refine ⟨?_, hk⟩
    rw [spreadElem]
    split_ifs with h1
    · rw [elemGraph, elemGraph]
    · rw [elemGraph, elemGraph, if_pos hnum,
        altGraph_singles hm hnum b es {} st (hq _ (List.mem_cons_self ..) b es rfl) hw (by simp) (by simp)]
      unfold parNodes
      cases reserveNodes o _ st <;> rfl
  | .rulename n, _, st, hw => by
    rw [spreadElem, elemGraph, elemGraph]
    split_ifs
    · exact hrec n st hw
    · exact alike_self (oneNode_within _ hw)
  | .option a, hq, st, hw => by
    rw [spreadElem, elemGraph, elemGraph]
    exact alike_bind (altGraph_spread a (fun q hm => hq q (List.mem_cons_of_mem _ hm)) {} st hw) fun _ h =>
      alike_self (keeps_ok (P := FragWithin o) h)
  | .group a, hq, st, hw => by
    rw [spreadElem, elemGraph, elemGraph]
    exact altGraph_spread a (fun q hm => hq q (List.mem_cons_of_mem _ hm)) {} st hw
  | .proseVal p, _, st, hw => by
    rw [spreadElem, elemGraph, elemGraph]
    exact alike_self (keeps_error _)
theorem altGraph_spread : (a : List (List Rep)) → (∀ q ∈ altReps a, ShortSeries q) → ∀ acc st, Within o st →
    SameGraph o (altGraph o rec a acc st) (altGraph o rec' (spreadAlt a) acc st)
  | [], _, acc, st, hw => by
    rw [spreadAlt, altGraph, altGraph]
    exact alike_self (keeps_ok (P := FragWithin o) hw)
  | c :: a, hq, acc, st, hw => by
    rw [spreadAlt, altGraph, altGraph]
    exact alike_bind (concatGraph_spread c (fun q hm => hq q (by simp [altReps, hm])) st hw) fun _ h =>
      altGraph_spread a (fun q hm => hq q (by simp [altReps, hm])) _ _ h
theorem concatGraph_spread : (c : List Rep) → (∀ q ∈ concatReps c, ShortSeries q) → ∀ st, Within o st →
    SameGraph o (concatGraph o rec c st) (concatGraph o rec' (spreadConcat c) st)
  | [], _, st, hw => by
    rw [spreadConcat, concatGraph, concatGraph]
    exact alike_self keeps_panic
  | ⟨mn, mx, e⟩ :: c, hq, st, hw => by
    have h1 : ∀ q ∈ repReps ⟨mn, mx, e⟩, q ∈ concatReps (⟨mn, mx, e⟩ :: c) := fun q hm => by rw [concatReps]; exact List.mem_append_left _ hm
    have h2 : ∀ q ∈ concatReps c, q ∈ concatReps (⟨mn, mx, e⟩ :: c) := fun q hm => by rw [concatReps]; exact List.mem_append_right _ hm
    rw [spreadConcat, concatGraph, concatGraph]
    exact alike_bind (elemGraph_spread mn mx e (fun q hm => hq q (h1 q hm)) st hw) fun _ h =>
      alike_bind (alike_self (repGraph_within mn mx _ h)) fun _ h' => concatRest_spread c (fun q hm => hq q (h2 q hm)) _ _ h'
theorem concatRest_spread : (c : List Rep) → (∀ q ∈ concatReps c, ShortSeries q) → ∀ acc st, Within o st →
    SameGraph o (concatRest o rec c acc st) (concatRest o rec' (spreadConcat c) acc st)
  | [], _, acc, st, hw => by
    rw [spreadConcat, concatRest, concatRest]
    exact alike_self (keeps_ok (P := FragWithin o) hw)
  | ⟨mn, mx, e⟩ :: c, hq, acc, st, hw => by
    have h1 : ∀ q ∈ repReps ⟨mn, mx, e⟩, q ∈ concatReps (⟨mn, mx, e⟩ :: c) := fun q hm => by rw [concatReps]; exact List.mem_append_left _ hm
    have h2 : ∀ q ∈ concatReps c, q ∈ concatReps (⟨mn, mx, e⟩ :: c) := fun q hm => by rw [concatReps]; exact List.mem_append_right _ hm
    rw [spreadConcat, concatRest, concatRest]
    exact alike_bind (elemGraph_spread mn mx e (fun q hm => hq q (h1 q hm)) st hw) fun _ h =>
      alike_bind (alike_self (repGraph_within mn mx _ h)) fun _ h' =>
        concatRest_spread c (fun q hm => hq q (h2 q hm)) _ _ h'
end
end

/-! ## The other grammar -/

mutual
theorem spread_elemDeps : (e : Elem) → elemDeps (spreadElem e) = elemDeps e
  | .charVal .. | .proseVal .. | .rulename .. | .numVal _ .range _ => rfl
  | .numVal b .series es => by
    rw [spreadElem]
    split_ifs
    · rfl
    · rw [elemDeps, elemDeps]
      have : ∀ (es : List Str), altDepsFrom [] (es.map fun s => [(⟨1, some 1, .numVal b .series [s]⟩ : Rep)]) = [] := by
        intro es
        induction es with
        | nil => rfl
        | cons s es ih => exact ih
      exact this es
  | .option a => by rw [spreadElem, elemDeps, elemDeps, spread_altDeps]
  | .group a => by rw [spreadElem, elemDeps, elemDeps, spread_altDeps]
theorem spread_altDeps : (a : List (List Rep)) → ∀ deps, altDepsFrom deps (spreadAlt a) = altDepsFrom deps a
  | [], _ => rfl
  | c :: a, deps => by rw [spreadAlt, altDepsFrom, altDepsFrom, spread_concatDeps, spread_altDeps]
theorem spread_concatDeps : (c : List Rep) → ∀ deps, concatDepsFrom deps (spreadConcat c) = concatDepsFrom deps c
  | [], _ => rfl
  | ⟨_, _, e⟩ :: c, deps => by rw [spreadConcat, concatDepsFrom, concatDepsFrom, repDeps, repDeps, spread_elemDeps, spread_concatDeps]
end

theorem spread_deps (a : Alt) : getDependencies (spreadAlt a) = getDependencies a := spread_altDeps a []

theorem spread_dgAdd (rs : List Rule) : ∀ m, dgAdd m (rs.map spreadRule) = dgAdd m rs := by
  induction rs with
  | nil => intro m; rfl
  | cons r rs ih => intro m; rw [List.map_cons, dgAdd, dgAdd, ih]; simp only [spreadRule, spread_deps]

theorem spread_dependencyGraph (core : List Rule) (g : Grammar) : dependencyGraph core (spread g) = dependencyGraph core g :=
  spread_dgAdd _ _

theorem spread_getRuleIn (n : Str) (rs : List Rule) : getRuleIn n (rs.map spreadRule) = (getRuleIn n rs).map spreadRule := by
  unfold getRuleIn
  rw [List.find?_map]
  rfl

mutual
theorem spread_same : (e : Elem) → (∀ b es, e = .numVal b .series es → es.length = 1) →
    (∀ q ∈ elemReps e, ∀ b es, q.elem = .numVal b .series es → es.length = 1) → spreadElem e = e
  | .charVal .., _, _ | .proseVal .., _, _ | .rulename .., _, _ | .numVal _ .range _, _, _ => rfl
  | .numVal b .series es, h, _ => by rw [spreadElem, if_pos (h b es rfl)]
  | .option a, _, h => by rw [spreadElem, spreadAlt_same a h]
  | .group a, _, h => by rw [spreadElem, spreadAlt_same a h]
theorem spreadAlt_same : (a : List (List Rep)) → (∀ q ∈ altReps a, ∀ b es, q.elem = .numVal b .series es → es.length = 1) → spreadAlt a = a
  | [], _ => rfl
  | c :: a, h => by
    rw [spreadAlt, spreadAlt_same a fun q hq => h q (by simp [altReps, hq]), spreadConcat_same c fun q hq => h q (by simp [altReps, hq])]
theorem spreadConcat_same : (c : List Rep) → (∀ q ∈ concatReps c, ∀ b es, q.elem = .numVal b .series es → es.length = 1) → spreadConcat c = c
  | [], _ => rfl
  | ⟨mn, mx, e⟩ :: c, h => by
    rw [spreadConcat, spread_same e (fun b es he => h ⟨mn, mx, e⟩ (by simp [concatReps, repReps]) b es he)
      (fun q hq => h q (by simp [concatReps, repReps, hq])), spreadConcat_same c fun q hq => h q (by simp [concatReps, hq])]
end

theorem core_same : ∀ r ∈ Core.rules, spreadRule r = r := by
  intro r hr
  have h : Core.rules.all Props.oneCharB = true := by decide +kernel
  have h1 := List.all_eq_true.mp (List.all_eq_true.mp h r hr)
  unfold spreadRule
  rw [spreadAlt_same]
  intro q hq b es he
  have := h1 q hq
  rw [he] at this
  simp only [Bool.and_eq_true] at this
  exact of_decide_eq_true this.2

theorem spread_getRule (n : Str) (g : Grammar) : getRule n (spread g).rules = (getRule n g.rules).map spreadRule := by
  unfold getRule
  rw [spread, spread_getRuleIn]
  cases getRuleIn n g.rules with
  | some r => rfl
  | none =>
    simp only [Option.map_none, Option.none_or]
    cases h : getRuleIn n Core.rules with
    | none => rfl
    | some r => rw [Option.map_some, core_same r (List.mem_of_find?_eq_some h)]

theorem spread_names (g : Grammar) (hd : NamesDistinct g) : NamesDistinct (spread g) := by
  unfold NamesDistinct spread
  rw [List.pairwise_map]
  exact hd

theorem spread_resolves {g : Grammar} (hd : NamesDistinct g) {n : Str} {r' : Rule} :
    Resolves (spread g) n r' ↔ ∃ r, Resolves g n r ∧ r' = spreadRule r := by
  rw [← getRule_iff (spread_names g hd), spread_getRule, Option.map_eq_some_iff]
  constructor
  · rintro ⟨r, h, rfl⟩; exact ⟨r, (getRule_iff hd).mp h, rfl⟩
  · rintro ⟨r, h, rfl⟩; exact ⟨r, (getRule_iff hd).mpr h, rfl⟩

theorem semval_singles (b : Str) (es : List Str) :
    semvalAlternation (es.map fun s => [(⟨1, some 1, .numVal b .series [s]⟩ : Rep)]) = none ↔ semvalNums b es = none := by
  induction es with
  | nil => exact Iff.rfl
  | cons s es ih =>
    rw [List.map_cons, semvalAlternation, semvalConcat, semvalConcat, semvalRep, semvalNums]
    simp only [boundsCross, lt_irrefl, decide_false, Bool.false_eq_true, if_false, semvalElem, semvalNums]
    split_ifs with h
    · simpa using ih
    · simp

mutual
theorem spread_semvalElem : (e : Elem) → (semvalElem (spreadElem e) = none ↔ semvalElem e = none)
  | .charVal .. | .proseVal .. | .rulename .. | .numVal _ .range _ => Iff.rfl
  | .numVal b .series es => by
    rw [spreadElem]
    split_ifs
    · rfl
    · rw [semvalElem, semvalElem, semval_singles]
  | .option a => by rw [spreadElem, semvalElem, semvalElem, spread_semvalAlt]
  | .group a => by rw [spreadElem, semvalElem, semvalElem, spread_semvalAlt]
theorem spread_semvalAlt : (a : List (List Rep)) → (semvalAlternation (spreadAlt a) = none ↔ semvalAlternation a = none)
  | [] => Iff.rfl
  | c :: a => by rw [spreadAlt, semvalAlternation, semvalAlternation, Option.or_eq_none_iff, Option.or_eq_none_iff, spread_semvalAlt, spread_semvalConcat]
theorem spread_semvalConcat : (c : List Rep) → (semvalConcat (spreadConcat c) = none ↔ semvalConcat c = none)
  | [] => Iff.rfl
  | ⟨mn, mx, e⟩ :: c => by
    rw [spreadConcat, semvalConcat, semvalConcat, Option.or_eq_none_iff, Option.or_eq_none_iff, spread_semvalConcat, semvalRep, semvalRep]
    split_ifs
    · simp
    · rw [spread_semvalElem]
end

theorem spread_semvalDeps (g : Grammar) (ds : List Str) : semvalDeps (spread g).rules ds = semvalDeps g.rules ds := by
  induction ds with
  | nil => rfl
  | cons d ds ih => rw [semvalDeps, semvalDeps, ih, spread_getRule, Option.isSome_map]

theorem spread_semval (g : Grammar) : semvalABNF (spread g) = none ↔ semvalABNF g = none := by
  unfold semvalABNF
  rw [Option.or_eq_none_iff, Option.or_eq_none_iff, List.findSome?_eq_none_iff, List.findSome?_eq_none_iff, List.findSome?_eq_none_iff,
    List.findSome?_eq_none_iff]
  simp only [spread_semvalDeps]
  simp only [spread, List.mem_map, forall_exists_index, and_imp, forall_apply_eq_imp_iff₂, spreadRule, spread_deps, spread_semvalAlt]

theorem spread_ruleGraph {o : TgOpts} (hm : o.maxNodes < 2 ^ 63) (hnum : o.nums = true) {g : Grammar}
    (hs : ∀ r ∈ g.rules ++ Core.rules, ∀ q ∈ altReps r.alt, ShortSeries q) (k : Nat) : ∀ n st, Within o st →
    SameGraph o (ruleGraph o g k n st) (ruleGraph o (spread g) k n st) := by
  induction k with
  | zero => intro n st _; exact alike_self keeps_fuel
  | succ k ih =>
    intro n st hw
    rw [ruleGraph, ruleGraph]
    cases st.buf.lookup (canon n) with
    | some f =>
      exact alike_self (keeps_bind (reserveClones_within _ _ hw) fun _ h => keeps_bnd fun _ => keeps_ok (P := FragWithin o) h)
    | none =>
      simp only
      rw [spread_getRule]
      cases hg : getRule n g.rules with
      | none => exact alike_self (keeps_error _)
      | some r =>
        have hr : r ∈ g.rules ++ Core.rules := by
          unfold getRule at hg
          rw [Option.or_eq_some_iff] at hg
          rcases hg with h | ⟨_, h⟩
          · exact List.mem_append_left _ (List.mem_of_find?_eq_some h)
          · exact List.mem_append_right _ (List.mem_of_find?_eq_some h)
        simp only [Option.map_some, spreadRule]
        exact alike_bind (altGraph_spread hm hnum ih r.alt (hs r hr) {} st hw) fun x h =>
          alike_self (keeps_bind (reserveClones_within _ _ h) fun _ h => keeps_bnd fun _ => keeps_ok (P := FragWithin o) h)

/-- A repetition of a spread text comes from the text, or is a number of a series of it. -/
def FromSeries (qs : List Rep) (q : Rep) : Prop :=
  (∃ q0 ∈ qs, q = ⟨q0.min, q0.max, spreadElem q0.elem⟩) ∨
  ∃ q0 ∈ qs, ∃ b es, q0.elem = .numVal b .series es ∧ ∃ s ∈ es, q = ⟨1, some 1, .numVal b .series [s]⟩

theorem FromSeries.mono {qs qs' : List Rep} {q : Rep} (h : FromSeries qs q) (hs : ∀ q ∈ qs, q ∈ qs') : FromSeries qs' q := by
  rcases h with ⟨q0, h, e⟩ | ⟨q0, h, e⟩
  · exact .inl ⟨q0, hs _ h, e⟩
  · exact .inr ⟨q0, hs _ h, e⟩

theorem singles_reps (b : Str) (es : List Str) (q : Rep) (h : q ∈ altReps (es.map fun s => [(⟨1, some 1, .numVal b .series [s]⟩ : Rep)])) :
    ∃ s ∈ es, q = ⟨1, some 1, .numVal b .series [s]⟩ := by
  induction es with
  | nil => cases h
  | cons s es ih =>
    simp only [List.map_cons, altReps, concatReps, repReps, elemReps, List.append_nil, List.mem_append, List.mem_singleton] at h
    rcases h with rfl | h
    · exact ⟨s, List.mem_cons_self .., rfl⟩
    · obtain ⟨s', h1, h2⟩ := ih h
      exact ⟨s', List.mem_cons_of_mem _ h1, h2⟩

mutual
theorem spread_elemReps (mn : Nat) (mx : Option Nat) : (e : Elem) → ∀ q ∈ elemReps (spreadElem e), FromSeries (repReps ⟨mn, mx, e⟩) q
  | .charVal .., q, h | .proseVal .., q, h | .rulename .., q, h | .numVal _ .range _, q, h => by cases h
  | .numVal b .series es, q, h => by
    rw [spreadElem] at h
    split_ifs at h
    · cases h
    · rw [elemReps] at h
      obtain ⟨s, h1, h2⟩ := singles_reps b es q h
      exact .inr ⟨_, List.mem_cons_self .., b, es, rfl, s, h1, h2⟩
  | .option a, q, h => (spread_altReps a q (by rw [spreadElem, elemReps] at h; exact h)).mono fun _ hq => List.mem_cons_of_mem _ hq
  | .group a, q, h => (spread_altReps a q (by rw [spreadElem, elemReps] at h; exact h)).mono fun _ hq => List.mem_cons_of_mem _ hq
theorem spread_altReps : (a : List (List Rep)) → ∀ q ∈ altReps (spreadAlt a), FromSeries (altReps a) q
  | [], q, h => by cases h
  | c :: a, q, h => by
    rw [spreadAlt, altReps] at h
    rcases List.mem_append.mp h with h | h
    · exact (spread_concatReps c q h).mono fun _ hq => List.mem_append_left _ hq
    · exact (spread_altReps a q h).mono fun _ hq => List.mem_append_right _ hq
theorem spread_concatReps : (c : List Rep) → ∀ q ∈ concatReps (spreadConcat c), FromSeries (concatReps c) q
  | [], q, h => by cases h
  | ⟨mn, mx, e⟩ :: c, q, h => by
    rw [spreadConcat, concatReps, repReps] at h
    rcases List.mem_append.mp h with h | h
    · rcases List.mem_cons.mp h with rfl | h
      · exact .inl ⟨⟨mn, mx, e⟩, by simp [concatReps, repReps], rfl⟩
      · exact (spread_elemReps mn mx e q h).mono fun _ hq => List.mem_append_left _ hq
    · exact (spread_concatReps c q h).mono fun _ hq => List.mem_append_right _ hq
end

mutual
theorem spread_elemFull : (e : Elem) → elemFull (spreadElem e) = elemFull e
  | .charVal .. | .proseVal .. | .rulename .. | .numVal _ .range _ => rfl
  | .numVal b .series es => by
    rw [spreadElem]
    split_ifs
    · rfl
    · rw [elemFull, elemFull]
      · induction es with
        | nil => rfl
        | cons s es ih =>
          rw [List.map_cons, altFull]
          cases es with
          | nil => rfl
          | cons t es =>
            clear ih
            have : ∀ es : List Str, altFull (es.map fun s => [(⟨1, some 1, .numVal b .series [s]⟩ : Rep)]) = true := by
              intro es
              induction es with
              | nil => rfl
              | cons s es ih => rw [List.map_cons, altFull, ih]; rfl
            rw [this]
            rfl
      all_goals intro _ h; cases h
  | .option a => by rw [spreadElem, elemFull, elemFull, spread_altFull]
  | .group a => by rw [spreadElem, elemFull, elemFull, spread_altFull]
theorem spread_altFull : (a : List (List Rep)) → altFull (spreadAlt a) = altFull a
  | [] => rfl
  | c :: a => by
    rw [spreadAlt, altFull, altFull, spread_altFull, spread_repsFull]
    cases c with
    | nil => rfl
    | cons q c => cases q; rfl
theorem spread_repsFull : (c : List Rep) → repsFull (spreadConcat c) = repsFull c
  | [] => rfl
  | ⟨_, _, e⟩ :: c => by rw [spreadConcat, repsFull, repsFull, spread_elemFull, spread_repsFull]
end

theorem spreadElem_rulename {e : Elem} {n : Str} (h : spreadElem e = .rulename n) : e = .rulename n := by
  cases e with
  | numVal b st es =>
    cases st with
    | range => cases h
    | series => rw [spreadElem] at h; split_ifs at h
  | rulename m => exact h
  | charVal s vs => cases h
  | proseVal p => cases h
  | option a => rw [spreadElem] at h; cases h
  | group a => rw [spreadElem] at h; cases h

theorem spread_refers {g : Grammar} (hd : NamesDistinct g) {r r' : Rule} (h : Refers (spread g) (spreadRule r) r') :
    ∃ r2, Refers g r r2 ∧ r' = spreadRule r2 := by
  obtain ⟨q, hq, n, hn, hr⟩ := h
  obtain ⟨r2, h2, rfl⟩ := (spread_resolves hd).mp hr
  refine ⟨r2, ?_, rfl⟩
  rcases spread_altReps r.alt q hq with ⟨q0, h0, rfl⟩ | ⟨q0, h0, b, es, _, s, _, rfl⟩
  · exact ⟨q0, h0, n, spreadElem_rulename hn, h2⟩
  · cases hn

theorem spread_reaches {g : Grammar} (hd : NamesDistinct g) {r r' : Rule} (h : Relation.ReflTransGen (Refers (spread g)) (spreadRule r) r') :
    ∃ r2, Relation.ReflTransGen (Refers g) r r2 ∧ r' = spreadRule r2 := by
  induction h with
  | refl => exact ⟨r, .refl, rfl⟩
  | tail _ h ih =>
    obtain ⟨r2, h1, rfl⟩ := ih
    obtain ⟨r3, h2, rfl⟩ := spread_refers hd h
    exact ⟨r3, .tail h1 h2, rfl⟩

theorem spread_visits {o : TgOpts} {g : Grammar} (hd : NamesDistinct g) {name : Str} {r' : Rule} (h : Props.Visits o (spread g) name r') :
    ∃ r, Props.Visits o g name r ∧ r' = spreadRule r := by
  obtain ⟨r, hr, h⟩ := h
  obtain ⟨r, hr', rfl⟩ := (spread_resolves hd).mp hr
  rcases h with rfl | ⟨h1, h2⟩
  · exact ⟨r, ⟨r, hr', .inl rfl⟩, rfl⟩
  · obtain ⟨r2, h3, rfl⟩ := spread_reaches hd h2
    exact ⟨r2, ⟨r, hr', .inr ⟨h1, h3⟩⟩, rfl⟩

theorem spreadElem_num {e : Elem} {b : Str} {st : Status} {es : List Str} (h : spreadElem e = .numVal b st es) :
    e = .numVal b st es ∧ (st = .series → es.length = 1) := by
  cases e with
  | numVal b st es =>
    cases st with
    | range => cases h; exact ⟨rfl, fun h => by cases h⟩
    | series =>
      rw [spreadElem] at h
      split_ifs at h with h1
      cases h
      exact ⟨rfl, fun _ => h1⟩
  | rulename m => cases h
  | charVal s vs => cases h
  | proseVal p => cases h
  | option a => rw [spreadElem] at h; cases h
  | group a => rw [spreadElem] at h; cases h

theorem spreadElem_char {e : Elem} {s : Bool} {vs : Str} (h : spreadElem e = .charVal s vs) : e = .charVal s vs := by
  cases e with
  | numVal b st es =>
    cases st with
    | range => cases h
    | series => rw [spreadElem] at h; split_ifs at h
  | rulename m => cases h
  | charVal s vs => exact h
  | proseVal p => cases h
  | option a => rw [spreadElem] at h; cases h
  | group a => rw [spreadElem] at h; cases h

theorem spread_plain {r : Rule} (h : Props.Plain r) : Props.Plain (spreadRule r) := by
  refine ⟨by rw [spreadRule, spread_altFull]; exact h.1, fun q hq => ?_⟩
  rcases spread_altReps r.alt q hq with ⟨q0, h0, rfl⟩ | ⟨q0, h0, b, es, _, s, _, rfl⟩
  · exact ⟨fun s vs he => (h.2 q0 h0).1 s vs (spreadElem_char he), fun b st es he => (h.2 q0 h0).2 b st es (spreadElem_num he).1⟩
  · refine ⟨fun s vs he => (by cases he), fun b st es he => ?_⟩
    cases he
    simp

theorem spread_oneChar {r : Rule} (h : ∀ q ∈ altReps r.alt, TermWF q.elem) : Props.OneChar (spreadRule r) := by
  intro q hq b st es he
  rcases spread_altReps r.alt q hq with ⟨q0, h0, rfl⟩ | ⟨q0, h0, b', es', h1, s, h2, rfl⟩
  · obtain ⟨h1, h2⟩ := spreadElem_num he
    refine ⟨?_, h2⟩
    show TermWF (spreadElem q0.elem)
    rw [show spreadElem q0.elem = .numVal b st es from he, ← h1]
    exact h q0 h0
  · cases he
    refine ⟨?_, fun _ => rfl⟩
    have := h q0 h0
    rw [h1] at this
    intro t ht
    rw [List.mem_singleton.mp ht]
    exact this s h2

namespace Props

/-! ## C103: deflated series -/

/-- C103.  With numeric values deflated, `TransitionGraph` returns exactly the graph of the grammar in which series are written as
alternatives. -/
theorem C103_same (o : TgOpts) (hm : o.maxNodes < 2 ^ 63) (hnum : o.nums = true) (g : Grammar)
    (hs : ∀ q ∈ rulesReps g.rules, ShortSeries q) (core : List Rule) (order : List Str) (name : Str) (x : TgFrag × TgHeap) :
    transitionGraph o core g order name = .ok (.ok x) ↔ transitionGraph o core (spread g) order name = .ok (.ok x) := by
  have hs' : ∀ r ∈ g.rules ++ Core.rules, ∀ q ∈ altReps r.alt, ShortSeries q := by
    intro r hr q hq
    rcases List.mem_append.mp hr with hr | hr
    · exact hs q (List.mem_flatMap.mpr ⟨r, hr, hq⟩)
    · intro b es he
      have h : Core.rules.all oneCharB = true := by decide +kernel
      have h1 := List.all_eq_true.mp (List.all_eq_true.mp h r hr) q hq
      rw [he] at h1
      simp only [Bool.and_eq_true] at h1
      have := of_decide_eq_true h1.2
      omega
  unfold transitionGraph
  rw [spread_getRule]
  cases hg : getRule name g.rules with
  | none => rfl
  | some r =>
    have hr : r ∈ g.rules ++ Core.rules := by
      unfold getRule at hg
      rw [Option.or_eq_some_iff] at hg
      rcases hg with h | ⟨_, h⟩
      · exact List.mem_append_left _ (List.mem_of_find?_eq_some h)
      · exact List.mem_append_right _ (List.mem_of_find?_eq_some h)
    have hcyc : ruleContainsCycle core (spread g) order name = ruleContainsCycle core g order name := by
      unfold ruleContainsCycle
      rw [spread_getRule, hg, spread_dependencyGraph]
      rfl
    simp only [Option.map_some]
    cases h1 : (if o.rules then semvalABNF g else none) with
    | some e =>
      cases h2 : (if o.rules then semvalABNF (spread g) else none) with
      | some e' => simp
      | none =>
        exfalso
        split_ifs at h1 h2
        rw [spread_semval] at h2
        rw [h2] at h1
        cases h1
    | none =>
      have h2 : (if o.rules then semvalABNF (spread g) else none) = none := by
        split_ifs at h1 ⊢
        · rwa [spread_semval]
        · rfl
      rw [h2, hcyc]
      simp only
      have hb : ∀ b, (if b = true then Run.ok (Except.error TgErr.cyclicRule)
            else tgBind (altGraph o (ruleGraph o g (g.rules.length + Core.rules.length + 1)) r.alt {} {}) fun (f, st) => .ok (.ok (f, st.heap))) =
          (if b = true then Run.ok (Except.error TgErr.cyclicRule)
            else tgBind (altGraph o (ruleGraph o (spread g) ((spread g).rules.length + Core.rules.length + 1)) (spreadRule r).alt {} {})
              fun (f, st) => .ok (.ok (f, st.heap))) := by
        intro b
        have hl : (spread g).rules.length = g.rules.length := by simp [spread]
        have hw : Within o {} := by
          by_cases h : o.maxNodes ≤ 0
          · exact .inl h
          · exact .inr ⟨le_refl _, by simp only; omega⟩
        rw [hl, (altGraph_spread hm hnum (spread_ruleGraph hm hnum hs' _) r.alt (hs' r hr) {} {} hw).1]
        rfl
      simp only [hb]

/-- C103.  The words of the graph are exactly the texts of the rule in the grammar in which series are written as alternatives. -/
theorem C103_exact (o : TgOpts) (hm : o.maxNodes < 2 ^ 63) (hnum : o.nums = true) (g : Grammar) (hd : NamesDistinct g)
    (hs : ∀ q ∈ rulesReps g.rules, ShortSeries q) (core : List Rule) (hcore : core.Perm Core.rules)
    (order : List Str) (ho : order.Perm ((dependencyGraph core g).map Prod.fst)) (name : Str)
    (hp : ∀ r, Visits o g name r → Plain r) (hwf : ∀ r, Visits o g name r → ∀ q ∈ altReps r.alt, TermWF q.elem)
    (f : TgFrag) (h : TgHeap) (hok : transitionGraph o core g order name = .ok (.ok (f, h))) (w : Bytes) :
    GraphWord (Derives (spread g)) h f w ↔ DerivesRule (spread g) name w := by
  refine C30_exact_partial o (spread g) (spread_names g hd) core hcore order (by rwa [spread_dependencyGraph]) name ?_ ?_ f h
    ((C103_same o hm hnum g hs core order name (f, h)).mp hok) w
  · intro r hr
    obtain ⟨r0, h0, rfl⟩ := spread_visits hd hr
    exact spread_plain (hp r0 h0)
  · intro _ r hr
    obtain ⟨r0, h0, rfl⟩ := spread_visits hd hr
    exact spread_oneChar (hwf r0 h0)

/-- C103.  `ExpectedNext` misses no continuation of these texts: the part of C33 for deflated series. -/
theorem C103_expected (o : TgOpts) (hm : o.maxNodes < 2 ^ 63) (hnum : o.nums = true) (g : Grammar) (hd : NamesDistinct g)
    (hs : ∀ q ∈ rulesReps g.rules, ShortSeries q) (core : List Rule) (hcore : core.Perm Core.rules)
    (order : List Str) (ho : order.Perm ((dependencyGraph core g).map Prod.fst)) (name : Str)
    (hp : ∀ r, Visits o g name r → Plain r) (hwf : ∀ r, Visits o g name r → ∀ q ∈ altReps r.alt, TermWF q.elem)
    (f : TgFrag) (h : TgHeap) (hok : transitionGraph o core g order name = .ok (.ok (f, h)))
    (fo : FuzzOpts) (G : FuzzGen) (hG : newGenerator fo f h = .ok (.ok G))
    (ord : Nat → List Emission → List Emission) (hord : ∀ n l, (ord n l).Perm l) (pre next : Bytes) (acc : Bool)
    (he : expectedNext G ord pre = some (next, acc)) :
    (∀ b rest, DerivesRule (spread g) name (pre ++ b :: rest) → b ∈ next) ∧ (DerivesRule (spread g) name pre → acc = true) := by
  have hone : ∀ r, Visits o (spread g) name r → OneChar r := by
    intro r hr
    obtain ⟨r0, h0, rfl⟩ := spread_visits hd hr
    exact spread_oneChar (hwf r0 h0)
  refine C33_partial o (spread g) (spread_names g hd) core hcore order (by rwa [spread_dependencyGraph]) name ?_ ?_ (fun _ => hone) f h
    ((C103_same o hm hnum g hs core order name (f, h)).mp hok) fo G hG ord hord pre next acc he
  · intro r hr
    obtain ⟨r0, h0, rfl⟩ := spread_visits hd hr
    exact spread_plain (hp r0 h0)
  · intro r hr q hq b es hes
    have := (hone r hr q hq b .series es hes).2 rfl
    rintro rfl
    cases this

/-- C103 for `a = %x61.62`: the words are `a` and `b`. -/
example : NamesDistinct twoCodes ∧ (∀ q ∈ rulesReps twoCodes.rules, ShortSeries q) ∧ (∀ r, Visits { nums := true } twoCodes ['a'] r → Plain r) ∧
    (spread twoCodes).rules.map (fun r => (r.name, r.alt)) = [(['a'], [[⟨1, some 1, .group [[⟨1, some 1, .numVal ['x'] .series [str% "61"]⟩],
      [⟨1, some 1, .numVal ['x'] .series [str% "62"]⟩]]⟩]])] ∧
    (tgShow (transitionGraph { nums := true } Core.rules twoCodes (plainOrder twoCodes) ['a'])).isSome = true := by
  refine ⟨namesDistinct_of (by decide), ?_, plain_of (by decide +kernel), rfl, by decide +kernel⟩
  intro q hq b es he
  obtain rfl : q = ⟨1, some 1, .numVal ['x'] .series [str% "61", str% "62"]⟩ := by simpa [rulesReps, twoCodes, altReps, concatReps, repReps, elemReps] using hq
  cases he
  simp

end Props
end Verif
