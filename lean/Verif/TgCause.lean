import Verif.PropsTg

/-!
# Why `TransitionGraph` fails

Every error of `TransitionGraph` has the cause that its kind names.
-/

namespace Verif
open Spec

/-- If the call returns an error, then one that `C` allows. -/
def OnlyErr {α : Type} (C : TgErr → Prop) (x : TgOut α) : Prop := ∀ e, x = .ok (.error e) → C e

section
variable {α β : Type} {C : TgErr → Prop}

theorem onlyErr_ok (a : α) : OnlyErr C (.ok (.ok a)) := by rintro e h; cases h
theorem onlyErr_panic : OnlyErr C (.panic : TgOut α) := by rintro e h; cases h
theorem onlyErr_fuel : OnlyErr C (.fuel : TgOut α) := by rintro e h; cases h
theorem onlyErr_error {e : TgErr} (h : C e) : OnlyErr C (.ok (.error e) : TgOut α) := by rintro e' h'; cases h'; exact h

theorem onlyErr_bnd {x : Run α} {f : α → TgOut β} (hf : ∀ a, OnlyErr C (f a)) : OnlyErr C (x.bnd f) := by
  cases x with
  | ok a => exact hf a
  | panic => exact onlyErr_panic
  | fuel => exact onlyErr_fuel

theorem onlyErr_bind {x : TgOut α} {f : α → TgOut β} (h : OnlyErr C x) (hf : ∀ a, OnlyErr C (f a)) : OnlyErr C (tgBind x f) := by
  unfold tgBind
  cases x with
  | panic => exact onlyErr_panic
  | fuel => exact onlyErr_fuel
  | ok r =>
    cases r with
    | ok a => exact hf a
    | error e => exact onlyErr_error (h e rfl)
end

/-- The repetition is a cause of the error. -/
def Causes (o : TgOpts) (g : Grammar) (q : Rep) : TgErr → Prop
  | .threshold => match q.max with
    | none => q.min ≠ 0 ∧ o.threshold < q.min
    | some m => m ≠ 1 ∧ q.min ≤ m ∧ o.threshold < m
  | .minNotOne => q.max = some 1 ∧ 1 < q.min
  | .minGtMax => ∃ m, q.max = some m ∧ m ≠ 1 ∧ m < q.min
  | .proseVal => ∃ p, q.elem = .proseVal p
  | .ruleNotFound n => o.rules = true ∧ q.elem = .rulename n ∧ ¬ ∃ r, Resolves g n r
  | .maxNodes => False
  | .semval _ => False
  | .cyclicRule => False

section
variable {o : TgOpts} {C : TgErr → Prop} (hC : 0 < o.maxNodes → C .maxNodes)
include hC

theorem reserveNodes_only {n : Int} {st : TgSt} (h : reserveNodes o n st = none) : C .maxNodes := by
  unfold reserveNodes at h
  split_ifs at h with h1
  · exact hC (by omega)

theorem reserveClones_only (n : Nat) (ins : Pts) (st : TgSt) : OnlyErr C (reserveClones o n ins st) := by
  unfold reserveClones
  split_ifs
  · exact onlyErr_ok _
  · refine onlyErr_bnd fun k => ?_
    cases h : reserveNodes o (wrap64 (n * k)) st with
    | none => exact onlyErr_error (reserveNodes_only hC h)
    | some st => exact onlyErr_ok _

theorem chainSt_only (f : TgFrag) (n : Nat) (st : TgSt) : OnlyErr C (chainSt o f n st) :=
  onlyErr_bind (reserveClones_only hC _ _ _) fun _ => onlyErr_bnd fun _ => onlyErr_ok _

theorem repGraph_only {g : Grammar} {mn : Nat} {mx : Option Nat} {e : Elem} (hq : ∀ x, Causes o g ⟨mn, mx, e⟩ x → C x) (f : TgFrag) (st : TgSt) :
    OnlyErr C (repGraph o mn mx f st) := by
  unfold repGraph
  by_cases h0 : mn = 0
  · rw [if_pos h0]
    cases mx with
    | none => exact onlyErr_ok _
    | some m =>
      simp only
      by_cases h1 : m = 1
      · rw [if_pos h1]; exact onlyErr_ok _
      · rw [if_neg h1]
        by_cases h2 : (m : Int) > o.threshold
        · rw [if_pos h2]
          exact onlyErr_error (hq _ ⟨h1, by simp [h0], h2⟩)
        · rw [if_neg h2]
          exact onlyErr_bind (chainSt_only hC _ _ _) fun _ => onlyErr_ok _
  · rw [if_neg h0]
    cases mx with
    | none =>
      simp only
      by_cases h2 : (mn : Int) > o.threshold
      · rw [if_pos h2]
        exact onlyErr_error (hq _ ⟨h0, h2⟩)
      · rw [if_neg h2]
        refine onlyErr_bind (chainSt_only hC _ _ _) fun x => ?_
        obtain ⟨tgs, cur, st⟩ := x
        simp only
        cases tgs.getLast? with
        | none => exact onlyErr_panic
        | some l => exact onlyErr_ok _
    | some m =>
      simp only
      by_cases h1 : m = 1
      · rw [if_pos h1]
        by_cases h2 : mn ≠ 1
        · rw [if_pos h2]
          exact onlyErr_error (hq _ ⟨by rw [h1]; rfl, by simp only [Rep.min_mk]; omega⟩)
        · rw [if_neg h2]; exact onlyErr_ok _
      · rw [if_neg h1]
        by_cases h2 : mn > m
        · rw [if_pos h2]
          exact onlyErr_error (hq _ ⟨m, rfl, h1, h2⟩)
        · rw [if_neg h2]
          by_cases h3 : (m : Int) > o.threshold
          · rw [if_pos h3]
            exact onlyErr_error (hq _ ⟨h1, by simp only [Rep.min_mk]; omega, h3⟩)
          · rw [if_neg h3]
            refine onlyErr_bind ?_ fun x => ?_
            · split_ifs
              · exact onlyErr_bind (chainSt_only hC _ _ _) fun _ => onlyErr_ok _
              · exact onlyErr_ok _
            · obtain ⟨first, st⟩ := x
              simp only
              split_ifs
              · exact onlyErr_bind (chainSt_only hC _ _ _) fun _ => onlyErr_ok _
              · exact onlyErr_ok _

theorem oneNode_only (e : Elem) (st : TgSt) : OnlyErr C (oneNode o e st) := by
  unfold oneNode
  cases h : reserveNodes o 1 st with
  | none => exact onlyErr_error (reserveNodes_only hC h)
  | some st => exact onlyErr_ok _

theorem parNodes_only (es : List Elem) (st : TgSt) : OnlyErr C (parNodes o es st) := by
  unfold parNodes
  cases h : reserveNodes o es.length st with
  | none => exact onlyErr_error (reserveNodes_only hC h)
  | some st => exact onlyErr_ok _

variable {g : Grammar} {rec : Str → TgSt → TgOut (TgFrag × TgSt)}

mutual
theorem elemGraph_only {mn : Nat} {mx : Option Nat} : (e : Elem) → (∀ n, e = .rulename n → o.rules = true → ∀ st, OnlyErr C (rec n st)) →
    (∀ q ∈ elemReps e, ∀ n, q.elem = .rulename n → o.rules = true → ∀ st, OnlyErr C (rec n st)) →
    (∀ q ∈ repReps ⟨mn, mx, e⟩, ∀ x, Causes o g q x → C x) → ∀ st, OnlyErr C (elemGraph o rec e st)
  | .charVal s vs, _, _, _, st => by
    rw [elemGraph]
    split_ifs
    · exact onlyErr_ok _
    · exact oneNode_only hC _ _
    · cases h : reserveNodes o (2 * vs.length) st with
      | none => exact onlyErr_error (reserveNodes_only hC h)
      | some st => exact onlyErr_ok _
  | .numVal b .range es, _, _, _, st => by
    rw [elemGraph]
    split_ifs
    · unfold rangeNodes
      simp only
      split_ifs
      · exact onlyErr_ok _
      · exact parNodes_only hC _ _
    · exact oneNode_only hC _ _
  | .numVal b .series es, _, _, _, st => by
    rw [elemGraph]
    split_ifs
    · exact parNodes_only hC _ _
    · exact oneNode_only hC _ _
  | .rulename n, hn, _, _, st => by
    rw [elemGraph]
    split_ifs with hr
    · exact hn n rfl hr st
    · exact oneNode_only hC _ _
  | .option a, _, hr, hq, st => by
    rw [elemGraph]
    exact onlyErr_bind (altGraph_only a hr (fun q hm => hq q (List.mem_cons_of_mem _ hm)) _ _) fun _ => onlyErr_ok _
  | .group a, _, hr, hq, st => by
    rw [elemGraph]
    exact altGraph_only a hr (fun q hm => hq q (List.mem_cons_of_mem _ hm)) _ _
  | .proseVal p, _, _, hq, st => by
    rw [elemGraph]
    exact onlyErr_error (hq ⟨mn, mx, .proseVal p⟩ (List.mem_cons_self ..) _ ⟨p, rfl⟩)
theorem altGraph_only : (a : List (List Rep)) → (∀ q ∈ altReps a, ∀ n, q.elem = .rulename n → o.rules = true → ∀ st, OnlyErr C (rec n st)) →
    (∀ q ∈ altReps a, ∀ x, Causes o g q x → C x) → ∀ acc st, OnlyErr C (altGraph o rec a acc st)
  | [], _, _, acc, st => by rw [altGraph]; exact onlyErr_ok _
  | c :: a, hr, hq, acc, st => by
    rw [altGraph]
    exact onlyErr_bind (concatGraph_only c (fun q hm => hr q (by simp [altReps, hm])) (fun q hm => hq q (by simp [altReps, hm])) _)
      fun _ => altGraph_only a (fun q hm => hr q (by simp [altReps, hm])) (fun q hm => hq q (by simp [altReps, hm])) _ _
theorem concatGraph_only : (c : List Rep) → (∀ q ∈ concatReps c, ∀ n, q.elem = .rulename n → o.rules = true → ∀ st, OnlyErr C (rec n st)) →
    (∀ q ∈ concatReps c, ∀ x, Causes o g q x → C x) → ∀ st, OnlyErr C (concatGraph o rec c st)
  | [], _, _, st => by rw [concatGraph]; exact onlyErr_panic
  | ⟨mn, mx, e⟩ :: c, hr, hq, st => by
    rw [concatGraph]
    have h1 : ∀ q ∈ repReps ⟨mn, mx, e⟩, q ∈ concatReps (⟨mn, mx, e⟩ :: c) := fun q hm => by rw [concatReps]; exact List.mem_append_left _ hm
    have h2 : ∀ q ∈ concatReps c, q ∈ concatReps (⟨mn, mx, e⟩ :: c) := fun q hm => by rw [concatReps]; exact List.mem_append_right _ hm
    refine onlyErr_bind (elemGraph_only (mn := mn) (mx := mx) e (fun n hn => hr _ (h1 _ (List.mem_cons_self ..)) n hn)
      (fun q hm => hr q (h1 q (List.mem_cons_of_mem _ hm))) (fun q hm => hq q (h1 q hm)) _) fun _ => ?_
    exact onlyErr_bind (repGraph_only hC (hq _ (h1 _ (List.mem_cons_self ..))) _ _) fun _ =>
      concatRest_only c (fun q hm => hr q (h2 q hm)) (fun q hm => hq q (h2 q hm)) _ _
theorem concatRest_only : (c : List Rep) → (∀ q ∈ concatReps c, ∀ n, q.elem = .rulename n → o.rules = true → ∀ st, OnlyErr C (rec n st)) →
    (∀ q ∈ concatReps c, ∀ x, Causes o g q x → C x) → ∀ acc st, OnlyErr C (concatRest o rec c acc st)
  | [], _, _, acc, st => by rw [concatRest]; exact onlyErr_ok _
  | ⟨mn, mx, e⟩ :: c, hr, hq, acc, st => by
    rw [concatRest]
    have h1 : ∀ q ∈ repReps ⟨mn, mx, e⟩, q ∈ concatReps (⟨mn, mx, e⟩ :: c) := fun q hm => by rw [concatReps]; exact List.mem_append_left _ hm
    have h2 : ∀ q ∈ concatReps c, q ∈ concatReps (⟨mn, mx, e⟩ :: c) := fun q hm => by rw [concatReps]; exact List.mem_append_right _ hm
    refine onlyErr_bind (elemGraph_only (mn := mn) (mx := mx) e (fun n hn => hr _ (h1 _ (List.mem_cons_self ..)) n hn)
      (fun q hm => hr q (h1 q (List.mem_cons_of_mem _ hm))) (fun q hm => hq q (h1 q hm)) _) fun _ => ?_
    exact onlyErr_bind (repGraph_only hC (hq _ (h1 _ (List.mem_cons_self ..))) _ _) fun _ =>
      concatRest_only c (fun q hm => hr q (h2 q hm)) (fun q hm => hq q (h2 q hm)) _ _
end
end

/-- The error has a cause in a rule that is visited. -/
def CausedIn (o : TgOpts) (g : Grammar) (r : Rule) (e : TgErr) : Prop :=
  (0 < o.maxNodes ∧ e = .maxNodes) ∨ ∃ r', TgReach o g r r' ∧ ∃ q ∈ altReps r'.alt, Causes o g q e

theorem ruleGraph_only {o : TgOpts} {g : Grammar} (hru : o.rules = true) (k : Nat) : ∀ (n : Str) (st : TgSt),
    OnlyErr (fun e => (∃ r, Resolves g n r ∧ CausedIn o g r e) ∨ ((¬ ∃ r, Resolves g n r) ∧ e = .ruleNotFound n) ∨ (0 < o.maxNodes ∧ e = .maxNodes)) (ruleGraph o g k n st) := by
  induction k with
  | zero => intro n st; exact onlyErr_fuel
  | succ k ih =>
    intro n st
    rw [ruleGraph]
    have hC : 0 < o.maxNodes → ((∃ r, Resolves g n r ∧ CausedIn o g r .maxNodes) ∨ ((¬ ∃ r, Resolves g n r) ∧ TgErr.maxNodes = .ruleNotFound n) ∨ (0 < o.maxNodes ∧ TgErr.maxNodes = .maxNodes)) :=
      fun h => .inr (.inr ⟨h, rfl⟩)
    cases st.buf.lookup (canon n) with
    | some f => exact onlyErr_bind (reserveClones_only hC _ _ _) fun _ => onlyErr_bnd fun _ => onlyErr_ok _
    | none =>
      simp only
      cases hg : getRule n g.rules with
      | none =>
        refine onlyErr_error (.inr (.inl ⟨?_, rfl⟩))
        rw [← getRule_isSome, hg]
        simp
      | some r =>
        have hr : Resolves g n r := getRule_resolves hg
        refine onlyErr_bind (altGraph_only (g := g) hC r.alt ?_ ?_ _ _) fun _ => onlyErr_bind (reserveClones_only hC _ _ _) fun _ => onlyErr_bnd fun _ => onlyErr_ok _
        · intro q hq m hm _ st' e he
          rcases ih m st' e he with ⟨r', h1, h2⟩ | ⟨h1, h2⟩ | h1
          · refine .inl ⟨r, hr, ?_⟩
            rcases h2 with h2 | ⟨r2, h3, h4⟩
            · exact .inl h2
            · refine .inr ⟨r2, .inr ⟨hru, .head ⟨q, hq, m, hm, h1⟩ ?_⟩, h4⟩
              rcases h3 with rfl | h3
              · exact .refl
              · exact h3.2
          · exact .inl ⟨r, hr, .inr ⟨r, .inl rfl, q, hq, by subst h2; exact ⟨hru, hm, h1⟩⟩⟩
          · exact .inr (.inr h1)
        · intro q hq x hx
          exact .inl ⟨r, hr, .inr ⟨r, .inl rfl, q, hq, hx⟩⟩

namespace Props

/-! ## C101: why `TransitionGraph` fails -/

/-- C101.  The error of `TransitionGraph` is of the right kind: the rule does not exist; rules are deflated and `SemvalABNF` finds that
error; a rule that can be reached is cyclic; the budget is limited; or a rule that is visited has a repetition over the threshold, one
with a maximum of 1 and a larger minimum, another whose bounds cross, or a prose-val. -/
theorem C101_cause (o : TgOpts) (g : Grammar) (hd : NamesDistinct g) (core : List Rule) (hcore : core.Perm Core.rules)
    (order : List Str) (ho : order.Perm ((dependencyGraph core g).map Prod.fst)) (name : Str) (e : TgErr)
    (h : transitionGraph o core g order name = .ok (.error e)) :
    ((¬ ∃ r, Resolves g name r) ∧ e = .ruleNotFound name) ∨
    ∃ r, Resolves g name r ∧
      ((o.rules = true ∧ ∃ x, semvalABNF g = some x ∧ e = .semval x) ∨
       ((o.rules = true → semvalABNF g = none) ∧
        (((∃ r', Relation.ReflTransGen (Refers g) r r' ∧ Cyclic g r') ∧ e = .cyclicRule) ∨
         ((¬ ∃ r', Relation.ReflTransGen (Refers g) r r' ∧ Cyclic g r') ∧ CausedIn o g r e)))) := by
  unfold transitionGraph at h
  cases hg : getRule name g.rules with
  | none =>
    rw [hg] at h
    cases h
    refine .inl ⟨?_, rfl⟩
    rw [← getRule_isSome, hg]
    simp
  | some r =>
    have hr : Resolves g name r := getRule_resolves hg
    refine .inr ⟨r, hr, ?_⟩
    rw [hg] at h
    simp only at h
    cases hs : (if o.rules then semvalABNF g else none) with
    | some x =>
      rw [hs] at h
      cases h
      split_ifs at hs with hru
      exact .inl ⟨hru, x, hs, rfl⟩
    | none =>
      rw [hs] at h
      simp only at h
      refine .inr ⟨fun hru => by simpa [hru] using hs, ?_⟩
      obtain ⟨b, hb, hcyc⟩ := (C20_exact g hd core hcore order ho name).2 r hr
      rw [hb] at h
      simp only [Run.bnd] at h
      cases b with
      | true => cases h; exact .inl ⟨hcyc.mp rfl, rfl⟩
      | false =>
        rw [if_neg (by simp)] at h
        refine .inr ⟨fun hx => absurd (hcyc.mpr hx) (by simp), ?_⟩
        revert e
        refine onlyErr_bind (altGraph_only (g := g) (fun hm => .inl ⟨hm, rfl⟩) r.alt ?_ ?_ _ _) fun _ => onlyErr_ok _
        · intro q hq m hm hru st' e he
          rcases ruleGraph_only hru _ m st' e he with ⟨r', h1, h2⟩ | ⟨h1, h2⟩ | h1
          · rcases h2 with h2 | ⟨r2, h3, h4⟩
            · exact .inl h2
            · refine .inr ⟨r2, .inr ⟨hru, .head ⟨q, hq, m, hm, h1⟩ ?_⟩, h4⟩
              rcases h3 with rfl | h3
              · exact .refl
              · exact h3.2
          · exact .inr ⟨r, .inl rfl, q, hq, by subst h2; exact ⟨hru, hm, h1⟩⟩
          · exact .inl h1
        · intro q hq x hx
          exact .inr ⟨r, .inl rfl, q, hq, hx⟩

/-- The name of the kind of the error. -/
def tgKind {α : Type} : TgOut α → Option Str
  | .ok (.error (.ruleNotFound n)) => some (str% "none called " ++ n)
  | .ok (.error (.semval _)) => some (str% "semval")
  | .ok (.error .cyclicRule) => some (str% "cyclic")
  | .ok (.error .threshold) => some (str% "threshold")
  | .ok (.error .minNotOne) => some (str% "not one")
  | .ok (.error .minGtMax) => some (str% "crossed")
  | .ok (.error .maxNodes) => some (str% "nodes")
  | .ok (.error .proseVal) => some (str% "prose")
  | _ => none

/-- C101: the kinds of error. -/
example : NamesDistinct hopeless ∧ [['a'], ['b'], ['c'], ['d'], ['e']].map (fun n =>
      tgKind (transitionGraph { threshold := 11 } Core.rules hopeless (plainOrder hopeless) n)) =
    [some (str% "crossed"), some (str% "threshold"), some (str% "prose"), some (str% "cyclic"), some (str% "none called e")] ∧
    tgKind (transitionGraph { threshold := 12, maxNodes := 7 } Core.rules hopeless (plainOrder hopeless) ['b']) = some (str% "nodes") ∧
    tgKind (transitionGraph { rules := true } Core.rules hopeless (plainOrder hopeless) ['b']) = some (str% "semval") :=
  ⟨namesDistinct_of (by decide), by decide +kernel, by decide +kernel, by decide +kernel⟩

end Props
end Verif
