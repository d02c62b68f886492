import Verif.Packed

/-!
# Queries do not depend on the names of nodes

If the nodes of one packed forest are those of another under a renaming that is injective on the nodes that matter,
the searches of `Verif.Packed` give the same answers.
-/

namespace Verif

section
variable {α β : Type} [DecidableEq α] [DecidableEq β]

/-- `G'` is `G` renamed by `φ` on the nodes in `U`, which `G` does not leave. -/
structure Renames (G : α → List (List α)) (G' : β → List (List β)) (φ : α → β) (U : α → Prop) : Prop where
  closed : ∀ n, U n → ∀ pk ∈ G n, ∀ c ∈ pk, U c
  inj : ∀ a b, U a → U b → φ a = φ b → a = b
  packs : ∀ n, U n → G' (φ n) = (G n).map (List.map φ)

variable {G : α → List (List α)} {G' : β → List (List β)} {φ : α → β} {U : α → Prop}

theorem Renames.mem (h : Renames G G' φ U) {n : α} {s : List α} (hn : U n) (hs : ∀ x ∈ s, U x) :
    φ n ∈ s.map φ ↔ n ∈ s := by
  constructor
  · intro hm
    obtain ⟨x, hx, he⟩ := List.mem_map.mp hm
    rw [← h.inj x n (hs x hx) hn he]; exact hx
  · exact List.mem_map_of_mem

theorem ambKids_map {rec : α → List α → Option (Bool × List α)} {rec' : β → List β → Option (Bool × List β)}
    (hrec : ∀ n, U n → ∀ s : List α, (∀ x ∈ s, U x) →
      rec' (φ n) (s.map φ) = (rec n s).map (fun q => (q.1, q.2.map φ)) ∧ ∀ q, rec n s = some q → ∀ x ∈ q.2, U x) :
    ∀ (cs : List α) (s : List α), (∀ c ∈ cs, U c) → (∀ x ∈ s, U x) →
      ambKids rec' (cs.map φ) (s.map φ) = (ambKids rec cs s).map (fun q => (q.1, q.2.map φ)) ∧
      ∀ q, ambKids rec cs s = some q → ∀ x ∈ q.2, U x := by
  intro cs
  induction cs with
  | nil =>
    intro s _ hs
    refine ⟨rfl, ?_⟩
    intro q hq
    simp only [ambKids, Option.some.injEq] at hq
    subst hq; exact hs
  | cons c cs ih =>
    intro s hc hs
    obtain ⟨h1, h2⟩ := hrec c (hc c (by simp)) s hs
    simp only [List.map_cons, ambKids, h1]
    cases hr : rec c s with
    | none => simp
    | some q =>
      obtain ⟨b, s'⟩ := q
      simp only [Option.map_some, Option.bind_some]
      cases b with
      | true =>
        simp only [if_true, Option.map_some, Option.some.injEq, true_and]
        rintro q rfl
        exact h2 _ hr
      | false =>
        simp only [Bool.false_eq_true, if_false]
        exact ih s' (fun c h => hc c (by simp [h])) (h2 _ hr)

theorem ambWalk_map (h : Renames G G' φ U) : ∀ (fuel : Nat) (n : α), U n → ∀ s : List α, (∀ x ∈ s, U x) →
    ambWalk G' fuel (φ n) (s.map φ) = (ambWalk G fuel n s).map (fun q => (q.1, q.2.map φ)) ∧
    ∀ q, ambWalk G fuel n s = some q → ∀ x ∈ q.2, U x := by
  intro fuel
  induction fuel with
  | zero => intro n _ s _; exact ⟨rfl, nofun⟩
  | succ fuel ih =>
    intro n hn s hs
    have hns : ∀ x ∈ n :: s, U x := by
      intro x hx
      rcases List.mem_cons.mp hx with rfl | hx
      · exact hn
      · exact hs x hx
    unfold ambWalk
    by_cases h1 : n ∈ s
    · rw [if_pos h1, if_pos ((h.mem hn hs).mpr h1)]
      refine ⟨rfl, ?_⟩
      rintro q hq
      simp only [Option.some.injEq] at hq
      subst hq; exact hs
    · rw [if_neg h1, if_neg (fun hm => h1 ((h.mem hn hs).mp hm)), h.packs n hn, List.length_map]
      by_cases h2 : (G n).length > 1
      · rw [if_pos h2, if_pos h2]
        refine ⟨rfl, ?_⟩
        rintro q hq
        simp only [Option.some.injEq] at hq
        subst hq; exact hns
      · rw [if_neg h2, if_neg h2, ← List.map_flatten]
        have := ambKids_map (φ := φ) (U := U) (fun n hn s hs => ih n hn s hs) (G n).flatten (n :: s) (by
          intro c hc
          obtain ⟨pk, h3, h4⟩ := List.mem_flatten.mp hc
          exact h.closed n hn pk h3 c h4) hns
        rw [List.map_cons] at this
        exact this

/-- `Ambiguous` gives the same answer. -/
theorem ambiguousFrom_map (h : Renames G G' φ U) (fuel : Nat) {root : α} (hr : U root) :
    ambiguousFrom G' fuel (φ root) = ambiguousFrom G fuel root := by
  unfold ambiguousFrom
  have := (ambWalk_map h fuel root hr [] (by simp)).1
  rw [List.map_nil] at this
  rw [this, Option.map_map]
  rfl

/-- The variables of `count`, renamed. -/
def CountSt.ren (φ : α → β) (st : CountSt α) : CountSt β :=
  ⟨st.memo.map fun q => (φ q.1, q.2), st.infinite⟩

/-- Every entry is about a node that matters. -/
def CountSt.In (U : α → Prop) (st : CountSt α) : Prop := ∀ q ∈ st.memo, U q.1

theorem lookup_ren (h : Renames G G' φ U) {n : α} (hn : U n) : ∀ (m : List (α × Nat)), (∀ q ∈ m, U q.1) →
    (m.map fun q => (φ q.1, q.2)).lookup (φ n) = m.lookup n := by
  intro m
  induction m with
  | nil => intro _; rfl
  | cons q m ih =>
    intro hm
    obtain ⟨a, v⟩ := q
    simp only [List.map_cons, List.lookup_cons]
    have ha : U a := hm (a, v) (by simp)
    by_cases he : n = a
    · subst he; simp
    · have : φ n ≠ φ a := fun hc => he (h.inj n a hn ha hc)
      rw [beq_false_of_ne he, beq_false_of_ne this]
      exact ih fun q hq => hm q (by simp [hq])

/-- One call under renaming. -/
def Agrees (φ : α → β) (U : α → Prop) (r : CountSt α → Option (Nat × CountSt α))
    (r' : CountSt β → Option (Nat × CountSt β)) : Prop :=
  ∀ st : CountSt α, st.In U → r' (st.ren φ) = (r st).map (fun q => (q.1, q.2.ren φ)) ∧
    ∀ q, r st = some q → q.2.In U

theorem countKids_map {rec : α → CountSt α → Option (Nat × CountSt α)} {rec' : β → CountSt β → Option (Nat × CountSt β)}
    (hrec : ∀ n, U n → Agrees φ U (rec n) (rec' (φ n))) :
    ∀ cs : List α, (∀ c ∈ cs, U c) → Agrees φ U (countKids rec cs) (countKids rec' (cs.map φ)) := by
  intro cs
  induction cs with
  | nil =>
    intro _ st hst
    refine ⟨rfl, ?_⟩
    intro q hq
    simp only [countKids, Option.some.injEq] at hq
    subst hq; exact hst
  | cons c cs ih =>
    intro hc st hst
    obtain ⟨h1, h2⟩ := hrec c (hc c (by simp)) st hst
    simp only [List.map_cons, countKids, h1]
    cases hr : rec c st with
    | none => simp
    | some q =>
      obtain ⟨v, s'⟩ := q
      obtain ⟨h3, h4⟩ := ih (fun c h => hc c (by simp [h])) s' (h2 _ hr)
      simp only [Option.map_some, Option.bind_some, h3, Option.map_map]
      refine ⟨rfl, ?_⟩
      intro q hq
      obtain ⟨x, hx, rfl⟩ := Option.map_eq_some_iff.mp hq
      exact h4 x hx

theorem countPacks_map {rec : α → CountSt α → Option (Nat × CountSt α)} {rec' : β → CountSt β → Option (Nat × CountSt β)}
    (hrec : ∀ n, U n → Agrees φ U (rec n) (rec' (φ n))) :
    ∀ pks : List (List α), (∀ pk ∈ pks, ∀ c ∈ pk, U c) →
      Agrees φ U (countPacks rec pks) (countPacks rec' (pks.map (List.map φ))) := by
  intro pks
  induction pks with
  | nil =>
    intro _ st hst
    refine ⟨rfl, ?_⟩
    intro q hq
    simp only [countPacks, Option.some.injEq] at hq
    subst hq; exact hst
  | cons pk pks ih =>
    intro hc st hst
    obtain ⟨h1, h2⟩ := countKids_map hrec pk (hc pk (by simp)) st hst
    simp only [List.map_cons, countPacks, h1]
    cases hr : countKids rec pk st with
    | none => simp
    | some q =>
      obtain ⟨v, s'⟩ := q
      obtain ⟨h3, h4⟩ := ih (fun pk h => hc pk (by simp [h])) s' (h2 _ hr)
      simp only [Option.map_some, Option.bind_some, h3, Option.map_map]
      refine ⟨rfl, ?_⟩
      intro q hq
      obtain ⟨x, hx, rfl⟩ := Option.map_eq_some_iff.mp hq
      exact h4 x hx

theorem count_map (h : Renames G G' φ U) (leaf : Bool) : ∀ (fuel : Nat) (stack : List α), (∀ x ∈ stack, U x) →
    ∀ n, U n → Agrees φ U (count G leaf fuel stack n) (count G' leaf fuel (stack.map φ) (φ n)) := by
  intro fuel
  induction fuel with
  | zero => intro _ _ _ _ st _; exact ⟨rfl, nofun⟩
  | succ fuel ih =>
    intro stack hs n hn st hst
    unfold count
    rw [show (st.ren φ).memo.lookup (φ n) = st.memo.lookup n from lookup_ren h hn _ hst]
    cases hl : st.memo.lookup n with
    | some v =>
      refine ⟨rfl, ?_⟩
      intro q hq
      simp only [Option.some.injEq] at hq
      subst hq; exact hst
    | none =>
      simp only []
      by_cases h1 : n ∈ stack
      · rw [if_pos h1, if_pos ((h.mem hn hs).mpr h1)]
        refine ⟨rfl, ?_⟩
        intro q hq
        simp only [Option.some.injEq] at hq
        subst hq; exact hst
      · rw [if_neg h1, if_neg (fun hm => h1 ((h.mem hn hs).mp hm))]
        have hns : ∀ x ∈ n :: stack, U x := by
          intro x hx
          rcases List.mem_cons.mp hx with rfl | hx
          · exact hn
          · exact hs x hx
        have hp := countPacks_map (φ := φ) (U := U) (rec := count G leaf fuel (n :: stack))
          (rec' := count G' leaf fuel (φ n :: stack.map φ))
          (fun m hm => by
            have := ih (n :: stack) hns m hm
            rw [List.map_cons] at this
            exact this)
          (G n) (h.closed n hn) st hst
        rw [h.packs n hn, hp.1, Option.map_map, Option.map_map]
        refine ⟨?_, ?_⟩
        · cases hr : countPacks (count G leaf fuel (n :: stack)) (G n) st with
          | none => rfl
          | some q =>
            simp only [Option.map_some, Function.comp_apply, List.map_eq_nil_iff, CountSt.ren, List.map_cons]
        · intro q hq
          obtain ⟨x, hx, rfl⟩ := Option.map_eq_some_iff.mp hq
          have := hp.2 x hx
          intro y hy
          rcases List.mem_cons.mp hy with rfl | hy
          · exact hn
          · exact this y hy

/-- `NumTrees` gives the same answer. -/
theorem numTreesFrom_map (h : Renames G G' φ U) (leaf : Bool) (fuel : Nat) {root : α} (hr : U root) :
    numTreesFrom G' leaf fuel (φ root) = numTreesFrom G leaf fuel root := by
  unfold numTreesFrom
  have := (count_map h leaf fuel [] (by simp) root hr {} (by intro q hq; cases hq)).1
  rw [List.map_nil] at this
  rw [show (({} : CountSt β)) = CountSt.ren φ {} from rfl, this, Option.map_map]
  rfl

end

end Verif
