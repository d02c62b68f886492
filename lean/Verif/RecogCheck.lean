import Verif.RecogComplete
import Verif.Examples

/-!
# Checks that imply the conditions on grammars used for the recogniser

Only used to show that those conditions are met by concrete grammars.
-/

namespace Verif
open Spec

section
variable {g : Grammar}

theorem no_resolve_of {s : Str} (h : getRule s g.rules = none) : ¬ ∃ r, Resolves g s r := by
  intro hr
  have := getRule_isSome.mpr hr
  rw [h] at this
  cases this

/-- Boolean version of `DistinctElems`. -/
def distinctElemsB (g : Grammar) : Bool :=
  let es := (rulesReps (g.rules ++ Core.rules)).map Rep.elem
  (es.all fun e => es.all fun e' => decide (e.str = e'.str → e = e')) &&
  (es.all fun e => (match e with | .rulename _ => true | _ => false) || (getRule e.str g.rules).isNone)

theorem distinctElems_of (h : distinctElemsB g = true) : DistinctElems g := by
  unfold distinctElemsB at h
  simp only [Bool.and_eq_true, List.all_eq_true, List.mem_map, forall_exists_index, and_imp,
    forall_apply_eq_imp_iff₂, decide_eq_true_eq, Bool.or_eq_true, Option.isNone_iff_eq_none] at h
  refine ⟨?_, ?_⟩
  · rintro e e' ⟨r, hr, rfl⟩ ⟨r', hr', rfl⟩ hs
    exact h.1 r hr r' hr' hs
  · rintro e ⟨r, hr, rfl⟩
    rcases h.2 r hr with h1 | h1
    · left
      cases he : r.elem <;> rw [he] at h1 <;> first | exact ⟨_, rfl⟩ | cases h1
    · exact Or.inr (no_resolve_of h1)

/-- The names in source order. -/
def plainNames (g : Grammar) : List Str := g.rules.map Rule.name ++ Core.rules.map Rule.name

/-- The rules that may derive nothing. -/
def plainNull (g : Grammar) : List Str :=
  match nullableRules (fun _ l => l) g (plainNames g) with
  | .ok l => l
  | _ => []

theorem plainNull_exact (hd : NamesDistinct g) : NullExact g (plainNull g) ∧ ∀ n, canon n ∈ plainNull g ↔ Vanishes g (.rulename n) := by
  obtain ⟨null, h1, h2, h3⟩ := nullExact (g := g) hd (sched := fun _ l => l) (fun _ l => .refl l) (names := plainNames g) (.refl _)
  unfold plainNull
  rw [h1]
  exact ⟨h2, h3⟩

/-- The elements a concatenation can start with. -/
def firstsC (null : List Str) : Concat → List Elem
  | [] => []
  | r :: c => r.elem :: if repNullable null r then firstsC null c else []

/-- The elements an alternation can start with. -/
def firsts (null : List Str) (a : Alt) : List Elem := a.flatMap (firstsC null)

theorem starts_firsts {null : List Str} (hx : NullExact g null) {a : Alt} {e : Elem} (h : Starts g a e) : e ∈ firsts null a := by
  obtain ⟨c, hc, h⟩ := starts_iff.mp h
  refine List.mem_flatMap.mpr ⟨c, hc, ?_⟩
  clear hc
  induction c with
  | nil => obtain ⟨pre, _, _, _, h, _⟩ := h; simp at h
  | cons r c ih =>
    obtain ⟨mn, mx, e'⟩ := r
    rcases startsC_cons.mp h with rfl | ⟨h1, h2⟩
    · simp [firstsC]
    · rw [firstsC, if_pos ((hx _).mpr h1)]
      exact List.mem_cons_of_mem _ (ih h2)

mutual
/-- A rank of elements, given ranks of folded names. -/
def rkElem (tbl : List (Str × Nat)) : Elem → Nat
  | .rulename n => (tbl.lookup (canon n)).getD 0
  | .group a => rkAlt tbl a + 1
  | .option a => rkAlt tbl a + 1
  | _ => 0
def rkRep (tbl : List (Str × Nat)) : Rep → Nat
  | ⟨_, _, e⟩ => rkElem tbl e
def rkConcat (tbl : List (Str × Nat)) : List Rep → Nat
  | [] => 0
  | r :: c => max (rkRep tbl r) (rkConcat tbl c)
def rkAlt (tbl : List (Str × Nat)) : List (List Rep) → Nat
  | [] => 0
  | c :: a => max (rkConcat tbl c) (rkAlt tbl a)
end

/-- The left corners of a group or option rank strictly below it. -/
def bracketRk (rk : Elem → Nat) (null : List Str) : Elem → Bool
  | .group a => (firsts null a).all fun e => decide (rk e < rk (.group a))
  | .option a => (firsts null a).all fun e => decide (rk e < rk (.option a))
  | _ => true

theorem unbracketed_of (hd : NamesDistinct g) (tbl : List (Str × Nat))
    (hrules : ((g.rules ++ Core.rules).all fun r => (firsts (plainNull g) r.alt).all fun e =>
      decide (rkElem tbl e ≤ rkElem tbl (.rulename r.name))) = true)
    (hgrp : ((rulesReps (g.rules ++ Core.rules)).all fun q => bracketRk (rkElem tbl) (plainNull g) q.elem) = true) :
    UnbracketedLeftRecursion g := by
  have hx := (plainNull_exact hd).1
  simp only [List.all_eq_true, decide_eq_true_eq] at hrules hgrp
  have hstep : ∀ e e', (Occurs g e ∨ ∃ n, e = .rulename n) → LeftCorner g e e' → rkElem tbl e' ≤ rkElem tbl e ∧
      ((∀ n, e ≠ .rulename n) → rkElem tbl e' < rkElem tbl e) ∧ Occurs g e' := by
    have hbr : ∀ e, Occurs g e → bracketRk (rkElem tbl) (plainNull g) e = true := by
      rintro e ⟨q, hq, rfl⟩; exact hgrp q hq
    have hst : ∀ {a : Alt} {e : Elem}, Starts g a e → AltOccurs g a → Occurs g e := by
      rintro a e ⟨pre, mn, mx, post, hm, _⟩ ho
      exact ho _ hm ⟨mn, mx, e⟩ (by simp)
    intro e e' ho h
    cases h with
    | rule n r _ hr hs =>
      refine ⟨?_, fun hn => absurd rfl (hn n), hst hs (resolves_alt hr)⟩
      have h1 := hrules r (resolves_mem hr) e' (starts_firsts hx hs)
      have : canon r.name = canon n := resolves_name hr
      simp only [rkElem] at h1 ⊢
      rw [← this]; exact h1
    | group a _ hs =>
      have hocc : Occurs g (.group a) := by
        rcases ho with h | ⟨n, h⟩
        · exact h
        · cases h
      have := hbr _ hocc
      simp only [bracketRk, List.all_eq_true, decide_eq_true_eq] at this
      have := this e' (starts_firsts hx hs)
      exact ⟨by omega, fun _ => this, hst hs (occurs_alt hocc rfl)⟩
    | option a _ hs =>
      have hocc : Occurs g (.option a) := by
        rcases ho with h | ⟨n, h⟩
        · exact h
        · cases h
      have := hbr _ hocc
      simp only [bracketRk, List.all_eq_true, decide_eq_true_eq] at this
      have := this e' (starts_firsts hx hs)
      exact ⟨by omega, fun _ => this, hst hs (occurs_alt hocc rfl)⟩
  intro e ho hn ht
  obtain ⟨e1, h1, h2⟩ := Relation.TransGen.head'_iff.mp ht
  obtain ⟨_, h3, h4⟩ := hstep e e1 (Or.inl ho) h1
  have : ∀ x, Relation.ReflTransGen (LeftCorner g) e1 x → rkElem tbl x ≤ rkElem tbl e1 ∧ Occurs g x := by
    intro x h
    induction h with
    | refl => exact ⟨le_refl _, h4⟩
    | tail _ h5 ih =>
      obtain ⟨h6, _, h7⟩ := hstep _ _ (Or.inl ih.2) h5
      exact ⟨by omega, h7⟩
  have := (this e h2).1
  have := h3 hn
  omega

/-- The graph of left corners, names in source order. -/
def plainGraph (g : Grammar) : Depgraph := leftCornerGraph (plainNull g) g (plainNames g)

theorem refers_edge (hd : NamesDistinct g) {n m : Str} (h : RefersFirst g n m) : Edge (plainGraph g) (canon n) (canon m) := by
  obtain ⟨⟨r', hr'⟩, r, e, k, hr, hs, hk, hc⟩ := h
  refine (lcGraph_edge hd (plainNull_exact hd).1 (.refl _)).mpr ⟨canon_canon n, canon_canon m, ⟨r', (resolves_congr (canon_canon m)).mpr hr'⟩,
    r, (resolves_congr (canon_canon n)).mpr hr, e, hs, k, hk, (sameName_iff _ _).mp hc⟩

theorem simple_of (hd : NamesDistinct g) (tbl : List (Str × Nat))
    (h1 : ((plainGraph g).all fun p => p.2.deps.all fun y => decide ((tbl.lookup y).getD 0 ≤ (tbl.lookup p.1).getD 0)) = true)
    (h2 : ((plainGraph g).all fun p => decide (p.1 ∉ p.2.deps) ||
      (plainGraph g).all fun q => decide (q.1 = p.1 ∨ (tbl.lookup q.1).getD 0 ≠ (tbl.lookup p.1).getD 0)) = true) :
    SimpleLeftRecursion g := by
  simp only [List.all_eq_true, decide_eq_true_eq, Bool.or_eq_true] at h1 h2
  have hmem : ∀ x y, Edge (plainGraph g) x y → ∃ p ∈ plainGraph g, p.1 = x ∧ y ∈ p.2.deps := by
    rintro x y ⟨h, _⟩
    unfold dgDeps at h
    cases hl : (plainGraph g).lookup x with
    | none => rw [hl] at h; cases h
    | some d => rw [hl] at h; exact ⟨(x, d), lookup_mem hl, rfl, h⟩
  have hle : ∀ x y, Edge (plainGraph g) x y → (tbl.lookup y).getD 0 ≤ (tbl.lookup x).getD 0 := by
    intro x y h
    obtain ⟨p, hp, rfl, hy⟩ := hmem x y h
    exact h1 p hp y hy
  have htr : ∀ n m, Relation.TransGen (RefersFirst g) n m → (tbl.lookup (canon m)).getD 0 ≤ (tbl.lookup (canon n)).getD 0 ∧
      ∃ q ∈ plainGraph g, q.1 = canon m := by
    intro n m h
    have hkey : ∀ a b, RefersFirst g a b → ∃ q ∈ plainGraph g, q.1 = canon b := by
      intro a b h
      obtain ⟨_, h⟩ := refers_edge hd h
      obtain ⟨d, hd⟩ := Option.isSome_iff_exists.mp h
      exact ⟨_, lookup_mem hd, rfl⟩
    induction h with
    | single h => exact ⟨hle _ _ (refers_edge hd h), hkey _ _ h⟩
    | tail _ h ih => exact ⟨le_trans (hle _ _ (refers_edge hd h)) ih.1, hkey _ _ h⟩
  intro n m hs hnm hmn
  obtain ⟨p, hp, hpn, hself⟩ := hmem _ _ (refers_edge hd hs)
  obtain ⟨a1, q, hq, hqm⟩ := htr n m hnm
  obtain ⟨a2, _⟩ := htr m n hmn
  rcases h2 p hp with h3 | h3
  · exact absurd (by rw [hpn]; exact hself) h3
  · rcases h3 q hq with h4 | h4
    · exact (sameName_iff _ _).mpr (by rw [← hpn, ← hqm, h4])
    · rw [hqm, hpn] at h4
      omega

theorem noEmptySeries_of (h : ((rulesReps (g.rules ++ Core.rules)).all fun r => match r.elem with | .numVal _ .series [] => false | _ => true) = true) :
    NoEmptySeries g := by
  rintro b ⟨r, hr, he⟩
  have := List.all_eq_true.mp h r hr
  rw [he] at this
  cases this

theorem boundsOrdered_of (h : ((rulesReps (g.rules ++ Core.rules)).all fun r => match r.max with | some m => decide (r.min ≤ m) | none => true) = true) :
    BoundsOrdered g := by
  intro r hr m hm
  have := List.all_eq_true.mp h r hr
  rw [hm] at this
  simpa using this

end

end Verif
