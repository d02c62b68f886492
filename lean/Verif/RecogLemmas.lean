import Mathlib.Data.List.Perm.Subperm
import Verif.Recog
import Verif.TermLemmas

/-!
# What the loops of the recogniser compute, given what the recursive calls compute

The lemmas of this file are relative: the recursive calls are assumed to return only ends allowed by a relation `A`
and at least the ends in a relation `B`, to keep an invariant `I` and to change the state only as `R` allows.
-/

namespace Verif

/-- Outcomes: a value satisfying `Q`, or a panic when `pan`, or lack of fuel when `fu`. -/
def Run.Sat {α : Type} (pan fu : Prop) (Q : α → Prop) : Run α → Prop
  | .ok a => Q a
  | .panic => pan
  | .fuel => fu

theorem Run.Sat.bnd {α β : Type} {pan fu : Prop} {Q : α → Prop} {Q' : β → Prop} {x : Run α} {f : α → Run β}
    (h : x.Sat pan fu Q) (hf : ∀ a, Q a → (f a).Sat pan fu Q') : (x.bnd f).Sat pan fu Q' := by
  cases x with
  | ok a => exact hf a h
  | panic => exact h
  | fuel => exact h

theorem Run.Sat.mono {α : Type} {pan fu : Prop} {Q Q' : α → Prop} {x : Run α} (h : x.Sat pan fu Q)
    (hq : ∀ a, Q a → Q' a) : x.Sat pan fu Q' := by
  cases x with
  | ok a => exact hq a h
  | panic => exact h
  | fuel => exact h

theorem mem_union {a b : List Nat} {x : Nat} : x ∈ union a b ↔ x ∈ a ∨ x ∈ b := by
  induction b generalizing a with
  | nil => simp [union]
  | cons y b ih =>
    rw [union, ih]
    by_cases h : y ∈ a
    · rw [if_pos h, List.mem_cons]
      constructor
      · rintro (h1 | h1)
        · exact Or.inl h1
        · exact Or.inr (Or.inr h1)
      · rintro (h1 | rfl | h1)
        · exact Or.inl h1
        · exact Or.inl h
        · exact Or.inr h1
    · rw [if_neg h]
      simp only [List.mem_append, List.mem_cons, List.not_mem_nil, or_false]
      tauto

theorem nodup_union {a b : List Nat} (h : a.Nodup) : (union a b).Nodup := by
  induction b generalizing a with
  | nil => exact h
  | cons y b ih =>
    rw [union]
    apply ih
    by_cases hy : y ∈ a
    · rw [if_pos hy]; exact h
    · rw [if_neg hy, List.nodup_append]
      refine ⟨h, List.nodup_singleton _, ?_⟩
      intro x hx z hz
      rw [List.mem_singleton.mp hz]
      rintro rfl
      exact hy hx

/-- Ends of an element by start position. -/
abbrev Rel := Elem → Nat → Nat → Prop

/-- `n` consecutive occurrences. -/
def Times (A : Rel) (e : Elem) : Nat → Nat → Nat → Prop
  | 0, i, j => j = i
  | n + 1, i, j => ∃ k, Times A e n i k ∧ A e k j

/-- Some number of occurrences within the bounds. -/
def RepEnds (A : Rel) (r : Rep) (i j : Nat) : Prop :=
  ∃ n, r.min ≤ n ∧ (∀ m, r.max = some m → n ≤ m) ∧ Times A r.elem n i j

/-- Consecutive repetitions. -/
def ConcatEnds (A : Rel) : Concat → Nat → Nat → Prop
  | [], i, j => j = i
  | r :: c, i, j => ∃ k, RepEnds A r i k ∧ ConcatEnds A c k j

/-- Some alternative. -/
def AltEnds (A : Rel) (a : Alt) (i j : Nat) : Prop := ∃ c ∈ a, ConcatEnds A c i j

/-- The state relation is a preorder and, like the invariant, ignores the tick. -/
structure RFrame (I : RSt → Prop) (R : RSt → RSt → Prop) : Prop where
  refl : ∀ st, R st st
  trans : ∀ a b c, R a b → R b c → R a c
  tick : ∀ st t, I st → I { st with tick := t }
  rtick : ∀ st t, R st { st with tick := t }

/-- What a call returns: the invariant, the state relation and a set between two bounds. -/
def Ret (I : RSt → Prop) (R : RSt → RSt → Prop) (up lo : Nat → Prop) (st : RSt) (x : List Nat × RSt) : Prop :=
  I x.2 ∧ R st x.2 ∧ (∀ j ∈ x.1, up j) ∧ (∀ j, lo j → j ∈ x.1) ∧ x.1.Nodup

section
variable {E : REnv} {rec : RCall} {I : RSt → Prop} {R : RSt → RSt → Prop} {pan fu : Prop} {A B : Rel}
  {Pre : Elem → Nat → Prop}

theorem forEach_spec (F : RFrame I R) {f : Nat → RSt → Run (List Nat × RSt)} {up lo : Nat → Nat → Prop} :
    ∀ (ps acc : List Nat) (st : RSt), (∀ p ∈ ps, ∀ st, I st → (f p st).Sat pan fu (Ret I R (up p) (lo p) st)) → I st →
      acc.Nodup → (forEach f ps acc st).Sat pan fu
        (Ret I R (fun j => j ∈ acc ∨ ∃ p ∈ ps, up p j) (fun j => j ∈ acc ∨ ∃ p ∈ ps, lo p j) st) := by
  intro ps
  induction ps with
  | nil =>
    intro acc st _ hI hn
    exact ⟨hI, F.refl st, fun j h => Or.inl h, fun j h => by simpa using h, hn⟩
  | cons p ps ih =>
    intro acc st hf hI hn
    rw [forEach]
    refine (hf p (by simp) st hI).bnd ?_
    rintro ⟨r, st1⟩ ⟨h1, h2, h3, h4, _⟩
    refine (ih (union acc r) st1 (fun q hq => hf q (by simp [hq])) h1 (nodup_union hn)).mono ?_
    rintro ⟨r', st2⟩ ⟨g1, g2, g3, g4, g5⟩
    refine ⟨g1, F.trans _ _ _ h2 g2, ?_, ?_, g5⟩
    · intro j hj
      rcases g3 j hj with h | ⟨q, hq, h⟩
      · rcases mem_union.mp h with h | h
        · exact Or.inl h
        · exact Or.inr ⟨p, by simp, h3 j h⟩
      · exact Or.inr ⟨q, by simp [hq], h⟩
    · rintro j (h | ⟨q, hq, h⟩)
      · exact g4 j (Or.inl (mem_union.mpr (Or.inl h)))
      · rcases List.mem_cons.mp hq with rfl | hq
        · exact g4 j (Or.inl (mem_union.mpr (Or.inr (h4 j h))))
        · exact g4 j (Or.inr ⟨q, hq, h⟩)

theorem rangeSet_spec (F : RFrame I R) (hs : E.sched.Fair) {f : Nat → RSt → Run (List Nat × RSt)}
    {up lo : Nat → Nat → Prop} (s : List Nat) (st : RSt)
    (hf : ∀ p ∈ s, ∀ st, I st → (f p st).Sat pan fu (Ret I R (up p) (lo p) st)) (hI : I st) :
    (rangeSet E f s st).Sat pan fu (Ret I R (fun j => ∃ p ∈ s, up p j) (fun j => ∃ p ∈ s, lo p j) st) := by
  unfold rangeSet
  have hp : ∀ p, p ∈ E.sched st.tick s ↔ p ∈ s := fun p => (hs st.tick s).mem_iff
  refine (forEach_spec F (up := up) (lo := lo) (E.sched st.tick s) [] _
    (fun p h => hf p ((hp p).mp h)) (F.tick st _ hI) List.nodup_nil).mono ?_
  rintro ⟨r, st1⟩ ⟨h1, h2, h3, h4, h5⟩
  refine ⟨h1, F.trans _ _ _ (F.rtick st _) h2, ?_, ?_, h5⟩
  · intro j hj
    rcases h3 j hj with h | ⟨p, hm, h⟩
    · cases h
    · exact ⟨p, (hp p).mp hm, h⟩
  · rintro j ⟨p, hm, h⟩
    exact h4 j (Or.inr ⟨p, (hp p).mpr hm, h⟩)

/-- Repetitions whose ends the loop of `reachRep` finds completely, `len` being the length of the input. -/
def RepFit (len : Nat) (A B : Rel) (mn : Nat) (mx : Option Nat) (e : Elem) : Prop :=
  mn ≤ 2 ∨ (mx = some mn ∧ (mn ≤ len + 2 ∨ ∀ p, ¬ B e p p)) ∨ ((∀ p ≤ len, B e p p) ∧ mn ≤ len + 2) ∨
    ((∀ p j k, A e p j → A e p k → j = k) ∧ ∀ p, ¬ A e p p) ∨
    ((∀ p j k, B e p j → B e j k → B e p k) ∧ (mn ≤ len + 2 ∨ ∀ p, ¬ B e p p))

/-- The state of the loop of `reachRep` before round `c`: `H k` is the set reached after `k` occurrences. -/
structure RepInv (A B : Rel) (mn : Nat) (e : Elem) (i c : Nat) (H : Nat → List Nat) (level seen ends : List Nat) : Prop where
  pos : 1 ≤ c
  zero : H 0 = [i]
  lvl : level = H (c - 1)
  sn : ∀ p, p ∈ seen ↔ ∃ k < c, p ∈ H k
  nds : seen.Nodup
  nde : ends.Nodup
  en : ∀ p, p ∈ ends ↔ ∃ k < c, mn ≤ k ∧ p ∈ H k
  up : ∀ k < c, ∀ p ∈ H k, Times A e k i p
  lo : ∀ k, k + 1 < c → ∀ p ∈ H k, ∀ j, B e p j → j ∈ H (k + 1)

theorem times_le {len : Nat} {e : Elem} (hA : ∀ p j, p ≤ len → A e p j → p ≤ j ∧ j ≤ len) {n i j : Nat} (hi : i ≤ len)
    (h : Times A e n i j) : i ≤ j ∧ j ≤ len := by
  induction n generalizing j with
  | zero => rw [Times] at h; omega
  | succ n ih =>
    obtain ⟨k, h1, h2⟩ := h
    have := ih h1
    have := hA k j this.2 h2
    omega

theorem times_mono {A B : Rel} {e : Elem} (hBA : ∀ p j, B e p j → A e p j) {n i j : Nat} (h : Times B e n i j) :
    Times A e n i j := by
  induction n generalizing j with
  | zero => exact h
  | succ n ih =>
    obtain ⟨k, h1, h2⟩ := h
    exact ⟨k, ih h1, hBA k j h2⟩

/-- Without an empty occurrence every occurrence advances. -/
theorem times_adv {len : Nat} {e : Elem} (hA : ∀ p j, p ≤ len → A e p j → p ≤ j ∧ j ≤ len) (hn : ∀ p, ¬ A e p p)
    {n i j : Nat} (hi : i ≤ len) (h : Times A e n i j) : i + n ≤ j := by
  induction n generalizing j with
  | zero => rw [Times] at h; omega
  | succ n ih =>
    obtain ⟨k, h1, h2⟩ := h
    have h3 := ih h1
    have h4 := times_le hA hi h1
    have h5 := hA k j h4.2 h2
    have : k ≠ j := by
      rintro rfl
      exact hn k h2
    omega

/-- Coming back to the start means an empty occurrence. -/
theorem times_back {len : Nat} {e : Elem} (hA : ∀ p j, p ≤ len → A e p j → p ≤ j ∧ j ≤ len)
    {n i : Nat} (hi : i ≤ len) (h : Times A e (n + 1) i i) : A e i i := by
  obtain ⟨k, h1, h2⟩ := h
  have h3 := times_le hA hi h1
  have h4 := hA k i h3.2 h2
  have : k = i := by omega
  rwa [this] at h2

theorem RepInv.times {mn : Nat} {e : Elem} {i c : Nat} {H : Nat → List Nat} {level seen ends : List Nat}
    (h : RepInv A B mn e i c H level seen ends) {n j : Nat} (hn : n < c) (ht : Times B e n i j) : j ∈ H n := by
  induction n generalizing j with
  | zero => rw [Times] at ht; rw [h.zero, ht]; simp
  | succ n ih =>
    obtain ⟨k, h1, h2⟩ := ht
    exact h.lo n hn k (ih (by omega) h1) j h2

/-- The set of positions up to `len` cannot be exceeded. -/
theorem nodup_le {l : List Nat} {n : Nat} (h : l.Nodup) (hl : ∀ x ∈ l, x ≤ n) : l.length ≤ n + 1 := by
  have : l ⊆ List.range (n + 1) := fun x hx => by rw [List.mem_range]; have := hl x hx; omega
  have := (List.subperm_of_subset h this).length_le
  simpa using this

/-- A reflexive relation on positions up to `len` is saturated after `len + 1` steps. -/
theorem times_saturate {len : Nat} {e : Elem} (hB : ∀ p j, p ≤ len → B e p j → p ≤ j ∧ j ≤ len)
    (hr : ∀ p ≤ len, B e p p) {i : Nat} (hi : i ≤ len) (n j : Nat) (h : Times B e n i j) : Times B e (len + 2) i j := by
  -- by a path without empty steps
  have key : ∀ n j, Times B e n i j → ∃ m, m ≤ j - i ∧ Times B e m i j := by
    intro n
    induction n with
    | zero => intro j h; rw [Times] at h; exact ⟨0, by omega, h⟩
    | succ n ih =>
      rintro j ⟨k, h1, h2⟩
      obtain ⟨m, hm, h3⟩ := ih k h1
      have h4 := times_le hB hi h1
      have h5 := hB k j h4.2 h2
      by_cases hkj : k = j
      · subst hkj; exact ⟨m, hm, h3⟩
      · exact ⟨m + 1, by omega, k, h3, h2⟩
  obtain ⟨m, hm, h1⟩ := key n j h
  have hj := times_le hB hi h1
  have grow : ∀ d, Times B e (m + d) i j := by
    intro d
    induction d with
    | zero => exact h1
    | succ d ih => exact ⟨j, ih, hr j hj.2⟩
  have := grow (len + 2 - m)
  rwa [show m + (len + 2 - m) = len + 2 by omega] at this

/-- Occurrences of a transitive relation can be merged. -/
theorem times_merge {e : Elem} (ht : ∀ p j k, B e p j → B e j k → B e p k) {c : Nat} (hc : 1 ≤ c) : ∀ {n i j : Nat}, c ≤ n →
    Times B e n i j → Times B e c i j := by
  intro n
  induction n with
  | zero => intro i j h _; omega
  | succ n ih =>
    intro i j h hn
    rcases Nat.lt_or_ge c (n + 1) with hlt | hge
    · refine ih (by omega) ?_
      obtain ⟨k, h1, h2⟩ := hn
      obtain ⟨n', rfl⟩ : ∃ n', n = n' + 1 := ⟨n - 1, by omega⟩
      obtain ⟨q, h3, h4⟩ := h1
      exact ⟨q, h3, ht q k j h4 h2⟩
    · rwa [show c = n + 1 by omega]

/-- The answer of the loop is complete once it stops because nothing new was reached. -/
theorem RepInv.closed {len mn : Nat} {mx : Option Nat} {e : Elem} {i c : Nat} {H : Nat → List Nat} {level seen ends : List Nat}
    (h : RepInv A B mn e i (c + 1) H level seen ends) (hi : i ≤ len) (hc : 1 ≤ c) (hcm : mn ≤ c)
    (hA : ∀ p j, p ≤ len → A e p j → p ≤ j ∧ j ≤ len) (hBA : ∀ p j, B e p j → A e p j)
    (hcl : ∀ p ∈ H c, ∃ k < c, p ∈ H k) (hne : H c ≠ []) (hfit : RepFit len A B mn mx e) {n j : Nat} (hn : mn ≤ n)
    (hx : ∀ m, mx = some m → n ≤ m) (ht : Times B e n i j) : j ∈ ends := by
  have hB : ∀ p j, p ≤ len → B e p j → p ≤ j ∧ j ≤ len := fun p j hp hb => hA p j hp (hBA p j hb)
  rw [h.en]
  by_cases hnc : n < c + 1
  · exact ⟨n, hnc, hn, h.times hnc ht⟩
  rcases hfit with h2 | ⟨hm, _⟩ | ⟨hr, _⟩ | ⟨hf, hnn⟩ | ⟨htr, _⟩
  rotate_left 4
  · exact ⟨c, by omega, hcm, h.times (by omega) (times_merge htr hc (by omega) ht)⟩
  · -- every set from occurrence `max mn 1` on is caught
    have key : ∀ n, 1 ≤ n → mn ≤ n → ∀ j, Times B e n i j → ∃ k < c + 1, mn ≤ k ∧ 1 ≤ k ∧ j ∈ H k := by
      intro n
      induction n with
      | zero => intro h; omega
      | succ n ih =>
        intro h1 hmn j ht
        by_cases hnc : n + 1 < c + 1
        · exact ⟨n + 1, hnc, hmn, h1, h.times hnc ht⟩
        · obtain ⟨p, hp, hj⟩ := ht
          by_cases hn1 : 1 ≤ n ∧ mn ≤ n
          · obtain ⟨k, hk, hmk, hk1, hpk⟩ := ih hn1.1 hn1.2 p hp
            by_cases hkc : k < c
            · exact ⟨k + 1, by omega, by omega, by omega, h.lo k (by omega) p hpk j hj⟩
            · have : k = c := by omega
              subst this
              obtain ⟨m, hm, hpm⟩ := hcl p hpk
              by_cases hm0 : m = 0
              · subst hm0
                rw [h.zero, List.mem_singleton] at hpm
                subst hpm
                -- `p` came back to the start
                obtain ⟨n', rfl⟩ : ∃ n', n = n' + 1 := ⟨n - 1, by omega⟩
                have hb : B e p p := times_back hB hi hp
                have hp1 : p ∈ H 1 := h.lo 0 (by omega) p (by rw [h.zero]; simp) p hb
                by_cases hc1 : 1 < k
                · exact ⟨2, by omega, by omega, by omega, h.lo 1 (by omega) p hp1 j hj⟩
                · have hk1' : k = 1 := by omega
                  subst hk1'
                  exact ⟨1, by omega, hmk, by omega, h.lo 0 (by omega) p (by rw [h.zero]; simp) j hj⟩
              · exact ⟨m + 1, by omega, by omega, by omega, h.lo m (by omega) p hpm j hj⟩
          · -- n + 1 = 1 or n + 1 = mn ≤ c
            exfalso; omega
    obtain ⟨k, hk, hmk, _, hj⟩ := key n (by omega) hn j ht
    exact ⟨k, hk, hmk, hj⟩
  · exact absurd (hx mn hm) (by omega)
  · -- reflexive: the sets grow
    have hmono : ∀ d k, k + d < c + 1 → ∀ p ∈ H k, p ∈ H (k + d) := by
      intro d
      induction d with
      | zero => intro k _ p hp; exact hp
      | succ d ih =>
        intro k hk p hp
        have hpk := ih k (by omega) p hp
        have hle := (times_le hA hi (h.up (k + d) (by omega) p hpk)).2
        exact h.lo (k + d) (by omega) p hpk p (hr p hle)
    have hall : ∀ n j, Times B e n i j → j ∈ H c := by
      intro n
      induction n with
      | zero =>
        intro j ht
        rw [Times] at ht
        have := hmono c 0 (by omega) i (by rw [h.zero]; simp)
        rw [ht]; simpa using this
      | succ n ih =>
        rintro j ⟨p, hp, hj⟩
        obtain ⟨k, hk, hpk⟩ := hcl p (ih p hp)
        have := h.lo k (by omega) p hpk j hj
        have h2 := hmono (c - (k + 1)) (k + 1) (by omega) j this
        rwa [show k + 1 + (c - (k + 1)) = c by omega] at h2
    exact ⟨c, by omega, hcm, hall n j ht⟩
  · -- one end only: the last set cannot be old
    exfalso
    obtain ⟨p, hp⟩ := List.exists_mem_of_ne_nil _ hne
    obtain ⟨k, hk, hpk⟩ := hcl p hp
    have huniq : ∀ n p q, Times A e n i p → Times A e n i q → p = q := by
      intro n
      induction n with
      | zero => intro p q h1 h2; rw [Times] at h1 h2; omega
      | succ n ih =>
        rintro p q ⟨a, h1, h2⟩ ⟨b, h3, h4⟩
        have := ih a b h1 h3
        subst this
        exact hf a p q h2 h4
    have hsplit : ∀ d k q, Times A e (k + d) i q → ∃ r, Times A e k i r ∧ Times A e d r q := by
      intro d
      induction d with
      | zero => intro k q h; exact ⟨q, h, rfl⟩
      | succ d ih =>
        rintro k q ⟨a, h1, h2⟩
        obtain ⟨r, h3, h4⟩ := ih k a h1
        exact ⟨r, h3, a, h4, h2⟩
    have t1 := h.up c (by omega) p hp
    have t2 := h.up k (by omega) p hpk
    obtain ⟨r, h3, h4⟩ := hsplit (c - k) k p (by rwa [show k + (c - k) = c by omega])
    have := huniq k r p h3 t2
    subst this
    have hle := times_le hA hi t2
    have := times_adv hA hnn hle.2 h4
    omega

/-- One more round. -/
theorem RepInv.step {mn : Nat} {e : Elem} {i c : Nat} {H : Nat → List Nat} {level seen ends r : List Nat}
    (h : RepInv A B mn e i c H level seen ends) (hup : ∀ j ∈ r, ∃ p ∈ level, A e p j)
    (hlo : ∀ j, (∃ p ∈ level, B e p j) → j ∈ r) :
    RepInv A B mn e i (c + 1) (fun k => if k = c then r else H k) r (union seen r)
      (if mn ≤ c then union ends r else ends) := by
  have hpos := h.pos
  refine { pos := by omega, zero := ?_, lvl := ?_, sn := ?_, nds := nodup_union h.nds, nde := ?_, en := ?_, up := ?_,
           lo := ?_ }
  · show (if 0 = c then r else H 0) = [i]
    rw [if_neg (by omega), h.zero]
  · simp
  · intro p
    rw [mem_union, h.sn]
    constructor
    · rintro (⟨k, hk, hp⟩ | hp)
      · exact ⟨k, by omega, by rw [if_neg (by omega)]; exact hp⟩
      · exact ⟨c, by omega, by rw [if_pos rfl]; exact hp⟩
    · rintro ⟨k, hk, hp⟩
      by_cases hkc : k = c
      · rw [if_pos hkc] at hp; exact Or.inr hp
      · rw [if_neg hkc] at hp; exact Or.inl ⟨k, by omega, hp⟩
  · split_ifs
    · exact nodup_union h.nde
    · exact h.nde
  · intro p
    have hold : p ∈ ends ↔ ∃ k < c, mn ≤ k ∧ p ∈ H k := h.en p
    by_cases hm : mn ≤ c
    · rw [if_pos hm, mem_union, hold]
      constructor
      · rintro (⟨k, hk, h1, hp⟩ | hp)
        · exact ⟨k, by omega, h1, by rw [if_neg (by omega)]; exact hp⟩
        · exact ⟨c, by omega, hm, by rw [if_pos rfl]; exact hp⟩
      · rintro ⟨k, hk, h1, hp⟩
        by_cases hkc : k = c
        · rw [if_pos hkc] at hp; exact Or.inr hp
        · rw [if_neg hkc] at hp; exact Or.inl ⟨k, by omega, h1, hp⟩
    · rw [if_neg hm, hold]
      constructor
      · rintro ⟨k, hk, h1, hp⟩
        omega
      · rintro ⟨k, hk, h1, hp⟩
        omega
  · intro k hk p hp
    by_cases hkc : k = c
    · rw [if_pos hkc] at hp
      obtain ⟨q, hq, ha⟩ := hup p hp
      rw [h.lvl] at hq
      have := h.up (c - 1) (by omega) q hq
      rw [hkc, show c = (c - 1) + 1 by omega]
      exact ⟨q, this, ha⟩
    · rw [if_neg hkc] at hp
      exact h.up k (by omega) p hp
  · intro k hk p hp j hj
    have hkc : k ≠ c := by omega
    simp only [hkc, if_false] at hp
    by_cases hkc' : k + 1 = c
    · rw [if_pos hkc']
      refine hlo j ⟨p, ?_, hj⟩
      rw [h.lvl, show c - 1 = k by omega]; exact hp
    · rw [if_neg hkc']
      exact h.lo k (by omega) p hp j hj

theorem times_prefix {e : Elem} {i : Nat} : ∀ (d c j : Nat), Times B e (c + d) i j → ∃ p, Times B e c i p := by
  intro d
  induction d with
  | zero => intro c j h; exact ⟨j, h⟩
  | succ d ih =>
    rintro c j ⟨k, h1, _⟩
    exact ih c k h1

theorem repLoop_spec (F : RFrame I R) (hs : E.sched.Fair) (mn : Nat) (mx : Option Nat) (e : Elem) (i : Nat)
    (hi : i ≤ E.inp.length)
    (hrec : ∀ k p, Times A e k i p → ∀ st, I st → (rec e p st).Sat pan fu (Ret I R (A e p) (B e p) st))
    (hA : ∀ p j, p ≤ E.inp.length → A e p j → p ≤ j ∧ j ≤ E.inp.length) (hBA : ∀ p j, B e p j → A e p j) :
    ∀ (k c : Nat) (H : Nat → List Nat) (level seen ends : List Nat) (st : RSt), c + k = E.inp.length + 3 →
      RepInv A B mn e i c H level seen ends → (max mn 1 < c → (c - max mn 1) + 1 ≤ seen.length) →
      (∀ m, mx = some m → c ≤ m + 1) → I st →
      (repLoop E rec mn mx e k c level seen ends st).Sat pan fu
        (Ret I R (RepEnds A ⟨mn, mx, e⟩ i) (fun j => RepFit E.inp.length A B mn mx e ∧ RepEnds B ⟨mn, mx, e⟩ i j) st) := by
  have hB : ∀ p j, p ≤ E.inp.length → B e p j → p ≤ j ∧ j ≤ E.inp.length := fun p j hp hb => hA p j hp (hBA p j hb)
  have hupper : ∀ {c H level seen ends}, RepInv A B mn e i c H level seen ends → (∀ m, mx = some m → c ≤ m + 1) →
      ∀ j ∈ ends, RepEnds A ⟨mn, mx, e⟩ i j := by
    intro c H level seen ends h hmx j hj
    obtain ⟨k, hk, hm, hp⟩ := (h.en j).mp hj
    exact ⟨k, hm, fun m hm' => by have := hmx m hm'; omega, h.up k hk j hp⟩
  intro k
  induction k with
  | zero =>
    intro c H level seen ends st hc h hlen hmx hI
    refine ⟨hI, F.refl st, hupper h hmx, ?_, h.nde⟩
    rintro j ⟨hfit, n, hn, hx, ht⟩
    by_cases hnc : n < c
    · exact (h.en j).mpr ⟨n, hnc, hn, h.times hnc ht⟩
    rcases hfit with h2 | ⟨hm, h3⟩ | ⟨hr, h3⟩ | ⟨hf, hnn⟩ | ⟨htr, h3⟩
    rotate_left 4
    · rcases h3 with h3 | h3
      · exact (h.en j).mpr ⟨E.inp.length + 2, by omega, h3, h.times (by omega) (times_merge htr (by omega) (by omega) ht)⟩
      · have h4 := times_adv hB h3 hi ht
        have h5 := times_le hB hi ht
        omega
    · have hl := hlen (by omega)
      have hle : seen.length ≤ E.inp.length + 1 := by
        apply nodup_le h.nds
        intro x hx
        obtain ⟨k, hk, hp⟩ := (h.sn x).mp hx
        exact (times_le hA hi (h.up k hk x hp)).2
      omega
    · have := hx mn hm
      rcases h3 with h3 | h3
      · omega
      · have h4 := times_adv hB h3 hi ht
        have h5 := times_le hB hi ht
        omega
    · have := times_saturate hB hr hi n j ht
      exact (h.en j).mpr ⟨E.inp.length + 2, by omega, h3, h.times (by omega) this⟩
    · have h4 := times_adv hA hnn hi (times_mono hBA ht)
      have h5 := times_le hB hi ht
      omega
  | succ k ih =>
    intro c H level seen ends st hc h hlen hmx hI
    have hpos := h.pos
    rw [repLoop]
    by_cases hb : beyond c mx = true
    · rw [if_pos hb]
      refine ⟨hI, F.refl st, hupper h hmx, ?_, h.nde⟩
      rintro j ⟨_, n, hn, hx, ht⟩
      cases mx with
      | none => simp [beyond] at hb
      | some m =>
        simp only [beyond, decide_eq_true_eq] at hb
        have := hx m rfl
        exact (h.en j).mpr ⟨n, by omega, hn, h.times (by omega) ht⟩
    · rw [if_neg hb]
      have hmx' : ∀ m, mx = some m → c + 1 ≤ m + 1 := by
        intro m hm
        subst hm
        simp only [beyond, decide_eq_true_eq] at hb
        omega
      have hlvl : ∀ p ∈ level, Times A e (c - 1) i p := fun p hp => h.up (c - 1) (by omega) p (by rw [← h.lvl]; exact hp)
      refine (rangeSet_spec F hs (up := fun p j => A e p j) (lo := fun p j => B e p j) level st
        (fun p hp st hI => hrec (c - 1) p (hlvl p hp) st hI) hI).bnd ?_
      rintro ⟨r, st1⟩ ⟨h1, h2, h3, h4, h5⟩
      simp only at h1 h2 h3 h4 h5 ⊢
      by_cases hr : r = []
      · rw [if_pos hr]
        refine ⟨h1, h2, hupper h hmx, ?_, h.nde⟩
        rintro j ⟨_, n, hn, hx, ht⟩
        by_cases hnc : n < c
        · exact (h.en j).mpr ⟨n, hnc, hn, h.times hnc ht⟩
        · exfalso
          obtain ⟨p, hp⟩ := times_prefix (n - c) c j (by rwa [show c + (n - c) = n by omega])
          obtain ⟨c', rfl⟩ : ∃ c', c = c' + 1 := ⟨c - 1, by omega⟩
          obtain ⟨q, h6, h7⟩ := hp
          have := h4 p ⟨q, by rw [h.lvl]; exact h.times (by omega) h6, h7⟩
          rw [hr] at this
          cases this
      · rw [if_neg hr]
        have hstep := h.step (r := r) h3 h4
        by_cases hbr : (r.any fun x => decide (x ∉ seen)) = false ∧ mn ≤ c
        · rw [if_pos hbr]
          refine ⟨h1, h2, hupper hstep hmx', ?_, hstep.nde⟩
          rintro j ⟨hfit, n, hn, hx, ht⟩
          refine hstep.closed hi hpos hbr.2 hA hBA ?_ ?_ hfit hn hx ht
          · intro p hp
            simp only [if_true] at hp
            have := List.any_eq_false.mp hbr.1 p hp
            simp only [decide_eq_true_eq, not_not] at this
            obtain ⟨k, hk, hpk⟩ := (h.sn p).mp this
            exact ⟨k, hk, by rw [if_neg (by omega)]; exact hpk⟩
          · simpa using hr
        · rw [if_neg hbr]
          refine (ih (c + 1) _ r _ _ st1 (by omega) hstep ?_ hmx' h1).mono ?_
          · intro hlt
            by_cases hcm : mn ≤ c
            · -- something new was reached
              have hany : (r.any fun x => decide (x ∉ seen)) = true := by
                by_contra hno
                exact hbr ⟨by simpa using hno, hcm⟩
              obtain ⟨x, hx, hxs⟩ := List.any_eq_true.mp hany
              simp only [decide_eq_true_eq] at hxs
              have hgt : seen.length + 1 ≤ (union seen r).length := by
                have hsub : (x :: seen) ⊆ union seen r := by
                  intro y hy
                  rcases List.mem_cons.mp hy with rfl | hy
                  · exact mem_union.mpr (Or.inr hx)
                  · exact mem_union.mpr (Or.inl hy)
                have := (List.subperm_of_subset (List.nodup_cons.mpr ⟨hxs, h.nds⟩) hsub).length_le
                simpa using this
              by_cases hmc : max mn 1 < c
              · have := hlen hmc
                omega
              · have hs1 : 1 ≤ seen.length := by
                  have : i ∈ seen := (h.sn i).mpr ⟨0, by omega, by rw [h.zero]; simp⟩
                  exact List.length_pos_of_mem this
                omega
            · omega
          · rintro ⟨r', st2⟩ ⟨g1, g2, g3, g4, g5⟩
            exact ⟨g1, F.trans _ _ _ h2 g2, g3, g4, g5⟩

theorem reachRep_spec (F : RFrame I R) (hs : E.sched.Fair) (r : Rep) (i : Nat) (hi : i ≤ E.inp.length)
    (hrec : ∀ k p, Times A r.elem k i p → ∀ st, I st → (rec r.elem p st).Sat pan fu (Ret I R (A r.elem p) (B r.elem p) st))
    (hA : ∀ p j, p ≤ E.inp.length → A r.elem p j → p ≤ j ∧ j ≤ E.inp.length) (hBA : ∀ p j, B r.elem p j → A r.elem p j)
    (st : RSt) (hI : I st) :
    (reachRep E rec r i st).Sat pan fu
      (Ret I R (RepEnds A r i) (fun j => RepFit E.inp.length A B r.min r.max r.elem ∧ RepEnds B r i j) st) := by
  obtain ⟨mn, mx, e⟩ := r
  refine repLoop_spec F hs mn mx e i hi hrec hA hBA (E.inp.length + 2) 1 (fun _ => [i]) [i] [i] _ st (by omega) ?_ ?_ ?_ hI
  · refine { pos := le_refl _, zero := rfl, lvl := rfl, sn := ?_, nds := List.nodup_singleton _, nde := ?_, en := ?_,
             up := ?_, lo := ?_ }
    · intro p
      exact ⟨fun h => ⟨0, by omega, h⟩, fun ⟨_, _, h⟩ => h⟩
    · split_ifs <;> simp
    · intro p
      show p ∈ (if mn = 0 then [i] else []) ↔ _
      by_cases hm : mn = 0
      · rw [if_pos hm]
        exact ⟨fun h => ⟨0, by omega, by omega, h⟩, fun ⟨_, _, _, h⟩ => h⟩
      · rw [if_neg hm]
        constructor
        · intro h; cases h
        · rintro ⟨k, h1, h2, _⟩; omega
    · intro k hk p hp
      rw [show k = 0 by omega]
      exact List.mem_singleton.mp hp
    · intro k hk; omega
  · intro h; omega
  · intro m _; omega

/-- Every repetition of the concatenation is fit. -/
def ConcatFit (len : Nat) (A B : Rel) (c : Concat) : Prop := ∀ r ∈ c, RepFit len A B r.min r.max r.elem

theorem repEnds_le {len : Nat} {r : Rep} (hA : ∀ p j, p ≤ len → A r.elem p j → p ≤ j ∧ j ≤ len) {i j : Nat} (hi : i ≤ len)
    (h : RepEnds A r i j) : i ≤ j ∧ j ≤ len := by
  obtain ⟨n, _, _, ht⟩ := h
  exact times_le hA hi ht

theorem concatEnds_le {len : Nat} {c : Concat} (hA : ∀ r ∈ c, ∀ p j, p ≤ len → A r.elem p j → p ≤ j ∧ j ≤ len) {i j : Nat}
    (hi : i ≤ len) (h : ConcatEnds A c i j) : i ≤ j ∧ j ≤ len := by
  induction c generalizing i with
  | nil => rw [ConcatEnds] at h; omega
  | cons r c ih =>
    obtain ⟨k, h1, h2⟩ := h
    have h3 := repEnds_le (hA r (by simp)) hi h1
    have h4 := ih (fun r hr => hA r (by simp [hr])) h3.2 h2
    omega

theorem concatEnds_snoc {c : Concat} {r : Rep} {i j k : Nat} (h : ConcatEnds A c i j) (hr : RepEnds A r j k) :
    ConcatEnds A (c ++ [r]) i k := by
  induction c generalizing i with
  | nil => rw [ConcatEnds] at h; subst h; exact ⟨k, hr, rfl⟩
  | cons s c ih =>
    obtain ⟨m, h1, h2⟩ := h
    exact ⟨m, h1, ih h2⟩

theorem reachConcatFrom_spec (F : RFrame I R) (hs : E.sched.Fair) (c0 : Concat) (i : Nat) (hi : i ≤ E.inp.length)
    (hrec : ∀ pre r post, c0 = pre ++ r :: post → ∀ p, ConcatEnds A pre i p → ∀ k q, Times A r.elem k p q →
      ∀ st, I st → (rec r.elem q st).Sat pan fu (Ret I R (A r.elem q) (B r.elem q) st))
    (hA : ∀ r ∈ c0, ∀ p j, p ≤ E.inp.length → A r.elem p j → p ≤ j ∧ j ≤ E.inp.length)
    (hBA : ∀ r ∈ c0, ∀ p j, B r.elem p j → A r.elem p j) :
    ∀ (c done : Concat) (cur : List Nat) (st : RSt), c0 = done ++ c → (∀ p ∈ cur, ConcatEnds A done i p) → cur.Nodup → I st →
      (reachConcatFrom E rec c cur st).Sat pan fu
        (Ret I R (ConcatEnds A c0 i) (fun j => ConcatFit E.inp.length A B c ∧ ∃ p ∈ cur, ConcatEnds B c p j) st) := by
  intro c
  induction c with
  | nil =>
    intro done cur st hd hcur hn hI
    rw [reachConcatFrom]
    refine ⟨hI, F.refl st, ?_, ?_, hn⟩
    · intro j hj
      rw [hd, List.append_nil]
      exact hcur j hj
    · rintro j ⟨_, p, hp, h⟩
      rw [ConcatEnds] at h
      rw [h]; exact hp
  | cons r c ih =>
    intro done cur st hd hcur hn hI
    have hd' : c0 = (done ++ [r]) ++ c := by rw [hd]; simp
    have hrm : r ∈ c0 := by rw [hd]; simp
    rw [reachConcatFrom]
    have hdone : ∀ p ∈ cur, i ≤ p ∧ p ≤ E.inp.length := fun p hp =>
      concatEnds_le (fun s hs => hA s (by rw [hd]; simp [hs])) hi (hcur p hp)
    refine (rangeSet_spec F hs (up := fun p j => RepEnds A r p j)
      (lo := fun p j => RepFit E.inp.length A B r.min r.max r.elem ∧ RepEnds B r p j) cur st
      (fun p hp st hI => reachRep_spec F hs r p (hdone p hp).2 (fun k q hq => hrec done r c hd p (hcur p hp) k q hq)
        (hA r hrm) (hBA r hrm) st hI) hI).bnd ?_
    rintro ⟨x, st1⟩ ⟨h1, h2, h3, h4, h5⟩
    simp only at h1 h2 h3 h4 h5 ⊢
    by_cases hx : x = []
    · rw [if_pos hx]
      refine ⟨h1, h2, by simp, ?_, List.nodup_nil⟩
      rintro j ⟨hfit, p, hp, k, hk, _⟩
      have := h4 k ⟨p, hp, hfit r (by simp), hk⟩
      rw [hx] at this; cases this
    · rw [if_neg hx]
      refine (ih (done ++ [r]) x st1 hd' ?_ h5 h1).mono ?_
      · intro q hq
        obtain ⟨p, hp, hpq⟩ := h3 q hq
        exact concatEnds_snoc (hcur p hp) hpq
      · rintro ⟨y, st2⟩ ⟨g1, g2, g3, g4, g5⟩
        refine ⟨g1, F.trans _ _ _ h2 g2, g3, ?_, g5⟩
        rintro j ⟨hfit, p, hp, k, hk, hj⟩
        exact g4 j ⟨fun s hs => hfit s (by simp [hs]), k, h4 k ⟨p, hp, hfit r (by simp), hk⟩, hj⟩

theorem reachConcat_spec (F : RFrame I R) (hs : E.sched.Fair) (c : Concat) (i : Nat) (hi : i ≤ E.inp.length)
    (hrec : ∀ pre r post, c = pre ++ r :: post → ∀ p, ConcatEnds A pre i p → ∀ k q, Times A r.elem k p q →
      ∀ st, I st → (rec r.elem q st).Sat pan fu (Ret I R (A r.elem q) (B r.elem q) st))
    (hA : ∀ r ∈ c, ∀ p j, p ≤ E.inp.length → A r.elem p j → p ≤ j ∧ j ≤ E.inp.length)
    (hBA : ∀ r ∈ c, ∀ p j, B r.elem p j → A r.elem p j) (st : RSt) (hI : I st) :
    (reachConcat E rec c i st).Sat pan fu
      (Ret I R (ConcatEnds A c i) (fun j => ConcatFit E.inp.length A B c ∧ ConcatEnds B c i j) st) := by
  refine (reachConcatFrom_spec F hs c i hi hrec hA hBA c [] [i] st rfl ?_ (List.nodup_singleton _) hI).mono ?_
  · intro p hp
    rw [List.mem_singleton.mp hp]; rfl
  · rintro ⟨y, st2⟩ ⟨g1, g2, g3, g4, g5⟩
    exact ⟨g1, g2, g3, fun j ⟨h1, h2⟩ => g4 j ⟨h1, i, by simp, h2⟩, g5⟩

/-- Every repetition of the alternation is fit. -/
def AltFit (len : Nat) (A B : Rel) (a : Alt) : Prop := ∀ c ∈ a, ConcatFit len A B c

theorem reachAltFrom_spec (F : RFrame I R) (hs : E.sched.Fair) (i : Nat) (hi : i ≤ E.inp.length) : ∀ (a : Alt) (out : List Nat)
    (st : RSt),
    (∀ c ∈ a, ∀ pre r post, c = pre ++ r :: post → ∀ p, ConcatEnds A pre i p → ∀ k q, Times A r.elem k p q →
      ∀ st, I st → (rec r.elem q st).Sat pan fu (Ret I R (A r.elem q) (B r.elem q) st)) →
    (∀ c ∈ a, ∀ r ∈ c, ∀ p j, p ≤ E.inp.length → A r.elem p j → p ≤ j ∧ j ≤ E.inp.length) →
    (∀ c ∈ a, ∀ r ∈ c, ∀ p j, B r.elem p j → A r.elem p j) → out.Nodup → I st →
    (reachAltFrom E rec i a out st).Sat pan fu
      (Ret I R (fun j => j ∈ out ∨ AltEnds A a i j)
        (fun j => j ∈ out ∨ AltFit E.inp.length A B a ∧ AltEnds B a i j) st) := by
  intro a
  induction a with
  | nil =>
    intro out st _ _ _ hn hI
    rw [reachAltFrom]
    refine ⟨hI, F.refl st, fun j h => Or.inl h, ?_, hn⟩
    rintro j (h | ⟨_, c, hc, _⟩)
    · exact h
    · cases hc
  | cons c a ih =>
    intro out st hrec hA hBA hn hI
    rw [reachAltFrom]
    refine (reachConcat_spec F hs c i hi (hrec c (by simp)) (hA c (by simp)) (hBA c (by simp)) st hI).bnd ?_
    rintro ⟨x, st1⟩ ⟨h1, h2, h3, h4, h5⟩
    refine (ih (union out x) st1 (fun c hc => hrec c (by simp [hc])) (fun c hc => hA c (by simp [hc]))
      (fun c hc => hBA c (by simp [hc])) (nodup_union hn) h1).mono ?_
    rintro ⟨y, st2⟩ ⟨g1, g2, g3, g4, g5⟩
    refine ⟨g1, F.trans _ _ _ h2 g2, ?_, ?_, g5⟩
    · intro j hj
      rcases g3 j hj with h | ⟨c', hc', h⟩
      · rcases mem_union.mp h with h | h
        · exact Or.inl h
        · exact Or.inr ⟨c, by simp, h3 j h⟩
      · exact Or.inr ⟨c', by simp [hc'], h⟩
    · rintro j (h | ⟨hfit, c', hc', h⟩)
      · exact g4 j (Or.inl (mem_union.mpr (Or.inl h)))
      · rcases List.mem_cons.mp hc' with rfl | hc'
        · exact g4 j (Or.inl (mem_union.mpr (Or.inr (h4 j ⟨hfit c' (by simp), h⟩))))
        · exact g4 j (Or.inr ⟨fun c hc => hfit c (by simp [hc]), c', hc', h⟩)

theorem reachAlt_spec (F : RFrame I R) (hs : E.sched.Fair) (i : Nat) (hi : i ≤ E.inp.length) (a : Alt)
    (hrec : ∀ c ∈ a, ∀ pre r post, c = pre ++ r :: post → ∀ p, ConcatEnds A pre i p → ∀ k q, Times A r.elem k p q →
      ∀ st, I st → (rec r.elem q st).Sat pan fu (Ret I R (A r.elem q) (B r.elem q) st))
    (hA : ∀ c ∈ a, ∀ r ∈ c, ∀ p j, p ≤ E.inp.length → A r.elem p j → p ≤ j ∧ j ≤ E.inp.length)
    (hBA : ∀ c ∈ a, ∀ r ∈ c, ∀ p j, B r.elem p j → A r.elem p j) (st : RSt) (hI : I st) :
    (reachAlt E rec a i st).Sat pan fu
      (Ret I R (AltEnds A a i) (fun j => AltFit E.inp.length A B a ∧ AltEnds B a i j) st) := by
  refine (reachAltFrom_spec F hs i hi a [] st hrec hA hBA List.nodup_nil hI).mono ?_
  rintro ⟨y, st2⟩ ⟨g1, g2, g3, g4, g5⟩
  refine ⟨g1, g2, fun j hj => ?_, fun j h => g4 j (Or.inr h), g5⟩
  rcases g3 j hj with h | h
  · cases h
  · exact h

end

end Verif
