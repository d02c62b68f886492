import Verif.PartMiss

/-!
# The answer of `IsValid` does not depend on the order of maps

What the recogniser of /repo/recognize.go finds, as sets: the definitions below follow its functions, without memo, with an explicit depth.
A run of the model finds the set that this approaches for growing depth, whatever the order in which sets are visited.
-/

namespace Verif
open Spec

/-! ## The functions as sets -/

/-- The ends from any of the positions (/repo/recognize.go:58-62, 94-98). -/
def setRange (f : Nat → Set Nat) (s : Set Nat) : Set Nat := {j | ∃ p ∈ s, j ∈ f p}

open Classical in
/-- The loop of `reachRep` (/repo/recognize.go:89-119). -/
noncomputable def setLoop (f : Nat → Set Nat) (mn : Nat) (mx : Option Nat) : Nat → Nat → Set Nat → Set Nat → Set Nat → Set Nat
  | 0, _, _, _, ends => ends
  | k + 1, c, level, seen, ends =>
    if beyond c mx then ends
    else if setRange f level = ∅ then ends
    else if setRange f level ⊆ seen ∧ mn ≤ c then ends ∪ setRange f level
    else setLoop f mn mx k (c + 1) (setRange f level) (seen ∪ setRange f level) (if mn ≤ c then ends ∪ setRange f level else ends)

/-- `reachRep` (/repo/recognize.go:71-121). -/
noncomputable def setRep (len : Nat) (f : Elem → Nat → Set Nat) (r : Rep) (i : Nat) : Set Nat :=
  setLoop (f r.elem) r.min r.max (len + 2) 1 {i} {i} (if r.min = 0 then {i} else ∅)

/-- `reachConcat` (/repo/recognize.go:54-69). -/
noncomputable def setConcat (len : Nat) (f : Elem → Nat → Set Nat) : List Rep → Set Nat → Set Nat
  | [], cur => cur
  | r :: c, cur => setConcat len f c (setRange (setRep len f r) cur)

/-- `reachAlt` (/repo/recognize.go:44-52). -/
def setAlt (len : Nat) (f : Elem → Nat → Set Nat) (a : Alt) (i : Nat) : Set Nat := {j | ∃ c ∈ a, j ∈ setConcat len f c {i}}

/-- `computeElem` (/repo/recognize.go:210-292). -/
def setElem (g : Grammar) (inp : Bytes) (f : Elem → Nat → Set Nat) (e : Elem) (i : Nat) : Set Nat :=
  match e with
  | .rulename n =>
    match getRule n g.rules with
    | none => ∅
    | some r => setAlt inp.length f r.alt i
  | .group a => setAlt inp.length f a i
  | .option a => {i} ∪ setAlt inp.length f a i
  | .charVal s vs => {j | matchElem inp (.charVal s vs) i = some j}
  | .numVal b s es => {j | matchElem inp (.numVal b s es) i = some j}
  | .proseVal _ => ∅

/-- `reachElem` (/repo/recognize.go:123-153) without memo and without left recursion, up to a depth. -/
def den (g : Grammar) (inp : Bytes) : Nat → Elem → Nat → Set Nat
  | 0 => fun _ _ => ∅
  | n + 1 => setElem g inp (den g inp n)

theorem setRange_empty (f : Nat → Set Nat) : setRange f ∅ = ∅ := by
  ext j; simp [setRange]

theorem setConcat_empty (len : Nat) (f : Elem → Nat → Set Nat) (c : Concat) : setConcat len f c ∅ = ∅ := by
  induction c with
  | nil => rfl
  | cons r c ih => rw [setConcat, setRange_empty, ih]

/-! ## A run finds these sets -/

/-- A list that has the elements of the sets from some depth on. -/
def SettlesTo (l : List Nat) (D : Nat → Set Nat) : Prop := ∃ N, ∀ n, N ≤ n → {j | j ∈ l} = D n

theorem SettlesTo.unique {l l' : List Nat} {D : Nat → Set Nat} (h : SettlesTo l D) (h' : SettlesTo l' D) (j : Nat) : j ∈ l ↔ j ∈ l' := by
  obtain ⟨N, h⟩ := h
  obtain ⟨N', h'⟩ := h'
  exact Set.ext_iff.mp ((h (max N N') (le_max_left _ _)).trans (h' (max N N') (le_max_right _ _)).symm) j

/-- What a call returns: the invariant, the state relation, an upper bound and the set. -/
def DRet (I : RSt → Prop) (R : RSt → RSt → Prop) (up : Nat → Prop) (D : Nat → Set Nat) (st : RSt) (x : List Nat × RSt) : Prop :=
  I x.2 ∧ R st x.2 ∧ (∀ j ∈ x.1, up j) ∧ SettlesTo x.1 D

theorem set_union (a b : List Nat) : {j | j ∈ union a b} = {j | j ∈ a} ∪ {j | j ∈ b} := by
  ext j; simp [mem_union]

section
variable {E : REnv} {rec : RCall} {I : RSt → Prop} {R : RSt → RSt → Prop} {pan fu : Prop} {A : Rel} {f : Nat → Elem → Nat → Set Nat}

theorem forEach_den (F : RFrame I R) {h : Nat → RSt → Run (List Nat × RSt)} {up : Nat → Nat → Prop} {D : Nat → Nat → Set Nat} :
    ∀ (ps acc : List Nat) (st : RSt), (∀ p ∈ ps, ∀ st, I st → (h p st).Sat pan fu (DRet I R (up p) (fun n => D n p) st)) → I st →
      (forEach h ps acc st).Sat pan fu
        (DRet I R (fun j => j ∈ acc ∨ ∃ p ∈ ps, up p j) (fun n => {j | j ∈ acc} ∪ setRange (D n) {p | p ∈ ps}) st) := by
  intro ps
  induction ps with
  | nil =>
    intro acc st _ hI
    refine ⟨hI, F.refl st, fun j h => Or.inl h, 0, fun n _ => ?_⟩
    ext j; simp [setRange]
  | cons p ps ih =>
    intro acc st hf hI
    rw [forEach]
    refine (hf p (by simp) st hI).bnd ?_
    rintro ⟨r, st1⟩ ⟨h1, h2, h3, N, h4⟩
    refine (ih (union acc r) st1 (fun q hq => hf q (by simp [hq])) h1).mono ?_
    rintro ⟨r', st2⟩ ⟨g1, g2, g3, M, g4⟩
    refine ⟨g1, F.trans _ _ _ h2 g2, ?_, max N M, fun n hn => ?_⟩
    · intro j hj
      rcases g3 j hj with h | ⟨q, hq, h⟩
      · rcases mem_union.mp h with h | h
        · exact Or.inl h
        · exact Or.inr ⟨p, by simp, h3 j h⟩
      · exact Or.inr ⟨q, by simp [hq], h⟩
    · have h4 := h4 n (le_trans (le_max_left _ _) hn)
      have g4 := g4 n (le_trans (le_max_right _ _) hn)
      simp only at h4 g4 ⊢
      rw [g4, set_union, h4]
      ext j
      simp [setRange, or_assoc]

theorem rangeSet_den (F : RFrame I R) (hs : E.sched.Fair) {h : Nat → RSt → Run (List Nat × RSt)}
    {up : Nat → Nat → Prop} {D : Nat → Nat → Set Nat} (s : List Nat) (st : RSt)
    (hf : ∀ p ∈ s, ∀ st, I st → (h p st).Sat pan fu (DRet I R (up p) (fun n => D n p) st)) (hI : I st) :
    (rangeSet E h s st).Sat pan fu (DRet I R (fun j => ∃ p ∈ s, up p j) (fun n => setRange (D n) {p | p ∈ s}) st) := by
  unfold rangeSet
  have hp : ∀ p, p ∈ E.sched st.tick s ↔ p ∈ s := fun p => (hs st.tick s).mem_iff
  refine (forEach_den F (up := up) (D := D) (E.sched st.tick s) [] _
    (fun p h => hf p ((hp p).mp h)) (F.tick st _ hI)).mono ?_
  rintro ⟨r, st1⟩ ⟨h1, h2, h3, N, h4⟩
  refine ⟨h1, F.trans _ _ _ (F.rtick st _) h2, ?_, N, fun n hn => ?_⟩
  · intro j hj
    rcases h3 j hj with h | ⟨p, hm, h⟩
    · cases h
    · exact ⟨p, (hp p).mp hm, h⟩
  · rw [h4 n hn]
    ext j
    simp [setRange, hp]

theorem repLoop_den (F : RFrame I R) (hs : E.sched.Fair) (mn : Nat) (mx : Option Nat) (e : Elem) (i : Nat)
    (hrec : ∀ k p, Times A e k i p → ∀ st, I st → (rec e p st).Sat pan fu (DRet I R (A e p) (fun n => f n e p) st)) :
    ∀ (k c : Nat) (level seen ends : List Nat) (st : RSt), (∀ p ∈ level, Times A e c i p) →
      (∀ p ∈ ends, RepEnds A ⟨mn, mx, e⟩ i p) → I st →
      (repLoop E rec mn mx e k (c + 1) level seen ends st).Sat pan fu
        (DRet I R (RepEnds A ⟨mn, mx, e⟩ i)
          (fun n => setLoop (f n e) mn mx k (c + 1) {p | p ∈ level} {p | p ∈ seen} {p | p ∈ ends}) st) := by
  intro k
  induction k with
  | zero =>
    intro c level seen ends st _ he hI
    exact ⟨hI, F.refl st, he, 0, fun n _ => rfl⟩
  | succ k ih =>
    intro c level seen ends st hl he hI
    rw [repLoop]
    by_cases hb : beyond (c + 1) mx = true
    · rw [if_pos hb]
      exact ⟨hI, F.refl st, he, 0, fun n _ => by beta_reduce; rw [setLoop, if_pos hb]⟩
    rw [if_neg hb]
    refine (rangeSet_den F hs (up := fun p j => A e p j) (D := fun n p => f n e p) level st
      (fun p hp => hrec c p (hl p hp)) hI).bnd ?_
    rintro ⟨r, st1⟩ ⟨h1, h2, h3, N, h4⟩
    simp only at h1 h2 h3 h4 ⊢
    have hup : ∀ p ∈ r, Times A e (c + 1) i p := by
      intro p hp
      obtain ⟨q, hq, hqp⟩ := h3 p hp
      exact ⟨q, hl q hq, hqp⟩
    have hmx : ∀ m, mx = some m → c + 1 ≤ m := by
      rintro m rfl
      have : ¬ (c + 1 > m) := by simpa [beyond] using hb
      omega
    have hends : ∀ p ∈ (if mn ≤ c + 1 then union ends r else ends), RepEnds A ⟨mn, mx, e⟩ i p := by
      intro p hp
      split_ifs at hp with hmn
      · rcases mem_union.mp hp with h | h
        · exact he p h
        · exact ⟨c + 1, hmn, hmx, hup p h⟩
      · exact he p hp
    have hempty : (r = [] ↔ ({p | p ∈ r} : Set Nat) = ∅) := by
      constructor
      · rintro rfl; ext j; simp
      · intro h
        refine List.eq_nil_iff_forall_not_mem.mpr fun p hp => ?_
        have : p ∈ ({p | p ∈ r} : Set Nat) := hp
        rw [h] at this
        exact this
    have hseen : ((r.any fun x => decide (x ∉ seen)) = false ↔ ({p | p ∈ r} : Set Nat) ⊆ {p | p ∈ seen}) := by
      rw [List.any_eq_false]
      constructor
      · intro h p hp
        simpa using h p hp
      · intro h p hp
        simpa using h hp
    by_cases hr : r = []
    · rw [if_pos hr]
      refine ⟨h1, h2, he, N, fun n hn => ?_⟩
      have h4 := h4 n hn
      beta_reduce
      rw [setLoop, if_neg hb, if_pos (h4.symm.trans (hempty.mp hr))]
    rw [if_neg hr]
    by_cases hd : (r.any fun x => decide (x ∉ seen)) = false ∧ mn ≤ c + 1
    · rw [if_pos hd, if_pos hd.2]
      rw [if_pos hd.2] at hends
      refine ⟨h1, h2, hends, N, fun n hn => ?_⟩
      have h4 := h4 n hn
      beta_reduce
      rw [setLoop, if_neg hb, ← h4, if_neg (fun h => hr (hempty.mpr h)), if_pos ⟨hseen.mp hd.1, hd.2⟩]
      exact set_union _ _
    · rw [if_neg hd]
      refine (ih (c + 1) r (union seen r) _ st1 hup hends h1).mono ?_
      rintro ⟨r', st2⟩ ⟨g1, g2, g3, M, g4⟩
      refine ⟨g1, F.trans _ _ _ h2 g2, g3, max N M, fun n hn => ?_⟩
      have h4 := h4 n (le_trans (le_max_left _ _) hn)
      have g4 := g4 n (le_trans (le_max_right _ _) hn)
      have hnot : ¬ (({p | p ∈ r} : Set Nat) ⊆ {p | p ∈ seen} ∧ mn ≤ c + 1) := fun h => hd ⟨hseen.mpr h.1, h.2⟩
      have hset : ({p | p ∈ if mn ≤ c + 1 then union ends r else ends} : Set Nat) =
          if mn ≤ c + 1 then {p | p ∈ ends} ∪ {p | p ∈ r} else {p | p ∈ ends} := by
        split_ifs
        · exact set_union _ _
        · rfl
      rw [g4]
      beta_reduce
      conv_rhs => rw [setLoop]
      rw [if_neg hb, ← h4, if_neg (fun h => hr (hempty.mpr h)), if_neg hnot, set_union, hset]

theorem reachRep_den (F : RFrame I R) (hs : E.sched.Fair) (r : Rep) (i : Nat)
    (hrec : ∀ k p, Times A r.elem k i p → ∀ st, I st → (rec r.elem p st).Sat pan fu (DRet I R (A r.elem p) (fun n => f n r.elem p) st))
    (st : RSt) (hI : I st) :
    (reachRep E rec r i st).Sat pan fu (DRet I R (RepEnds A r i) (fun n => setRep E.inp.length (f n) r i) st) := by
  obtain ⟨mn, mx, e⟩ := r
  refine (repLoop_den F hs mn mx e i hrec (E.inp.length + 2) 0 [i] [i] _ st ?_ ?_ hI).mono ?_
  · intro p hp
    exact List.mem_singleton.mp hp
  · intro p hp
    split_ifs at hp with h
    · exact ⟨0, le_of_eq h, fun m _ => Nat.zero_le _, List.mem_singleton.mp hp⟩
    · cases hp
  · rintro ⟨y, st2⟩ ⟨g1, g2, g3, N, g4⟩
    refine ⟨g1, g2, g3, N, fun n hn => ?_⟩
    rw [g4 n hn]
    beta_reduce
    rw [setRep]
    have h1 : ({p | p ∈ [i]} : Set Nat) = {i} := by ext; simp
    have h2 : ({p | p ∈ if mn = 0 then [i] else []} : Set Nat) = if mn = 0 then {i} else ∅ := by
      split_ifs
      · exact h1
      · ext; simp
    rw [h1]
    exact congrArg _ h2

theorem reachConcatFrom_den (F : RFrame I R) (hs : E.sched.Fair) (c0 : Concat) (i : Nat)
    (hrec : ∀ pre r post, c0 = pre ++ r :: post → ∀ p, ConcatEnds A pre i p → ∀ k q, Times A r.elem k p q →
      ∀ st, I st → (rec r.elem q st).Sat pan fu (DRet I R (A r.elem q) (fun n => f n r.elem q) st)) :
    ∀ (c done : Concat) (cur : List Nat) (st : RSt), c0 = done ++ c → (∀ p ∈ cur, ConcatEnds A done i p) → I st →
      (reachConcatFrom E rec c cur st).Sat pan fu
        (DRet I R (ConcatEnds A c0 i) (fun n => setConcat E.inp.length (f n) c {p | p ∈ cur}) st) := by
  intro c
  induction c with
  | nil =>
    intro done cur st hd hcur hI
    rw [reachConcatFrom]
    refine ⟨hI, F.refl st, ?_, 0, fun _ _ => rfl⟩
    intro j hj
    rw [hd, List.append_nil]
    exact hcur j hj
  | cons r c ih =>
    intro done cur st hd hcur hI
    have hd' : c0 = (done ++ [r]) ++ c := by rw [hd]; simp
    rw [reachConcatFrom]
    refine (rangeSet_den F hs (up := fun p j => RepEnds A r p j) (D := fun n p => setRep E.inp.length (f n) r p) cur st
      (fun p hp st hI => reachRep_den F hs r p (fun k q hq => hrec done r c hd p (hcur p hp) k q hq) st hI) hI).bnd ?_
    rintro ⟨x, st1⟩ ⟨h1, h2, h3, N, h4⟩
    simp only at h1 h2 h3 h4 ⊢
    by_cases hx : x = []
    · rw [if_pos hx]
      refine ⟨h1, h2, by simp, N, fun n hn => ?_⟩
      have h4 := h4 n hn
      beta_reduce
      rw [setConcat]
      have : setRange (setRep E.inp.length (f n) r) {p | p ∈ cur} = ∅ := by
        refine h4.symm.trans ?_
        subst hx; ext; simp
      rw [this, setConcat_empty]
      ext; simp
    · rw [if_neg hx]
      refine (ih (done ++ [r]) x st1 hd' ?_ h1).mono ?_
      · intro q hq
        obtain ⟨p, hp, hpq⟩ := h3 q hq
        exact concatEnds_snoc (hcur p hp) hpq
      · rintro ⟨y, st2⟩ ⟨g1, g2, g3, M, g4⟩
        refine ⟨g1, F.trans _ _ _ h2 g2, g3, max N M, fun n hn => ?_⟩
        have h4 := h4 n (le_trans (le_max_left _ _) hn)
        have g4 := g4 n (le_trans (le_max_right _ _) hn)
        rw [g4]
        beta_reduce
        rw [setConcat, h4]

theorem reachAltFrom_den (F : RFrame I R) (hs : E.sched.Fair) (i : Nat) : ∀ (a : Alt) (out : List Nat) (st : RSt),
    (∀ c ∈ a, ∀ pre r post, c = pre ++ r :: post → ∀ p, ConcatEnds A pre i p → ∀ k q, Times A r.elem k p q →
      ∀ st, I st → (rec r.elem q st).Sat pan fu (DRet I R (A r.elem q) (fun n => f n r.elem q) st)) → I st →
    (reachAltFrom E rec i a out st).Sat pan fu
      (DRet I R (fun j => j ∈ out ∨ AltEnds A a i j) (fun n => {j | j ∈ out} ∪ setAlt E.inp.length (f n) a i) st) := by
  intro a
  induction a with
  | nil =>
    intro out st _ hI
    rw [reachAltFrom]
    refine ⟨hI, F.refl st, fun j h => Or.inl h, 0, fun n _ => ?_⟩
    ext j; simp [setAlt]
  | cons c a ih =>
    intro out st hrec hI
    rw [reachAltFrom]
    refine (reachConcatFrom_den F hs c i (hrec c (by simp)) c [] [i] st rfl (fun p hp => List.mem_singleton.mp hp) hI).bnd ?_
    rintro ⟨x, st1⟩ ⟨h1, h2, h3, N, h4⟩
    refine (ih (union out x) st1 (fun c hc => hrec c (by simp [hc])) h1).mono ?_
    rintro ⟨y, st2⟩ ⟨g1, g2, g3, M, g4⟩
    refine ⟨g1, F.trans _ _ _ h2 g2, ?_, max N M, fun n hn => ?_⟩
    · intro j hj
      rcases g3 j hj with h | ⟨c', hc', h⟩
      · rcases mem_union.mp h with h | h
        · exact Or.inl h
        · exact Or.inr ⟨c, by simp, h3 j h⟩
      · exact Or.inr ⟨c', by simp [hc'], h⟩
    · have h4 := h4 n (le_trans (le_max_left _ _) hn)
      have g4 := g4 n (le_trans (le_max_right _ _) hn)
      simp only at h4 g4 ⊢
      have h5 : ({p | p ∈ [i]} : Set Nat) = {i} := by ext; simp
      rw [g4, set_union, h4, h5]
      ext j
      simp [setAlt, or_assoc]

end

/-! ## Runs without left recursion -/

/-- Every entry of the memo is the set of its element and position. -/
def MemoDen (g : Grammar) (inp : Bytes) (st : RSt) : Prop :=
  ∀ k v, (k, v) ∈ st.memo → ∀ e i, Asked g e → k = memoKey e.str i → (∀ j ∈ v, Ends g inp e i j) ∧ SettlesTo v fun n => den g inp n e i

/-- The same calls are active. -/
def SameProg (st st' : RSt) : Prop := ∀ k, k ∈ st'.inProgress ↔ k ∈ st.inProgress

/-- Active calls are at positions up to `i`, and those at `i` have the element as a left corner. -/
structure DenOK (g : Grammar) (st : RSt) (e : Elem) (i : Nat) : Prop where
  ppos : ∀ s p, memoKey s p ∈ st.inProgress → p ≤ i
  prog : ∀ f, Asked g f → memoKey f.str i ∈ st.inProgress → Relation.TransGen (LeftCorner g) f e

theorem DenOK.same {g : Grammar} {st st' : RSt} {e : Elem} {i : Nat} (h : DenOK g st e i) (hs : SameProg st st') : DenOK g st' e i where
  ppos := fun s p hm => h.ppos s p ((hs _).mp hm)
  prog := fun f hf hm => h.prog f hf ((hs _).mp hm)

theorem den_frame {g : Grammar} {inp : Bytes} (st0 : RSt) : RFrame (fun st => MemoDen g inp st ∧ SameProg st0 st) SameProg where
  refl := fun _ _ => Iff.rfl
  trans := fun _ _ _ h h' k => (h' k).trans (h k)
  tick := fun _ _ h => h
  rtick := fun _ _ _ => Iff.rfl

/-- What the grammar must satisfy. -/
structure DenFit (E : REnv) : Prop where
  nd : NamesDistinct E.g
  de : DistinctElems E.g
  wf : ∀ e, Occurs E.g e → TermWF e
  ne : NoEmptySeries E.g
  none : ∀ n, ¬ LeftRecursive E.g n
  lr : E.leftRec = []
  hs : E.sched.Fair

/-- A way of making calls that finds the sets. -/
def DenCall (E : REnv) (rec : RCall) : Prop :=
  ∀ e i st, Asked E.g e → i ≤ E.inp.length → MemoDen E.g E.inp st → DenOK E.g st e i →
    (rec e i st).Sat True True (DRet (MemoDen E.g E.inp) SameProg (Ends E.g E.inp e i) (fun n => den E.g E.inp n e i) st)

section
variable {E : REnv} {rec : RCall}

theorem settlesTo_succ {l : List Nat} {D : Nat → Set Nat} (h : SettlesTo l fun n => D (n + 1)) : SettlesTo l D := by
  obtain ⟨N, h⟩ := h
  refine ⟨N + 1, fun n hn => ?_⟩
  obtain ⟨m, rfl⟩ : ∃ m, n = m + 1 := ⟨n - 1, by omega⟩
  exact h m (by omega)

theorem reachAlt_den (hF : DenFit E) (hrec : DenCall E rec) (a : Alt) (ha : AltOccurs E.g a) (i : Nat) (hi : i ≤ E.inp.length) (st : RSt)
    (hI : MemoDen E.g E.inp st) (hb : ∀ s p, memoKey s p ∈ st.inProgress → p ≤ i) (hstart : ∀ e, Starts E.g a e → DenOK E.g st e i) :
    (reachAlt E rec a i st).Sat True True (DRet (MemoDen E.g E.inp) SameProg (AltEnds (Ends E.g E.inp) a i)
      (fun n => setAlt E.inp.length (den E.g E.inp n) a i) st) := by
  refine (reachAltFrom_den (A := Ends E.g E.inp) (f := den E.g E.inp)
    (I := fun st' => MemoDen E.g E.inp st' ∧ SameProg st st') (den_frame st) hF.hs i a [] st ?_ ⟨hI, fun _ => Iff.rfl⟩).mono ?_
  · intro c hc pre r post hp p h1 k q h2 st' hI'
    obtain ⟨h3, h4, h5⟩ := starts_of_back hF.ne ha (fun _ _ _ h => h) hi hc hp h1 h2
    have hok : DenOK E.g st' r.elem q := by
      refine DenOK.same ?_ hI'.2
      rcases Nat.lt_or_ge i q with h | h
      · refine ⟨fun s p hm => ?_, fun f _ hm => ?_⟩
        · have := hb s p hm; omega
        · have := hb _ _ hm; omega
      · have : q = i := by omega
        rw [this]; exact hstart _ (h5 this)
    refine (hrec r.elem q st' (Or.inl (ha c hc r (by rw [hp]; simp))) h4 hI'.1 hok).mono ?_
    rintro ⟨x, st1⟩ ⟨g1, g2, g3, g4⟩
    exact ⟨⟨g1, fun k => (g2 k).trans (hI'.2 k)⟩, g2, g3, g4⟩
  · rintro ⟨x, st1⟩ ⟨g1, g2, g3, N, g4⟩
    refine ⟨g1.1, g2, fun j hj => ?_, N, fun n hn => ?_⟩
    · rcases g3 j hj with h | h
      · cases h
      · exact h
    · rw [g4 n hn]
      ext j; simp

theorem memoDen_cons (hF : DenFit E) {st : RSt} (h : MemoDen E.g E.inp st) {e : Elem} (he : Asked E.g e) {i : Nat} {v : List Nat}
    (hup : ∀ j ∈ v, Ends E.g E.inp e i j) (hv : SettlesTo v fun n => den E.g E.inp n e i) (k : Str → Bool) :
    MemoDen E.g E.inp { st with inProgress := st.inProgress.filter k, memo := (memoKey e.str i, v) :: st.memo } := by
  intro key w hm e' i' he' hk
  rcases List.mem_cons.mp hm with h' | h'
  · obtain ⟨rfl, rfl⟩ := Prod.mk.inj h'
    obtain ⟨h1, rfl⟩ := memoKey_inj hk
    obtain rfl := asked_eq hF.de he he' h1
    exact ⟨hup, hv⟩
  · exact h key w h' e' i' he' hk

theorem computeElem_den (hF : DenFit E) (hrec : DenCall E rec) (e : Elem) (he : Asked E.g e) (i : Nat) (hi : i ≤ E.inp.length)
    (st : RSt) (hI : MemoDen E.g E.inp st) (hok : DenOK E.g st e i) :
    (computeElem E rec e i { st with inProgress := memoKey e.str i :: st.inProgress }).Sat True True
      (DRet (MemoDen E.g E.inp) SameProg (Ends E.g E.inp e i) (fun n => den E.g E.inp n e i)
        { st with inProgress := memoKey e.str i :: st.inProgress }) := by
  have hbelow : ∀ s p, memoKey s p ∈ ({ st with inProgress := memoKey e.str i :: st.inProgress } : RSt).inProgress → p ≤ i := by
    intro s p hm
    rcases List.mem_cons.mp hm with h | h
    · exact le_of_eq (memoKey_inj h).2
    · exact hok.ppos s p h
  have body : ∀ a : Alt, AltOccurs E.g a → (∀ e1, Starts E.g a e1 → LeftCorner E.g e e1) →
      (reachAlt E rec a i { st with inProgress := memoKey e.str i :: st.inProgress }).Sat True True
        (DRet (MemoDen E.g E.inp) SameProg (AltEnds (Ends E.g E.inp) a i) (fun n => setAlt E.inp.length (den E.g E.inp n) a i)
          { st with inProgress := memoKey e.str i :: st.inProgress }) := by
    intro a ha hlc
    refine reachAlt_den hF hrec a ha i hi { st with inProgress := memoKey e.str i :: st.inProgress } hI hbelow fun e1 hs => ⟨hbelow, ?_⟩
    intro f hf hm
    rcases List.mem_cons.mp hm with h | h
    · rw [asked_eq hF.de hf he (memoKey_inj h).1]
      exact .single (hlc e1 hs)
    · exact .tail (hok.prog f hf h) (hlc e1 hs)
  have hocc : (∀ n, e ≠ .rulename n) → Occurs E.g e := by
    intro hn
    rcases he with h | ⟨n, _, h, _⟩
    · exact h
    · exact absurd h (hn n)
  have hterm : TermWF e → (∀ n, den E.g E.inp (n + 1) e i = {j | matchElem E.inp e i = some j}) →
      Run.Sat True True (DRet (MemoDen E.g E.inp) SameProg (Ends E.g E.inp e i) (fun n => den E.g E.inp n e i)
        { st with inProgress := memoKey e.str i :: st.inProgress })
        (.ok ((matchElem E.inp e i).toList, { st with inProgress := memoKey e.str i :: st.inProgress })) := by
    intro hw hden
    refine ⟨hI, fun _ => Iff.rfl, ?_, settlesTo_succ ⟨0, fun n _ => ?_⟩⟩
    · intro j hj
      have hj : matchElem E.inp e i = some j := by simpa using hj
      obtain ⟨cs, h1, h2⟩ := (matchElem_iff E.inp e hw i j).mp hj
      exact ⟨_, .term e cs h1, by rw [← encodeAll_eq_utf8]; exact h2⟩
    · beta_reduce
      rw [hden]
      ext j; simp
  cases e with
  | rulename n =>
    rw [computeElem]
    cases hr : getRule n E.g.rules with
    | none =>
      refine ⟨hI, fun _ => Iff.rfl, by simp, settlesTo_succ ⟨0, fun k _ => ?_⟩⟩
      simp only [den, setElem, hr]
      ext; simp
    | some R =>
      have hR := getRule_resolves hr
      refine (body R.alt (fun c hc q hq => occurs_rule hR hc hq) (fun e1 hs => .rule n R e1 hR hs)).mono ?_
      rintro ⟨x, st1⟩ ⟨g1, g2, g3, N, g4⟩
      refine ⟨g1, g2, fun j hj => ?_, settlesTo_succ ⟨N, fun k hk => ?_⟩⟩
      · obtain ⟨w, h1, h2⟩ := alt_derives (g3 j hj)
        exact ⟨w, .rule n R w hR h1, h2⟩
      · rw [g4 k hk]
        simp only [den, setElem, hr]
  | group a =>
    rw [computeElem]
    have ho := hocc (by simp)
    refine (body a (fun c hc q hq => occurs_inner ho (a := a) (by simp [elemReps]) hc hq) (fun e1 hs => .group a e1 hs)).mono ?_
    rintro ⟨x, st1⟩ ⟨g1, g2, g3, N, g4⟩
    refine ⟨g1, g2, fun j hj => ?_, settlesTo_succ ⟨N, fun k hk => ?_⟩⟩
    · obtain ⟨w, h1, h2⟩ := alt_derives (g3 j hj)
      exact ⟨w, .group a w h1, h2⟩
    · rw [g4 k hk]
      rfl
  | option a =>
    rw [computeElem]
    have ho := hocc (by simp)
    refine (body a (fun c hc q hq => occurs_inner ho (a := a) (by simp [elemReps]) hc hq) (fun e1 hs => .option a e1 hs)).bnd ?_
    rintro ⟨x, st1⟩ ⟨g1, g2, g3, N, g4⟩
    refine ⟨g1, g2, fun j hj => ?_, settlesTo_succ ⟨N, fun k hk => ?_⟩⟩
    · rcases mem_union.mp hj with h | h
      · rw [List.mem_singleton.mp h]
        exact ⟨[], .optNone a, (at_nil _ _ _).mpr rfl⟩
      · obtain ⟨w, h1, h2⟩ := alt_derives (g3 j h)
        exact ⟨w, .optSome a w h1, h2⟩
    · simp only
      rw [set_union, g4 k hk]
      simp only [den, setElem]
      congr 1
      ext; simp
  | charVal s vs => exact hterm (hF.wf _ (hocc (by simp))) fun _ => rfl
  | numVal b s es => exact hterm (hF.wf _ (hocc (by simp))) fun _ => rfl
  | proseVal vs =>
    refine ⟨hI, fun _ => Iff.rfl, by simp, settlesTo_succ ⟨0, fun k _ => ?_⟩⟩
    simp only [den, setElem]
    ext; simp

theorem reachElem_den (hF : DenFit E) : ∀ n, DenCall E (reachElem E n) := by
  intro n
  induction n with
  | zero => intro e i st _ _ _ _; trivial
  | succ n ih =>
    intro e i st he hi hI hok
    rw [reachElem_succ]
    have hl : leftRecOf E e = none := by
      cases e <;> simp [leftRecOf, hF.lr]
    rw [hl]
    unfold reachMemo
    cases hm : st.memo.lookup (memoKey e.str i) with
    | some v =>
      obtain ⟨h1, h2⟩ := hI _ _ (lookup_mem hm) e i he rfl
      exact ⟨hI, fun _ => Iff.rfl, h1, h2⟩
    | none =>
      simp only
      split_ifs with hp
      · exfalso
        have ht := hok.prog e he hp
        by_cases hr : ∃ k, e = .rulename k
        · obtain ⟨k, rfl⟩ := hr
          exact hF.none k ⟨k, (sameName_iff _ _).mpr rfl, ht⟩
        · have hn : ∀ n, e ≠ .rulename n := fun n h => hr ⟨n, h⟩
          have hocc : Occurs E.g e := by
            rcases he with h | ⟨n, _, h, _⟩
            · exact h
            · exact absurd h (hn n)
          exact unbracketed_of_none hF.none e hocc hn ht
      · refine (computeElem_den hF ih e he i hi st hI hok).bnd ?_
        rintro ⟨x, st1⟩ ⟨h1, h2, h3, h4⟩
        simp only at h1 h2 h3 h4
        refine ⟨memoDen_cons hF h1 he h3 h4 _, fun k => ?_, h3, h4⟩
        simp only [List.mem_filter, ne_eq, decide_not, Bool.not_eq_true', decide_eq_false_iff_not]
        rw [h2 k, List.mem_cons]
        constructor
        · rintro ⟨rfl | h, hne⟩
          · exact absurd rfl hne
          · exact h
        · intro h
          refine ⟨Or.inr h, ?_⟩
          rintro rfl
          exact hp h

end

namespace Props

/-- C120.  `IsValid` is a function of the grammar, the rule and the input, whatever the rest of the grammar: if the rules that the given one
uses can be written in ABNF, no two strings in them differ in case-sensitivity alone and none is left-recursive, it returns, and with the same
answer for all orders in which maps are visited.  It need not be the right one, see `C05_fails`.  Missing: left-recursive rules. -/
theorem C120_rule_partial (g : Grammar) (hd : NamesDistinct g) (name : Str) (r0 : Rule) (h0 : Resolves g name r0)
    (hw : ∀ r, UsesRule g name r → r.written = true) (hc : PartConsistent g name) (hl : ∀ r, UsesRule g name r → ¬ LeftRecursive g r.name)
    (inp : Bytes) : ∃ b, ∀ (o : LOrders) (_ : o.Fair g) (s : Sched Nat) (_ : s.Fair), isValid o s g name inp = some (.ok b) := by
  have hin : InPart g name (.rulename name) := .inr ⟨name, r0, rfl, h0, r0, h0, .refl⟩
  have hwp : ∀ r ∈ (partOf g name).rules, r.written = true := fun r hr => hw r (mem_partOf.mp hr).2
  have hcp := part_strings hc
  have key : ∀ (o : LOrders) (_ : o.Fair g) (s : Sched Nat) (_ : s.Fair), ∃ l : List Nat,
      isValid o s g name inp = some (.ok (decide (inp.length ∈ l))) ∧ SettlesTo l fun n => den (partOf g name) inp n (.rulename name) 0 := by
    intro o ho s hs
    obtain ⟨x, hx, hv⟩ := part_isValid g hd name r0 h0 hl o ho s hs inp
    have hF : DenFit ⟨partOf g name, inp, [], s⟩ := ⟨partOf_nd hd, distinctElems_of_written hwp hcp, occurs_termWF (numValsWF_of_written hwp),
      noEmptySeries_of_written hwp, part_no_leftRec hd hl, rfl, hs⟩
    have := reachElem_den hF (rFuel g inp) (.rulename name) 0 rInit (Or.inr ⟨name, r0, rfl, (part_resolves hd hin r0).mp h0⟩) (Nat.zero_le _)
      (fun _ _ h => (List.not_mem_nil h).elim) ⟨fun _ _ h => (List.not_mem_nil h).elim, fun _ _ h => (List.not_mem_nil h).elim⟩
    rw [hx] at this
    exact ⟨x.1, hv, this.2.2.2⟩
  obtain ⟨l, h1, h2⟩ := key (plainOrders g) (plainOrders_fair g) plainSched plainSched_fair
  refine ⟨decide (inp.length ∈ l), fun o ho s hs => ?_⟩
  obtain ⟨l', h3, h4⟩ := key o ho s hs
  rw [h3, decide_eq_decide.mpr (h4.unique h2 inp.length)]

/-- C120 for left-recursive rules on which `IsValid` is right: there the answer is whether the rule derives the input.  Missing: the other
left-recursive rules, see `C120_fails_panic`. -/
theorem C120_exact_partial (g : Grammar) (hw : ∀ r ∈ g.rules, r.written = true) (hc : CaseConsistent g.strings)
    (hd : NamesDistinct g) (hl : SimpleLeftRecursion g) (hu : UnbracketedLeftRecursion g) (hr : ∀ r ∈ rulesReps g.rules, Tallied g r)
    (name : Str) (r0 : Rule) (h0 : Resolves g name r0) (inp : Bytes) :
    ∃ b, ∀ (o : LOrders) (_ : o.Fair g) (s : Sched Nat) (_ : s.Fair), isValid o s g name inp = some (.ok b) := by
  classical
  refine ⟨decide (DerivesRule g name inp), fun o ho s hs => ?_⟩
  rcases C44_returns_partial g hd hl o ho s hs name inp with ⟨_, h⟩ | ⟨b, h, _⟩
  · exact (h ⟨r0, h0⟩).elim
  · by_cases hD : DerivesRule g name inp
    · rw [C05_complete_written_partial g hw hc hd hl hu hr o ho s hs name inp hD]
      simp [hD]
    · cases b with
      | false => simp [h, hD]
      | true => exact (hD (C04_sound_written g hw hc hd o ho s hs name inp h)).elim

example : (∀ r ∈ mutualLeft.rules, r.written = true) ∧ CaseConsistent mutualLeft.strings ∧ NamesDistinct mutualLeft ∧ SimpleLeftRecursion mutualLeft ∧
    UnbracketedLeftRecursion mutualLeft ∧ (∀ r ∈ rulesReps mutualLeft.rules, Tallied mutualLeft r) ∧ (∃ r0, Resolves mutualLeft (str% "a") r0) ∧
    LeftRecursive mutualLeft (str% "a") :=
  ⟨by decide, by unfold CaseConsistent; decide, mutualLeft_nd, mutualLeft_simple,
    unbracketed_of mutualLeft_nd [(str% "a", 1), (str% "b", 1), (str% "lwsp", 2), (str% "wsp", 0)] (by decide +kernel) (by decide +kernel),
    by
      have : ∀ r ∈ rulesReps mutualLeft.rules, r.min ≤ 2 := by decide
      exact fun r hr => Or.inl (this r hr),
    ⟨mutualLeft.rules[0], (getRule_iff mutualLeft_nd).mp (by decide +kernel)⟩,
    ⟨str% "A", (sameName_iff _ _).mpr (by decide), .tail (b := .rulename (str% "b"))
      (.single (.rule _ mutualLeft.rules[0] _ ((getRule_iff mutualLeft_nd).mp (by decide +kernel)) ⟨[], 1, some 1, _, List.mem_cons_self, .nil⟩))
      (.rule _ mutualLeft.rules[1] _ ((getRule_iff mutualLeft_nd).mp (by decide +kernel)) ⟨[], 1, some 1, _, List.mem_cons_self, .nil⟩)⟩⟩

/-- The orders that follow the source, except that the graph is visited backwards. -/
def backOrders (g : Grammar) : LOrders := ⟨fun _ l => l, plainNames g, plainNames g, List.reverse⟩

theorem backOrders_fair (g : Grammar) : (backOrders g).Fair g :=
  ⟨fun _ l => .refl l, .refl _, .refl _, List.reverse_perm⟩

/-- C120 fails for left-recursive rules: with `a = a "x" / b "y" / "z"` and `b = a "w"`, whether `IsValid` answers or writes to a nil map
depends on the order in which Go visits the map of left corners. -/
theorem C120_fails_panic : NamesDistinct nested ∧ (∀ r ∈ nested.rules, r.written = true) ∧ CaseConsistent nested.strings ∧
    (plainOrders nested).Fair nested ∧ (backOrders nested).Fair nested ∧ plainSched.Fair ∧
    isValid (plainOrders nested) plainSched nested (str% "a") (bytes% "zwyx") = some .panic ∧
    isValid (backOrders nested) plainSched nested (str% "a") (bytes% "zwyx") = some (.ok true) :=
  ⟨namesDistinct_of (by decide), by decide, by unfold CaseConsistent; decide, plainOrders_fair _, backOrders_fair _, plainSched_fair,
    by decide +kernel, by decide +kernel⟩

/-- Checks a property of the generator for a rule. -/
def genAll (t : TgOpts) (o : FuzzOpts) (g : Grammar) (name : Str) (k : FuzzGen → Bool) : Bool :=
  match transitionGraph t Core.rules g (plainOrder g) name with
  | .ok (.ok (f, h)) =>
    match newGenerator o f h with
    | .ok (.ok G) => k G
    | _ => false
  | _ => false

theorem genAll_some {t : TgOpts} {o : FuzzOpts} {g : Grammar} {name : Str} {k : FuzzGen → Bool} (h : genAll t o g name k = true) :
    ∃ f h G, transitionGraph t Core.rules g (plainOrder g) name = .ok (.ok (f, h)) ∧ newGenerator o f h = .ok (.ok G) ∧ k G = true := by
  unfold genAll at h
  split at h
  · rename_i f hp e1
    split at h
    · rename_i G e2
      exact ⟨f, hp, G, e1, e2, h⟩
    · cases h
  · cases h

/-- Checks what `NearMiss` gives for a tape. -/
def missesB (s : Sched Nat) (g : Grammar) (name : Str) (G : FuzzGen) (tape w : Bytes) : Bool :=
  match nearMiss (fun _ => plainOrders g) (fun _ => s) g name G tape with
  | .ok (some (v, _)) => decide (v = w)
  | _ => false

theorem misses_of {s : Sched Nat} {g : Grammar} {name : Str} {G : FuzzGen} {tape w : Bytes} (h : missesB s g name G tape w = true) :
    ∃ l, nearMiss (fun _ => plainOrders g) (fun _ => s) g name G tape = .ok (some (w, l)) := by
  unfold missesB at h
  split at h
  · rename_i v l e
    exact ⟨l, by rw [e, of_decide_eq_true h]⟩
  · cases h

/-- `a = ("x" / "xy") ("y" "a" / %s"a")`. -/
def oddCase : Grammar := ⟨[⟨str% "a", [[⟨1, some 1, .group [[Ex.one (Ex.lit (str% "x"))], [Ex.one (Ex.lit (str% "xy"))]]⟩,
  ⟨1, some 1, .group [[Ex.one (Ex.lit (str% "y")), Ex.one (Ex.lit (str% "a"))], [Ex.one (.charVal true (str% "a"))]]⟩]]⟩]⟩

theorem oddCase_nd : NamesDistinct oddCase := namesDistinct_of (by decide)

/-- An order of sets. -/
def backSched : Sched Nat := fun _ l => l.reverse

theorem backSched_fair : backSched.Fair := fun _ l => l.reverse_perm

theorem oddCase_text : DerivesRule oddCase (str% "a") (bytes% "xyA") := by
  have hr : Resolves oddCase (str% "a") oddCase.rules[0] := (getRule_iff oddCase_nd).mp (by decide +kernel)
  rw [DerivesRule, derives_rule_of oddCase_nd hr]
  have hx : Derives oddCase (Ex.lit (str% "x")) (bytes% "x") := (derives_charVal ..).mpr ⟨['x'], .cons (.inl rfl) .nil, by decide⟩
  have hy : Derives oddCase (Ex.lit (str% "y")) (bytes% "y") := (derives_charVal ..).mpr ⟨['y'], .cons (.inl rfl) .nil, by decide⟩
  have ha : Derives oddCase (Ex.lit (str% "a")) (bytes% "A") :=
    (derives_charVal ..).mpr ⟨['A'], .cons ((sameLetter_iff _ _).mpr (by decide)) .nil, by decide⟩
  rw [show oddCase.rules[0].alt = [[⟨1, some 1, .group [[Ex.one (Ex.lit (str% "x"))], [Ex.one (Ex.lit (str% "xy"))]]⟩,
    ⟨1, some 1, .group [[Ex.one (Ex.lit (str% "y")), Ex.one (Ex.lit (str% "a"))], [Ex.one (.charVal true (str% "a"))]]⟩]] from rfl,
    derivesAlt_cons, derivesConcat_cons]
  refine .inl ⟨bytes% "x", bytes% "yA", rfl, ?_, ?_⟩
  · rw [derivesRep_one, derives_group, derivesAlt_cons, derivesConcat_one]
    exact .inl (derivesRep_one.mpr hx)
  · rw [derivesConcat_one, derivesRep_one, derives_group, derivesAlt_cons, derivesConcat_cons]
    exact .inl ⟨bytes% "y", bytes% "A", rfl, derivesRep_one.mpr hy, derivesConcat_one.mpr (derivesRep_one.mpr ha)⟩

/-- The graph of this rule, a generator for it, and what `NearMiss` gives for a tape in two orders. -/
theorem oddCase_run : ∃ f h G, transitionGraph {} Core.rules oddCase (plainOrder oddCase) (str% "a") = .ok (.ok (f, h)) ∧
    newGenerator {} f h = .ok (.ok G) ∧
    (∃ l, nearMiss (fun _ => plainOrders oddCase) (fun _ => plainSched) oddCase (str% "a") G [0, 0, 0, 0, 0, 2, 0, 2] = .ok (some (bytes% "xyb", l))) ∧
    ∃ l, nearMiss (fun _ => plainOrders oddCase) (fun _ => backSched) oddCase (str% "a") G [0, 0, 0, 0, 0, 2, 0, 2] = .ok (some (bytes% "xyA", l)) := by
  obtain ⟨f, h, G, e1, e2, e3⟩ := genAll_some (t := {}) (o := {}) (g := oddCase) (name := str% "a")
    (k := fun G => missesB plainSched oddCase (str% "a") G [0, 0, 0, 0, 0, 2, 0, 2] (bytes% "xyb") &&
      missesB backSched oddCase (str% "a") G [0, 0, 0, 0, 0, 2, 0, 2] (bytes% "xyA")) (by decide +kernel)
  rw [Bool.and_eq_true] at e3
  exact ⟨f, h, G, e1, e2, misses_of e3.1, misses_of e3.2⟩

/-- C120 fails in general: whether `IsValid` accepts the text `xyA` of this rule depends on the order in which Go visits a set of two
positions, since `"a"` and `%s"a"` share an entry of the memo. -/
theorem C120_fails : NamesDistinct oddCase ∧ (∀ r ∈ oddCase.rules, r.written = true) ∧ (∀ r, UsesRule oddCase (str% "a") r → ¬ LeftRecursive oddCase r.name) ∧
    DerivesRule oddCase (str% "a") (bytes% "xyA") ∧ (plainOrders oddCase).Fair oddCase ∧ plainSched.Fair ∧ backSched.Fair ∧
    isValid (plainOrders oddCase) plainSched oddCase (str% "a") (bytes% "xyA") = some (.ok true) ∧
    isValid (plainOrders oddCase) backSched oddCase (str% "a") (bytes% "xyA") = some (.ok false) := by
  refine ⟨oddCase_nd, by decide, ?_, oddCase_text, plainOrders_fair _, plainSched_fair, backSched_fair, by decide +kernel, by decide +kernel⟩
  obtain ⟨f, h, G, e1, _⟩ := oddCase_run
  obtain ⟨_, _, hl⟩ := graph_noLeftRec oddCase_nd ((C61_errors {} oddCase oddCase_nd Core.rules (.refl _) _ (.refl _) _).1 _ e1)
  exact hl

/-! ## C119: `NearMiss` -/

/-- C119.  `NearMiss` is deterministic in the tape and total, also where `IsValid` misjudges texts: for every rule with a transition graph
such that the rules it uses can be written in ABNF and no two strings in them differ in case-sensitivity alone, each tape has a near miss
which is returned whatever the iteration orders of the Go maps.  It is one of the candidates and not the production of the tape. -/
theorem C119_nearMiss {t : TgOpts} {g : Grammar} (hd : NamesDistinct g) {core : List Rule} (hcore : core.Perm Core.rules)
    {order : List Str} (hor : order.Perm ((dependencyGraph core g).map Prod.fst)) {name : Str}
    (hp : ∀ r, Visits t g name r → Plain r) {f : TgFrag} {h : TgHeap} (hok : transitionGraph t core g order name = .ok (.ok (f, h)))
    {o : FuzzOpts} {G : FuzzGen} (hG : newGenerator o f h = .ok (.ok G))
    (hw : ∀ r, UsesRule g name r → r.written = true) (hc : PartConsistent g name) (tape : Bytes) :
    ∃ st cs r, fuzzWalk tapeSource G ⟨tape, 0⟩ = .ok st ∧ nearMissCandidates tapeSource st.src st.out st.trace = .ok cs ∧ r ∈ cs ∧ r.1 ≠ st.out ∧
      ∀ (os : Nat → LOrders) (_ : ∀ i, (os i).Fair g) (scheds : Nat → Sched Nat) (_ : ∀ i, (scheds i).Fair),
        nearMiss os scheds g name G tape = .ok (some r) := by
  have hfin := tg_finite hd hcore hor hp hok
  obtain ⟨r0, h0, hl⟩ := graph_noLeftRec hd ((C61_errors t g hd core hcore order hor name).1 _ hok)
  choose v hv using C120_rule_partial g hd name r0 h0 hw hc hl
  obtain ⟨st, cs, h1, _, h3, _⟩ := nearMiss_parts hfin hG (fun _ => plainOrders g) (fun _ => plainSched) g name tape
  have hfind : ∀ (os : Nat → LOrders) (_ : ∀ i, (os i).Fair g) (scheds : Nat → Sched Nat) (_ : ∀ i, (scheds i).Fair),
      nearMiss os scheds g name G tape = .ok (cs.find? fun c => decide (c.1 ≠ st.out) && !v c.1) := by
    intro os hos scheds hss
    obtain ⟨st', cs', h1', h2', h3', _⟩ := nearMiss_parts hfin hG os scheds g name tape
    rw [h1] at h1'
    cases h1'
    rw [h3] at h3'
    cases h3'
    rw [h2']
    exact nearMissLoop_find (fun i c => hv c (os i) (hos i) (scheds i) (hss i)) _ cs 0
  obtain ⟨r, hr⟩ := (C71_rule hd hcore hor hp hok hG hw hc (fun _ => plainOrders g) (fun _ => plainOrders_fair g) (fun _ => plainSched)
    fun _ => plainSched_fair).1 tape
  have hf := hfind _ (fun _ => plainOrders_fair g) _ fun _ => plainSched_fair
  rw [hr] at hf
  have hf : cs.find? (fun c => decide (c.1 ≠ st.out) && !v c.1) = some r := by simpa using hf.symm
  refine ⟨st, cs, r, h1, h3, List.mem_of_find?_eq_some hf, ?_, fun os hos scheds hss => by rw [hfind os hos scheds hss, hf]⟩
  have := List.find?_some hf
  simp only [Bool.and_eq_true, decide_eq_true_eq] at this
  exact this.1

/-- The hypotheses of C119 and C120 are met by `a = 3*("a" / "aaa")`, on which `IsValid` errs. -/
example : ∃ f h G r0, transitionGraph {} Core.rules early (plainOrder early) (str% "a") = .ok (.ok (f, h)) ∧ newGenerator {} f h = .ok (.ok G) ∧
    (∀ r, Visits {} early (str% "a") r → Plain r) ∧ Resolves early (str% "a") r0 ∧ (∀ r, UsesRule early (str% "a") r → r.written = true) ∧
    PartConsistent early (str% "a") ∧ (∀ r, UsesRule early (str% "a") r → ¬ LeftRecursive early r.name) ∧
    isValid (plainOrders early) plainSched early (str% "a") (bytes% "aaaa") = some (.ok false) ∧ DerivesRule early (str% "a") (bytes% "aaaa") := by
  obtain ⟨f, h, G, e1, e2, _⟩ := genAll_some (t := {}) (o := {}) (g := early) (name := str% "a") (k := fun _ => true) (by decide +kernel)
  obtain ⟨r0, h0, hl⟩ := graph_noLeftRec early_nd ((C61_errors {} early early_nd Core.rules (.refl _) _ (.refl _) _).1 _ e1)
  have huses : ∀ r, UsesRule early (str% "a") r → r ∈ early.rules := by
    intro r hr
    obtain ⟨n, hn, hg⟩ := uses_of early_nd [str% "a"] (by decide +kernel) r hr
    simp only [List.mem_singleton] at hn
    subst hn
    have : getRule (str% "a") early.rules = some early.rules[0] := by decide +kernel
    rw [this] at hg
    cases hg
    exact List.getElem_mem _
  have hcc : CaseConsistent early.strings := by unfold CaseConsistent; decide
  have hwr : ∀ r ∈ early.rules, r.written = true := by decide
  refine ⟨f, h, G, r0, e1, e2, plain_of (by decide +kernel), h0, fun r hr => hwr r (huses r hr), ?_, hl, by decide +kernel,
    derives_of_forest (numValsWF_of (by decide)) early_nd (distinctPrint_of (by decide +kernel)) (by decide +kernel)⟩
  have hmem : ∀ r, UsesRule early (str% "a") r ∨ r ∈ Core.rules → r ∈ early.rules ++ Core.rules := by
    rintro r (hr | hr)
    · exact List.mem_append_left _ (huses r hr)
    · exact List.mem_append_right _ hr
  intro r r' hr hr' p hp q hq
  exact hcc p (List.mem_flatMap.mpr ⟨r, hmem r hr, hp⟩) q (List.mem_flatMap.mpr ⟨r', hmem r' hr', hq⟩)

/-- C119 and C32 fail where two strings differ in case-sensitivity alone: for one tape, `NearMiss` gives `xyb` or, if Go visits a set of two
positions in the other order, the text `xyA` of the rule. -/
theorem C119_fails : ∃ f h G tape, transitionGraph {} Core.rules oddCase (plainOrder oddCase) (str% "a") = .ok (.ok (f, h)) ∧
    newGenerator {} f h = .ok (.ok G) ∧ (plainOrders oddCase).Fair oddCase ∧ plainSched.Fair ∧ backSched.Fair ∧
    (∃ l, nearMiss (fun _ => plainOrders oddCase) (fun _ => plainSched) oddCase (str% "a") G tape = .ok (some (bytes% "xyb", l))) ∧
    (∃ l, nearMiss (fun _ => plainOrders oddCase) (fun _ => backSched) oddCase (str% "a") G tape = .ok (some (bytes% "xyA", l))) ∧
    DerivesRule oddCase (str% "a") (bytes% "xyA") := by
  obtain ⟨f, h, G, e1, e2, e3, e4⟩ := oddCase_run
  exact ⟨f, h, G, _, e1, e2, plainOrders_fair _, plainSched_fair, backSched_fair, e3, e4, oddCase_text⟩

end Props

end Verif
