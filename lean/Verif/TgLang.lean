import Mathlib.Data.Finset.Card
import Verif.Tg
import Verif.GenLemmas

/-!
# The language of a transition graph
-/

namespace Verif

open Spec

/-- What can be read from node `n` on: each node contributes a word `D` allows for its element, and the last node is an
end point. -/
inductive Spells (D : Elem → Bytes → Prop) (h : TgHeap) (outs : Pts) : Nat → Bytes → Prop
  | stop (n w) : some n ∈ outs → D (h.elem n) w → Spells D h outs n w
  | step (n m u v) : D (h.elem n) u → m ∈ h.nexts n → Spells D h outs m v → Spells D h outs n (u ++ v)

/-- The words spelled by the paths from an entry point to an end point; `emptyNode`, as both, spells the empty word. -/
def GraphWord (D : Elem → Bytes → Prop) (h : TgHeap) (f : TgFrag) (w : Bytes) : Prop :=
  (none ∈ f.ins ∧ none ∈ f.outs ∧ w = []) ∨ ∃ n, some n ∈ f.ins ∧ Spells D h f.outs n w

/-! ## Languages -/

/-- The concatenations of `n` words. -/
def LTimes (L : Bytes → Prop) : Nat → Bytes → Prop
  | 0, w => w = []
  | n + 1, w => ∃ u v, w = u ++ v ∧ L u ∧ LTimes L n v

/-- A word of the one followed by a word of the other. -/
def LCat (L L' : Bytes → Prop) (w : Bytes) : Prop := ∃ u v, w = u ++ v ∧ L u ∧ L' v

theorem ltimes_add (L : Bytes → Prop) (m n : Nat) : ∀ w, LTimes L (m + n) w ↔ LCat (LTimes L m) (LTimes L n) w := by
  induction m with
  | zero =>
    intro w
    rw [Nat.zero_add]
    constructor
    · intro h; exact ⟨[], w, rfl, rfl, h⟩
    · rintro ⟨u, v, rfl, hu, hv⟩
      rw [LTimes] at hu
      subst hu
      exact hv
  | succ m ih =>
    intro w
    rw [show m + 1 + n = (m + n) + 1 by omega]
    constructor
    · rintro ⟨u, v, rfl, hu, hv⟩
      obtain ⟨v1, v2, rfl, h1, h2⟩ := (ih v).mp hv
      exact ⟨u ++ v1, v2, by simp, ⟨u, v1, rfl, hu, h1⟩, h2⟩
    · rintro ⟨x, y, rfl, ⟨u, v, rfl, hu, hv⟩, hy⟩
      exact ⟨u, v ++ y, by simp, hu, (ih _).mpr ⟨v, y, rfl, hv, hy⟩⟩

theorem ltimes_one (L : Bytes → Prop) (w : Bytes) : LTimes L 1 w ↔ L w := by
  constructor
  · rintro ⟨u, v, rfl, hu, hv⟩
    rw [LTimes] at hv
    subst hv
    simpa using hu
  · intro h; exact ⟨w, [], by simp, h, rfl⟩

theorem ltimes_pad {L : Bytes → Prop} (h : L []) {m n : Nat} (hmn : m ≤ n) {w : Bytes} (hw : LTimes L m w) : LTimes L n w := by
  induction hmn with
  | refl => exact hw
  | step _ ih => exact ⟨[], w, rfl, h, ih⟩

theorem ltimes_congr {L L' : Bytes → Prop} (h : ∀ w, L w ↔ L' w) (n : Nat) (w : Bytes) : LTimes L n w ↔ LTimes L' n w := by
  rw [show L = L' from funext fun w => propext (h w)]

theorem derivesTimes_iff (g : Grammar) (e : Elem) (n : Nat) : ∀ w, DerivesTimes g e n w ↔ LTimes (Derives g e) n w := by
  induction n with
  | zero =>
    intro w
    constructor
    · intro h; cases h; rfl
    · intro h; rw [LTimes] at h; subst h; exact .zero e
  | succ n ih =>
    intro w
    constructor
    · intro h
      cases h with
      | succ _ _ u v h1 h2 => exact ⟨u, v, rfl, h1, (ih v).mp h2⟩
    · rintro ⟨u, v, rfl, h1, h2⟩
      exact .succ e n u v h1 ((ih v).mpr h2)

/-! ## Plugging -/

theorem mem_appendNodes {α : Type} [DecidableEq α] (news : List α) : ∀ (existing : List α) (x : α),
    x ∈ appendNodes existing news ↔ x ∈ existing ∨ x ∈ news := by
  induction news with
  | nil => intro e x; simp [appendNodes]
  | cons n news ih =>
    intro e x
    rw [appendNodes, ih]
    by_cases h : n ∈ e
    · rw [if_pos h, List.mem_cons]
      constructor
      · rintro (h1 | h1)
        · exact .inl h1
        · exact .inr (.inr h1)
      · rintro (h1 | rfl | h1)
        · exact .inl h1
        · exact .inl h
        · exact .inr h1
    · rw [if_neg h, List.mem_append, List.mem_singleton, List.mem_cons, or_assoc]

theorem mem_noEmpty {l : Pts} {n : Nat} : some n ∈ noEmpty l ↔ some n ∈ l := by simp [noEmpty]

theorem none_noEmpty {l : Pts} : none ∉ noEmpty l := by simp [noEmpty]

theorem mem_filterMap_id {l : Pts} {n : Nat} : n ∈ l.filterMap id ↔ some n ∈ l := by simp

theorem mem_allOuts (tgs : List TgFrag) : ∀ (acc : Pts) (x : Option Nat),
    x ∈ allOuts acc tgs ↔ x ∈ acc ∨ ∃ tg ∈ tgs, x ∈ tg.outs := by
  induction tgs with
  | nil => intro acc x; simp [allOuts]
  | cons tg tgs ih =>
    intro acc x
    rw [allOuts, ih, mem_appendNodes]
    simp only [List.mem_cons, exists_eq_or_imp, or_assoc]

/-- `h'` is `h` with edges from all of `outs` to all of `ins`. -/
structure Plugged (h h' : TgHeap) (outs ins : Pts) : Prop where
  size : h'.size = h.size
  elem : ∀ n, h'.elem n = h.elem n
  nexts : ∀ n m, m ∈ h'.nexts n ↔ m ∈ h.nexts n ∨ (some n ∈ outs ∧ some m ∈ ins)

theorem plug_step {h h' h'' : TgHeap} {o : Nat} {os ins : Pts} (h1 : h'.size = h.size) (h2 : ∀ n, h'.elem n = h.elem n)
    (h3 : ∀ n m, m ∈ h'.nexts n ↔ m ∈ h.nexts n ∨ (n = o ∧ some m ∈ ins)) (h4 : Plugged h' h'' os ins) :
    Plugged h h'' (some o :: os) ins where
  size := by rw [h4.size, h1]
  elem n := by rw [h4.elem, h2]
  nexts n m := by
    rw [h4.nexts, h3, List.mem_cons, Option.some.injEq]
    tauto

theorem plugAppend_plugged (ins : Pts) (outs : Pts) : ∀ h, Plugged h (plugAppend ins outs h) outs ins := by
  induction outs with
  | nil => intro h; exact ⟨rfl, fun _ => rfl, fun n m => by simp [plugAppend]⟩
  | cons o outs ih =>
    intro h
    cases o with
    | none =>
      have := ih h
      exact ⟨this.size, this.elem, fun n m => by rw [plugAppend, this.nexts]; simp⟩
    | some o =>
      refine plug_step (h' := h.setNexts o (h.nexts o ++ ins.filterMap id)) rfl (fun _ => rfl) (fun n m => ?_) (ih _)
      simp only [TgHeap.setNexts]
      split_ifs with e
      · rw [e, List.mem_append, mem_filterMap_id]; simp
      · simp [e]

theorem plugNodes_plugged (ins : Pts) (outs : Pts) : ∀ h, Plugged h (plugNodes ins outs h) outs ins := by
  induction outs with
  | nil => intro h; exact ⟨rfl, fun _ => rfl, fun n m => by simp [plugNodes]⟩
  | cons o outs ih =>
    intro h
    cases o with
    | none =>
      have := ih h
      exact ⟨this.size, this.elem, fun n m => by rw [plugNodes, this.nexts]; simp⟩
    | some o =>
      refine plug_step (h' := h.setNexts o (appendNodes (h.nexts o) (ins.filterMap id))) rfl (fun _ => rfl) (fun n m => ?_) (ih _)
      simp only [TgHeap.setNexts]
      split_ifs with e
      · rw [e, mem_appendNodes, mem_filterMap_id]; simp
      · simp [e]

theorem plugged_congr {h h' : TgHeap} {o o' i i' : Pts} (H : Plugged h h' o i) (ho : ∀ n, some n ∈ o ↔ some n ∈ o')
    (hi : ∀ n, some n ∈ i ↔ some n ∈ i') : Plugged h h' o' i' :=
  ⟨H.size, H.elem, fun n m => by rw [H.nexts, ho, hi]⟩

/-! ## Reading in a region -/

/-- No edge leaves `R`. -/
def ClosedIn (h : TgHeap) (R : Finset Nat) : Prop := ∀ n ∈ R, ∀ m ∈ h.nexts n, m ∈ R

/-- The heaps have the same nodes in `R`. -/
def Agree (R : Nat → Prop) (h h' : TgHeap) : Prop := ∀ n, R n → h'.elem n = h.elem n ∧ ∀ m, m ∈ h'.nexts n ↔ m ∈ h.nexts n

variable {D : Elem → Bytes → Prop}

theorem spells_congr {h h' : TgHeap} {R : Finset Nat} {outs outs' : Pts} (hc : ClosedIn h R) (ha : Agree (· ∈ R) h h')
    (ho : ∀ n ∈ R, some n ∈ outs' ↔ some n ∈ outs) {n : Nat} (hn : n ∈ R) (w : Bytes) :
    Spells D h' outs' n w ↔ Spells D h outs n w := by
  constructor
  · intro H
    induction H with
    | stop n w h1 h2 => exact .stop n w ((ho n hn).mp h1) ((ha n hn).1 ▸ h2)
    | step n m u v h1 h2 _ ih =>
      have h2' := ((ha n hn).2 m).mp h2
      exact .step n m u v ((ha n hn).1 ▸ h1) h2' (ih (hc n hn m h2'))
  · intro H
    induction H with
    | stop n w h1 h2 => exact .stop n w ((ho n hn).mpr h1) (by rw [(ha n hn).1]; exact h2)
    | step n m u v h1 h2 _ ih =>
      exact .step n m u v (by rw [(ha n hn).1]; exact h1) (((ha n hn).2 m).mpr h2) (ih (hc n hn m h2))

/-- A word read from an entry point. -/
def NodeWord (D : Elem → Bytes → Prop) (h : TgHeap) (ins outs : Pts) (w : Bytes) : Prop :=
  ∃ n, some n ∈ ins ∧ Spells D h outs n w

section
variable {h h' : TgHeap} {R1 R2 : Finset Nat} {O I A B outs : Pts}

/-- Reading from the second part on, after plugging. -/
theorem plug_second (hp : Plugged h h' O I) (hd : Disjoint R1 R2) (h2 : ClosedIn h R2) (hO : ∀ n, some n ∈ O → n ∈ R1)
    (ho : ∀ n ∈ R2, some n ∈ outs ↔ some n ∈ B) {n : Nat} (hn : n ∈ R2) (w : Bytes) :
    Spells D h' outs n w ↔ Spells D h B n w := by
  refine spells_congr h2 (fun k hk => ⟨hp.elem k, fun m => ?_⟩) ho hn w
  rw [hp.nexts]
  constructor
  · rintro (h | ⟨h, _⟩)
    · exact h
    · exact absurd hk (Finset.disjoint_left.mp hd (hO k h))
  · exact .inl

/-- Reading from the first part on, after plugging. -/
theorem plug_first (hp : Plugged h h' O I) (hd : Disjoint R1 R2) (h1 : ClosedIn h R1) (h2 : ClosedIn h R2)
    (hO : ∀ n, some n ∈ O → n ∈ R1) (hI : ∀ n, some n ∈ I → n ∈ R2)
    (hA : ∀ n ∈ R1, some n ∈ outs ↔ some n ∈ A) (hB : ∀ n ∈ R2, some n ∈ outs ↔ some n ∈ B)
    {n : Nat} (hn : n ∈ R1) (w : Bytes) :
    Spells D h' outs n w ↔ Spells D h A n w ∨ LCat (Spells D h O n) (NodeWord D h I B) w := by
  constructor
  · intro H
    induction H with
    | stop n w ha hw => exact .inl (.stop n w ((hA n hn).mp ha) (hp.elem n ▸ hw))
    | step n m u v hu hm hv ih =>
      have hu' : D (h.elem n) u := hp.elem n ▸ hu
      rcases (hp.nexts n m).mp hm with hm | ⟨hno, hmi⟩
      · rcases ih (h1 n hn m hm) with h3 | ⟨x, y, rfl, h3, h4⟩
        · exact .inl (.step n m u v hu' hm h3)
        · exact .inr ⟨u ++ x, y, by simp, .step n m u x hu' hm h3, h4⟩
      · exact .inr ⟨u, v, rfl, .stop n u hno hu', m, hmi, (plug_second hp hd h2 hO hB (hI m hmi) v).mp hv⟩
  · rintro (H | ⟨x, y, rfl, H, m, hmi, hy⟩)
    · induction H with
      | stop n w ha hw => exact .stop n w ((hA n hn).mpr ha) (by rw [hp.elem]; exact hw)
      | step n m u v hu hm _ ih =>
        exact .step n m u v (by rw [hp.elem]; exact hu) ((hp.nexts n m).mpr (.inl hm)) (ih (h1 n hn m hm))
    · have hy' := (plug_second hp hd h2 hO hB (hI m hmi) y).mpr hy
      induction H with
      | stop n w ha hw => exact .step n m w y (by rw [hp.elem]; exact hw) ((hp.nexts n m).mpr (.inr ⟨ha, hmi⟩)) hy'
      | step n k u v hu hm _ ih =>
        rw [List.append_assoc]
        exact .step n k u (v ++ y) (by rw [hp.elem]; exact hu) ((hp.nexts n k).mpr (.inl hm)) (ih (h1 n hn k hm))

/-- Reading in a loop. -/
theorem plug_loop {R : Finset Nat} (hp : Plugged h h' O I) (h1 : ClosedIn h R) (hI : ∀ n, some n ∈ I → n ∈ R)
    {n : Nat} (hn : n ∈ R) (w : Bytes) :
    Spells D h' O n w ↔ ∃ k, LCat (Spells D h O n) (LTimes (NodeWord D h I O) k) w := by
  constructor
  · intro H
    induction H with
    | stop n w ha hw => exact ⟨0, w, [], by simp, .stop n w ha (hp.elem n ▸ hw), rfl⟩
    | step n m u v hu hm hv ih =>
      have hu' : D (h.elem n) u := hp.elem n ▸ hu
      rcases (hp.nexts n m).mp hm with hm | ⟨hno, hmi⟩
      · obtain ⟨k, x, y, rfl, h3, h4⟩ := ih (h1 n hn m hm)
        exact ⟨k, u ++ x, y, by simp, .step n m u x hu' hm h3, h4⟩
      · obtain ⟨k, x, y, rfl, h3, h4⟩ := ih (hI m hmi)
        exact ⟨k + 1, u, x ++ y, rfl, .stop n u hno hu', x, y, rfl, ⟨m, hmi, h3⟩, h4⟩
  · rintro ⟨k, x, y, rfl, H, hy⟩
    induction k generalizing n x y with
    | zero =>
      rw [LTimes] at hy
      subst hy
      rw [List.append_nil]
      clear hn
      induction H with
      | stop n w ha hw => exact .stop n w ha (by rw [hp.elem]; exact hw)
      | step n k u v hu hm _ ih =>
        exact .step n k u v (by rw [hp.elem]; exact hu) ((hp.nexts n k).mpr (.inl hm)) ih
    | succ k ih =>
      obtain ⟨y1, y2, rfl, ⟨m, hmi, hm⟩, hy2⟩ := hy
      have hy' := ih (hI m hmi) y1 y2 hm hy2
      clear hn
      induction H with
      | stop n w ha hw => exact .step n m w _ (by rw [hp.elem]; exact hw) ((hp.nexts n m).mpr (.inr ⟨ha, hmi⟩)) hy'
      | step n k u v hu hm _ ih =>
        rw [List.append_assoc]
        exact .step n k u _ (by rw [hp.elem]; exact hu) ((hp.nexts n k).mpr (.inl hm)) ih
end

theorem not_spells_nil {h : TgHeap} (n : Nat) (w : Bytes) : ¬ Spells D h [] n w := by
  intro H
  induction H with
  | stop _ _ h1 => cases h1
  | step _ _ _ _ _ _ _ ih => exact ih

/-! ## Fragments -/

/-- What a node may carry: no group, option or prose. -/
def leafElem : Elem → Bool
  | .rulename _ | .charVal _ _ | .numVal _ _ _ => true
  | .group _ | .option _ | .proseVal _ => false

/-- A graph made of nodes of `R` only, spelling the words of `L`. -/
structure FragOK (D : Elem → Bytes → Prop) (h : TgHeap) (R : Finset Nat) (f : TgFrag) (L : Bytes → Prop) : Prop where
  ins : ∀ n, some n ∈ f.ins → n ∈ R
  outs : ∀ n, some n ∈ f.outs → n ∈ R
  closed : ClosedIn h R
  bound : ∀ n ∈ R, n < h.size
  leaf : ∀ n ∈ R, leafElem (h.elem n) = true
  empty : none ∈ f.ins → none ∈ f.outs
  lang : ∀ w, L w ↔ (none ∈ f.ins ∧ w = []) ∨ NodeWord D h f.ins f.outs w

theorem FragOK.graphWord {h : TgHeap} {R : Finset Nat} {f : TgFrag} {L : Bytes → Prop} (H : FragOK D h R f L) (w : Bytes) :
    GraphWord D h f w ↔ L w := by
  rw [H.lang]
  constructor
  · rintro (⟨h1, _, h2⟩ | h1)
    · exact .inl ⟨h1, h2⟩
    · exact .inr h1
  · rintro (⟨h1, h2⟩ | h1)
    · exact .inl ⟨h1, H.empty h1, h2⟩
    · exact .inr h1

theorem FragOK.congr {h : TgHeap} {R : Finset Nat} {f : TgFrag} {L L' : Bytes → Prop} (H : FragOK D h R f L)
    (hL : ∀ w, L' w ↔ L w) : FragOK D h R f L' :=
  { H with lang := fun w => (hL w).trans (H.lang w) }

/-- Other lists of the same nodes do as well. -/
theorem FragOK.pts {h : TgHeap} {R : Finset Nat} {f f' : TgFrag} {L : Bytes → Prop} (H : FragOK D h R f L)
    (hi : ∀ x, x ∈ f'.ins ↔ x ∈ f.ins) (ho : ∀ x, x ∈ f'.outs ↔ x ∈ f.outs) : FragOK D h R f' L where
  ins n hn := H.ins n ((hi _).mp hn)
  outs n hn := H.outs n ((ho _).mp hn)
  closed := H.closed
  bound := H.bound
  leaf := H.leaf
  empty hn := (ho _).mpr (H.empty ((hi _).mp hn))
  lang w := by
    rw [H.lang, hi none]
    refine or_congr Iff.rfl (exists_congr fun n => ?_)
    rw [hi]
    refine and_congr_right fun hn => ?_
    exact (spells_congr H.closed (fun _ _ => ⟨rfl, fun _ => Iff.rfl⟩) (fun n _ => ho _) (H.ins n hn) w).symm

/-- A graph does not notice changes outside its nodes. -/
theorem FragOK.frame {h h' : TgHeap} {R : Finset Nat} {f : TgFrag} {L : Bytes → Prop} (H : FragOK D h R f L)
    (ha : Agree (· ∈ R) h h') (hs : h.size ≤ h'.size) : FragOK D h' R f L where
  ins := H.ins
  outs := H.outs
  closed n hn m hm := H.closed n hn m (((ha n hn).2 m).mp hm)
  bound n hn := Nat.lt_of_lt_of_le (H.bound n hn) hs
  leaf n hn := by rw [(ha n hn).1]; exact H.leaf n hn
  empty := H.empty
  lang w := by
    rw [H.lang]
    refine or_congr Iff.rfl (exists_congr fun n => and_congr_right fun hn => ?_)
    exact (spells_congr H.closed ha (fun _ _ => Iff.rfl) (H.ins n hn) w).symm

section
variable {h h' : TgHeap} {R1 R2 : Finset Nat} {f1 f2 : TgFrag} {L1 L2 : Bytes → Prop}

theorem plugged_closed {O I : Pts} (hp : Plugged h h' O I) (c1 : ClosedIn h R1) (c2 : ClosedIn h R2)
    (hI : ∀ n, some n ∈ I → n ∈ R2) : ClosedIn h' (R1 ∪ R2) := by
  intro n hn m hm
  rw [Finset.mem_union] at hn ⊢
  rcases (hp.nexts n m).mp hm with hm | ⟨h1, h2⟩
  · rcases hn with hn | hn
    · exact .inl (c1 n hn m hm)
    · exact .inr (c2 n hn m hm)
  · exact .inr (hI m h2)

/-- Concatenation. -/
theorem concat_ok (H1 : FragOK D h R1 f1 L1) (H2 : FragOK D h R2 f2 L2) (hd : Disjoint R1 R2)
    (hp : Plugged h h' f1.outs f2.ins) {f : TgFrag} (hf : f = (concatTG f1 f2 h).1) :
    FragOK D h' (R1 ∪ R2) f (LCat L1 L2) ∧ (none ∈ f.ins ↔ none ∈ f1.ins ∧ none ∈ f2.ins) := by
  subst hf
  have hins : ∀ n, some n ∈ (concatTG f1 f2 h).1.ins ↔ some n ∈ f1.ins ∨ (none ∈ f1.ins ∧ some n ∈ f2.ins) := by
    intro n
    simp only [concatTG]
    split_ifs with e
    · rw [List.mem_append, mem_noEmpty]; simp [e]
    · simp [e]
  have hnone : none ∈ (concatTG f1 f2 h).1.ins ↔ none ∈ f1.ins ∧ none ∈ f2.ins := by
    simp only [concatTG]
    split_ifs with e
    · rw [List.mem_append]; simp [e, none_noEmpty]
    · simp [e]
  have houts : ∀ n, some n ∈ (concatTG f1 f2 h).1.outs ↔ (none ∈ f2.ins ∧ some n ∈ f1.outs) ∨ some n ∈ f2.outs := by
    intro n
    simp only [concatTG, List.mem_append, mem_noEmpty]
    split_ifs with e
    · simp [e]
    · simp [e]
  have hdj := Finset.disjoint_left.mp hd
  have hA : ∀ n ∈ R1, some n ∈ (concatTG f1 f2 h).1.outs ↔ some n ∈ (if none ∈ f2.ins then f1.outs else []) := by
    intro n hn
    rw [houts]
    have : some n ∉ f2.outs := fun h3 => hdj hn (H2.outs n h3)
    split_ifs with e <;> simp [e, this]
  have hB : ∀ n ∈ R2, some n ∈ (concatTG f1 f2 h).1.outs ↔ some n ∈ f2.outs := by
    intro n hn
    rw [houts]
    have : some n ∉ f1.outs := fun h3 => hdj (H1.outs n h3) hn
    simp [this]
  refine ⟨⟨?_, ?_, plugged_closed hp H1.closed H2.closed H2.ins, ?_, ?_, ?_, ?_⟩, hnone⟩
  · intro n hn
    rw [Finset.mem_union]
    rcases (hins n).mp hn with h1 | ⟨_, h1⟩
    · exact .inl (H1.ins n h1)
    · exact .inr (H2.ins n h1)
  · intro n hn
    rw [Finset.mem_union]
    rcases (houts n).mp hn with ⟨_, h1⟩ | h1
    · exact .inl (H1.outs n h1)
    · exact .inr (H2.outs n h1)
  · intro n hn
    rw [hp.size]
    rcases Finset.mem_union.mp hn with h1 | h1
    · exact H1.bound n h1
    · exact H2.bound n h1
  · intro n hn
    rw [hp.elem]
    exact (Finset.mem_union.mp hn).elim (H1.leaf n) (H2.leaf n)
  · intro hn
    rw [hnone] at hn
    simp only [concatTG, List.mem_append, if_pos hn.2]
    exact .inl (H1.empty hn.1)
  · intro w
    have first : ∀ n, some n ∈ f1.ins → (Spells D h' (concatTG f1 f2 h).1.outs n w ↔
        Spells D h (if none ∈ f2.ins then f1.outs else []) n w ∨ LCat (Spells D h f1.outs n) (NodeWord D h f2.ins f2.outs) w) :=
      fun n hn => plug_first hp hd H1.closed H2.closed H1.outs H2.ins hA hB (H1.ins n hn) w
    have second : ∀ n, some n ∈ f2.ins → (Spells D h' (concatTG f1 f2 h).1.outs n w ↔ Spells D h f2.outs n w) :=
      fun n hn => plug_second hp hd H2.closed H1.outs hB (H2.ins n hn) w
    rw [hnone]
    constructor
    · rintro ⟨u, v, rfl, hu, hv⟩
      rcases (H1.lang u).mp hu with ⟨e1, rfl⟩ | ⟨n, hn, hu⟩
      · rcases (H2.lang v).mp hv with ⟨e2, rfl⟩ | ⟨m, hm, hv⟩
        · exact .inl ⟨⟨e1, e2⟩, rfl⟩
        · exact .inr ⟨m, (hins m).mpr (.inr ⟨e1, hm⟩), (second m hm).mpr hv⟩
      · refine .inr ⟨n, (hins n).mpr (.inl hn), (first n hn).mpr ?_⟩
        rcases (H2.lang v).mp hv with ⟨e2, rfl⟩ | hv
        · left
          rw [if_pos e2, List.append_nil]
          exact hu
        · exact .inr ⟨u, v, rfl, hu, hv⟩
    · rintro (⟨⟨e1, e2⟩, rfl⟩ | ⟨n, hn, hw⟩)
      · exact ⟨[], [], rfl, (H1.lang _).mpr (.inl ⟨e1, rfl⟩), (H2.lang _).mpr (.inl ⟨e2, rfl⟩)⟩
      · rcases (hins n).mp hn with hn | ⟨e1, hn⟩
        · rcases (first n hn).mp hw with hw | ⟨u, v, rfl, hu, hv⟩
          · by_cases e2 : none ∈ f2.ins
            · rw [if_pos e2] at hw
              exact ⟨w, [], by simp, (H1.lang _).mpr (.inr ⟨n, hn, hw⟩), (H2.lang _).mpr (.inl ⟨e2, rfl⟩)⟩
            · rw [if_neg e2] at hw
              exact absurd hw (not_spells_nil n w)
          · exact ⟨u, v, rfl, (H1.lang _).mpr (.inr ⟨n, hn, hu⟩), (H2.lang _).mpr (.inr hv)⟩
        · exact ⟨[], w, rfl, (H1.lang _).mpr (.inl ⟨e1, rfl⟩), (H2.lang _).mpr (.inr ⟨n, hn, (second n hn).mp hw⟩)⟩

/-- Alternatives. -/
theorem alt_ok (H1 : FragOK D h R1 f1 L1) (H2 : FragOK D h R2 f2 L2) (hd : Disjoint R1 R2) :
    FragOK D h (R1 ∪ R2) (altMerge f1 f2) (fun w => L1 w ∨ L2 w) := by
  have hins : ∀ x, x ∈ (altMerge f1 f2).ins ↔ x ∈ f1.ins ∨ x ∈ f2.ins := by
    intro x
    simp only [altMerge, List.mem_append]
    split_ifs with e
    · cases x with
      | none => simp [e, none_noEmpty]
      | some n => rw [mem_noEmpty]
    · rfl
  have houts : ∀ x, x ∈ (altMerge f1 f2).outs ↔ x ∈ f1.outs ∨ x ∈ f2.outs := by
    intro x
    simp only [altMerge, List.mem_append]
    split_ifs with e
    · cases x with
      | none => simp [e, none_noEmpty]
      | some n => rw [mem_noEmpty]
    · rfl
  have hdj := Finset.disjoint_left.mp hd
  have first : ∀ n ∈ R1, ∀ w, Spells D h (altMerge f1 f2).outs n w ↔ Spells D h f1.outs n w := fun n hn w =>
    spells_congr H1.closed (fun _ _ => ⟨rfl, fun _ => Iff.rfl⟩)
      (fun m hm => by rw [houts]; exact ⟨fun h3 => h3.resolve_right fun h4 => hdj hm (H2.outs m h4), .inl⟩) hn w
  have second : ∀ n ∈ R2, ∀ w, Spells D h (altMerge f1 f2).outs n w ↔ Spells D h f2.outs n w := fun n hn w =>
    spells_congr H2.closed (fun _ _ => ⟨rfl, fun _ => Iff.rfl⟩)
      (fun m hm => by rw [houts]; exact ⟨fun h3 => h3.resolve_left fun h4 => hdj (H1.outs m h4) hm, .inr⟩) hn w
  refine ⟨?_, ?_, ?_, ?_, fun n hn => (Finset.mem_union.mp hn).elim (H1.leaf n) (H2.leaf n), ?_, ?_⟩
  · intro n hn
    rw [Finset.mem_union]
    exact ((hins _).mp hn).imp (H1.ins n) (H2.ins n)
  · intro n hn
    rw [Finset.mem_union]
    exact ((houts _).mp hn).imp (H1.outs n) (H2.outs n)
  · intro n hn m hm
    rw [Finset.mem_union] at hn ⊢
    exact hn.imp (fun hn => H1.closed n hn m hm) (fun hn => H2.closed n hn m hm)
  · intro n hn
    rcases Finset.mem_union.mp hn with h1 | h1
    · exact H1.bound n h1
    · exact H2.bound n h1
  · intro hn
    rw [houts]
    exact ((hins _).mp hn).imp H1.empty H2.empty
  · intro w
    rw [H1.lang, H2.lang, hins]
    constructor
    · rintro ((⟨h1, rfl⟩ | ⟨n, h1, h2⟩) | (⟨h1, rfl⟩ | ⟨n, h1, h2⟩))
      · exact .inl ⟨.inl h1, rfl⟩
      · exact .inr ⟨n, (hins _).mpr (.inl h1), (first n (H1.ins n h1) w).mpr h2⟩
      · exact .inl ⟨.inr h1, rfl⟩
      · exact .inr ⟨n, (hins _).mpr (.inr h1), (second n (H2.ins n h1) w).mpr h2⟩
    · rintro (⟨h1 | h1, rfl⟩ | ⟨n, h1, h2⟩)
      · exact .inl (.inl ⟨h1, rfl⟩)
      · exact .inr (.inl ⟨h1, rfl⟩)
      · rcases (hins _).mp h1 with h1 | h1
        · exact .inl (.inr ⟨n, h1, (first n (H1.ins n h1) w).mp h2⟩)
        · exact .inr (.inr ⟨n, h1, (second n (H2.ins n h1) w).mp h2⟩)
end

/-- No word at all. -/
theorem never_ok (h : TgHeap) : FragOK D h ∅ {} (fun _ => False) :=
  ⟨by simp, by simp, by simp [ClosedIn], by simp, by simp, by simp, by simp [NodeWord]⟩

/-- The empty word. -/
theorem empty_ok (h : TgHeap) : FragOK D h ∅ ⟨[none], [none]⟩ (· = []) :=
  ⟨by simp, by simp, by simp [ClosedIn], by simp, by simp, by simp, by simp [NodeWord]⟩

/-- `emptyNode` added to both ends. -/
theorem FragOK.opt {h : TgHeap} {R : Finset Nat} {f f' : TgFrag} {L : Bytes → Prop} (H : FragOK D h R f L)
    (hi : ∀ x, x ∈ f'.ins ↔ x = none ∨ x ∈ f.ins) (ho : ∀ x, x ∈ f'.outs ↔ x = none ∨ x ∈ f.outs) :
    FragOK D h R f' (fun w => w = [] ∨ L w) where
  ins n hn := H.ins n (((hi _).mp hn).resolve_left (by simp))
  outs n hn := H.outs n (((ho _).mp hn).resolve_left (by simp))
  closed := H.closed
  bound := H.bound
  leaf := H.leaf
  empty _ := (ho _).mpr (.inl rfl)
  lang w := by
    have hs : ∀ n ∈ R, Spells D h f'.outs n w ↔ Spells D h f.outs n w := fun n hn =>
      spells_congr H.closed (fun _ _ => ⟨rfl, fun _ => Iff.rfl⟩) (fun n _ => by rw [ho]; simp) hn w
    rw [H.lang]
    constructor
    · rintro (rfl | ⟨_, rfl⟩ | ⟨n, h1, h2⟩)
      · exact .inl ⟨(hi _).mpr (.inl rfl), rfl⟩
      · exact .inl ⟨(hi _).mpr (.inl rfl), rfl⟩
      · exact .inr ⟨n, (hi _).mpr (.inr h1), (hs n (H.ins n h1)).mpr h2⟩
    · rintro (⟨_, rfl⟩ | ⟨n, h1, h2⟩)
      · exact .inl rfl
      · have h1' := ((hi _).mp h1).resolve_left (by simp)
        exact .inr (.inr ⟨n, h1', (hs n (H.ins n h1')).mp h2⟩)

/-- The loop: one or more words. -/
theorem FragOK.loop {h h' : TgHeap} {R : Finset Nat} {f : TgFrag} {L : Bytes → Prop} (H : FragOK D h R f L)
    (hp : Plugged h h' f.outs f.ins) : FragOK D h' R f (fun w => ∃ k, LTimes L (k + 1) w) where
  ins := H.ins
  outs := H.outs
  closed n hn m hm := by
    rcases (hp.nexts n m).mp hm with hm | ⟨_, hm⟩
    · exact H.closed n hn m hm
    · exact H.ins m hm
  bound n hn := by rw [hp.size]; exact H.bound n hn
  leaf n hn := by rw [hp.elem]; exact H.leaf n hn
  empty := H.empty
  lang w := by
    have hs : ∀ n, some n ∈ f.ins → (Spells D h' f.outs n w ↔
        ∃ k, LCat (Spells D h f.outs n) (LTimes (NodeWord D h f.ins f.outs) k) w) :=
      fun n hn => plug_loop hp H.closed H.ins (H.ins n hn) w
    have hsub : ∀ w, NodeWord D h f.ins f.outs w → L w := fun w hw => (H.lang w).mpr (.inr hw)
    have hmono : ∀ k w, LTimes (NodeWord D h f.ins f.outs) k w → LTimes L k w := by
      intro k
      induction k with
      | zero => exact fun w hw => hw
      | succ k ih => rintro w ⟨u, v, rfl, hu, hv⟩; exact ⟨u, v, rfl, hsub u hu, ih v hv⟩
    have hshrink : ∀ k w, LTimes L k w → ∃ j, LTimes (NodeWord D h f.ins f.outs) j w ∧ (j = 0 → 0 < k → none ∈ f.ins) := by
      intro k
      induction k with
      | zero => intro w hw; exact ⟨0, hw, fun _ h0 => absurd h0 (by omega)⟩
      | succ k ih =>
        rintro w ⟨u, v, rfl, hu, hv⟩
        obtain ⟨j, hj, hn⟩ := ih v hv
        rcases (H.lang u).mp hu with ⟨e, rfl⟩ | hu
        · exact ⟨j, hj, fun _ _ => e⟩
        · exact ⟨j + 1, ⟨u, v, rfl, hu, hj⟩, fun h0 => absurd h0 (by omega)⟩
    constructor
    · rintro ⟨k, hk⟩
      obtain ⟨j, hj, hn⟩ := hshrink _ w hk
      cases j with
      | zero => exact .inl ⟨hn rfl (by omega), hj⟩
      | succ j =>
        obtain ⟨u, v, rfl, ⟨n, h1, h2⟩, h3⟩ := hj
        exact .inr ⟨n, h1, (hs n h1).mpr ⟨j, u, v, rfl, h2, h3⟩⟩
    · rintro (⟨e, rfl⟩ | ⟨n, h1, h2⟩)
      · exact ⟨0, [], [], rfl, (H.lang _).mpr (.inl ⟨e, rfl⟩), rfl⟩
      · obtain ⟨k, u, v, rfl, h3, h4⟩ := (hs n h1).mp h2
        exact ⟨k, u, v, rfl, hsub u ⟨n, h1, h3⟩, hmono k v h4⟩

end Verif
