import Verif.RegexRender
import Verif.PropsTarjan

/-! # Lemmas: the builder makes trees with the language of the elements -/

namespace Verif
open Spec

/-! ## Derived words are texts -/

theorem utf8_nil : utf8 [] = [] := rfl
theorem utf8_append (a b : List Char) : utf8 (a ++ b) = utf8 a ++ utf8 b := by simp [utf8]

theorem utf8_inj {a b : List Char} (h : utf8 a = utf8 b) : a = b := by
  rw [← encodeAll_eq_utf8, ← encodeAll_eq_utf8] at h
  exact encodeAll_inj h

/-- A word is a text. -/
def IsText (w : Bytes) : Prop := ∃ cs, w = utf8 cs

theorem isText_append {u v : Bytes} (hu : IsText u) (hv : IsText v) : IsText (u ++ v) := by
  obtain ⟨a, rfl⟩ := hu
  obtain ⟨b, rfl⟩ := hv
  exact ⟨a ++ b, (utf8_append a b).symm⟩

theorem derives_isText {g : Grammar} {e : Elem} {w : Bytes} (h : Derives g e w) : IsText w := by
  refine Derives.rec (g := g) (motive_1 := fun _ w _ => IsText w) (motive_2 := fun _ w _ => IsText w)
    (motive_3 := fun _ w _ => IsText w) (motive_4 := fun _ w _ => IsText w) (motive_5 := fun _ _ w _ => IsText w)
    ?_ ?_ ?_ ?_ ?_ ?_ ?_ ?_ ?_ ?_ ?_ h
  · intro _ _ _ _ _ h; exact h
  · intro _ _ _ h; exact h
  · intro _; exact ⟨[], rfl⟩
  · intro _ _ _ h; exact h
  · intro _ cs _; exact ⟨cs, rfl⟩
  · intro _ _ _ _ _ h; exact h
  · exact ⟨[], rfl⟩
  · intro _ _ _ _ _ _ h1 h2; exact isText_append h1 h2
  · intro _ _ _ _ _ _ _ _ h; exact h
  · intro _; exact ⟨[], rfl⟩
  · intro _ _ _ _ _ _ h1 h2; exact isText_append h1 h2

theorem derivesTimes_isText {g : Grammar} {e : Elem} {n : Nat} {w : Bytes} (h : DerivesTimes g e n w) : IsText w := by
  induction n generalizing w with
  | zero => cases h; exact ⟨[], rfl⟩
  | succ n ih =>
    cases h with
    | succ _ _ u v h1 h2 => exact isText_append (derives_isText h1) (ih h2)

theorem derivesRep_isText {g : Grammar} {r : Rep} {w : Bytes} (h : DerivesRep g r w) : IsText w := by
  cases h with
  | mk _ _ _ _ _ _ _ h => exact derivesTimes_isText h

theorem derivesConcat_isText {g : Grammar} {c : Concat} {w : Bytes} (h : DerivesConcat g c w) : IsText w := by
  induction c generalizing w with
  | nil => cases h; exact ⟨[], rfl⟩
  | cons r c ih =>
    obtain ⟨u, v, rfl, h1, h2⟩ := derivesConcat_cons.mp h
    exact isText_append (derivesRep_isText h1) (ih h2)

/-! ## Composition -/

theorem utf8_split {cs a b : List Char} (h : utf8 cs = utf8 a ++ utf8 b) : cs = a ++ b :=
  utf8_inj (h.trans (utf8_append a b).symm)

theorem pow_times {g : Grammar} {e : Elem} {L : List Char → Prop} (h : ∀ cs, L cs ↔ Derives g e (utf8 cs)) (n : Nat)
    (cs : List Char) : Pow L n cs ↔ DerivesTimes g e n (utf8 cs) := by
  induction n generalizing cs with
  | zero =>
    simp only [Pow]
    constructor
    · rintro rfl; exact .zero e
    · intro h
      generalize hw : utf8 cs = w at h
      cases h
      exact utf8_inj (hw.trans utf8_nil.symm)
  | succ n ih =>
    simp only [Pow]
    constructor
    · rintro ⟨u, v, rfl, h1, h2⟩
      rw [utf8_append]
      exact .succ _ _ _ _ ((h u).mp h1) ((ih v).mp h2)
    · intro hd
      generalize hw : utf8 cs = w at hd
      cases hd with
      | succ _ _ u v h1 h2 =>
        obtain ⟨a, rfl⟩ := derives_isText h1
        obtain ⟨b, rfl⟩ := derivesTimes_isText h2
        exact ⟨a, b, utf8_split hw, (h a).mpr h1, (ih b).mpr h2⟩

theorem repBetween_rep {g : Grammar} {e : Elem} {L : List Char → Prop} (h : ∀ cs, L cs ↔ Derives g e (utf8 cs)) (mn : Nat)
    (mx : Option Nat) (cs : List Char) : RepBetween L mn mx cs ↔ DerivesRep g ⟨mn, mx, e⟩ (utf8 cs) := by
  constructor
  · rintro ⟨n, h1, h2, h3⟩
    exact .mk _ _ _ n _ h1 h2 ((pow_times h n cs).mp h3)
  · intro hd
    cases hd with
    | mk _ _ _ n _ h1 h2 h3 => exact ⟨n, h1, h2, (pow_times h n cs).mpr h3⟩

theorem seq_concat {g : Grammar} {r : Rep} {c : Concat} {p : Re} {ps : List Re}
    (h1 : ∀ cs, p.Lang cs ↔ DerivesRep g r (utf8 cs)) (h2 : ∀ cs, seqLang ps cs ↔ DerivesConcat g c (utf8 cs))
    (cs : List Char) : seqLang (p :: ps) cs ↔ DerivesConcat g (r :: c) (utf8 cs) := by
  rw [derivesConcat_cons, seqLang]
  constructor
  · rintro ⟨u, v, rfl, h3, h4⟩
    exact ⟨_, _, utf8_append u v, (h1 u).mp h3, (h2 v).mp h4⟩
  · rintro ⟨u, v, hw, h3, h4⟩
    obtain ⟨a, rfl⟩ := derivesRep_isText h3
    obtain ⟨b, rfl⟩ := derivesConcat_isText h4
    exact ⟨a, b, utf8_split hw, (h1 a).mpr h3, (h2 b).mpr h4⟩

/-! ## Terminals -/

theorem derives_term {g : Grammar} {e : Elem} (he : ∀ n, e ≠ .rulename n) (hg : ∀ a, e ≠ .group a) (ho : ∀ a, e ≠ .option a)
    (cs : List Char) : Derives g e (utf8 cs) ↔ Terminal e cs := by
  constructor
  · intro h
    generalize hw : utf8 cs = w at h
    cases h with
    | rule n => exact absurd rfl (he n)
    | group a => exact absurd rfl (hg a)
    | optNone a => exact absurd rfl (ho a)
    | optSome a => exact absurd rfl (ho a)
    | term _ cs' h => rw [utf8_inj hw]; exact h
  · intro h; exact .term _ _ h

/-- Classes of one character in sequence. -/
theorem seq_classes {α : Type} (f : α → Re) (R : α → Char → Prop) : ∀ (vs : List α),
    (∀ v ∈ vs, ∀ w, (f v).Lang w ↔ ∃ c, w = [c] ∧ R v c) → ∀ w, seqLang (vs.map f) w ↔ List.Forall₂ R vs w
  | [], _, w => by simp [seqLang]
  | v :: vs, h, w => by
    have ih := seq_classes f R vs fun v hv => h v (List.mem_cons_of_mem _ hv)
    simp only [List.map_cons, seqLang, h v (List.mem_cons_self ..), ih, List.forall₂_cons_left_iff]
    constructor
    · rintro ⟨_, b, rfl, ⟨c, rfl, h1⟩, h2⟩
      exact ⟨c, b, h1, h2, rfl⟩
    · rintro ⟨c, b, h1, h2, rfl⟩
      exact ⟨[c], b, rfl, ⟨c, rfl, h1⟩, h2⟩

theorem charClass_lang (c : Char) (sensitive : Bool) (w : List Char) :
    (charClass c sensitive).Lang w ↔ ∃ d, w = [d] ∧ (if sensitive then c = d else SameLetter c d) := by
  have eA : 'A'.toNat = 65 := rfl
  have eZ : 'Z'.toNat = 90 := rfl
  have ea : 'a'.toNat = 97 := rfl
  have ez : 'z'.toNat = 122 := rfl
  have hA : ('A' ≤ c ↔ 65 ≤ c.toNat) := Iff.rfl
  have hZ : (c ≤ 'Z' ↔ c.toNat ≤ 90) := Iff.rfl
  have ha : ('a' ≤ c ↔ 97 ≤ c.toNat) := Iff.rfl
  have hz : (c ≤ 'z' ↔ c.toNat ≤ 122) := Iff.rfl
  have inj : ∀ d : Char, c = d ↔ c.toNat = d.toNat := fun d => ⟨fun h => h ▸ rfl, fun h => char_of_toNat h⟩
  unfold charClass
  cases sensitive with
  | true =>
    simp only [Bool.not_true, Bool.false_and, Bool.false_eq_true, if_false, if_true, Re.Lang, inRanges_cons, inRanges_nil,
      or_false, inj]
    refine exists_congr fun d => and_congr_right fun _ => ?_
    omega
  | false =>
    simp only [Bool.not_false, Bool.true_and, Bool.and_eq_true, decide_eq_true_eq, Bool.false_eq_true, if_false, SameLetter,
      inj, hA, hZ, ha, hz]
    split_ifs with h1 h2
    · simp only [Re.Lang, inRanges_cons, inRanges_nil, or_false]
      refine exists_congr fun d => and_congr_right fun _ => ?_
      omega
    · simp only [Re.Lang, inRanges_cons, inRanges_nil, or_false]
      refine exists_congr fun d => and_congr_right fun _ => ?_
      omega
    · simp only [Re.Lang, inRanges_cons, inRanges_nil, or_false]
      refine exists_congr fun d => and_congr_right fun _ => ?_
      omega

theorem charClass_shape (c : Char) (sensitive : Bool) (s : Prop) : (charClass c sensitive).Shape s := by
  have eA : 'A'.toNat = 65 := rfl
  have eZ : 'Z'.toNat = 90 := rfl
  have ea : 'a'.toNat = 97 := rfl
  have ez : 'z'.toNat = 122 := rfl
  have hv := char_valid c
  unfold charClass
  split_ifs with h1 h2
  · simp only [Bool.and_eq_true, decide_eq_true_eq] at h1
    refine ⟨by simp, ?_, ?_⟩
    · intro r hr
      simp only [List.mem_cons, List.not_mem_nil, or_false] at hr
      unfold maxRune
      rcases hr with rfl | rfl <;> simp only <;> omega
    · intro v hr
      simp only [List.mem_cons, List.not_mem_nil, or_false, Prod.mk.injEq] at hr
      rw [validRune_iff]
      omega
  · simp only [Bool.and_eq_true, decide_eq_true_eq] at h2
    refine ⟨by simp, ?_, ?_⟩
    · intro r hr
      simp only [List.mem_cons, List.not_mem_nil, or_false] at hr
      unfold maxRune
      rcases hr with rfl | rfl <;> simp only <;> omega
    · intro v hr
      simp only [List.mem_cons, List.not_mem_nil, or_false, Prod.mk.injEq] at hr
      rw [validRune_iff]
      omega
  · refine ⟨by simp, ?_, ?_⟩
    · intro r hr
      simp only [List.mem_singleton] at hr
      unfold maxRune
      rw [hr]
      simp only
      omega
    · intro v hr
      simp only [List.mem_singleton, Prod.mk.injEq] at hr
      rw [validRune_iff]
      omega

/-- A num-val range does not consist of one surrogate. -/
def NoLoneSurrogate : Elem → Prop
  | .numVal b .range [s, t] => ∀ v, Denotes b s v → Denotes b t v → ¬ (0xD800 ≤ v ∧ v ≤ 0xDFFF)
  | _ => True

theorem range_good {g : Grammar} {b s t : Str} {lo hi : Nat} (hs : Denotes b s lo) (ht : Denotes b t hi)
    (hn : NoLoneSurrogate (.numVal b .range [s, t])) (p : Prop) :
    (∀ cs, (reRangeOf b [s, t]).Lang cs ↔ Derives g (.numVal b .range [s, t]) (utf8 cs)) ∧ (reRangeOf b [s, t]).Shape p := by
  have e1 := numvalToRune_denotes hs
  have e2 := numvalToRune_denotes ht
  have hL : ∀ cs, Derives g (.numVal b .range [s, t]) (utf8 cs) ↔ ∃ c : Char, cs = [c] ∧ lo ≤ c.toNat ∧ c.toNat ≤ hi := by
    intro cs
    rw [derives_range hs ht]
    constructor
    · rintro ⟨c, h1, h2, h3⟩; exact ⟨c, utf8_inj h3, h1, h2⟩
    · rintro ⟨c, rfl, h1, h2⟩; exact ⟨c, h1, h2, rfl⟩
  unfold reRangeOf
  simp only [List.getD_cons_zero, List.getD_cons_succ, e1, e2]
  unfold maxInt32 maxRune
  split_ifs with h
  · refine ⟨fun cs => ?_, trivial⟩
    rw [hL]
    simp only [Re.Lang, false_iff]
    rintro ⟨c, _, h1, h2⟩
    have := char_valid c
    omega
  · refine ⟨fun cs => ?_, by simp, ?_, ?_⟩
    · rw [hL]
      simp only [Re.Lang, inRanges_cons, inRanges_nil, or_false]
      refine exists_congr fun c => and_congr_right fun _ => ?_
      have := char_valid c
      omega
    · intro r hr
      rw [List.mem_singleton] at hr
      rw [hr]
      unfold maxRune
      simp only
      omega
    · intro v hr
      simp only [List.mem_singleton, Prod.mk.injEq] at hr
      rw [validRune_iff]
      by_contra hv
      have hvl : v = lo := by omega
      have hvh : v = hi := by omega
      exact hn v (hvl ▸ hs) (hvh ▸ ht) ⟨by omega, by omega⟩

theorem series_good {g : Grammar} {b : Str} {es : List Str} (h : ∀ s ∈ es, ∃ v, Denotes b s v) (p : Prop) :
    (∀ cs, (reSeriesOf b es).Lang cs ↔ Derives g (.numVal b .series es) (utf8 cs)) ∧ (reSeriesOf b es).Shape p := by
  have hL : ∀ cs, Derives g (.numVal b .series es) (utf8 cs) ↔ List.Forall₂ (fun s c => Denotes b s (Char.toNat c)) es cs := by
    intro cs
    rw [derives_term (by simp) (by simp) (by simp)]
    constructor
    · intro h; cases h with | series _ _ _ h => exact h
    · exact .series _ _ _
  unfold reSeriesOf
  split_ifs with ha
  · rw [List.all_eq_true] at ha
    refine ⟨fun cs => ?_, allShape_iff.mpr ?_⟩
    · rw [hL, Re.Lang]
      refine seq_classes _ _ es (fun s hs w => ?_) cs
      obtain ⟨v, hv⟩ := h s hs
      have e := numvalToRune_denotes hv
      have hr := ha s hs
      rw [e] at hr
      rw [validRune_iff] at hr
      unfold maxInt32 at *
      simp only [Re.Lang, inRanges_cons, inRanges_nil, or_false, e]
      refine exists_congr fun c => and_congr_right fun _ => ?_
      constructor
      · intro h1
        obtain rfl : v = c.toNat := by omega
        exact hv
      · intro h1
        have := denotes_fun hv h1
        omega
    · intro r hr
      obtain ⟨s, hs, rfl⟩ := List.mem_map.mp hr
      have hv := (validRune_iff _).mp (ha s hs)
      refine ⟨by simp, ?_, ?_⟩
      · intro r hr
        rw [List.mem_singleton] at hr
        rw [hr]
        unfold maxRune
        simp only
        omega
      · intro v hr
        simp only [List.mem_singleton, Prod.mk.injEq] at hr
        rw [validRune_iff]
        omega
  · refine ⟨fun cs => ?_, trivial⟩
    rw [hL]
    simp only [Re.Lang, false_iff]
    intro hf
    apply ha
    rw [List.all_eq_true]
    intro s hs
    obtain ⟨c, hc⟩ : ∃ c : Char, Denotes b s c.toNat := by
      clear hL ha h
      induction hf with
      | nil => cases hs
      | cons h1 _ ih =>
        rcases List.mem_cons.mp hs with rfl | hs
        · exact ⟨_, h1⟩
        · exact ih hs
    rw [numvalToRune_denotes hc, validRune_iff]
    have := char_valid c
    unfold maxInt32
    omega

theorem charVal_good {g : Grammar} (sensitive : Bool) (vs : List Char) (p : Prop) :
    (∀ cs, (Re.concat (vs.map fun c => charClass c sensitive)).Lang cs ↔ Derives g (.charVal sensitive vs) (utf8 cs)) ∧
    (Re.concat (vs.map fun c => charClass c sensitive)).Shape p := by
  refine ⟨fun cs => ?_, allShape_iff.mpr ?_⟩
  · rw [derives_term (by simp) (by simp) (by simp), Re.Lang,
      seq_classes _ (fun c d => if sensitive then c = d else SameLetter c d) vs (fun v _ w => charClass_lang v sensitive w)]
    cases sensitive with
    | true =>
      simp only [if_true, List.forall₂_eq_eq_eq]
      constructor
      · rintro rfl; exact .sensitive _
      · intro h; cases h; rfl
    | false =>
      simp only [Bool.false_eq_true, if_false]
      constructor
      · exact .insensitive _ _
      · intro h; cases h with | insensitive _ _ h => exact h
  · intro r hr
    obtain ⟨c, _, rfl⟩ := List.mem_map.mp hr
    exact charClass_shape c sensitive p

/-! ## The builder -/

/-- What the builder and the renderer need of a repetition: numerals, references that resolve, no lone surrogate, bounds
some count satisfies, counts RE2 accepts. -/
structure ReRepOK (g : Grammar) (q : Rep) : Prop where
  term : TermWF q.elem
  refs : ∀ n, q.elem = .rulename n → ∃ r, Resolves g n r
  surr : NoLoneSurrogate q.elem
  bounds : q.min ≤ 1000 ∧ ∀ m, q.max = some m → q.min ≤ m ∧ m ≤ 1000

/-- The same for every rule that can be reached. -/
def ReachOK (g : Grammar) (r : Rule) : Prop :=
  ∀ r', Relation.ReflTransGen (Refers g) r r' → ∀ q ∈ altReps r'.alt, ReRepOK g q

/-- The same for some repetitions and all they refer to. -/
def RepsOK (g : Grammar) (qs : List Rep) : Prop :=
  ∀ q ∈ qs, ReRepOK g q ∧ ∀ n r, q.elem = .rulename n → Resolves g n r → ReachOK g r

/-- A prose-val can be reached from the rule. -/
def ReachesProse (g : Grammar) (r : Rule) : Prop :=
  ∃ r', Relation.ReflTransGen (Refers g) r r' ∧ ∃ q ∈ altReps r'.alt, ∃ v, q.elem = .proseVal v

/-- The element is a prose-val or refers to a rule from which one can be reached. -/
def ProseAt (g : Grammar) (e : Elem) : Prop :=
  (∃ v, e = .proseVal v) ∨ ∃ n r, e = .rulename n ∧ Resolves g n r ∧ ReachesProse g r

/-- One of the repetitions is, or leads to, a prose-val. -/
def RepsProse (g : Grammar) (qs : List Rep) : Prop := ∃ q ∈ qs, ProseAt g q.elem

theorem repsProse_append {g : Grammar} {a b : List Rep} : RepsProse g (a ++ b) ↔ RepsProse g a ∨ RepsProse g b := by
  simp [RepsProse, or_and_right, exists_or]

theorem repsOK_append {g : Grammar} {a b : List Rep} : RepsOK g (a ++ b) ↔ RepsOK g a ∧ RepsOK g b := by
  simp only [RepsOK, List.mem_append]
  constructor
  · intro h; exact ⟨fun q hq => h q (.inl hq), fun q hq => h q (.inr hq)⟩
  · rintro ⟨h1, h2⟩ q (hq | hq)
    · exact h1 q hq
    · exact h2 q hq

theorem reachesProse_iff {g : Grammar} {r : Rule} : ReachesProse g r ↔ RepsProse g (altReps r.alt) := by
  constructor
  · rintro ⟨r', h1, q, h2, h3⟩
    rcases Relation.ReflTransGen.cases_head h1 with rfl | ⟨m, ⟨q', h4, n, h5, h6⟩, h7⟩
    · exact ⟨q, h2, .inl h3⟩
    · exact ⟨q', h4, .inr ⟨n, m, h5, h6, r', h7, q, h2, h3⟩⟩
  · rintro ⟨q, h1, h2 | ⟨n, m, h2, h3, r', h4, h5⟩⟩
    · exact ⟨r, .refl, q, h1, h2⟩
    · exact ⟨r', .head ⟨q, h1, n, h2, h3⟩ h4, h5⟩

theorem reachOK_reps {g : Grammar} {r : Rule} (h : ReachOK g r) : RepsOK g (altReps r.alt) := fun q hq =>
  ⟨h r .refl q hq, fun n r' hn hr r'' h1 => h r'' (.head ⟨q, hq, n, hn, hr⟩ h1)⟩

/-- The tree has the language of the element, and a shape the renderer can deal with. -/
def GoodRe (g : Grammar) (e : Elem) (r : Re) : Prop := (∀ cs, r.Lang cs ↔ Derives g e (utf8 cs)) ∧ r.Shape False

/-- What the memo knows. -/
def MemoInv (g : Grammar) (st : ReSt) : Prop :=
  ∀ n r, st.memo.lookup (canon n) = some r → ∀ rule, Resolves g n rule →
    (ReachesProse g rule → st.err = true) ∧ (st.err = false → ReachOK g rule → GoodRe g (.rulename n) r)

/-- What a call that built the tree of `e` has done. -/
structure BuildPost (g : Grammar) (st st' : ReSt) (prose : Prop) (good : Prop) : Prop where
  inv : MemoInv g st'
  err : st'.err = true ↔ st.err = true ∨ prose
  good : st'.err = false → good

section
variable {g : Grammar} {rec : Str → ReSt → Option (Re × ReSt)}
  (hrec : ∀ n st r st', MemoInv g st → rec n st = some (r, st') →
    BuildPost g st st' (ProseAt g (.rulename n)) ((∀ rule, Resolves g n rule → ReachOK g rule) → (∃ rule, Resolves g n rule) →
      GoodRe g (.rulename n) r))
include hrec

omit hrec in
theorem err_false {a b : Bool} {p : Prop} (h : b = true ↔ a = true ∨ p) (hb : b = false) : a = false := by
  cases a with
  | false => rfl
  | true => rw [h.mpr (.inl rfl)] at hb; exact hb

mutual
theorem reElem_post : (e : Elem) → ∀ (mn : Nat) (mx : Option Nat) st r st', MemoInv g st → reElem rec e st = some (r, st') →
    BuildPost g st st' (RepsProse g (repReps ⟨mn, mx, e⟩)) (RepsOK g (repReps ⟨mn, mx, e⟩) → GoodRe g e r)
  | .rulename n, mn, mx, st, r, st', hi, h => by
    obtain ⟨h1, h2, h3⟩ := hrec n st r st' hi h
    refine ⟨h1, h2.trans (or_congr_right ?_), fun he hok => ?_⟩
    · simp [RepsProse, repReps, elemReps]
    · have := hok _ (List.mem_cons_self ..)
      exact h3 he (fun rule hr => this.2 n rule rfl hr) (this.1.refs n rfl)
  | .group a, mn, mx, st, r, st', hi, h => by
    rw [reElem] at h
    cases ha : reAlts rec a st with
    | none => simp [ha] at h
    | some x =>
      obtain ⟨os, st1⟩ := x
      simp only [ha, Option.map_some, Option.some.injEq, Prod.mk.injEq] at h
      obtain ⟨rfl, rfl⟩ := h
      obtain ⟨h1, h2, h3⟩ := reAlts_post a st os st1 hi ha
      refine ⟨h1, h2.trans (or_congr_right ?_), fun he hok => ?_⟩
      · simp [RepsProse, repReps, elemReps, ProseAt]
      · have h4 := h3 he fun q hq => hok q (List.mem_cons_of_mem _ hq)
        refine ⟨fun cs => ?_, fun h => h.elim, h4.2⟩
        rw [Re.Lang, h4.1]
        constructor
        · exact .group _ _
        · intro h
          generalize utf8 cs = w at h
          cases h with
          | group _ _ h => exact h
          | term _ _ h => cases h
  | .option a, mn, mx, st, r, st', hi, h => by
    rw [reElem] at h
    cases ha : reAlts rec a st with
    | none => simp [ha] at h
    | some x =>
      obtain ⟨os, st1⟩ := x
      simp only [ha, Option.map_some, Option.some.injEq, Prod.mk.injEq] at h
      obtain ⟨rfl, rfl⟩ := h
      obtain ⟨h1, h2, h3⟩ := reAlts_post a st os st1 hi ha
      refine ⟨h1, h2.trans (or_congr_right ?_), fun he hok => ?_⟩
      · simp [RepsProse, repReps, elemReps, ProseAt]
      · have h4 := h3 he fun q hq => hok q (List.mem_cons_of_mem _ hq)
        refine ⟨fun cs => ?_, by decide, by simp, fun h => h.elim, h4.2⟩
        rw [Re.Lang]
        constructor
        · rintro ⟨n, _, hn, hp⟩
          have hn1 := hn 1 rfl
          obtain rfl | rfl : n = 0 ∨ n = 1 := by omega
          · obtain rfl : cs = [] := hp
            exact .optNone _
          · have hp' : (Re.alt os).Lang cs := by simpa [Pow] using hp
            rw [Re.Lang, h4.1] at hp'
            exact .optSome _ _ hp'
        · intro h
          generalize hw : utf8 cs = w at h
          cases h with
          | optNone _ =>
            obtain rfl : cs = [] := utf8_inj (hw.trans utf8_nil.symm)
            exact ⟨0, Nat.le_refl _, by simp, rfl⟩
          | optSome _ _ h =>
            subst hw
            have : (Re.alt os).Lang cs := by rw [Re.Lang, h4.1]; exact h
            exact ⟨1, by omega, by simp, by simpa [Pow] using this⟩
          | term _ _ h => cases h
  | .numVal b .range es, mn, mx, st, r, st', hi, h => by
    simp only [reElem, Option.some.injEq, Prod.mk.injEq] at h
    obtain ⟨rfl, rfl⟩ := h
    refine ⟨hi, by simp [RepsProse, repReps, elemReps, ProseAt], fun _ hok => ?_⟩
    have := (hok _ (List.mem_cons_self ..)).1
    obtain ⟨s, t, v, w, rfl, h1, h2⟩ := this.term
    exact range_good h1 h2 this.surr _
  | .numVal b .series es, mn, mx, st, r, st', hi, h => by
    simp only [reElem, Option.some.injEq, Prod.mk.injEq] at h
    obtain ⟨rfl, rfl⟩ := h
    refine ⟨hi, by simp [RepsProse, repReps, elemReps, ProseAt], fun _ hok => ?_⟩
    exact series_good (hok _ (List.mem_cons_self ..)).1.term _
  | .charVal s vs, mn, mx, st, r, st', hi, h => by
    simp only [reElem, Option.some.injEq, Prod.mk.injEq] at h
    obtain ⟨rfl, rfl⟩ := h
    exact ⟨hi, by simp [RepsProse, repReps, elemReps, ProseAt], fun _ _ => charVal_good s vs _⟩
  | .proseVal v, mn, mx, st, r, st', hi, h => by
    simp only [reElem, Option.some.injEq, Prod.mk.injEq] at h
    obtain ⟨rfl, rfl⟩ := h
    exact ⟨fun n r hl rule hr => ⟨fun _ => rfl, fun he => by simp at he⟩, by simp [RepsProse, repReps, elemReps, ProseAt],
      fun he => by simp at he⟩
theorem reAlts_post : (a : List (List Rep)) → ∀ st os st', MemoInv g st → reAlts rec a st = some (os, st') →
    BuildPost g st st' (RepsProse g (altReps a)) (RepsOK g (altReps a) →
      (∀ cs, altLang os cs ↔ DerivesAlt g a (utf8 cs)) ∧ allShape False os)
  | [], st, os, st', hi, h => by
    simp only [reAlts, Option.some.injEq, Prod.mk.injEq] at h
    obtain ⟨rfl, rfl⟩ := h
    exact ⟨hi, by simp [RepsProse, altReps], fun _ _ => ⟨fun cs => by simp [altLang, derivesAlt_nil], trivial⟩⟩
  | c :: a, st, os, st', hi, h => by
    rw [reAlts] at h
    cases hc : reParts rec c st with
    | none => simp [hc] at h
    | some x =>
      obtain ⟨ps, st1⟩ := x
      simp only [hc, Option.bind_some] at h
      cases ha : reAlts rec a st1 with
      | none => simp [ha] at h
      | some y =>
        obtain ⟨os', st2⟩ := y
        simp only [ha, Option.map_some, Option.some.injEq, Prod.mk.injEq] at h
        obtain ⟨rfl, rfl⟩ := h
        obtain ⟨h1, h2, h3⟩ := reParts_post c st ps st1 hi hc
        obtain ⟨h4, h5, h6⟩ := reAlts_post a st1 os' st2 h1 ha
        refine ⟨h4, ?_, fun he hok => ?_⟩
        · rw [h5, h2, altReps, repsProse_append, or_assoc]
        · rw [altReps, repsOK_append] at hok
          obtain ⟨h7, h8⟩ := h3 (err_false h5 he) hok.1
          obtain ⟨h9, h10⟩ := h6 he hok.2
          exact ⟨fun cs => by rw [altLang, Re.Lang, derivesAlt_cons, h7, h9], h8, h10⟩
theorem reParts_post : (c : List Rep) → ∀ st ps st', MemoInv g st → reParts rec c st = some (ps, st') →
    BuildPost g st st' (RepsProse g (concatReps c)) (RepsOK g (concatReps c) →
      (∀ cs, seqLang ps cs ↔ DerivesConcat g c (utf8 cs)) ∧ allShape False ps)
  | [], st, ps, st', hi, h => by
    simp only [reParts, Option.some.injEq, Prod.mk.injEq] at h
    obtain ⟨rfl, rfl⟩ := h
    refine ⟨hi, by simp [RepsProse, concatReps], fun _ _ => ⟨fun cs => ?_, trivial⟩⟩
    rw [derivesConcat_nil, seqLang]
    exact ⟨fun h => by rw [h]; rfl, fun h => utf8_inj (h.trans utf8_nil.symm)⟩
  | ⟨mn, mx, e⟩ :: c, st, ps, st', hi, h => by
    rw [reParts] at h
    cases hc : reElem rec e st with
    | none => simp [hc] at h
    | some x =>
      obtain ⟨p, st1⟩ := x
      simp only [hc, Option.bind_some] at h
      cases ha : reParts rec c st1 with
      | none => simp [ha] at h
      | some y =>
        obtain ⟨ps', st2⟩ := y
        simp only [ha, Option.map_some, Option.some.injEq, Prod.mk.injEq] at h
        obtain ⟨rfl, rfl⟩ := h
        obtain ⟨h1, h2, h3⟩ := reElem_post e mn mx st p st1 hi hc
        obtain ⟨h4, h5, h6⟩ := reParts_post c st1 ps' st2 h1 ha
        refine ⟨h4, ?_, fun he hok => ?_⟩
        · rw [h5, h2, concatReps, repsProse_append, or_assoc]
        · rw [concatReps, repsOK_append] at hok
          obtain ⟨h7, h8⟩ := h3 (err_false h5 he) hok.1
          obtain ⟨h9, h10⟩ := h6 he hok.2
          have hb := (hok.1 ⟨mn, mx, e⟩ (by simp [repReps])).1.bounds
          refine ⟨seq_concat (fun cs => ?_) h9, ⟨hb.1, hb.2, h8⟩, h10⟩
          rw [Re.Lang]
          exact repBetween_rep h7 mn mx cs
end
end

theorem reRule_post {g : Grammar} (hd : NamesDistinct g) (k : Nat) : ∀ n st r st', MemoInv g st →
    reRule g k n st = some (r, st') →
    BuildPost g st st' (ProseAt g (.rulename n)) ((∀ rule, Resolves g n rule → ReachOK g rule) → (∃ rule, Resolves g n rule) →
      GoodRe g (.rulename n) r) := by
  induction k with
  | zero => intro n st r st' _ h; simp [reRule] at h
  | succ k ih =>
    intro n st r st' hi h
    rw [reRule] at h
    have hP : ∀ rule, Resolves g n rule → (ProseAt g (.rulename n) ↔ ReachesProse g rule) := by
      intro rule hr
      constructor
      · rintro (⟨v, hv⟩ | ⟨m, r', hm, h1, h2⟩)
        · cases hv
        · cases hm
          rwa [resolves_unique hd hr h1 rfl]
      · intro h; exact .inr ⟨n, rule, rfl, hr, h⟩
    cases hl : st.memo.lookup (canon n) with
    | some r0 =>
      simp only [hl, Option.some.injEq, Prod.mk.injEq] at h
      obtain ⟨rfl, rfl⟩ := h
      refine ⟨hi, ⟨.inl, ?_⟩, fun he hall ⟨rule, hr⟩ => ((hi n r0 hl rule hr).2 he (hall rule hr))⟩
      rintro (h | h)
      · exact h
      · rcases h with ⟨v, hv⟩ | ⟨m, r', hm, h1, h2⟩
        · cases hv
        · cases hm
          exact (hi n r0 hl r' h1).1 h2
    | none =>
      simp only [hl] at h
      cases hg : getRule n g.rules with
      | none =>
        simp only [hg, Option.some.injEq, Prod.mk.injEq] at h
        obtain ⟨rfl, rfl⟩ := h
        have hno : ¬ ∃ rule, Resolves g n rule := by rw [← getRule_isSome, hg]; simp
        refine ⟨hi, ⟨.inl, ?_⟩, fun _ _ hex => absurd hex hno⟩
        rintro (h | ⟨v, hv⟩ | ⟨m, r', hm, h1, h2⟩)
        · exact h
        · cases hv
        · cases hm; exact absurd ⟨r', h1⟩ hno
      | some rule =>
        have hr : Resolves g n rule := (getRule_iff hd).mp hg
        simp only [hg] at h
        cases ha : reAlts (reRule g k) rule.alt st with
        | none => simp [ha] at h
        | some x =>
          obtain ⟨os, st1⟩ := x
          simp only [ha, Option.map_some, Option.some.injEq, Prod.mk.injEq] at h
          obtain ⟨rfl, rfl⟩ := h
          obtain ⟨h1, h2, h3⟩ := reAlts_post ih rule.alt st os st1 hi ha
          have hgood : st1.err = false → ReachOK g rule → GoodRe g (.rulename n) (.alt os) := by
            intro he hok
            obtain ⟨h4, h5⟩ := h3 he (reachOK_reps hok)
            refine ⟨fun cs => ?_, fun h => h.elim, h5⟩
            rw [Re.Lang, h4, derives_rulename]
            constructor
            · intro h; exact ⟨rule, hr, h⟩
            · rintro ⟨r', hr', h⟩
              rwa [resolves_unique hd hr hr' rfl]
          refine ⟨?_, ?_, fun he hall _ => hgood he (hall rule hr)⟩
          · intro m r hm rule' hr'
            simp only [List.lookup_cons] at hm
            split at hm
            · next hc =>
              have hc : canon m = canon n := by simpa using hc
              cases hm
              obtain rfl : rule = rule' := resolves_unique hd hr hr' hc.symm
              refine ⟨fun hp => h2.mpr (.inr (reachesProse_iff.mp hp)), fun he hok => ?_⟩
              have := hgood he hok
              refine ⟨fun cs => (this.1 cs).trans ?_, this.2⟩
              rw [derives_rulename, derives_rulename]
              simp only [resolves_congr hc]
            · exact h1 m r hm rule' hr'
          · rw [h2, hP rule hr, reachesProse_iff]

/-! ## Termination -/

section
variable {rec : Str → ReSt → Option (Re × ReSt)}

/-- The call on `n` ends. -/
def CallEnds (rec : Str → ReSt → Option (Re × ReSt)) (q : Rep) : Prop := ∀ n, q.elem = .rulename n → ∀ st, (rec n st).isSome = true

mutual
theorem reElem_ends : (e : Elem) → ∀ mn mx, (∀ q ∈ repReps ⟨mn, mx, e⟩, CallEnds rec q) → ∀ st, (reElem rec e st).isSome = true
  | .rulename n, mn, mx, h, st => h _ (List.mem_cons_self ..) n rfl st
  | .group a, mn, mx, h, st => by
    rw [reElem, Option.isSome_map]
    exact reAlts_ends a (fun q hq => h q (List.mem_cons_of_mem _ hq)) st
  | .option a, mn, mx, h, st => by
    rw [reElem, Option.isSome_map]
    exact reAlts_ends a (fun q hq => h q (List.mem_cons_of_mem _ hq)) st
  | .numVal b .range es, _, _, _, _ => rfl
  | .numVal b .series es, _, _, _, _ => rfl
  | .charVal s vs, _, _, _, _ => rfl
  | .proseVal v, _, _, _, _ => rfl
theorem reAlts_ends : (a : List (List Rep)) → (∀ q ∈ altReps a, CallEnds rec q) → ∀ st, (reAlts rec a st).isSome = true
  | [], _, _ => rfl
  | c :: a, h, st => by
    rw [reAlts]
    have h1 := reParts_ends c (fun q hq => h q (by simp [altReps, hq])) st
    obtain ⟨x, hx⟩ := Option.isSome_iff_exists.mp h1
    rw [hx, Option.bind_some, Option.isSome_map]
    exact reAlts_ends a (fun q hq => h q (by simp [altReps, hq])) _
theorem reParts_ends : (c : List Rep) → (∀ q ∈ concatReps c, CallEnds rec q) → ∀ st, (reParts rec c st).isSome = true
  | [], _, _ => rfl
  | ⟨mn, mx, e⟩ :: c, h, st => by
    rw [reParts]
    have h1 := reElem_ends e mn mx (fun q hq => h q (by simp [concatReps, hq])) st
    obtain ⟨x, hx⟩ := Option.isSome_iff_exists.mp h1
    rw [hx, Option.bind_some, Option.isSome_map]
    exact reParts_ends c (fun q hq => h q (by simp [concatReps, hq])) _
end
end

/-- The names of all rules. -/
def ruleKeys (g : Grammar) : List Str := (g.rules ++ Core.rules).map fun r => canon r.name

theorem resolves_key {g : Grammar} {n : Str} {r : Rule} (h : Resolves g n r) : canon r.name ∈ ruleKeys g :=
  List.mem_map.mpr ⟨r, by cases h with
    | user h _ => exact List.mem_append_left _ h
    | core h _ _ => exact List.mem_append_right _ h, rfl⟩

/-- No rule that can be reached is cyclic. -/
def NoCycleBelow (g : Grammar) (r : Rule) : Prop := ¬ ∃ r', Relation.ReflTransGen (Refers g) r r' ∧ Cyclic g r'

theorem reRule_ends {g : Grammar} (hd : NamesDistinct g) (k : Nat) : ∀ (path : List Str) (n : Str) (st : ReSt),
    path.Nodup → (∀ x ∈ path, x ∈ ruleKeys g) →
    (∀ r, Resolves g n r → NoCycleBelow g r ∧ ∀ x ∈ path, ∃ r', canon r'.name = x ∧ Resolves g r'.name r' ∧
      Relation.TransGen (Refers g) r' r) →
    (ruleKeys g).length < path.length + k → (reRule g k n st).isSome = true := by
  induction k with
  | zero =>
    intro path n st hn hs _ hl
    have := (List.subperm_of_subset hn hs).length_le
    omega
  | succ k ih =>
    intro path n st hn hs hp hl
    rw [reRule]
    cases st.memo.lookup (canon n) with
    | some r => rfl
    | none =>
      cases hg : getRule n g.rules with
      | none => rfl
      | some r =>
        have hr : Resolves g n r := (getRule_iff hd).mp hg
        obtain ⟨hc, hpath⟩ := hp r hr
        have hfresh : canon r.name ∉ path := by
          intro hm
          obtain ⟨r', h1, h2, h3⟩ := hpath _ hm
          obtain rfl := resolves_unique hd h2 (resolves_self hr) h1
          exact hc ⟨r', .refl, h3⟩
        simp only [Option.isSome_map]
        refine reAlts_ends r.alt (fun q hq m hm st' => ?_) st
        refine ih (canon r.name :: path) m st' (List.nodup_cons.mpr ⟨hfresh, hn⟩) ?_ ?_ (by simp only [List.length_cons]; omega)
        · intro x hx
          rcases List.mem_cons.mp hx with rfl | hx
          · exact resolves_key hr
          · exact hs x hx
        · intro r2 hr2
          have hstep : Refers g r r2 := ⟨q, hq, m, hm, hr2⟩
          refine ⟨fun ⟨r3, h3, h4⟩ => hc ⟨r3, .head hstep h3, h4⟩, fun x hx => ?_⟩
          rcases List.mem_cons.mp hx with rfl | hx
          · exact ⟨r, rfl, resolves_self hr, .single hstep⟩
          · obtain ⟨r', h1, h2, h3⟩ := hpath x hx
            exact ⟨r', h1, h2, .tail h3 hstep⟩

end Verif
