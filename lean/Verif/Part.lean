import Verif.PropsTarjan
import Verif.PropsRecog

/-!
# What a rule uses

A rule depends on the rules it refers to, directly or through others, and on nothing else.  Here this is proved of the recogniser of
/repo/recognize.go: although `IsValid` looks for left recursion in the whole grammar (/repo/grammar.go:25-29), its answer for a rule
that uses no left-recursive one is that for the used rules alone.
-/

namespace Verif

open Spec Props

namespace Spec

/-- The rule called `name` uses `r`: it is `r`, or refers to `r` directly or through other rules. -/
def UsesRule (g : Grammar) (name : Str) (r : Rule) : Prop := ∃ r0, Resolves g name r0 ∧ Relation.ReflTransGen (Refers g) r0 r

end Spec

/-! ## The part of the grammar that is used -/

/-- The elements that matter: those in the used rules, and the names of used rules. -/
def InPart (g : Grammar) (name : Str) (e : Elem) : Prop :=
  (∃ r, UsesRule g name r ∧ ∃ q ∈ altReps r.alt, q.elem = e) ∨ ∃ n r, e = .rulename n ∧ Resolves g n r ∧ UsesRule g name r

open Classical in
/-- The grammar of the used rules. -/
noncomputable def partOf (g : Grammar) (name : Str) : Grammar := ⟨g.rules.filter fun r => decide (UsesRule g name r)⟩

section
variable {g : Grammar} {name : Str}

theorem mem_partOf {r : Rule} : r ∈ (partOf g name).rules ↔ r ∈ g.rules ∧ UsesRule g name r := by
  simp [partOf]

theorem partOf_nd (hd : NamesDistinct g) : NamesDistinct (partOf g name) := List.Pairwise.filter _ hd

theorem concatReps_mem {c : Concat} {q : Rep} (hq : q ∈ c) : q ∈ concatReps c := by
  induction c with
  | nil => cases hq
  | cons p c ih =>
    rw [concatReps]
    rcases List.mem_cons.mp hq with rfl | hq
    · exact List.mem_append_left _ (by cases q; simp [repReps])
    · exact List.mem_append_right _ (ih hq)

theorem altReps_mem {a : Alt} {c : Concat} {q : Rep} (hc : c ∈ a) (hq : q ∈ c) : q ∈ altReps a := by
  induction a with
  | nil => cases hc
  | cons d a ih =>
    rw [altReps]
    rcases List.mem_cons.mp hc with rfl | hc
    · exact List.mem_append_left _ (concatReps_mem hq)
    · exact List.mem_append_right _ (ih hc)

mutual
theorem elemReps_trans : (e : Elem) → ∀ q ∈ elemReps e, ∀ p ∈ elemReps q.elem, p ∈ elemReps e
  | .group a, q, hq, p, hp => altReps_trans a q hq p hp
  | .option a, q, hq, p, hp => altReps_trans a q hq p hp
  | .rulename _, _, hq, _, _ => by cases hq
  | .charVal _ _, _, hq, _, _ => by cases hq
  | .numVal _ _ _, _, hq, _, _ => by cases hq
  | .proseVal _, _, hq, _, _ => by cases hq
theorem repReps_trans : (r : Rep) → ∀ q ∈ repReps r, ∀ p ∈ elemReps q.elem, p ∈ repReps r
  | ⟨mn, mx, e⟩, q, hq, p, hp => by
    rw [repReps] at hq ⊢
    rcases List.mem_cons.mp hq with rfl | hq
    · exact List.mem_cons_of_mem _ hp
    · exact List.mem_cons_of_mem _ (elemReps_trans e q hq p hp)
theorem concatReps_trans : (c : List Rep) → ∀ q ∈ concatReps c, ∀ p ∈ elemReps q.elem, p ∈ concatReps c
  | [], _, hq, _, _ => by cases hq
  | r :: c, q, hq, p, hp => by
    rw [concatReps] at hq ⊢
    rcases List.mem_append.mp hq with hq | hq
    · exact List.mem_append_left _ (repReps_trans r q hq p hp)
    · exact List.mem_append_right _ (concatReps_trans c q hq p hp)
theorem altReps_trans : (a : List (List Rep)) → ∀ q ∈ altReps a, ∀ p ∈ elemReps q.elem, p ∈ altReps a
  | [], _, hq, _, _ => by cases hq
  | c :: a, q, hq, p, hp => by
    rw [altReps] at hq ⊢
    rcases List.mem_append.mp hq with hq | hq
    · exact List.mem_append_left _ (concatReps_trans c q hq p hp)
    · exact List.mem_append_right _ (altReps_trans a q hq p hp)
end

theorem uses_step {r r' : Rule} (h : UsesRule g name r) (hr : Refers g r r') : UsesRule g name r' := by
  obtain ⟨r0, h0, h1⟩ := h
  exact ⟨r0, h0, h1.tail hr⟩

/-- What a name in the part stands for is used. -/
theorem part_uses (hd : NamesDistinct g) {n : Str} {r : Rule} (h : InPart g name (.rulename n)) (hr : Resolves g n r) : UsesRule g name r := by
  rcases h with ⟨R, hR, q, hq, he⟩ | ⟨m, R, he, hm, hR⟩
  · exact uses_step hR ⟨q, hq, n, he, hr⟩
  · cases he
    have := ((getRule_iff hd).mpr hm).symm.trans ((getRule_iff hd).mpr hr)
    cases this
    exact hR

theorem part_resolves (hd : NamesDistinct g) {n : Str} (h : InPart g name (.rulename n)) (r : Rule) :
    Resolves g n r ↔ Resolves (partOf g name) n r := by
  constructor
  · intro hr
    have hu := part_uses hd h hr
    cases hr with
    | user hm hs => exact .user (mem_partOf.mpr ⟨hm, hu⟩) hs
    | core hm hs hn => exact .core hm hs fun u hu => hn u (mem_partOf.mp hu).1
  · intro hr
    cases hr with
    | user hm hs => exact .user (mem_partOf.mp hm).1 hs
    | core hm hs hn => exact .core hm hs fun u hu hs' => hn u (mem_partOf.mpr ⟨hu, part_uses hd h (.user hu hs')⟩) hs'

/-- The part is closed: the elements of a used alternation are in it. -/
def AltIn (g : Grammar) (name : Str) (a : Alt) : Prop := ∀ c ∈ a, ∀ q ∈ c, InPart g name q.elem

theorem altIn_rule {r : Rule} (h : UsesRule g name r) : AltIn g name r.alt :=
  fun _ hc _ hq => .inl ⟨r, h, _, altReps_mem hc hq, rfl⟩

theorem altIn_inner {e : Elem} {a : Alt} (h : InPart g name e) (he : e = .group a ∨ e = .option a) : AltIn g name a := by
  intro c hc q hq
  rcases h with ⟨R, hR, p, hp, rfl⟩ | ⟨_, _, rfl, _⟩
  · refine .inl ⟨R, hR, q, altReps_trans _ p hp q ?_, rfl⟩
    rcases he with he | he <;> rw [he, elemReps] <;> exact altReps_mem hc hq
  · rcases he with he | he <;> cases he

/-! ## Derivations -/

theorem part_derives {g1 g2 : Grammar} (hres : ∀ n, InPart g name (.rulename n) → ∀ r, Resolves g1 n r → Resolves g2 n r ∧ UsesRule g name r)
    {e : Elem} {w : Bytes} (h : Derives g1 e w) : InPart g name e → Derives g2 e w := by
  refine Derives.rec
    (motive_1 := fun e w _ => InPart g name e → Derives g2 e w)
    (motive_2 := fun a w _ => AltIn g name a → DerivesAlt g2 a w)
    (motive_3 := fun c w _ => (∀ q ∈ c, InPart g name q.elem) → DerivesConcat g2 c w)
    (motive_4 := fun r w _ => InPart g name r.elem → DerivesRep g2 r w)
    (motive_5 := fun e n w _ => InPart g name e → DerivesTimes g2 e n w)
    ?_ ?_ ?_ ?_ ?_ ?_ ?_ ?_ ?_ ?_ ?_ h
  · intro n r w hr _ ih hp
    obtain ⟨h1, h2⟩ := hres n hp r hr
    exact .rule n r w h1 (ih (altIn_rule h2))
  · intro a w _ ih hp
    exact .group a w (ih (altIn_inner hp (.inl rfl)))
  · intro a _
    exact .optNone a
  · intro a w _ ih hp
    exact .optSome a w (ih (altIn_inner hp (.inr rfl)))
  · intro e cs h _
    exact .term e cs h
  · intro a c w hc _ ih hp
    exact .mk a c w hc (ih (hp c hc))
  · intro _
    exact .nil
  · intro r c u v _ _ ih1 ih2 hp
    exact .cons r c u v (ih1 (hp r (by simp))) (ih2 fun q hq => hp q (by simp [hq]))
  · intro mn mx e n w h1 h2 _ ih hp
    exact .mk mn mx e n w h1 h2 (ih hp)
  · intro e _
    exact .zero e
  · intro e n u v _ _ ih1 ih2 hp
    exact .succ e n u v (ih1 hp) (ih2 hp)

theorem part_to (hd : NamesDistinct g) (n : Str) (h : InPart g name (.rulename n)) (r : Rule) (hr : Resolves g n r) :
    Resolves (partOf g name) n r ∧ UsesRule g name r := ⟨(part_resolves hd h r).mp hr, part_uses hd h hr⟩

theorem part_from (hd : NamesDistinct g) (n : Str) (h : InPart g name (.rulename n)) (r : Rule) (hr : Resolves (partOf g name) n r) :
    Resolves g n r ∧ UsesRule g name r := by
  have := (part_resolves hd h r).mpr hr
  exact ⟨this, part_uses hd h this⟩

theorem part_derives_iff (hd : NamesDistinct g) {e : Elem} (he : InPart g name e) (w : Bytes) : Derives g e w ↔ Derives (partOf g name) e w :=
  ⟨fun h => part_derives (part_to hd) h he, fun h => part_derives (part_from hd) h he⟩

/-! ## Left corners -/

theorem part_vanishes {g1 g2 : Grammar} (hres : ∀ n, InPart g name (.rulename n) → ∀ r, Resolves g1 n r → Resolves g2 n r ∧ UsesRule g name r)
    {c : Concat} (h : VanishesConcat g1 c) : (∀ q ∈ c, InPart g name q.elem) → VanishesConcat g2 c := by
  refine VanishesConcat.rec
    (motive_1 := fun e _ => InPart g name e → Vanishes g2 e)
    (motive_2 := fun a _ => AltIn g name a → VanishesAlt g2 a)
    (motive_3 := fun c _ => (∀ q ∈ c, InPart g name q.elem) → VanishesConcat g2 c)
    (motive_4 := fun r _ => InPart g name r.elem → VanishesRep g2 r)
    ?_ ?_ ?_ ?_ ?_ ?_ ?_ ?_ ?_ h
  · intro n r hr _ ih hp
    obtain ⟨h1, h2⟩ := hres n hp r hr
    exact .rule n r h1 (ih (altIn_rule h2))
  · intro a _ ih hp
    exact .group a (ih (altIn_inner hp (.inl rfl)))
  · intro a _
    exact .option a
  · intro s _
    exact .empty s
  · intro a c hc _ ih hp
    exact .mk a c hc (ih (hp c hc))
  · intro _
    exact .nil
  · intro r c _ _ ih1 ih2 hp
    exact .cons r c (ih1 (hp r (by simp))) (ih2 fun q hq => hp q (by simp [hq]))
  · intro mx e _
    exact .none mx e
  · intro mn mx e _ ih hp
    exact .elem mn mx e (ih hp)

theorem part_starts {g1 g2 : Grammar} (hres : ∀ n, InPart g name (.rulename n) → ∀ r, Resolves g1 n r → Resolves g2 n r ∧ UsesRule g name r)
    {a : Alt} {e : Elem} (ha : AltIn g name a) (h : Starts g1 a e) : Starts g2 a e ∧ InPart g name e := by
  obtain ⟨pre, mn, mx, post, hc, hv⟩ := h
  exact ⟨⟨pre, mn, mx, post, hc, part_vanishes hres hv fun q hq => ha _ hc q (by simp [hq])⟩, ha _ hc ⟨mn, mx, e⟩ (by simp)⟩

theorem part_corner {g1 g2 : Grammar} (hres : ∀ n, InPart g name (.rulename n) → ∀ r, Resolves g1 n r → Resolves g2 n r ∧ UsesRule g name r)
    {e e' : Elem} (he : InPart g name e) (h : LeftCorner g1 e e') : LeftCorner g2 e e' ∧ InPart g name e' := by
  cases h with
  | rule n r _ hr hs =>
    obtain ⟨h1, h2⟩ := hres n he r hr
    obtain ⟨h3, h4⟩ := part_starts hres (altIn_rule h2) hs
    exact ⟨.rule n r _ h1 h3, h4⟩
  | group a _ hs =>
    obtain ⟨h3, h4⟩ := part_starts hres (altIn_inner he (.inl rfl)) hs
    exact ⟨.group a _ h3, h4⟩
  | option a _ hs =>
    obtain ⟨h3, h4⟩ := part_starts hres (altIn_inner he (.inr rfl)) hs
    exact ⟨.option a _ h3, h4⟩

theorem part_corners {g1 g2 : Grammar} (hres : ∀ n, InPart g name (.rulename n) → ∀ r, Resolves g1 n r → Resolves g2 n r ∧ UsesRule g name r)
    {e e' : Elem} (he : InPart g name e) (h : Relation.TransGen (LeftCorner g1) e e') :
    Relation.TransGen (LeftCorner g2) e e' ∧ InPart g name e' := by
  induction h with
  | single h =>
    obtain ⟨h1, h2⟩ := part_corner hres he h
    exact ⟨.single h1, h2⟩
  | tail _ h ih =>
    obtain ⟨h1, h2⟩ := part_corner hres ih.2 h
    exact ⟨ih.1.tail h1, h2⟩

/-! ## The core rules are not left-recursive -/

/-- Core rules refer to core rules of lower rank only. -/
def coreRank : Elem → Nat
  | .rulename n => if canon n = str% "lwsp" then 5 else if canon n ∈ [str% "wsp", str% "crlf", str% "hexdig"] then 3 else 1
  | .group _ => 4
  | .option _ => 4
  | _ => 0

/-- The elements of the core rules. -/
def InCore (e : Elem) : Prop := ∃ q ∈ rulesReps Core.rules, q.elem = e

theorem core_rank_rule : ∀ r ∈ Core.rules, ∀ c ∈ r.alt, ∀ q ∈ c, coreRank q.elem < coreRank (.rulename r.name) := by decide +kernel

/-- The alternation inside brackets. -/
def innerAlt : Elem → Alt
  | .group a => a
  | .option a => a
  | _ => []

theorem core_rank_inner : ∀ p ∈ rulesReps Core.rules, ∀ c ∈ innerAlt p.elem, ∀ q ∈ c, coreRank q.elem < coreRank p.elem := by decide +kernel

theorem coreRank_canon {m n : Str} (h : canon m = canon n) : coreRank (.rulename m) = coreRank (.rulename n) := by
  simp only [coreRank, h]

/-- One step to the left from an element of a core rule, in the grammar of the used rules, leads into the part or down. -/
theorem core_corner {e e' : Elem} (he : (InCore e ∨ ∃ n, e = .rulename n) ∧ ¬ InPart g name e)
    (h : LeftCorner (partOf g name) e e') : InPart g name e' ∨ (InCore e' ∧ coreRank e' < coreRank e) := by
  have inner : ∀ a, innerAlt e = a → (∀ n, e ≠ .rulename n) → Starts (partOf g name) a e' → InCore e' ∧ coreRank e' < coreRank e := by
    rintro a rfl hn ⟨pre, mn, mx, post, hc, _⟩
    rcases he.1 with ⟨p, hp, rfl⟩ | ⟨n, rfl⟩
    · refine ⟨?_, core_rank_inner p hp _ hc ⟨mn, mx, e'⟩ (by simp)⟩
      obtain ⟨R, hR, hp'⟩ := List.mem_flatMap.mp hp
      refine ⟨⟨mn, mx, e'⟩, List.mem_flatMap.mpr ⟨R, hR, altReps_trans _ p hp' _ ?_⟩, rfl⟩
      have : (⟨mn, mx, e'⟩ : Rep) ∈ pre ++ ⟨mn, mx, e'⟩ :: post := by simp
      cases hpe : p.elem with
      | group a => rw [hpe] at hc; rw [elemReps]; exact altReps_mem hc this
      | option a => rw [hpe] at hc; rw [elemReps]; exact altReps_mem hc this
      | rulename _ => rw [hpe] at hc; cases hc
      | charVal _ _ => rw [hpe] at hc; cases hc
      | numVal _ _ _ => rw [hpe] at hc; cases hc
      | proseVal _ => rw [hpe] at hc; cases hc
    · exact absurd rfl (hn n)
  cases h with
  | group a _ hs => exact .inr (inner a rfl (by simp) hs)
  | option a _ hs => exact .inr (inner a rfl (by simp) hs)
  | rule n r _ hr hs =>
    cases hr with
    | user hm hsn => exact absurd (.inr ⟨n, r, rfl, .user (mem_partOf.mp hm).1 hsn, (mem_partOf.mp hm).2⟩) he.2
    | core hm hsn _ =>
      obtain ⟨pre, mn, mx, post, hc, _⟩ := hs
      refine .inr ⟨⟨⟨mn, mx, e'⟩, List.mem_flatMap.mpr ⟨r, hm, altReps_mem hc (by simp)⟩, rfl⟩, ?_⟩
      rw [coreRank_canon ((sameName_iff _ _).mp hsn)]
      exact core_rank_rule r hm _ hc ⟨mn, mx, e'⟩ (by simp)

theorem core_corners (hd : NamesDistinct g) {e e' : Elem} (he : (InCore e ∨ ∃ n, e = .rulename n) ∧ ¬ InPart g name e)
    (h : Relation.TransGen (LeftCorner (partOf g name)) e e') : InPart g name e' ∨ (InCore e' ∧ coreRank e' < coreRank e) := by
  induction h with
  | single h => exact core_corner he h
  | @tail b _ _ h ih =>
    by_cases hp : InPart g name b
    · exact .inl (part_corner (part_from hd) hp h).2
    · rcases ih with ih | ih
      · exact absurd ih hp
      · rcases core_corner ⟨.inl ih.1, hp⟩ h with h | h
        · exact .inl h
        · exact .inr ⟨h.1, h.2.trans ih.2⟩

/-- If no used rule is left-recursive, nothing is in the grammar of the used rules. -/
theorem part_no_leftRec (hd : NamesDistinct g) (hl : ∀ r, UsesRule g name r → ¬ LeftRecursive g r.name) (n : Str) :
    ¬ LeftRecursive (partOf g name) n := by
  rintro ⟨m, hs, h⟩
  have hs' := (sameName_iff _ _).mp hs
  by_cases hp : InPart g name (.rulename n)
  · obtain ⟨h1, _⟩ := part_corners (part_from hd) hp h
    obtain ⟨r, hr⟩ : ∃ r, Resolves g n r := by
      have : ∃ x, LeftCorner g (.rulename n) x := by
        rcases Relation.TransGen.head'_iff.mp h1 with ⟨x, hx, _⟩
        exact ⟨x, hx⟩
      obtain ⟨x, hx⟩ := this
      cases hx with
      | rule _ r _ hr _ => exact ⟨r, hr⟩
    refine hl r (part_uses hd hp hr) ⟨m, (sameName_iff _ _).mpr ((resolves_name hr).trans hs'), ?_⟩
    rcases Relation.TransGen.head'_iff.mp h1 with ⟨x, hx, hxm⟩
    refine Relation.TransGen.head' ?_ hxm
    cases hx with
    | rule _ r' _ hr' hst => exact .rule _ r' _ ((resolves_congr (resolves_name hr)).mpr hr') hst
  · rcases core_corners hd ⟨.inr ⟨n, rfl⟩, hp⟩ h with hm | ⟨_, hm⟩
    · refine hp ?_
      obtain ⟨r, hr⟩ : ∃ r, Resolves (partOf g name) n r := by
        rcases Relation.TransGen.head'_iff.mp h with ⟨x, hx, _⟩
        cases hx with
        | rule _ r _ hr _ => exact ⟨r, hr⟩
      have := part_from hd m hm r ((resolves_congr hs').mp hr)
      exact .inr ⟨n, r, rfl, (resolves_congr hs').mpr this.1, this.2⟩
    · rw [coreRank_canon hs'] at hm
      exact absurd hm (lt_irrefl _)

/-! ## Grammars without left recursion -/

theorem inner_corners {g : Grammar} {e e' : Elem} (h : Relation.ReflTransGen (InnerCorner g) e e') : Relation.ReflTransGen (LeftCorner g) e e' := by
  refine Relation.ReflTransGen.mono (fun a b h => ?_) _ _ h
  cases h with
  | group a _ h => exact .group a _ h
  | option a _ h => exact .option a _ h

theorem simple_of_none {g : Grammar} (h : ∀ n, ¬ LeftRecursive g n) : SimpleLeftRecursion g := by
  rintro n m ⟨_, r, e, k, hr, hs, hi, hk⟩ _ _
  exact absurd ⟨k, (sameName_iff _ _).mpr ((sameName_iff _ _).mp hk).symm, Relation.TransGen.head' (.rule n r e hr hs) (inner_corners hi)⟩ (h n)

theorem starts_size {g : Grammar} {a : Alt} {e : Elem} (h : Starts g a e) : sizeOf e < sizeOf a := by
  obtain ⟨pre, mn, mx, post, hc, _⟩ := h
  have h1 := List.sizeOf_lt_of_mem hc
  have h2 : sizeOf (⟨mn, mx, e⟩ : Rep) < sizeOf (pre ++ ⟨mn, mx, e⟩ :: post) := List.sizeOf_lt_of_mem (by simp)
  have h3 : sizeOf e < sizeOf (⟨mn, mx, e⟩ : Rep) := by simp
  omega

/-- Going left leads to smaller elements until a name is met. -/
theorem corners_size {g : Grammar} {e e' : Elem} (he : ∀ n, e ≠ .rulename n) (h : Relation.TransGen (LeftCorner g) e e') :
    sizeOf e' < sizeOf e ∨ ∃ n, Relation.TransGen (LeftCorner g) e (.rulename n) ∧ Relation.ReflTransGen (LeftCorner g) (.rulename n) e' := by
  have step : ∀ a b, LeftCorner g a b → (∀ n, a ≠ .rulename n) → sizeOf b < sizeOf a := by
    intro a b h hn
    cases h with
    | rule n => exact absurd rfl (hn n)
    | group a _ hs => have := starts_size hs; simp; omega
    | option a _ hs => have := starts_size hs; simp; omega
  induction h with
  | single h => exact .inl (step _ _ h he)
  | @tail b c hb h ih =>
    rcases ih with ih | ⟨n, h1, h2⟩
    · by_cases hn : ∃ n, b = .rulename n
      · obtain ⟨n, rfl⟩ := hn
        exact .inr ⟨n, hb, .single h⟩
      · exact .inl ((step _ _ h fun n hb => hn ⟨n, hb⟩).trans ih)
    · exact .inr ⟨n, h1, h2.tail h⟩

theorem unbracketed_of_none {g : Grammar} (h : ∀ n, ¬ LeftRecursive g n) : UnbracketedLeftRecursion g := by
  intro e _ he hc
  rcases corners_size he hc with hs | ⟨n, h1, h2⟩
  · exact lt_irrefl _ hs
  · exact h n ⟨n, (sameName_iff _ _).mpr rfl, h1.trans_right h2⟩

theorem lrGood_nil {g : Grammar} (h : ∀ n, ¬ LeftRecursive g n) : LRGood g [] where
  mem := fun _ _ h => by cases h
  res := fun _ _ h => by cases h
  cyc := fun n hn => absurd hn (h n)
  conn := fun _ _ h => by cases h
  cons := fun _ _ h => by cases h
  nodup := fun _ _ h => by cases h
  same := fun _ _ h => by cases h

end

/-! ## The recogniser on the part -/

section
variable {g1 g2 : Grammar} {inp : Bytes} {m1 m2 : List (Str × List Str)} {s : Sched Nat} {rec rec' : RCall}

theorem repLoop_congr {mn : Nat} {mx : Option Nat} {e : Elem} (h : rec e = rec' e) : ∀ k c level seen ends st,
    repLoop ⟨g1, inp, m1, s⟩ rec mn mx e k c level seen ends st = repLoop ⟨g2, inp, m2, s⟩ rec' mn mx e k c level seen ends st := by
  intro k
  induction k with
  | zero => intros; rfl
  | succ k ih =>
    intro c level seen ends st
    rw [repLoop, repLoop]
    simp only [rangeSet, h, ih]

theorem reachRep_congr {r : Rep} (h : rec r.elem = rec' r.elem) : reachRep ⟨g1, inp, m1, s⟩ rec r = reachRep ⟨g2, inp, m2, s⟩ rec' r := by
  funext i st
  exact repLoop_congr h ..

theorem reachConcatFrom_congr : ∀ (c : List Rep) cur st, (∀ q ∈ c, rec q.elem = rec' q.elem) →
    reachConcatFrom ⟨g1, inp, m1, s⟩ rec c cur st = reachConcatFrom ⟨g2, inp, m2, s⟩ rec' c cur st := by
  intro c
  induction c with
  | nil => intros; rfl
  | cons r c ih =>
    intro cur st h
    have h1 : reachRep ⟨g1, inp, m1, s⟩ rec r = reachRep ⟨g2, inp, m2, s⟩ rec' r := reachRep_congr (h r (by simp))
    have h2 : ∀ cur st, reachConcatFrom ⟨g1, inp, m1, s⟩ rec c cur st = reachConcatFrom ⟨g2, inp, m2, s⟩ rec' c cur st :=
      fun cur st => ih cur st fun q hq => h q (by simp [hq])
    rw [reachConcatFrom, reachConcatFrom]
    simp only [rangeSet, h1, h2]

theorem reachAltFrom_congr (i : Nat) : ∀ (a : List Concat) out st, (∀ c ∈ a, ∀ q ∈ c, rec q.elem = rec' q.elem) →
    reachAltFrom ⟨g1, inp, m1, s⟩ rec i a out st = reachAltFrom ⟨g2, inp, m2, s⟩ rec' i a out st := by
  intro a
  induction a with
  | nil => intros; rfl
  | cons c a ih =>
    intro out st h
    have h1 : ∀ st, reachConcat ⟨g1, inp, m1, s⟩ rec c i st = reachConcat ⟨g2, inp, m2, s⟩ rec' c i st :=
      fun st => reachConcatFrom_congr c _ st (h c (by simp))
    have h2 : ∀ out st, reachAltFrom ⟨g1, inp, m1, s⟩ rec i a out st = reachAltFrom ⟨g2, inp, m2, s⟩ rec' i a out st :=
      fun out st => ih out st fun c hc => h c (by simp [hc])
    rw [reachAltFrom, reachAltFrom]
    simp only [h1, h2]

end

section
variable {g : Grammar} {name : Str} {inp : Bytes} {m : List (Str × List Str)} {s : Sched Nat}

theorem part_getRule (hd : NamesDistinct g) {n : Str} (h : InPart g name (.rulename n)) :
    getRule n g.rules = getRule n (partOf g name).rules := by
  cases hr : getRule n g.rules with
  | some r => exact ((getRule_iff (partOf_nd hd)).mpr ((part_resolves hd h r).mp ((getRule_iff hd).mp hr))).symm
  | none =>
    cases hr' : getRule n (partOf g name).rules with
    | none => rfl
    | some r =>
      have := (getRule_iff hd).mpr ((part_resolves hd h r).mpr ((getRule_iff (partOf_nd hd)).mp hr'))
      rw [hr] at this
      cases this

/-- On elements of the part the recogniser does the same for the whole grammar and for the part. -/
theorem part_reach (hd : NamesDistinct g) (hm : ∀ n, InPart g name (.rulename n) → m.lookup (canon n) = none) : ∀ k e, InPart g name e →
    reachElem ⟨g, inp, m, s⟩ k e = reachElem ⟨partOf g name, inp, [], s⟩ k e := by
  intro k
  induction k with
  | zero => intros; rfl
  | succ k ih =>
    intro e he
    funext i st
    rw [reachElem_succ, reachElem_succ]
    have h1 : leftRecOf ⟨g, inp, m, s⟩ e = none := by
      cases e with
      | rulename n => simp [leftRecOf, hm n he]
      | _ => rfl
    have h2 : leftRecOf ⟨partOf g name, inp, [], s⟩ e = none := by
      cases e <;> rfl
    rw [h1, h2]
    have alt : ∀ a, AltIn g name a → ∀ st, reachAlt ⟨g, inp, m, s⟩ (reachElem ⟨g, inp, m, s⟩ k) a i st =
        reachAlt ⟨partOf g name, inp, [], s⟩ (reachElem ⟨partOf g name, inp, [], s⟩ k) a i st :=
      fun a ha st => reachAltFrom_congr i a [] st fun c hc q hq => ih _ (ha c hc q hq)
    have hc : ∀ st, computeElem ⟨g, inp, m, s⟩ (reachElem ⟨g, inp, m, s⟩ k) e i st =
        computeElem ⟨partOf g name, inp, [], s⟩ (reachElem ⟨partOf g name, inp, [], s⟩ k) e i st := by
      intro st
      cases e with
      | rulename n =>
        simp only [computeElem, ← part_getRule hd he]
        cases hr : getRule n g.rules with
        | none => rfl
        | some r => exact alt _ (altIn_rule (part_uses hd he ((getRule_iff hd).mp hr))) st
      | group a => exact alt _ (altIn_inner he (.inl rfl)) st
      | option a =>
        simp only [computeElem]
        rw [alt _ (altIn_inner he (.inr rfl)) st]
      | _ => rfl
    simp only [reachMemo, hc]

theorem rulesReps_sublist {a b : List Rule} (h : a.Sublist b) : (rulesReps a).length ≤ (rulesReps b).length := by
  induction h with
  | slnil => exact le_rfl
  | cons x _ ih => simp only [rulesReps, List.flatMap_cons, List.length_append] at ih ⊢; omega
  | cons_cons x _ ih => simp only [rulesReps, List.flatMap_cons, List.length_append] at ih ⊢; omega

theorem rFuel_part : rFuel (partOf g name) inp ≤ rFuel g inp := by
  have : (rulesReps ((partOf g name).rules ++ Core.rules)).length ≤ (rulesReps (g.rules ++ Core.rules)).length :=
    rulesReps_sublist (List.Sublist.append (List.filter_sublist (l := g.rules)) (List.Sublist.refl _))
  unfold rFuel
  exact Nat.succ_le_succ (Nat.mul_le_mul_right _ (Nat.succ_le_succ this))

/-- A run of the recogniser from the start answers, with any sufficient depth, if no rule is left-recursive. -/
theorem reach_returns (E : REnv) (hs : E.sched.Fair) (hmem : ∀ m scc, E.leftRec.lookup m = some scc → m ∈ scc) (hc : LRConsistent E.leftRec)
    (name : Str) (fuel : Nat) (hf : rFuel E.g E.inp ≤ fuel) : ∃ x, reachElem E fuel (.rulename name) 0 rInit = .ok x := by
  let K : List CallKey := ((rulesReps (E.g.rules ++ Core.rules)).map Rep.elem ++ [Elem.rulename name]).flatMap fun e =>
    (List.range (E.inp.length + 1)).map fun i => fileKey E e i
  let U : Elem → Prop := fun e => Occurs E.g e ∨ e = .rulename name
  have hU : Closed E.g U := by
    refine ⟨fun n r hn c hc q hq => Or.inl (occurs_rule (getRule_resolves hn) hc hq), fun a ha c hc q hq => ?_, fun a ha c hc q hq => ?_⟩
    · rcases ha with ha | ha
      · exact Or.inl (occurs_inner ha (a := a) (by simp [elemReps]) hc hq)
      · cases ha
    · rcases ha with ha | ha
      · exact Or.inl (occurs_inner ha (a := a) (by simp [elemReps]) hc hq)
      · cases ha
  have hK : ∀ e i, U e → i ≤ E.inp.length → fileKey E e i ∈ K := by
    intro e i he hi
    refine List.mem_flatMap.mpr ⟨e, ?_, List.mem_map.mpr ⟨i, List.mem_range.mpr (by omega), rfl⟩⟩
    rcases he with ⟨q, hq, rfl⟩ | rfl
    · exact List.mem_append_left _ (List.mem_map.mpr ⟨q, hq, rfl⟩)
    · simp
  have hlen : K.length = ((rulesReps (E.g.rules ++ Core.rules)).length + 1) * (E.inp.length + 1) := by
    simp [K, List.length_flatMap, Nat.add_mul, Function.comp_def, List.map_const']
  have := reachElem_term (K := K) hU hs hmem hK fuel (.rulename name) 0 rInit (Or.inr rfl) (Nat.zero_le _)
    ⟨lt_of_le_of_lt (List.length_filter_le _ _) (by rw [hlen]; rw [rFuel] at hf; omega), fun _ _ h => (List.not_mem_nil h).elim,
      fun _ _ h => (List.not_mem_nil h).elim, fun _ _ _ _ _ h => by cases h⟩
  cases hx : reachElem E fuel (.rulename name) 0 rInit with
  | ok x => exact ⟨x, rfl⟩
  | fuel => rw [hx] at this; exact this.elim
  | panic => rw [hx] at this; exact absurd hc this

theorem occurs_part {e : Elem} (h : Occurs (partOf g name) e) : Occurs g e := by
  obtain ⟨q, hq, rfl⟩ := h
  obtain ⟨R, hR, hq⟩ := List.mem_flatMap.mp hq
  refine ⟨q, List.mem_flatMap.mpr ⟨R, ?_, hq⟩, rfl⟩
  rcases List.mem_append.mp hR with h | h
  · exact List.mem_append_left _ (mem_partOf.mp h).1
  · exact List.mem_append_right _ h

end

namespace Props

/-- The strings of the rules that `name` uses, and of the core rules, have one case-sensitivity each. -/
def PartConsistent (g : Grammar) (name : Str) : Prop :=
  ∀ r r', (UsesRule g name r ∨ r ∈ Core.rules) → (UsesRule g name r' ∨ r' ∈ Core.rules) → ∀ p ∈ altStrings r.alt, ∀ q ∈ altStrings r'.alt,
    p.2 = q.2 → p.1 = q.1

theorem part_isValid (g : Grammar) (hd : NamesDistinct g) (name : Str) (r0 : Rule) (h0 : Resolves g name r0)
    (hl : ∀ r, UsesRule g name r → ¬ LeftRecursive g r.name) (o : LOrders) (ho : o.Fair g) (sched : Sched Nat) (hs : sched.Fair) (inp : Bytes) :
    ∃ x, reachElem ⟨partOf g name, inp, [], sched⟩ (rFuel g inp) (.rulename name) 0 rInit = .ok x ∧
      isValid o sched g name inp = some (.ok (decide (inp.length ∈ x.1))) := by
  obtain ⟨m, hm, hf, _⟩ := leftRec_spec hd ho
  have hin : InPart g name (.rulename name) := .inr ⟨name, r0, rfl, h0, r0, h0, .refl⟩
  have hlook : ∀ n, InPart g name (.rulename n) → m.lookup (canon n) = none := by
    intro n hn
    cases hx : m.lookup (canon n) with
    | none => rfl
    | some S =>
      exfalso
      have hmem := hf.mem _ _ hx
      obtain ⟨y, hy, hyt⟩ := hf.conn _ _ hx _ hmem _ hmem
      obtain ⟨_, r, hr⟩ := hf.res _ _ hx _ hmem
      have hr' : Resolves g n r := (resolves_congr (canon_canon n)).mp hr
      refine hl r (part_uses hd hn hr') ⟨y, (sameName_iff _ _).mpr ((resolves_name hr').trans hy.symm), ?_⟩
      rcases Relation.TransGen.head'_iff.mp hyt with ⟨x, hx, hxm⟩
      refine Relation.TransGen.head' ?_ hxm
      cases hx with
      | rule _ r' _ hr2 hst => exact .rule _ r' _ ((resolves_congr (resolves_name hr)).mpr hr2) hst
  have hg : getRule name g.rules = some r0 := (getRule_iff hd).mpr h0
  obtain ⟨x, hx⟩ := reach_returns ⟨partOf g name, inp, [], sched⟩ hs (fun _ _ h => by cases h) (fun _ _ h => by cases h) name
    (rFuel g inp) rFuel_part
  refine ⟨x, hx, ?_⟩
  unfold isValid
  rw [hg]
  simp only [hm]
  unfold isValidWith
  simp only [hg]
  rw [part_reach hd hlook _ _ hin, hx, Run.bnd]

/-- C44 for one rule, whatever the rest of the grammar: if no rule it uses is left-recursive, `IsValid` answers.  Missing: left-recursive
rules, see `C44_returns_partial` and `C44_fails`. -/
theorem C44_rule_partial (g : Grammar) (hd : NamesDistinct g) (name : Str) (r0 : Rule) (h0 : Resolves g name r0)
    (hl : ∀ r, UsesRule g name r → ¬ LeftRecursive g r.name) (o : LOrders) (ho : o.Fair g) (sched : Sched Nat) (hs : sched.Fair) (inp : Bytes) :
    ∃ b, isValid o sched g name inp = some (.ok b) :=
  let ⟨_, _, h⟩ := part_isValid g hd name r0 h0 hl o ho sched hs inp
  ⟨_, h⟩

theorem part_strings {g : Grammar} {name : Str} (hc : PartConsistent g name) : CaseConsistent (partOf g name).strings := by
  intro p hp q hq
  obtain ⟨R, hR, hp⟩ := List.mem_flatMap.mp hp
  obtain ⟨R', hR', hq⟩ := List.mem_flatMap.mp hq
  have aux : ∀ R ∈ (partOf g name).rules ++ Core.rules, UsesRule g name R ∨ R ∈ Core.rules := by
    intro R hR
    rcases List.mem_append.mp hR with h | h
    · exact .inl (mem_partOf.mp h).2
    · exact .inr h
  exact hc R R' (aux R hR) (aux R' hR') p hp q hq

/-- C04 for one rule that uses no left-recursive one, whatever the rest of the grammar: what `IsValid` accepts is derivable. -/
theorem C04_rule (g : Grammar) (hd : NamesDistinct g) (name : Str) (r0 : Rule) (h0 : Resolves g name r0)
    (hw : ∀ r, UsesRule g name r → r.written = true) (hc : PartConsistent g name)
    (hl : ∀ r, UsesRule g name r → ¬ LeftRecursive g r.name)
    (o : LOrders) (ho : o.Fair g) (sched : Sched Nat) (hs : sched.Fair) (inp : Bytes)
    (h : isValid o sched g name inp = some (.ok true)) : DerivesRule g name inp := by
  have hin : InPart g name (.rulename name) := .inr ⟨name, r0, rfl, h0, r0, h0, .refl⟩
  have hwp : ∀ r ∈ (partOf g name).rules, r.written = true := fun r hr => hw r (mem_partOf.mp hr).2
  obtain ⟨x, hx, hv⟩ := part_isValid g hd name r0 h0 hl o ho sched hs inp
  rw [hv] at h
  simp only [Option.some.injEq, Run.ok.injEq, decide_eq_true_eq] at h
  have := reachElem_sound (E := ⟨partOf g name, inp, [], sched⟩) (distinctElems_of_written hwp (part_strings hc))
    (occurs_termWF (numValsWF_of_written hwp)) (fun _ _ h => by cases h) hs (rFuel g inp) (.rulename name) 0 rInit
    (Or.inr ⟨name, r0, rfl, (part_resolves hd hin r0).mp h0⟩) (Nat.zero_le _)
    ⟨fun _ _ h => (List.not_mem_nil h).elim, fun _ _ h => (List.not_mem_nil h).elim⟩
  rw [hx] at this
  obtain ⟨w, h1, ⟨t, ht⟩, h2⟩ := this.2.2.1 _ h
  have hw : w = inp := by
    have h3 := congrArg List.length ht
    simp only [List.length_append, List.drop_zero] at h3
    have : t = [] := List.length_eq_zero_iff.mp (by omega)
    rw [this] at ht
    simpa using ht
  rw [hw] at h1
  exact (part_derives_iff hd hin _).mpr h1

/-- C05 and C44 for one rule, whatever the rest of the grammar: if no rule it uses is left-recursive, these rules can be written in
ABNF and their repetitions are counted correctly, `IsValid` returns, and accepts exactly the texts of the rule.  Missing: left-recursive
rules, for which see `C05_complete_written_partial`, and other repetitions, see `C05_fails`. -/
theorem C05_rule_partial (g : Grammar) (hd : NamesDistinct g) (name : Str) (r0 : Rule) (h0 : Resolves g name r0)
    (hw : ∀ r, UsesRule g name r → r.written = true) (hc : PartConsistent g name)
    (hl : ∀ r, UsesRule g name r → ¬ LeftRecursive g r.name) (ht : ∀ r, UsesRule g name r → ∀ q ∈ altReps r.alt, Tallied g q)
    (o : LOrders) (ho : o.Fair g) (sched : Sched Nat) (hs : sched.Fair) (inp : Bytes) :
    ∃ b, isValid o sched g name inp = some (.ok b) ∧ (b = true ↔ DerivesRule g name inp) := by
  have hnone := part_no_leftRec hd hl
  have hin : InPart g name (.rulename name) := .inr ⟨name, r0, rfl, h0, r0, h0, .refl⟩
  have hwp : ∀ r ∈ (partOf g name).rules, r.written = true := fun r hr => hw r (mem_partOf.mp hr).2
  have hcp := part_strings hc
  have hF : Fit ⟨partOf g name, inp, [], sched⟩ := by
    refine ⟨partOf_nd hd, distinctElems_of_written hwp hcp, occurs_termWF (numValsWF_of_written hwp), noEmptySeries_of_written hwp,
      lrGood_nil hnone, unbracketed_of_none hnone, fun q hq => ?_, hs⟩
    obtain ⟨R, hR, hq⟩ := List.mem_flatMap.mp hq
    rcases List.mem_append.mp hR with h | h
    · refine Tallied.countable ?_ _
      have hu := (mem_partOf.mp h).2
      have he : InPart g name q.elem := .inl ⟨R, hu, q, hq, rfl⟩
      rcases ht R hu q hq with h1 | ⟨h1, h2⟩ | ⟨h1, h2⟩ | ⟨h1, h2, _⟩
      · exact .inl h1
      · exact .inr (.inl ⟨h1, fun h => h2 ((part_derives_iff hd he _).mpr h)⟩)
      · refine .inr (.inr (.inl ⟨fun v w hv hw => h1 v w ((part_derives_iff hd he _).mpr hv) ((part_derives_iff hd he _).mpr hw),
          fun h => h2 ((part_derives_iff hd he _).mpr h)⟩))
      · refine .inr (.inr (.inr ⟨fun v w hv hw => (part_derives_iff hd he _).mp
          (h1 v w ((part_derives_iff hd he _).mpr hv) ((part_derives_iff hd he _).mpr hw)),
          fun h => h2 ((part_derives_iff hd he _).mpr h), fun n _ => hnone n⟩))
    · have : ∀ R ∈ Core.rules, ∀ r ∈ altReps R.alt, r.min ≤ 2 := by decide
      exact Or.inl (this R h q hq)
  obtain ⟨x, hx, hv⟩ := part_isValid g hd name r0 h0 hl o ho sched hs inp
  have hfull := reachElem_full hF (rFuel g inp) (.rulename name) 0 rInit
    (Or.inr ⟨name, r0, rfl, (part_resolves hd hin r0).mp h0⟩) (Nat.zero_le _)
    ⟨⟨fun _ _ h => (List.not_mem_nil h).elim, fun _ _ h => (List.not_mem_nil h).elim⟩, fun _ _ h => (List.not_mem_nil h).elim⟩
    { ppos := fun _ _ h => (List.not_mem_nil h).elim
      gpos := fun _ _ _ h => by cases h
      lr := fun _ _ _ h => by cases h
      closed := fun _ _ _ _ h => by cases h
      prog := fun _ _ h => (List.not_mem_nil h).elim
      grow := fun _ _ h => by cases h }
  rw [hx] at hfull
  refine ⟨_, hv, ?_⟩
  rw [decide_eq_true_eq]
  constructor
  · intro h
    exact C04_rule g hd name r0 h0 hw hc hl o ho sched hs inp (hv.trans (by rw [decide_eq_true h]))
  · intro h
    refine hfull.2.2.2.1 _ ⟨⟨inp, (part_derives_iff hd hin _).mp h, ?_⟩, fun m s _ hl => by cases hl⟩
    exact ⟨⟨[], by simp⟩, by simp⟩

/-! ## Rules without cycles -/

theorem corner_refers {g : Grammar} {r : Rule} {e e' : Elem} (h : Relation.ReflTransGen (LeftCorner g) e e') :
    (∃ q ∈ altReps r.alt, q.elem = e) → (∃ q ∈ altReps r.alt, q.elem = e') ∨
      ∃ r', Relation.TransGen (Refers g) r r' ∧ ∃ q ∈ altReps r'.alt, q.elem = e' := by
  intro h0
  induction h with
  | refl => exact .inl h0
  | @tail b c _ h ih =>
    have aux : ∀ r1 : Rule, (∃ q ∈ altReps r1.alt, q.elem = b) → (∃ q ∈ altReps r1.alt, q.elem = c) ∨
        ∃ r', Refers g r1 r' ∧ ∃ q ∈ altReps r'.alt, q.elem = c := by
      rintro r1 ⟨q, hq, he⟩
      cases h with
      | rule n r2 _ hr hs =>
        obtain ⟨pre, mn, mx, post, hc, _⟩ := hs
        exact .inr ⟨r2, ⟨q, hq, n, he, hr⟩, _, altReps_mem hc (q := ⟨mn, mx, _⟩) (by simp), rfl⟩
      | group a _ hs =>
        obtain ⟨pre, mn, mx, post, hc, _⟩ := hs
        exact .inl ⟨⟨mn, mx, _⟩, altReps_trans _ q hq _ (by rw [he, elemReps]; exact altReps_mem hc (by simp)), rfl⟩
      | option a _ hs =>
        obtain ⟨pre, mn, mx, post, hc, _⟩ := hs
        exact .inl ⟨⟨mn, mx, _⟩, altReps_trans _ q hq _ (by rw [he, elemReps]; exact altReps_mem hc (by simp)), rfl⟩
    rcases ih with ih | ⟨r', h1, h2⟩
    · rcases aux r ih with h | ⟨r', h1, h2⟩
      · exact .inl h
      · exact .inr ⟨r', .single h1, h2⟩
    · rcases aux r' h2 with h | ⟨r2, h3, h4⟩
      · exact .inr ⟨r', h1, h⟩
      · exact .inr ⟨r2, h1.tail h3, h4⟩

/-- A left-recursive rule is cyclic. -/
theorem leftRec_cyclic {g : Grammar} (hd : NamesDistinct g) {n : Str} {r : Rule} (hr : Resolves g n r) (h : LeftRecursive g r.name) : Cyclic g r := by
  obtain ⟨m, hs, h⟩ := h
  rcases Relation.TransGen.head'_iff.mp h with ⟨x, hx, hxm⟩
  cases hx with
  | rule _ r1 _ hr1 hst =>
    have : r1 = r := by
      have h1 := (getRule_iff hd).mpr (resolves_self hr)
      have h2 := (getRule_iff hd).mpr hr1
      rw [h1] at h2
      exact (Option.some.inj h2).symm
    subst this
    have hm : Resolves g m r1 := (resolves_congr ((sameName_iff _ _).mp hs)).mp hr1
    obtain ⟨pre, mn, mx, post, hc, _⟩ := hst
    rcases corner_refers hxm ⟨⟨mn, mx, x⟩, altReps_mem hc (by simp), rfl⟩ with ⟨q, hq, he⟩ | ⟨r', h1, q, hq, he⟩
    · exact .single ⟨q, hq, m, he, hm⟩
    · exact h1.tail ⟨q, hq, m, he, hm⟩

theorem noLeftRec_of_noCycle {g : Grammar} (hd : NamesDistinct g) {name : Str}
    (h : ∀ r, UsesRule g name r → ¬ Cyclic g r) (r : Rule) (hr : UsesRule g name r) : ¬ LeftRecursive g r.name := by
  intro hl
  obtain ⟨r0, h0, h1⟩ := hr
  have : ∃ n, Resolves g n r := by
    rcases Relation.ReflTransGen.cases_tail h1 with rfl | ⟨_, _, h2⟩
    · exact ⟨_, h0⟩
    · exact ⟨_, refers_resolves h2⟩
  obtain ⟨n, hn⟩ := this
  exact h r ⟨r0, h0, h1⟩ (leftRec_cyclic hd hn hl)

/-- The rules that `name` uses can be written in ABNF, no two strings in them differ in case-sensitivity alone, and the recogniser counts
their repetitions correctly. -/
structure Checkable (g : Grammar) (name : Str) : Prop where
  written : ∀ r, UsesRule g name r → r.written = true
  cased : PartConsistent g name
  tallied : ∀ r, UsesRule g name r → ∀ q ∈ altReps r.alt, Tallied g q

/-- C05 in terms of the API: if `RuleContainsCycle` is false for the rule, `IsValid` accepts exactly the texts of the rule.  Missing:
the repetitions that `Checkable` leaves out, see `C05_fails`, and rules with cycles, see `C05_complete_written_partial`. -/
theorem C05_acyclic_partial (g : Grammar) (hd : NamesDistinct g) (name : Str) (core : List Rule) (hcore : core.Perm Core.rules)
    (order : List Str) (hor : order.Perm ((dependencyGraph core g).map Prod.fst))
    (hcyc : ruleContainsCycle core g order name = some (.ok false)) (hc : Checkable g name)
    (o : LOrders) (ho : o.Fair g) (sched : Sched Nat) (hs : sched.Fair) (inp : Bytes) :
    ∃ b, isValid o sched g name inp = some (.ok b) ∧ (b = true ↔ DerivesRule g name inp) := by
  obtain ⟨h1, h2⟩ := C20_exact g hd core hcore order hor name
  have : ∃ r, Resolves g name r := by
    by_contra hn
    rw [h1.mpr hn] at hcyc
    cases hcyc
  obtain ⟨r0, h0⟩ := this
  obtain ⟨b, hb, hbc⟩ := h2 r0 h0
  rw [hcyc] at hb
  simp only [Option.some.injEq, Run.ok.injEq] at hb
  refine C05_rule_partial g hd name r0 h0 hc.written hc.cased (noLeftRec_of_noCycle hd fun r hr hcy => ?_) hc.tallied o ho sched hs inp
  obtain ⟨r1, h3, h4⟩ := hr
  have : r1 = r0 := by
    have h5 := (getRule_iff hd).mpr h3
    rw [(getRule_iff hd).mpr h0] at h5
    exact (Option.some.inj h5).symm
  subst this
  have := hbc.mpr ⟨r, h4, hcy⟩
  rw [← hb] at this
  cases this

/-! ## Checking the hypotheses -/

/-- The list of names contains the given one and is closed under reference. -/
def usesB (g : Grammar) (name : Str) (l : List Str) : Bool :=
  l.contains (canon name) && l.all fun n => match getRule n g.rules with
    | some r => (altReps r.alt).all fun q => match q.elem with
      | .rulename k => l.contains (canon k)
      | _ => true
    | none => true

theorem uses_of {g : Grammar} (hd : NamesDistinct g) {name : Str} (l : List Str) (h : usesB g name l = true) (r : Rule) (hr : UsesRule g name r) :
    ∃ n ∈ l, getRule n g.rules = some r := by
  unfold usesB at h
  rw [Bool.and_eq_true, List.all_eq_true] at h
  obtain ⟨r0, h0, h1⟩ := hr
  induction h1 with
  | refl => exact ⟨canon name, by simpa using h.1, (getRule_iff hd).mpr ((resolves_congr (canon_canon name)).mpr h0)⟩
  | tail _ h2 ih =>
    obtain ⟨n, hn, hg⟩ := ih
    obtain ⟨q, hq, k, he, hk⟩ := h2
    have := h.2 n hn
    rw [hg] at this
    simp only [List.all_eq_true] at this
    have := this q hq
    rw [he] at this
    exact ⟨canon k, by simpa using this, (getRule_iff hd).mpr ((resolves_congr (canon_canon k)).mpr hk)⟩

/-- The conditions of `Checkable` on a list of rules; repetitions with lower bounds of at most two are counted correctly. -/
def checkableB (g : Grammar) (l : List Str) : Bool :=
  let rs := l.filterMap fun n => getRule n g.rules
  rs.all (fun r => r.written && (altReps r.alt).all fun q => decide (q.min ≤ 2)) &&
    let strs := (rs ++ Core.rules).flatMap fun r => altStrings r.alt
    strs.all fun p => strs.all fun q => decide (p.2 = q.2 → p.1 = q.1)

theorem checkable_of {g : Grammar} (hd : NamesDistinct g) {name : Str} (l : List Str) (hu : usesB g name l = true) (h : checkableB g l = true) :
    Checkable g name := by
  have mem : ∀ r, UsesRule g name r → r ∈ l.filterMap fun n => getRule n g.rules := by
    intro r hr
    obtain ⟨n, hn, hg⟩ := uses_of hd l hu r hr
    exact List.mem_filterMap.mpr ⟨n, hn, hg⟩
  unfold checkableB at h
  simp only [Bool.and_eq_true, List.all_eq_true, decide_eq_true_eq] at h
  refine ⟨fun r hr => (h.1 r (mem r hr)).1, fun r r' hr hr' p hp q hq => ?_, fun r hr q hq => .inl ((h.1 r (mem r hr)).2 q hq)⟩
  have aux : ∀ R, UsesRule g name R ∨ R ∈ Core.rules → R ∈ (l.filterMap fun n => getRule n g.rules) ++ Core.rules := by
    rintro R (hR | hR)
    · exact List.mem_append_left _ (mem R hR)
    · exact List.mem_append_right _ hR
  exact h.2 p (List.mem_flatMap.mpr ⟨r, aux r hr, hp⟩) q (List.mem_flatMap.mpr ⟨r', aux r' hr', hq⟩)

/-- A rule next to ones on which `IsValid` panics: `id = ALPHA *( ALPHA / DIGIT )`. -/
def mixed : Grammar := ⟨nested.rules ++ [⟨str% "id", [[Ex.one (Ex.ref (str% "ALPHA")),
  ⟨0, none, .group [[Ex.one (Ex.ref (str% "ALPHA"))], [Ex.one (Ex.ref (str% "DIGIT"))]]⟩]]⟩]⟩

theorem mixed_nd : NamesDistinct mixed := namesDistinct_of (by decide)

/-- `C05_complete_written_partial` says nothing of this grammar, `C05_acyclic_partial` does: the panic of the rule `a` does not matter
for the rule `id`. -/
example : NamesDistinct mixed ∧ Checkable mixed (str% "id") ∧ (plainOrder mixed).Perm ((dependencyGraph Core.rules mixed).map Prod.fst) ∧
    ruleContainsCycle Core.rules mixed (plainOrder mixed) (str% "id") = some (.ok false) ∧
    ¬ SimpleLeftRecursion mixed ∧ isValid (plainOrders mixed) plainSched mixed (str% "a") (bytes% "zx") = some .panic ∧
    isValid (plainOrders mixed) plainSched mixed (str% "id") (bytes% "z7") = some (.ok true) := by
  refine ⟨mixed_nd, checkable_of mixed_nd [str% "id", str% "alpha", str% "digit"] (by decide +kernel) (by decide +kernel), ?_, by decide +kernel,
    ?_, by decide +kernel, by decide +kernel⟩
  · exact .refl _
  · intro h
    rcases C44_returns_partial mixed mixed_nd h (plainOrders mixed) (plainOrders_fair _) plainSched plainSched_fair (str% "a") (bytes% "zx") with
      ⟨h, _⟩ | ⟨b, h, _⟩ <;> rw [show isValid (plainOrders mixed) plainSched mixed (str% "a") (bytes% "zx") = some .panic by decide +kernel] at h <;>
      cases h

end Props

end Verif
