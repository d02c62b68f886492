import Verif.TreeSpec
import Verif.OnceKit

/-! # Derivation trees and the texts they spell -/

namespace Verif
open Spec

namespace Spelt

section
variable (Q : Str → ParseTree → Str → Prop)

mutual
/-- The trees are a way element `e` spells a text, when `Q n t s` says that tree `t` is one for the rule called `n`
and spells `s`. -/
inductive PElem : Elem → List ParseTree → Str → Prop
  | rule (n t s) : Q n t s → PElem (.rulename n) [t] s
  | group (a ts s) : PAlt a ts s → PElem (.group a) ts s
  | optNone (a) : PElem (.option a) [] []
  | optSome (a ts s) : PAlt a ts s → PElem (.option a) ts s
  | term (e cs i j) : Terminal e cs → PElem e [.node [] i j []] cs
  | empty (e) : Terminal e [] → PElem e [] []
/-- The same for an alternation. -/
inductive PAlt : Alt → List ParseTree → Str → Prop
  | mk (a c ts s) : c ∈ a → PConcat c ts s → PAlt a ts s
/-- For a concatenation. -/
inductive PConcat : Concat → List ParseTree → Str → Prop
  | nil : PConcat [] [] []
  | cons (r c ts us s t) : PRep r ts s → PConcat c us t → PConcat (r :: c) (ts ++ us) (s ++ t)
/-- For a repetition. -/
inductive PRep : Rep → List ParseTree → Str → Prop
  | mk (mn mx e n ts s) : mn ≤ n → (∀ m, mx = some m → n ≤ m) → PTimes e n ts s → PRep ⟨mn, mx, e⟩ ts s
/-- For `n` occurrences. -/
inductive PTimes : Elem → Nat → List ParseTree → Str → Prop
  | zero (e) : PTimes e 0 [] []
  | succ (e n ts us s t) : PElem e ts s → PTimes e n us t → PTimes e (n + 1) (ts ++ us) (s ++ t)
end
end

/-- No reference has an empty name. -/
def Named (rs : List Rep) : Prop := ∀ r ∈ rs, r.elem ≠ .rulename []

section
variable {Q : Str → ParseTree → Str → Prop} {inp : Bytes}

/-- What is known about the nodes of a list of trees. -/
def Known (Q : Str → ParseTree → Str → Prop) (inp : Bytes) (ts : List ParseTree) : Prop :=
  ∀ r i j ch, ParseTree.node r i j ch ∈ ts → r ≠ [] → ∃ s, At inp i j (utf8 s) ∧ ∀ n, SameName n r → Q n (.node r i j ch) s

theorem Known.left {ts us : List ParseTree} (h : Known Q inp (ts ++ us)) : Known Q inp ts :=
  fun r i j ch hm => h r i j ch (List.mem_append_left _ hm)
theorem Known.right {ts us : List ParseTree} (h : Known Q inp (ts ++ us)) : Known Q inp us :=
  fun r i j ch hm => h r i j ch (List.mem_append_right _ hm)

theorem at_glue {s t : Str} {i j k : Nat} (h1 : At inp i j (utf8 s)) (h2 : At inp j k (utf8 t)) : At inp i k (utf8 (s ++ t)) := by
  rw [utf8_append, at_append]
  have := h1.2
  subst this
  exact ⟨h1, h2⟩

theorem at_empty (i : Nat) : At inp i i (utf8 []) := by rw [utf8_nil, at_nil]

theorem concatReps_sub {a : List (List Rep)} {c : Concat} (hc : c ∈ a) {r : Rep} (hr : r ∈ concatReps c) : r ∈ altReps a := by
  induction a with
  | nil => cases hc
  | cons d a ih =>
    rw [altReps]
    rcases List.mem_cons.mp hc with rfl | hc
    · exact List.mem_append_left _ hr
    · exact List.mem_append_right _ (ih hc)

theorem alt_spells {a : Alt} {ts : List ParseTree} {i j : Nat} (h : AltTrees inp a ts i j) :
    Known Q inp ts → Named (altReps a) → ∃ s, At inp i j (utf8 s) ∧ PAlt Q a ts s := by
  refine AltTrees.rec (inp := inp)
    (motive_1 := fun e ts i j _ => Known Q inp ts → e ≠ .rulename [] → Named (elemReps e) →
      ∃ s, At inp i j (utf8 s) ∧ PElem Q e ts s)
    (motive_2 := fun a ts i j _ => Known Q inp ts → Named (altReps a) → ∃ s, At inp i j (utf8 s) ∧ PAlt Q a ts s)
    (motive_3 := fun c ts i j _ => Known Q inp ts → Named (concatReps c) → ∃ s, At inp i j (utf8 s) ∧ PConcat Q c ts s)
    (motive_4 := fun r ts i j _ => Known Q inp ts → Named (repReps r) → ∃ s, At inp i j (utf8 s) ∧ PRep Q r ts s)
    (motive_5 := fun e n ts i j _ => Known Q inp ts → e ≠ .rulename [] → Named (elemReps e) →
      ∃ s, At inp i j (utf8 s) ∧ PTimes Q e n ts s)
    ?_ ?_ ?_ ?_ ?_ ?_ ?_ ?_ ?_ ?_ ?_ ?_ h
  · intro n r i j ch hn hk hne _
    have hr : r ≠ [] := by
      rintro rfl
      rw [sameName_iff] at hn
      have : n = [] := by simpa [canon] using hn
      exact hne (by rw [this])
    obtain ⟨s, h1, h2⟩ := hk r i j ch (List.mem_singleton_self _) hr
    exact ⟨s, h1, .rule _ _ _ (h2 n hn)⟩
  · intro a ts i j _ ih hk _ hn
    obtain ⟨s, h1, h2⟩ := ih hk (by simpa [elemReps] using hn)
    exact ⟨s, h1, .group _ _ _ h2⟩
  · intro a i _ _ _
    exact ⟨[], at_empty i, .optNone _⟩
  · intro a ts i j _ ih hk _ hn
    obtain ⟨s, h1, h2⟩ := ih hk (by simpa [elemReps] using hn)
    exact ⟨s, h1, .optSome _ _ _ h2⟩
  · intro e cs i j ht hb _ _ _
    exact ⟨cs, hb, .term _ _ _ _ ht⟩
  · intro e i ht _ _ _
    exact ⟨[], at_empty i, .empty _ ht⟩
  · intro a c ts i j hc _ ih hk hn
    obtain ⟨s, h1, h2⟩ := ih hk fun r hr => hn r (concatReps_sub hc hr)
    exact ⟨s, h1, .mk _ _ _ _ hc h2⟩
  · intro i _ _
    exact ⟨[], at_empty i, .nil⟩
  · intro r c ts us i j k _ _ ih1 ih2 hk hn
    obtain ⟨s, h1, h2⟩ := ih1 hk.left fun q hq => hn q (by rw [concatReps]; exact List.mem_append_left _ hq)
    obtain ⟨t, h3, h4⟩ := ih2 hk.right fun q hq => hn q (by rw [concatReps]; exact List.mem_append_right _ hq)
    exact ⟨s ++ t, at_glue h1 h3, .cons _ _ _ _ _ _ h2 h4⟩
  · intro mn mx e n ts i j h1 h2 _ ih hk hn
    obtain ⟨s, h3, h4⟩ := ih hk (hn ⟨mn, mx, e⟩ (by simp [repReps])) fun q hq => hn q (by simp [repReps, hq])
    exact ⟨s, h3, .mk _ _ _ _ _ _ h1 h2 h4⟩
  · intro e i _ _ _
    exact ⟨[], at_empty i, .zero _⟩
  · intro e n ts us i j k _ _ ih1 ih2 hk hne hn
    obtain ⟨s, h1, h2⟩ := ih1 hk.left hne hn
    obtain ⟨t, h3, h4⟩ := ih2 hk.right hne hn
    exact ⟨s ++ t, at_glue h1 h3, .succ _ _ _ _ _ _ h2 h4⟩

/-- Induction over derivation trees, with the text each node spells. -/
theorem DerivationTree.spells {g : Grammar} (hn : Named (rulesReps (g.rules ++ Core.rules)))
    (step : ∀ (r : Rule) i j ch s, Resolves g r.name r → At inp i j (utf8 s) → PAlt Q r.alt ch s →
      ∀ n, SameName n r.name → Q n (.node r.name i j ch) s) {t : ParseTree} (h : DerivationTree g inp t) :
    Known Q inp [t] := by
  induction h with
  | leaf s e =>
    intro r i j ch hm hr
    simp at hm
    exact absurd hm.1 hr
  | rule r s e ch hr ha hch ih =>
    intro r' i j ch' hm hr'
    simp only [List.mem_singleton, ParseTree.node.injEq] at hm
    obtain ⟨rfl, rfl, rfl, rfl⟩ := hm
    have hk : Known Q inp ch' := fun r i j c hm => ih _ hm r i j c (List.mem_singleton_self _)
    have hmem : r ∈ g.rules ++ Core.rules := by
      cases hr with
      | user h _ => exact List.mem_append_left _ h
      | core h _ _ => exact List.mem_append_right _ h
    obtain ⟨s, h1, h2⟩ := alt_spells ha hk fun q hq => hn q (List.mem_flatMap.mpr ⟨r, hmem, hq⟩)
    exact ⟨s, h1, step r _ _ _ s hr h1 h2⟩

/-- Trees spell what the grammar derives. -/
theorem PAlt.derives {g : Grammar} (hq : ∀ n t s, Q n t s → Derives g (.rulename n) (utf8 s)) {a : Alt}
    {ts : List ParseTree} {s : Str} (h : PAlt Q a ts s) : DerivesAlt g a (utf8 s) := by
  refine PAlt.rec (Q := Q) (motive_1 := fun e _ s _ => Derives g e (utf8 s)) (motive_2 := fun a _ s _ => DerivesAlt g a (utf8 s))
    (motive_3 := fun c _ s _ => DerivesConcat g c (utf8 s)) (motive_4 := fun r _ s _ => DerivesRep g r (utf8 s))
    (motive_5 := fun e n _ s _ => DerivesTimes g e n (utf8 s)) ?_ ?_ ?_ ?_ ?_ ?_ ?_ ?_ ?_ ?_ ?_ ?_ h
  · intro n t s h; exact hq n t s h
  · intro a ts s _ h; exact .group _ _ h
  · intro a; rw [utf8_nil]; exact .optNone _
  · intro a ts s _ h; exact .optSome _ _ h
  · intro e cs i j h; exact .term _ _ h
  · intro e h; exact .term _ _ h
  · intro a c ts s hc _ h; exact .mk _ _ _ hc h
  · rw [utf8_nil]; exact .nil
  · intro r c ts us s t _ _ h1 h2; rw [utf8_append]; exact .cons _ _ _ _ h1 h2
  · intro mn mx e n ts s h1 h2 _ h; exact .mk _ _ _ _ _ h1 h2 h
  · intro e; rw [utf8_nil]; exact .zero _
  · intro e n ts us s t _ _ h1 h2; rw [utf8_append]; exact .succ _ _ _ _ h1 h2

end

/-! ## Taking the trees of an alternation apart -/

section
variable {Q : Str → ParseTree → Str → Prop} {ts : List ParseTree} {s : Str}

theorem palt_nil : PAlt Q [] ts s ↔ False := by
  constructor
  · intro h; cases h with | mk _ c _ _ hc _ => cases hc
  · exact False.elim

theorem palt_cons {c : Concat} {a : Alt} : PAlt Q (c :: a) ts s ↔ PConcat Q c ts s ∨ PAlt Q a ts s := by
  constructor
  · intro h
    cases h with
    | mk _ d _ _ hd h =>
      rcases List.mem_cons.mp hd with rfl | hd
      · exact .inl h
      · exact .inr (.mk _ _ _ _ hd h)
  · rintro (h | h)
    · exact .mk _ _ _ _ (List.mem_cons_self ..) h
    · cases h with
      | mk _ d _ _ hd h => exact .mk _ _ _ _ (List.mem_cons_of_mem _ hd) h

theorem pconcat_nil : PConcat Q [] ts s ↔ ts = [] ∧ s = [] := by
  constructor
  · intro h; cases h; exact ⟨rfl, rfl⟩
  · rintro ⟨rfl, rfl⟩; exact .nil

theorem pconcat_cons {r : Rep} {c : Concat} : PConcat Q (r :: c) ts s ↔
    ∃ ts₁ ts₂ s₁ s₂, ts = ts₁ ++ ts₂ ∧ s = s₁ ++ s₂ ∧ PRep Q r ts₁ s₁ ∧ PConcat Q c ts₂ s₂ := by
  constructor
  · intro h
    generalize hts : ts = ts' at h
    generalize hs : s = s' at h
    cases h with
    | cons _ _ t₁ t₂ s₁ s₂ h1 h2 => exact ⟨t₁, t₂, s₁, s₂, rfl, rfl, h1, h2⟩
  · rintro ⟨t₁, t₂, s₁, s₂, rfl, rfl, h1, h2⟩; exact .cons _ _ _ _ _ _ h1 h2

theorem pconcat_one {r : Rep} : PConcat Q [r] ts s ↔ PRep Q r ts s := by
  rw [pconcat_cons]
  constructor
  · rintro ⟨t₁, t₂, s₁, s₂, rfl, rfl, h1, h2⟩
    obtain ⟨rfl, rfl⟩ := pconcat_nil.mp h2
    simpa using h1
  · intro h
    exact ⟨ts, [], s, [], by simp, by simp, h, .nil⟩

theorem pconcat_more {r q : Rep} {c : Concat} : PConcat Q (r :: q :: c) ts s ↔
    ∃ ts₁ ts₂ s₁ s₂, ts = ts₁ ++ ts₂ ∧ s = s₁ ++ s₂ ∧ PRep Q r ts₁ s₁ ∧ PConcat Q (q :: c) ts₂ s₂ := pconcat_cons

theorem ptimes_zero {e : Elem} : PTimes Q e 0 ts s ↔ ts = [] ∧ s = [] := by
  constructor
  · intro h; cases h; exact ⟨rfl, rfl⟩
  · rintro ⟨rfl, rfl⟩; exact .zero _

theorem ptimes_succ {e : Elem} {n : Nat} : PTimes Q e (n + 1) ts s ↔
    ∃ ts₁ ts₂ s₁ s₂, ts = ts₁ ++ ts₂ ∧ s = s₁ ++ s₂ ∧ PElem Q e ts₁ s₁ ∧ PTimes Q e n ts₂ s₂ := by
  constructor
  · intro h
    generalize hts : ts = ts' at h
    generalize hs : s = s' at h
    cases h with
    | succ _ _ t₁ t₂ s₁ s₂ h1 h2 => exact ⟨t₁, t₂, s₁, s₂, rfl, rfl, h1, h2⟩
  · rintro ⟨t₁, t₂, s₁, s₂, rfl, rfl, h1, h2⟩; exact .succ _ _ _ _ _ _ h1 h2

theorem prep_one {e : Elem} : PRep Q ⟨1, some 1, e⟩ ts s ↔ PElem Q e ts s := by
  constructor
  · intro h
    cases h with
    | mk _ _ _ n _ _ h1 h2 h =>
      obtain rfl : n = 1 := le_antisymm (h2 1 rfl) h1
      rw [ptimes_succ] at h
      obtain ⟨t₁, t₂, s₁, s₂, rfl, rfl, h1, h2⟩ := h
      obtain ⟨rfl, rfl⟩ := ptimes_zero.mp h2
      simpa using h1
  · intro h
    refine .mk _ _ _ 1 _ _ le_rfl (by simp) ?_
    rw [ptimes_succ]
    exact ⟨ts, [], s, [], by simp, by simp, h, .zero _⟩

/-- Texts and trees one after the other. -/
inductive PStar (P : List ParseTree → Str → Prop) : List ParseTree → Str → Prop
  | nil : PStar P [] []
  | cons (ts us s t) : P ts s → PStar P us t → PStar P (ts ++ us) (s ++ t)

theorem ptimes_star {e : Elem} : (∃ n, PTimes Q e n ts s) ↔ PStar (PElem Q e) ts s := by
  constructor
  · rintro ⟨n, h⟩
    induction n generalizing ts s with
    | zero => obtain ⟨rfl, rfl⟩ := ptimes_zero.mp h; exact .nil
    | succ n ih =>
      obtain ⟨t₁, t₂, s₁, s₂, rfl, rfl, h1, h2⟩ := ptimes_succ.mp h
      exact .cons _ _ _ _ h1 (ih h2)
  · intro h
    induction h with
    | nil => exact ⟨0, .zero _⟩
    | cons ts us s t h1 _ ih =>
      obtain ⟨n, h2⟩ := ih
      exact ⟨n + 1, .succ _ _ _ _ _ _ h1 h2⟩

theorem prep_many {e : Elem} : PRep Q ⟨0, none, e⟩ ts s ↔ PStar (PElem Q e) ts s := by
  rw [← ptimes_star]
  constructor
  · intro h
    cases h with
    | mk _ _ _ n _ _ _ _ h => exact ⟨n, h⟩
  · rintro ⟨n, h⟩
    exact .mk _ _ _ n _ _ (Nat.zero_le _) (by simp) h

theorem prep_some {e : Elem} : PRep Q ⟨1, none, e⟩ ts s ↔
    ∃ ts₁ ts₂ s₁ s₂, ts = ts₁ ++ ts₂ ∧ s = s₁ ++ s₂ ∧ PElem Q e ts₁ s₁ ∧ PStar (PElem Q e) ts₂ s₂ := by
  constructor
  · intro h
    cases h with
    | mk _ _ _ n _ _ h1 _ h =>
      obtain ⟨n, rfl⟩ : ∃ m, n = m + 1 := ⟨n - 1, by omega⟩
      obtain ⟨t₁, t₂, s₁, s₂, rfl, rfl, h1, h2⟩ := ptimes_succ.mp h
      exact ⟨t₁, t₂, s₁, s₂, rfl, rfl, h1, ptimes_star.mp ⟨_, h2⟩⟩
  · rintro ⟨t₁, t₂, s₁, s₂, rfl, rfl, h1, h2⟩
    obtain ⟨n, h2⟩ := ptimes_star.mpr h2
    exact .mk _ _ _ (n + 1) _ _ (by omega) (by simp) (.succ _ _ _ _ _ _ h1 h2)

theorem pelem_rulename {n : Str} : PElem Q (.rulename n) ts s ↔ ∃ t, ts = [t] ∧ Q n t s := by
  constructor
  · intro h
    cases h with
    | rule _ t _ h => exact ⟨t, rfl, h⟩
    | term _ _ _ _ h => cases h
    | empty _ h => cases h
  · rintro ⟨t, rfl, h⟩; exact .rule _ _ _ h

theorem pelem_group {a : Alt} : PElem Q (.group a) ts s ↔ PAlt Q a ts s := by
  constructor
  · intro h
    cases h with
    | group _ _ _ h => exact h
    | term _ _ _ _ h => cases h
    | empty _ h => cases h
  · exact .group _ _ _

theorem pelem_option {a : Alt} : PElem Q (.option a) ts s ↔ (ts = [] ∧ s = []) ∨ PAlt Q a ts s := by
  constructor
  · intro h
    cases h with
    | optNone => exact .inl ⟨rfl, rfl⟩
    | optSome _ _ _ h => exact .inr h
    | term _ _ _ _ h => cases h
    | empty _ h => cases h
  · rintro (⟨rfl, rfl⟩ | h)
    · exact .optNone _
    · exact .optSome _ _ _ h

/-- One character, whichever its case. -/
theorem pelem_char {c : Char} : PElem Q (.charVal false [c]) ts s ↔
    (∃ i j, ts = [.node [] i j []]) ∧ ∃ d, SameLetter c d ∧ s = [d] := by
  constructor
  · intro h
    cases h with
    | term _ _ i j h =>
      cases h with
      | insensitive _ _ h =>
        cases h with
        | cons h1 h2 => cases h2; exact ⟨⟨i, j, rfl⟩, _, h1, rfl⟩
    | empty _ h => cases h with | insensitive _ _ h => cases h
  · rintro ⟨⟨i, j, rfl⟩, d, h, rfl⟩
    exact .term _ _ _ _ (.insensitive _ _ (.cons h .nil))

end

/-! ## Trees exist -/

section
variable {g : Grammar} {inp : Bytes}

/-- Whatever is derived has a tree. -/
theorem elem_tree {e : Elem} {w : Bytes} (h : Derives g e w) : ∀ i j, At inp i j w →
    ∃ ts, ElemTrees inp e ts i j ∧ ∀ t ∈ ts, DerivationTree g inp t := by
  refine Derives.rec (g := g)
    (motive_1 := fun e w _ => ∀ i j, At inp i j w → ∃ ts, ElemTrees inp e ts i j ∧ ∀ t ∈ ts, DerivationTree g inp t)
    (motive_2 := fun a w _ => ∀ i j, At inp i j w → ∃ ts, AltTrees inp a ts i j ∧ ∀ t ∈ ts, DerivationTree g inp t)
    (motive_3 := fun c w _ => ∀ i j, At inp i j w → ∃ ts, ConcatTrees inp c ts i j ∧ ∀ t ∈ ts, DerivationTree g inp t)
    (motive_4 := fun r w _ => ∀ i j, At inp i j w → ∃ ts, RepTrees inp r ts i j ∧ ∀ t ∈ ts, DerivationTree g inp t)
    (motive_5 := fun e n w _ => ∀ i j, At inp i j w → ∃ ts, TimesTrees inp e n ts i j ∧ ∀ t ∈ ts, DerivationTree g inp t)
    ?_ ?_ ?_ ?_ ?_ ?_ ?_ ?_ ?_ ?_ ?_ h
  · intro n r w hr _ ih i j hat
    obtain ⟨ts, h1, h2⟩ := ih i j hat
    refine ⟨[.node r.name i j ts], .rule _ _ _ _ _ (sameName_of_resolves hr), fun t ht => ?_⟩
    rw [List.mem_singleton] at ht
    subst ht
    exact .rule r _ _ _ (resolves_sameName hr hr) h1 h2
  · intro a w _ ih i j hat
    obtain ⟨ts, h1, h2⟩ := ih i j hat
    exact ⟨ts, .group _ _ _ _ h1, h2⟩
  · intro a i j hat
    rw [at_nil] at hat
    subst hat
    exact ⟨[], .optNone _ _, by simp⟩
  · intro a w _ ih i j hat
    obtain ⟨ts, h1, h2⟩ := ih i j hat
    exact ⟨ts, .optSome _ _ _ _ h1, h2⟩
  · intro e cs ht i j hat
    refine ⟨[.node [] i j []], .term _ _ _ _ ht hat, fun t ht => ?_⟩
    rw [List.mem_singleton] at ht
    subst ht
    exact .leaf _ _
  · intro a c w hc _ ih i j hat
    obtain ⟨ts, h1, h2⟩ := ih i j hat
    exact ⟨ts, .mk _ _ _ _ _ hc h1, h2⟩
  · intro i j hat
    rw [at_nil] at hat
    subst hat
    exact ⟨[], .nil _, by simp⟩
  · intro r c u v _ _ ih1 ih2 i j hat
    rw [at_append] at hat
    obtain ⟨ts, h1, h2⟩ := ih1 _ _ hat.1
    obtain ⟨us, h3, h4⟩ := ih2 _ _ hat.2
    refine ⟨ts ++ us, .cons _ _ _ _ _ _ _ h1 h3, fun t ht => ?_⟩
    rcases List.mem_append.mp ht with ht | ht
    · exact h2 t ht
    · exact h4 t ht
  · intro mn mx e n w h1 h2 _ ih i j hat
    obtain ⟨ts, h3, h4⟩ := ih i j hat
    exact ⟨ts, .mk _ _ _ _ _ _ _ h1 h2 h3, h4⟩
  · intro e i j hat
    rw [at_nil] at hat
    subst hat
    exact ⟨[], .zero _ _, by simp⟩
  · intro e n u v _ _ ih1 ih2 i j hat
    rw [at_append] at hat
    obtain ⟨ts, h1, h2⟩ := ih1 _ _ hat.1
    obtain ⟨us, h3, h4⟩ := ih2 _ _ hat.2
    refine ⟨ts ++ us, .succ _ _ _ _ _ _ _ h1 h3, fun t ht => ?_⟩
    rcases List.mem_append.mp ht with ht | ht
    · exact h2 t ht
    · exact h4 t ht

/-- A rule that derives a text has a tree for it. -/
theorem rule_tree {n : Str} {s : Str} (h : Derives g (.rulename n) (utf8 s)) :
    ∃ r ch, SameName n r ∧ DerivationTree g (utf8 s) (.node r 0 (utf8 s).length ch) := by
  obtain ⟨ts, h1, h2⟩ := elem_tree (inp := utf8 s) h 0 (utf8 s).length ⟨by simp, by simp⟩
  generalize (utf8 s).length = k at h1 ⊢
  cases h1 with
  | rule _ r _ _ ch hn => exact ⟨r, ch, hn, h2 _ (List.mem_singleton_self _)⟩
  | term _ _ _ _ ht => cases ht
  | empty _ _ ht => cases ht

end
end Spelt
end Verif
