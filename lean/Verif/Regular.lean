import Mathlib.Computability.MyhillNerode
import Mathlib.Data.Fintype.Card
import Verif.Chomsky
import Verif.PropsRegex

/-!
# C112: rules without cycles describe exactly the regular languages

In the sense of Mathlib: the languages of finite automata.
-/

namespace Verif
open Spec

namespace Regular
open Chomsky GenCost Language Computability

/-! ## Regular languages are closed under the operations of ABNF -/

section
variable {α : Type}

theorem reg_finite {L : Language α} (h : Set.Finite L) : L.IsRegular := by
  rw [isRegular_iff_finite_range_leftQuotient]
  have hs : Set.Finite {y : List α | ∃ x, x ++ y ∈ L} := by
    refine (h.biUnion (t := fun w => {y | y ∈ w.tails}) fun w _ => List.finite_toSet _).subset ?_
    rintro y ⟨x, hx⟩
    exact Set.mem_biUnion hx ((List.mem_tails _ _).mpr ⟨x, rfl⟩)
  refine hs.finite_subsets.subset ?_
  rintro _ ⟨x, rfl⟩ y hy
  exact ⟨x, hy⟩

theorem reg_mul {L M : Language α} (hL : L.IsRegular) (hM : M.IsRegular) : (L * M).IsRegular := by
  rw [isRegular_iff_finite_range_leftQuotient] at *
  refine (hL.image2 (fun A (B : Set (Language α)) => {y | y ∈ A * M ∨ ∃ C ∈ B, y ∈ C}) hM.finite_subsets).subset ?_
  rintro _ ⟨x, rfl⟩
  refine ⟨_, ⟨x, rfl⟩, {C | ∃ u v, x = u ++ v ∧ u ∈ L ∧ C = M.leftQuotient v}, ?_, ?_⟩
  · rintro _ ⟨u, v, _, _, rfl⟩
    exact ⟨v, rfl⟩
  · ext y
    show (y ∈ L.leftQuotient x * M ∨ ∃ C, (∃ u v, x = u ++ v ∧ u ∈ L ∧ C = M.leftQuotient v) ∧ y ∈ C) ↔ x ++ y ∈ L * M
    constructor
    · rintro (h | ⟨_, ⟨u, v, rfl, hu, rfl⟩, hy⟩)
      · obtain ⟨p, hp, q, hq, rfl⟩ := mem_mul.mp h
        exact mem_mul.mpr ⟨x ++ p, hp, q, hq, List.append_assoc _ _ _⟩
      · exact mem_mul.mpr ⟨u, hu, v ++ y, hy, (List.append_assoc _ _ _).symm⟩
    · intro h
      obtain ⟨p, hp, q, hq, he⟩ := mem_mul.mp h
      rcases List.append_eq_append_iff.mp he with ⟨v, rfl, rfl⟩ | ⟨p', rfl, rfl⟩
      · exact .inr ⟨_, ⟨p, v, rfl, hp, rfl⟩, hq⟩
      · exact .inl (mem_mul.mpr ⟨p', hp, q, hq, rfl⟩)

theorem append_star {L : Language α} {u v : List α} (hu : u ∈ L∗) (hv : v ∈ L∗) : u ++ v ∈ L∗ := by
  obtain ⟨S, rfl, hS⟩ := mem_kstar.mp hu
  obtain ⟨T, rfl, hT⟩ := mem_kstar.mp hv
  exact mem_kstar.mpr ⟨S ++ T, by simp, fun y hy => (List.mem_append.mp hy).elim (hS y) (hT y)⟩

theorem cons_star {L : Language α} {u v : List α} (hu : u ∈ L) (hv : v ∈ L∗) : u ++ v ∈ L∗ :=
  append_star (mem_kstar.mpr ⟨[u], by simp, by simpa using hu⟩) hv

theorem split_star {L : Language α} (S : List (List α)) : ∀ {x y : List α}, (∀ s ∈ S, s ∈ L) → x ++ y = S.flatten →
    (y = [] ∧ x ∈ L∗) ∨ ∃ u v, x = u ++ v ∧ u ∈ L∗ ∧ y ∈ L.leftQuotient v * L∗ := by
  induction S with
  | nil =>
    intro x y _ h
    rw [List.flatten_nil, List.append_eq_nil_iff] at h
    rw [h.1, h.2]
    exact .inl ⟨rfl, nil_mem_kstar _⟩
  | cons w S ih =>
    intro x y hS h
    have hw := hS w List.mem_cons_self
    have hS' : ∀ s ∈ S, s ∈ L := fun s hs => hS s (List.mem_cons_of_mem _ hs)
    rw [List.flatten_cons] at h
    rcases List.append_eq_append_iff.mp h with ⟨p, rfl, rfl⟩ | ⟨x', rfl, h'⟩
    · exact .inr ⟨[], x, rfl, nil_mem_kstar _, mem_mul.mpr ⟨p, hw, S.flatten, mem_kstar.mpr ⟨S, rfl, hS'⟩, rfl⟩⟩
    · rcases ih hS' h'.symm with ⟨rfl, h1⟩ | ⟨u, v, rfl, h1, h2⟩
      · exact .inl ⟨rfl, cons_star hw h1⟩
      · exact .inr ⟨w ++ u, v, (List.append_assoc _ _ _).symm, cons_star hw h1, h2⟩

theorem reg_star {L : Language α} (hL : L.IsRegular) : (L∗).IsRegular := by
  rw [isRegular_iff_finite_range_leftQuotient] at *
  refine ((Set.toFinite (Set.univ : Set Prop)).image2 (fun b (B : Set (Language α)) => {y | (y = [] ∧ b) ∨ ∃ C ∈ B, y ∈ C * L∗}) hL.finite_subsets).subset ?_
  rintro _ ⟨x, rfl⟩
  refine ⟨x ∈ L∗, Set.mem_univ _, {C | ∃ u v, x = u ++ v ∧ u ∈ L∗ ∧ C = L.leftQuotient v}, ?_, ?_⟩
  · rintro _ ⟨u, v, _, _, rfl⟩
    exact ⟨v, rfl⟩
  · ext y
    show ((y = [] ∧ x ∈ L∗) ∨ ∃ C, (∃ u v, x = u ++ v ∧ u ∈ L∗ ∧ C = L.leftQuotient v) ∧ y ∈ C * L∗) ↔ x ++ y ∈ L∗
    constructor
    · rintro (⟨rfl, h⟩ | ⟨_, ⟨u, v, rfl, hu, rfl⟩, hy⟩)
      · rwa [List.append_nil]
      · obtain ⟨p, hp, q, hq, rfl⟩ := mem_mul.mp hy
        have : u ++ v ++ (p ++ q) = u ++ ((v ++ p) ++ q) := by simp
        rw [this]
        exact append_star hu (cons_star hp hq)
    · intro h
      obtain ⟨S, hS, hm⟩ := mem_kstar.mp h
      rcases split_star S hm hS with h | ⟨u, v, h1, h2, h3⟩
      · exact .inl h
      · exact .inr ⟨_, ⟨u, v, h1, h2, rfl⟩, h3⟩

theorem reg_zero : Language.IsRegular (0 : Language α) := reg_finite Set.finite_empty
theorem reg_one : Language.IsRegular (1 : Language α) := reg_finite (Set.finite_singleton _)

theorem reg_pow {L : Language α} (hL : L.IsRegular) : ∀ n : Nat, (L ^ n).IsRegular
  | 0 => by rw [pow_zero]; exact reg_one
  | n + 1 => by rw [pow_succ]; exact reg_mul (reg_pow hL n) hL

/-- The union of the languages of a list. -/
def union {β : Type} (f : β → Language α) (l : List β) : Language α := {w | ∃ b ∈ l, w ∈ f b}

theorem mem_union {β : Type} {f : β → Language α} {l : List β} {w : List α} : w ∈ union f l ↔ ∃ b ∈ l, w ∈ f b := Iff.rfl

theorem reg_union {β : Type} (f : β → Language α) : ∀ l : List β, (∀ b ∈ l, (f b).IsRegular) → (union f l).IsRegular
  | [], _ => by
    have : union f [] = 0 := by
      ext w
      rw [mem_union]
      simp [notMem_zero]
    rw [this]
    exact reg_zero
  | b :: l, h => by
    have : union f (b :: l) = f b + union f l := by
      ext w
      rw [mem_add, mem_union, mem_union]
      simp
    rw [this]
    exact Language.IsRegular.add (h b List.mem_cons_self) (reg_union f l fun c hc => h c (List.mem_cons_of_mem _ hc))

end

/-! ## The languages of the parts of a grammar -/

section
variable (g : Grammar)

def ofElem (e : Elem) : Language Char := {w | Derives g e (utf8 w)}
def ofAlt (a : Alt) : Language Char := {w | DerivesAlt g a (utf8 w)}
def ofConcat (c : Concat) : Language Char := {w | DerivesConcat g c (utf8 w)}
def ofRep (r : Rep) : Language Char := {w | DerivesRep g r (utf8 w)}

variable {g}

theorem derives_utf8 {e : Elem} {b : Bytes} (h : Derives g e b) : ∃ w, b = utf8 w := by
  obtain ⟨S, hS, _, hc⟩ := closed_parts g []
  obtain ⟨w, hw, _⟩ := derives_yields (n := []) (hS := hS) hc h
  exact ⟨w, hw⟩

theorem concat_utf8 {c : Concat} {b : Bytes} (h : DerivesConcat g c b) : ∃ w, b = utf8 w :=
  derives_utf8 (.group [c] b (.mk _ c _ List.mem_cons_self h))

theorem rep_utf8 {r : Rep} {b : Bytes} (h : DerivesRep g r b) : ∃ w, b = utf8 w := by
  refine concat_utf8 (g := g) (c := [r]) ?_
  rw [derivesConcat_cons]
  exact ⟨b, [], (List.append_nil _).symm, h, .nil⟩

theorem times_utf8 {e : Elem} {n : Nat} {b : Bytes} (h : DerivesTimes g e n b) : ∃ w, b = utf8 w :=
  rep_utf8 (.mk 0 none e n b (Nat.zero_le _) (fun m hm => by cases hm) h)

theorem ofConcat_nil : ofConcat g [] = 1 := by
  ext w
  show DerivesConcat g [] (utf8 w) ↔ w = []
  rw [derivesConcat_nil]
  exact ⟨fun h => utf8_inj (h.trans utf8_nil.symm), fun h => h ▸ utf8_nil⟩

theorem ofConcat_cons (r : Rep) (c : Concat) : ofConcat g (r :: c) = ofRep g r * ofConcat g c := by
  ext w
  rw [mem_mul]
  show DerivesConcat g (r :: c) (utf8 w) ↔ _
  rw [derivesConcat_cons]
  constructor
  · rintro ⟨u, v, h1, h2, h3⟩
    obtain ⟨u, rfl⟩ := rep_utf8 h2
    obtain ⟨v, rfl⟩ := concat_utf8 h3
    rw [← utf8_append] at h1
    exact ⟨u, h2, v, h3, (utf8_inj h1).symm⟩
  · rintro ⟨u, h1, v, h2, rfl⟩
    exact ⟨_, _, utf8_append _ _, h1, h2⟩

theorem ofAlt_eq (a : Alt) : ofAlt g a = union (ofConcat g) a := by
  ext w
  constructor
  · intro h
    cases h with
    | mk _ c _ h1 h2 => exact ⟨c, h1, h2⟩
  · rintro ⟨c, h1, h2⟩
    exact .mk _ _ _ h1 h2

theorem times_iff (e : Elem) : ∀ (n : Nat) (w : List Char), DerivesTimes g e n (utf8 w) ↔ w ∈ ofElem g e ^ n
  | 0, w => by
    rw [pow_zero]
    show _ ↔ w = []
    constructor
    · intro h
      generalize hb : utf8 w = b at h
      cases h
      exact utf8_inj (hb.trans utf8_nil.symm)
    · rintro rfl
      exact .zero _
  | n + 1, w => by
    rw [pow_succ', mem_mul]
    constructor
    · intro h
      generalize hb : utf8 w = b at h
      cases h with
      | succ _ _ u v h1 h2 =>
        obtain ⟨u, rfl⟩ := derives_utf8 h1
        obtain ⟨v, rfl⟩ := times_utf8 h2
        rw [← utf8_append] at hb
        exact ⟨u, h1, v, (times_iff e n v).mp h2, (utf8_inj hb).symm⟩
    · rintro ⟨u, h1, v, h2, rfl⟩
      rw [utf8_append]
      exact .succ _ _ _ _ h1 ((times_iff e n v).mpr h2)

theorem ofRep_iff (mn : Nat) (mx : Option Nat) (e : Elem) (w : List Char) :
    w ∈ ofRep g ⟨mn, mx, e⟩ ↔ ∃ n, mn ≤ n ∧ (∀ m, mx = some m → n ≤ m) ∧ w ∈ ofElem g e ^ n := by
  constructor
  · intro h
    cases h with
    | mk _ _ _ n _ h1 h2 h3 => exact ⟨n, h1, h2, (times_iff e n w).mp h3⟩
  · rintro ⟨n, h1, h2, h3⟩
    exact .mk _ _ _ n _ h1 h2 ((times_iff e n w).mpr h3)

theorem star_iff {L : Language Char} {w : List Char} : w ∈ L∗ ↔ ∃ n : Nat, w ∈ L ^ n := by
  rw [kstar_eq_iSup_pow]
  exact Set.mem_iUnion

theorem reg_rep {mn : Nat} {mx : Option Nat} {e : Elem} (h : (ofElem g e).IsRegular) : (ofRep g ⟨mn, mx, e⟩).IsRegular := by
  cases mx with
  | none =>
    have : ofRep g ⟨mn, none, e⟩ = ofElem g e ^ mn * (ofElem g e)∗ := by
      ext w
      rw [ofRep_iff, mem_mul]
      constructor
      · rintro ⟨n, h1, _, h3⟩
        obtain ⟨k, rfl⟩ := Nat.exists_eq_add_of_le h1
        rw [pow_add, mem_mul] at h3
        obtain ⟨u, hu, v, hv, rfl⟩ := h3
        exact ⟨u, hu, v, star_iff.mpr ⟨k, hv⟩, rfl⟩
      · rintro ⟨u, hu, v, hv, rfl⟩
        obtain ⟨k, hv⟩ := star_iff.mp hv
        refine ⟨mn + k, Nat.le_add_right _ _, fun m hm => (by cases hm), ?_⟩
        rw [pow_add, mem_mul]
        exact ⟨u, hu, v, hv, rfl⟩
    rw [this]
    exact reg_mul (reg_pow h _) (reg_star h)
  | some m =>
    have : ofRep g ⟨mn, some m, e⟩ = union (fun n : Nat => ofElem g e ^ n) ((List.range (m + 1)).filter (mn ≤ ·)) := by
      ext w
      rw [ofRep_iff, mem_union]
      constructor
      · rintro ⟨n, h1, h2, h3⟩
        have := h2 m rfl
        exact ⟨n, by simp; omega, h3⟩
      · rintro ⟨n, hn, h3⟩
        simp at hn
        exact ⟨n, hn.2, fun k hk => (by cases hk; omega), h3⟩
    rw [this]
    exact reg_union _ _ fun n _ => reg_pow h n

theorem reg_alt {a : Alt} (h : ∀ c ∈ a, (ofConcat g c).IsRegular) : (ofAlt g a).IsRegular := by
  rw [ofAlt_eq]
  exact reg_union _ _ h

theorem reg_terminal {e : Elem} (h1 : ∀ n, e ≠ .rulename n) (h2 : ∀ a, e ≠ .group a) (h3 : ∀ a, e ≠ .option a) : (ofElem g e).IsRegular := by
  refine reg_finite ((finite_terminal e).subset fun w (hw : Derives g e (utf8 w)) => ?_)
  generalize hb : utf8 w = b at hw
  cases hw with
  | rule n => exact absurd rfl (h1 n)
  | group a => exact absurd rfl (h2 a)
  | optNone a => exact absurd rfl (h3 a)
  | optSome a => exact absurd rfl (h3 a)
  | term _ cs h => rw [utf8_inj hb]; exact h

mutual
theorem reg_elem : ∀ e : Elem, (∀ n, e = .rulename n → (ofElem g (.rulename n)).IsRegular) →
    (∀ q ∈ elemReps e, ∀ n, q.elem = .rulename n → (ofElem g (.rulename n)).IsRegular) → (ofElem g e).IsRegular
  | .rulename n, h, _ => h n rfl
  | .charVal _ _, _, _ => reg_terminal (by simp) (by simp) (by simp)
  | .numVal _ _ _, _, _ => reg_terminal (by simp) (by simp) (by simp)
  | .proseVal _, _, _ => reg_terminal (by simp) (by simp) (by simp)
  | .group a, _, h => by
    have : ofElem g (.group a) = ofAlt g a := by
      ext w
      constructor
      · intro (hw : Derives g _ _)
        generalize hb : utf8 w = b at hw
        cases hw with
        | group _ _ h => subst hb; exact h
        | term _ _ h => cases h
      · exact .group _ _
    rw [this]
    exact reg_alt (reg_concats a (by rwa [elemReps] at h))
  | .option a, _, h => by
    have : ofElem g (.option a) = 1 + ofAlt g a := by
      ext w
      rw [mem_add, mem_one]
      constructor
      · intro (hw : Derives g _ _)
        generalize hb : utf8 w = b at hw
        cases hw with
        | optNone => exact .inl (utf8_inj (hb.trans utf8_nil.symm))
        | optSome _ _ h => subst hb; exact .inr h
        | term _ _ h => cases h
      · rintro (rfl | h)
        · exact .optNone _
        · exact .optSome _ _ h
    rw [this]
    exact Language.IsRegular.add reg_one (reg_alt (reg_concats a (by rwa [elemReps] at h)))
theorem reg_concat : ∀ c : List Rep, (∀ q ∈ concatReps c, ∀ n, q.elem = .rulename n → (ofElem g (.rulename n)).IsRegular) → (ofConcat g c).IsRegular
  | [], _ => by rw [ofConcat_nil]; exact reg_one
  | ⟨mn, mx, e⟩ :: c, h => by
    simp only [concatReps, repReps, List.cons_append, List.mem_cons, List.mem_append] at h
    rw [ofConcat_cons]
    exact reg_mul (reg_rep (reg_elem e (fun n hn => h ⟨mn, mx, e⟩ (.inl rfl) n hn) fun q hq => h q (.inr (.inl hq))))
      (reg_concat c fun q hq => h q (.inr (.inr hq)))
theorem reg_concats : ∀ a : List (List Rep), (∀ q ∈ altReps a, ∀ n, q.elem = .rulename n → (ofElem g (.rulename n)).IsRegular) →
    ∀ c ∈ a, (ofConcat g c).IsRegular
  | [], _, _, h => by simp at h
  | c :: a, h, d, hd => by
    simp only [altReps, List.mem_append] at h
    rcases List.mem_cons.mp hd with hd | hd
    · rw [hd]; exact reg_concat c fun q hq => h q (.inl hq)
    · exact reg_concats a (fun q hq => h q (.inr hq)) d hd
end

theorem reg_refs (hd : NamesDistinct g) {r : Rule} (h : ∀ r', Refers g r r' → (ofAlt g r'.alt).IsRegular) : (ofAlt g r.alt).IsRegular := by
  refine reg_alt (reg_concats _ fun q hq n hn => ?_)
  by_cases hr : ∃ r', Resolves g n r'
  · obtain ⟨r', hr⟩ := hr
    have : ofElem g (.rulename n) = ofAlt g r'.alt := by
      ext w
      constructor
      · intro (hw : Derives g _ _)
        generalize hb : utf8 w = b at hw
        cases hw with
        | rule _ r'' _ h1 h2 =>
          subst hb
          rw [resolves_unique hd hr h1 rfl]
          exact h2
        | term _ _ h => cases h
      · intro h
        exact .rule _ _ _ hr h
    rw [this]
    exact h r' ⟨q, hq, n, hn, hr⟩
  · have : ofElem g (.rulename n) = 0 := by
      ext w
      constructor
      · intro (hw : Derives g _ _)
        generalize hb : utf8 w = b at hw
        cases hw with
        | rule _ r'' _ h1 h2 => exact absurd ⟨_, h1⟩ hr
        | term _ _ h => cases h
      · intro h
        exact absurd h (Set.notMem_empty _)
    rw [this]
    exact reg_zero

theorem reg_rule (hd : NamesDistinct g) (r : Rule) (hm : r ∈ g.rules ++ Core.rules) (hn : NoCycleBelow g r) : (ofAlt g r.alt).IsRegular := by
  let S := {r : Rule // r ∈ g.rules ++ Core.rules ∧ NoCycleBelow g r}
  have : Finite S := ((List.finite_toSet (g.rules ++ Core.rules)).subset (t := {r | r ∈ g.rules ++ Core.rules ∧ NoCycleBelow g r}) fun r h => h.1)
  let R : S → S → Prop := fun a b => Relation.TransGen (Refers g) b.1 a.1
  have : IsTrans S R := ⟨fun a b c h1 h2 => Relation.TransGen.trans h2 h1⟩
  have : Std.Irrefl R := ⟨fun a h => a.2.2 ⟨a.1, .refl, h⟩⟩
  have wf := Finite.wellFounded_of_trans_of_irrefl R
  have key : ∀ s : S, (ofAlt g s.1.alt).IsRegular := by
    intro s
    induction s using wf.induction with
    | _ s ih =>
      refine reg_refs hd fun r' hr => ?_
      have hm' : r' ∈ g.rules ++ Core.rules := by
        obtain ⟨_, _, _, _, h⟩ := hr
        exact resolves_mem h
      have hn' : NoCycleBelow g r' := by
        rintro ⟨r'', h1, h2⟩
        exact s.2.2 ⟨r'', .head hr h1, h2⟩
      exact ih ⟨r', hm', hn'⟩ (.single hr)
  exact key ⟨r, hm, hn⟩

end

/-! ## Kleene's construction -/

/-- A repetition that has no reference inside, fits any machine and can be written. -/
def Plain (q : Rep) : Prop :=
  (q.min = 1 ∧ q.max = some 1 ∨ q.min = 0 ∧ q.max = none) ∧ (∀ n, q.elem ≠ .rulename n) ∧
  ∀ b st es, q.elem = .numVal b st es → ∀ s ∈ es, ∃ v, Denotes b s v ∧ v ≤ 0x10FFFF

/-- An alternation without references describes the language, whatever the other rules are. -/
def Told (L : Language Char) : Prop :=
  ∃ a : Alt, a ≠ [] ∧ altWritten a = true ∧ (∀ q ∈ altReps a, Plain q) ∧ (∀ p ∈ altStrings a, p.1 = false) ∧ ∀ g, ofAlt g a = L

theorem told_one_elem {e : Elem} {L : Language Char} (h1 : e.written = true) (h2 : ∀ n, e ≠ .rulename n)
    (h3 : ∀ b st es, e = .numVal b st es → ∀ s ∈ es, ∃ v, Denotes b s v ∧ v ≤ 0x10FFFF) (h4 : ∀ q ∈ elemReps e, Plain q)
    (h5 : ∀ p ∈ e.strings, p.1 = false) (h : ∀ g, ofElem g e = L) : Told L := by
  refine ⟨[[⟨1, some 1, e⟩]], by simp, by simp [altWritten, concatWritten, Rep.written, h1], fun q hq => ?_, fun p hp => ?_, fun g => ?_⟩
  · simp only [altReps, concatReps, repReps, List.append_nil, List.mem_cons] at hq
    rcases hq with rfl | hq
    · exact ⟨.inl ⟨rfl, rfl⟩, h2, h3⟩
    · exact h4 q hq
  · simp only [altStrings, concatStrings, Rep.strings, List.append_nil] at hp
    exact h5 p hp
  · rw [← h g]
    ext w
    constructor
    · intro (hw : DerivesAlt g _ _)
      generalize hb : utf8 w = b at hw
      cases hw with
      | mk _ c _ hc hd =>
        rw [List.mem_singleton] at hc
        subst hc
        rw [derivesConcat_cons] at hd
        obtain ⟨u, v, rfl, h1, h2⟩ := hd
        cases h2
        rw [List.append_nil] at hb
        show Derives g e (utf8 w)
        rw [hb]
        exact derivesRep_one.mp h1
    · intro hw
      refine .mk _ _ _ List.mem_cons_self (derivesConcat_cons.mpr ⟨utf8 w, [], (List.append_nil _).symm, derivesRep_one.mpr hw, .nil⟩)

theorem told_zero : Told 0 := by
  refine told_one_elem (e := .proseVal []) (by decide) (by simp) (by simp) (by simp [elemReps]) (by simp [Elem.strings]) fun g => ?_
  ext w
  refine ⟨fun (hw : Derives g _ _) => ?_, fun h => absurd h (notMem_zero _)⟩
  generalize hb : utf8 w = b at hw
  cases hw with
  | term _ _ h => cases h

theorem told_one : Told 1 := by
  refine told_one_elem (e := .charVal false []) (by decide) (by simp) (by simp) (by simp [elemReps]) (by simp [Elem.strings]) fun g => ?_
  ext w
  rw [mem_one]
  constructor
  · intro (hw : Derives g _ _)
    generalize hb : utf8 w = b at hw
    cases hw with
    | term _ _ h =>
      cases h with
      | insensitive _ _ h => cases h; exact utf8_inj hb
  · rintro rfl
    exact .term (.charVal false []) [] (.insensitive _ _ .nil)

theorem told_char (c : Char) : Told {[c]} := by
  obtain ⟨h1, h2⟩ := hex_numeral c.toNat
  refine told_one_elem (e := .numVal ['x'] .series [Nat.toDigits 16 c.toNat])
    (by simp only [Elem.written, List.all_cons, List.all_nil, h1, h2]; rfl) (by simp) ?_ (by simp [elemReps]) (by simp [Elem.strings]) fun g => ?_
  · intro b st es he s hs
    cases he
    rw [List.mem_singleton] at hs
    subst hs
    refine ⟨_, denotes_toDigits_hex _, ?_⟩
    have := c.valid
    simp only [UInt32.isValidChar, Nat.isValidChar] at this
    show c.val.toNat ≤ _
    omega
  · ext w
    show Derives g _ (utf8 w) ↔ w = [c]
    constructor
    · intro hw
      generalize hb : utf8 w = b at hw
      cases hw with
      | term _ cs h =>
        rw [terminal_hex.mp h] at hb
        exact utf8_inj hb
    · rintro rfl
      exact .term _ _ (terminal_hex.mpr rfl)

theorem altWritten_append {a b : Alt} (ha : altWritten a = true) (hb : altWritten b = true) : altWritten (a ++ b) = true := by
  induction a with
  | nil => exact hb
  | cons c a ih =>
    simp only [altWritten, Bool.and_eq_true] at ha
    simp [altWritten, ha.1, ih ha.2]

theorem altReps_append' (a b : Alt) : altReps (a ++ b) = altReps a ++ altReps b := by
  induction a with
  | nil => rfl
  | cons c a ih => rw [List.cons_append, altReps, ih, altReps, List.append_assoc]

theorem altStrings_append (a b : Alt) : altStrings (a ++ b) = altStrings a ++ altStrings b := by
  induction a with
  | nil => rfl
  | cons c a ih => rw [List.cons_append, altStrings, ih, altStrings, List.append_assoc]

theorem told_add {L M : Language Char} (hL : Told L) (hM : Told M) : Told (L + M) := by
  obtain ⟨a, h1, h2, h3, h4, h5⟩ := hL
  obtain ⟨b, g1, g2, g3, g4, g5⟩ := hM
  refine ⟨a ++ b, by simp [h1], altWritten_append h2 g2, fun q hq => ?_, fun p hp => ?_, fun g => ?_⟩
  · rw [altReps_append', List.mem_append] at hq
    exact hq.elim (h3 q) (g3 q)
  · rw [altStrings_append, List.mem_append] at hp
    exact hp.elim (h4 p) (g4 p)
  · rw [← h5 g, ← g5 g, ofAlt_eq, ofAlt_eq, ofAlt_eq]
    ext w
    rw [mem_add, mem_union, mem_union, mem_union]
    simp [or_and_right, exists_or]

theorem ofElem_group {g : Grammar} (a : Alt) : ofElem g (.group a) = ofAlt g a := by
  ext w
  constructor
  · intro (hw : Derives g _ _)
    generalize hb : utf8 w = b at hw
    cases hw with
    | group _ _ h => subst hb; exact h
    | term _ _ h => cases h
  · exact .group _ _

theorem ofAlt_one {g : Grammar} (c : Concat) : ofAlt g [c] = ofConcat g c := by
  rw [ofAlt_eq]
  ext w
  rw [mem_union]
  simp

theorem told_mul {L M : Language Char} (hL : Told L) (hM : Told M) : Told (L * M) := by
  obtain ⟨a, h1, h2, h3, h4, h5⟩ := hL
  obtain ⟨b, g1, g2, g3, g4, g5⟩ := hM
  refine ⟨[[⟨1, some 1, .group a⟩, ⟨1, some 1, .group b⟩]], by simp, ?_, fun q hq => ?_, fun p hp => ?_, fun g => ?_⟩
  · simp [altWritten, concatWritten, Rep.written, Elem.written, h1, h2, g1, g2]
  · simp only [altReps, concatReps, repReps, elemReps, List.append_nil, List.mem_cons, List.cons_append, List.mem_append] at hq
    rcases hq with rfl | hq | rfl | hq
    · exact ⟨.inl ⟨rfl, rfl⟩, by simp, by simp⟩
    · exact h3 q hq
    · exact ⟨.inl ⟨rfl, rfl⟩, by simp, by simp⟩
    · exact g3 q hq
  · simp only [altStrings, concatStrings, Rep.strings, Elem.strings, List.append_nil, List.mem_append] at hp
    exact hp.elim (h4 p) (g4 p)
  · have key : ∀ e, ofRep g ⟨1, some 1, e⟩ = ofElem g e := fun e => by
      ext w
      exact derivesRep_one
    rw [ofAlt_one, ofConcat_cons, ofConcat_cons, ofConcat_nil, mul_one, key, key, ofElem_group, ofElem_group, h5, g5]

theorem told_star {L : Language Char} (hL : Told L) : Told (L∗) := by
  obtain ⟨a, h1, h2, h3, h4, h5⟩ := hL
  refine ⟨[[⟨0, none, .group a⟩]], by simp, ?_, fun q hq => ?_, fun p hp => ?_, fun g => ?_⟩
  · simp [altWritten, concatWritten, Rep.written, Elem.written, h1, h2]
  · simp only [altReps, concatReps, repReps, elemReps, List.append_nil, List.mem_cons] at hq
    rcases hq with rfl | hq
    · exact ⟨.inr ⟨rfl, rfl⟩, by simp, by simp⟩
    · exact h3 q hq
  · simp only [altStrings, concatStrings, Rep.strings, Elem.strings, List.append_nil] at hp
    exact h4 p hp
  · rw [ofAlt_one, ofConcat_cons, ofConcat_nil, mul_one]
    ext w
    rw [ofRep_iff, ofElem_group, h5, star_iff]
    simp

theorem told_union {β : Type} (f : β → Language Char) : ∀ l : List β, (∀ b ∈ l, Told (f b)) → Told (union f l)
  | [], _ => by
    have : union f [] = 0 := by
      ext w
      rw [mem_union]
      simp [notMem_zero]
    rw [this]
    exact told_zero
  | b :: l, h => by
    have : union f (b :: l) = f b + union f l := by
      ext w
      rw [mem_add, mem_union, mem_union]
      simp
    rw [this]
    exact told_add (h b List.mem_cons_self) (told_union f l fun c hc => h c (List.mem_cons_of_mem _ hc))

section
variable {σ : Type} (M : DFA Char σ)

/-- A walk from a state to a state with all states in between among those given. -/
inductive Walk (S : List σ) : σ → List Char → σ → Prop
  | nil (p) : Walk S p [] p
  | cons (p q c w) : (M.step p c ∈ S ∨ w = []) → Walk S (M.step p c) w q → Walk S p (c :: w) q

/-- The texts on the walks. -/
def walks (S : List σ) (p q : σ) : Language Char := {w | Walk M S p w q}

variable {M}

theorem Walk.mono {S T : List σ} (h : S ⊆ T) {p q : σ} {w : List Char} (hw : Walk M S p w q) : Walk M T p w q := by
  induction hw with
  | nil p => exact .nil p
  | cons p q c w h1 _ ih => exact .cons _ _ _ _ (h1.imp (fun h2 => h h2) id) ih

theorem Walk.trans {S : List σ} {p q r : σ} {v w : List Char} (h1 : Walk M S p v q) (hq : q ∈ S) (h2 : Walk M S q w r) : Walk M S p (v ++ w) r := by
  induction h1 with
  | nil p => exact h2
  | cons p q c v h3 h4 ih =>
    refine .cons _ _ _ _ (.inl ?_) (ih hq h2)
    rcases h3 with h3 | rfl
    · exact h3
    · cases h4
      exact hq

theorem walk_cons {S : List σ} {s p q : σ} {w : List Char} (h : Walk M (s :: S) p w q) :
    Walk M S p w q ∨ ∃ x y z, w = x ++ (y ++ z) ∧ x ∈ walks M S p s ∧ y ∈ (walks M S s s)∗ ∧ z ∈ walks M S s q := by
  induction h with
  | nil p => exact .inl (.nil p)
  | cons p q c w h1 h2 ih =>
    by_cases hs : M.step p c ∈ S
    · rcases ih with ih | ⟨x, y, z, rfl, hx, hy, hz⟩
      · exact .inl (.cons _ _ _ _ (.inl hs) ih)
      · exact .inr ⟨c :: x, y, z, rfl, .cons _ _ _ _ (.inl hs) hx, hy, hz⟩
    · rcases h1 with h1 | rfl
      · have he : M.step p c = s := (List.mem_cons.mp h1).resolve_right hs
        have h0 : Walk M S p [c] s := .cons _ _ _ _ (.inr rfl) (by rw [he]; exact .nil _)
        rcases ih with ih | ⟨x, y, z, rfl, hx, hy, hz⟩
        · rw [he] at ih
          exact .inr ⟨[c], [], w, rfl, h0, nil_mem_kstar _, ih⟩
        · rw [he] at hx
          exact .inr ⟨[c], x ++ y, z, by simp, h0, cons_star hx hy, hz⟩
      · cases h2
        exact .inl (.cons _ _ _ _ (.inr rfl) (.nil _))

theorem walk_star {S : List σ} {s q : σ} {w : List Char} : ∀ ws : List (List Char), (∀ w ∈ ws, w ∈ walks M S s s) → s ∈ S → Walk M S s w q →
    Walk M S s (ws.flatten ++ w) q
  | [], _, _, h => h
  | v :: ws, hv, hs, h => by
    rw [List.flatten_cons, List.append_assoc]
    exact Walk.trans (hv v List.mem_cons_self) hs (walk_star ws (fun w hw => hv w (List.mem_cons_of_mem _ hw)) hs h)

theorem walks_cons (S : List σ) (s p q : σ) : walks M (s :: S) p q = walks M S p q + walks M S p s * ((walks M S s s)∗ * walks M S s q) := by
  ext w
  rw [mem_add, mem_mul]
  constructor
  · intro h
    rcases walk_cons h with h | ⟨x, y, z, rfl, hx, hy, hz⟩
    · exact .inl h
    · exact .inr ⟨x, hx, y ++ z, mem_mul.mpr ⟨y, hy, z, hz, rfl⟩, rfl⟩
  · have hsub : S ⊆ s :: S := List.subset_cons_self s S
    rintro (h | ⟨x, hx, v, hv, rfl⟩)
    · exact Walk.mono hsub h
    · obtain ⟨y, hy, z, hz, rfl⟩ := mem_mul.mp hv
      obtain ⟨ws, rfl, hws⟩ := mem_kstar.mp hy
      exact Walk.trans (Walk.mono hsub hx) List.mem_cons_self
        (walk_star ws (fun w hw => Walk.mono hsub (hws w hw)) List.mem_cons_self (Walk.mono hsub hz))

/-- All characters. -/
noncomputable def chars : List Char := ((finite_chars 0x110000).toFinset).toList

theorem mem_chars (c : Char) : c ∈ chars := by
  simp only [chars, Finset.mem_toList, Set.Finite.mem_toFinset]
  have := c.valid
  simp only [UInt32.isValidChar, Nat.isValidChar] at this
  show c.val.toNat ≤ _
  omega

open Classical in
theorem told_walks : ∀ (S : List σ) (p q : σ), Told (walks M S p q)
  | [], p, q => by
    have : walks M [] p q = (if p = q then 1 else 0) + union (fun c => {[c]}) (chars.filter fun c => M.step p c = q) := by
      ext w
      rw [mem_add, mem_union]
      show Walk M [] p w q ↔ _ ∨ ∃ c ∈ chars.filter fun c => M.step p c = q, w = [c]
      constructor
      · intro h
        cases h with
        | nil => left; rw [if_pos rfl]; rfl
        | cons _ _ c w h1 h2 =>
          right
          rcases h1 with h1 | rfl
          · simp at h1
          · cases h2
            exact ⟨c, by simp [mem_chars], rfl⟩
      · rintro (h | ⟨c, hc, rfl⟩)
        · split_ifs at h with he
          · rw [mem_one] at h
            rw [h, he]
            exact .nil _
          · exact absurd h (notMem_zero _)
        · simp only [List.mem_filter, decide_eq_true_eq] at hc
          exact .cons _ _ _ _ (.inr rfl) (by rw [hc.2]; exact .nil _)
    rw [this]
    refine told_add ?_ (told_union _ _ fun c _ => told_char c)
    split_ifs
    · exact told_one
    · exact told_zero
  | s :: S, p, q => by
    rw [walks_cons]
    exact told_add (told_walks S p q) (told_mul (told_walks S p s) (told_mul (told_star (told_walks S s s)) (told_walks S s q)))

theorem walk_all {S : List σ} (hS : ∀ s, s ∈ S) : ∀ (w : List Char) (p q : σ), Walk M S p w q ↔ M.evalFrom p w = q
  | [], p, q => ⟨fun h => (by cases h; rfl), fun h => h ▸ .nil _⟩
  | c :: w, p, q => by
    rw [DFA.evalFrom_cons, ← walk_all hS w]
    constructor
    · intro h
      cases h
      assumption
    · exact .cons _ _ _ _ (.inl (hS _))

end

open Classical in
theorem told_regular {L : Language Char} (h : L.IsRegular) : Told L := by
  obtain ⟨σ, _, M, rfl⟩ := h
  have : M.accepts = union (walks M Finset.univ.toList M.start) (Finset.univ.toList.filter (· ∈ M.accept)) := by
    ext w
    rw [mem_union]
    show M.eval w ∈ M.accept ↔ ∃ q ∈ _, Walk M _ M.start w q
    constructor
    · intro h
      exact ⟨M.eval w, by simpa using h, (walk_all (by simp) _ _ _).mpr rfl⟩
    · rintro ⟨q, hq, h⟩
      rw [walk_all (by simp)] at h
      subst h
      simp only [List.mem_filter, decide_eq_true_eq] at hq
      exact hq.2
  rw [this]
  exact told_union _ _ fun q _ => told_walks _ _ _

end Regular

namespace Props
open Regular GenCost Text Eval

/-- C112.  If `RuleContainsCycle` answers false, the texts of the rule form a regular language. -/
theorem C112_regular (g : Grammar) (hd : NamesDistinct g) (core : List Rule) (hcore : core.Perm Core.rules)
    (order : List Str) (ho : order.Perm ((dependencyGraph core g).map Prod.fst)) (name : Str)
    (h : ruleContainsCycle core g order name = some (.ok false)) : Language.IsRegular {w : List Char | DerivesRule g name (utf8 w)} := by
  obtain ⟨h1, h2⟩ := C20_exact g hd core hcore order ho name
  have hr : ∃ r, Resolves g name r := by
    by_contra hr
    rw [h1.mpr hr] at h
    cases h
  obtain ⟨r, hr⟩ := hr
  obtain ⟨b, h3, h4⟩ := h2 r hr
  rw [h] at h3
  cases h3
  have hn : NoCycleBelow g r := fun h => by
    have := h4.mpr h
    cases this
  have key : ({w : List Char | DerivesRule g name (utf8 w)} : Language Char) = ofAlt g r.alt := by
    ext w
    constructor
    · intro (hw : Derives g _ _)
      generalize hb : utf8 w = b at hw
      cases hw with
      | rule _ r'' _ h1 h2 =>
        subst hb
        rw [resolves_unique hd hr h1 rfl]
        exact h2
      | term _ _ h => cases h
    · intro h
      exact .rule _ _ _ hr h
  rw [key]
  exact reg_rule hd r (Chomsky.resolves_mem hr) hn

/-- C112.  Every regular language of Unicode texts has an ABNF grammar of one rule, without a cycle, that `ParseABNF`
accepts, printed. -/
theorem C112_every (L : Language Char) (h : L.IsRegular) : ∃ r : Rule, Sound ⟨[r]⟩ ∧
    (∀ (sched : Sched NodeKey), sched.Fair → parseABNF sched (utf8 (Grammar.mk [r]).str) [] = .ok ⟨[r]⟩) ∧
    (∀ core : List Rule, core.Perm Core.rules → ∀ order : List Str, order.Perm ((dependencyGraph core ⟨[r]⟩).map Prod.fst) →
      ruleContainsCycle core ⟨[r]⟩ order r.name = some (.ok false)) ∧
    ∀ b, DerivesRule ⟨[r]⟩ r.name b ↔ ∃ w ∈ L, b = utf8 w := by
  obtain ⟨a, h1, h2, h3, h4, h5⟩ := told_regular h
  have hd : NamesDistinct ⟨[⟨nm 0, a⟩]⟩ := List.pairwise_singleton _ _
  have hr : Resolves ⟨[⟨nm 0, a⟩]⟩ (nm 0) ⟨nm 0, a⟩ := .user List.mem_cons_self ((sameName_iff _ _).mpr rfl)
  have hreps : rulesReps [(⟨nm 0, a⟩ : Rule)] = altReps a := by simp [rulesReps]
  have hs : Sound ⟨[⟨nm 0, a⟩]⟩ := by
    intro q hq
    have := h3 q (by rwa [hreps] at hq)
    refine ⟨fun n hn => absurd hn (this.2.1 n), fun m hm => ?_, this.2.2⟩
    rcases this.1 with h | h <;> rw [h.2] at hm <;> cases hm
    omega
  refine ⟨⟨nm 0, a⟩, hs, fun sched hf => ?_, fun core hcore order ho => ?_, fun b => ?_⟩
  · refine (C79_same_partial _ ?_ (by simp) hd ?_ ?_ ?_ sched hf [] fun _ => hs).1
    · intro r hr
      rw [List.mem_singleton] at hr
      subst hr
      simp [Rule.written, Chomsky.nm_ok, h1, h2]
    · intro r hr
      rw [List.mem_singleton] at hr
      subst hr
      exact nm_plain
    · intro q hq
      have := h3 q (by rwa [hreps] at hq)
      rcases this.1 with h | h
      · exact ⟨by rw [h.1]; decide, fun m hm => by rw [h.2] at hm; cases hm; decide⟩
      · exact ⟨by rw [h.1]; decide, fun m hm => by rw [h.2] at hm; cases hm⟩
    · intro p hp
      simp at hp
      exact h4 p hp
  · obtain ⟨b, h6, h7⟩ := (C20_exact _ hd core hcore order ho (nm 0)).2 _ hr
    cases b with
    | false => exact h6
    | true =>
      obtain ⟨r', h8, h9⟩ := h7.mp rfl
      have key : ∀ r', ¬ Refers ⟨[⟨nm 0, a⟩]⟩ ⟨nm 0, a⟩ r' := by
        rintro r' ⟨q, hq, n, hn, _⟩
        exact (h3 q hq).2.1 n hn
      rcases Relation.ReflTransGen.cases_head h8 with rfl | ⟨r'', h10, _⟩
      · obtain ⟨r'', h10, _⟩ := Relation.TransGen.head'_iff.mp h9
        exact absurd h10 (key _)
      · exact absurd h10 (key _)
  · constructor
    · intro hb
      obtain ⟨w, rfl⟩ := derives_utf8 hb
      refine ⟨w, ?_, rfl⟩
      rw [← h5 ⟨[⟨nm 0, a⟩]⟩]
      generalize hb' : utf8 w = b at hb
      cases hb with
      | rule _ r'' _ h1 h2 =>
        subst hb'
        rw [resolves_unique hd h1 hr rfl] at h2
        exact h2
      | term _ _ h => cases h
    · rintro ⟨w, hw, rfl⟩
      rw [← h5 ⟨[⟨nm 0, a⟩]⟩] at hw
      exact .rule _ _ _ hr hw

/-- Hexadecimal numbers. -/
def hexes : Grammar := ⟨[⟨['h'], [[⟨1, some 1, .charVal false ['0', 'x']⟩, ⟨1, none, .rulename (str% "HEXDIG")⟩]]⟩]⟩

/-- C112_regular and C112_every: their hypotheses. -/
example : NamesDistinct hexes ∧ ruleContainsCycle Core.rules hexes (plainOrder hexes) ['h'] = some (.ok false) ∧
    Language.IsRegular ({['a'], ['b', 'b']} : Set (List Char)) :=
  ⟨namesDistinct_of (by decide), by decide +kernel, reg_finite (by simp)⟩

end Props
end Verif
