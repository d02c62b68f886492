import Mathlib.Computability.ContextFreeGrammar
import Mathlib.Data.Set.Finite.Lattice
import Mathlib.Data.Finite.Prod
import Mathlib.Data.Set.Finite.Powerset
import Mathlib.Order.Interval.Finset.Nat
import Verif.GenCost
import Verif.PropsCore
import Verif.PropsPrint

/-!
# C111: ABNF describes exactly the context-free languages

`Spec.Derives` is compared with Mathlib's definition of a context-free grammar, in both directions.
-/

namespace Verif
open Spec

namespace Chomsky
open GenCost

/-! ## Derivations of a context-free grammar as trees -/

section
variable {T : Type} {G : ContextFreeGrammar T}

/-- The symbols derive the word, each its own piece. -/
inductive Yields (G : ContextFreeGrammar T) : List (Symbol T G.NT) → List T → Prop
  | nil : Yields G [] []
  | term (t s w) : Yields G s w → Yields G (.terminal t :: s) (t :: w)
  | nt (r : ContextFreeRule T G.NT) (s u v) : r ∈ G.rules → Yields G r.output u → Yields G s v → Yields G (.nonterminal r.input :: s) (u ++ v)

theorem Yields.append {a b : List (Symbol T G.NT)} {u v : List T} (h1 : Yields G a u) (h2 : Yields G b v) : Yields G (a ++ b) (u ++ v) := by
  induction h1 with
  | nil => exact h2
  | term t s w _ ih => exact .term t _ _ ih
  | nt r s u w hr ho _ _ ih =>
    rw [List.append_assoc]
    exact .nt r _ _ _ hr ho ih

theorem Yields.split {a b : List (Symbol T G.NT)} {w : List T} (h : Yields G (a ++ b) w) : ∃ u v, w = u ++ v ∧ Yields G a u ∧ Yields G b v := by
  induction a generalizing w with
  | nil => exact ⟨[], w, rfl, .nil, h⟩
  | cons x a ih =>
    rw [List.cons_append] at h
    cases h with
    | term t _ w h =>
      obtain ⟨u, v, rfl, h1, h2⟩ := ih h
      exact ⟨t :: u, v, rfl, .term _ _ _ h1, h2⟩
    | nt r _ u w hr ho h =>
      obtain ⟨u', v, rfl, h1, h2⟩ := ih h
      exact ⟨u ++ u', v, (List.append_assoc _ _ _).symm, .nt _ _ _ _ hr ho h1, h2⟩

theorem yields_terminals : ∀ w : List T, Yields G (w.map .terminal) w
  | [] => .nil
  | t :: w => .term t _ _ (yields_terminals w)

theorem derives_append {a b c d : List (Symbol T G.NT)} (h1 : G.Derives a b) (h2 : G.Derives c d) : G.Derives (a ++ c) (b ++ d) :=
  (h1.append_right c).trans (h2.append_left b)

theorem yields_iff {s : List (Symbol T G.NT)} {w : List T} : Yields G s w ↔ G.Derives s (w.map .terminal) := by
  constructor
  · intro h
    induction h with
    | nil => exact .refl _
    | term t s w _ ih => exact ih.append_left [.terminal t]
    | nt r s u v hr _ _ ih1 ih2 =>
      rw [List.map_append]
      refine derives_append (a := [.nonterminal r.input]) (ContextFreeGrammar.Produces.trans_derives ⟨r, hr, ?_⟩ ih1) ih2
      exact ContextFreeRule.Rewrites.input_output
  · intro h
    induction h using Relation.ReflTransGen.head_induction_on with
    | refl => exact yields_terminals w
    | head h1 _ ih =>
      obtain ⟨r, hr, h1⟩ := h1
      obtain ⟨p, q, rfl, rfl⟩ := h1.exists_parts
      obtain ⟨u, v, rfl, h2, h3⟩ := ih.split
      obtain ⟨u, x, rfl, h4, h5⟩ := h2.split
      have := h4.append (Yields.nt r [] x [] hr h5 .nil)
      rw [List.append_nil] at this
      exact this.append h3

end

/-! ## From ABNF -/

/-- The nonterminals: the parts of a grammar. -/
inductive Part where
  | elem (e : Elem)
  | alt (a : Alt)
  | concat (c : Concat)
  | rep (mn : Nat) (mx : Option Nat) (e : Elem)

abbrev Form := List (Symbol Char Part)

/-- What a part of the grammar is replaced by. -/
inductive Out (g : Grammar) : Part → Form → Prop
  | rule (n r) : Resolves g n r → Out g (.elem (.rulename n)) [.nonterminal (.alt r.alt)]
  | group (a) : Out g (.elem (.group a)) [.nonterminal (.alt a)]
  | optNone (a) : Out g (.elem (.option a)) []
  | optSome (a) : Out g (.elem (.option a)) [.nonterminal (.alt a)]
  | term (e cs) : Terminal e cs → Out g (.elem e) (cs.map .terminal)
  | alt (a c) : c ∈ a → Out g (.alt a) [.nonterminal (.concat c)]
  | nil : Out g (.concat []) []
  | cons (r c) : Out g (.concat (r :: c)) [.nonterminal (.rep r.min r.max r.elem), .nonterminal (.concat c)]
  | zero (mx e) : Out g (.rep 0 mx e) []
  | more (mn mx e) : mx ≠ some 0 → Out g (.rep mn mx e) [.nonterminal (.elem e), .nonterminal (.rep (mn - 1) (mx.map (· - 1)) e)]

/-- The text that a part derives. -/
def Meaning (g : Grammar) : Part → List Char → Prop
  | .elem e, w => Derives g e (utf8 w)
  | .alt a, w => DerivesAlt g a (utf8 w)
  | .concat c, w => DerivesConcat g c (utf8 w)
  | .rep mn mx e, w => DerivesRep g ⟨mn, mx, e⟩ (utf8 w)

/-- The text that a form derives. -/
def Means (g : Grammar) : Form → List Char → Prop
  | [], w => w = []
  | .terminal t :: s, w => ∃ v, w = t :: v ∧ Means g s v
  | .nonterminal x :: s, w => ∃ u v, w = u ++ v ∧ Meaning g x u ∧ Means g s v

theorem means_terminals {g : Grammar} : ∀ {cs w : List Char}, Means g (cs.map .terminal) w → w = cs
  | [], w, h => h
  | c :: cs, w, h => by
    obtain ⟨v, rfl, h⟩ := h
    rw [means_terminals h]

theorem means_one {g : Grammar} {x : Part} {w : List Char} (h : Means g [.nonterminal x] w) : Meaning g x w := by
  obtain ⟨u, v, rfl, h1, h2⟩ := h
  cases h2
  rwa [List.append_nil]

theorem meaning_of {g : Grammar} {x : Part} {o : Form} {w : List Char} (h : Out g x o) (hm : Means g o w) : Meaning g x w := by
  cases h with
  | rule n r h => exact .rule _ _ _ h (means_one hm)
  | group a => exact .group _ _ (means_one hm)
  | optNone a => cases hm; exact .optNone a
  | optSome a => exact .optSome _ _ (means_one hm)
  | term e cs h => rw [means_terminals hm]; exact .term _ _ h
  | alt a c h => exact .mk _ _ _ h (means_one hm)
  | nil => cases hm; exact .nil
  | cons r c =>
    obtain ⟨u, v, rfl, h1, h2⟩ := hm
    simp only [Meaning]
    rw [utf8_append]
    obtain ⟨mn, mx, e⟩ := r
    exact .cons _ _ _ _ h1 (means_one h2)
  | zero mx e => cases hm; exact .mk _ _ _ 0 _ (Nat.le_refl _) (fun _ _ => Nat.zero_le _) (.zero _)
  | more mn mx e h =>
    obtain ⟨u, v, rfl, h1, h2⟩ := hm
    simp only [Meaning]
    rw [utf8_append]
    cases means_one h2 with
    | mk _ _ _ n _ h3 h4 h5 =>
      refine .mk _ _ _ (n + 1) _ (by omega) (fun m hm => ?_) (.succ _ _ _ _ h1 h5)
      subst hm
      have := h4 (m - 1) rfl
      have : m ≠ 0 := fun h' => h (by rw [h'])
      omega

/-- A finite set of parts that contains `x` and, rules apart, everything its members are replaced by. -/
def Small (g : Grammar) (x : Part) : Prop :=
  ∃ S : Set Part, S.Finite ∧ x ∈ S ∧ ∀ y ∈ S, ∀ o, Out g y o → ∀ z, .nonterminal z ∈ o → z ∈ S ∨ ∃ r ∈ g.rules ++ Core.rules, z = .alt r.alt

theorem small_of {g : Grammar} {x : Part} (C : Set Part) (hf : C.Finite) (hC : ∀ z ∈ C, Small g z)
    (h : ∀ o, Out g x o → ∀ z, .nonterminal z ∈ o → z = x ∨ z ∈ C ∨ ∃ r ∈ g.rules ++ Core.rules, z = .alt r.alt) : Small g x := by
  choose! S h1 h2 h3 using hC
  refine ⟨insert x (⋃ z ∈ C, S z), (hf.biUnion h1).insert x, Set.mem_insert _ _, fun y hy o ho z hz => ?_⟩
  rcases hy with rfl | hy
  · rcases h o ho z hz with rfl | h | h
    · exact .inl (Set.mem_insert _ _)
    · exact .inl (Set.mem_insert_of_mem _ (Set.mem_biUnion h (h2 z h)))
    · exact .inr h
  · obtain ⟨c, hc, hy⟩ := Set.mem_iUnion₂.mp hy
    rcases h3 c hc y hy o ho z hz with h | h
    · exact .inl (Set.mem_insert_of_mem _ (Set.mem_biUnion hc h))
    · exact .inr h

theorem resolves_mem {g : Grammar} {n : Str} {r : Rule} (h : Resolves g n r) : r ∈ g.rules ++ Core.rules := by
  cases h with
  | user h _ => exact List.mem_append_left _ h
  | core h _ _ => exact List.mem_append_right _ h

theorem small_terminal {g : Grammar} {e : Elem} (h1 : ∀ a, e ≠ .group a) (h2 : ∀ a, e ≠ .option a) : Small g (.elem e) := by
  refine small_of ∅ Set.finite_empty (fun _ h => absurd h (Set.notMem_empty _)) fun o ho z hz => ?_
  cases ho with
  | rule n r h =>
    simp only [List.mem_singleton, Symbol.nonterminal.injEq] at hz
    exact .inr (.inr ⟨r, resolves_mem h, hz⟩)
  | group a => exact absurd rfl (h1 a)
  | optNone a => exact absurd rfl (h2 a)
  | optSome a => exact absurd rfl (h2 a)
  | term e cs h => simp at hz

theorem small_rep {g : Grammar} {e : Elem} (he : Small g (.elem e)) : ∀ (k mn : Nat) (mx : Option Nat), mn + mx.getD 0 ≤ k → Small g (.rep mn mx e) := by
  intro k
  induction k with
  | zero =>
    intro mn mx h
    refine small_of {.elem e} (Set.finite_singleton _) (fun z hz => by rw [Set.mem_singleton_iff] at hz; rwa [hz]) fun o ho z hz => ?_
    cases ho with
    | zero => simp at hz
    | more _ _ _ h0 =>
      cases mx with
      | none =>
        have : mn = 0 := by simpa using h
        subst this
        simp at hz
        rcases hz with rfl | rfl
        · exact .inr (.inl rfl)
        · exact .inl rfl
      | some m =>
        simp at h
        exact absurd (by rw [h.2]) h0
  | succ k ih =>
    intro mn mx h
    by_cases h0 : mn = 0 ∧ mx = none
    · obtain ⟨rfl, rfl⟩ := h0
      exact ih 0 none (by simp)
    · by_cases h1 : mx = some 0
      · refine small_of {.elem e} (Set.finite_singleton _) (fun z hz => by rw [Set.mem_singleton_iff] at hz; rwa [hz]) fun o ho z hz => ?_
        cases ho with
        | zero => simp at hz
        | more _ _ _ h0 => exact absurd h1 h0
      · refine small_of {.elem e, .rep (mn - 1) (mx.map (· - 1)) e} (by simp) (fun z hz => ?_) fun o ho z hz => ?_
        · rcases hz with rfl | rfl
          · exact he
          · refine ih _ _ ?_
            cases mx with
            | none =>
              simp at h h0 ⊢
              omega
            | some m =>
              simp at h h1 ⊢
              omega
        · cases ho with
          | zero => simp at hz
          | more _ _ _ _ =>
            simp at hz
            rcases hz with rfl | rfl <;> simp

theorem small_alt {g : Grammar} {a : Alt} (h : ∀ c ∈ a, Small g (.concat c)) : Small g (.alt a) := by
  refine small_of {z | ∃ c ∈ a, z = .concat c} ?_ (fun z hz => ?_) fun o ho z hz => ?_
  · have : {z : Part | ∃ c ∈ a, z = .concat c} = {z | z ∈ a.map Part.concat} := by
      ext z
      simp [eq_comm]
    rw [this]
    exact List.finite_toSet _
  · obtain ⟨c, hc, rfl⟩ := hz
    exact h c hc
  · cases ho with
    | alt _ c hc =>
      simp at hz
      exact .inr (.inl ⟨c, hc, hz⟩)

mutual
theorem small_elem (g : Grammar) : ∀ e : Elem, Small g (.elem e)
  | .rulename _ => small_terminal (by simp) (by simp)
  | .charVal _ _ => small_terminal (by simp) (by simp)
  | .numVal _ _ _ => small_terminal (by simp) (by simp)
  | .proseVal _ => small_terminal (by simp) (by simp)
  | .group a => by
    have := small_alt (small_concats g a)
    refine small_of {.alt a} (Set.finite_singleton _) (fun z hz => by rw [Set.mem_singleton_iff] at hz; rwa [hz]) fun o ho z hz => ?_
    cases ho with
    | group => simp at hz; exact .inr (.inl hz)
    | term e cs h => simp at hz
  | .option a => by
    have := small_alt (small_concats g a)
    refine small_of {.alt a} (Set.finite_singleton _) (fun z hz => by rw [Set.mem_singleton_iff] at hz; rwa [hz]) fun o ho z hz => ?_
    cases ho with
    | optNone => simp at hz
    | optSome => simp at hz; exact .inr (.inl hz)
    | term e cs h => simp at hz
theorem small_concat (g : Grammar) : ∀ c : List Rep, Small g (.concat c)
  | [] => by
    refine small_of ∅ Set.finite_empty (fun _ h => absurd h (Set.notMem_empty _)) fun o ho z hz => ?_
    cases ho
    simp at hz
  | ⟨mn, mx, e⟩ :: c => by
    have h1 := small_rep (small_elem g e) _ mn mx (Nat.le_refl _)
    have h2 := small_concat g c
    refine small_of {.rep mn mx e, .concat c} (by simp) (fun z hz => by rcases hz with rfl | rfl <;> assumption) fun o ho z hz => ?_
    cases ho
    simp at hz
    rcases hz with rfl | rfl <;> simp
theorem small_concats (g : Grammar) : ∀ a : List (List Rep), ∀ c ∈ a, Small g (.concat c)
  | [], _, h => by simp at h
  | c :: a, d, h => by
    rcases List.mem_cons.mp h with h | h
    · rw [h]; exact small_concat g c
    · exact small_concats g a d h
end

theorem finite_chars (p : Nat) : {c : Char | c.toNat ≤ p}.Finite := by
  refine Set.Finite.of_finite_image (f := Char.toNat) ((Set.finite_Iic p).subset ?_) fun a _ b _ h => Char.toNat_inj.mp h
  rintro _ ⟨c, hc, rfl⟩
  exact hc

theorem finite_forall2 {α : Type} {R : α → Char → Prop} : ∀ l : List α, (∀ a ∈ l, {c | R a c}.Finite) → {cs | List.Forall₂ R l cs}.Finite
  | [], _ => (Set.finite_singleton []).subset fun cs h => by cases h; rfl
  | a :: l, h => by
    have h1 := finite_forall2 l fun x hx => h x (List.mem_cons_of_mem a hx)
    refine ((h a List.mem_cons_self).image2 (fun c cs => c :: cs) h1).subset fun cs hcs => ?_
    cases hcs with
    | cons h1 h2 => exact ⟨_, h1, _, h2, rfl⟩

theorem finite_terminal (e : Elem) : {cs | Terminal e cs}.Finite := by
  cases e with
  | rulename n => exact Set.finite_empty.subset fun cs h => by cases h
  | group a => exact Set.finite_empty.subset fun cs h => by cases h
  | option a => exact Set.finite_empty.subset fun cs h => by cases h
  | proseVal vs => exact Set.finite_empty.subset fun cs h => by cases h
  | charVal b vs =>
    cases b with
    | true => exact (Set.finite_singleton vs).subset fun cs h => by cases h; rfl
    | false =>
      refine (finite_forall2 (R := SameLetter) vs fun a _ => ?_).subset fun cs h => by cases h; assumption
      refine (finite_chars (a.toNat + 32)).subset fun c hc => ?_
      rcases hc with rfl | ⟨_, _, h⟩ | ⟨_, _, h⟩
      · exact Nat.le_add_right _ _
      · exact Nat.le_of_eq h
      · simp only [Set.mem_ofPred_eq]; omega
  | numVal b st es =>
    cases st with
    | series =>
      refine (finite_forall2 (R := fun s c => Denotes b s (Char.toNat c)) es fun s _ => ?_).subset fun cs h => by cases h; assumption
      by_cases hs : ∃ v, Denotes b s v
      · obtain ⟨v, hv⟩ := hs
        refine (finite_chars v).subset fun c hc => ?_
        exact Nat.le_of_eq (denotes_fun hc hv)
      · exact Set.finite_empty.subset fun c hc => hs ⟨_, hc⟩
    | range =>
      by_cases hs : ∃ s t v, es = [s, t] ∧ Denotes b t v
      · obtain ⟨s, t, v, rfl, hv⟩ := hs
        refine ((finite_chars v).image fun c => [c]).subset fun cs hc => ?_
        cases hc with
        | range _ _ _ lo hi c h1 h2 h3 h4 =>
          exact ⟨c, by rw [denotes_fun h2 hv] at h4; exact h4, rfl⟩
      · refine Set.finite_empty.subset fun cs hc => hs ?_
        cases hc with
        | range _ s t lo hi c h1 h2 h3 h4 => exact ⟨s, t, hi, rfl, h2⟩

theorem finite_out (g : Grammar) (x : Part) : {o | Out g x o}.Finite := by
  have hr : {o : Form | ∃ r ∈ g.rules ++ Core.rules, o = [.nonterminal (.alt r.alt)]}.Finite := by
    refine ((g.rules ++ Core.rules).finite_toSet.image fun r => [Symbol.nonterminal (Part.alt r.alt)]).subset ?_
    rintro _ ⟨r, hr, rfl⟩
    exact ⟨r, hr, rfl⟩
  cases x with
  | elem e =>
    refine ((hr.union ((finite_terminal e).image fun cs => cs.map Symbol.terminal)).union
      (Set.toFinite {([] : Form), [.nonterminal (.alt (match e with | .group a => a | .option a => a | _ => []))]})).subset fun o ho => ?_
    cases ho with
    | rule n r h => exact .inl (.inl ⟨r, resolves_mem h, rfl⟩)
    | group a => exact .inr (.inr rfl)
    | optNone a => exact .inr (.inl rfl)
    | optSome a => exact .inr (.inr rfl)
    | term _ cs h => exact .inl (.inr ⟨cs, h, rfl⟩)
  | alt a =>
    refine (a.finite_toSet.image fun c => [Symbol.nonterminal (Part.concat c)]).subset fun o ho => ?_
    cases ho with
    | alt _ c hc => exact ⟨c, hc, rfl⟩
  | concat c =>
    cases c with
    | nil => exact (Set.finite_singleton []).subset fun o ho => by cases ho; rfl
    | cons r c => exact (Set.finite_singleton _).subset fun o ho => by cases ho; rfl
  | rep mn mx e =>
    refine (Set.toFinite {([] : Form), [.nonterminal (.elem e), .nonterminal (.rep (mn - 1) (mx.map (· - 1)) e)]}).subset fun o ho => ?_
    cases ho with
    | zero => exact .inl rfl
    | more _ _ _ h => exact .inr rfl

/-- A finite set of parts in which a rule is derived. -/
theorem closed_parts (g : Grammar) (n : Str) : ∃ S : Set Part, S.Finite ∧ .elem (.rulename n) ∈ S ∧
    ∀ y ∈ S, ∀ o, Out g y o → ∀ z, .nonterminal z ∈ o → z ∈ S := by
  have key : ∀ r : Rule, Small g (.alt r.alt) := fun r => small_alt (small_concats g r.alt)
  choose R h1 h2 h3 using key
  obtain ⟨S, h4, h5, h6⟩ := small_elem g (.rulename n)
  refine ⟨S ∪ ⋃ r ∈ {r | r ∈ g.rules ++ Core.rules}, R r, h4.union ((List.finite_toSet _).biUnion fun r _ => h1 r), .inl h5, fun y hy o ho z hz => ?_⟩
  have fin : (∃ r ∈ g.rules ++ Core.rules, z = .alt r.alt) → z ∈ S ∪ ⋃ r ∈ {r | r ∈ g.rules ++ Core.rules}, R r := by
    rintro ⟨r, hr, rfl⟩
    exact .inr (Set.mem_biUnion hr (h2 r))
  rcases hy with hy | hy
  · rcases h6 y hy o ho z hz with h | h
    · exact .inl h
    · exact fin h
  · obtain ⟨r, hr, hy⟩ := Set.mem_iUnion₂.mp hy
    rcases h3 r y hy o ho z hz with h | h
    · exact .inr (Set.mem_biUnion hr h)
    · exact fin h

/-- The grammar of the parts in a finite set. -/
noncomputable def cfg (g : Grammar) (n : Str) (S : Set Part) (hS : S.Finite) : ContextFreeGrammar Char where
  NT := Part
  initial := .elem (.rulename n)
  rules := (hS.biUnion fun x _ => (finite_out g x).image fun o => (⟨x, o⟩ : ContextFreeRule Char Part)).toFinset

theorem cfg_rules {g : Grammar} {n : Str} {S : Set Part} {hS : S.Finite} {r : ContextFreeRule Char Part} :
    r ∈ (cfg g n S hS).rules ↔ r.input ∈ S ∧ Out g r.input r.output := by
  unfold cfg
  simp only [Set.Finite.mem_toFinset, Set.mem_iUnion, Set.mem_image, Set.mem_ofPred_eq, exists_prop]
  constructor
  · rintro ⟨x, hx, o, ho, rfl⟩
    exact ⟨hx, ho⟩
  · rintro ⟨h1, h2⟩
    exact ⟨_, h1, _, h2, rfl⟩

theorem yields_means {g : Grammar} {n : Str} {S : Set Part} {hS : S.Finite} {s : List (Symbol Char (cfg g n S hS).NT)} {w : List Char}
    (h : Yields (cfg g n S hS) s w) : Means g s w := by
  induction h with
  | nil => rfl
  | term t s w _ ih => exact ⟨w, rfl, ih⟩
  | nt r s u v hr _ _ ih1 ih2 => exact ⟨u, v, rfl, meaning_of (cfg_rules.mp hr).2 ih1, ih2⟩

section
variable {g : Grammar} {n : Str} {S : Set Part} {hS : S.Finite}

theorem yields_out {x : Part} {o : Form} {w : List Char} (hx : x ∈ S) (ho : Out g x o) (h : Yields (cfg g n S hS) o w) :
    Yields (cfg g n S hS) [.nonterminal x] w := by
  have := Yields.nt (G := cfg g n S hS) ⟨x, o⟩ [] w [] (cfg_rules.mpr ⟨hx, ho⟩) h .nil
  rwa [List.append_nil] at this

theorem yields_two {x y : Part} {u v : List Char} (h1 : Yields (cfg g n S hS) [.nonterminal x] u) (h2 : Yields (cfg g n S hS) [.nonterminal y] v) :
    Yields (cfg g n S hS) [.nonterminal x, .nonterminal y] (u ++ v) := h1.append h2

theorem derives_yields (hc : ∀ y ∈ S, ∀ o, Out g y o → ∀ z, .nonterminal z ∈ o → z ∈ S) {e : Elem} {b : Bytes} (h : Derives g e b) :
    ∃ w, b = utf8 w ∧ (.elem e ∈ S → Yields (cfg g n S hS) [.nonterminal (.elem e)] w) := by
  refine Derives.rec
    (motive_1 := fun e b _ => ∃ w, b = utf8 w ∧ (.elem e ∈ S → Yields (cfg g n S hS) [.nonterminal (.elem e)] w))
    (motive_2 := fun a b _ => ∃ w, b = utf8 w ∧ (.alt a ∈ S → Yields (cfg g n S hS) [.nonterminal (.alt a)] w))
    (motive_3 := fun c b _ => ∃ w, b = utf8 w ∧ (.concat c ∈ S → Yields (cfg g n S hS) [.nonterminal (.concat c)] w))
    (motive_4 := fun r b _ => ∃ w, b = utf8 w ∧ (.rep r.min r.max r.elem ∈ S → Yields (cfg g n S hS) [.nonterminal (.rep r.min r.max r.elem)] w))
    (motive_5 := fun e k b _ => ∃ w, b = utf8 w ∧ ∀ mn mx, mn ≤ k → (∀ m, mx = some m → k ≤ m) → .rep mn mx e ∈ S →
      Yields (cfg g n S hS) [.nonterminal (.rep mn mx e)] w)
    ?_ ?_ ?_ ?_ ?_ ?_ ?_ ?_ ?_ ?_ ?_ h
  · rintro m r b hr _ ⟨w, rfl, ih⟩
    exact ⟨w, rfl, fun hx => yields_out hx (.rule m r hr) (ih (hc _ hx _ (.rule m r hr) _ List.mem_cons_self))⟩
  · rintro a b _ ⟨w, rfl, ih⟩
    exact ⟨w, rfl, fun hx => yields_out hx (.group a) (ih (hc _ hx _ (.group a) _ List.mem_cons_self))⟩
  · intro a
    exact ⟨[], utf8_nil.symm, fun hx => yields_out hx (.optNone a) .nil⟩
  · rintro a b _ ⟨w, rfl, ih⟩
    exact ⟨w, rfl, fun hx => yields_out hx (.optSome a) (ih (hc _ hx _ (.optSome a) _ List.mem_cons_self))⟩
  · intro e cs ht
    exact ⟨cs, rfl, fun hx => yields_out hx (.term e cs ht) (yields_terminals cs)⟩
  · rintro a c b hm _ ⟨w, rfl, ih⟩
    exact ⟨w, rfl, fun hx => yields_out hx (.alt a c hm) (ih (hc _ hx _ (.alt a c hm) _ List.mem_cons_self))⟩
  · exact ⟨[], utf8_nil.symm, fun hx => yields_out hx .nil .nil⟩
  · rintro r c _ _ _ _ ⟨u, rfl, ih1⟩ ⟨v, rfl, ih2⟩
    exact ⟨u ++ v, (utf8_append _ _).symm, fun hx => yields_out hx (.cons r c) (yields_two (ih1 (hc _ hx _ (.cons r c) _ List.mem_cons_self))
      (ih2 (hc _ hx _ (.cons r c) _ (List.mem_cons_of_mem _ List.mem_cons_self))))⟩
  · rintro mn mx e k _ h1 h2 _ ⟨w, rfl, ih⟩
    exact ⟨w, rfl, ih mn mx h1 h2⟩
  · intro e
    refine ⟨[], utf8_nil.symm, fun mn mx h1 h2 hx => ?_⟩
    obtain rfl : mn = 0 := by omega
    exact yields_out hx (.zero mx e) .nil
  · rintro e k _ _ _ _ ⟨u, rfl, ih1⟩ ⟨v, rfl, ih2⟩
    refine ⟨u ++ v, (utf8_append _ _).symm, fun mn mx h1 h2 hx => ?_⟩
    have h0 : mx ≠ some 0 := fun h => by have := h2 0 h; omega
    refine yields_out hx (.more mn mx e h0) (yields_two (ih1 (hc _ hx _ (.more mn mx e h0) _ List.mem_cons_self))
      (ih2 _ _ (by omega) (fun m hm => ?_) (hc _ hx _ (.more mn mx e h0) _ (List.mem_cons_of_mem _ List.mem_cons_self))))
    cases mx with
    | none => cases hm
    | some p =>
      cases hm
      have := h2 p rfl
      show k ≤ p - 1
      omega

end

/-- The texts of a rule. -/
def texts (g : Grammar) (n : Str) : Language Char := {w | DerivesRule g n (utf8 w)}

theorem context_free (g : Grammar) (n : Str) : (texts g n).IsContextFree := by
  obtain ⟨S, hS, h1, h2⟩ := closed_parts g n
  refine ⟨cfg g n S hS, ?_⟩
  ext w
  rw [ContextFreeGrammar.mem_language_iff, ← yields_iff]
  constructor
  · intro h
    exact means_one (yields_means h)
  · intro h
    obtain ⟨v, h3, h4⟩ := derives_yields (n := n) (hS := hS) h2 h
    rw [utf8_inj h3]
    exact h4 h1

/-! ## To ABNF -/

section
open Classical
variable (G : ContextFreeGrammar Char)

/-- The nonterminals that occur. -/
noncomputable def syms : List G.NT :=
  (G.initial :: G.rules.toList.flatMap fun r => r.input :: r.output.filterMap fun s => match s with | .nonterminal x => some x | .terminal _ => none).dedup

/-- The name of a nonterminal. -/
noncomputable def nameOf (x : G.NT) : Str := nm ((syms G).idxOf x)

/-- A symbol as an element. -/
noncomputable def symElem : Symbol Char G.NT → Elem
  | .terminal c => .numVal ['x'] .series [Nat.toDigits 16 c.toNat]
  | .nonterminal x => .rulename (nameOf G x)

/-- The right side of a rule. -/
noncomputable def side (o : List (Symbol Char G.NT)) : Concat :=
  if o = [] then [⟨1, some 1, .charVal false []⟩] else o.map fun s => ⟨1, some 1, symElem G s⟩

/-- The rule of a nonterminal; prose, which derives nothing, if it has no right side. -/
noncomputable def ruleOf (x : G.NT) : Rule :=
  ⟨nameOf G x, if G.rules.toList.filter (fun r => r.input = x) = [] then [[⟨1, some 1, .proseVal []⟩]]
    else (G.rules.toList.filter fun r => r.input = x).map fun r => side G r.output⟩

/-- The ABNF grammar. -/
noncomputable def abnf : Grammar := ⟨(syms G).map (ruleOf G)⟩

variable {G}

theorem initial_mem : G.initial ∈ syms G := by simp [syms]

theorem input_mem {r : ContextFreeRule Char G.NT} (h : r ∈ G.rules) : r.input ∈ syms G := by
  simp only [syms, List.mem_dedup, List.mem_cons, List.mem_flatMap, Finset.mem_toList]
  exact .inr ⟨r, h, .inl rfl⟩

theorem output_mem {r : ContextFreeRule Char G.NT} (h : r ∈ G.rules) {x : G.NT} (hx : .nonterminal x ∈ r.output) : x ∈ syms G := by
  simp only [syms, List.mem_dedup, List.mem_cons, List.mem_flatMap, Finset.mem_toList, List.mem_filterMap]
  exact .inr ⟨r, h, .inr ⟨_, hx, rfl⟩⟩

theorem nameOf_inj {x y : G.NT} (hx : x ∈ syms G) (h : SameName (nameOf G x) (nameOf G y)) : x = y := by
  have := (nm_fold _ _).mp ((equalFold_iff _ _).mpr h)
  exact (List.idxOf_inj hx).mp this

theorem abnf_distinct : NamesDistinct (abnf G) := by
  unfold NamesDistinct abnf
  rw [List.pairwise_map]
  have h1 : (syms G).Nodup := List.nodup_dedup _
  refine List.Pairwise.imp_of_mem ?_ h1
  intro a b ha hb hab hs
  exact hab (nameOf_inj ha hs)

theorem resolves_iff {x : G.NT} (hx : x ∈ syms G) {r : Rule} : Resolves (abnf G) (nameOf G x) r ↔ r = ruleOf G x := by
  have h : Resolves (abnf G) (nameOf G x) (ruleOf G x) := .user (List.mem_map.mpr ⟨x, hx, rfl⟩) ((sameName_iff _ _).mpr rfl)
  constructor
  · intro h'
    exact resolves_unique abnf_distinct h' h rfl
  · rintro rfl
    exact h

theorem alt_mem {r : ContextFreeRule Char G.NT} (h : r ∈ G.rules) : side G r.output ∈ (ruleOf G r.input).alt := by
  have hm : r ∈ G.rules.toList.filter (fun q => q.input = r.input) := by simpa using h
  have : G.rules.toList.filter (fun q => q.input = r.input) ≠ [] := fun h' => by rw [h'] at hm; simp at hm
  simp only [ruleOf]
  rw [if_neg this]
  exact List.mem_map.mpr ⟨r, hm, rfl⟩

theorem mem_alt {x : G.NT} {c : Concat} (h : c ∈ (ruleOf G x).alt) : c = [⟨1, some 1, .proseVal []⟩] ∨ ∃ r ∈ G.rules, r.input = x ∧ c = side G r.output := by
  simp only [ruleOf] at h
  split_ifs at h with h0
  · exact .inl (by simpa using h)
  · obtain ⟨r, hr, rfl⟩ := List.mem_map.mp h
    simp at hr
    exact .inr ⟨r, hr.1, hr.2, rfl⟩

theorem terminal_hex {c : Char} {cs : List Char} : Terminal (.numVal ['x'] .series [Nat.toDigits 16 c.toNat]) cs ↔ cs = [c] := by
  constructor
  · intro h
    cases h with
    | series _ _ _ h =>
      cases h with
      | cons h1 h2 =>
        cases h2
        rw [Char.toNat_inj.mp (denotes_fun h1 (denotes_toDigits_hex _))]
  · rintro rfl
    exact .series _ _ _ (.cons (denotes_toDigits_hex _) .nil)

theorem derives_of_yields {s : List (Symbol Char G.NT)} {w : List Char} (h : Yields G s w) : (∀ x, .nonterminal x ∈ s → x ∈ syms G) →
    DerivesConcat (abnf G) (s.map fun s => ⟨1, some 1, symElem G s⟩) (utf8 w) := by
  induction h with
  | nil => exact fun _ => .nil
  | term t s w _ ih =>
    intro hm
    have := DerivesConcat.cons _ _ _ _ (derivesRep_one.mpr (Derives.term (g := abnf G) _ [t] (terminal_hex.mpr rfl))) (ih fun x hx => hm x (List.mem_cons_of_mem _ hx))
    rw [← utf8_append] at this
    exact this
  | nt r s u v hr _ _ ih1 ih2 =>
    intro hm
    rw [utf8_append]
    refine .cons _ _ _ _ (derivesRep_one.mpr (.rule _ (ruleOf G r.input) _ ((resolves_iff (input_mem hr)).mpr rfl) (.mk _ _ _ (alt_mem hr) ?_)))
      (ih2 fun x hx => hm x (List.mem_cons_of_mem _ hx))
    have h1 := ih1 fun x hx => output_mem hr hx
    unfold side
    split_ifs with h0
    · rw [h0] at h1
      have h2 : utf8 u = [] := derivesConcat_nil.mp h1
      rw [h2]
      exact .cons _ _ [] [] (derivesRep_one.mpr (Derives.term (g := abnf G) (.charVal false []) [] (.insensitive _ _ .nil))) .nil
    · exact h1

theorem yields_one {s : Symbol Char G.NT} {o : List (Symbol Char G.NT)} {u v : List Char} (h1 : Yields G [s] u) (h2 : Yields G o v) : Yields G (s :: o) (u ++ v) :=
  h1.append h2

theorem yields_of_derives {e : Elem} {b : Bytes} (h : Derives (abnf G) e b) : ∀ s : Symbol Char G.NT, (∀ x, s = .nonterminal x → x ∈ syms G) →
    e = symElem G s → ∃ w, b = utf8 w ∧ Yields G [s] w := by
  refine Derives.rec
    (motive_1 := fun e b _ => ∀ s : Symbol Char G.NT, (∀ x, s = .nonterminal x → x ∈ syms G) → e = symElem G s → ∃ w, b = utf8 w ∧ Yields G [s] w)
    (motive_2 := fun a b _ => ∀ x ∈ syms G, a = (ruleOf G x).alt → ∃ w, b = utf8 w ∧ Yields G [.nonterminal x] w)
    (motive_3 := fun c b _ => ∀ o : List (Symbol Char G.NT), (∀ x, .nonterminal x ∈ o → x ∈ syms G) → (c = o.map fun s => ⟨1, some 1, symElem G s⟩) →
      ∃ w, b = utf8 w ∧ Yields G o w)
    (motive_4 := fun r b _ => ∀ s : Symbol Char G.NT, (∀ x, s = .nonterminal x → x ∈ syms G) → r = ⟨1, some 1, symElem G s⟩ → ∃ w, b = utf8 w ∧ Yields G [s] w)
    (motive_5 := fun e k b _ => ∀ s : Symbol Char G.NT, (∀ x, s = .nonterminal x → x ∈ syms G) → e = symElem G s → k = 1 → ∃ w, b = utf8 w ∧ Yields G [s] w)
    ?_ ?_ ?_ ?_ ?_ ?_ ?_ ?_ ?_ ?_ ?_ h
  · intro m r b hr _ ih s hs he
    cases s with
    | terminal t => cases he
    | nonterminal x =>
      simp only [symElem, Elem.rulename.injEq] at he
      subst he
      have hx := hs x rfl
      exact ih x hx (by rw [(resolves_iff hx).mp hr])
  · intro a b _ _ s hs he
    cases s <;> cases he
  · intro a s hs he
    cases s <;> cases he
  · intro a b _ _ s hs he
    cases s <;> cases he
  · intro e cs ht s hs he
    cases s with
    | terminal t =>
      subst he
      rw [symElem, terminal_hex] at ht
      subst ht
      exact ⟨[t], rfl, .term _ _ _ .nil⟩
    | nonterminal x =>
      subst he
      cases ht
  · rintro a c b hm hd ih x hx rfl
    rcases mem_alt hm with rfl | ⟨r, hr, rfl, rfl⟩
    · rw [derivesConcat_cons] at hd
      obtain ⟨u, v, _, h1, _⟩ := hd
      rw [derivesRep_one] at h1
      cases h1 with
      | term _ _ ht => cases ht
    · suffices h : ∃ w, b = utf8 w ∧ Yields G r.output w by
        obtain ⟨w, rfl, h⟩ := h
        have := Yields.nt r [] w [] hr h .nil
        rw [List.append_nil] at this
        exact ⟨w, rfl, this⟩
      by_cases h0 : r.output = []
      · refine ⟨[], ?_, by rw [h0]; exact .nil⟩
        rw [h0, side, if_pos rfl, derivesConcat_cons] at hd
        obtain ⟨u, v, rfl, h1, h2⟩ := hd
        rw [derivesRep_one] at h1
        cases h2
        cases h1 with
        | term _ cs ht =>
          cases ht with
          | insensitive _ _ h => cases h; rfl
      · exact ih r.output (fun y hy => output_mem hr hy) (by rw [side, if_neg h0])
  · intro o ho he
    cases o with
    | nil => exact ⟨[], rfl, .nil⟩
    | cons s o => cases he
  · intro r c u v _ _ ih1 ih2 o ho he
    cases o with
    | nil => cases he
    | cons s o =>
      rw [List.map_cons, List.cons.injEq] at he
      obtain ⟨u, rfl, h1⟩ := ih1 s (fun x hx => ho x (by rw [hx]; exact List.mem_cons_self)) he.1
      obtain ⟨v, rfl, h2⟩ := ih2 o (fun x hx => ho x (List.mem_cons_of_mem _ hx)) he.2
      exact ⟨u ++ v, (utf8_append _ _).symm, yields_one h1 h2⟩
  · intro mn mx e k b h1 h2 _ ih s hs he
    cases he
    exact ih s hs rfl (by have := h2 1 rfl; omega)
  · intro e s hs he h
    cases h
  · intro e k u v _ h2 ih1 _ s hs he hk
    obtain rfl : k = 0 := by omega
    cases h2
    rw [List.append_nil]
    exact ih1 s hs he

theorem texts_abnf : texts (abnf G) (nameOf G G.initial) = G.language := by
  ext w
  rw [ContextFreeGrammar.mem_language_iff, ← yields_iff]
  constructor
  · intro h
    obtain ⟨v, h1, h2⟩ := yields_of_derives h (.nonterminal G.initial) (by rintro x ⟨⟩; exact initial_mem) rfl
    rwa [utf8_inj h1]
  · intro h
    have := derives_of_yields h (by simp [initial_mem])
    rw [List.map_singleton, derivesConcat_cons] at this
    obtain ⟨u, v, h1, h2, h3⟩ := this
    cases h3
    rw [List.append_nil] at h1
    show Derives _ _ _
    rw [h1]
    exact derivesRep_one.mp h2

theorem nm_ok (i : Nat) : nameOK (nm i) = true := by
  unfold nm
  rw [List.replicate_succ]
  simp [nameOK, List.all_replicate, show nameChar 'a' = true by decide]

theorem hex_numeral (v : Nat) : (numeralB ['x'] (Nat.toDigits 16 v) = true ∧ (Nat.toDigits 16 v).all Char.isAlphanum = true) := by
  rw [Text.numeral_iff (.inr (.inr rfl))]
  obtain ⟨ds, h1, h2⟩ := toDigits_digits (r := 16) (by decide) (by decide) v
  refine ⟨Nat.toDigits_ne_nil, fun c hc => ?_⟩
  obtain ⟨d, hd⟩ : ∃ d, HasDigit 16 c d := by
    clear h2
    revert hc
    generalize Nat.toDigits 16 v = l at h1
    induction h1 with
    | nil => simp
    | cons h _ ih =>
      intro hc
      rcases List.mem_cons.mp hc with rfl | hc
      · exact ⟨_, h⟩
      · exact ih hc
  unfold HasDigit at hd
  simp only [Text.DigitOf, Text.Digit]
  omega

theorem symElem_written (s : Symbol Char G.NT) : (symElem G s).written = true := by
  cases s with
  | terminal c =>
    obtain ⟨h1, h2⟩ := hex_numeral c.toNat
    simp only [symElem, Elem.written, List.all_cons, List.all_nil, h1, h2]
    rfl
  | nonterminal x =>
    rw [symElem, Elem.written]
    exact nm_ok _

theorem side_written (o : List (Symbol Char G.NT)) : (!(side G o).isEmpty && concatWritten (side G o)) = true := by
  unfold side
  split_ifs with h
  · decide
  · have : ∀ o : List (Symbol Char G.NT), concatWritten (o.map fun s => ⟨1, some 1, symElem G s⟩) = true := by
      intro o
      induction o with
      | nil => rfl
      | cons s o ih => rw [List.map_cons, concatWritten, ih, Rep.written, symElem_written]; rfl
    rw [this]
    simpa using h

theorem abnf_written : ∀ r ∈ (abnf G).rules, r.written = true := by
  intro r hr
  obtain ⟨x, _, rfl⟩ := List.mem_map.mp hr
  have h1 : altWritten (ruleOf G x).alt = true := by
    unfold ruleOf
    simp only
    split_ifs
    · decide
    · generalize G.rules.toList.filter (fun r => r.input = x) = l
      induction l with
      | nil => rfl
      | cons r l ih => rw [List.map_cons, altWritten, ih, side_written]; rfl
  have h2 : (ruleOf G x).alt.isEmpty = false := by
    unfold ruleOf
    simp only
    split_ifs with h
    · rfl
    · simpa using h
  rw [Rule.written, h1, h2]
  show (nameOK (nm _) && _ && _) = true
  rw [nm_ok]
  rfl

theorem reps_in {a : Alt} {q : Rep} (h : q ∈ altReps a) : ∃ c ∈ a, ∃ r ∈ c, q ∈ repReps r := by
  induction a with
  | nil => simp [altReps] at h
  | cons c a ih =>
    rw [altReps, List.mem_append] at h
    rcases h with h | h
    · refine ⟨c, List.mem_cons_self, ?_⟩
      clear ih
      induction c with
      | nil => simp [concatReps] at h
      | cons r c ih =>
        rw [concatReps, List.mem_append] at h
        rcases h with h | h
        · exact ⟨r, List.mem_cons_self, h⟩
        · obtain ⟨r', h1, h2⟩ := ih h
          exact ⟨r', List.mem_cons_of_mem _ h1, h2⟩
    · obtain ⟨c', h1, h2⟩ := ih h
      exact ⟨c', List.mem_cons_of_mem _ h1, h2⟩

theorem strings_in {a : Alt} {p : Bool × Str} (h : p ∈ altStrings a) : ∃ c ∈ a, ∃ r ∈ c, p ∈ Rep.strings r := by
  induction a with
  | nil => simp [altStrings] at h
  | cons c a ih =>
    rw [altStrings, List.mem_append] at h
    rcases h with h | h
    · refine ⟨c, List.mem_cons_self, ?_⟩
      clear ih
      induction c with
      | nil => simp [concatStrings] at h
      | cons r c ih =>
        rw [concatStrings, List.mem_append] at h
        rcases h with h | h
        · exact ⟨r, List.mem_cons_self, h⟩
        · obtain ⟨r', h1, h2⟩ := ih h
          exact ⟨r', List.mem_cons_of_mem _ h1, h2⟩
    · obtain ⟨c', h1, h2⟩ := ih h
      exact ⟨c', List.mem_cons_of_mem _ h1, h2⟩

theorem rep_cases {x : G.NT} {c : Concat} (hc : c ∈ (ruleOf G x).alt) {r : Rep} (hr : r ∈ c) :
    r = ⟨1, some 1, .charVal false []⟩ ∨ r = ⟨1, some 1, .proseVal []⟩ ∨
    ∃ s : Symbol Char G.NT, r = ⟨1, some 1, symElem G s⟩ ∧ ∀ x, s = .nonterminal x → x ∈ syms G := by
  rcases mem_alt hc with rfl | ⟨q, hq, rfl, rfl⟩
  · exact .inr (.inl (by simpa using hr))
  · unfold side at hr
    split_ifs at hr
    · exact .inl (by simpa using hr)
    · obtain ⟨s, hs, rfl⟩ := List.mem_map.mp hr
      exact .inr (.inr ⟨s, rfl, fun x hx => output_mem hq (hx ▸ hs)⟩)

theorem abnf_reps {q : Rep} (h : q ∈ rulesReps (abnf G).rules) : q = ⟨1, some 1, .charVal false []⟩ ∨ q = ⟨1, some 1, .proseVal []⟩ ∨
    ∃ s : Symbol Char G.NT, q = ⟨1, some 1, symElem G s⟩ ∧ ∀ x, s = .nonterminal x → x ∈ syms G := by
  obtain ⟨r, hr, hq⟩ := List.mem_flatMap.mp h
  obtain ⟨x, _, rfl⟩ := List.mem_map.mp hr
  obtain ⟨c, hc, r, hr, hq⟩ := reps_in hq
  have h1 := rep_cases hc hr
  have h2 : repReps r = [r] := by
    rcases h1 with rfl | rfl | ⟨s, rfl, _⟩
    · rfl
    · rfl
    · cases s <;> rfl
  rw [h2, List.mem_singleton] at hq
  rwa [hq]

theorem abnf_strings {p : Bool × Str} (h : p ∈ (abnf G).rules.flatMap fun r => altStrings r.alt) : p.1 = false := by
  obtain ⟨r, hr, hq⟩ := List.mem_flatMap.mp h
  obtain ⟨x, _, rfl⟩ := List.mem_map.mp hr
  obtain ⟨c, hc, r, hr, hq⟩ := strings_in hq
  rcases rep_cases hc hr with rfl | rfl | ⟨s, rfl, _⟩
  · simp [Rep.strings, Elem.strings] at hq
    rw [hq]
  · simp [Rep.strings, Elem.strings] at hq
  · cases s <;> simp [Rep.strings, Elem.strings, symElem] at hq

theorem abnf_sound : Props.Sound (abnf G) := by
  intro q hq
  rcases abnf_reps hq with rfl | rfl | ⟨s, rfl, hs⟩
  · exact ⟨fun n h => (by cases h), fun m h => (by cases h; exact Nat.le_refl _), fun b st es h => (by cases h)⟩
  · exact ⟨fun n h => (by cases h), fun m h => (by cases h; exact Nat.le_refl _), fun b st es h => (by cases h)⟩
  · refine ⟨fun n h => ?_, fun m h => (by cases h; exact Nat.le_refl _), fun b st es h => ?_⟩
    · cases s with
      | terminal c => cases h
      | nonterminal x =>
        cases h
        exact ⟨_, (resolves_iff (hs x rfl)).mpr rfl⟩
    · cases s with
      | terminal c =>
        cases h
        intro s hs
        rw [List.mem_singleton] at hs
        subst hs
        refine ⟨_, denotes_toDigits_hex _, ?_⟩
        have := c.valid
        simp only [UInt32.isValidChar, Nat.isValidChar] at this
        show c.val.toNat ≤ _
        omega
      | nonterminal x => cases h

end

end Chomsky

namespace Props
open Chomsky GenCost Text Eval

/-- C111.  The texts of a rule form a context-free language, in the sense of Mathlib. -/
theorem C111_context_free (g : Grammar) (n : Str) : Language.IsContextFree {w : List Char | DerivesRule g n (utf8 w)} := context_free g n

/-- C111.  Every context-free language of Unicode texts has an ABNF grammar that `ParseABNF` accepts, printed, and for
which `ParseForest` accepts exactly its texts, encoded as UTF-8. -/
theorem C111_every (L : Language Char) (h : L.IsContextFree) : ∃ g root, Sound g ∧
    (∀ (sched : Sched NodeKey), sched.Fair → parseABNF sched (utf8 g.str) [] = .ok g) ∧
    (∀ b, DerivesRule g root b ↔ ∃ w ∈ L, b = utf8 w) ∧
    ∀ (sched : Sched NodeKey), sched.Fair → ∀ inp, ∃ f, parseForest sched inp g root 0 0 = .ok f ∧ (f.valid = true ↔ ∃ w ∈ L, inp = utf8 w) := by
  obtain ⟨G, rfl⟩ := h
  have hw := abnf_written (G := G)
  have hx := initial_mem (G := G)
  have key : ∀ b, DerivesRule (abnf G) (nameOf G G.initial) b ↔ ∃ w ∈ G.language, b = utf8 w := by
    intro b
    constructor
    · intro h
      obtain ⟨w, rfl, _⟩ := yields_of_derives h (.nonterminal G.initial) (by rintro x ⟨⟩; exact initial_mem) rfl
      refine ⟨w, ?_, rfl⟩
      rw [← texts_abnf]
      exact h
    · rintro ⟨w, hw, rfl⟩
      rw [← texts_abnf] at hw
      exact hw
  refine ⟨abnf G, nameOf G G.initial, abnf_sound, fun sched hf => ?_, key, fun sched hf inp => ?_⟩
  · refine (C79_same_partial _ hw ?_ abnf_distinct ?_ ?_ (fun p => abnf_strings) sched hf [] fun _ => abnf_sound).1
    · intro h
      have : ruleOf G G.initial ∈ (abnf G).rules := List.mem_map.mpr ⟨_, hx, rfl⟩
      rw [h] at this
      simp at this
    · intro r hr
      obtain ⟨x, _, rfl⟩ := List.mem_map.mp hr
      exact nm_plain
    · intro q hq
      have : q.min = 1 ∧ q.max = some 1 := by
        rcases abnf_reps hq with rfl | rfl | ⟨s, rfl, hs⟩ <;> exact ⟨rfl, rfl⟩
      refine ⟨by rw [this.1]; decide, fun m hm => ?_⟩
      rw [this.2] at hm
      cases hm
      decide
  · have hc : CaseConsistent (abnf G).strings := by
      have : ∀ p ∈ (abnf G).strings, p.1 = false := by
        intro p hp
        unfold Grammar.strings at hp
        rw [List.flatMap_append, List.mem_append] at hp
        rcases hp with hp | hp
        · exact abnf_strings hp
        · revert p
          decide
      intro p hp q hq _
      rw [this p hp, this q hq]
    obtain ⟨sg, hs⟩ := (C11_unbounded (abnf G) (nameOf G G.initial)).mpr ⟨_, (resolves_iff hx).mpr rfl⟩
    obtain ⟨st0, hst⟩ := parseForest_eq (inp := inp) hf hs
    have h0 := hst 0
    rw [if_neg (by omega)] at h0
    exact ⟨_, h0, by rw [C01_exact_written _ hw hc abnf_distinct sched hf inp _ 0 0 _ h0, key]⟩

/-- A language that is context-free and not regular: as many a as b. -/
def asMany : Grammar := ⟨[⟨['s'], [[⟨1, some 1, .option [[⟨1, some 1, .charVal true ['a']⟩, ⟨1, some 1, .rulename ['s']⟩, ⟨1, some 1, .charVal true ['b']⟩]]⟩]]⟩]⟩

/-- C111_every: its hypothesis. -/
example : Language.IsContextFree {w : List Char | DerivesRule asMany ['s'] (utf8 w)} ∧
    (validOf (parseForest fwd (bytes% "aabb") asMany ['s'] 0 0) = some true ∧ validOf (parseForest fwd (bytes% "aab") asMany ['s'] 0 0) = some false) :=
  ⟨C111_context_free _ _, by decide +kernel, by decide +kernel⟩

end Props
end Verif
