import Verif.Unambig
import Verif.RegexBuild
import Verif.TgElem

/-! # Showing that a grammar reads every text in at most one way

Derivations in terms of characters, and ways of showing that a text is cut in at most one way.
-/

namespace Verif
open Spec

namespace Once

/-- Texts in `L`, one after the other. -/
inductive Star (L : Str → Prop) : Str → Prop
  | nil : Star L []
  | cons (a b) : L a → Star L b → Star L (a ++ b)

theorem Star.one {L : Str → Prop} {a : Str} (h : L a) : Star L a := by
  have := Star.cons a [] h .nil
  rwa [List.append_nil] at this

theorem Star.append {L : Str → Prop} {a b : Str} (ha : Star L a) (hb : Star L b) : Star L (a ++ b) := by
  induction ha with
  | nil => exact hb
  | cons x y hx _ ih => rw [List.append_assoc]; exact .cons _ _ hx ih

theorem Star.mono {L M : Str → Prop} (h : ∀ s, L s → M s) {a : Str} (ha : Star L a) : Star M a := by
  induction ha with
  | nil => exact .nil
  | cons x y hx _ ih => exact .cons _ _ (h _ hx) ih

/-- Texts of one character each. -/
theorem star_chars {L : Str → Prop} {P : Char → Prop} (h : ∀ s, L s ↔ ∃ c, P c ∧ s = [c]) {a : Str} :
    Star L a ↔ ∀ c ∈ a, P c := by
  constructor
  · intro ha
    induction ha with
    | nil => simp
    | cons x y hx _ ih =>
      obtain ⟨c, hc, rfl⟩ := (h x).mp hx
      simpa using ⟨hc, ih⟩
  · intro ha
    induction a with
    | nil => exact .nil
    | cons c a ih =>
      exact .cons [c] a ((h _).mpr ⟨c, ha c (List.mem_cons_self ..), rfl⟩)
        (ih fun d hd => ha d (List.mem_cons_of_mem _ hd))

section
variable {g : Grammar}

theorem times_star {e : Elem} {s : Str} : (∃ k, DerivesTimes g e k (utf8 s)) ↔ Star (fun t => Derives g e (utf8 t)) s := by
  constructor
  · rintro ⟨k, h⟩
    induction k generalizing s with
    | zero =>
      generalize hw : utf8 s = w at h
      cases h
      rw [utf8_inj (hw.trans utf8_nil.symm)]
      exact .nil
    | succ k ih =>
      generalize hw : utf8 s = w at h
      cases h with
      | succ _ _ u v h1 h2 =>
        obtain ⟨a, rfl⟩ := derives_isText h1
        obtain ⟨b, rfl⟩ := derivesTimes_isText h2
        rw [utf8_split hw]
        exact .cons _ _ h1 (ih h2)
  · intro h
    induction h with
    | nil => exact ⟨0, .zero e⟩
    | cons a b ha _ ih =>
      obtain ⟨k, hk⟩ := ih
      rw [utf8_append]
      exact ⟨k + 1, .succ _ _ _ _ ha hk⟩

theorem rep_many {e : Elem} {s : Str} :
    DerivesRep g ⟨0, none, e⟩ (utf8 s) ↔ Star (fun t => Derives g e (utf8 t)) s := by
  rw [← times_star]
  constructor
  · intro h
    cases h with
    | mk _ _ _ n _ _ _ h => exact ⟨n, h⟩
  · rintro ⟨k, h⟩
    exact .mk _ _ _ k _ (Nat.zero_le _) (by simp) h

theorem rep_some {e : Elem} {s : Str} : DerivesRep g ⟨1, none, e⟩ (utf8 s) ↔
    ∃ a b, s = a ++ b ∧ Derives g e (utf8 a) ∧ Star (fun t => Derives g e (utf8 t)) b := by
  constructor
  · intro h
    cases h with
    | mk _ _ _ n _ h1 _ h =>
      obtain ⟨n, rfl⟩ : ∃ m, n = m + 1 := ⟨n - 1, by omega⟩
      generalize hw : utf8 s = w at h
      cases h with
      | succ _ _ u v h1 h2 =>
        obtain ⟨a, rfl⟩ := derives_isText h1
        obtain ⟨b, rfl⟩ := derivesTimes_isText h2
        exact ⟨a, b, utf8_split hw, h1, times_star.mp ⟨_, h2⟩⟩
  · rintro ⟨a, b, rfl, h1, h2⟩
    obtain ⟨k, hk⟩ := times_star.mpr h2
    rw [utf8_append]
    exact .mk _ _ _ (k + 1) _ (by omega) (by simp) (.succ _ _ _ _ h1 hk)

theorem concat_cons {r : Rep} {c : Concat} {s : Str} : DerivesConcat g (r :: c) (utf8 s) ↔
    ∃ a b, s = a ++ b ∧ DerivesRep g r (utf8 a) ∧ DerivesConcat g c (utf8 b) := by
  rw [derivesConcat_cons]
  constructor
  · rintro ⟨u, v, hw, h1, h2⟩
    obtain ⟨a, rfl⟩ := derivesRep_isText h1
    obtain ⟨b, rfl⟩ := derivesConcat_isText h2
    exact ⟨a, b, utf8_split hw, h1, h2⟩
  · rintro ⟨a, b, rfl, h1, h2⟩
    exact ⟨_, _, utf8_append a b, h1, h2⟩

theorem concat_nil {s : Str} : DerivesConcat g [] (utf8 s) ↔ s = [] := by
  rw [derivesConcat_nil]
  exact ⟨fun h => utf8_inj (h.trans utf8_nil.symm), fun h => h ▸ rfl⟩

theorem concat_more {r q : Rep} {c : Concat} {s : Str} : DerivesConcat g (r :: q :: c) (utf8 s) ↔
    ∃ a b, s = a ++ b ∧ DerivesRep g r (utf8 a) ∧ DerivesConcat g (q :: c) (utf8 b) := concat_cons

theorem text_nil {s : Str} : utf8 s = [] ↔ s = [] := ⟨fun h => utf8_inj (h.trans utf8_nil.symm), fun h => h ▸ rfl⟩

theorem text_eq {s t : Str} : utf8 s = utf8 t ↔ s = t := ⟨utf8_inj, fun h => h ▸ rfl⟩

theorem lit_iff {vs : Str} {s : Str} : Derives g (.charVal false vs) (utf8 s) ↔ List.Forall₂ SameLetter vs s := by
  rw [derives_term (fun _ h => by cases h) (fun _ h => by cases h) (fun _ h => by cases h)]
  constructor
  · intro h; cases h with | insensitive _ _ h => exact h
  · exact .insensitive _ _

theorem range_iff {b s t : Str} {lo hi : Nat} (hs : Denotes b s lo) (ht : Denotes b t hi) {w : Str} :
    Derives g (.numVal b .range [s, t]) (utf8 w) ↔ ∃ c : Char, (lo ≤ c.toNat ∧ c.toNat ≤ hi) ∧ w = [c] := by
  rw [derives_range hs ht]
  simp only [text_eq, and_assoc]

end

/-! ## Cutting -/

/-- A text is a `P` followed by a `Q` in at most one way. -/
def Cut (P Q : Str → Prop) : Prop := ∀ a b a' b', P a → Q b → P a' → Q b' → a ++ b = a' ++ b' → a = a'

theorem Cut.mono {P Q P' Q' : Str → Prop} (h : Cut P Q) (hp : ∀ s, P' s → P s) (hq : ∀ s, Q' s → Q s) : Cut P' Q' :=
  fun a b a' b' h1 h2 h3 h4 => h a b a' b' (hp _ h1) (hq _ h2) (hp _ h3) (hq _ h4)

theorem splits_of {A B : Bytes → Prop} (hA : ∀ w, A w → IsText w) (hB : ∀ w, B w → IsText w)
    (h : Cut (fun s => A (utf8 s)) (fun s => B (utf8 s))) : SplitsOnce A B := by
  intro u v u' v' h1 h2 h3 h4 he
  obtain ⟨a, rfl⟩ := hA _ h1
  obtain ⟨b, rfl⟩ := hB _ h2
  obtain ⟨a', rfl⟩ := hA _ h3
  obtain ⟨b', rfl⟩ := hB _ h4
  rw [← utf8_append, ← utf8_append] at he
  rw [h a b a' b' h1 h2 h3 h4 (utf8_inj he)]

theorem splits_concat {g : Grammar} {p : Concat} {r : Rep}
    (h : Cut (fun s => DerivesConcat g p (utf8 s)) (fun s => DerivesRep g r (utf8 s))) :
    SplitsOnce (DerivesConcat g p) (DerivesRep g r) :=
  splits_of (fun _ => derivesConcat_isText) (fun _ => derivesRep_isText) h

/-- Nothing is cut off. -/
theorem cut_nil {P Q : Str → Prop} (h : ∀ s, P s → s = []) : Cut P Q := by
  intro a b a' b' h1 _ h2 _ _
  rw [h _ h1, h _ h2]

/-- The first part has a fixed length. -/
theorem cut_length {P Q : Str → Prop} (n : Nat) (h : ∀ s, P s → s.length = n) : Cut P Q := by
  intro a b a' b' h1 _ h2 _ he
  exact (List.append_inj he (by rw [h _ h1, h _ h2])).1

/-- The second part has a fixed length. -/
theorem cut_last {P Q : Str → Prop} (n : Nat) (h : ∀ s, Q s → s.length = n) : Cut P Q := by
  intro a b a' b' _ h1 _ h2 he
  exact (List.append_inj' he (by rw [h _ h1, h _ h2])).1

/-- The first character, if there is one, is a `P`. -/
def Head (P : Char → Prop) : Str → Prop
  | [] => True
  | c :: _ => P c

/-- There is a first character, and it is a `P`. -/
def Head1 (P : Char → Prop) : Str → Prop
  | [] => False
  | c :: _ => P c

theorem Head1.head {P : Char → Prop} {s : Str} (h : Head1 P s) : Head P s := by
  cases s with
  | nil => exact h.elim
  | cons c s => exact h

theorem Head1.append {P : Char → Prop} {s t : Str} (h : Head1 P s) : Head1 P (s ++ t) := by
  cases s with
  | nil => exact h.elim
  | cons c s => exact h

theorem Head.append {P : Char → Prop} {s t : Str} (h : Head P s) (h' : Head P t) : Head P (s ++ t) := by
  cases s with
  | nil => exact h'
  | cons c s => exact h

theorem Head.mono {P Q : Char → Prop} (hpq : ∀ c, P c → Q c) {s : Str} (h : Head P s) : Head Q s := by
  cases s with
  | nil => trivial
  | cons c s => exact hpq c h

theorem Head1.mono {P Q : Char → Prop} (hpq : ∀ c, P c → Q c) {s : Str} (h : Head1 P s) : Head1 Q s := by
  cases s with
  | nil => exact h
  | cons c s => exact hpq c h

theorem Head1.ne_nil {P : Char → Prop} {s : Str} (h : Head1 P s) : s ≠ [] := by rintro rfl; exact h

theorem head_clash {P Q : Char → Prop} {s : Str} (h : Head1 P s) (h' : Head Q s) (hd : ∀ c, P c → ¬ Q c) : False := by
  cases s with
  | nil => exact h
  | cons c s => exact hd c h h'

/-- A run of `P`s ends where something else begins. -/
theorem run_unique {P : Char → Prop} {a b a' b' : Str} (ha : ∀ c ∈ a, P c) (ha' : ∀ c ∈ a', P c)
    (hb : Head (fun c => ¬ P c) b) (hb' : Head (fun c => ¬ P c) b') (he : a ++ b = a' ++ b') : a = a' := by
  induction a generalizing a' with
  | nil =>
    cases a' with
    | nil => rfl
    | cons c a' =>
      rw [List.nil_append] at he
      subst he
      exact absurd (ha' c (List.mem_cons_self ..)) hb
  | cons c a ih =>
    cases a' with
    | nil =>
      rw [List.nil_append] at he
      subst he
      exact absurd (ha c (List.mem_cons_self ..)) hb'
    | cons d a' =>
      injection he with h1 h2
      subst h1
      rw [ih (fun d hd => ha d (List.mem_cons_of_mem _ hd)) (fun d hd => ha' d (List.mem_cons_of_mem _ hd)) h2]

theorem cut_run {P : Char → Prop} {A B : Str → Prop} (ha : ∀ s, A s → ∀ c ∈ s, P c)
    (hb : ∀ s, B s → Head (fun c => ¬ P c) s) : Cut A B :=
  fun _ _ _ _ h1 h2 h3 h4 he => run_unique (ha _ h1) (ha _ h3) (hb _ h2) (hb _ h4) he

/-! ## Alternations, repetitions and groups -/

section
variable {g : Grammar}

theorem concatOnce_nil : ConcatOnce g [] := by
  intro p r s h
  simp at h

theorem concatOnce_one (r : Rep) : ConcatOnce g [r] := by
  intro p q s h
  cases p with
  | nil => exact splits_concat (cut_nil fun s h => concat_nil.mp h)
  | cons a p => simp at h

theorem concatOnce_two {r₁ r₂ : Rep} (h : Cut (fun s => DerivesConcat g [r₁] (utf8 s)) (fun s => DerivesRep g r₂ (utf8 s))) :
    ConcatOnce g [r₁, r₂] := by
  intro p q s he
  match p, he with
  | [], _ => exact splits_concat (cut_nil fun s h => concat_nil.mp h)
  | [a], he => simp at he; obtain ⟨rfl, rfl, _⟩ := he; exact splits_concat h
  | a :: b :: p, he => simp at he

theorem concatOnce_snoc {c : Concat} {r : Rep} (hc : ConcatOnce g c)
    (h : Cut (fun s => DerivesConcat g c (utf8 s)) (fun s => DerivesRep g r (utf8 s))) : ConcatOnce g (c ++ [r]) := by
  intro p q s he
  rcases List.eq_nil_or_concat s with rfl | ⟨s', x, rfl⟩
  · have := List.append_inj' he rfl
    obtain ⟨rfl, h2⟩ := this
    obtain rfl : r = q := by simpa using h2
    exact splits_concat h
  · have : c ++ [r] = (p ++ q :: s') ++ [x] := by simpa using he
    exact hc p q s' (List.append_inj' this rfl).1

theorem concatOnce_three {r₁ r₂ r₃ : Rep}
    (h : Cut (fun s => DerivesConcat g [r₁] (utf8 s)) (fun s => DerivesRep g r₂ (utf8 s)))
    (h' : Cut (fun s => DerivesConcat g [r₁, r₂] (utf8 s)) (fun s => DerivesRep g r₃ (utf8 s))) :
    ConcatOnce g [r₁, r₂, r₃] := concatOnce_snoc (concatOnce_two h) h'

theorem altOnce_one {c : Concat} (h : ConcatOnce g c) : AltOnce g [c] := ⟨by simp, by simpa using h⟩

theorem altOnce_cons {c : Concat} {a : Alt} (hc : ConcatOnce g c) (ha : AltOnce g a)
    (hd : ∀ s, DerivesConcat g c (utf8 s) → ¬ DerivesAlt g a (utf8 s)) : AltOnce g (c :: a) := by
  refine ⟨List.pairwise_cons.mpr ⟨fun d hd' w h1 h2 => ?_, ha.1⟩, ?_⟩
  · obtain ⟨s, rfl⟩ := derivesConcat_isText h1
    exact hd s h1 (.mk _ d _ hd' h2)
  · intro d hd
    rcases List.mem_cons.mp hd with rfl | hd
    · exact hc
    · exact ha.2 d hd

theorem repOnce_one (e : Elem) : RepOnce g ⟨1, some 1, e⟩ := fun h => absurd ⟨rfl, rfl⟩ h

theorem repOnce_of {r : Rep} (hne : ¬ Derives g r.elem (utf8 []))
    (h : Cut (fun s => Derives g r.elem (utf8 s)) (Star fun s => Derives g r.elem (utf8 s))) : RepOnce g r := by
  intro _
  refine ⟨hne, splits_of (fun _ => derives_isText) (fun _ ⟨_, h⟩ => derivesTimes_isText h) ?_⟩
  exact h.mono (fun _ h => h) fun s hs => times_star.mp hs

/-- What is repeated is one character. -/
theorem repOnce_chars {r : Rep} {P : Char → Prop} (h : ∀ s, Derives g r.elem (utf8 s) → ∃ c, P c ∧ s = [c]) :
    RepOnce g r := by
  refine repOnce_of (fun hd => ?_) (cut_length 1 fun s hs => ?_)
  · obtain ⟨c, _, hc⟩ := h _ hd
    cases hc
  · obtain ⟨c, _, rfl⟩ := h _ hs
    rfl

end
/-! ## The core rules -/

section
variable {g : Grammar} (hg : KeepsCore g) {s : Str}
include hg

theorem says_ALPHA : Derives g (.rulename (str% "ALPHA")) (utf8 s) ↔
    ∃ c : Char, ((0x41 ≤ c.toNat ∧ c.toNat ≤ 0x5A) ∨ (0x61 ≤ c.toNat ∧ c.toNat ≤ 0x7A)) ∧ s = [c] := by
  simp only [core_ALPHA hg, text_eq]
theorem says_BIT : Derives g (.rulename (str% "BIT")) (utf8 s) ↔ ∃ c : Char, (c = '0' ∨ c = '1') ∧ s = [c] := by
  simp only [core_BIT hg, text_eq]
theorem says_DIGIT : Derives g (.rulename (str% "DIGIT")) (utf8 s) ↔
    ∃ c : Char, (0x30 ≤ c.toNat ∧ c.toNat ≤ 0x39) ∧ s = [c] := by
  simp only [core_DIGIT hg, text_eq]
theorem says_VCHAR : Derives g (.rulename (str% "VCHAR")) (utf8 s) ↔
    ∃ c : Char, (0x21 ≤ c.toNat ∧ c.toNat ≤ 0x7E) ∧ s = [c] := by
  simp only [core_VCHAR hg, text_eq]
theorem says_HEXDIG : Derives g (.rulename (str% "HEXDIG")) (utf8 s) ↔
    ∃ c : Char, ((0x30 ≤ c.toNat ∧ c.toNat ≤ 0x39) ∨
      (0x41 ≤ c.toNat ∧ c.toNat ≤ 0x46) ∨ (0x61 ≤ c.toNat ∧ c.toNat ≤ 0x66)) ∧ s = [c] := by
  simp only [core_HEXDIG hg, text_eq]
theorem says_DQUOTE : Derives g (.rulename (str% "DQUOTE")) (utf8 s) ↔ s = ['"'] := by
  rw [core_DQUOTE hg, exists_code (show ('"' : Char).toNat = 0x22 by decide), text_eq]
theorem says_CRLF : Derives g (.rulename (str% "CRLF")) (utf8 s) ↔ s = ['\r', '\n'] := by
  rw [core_CRLF hg, ← text_eq]; rfl
theorem says_WSP : Derives g (.rulename (str% "WSP")) (utf8 s) ↔ ∃ c : Char, (c = ' ' ∨ c = '\t') ∧ s = [c] := by
  rw [core_WSP hg]
  constructor
  · rintro (h | h)
    · exact ⟨' ', .inl rfl, text_eq.mp h⟩
    · exact ⟨'\t', .inr rfl, text_eq.mp h⟩
  · rintro ⟨c, rfl | rfl, rfl⟩
    · exact .inl rfl
    · exact .inr rfl
theorem says_SP : Derives g (.rulename (str% "SP")) (utf8 s) ↔ s = [' '] := by
  rw [core_SP hg, exists_code (show (' ' : Char).toNat = 0x20 by decide), text_eq]
theorem says_HTAB : Derives g (.rulename (str% "HTAB")) (utf8 s) ↔ s = ['\t'] := by
  rw [core_HTAB hg, exists_code (show ('\t' : Char).toNat = 0x09 by decide), text_eq]

omit hg in
theorem lit_char {a : Char} : Derives g (.charVal false [a]) (utf8 s) ↔ ∃ c : Char, SameLetter a c ∧ s = [c] := by
  simp only [derives_chr, text_eq]

omit hg in
theorem code_iff {b t : Str} {v : Nat} (ht : Denotes b t v) :
    Derives g (.numVal b .series [t]) (utf8 s) ↔ ∃ c : Char, c.toNat = v ∧ s = [c] := by
  simp only [derives_code ht, text_eq]

omit hg in
theorem altOnce_two_chars {e f : Elem} {P Q : Char → Prop} (he : ∀ s, Derives g e (utf8 s) → ∃ c, P c ∧ s = [c])
    (hf : ∀ s, Derives g f (utf8 s) → ∃ c, Q c ∧ s = [c]) (hd : ∀ c, P c → ¬ Q c) :
    AltOnce g [[⟨1, some 1, e⟩], [⟨1, some 1, f⟩]] := by
  refine altOnce_cons (concatOnce_one _) (altOnce_one (concatOnce_one _)) fun s h h' => ?_
  simp only [derivesAlt_cons, derivesAlt_nil, or_false, derivesConcat_one, derivesRep_one] at h h'
  obtain ⟨c, hc, rfl⟩ := he _ h
  obtain ⟨d, hd', hcd⟩ := hf _ h'
  cases hcd
  exact hd c hc hd'

omit hg in
theorem sameLetter_upper {a c : Char} (h1 : 65 ≤ a.toNat) (h2 : a.toNat ≤ 90) :
    SameLetter a c ↔ c.toNat = a.toNat ∨ c.toNat = a.toNat + 32 := by
  constructor
  · rintro (rfl | ⟨_, _, h⟩ | ⟨h3, _, h⟩)
    · exact .inl rfl
    · exact .inr h
    · have : (97 : Nat) ≤ a.toNat := h3
      omega
  · rintro (h | h)
    · exact .inl (char_of_toNat h).symm
    · exact .inr (.inl ⟨h1, h2, h⟩)

/-- The repeated part of `LWSP`. -/
theorem lwsp_cut : Cut (fun s => Derives g (.group [[⟨1, some 1, .rulename (str% "WSP")⟩],
      [⟨1, some 1, .rulename (str% "CRLF")⟩, ⟨1, some 1, .rulename (str% "WSP")⟩]]) (utf8 s)) (fun _ => True) := by
  have key : ∀ s, Derives g (.group [[⟨1, some 1, .rulename (str% "WSP")⟩],
      [⟨1, some 1, .rulename (str% "CRLF")⟩, ⟨1, some 1, .rulename (str% "WSP")⟩]]) (utf8 s) →
      (∃ c, (c = ' ' ∨ c = '\t') ∧ s = [c]) ∨ ∃ c, s = ['\r', '\n', c] := by
    intro s h
    simp only [derives_group, derivesAlt_cons, derivesAlt_nil, or_false, derivesConcat_one, derivesRep_one, concat_more, says_WSP hg, says_CRLF hg] at h
    rcases h with ⟨c, hc, rfl⟩ | ⟨x, y, rfl, rfl, c, hc, rfl⟩
    · exact .inl ⟨c, hc, rfl⟩
    · exact .inr ⟨c, rfl⟩
  intro a b a' b' h1 _ h2 _ he
  rcases key _ h1 with ⟨c, hc, rfl⟩ | ⟨c, rfl⟩ <;> rcases key _ h2 with ⟨d, hd, rfl⟩ | ⟨d, rfl⟩
  · simp at he; rw [he.1]
  · simp at he; rw [he.1] at hc; rcases hc with hc | hc <;> cases hc
  · simp at he; rw [← he.1] at hd; rcases hd with hd | hd <;> cases hd
  · simp at he; rw [he.1]

theorem core_alts : ∀ r ∈ Core.rules, AltOnce g r.alt := by
  intro r hr
  simp only [Core.rules, List.mem_cons, List.not_mem_nil, or_false] at hr
  rcases hr with rfl | rfl | rfl | rfl | rfl | rfl | rfl | rfl | rfl | rfl | rfl | rfl | rfl | rfl | rfl | rfl
  · exact altOnce_two_chars (fun s => (range_iff (denotes_hex [4, 1] 0x41 (by decide)) (denotes_hex [5, 10] 0x5A (by decide))).mp)
      (fun s => (range_iff (denotes_hex [6, 1] 0x61 (by decide)) (denotes_hex [7, 10] 0x7A (by decide))).mp)
      (by intro c; omega)
  · exact altOnce_two_chars (fun s => lit_char.mp) (fun s => lit_char.mp) (by
      intro c h h'
      rw [sameLetter_nonletter (by decide)] at h h'
      subst h; cases h')
  · exact altOnce_one (concatOnce_one _)
  · exact altOnce_one (concatOnce_one _)
  · refine altOnce_one (concatOnce_two (cut_last 1 fun s h => ?_))
    change DerivesRep g ⟨1, some 1, .rulename (str% "LF")⟩ (utf8 s) at h
    simp only [derivesRep_one, core_LF hg, text_eq] at h
    obtain ⟨c, _, rfl⟩ := h
    rfl
  · exact altOnce_two_chars (fun s => (range_iff (denotes_hex [0, 0] 0x00 (by decide)) (denotes_hex [1, 15] 0x1F (by decide))).mp)
      (fun s => (code_iff (denotes_hex [7, 15] 0x7F (by decide))).mp) (by intro c; omega)
  · exact altOnce_one (concatOnce_one _)
  · exact altOnce_one (concatOnce_one _)
  · change AltOnce g [[⟨1, some 1, .rulename (str% "DIGIT")⟩], [⟨1, some 1, .charVal false ['A']⟩],
      [⟨1, some 1, .charVal false ['B']⟩], [⟨1, some 1, .charVal false ['C']⟩], [⟨1, some 1, .charVal false ['D']⟩],
      [⟨1, some 1, .charVal false ['E']⟩], [⟨1, some 1, .charVal false ['F']⟩]]
    refine ⟨?_, fun c hc => ?_⟩
    · have hA : ∀ {s : Str} {a : Char}, 65 ≤ a.toNat → a.toNat ≤ 90 →
          (Derives g (.charVal false [a]) (utf8 s) ↔ ∃ c : Char, (c.toNat = a.toNat ∨ c.toNat = a.toNat + 32) ∧ s = [c]) := by
        intro s a h1 h2
        simp only [lit_char, sameLetter_upper h1 h2]
      simp only [List.pairwise_cons, List.mem_cons, List.not_mem_nil, or_false, forall_eq_or_imp, forall_eq,
        List.Pairwise.nil, and_true, derivesConcat_one, derivesRep_one]
      refine ⟨⟨?_, ?_, ?_, ?_, ?_, ?_⟩, ⟨?_, ?_, ?_, ?_, ?_⟩, ⟨?_, ?_, ?_, ?_⟩, ⟨?_, ?_, ?_⟩, ⟨?_, ?_⟩, ?_, ?_⟩
      any_goals
        intro w h h'
        obtain ⟨s, rfl⟩ := derives_isText h
        first | rw [says_DIGIT hg] at h | rw [hA (by decide) (by decide)] at h
        rw [hA (by decide) (by decide)] at h'
        obtain ⟨c, hc, rfl⟩ := h
        obtain ⟨d, hd, he⟩ := h'
        cases he
        simp at hc hd
        omega
      intro _ h
      cases h
    · simp only [List.mem_cons, List.not_mem_nil, or_false] at hc
      rcases hc with rfl | rfl | rfl | rfl | rfl | rfl | rfl <;> exact concatOnce_one _
  · exact altOnce_one (concatOnce_one _)
  · exact altOnce_one (concatOnce_one _)
  · exact altOnce_one (concatOnce_one _)
  · exact altOnce_one (concatOnce_one _)
  · exact altOnce_one (concatOnce_one _)
  · exact altOnce_one (concatOnce_one _)
  · exact altOnce_two_chars (P := fun c => c = ' ') (Q := fun c => c = '\t')
      (fun s h => ⟨' ', rfl, (says_SP hg).mp h⟩) (fun s h => ⟨'\t', rfl, (says_HTAB hg).mp h⟩)
      (by rintro c rfl h; cases h)

/-- Occurrences once, of something without parts. -/
def plainRep (r : Rep) : Bool :=
  decide (r.min = 1 ∧ r.max = some 1) && match r.elem with | .group _ => false | .option _ => false | _ => true

omit hg in
theorem once_plain {r : Rep} (h : plainRep r = true) : RepOnce g r ∧ ElemOnce g r.elem := by
  unfold plainRep at h
  rw [Bool.and_eq_true, decide_eq_true_eq] at h
  refine ⟨fun hn => absurd h.1 hn, ?_⟩
  have h2 := h.2
  unfold ElemOnce
  split at h2 <;> simp_all

/-- Only the rules of the grammar itself are left to look at. -/
theorem unambiguous_of (h1 : ∀ r ∈ g.rules, AltOnce g r.alt)
    (h2 : ∀ r ∈ (rulesReps g.rules).filter (fun r => !plainRep r), RepOnce g r ∧ ElemOnce g r.elem) : Unambiguous g := by
  constructor
  · intro r hr
    rcases List.mem_append.mp hr with hr | hr
    · exact h1 r hr
    · exact core_alts hg r hr
  · intro r hr
    cases hp : plainRep r with
    | true => exact once_plain hp
    | false =>
      rw [rulesReps, List.flatMap_append, List.mem_append] at hr
      rcases hr with hr | hr
      · exact h2 r (List.mem_filter.mpr ⟨hr, by rw [hp]; rfl⟩)
      · have : ∀ r ∈ Core.rules.flatMap (fun r => altReps r.alt), plainRep r = true ∨
            r = ⟨0, none, .group [[⟨1, some 1, .rulename (str% "WSP")⟩],
              [⟨1, some 1, .rulename (str% "CRLF")⟩, ⟨1, some 1, .rulename (str% "WSP")⟩]]⟩ := by decide +kernel
        rcases this r hr with h | rfl
        · rw [hp] at h; cases h
        · refine ⟨repOnce_of ?_ ((lwsp_cut hg).mono (fun _ h => h) fun _ _ => trivial), ?_⟩
          · change ¬ Derives g (.group _) _
            simp only [derives_group, derivesAlt_cons, derivesAlt_nil, or_false, derivesConcat_one, derivesRep_one,
              concat_more, says_WSP hg, says_CRLF hg]
            rintro (⟨c, _, h⟩ | ⟨x, y, h, rfl, _⟩) <;> cases h
          · refine altOnce_cons (concatOnce_one _) (altOnce_one (concatOnce_two (cut_length 2 fun s h => ?_))) fun s h h' => ?_
            · simp only [derivesConcat_one, derivesRep_one, says_CRLF hg] at h
              rw [h]; rfl
            · simp only [derivesAlt_cons, derivesAlt_nil, or_false, derivesConcat_one, derivesRep_one,
                concat_more, says_WSP hg, says_CRLF hg] at h h'
              obtain ⟨c, hc, rfl⟩ := h
              obtain ⟨x, y, he, rfl, _⟩ := h'
              simp at he

end
end Once
end Verif
