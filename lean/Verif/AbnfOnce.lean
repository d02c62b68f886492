import Verif.AbnfText
import Verif.OnceKit

/-! # An ABNF text says one thing only

Reading from left to right, every part of a source text ends at one place.
-/

namespace Verif
open Spec

namespace Text
open Once

/-! ## Line ends and gaps -/

theorem Wsp.toNat {c : Char} (h : Wsp c) : c.toNat = 0x20 ∨ c.toNat = 9 := by
  rcases h with rfl | rfl
  · exact .inl rfl
  · exact .inr rfl

/-- What begins a line end. -/
def EolStart (c : Char) : Prop := c = ';' ∨ c = '\r'
/-- What begins a gap. -/
def GapStart (c : Char) : Prop := Wsp c ∨ EolStart c

theorem LineEnd.head {s : Str} (h : LineEnd s) : Head1 EolStart s := by
  cases h with
  | plain => exact .inr rfl
  | comment s _ => exact .inl rfl

theorem commentChar {c : Char} (h : Wsp c ∨ Visible c) : c ≠ '\r' := by
  rintro rfl
  rcases h with h | h
  · rcases h with h | h <;> cases h
  · have : (0x21 : Nat) ≤ 13 := h.1
    omega

theorem LineEnd.cut {a b a' b' : Str} (h : LineEnd a) (h' : LineEnd a') (he : a ++ b = a' ++ b') : a = a' := by
  cases h with
  | plain =>
    cases h' with
    | plain => rfl
    | comment s _ => cases he
  | comment s hs =>
    cases h' with
    | plain => cases he
    | comment s' hs' =>
      have he2 : s ++ ('\r' :: '\n' :: b) = s' ++ ('\r' :: '\n' :: b') := by simpa using he
      have := run_unique (P := fun c => c ≠ '\r') (fun c hc => commentChar (hs c hc)) (fun c hc => commentChar (hs' c hc))
        (by simp [Head]) (by simp [Head]) he2
      rw [this]

theorem Blank.head {s : Str} (h : Blank s) : Head1 GapStart s := by
  cases h with
  | wsp c h => exact .inl h
  | line s c h _ => exact (h.head.mono fun _ => .inr).append

theorem wsp_not_eol {c : Char} (h : Wsp c) : ¬ EolStart c := by
  rintro (rfl | rfl) <;> rcases h with h | h <;> cases h

theorem Blank.cut {a b a' b' : Str} (h : Blank a) (h' : Blank a') (he : a ++ b = a' ++ b') : a = a' := by
  cases h with
  | wsp c h =>
    cases h' with
    | wsp d h' => simp at he; rw [he.1]
    | line s d hs _ =>
      exfalso
      have h1 := (hs.head.append (t := [d])).append (t := b')
      rw [← he] at h1
      exact wsp_not_eol h h1
  | line s c hs hc =>
    cases h' with
    | wsp d h' =>
      exfalso
      have h1 := (hs.head.append (t := [c])).append (t := b)
      rw [he] at h1
      exact wsp_not_eol h' h1
    | line s' d hs' hd =>
      rw [List.append_assoc, List.append_assoc] at he
      have h1 := hs.cut hs' he
      subst h1
      have h2 := List.append_cancel_left he
      simp at h2
      rw [h2.1]

theorem Gap.head {g : Str} (h : Gap g) : Head GapStart g := by
  cases h with
  | nil => trivial
  | cons a b ha _ => exact ha.head.append.head

theorem Gap.append {a b : Str} (ha : Gap a) (hb : Gap b) : Gap (a ++ b) := by
  induction ha with
  | nil => exact hb
  | cons x y hx _ ih => rw [List.append_assoc]; exact .cons _ _ hx ih

/-- A shorter gap is a beginning of a longer one. -/
theorem Gap.prefix {g₁ g y x : Str} (h₁ : Gap g₁) (h : Gap g) (he : g₁ ++ y = g ++ x)
    (hy : Head (fun c => ¬ GapStart c) y) : ∃ g', Gap g' ∧ g₁ = g ++ g' ∧ x = g' ++ y := by
  induction h generalizing g₁ with
  | nil => exact ⟨g₁, h₁, rfl, he.symm⟩
  | cons a b ha _ ih =>
    cases h₁ with
    | nil =>
      exfalso
      have := (ha.head.append (t := b)).append (t := x)
      rw [← he] at this
      exact head_clash this hy fun c h => by simpa using h
    | cons a' b' ha' hb' =>
      rw [List.append_assoc, List.append_assoc] at he
      have h1 := ha'.cut ha he
      subst h1
      obtain ⟨g', h2, rfl, h4⟩ := ih hb' (List.append_cancel_left he)
      exact ⟨g', h2, (List.append_assoc ..).symm, h4⟩

theorem Gap.cut {g g' x x' : Str} (h : Gap g) (h' : Gap g') (he : g ++ x = g' ++ x')
    (hx : Head (fun c => ¬ GapStart c) x) (hx' : Head (fun c => ¬ GapStart c) x') : g = g' := by
  obtain ⟨d, h1, rfl, h3⟩ := h.prefix h' he hx
  cases h1 with
  | nil => simp
  | cons a b ha _ =>
    exfalso
    rw [h3] at hx'
    exact head_clash ((ha.head.append (t := b)).append (t := x)) hx' fun c h => by simpa using h

/-! ## What may follow -/

/-- What begins an element or a repeat count. -/
def RepStart (c : Char) : Prop :=
  Letter c ∨ Digit c ∨ c = '*' ∨ c = '(' ∨ c = '[' ∨ c = '"' ∨ c = '%' ∨ c = '<'

/-- What can go on a name or a numeral. -/
def Joins (c : Char) : Prop := Letter c ∨ Digit c ∨ c = '-' ∨ c = '.'

/-- Does not go on an element. -/
def StopRep (r : Str) : Prop := Head (fun c => ¬ Joins c) r
/-- Does not go on a concatenation. -/
def StopConcat (r : Str) : Prop := StopRep r ∧ ∀ g x, Gap g → r = g ++ x → Head (fun c => ¬ RepStart c) x
/-- Does not go on an alternation. -/
def StopAlt (r : Str) : Prop := StopConcat r ∧ ∀ g x, Gap g → r = g ++ x → Head (fun c => c ≠ '/') x

theorem toNat_of {c d : Char} (h : c = d) : c.toNat = d.toNat := by rw [h]

/-- Character classes, by number. -/
theorem gapStart_iff {c : Char} : GapStart c ↔ c.toNat = 0x20 ∨ c.toNat = 9 ∨ c.toNat = 0x3B ∨ c.toNat = 0x0D := by
  constructor
  · rintro ((rfl | rfl) | (rfl | rfl)) <;> decide
  · rintro (h | h | h | h)
    · exact .inl (.inl (char_of_toNat h))
    · exact .inl (.inr (char_of_toNat h))
    · exact .inr (.inl (char_of_toNat h))
    · exact .inr (.inr (char_of_toNat h))

theorem joins_not_gap {c : Char} (h : GapStart c) : ¬ Joins c := by
  rw [gapStart_iff] at h
  rintro (h' | h' | rfl | rfl)
  · unfold Letter at h'; omega
  · unfold Digit at h'; omega
  · revert h; decide
  · revert h; decide

theorem repStart_not_gap {c : Char} (h : GapStart c) : ¬ RepStart c := by
  rw [gapStart_iff] at h
  rintro (h' | h' | rfl | rfl | rfl | rfl | rfl | rfl)
  · unfold Letter at h'; omega
  · unfold Digit at h'; omega
  all_goals (revert h; decide)

/-- A gap, then something that begins none of the things, ends all of them. -/
theorem stopAlt_gap {g y : Str} (hg : Gap g) (hy : Head (fun c => ¬ GapStart c ∧ ¬ RepStart c ∧ ¬ Joins c ∧ c ≠ '/') y) :
    StopAlt (g ++ y) := by
  have hy1 : Head (fun c => ¬ GapStart c) y := hy.mono fun _ h => h.1
  refine ⟨⟨(hg.head.mono fun c => joins_not_gap).append (hy.mono fun _ h => h.2.2.1), fun g' x hg' he => ?_⟩,
    fun g' x hg' he => ?_⟩
  · obtain ⟨d, h1, _, rfl⟩ := hg.prefix hg' he hy1
    exact (h1.head.mono fun c => repStart_not_gap).append (hy.mono fun _ h => h.2.1)
  · obtain ⟨d, h1, _, rfl⟩ := hg.prefix hg' he hy1
    refine (h1.head.mono fun c hc => ?_).append (hy.mono fun _ h => h.2.2.2)
    rintro rfl
    rw [gapStart_iff] at hc
    revert hc; decide

/-- A gap, then a slash, ends a concatenation. -/
theorem stopConcat_slash {g y : Str} (hg : Gap g) : StopConcat (g ++ '/' :: y) := by
  have hn : ¬ GapStart '/' := by rw [gapStart_iff]; decide
  have hr : ¬ RepStart '/' := by
    rintro (h' | h' | h' | h' | h' | h' | h' | h')
    · revert h'; unfold Letter; decide
    · revert h'; unfold Digit; decide
    all_goals cases h'
  have hj : ¬ Joins '/' := by
    rintro (h' | h' | h' | h')
    · revert h'; unfold Letter; decide
    · revert h'; unfold Digit; decide
    all_goals cases h'
  refine ⟨(hg.head.mono fun c => joins_not_gap).append hj, fun g' x hg' he => ?_⟩
  obtain ⟨d, h1, _, rfl⟩ := hg.prefix hg' he hn
  exact (h1.head.mono fun c => repStart_not_gap).append hr

/-- The rest of a file, from the end of a definition or inside a blank line. -/
def Tail (cv : Conv) (r : Str) : Prop :=
  ∃ ws nl t ds, (∀ c ∈ ws, Wsp c) ∧ LineEnd nl ∧ ReadsLines cv t ds ∧ r = ws ++ (nl ++ t)

theorem Tail.head {cv : Conv} {r : Str} (h : Tail cv r) : Head1 GapStart r := by
  obtain ⟨ws, nl, t, ds, h1, h2, h3, rfl⟩ := h
  cases ws with
  | nil => exact (h2.head.mono fun _ => .inr).append
  | cons c ws => exact .inl (h1 c (List.mem_cons_self ..))

theorem Name.head {n : Str} (h : Name n) : Head1 Letter n := by
  cases n with
  | nil => exact h
  | cons c n => exact h.1

theorem ReadsRule.head {cv : Conv} {s : Str} {d : Def} (h : ReadsRule cv s d) : Head1 Letter s := by
  cases h with
  | define n _ _ _ _ _ _ hn => exact hn.head.append
  | extend n _ _ _ _ _ _ hn => exact hn.head.append

theorem letter_not_gap {c : Char} (h : Letter c) : ¬ GapStart c := by
  rw [gapStart_iff]
  unfold Letter at h
  omega

theorem Tail.gap {cv : Conv} {g x : Str} (hg : Gap g) (h : Tail cv (g ++ x)) : Tail cv x := by
  generalize hr : g ++ x = r at h
  induction hg generalizing r with
  | nil => rw [List.nil_append] at hr; exact hr ▸ h
  | cons a b ha _ ih =>
    rw [List.append_assoc] at hr
    refine ih _ rfl ?_
    obtain ⟨ws, nl, t, ds, h1, h2, h3, rfl⟩ := h
    cases ha with
    | wsp c hc =>
      cases ws with
      | nil =>
        exfalso
        have := h2.head.append (t := t)
        rw [List.nil_append] at hr
        rw [← hr] at this
        exact wsp_not_eol hc this
      | cons d ws =>
        injection hr with h4 h5
        subst h4
        exact ⟨ws, nl, t, ds, fun e he => h1 e (List.mem_cons_of_mem _ he), h2, h3, h5⟩
    | line s c hs hc =>
      cases ws with
      | cons d ws =>
        exfalso
        have := (hs.head.append (t := [c])).append (t := b ++ x)
        rw [hr] at this
        exact wsp_not_eol (h1 d (List.mem_cons_self ..)) this
      | nil =>
        rw [List.nil_append, List.append_assoc] at hr
        have h4 := hs.cut h2 hr
        subst h4
        have h5 := List.append_cancel_left hr
        cases h3 with
        | nil => simp at h5
        | rule s d t ds hr' _ =>
          exfalso
          have := hr'.head.append (t := t)
          rw [← h5] at this
          exact letter_not_gap this (.inl hc)
        | blank ws nl t ds q1 q2 q3 =>
          cases ws with
          | nil =>
            exfalso
            have := q2.head.append (t := t)
            rw [List.nil_append] at h5
            rw [← h5] at this
            exact wsp_not_eol hc this
          | cons d ws =>
            injection h5 with h6 h7
            exact ⟨ws, nl, t, ds, fun e he => q1 e (List.mem_cons_of_mem _ he), q2, q3, h7⟩

theorem Tail.stop {cv : Conv} {r : Str} (h : Tail cv r) : StopAlt r := by
  refine ⟨⟨h.head.head.mono fun c => joins_not_gap, fun g x hg he => ?_⟩, fun g x hg he => ?_⟩
  · rw [he] at h
    exact (h.gap hg).head.head.mono fun c => repStart_not_gap
  · rw [he] at h
    refine (h.gap hg).head.head.mono fun c hc => ?_
    rintro rfl
    rw [gapStart_iff] at hc
    revert hc; decide

/-! ## Names, numerals, repeat counts -/

theorem Name.chars {n : Str} (h : Name n) : ∀ c ∈ n, Letter c ∨ Digit c ∨ c = '-' := by
  cases n with
  | nil => exact h.elim
  | cons c n =>
    intro d hd
    rcases List.mem_cons.mp hd with rfl | hd
    · exact .inl h.1
    · exact h.2 d hd

theorem Name.cut {n n' r r' : Str} (h : Name n) (h' : Name n') (hr : StopRep r) (hr' : StopRep r')
    (he : n ++ r = n' ++ r') : n = n' := by
  refine run_unique h.chars h'.chars ?_ ?_ he
  · exact hr.mono fun c hc h => hc (by rcases h with h | h | h <;> simp [Joins, h])
  · exact hr'.mono fun c hc h => hc (by rcases h with h | h | h <;> simp [Joins, h])

theorem digitOf_cases {b : Str} {c : Char} (h : DigitOf b c) : Letter c ∨ Digit c := by
  unfold DigitOf at h
  split at h
  · right; rcases h with rfl | rfl <;> (unfold Digit; decide)
  · exact .inr h
  · rcases h with h | h
    · exact .inr h
    · left; unfold Letter; omega
  · exact h.elim

theorem digitOf_joins {b : Str} {c : Char} (h : DigitOf b c) : Joins c := by
  rcases digitOf_cases h with h | h
  · exact .inl h
  · exact .inr (.inl h)

theorem digitOf_ne {b : Str} {c : Char} (h : DigitOf b c) : c ≠ '.' ∧ c ≠ '-' := by
  rcases digitOf_cases h with h | h
  · constructor <;> (rintro rfl; revert h; unfold Letter; decide)
  · constructor <;> (rintro rfl; revert h; unfold Digit; decide)

/-- Numerals of one base end where something else begins. -/
theorem NumeralOf.cut {b s s' r r' : Str} (h : NumeralOf b s) (h' : NumeralOf b s')
    (hr : Head (fun c => ¬ DigitOf b c) r) (hr' : Head (fun c => ¬ DigitOf b c) r') (he : s ++ r = s' ++ r') : s = s' :=
  run_unique h.2 h'.2 hr hr' he

theorem stop_digit {b r : Str} (h : StopRep r) : Head (fun c => ¬ DigitOf b c) r :=
  h.mono fun _ hc hd => hc (digitOf_joins hd)

theorem Dotted.ne_nil {es : List Str} {s : Str} (h : Dotted es s) : es ≠ [] := by cases h <;> simp

/-- Dotted numerals. -/
theorem Dotted.cut {b : Str} {es es' : List Str} {s s' r r' : Str} (h : Dotted es s) (h' : Dotted es' s')
    (hn : ∀ e ∈ es, NumeralOf b e) (hn' : ∀ e ∈ es', NumeralOf b e)
    (hr : StopRep r) (hr' : StopRep r') (he : s ++ r = s' ++ r') : s = s' ∧ es = es' := by
  have hdot : ¬ DigitOf b '.' := fun h => (digitOf_ne h).1 rfl
  induction h generalizing es' s' with
  | one s =>
    have h1 := hn s (List.mem_singleton_self _)
    cases h' with
    | one s' =>
      have := h1.cut (hn' _ (List.mem_singleton_self _)) (stop_digit hr) (stop_digit hr') he
      exact ⟨this, by rw [this]⟩
    | more s' es' t' ht =>
      exfalso
      rw [List.append_assoc] at he
      have := h1.cut (hn' _ (List.mem_cons_self ..)) (stop_digit hr) (by exact hdot) he
      subst this
      have := List.append_cancel_left he
      rw [this] at hr
      exact hr (.inr (.inr (.inr rfl)))
  | more s es t ht ih =>
    have h1 := hn s (List.mem_cons_self ..)
    cases h' with
    | one s' =>
      exfalso
      rw [List.append_assoc] at he
      have := h1.cut (hn' _ (List.mem_singleton_self _)) (by exact hdot) (stop_digit hr') he
      subst this
      have := List.append_cancel_left he
      rw [← this] at hr'
      exact hr' (.inr (.inr (.inr rfl)))
    | more s' es' t' ht' =>
      rw [List.append_assoc, List.append_assoc] at he
      have := h1.cut (hn' _ (List.mem_cons_self ..)) (by exact hdot) (by exact hdot) he
      subst this
      have h2 := List.append_cancel_left he
      simp only [List.cons_append, List.cons.injEq, true_and] at h2
      obtain ⟨rfl, rfl⟩ := ih ht' (fun e he => hn e (List.mem_cons_of_mem _ he))
        (fun e he => hn' e (List.mem_cons_of_mem _ he)) h2
      exact ⟨rfl, rfl⟩

theorem star_not_digit : ¬ Digit '*' := by unfold Digit; decide

theorem Repeat.chars {cv : Conv} {p : Str} {mn : Nat} {mx : Option Nat} (h : Repeat cv p mn mx) :
    ∀ c ∈ p, Digit c ∨ c = '*' := by
  cases h with
  | none => simp
  | exactly _ _ h => exact fun c hc => .inl (h c hc)
  | between a b ha hb =>
    intro c hc
    simp only [List.mem_append, List.mem_cons] at hc
    rcases hc with hc | hc | hc
    · exact .inl (ha c hc)
    · exact .inr hc
    · exact .inl (hb c hc)

theorem Repeat.unique {cv : Conv} {p : Str} {mn mn' : Nat} {mx mx' : Option Nat} (h : Repeat cv p mn mx)
    (h' : Repeat cv p mn' mx') : mn = mn' ∧ mx = mx' := by
  cases h with
  | none =>
    generalize hp : ([] : Str) = p at h'
    cases h' with
    | none => exact ⟨rfl, rfl⟩
    | exactly _ h _ => exact absurd hp.symm h
    | between a b => simp at hp
  | exactly _ hn hd =>
    cases h' with
    | none => exact absurd rfl hn
    | exactly _ _ _ => exact ⟨rfl, rfl⟩
    | between a b => exact absurd (hd '*' (by simp)) star_not_digit
  | between a b ha hb =>
    generalize hp : a ++ '*' :: b = p at h'
    cases h' with
    | none => simp at hp
    | exactly _ _ hd => exact absurd (hd '*' (by rw [← hp]; simp)) star_not_digit
    | between a' b' ha' hb' =>
      have := run_unique (P := Digit) ha ha' (by exact star_not_digit) (by exact star_not_digit) hp
      subst this
      have := List.append_cancel_left hp
      simp at this
      subst this
      exact ⟨rfl, rfl⟩

/-! ## Elements, repetitions, concatenations, alternations -/

/-- What begins an element. -/
def ElemStart (c : Char) : Prop := Letter c ∨ c = '(' ∨ c = '[' ∨ c = '"' ∨ c = '%' ∨ c = '<'

theorem ReadsElem.head {cv : Conv} {s : Str} {e : Elem} (h : ReadsElem cv s e) : Head1 ElemStart s := by
  cases h with
  | rulename _ h => exact h.head.mono fun _ => .inl
  | group => exact .inr (.inl rfl)
  | option => exact .inr (.inr (.inl rfl))
  | string => exact .inr (.inr (.inr (.inl rfl)))
  | insensitive => exact .inr (.inr (.inr (.inr (.inl rfl))))
  | sensitive => exact .inr (.inr (.inr (.inr (.inl rfl))))
  | series => exact .inr (.inr (.inr (.inr (.inl rfl))))
  | range => exact .inr (.inr (.inr (.inr (.inl rfl))))
  | prose => exact .inr (.inr (.inr (.inr (.inr rfl))))

theorem elemStart_not {c : Char} (h : ElemStart c) : ¬ (Digit c ∨ c = '*') := by
  rintro h'
  rcases h with h | rfl | rfl | rfl | rfl | rfl
  · rcases h' with h' | rfl
    · unfold Letter at h; unfold Digit at h'; omega
    · revert h; unfold Letter; decide
  all_goals
    rcases h' with h' | h'
    · revert h'; unfold Digit; decide
    · cases h'

theorem elemStart_rep {c : Char} (h : ElemStart c) : RepStart c := by
  rcases h with h | h | h | h | h | h <;> simp [RepStart, h]

theorem ReadsRep.head {cv : Conv} {s : Str} {r : Rep} (h : ReadsRep cv s r) : Head1 RepStart s := by
  cases h with
  | mk p mn mx s e h1 h2 =>
    cases p with
    | nil => exact h2.head.mono fun _ => elemStart_rep
    | cons c p =>
      rcases h1.chars c (List.mem_cons_self ..) with h | h
      · exact .inr (.inl h)
      · exact .inr (.inr (.inl h))

theorem ReadsConcat.head {cv : Conv} {s : Str} {c : Concat} (h : ReadsConcat cv s c) : Head1 RepStart s := by
  cases h with
  | one _ _ h => exact h.head
  | more _ _ _ _ _ h => exact h.head.append

theorem ReadsAlt.head {cv : Conv} {s : Str} {a : Alt} (h : ReadsAlt cv s a) : Head1 RepStart s := by
  cases h with
  | one _ _ h => exact h.head
  | more _ _ _ _ _ _ h => exact h.head.append

theorem repStart_gap {c : Char} (h : RepStart c) : ¬ GapStart c := fun hg => repStart_not_gap hg h

/-- A closing character. -/
theorem closer {c : Char} (h : c = ')' ∨ c = ']') : ¬ GapStart c ∧ ¬ RepStart c ∧ ¬ Joins c ∧ c ≠ '/' := by
  rw [gapStart_iff]
  unfold RepStart Joins Letter Digit
  rcases h with rfl | rfl <;> decide

/-- A text between quotes. -/
theorem quoted_cut {q : Char} {s s' r r' : Str} (h : ∀ c ∈ s, 0x20 ≤ c.toNat ∧ c.toNat ≤ 0x7E ∧ c ≠ q)
    (h' : ∀ c ∈ s', 0x20 ≤ c.toNat ∧ c.toNat ≤ 0x7E ∧ c ≠ q) (he : s ++ q :: r = s' ++ q :: r') : s = s' :=
  run_unique (P := fun c => c ≠ q) (fun c hc => (h c hc).2.2) (fun c hc => (h' c hc).2.2) (by simp [Head])
    (by simp [Head]) he

theorem baseLetter_unique {m : Char} {b b' : Str} (h : BaseLetter m b) (h' : BaseLetter m b') : b = b' := by
  rcases h with ⟨rfl | rfl, rfl⟩ | ⟨rfl | rfl, rfl⟩ | ⟨rfl | rfl, rfl⟩ <;>
    rcases h' with ⟨h | h, rfl⟩ | ⟨h | h, rfl⟩ | ⟨h | h, rfl⟩ <;> first | rfl | cases h

/-- Reads in one way, up to what follows. -/
def OneElem (cv : Conv) (s : Str) (e : Elem) : Prop :=
  ∀ s' e' r r', ReadsElem cv s' e' → s ++ r = s' ++ r' → StopRep r → StopRep r' → s = s' ∧ e = e'
def OneRep (cv : Conv) (s : Str) (q : Rep) : Prop :=
  ∀ s' q' r r', ReadsRep cv s' q' → s ++ r = s' ++ r' → StopRep r → StopRep r' → s = s' ∧ q = q'
def OneConcat (cv : Conv) (s : Str) (c : Concat) : Prop :=
  ∀ s' c' r r', ReadsConcat cv s' c' → s ++ r = s' ++ r' → StopConcat r → StopConcat r' → s = s' ∧ c = c'
def OneAlt (cv : Conv) (s : Str) (a : Alt) : Prop :=
  ∀ s' a' r r', ReadsAlt cv s' a' → s ++ r = s' ++ r' → StopAlt r → StopAlt r' → s = s' ∧ a = a'

/-- The inside of a group or option. -/
theorem inside_cut {cv : Conv} {k : Char} (hk : k = ')' ∨ k = ']') {g₁ s g₂ g₁' s' g₂' r r' : Str} {a a' : Alt}
    (h1 : Gap g₁) (h2 : ReadsAlt cv s a) (h3 : Gap g₂) (ih : OneAlt cv s a) (h1' : Gap g₁') (h2' : ReadsAlt cv s' a') (h3' : Gap g₂')
    (he : g₁ ++ (s ++ (g₂ ++ k :: r)) = g₁' ++ (s' ++ (g₂' ++ k :: r'))) : g₁ = g₁' ∧ s = s' ∧ g₂ = g₂' ∧ a = a' := by
  have e1 := h1.cut h1' he (h2.head.append.head.mono fun _ => repStart_gap) (h2'.head.append.head.mono fun _ => repStart_gap)
  subst e1
  have he := List.append_cancel_left he
  obtain ⟨rfl, rfl⟩ := ih s' a' _ _ h2' he (stopAlt_gap h3 (closer hk)) (stopAlt_gap h3' (closer hk))
  have he := List.append_cancel_left he
  have e2 := h3.cut h3' he (closer hk).1 (closer hk).1
  exact ⟨rfl, rfl, e2, rfl⟩

theorem letter_ne {c : Char} (h : Letter c) : c ≠ '(' ∧ c ≠ '[' ∧ c ≠ '"' ∧ c ≠ '%' ∧ c ≠ '<' := by
  refine ⟨?_, ?_, ?_, ?_, ?_⟩ <;> (rintro rfl; revert h; unfold Letter; decide)

theorem head1_cons {P : Char → Prop} {c : Char} {s n r : Str} (h : Head1 P n) (he : n ++ r = c :: s) : P c := by
  cases n with
  | nil => exact h.elim
  | cons d n => injection he with h1 _; exact h1 ▸ h

theorem name_clash {cv : Conv} {n s r r' : Str} {e : Elem} (hn : Name n) (h : ReadsElem cv s e) (he : n ++ r = s ++ r')
    (hne : ∀ m, e ≠ .rulename m) : False := by
  cases h with
  | rulename => exact hne _ rfl
  | _ =>
    have := letter_ne (head1_cons hn.head he)
    simp at this

theorem mark_clash {m : Char} {b : Str} (hb : BaseLetter m b) (h : m = 'i' ∨ m = 'I' ∨ m = 's' ∨ m = 'S') : False := by
  rcases hb with ⟨rfl | rfl, _⟩ | ⟨rfl | rfl, _⟩ | ⟨rfl | rfl, _⟩ <;> simp at h

theorem quote_digit {b : Str} : ¬ DigitOf b '"' := by
  intro h
  rcases digitOf_cases h with h | h
  · revert h; unfold Letter; decide
  · revert h; unfold Digit; decide

theorem dotted_head {b : Str} {es : List Str} {s : Str} (h : Dotted es s) (hn : ∀ e ∈ es, NumeralOf b e) :
    Head1 (DigitOf b) s := by
  cases h with
  | one _ =>
    obtain ⟨h1, h2⟩ := hn s (List.mem_singleton_self _)
    cases s with
    | nil => exact absurd rfl h1
    | cons c s => exact h2 c (List.mem_cons_self ..)
  | more s es t _ =>
    obtain ⟨h1, h2⟩ := hn s (List.mem_cons_self ..)
    cases s with
    | nil => exact absurd rfl h1
    | cons c s => exact h2 c (List.mem_cons_self ..)

theorem dash_digit {b : Str} : ¬ DigitOf b '-' := fun h => (digitOf_ne h).2 rfl

/-- A series is not a range. -/
theorem series_range {b : Str} {es : List Str} {s lo hi r r' : Str} (h : Dotted es s) (hn : ∀ e ∈ es, NumeralOf b e)
    (hlo : NumeralOf b lo) (hr : StopRep r) (he : s ++ r = lo ++ '-' :: (hi ++ r')) : False := by
  have hdot : ¬ DigitOf b '.' := fun h => (digitOf_ne h).1 rfl
  have hdash : ¬ DigitOf b '-' := dash_digit
  cases h with
  | one _ =>
    have := (hn s (List.mem_singleton_self _)).cut hlo (stop_digit hr) (by exact hdash) he
    subst this
    rw [List.append_cancel_left he] at hr
    exact hr (.inr (.inr (.inl rfl)))
  | more s es t _ =>
    rw [List.append_assoc] at he
    have := (hn s (List.mem_cons_self ..)).cut hlo (by exact hdot) (by exact hdash) he
    subst this
    have := List.append_cancel_left he
    simp at this

/-- Induction over all four kinds of phrase at once. -/
theorem reads_ind {cv : Conv} {P1 : Str → Elem → Prop} {P2 : Str → Rep → Prop} {P3 : Str → Concat → Prop} {P4 : Str → Alt → Prop}
    (rulename : ∀ n, Name n → P1 n (.rulename n))
    (group : ∀ g₁ s g₂ a, Gap g₁ → ReadsAlt cv s a → Gap g₂ → P4 s a → P1 ('(' :: (g₁ ++ (s ++ (g₂ ++ [')'])))) (.group a))
    (option : ∀ g₁ s g₂ a, Gap g₁ → ReadsAlt cv s a → Gap g₂ → P4 s a → P1 ('[' :: (g₁ ++ (s ++ (g₂ ++ [']'])))) (.option a))
    (string : ∀ s, (∀ c ∈ s, 0x20 ≤ c.toNat ∧ c.toNat ≤ 0x7E ∧ c ≠ '"') → P1 ('"' :: (s ++ ['"'])) (.charVal false s))
    (insensitive : ∀ m s, m = 'i' ∨ m = 'I' → (∀ c ∈ s, 0x20 ≤ c.toNat ∧ c.toNat ≤ 0x7E ∧ c ≠ '"') →
      P1 ('%' :: m :: '"' :: (s ++ ['"'])) (.charVal false s))
    (sensitive : ∀ m s, m = 's' ∨ m = 'S' → (∀ c ∈ s, 0x20 ≤ c.toNat ∧ c.toNat ≤ 0x7E ∧ c ≠ '"') →
      P1 ('%' :: m :: '"' :: (s ++ ['"'])) (.charVal true s))
    (series : ∀ m b es s, BaseLetter m b → (∀ e ∈ es, NumeralOf b e) → Dotted es s → P1 ('%' :: m :: s) (.numVal b .series es))
    (range : ∀ m b lo hi, BaseLetter m b → NumeralOf b lo → NumeralOf b hi →
      P1 ('%' :: m :: (lo ++ '-' :: hi)) (.numVal b .range [lo, hi]))
    (prose : ∀ s, (∀ c ∈ s, 0x20 ≤ c.toNat ∧ c.toNat ≤ 0x7E ∧ c ≠ '>') →
      P1 ('<' :: (s ++ ['>'])) (.proseVal (s.map fun c => [c])))
    (rep : ∀ p mn mx s e, Repeat cv p mn mx → ReadsElem cv s e → P1 s e → P2 (p ++ s) ⟨mn, mx, e⟩)
    (concat1 : ∀ s r, ReadsRep cv s r → P2 s r → P3 s [r])
    (concat2 : ∀ s r gap t c, ReadsRep cv s r → Gap gap → gap ≠ [] → ReadsConcat cv t c → P2 s r → P3 t c →
      P3 (s ++ (gap ++ t)) (r :: c))
    (alt1 : ∀ s c, ReadsConcat cv s c → P3 s c → P4 s [c])
    (alt2 : ∀ s c g₁ g₂ t a, ReadsConcat cv s c → Gap g₁ → Gap g₂ → ReadsAlt cv t a → P3 s c → P4 t a →
      P4 (s ++ (g₁ ++ '/' :: (g₂ ++ t))) (c :: a)) :
    (∀ {s e}, ReadsElem cv s e → P1 s e) ∧ (∀ {s r}, ReadsRep cv s r → P2 s r) ∧ (∀ {s c}, ReadsConcat cv s c → P3 s c) ∧
      ∀ {s a}, ReadsAlt cv s a → P4 s a := by
  refine ⟨fun h => ?_, fun h => ?_, fun h => ?_, fun h => ?_⟩
  · exact ReadsElem.rec (motive_1 := fun s e _ => P1 s e) (motive_2 := fun s e _ => P2 s e) (motive_3 := fun s e _ => P3 s e)
      (motive_4 := fun s e _ => P4 s e) rulename group option string insensitive sensitive series range prose rep concat1 concat2
      alt1 alt2 h
  · exact ReadsRep.rec (motive_1 := fun s e _ => P1 s e) (motive_2 := fun s e _ => P2 s e) (motive_3 := fun s e _ => P3 s e)
      (motive_4 := fun s e _ => P4 s e) rulename group option string insensitive sensitive series range prose rep concat1 concat2
      alt1 alt2 h
  · exact ReadsConcat.rec (motive_1 := fun s e _ => P1 s e) (motive_2 := fun s e _ => P2 s e) (motive_3 := fun s e _ => P3 s e)
      (motive_4 := fun s e _ => P4 s e) rulename group option string insensitive sensitive series range prose rep concat1 concat2
      alt1 alt2 h
  · exact ReadsAlt.rec (motive_1 := fun s e _ => P1 s e) (motive_2 := fun s e _ => P2 s e) (motive_3 := fun s e _ => P3 s e)
      (motive_4 := fun s e _ => P4 s e) rulename group option string insensitive sensitive series range prose rep concat1 concat2
      alt1 alt2 h

theorem reads_once_all {cv : Conv} : (∀ {s e}, ReadsElem cv s e → OneElem cv s e) ∧ (∀ {s r}, ReadsRep cv s r → OneRep cv s r) ∧
    (∀ {s c}, ReadsConcat cv s c → OneConcat cv s c) ∧ ∀ {s a}, ReadsAlt cv s a → OneAlt cv s a := by
  refine reads_ind ?_ ?_ ?_ ?_ ?_ ?_ ?_ ?_ ?_ ?_ ?_ ?_ ?_ ?_
  · -- names
    intro n hn s' e' r r' h' he hr hr'
    by_cases hne : ∃ n', e' = .rulename n'
    · obtain ⟨n', rfl⟩ := hne
      cases h' with
      | rulename n' hn' =>
        have := hn.cut hn' hr hr' he
        exact ⟨this, by rw [this]⟩
    · exact (name_clash hn h' he fun n' h => hne ⟨n', h⟩).elim
  · -- groups
    intro g₁ s g₂ a h1 h2 h3 ih s' e' r r' h' he hr hr'
    cases h' with
    | rulename n' hn' => exact (name_clash hn' (ReadsElem.group g₁ s g₂ a h1 h2 h3) he.symm (by simp)).elim
    | group g₁' s' g₂' a' h1' h2' h3' =>
      simp only [List.cons_append, List.cons.injEq, true_and, List.append_assoc] at he
      obtain ⟨rfl, rfl, rfl, rfl⟩ := inside_cut (.inl rfl) h1 h2 h3 ih h1' h2' h3' he
      exact ⟨rfl, rfl⟩
    | _ => simp at he
  · -- options
    intro g₁ s g₂ a h1 h2 h3 ih s' e' r r' h' he hr hr'
    cases h' with
    | rulename n' hn' => exact (name_clash hn' (ReadsElem.option g₁ s g₂ a h1 h2 h3) he.symm (by simp)).elim
    | option g₁' s' g₂' a' h1' h2' h3' =>
      simp only [List.cons_append, List.cons.injEq, true_and, List.append_assoc] at he
      obtain ⟨rfl, rfl, rfl, rfl⟩ := inside_cut (.inr rfl) h1 h2 h3 ih h1' h2' h3' he
      exact ⟨rfl, rfl⟩
    | _ => simp at he
  · -- strings
    intro s h s' e' r r' h' he hr hr'
    cases h' with
    | rulename n' hn' => exact (name_clash hn' (ReadsElem.string (cv := cv) s h) he.symm (by simp)).elim
    | string s' h' =>
      simp only [List.cons_append, List.cons.injEq, true_and, List.append_assoc] at he
      obtain rfl := quoted_cut h h' he
      exact ⟨rfl, rfl⟩
    | _ => simp at he
  · intro m s hm h s' e' r r' h' he hr hr'
    cases h' with
    | rulename n' hn' => exact (name_clash hn' (ReadsElem.insensitive (cv := cv) m s hm h) he.symm (by simp)).elim
    | insensitive m' s' hm' h' =>
      simp only [List.cons_append, List.cons.injEq, true_and, List.append_assoc] at he
      obtain ⟨rfl, he⟩ := he
      obtain rfl := quoted_cut h h' he
      exact ⟨rfl, rfl⟩
    | sensitive m' s' hm' h' =>
      simp only [List.cons_append, List.cons.injEq, true_and] at he
      obtain ⟨rfl, _⟩ := he
      rcases hm with rfl | rfl <;> simp at hm'
    | series m' b es s' hb =>
      simp only [List.cons_append, List.cons.injEq, true_and] at he
      obtain ⟨rfl, _⟩ := he
      exact (mark_clash hb (by tauto)).elim
    | range m' b lo hi hb =>
      simp only [List.cons_append, List.cons.injEq, true_and] at he
      obtain ⟨rfl, _⟩ := he
      exact (mark_clash hb (by tauto)).elim
    | _ => simp at he
  · intro m s hm h s' e' r r' h' he hr hr'
    cases h' with
    | rulename n' hn' => exact (name_clash hn' (ReadsElem.sensitive (cv := cv) m s hm h) he.symm (by simp)).elim
    | sensitive m' s' hm' h' =>
      simp only [List.cons_append, List.cons.injEq, true_and, List.append_assoc] at he
      obtain ⟨rfl, he⟩ := he
      obtain rfl := quoted_cut h h' he
      exact ⟨rfl, rfl⟩
    | insensitive m' s' hm' h' =>
      simp only [List.cons_append, List.cons.injEq, true_and] at he
      obtain ⟨rfl, _⟩ := he
      rcases hm with rfl | rfl <;> simp at hm'
    | series m' b es s' hb =>
      simp only [List.cons_append, List.cons.injEq, true_and] at he
      obtain ⟨rfl, _⟩ := he
      exact (mark_clash hb (by tauto)).elim
    | range m' b lo hi hb =>
      simp only [List.cons_append, List.cons.injEq, true_and] at he
      obtain ⟨rfl, _⟩ := he
      exact (mark_clash hb (by tauto)).elim
    | _ => simp at he
  · -- series
    intro m b es s hb hn hd s' e' r r' h' he hr hr'
    cases h' with
    | rulename n' hn' => exact (name_clash hn' (ReadsElem.series (cv := cv) m b es s hb hn hd) he.symm (by simp)).elim
    | sensitive m' s' hm' h' =>
      simp only [List.cons_append, List.cons.injEq, true_and] at he
      obtain ⟨rfl, _⟩ := he
      exact (mark_clash hb (by tauto)).elim
    | insensitive m' s' hm' h' =>
      simp only [List.cons_append, List.cons.injEq, true_and] at he
      obtain ⟨rfl, _⟩ := he
      exact (mark_clash hb (by tauto)).elim
    | series m' b' es' s' hb' hn' hd' =>
      simp only [List.cons_append, List.cons.injEq, true_and] at he
      obtain ⟨rfl, he⟩ := he
      obtain rfl := baseLetter_unique hb hb'
      obtain ⟨rfl, rfl⟩ := hd.cut hd' hn hn' hr hr' he
      exact ⟨rfl, rfl⟩
    | range m' b' lo hi hb' hlo hhi =>
      simp only [List.cons_append, List.cons.injEq, true_and, List.append_assoc] at he
      obtain ⟨rfl, he⟩ := he
      obtain rfl := baseLetter_unique hb hb'
      exact (series_range hd hn hlo hr he).elim
    | _ => simp at he
  · -- ranges
    intro m b lo hi hb hlo hhi s' e' r r' h' he hr hr'
    cases h' with
    | rulename n' hn' => exact (name_clash hn' (ReadsElem.range (cv := cv) m b lo hi hb hlo hhi) he.symm (by simp)).elim
    | sensitive m' s' hm' h' =>
      simp only [List.cons_append, List.cons.injEq, true_and] at he
      obtain ⟨rfl, _⟩ := he
      exact (mark_clash hb (by tauto)).elim
    | insensitive m' s' hm' h' =>
      simp only [List.cons_append, List.cons.injEq, true_and] at he
      obtain ⟨rfl, _⟩ := he
      exact (mark_clash hb (by tauto)).elim
    | series m' b' es' s' hb' hn' hd' =>
      simp only [List.cons_append, List.cons.injEq, true_and, List.append_assoc] at he
      obtain ⟨rfl, he⟩ := he
      obtain rfl := baseLetter_unique hb hb'
      exact (series_range hd' hn' hlo hr' he.symm).elim
    | range m' b' lo' hi' hb' hlo' hhi' =>
      simp only [List.cons_append, List.cons.injEq, true_and, List.append_assoc] at he
      obtain ⟨rfl, he⟩ := he
      obtain rfl := baseLetter_unique hb hb'
      obtain rfl := hlo.cut hlo' (by exact dash_digit) (by exact dash_digit) he
      have he := List.append_cancel_left he
      simp only [List.cons.injEq, true_and] at he
      obtain rfl := hhi.cut hhi' (stop_digit hr) (stop_digit hr') he
      exact ⟨rfl, rfl⟩
    | _ => simp at he
  · -- prose
    intro s h s' e' r r' h' he hr hr'
    cases h' with
    | rulename n' hn' => exact (name_clash hn' (ReadsElem.prose (cv := cv) s h) he.symm (by simp)).elim
    | prose s' h' =>
      simp only [List.cons_append, List.cons.injEq, true_and, List.append_assoc] at he
      obtain rfl := quoted_cut h h' he
      exact ⟨rfl, rfl⟩
    | _ => simp at he
  · -- repetitions
    intro p mn mx s e hp hs ih s' q' r r' h' he hr hr'
    cases h' with
    | mk p' mn' mx' s' e' hp' hs' =>
      rw [List.append_assoc, List.append_assoc] at he
      obtain rfl := run_unique hp.chars hp'.chars (hs.head.append.head.mono fun _ => elemStart_not)
        (hs'.head.append.head.mono fun _ => elemStart_not) he
      obtain ⟨rfl, rfl⟩ := hp.unique hp'
      obtain ⟨rfl, rfl⟩ := ih s' e' r r' hs' (List.append_cancel_left he) hr hr'
      exact ⟨rfl, rfl⟩
  · -- concatenations
    intro s q hs ih s' c' r r' h' he hr hr'
    cases h' with
    | one s' q' hs' =>
      obtain ⟨rfl, rfl⟩ := ih s' q' r r' hs' he hr.1 hr'.1
      exact ⟨rfl, rfl⟩
    | more s' q' gap t c hs' hg hgn ht =>
      exfalso
      rw [List.append_assoc, List.append_assoc] at he
      have hst : StopRep (gap ++ (t ++ r')) := by
        cases hg with
        | nil => exact absurd rfl hgn
        | cons a b ha _ => exact (ha.head.append.append.head.mono fun _ => joins_not_gap)
      obtain ⟨rfl, rfl⟩ := ih s' q' r _ hs' he hr.1 hst
      have := hr.2 gap (t ++ r') hg (List.append_cancel_left he)
      exact head_clash (ht.head.append (t := r')) this fun c h => by simpa using h
  · intro s q gap t c hs hg hgn ht ih1 ih2 s' c' r r' h' he hr hr'
    have hst : ∀ {gap t r : Str}, Gap gap → gap ≠ [] → StopRep (gap ++ (t ++ r)) := by
      intro gap t r hg hgn
      cases hg with
      | nil => exact absurd rfl hgn
      | cons a b ha _ => exact (ha.head.append.append.head.mono fun _ => joins_not_gap)
    rw [List.append_assoc, List.append_assoc] at he
    cases h' with
    | one s' q' hs' =>
      exfalso
      obtain ⟨rfl, rfl⟩ := ih1 s' q' _ r' hs' he (hst hg hgn) hr'.1
      have := hr'.2 gap (t ++ r) hg (List.append_cancel_left he).symm
      exact head_clash (ht.head.append (t := r)) this fun c h => by simpa using h
    | more s' q' gap' t' c' hs' hg' hgn' ht' =>
      rw [List.append_assoc, List.append_assoc] at he
      obtain ⟨rfl, rfl⟩ := ih1 s' q' _ _ hs' he (hst hg hgn) (hst hg' hgn')
      have he := List.append_cancel_left he
      obtain rfl := hg.cut hg' he (ht.head.append.head.mono fun _ => repStart_gap)
        (ht'.head.append.head.mono fun _ => repStart_gap)
      obtain ⟨rfl, rfl⟩ := ih2 t' c' r r' ht' (List.append_cancel_left he) hr hr'
      exact ⟨rfl, rfl⟩
  · -- alternations
    intro s c hs ih s' a' r r' h' he hr hr'
    cases h' with
    | one s' c' hs' =>
      obtain ⟨rfl, rfl⟩ := ih s' c' r r' hs' he hr.1 hr'.1
      exact ⟨rfl, rfl⟩
    | more s' c' g₁ g₂ t a hs' hg₁ hg₂ ht =>
      exfalso
      simp only [List.append_assoc, List.cons_append] at he
      obtain ⟨rfl, rfl⟩ := ih s' c' r _ hs' he hr.1 (stopConcat_slash hg₁)
      have := hr.2 g₁ _ hg₁ (List.append_cancel_left he)
      exact this rfl
  · intro s c g₁ g₂ t a hs hg₁ hg₂ ht ih1 ih2 s' a' r r' h' he hr hr'
    simp only [List.append_assoc, List.cons_append] at he
    cases h' with
    | one s' c' hs' =>
      exfalso
      obtain ⟨rfl, rfl⟩ := ih1 s' c' _ r' hs' he (stopConcat_slash hg₁) hr'.1
      have := hr'.2 g₁ _ hg₁ (List.append_cancel_left he).symm
      exact this rfl
    | more s' c' g₁' g₂' t' a' hs' hg₁' hg₂' ht' =>
      simp only [List.append_assoc, List.cons_append] at he
      obtain ⟨rfl, rfl⟩ := ih1 s' c' _ _ hs' he (stopConcat_slash hg₁) (stopConcat_slash hg₁')
      have he := List.append_cancel_left he
      have hsl : ¬ GapStart '/' := by rw [gapStart_iff]; decide
      obtain rfl := hg₁.cut hg₁' he (by exact hsl) (by exact hsl)
      have he := List.append_cancel_left he
      simp only [List.cons.injEq, true_and] at he
      obtain rfl := hg₂.cut hg₂' he (ht.head.append.head.mono fun _ => repStart_gap)
        (ht'.head.append.head.mono fun _ => repStart_gap)
      obtain ⟨rfl, rfl⟩ := ih2 t' a' r r' ht' (List.append_cancel_left he) hr hr'
      exact ⟨rfl, rfl⟩

/-! ## Definitions and files -/

theorem reads_once {cv : Conv} {s : Str} {a : Alt} (h : ReadsAlt cv s a) : OneAlt cv s a := reads_once_all.2.2.2 h
theorem concat_once {cv : Conv} {s : Str} {c : Concat} (h : ReadsConcat cv s c) : OneConcat cv s c := reads_once_all.2.2.1 h
theorem rep_once {cv : Conv} {s : Str} {r : Rep} (h : ReadsRep cv s r) : OneRep cv s r := reads_once_all.2.1 h
theorem elem_once {cv : Conv} {s : Str} {e : Elem} (h : ReadsElem cv s e) : OneElem cv s e := reads_once_all.1 h

theorem letter_joins {c : Char} (h : Letter c) : Joins c := .inl h

theorem line_cut {ws nl t ws' nl' t' : Str} (h1 : ∀ c ∈ ws, Wsp c) (h2 : LineEnd nl) (h1' : ∀ c ∈ ws', Wsp c)
    (h2' : LineEnd nl') (he : ws ++ (nl ++ t) = ws' ++ (nl' ++ t')) : ws = ws' ∧ nl = nl' ∧ t = t' := by
  obtain rfl := run_unique h1 h1' (h2.head.append.head.mono fun c h h' => wsp_not_eol h' h)
    (h2'.head.append.head.mono fun c h h' => wsp_not_eol h' h) he
  have he := List.append_cancel_left he
  obtain rfl := h2.cut h2' he
  exact ⟨rfl, rfl, List.append_cancel_left he⟩

/-- The alternatives of a definition and what is left of its line. -/
theorem body_cut {cv : Conv} {s ws nl t s' ws' nl' t' : Str} {a a' : Alt} {ds ds' : List Def} (hs : ReadsAlt cv s a)
    (h1 : ∀ c ∈ ws, Wsp c) (h2 : LineEnd nl) (h3 : ReadsLines cv t ds) (hs' : ReadsAlt cv s' a')
    (h1' : ∀ c ∈ ws', Wsp c) (h2' : LineEnd nl') (h3' : ReadsLines cv t' ds')
    (he : s ++ (ws ++ (nl ++ t)) = s' ++ (ws' ++ (nl' ++ t'))) : s = s' ∧ a = a' ∧ ws = ws' ∧ nl = nl' ∧ t = t' := by
  have k : Tail cv (ws ++ (nl ++ t)) := ⟨ws, nl, t, ds, h1, h2, h3, rfl⟩
  have k' : Tail cv (ws' ++ (nl' ++ t')) := ⟨ws', nl', t', ds', h1', h2', h3', rfl⟩
  obtain ⟨rfl, rfl⟩ := reads_once hs s' a' _ _ hs' he k.stop k'.stop
  exact ⟨rfl, rfl, line_cut h1 h2 h1' h2' (List.append_cancel_left he)⟩

theorem equals_facts : ¬ GapStart '=' ∧ ¬ Joins '=' := by
  refine ⟨by rw [gapStart_iff]; decide, ?_⟩
  rintro (h' | h' | h' | h')
  · revert h'; unfold Letter; decide
  · revert h'; unfold Digit; decide
  all_goals cases h'

/-- The name and the blanks before the operator. -/
theorem name_cut {n g x n' g' x' : Str} (hn : Name n) (hg : Gap g) (hn' : Name n') (hg' : Gap g')
    (he : n ++ (g ++ '=' :: x) = n' ++ (g' ++ '=' :: x')) : n = n' ∧ g = g' ∧ x = x' := by
  have hs : ∀ {g x : Str}, Gap g → StopRep (g ++ '=' :: x) := fun hg =>
    (hg.head.mono fun c => joins_not_gap).append equals_facts.2
  obtain rfl := hn.cut hn' (hs hg) (hs hg') he
  have he := List.append_cancel_left he
  obtain rfl := hg.cut hg' he (by exact equals_facts.1) (by exact equals_facts.1)
  have he := List.append_cancel_left he
  injection he with _ he
  exact ⟨rfl, rfl, he⟩

theorem slash_clash {cv : Conv} {g x y s : Str} {a : Alt} (hg : Gap g) (hs : ReadsAlt cv s a)
    (he : '/' :: x = g ++ (s ++ y)) : False := by
  have h1 : Head1 (fun c => GapStart c ∨ RepStart c) (g ++ (s ++ y)) := by
    cases hg with
    | nil => exact (hs.head.mono fun _ => .inr).append
    | cons a b ha _ => exact ((ha.head.mono fun _ => .inl).append).append
  rw [← he] at h1
  have h1 : GapStart '/' ∨ RepStart '/' := h1
  rw [gapStart_iff] at h1
  rcases h1 with h' | h' | h' | h' | h' | h' | h' | h' | h'
  · revert h'; decide
  · revert h'; unfold Letter; decide
  · revert h'; unfold Digit; decide
  all_goals cases h'

theorem ReadsRule.cut {cv : Conv} {s t s' t' : Str} {d d' : Def} {ds ds' : List Def} (h : ReadsRule cv s d)
    (h' : ReadsRule cv s' d') (ht : ReadsLines cv t ds) (ht' : ReadsLines cv t' ds') (he : s ++ t = s' ++ t') :
    s = s' ∧ d = d' ∧ t = t' := by
  cases h with
  | define n g₁ g₂ s a ws nl hn hg₁ hg₂ hs hws hnl =>
    cases h' with
    | define n' g₁' g₂' s' a' ws' nl' hn' hg₁' hg₂' hs' hws' hnl' =>
      simp only [List.append_assoc, List.cons_append] at he
      obtain ⟨rfl, rfl, hk⟩ := name_cut hn hg₁ hn' hg₁' he
      obtain rfl := hg₂.cut hg₂' hk (hs.head.append.head.mono fun _ => repStart_gap)
        (hs'.head.append.head.mono fun _ => repStart_gap)
      obtain ⟨rfl, rfl, rfl, rfl, rfl⟩ := body_cut hs hws hnl ht hs' hws' hnl' ht' (List.append_cancel_left hk)
      exact ⟨rfl, rfl, rfl⟩
    | extend n' g₁' g₂' s' a' ws' nl' hn' hg₁' hg₂' hs' hws' hnl' =>
      exfalso
      simp only [List.append_assoc, List.cons_append] at he
      obtain ⟨rfl, rfl, hk⟩ := name_cut hn hg₁ hn' hg₁' he
      exact slash_clash hg₂ hs hk.symm
  | extend n g₁ g₂ s a ws nl hn hg₁ hg₂ hs hws hnl =>
    cases h' with
    | define n' g₁' g₂' s' a' ws' nl' hn' hg₁' hg₂' hs' hws' hnl' =>
      exfalso
      simp only [List.append_assoc, List.cons_append] at he
      obtain ⟨rfl, rfl, hk⟩ := name_cut hn hg₁ hn' hg₁' he
      exact slash_clash hg₂' hs' hk
    | extend n' g₁' g₂' s' a' ws' nl' hn' hg₁' hg₂' hs' hws' hnl' =>
      simp only [List.append_assoc, List.cons_append] at he
      obtain ⟨rfl, rfl, hk⟩ := name_cut hn hg₁ hn' hg₁' he
      injection hk with _ hk
      obtain rfl := hg₂.cut hg₂' hk (hs.head.append.head.mono fun _ => repStart_gap)
        (hs'.head.append.head.mono fun _ => repStart_gap)
      obtain ⟨rfl, rfl, rfl, rfl, rfl⟩ := body_cut hs hws hnl ht hs' hws' hnl' ht' (List.append_cancel_left hk)
      exact ⟨rfl, rfl, rfl⟩

theorem blank_head {ws nl t : Str} (h1 : ∀ c ∈ ws, Wsp c) (h2 : LineEnd nl) : Head1 GapStart (ws ++ (nl ++ t)) := by
  cases ws with
  | nil => exact (h2.head.mono fun _ => .inr).append
  | cons c ws => exact .inl (h1 c (List.mem_cons_self ..))

theorem ReadsLines.unique {cv : Conv} {s : Str} {ds ds' : List Def} (h : ReadsLines cv s ds) (h' : ReadsLines cv s ds') :
    ds = ds' := by
  induction h generalizing ds' with
  | nil =>
    generalize hs : ([] : Str) = s at h'
    cases h' with
    | nil => rfl
    | rule s d t ds hr _ => exact absurd (List.append_eq_nil_iff.mp hs.symm).1 hr.head.ne_nil
    | blank ws nl t ds h1 h2 _ => exact absurd hs.symm (blank_head h1 h2).ne_nil
  | rule s d t ds hr ht ih =>
    generalize hs : s ++ t = x at h'
    cases h' with
    | nil => exact absurd (List.append_eq_nil_iff.mp hs).1 hr.head.ne_nil
    | rule s' d' t' ds' hr' ht' =>
      obtain ⟨rfl, rfl, rfl⟩ := hr.cut hr' ht ht' hs
      rw [ih ht']
    | blank ws nl t' ds' h1 h2 ht' =>
      exfalso
      have := hr.head.append (t := t)
      rw [hs] at this
      exact head_clash this (blank_head h1 h2).head fun c => letter_not_gap
  | blank ws nl t ds h1 h2 ht ih =>
    generalize hs : ws ++ (nl ++ t) = x at h'
    cases h' with
    | nil => exact absurd hs (blank_head h1 h2).ne_nil
    | rule s' d' t' ds' hr' ht' =>
      exfalso
      have := hr'.head.append (t := t')
      rw [← hs] at this
      exact head_clash this (blank_head h1 h2).head fun c => letter_not_gap
    | blank ws' nl' t' ds' h1' h2' ht' =>
      obtain ⟨rfl, rfl, rfl⟩ := line_cut h1 h2 h1' h2' hs
      exact ih ht'

/-- A source text says one thing. -/
theorem ReadsFile.unique {cv : Conv} {s : Str} {ds ds' : List Def} (h : ReadsFile cv s ds) (h' : ReadsFile cv s ds') :
    ds = ds' := h.2.unique h'.2

end Text
end Verif
