import Verif.BoundLemmas
import Verif.Spec
import Verif.Examples

/-!
# Printing is injective up to the case-sensitivity marker

The `String` methods of /repo/abnf.go:33-200 and `Grammar.String` (/repo/grammar.go:46-52), as modelled in
`Verif.Syntax`.  `Written` describes the syntax trees ABNF source text can denote: what `feval`
(/repo/grammar.go:133-360) builds.
-/

namespace Verif
open Spec

/-- `Rule.String` (/repo/abnf.go:33-35). -/
def Rule.str (r : Rule) : Str := r.name ++ [' ', '=', ' '] ++ altStr r.alt

/-- `Grammar.String` (/repo/grammar.go:46-52), the rules in the order the map iteration visits them. -/
def Grammar.str (g : Grammar) : Str := g.rules.flatMap fun r => r.str ++ ['\r', '\n']

/-- The characters of a rule name (RFC 5234: ALPHA, DIGIT and `-`). -/
def nameChar (c : Char) : Bool := c.isAlphanum || c == '-'

/-- A rule name: a letter, then letters, digits and dashes (RFC 5234 section 4). -/
def nameOK : Str → Bool
  | [] => false
  | c :: s => c.isAlpha && s.all nameChar

/-- A printable ASCII character other than `x`. -/
def plainChar (x c : Char) : Bool := decide (0x20 ≤ c.toNat ∧ c.toNat ≤ 0x7E) && c != x

mutual
/-- The element can be written in ABNF source (RFC 5234 section 4, RFC 7405). -/
def Elem.written : Elem → Bool
  | .rulename n => nameOK n
  | .group a => !a.isEmpty && altWritten a
  | .option a => !a.isEmpty && altWritten a
  | .charVal _ vs => vs.all (plainChar '"')
  | .numVal b st es => (b == ['b'] || b == ['d'] || b == ['x']) &&
      (match st with | .range => es.length == 2 | .series => !es.isEmpty) &&
      es.all fun s => numeralB b s && s.all Char.isAlphanum
  | .proseVal vs => vs.all fun s => s.length == 1 && s.all (plainChar '>')
/-- The repetition can be written in ABNF source. -/
def Rep.written : Rep → Bool
  | ⟨_, _, e⟩ => Elem.written e
/-- Every repetition of the concatenation can be written. -/
def concatWritten : List Rep → Bool
  | [] => true
  | r :: c => Rep.written r && concatWritten c
/-- Every concatenation of the alternation can be written, and none is empty. -/
def altWritten : List (List Rep) → Bool
  | [] => true
  | c :: a => !c.isEmpty && concatWritten c && altWritten a
end

/-- The rule can be written in ABNF source. -/
def Rule.written (r : Rule) : Bool := nameOK r.name && !r.alt.isEmpty && altWritten r.alt

mutual
/-- Forget the case-sensitivity marker of every char-val. -/
def Elem.uncased : Elem → Elem
  | .group a => .group (altUncased a)
  | .option a => .option (altUncased a)
  | .charVal _ vs => .charVal false vs
  | .rulename n => .rulename n
  | .numVal b st es => .numVal b st es
  | .proseVal vs => .proseVal vs
def Rep.uncased : Rep → Rep
  | ⟨mn, mx, e⟩ => ⟨mn, mx, Elem.uncased e⟩
def concatUncased : List Rep → List Rep
  | [] => []
  | r :: c => Rep.uncased r :: concatUncased c
def altUncased : List (List Rep) → List (List Rep)
  | [] => []
  | c :: a => concatUncased c :: altUncased a
end

mutual
/-- The strings occurring in an element, with their case-sensitivity marker. -/
def Elem.strings : Elem → List (Bool × Str)
  | .group a => altStrings a
  | .option a => altStrings a
  | .charVal s vs => [(s, vs)]
  | _ => []
def Rep.strings : Rep → List (Bool × Str)
  | ⟨_, _, e⟩ => Elem.strings e
def concatStrings : List Rep → List (Bool × Str)
  | [] => []
  | r :: c => Rep.strings r ++ concatStrings c
def altStrings : List (List Rep) → List (Bool × Str)
  | [] => []
  | c :: a => concatStrings c ++ altStrings a
end

/-- No text is written both as a case-sensitive and as a case-insensitive string. -/
def CaseConsistent (l : List (Bool × Str)) : Prop := ∀ p ∈ l, ∀ q ∈ l, p.2 = q.2 → p.1 = q.1

mutual
theorem Elem.uncased_inj (l : List (Bool × Str)) (hl : CaseConsistent l) : (e e' : Elem) → e.strings ⊆ l → e'.strings ⊆ l →
    e.uncased = e'.uncased → e = e'
  | .group a, e', h, h', he => by
    cases e' <;> simp only [Elem.uncased, reduceCtorEq] at he
    injection he with he
    rw [altUncased_inj l hl a _ h h' he]
  | .option a, e', h, h', he => by
    cases e' <;> simp only [Elem.uncased, reduceCtorEq] at he
    injection he with he
    rw [altUncased_inj l hl a _ h h' he]
  | .charVal s vs, e', h, h', he => by
    cases e' <;> simp only [Elem.uncased, reduceCtorEq] at he
    case charVal s' vs' =>
    injection he with _ he
    subst he
    have : s = s' := hl (s, vs) (h (by simp [Elem.strings])) (s', vs) (h' (by simp [Elem.strings])) rfl
    rw [this]
  | .rulename _, e', h, h', he => by cases e' <;> simp_all [Elem.uncased]
  | .numVal .., e', h, h', he => by cases e' <;> simp_all [Elem.uncased]
  | .proseVal _, e', h, h', he => by cases e' <;> simp_all [Elem.uncased]
theorem Rep.uncased_inj (l : List (Bool × Str)) (hl : CaseConsistent l) : (r r' : Rep) → r.strings ⊆ l → r'.strings ⊆ l →
    r.uncased = r'.uncased → r = r'
  | ⟨mn, mx, e⟩, ⟨mn', mx', e'⟩, h, h', he => by
    simp only [Rep.uncased] at he
    injection he with h1 h2 h3
    rw [h1, h2, Elem.uncased_inj l hl e e' h h' h3]
theorem concatUncased_inj (l : List (Bool × Str)) (hl : CaseConsistent l) : (c c' : List Rep) → concatStrings c ⊆ l →
    concatStrings c' ⊆ l → concatUncased c = concatUncased c' → c = c'
  | [], c', h, h', he => by cases c' <;> simp_all [concatUncased]
  | r :: c, [], h, h', he => by simp [concatUncased] at he
  | r :: c, r' :: c', h, h', he => by
    simp only [concatUncased, List.cons.injEq] at he
    simp only [concatStrings, List.append_subset] at h h'
    rw [Rep.uncased_inj l hl r r' h.1 h'.1 he.1, concatUncased_inj l hl c c' h.2 h'.2 he.2]
theorem altUncased_inj (l : List (Bool × Str)) (hl : CaseConsistent l) : (a a' : List (List Rep)) → altStrings a ⊆ l →
    altStrings a' ⊆ l → altUncased a = altUncased a' → a = a'
  | [], c', h, h', he => by cases c' <;> simp_all [altUncased]
  | r :: c, [], h, h', he => by simp [altUncased] at he
  | r :: c, r' :: c', h, h', he => by
    simp only [altUncased, List.cons.injEq] at he
    simp only [altStrings, List.append_subset] at h h'
    rw [concatUncased_inj l hl r r' h.1 h'.1 he.1, altUncased_inj l hl c c' h.2 h'.2 he.2]
end

/-! ## Splitting lemmas -/

/-- The string does not start with a character of the class. -/
def NoHead (p : Char → Bool) (s : Str) : Prop := ∀ c t, s = c :: t → p c = false

theorem span_inj (p : Char → Bool) {a b x y : Str} (ha : ∀ c ∈ a, p c = true) (hb : ∀ c ∈ b, p c = true)
    (hx : NoHead p x) (hy : NoHead p y) (h : a ++ x = b ++ y) : a = b ∧ x = y := by
  induction a generalizing b with
  | nil =>
    cases b with
    | nil => exact ⟨rfl, h⟩
    | cons c b =>
      have := hx c (b ++ y) h
      rw [hb c (by simp)] at this; cases this
  | cons c a ih =>
    cases b with
    | nil =>
      have := hy c (a ++ x) h.symm
      rw [ha c (by simp)] at this; cases this
    | cons d b =>
      rw [List.cons_append, List.cons_append, List.cons.injEq] at h
      obtain ⟨h1, h2⟩ := ih (fun c hc => ha c (by simp [hc])) (fun c hc => hb c (by simp [hc])) h.2
      exact ⟨by rw [h.1, h1], h2⟩

theorem split_inj (q : Char) {a b x y : Str} (ha : q ∉ a) (hb : q ∉ b) (h : a ++ q :: x = b ++ q :: y) :
    a = b ∧ x = y := by
  obtain ⟨h1, h2⟩ := span_inj (fun c => c != q) (a := a) (b := b) (fun c hc => by simp; rintro rfl; exact ha hc)
    (fun c hc => by simp; rintro rfl; exact hb hc) (by rintro c t h; cases h; simp)
    (by rintro c t h; cases h; simp) h
  exact ⟨h1, (List.cons.inj h2).2⟩

theorem itoa_inj {m n : Nat} (h : itoa m = itoa n) : m = n := by
  obtain ⟨ds, h1, h2⟩ := toDigits_digits (r := 10) (by decide) (by decide) m
  obtain ⟨es, h3, h4⟩ := toDigits_digits (r := 10) (by decide) (by decide) n
  unfold itoa at h
  rw [h] at h1
  rw [← h2, ← h4, forall₂_digit_fun (by decide) h1 h3]

theorem itoa_digit {n : Nat} {c : Char} (h : c ∈ itoa n) : c.isDigit = true :=
  Nat.isDigit_of_mem_toDigits (by decide) (by decide) h

theorem itoa_ne_nil (n : Nat) : itoa n ≠ [] := Nat.toDigits_ne_nil

theorem star_notMem_itoa (n : Nat) : '*' ∉ itoa n := fun h => by
  have := itoa_digit h; revert this; decide

/-- The characters of a repetition prefix. -/
def prefChar (c : Char) : Bool := c.isDigit || c == '*'

theorem repPrefix_chars {mn : Nat} {mx : Option Nat} {c : Char} (h : c ∈ repPrefix mn mx) : prefChar c = true := by
  unfold prefChar
  unfold repPrefix at h
  split_ifs at h
  · cases h
  · simp [itoa_digit h]
  all_goals
    simp only [List.nil_append, List.append_assoc, List.mem_append, List.mem_cons, List.not_mem_nil,
      or_false] at h
    cases mx with
    | none =>
      simp at h
      first
        | (rcases h with h | h <;> [simp [itoa_digit h]; simp [h]])
        | simp [h]
    | some m =>
      simp only at h
      rcases h with h | h
      · first | simp [itoa_digit h] | simp [h]
      · first
          | (rcases h with h | h <;> [simp [h]; simp [itoa_digit h]])
          | simp [itoa_digit h]

theorem repPrefix_inj {mn mn' : Nat} {mx mx' : Option Nat} (h : repPrefix mn mx = repPrefix mn' mx') :
    mn = mn' ∧ mx = mx' := by
  have hstar : ∀ {mn mx}, mx ≠ some mn → '*' ∈ repPrefix mn mx := by
    intro mn mx hne; simp [repPrefix, hne]
  have hno : ∀ {mn mx}, mx = some mn → '*' ∉ repPrefix mn mx := by
    intro mn mx he; simp only [repPrefix, he, if_true]; split_ifs; · simp
    · exact star_notMem_itoa _
  by_cases h1 : mx = some mn
  · by_cases h2 : mx' = some mn'
    · have : mn = mn' := by
        simp only [repPrefix, h1, h2, if_true] at h
        split_ifs at h with h3 h4 h4
        · rw [h3, h4]
        · exact absurd h.symm (itoa_ne_nil _)
        · exact absurd h (itoa_ne_nil _)
        · exact itoa_inj h
      exact ⟨this, by rw [h1, h2, this]⟩
    · exact absurd (h ▸ hstar h2) (hno h1)
  · by_cases h2 : mx' = some mn'
    · exact absurd (h ▸ hstar h1) (hno h2)
    · simp only [repPrefix, h1, h2, if_false] at h
      rw [List.append_assoc, List.append_assoc] at h
      have hns : ∀ n : Nat, '*' ∉ (if n ≠ 0 then itoa n else []) := by
        intro n; split_ifs; · exact star_notMem_itoa _
        · simp
      obtain ⟨h3, h4⟩ := split_inj '*' (hns mn) (hns mn') h
      constructor
      · split_ifs at h3 with h5 h6 h6
        · exact itoa_inj h3
        · exact absurd h3 (itoa_ne_nil _)
        · exact absurd h3.symm (itoa_ne_nil _)
        · omega
      · cases mx <;> cases mx' <;> simp only at h4
        · rfl
        · exact absurd h4.symm (itoa_ne_nil _)
        · exact absurd h4 (itoa_ne_nil _)
        · rw [itoa_inj h4]

/-- What may follow an element: nothing, a space, a closing bracket or the end of a line. -/
def Stop (s : Str) : Prop := NoHead (fun c => !(c == ' ' || c == ')' || c == ']' || c == '\r')) s

theorem Stop.noHead {p : Char → Bool} {s : Str} (h : Stop s) (h1 : p ' ' = false) (h2 : p ')' = false)
    (h3 : p ']' = false) (h4 : p '\r' = false) : NoHead p s := by
  rintro c t rfl
  have := h c t rfl
  simp only [Bool.not_eq_false', Bool.or_eq_true, beq_iff_eq] at this
  rcases this with ((rfl | rfl) | rfl) | rfl <;> assumption

theorem joinWith_inj {q : Char} {p : Char → Bool} {s t : Str} (hq : p q = false) (hs : NoHead (fun c => p c || c == q) s)
    (ht : NoHead (fun c => p c || c == q) t) :
    (l m : List Str) → l ≠ [] → m ≠ [] → (∀ x ∈ l, x ≠ [] ∧ ∀ c ∈ x, p c = true) → (∀ x ∈ m, x ≠ [] ∧ ∀ c ∈ x, p c = true) →
    joinWith [q] l ++ s = joinWith [q] m ++ t → l = m ∧ s = t := by
  have hs' : NoHead p s := fun c u h => by have := hs c u h; simp only [Bool.or_eq_false_iff] at this; exact this.1
  have ht' : NoHead p t := fun c u h => by have := ht c u h; simp only [Bool.or_eq_false_iff] at this; exact this.1
  have hqh : ∀ u, NoHead p (q :: u) := by rintro u c v h; cases h; exact hq
  intro l
  induction l with
  | nil => intro m h; exact absurd rfl h
  | cons x l ih =>
    intro m _ hm hl hmm h
    cases m with
    | nil => exact absurd rfl hm
    | cons y m =>
      have hx := (hl x (by simp)).2
      have hy := (hmm y (by simp)).2
      cases l with
      | nil =>
        cases m with
        | nil =>
          obtain ⟨h1, h2⟩ := span_inj p hx hy hs' ht' h
          exact ⟨by rw [h1], h2⟩
        | cons y' m =>
          simp only [joinWith, List.append_assoc] at h
          obtain ⟨h1, h2⟩ := span_inj p hx hy hs' (hqh _) h
          have := hs q _ h2
          simp at this
      | cons x' l =>
        cases m with
        | nil =>
          simp only [joinWith, List.append_assoc] at h
          obtain ⟨h1, h2⟩ := span_inj p hx hy (hqh _) ht' h
          have := ht q _ h2.symm
          simp at this
        | cons y' m =>
          simp only [joinWith, List.append_assoc] at h
          obtain ⟨h1, h2⟩ := span_inj p hx hy (hqh _) (hqh _) h
          obtain ⟨h3, h4⟩ := ih (y' :: m) (by simp) (by simp) (fun z hz => hl z (by simp [hz])) (fun z hz => hmm z (by simp [hz]))
            (List.cons.inj h2).2
          exact ⟨by rw [h1, h3], h4⟩

/-! ## Shapes -/

theorem isAlphanum_of_isAlpha {c : Char} (h : c.isAlpha = true) : c.isAlphanum = true := by simp [Char.isAlphanum, h]

theorem nameOK_cases {n : Str} (h : nameOK n = true) :
    (∃ c s, n = c :: s ∧ c.isAlpha = true) ∧ ∀ c ∈ n, nameChar c = true := by
  cases n with
  | nil => cases h
  | cons c s =>
    simp only [nameOK, Bool.and_eq_true, List.all_eq_true] at h
    refine ⟨⟨c, s, rfl, h.1⟩, ?_⟩
    intro d hd
    rcases List.mem_cons.mp hd with rfl | hd
    · simp [nameChar, isAlphanum_of_isAlpha h.1]
    · exact h.2 d hd

/-- First characters of the six kinds of elements. -/
theorem written_head {e : Elem} (h : e.written = true) : ∃ c s, e.str = c :: s ∧
    (c.isAlpha = true ∨ c = '(' ∨ c = '[' ∨ c = '"' ∨ c = '%' ∨ c = '<') := by
  cases e with
  | rulename n => obtain ⟨⟨c, s, h1, h2⟩, _⟩ := nameOK_cases h; exact ⟨c, s, h1, .inl h2⟩
  | group a => exact ⟨_, _, rfl, by simp⟩
  | option a => exact ⟨_, _, rfl, by simp⟩
  | charVal a b => exact ⟨_, _, rfl, by simp⟩
  | numVal a b c => exact ⟨_, _, rfl, by simp⟩
  | proseVal a => exact ⟨_, _, rfl, by simp⟩

theorem written_noHead {e : Elem} (h : e.written = true) (s : Str) : NoHead prefChar (e.str ++ s) := by
  obtain ⟨c, u, h1, h2⟩ := written_head h
  rintro d t hd
  rw [h1] at hd
  cases hd
  rcases h2 with h2 | h2
  · cases hp : prefChar c with
    | false => rfl
    | true =>
      exfalso
      simp only [prefChar, Bool.or_eq_true, beq_iff_eq] at hp
      rcases hp with hp | rfl
      · simp only [Char.isAlpha, Char.isUpper, Char.isLower, Char.isDigit, Bool.or_eq_true, Bool.and_eq_true,
          decide_eq_true_eq, ge_iff_le, UInt32.le_iff_toNat_le] at h2 hp
        have e1 : ('A'.val).toNat = 65 := rfl
        have e2 : ('a'.val).toNat = 97 := rfl
        have e3 : ('9'.val).toNat = 57 := rfl
        omega
      · revert h2; decide
  · rcases h2 with rfl | rfl | rfl | rfl | rfl <;> decide

theorem rep_head {r : Rep} (h : r.written = true) : ∃ c s, r.str = c :: s ∧ c ≠ '/' := by
  obtain ⟨mn, mx, e⟩ := r
  obtain ⟨c, u, h1, h2⟩ := written_head (e := e) h
  simp only [Rep.str]
  cases hp : repPrefix mn mx with
  | nil =>
    refine ⟨c, u, by rw [h1]; rfl, ?_⟩
    rintro rfl
    revert h2; decide
  | cons d v =>
    refine ⟨d, _, rfl, ?_⟩
    rintro rfl
    have := repPrefix_chars (mn := mn) (mx := mx) (c := '/') (by rw [hp]; simp)
    revert this; decide

theorem flatten_inj {l m : List Str} (hl : ∀ s ∈ l, s.length = 1) (hm : ∀ s ∈ m, s.length = 1)
    (h : l.flatten = m.flatten) : l = m := by
  induction l generalizing m with
  | nil =>
    cases m with
    | nil => rfl
    | cons s m =>
      obtain ⟨c, rfl⟩ := List.length_eq_one_iff.mp (hm s (by simp))
      simp at h
  | cons x l ih =>
    obtain ⟨c, rfl⟩ := List.length_eq_one_iff.mp (hl x (by simp))
    cases m with
    | nil => simp at h
    | cons s m =>
      obtain ⟨d, rfl⟩ := List.length_eq_one_iff.mp (hm s (by simp))
      simp at h
      rw [h.1, ih (fun s hs => hl s (by simp [hs])) (fun s hs => hm s (by simp [hs])) h.2]

theorem plain_notMem {q : Char} {s : Str} (h : s.all (plainChar q) = true) : q ∉ s := by
  intro hm
  have := List.all_eq_true.mp h q hm
  simp [plainChar] at this

theorem numeralB_ne {b s : Str} (h : numeralB b s = true) : s ≠ [] := by
  rintro rfl
  simp [numeralB] at h

/-! ## The main induction -/

theorem stop_paren (s : Str) : Stop (')' :: s) := by rintro c t h; cases h; decide
theorem stop_bracket (s : Str) : Stop (']' :: s) := by rintro c t h; cases h; decide
theorem stop_space (s : Str) : Stop (' ' :: s) := by rintro c t h; cases h; decide
theorem stop_cr (s : Str) : Stop ('\r' :: s) := by rintro c t h; cases h; decide
theorem stop_nil : Stop [] := by rintro c t h; cases h

/-- What may follow a concatenation: nothing, ` /`, a closing bracket or the end of a line. -/
def Stop2 (s : Str) : Prop := Stop s ∧ ∀ t, s = ' ' :: t → ∃ u, t = '/' :: u
/-- What may follow an alternation. -/
def Stop3 (s : Str) : Prop := Stop s ∧ ∀ t, s ≠ ' ' :: t

theorem Stop3.two {s : Str} (h : Stop3 s) : Stop2 s := ⟨h.1, fun t ht => absurd ht (h.2 t)⟩

mutual
theorem elem_inj : (e e' : Elem) → (s t : Str) → e.written = true → e'.written = true → Stop s → Stop t →
    e.str ++ s = e'.str ++ t → e.uncased = e'.uncased ∧ s = t
  | .rulename n, e', s, t, he, he', hs, ht, h => by
    obtain ⟨⟨c, u, h1, h2⟩, h3⟩ := nameOK_cases he
    cases e' with
    | rulename m =>
      obtain ⟨_, h4⟩ := nameOK_cases he'
      obtain ⟨h5, h6⟩ := span_inj nameChar h3 h4 (hs.noHead (by decide) (by decide) (by decide) (by decide))
        (ht.noHead (by decide) (by decide) (by decide) (by decide)) h
      exact ⟨by rw [h5], h6⟩
    | _ =>
      simp only [Elem.str, h1, List.cons_append, List.cons.injEq] at h
      obtain ⟨rfl, _⟩ := h
      exact absurd h2 (by decide)
  | .group a, e', s, t, he, he', hs, ht, h => by
    cases e' with
    | rulename m =>
      obtain ⟨⟨c, u, h1, h2⟩, h3⟩ := nameOK_cases he'
      simp only [Elem.str, h1, List.cons_append, List.cons.injEq] at h
      obtain ⟨rfl, _⟩ := h
      exact absurd h2 (by decide)
    | group b =>
      simp only [Elem.str, List.cons_append, List.nil_append, List.append_assoc, List.cons.injEq, true_and] at h
      simp only [Elem.written, Bool.and_eq_true, Bool.not_eq_true', List.isEmpty_eq_false_iff] at he he'
      obtain ⟨h1, h2⟩ := alt_inj a b _ _ he.1 he'.1 he.2 he'.2 ⟨stop_paren _, by simp⟩ ⟨stop_paren _, by simp⟩ h
      exact ⟨by simp only [Elem.uncased, h1], (List.cons.inj h2).2⟩
    | _ => simp [Elem.str] at h
  | .option a, e', s, t, he, he', hs, ht, h => by
    cases e' with
    | rulename m =>
      obtain ⟨⟨c, u, h1, h2⟩, h3⟩ := nameOK_cases he'
      simp only [Elem.str, h1, List.cons_append, List.cons.injEq] at h
      obtain ⟨rfl, _⟩ := h
      exact absurd h2 (by decide)
    | option b =>
      simp only [Elem.str, List.cons_append, List.nil_append, List.append_assoc, List.cons.injEq, true_and] at h
      simp only [Elem.written, Bool.and_eq_true, Bool.not_eq_true', List.isEmpty_eq_false_iff] at he he'
      obtain ⟨h1, h2⟩ := alt_inj a b _ _ he.1 he'.1 he.2 he'.2 ⟨stop_bracket _, by simp⟩ ⟨stop_bracket _, by simp⟩ h
      exact ⟨by simp only [Elem.uncased, h1], (List.cons.inj h2).2⟩
    | _ => simp [Elem.str] at h
  | .charVal b vs, e', s, t, he, he', hs, ht, h => by
    cases e' with
    | rulename m =>
      obtain ⟨⟨c, u, h1, h2⟩, h3⟩ := nameOK_cases he'
      simp only [Elem.str, h1, List.cons_append, List.cons.injEq] at h
      obtain ⟨rfl, _⟩ := h
      exact absurd h2 (by decide)
    | charVal b' ws =>
      simp only [Elem.str, List.cons_append, List.nil_append, List.append_assoc, List.cons.injEq, true_and] at h
      obtain ⟨h1, h2⟩ := split_inj '"' (plain_notMem he) (plain_notMem he') h
      exact ⟨by simp only [Elem.uncased, h1], h2⟩
    | _ => simp [Elem.str] at h
  | .numVal b st es, e', s, t, he, he', hs, ht, h => by
    cases e' with
    | rulename m =>
      obtain ⟨⟨c, u, h1, h2⟩, h3⟩ := nameOK_cases he'
      simp only [Elem.str, h1, List.cons_append, List.cons.injEq] at h
      obtain ⟨rfl, _⟩ := h
      exact absurd h2 (by decide)
    | numVal b' st' es' =>
      simp only [Elem.str, List.cons_append, List.nil_append, List.append_assoc, List.cons.injEq, true_and] at h
      simp only [Elem.written, Bool.and_eq_true] at he he'
      obtain ⟨⟨hb, hst⟩, hes⟩ := he
      obtain ⟨⟨hb', hst'⟩, hes'⟩ := he'
      have hbb : b = b' ∧ joinWith (if st = .range then ['-'] else ['.']) es ++ s =
          joinWith (if st' = .range then ['-'] else ['.']) es' ++ t := by
        simp only [Bool.or_eq_true, beq_iff_eq] at hb hb'
        rcases hb with (rfl | rfl) | rfl <;> rcases hb' with (rfl | rfl) | rfl <;> first | (simp at h; done) | (refine ⟨rfl, ?_⟩; simpa using h)
      obtain ⟨rfl, h⟩ := hbb
      have hp : ∀ x ∈ es, x ≠ [] ∧ ∀ c ∈ x, c.isAlphanum = true := fun x hx => by
        have := List.all_eq_true.mp hes x hx
        simp only [Bool.and_eq_true, List.all_eq_true] at this
        exact ⟨numeralB_ne this.1, this.2⟩
      have hp' : ∀ x ∈ es', x ≠ [] ∧ ∀ c ∈ x, c.isAlphanum = true := fun x hx => by
        have := List.all_eq_true.mp hes' x hx
        simp only [Bool.and_eq_true, List.all_eq_true] at this
        exact ⟨numeralB_ne this.1, this.2⟩
      have hne : es ≠ [] := by
        rintro rfl
        cases st <;> simp at hst
      have hne' : es' ≠ [] := by
        rintro rfl
        cases st' <;> simp at hst'
      have hq : ∀ q : Char, (q = '-' ∨ q = '.') → NoHead (fun c => c.isAlphanum || c == q) s ∧
          NoHead (fun c => c.isAlphanum || c == q) t ∧ q.isAlphanum = false := by
        rintro q (rfl | rfl)
        · exact ⟨hs.noHead (by decide) (by decide) (by decide) (by decide),
            ht.noHead (by decide) (by decide) (by decide) (by decide), by decide⟩
        · exact ⟨hs.noHead (by decide) (by decide) (by decide) (by decide),
            ht.noHead (by decide) (by decide) (by decide) (by decide), by decide⟩
      -- a range against a series: the range has a dash after its first numeral
      have hmix : ∀ {l m : List Str} {u v : Str}, l.length = 2 → m ≠ [] →
          (∀ x ∈ l, x ≠ [] ∧ ∀ c ∈ x, c.isAlphanum = true) → (∀ x ∈ m, x ≠ [] ∧ ∀ c ∈ x, c.isAlphanum = true) →
          Stop v → joinWith ['-'] l ++ u = joinWith ['.'] m ++ v → False := by
        intro l m u v hl hm h1 h2 hv he
        match l, hl with
        | [x, y], _ =>
          have hdash : ∀ u, NoHead Char.isAlphanum ('-' :: u) := by rintro u c t h; cases h; decide
          have hdot : ∀ u, NoHead Char.isAlphanum ('.' :: u) := by rintro u c t h; cases h; decide
          match m, hm with
          | [z], _ =>
            simp only [joinWith, List.append_assoc] at he
            obtain ⟨_, h4⟩ := span_inj Char.isAlphanum (h1 x (by simp)).2 (h2 z (by simp)).2 (hdash _)
              (hv.noHead (by decide) (by decide) (by decide) (by decide)) he
            have := hv _ _ h4.symm
            revert this; decide
          | z :: z' :: m', _ =>
            simp only [joinWith, List.append_assoc] at he
            obtain ⟨_, h4⟩ := span_inj Char.isAlphanum (h1 x (by simp)).2 (h2 z (by simp)).2 (hdash _) (hdot _) he
            exact absurd (List.cons.inj h4).1 (by decide)
      cases st <;> cases st'
      · obtain ⟨q1, q2, q3⟩ := hq '.' (.inr rfl)
        obtain ⟨h1, h2⟩ := joinWith_inj q3 q1 q2 es es' hne hne' hp hp' (by simpa using h)
        exact ⟨by rw [h1], h2⟩
      · exact (hmix (by simpa using hst') hne hp' hp hs (by simpa using h.symm)).elim
      · exact (hmix (by simpa using hst) hne' hp hp' ht (by simpa using h)).elim
      · obtain ⟨q1, q2, q3⟩ := hq '-' (.inl rfl)
        obtain ⟨h1, h2⟩ := joinWith_inj q3 q1 q2 es es' hne hne' hp hp' (by simpa using h)
        exact ⟨by rw [h1], h2⟩
    | _ => simp [Elem.str] at h
  | .proseVal vs, e', s, t, he, he', hs, ht, h => by
    cases e' with
    | rulename m =>
      obtain ⟨⟨c, u, h1, h2⟩, h3⟩ := nameOK_cases he'
      simp only [Elem.str, h1, List.cons_append, List.cons.injEq] at h
      obtain ⟨rfl, _⟩ := h
      exact absurd h2 (by decide)
    | proseVal ws =>
      simp only [Elem.str, List.cons_append, List.nil_append, List.append_assoc, List.cons.injEq, true_and] at h
      have hno : ∀ {vs : List Str}, (Elem.proseVal vs).written = true → '>' ∉ vs.flatten ∧ ∀ s ∈ vs, s.length = 1 := by
        intro vs he
        simp only [Elem.written, List.all_eq_true, Bool.and_eq_true, beq_iff_eq] at he
        refine ⟨fun hm => ?_, fun s hs => (he s hs).1⟩
        obtain ⟨s, hs, hm⟩ := List.mem_flatten.mp hm
        exact plain_notMem (List.all_eq_true.mpr (he s hs).2) hm
      obtain ⟨h1, h2⟩ := split_inj '>' (hno he).1 (hno he').1 h
      exact ⟨by rw [flatten_inj (hno he).2 (hno he').2 h1], h2⟩
    | _ => simp [Elem.str] at h
theorem rep_inj : (r r' : Rep) → (s t : Str) → r.written = true → r'.written = true → Stop s → Stop t →
    r.str ++ s = r'.str ++ t → r.uncased = r'.uncased ∧ s = t
  | ⟨mn, mx, e⟩, ⟨mn', mx', e'⟩, s, t, he, he', hs, ht, h => by
    simp only [Rep.str, List.append_assoc] at h
    obtain ⟨h1, h2⟩ := span_inj prefChar (fun c hc => repPrefix_chars hc) (fun c hc => repPrefix_chars hc)
      (written_noHead (e := e) he s) (written_noHead (e := e') he' t) h
    obtain ⟨rfl, rfl⟩ := repPrefix_inj h1
    obtain ⟨h3, h4⟩ := elem_inj e e' s t he he' hs ht h2
    exact ⟨by simp only [Rep.uncased, h3], h4⟩
theorem concat_inj : (c c' : List Rep) → (s t : Str) → c ≠ [] → c' ≠ [] → concatWritten c = true →
    concatWritten c' = true → Stop2 s → Stop2 t → concatStr c ++ s = concatStr c' ++ t →
    concatUncased c = concatUncased c' ∧ s = t
  | [], _, _, _, h, _, _, _, _, _, _ => absurd rfl h
  | r :: c, [], _, _, _, h, _, _, _, _, _ => absurd rfl h
  | [r], [r'], s, t, _, _, he, he', hs, ht, h => by
    simp only [concatWritten, Bool.and_true] at he he'
    obtain ⟨h1, h2⟩ := rep_inj r r' s t he he' hs.1 ht.1 h
    exact ⟨by simp only [concatUncased, h1], h2⟩
  | [r], r' :: r2 :: c', s, t, _, _, he, he', hs, ht, h => by
    simp only [concatWritten, Bool.and_true, Bool.and_eq_true] at he he'
    simp only [concatStr, List.append_assoc] at h
    obtain ⟨h1, h2⟩ := rep_inj r r' _ _ he he'.1 hs.1 (stop_space _) h
    obtain ⟨u, hu⟩ := hs.2 _ h2
    obtain ⟨d, v, h3, h4⟩ := rep_head he'.2.1
    cases c' with
    | nil => simp [concatStr, h3] at hu; exact absurd hu.1 h4
    | cons _ _ => simp [concatStr, h3] at hu; exact absurd hu.1 h4
  | r :: r2 :: c, [r'], s, t, _, _, he, he', hs, ht, h => by
    simp only [concatWritten, Bool.and_true, Bool.and_eq_true] at he he'
    simp only [concatStr, List.append_assoc] at h
    obtain ⟨h1, h2⟩ := rep_inj r r' _ _ he.1 he' (stop_space _) ht.1 h
    obtain ⟨u, hu⟩ := ht.2 _ h2.symm
    obtain ⟨d, v, h3, h4⟩ := rep_head he.2.1
    cases c with
    | nil => simp [concatStr, h3] at hu; exact absurd hu.1 h4
    | cons _ _ => simp [concatStr, h3] at hu; exact absurd hu.1 h4
  | r :: r2 :: c, r' :: r2' :: c', s, t, _, _, he, he', hs, ht, h => by
    have he2 := he
    have he2' := he'
    rw [concatWritten, Bool.and_eq_true] at he2 he2'
    simp only [concatStr, List.append_assoc] at h
    obtain ⟨h1, h2⟩ := rep_inj r r' _ _ he2.1 he2'.1 (stop_space _) (stop_space _) h
    obtain ⟨h3, h4⟩ := concat_inj (r2 :: c) (r2' :: c') s t (by simp) (by simp) he2.2 he2'.2 hs ht (List.cons.inj h2).2
    exact ⟨congrArg₂ List.cons h1 h3, h4⟩
theorem alt_inj : (a b : List (List Rep)) → (s t : Str) → a ≠ [] → b ≠ [] → altWritten a = true →
    altWritten b = true → Stop3 s → Stop3 t → altStr a ++ s = altStr b ++ t →
    altUncased a = altUncased b ∧ s = t
  | [], _, _, _, h, _, _, _, _, _, _ => absurd rfl h
  | r :: c, [], _, _, _, h, _, _, _, _, _ => absurd rfl h
  | [c], [c'], s, t, _, _, he, he', hs, ht, h => by
    simp only [altWritten, Bool.and_true, Bool.and_eq_true, Bool.not_eq_true', List.isEmpty_eq_false_iff] at he he'
    obtain ⟨h1, h2⟩ := concat_inj c c' s t he.1 he'.1 he.2 he'.2 hs.two ht.two h
    exact ⟨by simp only [altUncased, h1], h2⟩
  | [c], c' :: c2 :: b, s, t, _, _, he, he', hs, ht, h => by
    rw [altWritten, Bool.and_eq_true, Bool.and_eq_true, Bool.not_eq_true', List.isEmpty_eq_false_iff] at he he'
    simp only [altStr, List.append_assoc] at h
    obtain ⟨h1, h2⟩ := concat_inj c c' _ _ he.1.1 he'.1.1 he.1.2 he'.1.2 hs.two ⟨stop_space _, by simp⟩ h
    exact absurd h2 (hs.2 _)
  | c :: c2 :: a, [c'], s, t, _, _, he, he', hs, ht, h => by
    rw [altWritten, Bool.and_eq_true, Bool.and_eq_true, Bool.not_eq_true', List.isEmpty_eq_false_iff] at he he'
    simp only [altStr, List.append_assoc] at h
    obtain ⟨h1, h2⟩ := concat_inj c c' _ _ he.1.1 he'.1.1 he.1.2 he'.1.2 ⟨stop_space _, by simp⟩ ht.two h
    exact absurd h2.symm (ht.2 _)
  | c :: c2 :: a, c' :: c2' :: b, s, t, _, _, he, he', hs, ht, h => by
    rw [altWritten, Bool.and_eq_true, Bool.and_eq_true, Bool.not_eq_true', List.isEmpty_eq_false_iff] at he he'
    simp only [altStr, List.append_assoc] at h
    obtain ⟨h1, h2⟩ := concat_inj c c' _ _ he.1.1 he'.1.1 he.1.2 he'.1.2 ⟨stop_space _, by simp⟩ ⟨stop_space _, by simp⟩ h
    obtain ⟨h3, h4⟩ := alt_inj (c2 :: a) (c2' :: b) s t (by simp) (by simp) he.2 he'.2 hs ht
      (by simpa using h2)
    exact ⟨congrArg₂ List.cons h1 h3, h4⟩
end

/-! ## Rules and grammars -/

theorem rule_inj {r r' : Rule} {s t : Str} (hr : r.written = true) (hr' : r'.written = true) (hs : Stop3 s) (ht : Stop3 t)
    (h : r.str ++ s = r'.str ++ t) : r.name = r'.name ∧ altUncased r.alt = altUncased r'.alt ∧ s = t := by
  simp only [Rule.written, Bool.and_eq_true, Bool.not_eq_true', List.isEmpty_eq_false_iff] at hr hr'
  simp only [Rule.str, List.append_assoc] at h
  obtain ⟨h1, h2⟩ := span_inj nameChar (nameOK_cases hr.1.1).2 (nameOK_cases hr'.1.1).2
    (by rintro c t h; cases h; decide) (by rintro c t h; cases h; decide) h
  obtain ⟨h3, h4⟩ := alt_inj r.alt r'.alt s t hr.1.2 hr'.1.2 hr.2 hr'.2 hs ht (by simpa using h2)
  exact ⟨h1, h3, h4⟩

theorem rules_inj (l m : List Rule) (hl : ∀ r ∈ l, r.written = true) (hm : ∀ r ∈ m, r.written = true)
    (h : (l.flatMap fun r => r.str ++ ['\r', '\n']) = m.flatMap fun r => r.str ++ ['\r', '\n']) :
    List.Forall₂ (fun r r' => r.name = r'.name ∧ altUncased r.alt = altUncased r'.alt) l m := by
  induction l generalizing m with
  | nil =>
    cases m with
    | nil => exact .nil
    | cons r m => simp at h
  | cons r l ih =>
    cases m with
    | nil => simp at h
    | cons r' m =>
      simp only [List.flatMap_cons, List.append_assoc] at h
      obtain ⟨h1, h2, h3⟩ := rule_inj (hl r (by simp)) (hm r' (by simp)) ⟨stop_cr _, by simp⟩ ⟨stop_cr _, by simp⟩ h
      exact .cons ⟨h1, h2⟩ (ih m (fun r hr => hl r (by simp [hr])) (fun r hr => hm r (by simp [hr])) (by simpa using h3))

/-! ## Repetitions inside written rules -/

mutual
theorem elemReps_written : (e : Elem) → e.written = true → ∀ r ∈ elemReps e, r.written = true ∧ r.strings ⊆ e.strings
  | .group a, h, r, hr => by
    simp only [Elem.written, Bool.and_eq_true] at h
    exact altReps_written a h.2 r hr
  | .option a, h, r, hr => by
    simp only [Elem.written, Bool.and_eq_true] at h
    exact altReps_written a h.2 r hr
  | .rulename _, _, r, hr => by simp [elemReps] at hr
  | .charVal .., _, r, hr => by simp [elemReps] at hr
  | .numVal .., _, r, hr => by simp [elemReps] at hr
  | .proseVal .., _, r, hr => by simp [elemReps] at hr
theorem repReps_written : (q : Rep) → q.written = true → ∀ r ∈ repReps q, r.written = true ∧ r.strings ⊆ q.strings
  | ⟨mn, mx, e⟩, h, r, hr => by
    simp only [repReps, List.mem_cons] at hr
    rcases hr with rfl | hr
    · exact ⟨h, fun _ h => h⟩
    · exact elemReps_written e h r hr
theorem concatReps_written : (c : List Rep) → concatWritten c = true → ∀ r ∈ concatReps c,
    r.written = true ∧ r.strings ⊆ concatStrings c
  | [], _, r, hr => by simp [concatReps] at hr
  | q :: c, h, r, hr => by
    simp only [concatWritten, Bool.and_eq_true] at h
    simp only [concatReps, List.mem_append] at hr
    rcases hr with hr | hr
    · exact (repReps_written q h.1 r hr).imp id fun h x hx => List.mem_append_left _ (h hx)
    · exact (concatReps_written c h.2 r hr).imp id fun h x hx => List.mem_append_right _ (h hx)
theorem altReps_written : (a : List (List Rep)) → altWritten a = true → ∀ r ∈ altReps a,
    r.written = true ∧ r.strings ⊆ altStrings a
  | [], _, r, hr => by simp [altReps] at hr
  | q :: c, h, r, hr => by
    simp only [altWritten, Bool.and_eq_true] at h
    simp only [altReps, List.mem_append] at hr
    rcases hr with hr | hr
    · exact (concatReps_written q h.1.2 r hr).imp id fun h x hx => List.mem_append_left _ (h hx)
    · exact (altReps_written c h.2 r hr).imp id fun h x hx => List.mem_append_right _ (h hx)
end

theorem termWF_written {e : Elem} (h : e.written = true) : TermWF e := by
  apply termWFb_sound
  cases e with
  | numVal b st es =>
    simp only [Elem.written, Bool.and_eq_true] at h
    obtain ⟨⟨_, h1⟩, h2⟩ := h
    have h3 : ∀ s ∈ es, numeralB b s = true := fun s hs => by
      have := List.all_eq_true.mp h2 s hs
      simp only [Bool.and_eq_true] at this
      exact this.1
    cases st with
    | series => exact List.all_eq_true.mpr h3
    | range =>
      match es, h1 with
      | [s, t], _ => simp [termWFb, h3]
  | _ => rfl

theorem numValsWF_of_written {g : Grammar} (hw : ∀ r ∈ g.rules, r.written = true) : NumValsWF g := by
  intro r hr
  obtain ⟨R, hR, hr⟩ := List.mem_flatMap.mp hr
  have hRw := hw R hR
  simp only [Rule.written, Bool.and_eq_true] at hRw
  have := (altReps_written R.alt hRw.2 r hr).1
  obtain ⟨mn, mx, e⟩ := r
  exact termWF_written this

/-- The strings written in the grammar and in the core rules. -/
def Grammar.strings (g : Grammar) : List (Bool × Str) := (g.rules ++ Core.rules).flatMap fun r => altStrings r.alt

theorem core_written : ∀ r ∈ Core.rules, r.written = true := by decide

theorem distinctPrint_of_written {g : Grammar} (hw : ∀ r ∈ g.rules, r.written = true) (hc : CaseConsistent g.strings) :
    DistinctPrint g := by
  have hmem : ∀ r ∈ rulesReps (g.rules ++ Core.rules), r.written = true ∧ r.strings ⊆ g.strings := by
    intro r hr
    obtain ⟨R, hR, hr⟩ := List.mem_flatMap.mp hr
    have hRw : R.written = true := by
      rcases List.mem_append.mp hR with h | h
      · exact hw R h
      · exact core_written R h
    simp only [Rule.written, Bool.and_eq_true] at hRw
    obtain ⟨h1, h2⟩ := altReps_written R.alt hRw.2 r hr
    exact ⟨h1, fun x hx => List.mem_flatMap.mpr ⟨R, hR, h2 hx⟩⟩
  have helem : ∀ r ∈ rulesReps (g.rules ++ Core.rules), ∀ s ∈ rulesReps (g.rules ++ Core.rules), r.elem.str = s.elem.str →
      r.elem = s.elem := by
    intro r hr s hs h
    obtain ⟨h1, h2⟩ := hmem r hr
    obtain ⟨h3, h4⟩ := hmem s hs
    obtain ⟨mn, mx, e⟩ := r
    obtain ⟨mn', mx', e'⟩ := s
    obtain ⟨h5, _⟩ := elem_inj e e' [] [] h1 h3 stop_nil stop_nil (by simpa using h)
    exact Elem.uncased_inj _ hc e e' h2 h4 h5
  intro r hr s hs
  refine ⟨fun _ _ h => ?_, fun a b ha hb h => ?_, fun a b ha hb h => ?_⟩
  · obtain ⟨h1, h2⟩ := hmem r hr
    obtain ⟨h3, h4⟩ := hmem s hs
    exact Rep.uncased_inj _ hc r s h2 h4 (rep_inj r s [] [] h1 h3 stop_nil stop_nil (by simpa using h)).1
  · have := helem r hr s hs h
    rw [ha, hb] at this
    injection this
  · have := helem r hr s hs h
    rw [ha, hb] at this
    injection this

end Verif
