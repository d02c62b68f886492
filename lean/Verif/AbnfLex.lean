import Verif.Meta
import Verif.AbnfOnce
import Verif.TreeText
import Verif.PropsTarjan

/-! # What the lexical rules of the grammar of ABNF derive -/

namespace Verif
open Spec

namespace Abnf
open Once Text

theorem keepsCore : KeepsCore grammar := by
  intro u hu r hr
  rw [sameName_iff]
  revert u r
  decide +kernel

/-- A rule of the grammar derives what its alternatives derive. -/
theorem own {r : Rule} (hr : r ∈ grammar.rules) {w : Bytes} : Derives grammar (.rulename r.name) w ↔ DerivesAlt grammar r.alt w := by
  rw [derives_rulename]
  have h0 : Resolves grammar r.name r := .user hr ((sameName_iff _ _).mpr rfl)
  constructor
  · rintro ⟨r', h1, h2⟩
    rwa [← resolves_unique namesDistinct h1 h0 rfl]
  · intro h
    exact ⟨r, h0, h⟩

theorem sameLetter_self {a c : Char} (h : ¬ (65 ≤ a.toNat ∧ a.toNat ≤ 90) ∧ ¬ (97 ≤ a.toNat ∧ a.toNat ≤ 122)) :
    SameLetter a c ↔ c = a := by
  constructor
  · rintro (rfl | ⟨h1, h2, _⟩ | ⟨h1, h2, _⟩)
    · rfl
    · exact absurd ⟨h1, h2⟩ h.1
    · exact absurd ⟨h1, h2⟩ h.2
  · rintro rfl; exact .inl rfl

section
variable {g : Grammar} {s : Str}

/-- A character that is not a letter. -/
theorem lit_self {a : Char} (h : ¬ (65 ≤ a.toNat ∧ a.toNat ≤ 90) ∧ ¬ (97 ≤ a.toNat ∧ a.toNat ≤ 122)) :
    Derives g (.charVal false [a]) (utf8 s) ↔ s = [a] := by
  simp only [lit_char, sameLetter_self h, exists_eq_left]

/-- A lower case letter. -/
theorem lit_letter {a b : Char} (h : 97 ≤ a.toNat ∧ a.toNat ≤ 122) (hb : b.toNat + 32 = a.toNat) :
    Derives g (.charVal false [a]) (utf8 s) ↔ s = [a] ∨ s = [b] := by
  have key : ∀ c, SameLetter a c ↔ c = a ∨ c = b := by
    intro c
    constructor
    · rintro (rfl | ⟨h1, h2, _⟩ | ⟨h1, h2, h3⟩)
      · exact .inl rfl
      · have : a.toNat ≤ 90 := h2
        omega
      · have h3 : c.toNat + 32 = a.toNat := h3
        exact .inr (char_of_toNat (by omega))
    · rintro (rfl | rfl)
      · exact .inl rfl
      · exact .inr (.inr ⟨h.1, h.2, hb⟩)
  simp only [lit_char, key]
  constructor
  · rintro ⟨c, rfl | rfl, rfl⟩
    · exact .inl rfl
    · exact .inr rfl
  · rintro (rfl | rfl)
    · exact ⟨_, .inl rfl, rfl⟩
    · exact ⟨_, .inr rfl, rfl⟩

/-- Two characters. -/
theorem lit_two {a b : Char} : Derives g (.charVal false [a, b]) (utf8 s) ↔
    ∃ c d, SameLetter a c ∧ SameLetter b d ∧ s = [c, d] := by
  rw [lit_iff]
  constructor
  · intro h
    cases h with
    | cons h1 h =>
      cases h with
      | cons h2 h => cases h; exact ⟨_, _, h1, h2, rfl⟩
  · rintro ⟨c, d, h1, h2, rfl⟩
    exact .cons h1 (.cons h2 .nil)

end

section
variable {s : Str}

theorem says_wsp : Derives grammar (ref (str% "WSP")) (utf8 s) ↔ ∃ c, Wsp c ∧ s = [c] := says_WSP keepsCore
theorem says_digit : Derives grammar (ref (str% "DIGIT")) (utf8 s) ↔ ∃ c, Digit c ∧ s = [c] := says_DIGIT keepsCore
theorem says_alpha : Derives grammar (ref (str% "ALPHA")) (utf8 s) ↔ ∃ c, Letter c ∧ s = [c] := says_ALPHA keepsCore
theorem says_vchar : Derives grammar (ref (str% "VCHAR")) (utf8 s) ↔ ∃ c, Visible c ∧ s = [c] := says_VCHAR keepsCore

theorem star_wsp : Star (fun t => Derives grammar (ref (str% "WSP")) (utf8 t)) s ↔ ∀ c ∈ s, Wsp c :=
  star_chars fun _ => says_wsp
theorem star_digit : Star (fun t => Derives grammar (ref (str% "DIGIT")) (utf8 t)) s ↔ ∀ c ∈ s, Digit c :=
  star_chars fun _ => says_digit

theorem commentPart : Derives grammar (.group [[one (ref (str% "WSP"))], [one (ref (str% "VCHAR"))]]) (utf8 s) ↔
    ∃ c, (Wsp c ∨ Visible c) ∧ s = [c] := by
  simp only [derives_group, derivesAlt_cons, derivesAlt_nil, or_false, derivesConcat_one, derivesRep_one, says_wsp, says_vchar,
    or_and_right, exists_or]

theorem says_comment : Derives grammar (ref (str% "comment")) (utf8 s) ↔
    ∃ t, (∀ c ∈ t, Wsp c ∨ Visible c) ∧ s = ';' :: (t ++ ['\r', '\n']) := by
  rw [show ref (str% "comment") = .rulename comment.name from rfl, own (by simp [grammar])]
  simp only [comment, derivesAlt_cons, derivesAlt_nil, or_false, concat_more, derivesConcat_one, derivesRep_one, rep_many,
    says_CRLF keepsCore, lit_self (show ¬ (65 ≤ (';' : Char).toNat ∧ (';' : Char).toNat ≤ 90) ∧
      ¬ (97 ≤ (';' : Char).toNat ∧ (';' : Char).toNat ≤ 122) by decide), star_chars fun _ => commentPart]
  constructor
  · rintro ⟨_, _, rfl, rfl, t, _, rfl, h, rfl⟩; exact ⟨t, h, rfl⟩
  · rintro ⟨t, h, rfl⟩; exact ⟨[';'], _, rfl, rfl, t, _, rfl, h, rfl⟩

theorem says_cnl : Derives grammar (ref (str% "c-nl")) (utf8 s) ↔ LineEnd s := by
  rw [show ref (str% "c-nl") = .rulename cNl.name from rfl, own (by simp [grammar])]
  simp only [cNl, derivesAlt_cons, derivesAlt_nil, or_false, derivesConcat_one, derivesRep_one, says_comment, says_CRLF keepsCore]
  constructor
  · rintro (⟨t, h, rfl⟩ | rfl)
    · exact .comment t h
    · exact .plain
  · intro h
    cases h with
    | plain => exact .inr rfl
    | comment t h => exact .inl ⟨t, h, rfl⟩

theorem says_cwsp : Derives grammar (ref (str% "c-wsp")) (utf8 s) ↔ Blank s := by
  rw [show ref (str% "c-wsp") = .rulename cWsp.name from rfl, own (by simp [grammar])]
  simp only [cWsp, derivesAlt_cons, derivesAlt_nil, or_false, concat_more, derivesConcat_one, derivesRep_one, derives_group, says_wsp, says_cnl]
  constructor
  · rintro (⟨c, h, rfl⟩ | ⟨t, _, rfl, h, c, hc, rfl⟩)
    · exact .wsp c h
    · exact .line t c h hc
  · intro h
    cases h with
    | wsp c h => exact .inl ⟨c, h, rfl⟩
    | line t c h hc => exact .inr ⟨t, _, rfl, h, c, hc, rfl⟩

theorem star_gap : Star Blank s ↔ Gap s := by
  constructor
  · intro h
    induction h with
    | nil => exact .nil
    | cons a b ha _ ih => exact .cons a b ha ih
  · intro h
    induction h with
    | nil => exact .nil
    | cons a b ha _ ih => exact .cons a b ha ih

theorem star_cwsp : Star (fun t => Derives grammar (ref (str% "c-wsp")) (utf8 t)) s ↔ Gap s := by
  simp only [says_cwsp, star_gap]

/-- At least one blank. -/
theorem some_gap : (∃ a b, s = a ++ b ∧ Blank a ∧ Gap b) ↔ Gap s ∧ s ≠ [] := by
  constructor
  · rintro ⟨a, b, rfl, h1, h2⟩
    exact ⟨.cons a b h1 h2, fun h => h1.head.ne_nil (List.append_eq_nil_iff.mp h).1⟩
  · rintro ⟨h, hn⟩
    cases h with
    | nil => exact absurd rfl hn
    | cons a b ha hb => exact ⟨a, b, rfl, ha, hb⟩

theorem namePart : Derives grammar (.group [[one (ref (str% "ALPHA"))], [one (ref (str% "DIGIT"))], [one (lit (str% "-"))]]) (utf8 s) ↔
    ∃ c, (Letter c ∨ Digit c ∨ c = '-') ∧ s = [c] := by
  simp only [derives_group, derivesAlt_cons, derivesAlt_nil, or_false, derivesConcat_one, derivesRep_one, says_alpha, says_digit,
    lit_self (show ¬ (65 ≤ ('-' : Char).toNat ∧ ('-' : Char).toNat ≤ 90) ∧
      ¬ (97 ≤ ('-' : Char).toNat ∧ ('-' : Char).toNat ≤ 122) by decide), or_and_right, exists_or, exists_eq_left]

theorem says_rulename : Derives grammar (ref (str% "rulename")) (utf8 s) ↔ Name s := by
  rw [show ref (str% "rulename") = .rulename rulename.name from rfl, own (by simp [grammar])]
  simp only [rulename, derivesAlt_cons, derivesAlt_nil, or_false, concat_more, derivesConcat_one, derivesRep_one, rep_many,
    says_alpha, star_chars fun _ => namePart]
  constructor
  · rintro ⟨_, t, rfl, ⟨c, h, rfl⟩, h'⟩; exact ⟨h, h'⟩
  · intro h
    cases s with
    | nil => exact h.elim
    | cons c t => exact ⟨[c], t, rfl, ⟨c, h.1, rfl⟩, h.2⟩

theorem eqPart : Derives grammar (.group [[one (lit (str% "="))], [one (lit (str% "=/"))]]) (utf8 s) ↔ s = ['='] ∨ s = ['=', '/'] := by
  simp only [derives_group, derivesAlt_cons, derivesAlt_nil, or_false, derivesConcat_one, derivesRep_one, lit_two,
    lit_self (show ¬ (65 ≤ ('=' : Char).toNat ∧ ('=' : Char).toNat ≤ 90) ∧
      ¬ (97 ≤ ('=' : Char).toNat ∧ ('=' : Char).toNat ≤ 122) by decide),
    sameLetter_self (show ¬ (65 ≤ ('=' : Char).toNat ∧ ('=' : Char).toNat ≤ 90) ∧
      ¬ (97 ≤ ('=' : Char).toNat ∧ ('=' : Char).toNat ≤ 122) by decide),
    sameLetter_self (show ¬ (65 ≤ ('/' : Char).toNat ∧ ('/' : Char).toNat ≤ 90) ∧
      ¬ (97 ≤ ('/' : Char).toNat ∧ ('/' : Char).toNat ≤ 122) by decide), exists_and_left, exists_eq_left]

theorem says_definedAs : Derives grammar (ref (str% "defined-as")) (utf8 s) ↔
    ∃ g₁ o g₂, s = g₁ ++ (o ++ g₂) ∧ Gap g₁ ∧ (o = ['='] ∨ o = ['=', '/']) ∧ Gap g₂ := by
  rw [show ref (str% "defined-as") = .rulename definedAs.name from rfl, own (by simp [grammar])]
  simp only [definedAs, derivesAlt_cons, derivesAlt_nil, or_false, concat_more, derivesConcat_one, derivesRep_one, rep_many,
    star_cwsp, eqPart]
  constructor
  · rintro ⟨g₁, _, rfl, h1, o, g₂, rfl, h2, h3⟩; exact ⟨g₁, o, g₂, rfl, h1, h2, h3⟩
  · rintro ⟨g₁, o, g₂, rfl, h1, h2, h3⟩; exact ⟨g₁, _, rfl, h1, o, g₂, rfl, h2, h3⟩

theorem some_chars {P : Char → Prop} : (∃ a b : Str, s = a ++ b ∧ (∃ c, P c ∧ a = [c]) ∧ ∀ c ∈ b, P c) ↔ s ≠ [] ∧ ∀ c ∈ s, P c := by
  constructor
  · rintro ⟨_, b, rfl, ⟨c, h, rfl⟩, h'⟩
    simpa using ⟨h, h'⟩
  · rintro ⟨hn, h⟩
    cases s with
    | nil => exact absurd rfl hn
    | cons c t => exact ⟨[c], t, rfl, ⟨c, h c (List.mem_cons_self ..), rfl⟩, fun d hd => h d (List.mem_cons_of_mem _ hd)⟩

theorem says_repeat : Derives grammar (ref (str% "repeat")) (utf8 s) ↔
    (s ≠ [] ∧ ∀ c ∈ s, Digit c) ∨ ∃ a b, s = a ++ '*' :: b ∧ (∀ c ∈ a, Digit c) ∧ ∀ c ∈ b, Digit c := by
  rw [show ref (str% "repeat") = .rulename repeat_.name from rfl, own (by simp [grammar])]
  have hstar : ∀ {s : Str}, Star (fun t => ∃ c, Digit c ∧ t = [c]) s ↔ ∀ c ∈ s, Digit c := star_chars fun _ => Iff.rfl
  simp only [repeat_, derivesAlt_cons, derivesAlt_nil, or_false, concat_more, derivesConcat_one, derivesRep_one, rep_many, rep_some,
    derives_group, hstar, says_digit, lit_self (show ¬ (65 ≤ ('*' : Char).toNat ∧ ('*' : Char).toNat ≤ 90) ∧
      ¬ (97 ≤ ('*' : Char).toNat ∧ ('*' : Char).toNat ≤ 122) by decide)]
  rw [some_chars]
  refine or_congr Iff.rfl ?_
  constructor
  · rintro ⟨a, _, rfl, h1, _, b, rfl, rfl, h2⟩; exact ⟨a, b, rfl, h1, h2⟩
  · rintro ⟨a, b, rfl, h1, h2⟩; exact ⟨a, _, rfl, h1, ['*'], b, rfl, rfl, h2⟩

theorem quotedPart : Derives grammar (.group [[one (rng (str% "20") (str% "21"))], [one (rng (str% "23") (str% "7E"))]]) (utf8 s) ↔
    ∃ c : Char, (0x20 ≤ c.toNat ∧ c.toNat ≤ 0x7E ∧ c ≠ '"') ∧ s = [c] := by
  simp only [derives_group, derivesAlt_cons, derivesAlt_nil, or_false, derivesConcat_one, derivesRep_one,
    range_iff (denotes_hex (s := str% "20") [2, 0] 0x20 (by decide)) (denotes_hex (s := str% "21") [2, 1] 0x21 (by decide)),
    range_iff (denotes_hex (s := str% "23") [2, 3] 0x23 (by decide)) (denotes_hex (s := str% "7E") [7, 14] 0x7E (by decide)), ← exists_or, ← or_and_right]
  have key : ∀ c : Char, (((0x20 ≤ c.toNat ∧ c.toNat ≤ 0x21) ∨ (0x23 ≤ c.toNat ∧ c.toNat ≤ 0x7E)) ↔
      (0x20 ≤ c.toNat ∧ c.toNat ≤ 0x7E ∧ c ≠ '"')) := by
    intro c
    have : c ≠ '"' ↔ c.toNat ≠ 0x22 := not_congr ⟨fun h => by rw [h]; rfl, fun h => char_of_toNat h⟩
    rw [this]
    omega
  simp only [key]

theorem says_quoted : Derives grammar (ref (str% "quoted-string")) (utf8 s) ↔
    ∃ v : Str, (∀ c ∈ v, 0x20 ≤ c.toNat ∧ c.toNat ≤ 0x7E ∧ c ≠ '"') ∧ s = '"' :: (v ++ ['"']) := by
  rw [show ref (str% "quoted-string") = .rulename quotedString.name from rfl, own (by simp [grammar])]
  simp only [quotedString, derivesAlt_cons, derivesAlt_nil, or_false, concat_more, derivesConcat_one, derivesRep_one, rep_many,
    says_DQUOTE keepsCore, star_chars fun _ => quotedPart]
  constructor
  · rintro ⟨_, _, rfl, rfl, v, _, rfl, h, rfl⟩; exact ⟨v, h, rfl⟩
  · rintro ⟨v, h, rfl⟩; exact ⟨['"'], _, rfl, rfl, v, _, rfl, h, rfl⟩

theorem markPart {a b : Char} (h : 97 ≤ a.toNat ∧ a.toNat ≤ 122) (hb : b.toNat + 32 = a.toNat) :
    Derives grammar (.charVal false ['%', a]) (utf8 s) ↔ ∃ m, (m = a ∨ m = b) ∧ s = ['%', m] := by
  have key : ∀ c, SameLetter a c ↔ c = a ∨ c = b := by
    intro c
    have := lit_letter (g := grammar) (s := [c]) h hb
    rw [lit_char] at this
    constructor
    · intro hc
      rcases this.mp ⟨c, hc, rfl⟩ with h | h
      · exact .inl (by simpa using h)
      · exact .inr (by simpa using h)
    · intro hc
      obtain ⟨d, h1, h2⟩ := this.mpr (by rcases hc with rfl | rfl <;> simp)
      obtain rfl : c = d := by simpa using h2
      exact h1
  simp only [lit_two, key, sameLetter_self (show ¬ (65 ≤ ('%' : Char).toNat ∧ ('%' : Char).toNat ≤ 90) ∧
    ¬ (97 ≤ ('%' : Char).toNat ∧ ('%' : Char).toNat ≤ 122) by decide), exists_and_left, exists_eq_left]

theorem says_ci : Derives grammar (ref (str% "case-insensitive-string")) (utf8 s) ↔
    ∃ p v : Str, (p = [] ∨ ∃ m, (m = 'i' ∨ m = 'I') ∧ p = ['%', m]) ∧
      (∀ c ∈ v, 0x20 ≤ c.toNat ∧ c.toNat ≤ 0x7E ∧ c ≠ '"') ∧ s = p ++ '"' :: (v ++ ['"']) := by
  rw [show ref (str% "case-insensitive-string") = .rulename ciString.name from rfl, own (by simp [grammar])]
  simp only [ciString, derivesAlt_cons, derivesAlt_nil, or_false, concat_more, derivesConcat_one, derivesRep_one, derives_option,
    says_quoted, text_nil, markPart (a := 'i') (b := 'I') (by decide) (by decide)]
  constructor
  · rintro ⟨p, _, rfl, h1, v, h2, rfl⟩; exact ⟨p, v, h1, h2, rfl⟩
  · rintro ⟨p, v, h1, h2, rfl⟩; exact ⟨p, _, rfl, h1, v, h2, rfl⟩

theorem says_cs : Derives grammar (ref (str% "case-sensitive-string")) (utf8 s) ↔
    ∃ m, ∃ v : Str, (m = 's' ∨ m = 'S') ∧
      (∀ c ∈ v, 0x20 ≤ c.toNat ∧ c.toNat ≤ 0x7E ∧ c ≠ '"') ∧ s = '%' :: m :: '"' :: (v ++ ['"']) := by
  rw [show ref (str% "case-sensitive-string") = .rulename csString.name from rfl, own (by simp [grammar])]
  simp only [csString, derivesAlt_cons, derivesAlt_nil, or_false, concat_more, derivesConcat_one, derivesRep_one,
    says_quoted, markPart (a := 's') (b := 'S') (by decide) (by decide)]
  constructor
  · rintro ⟨_, _, rfl, ⟨m, h1, rfl⟩, v, h2, rfl⟩; exact ⟨m, v, h1, h2, rfl⟩
  · rintro ⟨m, v, h1, h2, rfl⟩; exact ⟨['%', m], _, rfl, ⟨m, h1, rfl⟩, v, h2, rfl⟩

theorem says_charVal : Derives grammar (ref (str% "char-val")) (utf8 s) ↔
    Derives grammar (ref (str% "case-insensitive-string")) (utf8 s) ∨ Derives grammar (ref (str% "case-sensitive-string")) (utf8 s) := by
  rw [show ref (str% "char-val") = .rulename charVal.name from rfl, own (by simp [grammar])]
  simp only [charVal, derivesAlt_cons, derivesAlt_nil, or_false, derivesConcat_one, derivesRep_one]

theorem prosePart : Derives grammar (.group [[one (rng (str% "20") (str% "3D"))], [one (rng (str% "3F") (str% "7E"))]]) (utf8 s) ↔
    ∃ c : Char, (0x20 ≤ c.toNat ∧ c.toNat ≤ 0x7E ∧ c ≠ '>') ∧ s = [c] := by
  simp only [derives_group, derivesAlt_cons, derivesAlt_nil, or_false, derivesConcat_one, derivesRep_one,
    range_iff (denotes_hex (s := str% "20") [2, 0] 0x20 (by decide)) (denotes_hex (s := str% "3D") [3, 13] 0x3D (by decide)),
    range_iff (denotes_hex (s := str% "3F") [3, 15] 0x3F (by decide)) (denotes_hex (s := str% "7E") [7, 14] 0x7E (by decide)), ← exists_or, ← or_and_right]
  have key : ∀ c : Char, (((0x20 ≤ c.toNat ∧ c.toNat ≤ 0x3D) ∨ (0x3F ≤ c.toNat ∧ c.toNat ≤ 0x7E)) ↔
      (0x20 ≤ c.toNat ∧ c.toNat ≤ 0x7E ∧ c ≠ '>')) := by
    intro c
    have : c ≠ '>' ↔ c.toNat ≠ 0x3E := not_congr ⟨fun h => by rw [h]; rfl, fun h => char_of_toNat h⟩
    rw [this]
    omega
  simp only [key]

theorem says_prose : Derives grammar (ref (str% "prose-val")) (utf8 s) ↔
    ∃ v : Str, (∀ c ∈ v, 0x20 ≤ c.toNat ∧ c.toNat ≤ 0x7E ∧ c ≠ '>') ∧ s = '<' :: (v ++ ['>']) := by
  rw [show ref (str% "prose-val") = .rulename proseVal.name from rfl, own (by simp [grammar])]
  simp only [proseVal, derivesAlt_cons, derivesAlt_nil, or_false, concat_more, derivesConcat_one, derivesRep_one, rep_many,
    star_chars fun _ => prosePart, lit_self (show ¬ (65 ≤ ('<' : Char).toNat ∧ ('<' : Char).toNat ≤ 90) ∧
      ¬ (97 ≤ ('<' : Char).toNat ∧ ('<' : Char).toNat ≤ 122) by decide), lit_self (show ¬ (65 ≤ ('>' : Char).toNat ∧ ('>' : Char).toNat ≤ 90) ∧
      ¬ (97 ≤ ('>' : Char).toNat ∧ ('>' : Char).toNat ≤ 122) by decide)]
  constructor
  · rintro ⟨_, _, rfl, rfl, v, _, rfl, h, rfl⟩; exact ⟨v, h, rfl⟩
  · rintro ⟨v, h, rfl⟩; exact ⟨['<'], _, rfl, rfl, v, _, rfl, h, rfl⟩

/-- The numerals of a base after its letter. -/
def Numerals (b : Str) (t : Str) : Prop :=
  (∃ es, (∀ e ∈ es, NumeralOf b e) ∧ Dotted es t) ∨ ∃ lo hi, NumeralOf b lo ∧ NumeralOf b hi ∧ t = lo ++ '-' :: hi

/-- More numerals, each with a dot before it. -/
theorem dots_iff {b : Str} {lo : Str} (hlo : NumeralOf b lo) :
    (∃ r, s = lo ++ r ∧ Star (fun x => ∃ e, NumeralOf b e ∧ x = '.' :: e) r) ↔
      ∃ es, (∀ e ∈ es, NumeralOf b e) ∧ Dotted (lo :: es) s := by
  constructor
  · rintro ⟨r, rfl, h⟩
    induction h generalizing lo with
    | nil => exact ⟨[], by simp, by rw [List.append_nil]; exact .one lo⟩
    | cons x y hx _ ih =>
      obtain ⟨e, he, rfl⟩ := hx
      obtain ⟨es, h1, h2⟩ := ih he
      exact ⟨e :: es, by simpa using ⟨he, h1⟩, .more lo (e :: es) _ h2⟩
  · rintro ⟨es, h1, h2⟩
    induction es generalizing lo s with
    | nil =>
      cases h2 with
      | one => exact ⟨[], by simp, .nil⟩
      | more _ _ _ h => cases h
    | cons e es ih =>
      cases h2 with
      | more _ _ t h =>
        obtain ⟨r, rfl, h3⟩ := ih (h1 e (List.mem_cons_self ..)) (fun e he => h1 e (List.mem_cons_of_mem _ he)) h
        exact ⟨'.' :: (e ++ r), rfl, .cons ('.' :: e) r ⟨e, h1 e (List.mem_cons_self ..), rfl⟩ h3⟩

theorem numerals_iff {b : Str} : Numerals b s ↔ ∃ lo r, NumeralOf b lo ∧ s = lo ++ r ∧
    (Star (fun x => ∃ e, NumeralOf b e ∧ x = '.' :: e) r ∨ ∃ hi, NumeralOf b hi ∧ r = '-' :: hi) := by
  constructor
  · rintro (⟨es, h1, h2⟩ | ⟨lo, hi, h1, h2, rfl⟩)
    · cases es with
      | nil => cases h2
      | cons lo es =>
        obtain ⟨r, rfl, h⟩ := (dots_iff (h1 lo (List.mem_cons_self ..))).mpr
          ⟨es, fun e he => h1 e (List.mem_cons_of_mem _ he), h2⟩
        exact ⟨lo, r, h1 lo (List.mem_cons_self ..), rfl, .inl h⟩
    · exact ⟨lo, _, h1, rfl, .inr ⟨hi, h2, rfl⟩⟩
  · rintro ⟨lo, r, h1, rfl, h2 | ⟨hi, h2, rfl⟩⟩
    · obtain ⟨es, h3, h4⟩ := (dots_iff h1).mp ⟨r, rfl, h2⟩
      exact .inl ⟨lo :: es, by simpa using ⟨h1, h3⟩, h4⟩
    · exact .inr ⟨lo, hi, h1, h2, rfl⟩

/-- One of the three kinds of numeric value. -/
theorem says_val {b d : Str} {l u : Char} (hl : 97 ≤ l.toNat ∧ l.toNat ≤ 122) (hu : u.toNat + 32 = l.toNat)
    (hd : ∀ s, Derives grammar (ref d) (utf8 s) ↔ ∃ c, DigitOf b c ∧ s = [c]) :
    DerivesAlt grammar (valBody [l] d) (utf8 s) ↔ ∃ m t, (m = l ∨ m = u) ∧ Numerals b t ∧ s = m :: t := by
  have hsome : ∀ {s : Str}, (∃ a b_1 : Str, s = a ++ b_1 ∧ (∃ c, DigitOf b c ∧ a = [c]) ∧ ∀ c ∈ b_1, DigitOf b c) ↔ NumeralOf b s :=
    some_chars
  have hstar : ∀ {s : Str}, Star (fun t => ∃ c, DigitOf b c ∧ t = [c]) s ↔ ∀ c ∈ s, DigitOf b c := star_chars fun _ => Iff.rfl
  simp only [valBody, derivesAlt_cons, derivesAlt_nil, or_false, concat_more, derivesConcat_one, derivesRep_one, rep_some, derives_option,
    derives_group, text_nil, hd, hstar, hsome, lit_letter hl hu, lit_self (show ¬ (65 ≤ ('.' : Char).toNat ∧ ('.' : Char).toNat ≤ 90) ∧
      ¬ (97 ≤ ('.' : Char).toNat ∧ ('.' : Char).toNat ≤ 122) by decide), lit_self (show ¬ (65 ≤ ('-' : Char).toNat ∧ ('-' : Char).toNat ≤ 90) ∧
      ¬ (97 ≤ ('-' : Char).toNat ∧ ('-' : Char).toNat ≤ 122) by decide), numerals_iff]
  have hdot : ∀ s : Str, (∃ a b_1 : Str, s = a ++ b_1 ∧ a = ['.'] ∧ NumeralOf b b_1) ↔ ∃ e, NumeralOf b e ∧ s = '.' :: e := by
    intro s
    constructor
    · rintro ⟨_, e, rfl, rfl, h⟩; exact ⟨e, h, rfl⟩
    · rintro ⟨e, h, rfl⟩; exact ⟨['.'], e, rfl, rfl, h⟩
  simp only [hdot]
  constructor
  · rintro ⟨_, _, rfl, hm, lo, r, rfl, h1, h2⟩
    have key : (Star (fun x => ∃ e, NumeralOf b e ∧ x = '.' :: e) r ∨ ∃ hi, NumeralOf b hi ∧ r = '-' :: hi) := by
      rcases h2 with rfl | ⟨x, y, rfl, h3, h4⟩ | ⟨_, hi, rfl, rfl, h3⟩
      · exact .inl .nil
      · exact .inl (.cons _ _ h3 h4)
      · exact .inr ⟨hi, h3, rfl⟩
    rcases hm with rfl | rfl
    · exact ⟨l, _, .inl rfl, ⟨lo, r, h1, rfl, key⟩, rfl⟩
    · exact ⟨u, _, .inr rfl, ⟨lo, r, h1, rfl, key⟩, rfl⟩
  · rintro ⟨m, _, hm, ⟨lo, r, h1, rfl, h2⟩, rfl⟩
    refine ⟨[m], _, rfl, by rcases hm with rfl | rfl <;> simp, lo, r, rfl, h1, ?_⟩
    rcases h2 with h | ⟨hi, h3, rfl⟩
    · cases h with
      | nil => exact .inl rfl
      | cons x y hx hy => exact .inr (.inl ⟨x, y, rfl, hx, hy⟩)
    · exact .inr (.inr ⟨['-'], hi, rfl, rfl, h3⟩)

theorem says_bin : Derives grammar (ref (str% "bin-val")) (utf8 s) ↔ ∃ m t, (m = 'b' ∨ m = 'B') ∧ Numerals ['b'] t ∧ s = m :: t := by
  rw [show ref (str% "bin-val") = .rulename binVal.name from rfl, own (by simp [grammar])]
  exact says_val (by decide) (by decide) fun s => says_BIT keepsCore
theorem says_dec : Derives grammar (ref (str% "dec-val")) (utf8 s) ↔ ∃ m t, (m = 'd' ∨ m = 'D') ∧ Numerals ['d'] t ∧ s = m :: t := by
  rw [show ref (str% "dec-val") = .rulename decVal.name from rfl, own (by simp [grammar])]
  exact says_val (by decide) (by decide) fun s => says_digit
theorem says_hex : Derives grammar (ref (str% "hex-val")) (utf8 s) ↔ ∃ m t, (m = 'x' ∨ m = 'X') ∧ Numerals ['x'] t ∧ s = m :: t := by
  rw [show ref (str% "hex-val") = .rulename hexVal.name from rfl, own (by simp [grammar])]
  exact says_val (by decide) (by decide) fun s => says_HEXDIG keepsCore

theorem says_numVal : Derives grammar (ref (str% "num-val")) (utf8 s) ↔ ∃ m b t, BaseLetter m b ∧ Numerals b t ∧ s = '%' :: m :: t := by
  rw [show ref (str% "num-val") = .rulename numVal.name from rfl, own (by simp [grammar])]
  simp only [numVal, derivesAlt_cons, derivesAlt_nil, or_false, concat_more, derivesConcat_one, derivesRep_one, derives_group,
    says_bin, says_dec, says_hex, lit_self (show ¬ (65 ≤ ('%' : Char).toNat ∧ ('%' : Char).toNat ≤ 90) ∧
      ¬ (97 ≤ ('%' : Char).toNat ∧ ('%' : Char).toNat ≤ 122) by decide)]
  constructor
  · rintro ⟨_, _, rfl, rfl, ⟨m, t, hm, ht, rfl⟩ | ⟨m, t, hm, ht, rfl⟩ | ⟨m, t, hm, ht, rfl⟩⟩
    · exact ⟨m, _, t, .inl ⟨hm, rfl⟩, ht, rfl⟩
    · exact ⟨m, _, t, .inr (.inl ⟨hm, rfl⟩), ht, rfl⟩
    · exact ⟨m, _, t, .inr (.inr ⟨hm, rfl⟩), ht, rfl⟩
  · rintro ⟨m, b, t, ⟨hm, rfl⟩ | ⟨hm, rfl⟩ | ⟨hm, rfl⟩, ht, rfl⟩
    · exact ⟨['%'], _, rfl, rfl, .inl ⟨m, t, hm, ht, rfl⟩⟩
    · exact ⟨['%'], _, rfl, rfl, .inr (.inl ⟨m, t, hm, ht, rfl⟩)⟩
    · exact ⟨['%'], _, rfl, rfl, .inr (.inr ⟨m, t, hm, ht, rfl⟩)⟩

end
end Abnf
end Verif
