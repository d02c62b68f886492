import Verif.PropsAnalysis

/-! # C51: the core rules are those of RFC 5234 appendix B.1 -/

namespace Verif
open Spec

section
variable {g : Grammar}

theorem derivesTimes_one_iff {e : Elem} {w : Bytes} : DerivesTimes g e 1 w ↔ Derives g e w := by
  constructor
  · intro h
    cases h with
    | succ _ _ u v h1 h2 => cases h2; rw [List.append_nil]; exact h1
  · intro h
    have := DerivesTimes.succ e 0 w [] h (.zero e)
    rwa [List.append_nil] at this

theorem derivesRep_one {e : Elem} {w : Bytes} : DerivesRep g ⟨1, some 1, e⟩ w ↔ Derives g e w := by
  constructor
  · intro h
    cases h with
    | mk _ _ _ n _ h1 h2 h3 =>
      obtain rfl : n = 1 := by have := h2 1 rfl; omega
      exact derivesTimes_one_iff.mp h3
  · intro h
    exact .mk _ _ _ 1 _ (Nat.le_refl _) (by simp) (derivesTimes_one_iff.mpr h)

theorem derivesConcat_cons {r : Rep} {c : Concat} {w : Bytes} :
    DerivesConcat g (r :: c) w ↔ ∃ u v, w = u ++ v ∧ DerivesRep g r u ∧ DerivesConcat g c v := by
  constructor
  · intro h
    cases h with
    | cons _ _ u v h1 h2 => exact ⟨u, v, rfl, h1, h2⟩
  · rintro ⟨u, v, rfl, h1, h2⟩
    exact .cons _ _ _ _ h1 h2

theorem derivesConcat_nil {w : Bytes} : DerivesConcat g [] w ↔ w = [] :=
  ⟨fun h => by cases h; rfl, fun h => h ▸ .nil⟩

theorem derivesConcat_one {r : Rep} {w : Bytes} : DerivesConcat g [r] w ↔ DerivesRep g r w := by
  simp [derivesConcat_cons, derivesConcat_nil]

theorem derivesAlt_cons {c : Concat} {a : Alt} {w : Bytes} :
    DerivesAlt g (c :: a) w ↔ DerivesConcat g c w ∨ DerivesAlt g a w := by
  constructor
  · intro h
    cases h with
    | mk _ c' _ hc h =>
      rcases List.mem_cons.mp hc with rfl | hc
      · exact .inl h
      · exact .inr (.mk _ _ _ hc h)
  · rintro (h | h)
    · exact .mk _ _ _ (List.mem_cons_self ..) h
    · cases h with
      | mk _ c' _ hc h => exact .mk _ _ _ (List.mem_cons_of_mem _ hc) h

theorem derivesAlt_nil {w : Bytes} : ¬ DerivesAlt g [] w := by
  intro h
  cases h with
  | mk _ _ _ hc _ => cases hc

theorem derives_range {b s t : Str} {lo hi : Nat} (hs : Denotes b s lo) (ht : Denotes b t hi) {w : Bytes} :
    Derives g (.numVal b .range [s, t]) w ↔ ∃ c : Char, lo ≤ c.toNat ∧ c.toNat ≤ hi ∧ w = utf8 [c] := by
  constructor
  · intro h
    cases h with
    | term _ cs h =>
      cases h with
      | range _ _ _ lo' hi' c h1 h2 h3 h4 =>
        obtain rfl := denotes_fun hs h1
        obtain rfl := denotes_fun ht h2
        exact ⟨c, h3, h4, rfl⟩
  · rintro ⟨c, h1, h2, rfl⟩
    exact .term _ _ (.range _ _ _ _ _ _ hs ht h1 h2)

theorem derives_code {b s : Str} {v : Nat} (hs : Denotes b s v) {w : Bytes} :
    Derives g (.numVal b .series [s]) w ↔ ∃ c : Char, c.toNat = v ∧ w = utf8 [c] := by
  constructor
  · intro h
    cases h with
    | term _ cs h =>
      cases h with
      | series _ _ _ h =>
        cases h with
        | @cons _ c _ cs h1 h2 =>
          cases h2
          exact ⟨c, denotes_fun h1 hs, rfl⟩
  · rintro ⟨c, rfl, rfl⟩
    exact .term _ _ (.series _ _ _ (.cons hs .nil))

theorem derives_chr {a : Char} {w : Bytes} :
    Derives g (.charVal false [a]) w ↔ ∃ c : Char, SameLetter a c ∧ w = utf8 [c] := by
  constructor
  · intro h
    cases h with
    | term _ cs h =>
      cases h with
      | insensitive _ _ h =>
        cases h with
        | @cons _ c _ cs h1 h2 =>
          cases h2
          exact ⟨c, h1, rfl⟩
  · rintro ⟨c, h, rfl⟩
    exact .term _ _ (.insensitive _ _ (.cons h .nil))

theorem derives_rulename {n : Str} {w : Bytes} :
    Derives g (.rulename n) w ↔ ∃ r, Resolves g n r ∧ DerivesAlt g r.alt w := by
  constructor
  · intro h
    cases h with
    | rule _ r _ h1 h2 => exact ⟨r, h1, h2⟩
    | term _ _ h => cases h
  · rintro ⟨r, h1, h2⟩
    exact .rule _ _ _ h1 h2

/-- No rule of the grammar has the name of a core rule. -/
def KeepsCore (g : Grammar) : Prop := ∀ u ∈ g.rules, ∀ r ∈ Core.rules, ¬ SameName u.name r.name

theorem derives_core (hg : KeepsCore g) {r : Rule} (hr : r ∈ Core.rules) {w : Bytes} :
    Derives g (.rulename r.name) w ↔ DerivesAlt g r.alt w := by
  rw [derives_rulename]
  have hno : ∀ u ∈ g.rules, ¬ SameName r.name u.name := fun u hu hs =>
    hg u hu r hr ((sameName_iff _ _).mpr ((sameName_iff _ _).mp hs).symm)
  constructor
  · rintro ⟨r', h1, h2⟩
    have : r' = r := by
      cases h1 with
      | user h1 h3 => exact absurd h3 (hno _ h1)
      | core h1 h3 _ =>
        have e1 := find?_unique core_distinct h1 h3
        have e2 := find?_unique core_distinct hr ((sameName_iff _ _).mpr rfl : SameName r.name r.name)
        exact Option.some.inj (e1.symm.trans e2)
    exact this ▸ h2
  · intro h
    exact ⟨r, .core hr ((sameName_iff _ _).mpr rfl) hno, h⟩
end

/-- Hexadecimal numerals. -/
theorem denotes_hex {s : Str} (ds : List Nat) (v : Nat) (h : (s ≠ [] ∧ s.length = ds.length ∧
    (s.zip ds).all (fun p => decide (HasDigit 16 p.1 p.2)) = true) ∧ valueOf 16 ds = v) : Denotes ['x'] s v := by
  obtain ⟨⟨h1, h2, h3⟩, h4⟩ := h
  refine ⟨16, ds, .hex, h1, ?_, h4.symm⟩
  clear h1 h4
  induction s generalizing ds with
  | nil => cases ds with | nil => exact .nil | cons => simp at h2
  | cons c s ih =>
    cases ds with
    | nil => simp at h2
    | cons d ds =>
      simp only [List.zip_cons_cons, List.all_cons, Bool.and_eq_true, decide_eq_true_eq] at h3
      exact .cons h3.1 (ih ds (by simpa using h2) h3.2)

theorem sameLetter_nonletter {a c : Char} (h : a.toNat < 65) : SameLetter a c ↔ c = a := by
  constructor
  · rintro (rfl | ⟨h1, _⟩ | ⟨h1, _⟩)
    · rfl
    · have : (65 : Nat) ≤ a.toNat := h1
      omega
    · have : (97 : Nat) ≤ a.toNat := h1
      omega
  · rintro rfl; exact .inl rfl

theorem exists_or_and {α} {P Q R : α → Prop} : (∃ c, (P c ∨ Q c) ∧ R c) ↔ (∃ c, P c ∧ R c) ∨ ∃ c, Q c ∧ R c := by
  constructor
  · rintro ⟨c, h | h, h'⟩
    · exact .inl ⟨c, h, h'⟩
    · exact .inr ⟨c, h, h'⟩
  · rintro (⟨c, h, h'⟩ | ⟨c, h, h'⟩)
    · exact ⟨c, .inl h, h'⟩
    · exact ⟨c, .inr h, h'⟩

section
variable {g : Grammar} (hg : KeepsCore g) {w : Bytes}
include hg

theorem core_ALPHA : Derives g (.rulename (str% "ALPHA")) w ↔ ∃ c : Char, ((0x41 ≤ c.toNat ∧ c.toNat ≤ 0x5A) ∨ (0x61 ≤ c.toNat ∧ c.toNat ≤ 0x7A)) ∧ w = utf8 [c] := by
  have h := derives_core hg (r := Core.rules[0]) (List.getElem_mem (by decide)) (w := w)
  change _ ↔ DerivesAlt g [[⟨1, some 1, .numVal ['x'] .range [str% "41", str% "5A"]⟩], [⟨1, some 1, .numVal ['x'] .range [str% "61", str% "7A"]⟩]] w at h
  refine h.trans ?_
  rw [derivesAlt_cons, derivesConcat_one, derivesRep_one, derivesAlt_cons, derivesConcat_one, derivesRep_one, derives_range (denotes_hex [4, 1] 0x41 (by decide)) (denotes_hex [5, 10] 0x5A (by decide)), derives_range (denotes_hex [6, 1] 0x61 (by decide)) (denotes_hex [7, 10] 0x7A (by decide))]
  rw [exists_or_and]
  simp only [derivesAlt_nil, or_false, and_assoc, Nat.zero_le, true_and]

theorem core_BIT : Derives g (.rulename (str% "BIT")) w ↔ ∃ c : Char, (c = '0' ∨ c = '1') ∧ w = utf8 [c] := by
  have h := derives_core hg (r := Core.rules[1]) (List.getElem_mem (by decide)) (w := w)
  change _ ↔ DerivesAlt g [[⟨1, some 1, .charVal false ['0']⟩], [⟨1, some 1, .charVal false ['1']⟩]] w at h
  refine h.trans ?_
  rw [derivesAlt_cons, derivesConcat_one, derivesRep_one, derivesAlt_cons, derivesConcat_one, derivesRep_one, derives_chr, derives_chr]
  rw [exists_or_and]
  simp only [derivesAlt_nil, or_false, sameLetter_nonletter (show ('0' : Char).toNat < 65 by decide),
    sameLetter_nonletter (show ('1' : Char).toNat < 65 by decide)]

theorem core_CHAR : Derives g (.rulename (str% "CHAR")) w ↔ ∃ c : Char, (0x01 ≤ c.toNat ∧ c.toNat ≤ 0x7F) ∧ w = utf8 [c] := by
  have h := derives_core hg (r := Core.rules[2]) (List.getElem_mem (by decide)) (w := w)
  change _ ↔ DerivesAlt g [[⟨1, some 1, .numVal ['x'] .range [str% "01", str% "7F"]⟩]] w at h
  refine h.trans ?_
  rw [derivesAlt_cons, derivesConcat_one, derivesRep_one, derives_range (denotes_hex [0, 1] 0x01 (by decide)) (denotes_hex [7, 15] 0x7F (by decide))]
  simp only [derivesAlt_nil, or_false, and_assoc, Nat.zero_le, true_and]

theorem core_CR : Derives g (.rulename (str% "CR")) w ↔ ∃ c : Char, (c.toNat = 0x0D) ∧ w = utf8 [c] := by
  have h := derives_core hg (r := Core.rules[3]) (List.getElem_mem (by decide)) (w := w)
  change _ ↔ DerivesAlt g [[⟨1, some 1, .numVal ['x'] .series [str% "0D"]⟩]] w at h
  refine h.trans ?_
  rw [derivesAlt_cons, derivesConcat_one, derivesRep_one, derives_code (denotes_hex [0, 13] 0x0D (by decide))]
  simp only [derivesAlt_nil, or_false, and_assoc, Nat.zero_le, true_and]

theorem core_CTL : Derives g (.rulename (str% "CTL")) w ↔ ∃ c : Char, (c.toNat ≤ 0x1F ∨ c.toNat = 0x7F) ∧ w = utf8 [c] := by
  have h := derives_core hg (r := Core.rules[5]) (List.getElem_mem (by decide)) (w := w)
  change _ ↔ DerivesAlt g [[⟨1, some 1, .numVal ['x'] .range [str% "00", str% "1F"]⟩], [⟨1, some 1, .numVal ['x'] .series [str% "7F"]⟩]] w at h
  refine h.trans ?_
  rw [derivesAlt_cons, derivesConcat_one, derivesRep_one, derivesAlt_cons, derivesConcat_one, derivesRep_one, derives_range (denotes_hex [0, 0] 0x00 (by decide)) (denotes_hex [1, 15] 0x1F (by decide)), derives_code (denotes_hex [7, 15] 0x7F (by decide))]
  rw [exists_or_and]
  simp only [derivesAlt_nil, or_false, and_assoc, Nat.zero_le, true_and]

theorem core_DIGIT : Derives g (.rulename (str% "DIGIT")) w ↔ ∃ c : Char, (0x30 ≤ c.toNat ∧ c.toNat ≤ 0x39) ∧ w = utf8 [c] := by
  have h := derives_core hg (r := Core.rules[6]) (List.getElem_mem (by decide)) (w := w)
  change _ ↔ DerivesAlt g [[⟨1, some 1, .numVal ['x'] .range [str% "30", str% "39"]⟩]] w at h
  refine h.trans ?_
  rw [derivesAlt_cons, derivesConcat_one, derivesRep_one, derives_range (denotes_hex [3, 0] 0x30 (by decide)) (denotes_hex [3, 9] 0x39 (by decide))]
  simp only [derivesAlt_nil, or_false, and_assoc, Nat.zero_le, true_and]

theorem core_DQUOTE : Derives g (.rulename (str% "DQUOTE")) w ↔ ∃ c : Char, (c.toNat = 0x22) ∧ w = utf8 [c] := by
  have h := derives_core hg (r := Core.rules[7]) (List.getElem_mem (by decide)) (w := w)
  change _ ↔ DerivesAlt g [[⟨1, some 1, .numVal ['x'] .series [str% "22"]⟩]] w at h
  refine h.trans ?_
  rw [derivesAlt_cons, derivesConcat_one, derivesRep_one, derives_code (denotes_hex [2, 2] 0x22 (by decide))]
  simp only [derivesAlt_nil, or_false, and_assoc, Nat.zero_le, true_and]

theorem core_HTAB : Derives g (.rulename (str% "HTAB")) w ↔ ∃ c : Char, (c.toNat = 0x09) ∧ w = utf8 [c] := by
  have h := derives_core hg (r := Core.rules[9]) (List.getElem_mem (by decide)) (w := w)
  change _ ↔ DerivesAlt g [[⟨1, some 1, .numVal ['x'] .series [str% "09"]⟩]] w at h
  refine h.trans ?_
  rw [derivesAlt_cons, derivesConcat_one, derivesRep_one, derives_code (denotes_hex [0, 9] 0x09 (by decide))]
  simp only [derivesAlt_nil, or_false, and_assoc, Nat.zero_le, true_and]

theorem core_LF : Derives g (.rulename (str% "LF")) w ↔ ∃ c : Char, (c.toNat = 0x0A) ∧ w = utf8 [c] := by
  have h := derives_core hg (r := Core.rules[10]) (List.getElem_mem (by decide)) (w := w)
  change _ ↔ DerivesAlt g [[⟨1, some 1, .numVal ['x'] .series [str% "0A"]⟩]] w at h
  refine h.trans ?_
  rw [derivesAlt_cons, derivesConcat_one, derivesRep_one, derives_code (denotes_hex [0, 10] 0x0A (by decide))]
  simp only [derivesAlt_nil, or_false, and_assoc, Nat.zero_le, true_and]

theorem core_OCTET : Derives g (.rulename (str% "OCTET")) w ↔ ∃ c : Char, (c.toNat ≤ 0xFF) ∧ w = utf8 [c] := by
  have h := derives_core hg (r := Core.rules[12]) (List.getElem_mem (by decide)) (w := w)
  change _ ↔ DerivesAlt g [[⟨1, some 1, .numVal ['x'] .range [str% "00", str% "FF"]⟩]] w at h
  refine h.trans ?_
  rw [derivesAlt_cons, derivesConcat_one, derivesRep_one, derives_range (denotes_hex [0, 0] 0x00 (by decide)) (denotes_hex [15, 15] 0xFF (by decide))]
  simp only [derivesAlt_nil, or_false, and_assoc, Nat.zero_le, true_and]

theorem core_SP : Derives g (.rulename (str% "SP")) w ↔ ∃ c : Char, (c.toNat = 0x20) ∧ w = utf8 [c] := by
  have h := derives_core hg (r := Core.rules[13]) (List.getElem_mem (by decide)) (w := w)
  change _ ↔ DerivesAlt g [[⟨1, some 1, .numVal ['x'] .series [str% "20"]⟩]] w at h
  refine h.trans ?_
  rw [derivesAlt_cons, derivesConcat_one, derivesRep_one, derives_code (denotes_hex [2, 0] 0x20 (by decide))]
  simp only [derivesAlt_nil, or_false, and_assoc, Nat.zero_le, true_and]

theorem core_VCHAR : Derives g (.rulename (str% "VCHAR")) w ↔ ∃ c : Char, (0x21 ≤ c.toNat ∧ c.toNat ≤ 0x7E) ∧ w = utf8 [c] := by
  have h := derives_core hg (r := Core.rules[14]) (List.getElem_mem (by decide)) (w := w)
  change _ ↔ DerivesAlt g [[⟨1, some 1, .numVal ['x'] .range [str% "21", str% "7E"]⟩]] w at h
  refine h.trans ?_
  rw [derivesAlt_cons, derivesConcat_one, derivesRep_one, derives_range (denotes_hex [2, 1] 0x21 (by decide)) (denotes_hex [7, 14] 0x7E (by decide))]
  simp only [derivesAlt_nil, or_false, and_assoc, Nat.zero_le, true_and]

omit hg in
theorem char_of_toNat {c d : Char} (h : c.toNat = d.toNat) : c = d := by
  apply Char.ext
  exact UInt32.toNat_inj.mp h

omit hg in
theorem exists_code {d : Char} {v : Nat} (h : d.toNat = v) : (∃ c : Char, c.toNat = v ∧ w = utf8 [c]) ↔ w = utf8 [d] := by
  constructor
  · rintro ⟨c, h1, rfl⟩
    rw [char_of_toNat (h1.trans h.symm)]
  · rintro rfl
    exact ⟨d, h, rfl⟩

theorem core_CRLF : Derives g (.rulename (str% "CRLF")) w ↔ w = [13, 10] := by
  have h := derives_core hg (r := Core.rules[4]) (List.getElem_mem (by decide)) (w := w)
  change _ ↔ DerivesAlt g [[⟨1, some 1, .rulename (str% "CR")⟩, ⟨1, some 1, .rulename (str% "LF")⟩]] w at h
  refine h.trans ?_
  simp only [derivesAlt_cons, derivesAlt_nil, or_false, derivesConcat_cons, derivesConcat_nil, derivesRep_one,
    core_CR hg, core_LF hg, exists_code (show ('\r' : Char).toNat = 0x0D by decide),
    exists_code (show ('\n' : Char).toNat = 0x0A by decide)]
  constructor
  · rintro ⟨u, v, rfl, rfl, u', v', rfl, rfl, rfl⟩
    decide
  · rintro rfl
    exact ⟨[13], [10], rfl, by decide, [10], [], rfl, by decide, rfl⟩

theorem core_WSP : Derives g (.rulename (str% "WSP")) w ↔ w = [0x20] ∨ w = [0x09] := by
  have h := derives_core hg (r := Core.rules[15]) (List.getElem_mem (by decide)) (w := w)
  change _ ↔ DerivesAlt g [[⟨1, some 1, .rulename (str% "SP")⟩], [⟨1, some 1, .rulename (str% "HTAB")⟩]] w at h
  refine h.trans ?_
  simp only [derivesAlt_cons, derivesAlt_nil, or_false, derivesConcat_one, derivesRep_one,
    core_SP hg, core_HTAB hg, exists_code (show (' ' : Char).toNat = 0x20 by decide),
    exists_code (show ('\t' : Char).toNat = 0x09 by decide)]
  rfl

theorem core_HEXDIG : Derives g (.rulename (str% "HEXDIG")) w ↔ ∃ c : Char, ((0x30 ≤ c.toNat ∧ c.toNat ≤ 0x39) ∨
    (0x41 ≤ c.toNat ∧ c.toNat ≤ 0x46) ∨ (0x61 ≤ c.toNat ∧ c.toNat ≤ 0x66)) ∧ w = utf8 [c] := by
  have h₀ := derives_core hg (r := Core.rules[8]) (List.getElem_mem (by decide)) (w := w)
  change _ ↔ DerivesAlt g [[⟨1, some 1, .rulename (str% "DIGIT")⟩], [⟨1, some 1, .charVal false ['A']⟩],
    [⟨1, some 1, .charVal false ['B']⟩], [⟨1, some 1, .charVal false ['C']⟩], [⟨1, some 1, .charVal false ['D']⟩],
    [⟨1, some 1, .charVal false ['E']⟩], [⟨1, some 1, .charVal false ['F']⟩]] w at h₀
  refine h₀.trans ?_
  clear h₀
  have hl : ∀ a : Char, 65 ≤ a.toNat → a.toNat ≤ 90 → ∀ c : Char, SameLetter a c ↔ c.toNat = a.toNat ∨ c.toNat = a.toNat + 32 := by
    intro a h1 h2 c
    constructor
    · rintro (rfl | ⟨_, _, h⟩ | ⟨h3, _, h⟩)
      · exact .inl rfl
      · exact .inr h
      · have : (97 : Nat) ≤ a.toNat := h3
        omega
    · rintro (h | h)
      · exact .inl (char_of_toNat h).symm
      · exact .inr (.inl ⟨h1, h2, h⟩)
  simp only [derivesAlt_cons, derivesAlt_nil, or_false, derivesConcat_one, derivesRep_one, core_DIGIT hg, derives_chr]
  rw [exists_or_and]
  refine or_congr Iff.rfl ?_
  constructor
  · rintro (⟨c, h, rfl⟩ | ⟨c, h, rfl⟩ | ⟨c, h, rfl⟩ | ⟨c, h, rfl⟩ | ⟨c, h, rfl⟩ | ⟨c, h, rfl⟩)
    all_goals
      refine ⟨c, ?_, rfl⟩
      rw [hl _ (by decide) (by decide)] at h
      simp at h
      omega
  · rintro ⟨c, h, rfl⟩
    have h' : (c.toNat = 65 ∨ c.toNat = 65 + 32) ∨ (c.toNat = 66 ∨ c.toNat = 66 + 32) ∨ (c.toNat = 67 ∨ c.toNat = 67 + 32) ∨
      (c.toNat = 68 ∨ c.toNat = 68 + 32) ∨ (c.toNat = 69 ∨ c.toNat = 69 + 32) ∨ (c.toNat = 70 ∨ c.toNat = 70 + 32) := by omega
    rcases h' with h | h | h | h | h | h
    · exact .inl ⟨c, (hl _ (by decide) (by decide) c).mpr h, rfl⟩
    · exact .inr (.inl ⟨c, (hl _ (by decide) (by decide) c).mpr h, rfl⟩)
    · exact .inr (.inr (.inl ⟨c, (hl _ (by decide) (by decide) c).mpr h, rfl⟩))
    · exact .inr (.inr (.inr (.inl ⟨c, (hl _ (by decide) (by decide) c).mpr h, rfl⟩)))
    · exact .inr (.inr (.inr (.inr (.inl ⟨c, (hl _ (by decide) (by decide) c).mpr h, rfl⟩))))
    · exact .inr (.inr (.inr (.inr (.inr ⟨c, (hl _ (by decide) (by decide) c).mpr h, rfl⟩))))

/-- A blank, a tab, or one of them after a line break. -/
def lwspPieces : List Bytes := [[0x20], [0x09], [13, 10, 0x20], [13, 10, 0x09]]

theorem core_LWSP : Derives g (.rulename (str% "LWSP")) w ↔
    ∃ ps : List Bytes, (∀ p ∈ ps, p ∈ lwspPieces) ∧ w = ps.flatten := by
  have h := derives_core hg (r := Core.rules[11]) (List.getElem_mem (by decide)) (w := w)
  change _ ↔ DerivesAlt g [[⟨0, none, .group [[⟨1, some 1, .rulename (str% "WSP")⟩],
    [⟨1, some 1, .rulename (str% "CRLF")⟩, ⟨1, some 1, .rulename (str% "WSP")⟩]]⟩]] w at h
  refine h.trans ?_
  clear h
  simp only [derivesAlt_cons, derivesAlt_nil, or_false, derivesConcat_one]
  have hp : ∀ u, Derives g (.group [[⟨1, some 1, .rulename (str% "WSP")⟩],
      [⟨1, some 1, .rulename (str% "CRLF")⟩, ⟨1, some 1, .rulename (str% "WSP")⟩]]) u ↔ u ∈ lwspPieces := by
    intro u
    have : Derives g (.group [[⟨1, some 1, .rulename (str% "WSP")⟩],
      [⟨1, some 1, .rulename (str% "CRLF")⟩, ⟨1, some 1, .rulename (str% "WSP")⟩]]) u ↔ DerivesAlt g
      [[⟨1, some 1, .rulename (str% "WSP")⟩],
      [⟨1, some 1, .rulename (str% "CRLF")⟩, ⟨1, some 1, .rulename (str% "WSP")⟩]] u := by
      constructor
      · intro h
        cases h with
        | group _ _ h => exact h
        | term _ _ h => cases h
      · exact .group _ _
    rw [this]
    simp only [derivesAlt_cons, derivesAlt_nil, or_false, derivesConcat_cons, derivesConcat_nil, derivesRep_one,
      core_WSP hg, core_CRLF hg, lwspPieces, List.mem_cons, List.not_mem_nil]
    constructor
    · rintro (⟨x, y, rfl, rfl | rfl, rfl⟩ | ⟨x, y, rfl, rfl, x', y', rfl, rfl | rfl, rfl⟩) <;> simp
    · rintro (rfl | rfl | rfl | rfl)
      · exact .inl ⟨_, [], rfl, .inl rfl, rfl⟩
      · exact .inl ⟨_, [], rfl, .inr rfl, rfl⟩
      · exact .inr ⟨[13, 10], [0x20], rfl, rfl, [0x20], [], rfl, .inl rfl, rfl⟩
      · exact .inr ⟨[13, 10], [0x09], rfl, rfl, [0x09], [], rfl, .inr rfl, rfl⟩
  constructor
  · intro h
    cases h with
    | mk _ _ _ n _ _ _ h =>
      clear * - h hp
      induction n generalizing w with
      | zero => cases h; exact ⟨[], by simp, rfl⟩
      | succ n ih =>
        cases h with
        | succ _ _ u v h1 h2 =>
          obtain ⟨ps, h3, rfl⟩ := ih h2
          exact ⟨u :: ps, by simpa using ⟨(hp u).mp h1, h3⟩, rfl⟩
  · rintro ⟨ps, h1, rfl⟩
    refine .mk _ _ _ ps.length _ (Nat.zero_le _) (by simp) ?_
    induction ps with
    | nil => exact .zero _
    | cons p ps ih =>
      exact .succ _ _ _ _ ((hp p).mpr (h1 p (List.mem_cons_self ..))) (ih fun q hq => h1 q (List.mem_cons_of_mem _ hq))

end

namespace Props

/-- C51.  The core rules are the sixteen of RFC 5234 appendix B.1. -/
theorem C51_names : Core.rules.map Rule.name = [str% "ALPHA", str% "BIT", str% "CHAR", str% "CR", str% "CRLF", str% "CTL",
    str% "DIGIT", str% "DQUOTE", str% "HEXDIG", str% "HTAB", str% "LF", str% "LWSP", str% "OCTET", str% "SP",
    str% "VCHAR", str% "WSP"] := rfl

/-- C51.  In a grammar that defines none of them itself, the core rules derive exactly what RFC 5234 appendix B.1 says,
numbers being read as Unicode code points in UTF-8. -/
theorem C51_core (g : Grammar) (hg : KeepsCore g) (w : Bytes) :
    (DerivesRule g (str% "ALPHA") w ↔ ∃ c : Char, ((0x41 ≤ c.toNat ∧ c.toNat ≤ 0x5A) ∨ (0x61 ≤ c.toNat ∧ c.toNat ≤ 0x7A)) ∧ w = utf8 [c]) ∧
    (DerivesRule g (str% "BIT") w ↔ ∃ c : Char, (c = '0' ∨ c = '1') ∧ w = utf8 [c]) ∧
    (DerivesRule g (str% "CHAR") w ↔ ∃ c : Char, (0x01 ≤ c.toNat ∧ c.toNat ≤ 0x7F) ∧ w = utf8 [c]) ∧
    (DerivesRule g (str% "CR") w ↔ ∃ c : Char, (c.toNat = 0x0D) ∧ w = utf8 [c]) ∧
    (DerivesRule g (str% "CTL") w ↔ ∃ c : Char, (c.toNat ≤ 0x1F ∨ c.toNat = 0x7F) ∧ w = utf8 [c]) ∧
    (DerivesRule g (str% "DIGIT") w ↔ ∃ c : Char, (0x30 ≤ c.toNat ∧ c.toNat ≤ 0x39) ∧ w = utf8 [c]) ∧
    (DerivesRule g (str% "DQUOTE") w ↔ ∃ c : Char, (c.toNat = 0x22) ∧ w = utf8 [c]) ∧
    (DerivesRule g (str% "HTAB") w ↔ ∃ c : Char, (c.toNat = 0x09) ∧ w = utf8 [c]) ∧
    (DerivesRule g (str% "LF") w ↔ ∃ c : Char, (c.toNat = 0x0A) ∧ w = utf8 [c]) ∧
    (DerivesRule g (str% "OCTET") w ↔ ∃ c : Char, (c.toNat ≤ 0xFF) ∧ w = utf8 [c]) ∧
    (DerivesRule g (str% "SP") w ↔ ∃ c : Char, (c.toNat = 0x20) ∧ w = utf8 [c]) ∧
    (DerivesRule g (str% "VCHAR") w ↔ ∃ c : Char, (0x21 ≤ c.toNat ∧ c.toNat ≤ 0x7E) ∧ w = utf8 [c]) ∧
    (DerivesRule g (str% "HEXDIG") w ↔ ∃ c : Char, ((0x30 ≤ c.toNat ∧ c.toNat ≤ 0x39) ∨
      (0x41 ≤ c.toNat ∧ c.toNat ≤ 0x46) ∨ (0x61 ≤ c.toNat ∧ c.toNat ≤ 0x66)) ∧ w = utf8 [c]) ∧
    (DerivesRule g (str% "CRLF") w ↔ w = [13, 10]) ∧
    (DerivesRule g (str% "WSP") w ↔ w = [0x20] ∨ w = [0x09]) ∧
    (DerivesRule g (str% "LWSP") w ↔ ∃ ps : List Bytes, (∀ p ∈ ps, p = [0x20] ∨ p = [0x09] ∨ p = [13, 10, 0x20] ∨
      p = [13, 10, 0x09]) ∧ w = ps.flatten) := by
  refine ⟨core_ALPHA hg, core_BIT hg, core_CHAR hg, core_CR hg, core_CTL hg, core_DIGIT hg, core_DQUOTE hg, core_HTAB hg, core_LF hg, core_OCTET hg, core_SP hg, core_VCHAR hg, core_HEXDIG hg, core_CRLF hg,
    core_WSP hg, (core_LWSP hg).trans ?_⟩
  simp [lwspPieces]

-- a grammar that defines none of them
example : KeepsCore Ex.expr := by
  intro u hu r hr h
  have : (Ex.expr.rules.all fun u => Core.rules.all fun r => !equalFold u.name r.name) = true := by decide +kernel
  have := List.all_eq_true.mp (List.all_eq_true.mp this u hu) r hr
  rw [(equalFold_iff _ _).mpr h] at this
  cases this

/-- C51, where code points matter: OCTET derives no single byte above `%x7F`, though RFC 5234 calls it 8 bits of
data. -/
theorem C51_octet (g : Grammar) (hg : KeepsCore g) (b : UInt8) : DerivesRule g (str% "OCTET") [b] ↔ b < 0x80 := by
  refine (core_OCTET hg).trans ?_
  constructor
  · rintro ⟨c, h1, h2⟩
    rw [← encodeAll_eq_utf8, encodeAll_cons, encodeAll_nil, List.append_nil] at h2
    unfold encodeRune at h2
    simp only at h2
    split_ifs at h2 with h3 <;> simp at h2
    subst h2
    rw [UInt8.lt_iff_toNat_lt, toNat_u8 (by omega)]
    exact h3
  · intro h
    rw [UInt8.lt_iff_toNat_lt] at h
    have h' : b.toNat < 128 := h
    have hc : (Char.ofNat b.toNat).toNat = b.toNat := toNat_ofNat_char (.inl (by omega))
    refine ⟨Char.ofNat b.toNat, by omega, ?_⟩
    rw [← encodeAll_eq_utf8, encodeAll_cons, encodeAll_nil, List.append_nil]
    unfold encodeRune
    simp only [hc]
    rw [if_pos h', u8_ofNat_toNat]

end Props
end Verif
