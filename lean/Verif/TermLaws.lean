import Verif.Laws

/-!
# C134: the laws of terminals

Quoted strings and num-vals that can be interchanged whatever the grammar around them
(quoted strings: /repo/abnf.go:142-155, num-vals: /repo/abnf.go:162-183).
-/

namespace Verif.Props
open Spec RE2

theorem dChar {G : Grammar} {s : Bool} {vs : List Char} {w : Bytes} :
    Derives G (.charVal s vs) w ↔ ∃ cs, Terminal (.charVal s vs) cs ∧ w = utf8 cs :=
  ⟨fun h => by cases h with | term _ cs h => exact ⟨cs, h, rfl⟩, fun ⟨_, h, e⟩ => e ▸ .term _ _ h⟩

theorem dNum {G : Grammar} {b : Str} {st : Status} {es : List Str} {w : Bytes} :
    Derives G (.numVal b st es) w ↔ ∃ cs, Terminal (.numVal b st es) cs ∧ w = utf8 cs :=
  ⟨fun h => by cases h with | term _ cs h => exact ⟨cs, h, rfl⟩, fun ⟨_, h, e⟩ => e ▸ .term _ _ h⟩

theorem tSens {vs cs : List Char} : Terminal (.charVal true vs) cs ↔ cs = vs :=
  ⟨fun h => by cases h; rfl, fun h => h ▸ .sensitive vs⟩

theorem tInsens {vs cs : List Char} : Terminal (.charVal false vs) cs ↔ List.Forall₂ SameLetter vs cs :=
  ⟨fun h => by cases h with | insensitive _ _ h => exact h, fun h => .insensitive vs cs h⟩

theorem tSeries {b : Str} {es : List Str} {cs : List Char} :
    Terminal (.numVal b .series es) cs ↔ List.Forall₂ (fun s c => Denotes b s (Char.toNat c)) es cs :=
  ⟨fun h => by cases h with | series _ _ _ h => exact h, fun h => .series b es cs h⟩

theorem tRange {b s t : Str} {lo hi : Nat} (h1 : Denotes b s lo) (h2 : Denotes b t hi) {cs : List Char} :
    Terminal (.numVal b .range [s, t]) cs ↔ ∃ c, cs = [c] ∧ lo ≤ c.toNat ∧ c.toNat ≤ hi := by
  constructor
  · intro h
    cases h with
    | range _ _ _ x y c h3 h4 h5 h6 =>
      obtain rfl := denotes_fun h1 h3
      obtain rfl := denotes_fun h2 h4
      exact ⟨c, rfl, h5, h6⟩
  · rintro ⟨c, rfl, h3, h4⟩
    exact .range b s t lo hi c h1 h2 h3 h4

theorem forall2_append {α β : Type} {R : α → β → Prop} {a a' : List α} {l : List β} :
    List.Forall₂ R (a ++ a') l ↔ ∃ x y, l = x ++ y ∧ List.Forall₂ R a x ∧ List.Forall₂ R a' y := by
  induction a generalizing l with
  | nil =>
    refine ⟨fun h => ⟨[], l, rfl, .nil, h⟩, ?_⟩
    rintro ⟨x, y, rfl, h1, h2⟩
    cases h1
    exact h2
  | cons u a ih =>
    constructor
    · intro h
      cases h with
      | cons h1 h2 =>
        obtain ⟨x, y, rfl, h3, h4⟩ := ih.mp h2
        exact ⟨_ :: x, y, rfl, .cons h1 h3, h4⟩
    · rintro ⟨x, y, rfl, h1, h2⟩
      cases h1 with
      | cons h3 h4 => exact .cons h3 (ih.mpr ⟨_, y, rfl, h4, h2⟩)

theorem alike_split {e e1 e2 : Elem} (h : ∀ G w, Derives G e w ↔ ∃ u v, w = u ++ v ∧ Derives G e1 u ∧ Derives G e2 v) (c : Concat) :
    AlikeConcat (⟨1, some 1, e⟩ :: c) (⟨1, some 1, e1⟩ :: ⟨1, some 1, e2⟩ :: c) := by
  intro G w
  rw [derivesConcat_cons, derivesConcat_cons]
  simp only [derivesConcat_cons, derivesRep_one, h]
  constructor
  · rintro ⟨_, z, rfl, ⟨x, y, rfl, h1, h2⟩, h3⟩
    exact ⟨x, y ++ z, by rw [List.append_assoc], h1, y, z, rfl, h2, h3⟩
  · rintro ⟨x, _, rfl, h1, y, z, rfl, h2, h3⟩
    exact ⟨x ++ y, z, by rw [List.append_assoc], ⟨x, y, rfl, h1, h2⟩, h3⟩

theorem alike_either {e e1 e2 : Elem} (h : ∀ G w, Derives G e w ↔ Derives G e1 w ∨ Derives G e2 w) (a : Alt) :
    AlikeAlt ([⟨1, some 1, e⟩] :: a) ([⟨1, some 1, e1⟩] :: [⟨1, some 1, e2⟩] :: a) := by
  intro G w
  rw [derivesAlt_cons, derivesAlt_cons, derivesAlt_cons, derivesConcat_one, derivesConcat_one, derivesConcat_one, derivesRep_one,
    derivesRep_one, derivesRep_one, h, or_assoc]

/-- C134.  A quoted string and a series of numbers can be cut in two. -/
theorem C134_cut :
    (∀ s vs ws c, AlikeConcat (⟨1, some 1, .charVal s (vs ++ ws)⟩ :: c) (⟨1, some 1, .charVal s vs⟩ :: ⟨1, some 1, .charVal s ws⟩ :: c)) ∧
    (∀ b es fs c, AlikeConcat (⟨1, some 1, .numVal b .series (es ++ fs)⟩ :: c)
      (⟨1, some 1, .numVal b .series es⟩ :: ⟨1, some 1, .numVal b .series fs⟩ :: c)) := by
  refine ⟨fun s vs ws c => alike_split (fun G w => ?_) c, fun b es fs c => alike_split (fun G w => ?_) c⟩
  · cases s with
    | true =>
      simp only [dChar, tSens, exists_eq_left, utf8_append]
      exact ⟨fun h => ⟨_, _, h, rfl, rfl⟩, by rintro ⟨_, _, rfl, rfl, rfl⟩; rfl⟩
    | false =>
      simp only [dChar, tInsens, forall2_append]
      constructor
      · rintro ⟨_, ⟨x, y, rfl, h1, h2⟩, rfl⟩
        exact ⟨_, _, utf8_append x y, ⟨x, h1, rfl⟩, y, h2, rfl⟩
      · rintro ⟨_, _, rfl, ⟨x, h1, rfl⟩, y, h2, rfl⟩
        exact ⟨x ++ y, ⟨x, y, rfl, h1, h2⟩, (utf8_append x y).symm⟩
  · simp only [dNum, tSeries, forall2_append]
    constructor
    · rintro ⟨_, ⟨x, y, rfl, h1, h2⟩, rfl⟩
      exact ⟨_, _, utf8_append x y, ⟨x, h1, rfl⟩, y, h2, rfl⟩
    · rintro ⟨_, _, rfl, ⟨x, h1, rfl⟩, y, h2, rfl⟩
      exact ⟨x ++ y, ⟨x, y, rfl, h1, h2⟩, (utf8_append x y).symm⟩

theorem forall2_rebase {b b' : Str} {es fs : List Str} (h : List.Forall₂ (fun s t => ∃ v, Denotes b s v ∧ Denotes b' t v) es fs) :
    ∀ cs : List Char, List.Forall₂ (fun s c => Denotes b s (Char.toNat c)) es cs ↔ List.Forall₂ (fun s c => Denotes b' s (Char.toNat c)) fs cs := by
  induction h with
  | nil => exact fun cs => ⟨fun h => by cases h; exact .nil, fun h => by cases h; exact .nil⟩
  | cons h1 _ ih =>
    obtain ⟨v, h2, h3⟩ := h1
    intro cs
    constructor
    · intro h
      cases h with
      | cons h4 h5 => exact .cons (denotes_fun h2 h4 ▸ h3) ((ih _).mp h5)
    · intro h
      cases h with
      | cons h4 h5 => exact .cons (denotes_fun h3 h4 ▸ h2) ((ih _).mpr h5)

/-- C134.  Numbers can be written in another base, with other digits and with leading zeros. -/
theorem C134_base (b b' : Str) :
    (∀ es fs, List.Forall₂ (fun s t => ∃ v, Denotes b s v ∧ Denotes b' t v) es fs → AlikeElem (.numVal b .series es) (.numVal b' .series fs)) ∧
    (∀ s t s' t' lo hi, Denotes b s lo → Denotes b t hi → Denotes b' s' lo → Denotes b' t' hi →
      AlikeElem (.numVal b .range [s, t]) (.numVal b' .range [s', t'])) := by
  refine ⟨fun es fs h G w => ?_, fun s t s' t' lo hi h1 h2 h3 h4 G w => ?_⟩
  · simp only [dNum, tSeries, forall2_rebase h]
  · simp only [dNum, tRange h1 h2, tRange h3 h4]

/-- C134.  A range can be cut in two, and a range of one number is that number. -/
theorem C134_range (b : Str) :
    (∀ s m m' t lo mid hi a, Denotes b s lo → Denotes b m mid → Denotes b m' (mid + 1) → Denotes b t hi → lo ≤ mid + 1 → mid ≤ hi →
      AlikeAlt ([⟨1, some 1, .numVal b .range [s, t]⟩] :: a)
        ([⟨1, some 1, .numVal b .range [s, m]⟩] :: [⟨1, some 1, .numVal b .range [m', t]⟩] :: a)) ∧
    (∀ s t v, Denotes b s v → Denotes b t v → AlikeElem (.numVal b .range [s, t]) (.numVal b .series [s])) := by
  refine ⟨fun s m m' t lo mid hi a h1 h2 h3 h4 h5 h6 => alike_either (fun G w => ?_) a, fun s t v h1 h2 G w => ?_⟩
  · simp only [dNum, tRange h1 h4, tRange h1 h2, tRange h3 h4]
    constructor
    · rintro ⟨_, ⟨c, rfl, h7, h8⟩, rfl⟩
      rcases Nat.lt_or_ge mid c.toNat with h | h
      · exact .inr ⟨_, ⟨c, rfl, h, h8⟩, rfl⟩
      · exact .inl ⟨_, ⟨c, rfl, h7, h⟩, rfl⟩
    · rintro (⟨_, ⟨c, rfl, h7, h8⟩, rfl⟩ | ⟨_, ⟨c, rfl, h7, h8⟩, rfl⟩)
      · exact ⟨_, ⟨c, rfl, h7, Nat.le_trans h8 h6⟩, rfl⟩
      · exact ⟨_, ⟨c, rfl, Nat.le_trans h5 h7, h8⟩, rfl⟩
  · simp only [dNum, tRange h1 h2, tSeries]
    constructor
    · rintro ⟨_, ⟨c, rfl, h3, h4⟩, rfl⟩
      have : v = c.toNat := Nat.le_antisymm h3 h4
      exact ⟨[c], .cons (this ▸ h1) .nil, rfl⟩
    · rintro ⟨_, h, rfl⟩
      cases h with
      | @cons _ c _ _ h3 h4 =>
        cases h4
        have := denotes_fun h1 h3
        exact ⟨[c], ⟨c, rfl, Nat.le_of_eq this, Nat.le_of_eq this.symm⟩, rfl⟩

theorem forall2_chars {b : Str} {vs : List Char} {es : List Str} (h : List.Forall₂ (fun c s => Denotes b s (Char.toNat c)) vs es) :
    ∀ cs : List Char, List.Forall₂ (fun s c => Denotes b s (Char.toNat c)) es cs ↔ cs = vs := by
  induction h with
  | nil => exact fun cs => ⟨fun h => by cases h; rfl, fun h => h ▸ .nil⟩
  | cons h1 _ ih =>
    intro cs
    constructor
    · intro h
      cases h with
      | cons h4 h5 =>
        rw [(ih _).mp h5, Char.toNat_inj.mp (denotes_fun h4 h1)]
    · rintro rfl
      exact .cons h1 ((ih _).mpr rfl)

/-- C134.  A case-sensitive string is the series of its code points; a letter in quotes is the letter in either case, and another
character in quotes is itself. -/
theorem C134_chars :
    (∀ b vs es, List.Forall₂ (fun c s => Denotes b s (Char.toNat c)) vs es → AlikeElem (.charVal true vs) (.numVal b .series es)) ∧
    (∀ c c' a, c ≠ c' → SameLetter c c' →
      AlikeAlt ([⟨1, some 1, .charVal false [c]⟩] :: a) ([⟨1, some 1, .charVal true [c]⟩] :: [⟨1, some 1, .charVal true [c']⟩] :: a)) ∧
    (∀ c, (∀ c', SameLetter c c' → c' = c) → AlikeElem (.charVal false [c]) (.charVal true [c])) := by
  have h1 : ∀ (c : Char) (cs : List Char), List.Forall₂ SameLetter [c] cs ↔ ∃ d, cs = [d] ∧ SameLetter c d := by
    intro c cs
    constructor
    · intro h
      cases h with
      | @cons _ d _ _ h2 h3 => cases h3; exact ⟨d, rfl, h2⟩
    · rintro ⟨d, rfl, h⟩; exact .cons h .nil
  refine ⟨fun b vs es h G w => ?_, fun c c' a hc hs => alike_either (fun G w => ?_) a, fun c h G w => ?_⟩
  · simp only [dChar, dNum, tSens, tSeries, forall2_chars h]
  · simp only [dChar, tSens, tInsens, h1, exists_eq_left]
    constructor
    · rintro ⟨_, ⟨d, rfl, h⟩, rfl⟩
      by_cases hd : d = c
      · subst hd; exact .inl rfl
      · right
        have : d = c' := by
          apply Char.toNat_inj.mp
          rcases h with rfl | ⟨h2, h3, h4⟩ | ⟨h2, h3, h4⟩
          · exact absurd rfl hd
          · rcases hs with rfl | ⟨_, _, h5⟩ | ⟨h5, _, _⟩
            · exact absurd rfl hc
            · omega
            · exact absurd (show (97 : Nat) ≤ 90 from Nat.le_trans (show (97 : Nat) ≤ c.toNat from h5) (show c.toNat ≤ 90 from h3)) (by decide)
          · rcases hs with rfl | ⟨_, h5, _⟩ | ⟨_, _, h5⟩
            · exact absurd rfl hc
            · exact absurd (show (97 : Nat) ≤ 90 from Nat.le_trans (show (97 : Nat) ≤ c.toNat from h2) (show c.toNat ≤ 90 from h5)) (by decide)
            · omega
        rw [this]
    · rintro (rfl | rfl)
      · exact ⟨_, ⟨c, rfl, .inl rfl⟩, rfl⟩
      · exact ⟨_, ⟨c', rfl, hs⟩, rfl⟩
  · simp only [dChar, tSens, tInsens, h1, exists_eq_left]
    constructor
    · rintro ⟨_, ⟨d, rfl, h2⟩, rfl⟩
      rw [h d h2]
    · rintro rfl
      exact ⟨_, ⟨c, rfl, .inl rfl⟩, rfl⟩

/-- `a = %x61-7A / "K!" / %s"hi" %d65`. -/
def plainTerms : Grammar := ⟨[⟨str% "a", [[Ex.one (.numVal ['x'] .range [str% "61", str% "7A"])], [Ex.one (.charVal false ['K', '!'])],
  [Ex.one (.charVal true ['h', 'i']), Ex.one (.numVal ['d'] .series [str% "65"])]]⟩]⟩

/-- `a = %x61-6D / %x6E-7A / "K" "!" / %x68.69 %x041`. -/
def otherTerms : Grammar := ⟨[⟨str% "a", [[Ex.one (.numVal ['x'] .range [str% "61", str% "6D"])], [Ex.one (.numVal ['x'] .range [str% "6E", str% "7A"])],
  [Ex.one (.charVal false ['K']), Ex.one (.charVal false ['!'])],
  [Ex.one (.numVal ['x'] .series [str% "68", str% "69"]), Ex.one (.numVal ['x'] .series [str% "041"])]]⟩]⟩

theorem denotes_65 : Denotes ['d'] (str% "65") 65 :=
  ⟨10, [6, 5], .dec, by decide, .cons (by decide) (.cons (by decide) .nil), rfl⟩

theorem terms_alike : AlikeRules plainTerms otherTerms := by
  refine .cons ⟨rfl, fun G w => ?_⟩ .nil
  refine ((C134_range ['x']).1 (str% "61") (str% "6D") (str% "6E") (str% "7A") 0x61 0x6D 0x7A _ (denotes_hex [6, 1] _ (by decide)) (denotes_hex [6, 13] _ (by decide))
    (denotes_hex [6, 14] _ (by decide)) (denotes_hex [7, 10] _ (by decide)) (by decide) (by decide) G w).trans ?_
  refine C133_within.2.2.2 _ _ _ _ (fun _ _ => Iff.rfl) (C133_within.2.2.2 _ _ _ _ (fun _ _ => Iff.rfl)
    (C133_within.2.2.2 _ _ _ _ (C134_cut.1 false ['K'] ['!'] []) (C133_within.2.2.2 _ _ _ _ ?_ fun _ _ => Iff.rfl))) G w
  refine C133_within.2.2.1 _ _ _ _ (C133_within.2.1 _ _ _ _ (C134_chars.1 ['x'] _ _ ?_))
    (C133_within.2.2.1 _ _ _ _ (C133_within.2.1 _ _ _ _ ((C134_base _ _).1 _ _ (.cons ⟨65, denotes_65, denotes_hex [0, 4, 1] _ (by decide)⟩ .nil)))
      fun _ _ => Iff.rfl)
  exact .cons (denotes_hex [6, 8] _ (by decide)) (.cons (denotes_hex [6, 9] _ (by decide)) .nil)

/-- C134: the laws turn one grammar into the other, and both accept a text of each alternative. -/
example : AlikeRules plainTerms otherTerms ∧ NamesDistinct plainTerms ∧ NumValsWF plainTerms ∧ DistinctPrint plainTerms ∧ NumValsWF otherTerms ∧
    DistinctPrint otherTerms ∧ ([bytes% "q", bytes% "k!", bytes% "hiA"].all fun w =>
      match parseForest fwd w plainTerms (str% "a") 0 0, parseForest fwd w otherTerms (str% "a") 0 0 with
      | .ok f, .ok f' => f.valid && f'.valid | _, _ => false) = true :=
  ⟨terms_alike, namesDistinct_of (by decide), numValsWF_of (by decide), distinctPrint_of (by decide +kernel), numValsWF_of (by decide),
    distinctPrint_of (by decide +kernel), by decide +kernel⟩

/-- C134_base and C134_range: `%x41-5A` is `%d65-%d90`, and `%d65-65` is `%d65`. -/
example : Denotes ['x'] (str% "41") 65 ∧ Denotes ['x'] (str% "5A") 90 ∧ Denotes ['d'] (str% "65") 65 ∧ Denotes ['d'] (str% "90") 90 ∧
    AlikeElem (.numVal ['d'] .range [str% "65", str% "65"]) (.numVal ['d'] .series [str% "65"]) :=
  ⟨denotes_hex [4, 1] _ (by decide), denotes_hex [5, 10] _ (by decide), denotes_65,
    ⟨10, [9, 0], .dec, by decide, .cons (by decide) (.cons (by decide) .nil), rfl⟩, (C134_range ['d']).2 _ _ 65 denotes_65 denotes_65⟩

/-- C134_chars: `k` has another case, and `!` has none. -/
example : ('k' ≠ 'K' ∧ SameLetter 'k' 'K') ∧ ∀ c', SameLetter '!' c' → c' = '!' := by
  refine ⟨⟨by decide, .inr (.inr ⟨by decide, by decide, by decide⟩)⟩, fun c' h => ?_⟩
  rcases h with rfl | ⟨h, _⟩ | ⟨h, _⟩
  · rfl
  · exact absurd h (by decide)
  · exact absurd h (by decide)

end Verif.Props
