import Verif.RegexLemmas

/-! # Lemmas: rendered trees are read back by RE2 as patterns with the same language -/

namespace Verif
open Spec RE2

mutual
/-- What a tree needs for its rendering to be a pattern: ranges of code points, no empty class, no surrogate alone in a
range, counts RE2 accepts, and, if `strict`, no empty alternation. -/
def Re.Shape (strict : Prop) : Re → Prop
  | .cls rs => rs ≠ [] ∧ (∀ r ∈ rs, r.1 ≤ r.2 ∧ r.2 ≤ maxRune) ∧ ∀ v, (v, v) ∈ rs → validRune v = true
  | .concat ps => allShape strict ps
  | .alt os => (strict → os ≠ []) ∧ allShape strict os
  | .rep p mn mx => mn ≤ 1000 ∧ (∀ m, mx = some m → mn ≤ m ∧ m ≤ 1000) ∧ Re.Shape strict p
  | .empty => True
  | .never => True
/-- On a list. -/
def allShape (strict : Prop) : List Re → Prop
  | [] => True
  | p :: ps => Re.Shape strict p ∧ allShape strict ps
end

/-- Ready to be rendered. -/
abbrev Re.Ready (r : Re) : Prop := r.Shape True
/-- On a list. -/
abbrev allReady (rs : List Re) : Prop := allShape True rs

theorem allShape_iff {s : Prop} {rs : List Re} : allShape s rs ↔ ∀ r ∈ rs, r.Shape s := by
  induction rs with
  | nil => simp [allShape]
  | cons r rs ih => simp [allShape, ih]

/-! ## Numbers and characters -/

theorem denotes_toDigits_hex (v : Nat) : Denotes ['x'] (Nat.toDigits 16 v) v := by
  obtain ⟨ds, h1, h2⟩ := toDigits_digits (r := 16) (by decide) (by decide) v
  exact ⟨16, ds, .hex, Nat.toDigits_ne_nil, h1, h2.symm⟩

theorem toDigits_head (n : Nat) (h : (itoa n).head? = some '0') : n = 0 := by
  induction n using Nat.strong_induction_on with
  | _ n ih =>
    unfold itoa at h ih
    rw [Nat.toDigits_eq_if (by decide)] at h
    split_ifs at h with hn
    · simp only [List.head?_cons, Option.some.injEq] at h
      interval_cases n <;> first | rfl | exact absurd h (by decide)
    · rw [List.head?_append_of_ne_nil _ Nat.toDigits_ne_nil] at h
      have := ih (n / 10) (by omega) h
      omega

theorem count_itoa {n : Nat} (h : n ≤ 1000) : Count (itoa n) n := by
  obtain ⟨ds, h1, h2⟩ := toDigits_digits (r := 10) (by decide) (by decide) n
  refine ⟨⟨10, ds, .dec, Nat.toDigits_ne_nil, h1, h2.symm⟩, fun h3 => ?_, h⟩
  obtain rfl := toDigits_head n h3
  decide

theorem runeChar_toNat {v : Nat} (h : validRune v = true) : (runeChar v).toNat = v := by
  rw [runeChar, if_pos h]
  exact toNat_ofNat_char ((validRune_iff v).mp h)

theorem punct_special : ∀ c ∈ reMeta, Punct c := by
  unfold Punct reMeta
  decide

theorem atom_regescape {v : Nat} (h : validRune v = true) (s : Str) : Atom (regescape v ++ s) (.set false [(v, v)]) s := by
  have e := runeChar_toNat h
  unfold regescape
  split_ifs with hm
  · have := Atom.esc (runeChar v) s (punct_special _ hm)
    rwa [e] at this
  · have := Atom.lit (runeChar v) s hm
    rwa [e] at this

theorem isAlnum_lt {v : Nat} (h : isAlnum v = true) : v < 128 := by
  simp only [isAlnum, Bool.or_eq_true, Bool.and_eq_true, decide_eq_true_eq] at h
  have : 'z'.toNat = 122 := rfl
  have : 'Z'.toNat = 90 := rfl
  have : '9'.toNat = 57 := rfl
  omega

theorem member_classEscape {v : Nat} (h : v ≤ maxRune) (s : Str) : Member (classEscape v ++ s) v s := by
  unfold classEscape
  split_ifs with ha
  · have hv : (Char.ofNat v).toNat = v := toNat_ofNat_char (.inl (by have := isAlnum_lt ha; omega))
    have := Member.plain (Char.ofNat v) s (by rw [hv]; exact ha)
    rwa [hv] at this
  · have := Member.hex (Nat.toDigits 16 v) v s (denotes_toDigits_hex v) h
    simpa using this

/-- What follows a member of a class is no dash. -/
theorem classEscape_dash (v : Nat) (s u : Str) : classEscape v ++ s ≠ '-' :: u := by
  unfold classEscape
  split_ifs with ha
  · intro h
    simp only [List.singleton_append, List.cons.injEq] at h
    have hv : (Char.ofNat v).toNat = v := toNat_ofNat_char (.inl (by have := isAlnum_lt ha; omega))
    rw [h.1] at hv
    subst hv
    exact absurd ha (by decide)
  · simp

theorem members_render : ∀ (rs : List (Nat × Nat)) (s : Str), (∀ r ∈ rs, r.1 ≤ r.2 ∧ r.2 ≤ maxRune) →
    Members (rs.flatMap renderRange ++ ']' :: s) rs s ∧ ∀ u, rs.flatMap renderRange ++ ']' :: s ≠ '-' :: u
  | [], s, _ => ⟨.close s, by simp⟩
  | (lo, hi) :: rs, s, h => by
    obtain ⟨h1, h2⟩ := members_render rs s fun r hr => h r (List.mem_cons_of_mem _ hr)
    have h3 := h _ (List.mem_cons_self ..)
    simp only at h3
    simp only [List.flatMap_cons, renderRange]
    split_ifs with he
    · subst he
      rw [List.append_assoc]
      exact ⟨.one _ _ _ _ _ (member_classEscape h3.2 _) h2 h1, fun u => classEscape_dash _ _ u⟩
    · have e : classEscape lo ++ ['-'] ++ classEscape hi ++ rs.flatMap renderRange ++ ']' :: s =
          classEscape lo ++ ('-' :: (classEscape hi ++ (rs.flatMap renderRange ++ ']' :: s))) := by simp
      rw [e]
      exact ⟨.range _ _ _ _ _ _ _ (member_classEscape (by omega) _) (member_classEscape h3.2 _) h3.1 h1,
        fun u => classEscape_dash _ _ u⟩

theorem atom_class {rs : List (Nat × Nat)} (h : (Re.cls rs).Ready) (s : Str) :
    Atom (renderClass rs ++ s) (.set false rs) s := by
  obtain ⟨h1, h2, h3⟩ := h
  have hm := (members_render rs s h2).1
  have hc : Atom ('[' :: (rs.flatMap renderRange ++ ']' :: s)) (.set false rs) s := .cls _ _ _ hm h1
  unfold renderClass
  match rs, h1, h2, h3, hc with
  | [(lo, hi)], h1, h2, h3, hc =>
    simp only
    split_ifs with he
    · subst he
      exact atom_regescape (h3 lo (by simp)) s
    · simpa using hc
  | r :: q :: rs, h1, h2, h3, hc => simpa using hc

theorem atom_never (s : Str) : Atom ((str% "[^\\x00-\\x{10ffff}]") ++ s) (.set true [(0, 0x10FFFF)]) s := by
  refine .negCls ((str% "\\x00-\\x{10ffff}]") ++ s) _ _ ?_ (by simp)
  refine .range _ 0 ((str% "\\x{10ffff}]") ++ s) 0x10FFFF (']' :: s) [] s ?_ ?_ (by decide) (.close s)
  · exact .hex2 '0' '0' 0 _ (denotes_hex [0, 0] 0 (by decide))
  · exact .hex (str% "10ffff") 0x10FFFF _ (denotes_hex [1, 0, 15, 15, 15, 15] _ (by decide)) (by decide)

theorem quant_render {mn : Nat} {mx : Option Nat} (h1 : mn ≤ 1000) (h2 : ∀ m, mx = some m → mn ≤ m ∧ m ≤ 1000) {s : Str}
    (hs : opensQuant s = false) : Quant (quantifier mn mx ++ s) (some (mn, mx)) s := by
  unfold quantifier
  by_cases h3 : mn = 0 ∧ mx = some 1
  · rw [if_pos h3, h3.1, h3.2]; exact .opt s hs
  rw [if_neg h3]
  by_cases h4 : mn = 0 ∧ mx = none
  · rw [if_pos h4, h4.1, h4.2]; exact .star s hs
  rw [if_neg h4]
  by_cases h5 : mn = 1 ∧ mx = none
  · rw [if_pos h5, h5.1, h5.2]; exact .plus s hs
  rw [if_neg h5]
  cases mx with
  | none => simpa using Quant.atLeast (itoa mn) mn s (count_itoa h1) hs
  | some m =>
    obtain ⟨h6, h7⟩ := h2 m rfl
    simp only
    split_ifs with h8 h9
    · subst h8
      simpa using Quant.exactly (itoa mn) mn s (count_itoa h1) hs
    · subst h9
      have := Quant.between (itoa 0) (itoa m) 0 m s (count_itoa h1) (count_itoa h7) h6 hs
      simpa [itoa] using this
    · simpa using Quant.between (itoa mn) (itoa m) mn m s (count_itoa h1) (count_itoa h7) h6 hs

/-! ## Structure -/

theorem atom_opens {s t : Str} {p : Pat} (h : Atom s p t) : opensQuant s = false := by
  cases h with
  | lit c s h =>
    unfold special at h
    simp only [List.mem_cons, not_or] at h
    unfold opensQuant
    split <;> simp_all
  | esc => rfl
  | cls => rfl
  | negCls => rfl
  | group => rfl

theorem items_opens {s t : Str} {ps : List Pat} (h : Items s ps t) : opensQuant s = false := by
  cases h with
  | stop s h => rcases h with rfl | ⟨t, rfl⟩ | ⟨t, rfl⟩ <;> rfl
  | item _ _ _ _ _ _ h => exact atom_opens h
  | rep _ _ _ _ _ _ _ _ h => exact atom_opens h

/-- The text reads as an atom. -/
def AsAtom (x : Str) (p : Pat) : Prop := ∀ s, Atom (x ++ s) p s
/-- The text reads as items, whatever items follow. -/
def AsItems (x : Str) (ps : List Pat) : Prop := ∀ s qs t, Items s qs t → Items (x ++ s) (ps ++ qs) t
/-- The text reads as alternatives, whatever alternatives follow. -/
def AsAlts (x : Str) (ps : List Pat) : Prop :=
  (∀ s, (s = [] ∨ ∃ t, s = ')' :: t) → Alts (x ++ s) ps s) ∧
  ∀ t qs u, Alts t qs u → Alts (x ++ '|' :: t) (ps ++ qs) u

theorem AsAtom.items {x : Str} {p : Pat} (h : AsAtom x p) : AsItems x [p] := fun s _ _ hs =>
  .item _ _ _ _ _ _ (h s) (.none s (items_opens hs)) hs

theorem AsItems.alts {x : Str} {ps : List Pat} (h : AsItems x ps) : AsAlts x [.seq ps] := by
  refine ⟨fun s hs => ?_, fun t qs u ht => ?_⟩
  · have := h s [] s (.stop s (by rcases hs with h | h <;> simp [h]))
    rw [List.append_nil] at this
    exact .last _ _ _ this hs
  · have := h ('|' :: t) [] ('|' :: t) (.stop _ (by simp))
    rw [List.append_nil] at this
    exact .more _ _ _ _ _ this ht

theorem AsAlts.group {x : Str} {ps : List Pat} (h : AsAlts x ps) : AsAtom ((str% "(?:") ++ x ++ (str% ")")) (.any ps) := by
  intro s
  have := h.1 (')' :: s) (.inr ⟨s, rfl⟩)
  simpa using Atom.group _ _ _ this

theorem AsAlts.bar {x y : Str} {ps qs : List Pat} (h : AsAlts x ps) (h' : AsAlts y qs) :
    AsAlts (x ++ '|' :: y) (ps ++ qs) := by
  refine ⟨fun s hs => ?_, fun t rs u ht => ?_⟩
  · simpa using h.2 _ _ _ (h'.1 s hs)
  · simpa using h.2 _ _ _ (h'.2 t rs u ht)

theorem AsItems.append {x y : Str} {ps qs : List Pat} (h : AsItems x ps) (h' : AsItems y qs) :
    AsItems (x ++ y) (ps ++ qs) := fun s rs t hs => by
  simpa using h _ _ _ (h' s rs t hs)

theorem patSeq_append (ps qs : List Pat) (w : List Char) :
    patSeq (ps ++ qs) w ↔ ∃ u v, w = u ++ v ∧ patSeq ps u ∧ patSeq qs v := by
  induction ps generalizing w with
  | nil => simp [patSeq]
  | cons p ps ih =>
    simp only [List.cons_append, patSeq, ih]
    constructor
    · rintro ⟨u, v, rfl, h1, a, b, rfl, h2, h3⟩
      exact ⟨u ++ a, b, by simp, ⟨u, a, rfl, h1, h2⟩, h3⟩
    · rintro ⟨_, b, rfl, ⟨u, a, rfl, h1, h2⟩, h3⟩
      exact ⟨u, a ++ b, by simp, h1, a, b, rfl, h2, h3⟩

theorem patAny_append (ps qs : List Pat) (w : List Char) : patAny (ps ++ qs) w ↔ patAny ps w ∨ patAny qs w := by
  induction ps with
  | nil => simp [patAny]
  | cons p ps ih => simp [patAny, ih, or_assoc]

/-- A tree read in the three contexts. -/
structure Readable (r : Re) : Prop where
  atom : ∃ p, AsAtom (renderStr r 4) p ∧ ∀ w, p.Lang w ↔ r.Lang w
  items : ∃ ps, AsItems (renderStr r 2) ps ∧ ∀ w, patSeq ps w ↔ r.Lang w
  alts : ∃ ps, AsAlts (renderStr r 1) ps ∧ ∀ w, patAny ps w ↔ r.Lang w

theorem readable_of_atom {r : Re} (h2 : renderStr r 2 = renderStr r 4) (h1 : renderStr r 1 = renderStr r 4) {p : Pat}
    (h : AsAtom (renderStr r 4) p) (hl : ∀ w, p.Lang w ↔ r.Lang w) : Readable r :=
  ⟨⟨p, h, hl⟩, ⟨[p], by rw [h2]; exact h.items, fun w => by simp [patSeq, hl]⟩,
    ⟨[.seq [p]], by rw [h1]; exact h.items.alts, fun w => by simp [patAny, Pat.Lang, patSeq, hl]⟩⟩

theorem readable_of_items {r : Re} (h1 : renderStr r 1 = renderStr r 2)
    (h4 : renderStr r 4 = (str% "(?:") ++ renderStr r 2 ++ (str% ")")) {ps : List Pat}
    (h : AsItems (renderStr r 2) ps) (hl : ∀ w, patSeq ps w ↔ r.Lang w) : Readable r :=
  ⟨⟨.any [.seq ps], by rw [h4]; exact h.alts.group, fun w => by simp [Pat.Lang, patAny, hl]⟩, ⟨ps, h, hl⟩,
    ⟨[.seq ps], by rw [h1]; exact h.alts, fun w => by simp [patAny, Pat.Lang, hl]⟩⟩

mutual
theorem render_readable : (r : Re) → r.Ready → Readable r
  | .cls rs, h => by
    have e : ∀ n, ¬ 4 < n → renderStr (.cls rs) n = renderClass rs := by
      intro n hn
      simp [renderStr, renderWrites, Re.prec, grouped, hn]
    refine readable_of_atom (p := .set false rs) (by rw [e 2 (by decide), e 4 (by decide)])
      (by rw [e 1 (by decide), e 4 (by decide)]) ?_ fun w => by simp [Pat.Lang, Re.Lang]
    rw [e 4 (by decide)]
    exact atom_class h
  | .empty, _ => by
    refine readable_of_atom (p := .any [.seq []]) rfl rfl ?_ fun w => by simp [Pat.Lang, patAny, patSeq, Re.Lang]
    intro s
    exact .group (')' :: s) _ s (.last _ _ _ (.stop _ (by simp)) (by simp))
  | .never, _ => by
    refine readable_of_atom (p := .set true [(0, 0x10FFFF)]) rfl rfl ?_ fun w => ?_
    · exact atom_never
    · simp only [Pat.Lang, Re.Lang, iff_false]
      rintro ⟨c, _, h⟩
      simp only [if_true] at h
      apply h
      refine ⟨(0, 0x10FFFF), by simp, Nat.zero_le _, ?_⟩
      rcases char_valid c with h | h
      · simp only; omega
      · simp only; omega
  | .concat ps, h => by
    obtain ⟨qs, h1, h2⟩ := renderParts_readable ps h
    have e : ∀ n, ¬ 2 < n → renderStr (.concat ps) n = (renderParts ps).flatten := by
      intro n hn
      simp [renderStr, renderWrites, Re.prec, grouped, hn]
    refine readable_of_items (by rw [e 1 (by decide), e 2 (by decide)]) ?_ (by rw [e 2 (by decide)]; exact h1)
      fun w => by rw [h2]; simp [Re.Lang]
    rw [e 2 (by decide)]
    simp [renderStr, renderWrites, Re.prec, grouped]
  | .alt [], h => by
    exact absurd rfl (h.1 trivial)
  | .alt (o :: os), h => by
    obtain ⟨ps, h1, h2⟩ := (render_readable o h.2.1).alts
    obtain ⟨qs, h3, h4⟩ := renderMore_readable os h.2.2 _ _ h1
    have e : renderStr (.alt (o :: os)) 1 = renderStr o 1 ++ (renderMore os).flatten := by
      simp [renderStr, renderWrites, renderOpts, Re.prec, grouped]
    have e' : ∀ n, 1 < n → renderStr (.alt (o :: os)) n = (str% "(?:") ++ renderStr (.alt (o :: os)) 1 ++ (str% ")") := by
      intro n hn
      simp [renderStr, renderWrites, Re.prec, grouped, hn]
    have hl : ∀ w, patAny (ps ++ qs) w ↔ (Re.alt (o :: os)).Lang w := fun w => by
      rw [patAny_append, h2, h4]; simp [Re.Lang, altLang]
    rw [← e] at h3
    refine ⟨⟨_, by rw [e' 4 (by decide)]; exact h3.group, fun w => by simp only [Pat.Lang]; exact hl w⟩,
      ⟨[.any (ps ++ qs)], by rw [e' 2 (by decide)]; exact h3.group.items, fun w => ?_⟩, ⟨_, h3, hl⟩⟩
    rw [← hl w]
    simp [patSeq, Pat.Lang]
  | .rep p mn mx, h => by
    obtain ⟨q, h1, h2⟩ := (render_readable p h.2.2).atom
    have e : ∀ n, ¬ 3 < n → renderStr (.rep p mn mx) n = renderStr p 4 ++ quantifier mn mx := by
      intro n hn
      simp [renderStr, renderWrites, Re.prec, grouped, hn]
    refine readable_of_items (ps := [.rep q mn mx]) (by rw [e 1 (by decide), e 2 (by decide)]) ?_ ?_ fun w => ?_
    · rw [e 2 (by decide)]
      simp [renderStr, renderWrites, Re.prec, grouped]
    · rw [e 2 (by decide)]
      intro s qs t hs
      rw [List.append_assoc]
      exact .rep _ _ _ _ _ _ _ _ (h1 _) (quant_render h.1 h.2.1 (items_opens hs)) hs
    · have := repBetween_congr h2 mn mx w
      simp [patSeq, Pat.Lang, Re.Lang, this]
theorem renderParts_readable : (rs : List Re) → allReady rs →
    ∃ ps, AsItems (renderParts rs).flatten ps ∧ ∀ w, patSeq ps w ↔ seqLang rs w
  | [], _ => ⟨[], fun _ _ _ h => h, fun w => by simp [patSeq, seqLang]⟩
  | r :: rs, h => by
    obtain ⟨ps, h1, h2⟩ := (render_readable r h.1).items
    obtain ⟨qs, h3, h4⟩ := renderParts_readable rs h.2
    refine ⟨ps ++ qs, ?_, fun w => ?_⟩
    · have := h1.append h3
      simpa [renderParts, renderStr] using this
    · rw [patSeq_append]
      simp only [h2, h4, seqLang]
theorem renderMore_readable : (rs : List Re) → allReady rs → ∀ x ps, AsAlts x ps →
    ∃ qs, AsAlts (x ++ (renderMore rs).flatten) (ps ++ qs) ∧ ∀ w, patAny qs w ↔ altLang rs w
  | [], _, x, ps, hx => ⟨[], by simpa [renderMore] using hx, fun w => by simp [patAny, altLang]⟩
  | r :: rs, h, x, ps, hx => by
    obtain ⟨qs, h1, h2⟩ := (render_readable r h.1).alts
    obtain ⟨ts, h3, h4⟩ := renderMore_readable rs h.2 _ _ (hx.bar h1)
    refine ⟨qs ++ ts, ?_, fun w => ?_⟩
    · simpa [renderMore, renderStr] using h3
    · rw [patAny_append, h2, h4]
      simp [altLang]
end

/-- A rendered tree is a pattern with the language of the tree. -/
theorem render_reads {r : Re} (h : r.Ready) : ∃ p, Reads (renderStr r 1) p ∧ ∀ w, p.Lang w ↔ r.Lang w := by
  obtain ⟨ps, h1, h2⟩ := (render_readable r h).alts
  refine ⟨.any ps, ⟨ps, ?_, rfl⟩, fun w => by simp only [Pat.Lang]; exact h2 w⟩
  have := h1.1 [] (.inl rfl)
  rwa [List.append_nil] at this

/-! ## Simplified trees are ready -/

theorem pairwise_mem {α : Type} {R : α → α → Prop} {l : List α} (h : l.Pairwise R) {a b : α} (ha : a ∈ l) (hb : b ∈ l) :
    a = b ∨ R a b ∨ R b a := by
  induction l with
  | nil => cases ha
  | cons c l ih =>
    rw [List.pairwise_cons] at h
    rcases List.mem_cons.mp ha with ea | ha' <;> rcases List.mem_cons.mp hb with eb | hb'
    · exact .inl (ea.trans eb.symm)
    · exact .inr (.inl (ea ▸ h.1 _ hb'))
    · exact .inr (.inr (eb ▸ h.1 _ ha'))
    · exact ih h.2 ha' hb'

theorem shape_ready_class {rs : List (Nat × Nat)} {s : Prop} (h : (Re.cls rs).Shape s) :
    (Re.cls (normalizeRanges rs)).Ready := by
  obtain ⟨h1, h2, h3⟩ := h
  refine ⟨normalize_ne_nil h1, normalize_valid h2, fun v hm => ?_⟩
  obtain ⟨q, hq, h4, h5⟩ := (normalize_mem rs v).mp ⟨(v, v), hm, Nat.le_refl _, Nat.le_refl _⟩
  obtain ⟨t, ht, h6, h7⟩ := normalize_covers rs q hq
  have e : t = (v, v) := by
    rcases pairwise_mem (normalize_apart rs) ht hm with h | h | h
    · exact h
    · simp only at h; omega
    · simp only at h; omega
  have : q = (v, v) := by
    rw [e] at h6 h7
    simp only at h6 h7
    exact Prod.ext (by simp only; omega) (by simp only; omega)
  exact h3 v (this ▸ hq)

theorem mkConcat_ready {sps : List Re} (h : ∀ p ∈ sps, p.Ready) : (mkConcat sps).Ready := by
  have hp : ∀ p ∈ sps.flatMap concatParts, p.Ready := by
    intro p hp
    obtain ⟨q, h1, h2⟩ := List.mem_flatMap.mp hp
    have hq := h q h1
    cases q with
    | empty => simp [concatParts] at h2
    | never => simp [concatParts] at h2
    | concat ps => exact allShape_iff.mp hq p h2
    | cls _ => rw [concatParts, List.mem_singleton] at h2 <;> simp_all
    | alt _ => rw [concatParts, List.mem_singleton] at h2 <;> simp_all
    | rep _ _ _ => rw [concatParts, List.mem_singleton] at h2 <;> simp_all
  unfold mkConcat
  simp only
  split_ifs
  · trivial
  · match sps.flatMap concatParts, hp with
    | [], _ => trivial
    | [p], hp => exact hp p (by simp)
    | p :: q :: ps, hp => exact allShape_iff.mpr hp

theorem classRanges_of {os : List Re} {r : Nat × Nat} : r ∈ classRanges os ↔ ∃ rs, Re.cls rs ∈ os ∧ r ∈ rs := by
  induction os with
  | nil => simp [classRanges]
  | cons o os ih =>
    cases o with
    | cls rs =>
      rw [classRanges, List.mem_append, ih]
      constructor
      · rintro (h | ⟨ss, h1, h2⟩)
        · exact ⟨rs, List.mem_cons_self .., h⟩
        · exact ⟨ss, List.mem_cons_of_mem _ h1, h2⟩
      · rintro ⟨ss, h1, h2⟩
        rcases List.mem_cons.mp h1 with h1 | h1
        · cases h1; exact .inl h2
        · exact .inr ⟨ss, h1, h2⟩
    | _ =>
      rw [classRanges, ih]
      · simp
      · intro; simp

theorem mkAlt_ready {sos : List Re} (h : ∀ p ∈ sos, p.Ready) : (mkAlt sos).Ready := by
  have ho : ∀ p ∈ sos.flatMap altOpts, p.Ready := by
    intro p hp
    obtain ⟨q, h1, h2⟩ := List.mem_flatMap.mp hp
    have hq := h q h1
    cases q with
    | never => simp [altOpts] at h2
    | alt ps => exact allShape_iff.mp hq.2 p h2
    | empty => rw [altOpts, List.mem_singleton] at h2 <;> simp_all
    | concat _ => rw [altOpts, List.mem_singleton] at h2 <;> simp_all
    | cls _ => rw [altOpts, List.mem_singleton] at h2 <;> simp_all
    | rep _ _ _ => rw [altOpts, List.mem_singleton] at h2 <;> simp_all
  have hm : ∀ p ∈ (if (sos.flatMap altOpts).any Re.isClass then Re.cls (normalizeRanges (classRanges (sos.flatMap altOpts))) ::
      (sos.flatMap altOpts).filter (fun o => !o.isClass) else (sos.flatMap altOpts).filter fun o => !o.isClass), p.Ready := by
    intro p hp
    split_ifs at hp with hc
    · rcases List.mem_cons.mp hp with rfl | hp
      · refine shape_ready_class (s := True) ⟨?_, ?_, ?_⟩
        · obtain ⟨o, h1, h2⟩ := List.any_eq_true.mp hc
          cases o <;> simp [Re.isClass] at h2
          case cls rs =>
          obtain ⟨h3, _, _⟩ := ho _ h1
          obtain ⟨r, hr⟩ := List.exists_mem_of_ne_nil _ h3
          exact List.ne_nil_of_mem (classRanges_of.mpr ⟨rs, h1, hr⟩)
        · intro r hr
          obtain ⟨rs, h1, h2⟩ := classRanges_of.mp hr
          exact (ho _ h1).2.1 r h2
        · intro v hr
          obtain ⟨rs, h1, h2⟩ := classRanges_of.mp hr
          exact (ho _ h1).2.2 v h2
      · exact ho p (List.mem_filter.mp hp).1
    · exact ho p (List.mem_filter.mp hp).1
  unfold mkAlt
  simp only
  revert hm
  match (if (sos.flatMap altOpts).any Re.isClass then Re.cls (normalizeRanges (classRanges (sos.flatMap altOpts))) ::
      (sos.flatMap altOpts).filter (fun o => !o.isClass) else (sos.flatMap altOpts).filter fun o => !o.isClass) with
  | [] => intro _; trivial
  | [o] => intro hm; exact hm o (by simp)
  | o :: p :: os => intro hm; exact ⟨fun _ => by simp, allShape_iff.mpr hm⟩

theorem mkRep_ready {sub : Re} {mn : Nat} {mx : Option Nat} (h : (Re.rep sub mn mx).Ready) : (mkRep sub mn mx).Ready := by
  unfold mkRep
  split_ifs
  · trivial
  · trivial
  · trivial
  · exact h.2.2
  · exact h

mutual
theorem simplify_ready {s : Prop} : (r : Re) → r.Shape s → (simplify r).Ready
  | .cls _, h => shape_ready_class h
  | .empty, _ => trivial
  | .never, _ => trivial
  | .concat ps, h => mkConcat_ready (simplifyAll_ready ps h)
  | .alt os, h => mkAlt_ready (simplifyAll_ready os h.2)
  | .rep p _ _, h => mkRep_ready ⟨h.1, h.2.1, simplify_ready p h.2.2⟩
theorem simplifyAll_ready {s : Prop} : (ps : List Re) → allShape s ps → ∀ p ∈ simplifyAll ps, p.Ready
  | [], _, p, hp => by simp [simplifyAll] at hp
  | q :: ps, h, p, hp => by
    rw [simplifyAll] at hp
    rcases List.mem_cons.mp hp with rfl | hp
    · exact simplify_ready q h.1
    · exact simplifyAll_ready ps h.2 p hp
end

mutual
theorem shape_bounds {s : Prop} : (r : Re) → r.Shape s → r.BoundsOK
  | .cls _, _ => trivial
  | .empty, _ => trivial
  | .never, _ => trivial
  | .concat ps, h => allShape_bounds ps h
  | .alt os, h => allShape_bounds os h.2
  | .rep p _ _, h => ⟨fun m hm => (h.2.1 m hm).1, shape_bounds p h.2.2⟩
theorem allShape_bounds {s : Prop} : (ps : List Re) → allShape s ps → allBoundsOK ps
  | [], _ => trivial
  | p :: ps, h => ⟨shape_bounds p h.1, allShape_bounds ps h.2⟩
end

end Verif
