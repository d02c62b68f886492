import Verif.Eval
import Verif.AbnfLex

/-! # The evaluation of a tree is what its text says -/

namespace Verif
open Spec

namespace Eval
open Once Text Spelt

/-- How the code understands repeat counts and operators (/repo/grammar.go:203-206, 258-273): a count stops at the
largest `int`, and a definition adds to a rule if `=/` occurs anywhere between the name and the alternatives. -/
def code : Conv := ⟨atoi, fun g₁ b g₂ => contains (str% "=/") (g₁ ++ ((if b then str% "=/" else str% "=") ++ g₂))⟩

/-! ## Spans -/

/-- Only ASCII characters. -/
def Ascii (s : Str) : Prop := ∀ c ∈ s, c.toNat < 128

theorem Ascii.append {s t : Str} (hs : Ascii s) (ht : Ascii t) : Ascii (s ++ t) := by
  intro c hc
  rcases List.mem_append.mp hc with h | h
  · exact hs c h
  · exact ht c h

theorem utf8_ascii {s : Str} (h : Ascii s) : utf8 s = s.map fun c => UInt8.ofNat c.toNat := by
  induction s with
  | nil => rfl
  | cons c s ih =>
    have hc : c.toNat < 128 := h c (List.mem_cons_self ..)
    have e : String.utf8EncodeChar c = [UInt8.ofNat c.toNat] := by
      simp [String.utf8EncodeChar]
      omega
    have := ih fun d hd => h d (List.mem_cons_of_mem _ hd)
    unfold utf8 at this ⊢
    rw [List.flatMap_cons, e, this]
    rfl

theorem bytes_text {s : Str} (h : Ascii s) : (utf8 s).map (fun b => Char.ofNat b.toNat) = s := by
  rw [utf8_ascii h, List.map_map]
  conv_rhs => rw [← List.map_id s]
  refine List.map_congr_left fun c hc => ?_
  have : c.toNat < 128 := h c hc
  simp only [Function.comp_apply, id]
  apply char_of_toNat
  have e : (UInt8.ofNat c.toNat).toNat = c.toNat := by
    rw [UInt8.toNat_ofNat']; omega
  rw [e, Char.ofNat_toNat]

theorem span_eq {inp : Bytes} {n : Str} {i j : Nat} {ch : List ParseTree} {s : Str} (hat : At inp i j (utf8 s)) (h : Ascii s) :
    span inp (.node n i j ch) = s := by
  unfold span
  simp only [ParseTree.start, ParseTree.fin]
  obtain ⟨⟨r, h1⟩, h2⟩ := hat
  rw [← h1, show j - i = (utf8 s).length by omega, List.take_left', bytes_text h]
  rfl

theorem gap_ascii {g : Str} (h : Gap g) : Ascii g := by
  have hw : ∀ {c}, Wsp c → c.toNat < 128 := by rintro c (rfl | rfl) <;> decide
  have hl : ∀ {s}, LineEnd s → Ascii s := by
    intro s h
    cases h with
    | plain => intro c hc; simp at hc; rcases hc with rfl | rfl <;> decide
    | comment s hs =>
      intro c hc
      simp only [List.mem_cons, List.mem_append, List.not_mem_nil, or_false] at hc
      rcases hc with rfl | hc | rfl | rfl
      · decide
      · rcases hs c hc with h | h
        · exact hw h
        · have := h.2; omega
      · decide
      · decide
  induction h with
  | nil => intro c hc; cases hc
  | cons a b ha _ ih =>
    refine Ascii.append ?_ ih
    cases ha with
    | wsp c h => intro d hd; simp at hd; subst hd; exact hw h
    | line s c h h' => exact (hl h).append (by intro d hd; simp at hd; subst hd; exact hw h')

theorem name_ascii {n : Str} (h : Name n) : Ascii n := by
  intro c hc
  rcases h.chars c hc with h | h | rfl
  · unfold Letter at h; omega
  · unfold Digit at h; omega
  · decide

theorem digits_ascii {s : Str} (h : ∀ c ∈ s, Digit c) : Ascii s := by
  intro c hc
  have := h c hc
  unfold Digit at this
  omega

/-! ## Skipping children -/

section
variable {inp : Bytes}

theorem concatenations_skip {ts us : List ParseTree} (h : ∀ t ∈ ts, t.rule ≠ str% "concatenation") :
    concatenations inp (ts ++ us) = concatenations inp us := by
  induction ts with
  | nil => rfl
  | cons t ts ih =>
    rw [List.cons_append, concatenations, if_neg (h t (List.mem_cons_self ..)), ih fun u hu => h u (List.mem_cons_of_mem _ hu)]

theorem repetitions_skip {ts us : List ParseTree} (h : ∀ t ∈ ts, t.rule ≠ str% "repetition") :
    repetitions inp (ts ++ us) = repetitions inp us := by
  induction ts with
  | nil => rfl
  | cons t ts ih =>
    rw [List.cons_append, repetitions, if_neg (h t (List.mem_cons_self ..)), ih fun u hu => h u (List.mem_cons_of_mem _ hu)]

theorem alternationIn_skip {ts us : List ParseTree} (h : ∀ t ∈ ts, t.rule ≠ str% "alternation") :
    alternationIn inp (ts ++ us) = alternationIn inp us := by
  induction ts with
  | nil => rfl
  | cons t ts ih =>
    rw [List.cons_append, alternationIn, if_neg (h t (List.mem_cons_self ..)), ih fun u hu => h u (List.mem_cons_of_mem _ hu)]

/-- The values of the children called `rule`. -/
def defs (inp : Bytes) : List ParseTree → Except TreeErr (List Def)
  | [] => .ok []
  | t :: ts =>
    if t.rule = str% "rule" then
      match rule inp t with
      | .error e => .error e
      | .ok d => match defs inp ts with
        | .error e => .error e
        | .ok ds => .ok (d :: ds)
    else defs inp ts

theorem defs_skip {ts us : List ParseTree} (h : ∀ t ∈ ts, t.rule ≠ str% "rule") : defs inp (ts ++ us) = defs inp us := by
  induction ts with
  | nil => rfl
  | cons t ts ih =>
    rw [List.cons_append, defs, if_neg (h t (List.mem_cons_self ..)), ih fun u hu => h u (List.mem_cons_of_mem _ hu)]

/-! ## What the nodes mean -/

/-- What evaluating a node with text `s` gives, by the name of the node. -/
structure NodeMeans (inp : Bytes) (t : ParseTree) (s : Str) : Prop where
  alt : t.rule = str% "alternation" → ∃ a, ReadsAlt code s a ∧ alternation inp t = .ok a
  concat : t.rule = str% "concatenation" → ∃ c, ReadsConcat code s c ∧ concatenation inp t = .ok c
  rep : t.rule = str% "repetition" → ∃ r, ReadsRep code s r ∧ repetition inp t = .ok r
  elem : t.rule = str% "element" → ∃ e, ReadsElem code s e ∧ element inp t = .ok e
  group : t.rule = str% "group" → ∃ a, ReadsElem code s (.group a) ∧ alternationIn inp t.children = .ok a
  option : t.rule = str% "option" → ∃ a, ReadsElem code s (.option a) ∧ alternationIn inp t.children = .ok a
  elements : t.rule = str% "elements" → ∃ x ws a u, s = x ++ ws ∧ (∀ c ∈ ws, Wsp c) ∧ ReadsAlt code x a ∧
    ptFirst (str% "alternation") t.children = some u ∧ alternation inp u = .ok a
  rule : t.rule = str% "rule" → ∃ d, ReadsRule code s d ∧ rule inp t = .ok d
  list : t.rule = str% "rulelist" → ∃ ds, ReadsFile code s ds ∧ defs inp t.children = .ok ds

/-- A tree for the rule called `n`, and its text. -/
structure Node (inp : Bytes) (n : Str) (t : ParseTree) (s : Str) : Prop where
  derives : Derives Abnf.grammar (.rulename n) (utf8 s)
  name : ∃ r, Resolves Abnf.grammar n r ∧ t.rule = r.name
  pos : At inp t.start t.fin (utf8 s)
  means : NodeMeans inp t s

theorem Node.rule_name {n s : Str} {t : ParseTree} (h : Node inp n t s) {m : Str}
    (hr : (getRule n Abnf.grammar.rules).map Rule.name = some m) : t.rule = m := by
  obtain ⟨q, hq, e⟩ := h.name
  rw [(getRule_iff Abnf.namesDistinct).mpr hq] at hr
  rw [e, ← Option.some.inj hr]

theorem Node.span {n s : Str} {t : ParseTree} (h : Node inp n t s) (ha : Ascii s) : span inp t = s := by
  cases t with
  | node r i j ch => exact span_eq h.pos ha

theorem blanks {ts : List ParseTree} {s : Str} (h : PStar (PElem (Node inp) (.rulename (str% "c-wsp"))) ts s) :
    Gap s ∧ ∀ t ∈ ts, t.rule = str% "c-wsp" := by
  induction h with
  | nil => exact ⟨.nil, by simp⟩
  | cons ts us s t h1 _ ih =>
    obtain ⟨u, rfl, hu⟩ := pelem_rulename.mp h1
    refine ⟨.cons _ _ (Abnf.says_cwsp.mp hu.derives) ih.1, fun v hv => ?_⟩
    rcases List.mem_cons.mp hv with rfl | hv
    · exact hu.rule_name (by decide +kernel)
    · exact ih.2 v hv

theorem wsps {ts : List ParseTree} {s : Str} (h : PStar (PElem (Node inp) (.rulename (str% "WSP"))) ts s) :
    (∀ c ∈ s, Wsp c) ∧ ∀ t ∈ ts, t.rule = str% "WSP" := by
  induction h with
  | nil => exact ⟨by simp, by simp⟩
  | cons ts us s t h1 _ ih =>
    obtain ⟨u, rfl, hu⟩ := pelem_rulename.mp h1
    obtain ⟨c, hc, rfl⟩ := Abnf.says_wsp.mp hu.derives
    refine ⟨fun d hd => ?_, fun v hv => ?_⟩
    · rcases List.mem_cons.mp hd with rfl | hd
      · exact hc
      · exact ih.1 d hd
    · rcases List.mem_cons.mp hv with rfl | hv
      · exact hu.rule_name (by decide +kernel)
      · exact ih.2 v hv

theorem leaf_ne {i j : Nat} {n : Str} (hn : n ≠ []) : (ParseTree.node [] i j []).rule ≠ n := fun h => hn h.symm

/-! ## Structure -/

/-- The further concatenations of an alternation. -/
theorem more_concats {ts : List ParseTree} {s : Str}
    (h : PStar (PElem (Node inp) (.group [[⟨0, none, .rulename (str% "c-wsp")⟩, ⟨1, some 1, .charVal false ['/']⟩,
      ⟨0, none, .rulename (str% "c-wsp")⟩, ⟨1, some 1, .rulename (str% "concatenation")⟩]])) ts s) :
    ∃ a, concatenations inp ts = .ok a ∧ ∀ s₀ c, ReadsConcat code s₀ c → ReadsAlt code (s₀ ++ s) (c :: a) := by
  induction h with
  | nil => exact ⟨[], by rw [concatenations], fun s₀ c h => by rw [List.append_nil]; exact .one _ _ h⟩
  | cons ts us s t h1 _ ih =>
    obtain ⟨a, ha, hr⟩ := ih
    simp only [pelem_group, palt_cons, palt_nil, or_false, pconcat_more, pconcat_one, prep_one, prep_many, pelem_char,
      pelem_rulename] at h1
    obtain ⟨ts₁, _, g₁, _, rfl, rfl, hg₁, _, _, _, _, rfl, rfl, ⟨⟨i, j, rfl⟩, d, hd, rfl⟩, ts₂, _, g₂, x, rfl, rfl, hg₂, u, rfl, hu⟩ := h1
    rw [Abnf.sameLetter_self (by decide)] at hd
    subst hd
    obtain ⟨k1, k2⟩ := blanks hg₁
    obtain ⟨k3, k4⟩ := blanks hg₂
    have hn := hu.rule_name (m := str% "concatenation") (by decide +kernel)
    obtain ⟨c, hc1, hc2⟩ := hu.means.concat hn
    refine ⟨c :: a, ?_, fun s₀ c₀ h₀ => ?_⟩
    · simp only [List.append_assoc]
      rw [concatenations_skip (fun v hv => by rw [k2 v hv]; decide), concatenations_skip (by simp [ParseTree.rule]),
        concatenations_skip (fun v hv => by rw [k4 v hv]; decide), List.singleton_append, concatenations, if_pos hn, hc2, ha]
    · have := ReadsAlt.more s₀ c₀ g₁ g₂ (x ++ t) (c :: a) h₀ k1 k3 (hr x c hc1)
      simpa using this

/-- The further repetitions of a concatenation. -/
theorem more_reps {ts : List ParseTree} {s : Str}
    (h : PStar (PElem (Node inp) (.group [[⟨1, none, .rulename (str% "c-wsp")⟩,
      ⟨1, some 1, .rulename (str% "repetition")⟩]])) ts s) :
    ∃ c, repetitions inp ts = .ok c ∧ ∀ s₀ r, ReadsRep code s₀ r → ReadsConcat code (s₀ ++ s) (r :: c) := by
  induction h with
  | nil => exact ⟨[], by rw [repetitions], fun s₀ c h => by rw [List.append_nil]; exact .one _ _ h⟩
  | cons ts us s t h1 _ ih =>
    obtain ⟨a, ha, hr⟩ := ih
    simp only [pelem_group, palt_cons, palt_nil, or_false, pconcat_more, pconcat_one, prep_one, prep_some, pelem_rulename] at h1
    obtain ⟨_, _, _, x, rfl, rfl, ⟨ts₁, ts₂, g₁, g₂, rfl, rfl, ⟨v, rfl, hv⟩, hg₂⟩, u, rfl, hu⟩ := h1
    obtain ⟨k1, k2⟩ := blanks hg₂
    have hv1 := Abnf.says_cwsp.mp hv.derives
    have hvn := hv.rule_name (m := str% "c-wsp") (by decide +kernel)
    have hn := hu.rule_name (m := str% "repetition") (by decide +kernel)
    obtain ⟨r, hc1, hc2⟩ := hu.means.rep hn
    refine ⟨r :: a, ?_, fun s₀ r₀ h₀ => ?_⟩
    · simp only [List.append_assoc]
      rw [repetitions_skip (by simp only [List.mem_singleton, forall_eq]; rw [hvn]; decide),
        repetitions_skip (fun v hv => by rw [k2 v hv]; decide), List.singleton_append, repetitions, if_pos hn, hc2, ha]
    · have := ReadsConcat.more s₀ r₀ (g₁ ++ g₂) (x ++ t) (r :: a) h₀ (.cons _ _ hv1 k1)
        (fun h => hv1.head.ne_nil (List.append_eq_nil_iff.mp h).1) (hr x r hc1)
      simpa using this

/-- The lines of a file. -/
theorem lines_of {ts : List ParseTree} {s : Str}
    (h : PStar (PElem (Node inp) (.group [[⟨1, some 1, .rulename (str% "rule")⟩],
      [⟨1, some 1, .group [[⟨0, none, .rulename (str% "WSP")⟩, ⟨1, some 1, .rulename (str% "c-nl")⟩]]⟩]])) ts s) :
    ∃ ds, defs inp ts = .ok ds ∧ ReadsLines code s ds := by
  induction h with
  | nil => exact ⟨[], by rw [defs], .nil⟩
  | cons ts us s t h1 _ ih =>
    obtain ⟨ds, h2, h3⟩ := ih
    simp only [pelem_group, palt_cons, palt_nil, or_false, pconcat_more, pconcat_one, prep_one, prep_many, pelem_rulename] at h1
    rcases h1 with ⟨u, rfl, hu⟩ | ⟨ts₁, _, ws, nl, rfl, rfl, hw, u, rfl, hu⟩
    · have hn := hu.rule_name (m := str% "rule") (by decide +kernel)
      obtain ⟨d, hd1, hd2⟩ := hu.means.rule hn
      refine ⟨d :: ds, ?_, .rule _ _ _ _ hd1 h3⟩
      rw [List.singleton_append, defs, if_pos hn, hd2, h2]
    · obtain ⟨k1, k2⟩ := wsps hw
      have hn := hu.rule_name (m := str% "c-nl") (by decide +kernel)
      refine ⟨ds, ?_, ?_⟩
      · rw [List.append_assoc, defs_skip (fun v hv => by rw [k2 v hv]; decide),
          defs_skip (by simp only [List.mem_singleton, forall_eq]; rw [hn]; decide), h2]
      · rw [List.append_assoc]
        exact .blank _ _ _ _ k1 (Abnf.says_cnl.mp hu.derives) h3

/-! ## Repeat counts and elements without parts -/

theorem cutAt_none {c : Char} {s : Str} (h : ∀ d ∈ s, d ≠ c) : cutAt c s = none := by
  induction s with
  | nil => rfl
  | cons d s ih =>
    rw [cutAt, if_neg (h d (List.mem_cons_self ..)), ih fun e he => h e (List.mem_cons_of_mem _ he)]
    rfl

theorem cutAt_some {c : Char} {a b : Str} (h : ∀ d ∈ a, d ≠ c) : cutAt c (a ++ c :: b) = some (a, b) := by
  induction a with
  | nil => simp [cutAt]
  | cons d s ih =>
    rw [List.cons_append, cutAt, if_neg (h d (List.mem_cons_self ..)), ih fun e he => h e (List.mem_cons_of_mem _ he)]
    rfl

theorem digit_star {c : Char} (h : Digit c) : c ≠ '*' := by rintro rfl; revert h; unfold Digit; decide

/-- What a repeat count says. -/
theorem repeat_reads {s : Str} (h : (s ≠ [] ∧ ∀ c ∈ s, Digit c) ∨ ∃ a b, s = a ++ '*' :: b ∧ (∀ c ∈ a, Digit c) ∧ ∀ c ∈ b, Digit c) :
    Ascii s ∧ Repeat code s (parseRepeat s).1 (parseRepeat s).2 := by
  rcases h with ⟨h1, h2⟩ | ⟨a, b, rfl, h1, h2⟩
  · refine ⟨digits_ascii h2, ?_⟩
    unfold parseRepeat
    rw [cutAt_none fun d hd => digit_star (h2 d hd)]
    exact .exactly s h1 h2
  · refine ⟨(digits_ascii h1).append ?_, ?_⟩
    · intro c hc
      rcases List.mem_cons.mp hc with rfl | hc
      · decide
      · exact digits_ascii h2 c hc
    · unfold parseRepeat
      rw [cutAt_some fun d hd => digit_star (h1 d hd)]
      have := Repeat.between (cv := code) a b h1 h2
      simpa only [ite_not, code] using this

theorem quoted_eq (v : Str) : quoted ('"' :: (v ++ ['"'])) = v := by
  simp [quoted]

/-- What a string says. -/
theorem charVal_reads {s : Str} (h : Derives Abnf.grammar (.rulename (str% "char-val")) (utf8 s)) :
    Ascii s ∧ ReadsElem code s (charVal s) := by
  have hv : ∀ {v : Str}, (∀ c ∈ v, 0x20 ≤ c.toNat ∧ c.toNat ≤ 0x7E ∧ c ≠ '"') → Ascii ('"' :: (v ++ ['"'])) := by
    intro v h c hc
    simp only [List.mem_cons, List.mem_append, List.not_mem_nil, or_false] at hc
    rcases hc with rfl | hc | rfl
    · decide
    · have := (h c hc).2.1; omega
    · decide
  have hp : ∀ {m : Char} {x : Str}, (m = 'i' ∨ m = 'I' ∨ m = 's' ∨ m = 'S') → Ascii x → Ascii ('%' :: m :: x) := by
    intro m x hm hx c hc
    simp only [List.mem_cons] at hc
    rcases hc with rfl | rfl | hc
    · decide
    · rcases hm with rfl | rfl | rfl | rfl <;> decide
    · exact hx c hc
  rcases Abnf.says_charVal.mp h with h | h
  · obtain ⟨p, v, hpm, h2, rfl⟩ := Abnf.says_ci.mp h
    rcases hpm with rfl | ⟨m, hm, rfl⟩
    · refine ⟨hv h2, ?_⟩
      have : charVal ('"' :: (v ++ ['"'])) = .charVal false v := by
        have e : charVal ('"' :: (v ++ ['"'])) = .charVal false (quoted ('"' :: (v ++ ['"']))) := by cases v <;> rfl
        rw [e, quoted_eq]
      rw [List.nil_append, this]
      exact .string v h2
    · refine ⟨hp (by tauto) (hv h2), ?_⟩
      have : charVal ('%' :: m :: '"' :: (v ++ ['"'])) = .charVal false v := by
        unfold charVal
        simp only [quoted_eq]
        rcases hm with rfl | rfl <;> rfl
      show ReadsElem code ('%' :: m :: '"' :: (v ++ ['"'])) (charVal ('%' :: m :: '"' :: (v ++ ['"'])))
      rw [this]
      exact .insensitive m v hm h2
  · obtain ⟨m, v, hm, h2, rfl⟩ := Abnf.says_cs.mp h
    refine ⟨hp (by tauto) (hv h2), ?_⟩
    have : charVal ('%' :: m :: '"' :: (v ++ ['"'])) = .charVal true v := by
      unfold charVal
      simp only [quoted_eq]
      rcases hm with rfl | rfl <;> rfl
    rw [this]
    exact .sensitive m v hm h2

theorem splitAt_ne (c : Char) (s : Str) : splitAt c s ≠ [] := by
  cases s with
  | nil => simp [splitAt]
  | cons d s =>
    rw [splitAt]
    split
    · simp
    · split_ifs <;> simp

theorem splitAt_one {c : Char} {s : Str} (h : ∀ d ∈ s, d ≠ c) : splitAt c s = [s] := by
  induction s with
  | nil => rfl
  | cons d s ih =>
    rw [splitAt, ih fun e he => h e (List.mem_cons_of_mem _ he)]
    simp only
    rw [if_neg (h d (List.mem_cons_self ..))]

theorem splitAt_more {c : Char} {s t : Str} (h : ∀ d ∈ s, d ≠ c) : splitAt c (s ++ c :: t) = s :: splitAt c t := by
  induction s with
  | nil =>
    rw [List.nil_append, splitAt]
    split
    · rename_i he; exact absurd he (splitAt_ne c t)
    · rename_i p ps he; rw [if_pos rfl, he]
  | cons d s ih =>
    rw [List.cons_append, splitAt, ih fun e he => h e (List.mem_cons_of_mem _ he)]
    simp only
    rw [if_neg (h d (List.mem_cons_self ..))]

theorem splitAt_dotted {b : Str} {es : List Str} {s : Str} (h : Dotted es s) (hn : ∀ e ∈ es, NumeralOf b e) :
    splitAt '.' s = es ∧ '-' ∉ s := by
  induction h with
  | one s =>
    have := hn s (List.mem_singleton_self _)
    exact ⟨splitAt_one fun d hd => (digitOf_ne (this.2 d hd)).1, fun hd => (digitOf_ne (this.2 _ hd)).2 rfl⟩
  | more s es t _ ih =>
    have := hn s (List.mem_cons_self ..)
    obtain ⟨h1, h2⟩ := ih fun e he => hn e (List.mem_cons_of_mem _ he)
    refine ⟨by rw [splitAt_more fun d hd => (digitOf_ne (this.2 d hd)).1, h1], ?_⟩
    intro hd
    simp only [List.mem_append, List.mem_cons] at hd
    rcases hd with hd | hd | hd
    · exact (digitOf_ne (this.2 _ hd)).2 rfl
    · cases hd
    · exact h2 hd

theorem digitOf_ascii {b : Str} {c : Char} (h : DigitOf b c) : c.toNat < 128 := by
  rcases digitOf_cases h with h | h
  · unfold Letter at h; omega
  · unfold Digit at h; omega

theorem dotted_ascii {b : Str} {es : List Str} {s : Str} (h : Dotted es s) (hn : ∀ e ∈ es, NumeralOf b e) : Ascii s := by
  induction h with
  | one s => exact fun c hc => digitOf_ascii ((hn s (List.mem_singleton_self _)).2 c hc)
  | more s es t _ ih =>
    refine Ascii.append (fun c hc => digitOf_ascii ((hn s (List.mem_cons_self ..)).2 c hc)) fun c hc => ?_
    rcases List.mem_cons.mp hc with rfl | hc
    · decide
    · exact ih (fun e he => hn e (List.mem_cons_of_mem _ he)) c hc

theorem numBase_eq {m : Char} {b : Str} (h : BaseLetter m b) : numBase m = b ∧ m.toNat < 128 := by
  rcases h with ⟨rfl | rfl, rfl⟩ | ⟨rfl | rfl, rfl⟩ | ⟨rfl | rfl, rfl⟩ <;> decide

/-- What a numeric value says. -/
theorem numVal_reads {s : Str} (h : Derives Abnf.grammar (.rulename (str% "num-val")) (utf8 s)) :
    Ascii s ∧ ReadsElem code s (numVal s) := by
  obtain ⟨m, b, t, hb, ht, rfl⟩ := Abnf.says_numVal.mp h
  obtain ⟨hb1, hb2⟩ := numBase_eq hb
  have hp : Ascii t → Ascii ('%' :: m :: t) := by
    intro hx c hc
    simp only [List.mem_cons] at hc
    rcases hc with rfl | rfl | hc
    · decide
    · exact hb2
    · exact hx c hc
  have he : numVal ('%' :: m :: t) = numElems b t := by rw [numVal, hb1]
  rw [he]
  rcases ht with ⟨es, h1, h2⟩ | ⟨lo, hi, h1, h2, rfl⟩
  · refine ⟨hp (dotted_ascii h2 h1), ?_⟩
    obtain ⟨h3, h4⟩ := splitAt_dotted h2 h1
    rw [numElems, if_neg h4, h3]
    exact .series m b es t hb h1 h2
  · refine ⟨hp (Ascii.append (fun c hc => digitOf_ascii (h1.2 c hc)) fun c hc => ?_), ?_⟩
    · rcases List.mem_cons.mp hc with rfl | hc
      · decide
      · exact digitOf_ascii (h2.2 c hc)
    · rw [numElems, if_pos (by simp), splitAt_more fun d hd => (digitOf_ne (h1.2 d hd)).2,
        splitAt_one fun d hd => (digitOf_ne (h2.2 d hd)).2]
      exact .range m b lo hi hb h1 h2

/-- What a prose value says. -/
theorem proseVal_reads {s : Str} (h : Derives Abnf.grammar (.rulename (str% "prose-val")) (utf8 s)) :
    Ascii s ∧ ReadsElem code s (proseVal s) := by
  obtain ⟨v, h1, rfl⟩ := Abnf.says_prose.mp h
  refine ⟨fun c hc => ?_, ?_⟩
  · simp only [List.mem_cons, List.mem_append, List.not_mem_nil, or_false] at hc
    rcases hc with rfl | hc | rfl
    · decide
    · have := (h1 c hc).2.1; omega
    · decide
  · have : proseVal ('<' :: (v ++ ['>'])) = .proseVal (v.map fun c => [c]) := by simp [proseVal]
    rw [this]
    exact .prose v h1

/-! ## All nodes -/

/-- The parts of a group or an option. -/
theorem inside {o c : Char} {ts : List ParseTree} {s : Str}
    (ho : ¬ (65 ≤ o.toNat ∧ o.toNat ≤ 90) ∧ ¬ (97 ≤ o.toNat ∧ o.toNat ≤ 122))
    (hc : ¬ (65 ≤ c.toNat ∧ c.toNat ≤ 90) ∧ ¬ (97 ≤ c.toNat ∧ c.toNat ≤ 122))
    (h : PAlt (Node inp) [[⟨1, some 1, .charVal false [o]⟩, ⟨0, none, .rulename (str% "c-wsp")⟩,
      ⟨1, some 1, .rulename (str% "alternation")⟩, ⟨0, none, .rulename (str% "c-wsp")⟩,
      ⟨1, some 1, .charVal false [c]⟩]] ts s) :
    ∃ g₁ x g₂ a, Gap g₁ ∧ ReadsAlt code x a ∧ Gap g₂ ∧ s = o :: (g₁ ++ (x ++ (g₂ ++ [c]))) ∧ alternationIn inp ts = .ok a := by
  simp only [palt_cons, palt_nil, or_false, pconcat_more, pconcat_one, prep_one, prep_many, pelem_char, pelem_rulename] at h
  obtain ⟨_, _, _, _, rfl, rfl, ⟨⟨i, j, rfl⟩, d, hd, rfl⟩, ts₁, _, g₁, _, rfl, rfl, hg₁, _, _, x, _, rfl, rfl, ⟨u, rfl, hu⟩,
    ts₂, _, g₂, _, rfl, rfl, hg₂, ⟨i', j', rfl⟩, d', hd', rfl⟩ := h
  rw [Abnf.sameLetter_self ho] at hd
  rw [Abnf.sameLetter_self hc] at hd'
  subst hd hd'
  obtain ⟨k1, k2⟩ := blanks hg₁
  obtain ⟨k3, k4⟩ := blanks hg₂
  have hn := hu.rule_name (m := str% "alternation") (by decide +kernel)
  obtain ⟨a, ha1, ha2⟩ := hu.means.alt hn
  refine ⟨g₁, x, g₂, a, k1, ha1, k3, rfl, ?_⟩
  rw [alternationIn_skip (by simp [ParseTree.rule]), alternationIn_skip (fun v hv => by rw [k2 v hv]; decide), List.singleton_append,
    alternationIn, if_pos hn, ha2]

theorem node_step (r : Rule) (i j : Nat) (ch : List ParseTree) (s : Str) (hr : Resolves Abnf.grammar r.name r)
    (hat : At inp i j (utf8 s)) (hp : PAlt (Node inp) r.alt ch s) (n : Str) (hn : SameName n r.name) :
    Node inp n (.node r.name i j ch) s := by
  have hrn : Resolves Abnf.grammar n r := (resolves_congr ((sameName_iff _ _).mp hn)).mpr hr
  have hda : DerivesAlt Abnf.grammar r.alt (utf8 s) := hp.derives fun n t s h => h.derives
  have known : ∀ q ∈ Abnf.grammar.rules, r.name = q.name → r = q := fun q hq he =>
    resolves_unique Abnf.namesDistinct hr (.user hq ((sameName_iff _ _).mpr rfl) : Resolves Abnf.grammar q.name q) (by rw [he])
  refine ⟨.rule _ _ _ hrn hda, ⟨r, hrn, rfl⟩, hat, ?_⟩
  constructor
  · intro he
    obtain rfl := known Abnf.alternation (by simp [Abnf.grammar]) he
    simp only [Abnf.alternation, palt_cons, palt_nil, or_false, pconcat_more, pconcat_one, prep_one, prep_many, pelem_rulename] at hp
    obtain ⟨_, ts, x, y, rfl, rfl, ⟨u, rfl, hu⟩, hm⟩ := hp
    obtain ⟨a, h1, h2⟩ := more_concats hm
    have hun := hu.rule_name (m := str% "concatenation") (by decide +kernel)
    obtain ⟨c, h3, h4⟩ := hu.means.concat hun
    refine ⟨c :: a, h2 x c h3, ?_⟩
    rw [alternation, List.singleton_append, concatenations, if_pos hun, h4, h1]
  · intro he
    obtain rfl := known Abnf.concatenation (by simp [Abnf.grammar]) he
    simp only [Abnf.concatenation, palt_cons, palt_nil, or_false, pconcat_more, pconcat_one, prep_one, prep_many, pelem_rulename] at hp
    obtain ⟨_, ts, x, y, rfl, rfl, ⟨u, rfl, hu⟩, hm⟩ := hp
    obtain ⟨a, h1, h2⟩ := more_reps hm
    have hun := hu.rule_name (m := str% "repetition") (by decide +kernel)
    obtain ⟨c, h3, h4⟩ := hu.means.rep hun
    refine ⟨c :: a, h2 x c h3, ?_⟩
    rw [concatenation, List.singleton_append, repetitions, if_pos hun, h4, h1]
  · intro he
    obtain rfl := known Abnf.repetition (by simp [Abnf.grammar]) he
    simp only [Abnf.repetition, palt_cons, palt_nil, or_false, pconcat_more, pconcat_one, prep_one, pelem_option, pelem_rulename] at hp
    obtain ⟨_, _, p, x, rfl, rfl, hp, u, rfl, hu⟩ := hp
    have hun := hu.rule_name (m := str% "element") (by decide +kernel)
    obtain ⟨e, h1, h2⟩ := hu.means.elem hun
    rcases hp with ⟨rfl, rfl⟩ | ⟨v, rfl, hv⟩
    · refine ⟨⟨1, some 1, e⟩, .mk _ _ _ _ _ .none h1, ?_⟩
      rw [repetition, List.nil_append, elementIn, if_pos hun, h2]
      have : ptFirst (str% "repeat") [u] = none := by
        simp only [ptFirst, List.find?_cons, hun]
        rfl
      rw [this]
    · have hvn := hv.rule_name (m := str% "repeat") (by decide +kernel)
      obtain ⟨k1, k2⟩ := repeat_reads (Abnf.says_repeat.mp hv.derives)
      refine ⟨_, .mk _ _ _ _ _ k2 h1, ?_⟩
      rw [repetition, List.singleton_append, elementIn, if_neg (by rw [hvn]; decide), elementIn, if_pos hun, h2]
      have : ptFirst (str% "repeat") [v, u] = some v := by
        simp only [ptFirst, List.find?_cons, hvn]
        rfl
      rw [this]
      simp only [hv.span k1]
  · intro he
    obtain rfl := known Abnf.element (by simp [Abnf.grammar]) he
    simp only [Abnf.element, palt_cons, palt_nil, or_false, pconcat_one, prep_one, pelem_rulename] at hp
    rcases hp with ⟨u, rfl, hu⟩ | ⟨u, rfl, hu⟩ | ⟨u, rfl, hu⟩ | ⟨u, rfl, hu⟩ | ⟨u, rfl, hu⟩ | ⟨u, rfl, hu⟩
    · have hun := hu.rule_name (m := str% "rulename") (by decide +kernel)
      have h1 := Abnf.says_rulename.mp hu.derives
      refine ⟨.rulename s, .rulename s h1, ?_⟩
      cases u with
      | node m a b k =>
        change m = _ at hun
        subst hun
        rw [element, firstOf, if_pos rfl, hu.span (name_ascii h1)]
    · have hun := hu.rule_name (m := str% "group") (by decide +kernel)
      obtain ⟨a, h1, h2⟩ := hu.means.group hun
      refine ⟨.group a, h1, ?_⟩
      cases u with
      | node m x y k =>
        change m = _ at hun
        subst hun
        change alternationIn inp k = _ at h2
        rw [element, firstOf, if_neg (by decide), if_pos rfl, h2]
    · have hun := hu.rule_name (m := str% "option") (by decide +kernel)
      obtain ⟨a, h1, h2⟩ := hu.means.option hun
      refine ⟨.option a, h1, ?_⟩
      cases u with
      | node m x y k =>
        change m = _ at hun
        subst hun
        change alternationIn inp k = _ at h2
        rw [element, firstOf, if_neg (by decide), if_neg (by decide), if_pos rfl, h2]
    · have hun := hu.rule_name (m := str% "char-val") (by decide +kernel)
      obtain ⟨k1, k2⟩ := charVal_reads hu.derives
      refine ⟨_, k2, ?_⟩
      cases u with
      | node m x y k =>
        change m = _ at hun
        subst hun
        rw [element, firstOf, if_neg (by decide), if_neg (by decide), if_neg (by decide), if_pos rfl, hu.span k1]
    · have hun := hu.rule_name (m := str% "num-val") (by decide +kernel)
      obtain ⟨k1, k2⟩ := numVal_reads hu.derives
      refine ⟨_, k2, ?_⟩
      cases u with
      | node m x y k =>
        change m = _ at hun
        subst hun
        rw [element, firstOf, if_neg (by decide), if_neg (by decide), if_neg (by decide), if_neg (by decide), if_pos rfl, hu.span k1]
    · have hun := hu.rule_name (m := str% "prose-val") (by decide +kernel)
      obtain ⟨k1, k2⟩ := proseVal_reads hu.derives
      refine ⟨_, k2, ?_⟩
      cases u with
      | node m x y k =>
        change m = _ at hun
        subst hun
        rw [element, firstOf, if_neg (by decide), if_neg (by decide), if_neg (by decide), if_neg (by decide), if_neg (by decide),
          if_pos rfl, hu.span k1]
  · intro he
    obtain rfl := known Abnf.group (by simp [Abnf.grammar]) he
    obtain ⟨g₁, x, g₂, a, h1, h2, h3, rfl, h4⟩ := inside (by decide) (by decide) hp
    exact ⟨a, .group _ _ _ _ h1 h2 h3, h4⟩
  · intro he
    obtain rfl := known Abnf.option (by simp [Abnf.grammar]) he
    obtain ⟨g₁, x, g₂, a, h1, h2, h3, rfl, h4⟩ := inside (by decide) (by decide) hp
    exact ⟨a, .option _ _ _ _ h1 h2 h3, h4⟩
  · intro he
    obtain rfl := known Abnf.elements (by simp [Abnf.grammar]) he
    simp only [Abnf.elements, palt_cons, palt_nil, or_false, pconcat_more, pconcat_one, prep_one, prep_many, pelem_rulename] at hp
    obtain ⟨_, ts, x, ws, rfl, rfl, ⟨u, rfl, hu⟩, hw⟩ := hp
    have hun := hu.rule_name (m := str% "alternation") (by decide +kernel)
    obtain ⟨a, h1, h2⟩ := hu.means.alt hun
    refine ⟨x, ws, a, u, rfl, (wsps hw).1, h1, ?_, h2⟩
    simp only [ParseTree.children, ptFirst, List.singleton_append, List.find?_cons, hun]
    rfl
  · intro he
    obtain rfl := known Abnf.rule (by simp [Abnf.grammar]) he
    simp only [Abnf.rule, palt_cons, palt_nil, or_false, pconcat_more, pconcat_one, prep_one, pelem_rulename] at hp
    obtain ⟨_, _, nm, _, rfl, rfl, ⟨u₁, rfl, hu₁⟩, _, _, da, _, rfl, rfl, ⟨u₂, rfl, hu₂⟩, _, _, es, nl, rfl, rfl, ⟨u₃, rfl, hu₃⟩,
      u₄, rfl, hu₄⟩ := hp
    have e1 := hu₁.rule_name (m := str% "rulename") (by decide +kernel)
    have e2 := hu₂.rule_name (m := str% "defined-as") (by decide +kernel)
    have e3 := hu₃.rule_name (m := str% "elements") (by decide +kernel)
    have hname := Abnf.says_rulename.mp hu₁.derives
    have hnl := Abnf.says_cnl.mp hu₄.derives
    obtain ⟨g₁, o, g₂, rfl, hg₁, ho, hg₂⟩ := Abnf.says_definedAs.mp hu₂.derives
    obtain ⟨x, ws, a, v, rfl, hws, ha, hv, hva⟩ := hu₃.means.elements e3
    have f1 : ptFirst (str% "rulename") [u₁, u₂, u₃, u₄] = some u₁ := by
      simp only [ptFirst, List.find?_cons, e1]; rfl
    have f2 : ptFirst (str% "defined-as") [u₁, u₂, u₃, u₄] = some u₂ := by
      simp only [ptFirst, List.find?_cons, e1, e2]; rfl
    have f3 : ptFirst (str% "elements") [u₁, u₂, u₃, u₄] = some u₃ := by
      simp only [ptFirst, List.find?_cons, e1, e2, e3]; rfl
    have hasc : Ascii (g₁ ++ (o ++ g₂)) := by
      refine (gap_ascii hg₁).append (Ascii.append ?_ (gap_ascii hg₂))
      rcases ho with rfl | rfl <;> (intro c hc; revert c; decide)
    have hval : rule inp (.node Abnf.rule.name i j ([u₁] ++ ([u₂] ++ ([u₃] ++ [u₄])))) =
        .ok ⟨nm, contains (str% "=/") (g₁ ++ (o ++ g₂)), a⟩ := by
      have hc : (ParseTree.node Abnf.rule.name i j ([u₁] ++ ([u₂] ++ ([u₃] ++ [u₄])))).children = [u₁, u₂, u₃, u₄] := rfl
      simp only [rule, hc, f1, f2, f3, hv, hva, hu₁.span (name_ascii hname), hu₂.span hasc]
    refine ⟨_, ?_, hval⟩
    rcases ho with rfl | rfl
    · have := ReadsRule.define (cv := code) nm g₁ g₂ x a ws nl hname hg₁ hg₂ ha hws hnl
      simpa [code] using this
    · have := ReadsRule.extend (cv := code) nm g₁ g₂ x a ws nl hname hg₁ hg₂ ha hws hnl
      simpa [code] using this
  · intro he
    obtain rfl := known Abnf.rulelist (by simp [Abnf.grammar]) he
    simp only [Abnf.rulelist, palt_cons, palt_nil, or_false, pconcat_one, prep_some] at hp
    obtain ⟨ts₁, ts₂, s₁, s₂, rfl, rfl, h1, h2⟩ := hp
    obtain ⟨ds, h3, h4⟩ := lines_of (.cons _ _ _ _ h1 h2)
    refine ⟨ds, ⟨?_, h4⟩, h3⟩
    intro hnil
    obtain ⟨rfl, _⟩ := List.append_eq_nil_iff.mp hnil
    simp only [pelem_group, palt_cons, palt_nil, or_false, pconcat_more, pconcat_one, prep_one, prep_many, pelem_rulename] at h1
    rcases h1 with ⟨u, _, hu⟩ | ⟨_, _, a, b, _, hab, _, u, _, hu⟩
    · obtain ⟨d, hd, _⟩ := hu.means.rule (hu.rule_name (by decide +kernel))
      exact hd.head.ne_nil rfl
    · exact (Abnf.says_cnl.mp hu.derives).head.ne_nil (List.append_eq_nil_iff.mp hab.symm).2

/-- No reference in the grammar of ABNF has an empty name. -/
theorem named : Named (rulesReps (Abnf.grammar.rules ++ Core.rules)) := by
  unfold Named
  decide +kernel

/-- What the nodes of a derivation tree mean. -/
theorem tree_means {n : Str} {i j : Nat} {ch : List ParseTree} (h : DerivationTree Abnf.grammar inp (.node n i j ch)) (hn : n ≠ []) :
    ∃ s, At inp i j (utf8 s) ∧ ∀ m, SameName m n → Node inp m (.node n i j ch) s :=
  Spelt.DerivationTree.spells (Q := Node inp) named node_step h n i j ch (List.mem_singleton_self _) hn

end
end Eval
end Verif
