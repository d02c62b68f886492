import Verif.ExpectLemmas

/-!
# Emissions against the texts of an element
-/

namespace Verif

open Spec

theorem encodeRune_ascii {c : Char} (h : c.toNat < 128) : encodeRune c = [UInt8.ofNat c.toNat] := by
  unfold encodeRune
  simp only
  rw [if_pos h]

theorem encodeRune_pos (c : Char) : encodeRune c ≠ [] := by
  unfold encodeRune
  simp only
  split_ifs <;> simp

theorem matches_append {a b : Emission} {w : Bytes} : Matches (a ++ b) w ↔ ∃ u v, Matches a u ∧ Matches b v ∧ w = u ++ v := by
  constructor
  · intro h
    exact ⟨w.take a.length, w.drop a.length, (List.forall₂_take_append w a b h.flip).flip, (List.forall₂_drop_append w a b h.flip).flip,
      (List.take_append_drop _ _).symm⟩
  · rintro ⟨u, v, h1, h2, rfl⟩
    exact h1.append h2

/-- Two characters a literal does not tell apart. -/
def LitSame (sensitive : Bool) (c d : Char) : Prop := if sensitive then d = c else SameLetter c d

theorem letter_ascii {c : Char} (h : isLetter c = true) : (lowerChar c).toNat < 128 ∧ (upperChar c).toNat < 128 := by
  rw [isLetter_iff] at h
  rw [lowerChar_toNat, upperChar_toNat]
  split_ifs <;> omega

theorem matches_charSets (sensitive : Bool) (vs : List Char) : ∀ w, Matches (charSets sensitive vs) w ↔
    ∃ ws, List.Forall₂ (LitSame sensitive) vs ws ∧ w = encodeAll ws := by
  induction vs with
  | nil =>
    intro w
    constructor
    · intro h; cases h; exact ⟨[], .nil, rfl⟩
    · rintro ⟨ws, h, rfl⟩; cases h; exact .nil
  | cons c vs ih =>
    intro w
    have hcons : ∀ d ws, encodeAll (d :: ws) = encodeRune d ++ encodeAll ws := fun d ws => by
      unfold encodeAll; rw [List.flatMap_cons]
    have key : ∀ em, (∀ u, Matches em u ↔ ∃ d, LitSame sensitive c d ∧ u = encodeRune d) →
        (Matches (em ++ charSets sensitive vs) w ↔ ∃ ws, List.Forall₂ (LitSame sensitive) (c :: vs) ws ∧ w = encodeAll ws) := by
      intro em hem
      rw [matches_append]
      constructor
      · rintro ⟨u, v, h1, h2, rfl⟩
        obtain ⟨d, h3, rfl⟩ := (hem u).mp h1
        obtain ⟨ws, h4, rfl⟩ := (ih v).mp h2
        exact ⟨d :: ws, .cons h3 h4, (hcons d ws).symm⟩
      · rintro ⟨ws, h1, rfl⟩
        cases h1 with
        | @cons _ d _ ws h2 h3 => exact ⟨encodeRune d, encodeAll ws, (hem _).mpr ⟨d, h2, rfl⟩, (ih _).mpr ⟨ws, h3, rfl⟩, hcons d ws⟩
    rw [charSets]
    by_cases hc : (!sensitive && isLetter c) = true
    · rw [if_pos hc]
      rw [Bool.and_eq_true, Bool.not_eq_true'] at hc
      obtain ⟨rfl, hl⟩ := hc
      obtain ⟨a1, a2⟩ := letter_ascii hl
      refine key [_] fun u => ?_
      constructor
      · intro h
        cases h with
        | @cons _ b _ _ h1 h2 =>
          cases h2
          simp only [octetHas_add, octetHas_none, Bool.false_eq_true, false_or] at h1
          rcases h1 with rfl | rfl
          · exact ⟨lowerChar c, by unfold LitSame; rw [if_neg (by decide)]; exact lowerChar_same c, by rw [encodeRune_ascii a1]⟩
          · exact ⟨upperChar c, by unfold LitSame; rw [if_neg (by decide)]; exact upperChar_same c, by rw [encodeRune_ascii a2]⟩
      · rintro ⟨d, h1, rfl⟩
        unfold LitSame at h1
        rw [if_neg (by decide)] at h1
        rcases sameLetter_cases h1 with rfl | rfl
        · rw [encodeRune_ascii a1]
          exact .cons (by simp) .nil
        · rw [encodeRune_ascii a2]
          exact .cons (by simp) .nil
    · rw [if_neg hc]
      refine key _ fun u => ?_
      rw [matches_runeSets]
      constructor
      · rintro rfl
        refine ⟨c, ?_, rfl⟩
        unfold LitSame
        split_ifs
        · rfl
        · exact sameLetter_refl c
      · rintro ⟨d, h1, rfl⟩
        unfold LitSame at h1
        cases sensitive with
        | true => rw [if_pos rfl] at h1; rw [h1]
        | false => rw [if_neg (by decide)] at h1; rw [sameLetter_other h1 (by simpa using hc)]

theorem charVal_terminal (sensitive : Bool) (vs ws : List Char) :
    Terminal (.charVal sensitive vs) ws ↔ List.Forall₂ (LitSame sensitive) vs ws := by
  constructor
  · intro h
    cases h with
    | sensitive => exact List.forall₂_same.mpr fun c _ => rfl
    | insensitive _ _ h => exact h.imp fun c d hcd => hcd
  · intro h
    cases sensitive with
    | true =>
      have : ws = vs := by
        induction h with
        | nil => rfl
        | cons h1 _ ih => rw [ih]; unfold LitSame at h1; rw [if_pos rfl] at h1; rw [h1]
      rw [this]
      exact .sensitive vs
    | false => exact .insensitive _ _ (h.imp fun c d hcd => hcd)

theorem matches_seriesSets (base : Str) (es : List Str) : ∀ em, seriesSets base es = some em → ∀ w, Matches em w ↔
    w = encodeAll (es.map fun s => runeChar (numvalToRune s base)) := by
  induction es with
  | nil =>
    intro em h w
    simp only [seriesSets, Option.some.injEq] at h
    subst h
    constructor
    · intro h; cases h; rfl
    · rintro rfl; exact .nil
  | cons s es ih =>
    intro em h w
    rw [seriesSets] at h
    split_ifs at h with hv
    rw [Option.map_eq_some_iff] at h
    obtain ⟨em', h1, rfl⟩ := h
    rw [matches_append]
    constructor
    · rintro ⟨u, v, h2, h3, rfl⟩
      rw [(matches_runeSets _ _).mp h2, (ih _ h1 _).mp h3]
      rfl
    · rintro rfl
      exact ⟨_, _, (matches_runeSets _ _).mpr rfl, (ih _ h1 _).mpr rfl, rfl⟩

theorem asciiSet_has (k : Nat) : ∀ b s c, octetHas (asciiSet k b s) c = true ↔
    octetHas s c = true ∨ ∃ r, b ≤ r ∧ r < b + k ∧ c = UInt8.ofNat r := by
  induction k with
  | zero =>
    intro b s c
    rw [asciiSet]
    constructor
    · exact .inl
    · rintro (h | ⟨r, h1, h2, _⟩)
      · exact h
      · omega
  | succ k ih =>
    intro b s c
    rw [asciiSet, ih, octetHas_add]
    constructor
    · rintro ((h | rfl) | ⟨r, h1, h2, h3⟩)
      · exact .inl h
      · exact .inr ⟨b, by omega, by omega, rfl⟩
      · exact .inr ⟨r, by omega, by omega, h3⟩
    · rintro (h | ⟨r, h1, h2, rfl⟩)
      · exact .inl (.inl h)
      · by_cases hr : r = b
        · subst hr; exact .inl (.inr rfl)
        · exact .inr ⟨r, by omega, by omega, rfl⟩

/-! ## Ranges beyond ASCII -/

theorem addBytes_length (e : Emission) : ∀ bs, (addBytes e bs).length = e.length := by
  induction e with
  | nil => intro bs; cases bs <;> rfl
  | cons s e ih =>
    intro bs
    cases bs with
    | nil => rfl
    | cons b bs => simp [addBytes, ih]

theorem addBytes_has (e : Emission) : ∀ bs, e.length = bs.length → ∀ j c, octetHas ((addBytes e bs).getD j octetNone) c = true ↔
    octetHas (e.getD j octetNone) c = true ∨ bs[j]? = some c := by
  induction e with
  | nil =>
    intro bs h j c
    cases bs with
    | nil => simp [addBytes]
    | cons b bs => cases h
  | cons s e ih =>
    intro bs h j c
    cases bs with
    | nil => cases h
    | cons b bs =>
      rw [addBytes]
      cases j with
      | zero =>
        simp only [List.getD_cons_zero, octetHas_add, List.getElem?_cons_zero, Option.some.injEq]
        rw [eq_comm (a := c)]
      | succ j =>
        simp only [List.getD_cons_succ, List.getElem?_cons_succ]
        exact ih bs (by simpa using h) j c

/-- An entry of the map holds the bytes of the runes of its length. -/
def EntryOK (S : Bytes → Prop) (p : Nat × Emission) : Prop :=
  p.2.length = p.1 ∧ (∃ x, S x ∧ x.length = p.1) ∧
    ∀ j c, octetHas (p.2.getD j octetNone) c = true ↔ ∃ x, S x ∧ x.length = p.1 ∧ x[j]? = some c

theorem entryOK_other {S : Bytes → Prop} {p : Nat × Emission} {bs : Bytes} (h : EntryOK S p) (hp : p.1 ≠ bs.length) :
    EntryOK (fun x => S x ∨ x = bs) p := by
  obtain ⟨h1, ⟨x, h2, h3⟩, h4⟩ := h
  refine ⟨h1, ⟨x, .inl h2, h3⟩, fun j c => ?_⟩
  rw [h4]
  constructor
  · rintro ⟨y, h5, h6⟩
    exact ⟨y, .inl h5, h6⟩
  · rintro ⟨y, h5 | rfl, h6, h7⟩
    · exact ⟨y, h5, h6, h7⟩
    · exact absurd h6.symm hp

theorem addRune_spec {S : Bytes → Prop} {bs : Bytes} (m : List (Nat × Emission)) (hm : ∀ p ∈ m, EntryOK S p)
    (hk : (m.map Prod.fst).Nodup) (hc : ∀ x, S x → x.length = bs.length → bs.length ∈ m.map Prod.fst) :
    (∀ p ∈ addRune bs m, EntryOK (fun x => S x ∨ x = bs) p) ∧
    ((addRune bs m).map Prod.fst).Nodup ∧
    ∀ l, l ∈ (addRune bs m).map Prod.fst ↔ l ∈ m.map Prod.fst ∨ l = bs.length := by
  induction m with
  | nil =>
    rw [addRune]
    refine ⟨fun p hp => ?_, by simp, by simp⟩
    rw [List.mem_singleton] at hp
    subst hp
    refine ⟨by simp [addBytes_length], ⟨bs, .inr rfl, rfl⟩, fun j c => ?_⟩
    rw [addBytes_has _ _ (by simp)]
    have hnone : octetHas ((bs.map fun _ => octetNone).getD j octetNone) c = false := by
      rw [List.getD_eq_getElem?_getD, List.getElem?_map]
      cases bs[j]? <;> simp
    rw [hnone]
    constructor
    · rintro (h | h)
      · cases h
      · exact ⟨bs, .inr rfl, rfl, h⟩
    · rintro ⟨x, h1 | rfl, h2, h3⟩
      · exact absurd (hc x h1 h2) (by simp)
      · exact .inr h3
  | cons q m ih =>
    obtain ⟨l, e⟩ := q
    rw [List.map_cons, List.nodup_cons] at hk
    have hq := hm _ (List.mem_cons_self ..)
    have hm' := fun p hp => hm p (List.mem_cons_of_mem _ hp)
    rw [addRune]
    by_cases hl : l = bs.length
    · rw [if_pos hl]
      refine ⟨fun p hp => ?_, ?_, fun l' => ?_⟩
      · rcases List.mem_cons.mp hp with rfl | hp
        · obtain ⟨h1, h2, h3⟩ := hq
          have h1' : e.length = bs.length := by rw [← hl]; exact h1
          refine ⟨by rw [addBytes_length]; exact h1, ⟨bs, .inr rfl, hl.symm⟩, fun j c => ?_⟩
          rw [addBytes_has _ _ h1', h3]
          constructor
          · rintro (⟨x, h4, h5⟩ | h4)
            · exact ⟨x, .inl h4, h5⟩
            · exact ⟨bs, .inr rfl, hl.symm, h4⟩
          · rintro ⟨x, h4 | rfl, h5, h6⟩
            · exact .inl ⟨x, h4, h5, h6⟩
            · exact .inr h6
        · refine entryOK_other (hm' p hp) fun he => hk.1 ?_
          show l ∈ _
          rw [hl, ← he]
          exact List.mem_map_of_mem hp
      · rw [List.map_cons, List.nodup_cons]
        exact hk
      · rw [List.map_cons, List.map_cons]
        simp only [List.mem_cons]
        constructor
        · exact .inl
        · rintro (h | h)
          · exact h
          · exact .inl (h.trans hl.symm)
    · rw [if_neg hl]
      obtain ⟨h1, h2, h3⟩ := ih hm' hk.2 fun x hx hxl => by
        have := hc x hx hxl
        rw [List.map_cons, List.mem_cons] at this
        exact this.resolve_left fun h => hl h.symm
      refine ⟨fun p hp => ?_, ?_, fun l' => ?_⟩
      · rcases List.mem_cons.mp hp with rfl | hp
        · exact entryOK_other hq hl
        · exact h1 p hp
      · rw [List.map_cons, List.nodup_cons]
        refine ⟨fun h => ?_, h2⟩
        rcases (h3 l).mp h with h | h
        · exact hk.1 h
        · exact hl h
      · rw [List.map_cons, List.map_cons]
        simp only [List.mem_cons, h3]
        tauto

theorem rangeSets_spec (k : Nat) : ∀ r m (S : Bytes → Prop), (∀ p ∈ m, EntryOK S p) → (m.map Prod.fst).Nodup →
    (∀ x, S x → x.length ∈ m.map Prod.fst) →
    (∀ p ∈ rangeSets k r m, EntryOK (fun x => S x ∨ ∃ v, r ≤ v ∧ v < r + k ∧ x = encodeRune (runeChar v)) p) ∧
    ∀ x, (S x ∨ ∃ v, r ≤ v ∧ v < r + k ∧ x = encodeRune (runeChar v)) → x.length ∈ (rangeSets k r m).map Prod.fst := by
  induction k with
  | zero =>
    intro r m S h1 h2 h3
    rw [rangeSets]
    have e : (fun x => S x ∨ ∃ v, r ≤ v ∧ v < r + 0 ∧ x = encodeRune (runeChar v)) = S := by
      funext x
      apply propext
      constructor
      · rintro (h | ⟨v, h4, h5, _⟩)
        · exact h
        · omega
      · exact .inl
    rw [e]
    refine ⟨h1, fun x hx => h3 x ?_⟩
    rw [← e]
    exact hx
  | succ k ih =>
    intro r m S h1 h2 h3
    rw [rangeSets]
    obtain ⟨h4, h5, h6⟩ := addRune_spec (bs := encodeRune (runeChar r)) m h1 h2 fun x hx hl => hl ▸ h3 x hx
    obtain ⟨h7, h8⟩ := ih (r + 1) _ _ h4 h5 (by
      rintro x (hx | rfl)
      · exact (h6 _).mpr (.inl (h3 x hx))
      · exact (h6 _).mpr (.inr rfl))
    have e : (fun x => S x ∨ ∃ v, r ≤ v ∧ v < r + (k + 1) ∧ x = encodeRune (runeChar v)) =
        fun x => (S x ∨ x = encodeRune (runeChar r)) ∨ ∃ v, r + 1 ≤ v ∧ v < r + 1 + k ∧ x = encodeRune (runeChar v) := by
      funext x
      apply propext
      constructor
      · rintro (h | ⟨v, h9, h10, rfl⟩)
        · exact .inl (.inl h)
        · by_cases hv : v = r
          · subst hv; exact .inl (.inr rfl)
          · exact .inr ⟨v, by omega, by omega, rfl⟩
      · rintro ((h | rfl) | ⟨v, h9, h10, rfl⟩)
        · exact .inl h
        · exact .inr ⟨r, by omega, by omega, rfl⟩
        · exact .inr ⟨v, by omega, by omega, rfl⟩
    rw [e]
    refine ⟨h7, fun x hx => h8 x ?_⟩
    have := congrFun e x
    rw [← this]
    exact hx

/-- What is known of the emissions of a range. -/
theorem rangeSets_ok (k r : Nat) :
    (∀ p ∈ rangeSets k r [], EntryOK (fun x => ∃ v, r ≤ v ∧ v < r + k ∧ x = encodeRune (runeChar v)) p) ∧
    ∀ v, r ≤ v → v < r + k → ∃ p ∈ rangeSets k r [], (encodeRune (runeChar v)).length = p.1 := by
  obtain ⟨h1, h2⟩ := rangeSets_spec k r [] (fun _ => False) (by simp) (by simp) (by simp)
  simp only [false_or] at h1 h2
  refine ⟨h1, fun v h3 h4 => ?_⟩
  obtain ⟨p, h5, h6⟩ := List.mem_map.mp (h2 _ ⟨v, h3, h4, rfl⟩)
  exact ⟨p, h5, h6.symm⟩

theorem matches_iff {em : Emission} {w : Bytes} : Matches em w ↔ em.length = w.length ∧
    ∀ j c, w[j]? = some c → octetHas (em.getD j octetNone) c = true := by
  unfold Matches
  rw [List.forall₂_iff_get]
  constructor
  · rintro ⟨h1, h2⟩
    refine ⟨h1, fun j c hj => ?_⟩
    obtain ⟨hlt, rfl⟩ := List.getElem?_eq_some_iff.mp hj
    rw [List.getD_eq_getElem _ _ (by omega)]
    exact h2 j (by omega) hlt
  · rintro ⟨h1, h2⟩
    refine ⟨h1, fun j hj hj' => ?_⟩
    have := h2 j w[j] (List.getElem?_eq_getElem hj')
    rw [List.getD_eq_getElem _ _ hj] at this
    exact this

/-! ## The emissions of an element -/

variable {g : Grammar}

/-- The emissions of an element cover its texts. -/
theorem emissions_cover {ord : List Emission → List Emission} (hord : ∀ l, (ord l).Perm l) {e : Elem} {es : List Emission}
    (he : nodeEmissions ord e = some es) {w : Bytes} (hw : Derives g e w) : ∃ em ∈ es, Matches em w := by
  cases hw with
  | rule => cases he
  | group => cases he
  | optNone => cases he
  | optSome => cases he
  | term _ cs ht =>
    rw [← encodeAll_eq_utf8]
    cases e with
    | charVal s vs =>
      simp only [nodeEmissions, Option.some.injEq] at he
      subst he
      exact ⟨_, List.mem_singleton_self _, (matches_charSets s vs _).mpr ⟨cs, (charVal_terminal ..).mp ht, rfl⟩⟩
    | numVal b st els =>
      cases ht with
      | series _ _ _ hc =>
        simp only [nodeEmissions, Option.map_eq_some_iff] at he
        obtain ⟨em, h1, rfl⟩ := he
        refine ⟨em, List.mem_singleton_self _, (matches_seriesSets b els em h1 _).mpr ?_⟩
        congr 1
        clear h1
        induction hc with
        | nil => rfl
        | @cons s c es cs h1 _ ih =>
          rw [List.map_cons, ← ih]
          congr 1
          rw [numvalToRune_denotes h1]
          have := char_valid c
          rw [min_eq_left (by unfold maxInt32; omega)]
          exact (runeChar_char c).symm
      | range _ s t lo hi c hs ht h1 h2 =>
        have hc := char_valid c
        have e1 : numvalToRune s b = lo := by rw [numvalToRune_denotes hs]; unfold maxInt32; omega
        have e2 : min (numvalToRune t b) maxRune = min hi maxRune := by
          rw [numvalToRune_denotes ht]; unfold maxInt32 maxRune; omega
        have hcond : ¬ (lo > maxRune ∨ lo > min hi maxRune) := by unfold maxRune; omega
        have hhi : c.toNat ≤ min hi maxRune := by unfold maxRune; omega
        simp only [nodeEmissions, List.getD_cons_zero, List.getD_cons_succ, e1, e2, if_neg hcond] at he
        have henc : encodeAll [c] = encodeRune (runeChar c.toNat) := by
          rw [runeChar_char]; unfold encodeAll; simp
        by_cases ha : min hi maxRune ≤ 0x7f
        · rw [if_pos ha] at he
          obtain rfl := Option.some.inj he
          refine ⟨_, List.mem_singleton_self _, ?_⟩
          rw [henc, runeChar_char, encodeRune_ascii (by omega)]
          exact .cons ((asciiSet_has _ _ _ _).mpr (.inr ⟨c.toNat, h1, by omega, rfl⟩)) .nil
        · rw [if_neg ha] at he
          split_ifs at he with hcap
          obtain rfl := Option.some.inj he
          obtain ⟨h3, h4⟩ := rangeSets_ok (min hi maxRune + 1 - lo) lo
          obtain ⟨p, h5, h6⟩ := h4 c.toNat h1 (by omega)
          obtain ⟨h7, _, h8⟩ := h3 p h5
          refine ⟨p.2, (hord _).mem_iff.mpr (List.mem_map_of_mem h5), ?_⟩
          rw [henc, matches_iff]
          refine ⟨h7.trans h6.symm, fun j d hj => (h8 j d).mpr ⟨_, ⟨c.toNat, h1, by omega, rfl⟩, h6, hj⟩⟩
    | _ => cases ht

/-- No position of an emission is empty. -/
theorem emissions_inhabited {ord : List Emission → List Emission} (hord : ∀ l, (ord l).Perm l) {e : Elem} {es : List Emission}
    (he : nodeEmissions ord e = some es) {em : Emission} (hem : em ∈ es) : ∀ s ∈ em, ∃ b, octetHas s b = true := by
  have hofword : ∀ {em : Emission} {w : Bytes}, Matches em w → ∀ s ∈ em, ∃ b, octetHas s b = true := by
    intro em w h
    induction h with
    | nil => simp
    | @cons s b em w h1 _ ih =>
      intro t ht
      rcases List.mem_cons.mp ht with rfl | ht
      · exact ⟨b, h1⟩
      · exact ih t ht
  cases e with
  | charVal s vs =>
    simp only [nodeEmissions, Option.some.injEq] at he
    subst he
    rw [List.mem_singleton] at hem
    subst hem
    refine hofword (w := encodeAll vs) ((matches_charSets s vs _).mpr ⟨vs, List.forall₂_same.mpr fun c _ => ?_, rfl⟩)
    unfold LitSame
    split_ifs
    · rfl
    · exact sameLetter_refl c
  | numVal b st els =>
    cases st with
    | series =>
      simp only [nodeEmissions, Option.map_eq_some_iff] at he
      obtain ⟨em', h1, rfl⟩ := he
      rw [List.mem_singleton] at hem
      subst hem
      exact hofword ((matches_seriesSets b els em h1 _).mpr rfl)
    | range =>
      simp only [nodeEmissions] at he
      split_ifs at he with hcond ha hcap
      · obtain rfl := Option.some.inj he
        rw [List.mem_singleton] at hem
        subst hem
        intro s hs
        rw [List.mem_singleton] at hs
        subst hs
        exact ⟨_, (asciiSet_has _ _ _ _).mpr (.inr ⟨_, le_refl _, by omega, rfl⟩)⟩
      · obtain rfl := Option.some.inj he
        obtain ⟨p, hp, rfl⟩ := List.mem_map.mp ((hord _).mem_iff.mp hem)
        obtain ⟨h1, ⟨x, h2, h3⟩, h4⟩ := (rangeSets_ok _ _).1 p hp
        refine hofword (w := x) (matches_iff.mpr ⟨h1.trans h3.symm, fun j c hj => (h4 j c).mpr ⟨x, h2, h3, hj⟩⟩)
  | _ => cases he

/-- A range whose characters differ in one byte only: it is within ASCII, or the characters share all but the last six bits. -/
def Flat : Elem → Prop
  | .numVal b .range es => ∀ s t lo hi, es = [s, t] → Denotes b s lo → Denotes b t hi → hi < 128 ∨ lo / 64 = hi / 64
  | _ => True

theorem encode_block {c d : Char} (h : c.toNat / 64 = d.toNat / 64) (hc : 128 ≤ c.toNat) :
    ∃ u, encodeRune c = u ++ [UInt8.ofNat (0x80 + c.toNat % 64)] ∧ encodeRune d = u ++ [UInt8.ofNat (0x80 + d.toNat % 64)] := by
  unfold encodeRune
  simp only
  have h1 : ¬ c.toNat < 0x80 := by omega
  have h2 : ¬ d.toNat < 0x80 := by omega
  rw [if_neg h1, if_neg h2]
  have h4 : c.toNat / 4096 = d.toNat / 4096 := by omega
  have h5 : c.toNat / 262144 = d.toNat / 262144 := by omega
  by_cases h6 : c.toNat < 0x800
  · have h6' : d.toNat < 0x800 := by omega
    rw [if_pos h6, if_pos h6', h]
    exact ⟨[_], rfl, rfl⟩
  · have h6' : ¬ d.toNat < 0x800 := by omega
    rw [if_neg h6, if_neg h6']
    by_cases h7 : c.toNat < 0x10000
    · have h7' : d.toNat < 0x10000 := by omega
      rw [if_pos h7, if_pos h7', h, h4]
      exact ⟨[_, _], rfl, rfl⟩
    · have h7' : ¬ d.toNat < 0x10000 := by omega
      rw [if_neg h7, if_neg h7', h, h4, h5]
      exact ⟨[_, _, _], rfl, rfl⟩

/-- Every text of the emissions of a flat element is one of the element. -/
theorem emissions_exact {ord : List Emission → List Emission} (hord : ∀ l, (ord l).Perm l) {e : Elem} (hem : Emittable e) (hf : Flat e)
    {es : List Emission} (he : nodeEmissions ord e = some es) {em : Emission} (hes : em ∈ es) {w : Bytes} (hw : Matches em w) :
    Derives g e w := by
  cases e with
  | charVal s vs =>
    simp only [nodeEmissions, Option.some.injEq] at he
    subst he
    rw [List.mem_singleton] at hes
    subst hes
    obtain ⟨ws, h1, rfl⟩ := (matches_charSets s vs w).mp hw
    rw [encodeAll_eq_utf8]
    exact .term _ _ ((charVal_terminal ..).mpr h1)
  | numVal b st els =>
    cases st with
    | series =>
      simp only [nodeEmissions, Option.map_eq_some_iff] at he
      obtain ⟨em', h1, rfl⟩ := he
      rw [List.mem_singleton] at hes
      subst hes
      rw [(matches_seriesSets b els em h1 _).mp hw, encodeAll_eq_utf8]
      refine .term _ _ (.series _ _ _ ?_)
      rw [List.forall₂_map_right_iff]
      exact List.forall₂_same.mpr fun s hs => (series_char (hem s hs)).2
    | range =>
      have hemits := fun {v : Nat} => range_emits (g := g) hem (v := v)
      obtain ⟨s, t, lo, hi, rfl, hs, ht, hle, hlo, hsur⟩ := hem
      have hfl := hf s t lo hi rfl hs ht
      have e1 : numvalToRune s b = lo := by rw [numvalToRune_denotes hs]; unfold maxInt32; omega
      have e2 : min (numvalToRune t b) maxRune = min hi maxRune := by
        rw [numvalToRune_denotes ht]; unfold maxInt32 maxRune; omega
      have hcond : ¬ (lo > maxRune ∨ lo > min hi maxRune) := by unfold maxRune; omega
      simp only [List.getD_cons_zero, List.getD_cons_succ, e1, e2] at hemits
      simp only [nodeEmissions, List.getD_cons_zero, List.getD_cons_succ, e1, e2, if_neg hcond] at he
      have henc : ∀ c, utf8 [c] = encodeRune c := fun c => by
        rw [← encodeAll_eq_utf8]; unfold encodeAll; simp
      by_cases ha : min hi maxRune ≤ 0x7f
      · rw [if_pos ha] at he
        obtain rfl := Option.some.inj he
        rw [List.mem_singleton] at hes
        subst hes
        cases hw with
        | @cons _ d _ _ h1 h2 =>
          cases h2
          rcases (asciiSet_has _ _ _ _).mp h1 with h3 | ⟨r, h3, h4, rfl⟩
          · rw [octetHas_none] at h3; cases h3
          · have hr := hemits (v := r) h3 (by omega)
            rw [henc] at hr
            have hrt : (runeChar r).toNat = r := runeChar_toNat (by rw [validRune_iff]; omega)
            rw [encodeRune_ascii (by omega), hrt] at hr
            exact hr
      · rw [if_neg ha] at he
        split_ifs at he with hcap
        obtain rfl := Option.some.inj he
        obtain ⟨p, hp, rfl⟩ := List.mem_map.mp ((hord _).mem_iff.mp hes)
        obtain ⟨h1, _, h4⟩ := (rangeSets_ok _ _).1 p hp
        obtain ⟨hwl, hwj⟩ := matches_iff.mp hw
        have hhi : 128 ≤ hi := by omega
        have hb : lo / 64 = hi / 64 := by omega
        have hmax : hi ≤ 0x10FFFF := by omega
        have hmin : min hi maxRune = hi := by unfold maxRune; omega
        rw [hmin] at hemits hp h4
        have hval : ∀ v, lo ≤ v → v ≤ hi → (runeChar v).toNat = v := fun v hv1 hv2 =>
          runeChar_toNat (by rw [validRune_iff]; omega)
        -- the last byte of `w` comes from some rune
        obtain ⟨u, hu⟩ : ∃ u, ∀ v, lo ≤ v → v ≤ hi → encodeRune (runeChar v) = u ++ [UInt8.ofNat (0x80 + v % 64)] := by
          obtain ⟨u, hu, _⟩ := encode_block (c := runeChar lo) (d := runeChar lo) rfl (by rw [hval lo le_rfl hle]; omega)
          refine ⟨u, fun v h5 h6 => ?_⟩
          obtain ⟨u', h7, h8⟩ := encode_block (c := runeChar lo) (d := runeChar v)
            (by rw [hval lo le_rfl hle, hval v h5 h6]; omega) (by rw [hval lo le_rfl hle]; omega)
          rw [h7] at hu
          have := List.append_inj_left' hu rfl
          rw [h8, this, hval v h5 h6]
        have hpl : p.1 = u.length + 1 := by
          obtain ⟨_, ⟨x, ⟨v, h5, h6, rfl⟩, h7⟩, _⟩ := (rangeSets_ok _ _).1 p hp
          rw [hu v h5 (by omega)] at h7
          simpa using h7.symm
        have hwlen : w.length = u.length + 1 := by omega
        have hlast : ∃ v, lo ≤ v ∧ v ≤ hi ∧ w[u.length]? = some (UInt8.ofNat (0x80 + v % 64)) := by
          have hj := hwj u.length _ (List.getElem?_eq_getElem (by omega))
          obtain ⟨x, ⟨v, h5, h6, rfl⟩, h7, h8⟩ := (h4 _ _).mp hj
          rw [hu v h5 (by omega), List.getElem?_concat_length] at h8
          exact ⟨v, h5, by omega, by rw [h8]; exact List.getElem?_eq_getElem _⟩
        obtain ⟨v, h5, h6, h7⟩ := hlast
        have hw' : w = encodeRune (runeChar v) := by
          rw [hu v h5 h6]
          apply List.ext_getElem?
          intro j
          by_cases hj : j < u.length
          · rw [List.getElem?_append_left hj]
            have hjw := hwj j _ (List.getElem?_eq_getElem (by omega))
            obtain ⟨x, ⟨v', h8, h9, rfl⟩, h10, h11⟩ := (h4 _ _).mp hjw
            rw [hu v' h8 (by omega), List.getElem?_append_left hj] at h11
            rw [h11]
            exact List.getElem?_eq_getElem _
          · by_cases hj' : j = u.length
            · subst hj'
              rw [h7, List.getElem?_concat_length]
            · rw [List.getElem?_eq_none (by omega), List.getElem?_eq_none (by simp; omega)]
        rw [hw', ← henc]
        exact hemits h5 h6
  | _ => cases he

end Verif
