import Verif.PropsGen

/-!
# Exactly what `Generate` can write

`Makes` says which texts an element can become, in terms of the grammar and the options alone; `generate` returns exactly these,
over all streams of 63-bit numbers.
-/

namespace Verif
open Spec

/-- The character Go writes for a number: U+FFFD if it is no character. -/
inductive WrittenAs : Nat → Char → Prop
  | char (c) : WrittenAs c.toNat c
  | other (n) : (¬ ∃ c : Char, c.toNat = n) → WrittenAs n (Char.ofNat 0xFFFD)

/-- A letter as it stands or as a capital. -/
def Capital (c d : Char) : Prop := d = c ∨ (0x61 ≤ c.toNat ∧ c.toNat ≤ 0x7A ∧ d.toNat + 0x20 = c.toNat)

/-- The characters of a series; numbers that are no characters are left out. -/
inductive SpellsOut (b : Str) : List Str → Bytes → Prop
  | nil : SpellsOut b [] []
  | char (s es c w) : Denotes b s (Char.toNat c) → SpellsOut b es w → SpellsOut b (s :: es) (utf8 [c] ++ w)
  | skip (s es v w) : Denotes b s v → (¬ ∃ c : Char, c.toNat = v) → SpellsOut b es w → SpellsOut b (s :: es) w

/-- How often an element with bounds `mn` and `m` is repeated: between the bounds or, if they cross by more than one, up to as far
above `mn` as `m` is below. -/
def Often (mn n : Nat) (m : Int) : Prop :=
  n < mn + 2 ^ 63 ∧ mn ≤ n ∧ ((n : Int) ≤ m ∨ (m + 1 < mn ∧ (n : Int) + m + 2 ≤ 2 * mn))

/-- The upper bound: that of the grammar, or the option. -/
def upTo (repMax : Int) : Option Nat → Int
  | none => repMax
  | some m => m

mutual
/-- The element can become `w`, written after `k` bytes. -/
inductive Makes (g : Grammar) (o : GenOpts) : Elem → Nat → Bytes → Prop
  | rule (n r k w) : Resolves g n r → MakesAlt g o r.alt k w → Makes g o (.rulename n) k w
  | group (a k w) : MakesAlt g o a k w → Makes g o (.group a) k w
  | optNone (a k) : Makes g o (.option a) k []
  | optSome (a k w) : MakesAlt g o a k w → Makes g o (.option a) k w
  | sensitive (vs k) : Makes g o (.charVal true vs) k (utf8 vs)
  | insensitive (vs ws k) : List.Forall₂ Capital vs ws → Makes g o (.charVal false vs) k (utf8 ws)
  | range (b s t lo hi v c k) : Denotes b s lo → Denotes b t hi → lo ≤ v → v ≤ hi → v ≤ lo + 15 → v ≤ 0x10FFFF → WrittenAs v c →
      Makes g o (.numVal b .range [s, t]) k (utf8 [c])
  | noRange (b s t lo hi k) : Denotes b s lo → Denotes b t hi → hi < lo ∨ 0x10FFFF < lo → Makes g o (.numVal b .range [s, t]) k []
  | series (b es w k) : SpellsOut b es w → Makes g o (.numVal b .series es) k w
  | prose (ps k) : Makes g o (.proseVal ps) k []
/-- One of the alternatives can. -/
inductive MakesAlt (g : Grammar) (o : GenOpts) : Alt → Nat → Bytes → Prop
  | mk (a i c k w) : i < 2 ^ 63 → a[i]? = some c → MakesConcat g o c k w → MakesAlt g o a k w
/-- The repetitions can, one after the other.  One that may be left out is, once the text has the threshold's length. -/
inductive MakesConcat (g : Grammar) (o : GenOpts) : Concat → Nat → Bytes → Prop
  | nil (k) : MakesConcat g o [] k []
  | cons (mn mx e n c) (k : Nat) (u v) : Often mn n (upTo o.repMax mx) →
      MakesTimes g o e (if mn = 0 ∧ o.threshold ≤ (k : Int) then 0 else n) k u →
      MakesConcat g o c (k + u.length) v → MakesConcat g o (⟨mn, mx, e⟩ :: c) k (u ++ v)
/-- `n` occurrences of the element can. -/
inductive MakesTimes (g : Grammar) (o : GenOpts) : Elem → Nat → Nat → Bytes → Prop
  | zero (e k) : MakesTimes g o e 0 k []
  | succ (e n k u v) : Makes g o e k u → MakesTimes g o e n (k + u.length) v → MakesTimes g o e (n + 1) k (u ++ v)
end

/-! ## Characters -/

theorem noChar_iff {n : Nat} : (¬ ∃ c : Char, c.toNat = n) ↔ validRune n = false := by
  constructor
  · intro h
    by_contra hv
    exact h ⟨Char.ofNat n, by have := runeChar_toNat (by simpa using hv : validRune n = true); unfold runeChar at this; rwa [if_pos (by simpa using hv)] at this⟩
  · rintro h ⟨c, rfl⟩
    rw [validRune_char] at h
    cases h

theorem writtenAs_iff {n : Nat} {c : Char} : WrittenAs n c ↔ c = runeChar n := by
  constructor
  · rintro (_ | ⟨_, h⟩)
    · exact (runeChar_char c).symm
    · rw [noChar_iff] at h
      unfold runeChar
      rw [if_neg (by simp [h])]
  · rintro rfl
    by_cases h : validRune n = true
    · have := WrittenAs.char (runeChar n)
      rwa [runeChar_toNat h] at this
    · unfold runeChar
      rw [if_neg h]
      exact .other n (noChar_iff.mpr (by simpa using h))

theorem capital_iff {c d : Char} : Capital c d ↔ d = c ∨ d = upperChar c := by
  have h3 : 'a'.toNat = 97 := rfl
  have h4 : 'z'.toNat = 122 := rfl
  unfold Capital upperChar
  constructor
  · rintro (h | ⟨h1, h2, h⟩)
    · exact .inl h
    · rw [if_pos (by omega)]
      right
      rw [show c.toNat - 32 = d.toNat by omega, Char.ofNat_toNat]
  · rintro (h | h)
    · exact .inl h
    · split_ifs at h with hc
      · rw [h3, h4] at hc
        refine .inr ⟨hc.1, hc.2, ?_⟩
        rw [h, toNat_ofNat_char (by omega)]
        omega
      · exact .inl h

theorem spells_gen {b : Str} {es : List Str} (h : ∀ s ∈ es, ∃ v, Denotes b s v) : ∀ st, ∃ w, SpellsOut b es w ∧
    genSeries b es st = { st with out := st.out ++ w } := by
  induction es with
  | nil => intro st; exact ⟨[], .nil, by simp [genSeries]⟩
  | cons s es ih =>
    intro st
    obtain ⟨v, hv⟩ := h s (List.mem_cons_self ..)
    have hi := ih fun s hs => h s (List.mem_cons_of_mem _ hs)
    have hr := numvalToRune_denotes hv
    unfold genSeries
    simp only
    by_cases hval : validRune (numvalToRune s b) = true
    · have e : numvalToRune s b = v := by
        rw [hr] at hval ⊢
        rw [validRune_iff] at hval
        unfold maxInt32 at hval ⊢
        omega
      obtain ⟨w, h1, h2⟩ := hi (st.emit (numvalToRune s b))
      refine ⟨utf8 [runeChar v] ++ w, .char s es _ w ?_ h1, ?_⟩
      · rw [runeChar_toNat (by rwa [← e])]; exact hv
      · rw [if_pos hval, h2, GenSt.emit, encode_rune, e, List.append_assoc]
    · obtain ⟨w, h1, h2⟩ := hi st
      refine ⟨w, .skip s es v w hv ?_ h1, by rw [if_neg hval, h2]⟩
      rw [noChar_iff]
      rw [hr, validRune_iff] at hval
      rw [Bool.eq_false_iff, ne_eq, validRune_iff]
      unfold maxInt32 at hval
      omega

theorem spells_unique {b : Str} {es : List Str} {w w' : Bytes} (h : SpellsOut b es w) (h' : SpellsOut b es w') : w = w' := by
  induction h generalizing w' with
  | nil => cases h'; rfl
  | char s es c w hd _ ih =>
    cases h' with
    | char _ _ d w' hd' h' =>
      have := Char.toNat_inj.mp (denotes_fun hd hd')
      rw [this, ih h']
    | skip _ _ v _ hd' hn h' => exact absurd ⟨c, denotes_fun hd hd'⟩ hn
  | skip s es v w hd hn _ ih =>
    cases h' with
    | char _ _ d w' hd' h' => exact absurd ⟨d, denotes_fun hd' hd⟩ hn
    | skip _ _ v' _ hd' hn' h' => exact ih h'

/-! ## What is returned is made -/

/-- The output grew by a text of `M`. -/
def Grew (M : Nat → Bytes → Prop) (st st' : GenSt) : Prop := ∃ w, st'.out = st.out ++ w ∧ M st.out.length w

theorem toRep_eq (draw mn : Nat) (mx : Option Nat) (repMax : Int) : toRep draw mn mx repMax =
    if upTo repMax mx - mn + 1 = 0 then none else some (mn + Int.tmod draw (upTo repMax mx - mn + 1)).toNat := by
  cases mx <;> rfl

theorem toRep_between {draw mn n : Nat} {mx : Option Nat} {repMax : Int} (hd : draw < 2 ^ 63) (h : toRep draw mn mx repMax = some n) :
    Often mn n (upTo repMax mx) := by
  rw [toRep_eq] at h
  generalize upTo repMax mx = M at h ⊢
  split_ifs at h with h0
  cases h
  have h1 := Int.tmod_nonneg (M - mn + 1) (Int.natCast_nonneg draw)
  have h2 : Int.tmod (draw : Int) (M - mn + 1) ≤ draw := by
    rw [Int.tmod_eq_emod_of_nonneg (Int.natCast_nonneg draw)]
    rw [← Int.emod_abs, ← Int.natCast_natAbs]
    exact_mod_cast Nat.mod_le _ _
  have h3 : Int.tmod (draw : Int) (M - mn + 1) < |M - mn + 1| := by
    rw [Int.tmod_eq_emod_of_nonneg (Int.natCast_nonneg draw)]
    exact Int.emod_lt_abs _ h0
  refine ⟨by omega, by omega, ?_⟩
  rcases abs_cases (M - mn + 1) with ⟨h4, h5⟩ | ⟨h4, h5⟩ <;> omega

section
variable {g : Grammar} {rnd : Nat → Nat} {o : GenOpts} {rec : Str → GenSt → Run GenSt} (hrnd : ∀ i, rnd i < 2 ^ 63)

/-- What is assumed of a repetition. -/
def MadeOK (g : Grammar) (o : GenOpts) (rec : Str → GenSt → Run GenSt) (q : Rep) : Prop :=
  TermWF q.elem ∧ ∀ n, q.elem = .rulename n → ∀ st, (rec n st).Sat True True (Grew (Makes g o (.rulename n)) st)

theorem genLoop_made {e : Elem} {step : GenSt → Run GenSt} {mn : Nat}
    (hstep : ∀ st, (step st).Sat True True (Grew (Makes g o e) st)) (k : Nat) : ∀ i st,
    (genLoop step mn o.threshold k i st).Sat True True
      (Grew (fun l w => MakesTimes g o e (if i = 0 ∧ mn = 0 ∧ o.threshold ≤ l then 0 else k) l w) st) := by
  induction k with
  | zero => intro i st; exact ⟨[], by simp, by simp only [ite_self]; exact .zero e _⟩
  | succ k ih =>
    intro i st
    unfold genLoop generateKeepGoing
    by_cases h : i = 0 ∧ mn = 0 ∧ (st.out.length : Int) ≥ o.threshold
    · rw [if_pos h, if_neg (by simp)]
      exact ⟨[], by simp, by simp only; rw [if_pos ⟨h.1, h.2.1, h.2.2⟩]; exact .zero e _⟩
    · rw [if_neg h, if_pos (by simp)]
      refine (hstep st).bnd fun st' ⟨u, hu, h1⟩ => (ih (i + 1) st').mono fun st'' ⟨v, hv, h2⟩ => ?_
      simp only at h2
      rw [if_neg (by omega)] at h2
      refine ⟨u ++ v, by rw [hv, hu, List.append_assoc], ?_⟩
      simp only
      rw [if_neg h]
      refine .succ e k _ u v h1 ?_
      rwa [hu, List.length_append] at h2

theorem genChars_made (sensitive : Bool) (vs : List Char) (st : GenSt) : Grew (Makes g o (.charVal sensitive vs)) st (genChars rnd sensitive vs st) := by
  have key : ∀ st, ∃ ws, (genChars rnd sensitive vs st).out = st.out ++ utf8 ws ∧
      List.Forall₂ (fun c d => if sensitive then c = d else Capital c d) vs ws := by
    induction vs with
    | nil => intro st; exact ⟨[], by simp [genChars, utf8], .nil⟩
    | cons c vs ih =>
      intro st
      unfold genChars
      cases sensitive with
      | true =>
        obtain ⟨ws, h1, h2⟩ := ih (st.emit c.toNat)
        refine ⟨c :: ws, ?_, .cons (by simp) h2⟩
        simp only [if_true]
        rw [h1, GenSt.emit, encode_rune, runeChar_char, List.append_assoc, ← utf8_append]
        rfl
      | false =>
        simp only [Bool.false_eq_true, if_false]
        obtain ⟨ws, h1, h2⟩ := ih (GenSt.emit { st with pos := st.pos + 1 } (if rnd st.pos % 2 = 0 then upperChar c else c).toNat)
        refine ⟨(if rnd st.pos % 2 = 0 then upperChar c else c) :: ws, ?_, .cons ?_ h2⟩
        · rw [h1, GenSt.emit, encode_rune, runeChar_char, List.append_assoc, ← utf8_append]
          rfl
        · show Capital _ _
          rw [capital_iff]
          split_ifs
          · exact .inr rfl
          · exact .inl rfl
  obtain ⟨ws, h1, h2⟩ := key st
  refine ⟨_, h1, ?_⟩
  cases sensitive with
  | true =>
    simp only [if_true, List.forall₂_eq_eq_eq] at h2
    exact h2 ▸ .sensitive vs _
  | false => exact .insensitive vs ws _ (by simpa using h2)

theorem genRange_made {b : Str} {es : List Str} (h : TermWF (.numVal b .range es)) (st : GenSt) :
    Grew (Makes g o (.numVal b .range es)) st (genRange rnd b es st) := by
  obtain ⟨s, t, lo, hi, rfl, hs, ht⟩ := h
  unfold genRange
  simp only [List.getD_cons_zero, List.getD_cons_succ, numvalToRune_denotes hs, numvalToRune_denotes ht, maxInt32, maxRune]
  split_ifs with h
  · refine ⟨_, by rw [GenSt.emit, encode_rune], ?_⟩
    have hlo : min lo 2147483647 = lo := by omega
    rw [hlo] at h ⊢
    have h1 := Nat.mod_lt (rnd st.pos % 16) (show min (min hi 2147483647) 1114111 - lo + 1 > 0 by omega)
    have h2 := Nat.mod_le (rnd st.pos % 16) (min (min hi 2147483647) 1114111 - lo + 1)
    have h3 := Nat.mod_lt (rnd st.pos) (show 16 > 0 by decide)
    exact .range b s t lo hi _ _ _ hs ht (by omega) (by omega) (by omega) (by omega) (writtenAs_iff.mpr rfl)
  · exact ⟨[], by simp, .noRange b s t lo hi _ hs ht (by omega)⟩

include hrnd

mutual
theorem genPick_made : (a : List (List Rep)) → (∀ q ∈ altReps a, MadeOK g o rec q) → ∀ k st,
    (genPick rnd o rec a k st).Sat True True (Grew (fun l w => ∃ c, a[k]? = some c ∧ MakesConcat g o c l w) st)
  | [], _, k, st => trivial
  | c :: a, h, 0, st => by
    rw [genPick]
    refine (genReps_made c (fun q hq => h q (by simp [altReps, hq])) st).mono fun st' ⟨w, hw, h1⟩ => ?_
    exact ⟨w, hw, c, rfl, h1⟩
  | c :: a, h, k + 1, st => by
    rw [genPick]
    refine (genPick_made a (fun q hq => h q (by simp [altReps, hq])) k st).mono fun st' ⟨w, hw, c', h1, h2⟩ => ?_
    exact ⟨w, hw, c', by simpa using h1, h2⟩
theorem genReps_made : (c : List Rep) → (∀ q ∈ concatReps c, MadeOK g o rec q) → ∀ st,
    (genReps rnd o rec c st).Sat True True (Grew (MakesConcat g o c) st)
  | [], _, st => ⟨[], by simp, .nil _⟩
  | ⟨mn, mx, e⟩ :: c, h, st => by
    rw [genReps]
    cases hn : toRep (rnd st.pos) mn mx o.repMax with
    | none => trivial
    | some n =>
      refine (genLoop_made (fun st => genElem_made e mn mx (fun q hq => h q (by simp [concatReps, hq])) st) n 0 _).bnd
        fun st1 ⟨u, hu, h1⟩ => (genReps_made c (fun q hq => h q (by simp [concatReps, hq])) st1).mono fun st2 ⟨v, hv, h2⟩ => ?_
      refine ⟨u ++ v, by rw [hv, hu, List.append_assoc], .cons mn mx e n c _ u v (toRep_between (hrnd _) hn) ?_ ?_⟩
      · simpa using h1
      · rwa [hu, List.length_append] at h2
theorem genElem_made : (e : Elem) → ∀ mn mx, (∀ q ∈ repReps ⟨mn, mx, e⟩, MadeOK g o rec q) → ∀ st,
    (genElem rnd o rec e st).Sat True True (Grew (Makes g o e) st)
  | .rulename n, mn, mx, h, st => by
    rw [genElem]
    exact (h _ (List.mem_cons_self ..)).2 n rfl st
  | .group a, mn, mx, h, st => by
    rw [genElem]
    refine (genPick_made a (fun q hq => h q (List.mem_cons_of_mem _ hq)) _ _).mono fun st' ⟨w, hw, c, h1, h2⟩ => ?_
    exact ⟨w, hw, .group a _ w (.mk a _ c _ w (lt_of_le_of_lt (Nat.mod_le _ _) (hrnd _)) h1 h2)⟩
  | .option a, mn, mx, h, st => by
    rw [genElem]
    split_ifs
    · refine (genPick_made a (fun q hq => h q (List.mem_cons_of_mem _ hq)) _ _).mono fun st' ⟨w, hw, c, h1, h2⟩ => ?_
      exact ⟨w, hw, .optSome a _ w (.mk a _ c _ w (lt_of_le_of_lt (Nat.mod_le _ _) (hrnd _)) h1 h2)⟩
    · exact ⟨[], by simp, .optNone a _⟩
  | .numVal b .range es, mn, mx, h, st => genRange_made (h _ (List.mem_cons_self ..)).1 st
  | .numVal b .series es, mn, mx, h, st => by
    obtain ⟨w, h1, h2⟩ := spells_gen (h _ (List.mem_cons_self ..)).1 st
    rw [genElem, h2]
    exact ⟨w, rfl, .series b es w _ h1⟩
  | .charVal s vs, mn, mx, h, st => genChars_made s vs st
  | .proseVal v, mn, mx, h, st => ⟨[], by simp, .prose v _⟩
end
end

/-- Every num-val that can be reached is well formed. -/
def WFReach (g : Grammar) (r : Rule) : Prop := ∀ r', Relation.ReflTransGen (Refers g) r r' → ∀ q ∈ altReps r'.alt, TermWF q.elem

theorem genAlt_made {g : Grammar} (hd : NamesDistinct g) {rnd : Nat → Nat} (hrnd : ∀ i, rnd i < 2 ^ 63) {o : GenOpts} (k : Nat) : ∀ (r : Rule) st,
    WFReach g r → (genAlt rnd o (genRule rnd o g k) r.alt st).Sat True True (Grew (MakesAlt g o r.alt) st) := by
  induction k with
  | zero =>
    intro r st h
    refine (genPick_made (g := g) (o := o) (rec := genRule rnd o g 0) hrnd r.alt (fun q hq => ⟨h r .refl q hq, fun n _ st => trivial⟩) _ _).mono fun st' ⟨w, hw, c, h1, h2⟩ => ?_
    exact ⟨w, hw, .mk _ _ c _ w (lt_of_le_of_lt (Nat.mod_le _ _) (hrnd _)) h1 h2⟩
  | succ k ih =>
    intro r st h
    refine (genPick_made (g := g) hrnd r.alt (fun q hq => ⟨h r .refl q hq, fun n hn st => ?_⟩) _ _).mono fun st' ⟨w, hw, c, h1, h2⟩ => ?_
    · rw [genRule]
      cases hg : getRule n g.rules with
      | none => trivial
      | some r' =>
        have hres := (getRule_iff hd).mp hg
        refine (ih r' st fun r2 h2 => h r2 (.head ⟨q, hq, n, hn, hres⟩ h2)).mono fun st' ⟨w, hw, h1⟩ => ?_
        exact ⟨w, hw, .rule n r' _ w hres h1⟩
    · exact ⟨w, hw, .mk _ _ c _ w (lt_of_le_of_lt (Nat.mod_le _ _) (hrnd _)) h1 h2⟩

/-! ## What is made can be returned -/

/-- The stream has the given numbers from `pos` on. -/
def Feeds (rnd : Nat → Nat) : Nat → List Nat → Prop
  | _, [] => True
  | pos, d :: ds => rnd pos = d ∧ Feeds rnd (pos + 1) ds

theorem feeds_append {rnd : Nat → Nat} : ∀ {pos : Nat} {ds es : List Nat}, Feeds rnd pos (ds ++ es) ↔ Feeds rnd pos ds ∧ Feeds rnd (pos + ds.length) es := by
  intro pos ds
  induction ds generalizing pos with
  | nil => intro es; simp [Feeds]
  | cons d ds ih =>
    intro es
    rw [List.cons_append, Feeds, Feeds, ih, and_assoc, List.length_cons, show pos + 1 + ds.length = pos + (ds.length + 1) by omega]

theorem feeds_self (ds : List Nat) : ∀ (pre : List Nat), Feeds (fun i => (pre ++ ds).getD i 0) pre.length ds := by
  induction ds with
  | nil => intro _; trivial
  | cons d ds ih =>
    intro pre
    refine ⟨by simp, ?_⟩
    have := ih (pre ++ [d])
    rw [List.append_assoc, List.length_append] at this
    exact this

/-- Drawing `ds` the step appends `w`. -/
def Steps (g : Grammar) (o : GenOpts) (f : (Nat → Nat) → (Str → GenSt → Run GenSt) → GenSt → Run GenSt) (k : Nat) (w : Bytes) : Prop :=
  ∃ (ds : List Nat) (K : Nat), (∀ d ∈ ds, d < 2 ^ 63) ∧ ∀ rnd fuel pos out, K ≤ fuel → out.length = k → Feeds rnd pos ds →
    f rnd (genRule rnd o g fuel) ⟨pos, out⟩ = .ok ⟨pos + ds.length, out ++ w⟩

theorem pick_steps {g : Grammar} {o : GenOpts} {c : Concat} {k : Nat} {w : Bytes} (h : Steps g o (fun rnd rec => genReps rnd o rec c) k w) :
    ∀ (a : Alt) (i : Nat), a[i]? = some c → Steps g o (fun rnd rec => genPick rnd o rec a i) k w := by
  intro a
  induction a with
  | nil => intro i h; cases h
  | cons c' a ih =>
    intro i hi
    cases i with
    | zero =>
      cases hi
      obtain ⟨ds, K, h1, h2⟩ := h
      exact ⟨ds, K, h1, fun rnd fuel pos out hf hl hd => by simp only [genPick]; exact h2 rnd fuel pos out hf hl hd⟩
    | succ i =>
      obtain ⟨ds, K, h1, h2⟩ := ih i (by simpa using hi)
      exact ⟨ds, K, h1, fun rnd fuel pos out hf hl hd => by simp only [genPick]; exact h2 rnd fuel pos out hf hl hd⟩

theorem chars_steps {vs ws : List Char} (h : List.Forall₂ Capital vs ws) : ∃ ds : List Nat, (∀ d ∈ ds, d < 2 ^ 63) ∧
    ∀ rnd pos out, Feeds rnd pos ds → genChars rnd false vs ⟨pos, out⟩ = ⟨pos + ds.length, out ++ utf8 ws⟩ := by
  induction h with
  | nil => exact ⟨[], by simp, fun rnd pos out _ => by simp [genChars, utf8]⟩
  | @cons c d vs ws hc _ ih =>
    obtain ⟨ds, h1, h2⟩ := ih
    rw [capital_iff] at hc
    refine ⟨(if d = c then 1 else 0) :: ds, ?_, fun rnd pos out hd => ?_⟩
    · intro x hx
      rcases List.mem_cons.mp hx with rfl | hx
      · split_ifs <;> norm_num
      · exact h1 x hx
    · obtain ⟨h3, h4⟩ := hd
      rw [genChars, if_neg (by simp)]
      simp only [GenSt.emit, runeChar_char, h3]
      have hv : (if (if d = c then 1 else 0) % 2 = 0 then upperChar c else c) = d := by
        by_cases e : d = c
        · simp [e]
        · simp [e]; exact ((hc.resolve_left e)).symm
      rw [hv, h2 rnd (pos + 1) _ h4, List.append_assoc, encodeAll_eq_utf8, ← utf8_append, List.length_cons]
      congr 1
      omega

theorem toRep_of {mn n : Nat} {mx : Option Nat} {repMax : Int} (h : Often mn n (upTo repMax mx)) :
    toRep (n - mn) mn mx repMax = some n ∧ n - mn < 2 ^ 63 := by
  rw [toRep_eq]
  generalize upTo repMax mx = M at h ⊢
  obtain ⟨h1, h2, h3⟩ := h
  refine ⟨?_, by omega⟩
  rw [if_neg (by omega)]
  have : Int.tmod ((n - mn : Nat) : Int) (M - mn + 1) = ((n - mn : Nat) : Int) := by
    rw [Int.tmod_eq_emod_of_nonneg (Int.natCast_nonneg _), ← Int.emod_abs]
    refine Int.emod_eq_of_lt (Int.natCast_nonneg _) ?_
    rcases abs_cases (M - mn + 1) with ⟨h4, h5⟩ | ⟨h4, h5⟩ <;> omega
  rw [this]
  congr 1
  omega

/-- The loop without its first test. -/
theorem genLoop_steps {step : GenSt → Run GenSt} {mn : Nat} {th : Int} {k i : Nat} {st : GenSt} (h : i ≠ 0 ∨ ¬ (mn = 0 ∧ (st.out.length : Int) ≥ th)) :
    genLoop step mn th (k + 1) i st = (step st).bnd (genLoop step mn th k (i + 1)) := by
  rw [genLoop, generateKeepGoing, if_neg (show ¬ (i = 0 ∧ mn = 0 ∧ (st.out.length : Int) ≥ th) by tauto), if_pos (by simp)]

theorem made_steps {g : Grammar} (hd : NamesDistinct g) {o : GenOpts} {a : Alt} {k : Nat} {w : Bytes} (h : MakesAlt g o a k w) :
    Steps g o (fun rnd rec => genAlt rnd o rec a) k w := by
  refine MakesAlt.rec (motive_1 := fun e k w _ => Steps g o (fun rnd rec => genElem rnd o rec e) k w)
    (motive_2 := fun a k w _ => Steps g o (fun rnd rec => genAlt rnd o rec a) k w)
    (motive_3 := fun c k w _ => Steps g o (fun rnd rec => genReps rnd o rec c) k w)
    (motive_4 := fun e n k w _ => ∀ mn i, i ≠ 0 ∨ ¬ (mn = 0 ∧ (k : Int) ≥ o.threshold) →
      Steps g o (fun rnd rec => genLoop (fun st => genElem rnd o rec e st) mn o.threshold n i) k w)
    ?_ ?_ ?_ ?_ ?_ ?_ ?_ ?_ ?_ ?_ ?_ ?_ ?_ ?_ ?_ h
  · rintro n r k w hr _ ⟨ds, K, h1, h2⟩
    refine ⟨ds, K + 1, h1, fun rnd fuel pos out hf hl hfd => ?_⟩
    obtain ⟨fuel, rfl⟩ : ∃ f, fuel = f + 1 := ⟨fuel - 1, by omega⟩
    beta_reduce; rw [genElem, genRule, (getRule_iff hd).mpr hr]
    exact h2 rnd fuel pos out (by omega) hl hfd
  · rintro a k w _ ⟨ds, K, h1, h2⟩
    refine ⟨ds, K, h1, fun rnd fuel pos out hf hl hfd => ?_⟩
    beta_reduce; rw [genElem]
    exact h2 rnd fuel pos out hf hl hfd
  · intro a k
    refine ⟨[1], 0, by simp, fun rnd fuel pos out _ _ hfd => ?_⟩
    beta_reduce; rw [genElem, if_neg (by rw [hfd.1]; decide)]
    simp
  · rintro a k w _ ⟨ds, K, h1, h2⟩
    refine ⟨0 :: ds, K, ?_, fun rnd fuel pos out hf hl hfd => ?_⟩
    · intro d hd
      rcases List.mem_cons.mp hd with rfl | hd
      · norm_num
      · exact h1 d hd
    · beta_reduce; rw [genElem, if_pos (by rw [hfd.1])]
      have := h2 rnd fuel (pos + 1) out hf hl hfd.2
      beta_reduce at this
      rw [genAlt] at this
      rw [List.length_cons, show pos + (ds.length + 1) = pos + 1 + ds.length by omega]
      exact this
  · intro vs k
    refine ⟨[], 0, by simp, fun rnd fuel pos out _ _ _ => ?_⟩
    have key : ∀ out, genChars rnd true vs ⟨pos, out⟩ = ⟨pos, out ++ utf8 vs⟩ := by
      induction vs with
      | nil => intro out; simp [genChars, utf8]
      | cons c vs ih =>
        intro out
        rw [genChars, if_pos rfl, GenSt.emit, ih, encode_rune, runeChar_char, List.append_assoc, ← utf8_append]
        rfl
    beta_reduce; rw [genElem, key]
    rfl
  · intro vs ws k h
    obtain ⟨ds, h1, h2⟩ := chars_steps h
    exact ⟨ds, 0, h1, fun rnd fuel pos out _ _ hfd => by beta_reduce; rw [genElem, h2 rnd pos out hfd]⟩
  · intro b s t lo hi v c k hs ht h1 h2 h3 h4 hc
    refine ⟨[v - lo], 0, by simp; omega, fun rnd fuel pos out _ _ hfd => ?_⟩
    beta_reduce; rw [genElem, genRange]
    simp only [List.getD_cons_zero, List.getD_cons_succ, numvalToRune_denotes hs, numvalToRune_denotes ht, maxInt32, maxRune]
    rw [if_pos (by omega), hfd.1, Nat.mod_eq_of_lt (show v - lo < 16 by omega), Nat.mod_eq_of_lt (by omega),
      show min lo 2147483647 + (v - lo) = v by omega, GenSt.emit, encode_rune, writtenAs_iff.mp hc]
    rfl
  · intro b s t lo hi k hs ht h1
    refine ⟨[], 0, by simp, fun rnd fuel pos out _ _ _ => ?_⟩
    beta_reduce; rw [genElem, genRange]
    simp only [List.getD_cons_zero, List.getD_cons_succ, numvalToRune_denotes hs, numvalToRune_denotes ht, maxInt32, maxRune]
    rw [if_neg (by omega)]
    simp
  · intro b es w k h
    refine ⟨[], 0, by simp, fun rnd fuel pos out _ _ _ => ?_⟩
    have hw : ∀ s ∈ es, ∃ v, Denotes b s v := by
      induction h with
      | nil => simp
      | char s es c w hd _ ih => exact List.forall_mem_cons.mpr ⟨⟨_, hd⟩, ih⟩
      | skip s es v w hd _ _ ih => exact List.forall_mem_cons.mpr ⟨⟨_, hd⟩, ih⟩
    obtain ⟨w', h1, h2⟩ := spells_gen hw ⟨pos, out⟩
    beta_reduce; rw [genElem, h2, spells_unique h1 h]
    rfl
  · intro ps k
    exact ⟨[], 0, by simp, fun rnd fuel pos out _ _ _ => by beta_reduce; rw [genElem]; simp⟩
  · intro a i c k w hi ha _ h
    obtain ⟨ds, K, h1, h2⟩ := pick_steps h a i ha
    refine ⟨i :: ds, K, ?_, fun rnd fuel pos out hf hl hfd => ?_⟩
    · intro d hd
      rcases List.mem_cons.mp hd with rfl | hd
      · exact hi
      · exact h1 d hd
    · have hlt : i < a.length := (List.getElem?_eq_some_iff.mp ha).1
      beta_reduce; rw [genAlt, hfd.1, Nat.mod_eq_of_lt hlt, List.length_cons, show pos + (ds.length + 1) = pos + 1 + ds.length by omega]
      exact h2 rnd fuel (pos + 1) out hf hl hfd.2
  · intro k
    exact ⟨[], 0, by simp, fun rnd fuel pos out _ _ _ => by beta_reduce; rw [genReps]; simp⟩
  · rintro mn mx e n c k u v hb _ _ h ⟨ds', K', h3, h4⟩
    obtain ⟨hn, hlt⟩ := toRep_of hb
    beta_reduce at h4
    by_cases hth : mn = 0 ∧ o.threshold ≤ k
    · have h0 := h 1 1 (.inl (by decide))
      rw [if_pos hth] at h0
      obtain ⟨ds0, K0, _, h0⟩ := h0
      have hu : u = [] := by
        have := h0 (fun i => ds0.getD i 0) K0 0 (List.replicate k 0) le_rfl (by simp) (feeds_self ds0 [])
        simp only [genLoop, Run.ok.injEq, GenSt.mk.injEq] at this
        simpa using this.2.symm
      subst hu
      refine ⟨(n - mn) :: ds', K', ?_, fun rnd fuel pos out hf hl hfd => ?_⟩
      · intro d hd
        rcases List.mem_cons.mp hd with rfl | hd
        · exact hlt
        · exact h3 d hd
      · beta_reduce; rw [genReps, hfd.1, hn]
        simp only
        have hloop : genLoop (fun st => genElem rnd o (genRule rnd o g fuel) e st) mn o.threshold n 0 ⟨pos + 1, out⟩ = .ok ⟨pos + 1, out⟩ := by
          cases n with
          | zero => rfl
          | succ n =>
            rw [genLoop, generateKeepGoing, if_pos (show 0 = 0 ∧ mn = 0 ∧ ((⟨pos + 1, out⟩ : GenSt).out.length : Int) ≥ o.threshold from
              ⟨rfl, hth.1, by simp only [hl]; exact hth.2⟩)]
            rfl
        rw [hloop, Run.bnd, h4 rnd fuel (pos + 1) out hf (by simpa using hl) hfd.2, List.length_cons]
        simp
        omega
    · have h0 := h mn 0 (.inr hth)
      rw [if_neg hth] at h0
      obtain ⟨ds, K, h1, h2⟩ := h0
      beta_reduce at h2 h4
      refine ⟨(n - mn) :: (ds ++ ds'), max K K', ?_, fun rnd fuel pos out hf hl hfd => ?_⟩
      · intro d hd
        rcases List.mem_cons.mp hd with rfl | hd
        · exact hlt
        · rcases List.mem_append.mp hd with hd | hd
          · exact h1 d hd
          · exact h3 d hd
      · obtain ⟨hfd1, hfd2⟩ := hfd
        rw [feeds_append] at hfd2
        beta_reduce; rw [genReps, hfd1, hn]
        simp only
        rw [h2 rnd fuel (pos + 1) out (le_trans (le_max_left _ _) hf) hl hfd2.1, Run.bnd,
          h4 rnd fuel _ (out ++ u) (le_trans (le_max_right _ _) hf) (by rw [List.length_append, hl]) hfd2.2, List.append_assoc]
        simp
        omega
  · intro e k mn i _
    exact ⟨[], 0, by simp, fun rnd fuel pos out _ _ _ => by beta_reduce; rw [genLoop]; simp⟩
  · rintro e n k u v _ _ ⟨ds, K, h1, h2⟩ h mn i hi
    obtain ⟨ds', K', h3, h4⟩ := h mn (i + 1) (.inl (by omega))
    beta_reduce at h2 h4
    refine ⟨ds ++ ds', max K K', ?_, fun rnd fuel pos out hf hl hfd => ?_⟩
    · intro d hd
      rcases List.mem_append.mp hd with hd | hd
      · exact h1 d hd
      · exact h3 d hd
    · rw [feeds_append] at hfd
      beta_reduce; rw [genLoop_steps (by rw [hl]; exact hi), h2 rnd fuel pos out (le_trans (le_max_left _ _) hf) hl hfd.1, Run.bnd,
        h4 rnd fuel _ (out ++ u) (le_trans (le_max_right _ _) hf) (by rw [List.length_append, hl]) hfd.2, List.append_assoc]
      simp
      omega

theorem emittable_wf {e : Elem} (h : Emittable e) : TermWF e := by
  unfold Emittable at h
  unfold TermWF
  split
  · exact fun s hs => let ⟨c, hc⟩ := h s hs; ⟨_, hc⟩
  · obtain ⟨s, t, lo, hi, h1, h2, h3, _⟩ := h
    exact ⟨s, t, lo, hi, h1, h2, h3⟩
  · trivial

theorem checked {rnd : Nat → Nat} {o : GenOpts} {g : Grammar} {fuel : Nat} {name : Str} {e : GenErr} (h : generate rnd o g fuel name = .ok (.error e)) :
    checkCanGenerateSafely g name = .ok (some e) := by
  unfold generate at h
  cases hc : checkCanGenerateSafely g name with
  | panic => rw [hc] at h; cases h
  | fuel => rw [hc] at h; cases h
  | ok e' =>
    rw [hc, Run.bnd] at h
    cases e' with
    | some e' => simp only [Run.ok.injEq, Except.error.injEq] at h; rw [h]
    | none =>
      simp only at h
      cases hg : getRule name g.rules with
      | none => rw [hg] at h; cases h
      | some r =>
        rw [hg] at h
        simp only at h
        cases hx : genAlt rnd o (genRule rnd o g fuel) r.alt {} with
        | panic => rw [hx] at h; cases h
        | fuel => rw [hx] at h; cases h
        | ok st => rw [hx] at h; simp [Run.bnd] at h

namespace Props

/-! ## C98: what `Generate` returns -/

/-- C98.  Over all streams of 63-bit numbers, `Generate` returns exactly the texts that the rule can become, given the options:
each repetition that is not cut short by the threshold is repeated between its bounds, a range yields one of its first 16
characters, and a letter of a string is written as it stands or as a capital. -/
theorem C98_exact (g : Grammar) (hd : NamesDistinct g) (name : Str) (r : Rule) (hr : Resolves g name r) (hwf : WFReach g r) (hc : ClosedReach g r)
    (o : GenOpts) (hgo : ∀ rnd fuel, generate rnd o g fuel name ≠ .ok (.error .cyclicRule)) (w : Bytes) :
    (∃ rnd fuel, (∀ i, rnd i < 2 ^ 63) ∧ generate rnd o g fuel name = .ok (.ok w)) ↔ Makes g o (.rulename name) 0 w := by
  have hmk : Makes g o (.rulename name) 0 w ↔ MakesAlt g o r.alt 0 w := by
    constructor
    · intro h
      cases h with
      | rule _ r' _ _ hr' h => rwa [← resolves_unique hd hr' hr rfl]
    · exact .rule name r 0 w hr
  have hcheck : checkCanGenerateSafely g name = .ok none := by
    rcases check_sat hd hr hc with ⟨h, _⟩ | ⟨h, _⟩
    · exact h
    · refine absurd ?_ (hgo (fun _ => 0) 0)
      unfold generate
      rw [h]
      rfl
  rw [hmk]
  constructor
  · rintro ⟨rnd, fuel, hrnd, h⟩
    rw [generate_eq hd hr rnd o fuel hcheck] at h
    have h1 := genAlt_made hd hrnd (o := o) fuel r {} hwf
    cases hx : genAlt rnd o (genRule rnd o g fuel) r.alt {} with
    | panic => rw [hx] at h; cases h
    | fuel => rw [hx] at h; cases h
    | ok st =>
      rw [hx] at h h1
      obtain ⟨w', h2, h3⟩ := h1
      simp only [Run.bnd, Run.ok.injEq, Except.ok.injEq] at h
      rw [h] at h2
      rw [h2]
      exact h3
  · intro h
    obtain ⟨ds, K, h1, h2⟩ := made_steps hd h
    refine ⟨fun i => ds.getD i 0, K, fun i => ?_, ?_⟩
    · show ds.getD i 0 < 2 ^ 63
      rw [List.getD_eq_getElem?_getD]
      cases hx : ds[i]? with
      | none => norm_num
      | some d => exact h1 d (List.mem_of_getElem? hx)
    · rw [generate_eq hd hr _ o K hcheck]
      have := h2 (fun i => ds.getD i 0) K 0 [] le_rfl rfl (feeds_self ds [])
      beta_reduce at this
      rw [this]
      rfl

/-- An example: `nest = "(" *nest ")" / 1*3( "x" / %x30-39 )`. -/
def nest : Grammar := ⟨[⟨str% "nest", [
  [⟨1, some 1, .charVal false ['(']⟩, ⟨0, none, .rulename (str% "NEST")⟩, ⟨1, some 1, .charVal false [')']⟩],
  [⟨1, some 3, .group [[⟨1, some 1, .charVal false ['x']⟩], [⟨1, some 1, .numVal ['x'] .range [str% "30", str% "39"]⟩]]⟩]]⟩]⟩

theorem nest_distinct : NamesDistinct nest := namesDistinct_of (by decide)

theorem nest_resolves : Resolves nest (str% "Nest") (nest.rules[0]) := (getRule_iff nest_distinct).mp (by decide +kernel)

theorem nest_reach {r' : Rule} (h : Relation.ReflTransGen (Refers nest) (nest.rules[0]) r') : r' = nest.rules[0] := by
  induction h with
  | refl => rfl
  | tail _ h ih =>
    subst ih
    obtain ⟨q, hq, n, hn, hr⟩ := h
    have hr' : Resolves nest (str% "NEST") (nest.rules[0]) := (getRule_iff nest_distinct).mp (by decide +kernel)
    have : n = str% "NEST" := by
      have h1 : ((altReps (nest.rules[0]).alt).all fun q => match q.elem with | .rulename n => n == str% "NEST" | _ => true) = true := by decide +kernel
      have h2 := List.all_eq_true.mp h1 q hq
      rw [hn] at h2
      simpa using h2
    subst this
    exact resolves_unique nest_distinct hr hr' rfl

example : NamesDistinct nest ∧ Resolves nest (str% "Nest") (nest.rules[0]) ∧ WFReach nest (nest.rules[0]) ∧ ClosedReach nest (nest.rules[0]) ∧
    (∀ o rnd fuel, generate rnd o nest fuel (str% "Nest") ≠ .ok (.error .cyclicRule)) ∧
    generate (fun n => n * n / 3) { repMax := 3 } nest 9 (str% "Nest") = .ok (.ok (bytes% "(x8xX1(X))")) ∧
    Makes nest {} (.rulename (str% "Nest")) 0 (bytes% "X7") := by
  refine ⟨nest_distinct, nest_resolves,
    fun r' hr' q hq => emittable_wf (emitReach_of (by decide +kernel) nest_resolves r' hr' q hq).1, closedReach_of (by decide +kernel) (by decide +kernel) nest_resolves,
    fun o rnd fuel h => ?_, ?_, ?_⟩
  · have h1 := checked h
    have h2 : checkCanGenerateSafely nest (str% "Nest") = .ok none := by decide +kernel
    rw [h2] at h1
    cases h1
  · decide +kernel
  · refine .rule _ _ 0 _ nest_resolves (.mk _ 1 _ 0 _ (by norm_num) rfl ?_)
    refine .cons 1 (some 3) _ 2 [] 0 (bytes% "X7") [] ⟨by norm_num, by norm_num, .inl (by simp [upTo])⟩ ?_ (.nil _)
    rw [if_neg (by simp)]
    refine .succ _ 1 0 (bytes% "X") (bytes% "7") (.group _ 0 _ (.mk _ 0 _ 0 _ (by norm_num) rfl ?_)) (.succ _ 0 1 (bytes% "7") [] (.group _ 1 _ (.mk _ 1 _ 1 _ (by norm_num) rfl ?_)) (.zero _ _))
    · refine .cons 1 (some 1) _ 1 [] 0 (bytes% "X") [] ⟨by norm_num, by norm_num, .inl (by simp [upTo])⟩ ?_ (.nil _)
      rw [if_neg (by simp)]
      exact .succ _ 0 0 (bytes% "X") [] (.insensitive ['x'] ['X'] 0 (.cons (.inr (by decide)) .nil)) (.zero _ _)
    · refine .cons 1 (some 1) _ 1 [] 1 (bytes% "7") [] ⟨by norm_num, by norm_num, .inl (by simp [upTo])⟩ ?_ (.nil _)
      rw [if_neg (by simp)]
      exact .succ _ 0 1 (bytes% "7") [] (.range _ _ _ 48 57 55 '7' 1 (denotes_hex [3, 0] 48 (by decide)) (denotes_hex [3, 9] 57 (by decide)) (by norm_num) (by norm_num) (by norm_num) (by norm_num) (.char '7')) (.zero _ _)

/-! ## C99: every text can be generated -/

/-- A repetition whose texts of up to `l` bytes are within the reach of `Generate`: its strings are written without capitals, its
ranges have at most 16 characters, and the option allows enough repetitions. -/
structure FullRep (o : GenOpts) (l : Nat) (q : Rep) : Prop where
  lower : ∀ vs, q.elem = .charVal false vs → ∀ c ∈ vs, ¬ (0x41 ≤ c.toNat ∧ c.toNat ≤ 0x5A)
  narrow : ∀ b s t lo hi, q.elem = .numVal b .range [s, t] → Denotes b s lo → Denotes b t hi → hi ≤ lo + 15
  often : q.max = none → (q.min + l : Int) ≤ o.repMax
  few : ∀ a, q.elem = .group a ∨ q.elem = .option a → a.length < 2 ^ 63

/-- The same for everything that can be reached. -/
def FullReach (g : Grammar) (o : GenOpts) (l : Nat) (r : Rule) : Prop :=
  ∀ r', Relation.ReflTransGen (Refers g) r r' → r'.alt.length < 2 ^ 63 ∧ ∀ q ∈ altReps r'.alt, FullRep o l q

theorem same_capital {c d : Char} (h : SameLetter c d) (hc : ¬ (0x41 ≤ c.toNat ∧ c.toNat ≤ 0x5A)) : Capital c d := by
  have h1 : 'A'.toNat = 65 := rfl
  have h2 : 'Z'.toNat = 90 := rfl
  have h3 : 'a'.toNat = 97 := rfl
  have h4 : 'z'.toNat = 122 := rfl
  unfold SameLetter at h
  simp only [char_le_iff] at h
  rcases h with h | h | h
  · exact .inl h.symm
  · omega
  · exact .inr ⟨by omega, by omega, by omega⟩

theorem mem_altReps {a : Alt} {c : Concat} {q : Rep} (hc : c ∈ a) (hq : q ∈ concatReps c) : q ∈ altReps a := by
  induction a with
  | nil => cases hc
  | cons c' a ih =>
    rw [altReps]
    rcases List.mem_cons.mp hc with rfl | hc
    · exact List.mem_append_left _ hq
    · exact List.mem_append_right _ (ih hc)

theorem makesTimes_shrink {g : Grammar} {o : GenOpts} {e : Elem} : ∀ (n k : Nat) (w : Bytes), MakesTimes g o e n k w →
    n ≤ w.length ∨ ∃ m, n = m + 1 ∧ MakesTimes g o e m k w := by
  intro n
  induction n with
  | zero => intro k w _; exact .inl (Nat.zero_le _)
  | succ n ih =>
    intro k w h
    cases h with
    | succ _ _ _ u v h1 h2 =>
      by_cases hu : u = []
      · subst hu
        exact .inr ⟨n, rfl, by simpa using h2⟩
      · have := List.length_pos_iff.mpr hu
        rcases ih _ _ h2 with h3 | ⟨m, rfl, h3⟩
        · left; rw [List.length_append]; omega
        · exact .inr ⟨m + 1, rfl, .succ e m k u v h1 h3⟩

theorem makesTimes_few {g : Grammar} {o : GenOpts} {e : Elem} {k mn : Nat} {w : Bytes} : ∀ n, mn ≤ n → MakesTimes g o e n k w →
    ∃ m, mn ≤ m ∧ m ≤ n ∧ m ≤ mn + w.length ∧ MakesTimes g o e m k w := by
  intro n
  induction n with
  | zero => intro h1 h2; exact ⟨0, h1, le_rfl, by omega, h2⟩
  | succ n ih =>
    intro h1 h2
    rcases makesTimes_shrink _ _ _ h2 with h3 | ⟨m, h3, h4⟩
    · exact ⟨n + 1, h1, le_rfl, by omega, h2⟩
    · obtain rfl : n = m := by omega
      by_cases h5 : mn ≤ n
      · obtain ⟨m, h6, h7, h8, h9⟩ := ih h5 h4
        exact ⟨m, h6, by omega, h8, h9⟩
      · exact ⟨n + 1, h1, le_rfl, by omega, h2⟩

theorem derives_makes {g : Grammar} {o : GenOpts} {l : Nat} (hl : l < 2 ^ 63) (hth : (l : Int) < o.threshold) {n : Str} {w : Bytes} (h : DerivesRule g n w)
    (hf : ∀ r, Resolves g n r → FullReach g o l r) : ∀ k, k + w.length ≤ l → Makes g o (.rulename n) k w := by
  let Good : Rep → Prop := fun q => FullRep o l q ∧ ∀ n r, q.elem = .rulename n → Resolves g n r → FullReach g o l r
  have hgood : ∀ r, FullReach g o l r → ∀ q ∈ altReps r.alt, Good q := fun r hr q hq =>
    ⟨(hr r .refl).2 q hq, fun n r' hn hr' r2 h2 => hr r2 (.head ⟨q, hq, n, hn, hr'⟩ h2)⟩
  refine Derives.rec (motive_1 := fun e w _ => ∀ mn mx, (∀ q ∈ repReps ⟨mn, mx, e⟩, Good q) ∨ (∃ n, e = .rulename n ∧ ∀ r, Resolves g n r → FullReach g o l r) →
      ∀ k, k + w.length ≤ l → Makes g o e k w)
    (motive_2 := fun a w _ => (∀ q ∈ altReps a, Good q) → a.length < 2 ^ 63 → ∀ k, k + w.length ≤ l → MakesAlt g o a k w)
    (motive_3 := fun c w _ => (∀ q ∈ concatReps c, Good q) → ∀ k, k + w.length ≤ l → MakesConcat g o c k w)
    (motive_4 := fun r w _ => (∀ q ∈ repReps r, Good q) → ∀ k, k + w.length ≤ l → ∃ n, Often r.min n (upTo o.repMax r.max) ∧ MakesTimes g o r.elem n k w)
    (motive_5 := fun e n w _ => ∀ mn mx, (∀ q ∈ repReps ⟨mn, mx, e⟩, Good q) → ∀ k, k + w.length ≤ l → MakesTimes g o e n k w)
    ?_ ?_ ?_ ?_ ?_ ?_ ?_ ?_ ?_ ?_ ?_ h 1 (some 1) (.inr ⟨n, rfl, hf⟩)
  · intro n r w hr _ ih mn mx hg k hk
    have h1 : FullReach g o l r := by
      rcases hg with hg | ⟨_, h1, h2⟩
      · exact (hg _ (List.mem_cons_self ..)).2 n r rfl hr
      · cases h1
        exact h2 r hr
    exact .rule n r k w hr (ih (hgood r h1) (h1 r .refl).1 k hk)
  · intro a w _ ih mn mx hg k hk
    rcases hg with hg | ⟨_, h1, _⟩
    · exact .group a k w (ih (fun q hq => hg q (List.mem_cons_of_mem _ hq)) ((hg _ (List.mem_cons_self ..)).1.few a (.inl rfl)) k hk)
    · cases h1
  · intro a mn mx hg k hk
    exact .optNone a k
  · intro a w _ ih mn mx hg k hk
    rcases hg with hg | ⟨_, h1, _⟩
    · exact .optSome a k w (ih (fun q hq => hg q (List.mem_cons_of_mem _ hq)) ((hg _ (List.mem_cons_self ..)).1.few a (.inr rfl)) k hk)
    · cases h1
  · intro e cs ht mn mx hg k hk
    rcases hg with hg | ⟨_, h1, _⟩
    · have hq := (hg _ (List.mem_cons_self ..)).1
      cases ht with
      | sensitive vs => exact .sensitive cs k
      | insensitive vs _ h =>
        refine .insensitive vs cs k ?_
        have hlow := hq.lower vs rfl
        clear hg hq hk
        induction h with
        | nil => exact .nil
        | @cons c d vs ws h _ ih =>
          refine .cons ?_ (ih fun c hc => hlow c (List.mem_cons_of_mem _ hc))
          have h1 := hlow c (List.mem_cons_self ..)
          exact same_capital h h1
      | series b es _ h =>
        refine .series b es _ k ?_
        clear hg hq hk
        induction h with
        | nil => exact .nil
        | @cons s c es cs h _ ih => rw [show utf8 (c :: cs) = utf8 [c] ++ utf8 cs from utf8_append [c] cs]; exact .char s es c _ h ih
      | range b s t lo hi c hs ht h1 h2 =>
        have := hq.narrow b s t lo hi rfl hs ht
        exact .range b s t lo hi c.toNat c k hs ht h1 h2 (by omega) (by have := char_valid c; omega) (.char c)
    · subst h1
      cases ht
  · intro a c w hc _ ih hg hlen k hk
    obtain ⟨i, hi, he⟩ := List.getElem_of_mem hc
    refine .mk a i c k w (by omega) (by rw [List.getElem?_eq_getElem hi, he]) (ih (fun q hq => hg q (mem_altReps hc hq)) k hk)
  · intro _ k _
    exact .nil k
  · rintro ⟨mn, mx, e⟩ c u v _ _ ih ih' hg k hk
    rw [List.length_append] at hk
    obtain ⟨n, h1, h2⟩ := ih (fun q hq => hg q (by simp [concatReps, hq])) k (by omega)
    refine .cons mn mx e n c k u v h1 ?_ (ih' (fun q hq => hg q (by simp [concatReps, hq])) _ (by omega))
    rw [if_neg (by rintro ⟨_, h⟩; omega)]
    exact h2
  · intro mn mx e n w h1 h2 _ ih hg k hk
    obtain ⟨m, h3, h4, h5, h6⟩ := makesTimes_few n h1 (ih mn mx hg k hk)
    refine ⟨m, ⟨by simp only [Rep.min_mk]; omega, h3, .inl ?_⟩, h6⟩
    cases mx with
    | none =>
      have := (hg _ (List.mem_cons_self ..)).1.often rfl
      simp only [upTo, Rep.min_mk, Rep.max_mk] at this ⊢
      omega
    | some m' =>
      have := h2 m' rfl
      simp only [upTo, Rep.max_mk]
      omega
  · intro e mn mx _ k _
    exact .zero e k
  · intro e n u v _ _ ih ih' mn mx hg k hk
    rw [List.length_append] at hk
    exact .succ e n k u v (ih mn mx (.inl hg) k (by omega)) (ih' mn mx hg _ (by omega))

/-- C99, the part that holds.  `Generate` can return every text of the rule that is shorter than the threshold, and no other, if
the option allows as many repetitions as the text has bytes, strings are written without capitals and ranges have at most 16
characters.  Missing, and false: other strings and ranges. -/
theorem C99_reaches_partial (g : Grammar) (hd : NamesDistinct g) (name : Str) (r : Rule) (hr : Resolves g name r) (he : EmitReach g r)
    (hc : ClosedReach g r) (o : GenOpts) (w : Bytes) (hlen : w.length < 2 ^ 63) (hth : (w.length : Int) < o.threshold)
    (hf : FullReach g o w.length r) :
    (∃ rnd fuel, (∀ i, rnd i < 2 ^ 63) ∧ generate rnd o g fuel name = .ok (.ok w)) ↔ DerivesRule g name w := by
  constructor
  · rintro ⟨rnd, fuel, _, h⟩
    exact C27_members_partial g hd name r hr he rnd o fuel w h
  · intro h
    refine (C98_exact g hd name r hr (fun r' hr' q hq => emittable_wf (he r' hr' q hq).1) hc o (fun rnd fuel hx => ?_) w).mpr
      (derives_makes hlen hth h (fun r' hr' => by rw [resolves_unique hd hr' hr rfl]; exact hf) 0 (by omega))
    have h1 := checked hx
    rcases check_sat hd hr hc with ⟨h2, _⟩ | ⟨_, h2⟩
    · rw [h1] at h2; cases h2
    · exact h2 (derives_exp h)

theorem nest_full {o : GenOpts} {l : Nat} (h : (l : Int) ≤ o.repMax) : FullReach nest o l (nest.rules[0]) := by
  intro r' hr'
  rw [nest_reach hr']
  refine ⟨by decide, fun q hq => ?_⟩
  have h1 : ((altReps (nest.rules[0]).alt).all fun q => (match q.elem with
      | .charVal false vs => vs.all fun c => !(decide (0x41 ≤ c.toNat) && decide (c.toNat ≤ 0x5A))
      | .numVal b .range es => b == ['x'] && es == [str% "30", str% "39"]
      | .group a => decide (a.length < 3)
      | .option a => decide (a.length < 3)
      | _ => true) && (q.max.isSome || q.min == 0)) = true := by decide +kernel
  have h2 := List.all_eq_true.mp h1 q hq
  rw [Bool.and_eq_true] at h2
  obtain ⟨h2, h3⟩ := h2
  refine ⟨fun vs hv c hc hcap => ?_, fun b s t lo hi he hs ht => ?_, fun hm => ?_, fun a ha => ?_⟩
  · rw [hv] at h2
    have := List.all_eq_true.mp h2 c hc
    simp [hcap.1, hcap.2] at this
  · rw [he] at h2
    simp only [Bool.and_eq_true, beq_iff_eq, List.cons.injEq, and_true] at h2
    obtain ⟨rfl, rfl, rfl⟩ := h2
    rw [denotes_fun hs (denotes_hex [3, 0] 48 (by decide)), denotes_fun ht (denotes_hex [3, 9] 57 (by decide))]
    norm_num
  · rw [hm] at h3
    have : q.min = 0 := by simpa using h3
    rw [this]
    simpa using h
  · rcases ha with ha | ha <;> rw [ha] at h2 <;> have : a.length < 3 := by simpa using h2
    all_goals omega

/-- A text of `nest` that meets the conditions of `C99_reaches_partial`. -/
example : NamesDistinct nest ∧ Resolves nest (str% "Nest") (nest.rules[0]) ∧ EmitReach nest (nest.rules[0]) ∧ ClosedReach nest (nest.rules[0]) ∧
    FullReach nest {} (bytes% "(x8xX1(X))").length (nest.rules[0]) ∧ DerivesRule nest (str% "Nest") (bytes% "(x8xX1(X))") :=
  ⟨nest_distinct, nest_resolves, emitReach_of (by decide +kernel) nest_resolves, closedReach_of (by decide +kernel) (by decide +kernel) nest_resolves,
   nest_full (by decide), C27_members_partial nest nest_distinct _ _ nest_resolves (emitReach_of (by decide +kernel) nest_resolves)
     (fun n => n * n / 3) { repMax := 3 } 9 _ (by decide +kernel)⟩

theorem makes_once {g : Grammar} {o : GenOpts} {e : Elem} {w : Bytes} {k : Nat} (h : MakesConcat g o [⟨1, some 1, e⟩] k w) : Makes g o e k w := by
  cases h with
  | cons _ _ _ n _ _ u v hb ht hc =>
    obtain ⟨_, h1, h2⟩ := hb
    obtain rfl : n = 1 := by
      simp only [upTo] at h2
      omega
    rw [if_neg (by simp)] at ht
    cases hc
    cases ht with
    | succ _ _ _ u v h1 h2 =>
      cases h2
      simpa using h1

/-- The grammar `a = ALPHA`. -/
def letter : Grammar := ⟨[⟨['a'], [[⟨1, some 1, .rulename (str% "ALPHA")⟩]]⟩]⟩

/-- C99 fails for `ALPHA`, and with it for everything that is built on it: only the first 16 characters of a range are ever drawn,
so no seed gives a letter after `P`. -/
theorem C99_fails : NamesDistinct letter ∧ semvalABNF letter = none ∧ DerivesRule letter ['a'] (bytes% "Z") ∧
    ∀ o rnd fuel, (∀ i, rnd i < 2 ^ 63) → generate rnd o letter fuel ['a'] ≠ .ok (.ok (bytes% "Z")) := by
  have hd : NamesDistinct letter := namesDistinct_of (by decide)
  have hr : Resolves letter ['a'] (letter.rules[0]) := (getRule_iff hd).mp (by decide +kernel)
  have hr' : Resolves letter (str% "ALPHA") ⟨str% "ALPHA", [[⟨1, some 1, .numVal ['x'] .range [str% "41", str% "5A"]⟩],
    [⟨1, some 1, .numVal ['x'] .range [str% "61", str% "7A"]⟩]]⟩ := (getRule_iff hd).mp (by decide +kernel)
  have hA : Denotes ['x'] (str% "41") 65 := denotes_hex [4, 1] 65 (by decide)
  have ha : Denotes ['x'] (str% "61") 97 := denotes_hex [6, 1] 97 (by decide)
  refine ⟨hd, by decide +kernel, ?_, fun o rnd fuel hrnd h => ?_⟩
  · have hz : DerivesAlt letter [[⟨1, some 1, .numVal ['x'] .range [str% "41", str% "5A"]⟩], [⟨1, some 1, .numVal ['x'] .range [str% "61", str% "7A"]⟩]] (bytes% "Z") :=
      .mk _ _ _ (List.mem_cons_self ..) (derivesConcat_one.mpr (derivesRep_one.mpr
        (.term _ ['Z'] (.range _ _ _ 65 90 'Z' hA (denotes_hex [5, 10] 90 (by decide)) (by decide) (by decide)))))
    exact .rule _ _ _ hr (.mk _ _ _ (List.mem_cons_self ..) (derivesConcat_one.mpr (derivesRep_one.mpr (.rule _ _ _ hr' hz))))
  have hm := (C98_exact letter hd ['a'] _ hr (fun r' hr' q hq => emittable_wf (emitReach_of (by decide +kernel) hr r' hr' q hq).1)
    (closedReach_of (by decide +kernel) (by decide +kernel) hr) o (fun rnd fuel hx => ?_) _).mp ⟨rnd, fuel, hrnd, h⟩
  · have key : ∀ lo (s t : Str), Denotes ['x'] s lo → lo = 65 ∨ lo = 97 → ¬ Makes letter o (.numVal ['x'] .range [s, t]) 0 (bytes% "Z") := by
      intro lo s t hlo hx hm
      generalize hz : bytes% "Z" = z at hm
      cases hm with
      | range _ _ _ lo' hi v c _ h1 _ h2 h3 h4 h5 h6 =>
        obtain rfl := denotes_fun h1 hlo
        have : c = 'Z' := by
          have := utf8_inj (show utf8 ['Z'] = utf8 [c] from hz)
          simpa using this.symm
        subst this
        cases h6 with
        | char _ => 
          have : 'Z'.toNat = 90 := rfl
          omega
      | noRange => cases hz
    cases hm with
    | rule _ r _ _ h1 h2 =>
      obtain rfl := resolves_unique hd h1 hr rfl
      cases h2 with
      | mk _ i c _ _ _ h3 h4 =>
        obtain rfl : c = [⟨1, some 1, .rulename (str% "ALPHA")⟩] := by
          have := List.mem_of_getElem? h3
          simpa [letter] using this
        cases makes_once h4 with
        | rule _ r _ _ h1 h2 =>
          obtain rfl := resolves_unique hd h1 hr' rfl
          cases h2 with
          | mk _ i c _ _ _ h3 h4 =>
            have := List.mem_of_getElem? h3
            simp only [List.mem_cons, List.not_mem_nil, or_false] at this
            rcases this with rfl | rfl
            · exact key 65 _ _ hA (.inl rfl) (makes_once h4)
            · exact key 97 _ _ ha (.inr rfl) (makes_once h4)
  · have h1 := checked hx
    have h2 : checkCanGenerateSafely letter ['a'] = .ok none := by decide +kernel
    rw [h2] at h1
    cases h1

end Props
end Verif
