import Verif.ExampleTargets
import Verif.RecogCost
import Verif.AstExact

/-!
# Repetitions that the recogniser counts correctly, found by evaluation

`Tallied` speaks about the texts of an element.  Here it is derived from the shape of the grammar: an element all of whose
texts have the same length, and an element that is a single repetition without upper bound.
-/

namespace Verif.Props

open Verif Spec

/-! ## Elements all of whose texts have the same length -/

mutual
/-- The length of the texts of an element, if its shape shows that they all have the same; `f` gives that of a rule. -/
def lenElem (f : Str → Option Nat) : Elem → Option Nat
  | .rulename n => f n
  | .group a => lenAlt f a
  | .option _ => none
  | .charVal _ vs => some (utf8 vs).length
  | .numVal b .series es => some ((es.map fun s => runeLen s b).sum)
  | .numVal b .range es => match es with
    | [_, t] => if numvalToRune t b ≤ 127 then some 1 else none
    | _ => none
  | .proseVal _ => none
/-- As `lenElem`, for a repetition. -/
def lenRep (f : Str → Option Nat) : Rep → Option Nat
  | ⟨mn, mx, e⟩ => if mx = some mn then (lenElem f e).map (mn * ·) else none
/-- As `lenElem`, for a concatenation. -/
def lenConcat (f : Str → Option Nat) : List Rep → Option Nat
  | [] => some 0
  | r :: c => (lenRep f r).bind fun n => (lenConcat f c).map (n + ·)
/-- As `lenElem`, for an alternation. -/
def lenAlt (f : Str → Option Nat) : List (List Rep) → Option Nat
  | [] => none
  | c :: a => if a.isEmpty || lenAlt f a == lenConcat f c then lenConcat f c else none
end

/-- As `lenElem`, for a rule, looking through `fuel` references. -/
def lenRule (g : Grammar) : Nat → Str → Option Nat
  | 0, _ => none
  | fuel + 1, n => (getRule n g.rules).bind fun r => lenAlt (lenRule g fuel) r.alt

section
variable {g : Grammar} {f : Str → Option Nat}

theorem term_len {e : Elem} {cs : List Char} {k : Nat} (h : Terminal e cs) (hk : lenElem f e = some k) : (utf8 cs).length = k := by
  cases h with
  | sensitive vs => simpa [lenElem] using hk
  | insensitive vs ws h =>
    simp only [lenElem, Option.some.injEq] at hk
    subst hk
    induction h with
    | nil => rfl
    | cons h1 _ ih => rw [utf8_cons_length, utf8_cons_length, sameLetter_size h1, ih]
  | series b es cs h =>
    simp only [lenElem, Option.some.injEq] at hk
    subst hk
    induction h with
    | nil => rfl
    | cons h1 _ ih => rw [utf8_cons_length, List.map_cons, List.sum_cons, runeLen_of h1, ih]
  | range b s t lo hi c h1 h2 h3 h4 =>
    simp only [lenElem] at hk
    split at hk
    · rename_i hle
      cases hk
      rw [utf8_one_length]
      have hc := char_valid c
      rw [numvalToRune_denotes h2] at hle
      unfold Char.utf8Size
      have : c.toNat ≤ 127 := by
        unfold maxInt32 at hle
        omega
      exact if_pos this
    · cases hk

theorem lenElem_sound (hf : ∀ n k, f n = some k → ∀ w, Derives g (.rulename n) w → w.length = k) {e : Elem} {w : Bytes}
    (h : Derives g e w) : ∀ k, lenElem f e = some k → w.length = k := by
  refine Derives.rec (g := g)
    (motive_1 := fun e w _ => ∀ k, lenElem f e = some k → w.length = k)
    (motive_2 := fun a w _ => ∀ k, lenAlt f a = some k → w.length = k)
    (motive_3 := fun c w _ => ∀ k, lenConcat f c = some k → w.length = k)
    (motive_4 := fun r w _ => ∀ k, lenRep f r = some k → w.length = k)
    (motive_5 := fun e n w _ => ∀ k, lenElem f e = some k → w.length = n * k)
    ?_ ?_ ?_ ?_ ?_ ?_ ?_ ?_ ?_ ?_ ?_ h
  · intro n r w hr ha _ k hk
    exact hf n k (by simpa [lenElem] using hk) w (.rule n r w hr ha)
  · intro a w _ ih k hk
    exact ih k (by simpa [lenElem] using hk)
  · intro a k hk
    simp [lenElem] at hk
  · intro a w _ _ k hk
    simp [lenElem] at hk
  · intro e cs ht k hk
    exact term_len ht hk
  · intro a c w hc _ ih k hk
    induction a with
    | nil => cases hc
    | cons d a iha =>
      simp only [lenAlt] at hk
      split at hk
      · rename_i hc'
        rcases List.mem_cons.mp hc with rfl | hc
        · exact ih k hk
        · have : lenAlt f a = lenConcat f d := by
            cases a with
            | nil => cases hc
            | cons x y => simpa using hc'
          exact iha hc (this.trans hk)
      · cases hk
  · intro k hk
    simpa [lenConcat] using hk
  · intro r c u v _ _ ih1 ih2 k hk
    simp only [lenConcat, Option.bind_eq_some_iff, Option.map_eq_some_iff] at hk
    obtain ⟨i, hi, j, hj, rfl⟩ := hk
    rw [List.length_append, ih1 i hi, ih2 j hj]
  · intro mn mx e n w h1 h2 _ ih k hk
    simp only [lenRep] at hk
    split at hk
    · rename_i hmx
      have hn : n = mn := Nat.le_antisymm (h2 mn hmx) h1
      obtain ⟨j, hj, rfl⟩ := Option.map_eq_some_iff.mp hk
      rw [ih j hj, hn]
    · cases hk
  · intro e k _
    simp
  · intro e n u v _ _ ih1 ih2 k hk
    rw [List.length_append, ih1 k hk, ih2 k hk]
    ring

theorem lenAlt_sound (hf : ∀ n k, f n = some k → ∀ w, Derives g (.rulename n) w → w.length = k) {a : Alt} {w : Bytes}
    (h : DerivesAlt g a w) (k : Nat) (hk : lenAlt f a = some k) : w.length = k :=
  lenElem_sound hf (.group a w h) k (by simpa [lenElem] using hk)

end

theorem lenRule_sound {g : Grammar} (hd : NamesDistinct g) (fuel : Nat) : ∀ (n : Str) (k : Nat), lenRule g fuel n = some k →
    ∀ w, Derives g (.rulename n) w → w.length = k := by
  induction fuel with
  | zero => intro n k h; cases h
  | succ fuel ih =>
    intro n k h w hw
    unfold lenRule at h
    obtain ⟨r, hr, h⟩ := Option.bind_eq_some_iff.mp h
    cases hw with
    | rule _ r' _ hr' hw =>
      rw [(getRule_iff hd).mpr hr'] at hr
      cases hr
      exact lenAlt_sound ih hw k h
    | term _ _ ht => cases ht

/-- Texts of one length that is not zero are not empty and none is a proper prefix of another. -/
theorem prefixFree_of_length {g : Grammar} {e : Elem} {k : Nat} (hk : 0 < k) (h : ∀ w, Derives g e w → w.length = k) :
    PrefixFree g e ∧ ¬ Derives g e [] :=
  ⟨fun v w hv hw hp => hp.eq_of_length ((h v hv).trans (h w hw).symm), fun h0 => by have := h [] h0; simp at this; omega⟩

/-! ## Elements whose texts are closed under concatenation -/

theorem times_append {g : Grammar} {e : Elem} {m : Nat} {v : Bytes} (hv : DerivesTimes g e m v) {n : Nat} {w : Bytes}
    (hw : DerivesTimes g e n w) : DerivesTimes g e (m + n) (v ++ w) := by
  induction m generalizing v with
  | zero => cases hv; simpa using hw
  | succ m ih =>
    cases hv with
    | succ _ _ x y h1 h2 =>
      rw [List.append_assoc, show m + 1 + n = m + n + 1 by omega]
      exact .succ e _ x _ h1 (ih h2)

/-- Two texts of a repetition without upper bound after each other are one. -/
theorem closed_loop {g : Grammar} {mn : Nat} {e : Elem} {v w : Bytes} (hv : DerivesAlt g [[⟨mn, none, e⟩]] v)
    (hw : DerivesAlt g [[⟨mn, none, e⟩]] w) : DerivesAlt g [[⟨mn, none, e⟩]] (v ++ w) := by
  have key : ∀ u, DerivesAlt g [[⟨mn, none, e⟩]] u ↔ ∃ n, mn ≤ n ∧ DerivesTimes g e n u := by
    intro u
    constructor
    · rintro ⟨_, c, _, hc, h⟩
      simp only [List.mem_singleton] at hc
      subst hc
      cases h with
      | cons _ _ x y h1 h2 =>
        cases h2
        cases h1 with
        | mk _ _ _ n _ h3 _ h4 => exact ⟨n, h3, by simpa using h4⟩
    · rintro ⟨n, h1, h2⟩
      have := DerivesConcat.cons (g := g) ⟨mn, none, e⟩ [] u [] (.mk mn none e n u h1 (by simp) h2) .nil
      rw [List.append_nil] at this
      exact .mk _ _ _ (List.mem_singleton.mpr rfl) this
  obtain ⟨m, h1, h2⟩ := (key v).mp hv
  obtain ⟨n, _, h4⟩ := (key w).mp hw
  exact (key _).mpr ⟨m + n, by omega, times_append h2 h4⟩

/-- A single repetition without upper bound. -/
def loopAlt : Alt → Bool
  | [[⟨_, none, _⟩]] => true
  | _ => false

/-- A group that is a single repetition without upper bound, or a reference to such a rule. -/
def loopElem (g : Grammar) : Elem → Bool
  | .group a => loopAlt a
  | .rulename n => (getRule n g.rules).any fun r => loopAlt r.alt
  | _ => false

theorem loopAlt_closed {g : Grammar} {a : Alt} (h : loopAlt a = true) {v w : Bytes} (hv : DerivesAlt g a v) (hw : DerivesAlt g a w) :
    DerivesAlt g a (v ++ w) := by
  unfold loopAlt at h
  split at h
  · exact closed_loop hv hw
  · cases h

theorem loopElem_closed {g : Grammar} (hd : NamesDistinct g) {e : Elem} (h : loopElem g e = true) : ClosedUnder g e := by
  intro v w hv hw
  cases e with
  | group a =>
    cases hv with
    | group _ _ hv => cases hw with
      | group _ _ hw => exact .group _ _ (loopAlt_closed h hv hw)
      | term _ _ ht => cases ht
    | term _ _ ht => cases ht
  | rulename n =>
    cases hv with
    | rule _ r _ hr hv => cases hw with
      | rule _ r' _ hr' hw =>
        have e1 := (getRule_iff hd).mpr hr
        have e2 := (getRule_iff hd).mpr hr'
        rw [e1] at e2
        cases e2
        simp only [loopElem, e1, Option.any_some] at h
        exact .rule _ r _ hr (loopAlt_closed h hv hw)
      | term _ _ ht => cases ht
    | term _ _ ht => cases ht
  | _ => cases h

/-! ## The check -/

/-- No rule can start with itself. -/
def noLeftRecB (g : Grammar) : Bool :=
  match leftRecursiveSCCs (plainOrders g) g with
  | .ok [] => true
  | _ => false

/-- The repetition is seen to be counted correctly: by a small lower bound, by texts of one length that is not zero, or by texts that
are not empty and either equal bounds or an element that is a loop without upper bound. -/
def talliedB (g : Grammar) (fuel : Nat) (r : Rep) : Bool :=
  decide (r.min ≤ 2) || (match lenElem (lenRule g fuel) r.elem with | some k => decide (0 < k) | none => false) ||
    (!repNullable (plainNull g) ⟨1, none, r.elem⟩ && (decide (r.max = some r.min) || (loopElem g r.elem &&
      (match r.elem with | .rulename _ => noLeftRecB g | _ => true))))

theorem tallied_of {g : Grammar} (hd : NamesDistinct g) (hne : NoEmptySeries g) (fuel : Nat)
    (h : ((rulesReps g.rules).all (talliedB g fuel)) = true) : ∀ r ∈ rulesReps g.rules, Tallied g r := by
  intro r hr
  have h := List.all_eq_true.mp h r hr
  have hocc : Occurs g r.elem := by
    obtain ⟨R, hR, hr⟩ := List.mem_flatMap.mp hr
    exact ⟨r, List.mem_flatMap.mpr ⟨R, List.mem_append_left _ hR, hr⟩, rfl⟩
  unfold talliedB at h
  simp only [Bool.or_eq_true, Bool.and_eq_true, decide_eq_true_eq, Bool.not_eq_true'] at h
  rcases h with (h | h) | ⟨h, h'⟩
  · exact .inl h
  · split at h
    · rename_i k hk
      exact .inr (.inr (.inl (prefixFree_of_length (of_decide_eq_true h) (fun w hw => lenElem_sound (lenRule_sound hd fuel) hw k hk))))
    · cases h
  · have hnull : ¬ Derives g r.elem [] := by
      intro h0
      have := ((plainNull_exact hd).1 _).mpr (.elem 1 none _ (vanishes_of_derives hne h0 (.inl hocc) rfl))
      rw [h] at this
      cases this
    rcases h' with h' | ⟨h1, h2⟩
    · exact .inr (.inl ⟨h', hnull⟩)
    · refine .inr (.inr (.inr ⟨loopElem_closed hd h1, hnull, fun n hn => ?_⟩))
      rw [hn] at h2
      simp only [noLeftRecB] at h2
      split at h2
      · rename_i e
        exact no_leftRec hd (plainOrders_fair g) e n
      · cases h2

/-! ## C05: numbers of digits and of words -/

/-- `phone = "+" 4*15DIGIT ["/" 3*word] / 5(word ".")`, `word = 1*ALPHA`. -/
def phone : Grammar := ⟨[⟨str% "phone", [
    [Ex.one (Ex.lit (str% "+")), ⟨4, some 15, Ex.ref (str% "DIGIT")⟩, Ex.one (.option [[Ex.one (Ex.lit (str% "/")), ⟨3, none, Ex.ref (str% "word")⟩]])],
    [⟨5, some 5, .group [[Ex.one (Ex.ref (str% "word")), Ex.one (Ex.lit (str% "."))]]⟩]]⟩,
  ⟨str% "word", [[⟨1, none, Ex.ref (str% "ALPHA")⟩]]⟩]⟩

theorem phone_nd : NamesDistinct phone := namesDistinct_of (by decide)

/-- The repetitions of this grammar whose lower bounds are above two are counted correctly. -/
theorem phone_tallied : ∀ r ∈ rulesReps phone.rules, Tallied phone r :=
  tallied_of phone_nd (noEmptySeries_of (by decide)) 2 (by decide +kernel)

/-- C05.  For this grammar, in which lower bounds are above two, `IsValid` is right about every text, in every order in which it meets the
rules and positions. -/
theorem C05_phone (o : LOrders) (ho : o.Fair phone) (sched : Sched Nat) (hs : sched.Fair) (inp : Bytes) :
    isValid o sched phone (str% "phone") inp = some (.ok true) ↔ DerivesRule phone (str% "phone") inp :=
  ⟨C04_sound_written phone (by decide) (by unfold CaseConsistent; decide) phone_nd o ho sched hs _ inp,
    C05_complete_written_partial phone (by decide) (by unfold CaseConsistent; decide) phone_nd
      (simple_of phone_nd [] (by decide +kernel) (by decide +kernel))
      (unbracketed_of phone_nd [(str% "phone", 1), (str% "lwsp", 2)] (by decide +kernel) (by decide +kernel)) phone_tallied o ho sched hs _ inp⟩

example : isValid (plainOrders phone) plainSched phone (str% "phone") (bytes% "+12345/abcd") = some (.ok true) ∧
    isValid (plainOrders phone) plainSched phone (str% "phone") (bytes% "+12345/ab") = some (.ok false) := by decide +kernel

end Verif.Props
