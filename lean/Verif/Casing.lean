import Verif.Local

/-!
# C128: the letter case of rule names does not matter

RFC 5234, section 2.1: rule names are case-insensitive.  Two grammars that differ in the case of rule names only describe the same
texts, and get the same patterns, random texts and graphs.
-/

set_option linter.unusedSectionVars false

namespace Verif
open Spec Props

namespace Spec

mutual
/-- The elements differ in the case of rule names only. -/
def RecasedElem : Elem → Elem → Prop
  | .rulename n, e' => ∃ m, e' = .rulename m ∧ SameName n m
  | .group a, e' => ∃ b, e' = .group b ∧ RecasedAlts a b
  | .option a, e' => ∃ b, e' = .option b ∧ RecasedAlts a b
  | .numVal base t es, e' => e' = .numVal base t es
  | .charVal s vs, e' => e' = .charVal s vs
  | .proseVal s, e' => e' = .proseVal s
/-- The concatenations differ in the case of rule names only. -/
def RecasedReps : List Rep → List Rep → Prop
  | [], c' => c' = []
  | ⟨mn, mx, e⟩ :: c, c' => ∃ e' d, c' = ⟨mn, mx, e'⟩ :: d ∧ RecasedElem e e' ∧ RecasedReps c d
/-- The alternations differ in the case of rule names only. -/
def RecasedAlts : List (List Rep) → List (List Rep) → Prop
  | [], a' => a' = []
  | c :: a, a' => ∃ d b, a' = d :: b ∧ RecasedReps c d ∧ RecasedAlts a b
end

/-- The rules differ in the case of names only. -/
def RecasedRule (r r' : Rule) : Prop := SameName r.name r'.name ∧ RecasedAlts r.alt r'.alt

/-- The grammars differ in the case of rule names only. -/
def Recased (g g' : Grammar) : Prop := List.Forall₂ RecasedRule g.rules g'.rules

end Spec

mutual
theorem recasedElem_refl : ∀ e : Elem, RecasedElem e e
  | .rulename n => by rw [RecasedElem]; exact ⟨n, rfl, (sameName_iff _ _).mpr rfl⟩
  | .group a => by rw [RecasedElem]; exact ⟨a, rfl, recasedAlts_refl a⟩
  | .option a => by rw [RecasedElem]; exact ⟨a, rfl, recasedAlts_refl a⟩
  | .numVal _ _ _ => by rw [RecasedElem]
  | .charVal _ _ => by rw [RecasedElem]
  | .proseVal _ => by rw [RecasedElem]
theorem recasedReps_refl : ∀ c : List Rep, RecasedReps c c
  | [] => by rw [RecasedReps]
  | ⟨_, _, e⟩ :: c => by rw [RecasedReps]; exact ⟨e, c, rfl, recasedElem_refl e, recasedReps_refl c⟩
theorem recasedAlts_refl : ∀ a : List (List Rep), RecasedAlts a a
  | [] => by rw [RecasedAlts]
  | c :: a => by rw [RecasedAlts]; exact ⟨c, a, rfl, recasedReps_refl c, recasedAlts_refl a⟩
end

mutual
theorem recasedElem_symm : ∀ {e e' : Elem}, RecasedElem e e' → RecasedElem e' e
  | .rulename n, _, h => by
    rw [RecasedElem] at h
    obtain ⟨m, rfl, h⟩ := h
    rw [RecasedElem]
    exact ⟨n, rfl, (sameName_iff _ _).mpr ((sameName_iff _ _).mp h).symm⟩
  | .group a, _, h => by
    rw [RecasedElem] at h
    obtain ⟨m, rfl, h⟩ := h
    rw [RecasedElem]
    exact ⟨a, rfl, recasedAlts_symm h⟩
  | .option a, _, h => by
    rw [RecasedElem] at h
    obtain ⟨m, rfl, h⟩ := h
    rw [RecasedElem]
    exact ⟨a, rfl, recasedAlts_symm h⟩
  | .numVal _ _ _, _, h => by rw [RecasedElem] at h; subst h; rw [RecasedElem]
  | .charVal _ _, _, h => by rw [RecasedElem] at h; subst h; rw [RecasedElem]
  | .proseVal _, _, h => by rw [RecasedElem] at h; subst h; rw [RecasedElem]
theorem recasedReps_symm : ∀ {c c' : List Rep}, RecasedReps c c' → RecasedReps c' c
  | [], _, h => by rw [RecasedReps] at h; subst h; rw [RecasedReps]
  | ⟨mn, mx, e⟩ :: c, _, h => by
    rw [RecasedReps] at h
    obtain ⟨e', d, rfl, h1, h2⟩ := h
    rw [RecasedReps]
    exact ⟨e, c, rfl, recasedElem_symm h1, recasedReps_symm h2⟩
theorem recasedAlts_symm : ∀ {a a' : List (List Rep)}, RecasedAlts a a' → RecasedAlts a' a
  | [], _, h => by rw [RecasedAlts] at h; subst h; rw [RecasedAlts]
  | c :: a, _, h => by
    rw [RecasedAlts] at h
    obtain ⟨d, b, rfl, h1, h2⟩ := h
    rw [RecasedAlts]
    exact ⟨c, a, rfl, recasedReps_symm h1, recasedAlts_symm h2⟩
end

theorem recasedRule_symm {r r' : Rule} (h : RecasedRule r r') : RecasedRule r' r :=
  ⟨(sameName_iff _ _).mpr ((sameName_iff _ _).mp h.1).symm, recasedAlts_symm h.2⟩

theorem recased_symm {g g' : Grammar} (h : Recased g g') : Recased g' g := by
  unfold Recased at h ⊢
  exact h.flip.imp fun _ _ h => recasedRule_symm h

theorem recased_length {g g' : Grammar} (h : Recased g g') : g.rules.length = g'.rules.length := h.length_eq

/-! ## Looking up rules -/

theorem getRuleIn_recased {rs rs' : List Rule} (h : List.Forall₂ RecasedRule rs rs') {n m : Str} (hn : SameName n m) :
    (getRuleIn n rs = none ∧ getRuleIn m rs' = none) ∨ ∃ r r', getRuleIn n rs = some r ∧ getRuleIn m rs' = some r' ∧ RecasedRule r r' := by
  unfold getRuleIn
  induction h with
  | nil => exact .inl ⟨rfl, rfl⟩
  | @cons r r' l l' h1 _ ih =>
    have he : equalFold n r.name = equalFold m r'.name := by
      rw [equalFold, equalFold, (sameName_iff _ _).mp hn, (sameName_iff _ _).mp h1.1]
    cases hb : equalFold n r.name with
    | true => exact .inr ⟨r, r', by rw [List.find?_cons, hb], by rw [List.find?_cons, ← he, hb], h1⟩
    | false =>
      rw [List.find?_cons, hb, List.find?_cons, ← he, hb]
      exact ih

theorem getRule_recased {g g' : Grammar} (h : Recased g g') {n m : Str} (hn : SameName n m) :
    (getRule n g.rules = none ∧ getRule m g'.rules = none) ∨
    ∃ r r', getRule n g.rules = some r ∧ getRule m g'.rules = some r' ∧ RecasedRule r r' := by
  unfold getRule
  rcases getRuleIn_recased h hn with ⟨h1, h2⟩ | ⟨r, r', h1, h2, h3⟩
  · rw [h1, h2]
    simp only [Option.none_or]
    exact getRuleIn_recased (List.forall₂_same.mpr fun r _ => ⟨(sameName_iff _ _).mpr rfl, recasedAlts_refl _⟩) hn
  · exact .inr ⟨r, r', by rw [h1]; rfl, by rw [h2]; rfl, h3⟩

theorem recased_nd {g g' : Grammar} (h : Recased g g') (hd : NamesDistinct g) : NamesDistinct g' := by
  unfold NamesDistinct at hd ⊢
  unfold Recased at h
  generalize g.rules = l at h hd
  generalize g'.rules = l' at h
  induction h with
  | nil => exact .nil
  | @cons r r' l l' h1 h2 ih =>
    rw [List.pairwise_cons] at hd ⊢
    refine ⟨fun x' hx' hs => ?_, ih hd.2⟩
    obtain ⟨x, hx, hxx⟩ : ∃ x ∈ l, RecasedRule x x' := by
      obtain ⟨i, hi, e⟩ := List.getElem_of_mem hx'
      have hi' : i < l.length := by rw [h2.length_eq]; exact hi
      exact ⟨l[i], List.getElem_mem _, by have := h2.get hi' hi; simpa [e] using this⟩
    refine hd.1 x hx ((sameName_iff _ _).mpr ?_)
    rw [(sameName_iff _ _).mp h1.1, (sameName_iff _ _).mp hs, (sameName_iff _ _).mp hxx.1]

theorem resolves_recased {g g' : Grammar} (h : Recased g g') (hd : NamesDistinct g) {n m : Str} (hn : SameName n m) {r : Rule} (hr : Resolves g n r) :
    ∃ r', Resolves g' m r' ∧ RecasedRule r r' := by
  rcases getRule_recased h hn with ⟨h1, _⟩ | ⟨r1, r', h1, h2, h3⟩
  · rw [(getRule_iff hd).mpr hr] at h1
    cases h1
  · rw [(getRule_iff hd).mpr hr] at h1
    cases h1
    exact ⟨r', (getRule_iff (recased_nd h hd)).mp h2, h3⟩

/-! ## Derivations -/

theorem recasedAlts_mem {a b : List (List Rep)} (h : RecasedAlts a b) {c : List Rep} (hc : c ∈ a) : ∃ d ∈ b, RecasedReps c d := by
  induction a generalizing b with
  | nil => cases hc
  | cons x a ih =>
    rw [RecasedAlts] at h
    obtain ⟨d, b, rfl, h1, h2⟩ := h
    rcases List.mem_cons.mp hc with rfl | hc
    · exact ⟨d, List.mem_cons_self .., h1⟩
    · obtain ⟨d', hd', h'⟩ := ih h2 hc
      exact ⟨d', List.mem_cons_of_mem _ hd', h'⟩

theorem derives_recased {g g' : Grammar} (hg : Recased g g') (hd : NamesDistinct g) {e : Elem} {w : Bytes} (h : Derives g e w) :
    ∀ e', RecasedElem e e' → Derives g' e' w := by
  refine Derives.rec
    (motive_1 := fun e w _ => ∀ e', RecasedElem e e' → Derives g' e' w)
    (motive_2 := fun a w _ => ∀ a', RecasedAlts a a' → DerivesAlt g' a' w)
    (motive_3 := fun c w _ => ∀ c', RecasedReps c c' → DerivesConcat g' c' w)
    (motive_4 := fun r w _ => ∀ e', RecasedElem r.elem e' → DerivesRep g' ⟨r.min, r.max, e'⟩ w)
    (motive_5 := fun e n w _ => ∀ e', RecasedElem e e' → DerivesTimes g' e' n w)
    ?_ ?_ ?_ ?_ ?_ ?_ ?_ ?_ ?_ ?_ ?_ h
  · intro n r w hr _ ih e' he
    rw [RecasedElem] at he
    obtain ⟨m, rfl, hm⟩ := he
    obtain ⟨r', h1, h2⟩ := resolves_recased hg hd hm hr
    exact .rule m r' w h1 (ih _ h2.2)
  · intro a w _ ih e' he
    rw [RecasedElem] at he
    obtain ⟨b, rfl, hb⟩ := he
    exact .group b w (ih _ hb)
  · intro a e' he
    rw [RecasedElem] at he
    obtain ⟨b, rfl, hb⟩ := he
    exact .optNone b
  · intro a w _ ih e' he
    rw [RecasedElem] at he
    obtain ⟨b, rfl, hb⟩ := he
    exact .optSome b w (ih _ hb)
  · intro e cs h e' he
    have : e' = e := by
      cases h <;> rw [RecasedElem] at he <;> exact he
    exact this ▸ .term e cs h
  · intro a c w hc _ ih a' ha
    obtain ⟨d, h1, h2⟩ := recasedAlts_mem ha hc
    exact .mk a' d w h1 (ih d h2)
  · intro c' hc
    rw [RecasedReps] at hc
    subst hc
    exact .nil
  · intro r c u v _ _ ih1 ih2 c' hc
    obtain ⟨mn, mx, e⟩ := r
    rw [RecasedReps] at hc
    obtain ⟨e', d, rfl, h1, h2⟩ := hc
    exact .cons _ d u v (ih1 e' h1) (ih2 d h2)
  · intro mn mx e n w h1 h2 _ ih e' he
    exact .mk mn mx e' n w h1 h2 (ih e' he)
  · intro e e' _
    exact .zero e'
  · intro e n u v _ _ ih1 ih2 e' he
    exact .succ e' n u v (ih1 e' he) (ih2 e' he)

/-! ## Patterns -/

section
variable {f f' : Str → ReSt → Option (Re × ReSt)} (hf : ∀ n m, SameName n m → ∀ st, f n st = f' m st)
include hf

mutual
theorem reElem_recased : ∀ (e e' : Elem), RecasedElem e e' → ∀ st, reElem f e st = reElem f' e' st
  | .rulename n, _, h, st => by
    rw [RecasedElem] at h
    obtain ⟨m, rfl, h⟩ := h
    rw [reElem, reElem, hf n m h]
  | .group a, _, h, st => by
    rw [RecasedElem] at h
    obtain ⟨b, rfl, h⟩ := h
    rw [reElem, reElem, reAlts_recased a b h]
  | .option a, _, h, st => by
    rw [RecasedElem] at h
    obtain ⟨b, rfl, h⟩ := h
    rw [reElem, reElem, reAlts_recased a b h]
  | .numVal _ .range _, _, h, st => by rw [RecasedElem] at h; subst h; rw [reElem, reElem]
  | .numVal _ .series _, _, h, st => by rw [RecasedElem] at h; subst h; rw [reElem, reElem]
  | .charVal _ _, _, h, st => by rw [RecasedElem] at h; subst h; rw [reElem, reElem]
  | .proseVal _, _, h, st => by rw [RecasedElem] at h; subst h; rw [reElem, reElem]
theorem reAlts_recased : ∀ (a b : List (List Rep)), RecasedAlts a b → ∀ st, reAlts f a st = reAlts f' b st
  | [], _, h, st => by rw [RecasedAlts] at h; subst h; rw [reAlts, reAlts]
  | c :: a, _, h, st => by
    rw [RecasedAlts] at h
    obtain ⟨d, b, rfl, h1, h2⟩ := h
    rw [reAlts, reAlts, reParts_recased c d h1]
    simp only [reAlts_recased a b h2]
theorem reParts_recased : ∀ (c d : List Rep), RecasedReps c d → ∀ st, reParts f c st = reParts f' d st
  | [], _, h, st => by rw [RecasedReps] at h; subst h; rw [reParts, reParts]
  | ⟨mn, mx, e⟩ :: c, _, h, st => by
    rw [RecasedReps] at h
    obtain ⟨e', d, rfl, h1, h2⟩ := h
    rw [reParts, reParts, reElem_recased e e' h1]
    simp only [reParts_recased c d h2]
end

end

theorem reRule_recased {g g' : Grammar} (hg : Recased g g') : ∀ (k : Nat) (n m : Str), SameName n m → ∀ st, reRule g k n st = reRule g' k m st
  | 0 => fun _ _ _ _ => rfl
  | k + 1 => by
    intro n m hn st
    rw [reRule, reRule, (sameName_iff _ _).mp hn]
    cases hm : st.memo.lookup (canon m) with
    | some r => rfl
    | none =>
      simp only
      rcases getRule_recased hg hn with ⟨h1, h2⟩ | ⟨r, r', h1, h2, h3⟩
      · rw [h1, h2]
      · rw [h1, h2]
        simp only
        rw [reAlts_recased (reRule_recased hg k) _ _ h3.2]

/-! ## Generating -/

section
variable {rnd : Nat → Nat} {o : GenOpts} {f f' : Str → GenSt → Run GenSt} (hf : ∀ n m, SameName n m → ∀ st, f n st = f' m st)
include hf

omit hf in
theorem recasedAlts_length : ∀ {a b : List (List Rep)}, RecasedAlts a b → a.length = b.length
  | [], _, h => by rw [RecasedAlts] at h; subst h; rfl
  | c :: a, _, h => by
    rw [RecasedAlts] at h
    obtain ⟨d, b, rfl, h1, h2⟩ := h
    simp [recasedAlts_length h2]

mutual
theorem genPick_recased : ∀ (a b : List (List Rep)), RecasedAlts a b → ∀ (k : Nat) (st : GenSt), genPick rnd o f a k st = genPick rnd o f' b k st
  | [], _, h, k, st => by rw [RecasedAlts] at h; subst h; rw [genPick, genPick]
  | c :: a, _, h, k, st => by
    rw [RecasedAlts] at h
    obtain ⟨d, b, rfl, h1, h2⟩ := h
    cases k with
    | zero => rw [genPick, genPick, genReps_recased c d h1]
    | succ k => rw [genPick, genPick, genPick_recased a b h2]
theorem genReps_recased : ∀ (c d : List Rep), RecasedReps c d → ∀ (st : GenSt), genReps rnd o f c st = genReps rnd o f' d st
  | [], _, h, st => by rw [RecasedReps] at h; subst h; rw [genReps, genReps]
  | ⟨mn, mx, e⟩ :: c, _, h, st => by
    rw [RecasedReps] at h
    obtain ⟨e', d, rfl, h1, h2⟩ := h
    rw [genReps, genReps, funext (genElem_recased e e' h1), funext (genReps_recased c d h2)]
theorem genElem_recased : ∀ (e e' : Elem), RecasedElem e e' → ∀ (st : GenSt), genElem rnd o f e st = genElem rnd o f' e' st
  | .rulename n, _, h, st => by
    rw [RecasedElem] at h
    obtain ⟨m, rfl, h⟩ := h
    rw [genElem, genElem, hf n m h]
  | .group a, _, h, st => by
    rw [RecasedElem] at h
    obtain ⟨b, rfl, h⟩ := h
    rw [genElem, genElem, recasedAlts_length h, genPick_recased a b h]
  | .option a, _, h, st => by
    rw [RecasedElem] at h
    obtain ⟨b, rfl, h⟩ := h
    rw [genElem, genElem, recasedAlts_length h, genPick_recased a b h]
  | .numVal _ .range _, _, h, st => by rw [RecasedElem] at h; subst h; rw [genElem, genElem]
  | .numVal _ .series _, _, h, st => by rw [RecasedElem] at h; subst h; rw [genElem, genElem]
  | .charVal _ _, _, h, st => by rw [RecasedElem] at h; subst h; rw [genElem, genElem]
  | .proseVal _, _, h, st => by rw [RecasedElem] at h; subst h; rw [genElem, genElem]
end

theorem genAlt_recased {a b : Alt} (h : RecasedAlts a b) (st : GenSt) : genAlt rnd o f a st = genAlt rnd o f' b st := by
  rw [genAlt, genAlt, recasedAlts_length h, genPick_recased hf a b h]

end

theorem genRule_recased {g g' : Grammar} (hg : Recased g g') (rnd : Nat → Nat) (o : GenOpts) :
    ∀ (k : Nat) (n m : Str), SameName n m → ∀ st, genRule rnd o g k n st = genRule rnd o g' k m st
  | 0 => fun _ _ _ _ => rfl
  | k + 1 => by
    intro n m hn st
    rw [genRule, genRule]
    rcases getRule_recased hg hn with ⟨h1, h2⟩ | ⟨r, r', h1, h2, h3⟩
    · rw [h1, h2]
    · rw [h1, h2]
      exact genAlt_recased (genRule_recased hg rnd o k) h3.2 st

section
variable {f f' : List Str → Str → Run Bool} (hf : ∀ n m, SameName n m → ∀ known known', known.map canon = known'.map canon → f known n = f' known' m)
include hf

mutual
theorem checkConcats_recased : ∀ (a b : List (List Rep)), RecasedAlts a b → ∀ known known', known.map canon = known'.map canon →
    checkGenConcats f known a = checkGenConcats f' known' b
  | [], _, h, _, _, _ => by rw [RecasedAlts] at h; subst h; rw [checkGenConcats, checkGenConcats]
  | c :: a, _, h, known, known', hk => by
    rw [RecasedAlts] at h
    obtain ⟨d, b, rfl, h1, h2⟩ := h
    rw [checkGenConcats, checkGenConcats, checkConcat_recased c d h1 known known' hk, checkConcats_recased a b h2 known known' hk]
theorem checkConcat_recased : ∀ (c d : List Rep), RecasedReps c d → ∀ known known', known.map canon = known'.map canon →
    checkGenConcat f known c = checkGenConcat f' known' d
  | [], _, h, _, _, _ => by rw [RecasedReps] at h; subst h; rw [checkGenConcat, checkGenConcat]
  | ⟨mn, mx, e⟩ :: c, _, h, known, known', hk => by
    rw [RecasedReps] at h
    obtain ⟨e', d, rfl, h1, h2⟩ := h
    rw [checkGenConcat, checkGenConcat, checkElem_recased e e' h1 known known' hk, checkConcat_recased c d h2 known known' hk]
theorem checkElem_recased : ∀ (e e' : Elem), RecasedElem e e' → ∀ known known', known.map canon = known'.map canon →
    checkGenElem f known e = checkGenElem f' known' e'
  | .rulename n, _, h, known, known', hk => by
    rw [RecasedElem] at h
    obtain ⟨m, rfl, h⟩ := h
    rw [checkGenElem, checkGenElem, hf n m h known known' hk]
  | .group a, _, h, known, known', hk => by
    rw [RecasedElem] at h
    obtain ⟨b, rfl, h⟩ := h
    rw [checkGenElem, checkGenElem, checkConcats_recased a b h known known' hk]
  | .option a, _, h, _, _, _ => by
    rw [RecasedElem] at h
    obtain ⟨b, rfl, h⟩ := h
    simp only [checkGenElem]
  | .numVal _ _ _, _, h, _, _, _ => by rw [RecasedElem] at h; subst h; simp only [checkGenElem]
  | .charVal _ _, _, h, _, _, _ => by rw [RecasedElem] at h; subst h; simp only [checkGenElem]
  | .proseVal _, _, h, _, _, _ => by rw [RecasedElem] at h; subst h; simp only [checkGenElem]
end

end

theorem any_fold {known known' : List Str} (h : known.map canon = known'.map canon) {n m : Str} (hn : SameName n m) :
    (known.any fun x => equalFold n x) = known'.any fun x => equalFold m x := by
  have : ∀ (l : List Str) (k : Str), (l.any fun x => equalFold k x) = (l.map canon).any fun y => canon k == y := by
    intro l k
    rw [List.any_map]
    rfl
  rw [this, this, h, (sameName_iff _ _).mp hn]

theorem checkRule_recased {g g' : Grammar} (hg : Recased g g') :
    ∀ (k : Nat) (n m : Str), SameName n m → ∀ known known', known.map canon = known'.map canon → checkGenRule g k known n = checkGenRule g' k known' m
  | 0 => fun _ _ _ _ _ _ => rfl
  | k + 1 => by
    intro n m hn known known' hk
    rw [checkGenRule, checkGenRule, any_fold hk hn]
    rcases getRule_recased hg hn with ⟨h1, h2⟩ | ⟨r, r', h1, h2, h3⟩
    · rw [h1, h2]
    · rw [h1, h2]
      simp only [checkGenAlt]
      rw [checkConcats_recased (checkRule_recased hg k) _ _ h3.2 (n :: known) (m :: known') (by simp [hk, (sameName_iff _ _).mp hn])]

theorem check_recased {g g' : Grammar} (hg : Recased g g') {n m : Str} (hn : SameName n m) :
    checkCanGenerateSafely g n = checkCanGenerateSafely g' m := by
  rw [checkCanGenerateSafely, checkCanGenerateSafely, recased_length hg]
  generalize g'.rules.length + Core.rules.length + 1 = k
  rcases getRule_recased hg hn with ⟨h1, h2⟩ | ⟨r, r', h1, h2, h3⟩
  · rw [h1, h2]
  · rw [h1, h2]
    simp only [checkGenAlt]
    rw [checkConcats_recased (checkRule_recased hg k) _ _ h3.2 [n] [m] (by simp [(sameName_iff _ _).mp hn])]

/-! ## Cycles -/

mutual
theorem elemReps_recased : ∀ (e e' : Elem), RecasedElem e e' → ∀ q ∈ elemReps e, ∃ q' ∈ elemReps e', q.min = q'.min ∧ q.max = q'.max ∧ RecasedElem q.elem q'.elem
  | .rulename _, _, _, q, hq => by simp [elemReps] at hq
  | .group a, _, h, q, hq => by
    rw [RecasedElem] at h
    obtain ⟨b, rfl, h⟩ := h
    rw [elemReps] at hq ⊢
    exact altReps_recased a b h q hq
  | .option a, _, h, q, hq => by
    rw [RecasedElem] at h
    obtain ⟨b, rfl, h⟩ := h
    rw [elemReps] at hq ⊢
    exact altReps_recased a b h q hq
  | .numVal _ _ _, _, _, q, hq => by simp [elemReps] at hq
  | .charVal _ _, _, _, q, hq => by simp [elemReps] at hq
  | .proseVal _, _, _, q, hq => by simp [elemReps] at hq
theorem concatReps_recased : ∀ (c d : List Rep), RecasedReps c d → ∀ q ∈ concatReps c, ∃ q' ∈ concatReps d, q.min = q'.min ∧ q.max = q'.max ∧ RecasedElem q.elem q'.elem
  | [], _, _, q, hq => by rw [concatReps] at hq; cases hq
  | ⟨mn, mx, e⟩ :: c, _, h, q, hq => by
    rw [RecasedReps] at h
    obtain ⟨e', d, rfl, h1, h2⟩ := h
    rw [concatReps, repReps] at hq ⊢
    rcases List.mem_append.mp hq with hq | hq
    · rcases List.mem_cons.mp hq with rfl | hq
      · exact ⟨_, List.mem_append_left _ (List.mem_cons_self ..), rfl, rfl, h1⟩
      · obtain ⟨q', h3, h4⟩ := elemReps_recased e e' h1 q hq
        exact ⟨q', List.mem_append_left _ (List.mem_cons_of_mem _ h3), h4⟩
    · obtain ⟨q', h3, h4⟩ := concatReps_recased c d h2 q hq
      exact ⟨q', List.mem_append_right _ h3, h4⟩
theorem altReps_recased : ∀ (a b : List (List Rep)), RecasedAlts a b → ∀ q ∈ altReps a, ∃ q' ∈ altReps b, q.min = q'.min ∧ q.max = q'.max ∧ RecasedElem q.elem q'.elem
  | [], _, _, q, hq => by rw [altReps] at hq; cases hq
  | c :: a, _, h, q, hq => by
    rw [RecasedAlts] at h
    obtain ⟨d, b, rfl, h1, h2⟩ := h
    rw [altReps] at hq ⊢
    rcases List.mem_append.mp hq with hq | hq
    · obtain ⟨q', h3, h4⟩ := concatReps_recased c d h1 q hq
      exact ⟨q', List.mem_append_left _ h3, h4⟩
    · obtain ⟨q', h3, h4⟩ := altReps_recased a b h2 q hq
      exact ⟨q', List.mem_append_right _ h3, h4⟩
end

theorem refers_recased {g g' : Grammar} (hg : Recased g g') (hd : NamesDistinct g) {x y x' : Rule} (h : Refers g x y) (hx : RecasedRule x x') :
    ∃ y', Refers g' x' y' ∧ RecasedRule y y' := by
  obtain ⟨q, hq, n, hn, hy⟩ := h
  obtain ⟨q', hq', _, _, he⟩ := altReps_recased _ _ hx.2 q hq
  rw [hn, RecasedElem] at he
  obtain ⟨m, hm, hs⟩ := he
  obtain ⟨y', h1, h2⟩ := resolves_recased hg hd hs hy
  exact ⟨y', ⟨q', hq', m, hm, h1⟩, h2⟩

theorem reach_recased {g g' : Grammar} (hg : Recased g g') (hd : NamesDistinct g) {x y x' : Rule} (h : Relation.ReflTransGen (Refers g) x y)
    (hx : RecasedRule x x') : ∃ y', Relation.ReflTransGen (Refers g') x' y' ∧ RecasedRule y y' := by
  induction h with
  | refl => exact ⟨x', .refl, hx⟩
  | tail _ h2 ih =>
    obtain ⟨y', h3, h4⟩ := ih
    obtain ⟨z', h5, h6⟩ := refers_recased hg hd h2 h4
    exact ⟨z', h3.tail h5, h6⟩

/-- A rule that can be reached is what its name stands for. -/
theorem reach_own {g : Grammar} {n : Str} {r r' : Rule} (hr : Resolves g n r) (h : Relation.ReflTransGen (Refers g) r r') : Resolves g r'.name r' := by
  cases h with
  | refl => exact (resolves_congr (resolves_name hr)).mpr hr
  | tail _ h2 =>
    obtain ⟨q, _, m, _, hm⟩ := h2
    exact (resolves_congr (resolves_name hm)).mpr hm

theorem cyclic_recased {g g' : Grammar} (hg : Recased g g') (hd : NamesDistinct g) {m : Str} {r r' : Rule} (hr' : Resolves g' m r')
    (hrr : RecasedRule r r') (h : ∃ x, Relation.ReflTransGen (Refers g) r x ∧ Cyclic g x) :
    ∃ x, Relation.ReflTransGen (Refers g') r' x ∧ Cyclic g' x := by
  obtain ⟨x, h1, h2⟩ := h
  obtain ⟨x', h3, h4⟩ := reach_recased hg hd h1 hrr
  obtain ⟨y, h5, h6⟩ := Relation.TransGen.head'_iff.mp h2
  obtain ⟨y', h7, h8⟩ := refers_recased hg hd h5 h4
  obtain ⟨z', h9, h10⟩ := reach_recased hg hd h6 h8
  have : z' = x' := by
    refine resolves_unique (recased_nd hg hd) (reach_own hr' ((h3.tail h7).trans h9)) (reach_own hr' h3) ?_
    rw [← (sameName_iff _ _).mp h10.1, ← (sameName_iff _ _).mp h4.1]
  subst this
  exact ⟨z', h3, Relation.TransGen.head'_iff.mpr ⟨y', h7, h9⟩⟩

/-! ## Validation -/

theorem repOK_recased {q q' : Rep} (h1 : q.min = q'.min) (h2 : q.max = q'.max) (h3 : RecasedElem q.elem q'.elem) (h : RepOK q) : RepOK q' := by
  obtain ⟨mn, mx, e⟩ := q
  obtain ⟨mn', mx', e'⟩ := q'
  subst h1 h2
  refine ⟨h.1, fun b st es he => ?_⟩
  change e' = .numVal b st es at he
  subst he
  have : RecasedElem (.numVal b st es) e := recasedElem_symm h3
  rw [RecasedElem] at this
  subst this
  exact h.2 b st es rfl

theorem forall2_mem {α β : Type} {R : α → β → Prop} {l : List α} {l' : List β} (h : List.Forall₂ R l l') {b : β} (hb : b ∈ l') : ∃ a ∈ l, R a b := by
  induction h with
  | nil => cases hb
  | cons h1 _ ih =>
    rcases List.mem_cons.mp hb with rfl | hb
    · exact ⟨_, List.mem_cons_self .., h1⟩
    · obtain ⟨a, h2, h3⟩ := ih hb
      exact ⟨a, List.mem_cons_of_mem _ h2, h3⟩

theorem semval_recased {g g' : Grammar} (hg : Recased g g') (h : semvalABNF g = none) : semvalABNF g' = none := by
  unfold semvalABNF at h ⊢
  simp only [Option.or_eq_none_iff, List.findSome?_eq_none_iff, semvalDeps_none, semvalAlternation_none, mem_getDependencies] at h ⊢
  constructor
  · rintro r' hr' _ ⟨q', hq', n', hn', rfl⟩
    obtain ⟨r, hr, hrr⟩ := forall2_mem hg hr'
    obtain ⟨q, hq, _, _, he⟩ := altReps_recased _ _ (recasedAlts_symm hrr.2) q' hq'
    rw [hn', RecasedElem] at he
    obtain ⟨n, hn, hs⟩ := he
    have := h.1 r hr (canon n) ⟨q, hq, n, hn, rfl⟩
    have hs' : SameName (canon n') (canon n) := (sameName_iff _ _).mpr (by rw [(sameName_iff _ _).mp hs])
    rcases getRule_recased (recased_symm hg) hs' with ⟨_, h2⟩ | ⟨r1, _, h2, _, _⟩
    · rw [h2] at this
      cases this
    · rw [h2]
      rfl
  · intro r' hr' q' hq'
    obtain ⟨r, hr, hrr⟩ := forall2_mem hg hr'
    obtain ⟨q, hq, h1, h2, he⟩ := altReps_recased _ _ (recasedAlts_symm hrr.2) q' hq'
    exact repOK_recased h1.symm h2.symm (recasedElem_symm he) (h.2 r hr q hq)

/-! ## Transition graphs -/

/-- If the first returns a value, the second returns it too. -/
def OkLe {α : Type} (x y : TgOut α) : Prop := ∀ a, x = .ok (.ok a) → y = .ok (.ok a)

theorem okLe_refl {α : Type} (x : TgOut α) : OkLe x x := fun _ h => h

theorem okLe_bind {α β : Type} {x x' : TgOut α} {F F' : α → TgOut β} (h : OkLe x x') (hF : ∀ a, OkLe (F a) (F' a)) : OkLe (tgBind x F) (tgBind x' F') := by
  intro b hb
  cases x with
  | fuel => cases hb
  | panic => cases hb
  | ok r =>
    cases r with
    | error e => cases hb
    | ok a =>
      rw [h a rfl]
      exact hF a b hb

section
variable {o : TgOpts} (ho : o.rules = true) {f f' : Str → TgSt → TgOut (TgFrag × TgSt)} (hf : ∀ n m, SameName n m → ∀ st, OkLe (f n st) (f' m st))
include ho hf

mutual
theorem altGraph_recased : ∀ (a b : List (List Rep)), RecasedAlts a b → ∀ (acc : TgFrag) (st : TgSt), OkLe (altGraph o f a acc st) (altGraph o f' b acc st)
  | [], _, h, acc, st => by
    rw [RecasedAlts] at h
    subst h
    rw [altGraph, altGraph]
    exact okLe_refl _
  | c :: a, _, h, acc, st => by
    rw [RecasedAlts] at h
    obtain ⟨d, b, rfl, h1, h2⟩ := h
    rw [altGraph, altGraph]
    exact okLe_bind (concatGraph_recased c d h1 st) fun x => altGraph_recased a b h2 _ _
theorem concatGraph_recased : ∀ (c d : List Rep), RecasedReps c d → ∀ (st : TgSt), OkLe (concatGraph o f c st) (concatGraph o f' d st)
  | [], _, h, st => by
    rw [RecasedReps] at h
    subst h
    rw [concatGraph, concatGraph]
    exact okLe_refl _
  | ⟨mn, mx, e⟩ :: c, _, h, st => by
    rw [RecasedReps] at h
    obtain ⟨e', d, rfl, h1, h2⟩ := h
    rw [concatGraph, concatGraph]
    exact okLe_bind (elemGraph_recased e e' h1 st) fun x => okLe_bind (okLe_refl _) fun y => concatRest_recased c d h2 _ _
theorem concatRest_recased : ∀ (c d : List Rep), RecasedReps c d → ∀ (acc : TgFrag) (st : TgSt), OkLe (concatRest o f c acc st) (concatRest o f' d acc st)
  | [], _, h, acc, st => by
    rw [RecasedReps] at h
    subst h
    rw [concatRest, concatRest]
    exact okLe_refl _
  | ⟨mn, mx, e⟩ :: c, _, h, acc, st => by
    rw [RecasedReps] at h
    obtain ⟨e', d, rfl, h1, h2⟩ := h
    rw [concatRest, concatRest]
    exact okLe_bind (elemGraph_recased e e' h1 st) fun x => okLe_bind (okLe_refl _) fun y => concatRest_recased c d h2 _ _
theorem elemGraph_recased : ∀ (e e' : Elem), RecasedElem e e' → ∀ (st : TgSt), OkLe (elemGraph o f e st) (elemGraph o f' e' st)
  | .rulename n, _, h, st => by
    rw [RecasedElem] at h
    obtain ⟨m, rfl, h⟩ := h
    rw [elemGraph, elemGraph, if_pos ho, if_pos ho]
    exact hf n m h st
  | .group a, _, h, st => by
    rw [RecasedElem] at h
    obtain ⟨b, rfl, h⟩ := h
    rw [elemGraph, elemGraph]
    exact altGraph_recased a b h _ _
  | .option a, _, h, st => by
    rw [RecasedElem] at h
    obtain ⟨b, rfl, h⟩ := h
    rw [elemGraph, elemGraph]
    exact okLe_bind (altGraph_recased a b h _ _) fun x => okLe_refl _
  | .numVal _ .range _, _, h, st => by rw [RecasedElem] at h; subst h; rw [elemGraph, elemGraph]; exact okLe_refl _
  | .numVal _ .series _, _, h, st => by rw [RecasedElem] at h; subst h; rw [elemGraph, elemGraph]; exact okLe_refl _
  | .charVal _ _, _, h, st => by rw [RecasedElem] at h; subst h; rw [elemGraph, elemGraph]; exact okLe_refl _
  | .proseVal _, _, h, st => by rw [RecasedElem] at h; subst h; rw [elemGraph, elemGraph]; exact okLe_refl _
end

end

theorem ruleGraph_recased {g g' : Grammar} (hg : Recased g g') {o : TgOpts} (ho : o.rules = true) :
    ∀ (k : Nat) (n m : Str), SameName n m → ∀ st, OkLe (ruleGraph o g k n st) (ruleGraph o g' k m st)
  | 0 => fun _ _ _ _ => okLe_refl _
  | k + 1 => by
    intro n m hn st
    rw [ruleGraph, ruleGraph, (sameName_iff _ _).mp hn]
    cases st.buf.lookup (canon m) with
    | some f => exact okLe_refl _
    | none =>
      simp only
      rcases getRule_recased hg hn with ⟨h1, h2⟩ | ⟨r, r', h1, h2, h3⟩
      · rw [h1, h2]
        intro a ha
        cases ha
      · rw [h1, h2]
        exact okLe_bind (altGraph_recased ho (ruleGraph_recased hg ho k) _ _ h3.2 _ _) fun x => okLe_refl _

theorem graph_recased {g g' : Grammar} (hg : Recased g g') {o : TgOpts} (ho : o.rules = true) (k : Nat) {a b : Alt} (h : RecasedAlts a b)
    {β : Type} (F : TgFrag × TgSt → TgOut β) : OkLe (tgBind (altGraph o (ruleGraph o g k) a {} {}) F) (tgBind (altGraph o (ruleGraph o g' k) b {} {}) F) :=
  okLe_bind (altGraph_recased ho (ruleGraph_recased hg ho k) _ _ h _ _) fun _ => okLe_refl _

/-! ## C128 -/

namespace Props

/-- C128.  The case of rule names does not change the texts of a rule. -/
theorem C128_texts {g g' : Grammar} (hg : Recased g g') (hd : NamesDistinct g) {n m : Str} (hn : SameName n m) (w : Bytes) :
    DerivesRule g n w ↔ DerivesRule g' m w := by
  have key : ∀ {g g' : Grammar} {n m : Str}, Recased g g' → NamesDistinct g → SameName n m → DerivesRule g n w → DerivesRule g' m w := by
    intro g g' n m hg hd hn h
    refine derives_recased hg hd h _ ?_
    rw [RecasedElem]
    exact ⟨m, rfl, hn⟩
  exact ⟨key hg hd hn, key (recased_symm hg) (recased_nd hg hd) ((sameName_iff _ _).mpr ((sameName_iff _ _).mp hn).symm)⟩

/-- C128.  Where neither call runs into a budget, the parsers accept the same inputs. -/
theorem C128_forests {g g' : Grammar} (hg : Recased g g') (hd : NamesDistinct g) {n m : Str} (hn : SameName n m) (hwf : NumValsWF g) (hwf' : NumValsWF g')
    (hp : DistinctPrint g) (hp' : DistinctPrint g') (inp : Bytes) :
    (∀ sched sched' : Sched NodeKey, sched.Fair → sched'.Fair → ∀ maxNodes maxSlots maxNodes' maxSlots' f f',
      parseForest sched inp g n maxNodes maxSlots = .ok f → parseForest sched' inp g' m maxNodes' maxSlots' = .ok f' → f.valid = f'.valid) ∧
    (∀ sched sched' : Sched Nat, sched.Fair → sched'.Fair → ∀ maxElems maxSlots maxElems' maxSlots' f f',
      parseBSR sched inp g n maxElems maxSlots = .ok f → parseBSR sched' inp g' m maxElems' maxSlots' = .ok f' → f.valid = f'.valid) := by
  have hd' := recased_nd hg hd
  refine ⟨fun s s' hs hs' _ _ _ _ f f' h h' => ?_, fun s s' hs hs' _ _ _ _ f f' h h' => ?_⟩
  · rw [Bool.eq_iff_iff, C01_exact g hwf hd hp s hs inp n _ _ f h, C01_exact g' hwf' hd' hp' s' hs' inp m _ _ f' h', C128_texts hg hd hn]
  · rw [Bool.eq_iff_iff, C02_exact g hwf hd hp s hs inp n _ _ f h, C02_exact g' hwf' hd' hp' s' hs' inp m _ _ f' h', C128_texts hg hd hn]

/-- C128.  `RuleContainsCycle` answers alike. -/
theorem C128_cycle {g g' : Grammar} (hg : Recased g g') (hd : NamesDistinct g) {n m : Str} (hn : SameName n m)
    {core core' : List Rule} (hcore : core.Perm Core.rules) (hcore' : core'.Perm Core.rules)
    {order order' : List Str} (ho : order.Perm ((dependencyGraph core g).map Prod.fst)) (ho' : order'.Perm ((dependencyGraph core' g').map Prod.fst)) :
    ruleContainsCycle core g order n = ruleContainsCycle core' g' order' m := by
  have hd' := recased_nd hg hd
  obtain ⟨h1, h2⟩ := C20_exact g hd core hcore order ho n
  obtain ⟨h1', h2'⟩ := C20_exact g' hd' core' hcore' order' ho' m
  rcases getRule_recased hg hn with ⟨e1, e2⟩ | ⟨r, r', e1, e2, h3⟩
  · rw [h1.mpr fun ⟨r, h⟩ => (by rw [(getRule_iff hd).mpr h] at e1; cases e1), h1'.mpr fun ⟨r, h⟩ => by rw [(getRule_iff hd').mpr h] at e2; cases e2]
  · have hr := (getRule_iff hd).mp e1
    have hr' := (getRule_iff hd').mp e2
    obtain ⟨b, h4, h5⟩ := h2 r hr
    obtain ⟨b', h4', h5'⟩ := h2' r' hr'
    have : b = true ↔ b' = true := by
      rw [h5, h5']
      exact ⟨cyclic_recased hg hd hr' h3, cyclic_recased (recased_symm hg) hd' hr (recasedRule_symm h3)⟩
    rw [h4, h4', Bool.eq_iff_iff.mpr this]

/-- C128.  `Regex` gives the same pattern or the same error. -/
theorem C128_regex {g g' : Grammar} (hg : Recased g g') (hd : NamesDistinct g) {n m : Str} (hn : SameName n m)
    {core core' : List Rule} (hcore : core.Perm Core.rules) (hcore' : core'.Perm Core.rules)
    {order order' : List Str} (ho : order.Perm ((dependencyGraph core g).map Prod.fst)) (ho' : order'.Perm ((dependencyGraph core' g').map Prod.fst))
    (max : Nat) : regex core order g max n = regex core' order' g' max m := by
  unfold regex
  rw [C128_cycle hg hd hn hcore hcore' ho ho', recased_length hg]
  generalize g'.rules.length + Core.rules.length + 1 = k
  rcases getRule_recased hg hn with ⟨e1, e2⟩ | ⟨r, r', e1, e2, h3⟩
  · rw [e1, e2]
  · rw [e1, e2]
    simp only
    rw [reAlts_recased (reRule_recased hg k) _ _ h3.2]

/-- C128.  `Generate` gives the same text or the same error for the same source of randomness. -/
theorem C128_generate {g g' : Grammar} (hg : Recased g g') {n m : Str} (hn : SameName n m) (rnd : Nat → Nat) (o : GenOpts) (fuel : Nat) :
    generate rnd o g fuel n = generate rnd o g' fuel m := by
  rw [generate, generate, check_recased hg hn]
  rcases getRule_recased hg hn with ⟨e1, e2⟩ | ⟨r, r', e1, e2, h3⟩
  · rw [e1, e2]
  · rw [e1, e2]
    congr 1
    funext err
    cases err with
    | some e => rfl
    | none =>
      simp only
      rw [genAlt_recased (genRule_recased hg rnd o fuel) h3.2]

/-- C128.  `SemvalABNF` accepts both or none. -/
theorem C128_valid {g g' : Grammar} (hg : Recased g g') : semvalABNF g = none ↔ semvalABNF g' = none :=
  ⟨semval_recased hg, semval_recased (recased_symm hg)⟩

/-- C128.  With rules deflated, `TransitionGraph` returns the same graph. -/
theorem C128_graph {g g' : Grammar} (hg : Recased g g') (hd : NamesDistinct g) {n m : Str} (hn : SameName n m)
    {core core' : List Rule} (hcore : core.Perm Core.rules) (hcore' : core'.Perm Core.rules)
    {order order' : List Str} (ho : order.Perm ((dependencyGraph core g).map Prod.fst)) (ho' : order'.Perm ((dependencyGraph core' g').map Prod.fst))
    (o : TgOpts) (hr : o.rules = true) (x : TgFrag × TgHeap) :
    transitionGraph o core g order n = .ok (.ok x) ↔ transitionGraph o core' g' order' m = .ok (.ok x) := by
  have key : ∀ {g g' : Grammar} {n m : Str}, Recased g g' → NamesDistinct g → SameName n m → ∀ {core core' : List Rule}, core.Perm Core.rules →
      core'.Perm Core.rules → ∀ {order order' : List Str}, order.Perm ((dependencyGraph core g).map Prod.fst) →
      order'.Perm ((dependencyGraph core' g').map Prod.fst) → transitionGraph o core g order n = .ok (.ok x) →
      transitionGraph o core' g' order' m = .ok (.ok x) := by
    intro g g' n m hg hd hn core core' hcore hcore' order order' ho ho' h
    unfold transitionGraph at h ⊢
    rw [← C128_cycle hg hd hn hcore hcore' ho ho', ← recased_length hg]
    generalize g.rules.length + Core.rules.length + 1 = k at h ⊢
    generalize ruleContainsCycle core g order n = c at h ⊢
    rcases getRule_recased hg hn with ⟨e1, e2⟩ | ⟨r, r', e1, e2, h3⟩
    · rw [e1] at h
      cases h
    · rw [e1] at h
      rw [e2]
      simp only [hr, if_true] at h ⊢
      cases hs : semvalABNF g with
      | some e => rw [hs] at h; cases h
      | none =>
        rw [semval_recased hg hs]
        rw [hs] at h
        simp only at h ⊢
        cases c with
        | none => cases h
        | some c =>
          cases c with
          | panic => cases h
          | fuel => cases h
          | ok b =>
            cases b with
            | true => cases h
            | false =>
              simp only [Run.bnd, Bool.false_eq_true, if_false] at h ⊢
              exact graph_recased hg hr k h3.2 _ x h
  exact ⟨key hg hd hn hcore hcore' ho ho', key (recased_symm hg) (recased_nd hg hd) ((sameName_iff _ _).mpr ((sameName_iff _ _).mp hn).symm) hcore' hcore ho' ho⟩

/-- `Id = alpha *( ALPHA / Digit )` and `List = ID *( "," iD )`. -/
def shouting : Grammar := ⟨[
  ⟨str% "Id", [[Ex.one (Ex.ref (str% "alpha")), ⟨0, none, .group [[Ex.one (Ex.ref (str% "ALPHA"))], [Ex.one (Ex.ref (str% "Digit"))]]⟩]]⟩,
  ⟨str% "List", [[Ex.one (Ex.ref (str% "ID")), ⟨0, none, .group [[Ex.one (Ex.lit (str% ",")), Ex.one (Ex.ref (str% "iD"))]]⟩]]⟩]⟩

/-- The same with the names in lower case. -/
def whispering : Grammar := ⟨[
  ⟨str% "id", [[Ex.one (Ex.ref (str% "alpha")), ⟨0, none, .group [[Ex.one (Ex.ref (str% "alpha"))], [Ex.one (Ex.ref (str% "digit"))]]⟩]]⟩,
  ⟨str% "list", [[Ex.one (Ex.ref (str% "id")), ⟨0, none, .group [[Ex.one (Ex.lit (str% ",")), Ex.one (Ex.ref (str% "id"))]]⟩]]⟩]⟩

example : Recased shouting whispering ∧ NamesDistinct shouting ∧ SameName (str% "LIST") (str% "list") ∧
    (plainOrder shouting).Perm ((dependencyGraph Core.rules shouting).map Prod.fst) ∧
    regex Core.rules (plainOrder shouting) shouting 0 (str% "LIST") = .ok (str% "[A-Za-z][0-9A-Za-z]*(?:,[A-Za-z][0-9A-Za-z]*)*") ∧
    semvalABNF shouting = none ∧ NumValsWF shouting ∧ NumValsWF whispering ∧ DistinctPrint shouting ∧ DistinctPrint whispering ∧
    ((parseForest (fun _ l => l) (bytes% "a,b1") shouting (str% "LIST") 0 0).toOption.map Forest.valid) = some true ∧
    (tgShow (transitionGraph { rules := true } Core.rules shouting (plainOrder shouting) (str% "LIST"))).isSome = true := by
  refine ⟨?_, namesDistinct_of (by decide), (sameName_iff _ _).mpr (by decide), .refl _, by decide +kernel, by decide +kernel, numValsWF_of (by decide), numValsWF_of (by decide),
    distinctPrint_of (by decide +kernel), distinctPrint_of (by decide +kernel), by decide +kernel, by decide +kernel⟩
  refine .cons ⟨(sameName_iff _ _).mpr (by decide), ?_⟩ (.cons ⟨(sameName_iff _ _).mpr (by decide), ?_⟩ .nil)
  all_goals simp only [Ex.one, Ex.ref, Ex.lit, RecasedAlts, RecasedReps, RecasedElem]
  · exact ⟨_, _, rfl, ⟨_, _, rfl, ⟨_, rfl, (sameName_iff _ _).mpr (by decide)⟩, _, _, rfl, ⟨_, rfl, _, _, rfl,
      ⟨_, _, rfl, ⟨_, rfl, (sameName_iff _ _).mpr (by decide)⟩, rfl⟩, _, _, rfl,
      ⟨_, _, rfl, ⟨_, rfl, (sameName_iff _ _).mpr (by decide)⟩, rfl⟩, rfl⟩, rfl⟩, rfl⟩
  · exact ⟨_, _, rfl, ⟨_, _, rfl, ⟨_, rfl, (sameName_iff _ _).mpr (by decide)⟩, _, _, rfl, ⟨_, rfl, _, _, rfl,
      ⟨_, _, rfl, rfl, _, _, rfl, ⟨_, rfl, (sameName_iff _ _).mpr (by decide)⟩, rfl⟩, rfl⟩, rfl⟩, rfl⟩

/-- `a = (b) (b)` and `b = "x"`. -/
def groups : Grammar := ⟨[⟨str% "a", [[Ex.one (.group [[Ex.one (Ex.ref (str% "b"))]]), Ex.one (.group [[Ex.one (Ex.ref (str% "b"))]])]]⟩,
  ⟨str% "b", [[Ex.one (Ex.lit (str% "x"))]]⟩]⟩

/-- `a = (b) (B)` and `b = "x"`. -/
def groups' : Grammar := ⟨[⟨str% "a", [[Ex.one (.group [[Ex.one (Ex.ref (str% "b"))]]), Ex.one (.group [[Ex.one (Ex.ref (str% "B"))]])]]⟩,
  ⟨str% "b", [[Ex.one (Ex.lit (str% "x"))]]⟩]⟩

/-- C128 does not hold for budgets: groups are told apart by what they print (/repo/sppf.go:195-197), so `WithMaxSlots(4)` is enough for
`a = (b) (b)` but not for `a = (b) (B)`. -/
theorem C128_fails : Recased groups groups' ∧ NamesDistinct groups ∧ (∃ sg, compileSlots groups (str% "a") 4 = .ok sg) ∧
    compileSlots groups' (str% "a") 4 = .error (.grammarTooLarge 4) := by
  refine ⟨?_, namesDistinct_of (by decide), ?_, ?_⟩
  · refine .cons ⟨(sameName_iff _ _).mpr (by decide), ?_⟩ (.cons ⟨(sameName_iff _ _).mpr (by decide), recasedAlts_refl _⟩ .nil)
    simp only [Ex.one, Ex.ref, RecasedAlts, RecasedReps, RecasedElem]
    exact ⟨_, _, rfl, ⟨_, _, rfl, ⟨_, rfl, _, _, rfl, ⟨_, _, rfl, ⟨_, rfl, (sameName_iff _ _).mpr (by decide)⟩, rfl⟩, rfl⟩, _, _, rfl,
      ⟨_, rfl, _, _, rfl, ⟨_, _, rfl, ⟨_, rfl, (sameName_iff _ _).mpr (by decide)⟩, rfl⟩, rfl⟩, rfl⟩, rfl⟩
  · have h : (match compileSlots groups (str% "a") 4 with
      | .ok _ => true
      | .error _ => false) = true := by decide +kernel
    cases hc : compileSlots groups (str% "a") 4 with
    | ok sg => exact ⟨sg, rfl⟩
    | error e => rw [hc] at h; cases h
  · have h : (match compileSlots groups' (str% "a") 4 with
      | .ok _ => false
      | .error e => decide (e = .grammarTooLarge 4)) = true := by decide +kernel
    cases hc : compileSlots groups' (str% "a") 4 with
    | ok sg => rw [hc] at h; cases h
    | error e => rw [hc] at h; rw [of_decide_eq_true h]

end Props

end Verif
