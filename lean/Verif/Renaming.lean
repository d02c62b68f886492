import Verif.Casing
import Verif.PropsRegex
import Verif.PropsBsr

/-!
# C131: renaming rules

Answers about a grammar and about the same grammar with its rules renamed (names: /repo/utils.go, `GetRule`).
-/

namespace Verif.Props
open Spec RE2

mutual
/-- The element with its names replaced (/repo/abnf.go:99-205). -/
def renElem (ρ : Str → Str) : Elem → Elem
  | .rulename n => .rulename (ρ n)
  | .group a => .group (renAlt ρ a)
  | .option a => .option (renAlt ρ a)
  | .charVal s v => .charVal s v
  | .numVal b s es => .numVal b s es
  | .proseVal v => .proseVal v
/-- The alternation with its names replaced (/repo/abnf.go:40-44). -/
def renAlt (ρ : Str → Str) : List (List Rep) → List (List Rep)
  | [] => []
  | c :: a => renConcat ρ c :: renAlt ρ a
/-- The concatenation with its names replaced (/repo/abnf.go:57-60). -/
def renConcat (ρ : Str → Str) : List Rep → List Rep
  | [] => []
  | r :: c => renRep ρ r :: renConcat ρ c
/-- The repetition with its names replaced (/repo/abnf.go:73-76). -/
def renRep (ρ : Str → Str) : Rep → Rep
  | ⟨mn, mx, e⟩ => ⟨mn, mx, renElem ρ e⟩
end

/-- The rule with its name and those it mentions replaced (/repo/abnf.go:25-31). -/
def renRule (ρ : Str → Str) (r : Rule) : Rule := ⟨ρ r.name, renAlt ρ r.alt⟩

/-- The grammar with its names replaced (`Grammar`, /repo/grammar.go). -/
def renGrammar (ρ : Str → Str) (g : Grammar) : Grammar := ⟨g.rules.map (renRule ρ)⟩

/-- A renaming keeps different names different, up to case, and leaves the names of core rules alone
(comparison of names: /repo/utils.go, `GetRule`). -/
structure Renaming (ρ : Str → Str) : Prop where
  names : ∀ n m, SameName (ρ n) (ρ m) ↔ SameName n m
  core : ∀ n, IsCoreName n → ρ n = n

mutual
theorem renElem_fixed (ρ : Str → Str) : ∀ e : Elem, (∀ n, e = .rulename n → ρ n = n) → (∀ q ∈ elemReps e, ∀ n, q.elem = .rulename n → ρ n = n) →
    renElem ρ e = e
  | .rulename n, h, _ => by simp only [renElem]; rw [h n rfl]
  | .group a, _, h => by simp only [renElem]; rw [renAlt_fixed ρ a (by simpa only [elemReps] using h)]
  | .option a, _, h => by simp only [renElem]; rw [renAlt_fixed ρ a (by simpa only [elemReps] using h)]
  | .charVal .., _, _ => by simp only [renElem]
  | .numVal .., _, _ => by simp only [renElem]
  | .proseVal .., _, _ => by simp only [renElem]
theorem renAlt_fixed (ρ : Str → Str) : ∀ a : List (List Rep), (∀ q ∈ altReps a, ∀ n, q.elem = .rulename n → ρ n = n) → renAlt ρ a = a
  | [], _ => by simp only [renAlt]
  | c :: a, h => by
    simp only [altReps, List.mem_append] at h
    simp only [renAlt]
    rw [renConcat_fixed ρ c fun q hq => h q (.inl hq), renAlt_fixed ρ a fun q hq => h q (.inr hq)]
theorem renConcat_fixed (ρ : Str → Str) : ∀ c : List Rep, (∀ q ∈ concatReps c, ∀ n, q.elem = .rulename n → ρ n = n) → renConcat ρ c = c
  | [], _ => by simp only [renConcat]
  | r :: c, h => by
    simp only [concatReps, List.mem_append] at h
    simp only [renConcat]
    rw [renRep_fixed ρ r fun q hq => h q (.inl hq), renConcat_fixed ρ c fun q hq => h q (.inr hq)]
theorem renRep_fixed (ρ : Str → Str) : ∀ r : Rep, (∀ q ∈ repReps r, ∀ n, q.elem = .rulename n → ρ n = n) → renRep ρ r = r
  | ⟨mn, mx, e⟩, h => by
    simp only [repReps, List.mem_cons] at h
    simp only [renRep]
    rw [renElem_fixed ρ e (fun n hn => h _ (.inl rfl) n hn) fun q hq => h q (.inr hq)]
end

mutual
theorem elemReps_ren (ρ : Str → Str) : ∀ e : Elem, elemReps (renElem ρ e) = (elemReps e).map (renRep ρ)
  | .rulename n => by simp only [renElem, elemReps, List.map_nil]
  | .group a => by simp only [renElem, elemReps]; exact altReps_ren ρ a
  | .option a => by simp only [renElem, elemReps]; exact altReps_ren ρ a
  | .charVal .. => by simp only [renElem, elemReps, List.map_nil]
  | .numVal .. => by simp only [renElem, elemReps, List.map_nil]
  | .proseVal .. => by simp only [renElem, elemReps, List.map_nil]
theorem altReps_ren (ρ : Str → Str) : ∀ a : List (List Rep), altReps (renAlt ρ a) = (altReps a).map (renRep ρ)
  | [] => by simp only [renAlt, altReps, List.map_nil]
  | c :: a => by simp only [renAlt, altReps, List.map_append]; rw [concatReps_ren ρ c, altReps_ren ρ a]
theorem concatReps_ren (ρ : Str → Str) : ∀ c : List Rep, concatReps (renConcat ρ c) = (concatReps c).map (renRep ρ)
  | [] => by simp only [renConcat, concatReps, List.map_nil]
  | r :: c => by simp only [renConcat, concatReps, List.map_append]; rw [repReps_ren ρ r, concatReps_ren ρ c]
theorem repReps_ren (ρ : Str → Str) : ∀ r : Rep, repReps (renRep ρ r) = (repReps r).map (renRep ρ)
  | ⟨mn, mx, e⟩ => by simp only [renRep, repReps, List.map_cons]; rw [elemReps_ren ρ e]
end

/-- Core rules mention core rules only. -/
theorem core_mentions : ∀ q ∈ rulesReps Core.rules, ∀ n, q.elem = .rulename n → IsCoreName n := by
  intro q hq n hn
  have h : ((rulesReps Core.rules).all fun q => match q.elem with | .rulename n => (getRuleIn n Core.rules).isSome | _ => true) = true := by
    decide +kernel
  have := List.all_eq_true.mp h q hq
  rw [hn] at this
  by_contra hc
  simp only [(isCoreName_iff n).mpr hc] at this
  cases this

theorem renRule_core {ρ : Str → Str} (hρ : Renaming ρ) {r : Rule} (hr : r ∈ Core.rules) : renRule ρ r = r := by
  unfold renRule
  rw [hρ.core _ ⟨r, hr, (sameName_iff ..).mpr rfl⟩,
    renAlt_fixed ρ _ fun q hq n hn => hρ.core n (core_mentions q (List.mem_flatMap.mpr ⟨r, hr, hq⟩) n hn)]

theorem resolves_ren {ρ : Str → Str} (hρ : Renaming ρ) {g : Grammar} {n : Str} {r : Rule} (h : Resolves g n r) :
    Resolves (renGrammar ρ g) (ρ n) (renRule ρ r) := by
  cases h with
  | user h1 h2 => exact .user (List.mem_map_of_mem h1) ((hρ.names ..).mpr h2)
  | core h1 h2 h3 =>
    have h4 := (hρ.names ..).mpr h2
    rw [hρ.core r.name ⟨r, h1, (sameName_iff ..).mpr rfl⟩] at h4
    rw [renRule_core hρ h1]
    refine .core h1 h4 fun u hu hs => ?_
    obtain ⟨x, hx, rfl⟩ := List.mem_map.mp hu
    exact h3 x hx ((hρ.names ..).mp hs)

theorem resolves_unren {ρ : Str → Str} (hρ : Renaming ρ) {g : Grammar} {n : Str} {r' : Rule} (h : Resolves (renGrammar ρ g) (ρ n) r') :
    ∃ r, r' = renRule ρ r ∧ Resolves g n r := by
  cases h with
  | user h1 h2 =>
    obtain ⟨x, hx, rfl⟩ := List.mem_map.mp h1
    exact ⟨x, rfl, .user hx ((hρ.names ..).mp h2)⟩
  | core h1 h2 h3 =>
    refine ⟨r', (renRule_core hρ h1).symm, .core h1 ?_ fun u hu hs => h3 _ (List.mem_map_of_mem hu) ((hρ.names ..).mpr hs)⟩
    rw [← hρ.core r'.name ⟨r', h1, (sameName_iff ..).mpr rfl⟩] at h2
    exact (hρ.names ..).mp h2

theorem renAlt_mem {ρ : Str → Str} {a : Alt} {d : Concat} : d ∈ renAlt ρ a ↔ ∃ c ∈ a, d = renConcat ρ c := by
  induction a with
  | nil => simp [renAlt]
  | cons c a ih => simp [renAlt, ih]

theorem terminal_ren {ρ : Str → Str} {e : Elem} {cs : List Char} : Terminal (renElem ρ e) cs ↔ Terminal e cs := by
  cases e with
  | rulename n => simp only [renElem]; constructor <;> intro h <;> cases h
  | group a => simp only [renElem]; constructor <;> intro h <;> cases h
  | option a => simp only [renElem]; constructor <;> intro h <;> cases h
  | charVal => simp only [renElem]
  | numVal => simp only [renElem]
  | proseVal => simp only [renElem]

theorem derives_ren {ρ : Str → Str} (hρ : Renaming ρ) {g : Grammar} {e : Elem} {w : Bytes} (h : Derives g e w) :
    Derives (renGrammar ρ g) (renElem ρ e) w := by
  refine Derives.rec (g := g)
    (motive_1 := fun e w _ => Derives (renGrammar ρ g) (renElem ρ e) w)
    (motive_2 := fun a w _ => DerivesAlt (renGrammar ρ g) (renAlt ρ a) w)
    (motive_3 := fun c w _ => DerivesConcat (renGrammar ρ g) (renConcat ρ c) w)
    (motive_4 := fun r w _ => DerivesRep (renGrammar ρ g) (renRep ρ r) w)
    (motive_5 := fun e n w _ => DerivesTimes (renGrammar ρ g) (renElem ρ e) n w)
    ?_ ?_ ?_ ?_ ?_ ?_ ?_ ?_ ?_ ?_ ?_ h
  · intro n r w hr _ ih; simp only [renElem]; exact .rule _ _ w (resolves_ren hρ hr) ih
  · intro a w _ ih; simp only [renElem]; exact .group _ w ih
  · intro a; simp only [renElem]; exact .optNone _
  · intro a w _ ih; simp only [renElem]; exact .optSome _ w ih
  · intro e cs ht; exact .term _ cs (terminal_ren.mpr ht)
  · intro a c w hc _ ih; exact .mk _ _ w (renAlt_mem.mpr ⟨c, hc, rfl⟩) ih
  · simp only [renConcat]; exact .nil
  · intro r c u v _ _ ih1 ih2; simp only [renConcat]; exact .cons _ _ u v ih1 ih2
  · intro mn mx e n w h1 h2 _ ih; simp only [renRep]; exact .mk mn mx _ n w h1 h2 ih
  · intro e; exact .zero _
  · intro e n u v _ _ ih1 ih2; exact .succ _ n u v ih1 ih2

theorem derives_unren {ρ : Str → Str} (hρ : Renaming ρ) {g : Grammar} {e' : Elem} {w : Bytes} (h : Derives (renGrammar ρ g) e' w) :
    ∀ e, e' = renElem ρ e → Derives g e w := by
  refine Derives.rec (g := renGrammar ρ g)
    (motive_1 := fun e' w _ => ∀ e, e' = renElem ρ e → Derives g e w)
    (motive_2 := fun a' w _ => ∀ a, a' = renAlt ρ a → DerivesAlt g a w)
    (motive_3 := fun c' w _ => ∀ c, c' = renConcat ρ c → DerivesConcat g c w)
    (motive_4 := fun r' w _ => ∀ r, r' = renRep ρ r → DerivesRep g r w)
    (motive_5 := fun e' n w _ => ∀ e, e' = renElem ρ e → DerivesTimes g e n w)
    ?_ ?_ ?_ ?_ ?_ ?_ ?_ ?_ ?_ ?_ ?_ h
  · intro n r w hr _ ih e he
    cases e <;> simp only [renElem] at he <;> cases he
    obtain ⟨r, rfl, h1⟩ := resolves_unren hρ hr
    exact .rule _ r w h1 (ih _ rfl)
  · intro a w _ ih e he
    cases e <;> simp only [renElem] at he <;> cases he
    exact .group _ w (ih _ rfl)
  · intro a e he
    cases e <;> simp only [renElem] at he <;> cases he
    exact .optNone _
  · intro a w _ ih e he
    cases e <;> simp only [renElem] at he <;> cases he
    exact .optSome _ w (ih _ rfl)
  · intro e' cs ht e he
    subst he
    exact .term e cs (terminal_ren.mp ht)
  · intro a' c' w hc _ ih a ha
    subst ha
    obtain ⟨c, h1, rfl⟩ := renAlt_mem.mp hc
    exact .mk a c w h1 (ih c rfl)
  · intro c hc
    cases c with
    | nil => exact .nil
    | cons => simp [renConcat] at hc
  · intro r' c' u v _ _ ih1 ih2 c hc
    cases c with
    | nil => simp [renConcat] at hc
    | cons r c =>
      simp only [renConcat, List.cons.injEq] at hc
      exact .cons r c u v (ih1 r hc.1) (ih2 c hc.2)
  · intro mn mx e' n w h1 h2 _ ih r hr
    obtain ⟨mn', mx', e⟩ := r
    simp only [renRep, Rep.mk.injEq] at hr
    obtain ⟨rfl, rfl, rfl⟩ := hr
    exact .mk _ _ e n w h1 h2 (ih e rfl)
  · intro e' e _; exact .zero e
  · intro e' n u v _ _ ih1 ih2 e he; exact .succ e n u v (ih1 e he) (ih2 e he)

theorem namesDistinct_ren {ρ : Str → Str} (hρ : Renaming ρ) {g : Grammar} (hd : NamesDistinct g) : NamesDistinct (renGrammar ρ g) := by
  unfold NamesDistinct renGrammar at *
  rw [List.pairwise_map]
  exact hd.imp fun h hs => h ((hρ.names ..).mp hs)

theorem numValsWF_ren {ρ : Str → Str} {g : Grammar} (h : NumValsWF g) : NumValsWF (renGrammar ρ g) := by
  intro q hq
  obtain ⟨r', hr', hq⟩ := List.mem_flatMap.mp hq
  obtain ⟨r, hr, rfl⟩ := List.mem_map.mp hr'
  unfold renRule at hq
  rw [altReps_ren] at hq
  obtain ⟨⟨mn, mx, e⟩, hp, rfl⟩ := List.mem_map.mp hq
  have := h _ (List.mem_flatMap.mpr ⟨r, hr, hp⟩)
  cases e <;> simp only [renRep, renElem] <;> exact this

theorem refers_ren {ρ : Str → Str} (hρ : Renaming ρ) {g : Grammar} {x y : Rule} (h : Refers g x y) :
    Refers (renGrammar ρ g) (renRule ρ x) (renRule ρ y) := by
  obtain ⟨⟨mn, mx, e⟩, hq, n, hn, hy⟩ := h
  refine ⟨renRep ρ ⟨mn, mx, e⟩, ?_, ρ n, ?_, resolves_ren hρ hy⟩
  · simp only [renRule]; rw [altReps_ren]; exact List.mem_map_of_mem hq
  · subst hn; simp only [renRep, renElem]; rfl

theorem refers_unren {ρ : Str → Str} (hρ : Renaming ρ) {g : Grammar} {x y' : Rule} (h : Refers (renGrammar ρ g) (renRule ρ x) y') :
    ∃ y, y' = renRule ρ y ∧ Refers g x y := by
  obtain ⟨q, hq, n, hn, hy⟩ := h
  simp only [renRule] at hq
  rw [altReps_ren] at hq
  obtain ⟨⟨mn, mx, e⟩, hp, rfl⟩ := List.mem_map.mp hq
  simp only [renRep] at hn
  cases e <;> simp only [renElem] at hn <;> cases hn
  obtain ⟨y, rfl, h1⟩ := resolves_unren hρ hy
  exact ⟨y, rfl, _, hp, _, rfl, h1⟩

theorem reach_unren {ρ : Str → Str} (hρ : Renaming ρ) {g : Grammar} {x y' : Rule}
    (h : Relation.ReflTransGen (Refers (renGrammar ρ g)) (renRule ρ x) y') : ∃ y, y' = renRule ρ y ∧ Relation.ReflTransGen (Refers g) x y := by
  induction h with
  | refl => exact ⟨x, rfl, .refl⟩
  | tail _ h2 ih =>
    obtain ⟨y, rfl, h3⟩ := ih
    obtain ⟨z, rfl, h4⟩ := refers_unren hρ h2
    exact ⟨z, rfl, h3.tail h4⟩

/-- C131.  A renamed rule has the same texts. -/
theorem C131_texts {ρ : Str → Str} (hρ : Renaming ρ) (g : Grammar) (n : Str) (w : Bytes) :
    DerivesRule (renGrammar ρ g) (ρ n) w ↔ DerivesRule g n w := by
  refine ⟨fun h => derives_unren hρ h _ (by simp only [renElem]), fun h => ?_⟩
  have := derives_ren hρ h
  simp only [renElem] at this
  exact this

/-- C131.  `ParseForest` and `ParseBSR` accept the same inputs after rules were renamed. -/
theorem C131_forests {ρ : Str → Str} (hρ : Renaming ρ) {g : Grammar} (hwf : NumValsWF g) (hd : NamesDistinct g) (hp : DistinctPrint g)
    (hp' : DistinctPrint (renGrammar ρ g)) (n : Str) (inp : Bytes) :
    (∀ sched sched' : Sched NodeKey, sched.Fair → sched'.Fair → ∀ N M N' M' f f', parseForest sched inp g n N M = .ok f →
      parseForest sched' inp (renGrammar ρ g) (ρ n) N' M' = .ok f' → f.valid = f'.valid) ∧
    (∀ sched sched' : Sched Nat, sched.Fair → sched'.Fair → ∀ N M N' M' f f', parseBSR sched inp g n N M = .ok f →
      parseBSR sched' inp (renGrammar ρ g) (ρ n) N' M' = .ok f' → f.valid = f'.valid) := by
  have hd' := namesDistinct_ren hρ hd
  have hwf' := numValsWF_ren (ρ := ρ) hwf
  refine ⟨fun s s' hs hs' _ _ _ _ f f' h h' => ?_, fun s s' hs hs' _ _ _ _ f f' h h' => ?_⟩
  · rw [Bool.eq_iff_iff, C01_exact g hwf hd hp s hs inp n _ _ f h, C01_exact _ hwf' hd' hp' s' hs' inp _ _ _ f' h', C131_texts hρ]
  · rw [Bool.eq_iff_iff, C02_exact g hwf hd hp s hs inp n _ _ f h, C02_exact _ hwf' hd' hp' s' hs' inp _ _ _ f' h', C131_texts hρ]

/-- C131.  `RuleContainsCycle` answers alike. -/
theorem C131_cycle {ρ : Str → Str} (hρ : Renaming ρ) {g : Grammar} (hd : NamesDistinct g) (n : Str)
    {core core' : List Rule} (hcore : core.Perm Core.rules) (hcore' : core'.Perm Core.rules) {order order' : List Str}
    (ho : order.Perm ((dependencyGraph core g).map Prod.fst)) (ho' : order'.Perm ((dependencyGraph core' (renGrammar ρ g)).map Prod.fst)) :
    ruleContainsCycle core g order n = ruleContainsCycle core' (renGrammar ρ g) order' (ρ n) := by
  have hd' := namesDistinct_ren hρ hd
  obtain ⟨h1, h2⟩ := C20_exact g hd core hcore order ho n
  obtain ⟨h1', h2'⟩ := C20_exact _ hd' core' hcore' order' ho' (ρ n)
  by_cases hr : ∃ r, Resolves g n r
  · obtain ⟨r, hr⟩ := hr
    obtain ⟨b, h4, h5⟩ := h2 r hr
    obtain ⟨b', h4', h5'⟩ := h2' _ (resolves_ren hρ hr)
    have : b = true ↔ b' = true := by
      rw [h5, h5']
      constructor
      · rintro ⟨x, hx, hc⟩
        refine ⟨renRule ρ x, Relation.ReflTransGen.lift (renRule ρ) (fun _ _ h => refers_ren hρ h) _ _ hx, ?_⟩
        exact Relation.TransGen.lift (renRule ρ) (fun _ _ h => refers_ren hρ h) _ _ hc
      · rintro ⟨x', hx, hc⟩
        obtain ⟨x, rfl, k1⟩ := reach_unren hρ hx
        obtain ⟨y', h6, h7⟩ := Relation.TransGen.head'_iff.mp hc
        obtain ⟨y, rfl, k2⟩ := refers_unren hρ h6
        obtain ⟨z, hz, k3⟩ := reach_unren hρ h7
        have hzx : z = x := by
          refine resolves_unique hd (reach_own hr ((k1.tail k2).trans k3)) (reach_own hr k1) ?_
          refine (sameName_iff ..).mp ((hρ.names ..).mp ((sameName_iff ..).mpr ?_))
          exact congrArg canon (congrArg Rule.name hz).symm
        subst hzx
        exact ⟨z, k1, Relation.TransGen.head'_iff.mpr ⟨y, k2, k3⟩⟩
    rw [h4, h4', Bool.eq_iff_iff.mpr this]
  · rw [h1.mpr hr, h1'.mpr fun ⟨r', hr'⟩ => hr ((resolves_unren hρ hr').imp fun _ h => h.2)]

/-! ## Looking up rules -/

theorem getRuleIn_ren {ρ : Str → Str} (hρ : Renaming ρ) (n : Str) (rs : List Rule) :
    getRuleIn (ρ n) (rs.map (renRule ρ)) = (getRuleIn n rs).map (renRule ρ) := by
  unfold getRuleIn
  rw [List.find?_map]
  congr 2
  funext r
  rw [Bool.eq_iff_iff]
  simp only [Function.comp, equalFold_iff, renRule]
  exact hρ.names ..

theorem core_ren {ρ : Str → Str} (hρ : Renaming ρ) : Core.rules.map (renRule ρ) = Core.rules :=
  (List.map_congr_left (g := id) fun _ hr => renRule_core hρ hr).trans (List.map_id _)

theorem getRule_ren {ρ : Str → Str} (hρ : Renaming ρ) (g : Grammar) (n : Str) :
    getRule (ρ n) (renGrammar ρ g).rules = (getRule n g.rules).map (renRule ρ) := by
  unfold getRule renGrammar
  simp only
  rw [getRuleIn_ren hρ]
  have h := getRuleIn_ren hρ n Core.rules
  rw [core_ren hρ] at h
  rw [h]
  cases getRuleIn n g.rules <;> rfl

/-! ## Generating -/

section
variable {ρ : Str → Str} {rnd : Nat → Nat} {o : GenOpts} {f f' : Str → GenSt → Run GenSt} (hf : ∀ n st, f' (ρ n) st = f n st)
include hf

omit hf in
theorem renAlt_length (ρ : Str → Str) : ∀ a : List (List Rep), (renAlt ρ a).length = a.length
  | [] => by simp only [renAlt]
  | c :: a => by simp only [renAlt, List.length_cons]; rw [renAlt_length ρ a]

mutual
theorem genPick_ren : ∀ (a : List (List Rep)) (k : Nat) (st : GenSt), genPick rnd o f' (renAlt ρ a) k st = genPick rnd o f a k st
  | [], k, st => by rw [renAlt, genPick, genPick]
  | c :: a, 0, st => by rw [renAlt, genPick, genPick, genReps_ren c]
  | c :: a, k + 1, st => by rw [renAlt, genPick, genPick, genPick_ren a]
theorem genReps_ren : ∀ (c : List Rep) (st : GenSt), genReps rnd o f' (renConcat ρ c) st = genReps rnd o f c st
  | [], st => by rw [renConcat, genReps, genReps]
  | ⟨mn, mx, e⟩ :: c, st => by
    rw [renConcat, renRep, genReps, genReps, funext (genElem_ren e), funext (genReps_ren c)]
theorem genElem_ren : ∀ (e : Elem) (st : GenSt), genElem rnd o f' (renElem ρ e) st = genElem rnd o f e st
  | .rulename n, st => by rw [renElem, genElem, genElem, hf]
  | .group a, st => by rw [renElem, genElem, genElem, renAlt_length, genPick_ren a]
  | .option a, st => by rw [renElem, genElem, genElem, renAlt_length, genPick_ren a]
  | .numVal _ .range _, st => by rw [renElem, genElem, genElem]
  | .numVal _ .series _, st => by rw [renElem, genElem, genElem]
  | .charVal _ _, st => by rw [renElem, genElem, genElem]
  | .proseVal _, st => by rw [renElem, genElem, genElem]
end

theorem genAlt_ren (a : Alt) (st : GenSt) : genAlt rnd o f' (renAlt ρ a) st = genAlt rnd o f a st := by
  rw [genAlt, genAlt, renAlt_length, genPick_ren hf a]

end

theorem genRule_ren {ρ : Str → Str} (hρ : Renaming ρ) (g : Grammar) (rnd : Nat → Nat) (o : GenOpts) :
    ∀ (k : Nat) (n : Str) (st : GenSt), genRule rnd o (renGrammar ρ g) k (ρ n) st = genRule rnd o g k n st
  | 0 => fun _ _ => rfl
  | k + 1 => by
    intro n st
    rw [genRule, genRule, getRule_ren hρ]
    cases getRule n g.rules with
    | none => rfl
    | some r => exact genAlt_ren (genRule_ren hρ g rnd o k) r.alt st

section
variable {ρ : Str → Str} {f f' : List Str → Str → Run Bool} (hf : ∀ known n, f' (known.map ρ) (ρ n) = f known n)
include hf

mutual
theorem checkConcats_ren : ∀ (a : List (List Rep)) (known : List Str), checkGenConcats f' (known.map ρ) (renAlt ρ a) = checkGenConcats f known a
  | [], _ => by rw [renAlt, checkGenConcats, checkGenConcats]
  | c :: a, known => by rw [renAlt, checkGenConcats, checkGenConcats, checkConcat_ren c known, checkConcats_ren a known]
theorem checkConcat_ren : ∀ (c : List Rep) (known : List Str), checkGenConcat f' (known.map ρ) (renConcat ρ c) = checkGenConcat f known c
  | [], _ => by rw [renConcat, checkGenConcat, checkGenConcat]
  | ⟨mn, mx, e⟩ :: c, known => by
    rw [renConcat, renRep, checkGenConcat, checkGenConcat, checkElem_ren e known, checkConcat_ren c known]
theorem checkElem_ren : ∀ (e : Elem) (known : List Str), checkGenElem f' (known.map ρ) (renElem ρ e) = checkGenElem f known e
  | .rulename n, known => by rw [renElem, checkGenElem, checkGenElem, hf]
  | .group a, known => by rw [renElem, checkGenElem, checkGenElem, checkConcats_ren a known]
  | .option a, _ => by simp only [renElem, checkGenElem]
  | .numVal _ _ _, _ => by simp only [renElem, checkGenElem]
  | .charVal _ _, _ => by simp only [renElem, checkGenElem]
  | .proseVal _, _ => by simp only [renElem, checkGenElem]
end

end

theorem checkRule_ren {ρ : Str → Str} (hρ : Renaming ρ) (g : Grammar) :
    ∀ (k : Nat) (known : List Str) (n : Str), checkGenRule (renGrammar ρ g) k (known.map ρ) (ρ n) = checkGenRule g k known n
  | 0 => fun _ _ => rfl
  | k + 1 => by
    intro known n
    have ha : ((known.map ρ).any fun x => equalFold (ρ n) x) = known.any fun x => equalFold n x := by
      rw [List.any_map]
      congr 1
      funext x
      rw [Bool.eq_iff_iff]
      simp only [Function.comp, equalFold_iff]
      exact hρ.names ..
    rw [checkGenRule, checkGenRule, ha, getRule_ren hρ]
    cases getRule n g.rules with
    | none => rfl
    | some r =>
      have := checkConcats_ren (checkRule_ren hρ g k) r.alt (n :: known)
      rw [List.map_cons] at this
      simp only [Option.map_some, renRule, checkGenAlt]
      rw [this]

theorem check_ren {ρ : Str → Str} (hρ : Renaming ρ) (g : Grammar) (n : Str) :
    checkCanGenerateSafely (renGrammar ρ g) (ρ n) = checkCanGenerateSafely g n := by
  have hl : (renGrammar ρ g).rules.length = g.rules.length := List.length_map ..
  rw [checkCanGenerateSafely, checkCanGenerateSafely, hl]
  generalize g.rules.length + Core.rules.length + 1 = k
  rw [getRule_ren hρ]
  cases getRule n g.rules with
  | none => rfl
  | some r =>
    have := checkConcats_ren (checkRule_ren hρ g k) r.alt [n]
    rw [List.map_cons, List.map_nil] at this
    simp only [Option.map_some, renRule, checkGenAlt]
    rw [this]

/-- C131.  `Generate` returns the same bytes or the same error, for every random source and option. -/
theorem C131_generate {ρ : Str → Str} (hρ : Renaming ρ) (g : Grammar) (rnd : Nat → Nat) (o : GenOpts) (fuel : Nat) (n : Str) :
    generate rnd o (renGrammar ρ g) fuel (ρ n) = generate rnd o g fuel n := by
  rw [generate, generate, check_ren hρ, getRule_ren hρ]
  cases getRule n g.rules with
  | none => rfl
  | some r =>
    simp only [Option.map_some, renRule]
    rw [genAlt_ren (genRule_ren hρ g rnd o fuel)]

/-! ## Patterns -/

/-- The memo tables hold the same under the names and the new names (/repo/regex.go:124-128). -/
def MemoRen (ρ : Str → Str) (st st' : ReSt) : Prop :=
  (∃ l : List (Str × Re), st.memo = l.map (fun p => (canon p.1, p.2)) ∧ st'.memo = l.map (fun p => (canon (ρ p.1), p.2))) ∧ st.err = st'.err

/-- Both run out of fuel, or both return the same and memo tables that hold the same. -/
def OutRen (ρ : Str → Str) {α : Type} (x x' : Option (α × ReSt)) : Prop :=
  (x = none ∧ x' = none) ∨ ∃ a st st', x = some (a, st) ∧ x' = some (a, st') ∧ MemoRen ρ st st'

theorem outRen_map {ρ : Str → Str} {α β : Type} {x x' : Option (α × ReSt)} (h : OutRen ρ x x') (F : α → β)
    {G : α × ReSt → β × ReSt} (hG : ∀ a st, G (a, st) = (F a, st)) : OutRen ρ (x.map G) (x'.map G) := by
  rcases h with ⟨rfl, rfl⟩ | ⟨a, st, st', rfl, rfl, h⟩
  · exact .inl ⟨rfl, rfl⟩
  · exact .inr ⟨F a, st, st', by rw [← hG]; rfl, by rw [← hG]; rfl, h⟩

theorem outRen_bind {ρ : Str → Str} {α β : Type} {x x' : Option (α × ReSt)} (h : OutRen ρ x x') {F F' : α × ReSt → Option (β × ReSt)}
    (hF : ∀ a st st', MemoRen ρ st st' → OutRen ρ (F (a, st)) (F' (a, st'))) : OutRen ρ (x.bind F) (x'.bind F') := by
  rcases h with ⟨rfl, rfl⟩ | ⟨a, st, st', rfl, rfl, h⟩
  · exact .inl ⟨rfl, rfl⟩
  · exact hF a st st' h

section
variable {ρ : Str → Str} {f f' : Str → ReSt → Option (Re × ReSt)} (hf : ∀ n st st', MemoRen ρ st st' → OutRen ρ (f n st) (f' (ρ n) st'))
include hf

mutual
theorem reElem_ren : ∀ (e : Elem) (st st' : ReSt), MemoRen ρ st st' → OutRen ρ (reElem f e st) (reElem f' (renElem ρ e) st')
  | .rulename n, st, st', h => by rw [renElem, reElem, reElem]; exact hf n st st' h
  | .group a, st, st', h => by rw [renElem, reElem, reElem]; exact outRen_map (reAlts_ren a st st' h) (fun os => Re.alt os) fun _ _ => rfl
  | .option a, st, st', h => by rw [renElem, reElem, reElem]; exact outRen_map (reAlts_ren a st st' h) (fun os => Re.rep (.alt os) 0 (some 1)) fun _ _ => rfl
  | .numVal _ .range _, st, st', h => by rw [renElem, reElem, reElem]; exact .inr ⟨_, st, st', rfl, rfl, h⟩
  | .numVal _ .series _, st, st', h => by rw [renElem, reElem, reElem]; exact .inr ⟨_, st, st', rfl, rfl, h⟩
  | .charVal _ _, st, st', h => by rw [renElem, reElem, reElem]; exact .inr ⟨_, st, st', rfl, rfl, h⟩
  | .proseVal _, st, st', h => by rw [renElem, reElem, reElem]; exact .inr ⟨_, _, _, rfl, rfl, h.1, rfl⟩
theorem reAlts_ren : ∀ (a : List (List Rep)) (st st' : ReSt), MemoRen ρ st st' → OutRen ρ (reAlts f a st) (reAlts f' (renAlt ρ a) st')
  | [], st, st', h => by rw [renAlt, reAlts, reAlts]; exact .inr ⟨_, st, st', rfl, rfl, h⟩
  | c :: a, st, st', h => by
    rw [renAlt, reAlts, reAlts]
    exact outRen_bind (reParts_ren c st st' h) fun ps s s' hs => outRen_map (reAlts_ren a s s' hs) (fun os => Re.concat ps :: os) fun _ _ => rfl
theorem reParts_ren : ∀ (c : List Rep) (st st' : ReSt), MemoRen ρ st st' → OutRen ρ (reParts f c st) (reParts f' (renConcat ρ c) st')
  | [], st, st', h => by rw [renConcat, reParts, reParts]; exact .inr ⟨_, st, st', rfl, rfl, h⟩
  | ⟨mn, mx, e⟩ :: c, st, st', h => by
    rw [renConcat, renRep, reParts, reParts]
    exact outRen_bind (reElem_ren e st st' h) fun x s s' hs => outRen_map (reParts_ren c s s' hs) (fun ps => Re.rep x mn mx :: ps) fun _ _ => rfl
end

end

theorem lookup_ren {ρ : Str → Str} (hρ : Renaming ρ) (n : Str) (l : List (Str × Re)) :
    (l.map fun p => (canon (ρ p.1), p.2)).lookup (canon (ρ n)) = (l.map fun p => (canon p.1, p.2)).lookup (canon n) := by
  induction l with
  | nil => rfl
  | cons p l ih =>
    have hb : (canon (ρ n) == canon (ρ p.1)) = (canon n == canon p.1) := by
      rw [Bool.eq_iff_iff, beq_iff_eq, beq_iff_eq, ← sameName_iff, ← sameName_iff]
      exact hρ.names ..
    simp only [List.map_cons, List.lookup_cons, hb, ih]

theorem reRule_ren {ρ : Str → Str} (hρ : Renaming ρ) (g : Grammar) :
    ∀ (k : Nat) (n : Str) (st st' : ReSt), MemoRen ρ st st' → OutRen ρ (reRule g k n st) (reRule (renGrammar ρ g) k (ρ n) st')
  | 0 => fun _ _ _ _ => .inl ⟨rfl, rfl⟩
  | k + 1 => by
    intro n st st' h
    obtain ⟨⟨l, h1, h2⟩, h3⟩ := h
    have hl : st'.memo.lookup (canon (ρ n)) = st.memo.lookup (canon n) := by rw [h1, h2, lookup_ren hρ]
    rw [reRule, reRule, hl]
    cases st.memo.lookup (canon n) with
    | some r => exact .inr ⟨r, st, st', rfl, rfl, ⟨l, h1, h2⟩, h3⟩
    | none =>
      simp only
      rw [getRule_ren hρ]
      cases getRule n g.rules with
      | none => exact .inr ⟨_, st, st', rfl, rfl, ⟨l, h1, h2⟩, h3⟩
      | some r =>
        simp only [Option.map_some, renRule]
        rcases reAlts_ren (reRule_ren hρ g k) r.alt st st' ⟨⟨l, h1, h2⟩, h3⟩ with ⟨e1, e2⟩ | ⟨a, s, s', e1, e2, ⟨l', h4, h5⟩, h6⟩
        · rw [e1, e2]; exact .inl ⟨rfl, rfl⟩
        · rw [e1, e2]
          exact .inr ⟨_, _, _, rfl, rfl, ⟨(n, .alt a) :: l', by simp [h4], by simp [h5]⟩, h6⟩

/-- C131.  `Regex` returns the same pattern or the same error. -/
theorem C131_regex {ρ : Str → Str} (hρ : Renaming ρ) {g : Grammar} (hd : NamesDistinct g) (n : Str)
    {core core' : List Rule} (hcore : core.Perm Core.rules) (hcore' : core'.Perm Core.rules) {order order' : List Str}
    (ho : order.Perm ((dependencyGraph core g).map Prod.fst)) (ho' : order'.Perm ((dependencyGraph core' (renGrammar ρ g)).map Prod.fst))
    (max : Nat) : regex core order g max n = regex core' order' (renGrammar ρ g) max (ρ n) := by
  have hl : (renGrammar ρ g).rules.length = g.rules.length := List.length_map ..
  unfold regex
  rw [C131_cycle hρ hd n hcore hcore' ho ho', hl]
  generalize g.rules.length + Core.rules.length + 1 = k
  rw [getRule_ren hρ]
  cases getRule n g.rules with
  | none => rfl
  | some r =>
    simp only [Option.map_some, renRule]
    rcases reAlts_ren (reRule_ren hρ g k) r.alt {} {} ⟨⟨[], rfl, rfl⟩, rfl⟩ with ⟨e1, e2⟩ | ⟨a, s, s', e1, e2, _, h6⟩
    · rw [e1, e2]
    · rw [e1, e2]
      simp only [h6]

/-! ## Validation -/

theorem semval_ren {ρ : Str → Str} (hρ : Renaming ρ) (g : Grammar) : semvalABNF (renGrammar ρ g) = none ↔ semvalABNF g = none := by
  have key : ∀ m n : Str, canon m = canon n → (getRule m g.rules).isSome = (getRule n g.rules).isSome := by
    intro m n h
    have he : ∀ rs, getRuleIn m rs = getRuleIn n rs := fun rs => by rw [getRuleIn_eq, getRuleIn_eq, h]
    unfold getRule
    rw [he, he]
  have key' : ∀ m n : Str, canon m = canon n → (getRule m (renGrammar ρ g).rules).isSome = (getRule n (renGrammar ρ g).rules).isSome := by
    intro m n h
    have he : ∀ rs, getRuleIn m rs = getRuleIn n rs := fun rs => by rw [getRuleIn_eq, getRuleIn_eq, h]
    unfold getRule
    rw [he, he]
  have hs : ∀ n, (getRule (canon (ρ n)) (renGrammar ρ g).rules).isSome = (getRule (canon n) g.rules).isSome := by
    intro n
    rw [key' _ (ρ n) (canon_canon _), key _ n (canon_canon _), getRule_ren hρ, Option.isSome_map]
  have hok : ∀ q, RepOK (renRep ρ q) ↔ RepOK q := by
    rintro ⟨mn, mx, e⟩
    cases e <;> simp [RepOK, renRep, renElem, Rep.elem, Rep.min, Rep.max]
  unfold semvalABNF
  simp only [Option.or_eq_none_iff, List.findSome?_eq_none_iff, semvalDeps_none, semvalAlternation_none, mem_getDependencies]
  constructor
  · rintro ⟨h1, h2⟩
    refine ⟨?_, fun r hr q hq => (hok q).mp (h2 _ (List.mem_map_of_mem hr) _ (by simp only [renRule]; rw [altReps_ren]; exact List.mem_map_of_mem hq))⟩
    rintro r hr _ ⟨⟨mn, mx, e⟩, hq, n, hn, rfl⟩
    rw [← hs]
    refine h1 _ (List.mem_map_of_mem hr) _ ⟨renRep ρ ⟨mn, mx, e⟩, by simp only [renRule]; rw [altReps_ren]; exact List.mem_map_of_mem hq, ρ n, ?_, rfl⟩
    subst hn; simp only [renRep, renElem]; rfl
  · rintro ⟨h1, h2⟩
    constructor
    · rintro r' hr' _ ⟨q', hq', n', hn', rfl⟩
      obtain ⟨r, hr, rfl⟩ := List.mem_map.mp hr'
      simp only [renRule] at hq'
      rw [altReps_ren] at hq'
      obtain ⟨⟨mn, mx, e⟩, hq, rfl⟩ := List.mem_map.mp hq'
      simp only [renRep] at hn'
      cases e <;> simp only [renElem] at hn' <;> cases hn'
      rw [hs]
      exact h1 r hr _ ⟨_, hq, _, rfl, rfl⟩
    · intro r' hr' q' hq'
      obtain ⟨r, hr, rfl⟩ := List.mem_map.mp hr'
      simp only [renRule] at hq'
      rw [altReps_ren] at hq'
      obtain ⟨q, hq, rfl⟩ := List.mem_map.mp hq'
      exact (hok q).mpr (h2 r hr q hq)

/-- C131.  `SemvalABNF` accepts the grammar before exactly if it accepts it after. -/
theorem C131_valid {ρ : Str → Str} (hρ : Renaming ρ) (g : Grammar) : semvalABNF (renGrammar ρ g) = none ↔ semvalABNF g = none := semval_ren hρ g

/-! ## Examples -/

/-- `a` and `zz` change places. -/
def swapped (n : Str) : Str := if canon n = str% "a" then str% "zz" else if canon n = str% "zz" then str% "a" else n

theorem swapped_ok : Renaming swapped := by
  have key : ∀ n, canon (swapped n) = if canon n = str% "a" then str% "zz" else if canon n = str% "zz" then str% "a" else canon n := by
    intro n
    unfold swapped
    split_ifs <;> rfl
  refine ⟨fun n m => ?_, fun n ⟨r, hr, hs⟩ => ?_⟩
  · rw [sameName_iff, sameName_iff, key, key]
    generalize canon n = x
    generalize canon m = y
    constructor
    · intro h
      split_ifs at h <;> simp_all
    · rintro rfl; rfl
  · rw [sameName_iff] at hs
    have h : ∀ r ∈ Core.rules, canon r.name ≠ str% "a" ∧ canon r.name ≠ str% "zz" := by decide
    unfold swapped
    rw [hs, if_neg (h r hr).1, if_neg (h r hr).2]

/-- `a = 1*DIGIT b`, `b = "x" / A`. -/
def nestedRef : Grammar := ⟨[⟨str% "a", [[⟨1, none, Ex.ref (str% "DIGIT")⟩, Ex.one (Ex.ref (str% "b"))]]⟩,
  ⟨str% "b", [[Ex.one (Ex.lit (str% "x"))], [Ex.one (Ex.ref (str% "A"))]]⟩]⟩

/-- C131_texts, C131_forests and C131_cycle: the hypotheses hold for a recursive rule that is renamed, and a text is accepted. -/
example : Renaming swapped ∧ NumValsWF nestedRef ∧ NamesDistinct nestedRef ∧ DistinctPrint nestedRef ∧ DistinctPrint (renGrammar swapped nestedRef) ∧
    swapped (str% "a") = str% "zz" ∧
    (match parseForest fwd (bytes% "12x") nestedRef (str% "a") 0 0, parseForest fwd (bytes% "12x") (renGrammar swapped nestedRef) (str% "zz") 0 0 with
      | .ok f, .ok f' => f.valid && f'.valid | _, _ => false) = true ∧
    ruleContainsCycle Core.rules (renGrammar swapped nestedRef) (plainOrder (renGrammar swapped nestedRef)) (str% "zz") = some (.ok true) :=
  ⟨swapped_ok, numValsWF_of (by decide), namesDistinct_of (by decide), distinctPrint_of (by decide +kernel), distinctPrint_of (by decide +kernel),
    rfl, by decide +kernel, by decide +kernel⟩

/-- `a = 1*DIGIT "x"`. -/
def leafRule : Grammar := ⟨[⟨str% "a", [[⟨1, none, Ex.ref (str% "DIGIT")⟩, Ex.one (Ex.lit (str% "x"))]]⟩]⟩

/-- C131_regex, C131_generate and C131_valid: a valid rule with a pattern, and a text that is generated. -/
example : NamesDistinct leafRule ∧ semvalABNF leafRule = none ∧ regex Core.rules (plainOrder leafRule) leafRule 0 (str% "a") = .ok (str% "[0-9]+[Xx]") ∧
    (match generate (fun _ => 0) {} leafRule 100 (str% "a") with | .ok (.ok w) => w != [] | _ => false) = true :=
  ⟨namesDistinct_of (by decide), by decide +kernel, by decide +kernel, by decide +kernel⟩

end Verif.Props
