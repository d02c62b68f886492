import Verif.Loosen
import Verif.Inlining
import Verif.TgElem

/-!
# C133: the laws of the notation

Pieces of grammars that can be interchanged whatever the grammar around them, the laws RFC 5234 gives for brackets,
repetitions and alternatives, and what the answers of the library do when such pieces are interchanged
(the elements: /repo/abnf.go:40-205).
-/

namespace Verif.Props
open Spec RE2

/-- The elements have the same texts in every grammar (/repo/abnf.go:99-205). -/
def AlikeElem (e e' : Elem) : Prop := ∀ G w, Derives G e w ↔ Derives G e' w

/-- The repetitions have the same texts in every grammar (/repo/abnf.go:73-97). -/
def AlikeRep (r r' : Rep) : Prop := ∀ G w, DerivesRep G r w ↔ DerivesRep G r' w

/-- The concatenations have the same texts in every grammar (/repo/abnf.go:57-71). -/
def AlikeConcat (c c' : Concat) : Prop := ∀ G w, DerivesConcat G c w ↔ DerivesConcat G c' w

/-- The alternations have the same texts in every grammar (/repo/abnf.go:40-55). -/
def AlikeAlt (a a' : Alt) : Prop := ∀ G w, DerivesAlt G a w ↔ DerivesAlt G a' w

/-- The grammars have the same rules, in the same order, up to alternations that are alike (/repo/abnf.go:25-33). -/
def AlikeRules (g g' : Grammar) : Prop := List.Forall₂ (fun r r' => r'.name = r.name ∧ AlikeAlt r.alt r'.alt) g.rules g'.rules

theorem resolves_alike {g g' : Grammar} (hg : AlikeRules g g') {n : Str} {r : Rule} (h : Resolves g n r) :
    ∃ r', Resolves g' n r' ∧ AlikeAlt r.alt r'.alt := by
  cases h with
  | user h1 h2 =>
    obtain ⟨r', h3, h4, h5⟩ := forall2_left hg h1
    exact ⟨r', .user h3 (h4 ▸ h2), h5⟩
  | core h1 h2 h3 =>
    refine ⟨r, .core h1 h2 fun u hu hs => ?_, fun _ _ => Iff.rfl⟩
    obtain ⟨x, hx, h4, _⟩ := forall2_mem hg hu
    exact h3 x hx (h4 ▸ hs)

theorem alikeRules_symm {g g' : Grammar} (hg : AlikeRules g g') : AlikeRules g' g := by
  unfold AlikeRules at *
  have h : ∀ {l l' : List Rule}, List.Forall₂ (fun r r' => r'.name = r.name ∧ AlikeAlt r.alt r'.alt) l l' →
      List.Forall₂ (fun r r' => r'.name = r.name ∧ AlikeAlt r.alt r'.alt) l' l := by
    intro l l' h
    induction h with
    | nil => exact .nil
    | cons h1 _ ih => exact .cons ⟨h1.1.symm, fun G w => (h1.2 G w).symm⟩ ih
  exact h hg

theorem derives_alike {g g' : Grammar} (hg : AlikeRules g g') {e : Elem} {w : Bytes} (h : Derives g e w) : Derives g' e w := by
  refine Derives.rec (g := g)
    (motive_1 := fun e w _ => Derives g' e w)
    (motive_2 := fun a w _ => DerivesAlt g' a w)
    (motive_3 := fun c w _ => DerivesConcat g' c w)
    (motive_4 := fun r w _ => DerivesRep g' r w)
    (motive_5 := fun e n w _ => DerivesTimes g' e n w)
    ?_ ?_ ?_ ?_ ?_ ?_ ?_ ?_ ?_ ?_ ?_ h
  · intro n r w hr _ ih
    obtain ⟨r', h1, h2⟩ := resolves_alike hg hr
    exact .rule n r' w h1 ((h2 g' w).mp ih)
  · intro a w _ ih; exact .group a w ih
  · intro a; exact .optNone a
  · intro a w _ ih; exact .optSome a w ih
  · intro e cs ht; exact .term e cs ht
  · intro a c w hc _ ih; exact .mk a c w hc ih
  · exact .nil
  · intro r c u v _ _ ih1 ih2; exact .cons r c u v ih1 ih2
  · intro mn mx e n w h1 h2 _ ih; exact .mk mn mx e n w h1 h2 ih
  · intro e; exact .zero e
  · intro e n u v _ _ ih1 ih2; exact .succ e n u v ih1 ih2

/-- C133.  Interchanging pieces that are alike changes the texts of no rule. -/
theorem C133_texts {g g' : Grammar} (hg : AlikeRules g g') (n : Str) (w : Bytes) : DerivesRule g' n w ↔ DerivesRule g n w :=
  ⟨fun h => derives_alike (alikeRules_symm hg) h, fun h => derives_alike hg h⟩

theorem alike_nd {g g' : Grammar} (hg : AlikeRules g g') (hd : NamesDistinct g) : NamesDistinct g' := by
  have hn : g'.rules.map Rule.name = g.rules.map Rule.name := by
    unfold AlikeRules at hg
    generalize g.rules = l at hg
    generalize g'.rules = l' at hg
    induction hg with
    | nil => rfl
    | cons h1 _ ih => rw [List.map_cons, List.map_cons, h1.1, ih]
  unfold NamesDistinct at *
  have h : ∀ l : List Rule, (l.Pairwise fun a b => ¬ SameName a.name b.name) ↔ (l.map Rule.name).Pairwise fun a b => ¬ SameName a b :=
    fun l => by rw [List.pairwise_map]
  rw [h] at hd ⊢
  rwa [hn]

/-- C133.  `ParseForest` and `ParseBSR` accept the same inputs after pieces that are alike were interchanged. -/
theorem C133_forests {g g' : Grammar} (hg : AlikeRules g g') (hd : NamesDistinct g) (hwf : NumValsWF g) (hp : DistinctPrint g)
    (hwf' : NumValsWF g') (hp' : DistinctPrint g') (n : Str) (inp : Bytes) :
    (∀ sched sched' : Sched NodeKey, sched.Fair → sched'.Fair → ∀ N M N' M' f f', parseForest sched inp g n N M = .ok f →
      parseForest sched' inp g' n N' M' = .ok f' → f.valid = f'.valid) ∧
    (∀ sched sched' : Sched Nat, sched.Fair → sched'.Fair → ∀ N M N' M' f f', parseBSR sched inp g n N M = .ok f →
      parseBSR sched' inp g' n N' M' = .ok f' → f.valid = f'.valid) := by
  have hd' := alike_nd hg hd
  refine ⟨fun s s' hs hs' _ _ _ _ f f' h h' => ?_, fun s s' hs hs' _ _ _ _ f f' h h' => ?_⟩
  · rw [Bool.eq_iff_iff, C01_exact g hwf hd hp s hs inp n _ _ f h, C01_exact g' hwf' hd' hp' s' hs' inp n _ _ f' h', C133_texts hg]
  · rw [Bool.eq_iff_iff, C02_exact g hwf hd hp s hs inp n _ _ f h, C02_exact g' hwf' hd' hp' s' hs' inp n _ _ f' h', C133_texts hg]

/-- C133.  The patterns `Regex` returns before and after match the same texts. -/
theorem C133_regex {g g' : Grammar} (hg : AlikeRules g g') (hd : NamesDistinct g) {core core' : List Rule}
    (hcore : core.Perm Core.rules) (hcore' : core'.Perm Core.rules) {order order' : List Str}
    (ho : order.Perm ((dependencyGraph core g).map Prod.fst)) (ho' : order'.Perm ((dependencyGraph core' g').map Prod.fst))
    (max max' : Nat) (n : Str) (r r' : Rule) (hr : Resolves g n r) (hr' : Resolves g' n r') (hok : ReachOK g r) (hok' : ReachOK g' r')
    (s s' : Str) (h : regex core order g max n = .ok s) (h' : regex core' order' g' max' n = .ok s') :
    ∃ p p', (∀ q, Reads s q ↔ q = p) ∧ (∀ q, Reads s' q ↔ q = p') ∧ ∀ cs, p.Lang cs ↔ p'.Lang cs := by
  obtain ⟨p, h1, h2⟩ := C24_language_partial g hd core hcore order ho max n r hr hok s h
  obtain ⟨p', h1', h2'⟩ := C24_language_partial g' (alike_nd hg hd) core' hcore' order' ho' max' n r' hr' hok' s' h'
  exact ⟨p, p', h1, h1', fun cs => by rw [h2, h2', C133_texts hg]⟩

theorem dAlt_iff {G : Grammar} {a : Alt} {w : Bytes} : DerivesAlt G a w ↔ ∃ c ∈ a, DerivesConcat G c w :=
  ⟨fun h => by cases h with | mk _ c _ h1 h2 => exact ⟨c, h1, h2⟩, fun ⟨c, h1, h2⟩ => .mk a c w h1 h2⟩

theorem dConcat_append {G : Grammar} {c d : Concat} {w : Bytes} :
    DerivesConcat G (c ++ d) w ↔ ∃ u v, w = u ++ v ∧ DerivesConcat G c u ∧ DerivesConcat G d v := by
  induction c generalizing w with
  | nil =>
    rw [List.nil_append]
    refine ⟨fun h => ⟨[], w, rfl, .nil, h⟩, ?_⟩
    rintro ⟨u, v, rfl, h1, h2⟩
    cases h1
    exact h2
  | cons r c ih =>
    rw [List.cons_append, derivesConcat_cons]
    constructor
    · rintro ⟨u, v, rfl, h1, h2⟩
      obtain ⟨x, y, rfl, h3, h4⟩ := ih.mp h2
      exact ⟨u ++ x, y, by rw [List.append_assoc], .cons r c u x h1 h3, h4⟩
    · rintro ⟨u, v, rfl, h1, h2⟩
      obtain ⟨x, y, rfl, h3, h4⟩ := derivesConcat_cons.mp h1
      exact ⟨x, y ++ v, by rw [List.append_assoc], h3, ih.mpr ⟨y, v, rfl, h4, h2⟩⟩

theorem dTimes_mono {G : Grammar} {e e' : Elem} (h : ∀ w, Derives G e w → Derives G e' w) : ∀ (n : Nat) (w : Bytes), DerivesTimes G e n w → DerivesTimes G e' n w
  | 0, _, .zero _ => .zero _
  | n + 1, _, .succ _ _ u v h1 h2 => .succ _ n u v (h u h1) (dTimes_mono h n v h2)

/-- C133.  Being alike carries over to what is built from the pieces. -/
theorem C133_within :
    (∀ a b, AlikeAlt a b → AlikeElem (.group a) (.group b) ∧ AlikeElem (.option a) (.option b)) ∧
    (∀ mn mx e e', AlikeElem e e' → AlikeRep ⟨mn, mx, e⟩ ⟨mn, mx, e'⟩) ∧
    (∀ r r' c c', AlikeRep r r' → AlikeConcat c c' → AlikeConcat (r :: c) (r' :: c')) ∧
    (∀ c c' a a', AlikeConcat c c' → AlikeAlt a a' → AlikeAlt (c :: a) (c' :: a')) := by
  refine ⟨fun a b h => ⟨fun G w => ?_, fun G w => ?_⟩, fun mn mx e e' h G w => ?_, fun r r' c c' h1 h2 G w => ?_, fun c c' a a' h1 h2 G w => ?_⟩
  · rw [derives_group, derives_group, h]
  · rw [derives_option, derives_option, h]
  · constructor
    · rintro ⟨_, _, _, n, _, h1, h2, h3⟩
      exact .mk mn mx e' n w h1 h2 (dTimes_mono (fun w => (h G w).mp) n w h3)
    · rintro ⟨_, _, _, n, _, h1, h2, h3⟩
      exact .mk mn mx e n w h1 h2 (dTimes_mono (fun w => (h G w).mpr) n w h3)
  · simp only [derivesConcat_cons, h1 G, h2 G]
  · simp only [derivesAlt_cons, h1 G, h2 G]

theorem dRep_zeroOne {G : Grammar} {e : Elem} {w : Bytes} : DerivesRep G ⟨0, some 1, e⟩ w ↔ w = [] ∨ Derives G e w := by
  constructor
  · rintro ⟨_, _, _, n, _, _, h2, h3⟩
    have hn := h2 1 rfl
    match n, hn with
    | 0, _ => cases h3; exact .inl rfl
    | 1, _ => exact .inr (derivesTimes_one_iff.mp h3)
  · rintro (rfl | h)
    · exact .mk 0 (some 1) e 0 [] (Nat.le_refl _) (by simp) (.zero e)
    · exact .mk 0 (some 1) e 1 w (Nat.zero_le _) (by simp) (derivesTimes_one_iff.mpr h)

/-- C133.  The laws: `[x]` is `*1(x)`; brackets around one element, around one concatenation and around an alternative can go;
`x` can be taken out of `n*mx`; `0x` is nothing; alternatives can be reordered and repeated; and `(a / b) c` is `a c / b c`. -/
theorem C133_laws :
    (∀ a, AlikeRep ⟨1, some 1, .option a⟩ ⟨0, some 1, .group a⟩) ∧
    (∀ e, AlikeElem (.group [[⟨1, some 1, e⟩]]) e) ∧
    (∀ c d, AlikeConcat (⟨1, some 1, .group [c]⟩ :: d) (c ++ d)) ∧
    (∀ a b, AlikeAlt ([⟨1, some 1, .group a⟩] :: b) (a ++ b)) ∧
    (∀ mn mx e c, AlikeConcat (⟨mn + 1, mx.map (· + 1), e⟩ :: c) (⟨1, some 1, e⟩ :: ⟨mn, mx, e⟩ :: c)) ∧
    (∀ e c, AlikeConcat (⟨0, some 0, e⟩ :: c) c) ∧
    (∀ a b : Alt, (∀ c, c ∈ a ↔ c ∈ b) → AlikeAlt a b) ∧
    (∀ (a : Alt) (c : Concat), AlikeAlt [⟨1, some 1, .group a⟩ :: c] (a.map (· ++ c))) := by
  refine ⟨fun a G w => ?_, fun e G w => ?_, fun c d G w => ?_, fun a b G w => ?_, fun mn mx e c G w => ?_, fun e c G w => ?_,
    fun a b h G w => ?_, fun a c G w => ?_⟩
  · rw [derivesRep_one, derives_option, dRep_zeroOne, derives_group]
  · rw [derives_group, dAlt_iff]
    simp only [List.mem_singleton, exists_eq_left, derivesConcat_one, derivesRep_one]
  · rw [derivesConcat_cons, dConcat_append]
    simp only [derivesRep_one, derives_group, dAlt_iff, List.mem_singleton, exists_eq_left]
  · rw [derivesAlt_cons, derivesConcat_one, derivesRep_one, derives_group]
    simp only [dAlt_iff, List.mem_append, or_and_right, exists_or]
  · constructor
    · intro h
      obtain ⟨u, v, rfl, h1, h2⟩ := derivesConcat_cons.mp h
      obtain ⟨_, _, _, n, _, h3, h4, h5⟩ := h1
      match n, h3, h4, h5 with
      | k + 1, h3, h4, .succ _ _ x y h6 h7 =>
        rw [List.append_assoc]
        refine .cons _ _ x (y ++ v) (derivesRep_one.mpr h6) (.cons _ _ y v (.mk mn mx e k y (by omega) (fun m hm => ?_) h7) h2)
        have := h4 (m + 1) (by rw [hm]; rfl)
        omega
    · intro h
      obtain ⟨x, v, rfl, h1, h2⟩ := derivesConcat_cons.mp h
      obtain ⟨y, z, rfl, h3, h4⟩ := derivesConcat_cons.mp h2
      obtain ⟨_, _, _, n, _, h5, h6, h7⟩ := h3
      rw [← List.append_assoc]
      refine .cons _ _ (x ++ y) z (.mk _ _ e (n + 1) _ (by omega) (fun m hm => ?_) (.succ e n x y (derivesRep_one.mp h1) h7)) h4
      cases mx with
      | none => simp at hm
      | some k =>
        have := h6 k rfl
        simp at hm
        omega
  · constructor
    · intro h
      obtain ⟨u, v, rfl, h1, h2⟩ := derivesConcat_cons.mp h
      obtain ⟨_, _, _, n, _, _, h4, h5⟩ := h1
      obtain rfl : n = 0 := by have := h4 0 rfl; omega
      cases h5
      exact h2
    · intro h
      exact .cons _ _ [] w (.mk 0 (some 0) e 0 [] (Nat.le_refl _) (by simp) (.zero e)) h
  · simp only [dAlt_iff, h]
  · rw [derivesAlt_cons, or_iff_left derivesAlt_nil, derivesConcat_cons]
    simp only [derivesRep_one, derives_group, dAlt_iff, List.mem_map]
    constructor
    · rintro ⟨u, v, rfl, ⟨d, h1, h2⟩, h3⟩
      exact ⟨d ++ c, ⟨d, h1, rfl⟩, dConcat_append.mpr ⟨u, v, rfl, h2, h3⟩⟩
    · rintro ⟨_, ⟨d, h1, rfl⟩, h2⟩
      obtain ⟨u, v, rfl, h3, h4⟩ := dConcat_append.mp h2
      exact ⟨u, v, rfl, ⟨d, h1, h3⟩, h4⟩

/-- `a = ("a" / "aaa") 2*("a" / "aaa")`. -/
def earlyUnrolled : Grammar := ⟨[⟨str% "a", [[Ex.one (.group [[Ex.one (Ex.lit (str% "a"))], [Ex.one (Ex.lit (str% "aaa"))]]),
  ⟨2, none, .group [[Ex.one (Ex.lit (str% "a"))], [Ex.one (Ex.lit (str% "aaa"))]]⟩]]⟩]⟩

theorem early_alike : AlikeRules early earlyUnrolled :=
  .cons ⟨rfl, C133_within.2.2.2 _ _ _ _ (C133_laws.2.2.2.2.1 2 none _ []) fun _ _ => Iff.rfl⟩ .nil

/-- C133 fails for `IsValid`: it rejects `aaaa` with `a = 3*("a" / "aaa")`, and accepts it once one of the three is written in front. -/
theorem C133_fails : AlikeRules early earlyUnrolled ∧ NamesDistinct early ∧ (∀ r ∈ earlyUnrolled.rules, r.written = true) ∧
    isValid (plainOrders early) plainSched early (str% "a") (bytes% "aaaa") = some (.ok false) ∧
    isValid (plainOrders earlyUnrolled) plainSched earlyUnrolled (str% "a") (bytes% "aaaa") = some (.ok true) :=
  ⟨early_alike, early_nd, by decide, by decide +kernel, by decide +kernel⟩

/-- C133_texts and C133_forests: the hypotheses hold, and a text is accepted by both. -/
example : AlikeRules early earlyUnrolled ∧ NamesDistinct early ∧ NumValsWF early ∧ DistinctPrint early ∧ NumValsWF earlyUnrolled ∧ DistinctPrint earlyUnrolled ∧
    (match parseForest fwd (bytes% "aaaa") early (str% "a") 0 0, parseForest fwd (bytes% "aaaa") earlyUnrolled (str% "a") 0 0 with
      | .ok f, .ok f' => f.valid && f'.valid | _, _ => false) = true :=
  ⟨early_alike, early_nd, numValsWF_of (by decide), distinctPrint_of (by decide +kernel), numValsWF_of (by decide),
    distinctPrint_of (by decide +kernel), by decide +kernel⟩

/-- C133_regex: both grammars have patterns. -/
example : Resolves early ['a'] early.rules[0] ∧ ReachOK early early.rules[0] ∧ Resolves earlyUnrolled ['a'] earlyUnrolled.rules[0] ∧
    ReachOK earlyUnrolled earlyUnrolled.rules[0] ∧ (regex Core.rules (plainOrder early) early 0 ['a']).isOk = true ∧
    (regex Core.rules (plainOrder earlyUnrolled) earlyUnrolled 0 ['a']).isOk = true := by
  have h1 : Resolves early ['a'] early.rules[0] := .user (List.mem_singleton.mpr rfl) ((sameName_iff ..).mpr rfl)
  have h2 : Resolves earlyUnrolled ['a'] earlyUnrolled.rules[0] := .user (List.mem_singleton.mpr rfl) ((sameName_iff ..).mpr rfl)
  exact ⟨h1, reachOK_of (by decide +kernel) h1, h2, reachOK_of (by decide +kernel) h2, by decide +kernel, by decide +kernel⟩

/-- C133_within and C133_laws: `("x" / a) ["y"]` is `"x" *1("y") / a *1("y")`, by three of the laws, in every grammar. -/
example : AlikeAlt [[Ex.one (.group [[Ex.one (Ex.lit (str% "x"))], [Ex.one (Ex.ref (str% "a"))]]), Ex.one (.option [[Ex.one (Ex.lit (str% "y"))]])]]
    [[Ex.one (Ex.lit (str% "x")), ⟨0, some 1, .group [[Ex.one (Ex.lit (str% "y"))]]⟩],
      [Ex.one (Ex.ref (str% "a")), ⟨0, some 1, .group [[Ex.one (Ex.lit (str% "y"))]]⟩]] := by
  have h : AlikeConcat [Ex.one (.option [[Ex.one (Ex.lit (str% "y"))]])] [⟨0, some 1, .group [[Ex.one (Ex.lit (str% "y"))]]⟩] :=
    C133_within.2.2.1 _ _ _ _ (C133_laws.1 _) fun _ _ => Iff.rfl
  intro G w
  rw [C133_within.2.2.2 _ _ [] [] (C133_within.2.2.1 _ _ _ _ (fun _ _ => Iff.rfl) h) (fun _ _ => Iff.rfl) G w]
  exact C133_laws.2.2.2.2.2.2.2 _ _ G w

end Verif.Props
