import Verif.Appending
import Verif.PropsRegex
import Verif.PropsBsr

/-!
# C130: loosening a grammar

Answers about a grammar (/repo/abnf.go:18-205) and about one with more alternatives, wider bounds, wider ranges or further
optional parts.
-/

namespace Verif.Props
open Spec RE2

mutual
/-- The second element allows at least what the first allows, seen from the text of the grammar alone
(elements: /repo/abnf.go:99-205). -/
inductive LooserElem : Elem → Elem → Prop
  | same (e) : LooserElem e e
  | group (a b) : LooserAlt a b → LooserElem (.group a) (.group b)
  | option (a b) : LooserAlt a b → LooserElem (.option a) (.option b)
  | optional (a b) : LooserAlt a b → LooserElem (.group a) (.option b)
  | anyCase (vs ws) : List.Forall₂ SameLetter ws vs → LooserElem (.charVal true vs) (.charVal false ws)
  | range (b b' s t s' t' lo hi lo' hi') : Denotes b s lo → Denotes b t hi → Denotes b' s' lo' → Denotes b' t' hi' → lo' ≤ lo →
      hi ≤ hi' → LooserElem (.numVal b .range [s, t]) (.numVal b' .range [s', t'])
/-- Every concatenation of the first alternation has a looser one in the second, wherever it is (/repo/abnf.go:40-44). -/
inductive LooserAlt : Alt → Alt → Prop
  | nil (b) : LooserAlt [] b
  | cons (c a d b) : d ∈ b → LooserConcat c d → LooserAlt a b → LooserAlt (c :: a) b
/-- The repetitions become looser one by one, with repetitions in between that may be left out (/repo/abnf.go:57-76). -/
inductive LooserConcat : Concat → Concat → Prop
  | nil : LooserConcat [] []
  | cons (mn mx e c mn' mx' e' d) : mn' ≤ mn → (∀ m', mx' = some m' → ∃ m, mx = some m ∧ m ≤ m') → LooserElem e e' →
      LooserConcat c d → LooserConcat (⟨mn, mx, e⟩ :: c) (⟨mn', mx', e'⟩ :: d)
  | insert (mx e c d) : LooserConcat c d → LooserConcat c (⟨0, mx, e⟩ :: d)
  | insertOption (mn mx a c d) : (∀ m, mx = some m → mn ≤ m) → LooserConcat c d → LooserConcat c (⟨mn, mx, .option a⟩ :: d)
end

/-- Every name of `g` has in `g'` a rule with a looser alternation (names: /repo/utils.go, `GetRule`). -/
def Looser (g g' : Grammar) : Prop := ∀ n r, Resolves g n r → ∃ r', Resolves g' n r' ∧ LooserAlt r.alt r'.alt

theorem looserAlt_mem {a b : Alt} (h : LooserAlt a b) : ∀ c ∈ a, ∃ d ∈ b, LooserConcat c d := by
  induction a with
  | nil => intro c hc; cases hc
  | cons x a ih =>
    cases h with
    | cons _ _ d _ hd h1 h2 =>
      intro c hc
      rcases List.mem_cons.mp hc with rfl | hc
      · exact ⟨d, hd, h1⟩
      · exact ih h2 c hc

theorem looserConcat_refl : ∀ c : Concat, LooserConcat c c
  | [] => .nil
  | ⟨mn, mx, e⟩ :: c => .cons mn mx e c mn mx e c (Nat.le_refl _) (fun m h => ⟨m, h, Nat.le_refl _⟩) (.same e) (looserConcat_refl c)

/-- Alternatives may be added, moved and repeated. -/
theorem looserAlt_subset {a b : Alt} (h : a ⊆ b) : LooserAlt a b := by
  induction a with
  | nil => exact .nil b
  | cons c a ih => exact .cons c a c b (h (List.mem_cons_self ..)) (looserConcat_refl c) (ih fun x hx => h (List.mem_cons_of_mem _ hx))

theorem looserAlt_refl (a : Alt) : LooserAlt a a := looserAlt_subset (List.Subset.refl a)

theorem times_empty {g : Grammar} {e : Elem} (h : Derives g e []) : ∀ n, DerivesTimes g e n []
  | 0 => .zero e
  | n + 1 => .succ e n [] [] h (times_empty h n)

theorem derives_looser {g g' : Grammar} (hg : Looser g g') {e : Elem} {w : Bytes} (h : Derives g e w) :
    ∀ e', LooserElem e e' → Derives g' e' w := by
  have skip : ∀ {r : Rep} {d : Concat} {w : Bytes}, DerivesRep g' r [] → DerivesConcat g' d w → DerivesConcat g' (r :: d) w :=
    fun h1 h2 => .cons _ _ [] _ h1 h2
  have h0 : ∀ mx e, DerivesRep g' ⟨0, mx, e⟩ [] := fun mx e => .mk 0 mx e 0 [] (Nat.le_refl _) (fun _ _ => Nat.zero_le _) (.zero e)
  have ho : ∀ mn mx a, (∀ m, mx = some m → mn ≤ m) → DerivesRep g' ⟨mn, mx, .option a⟩ [] := fun mn mx a hm =>
    .mk mn mx _ mn [] (Nat.le_refl _) hm (times_empty (.optNone a) mn)
  refine Derives.rec (g := g)
    (motive_1 := fun e w _ => ∀ e', LooserElem e e' → Derives g' e' w)
    (motive_2 := fun a w _ => ∀ a', LooserAlt a a' → DerivesAlt g' a' w)
    (motive_3 := fun c w _ => ∀ c', LooserConcat c c' → DerivesConcat g' c' w)
    (motive_4 := fun r w _ => ∀ mn' mx' e', mn' ≤ r.min → (∀ m', mx' = some m' → ∃ m, r.max = some m ∧ m ≤ m') → LooserElem r.elem e' →
      DerivesRep g' ⟨mn', mx', e'⟩ w)
    (motive_5 := fun e n w _ => ∀ e', LooserElem e e' → DerivesTimes g' e' n w)
    ?_ ?_ ?_ ?_ ?_ ?_ ?_ ?_ ?_ ?_ ?_ h
  · intro n r w hr _ ih e' he
    cases he with
    | same =>
      obtain ⟨r', h1, h2⟩ := hg n r hr
      exact .rule n r' w h1 (ih _ h2)
  · intro a w ha ih e' he
    cases he with
    | same => exact .group a w (ih a (looserAlt_refl a))
    | group _ b hb => exact .group b w (ih b hb)
    | optional _ b hb => exact .optSome b w (ih b hb)
  · intro a e' he
    cases he with
    | same => exact .optNone a
    | option _ b _ => exact .optNone b
  · intro a w _ ih e' he
    cases he with
    | same => exact .optSome a w (ih a (looserAlt_refl a))
    | option _ b hb => exact .optSome b w (ih b hb)
  · intro e cs ht e' he
    cases he with
    | same => exact .term e cs ht
    | group => cases ht
    | option => cases ht
    | optional => cases ht
    | anyCase vs ws hv =>
      cases ht with
      | sensitive => exact .term _ _ (.insensitive ws _ hv)
    | range b b' s t s' t' lo hi lo' hi' h1 h2 h3 h4 h5 h6 =>
      cases ht with
      | range _ _ _ lo₁ hi₁ c e1 e2 e3 e4 =>
        have := denotes_fun h1 e1
        have := denotes_fun h2 e2
        exact .term _ _ (.range b' s' t' lo' hi' c h3 h4 (by omega) (by omega))
  · intro a c w hc _ ih a' ha
    obtain ⟨d, h1, h2⟩ := looserAlt_mem ha c hc
    exact .mk a' d w h1 (ih d h2)
  · intro c'
    induction c' with
    | nil => intro _; exact .nil
    | cons r d ihd =>
      intro hc
      cases hc with
      | insert mx e _ _ hc => exact skip (h0 mx e) (ihd hc)
      | insertOption mn mx a _ _ hm hc => exact skip (ho mn mx a hm) (ihd hc)
  · intro r c u v _ _ ih1 ih2 c'
    induction c' with
    | nil => intro hc; cases hc
    | cons r' d ihd =>
      intro hc
      cases hc with
      | cons mn mx e _ mn' mx' e' _ h1 h2 h3 h4 => exact .cons _ d u v (ih1 mn' mx' e' h1 h2 h3) (ih2 d h4)
      | insert mx e _ _ hc => exact skip (h0 mx e) (ihd hc)
      | insertOption mn mx a _ _ hm hc => exact skip (ho mn mx a hm) (ihd hc)
  · intro mn mx e n w h1 h2 _ ih mn' mx' e' h3 h4 he
    refine .mk mn' mx' e' n w (Nat.le_trans h3 h1) (fun m' hm => ?_) (ih e' he)
    obtain ⟨m, hm, hle⟩ := h4 m' hm
    exact Nat.le_trans (h2 m hm) hle
  · intro e e' _; exact .zero e'
  · intro e n u v _ _ ih1 ih2 e' he
    exact .succ e' n u v (ih1 e' he) (ih2 e' he)

/-- For a grammar to be looser it is enough that every rule has a looser one of its name, and that no core rule is replaced. -/
theorem looser_rules {g g' : Grammar} (h : ∀ r ∈ g.rules, ∃ r' ∈ g'.rules, SameName r.name r'.name ∧ LooserAlt r.alt r'.alt)
    (hc : ∀ r' ∈ g'.rules, IsCoreName r'.name → ∃ r ∈ g.rules, SameName r.name r'.name) : Looser g g' := by
  intro n r hr
  cases hr with
  | user h1 h2 =>
    obtain ⟨r', h3, h4, h5⟩ := h r h1
    rw [sameName_iff] at h2 h4
    exact ⟨r', .user h3 ((sameName_iff ..).mpr (h2.trans h4)), h5⟩
  | core h1 h2 h3 =>
    refine ⟨r, .core h1 h2 fun u hu hn => ?_, looserAlt_refl _⟩
    rw [sameName_iff] at h2 hn
    obtain ⟨x, hx, hs⟩ := hc u hu ⟨r, h1, (sameName_iff ..).mpr (hn.symm.trans h2)⟩
    rw [sameName_iff] at hs
    exact h3 x hx ((sameName_iff ..).mpr (hn.trans hs.symm))

/-- C130.  Loosening a grammar loses no text of any rule. -/
theorem C130_texts {g g' : Grammar} (h : Looser g g') (n : Str) (w : Bytes) (hw : DerivesRule g n w) : DerivesRule g' n w :=
  derives_looser h hw _ (.same _)

/-- C130.  What `ParseForest` or `ParseBSR` accept, they accept under a looser grammar. -/
theorem C130_accepts {g g' : Grammar} (hl : Looser g g') (hwf : NumValsWF g) (hd : NamesDistinct g) (hp : DistinctPrint g)
    (hwf' : NumValsWF g') (hd' : NamesDistinct g') (hp' : DistinctPrint g') (n : Str) (inp : Bytes) :
    (∀ sched sched' : Sched NodeKey, sched.Fair → sched'.Fair → ∀ N M N' M' f f', parseForest sched inp g n N M = .ok f →
      parseForest sched' inp g' n N' M' = .ok f' → f.valid = true → f'.valid = true) ∧
    (∀ sched sched' : Sched Nat, sched.Fair → sched'.Fair → ∀ N M N' M' f f', parseBSR sched inp g n N M = .ok f →
      parseBSR sched' inp g' n N' M' = .ok f' → f.valid = true → f'.valid = true) := by
  refine ⟨fun s s' hs hs' _ _ _ _ f f' h h' hv => ?_, fun s s' hs hs' _ _ _ _ f f' h h' hv => ?_⟩
  · exact (C01_exact g' hwf' hd' hp' s' hs' inp n _ _ f' h').mpr (C130_texts hl n inp ((C01_exact g hwf hd hp s hs inp n _ _ f h).mp hv))
  · exact (C02_exact g' hwf' hd' hp' s' hs' inp n _ _ f' h').mpr (C130_texts hl n inp ((C02_exact g hwf hd hp s hs inp n _ _ f h).mp hv))

/-- C130.  Of two grammars each looser than the other, such as with the alternatives in another order, both accept the same. -/
theorem C130_same {g g' : Grammar} (hl : Looser g g') (hl' : Looser g' g) (hwf : NumValsWF g) (hd : NamesDistinct g) (hp : DistinctPrint g)
    (hwf' : NumValsWF g') (hd' : NamesDistinct g') (hp' : DistinctPrint g') (n : Str) (inp : Bytes) (s s' : Sched NodeKey) (hs : s.Fair)
    (hs' : s'.Fair) (N M N' M' : Nat) (f f' : Forest) (h : parseForest s inp g n N M = .ok f) (h' : parseForest s' inp g' n N' M' = .ok f') :
    f.valid = f'.valid :=
  Bool.eq_iff_iff.mpr ⟨(C130_accepts hl hwf hd hp hwf' hd' hp' n inp).1 s s' hs hs' N M N' M' f f' h h',
    (C130_accepts hl' hwf' hd' hp' hwf hd hp n inp).1 s' s hs' hs N' M' N M f' f h' h⟩

/-- C130.  The pattern `Regex` returns for a looser grammar matches all that the pattern of the grammar matches. -/
theorem C130_regex {g g' : Grammar} (hl : Looser g g') (hd : NamesDistinct g) (hd' : NamesDistinct g') {core core' : List Rule}
    (hcore : core.Perm Core.rules) (hcore' : core'.Perm Core.rules) {order order' : List Str}
    (ho : order.Perm ((dependencyGraph core g).map Prod.fst)) (ho' : order'.Perm ((dependencyGraph core' g').map Prod.fst))
    (max max' : Nat) (n : Str) (r r' : Rule) (hr : Resolves g n r) (hr' : Resolves g' n r') (hok : ReachOK g r) (hok' : ReachOK g' r')
    (s s' : Str) (h : regex core order g max n = .ok s) (h' : regex core' order' g' max' n = .ok s') :
    ∃ p p', (∀ q, Reads s q ↔ q = p) ∧ (∀ q, Reads s' q ↔ q = p') ∧ ∀ cs, p.Lang cs → p'.Lang cs := by
  obtain ⟨p, h1, h2⟩ := C24_language_partial g hd core hcore order ho max n r hr hok s h
  obtain ⟨p', h1', h2'⟩ := C24_language_partial g' hd' core' hcore' order' ho' max' n r' hr' hok' s' h'
  exact ⟨p, p', h1, h1', fun cs hc => (h2' cs).mpr (C130_texts hl n _ ((h2 cs).mp hc))⟩

/-- `a = 3*("a")`. -/
def stricter : Grammar := ⟨[⟨str% "a", [[⟨3, none, .group [[Ex.one (Ex.lit (str% "a"))]]⟩]]⟩]⟩

theorem early_looser : Looser stricter early := by
  refine looser_rules (fun r hr => ?_) fun r hr hc => ?_
  · obtain rfl := List.mem_singleton.mp hr
    refine ⟨_, List.mem_singleton.mpr rfl, (sameName_iff ..).mpr rfl, .cons _ _ _ _ (List.mem_singleton.mpr rfl) ?_ (.nil _)⟩
    exact .cons 3 none _ _ 3 none _ _ (Nat.le_refl _) (by simp) (.group _ _ (looserAlt_subset (by simp))) .nil
  · obtain rfl := List.mem_singleton.mp hr
    exact ⟨_, List.mem_singleton.mpr rfl, (sameName_iff ..).mpr rfl⟩

/-- C130 fails for `IsValid`: with `a = 3*("a")` it accepts `aaaa`, and with `a = 3*("a" / "aaa")` it does not. -/
theorem C130_fails : Looser stricter early ∧ NamesDistinct early ∧ (∀ r ∈ early.rules, r.written = true) ∧
    isValid (plainOrders stricter) plainSched stricter (str% "a") (bytes% "aaaa") = some (.ok true) ∧
    isValid (plainOrders early) plainSched early (str% "a") (bytes% "aaaa") = some (.ok false) :=
  ⟨early_looser, early_nd, by decide, by decide +kernel, by decide +kernel⟩

/-- C130_texts and C130_accepts: the hypotheses hold, and a text is accepted. -/
example : Looser stricter early ∧ NumValsWF stricter ∧ NamesDistinct stricter ∧ DistinctPrint stricter ∧ NumValsWF early ∧ NamesDistinct early ∧
    DistinctPrint early ∧ (match parseForest fwd (bytes% "aaaa") stricter ['a'] 0 0, parseForest fwd (bytes% "aaaa") early ['a'] 0 0 with
      | .ok f, .ok f' => f.valid && f'.valid | _, _ => false) = true :=
  ⟨early_looser, numValsWF_of (by decide), namesDistinct_of (by decide), distinctPrint_of (by decide +kernel), numValsWF_of (by decide),
    early_nd, distinctPrint_of (by decide +kernel), by decide +kernel⟩

/-- `early` with its alternatives the other way round. -/
def earlyTurned : Grammar := ⟨[⟨str% "a", [[⟨3, none, .group [[Ex.one (Ex.lit (str% "aaa"))], [Ex.one (Ex.lit (str% "a"))]]⟩]]⟩]⟩

/-- C130_same: each of the two is looser than the other. -/
example : Looser early earlyTurned ∧ Looser earlyTurned early ∧ NumValsWF earlyTurned ∧ NamesDistinct earlyTurned ∧ DistinctPrint earlyTurned := by
  refine ⟨looser_rules (fun r hr => ?_) fun r hr hc => ?_, looser_rules (fun r hr => ?_) fun r hr hc => ?_, numValsWF_of (by decide),
    namesDistinct_of (by decide), distinctPrint_of (by decide +kernel)⟩
  all_goals obtain rfl := List.mem_singleton.mp hr
  case refine_1 | refine_3 =>
    refine ⟨_, List.mem_singleton.mpr rfl, (sameName_iff ..).mpr rfl, .cons _ _ _ _ (List.mem_singleton.mpr rfl) ?_ (.nil _)⟩
    exact .cons 3 none _ _ 3 none _ _ (Nat.le_refl _) (by simp) (.group _ _ (looserAlt_subset (by simp))) .nil
  all_goals exact ⟨_, List.mem_singleton.mpr rfl, (sameName_iff ..).mpr rfl⟩

/-- C130_regex: both grammars have patterns. -/
example : Resolves stricter ['a'] stricter.rules[0] ∧ ReachOK stricter stricter.rules[0] ∧ Resolves early ['a'] early.rules[0] ∧
    ReachOK early early.rules[0] ∧ (regex Core.rules (plainOrder stricter) stricter 0 ['a']).isOk = true ∧
    (regex Core.rules (plainOrder early) early 0 ['a']).isOk = true := by
  have h1 : Resolves stricter ['a'] stricter.rules[0] := .user (List.mem_singleton.mpr rfl) ((sameName_iff ..).mpr rfl)
  have h2 : Resolves early ['a'] early.rules[0] := .user (List.mem_singleton.mpr rfl) ((sameName_iff ..).mpr rfl)
  exact ⟨h1, reachOK_of (by decide +kernel) h1, h2, reachOK_of (by decide +kernel) h2, by decide +kernel, by decide +kernel⟩

/-- Every way of loosening at once: `%s"k" (%x62-63) 2"d"` and `["f"] "K" [%x61-7A] *3"d" *"e"`. -/
example : LooserConcat
    [Ex.one (.charVal true (str% "k")), Ex.one (.group [[Ex.one (.numVal (str% "x") .range [str% "62", str% "63"])]]), ⟨2, some 2, Ex.lit (str% "d")⟩]
    [Ex.one (.option [[Ex.one (Ex.lit (str% "f"))]]), Ex.one (Ex.lit (str% "K")),
      Ex.one (.option [[Ex.one (.numVal (str% "x") .range [str% "61", str% "7A"])]]), ⟨0, some 3, Ex.lit (str% "d")⟩, ⟨0, none, Ex.lit (str% "e")⟩] := by
  refine .insertOption 1 (some 1) _ _ _ (by simp) ?_
  refine .cons 1 (some 1) _ _ 1 (some 1) _ _ (Nat.le_refl _) (by simp) (.anyCase _ _ (((sameName_iff (str% "K") (str% "k"))).mpr (by decide))) ?_
  refine .cons 1 (some 1) _ _ 1 (some 1) _ _ (Nat.le_refl _) (by simp) (.optional _ _ (.cons _ _ _ _ (List.mem_singleton.mpr rfl) ?_ (.nil _))) ?_
  · exact .cons 1 (some 1) _ _ 1 (some 1) _ _ (Nat.le_refl _) (by simp)
      (.range _ _ _ _ _ _ 0x62 0x63 0x61 0x7A (denotes_hex [6, 2] _ (by decide)) (denotes_hex [6, 3] _ (by decide))
        (denotes_hex [6, 1] _ (by decide)) (denotes_hex [7, 10] _ (by decide)) (by decide) (by decide)) .nil
  · exact .cons 2 (some 2) _ _ 0 (some 3) _ _ (by decide) (by simp) (.same _) (.insert none _ _ _ .nil)

end Verif.Props
