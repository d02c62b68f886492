import Verif.Redefine
import Verif.Session
import Verif.Codegen

/-!
# C108: grammars read with core rules open to redefinition

What `ParseABNF` with `WithRedefineCoreRules(true)` (/repo/grammar.go:77-106, 162-194) returns is printed and read back,
and is parsed with: `String` and `PrettyPrint` (/repo/grammar.go:46-75), `ParseForest` (/repo/sppf.go:668-691) and
`ParseBSR` (/repo/bsr.go:557-589) after the core rules have been changed by the text (/repo/grammar.go:185-190).
-/

namespace Verif
open Spec Text Eval

namespace Reopen

theorem isCore_same {a b : Str} (h : SameName a b) (hc : Props.IsCoreName a) : Props.IsCoreName b := by
  obtain ⟨r, hr, hn⟩ := hc
  exact ⟨r, hr, (sameName_iff _ _).mpr (((sameName_iff _ _).mp h).symm.trans ((sameName_iff _ _).mp hn))⟩

theorem same_symm {a b : Str} (h : SameName a b) : SameName b a := (sameName_iff _ _).mpr ((sameName_iff _ _).mp h).symm

theorem same_trans {a b c : Str} (h : SameName a b) (h' : SameName b c) : SameName a c :=
  (sameName_iff _ _).mpr (((sameName_iff _ _).mp h).trans ((sameName_iff _ _).mp h'))

/-- Names are distinct, and two that differ in case only are those of a core rule: `feval.rulelist` sets an entry of the
map for each `=` on a core rule (/repo/grammar.go:172-179). -/
def Apart (ns : List Str) : Prop := ns.Nodup ∧ ns.Pairwise fun a b => SameName a b → Props.IsCoreName a

theorem mpSet_has {e : Rule × Bool} : ∀ {m : List (Rule × Bool)}, e.1.name ∈ m.map (fun p => p.1.name) →
    (mpSet e m).map (fun p => p.1.name) = m.map fun p => p.1.name
  | [], h => by cases h
  | p :: m, h => by
    rw [mpSet]
    split_ifs with hp
    · simp [hp]
    · simp only [List.map_cons, List.mem_cons] at h ⊢
      rw [mpSet_has (h.resolve_left fun h => hp h.symm)]

theorem mpSet_new {e : Rule × Bool} : ∀ {m : List (Rule × Bool)}, e.1.name ∉ m.map (fun p => p.1.name) → mpSet e m = m ++ [e]
  | [], _ => rfl
  | p :: m, h => by
    simp only [List.map_cons, List.mem_cons, not_or] at h
    rw [mpSet, if_neg (fun hp => h.1 hp.symm), mpSet_new h.2]
    rfl

theorem extendMp_names {n : Str} {a : Alt} : ∀ {m : List (Rule × Bool)} {q : List (Rule × Bool) × Bool}, extendMp n a m = some q →
    q.1.map (fun p => p.1.name) = m.map (fun p => p.1.name) ∧ ∃ p ∈ m, SameName n p.1.name
  | [], q, h => by cases h
  | p :: m, q, h => by
    rw [extendMp] at h
    split_ifs at h with hp
    · cases h
      exact ⟨rfl, p, by simp, (equalFold_iff _ _).mp hp⟩
    · rw [Option.map_eq_some_iff] at h
      obtain ⟨q', h, rfl⟩ := h
      obtain ⟨h1, r, h2, h3⟩ := extendMp_names h
      exact ⟨by simp [h1], r, by simp [h2], h3⟩

theorem extendMp_none {n : Str} {a : Alt} : ∀ {m : List (Rule × Bool)}, extendMp n a m = none → ∀ p ∈ m, ¬ SameName n p.1.name
  | [], _ => by simp
  | p :: m, h => by
    rw [extendMp] at h
    split_ifs at h with hp
    rw [Option.map_eq_none_iff] at h
    intro q hq
    rcases List.mem_cons.mp hq with rfl | hq
    · rwa [← equalFold_iff]
    · exact extendMp_none h q hq

theorem apart_snoc {ns : List Str} {n : Str} (h : Apart ns) (hn : n ∉ ns) (hs : ∀ a ∈ ns, SameName a n → Props.IsCoreName a) : Apart (ns ++ [n]) := by
  refine ⟨?_, ?_⟩
  · rw [List.nodup_append]
    exact ⟨h.1, by simp, fun a ha b hb => by rw [List.mem_singleton.mp hb]; rintro rfl; exact hn ha⟩
  · rw [List.pairwise_append]
    exact ⟨h.2, by simp, fun a ha b hb => by rw [List.mem_singleton.mp hb]; exact hs a ha⟩

/-- A core rule that is not as it was has its name in the map. -/
def Covers (mp : List (Rule × Bool)) (r r' : Rule) : Prop := r'.name = r.name ∧ (r' = r ∨ ∃ p ∈ mp, SameName r.name p.1.name)

/-- What holds of the state of `feval.rulelist` (/repo/grammar.go:164-192). -/
structure Kept (st : EvalSt) : Prop where
  apart : Apart (st.mp.map fun p => p.1.name)
  core : List.Forall₂ (Covers st.mp) Core.rules st.core

theorem names_of_covers {mp : List (Rule × Bool)} : ∀ {l l' : List Rule}, List.Forall₂ (Covers mp) l l' → l'.map Rule.name = l.map Rule.name
  | _, _, .nil => rfl
  | _, _, .cons h t => by simp [h.1, names_of_covers t]

theorem covers_names {mp mp' : List (Rule × Bool)} (h : ∀ n, (∃ p ∈ mp, SameName n p.1.name) → ∃ p ∈ mp', SameName n p.1.name)
    {l l' : List Rule} (hl : List.Forall₂ (Covers mp) l l') : List.Forall₂ (Covers mp') l l' :=
  hl.imp fun _ _ ⟨h1, h2⟩ => ⟨h1, h2.imp_right (h _)⟩

theorem covers_extend {mp : List (Rule × Bool)} {n : Str} {a : Alt} (hn : ∃ p ∈ mp, SameName n p.1.name) :
    ∀ {l l' : List Rule}, List.Forall₂ (Covers mp) l l' → List.Forall₂ (Covers mp) l (extendIn n a l')
  | _, _, .nil => .nil
  | r :: l, r' :: l', .cons h t => by
    rw [extendIn]
    split_ifs with he
    · obtain ⟨p, hp, hs⟩ := hn
      refine .cons ⟨h.1, .inr ⟨p, hp, ?_⟩⟩ t
      rw [equalFold_iff, h.1] at he
      exact same_trans (same_symm he) hs
    · exact .cons h (covers_extend hn t)

theorem has_names {mp mp' : List (Rule × Bool)} (h : ∀ n ∈ mp.map (fun p : Rule × Bool => p.1.name), n ∈ mp'.map fun p => p.1.name) (n : Str) :
    (∃ p ∈ mp, SameName n p.1.name) → ∃ p ∈ mp', SameName n p.1.name := by
  rintro ⟨p, hp, hs⟩
  obtain ⟨q, hq, he⟩ := List.mem_map.mp (h _ (List.mem_map.mpr ⟨p, hp, rfl⟩))
  exact ⟨q, hq, he ▸ hs⟩

theorem mpSet_sub (e : Rule × Bool) (m : List (Rule × Bool)) : (∀ n ∈ m.map (fun p : Rule × Bool => p.1.name), n ∈ (mpSet e m).map fun p => p.1.name) ∧
    e.1.name ∈ (mpSet e m).map fun p => p.1.name := by
  by_cases h : e.1.name ∈ m.map fun p => p.1.name
  · rw [mpSet_has h]
    exact ⟨fun _ => id, h⟩
  · rw [mpSet_new h]
    exact ⟨fun n hn => by rw [List.map_append]; exact List.mem_append_left _ hn, by simp⟩

theorem evalDef_kept {st st' : EvalSt} {d : Def} {rc : Bool} (hk : Kept st) (h : evalDef rc st d = .ok st') : Kept st' := by
  have hcore : (getRuleIn d.name st.core).isSome = true ↔ Props.IsCoreName d.name := by
    rw [Session.getRuleIn_names (names_of_covers hk.core), ← not_iff_not, ← Props.isCoreName_iff]
    simp
  have hin : ∀ {n}, getRuleIn n (st.mp.map Prod.fst) = none → ∀ p ∈ st.mp, ¬ SameName n p.1.name := by
    intro n hn p hp
    unfold getRuleIn at hn
    rw [List.find?_eq_none] at hn
    rw [← equalFold_iff]
    exact hn p.1 (List.mem_map.mpr ⟨p, hp, rfl⟩)
  -- setting an entry
  have hset : ∀ e : Rule × Bool, (Props.IsCoreName e.1.name ∨ ∀ p ∈ st.mp, ¬ SameName e.1.name p.1.name) → Apart ((mpSet e st.mp).map fun p => p.1.name) := by
    intro e he
    by_cases hm : e.1.name ∈ st.mp.map fun p => p.1.name
    · rw [mpSet_has hm]
      exact hk.apart
    · rw [mpSet_new hm, List.map_append]
      refine apart_snoc hk.apart hm fun a ha hs => ?_
      rcases he with he | he
      · exact isCore_same (same_symm hs) he
      · obtain ⟨p, hp, rfl⟩ := List.mem_map.mp ha
        exact absurd (same_symm hs) (he p hp)
  unfold evalDef at h
  simp only at h
  by_cases he : d.extend = false
  · rw [if_pos he] at h
    by_cases hc : (getRuleIn d.name st.core).isSome = true
    · rw [if_pos hc] at h
      split_ifs at h
      cases h
      exact ⟨hset _ (.inl (hcore.mp hc)), covers_names (has_names (mpSet_sub _ _).1) hk.core⟩
    · rw [if_neg hc] at h
      split_ifs at h with hg
      cases h
      refine ⟨hset _ (.inr (hin ?_)), covers_names (has_names (mpSet_sub _ _).1) hk.core⟩
      rwa [Option.not_isSome_iff_eq_none] at hg
  · rw [if_neg he] at h
    split_ifs at h
    cases hq : extendMp d.name d.alt st.mp with
    | some q =>
      rw [hq] at h
      cases h
      obtain ⟨h1, h2⟩ := extendMp_names hq
      have h3 : List.Forall₂ (Covers q.1) Core.rules st.core := covers_names (has_names fun n hn => by rw [h1]; exact hn) hk.core
      refine ⟨by rw [h1]; exact hk.apart, ?_⟩
      show List.Forall₂ _ _ (if q.2 then _ else _)
      split_ifs
      · exact covers_extend (has_names (fun n hn => by rw [h1]; exact hn) _ h2) h3
      · exact h3
    | none =>
      rw [hq] at h
      simp only at h
      cases hg : getRuleIn d.name st.core with
      | none => rw [hg] at h; cases h
      | some r =>
        rw [hg] at h
        cases h
        have hn : SameName d.name r.name := (equalFold_iff _ _).mp (List.find?_some (p := fun r : Rule => equalFold d.name r.name) hg)
        have ha : Props.IsCoreName r.name := isCore_same hn (hcore.mp (by rw [hg]; rfl))
        refine ⟨hset _ (.inl ha), covers_extend ?_ (covers_names (has_names (mpSet_sub _ _).1) hk.core)⟩
        obtain ⟨p, hp, hs⟩ := List.mem_map.mp (mpSet_sub (⟨r.name, r.alt ++ d.alt⟩, true) st.mp).2
        exact ⟨p, hp, by rw [hs]; exact hn⟩

theorem evalDefs_kept {rc : Bool} : ∀ {ds : List Def} {st st' : EvalSt}, Kept st → evalDefsFrom rc st ds = .ok st' → Kept st'
  | [], _, _, hk, h => by cases h; exact hk
  | d :: ds, st, st', hk, h => by
    rw [evalDefsFrom] at h
    cases hx : evalDef rc st d with
    | error e => rw [hx] at h; cases h
    | ok s =>
      rw [hx] at h
      exact evalDefs_kept (evalDef_kept hk hx) h

theorem kept_nil : Kept ⟨[], Core.rules⟩ := ⟨⟨List.nodup_nil, List.Pairwise.nil⟩, List.forall₂_same.mpr fun _ _ => ⟨rfl, .inl rfl⟩⟩

/-! ## Counts -/

/-- The counts of the rule fit. -/
def FitRule (r : Rule) : Prop := ∀ q ∈ altReps r.alt, Fits q

theorem fit_append {n : Str} {a b : Alt} (h1 : FitRule ⟨n, a⟩) {m : Str} (h2 : FitRule ⟨m, b⟩) : FitRule ⟨n, a ++ b⟩ := by
  intro q hq
  rw [show (Rule.mk n (a ++ b)).alt = a ++ b from rfl, Props.altReps_flat, List.flatMap_append, ← Props.altReps_flat, ← Props.altReps_flat] at hq
  rcases List.mem_append.mp hq with hq | hq
  · exact h1 q hq
  · exact h2 q hq

theorem extendIn_fit {n : Str} {a : Alt} (hd : FitRule ⟨n, a⟩) : ∀ {c : List Rule}, (∀ r ∈ c, FitRule r) → ∀ r ∈ extendIn n a c, FitRule r
  | [], h => h
  | q :: c, h => by
    intro r hr
    rw [extendIn] at hr
    split_ifs at hr
    · rcases List.mem_cons.mp hr with rfl | hr
      · exact fit_append (h q (by simp)) hd
      · exact h r (by simp [hr])
    · rcases List.mem_cons.mp hr with rfl | hr
      · exact h r (by simp)
      · exact extendIn_fit hd (fun r hr => h r (by simp [hr])) r hr

theorem extendMp_fit {n : Str} {a : Alt} (hd : FitRule ⟨n, a⟩) : ∀ {m : List (Rule × Bool)} {q : List (Rule × Bool) × Bool},
    (∀ p ∈ m, FitRule p.1) → extendMp n a m = some q → ∀ p ∈ q.1, FitRule p.1
  | [], q, _, h => by cases h
  | x :: m, q, hm, h => by
    rw [extendMp] at h
    split_ifs at h
    · cases h
      intro p hp
      rcases List.mem_cons.mp hp with rfl | hp
      · exact fit_append (hm x (by simp)) hd
      · exact hm p (by simp [hp])
    · rw [Option.map_eq_some_iff] at h
      obtain ⟨y, h, rfl⟩ := h
      intro p hp
      rcases List.mem_cons.mp hp with rfl | hp
      · exact hm p (by simp)
      · exact extendMp_fit hd (fun p hp => hm p (by simp [hp])) h p hp

theorem evalDefs_fit {rc : Bool} : ∀ (ds : List Def) (st st' : EvalSt), (∀ d ∈ ds, FitRule ⟨d.name, d.alt⟩) →
    (∀ p ∈ st.mp, FitRule p.1) → (∀ r ∈ st.core, FitRule r) → evalDefsFrom rc st ds = .ok st' → ∀ p ∈ st'.mp, FitRule p.1
  | [], st, st', _, hm, _, h => by cases h; exact hm
  | d :: ds, st, st', hd, hm, hc, h => by
    rw [evalDefsFrom] at h
    cases hx : evalDef rc st d with
    | error e => rw [hx] at h; cases h
    | ok s =>
      rw [hx] at h
      have hd1 := hd d (by simp)
      have hput : ∀ e : Rule × Bool, FitRule e.1 → ∀ p ∈ mpSet e st.mp, FitRule p.1 := by
        intro e he p hp
        rcases Props.mem_mpSet hp with rfl | hp
        · exact he
        · exact hm p hp
      have : (∀ p ∈ s.mp, FitRule p.1) ∧ ∀ r ∈ s.core, FitRule r := by
        unfold evalDef at hx
        simp only at hx
        by_cases he : d.extend = false
        · rw [if_pos he] at hx
          split_ifs at hx <;> (cases hx; exact ⟨hput _ hd1, hc⟩)
        · rw [if_neg he] at hx
          split_ifs at hx with hb
          cases hq : extendMp d.name d.alt st.mp with
          | some q =>
            rw [hq] at hx
            cases hx
            refine ⟨extendMp_fit hd1 hm hq, ?_⟩
            show ∀ r ∈ (if q.2 then _ else _), _
            split_ifs
            · exact extendIn_fit hd1 hc
            · exact hc
          | none =>
            rw [hq] at hx
            simp only at hx
            cases hg : getRuleIn d.name st.core with
            | none => rw [hg] at hx; cases hx
            | some r =>
              rw [hg] at hx
              cases hx
              exact ⟨hput _ (fit_append (hc r (List.mem_of_find?_eq_some hg)) hd1), extendIn_fit hd1 hc⟩
      exact evalDefs_fit ds s st' (fun e he => hd e (by simp [he])) this.1 this.2 h

theorem core_fit : ∀ r ∈ Core.rules, FitRule r := by
  unfold FitRule Fits
  decide +kernel

/-! ## Definitions of rules whose names are apart -/

theorem evalDefs_plain : ∀ (rs : List Rule) (m : List (Rule × Bool)), Apart (m.map (fun p => p.1.name) ++ rs.map Rule.name) →
    evalDefsFrom true ⟨m, Core.rules⟩ (rs.map fun r => ⟨r.name, false, r.alt⟩) = .ok ⟨m ++ rs.map fun r => (r, false), Core.rules⟩
  | [], m, _ => by simp [evalDefsFrom]
  | r :: rs, m, h => by
    have hnew : r.name ∉ m.map fun p => p.1.name := by
      intro hm
      have := h.1
      rw [List.nodup_append] at this
      exact this.2.2 _ hm _ (by simp) rfl
    have hd : evalDef true ⟨m, Core.rules⟩ ⟨r.name, false, r.alt⟩ = .ok ⟨m ++ [(r, false)], Core.rules⟩ := by
      unfold evalDef
      simp only [if_true]
      by_cases hc : (getRuleIn r.name Core.rules).isSome = true
      · rw [if_pos hc, if_neg (by simp), mpSet_new hnew]
      · rw [if_neg hc, if_neg, mpSet_new hnew]
        rw [Option.not_isSome_iff_eq_none] at hc ⊢
        unfold getRuleIn
        rw [List.find?_eq_none]
        intro q hq
        obtain ⟨p, hp, rfl⟩ := List.mem_map.mp hq
        rw [equalFold_iff]
        intro hs
        have h2 := (List.pairwise_append.mp h.2).2.2 p.1.name (List.mem_map.mpr ⟨p, hp, rfl⟩) r.name (by simp) (same_symm hs)
        exact (Props.isCoreName_iff _).mp hc (isCore_same (same_symm hs) h2)
    rw [List.map_cons, evalDefsFrom, hd]
    simp only
    rw [evalDefs_plain rs (m ++ [(r, false)]) (by simpa using h)]
    simp

/-! ## Grammars in which the same rules are found -/

/-- Whatever `f` finds, `f'` finds. -/
def Below (f f' : LowerRuleFn) : Prop := ∀ n st x, f n st = some x → f' n st = some x

mutual
theorem lowerAlts_mono {f f' : LowerRuleFn} {max : Nat} (hf : Below f f') : ∀ (a : List (List Rep)) {st : LowerSt} {x},
    lowerAlts f max a st = some x → lowerAlts f' max a st = some x
  | [], st, x, h => by rw [lowerAlts] at h ⊢; exact h
  | c :: a, st, x, h => by
    rw [lowerAlts] at h ⊢
    cases h1 : lowerConcat f max c st with
    | none => rw [h1] at h; cases h
    | some y =>
      rw [h1] at h
      rw [lowerConcat_mono hf c h1]
      simp only at h ⊢
      cases h2 : lowerAlts f max a y.2 with
      | none => rw [h2] at h; cases h
      | some z =>
        rw [h2] at h
        rw [lowerAlts_mono hf a h2]
        exact h
theorem lowerConcat_mono {f f' : LowerRuleFn} {max : Nat} (hf : Below f f') : ∀ (c : List Rep) {st : LowerSt} {x},
    lowerConcat f max c st = some x → lowerConcat f' max c st = some x
  | [], st, x, h => by rw [lowerConcat] at h ⊢; exact h
  | r :: c, st, x, h => by
    rw [lowerConcat] at h ⊢
    cases h1 : lowerRep f max r st with
    | none => rw [h1] at h; cases h
    | some y =>
      rw [h1] at h
      rw [lowerRep_mono hf r h1]
      simp only at h ⊢
      cases h2 : lowerConcat f max c y.2 with
      | none => rw [h2] at h; cases h
      | some z =>
        rw [h2] at h
        rw [lowerConcat_mono hf c h2]
        exact h
theorem lowerRep_mono {f f' : LowerRuleFn} {max : Nat} (hf : Below f f') : ∀ (r : Rep) {st : LowerSt} {x},
    lowerRep f max r st = some x → lowerRep f' max r st = some x
  | ⟨mn, mx, e⟩, st, x, h => by
    rw [lowerRep] at h ⊢
    by_cases h0 : mn = 1 ∧ mx = some 1
    · rw [if_pos h0] at h ⊢
      exact lowerElem_mono hf e h
    · rw [if_neg h0] at h ⊢
      cases hr : reserve (repKey ⟨mn, mx, e⟩) st with
      | mk id q =>
        obtain ⟨b, s⟩ := q
        rw [hr] at h
        cases b with
        | true => exact h
        | false =>
          simp only at h ⊢
          split_ifs at h ⊢
          · exact h
          · exact h
          · cases h1 : lowerElem f max e (budgetExceeded max s) with
            | none => rw [h1] at h; cases h
            | some y =>
              rw [h1] at h
              rw [lowerElem_mono hf e h1]
              exact h
theorem lowerElem_mono {f f' : LowerRuleFn} {max : Nat} (hf : Below f f') : ∀ (e : Elem) {st : LowerSt} {x},
    lowerElem f max e st = some x → lowerElem f' max e st = some x
  | .rulename n, st, x, h => by
    rw [lowerElem] at h ⊢
    cases h1 : f n st with
    | none => rw [h1] at h; cases h
    | some y =>
      rw [h1] at h
      rw [hf n st y h1]
      exact h
  | .group a, st, x, h => by
    rw [lowerElem] at h ⊢
    cases hr : reserve (grpKey a) st with
    | mk id q =>
      obtain ⟨b, s⟩ := q
      rw [hr] at h
      cases b with
      | true => exact h
      | false =>
        simp only at h ⊢
        split_ifs at h ⊢
        · exact h
        · cases h1 : lowerAlts f max a (budgetExceeded max s) with
          | none => rw [h1] at h; cases h
          | some y =>
            rw [h1] at h
            rw [lowerAlts_mono hf a h1]
            exact h
  | .option a, st, x, h => by
    rw [lowerElem] at h ⊢
    cases hr : reserve (optKey a) st with
    | mk id q =>
      obtain ⟨b, s⟩ := q
      rw [hr] at h
      cases b with
      | true => exact h
      | false =>
        simp only at h ⊢
        split_ifs at h ⊢
        · exact h
        · cases h1 : lowerAlts f max a (budgetExceeded max s) with
          | none => rw [h1] at h; cases h
          | some y =>
            rw [h1] at h
            rw [lowerAlts_mono hf a h1]
            exact h
  | .charVal _ _, st, x, h => by simpa [lowerElem] using h
  | .numVal _ _ _, st, x, h => by simpa [lowerElem] using h
  | .proseVal _, st, x, h => by simpa [lowerElem] using h
end

/-- The same rule is found under every name. -/
def SameLookup (g g' : Grammar) : Prop := ∀ n, getRule n g.rules = getRule n g'.rules

theorem lowerRule_same {g g' : Grammar} (hs : SameLookup g g') {max : Nat} : ∀ {k k' : Nat}, k ≤ k' → Below (lowerRule g max k) (lowerRule g' max k')
  | 0, _, _ => fun n st x h => by cases h
  | k + 1, 0, hk => by omega
  | k + 1, k' + 1, hk => by
    intro n st x h
    rw [lowerRule] at h ⊢
    cases hr : reserve (ruleKey n) st with
    | mk id q =>
      obtain ⟨b, s⟩ := q
      rw [hr] at h
      cases b with
      | true => exact h
      | false =>
        simp only at h ⊢
        split_ifs at h ⊢
        · exact h
        · rw [← hs n]
          cases hg : getRule n g.rules with
          | none => rw [hg] at h; exact h
          | some r =>
            rw [hg] at h
            simp only at h ⊢
            cases h1 : lowerAlts (lowerRule g max k) max r.alt (budgetExceeded max s) with
            | none => rw [h1] at h; cases h
            | some y =>
              rw [h1] at h
              rw [lowerAlts_mono (lowerRule_same hs (by omega)) r.alt h1]
              exact h

theorem compile_same {g g' : Grammar} (hs : SameLookup g g') (root : Str) (max : Nat) : compileSlots g root max = compileSlots g' root max := by
  have key : ∀ {g g' : Grammar}, SameLookup g g' → lowerFuel g ≤ lowerFuel g' → compileSlots g root max = compileSlots g' root max := by
    intro g g' hs hl
    unfold compileSlots
    rw [← hs root]
    cases getRule root g.rules with
    | none => rfl
    | some r =>
      simp only
      cases h : lowerRule g max (lowerFuel g) root ⟨[], [], false⟩ with
      | none => exact absurd h (lower_terminates g root max _ good_init)
      | some x => rw [lowerRule_same hs hl _ _ _ h]
  rcases le_total (lowerFuel g) (lowerFuel g') with h | h
  · exact key hs h
  · exact (key (fun n => (hs n).symm) h).symm

end Reopen

namespace Props
open Reopen

theorem parseABNF_state (sched : Sched NodeKey) (hf : sched.Fair) (opts : List ABNFOption) (src : Bytes) (g : Grammar)
    (h : parseABNF sched src opts = .ok g) : ∃ s ds st, src = utf8 s ∧ ReadsFile code s ds ∧
      evalRulelist (processOptions opts).redefineCore ds = .ok st ∧ g = grammarOf st ∧
      ((processOptions opts).validate = true → semvalABNF g = none) := by
  by_cases ht : ∃ s ds, src = utf8 s ∧ ReadsFile rfc s ds
  · obtain ⟨s, ds, rfl, hr⟩ := ht
    obtain ⟨ds', hr'⟩ := file_any (cv' := code) hr
    rw [parseABNF_reads sched hf opts s ds' hr'] at h
    unfold outcome at h
    cases hx : evalRulelist (processOptions opts).redefineCore ds' with
    | error e => rw [hx] at h; cases h
    | ok st =>
      rw [hx] at h
      simp only at h
      split_ifs at h with hv
      · cases hm : semvalABNF (grammarOf st) with
        | some e => rw [hm] at h; cases h
        | none =>
          rw [hm] at h
          cases h
          exact ⟨s, ds', st, rfl, hr', hx, rfl, fun _ => hm⟩
      · cases h
        exact ⟨s, ds', st, rfl, hr', hx, rfl, fun h => absurd h hv⟩
  · obtain ⟨p, hp⟩ := parseABNF_rejects sched hf opts src ht
    rw [hp] at h
    cases h

/-- C108.  Every grammar that `ParseABNF` returns can be written down; its names are distinct, and differ in more than
case unless they are those of a core rule; its counts fit; and if it was validated it is sound. -/
theorem C108_wellformed (sched : Sched NodeKey) (hf : sched.Fair) (opts : List ABNFOption) (src : Bytes) (g : Grammar)
    (h : parseABNF sched src opts = .ok g) :
    (∀ r ∈ g.rules, r.written = true) ∧ Apart (g.rules.map Rule.name) ∧ (∀ q ∈ rulesReps g.rules, Fits q) ∧
      ((processOptions opts).validate = true → Sound g) := by
  obtain ⟨s, ds, st, rfl, hr, hst, rfl, hv⟩ := parseABNF_state sched hf opts src g h
  have hw : ∀ r ∈ (grammarOf st).rules, r.written = true := by
    intro r hr'
    obtain ⟨p, hp, rfl⟩ := List.mem_map.mp hr'
    exact evalDefs_written ds _ st (file_written hr) (by simp) core_written hst p hp
  refine ⟨hw, ?_, ?_, fun h => (C17_exact _ (numValsWF_of_written hw)).mp (hv h)⟩
  · have := (evalDefs_kept kept_nil hst).apart
    unfold grammarOf
    rwa [List.map_map]
  · intro q hq
    obtain ⟨r, hr', hq⟩ := List.mem_flatMap.mp hq
    obtain ⟨p, hp, rfl⟩ := List.mem_map.mp hr'
    exact evalDefs_fit ds _ st (file_fits hr) (by simp) core_fit hst p hp q hq

/-- C108.  With core rules open to redefinition, what `String` and `PrettyPrint` write is read back as the same rules
without their case-sensitivity markers, also if they redefine core rules. -/
theorem C108_reread (g : Grammar) (hw : ∀ r ∈ g.rules, r.written = true) (h0 : g.rules ≠ []) (ha : Apart (g.rules.map Rule.name))
    (hfit : ∀ q ∈ rulesReps g.rules, Fits q) (sched : Sched NodeKey) (hf : sched.Fair) (opts : List ABNFOption)
    (hrc : (processOptions opts).redefineCore = true) (hs : (processOptions opts).validate = true → Sound g) :
    parseABNF sched (utf8 g.str) opts = .ok g.uncased ∧ parseABNF sched (utf8 g.pretty) opts = .ok g.uncased := by
  have hu : (g.rules.map fun r : Rule => (⟨r.name, false, altUncased r.alt⟩ : Def)) =
      g.uncased.rules.map fun r => ⟨r.name, false, r.alt⟩ := by
    simp [Grammar.uncased]
  have ha' : Apart (([] : List (Rule × Bool)).map (fun p => p.1.name) ++ g.uncased.rules.map Rule.name) := by
    simpa [Grammar.uncased, Function.comp_def] using ha
  have key : ∀ s, ReadsFile code s (g.rules.map fun r => ⟨r.name, false, altUncased r.alt⟩) →
      parseABNF sched (utf8 s) opts = .ok g.uncased := by
    intro s hr
    rw [hu] at hr
    have hev : evalRulelist true (g.uncased.rules.map fun r => ⟨r.name, false, r.alt⟩) = .ok ⟨g.uncased.rules.map fun r => (r, false), Core.rules⟩ := by
      unfold evalRulelist
      rw [evalDefs_plain _ _ ha']
      simp
    rw [parseABNF_reads sched hf opts s _ hr, outcome, hrc, hev]
    have hg : grammarOf ⟨g.uncased.rules.map fun r => (r, false), Core.rules⟩ = g.uncased := by
      unfold grammarOf
      simp [Function.comp_def]
    simp only [hg]
    split_ifs with hv
    · have hw' : ∀ r ∈ g.uncased.rules, r.written = true := by
        intro r hr'
        have := file_written hr ⟨r.name, false, r.alt⟩ (List.mem_map.mpr ⟨r, hr', rfl⟩)
        exact this
      rw [(C17_exact _ (numValsWF_of_written hw')).mpr (sound_uncased (hs hv))]
    · rfl
  exact ⟨key _ (str_reads g hw hfit h0), key _ (pretty_reads g hw hfit h0)⟩

/-- C108.  Without that option the text is refused if the grammar has a rule with the name of a core rule. -/
theorem C108_strict (g : Grammar) (hw : ∀ r ∈ g.rules, r.written = true) (h0 : g.rules ≠ [])
    (hfit : ∀ q ∈ rulesReps g.rules, Fits q) (sched : Sched NodeKey) (hf : sched.Fair) (opts : List ABNFOption)
    (hrc : (processOptions opts).redefineCore = false) (hc : ∃ r ∈ g.rules, IsCoreName r.name) :
    (∃ e, parseABNF sched (utf8 g.str) opts = .error (.eval e)) ∧ ∃ e, parseABNF sched (utf8 g.pretty) opts = .error (.eval e) := by
  have key : ∀ s, ReadsFile code s (g.rules.map fun r => ⟨r.name, false, altUncased r.alt⟩) →
      ∃ e, parseABNF sched (utf8 s) opts = .error (.eval e) := by
    intro s hr
    rw [parseABNF_reads sched hf opts s _ hr, outcome, hrc]
    cases hx : evalRulelist false (g.rules.map fun r => ⟨r.name, false, altUncased r.alt⟩) with
    | error e => exact ⟨e, rfl⟩
    | ok st =>
      obtain ⟨r, hr, hn⟩ := hc
      exact absurd hn (((C37_strict_iff _).mp ⟨st, hx⟩).1 _ (List.mem_map.mpr ⟨r, hr, rfl⟩))
  exact ⟨key _ (str_reads g hw hfit h0), key _ (pretty_reads g hw hfit h0)⟩

/-- C108.  What `ParseABNF` with `WithRedefineCoreRules(true)` returned, printed with its rules in any order, is read back
as those rules by the same call. -/
theorem C108_parsed (sched : Sched NodeKey) (hf : sched.Fair) (opts : List ABNFOption) (src : Bytes) (g : Grammar)
    (hrc : (processOptions opts).redefineCore = true) (h : parseABNF sched src opts = .ok g) (h0 : g.rules ≠ [])
    (hi : ∀ p ∈ g.rules.flatMap (fun r => altStrings r.alt), p.1 = false) (g' : Grammar) (hp : g'.rules.Perm g.rules)
    (sched' : Sched NodeKey) (hf' : sched'.Fair) :
    parseABNF sched' (utf8 g'.str) opts = .ok g' ∧ parseABNF sched' (utf8 g'.pretty) opts = .ok g' := by
  obtain ⟨h1, h2, h3, h4⟩ := C108_wellformed sched hf opts src g h
  have hsub : ∀ {r}, r ∈ g'.rules → r ∈ g.rules := fun hr => hp.mem_iff.mp hr
  have key := C108_reread g' (fun r hr => h1 r (hsub hr)) (fun hn => h0 (by rw [hn] at hp; exact hp.symm.eq_nil)) ?_ ?_ sched' hf' opts hrc ?_
  · rwa [uncased_of] at key
    intro p hq
    obtain ⟨r, hr, hq⟩ := List.mem_flatMap.mp hq
    exact hi p (List.mem_flatMap.mpr ⟨r, hsub hr, hq⟩)
  · have hp' := hp.map Rule.name
    exact ⟨hp'.nodup_iff.mpr h2.1, hp'.symm.pairwise h2.2 fun h hs => isCore_same (same_symm hs) (h (same_symm hs))⟩
  · intro q hq
    obtain ⟨r, hr, hq⟩ := List.mem_flatMap.mp hq
    exact h3 q (List.mem_flatMap.mpr ⟨r, hsub hr, hq⟩)
  · intro hv q hq
    obtain ⟨r, hr, hq⟩ := List.mem_flatMap.mp hq
    obtain ⟨s1, s2, s3⟩ := h4 hv q (List.mem_flatMap.mpr ⟨r, hsub hr, hq⟩)
    refine ⟨fun n hn => ?_, s2, s3⟩
    obtain ⟨r, hr⟩ := s1 n hn
    cases hr with
    | user hm hs => exact ⟨r, .user (hp.mem_iff.mpr hm) hs⟩
    | core hm hs hu => exact ⟨r, .core hm hs fun u hu' => hu u (hsub hu')⟩

/-- C108.  Parsers see a grammar only through the rules that are found under names. -/
theorem C108_lookup (g g' : Grammar) (h : ∀ n, getRule n g.rules = getRule n g'.rules) (inp : Bytes) (root : Str) (N M : Nat) :
    (∀ sched, parseForest sched inp g root N M = parseForest sched inp g' root N M) ∧
    (∀ sched, parseBSR sched inp g root N M = parseBSR sched inp g' root N M) := by
  constructor <;> intro sched
  · unfold parseForest
    rw [compile_same h]
  · unfold parseBSR
    rw [compile_same h]

/-- C108.  So the order in which the map of rules is iterated does not matter if names are distinct. -/
theorem C108_order (g g' : Grammar) (hd : NamesDistinct g) (hp : g'.rules.Perm g.rules) (inp : Bytes) (root : Str) (N M : Nat) :
    (∀ sched, parseForest sched inp g' root N M = parseForest sched inp g root N M) ∧
    (∀ sched, parseBSR sched inp g' root N M = parseBSR sched inp g root N M) := by
  have hd' : NamesDistinct g' := hp.symm.pairwise hd fun h hs => h (same_symm hs)
  refine C108_lookup g' g (fun n => ?_) inp root N M
  have key : ∀ r, getRule n g'.rules = some r ↔ getRule n g.rules = some r := by
    intro r
    have e : ∀ {g g' : Grammar}, g'.rules.Perm g.rules → Resolves g' n r → Resolves g n r := by
      intro g g' hp h
      cases h with
      | user hm hs => exact .user (hp.mem_iff.mp hm) hs
      | core hm hs hu => exact .core hm hs fun u hu' => hu u (hp.mem_iff.mpr hu')
    exact ⟨fun h => resolves_getRule hd (e hp (getRule_resolves h)), fun h => resolves_getRule hd' (e hp.symm (getRule_resolves h))⟩
  cases h : getRule n g.rules with
  | some r => exact (key r).mpr h
  | none =>
    cases h' : getRule n g'.rules with
    | none => rfl
    | some r => rw [(key r).mp h'] at h; cases h

theorem getRuleIn_covers {mp : List (Rule × Bool)} {n : Str} (hn : ∀ p ∈ mp, ¬ SameName n p.1.name) :
    ∀ {l l' : List Rule}, List.Forall₂ (Covers mp) l l' → getRuleIn n l' = getRuleIn n l
  | _, _, .nil => rfl
  | r :: l, r' :: l', .cons h t => by
    have ih := getRuleIn_covers hn t
    unfold getRuleIn at ih ⊢
    rw [List.find?_cons, List.find?_cons, h.1, ih]
    cases he : equalFold n r.name with
    | false => rfl
    | true =>
      rcases h.2 with rfl | ⟨p, hp, hs⟩
      · rfl
      · exact absurd (same_trans ((equalFold_iff _ _).mp he) hs) (hn p hp)

/-- The rules found with the core rules a text leaves behind are those found with the rules of RFC 5234. -/
theorem own_lookup (sched : Sched NodeKey) (hf : sched.Fair) (opts : List ABNFOption) (src : Bytes) (g : Grammar) (core : List Rule)
    (h : Session.parseABNFWith Core.rules sched src opts = (.ok g, core)) (n : Str) :
    getRule n (g.rules ++ core) = getRule n g.rules := by
  have hg : parseABNF sched src opts = .ok g := by rw [← Session.parse_fresh, h]
  obtain ⟨s, ds, st, rfl, hr, hst, rfl, _⟩ := parseABNF_state sched hf opts src g hg
  have hc : core = st.core := by
    have h1 := C86_core sched hf opts s ds hr
    rw [h] at h1
    have h2 : ∀ (ds : List Def) (a b : EvalSt) (rc : Bool), evalDefsFrom rc a ds = .ok b → Session.defsFrom rc a ds = b := by
      intro ds
      induction ds with
      | nil => intro a b rc h; cases h; rfl
      | cons d ds ih =>
        intro a b rc h
        rw [evalDefsFrom] at h
        rw [Session.defsFrom]
        cases hx : evalDef rc a d with
        | error e => rw [hx] at h; cases h
        | ok y => rw [hx] at h; exact ih y b rc h
    rw [h2 ds _ st _ hst] at h1
    exact h1
  subst hc
  have hk := (evalDefs_kept kept_nil hst).core
  unfold getRule
  cases hx : getRuleIn n (grammarOf st).rules with
  | some r =>
    unfold getRuleIn at hx ⊢
    rw [List.find?_append, hx]
    rfl
  | none =>
    have hn : ∀ p ∈ st.mp, ¬ SameName n p.1.name := by
      intro p hp
      unfold getRuleIn at hx
      rw [List.find?_eq_none] at hx
      rw [← equalFold_iff]
      exact hx p.1 (List.mem_map.mpr ⟨p, hp, rfl⟩)
    have e := getRuleIn_covers hn hk
    unfold getRuleIn at hx e ⊢
    rw [List.find?_append, hx, e]
    cases List.find? (fun r => equalFold n r.name) Core.rules <;> rfl

/-- C108.  A text may change the core rules for later calls, but not for parsers run with its own grammar. -/
theorem C108_own (sched : Sched NodeKey) (hf : sched.Fair) (opts : List ABNFOption) (src : Bytes) (g : Grammar) (core : List Rule)
    (h : Session.parseABNFWith Core.rules sched src opts = (.ok g, core)) (inp : Bytes) (root : Str) (N M : Nat) :
    (∀ sched, parseForest sched inp ⟨g.rules ++ core⟩ root N M = parseForest sched inp g root N M) ∧
    (∀ sched, parseBSR sched inp ⟨g.rules ++ core⟩ root N M = parseBSR sched inp g root N M) := by
  exact C108_lookup _ _ (own_lookup sched hf opts src g core h) inp root N M

/-- The grammar read from a text is the one its definitions give. -/
theorem gives_of_parse {sched : Sched NodeKey} (hf : sched.Fair) {opts : List ABNFOption} {s : Str} {ds : List Def}
    (h : ReadsFile rfc s ds) (hfit : ∀ d ∈ ds, ∀ r ∈ altReps d.alt, Fits r) (hq : Quiet s)
    (hrc : (processOptions opts).redefineCore = true) (hs : Spelled ds) {g : Grammar}
    (hp : parseABNF sched (utf8 s) opts = .ok g) : Gives ds g := by
  obtain ⟨h1, h2⟩ := C104_parse sched hf opts s ds h hfit hq hrc hs
  by_cases ht : InTurn ds
  · obtain ⟨g', h3, _, h4, h5⟩ := h2 ht
    by_cases hv : (processOptions opts).validate = true → Sound g'
    · rw [h4 hv] at hp
      cases hp
      exact h3
    · push Not at hv
      obtain ⟨e, he⟩ := h5 hv.1 hv.2
      rw [he] at hp
      cases hp
  · obtain ⟨e, he⟩ := h1 ht
    rw [he] at hp
    cases hp

/-- C108.  From a text that redefines core rules to the answers of a parser, run after the text has changed the core rules. -/
theorem C108_language (sched : Sched NodeKey) (hf : sched.Fair) (opts : List ABNFOption) (s : Str) (ds : List Def)
    (h : ReadsFile rfc s ds) (hfit : ∀ d ∈ ds, ∀ r ∈ altReps d.alt, Fits r) (hq : Quiet s)
    (hrc : (processOptions opts).redefineCore = true) (hs : Spelled ds) (g : Grammar) (core : List Rule)
    (hg : Session.parseABNFWith Core.rules sched (utf8 s) opts = (.ok g, core)) (hc : CaseConsistent g.strings)
    (inp : Bytes) (root : Str) (N M : Nat) :
    Gives ds g ∧
    (∀ sched' : Sched NodeKey, sched'.Fair → ∀ f, parseForest sched' inp ⟨g.rules ++ core⟩ root N M = .ok f →
      (f.valid = true ↔ DerivesRule g root inp)) ∧
    (∀ sched' : Sched Nat, sched'.Fair → ∀ f, parseBSR sched' inp ⟨g.rules ++ core⟩ root N M = .ok f →
      (f.valid = true ↔ DerivesRule g root inp)) := by
  have hp : parseABNF sched (utf8 s) opts = .ok g := by rw [← Session.parse_fresh, hg]
  have hw := C108_wellformed sched hf opts _ g hp
  have hgive := gives_of_parse hf h hfit hq hrc hs hp
  have hn := numValsWF_of_written hw.1
  have hd := distinctPrint_of_written hw.1 hc
  obtain ⟨k1, k2⟩ := C108_own sched hf opts _ g core hg inp root N M
  refine ⟨hgive, fun sched' hf' f he => ?_, fun sched' hf' f he => ?_⟩
  · rw [k1] at he
    exact C01_exact g hn hgive.distinct hd sched' hf' inp root N M f he
  · rw [k2] at he
    exact C02_exact g hn hgive.distinct hd sched' hf' inp root N M f he

/-- C81.  The parser emitted for a text that redefines core rules, by a call that has let the text change them, accepts
exactly the texts that the rules of the text derive. -/
theorem C81_redefined (sched : Sched NodeKey) (hf : sched.Fair) (opts : List ABNFOption) (s : Str) (ds : List Def)
    (h : ReadsFile rfc s ds) (hfit : ∀ d ∈ ds, ∀ r ∈ altReps d.alt, Fits r) (hq : Quiet s)
    (hrc : (processOptions opts).redefineCore = true) (hs : Spelled ds) (g : Grammar) (core : List Rule)
    (hg : Session.parseABNFWith Core.rules sched (utf8 s) opts = (.ok g, core)) (hc : CaseConsistent g.strings) (root : Str) :
    Gives ds g ∧
    (∀ p, Cg.generate ⟨g.rules ++ core⟩ root = .ok p ↔ generateFromABNF sched (utf8 s) root opts = .ok p) ∧
    ∀ p, Cg.generate ⟨g.rules ++ core⟩ root = .ok p → ∀ sched' : Sched Nat, sched'.Fair → ∀ inp,
      ∃ r F, (∀ fuel, F ≤ fuel → Cg.parse p 0 sched' fuel inp = .result r) ∧ (r.valid p = true ↔ DerivesRule g root inp) := by
  have hp : parseABNF sched (utf8 s) opts = .ok g := by rw [← Session.parse_fresh, hg]
  have hw := C108_wellformed sched hf opts _ g hp
  have hgive := gives_of_parse hf h hfit hq hrc hs hp
  have he : Cg.generate ⟨g.rules ++ core⟩ root = Cg.generate g root := by
    unfold Cg.generate
    rw [compile_same (own_lookup sched hf opts _ g core hg)]
  refine ⟨hgive, fun p => ?_, fun p hgen sched' hf' inp => ?_⟩
  · rw [he, generateFrom_ok]
    refine ⟨fun h => ⟨g, hp, h⟩, ?_⟩
    rintro ⟨g', h1, h2⟩
    rw [hp] at h1
    cases h1
    exact h2
  · rw [he] at hgen
    exact C45_language_partial _ (numValsWF_of_written hw.1) hgive.distinct (distinctPrint_of_written hw.1 hc) root p hgen sched' hf' inp

/-- The grammar of `coreText`: `ALPHA` with four alternatives and `DIGIT` with one. -/
def coreGrammar : Grammar :=
  ⟨[⟨str% "ALPHA", (Core.rules.find? (fun r => r.name = str% "ALPHA")).elim [] Rule.alt ++ [[Ex.one (Ex.lit (str% "-"))], [Ex.one (Ex.lit (str% "+"))]]⟩,
    ⟨str% "DIGIT", [[Ex.one (Ex.lit (str% "0"))]]⟩]⟩

theorem core_parses (sched : Sched NodeKey) (hf : sched.Fair) : parseABNF sched (utf8 coreText) [.withRedefineCoreRules true] = .ok coreGrammar := by
  rw [parseABNF_reads sched hf _ coreText coreDefs (file_code coreText_reads (by unfold Fits; decide) (quiet_of (by decide)))]
  rfl

/-- C108_wellformed, C108_reread and C108_parsed: this grammar redefines core rules, has no `%s`, and is sound. -/
example (sched : Sched NodeKey) (hf : sched.Fair) : parseABNF sched (utf8 coreText) [.withRedefineCoreRules true] = .ok coreGrammar ∧
    (processOptions [.withRedefineCoreRules true]).redefineCore = true ∧ coreGrammar.rules ≠ [] ∧ Apart (coreGrammar.rules.map Rule.name) ∧
    (∀ p ∈ coreGrammar.rules.flatMap (fun r => altStrings r.alt), p.1 = false) ∧ (∃ r ∈ coreGrammar.rules, IsCoreName r.name) ∧
    (processOptions []).redefineCore = false ∧ NamesDistinct coreGrammar :=
  ⟨core_parses sched hf, rfl, by decide +kernel, (C108_wellformed sched hf _ _ _ (core_parses sched hf)).2.1, by decide +kernel,
    ⟨_, List.mem_cons_self, _, List.mem_cons_self, (sameName_iff _ _).mpr rfl⟩, rfl, namesDistinct_of (by decide +kernel)⟩

/-- Names that differ in case only: `ALPHA = "a"` and `alpha = "b"` are two rules, and both are read back. -/
example : Apart [str% "ALPHA", str% "alpha"] ∧ ¬ NamesDistinct ⟨[⟨str% "ALPHA", []⟩, ⟨str% "alpha", []⟩]⟩ := by
  refine ⟨⟨by decide, ?_⟩, fun h => ?_⟩
  · rw [List.pairwise_pair]
    exact fun _ => ⟨_, List.mem_cons_self, (sameName_iff _ _).mpr rfl⟩
  · have := (List.pairwise_pair.mp h : ¬ SameName _ _)
    exact this ((sameName_iff _ _).mpr (by decide +kernel))

/-- C81_redefined: a parser is emitted for `ALPHA` of this text. -/
example (sched : Sched NodeKey) (hf : sched.Fair) :
    ∃ p, generateFromABNF sched (utf8 coreText) (str% "ALPHA") [.withRedefineCoreRules true] = .ok p := by
  refine (C81_generates sched _ _ _).mpr ⟨_, core_parses sched hf, ?_⟩
  have h : (match compileSlots coreGrammar (str% "ALPHA") 65536 with | .ok _ => true | .error _ => false) = true := by decide +kernel
  cases hc : compileSlots coreGrammar (str% "ALPHA") 65536 with
  | ok sg => exact ⟨sg, rfl⟩
  | error e => rw [hc] at h; cases h

/-- C108_own and C108_language: the call changes the core rules. -/
example (sched : Sched NodeKey) (hf : sched.Fair) : ∃ core, core ≠ Core.rules ∧
    Session.parseABNFWith Core.rules sched (utf8 coreText) [.withRedefineCoreRules true] = (.ok coreGrammar, core) ∧
    CaseConsistent coreGrammar.strings := by
  have hr := file_code coreText_reads (by unfold Fits; decide) (quiet_of (by decide))
  refine ⟨(Session.parseABNFWith Core.rules sched (utf8 coreText) [.withRedefineCoreRules true]).2, ?_, ?_, by unfold CaseConsistent; decide +kernel⟩
  · rw [C86_core sched hf _ coreText coreDefs hr]
    decide +kernel
  · rw [← core_parses sched hf, ← Session.parse_fresh]

end Props
end Verif
