import Verif.FuzzAll
import Verif.AstCap

/-!
# C125: every text of a rule can be generated over the AST

For every derivation there are answers of the source that lead `ASTGenerator` (/repo/ast.go:168-284) along it, as long as the
options allow its depth, its length and its repetitions.
-/

namespace Verif

open Spec

/-- A part of the generator: the costs, the bound on the nesting of rules and the depth are the numbers. -/
def AstPart : Type 1 := ∀ σ : Type, Source σ → AstOpts → CostMap → Nat → Nat → AstSt σ → Run (AstSt σ)

/-- With `MaxRepeat` = `R` and a depth of more than `L` there are answers that make the part write `w`. -/
def AstMakes (R : Nat) (w : Bytes) (part : AstPart) (L : Nat) : Prop :=
  ∀ o : AstOpts, o.maxRepeat = R → ∃ ds, FitIn (2 ^ 62) ds ∧
    ∀ (σ : Type) (S : Source σ) (m : CostMap) (k depth : Nat) (st : AstSt σ) (s' : σ), Draws S st.src ds s' → L ≤ k →
      (depth : Int) + L < o.maxDepth → (st.out.length : Int) + w.length < o.maxLen →
      part σ S o m k depth st = .ok ⟨s', st.out ++ w⟩

theorem AstMakes.seq {R : Nat} {u v : Bytes} {p q : AstPart} {L L' : Nat} (h : AstMakes R u p L) (h' : AstMakes R v q L') :
    AstMakes R (u ++ v) (fun σ S o m k depth st => (p σ S o m k depth st).bnd fun st => q σ S o m k depth st) (max L L') := by
  intro o h1
  obtain ⟨ds, hf, hd⟩ := h o h1
  obtain ⟨ds', hf', hd'⟩ := h' o h1
  refine ⟨ds ++ ds', fun p hp => (List.mem_append.mp hp).elim (hf p) (hf' p), fun σ S m k depth st s' hds hk hdep hlen => ?_⟩
  obtain ⟨t, h3, h4⟩ := Draws.append_inv _ _ hds
  rw [List.length_append] at hlen
  push_cast at hlen
  have e1 := hd σ S m k depth st t h3 (by omega) (by omega) (by omega)
  have e2 := hd' σ S m k depth ⟨t, st.out ++ u⟩ s' h4 (by omega) (by omega) (by
    simp only [List.length_append]; push_cast; omega)
  simp only [e1, Run.bnd, e2, List.append_assoc]

theorem notOver {o : AstOpts} {σ : Type} {st : AstSt σ} {depth : Nat} (h : (depth : Int) < o.maxDepth) (h' : (st.out.length : Int) < o.maxLen) :
    astOver o st depth = false := by
  unfold astOver
  rw [Bool.or_eq_false_iff, decide_eq_false_iff_not, decide_eq_false_iff_not]
  omega

/-! ## Terminals -/

theorem sameLetter_flip {c d : Char} (h : SameLetter c d) : c = d ∨ (isLetter c = true ∧ d = flipCase c) := by
  have h1 : 'A'.toNat = 65 := rfl
  have h2 : 'Z'.toNat = 90 := rfl
  have h3 : 'a'.toNat = 97 := rfl
  have h4 : 'z'.toNat = 122 := rfl
  have le : ∀ a b : Char, a ≤ b ↔ a.toNat ≤ b.toNat := fun a b => Iff.rfl
  rcases h with rfl | ⟨ha, hb, hc⟩ | ⟨ha, hb, hc⟩
  · exact .inl rfl
  · right
    refine ⟨by unfold isLetter; exact decide_eq_true (.inr ⟨ha, hb⟩), ?_⟩
    rw [le, h1] at ha
    rw [le, h2] at hb
    unfold flipCase
    rw [if_neg (by rw [le, le]; omega), if_pos (by rw [le, le]; omega), ← hc, Char.ofNat_toNat]
  · right
    refine ⟨by unfold isLetter; exact decide_eq_true (.inl ⟨ha, hb⟩), ?_⟩
    rw [le, h3] at ha
    rw [le, h4] at hb
    unfold flipCase
    rw [if_pos (by rw [le, le]; omega), ← hc, Nat.add_sub_cancel, Char.ofNat_toNat]

theorem chars_makes (sensitive : Bool) {vs ws : List Char} (h : List.Forall₂ (fun c d => if sensitive then c = d else SameLetter c d) vs ws) :
    ∃ ds, FitIn (2 ^ 62) ds ∧ ∀ (σ : Type) (S : Source σ) (st : AstSt σ) (s' : σ), Draws S st.src ds s' →
      astChars S sensitive vs st = ⟨s', st.out ++ utf8 ws⟩ := by
  induction h with
  | nil =>
    refine ⟨[], (fun p hp => by cases hp), fun σ S st s' hd => ?_⟩
    cases hd
    simp [astChars, utf8]
  | @cons c d vs ws hcd _ ih =>
    obtain ⟨ds, hf, hd⟩ := ih
    by_cases hs : (!sensitive && isLetter c) = true
    · have hsen : sensitive = false := by cases sensitive <;> simp_all
      subst hsen
      obtain ⟨b, hb, hbd⟩ : ∃ b, b < 2 ∧ (if b = 1 then flipCase c else c) = d := by
        rcases sameLetter_flip (by simpa using hcd) with rfl | ⟨_, rfl⟩
        · exact ⟨0, by omega, rfl⟩
        · exact ⟨1, by omega, rfl⟩
      refine ⟨(2, b) :: ds, ?_, fun σ S st s' hds => ?_⟩
      · intro p hp
        rcases List.mem_cons.mp hp with rfl | hp
        · exact ⟨hb, by norm_num⟩
        · exact hf p hp
      · cases hds with
        | cons _ _ _ _ _ h1 h2 =>
          unfold astChars
          rw [if_pos hs]
          simp only
          rw [h1, hbd]
          rw [hd σ S _ s' (by exact h2), AstSt.emit, encode_rune, runeChar_char, List.append_assoc, ← utf8_append]
          rfl
    · refine ⟨ds, hf, fun σ S st s' hds => ?_⟩
      have : c = d := by
        cases sensitive with
        | true => simpa using hcd
        | false =>
          rcases sameLetter_flip (by simpa using hcd) with h | ⟨h, _⟩
          · exact h
          · exact absurd (by simp [h]) hs
      subst this
      unfold astChars
      rw [if_neg hs, hd σ S _ s' (by exact hds), AstSt.emit, encode_rune, runeChar_char, List.append_assoc, ← utf8_append]
      rfl

theorem series_makes {b : Str} {es : List Str} {cs : List Char} (h : List.Forall₂ (fun s c => Denotes b s (Char.toNat c)) es cs) :
    ∀ (σ : Type) (st : AstSt σ), astSeries b es st = ⟨st.src, st.out ++ utf8 cs⟩ := by
  induction h with
  | nil => intro σ st; simp [astSeries, utf8]
  | @cons s c es cs hsc _ ih =>
    intro σ st
    have hr : numvalToRune s b = c.toNat := by
      rw [numvalToRune_denotes hsc]; unfold maxInt32; have := char_valid c; omega
    unfold astSeries
    simp only
    rw [hr, if_pos (validRune_char c), ih, AstSt.emit, encode_rune, runeChar_char, List.append_assoc, ← utf8_append]
    rfl

theorem term_makes {e : Elem} {cs : List Char} (h : Terminal e cs) (g : Grammar) (R : Nat) :
    AstMakes R (utf8 cs) (fun _ S o m k depth st => astElem S o g.rules m (astRule S o g.rules m k) e depth st) 0 := by
  intro o _
  cases h with
  | sensitive =>
    obtain ⟨ds, hf, hd⟩ := chars_makes true (vs := cs) (ws := cs) (List.forall₂_same.mpr fun _ _ => rfl)
    exact ⟨ds, hf, fun σ S m k depth st s' hds _ _ _ => by simp only [astElem]; rw [hd σ S st s' hds]⟩
  | insensitive vs _ h =>
    obtain ⟨ds, hf, hd⟩ := chars_makes false (vs := vs) (ws := cs) (by simpa using h)
    exact ⟨ds, hf, fun σ S m k depth st s' hds _ _ _ => by simp only [astElem]; rw [hd σ S st s' hds]⟩
  | series b es _ h =>
    refine ⟨[], (fun p hp => by cases hp), fun σ S m k depth st s' hds _ _ _ => ?_⟩
    cases hds
    simp only [astElem]
    rw [series_makes h]
  | range b s t lo hi c h1 h2 h3 h4 =>
    have hc : c.toNat ≤ maxRune := by have := char_valid c; simp only [maxRune]; omega
    have e1 : numvalToRune s b = lo := by rw [numvalToRune_denotes h1]; unfold maxInt32; simp only [maxRune] at hc; omega
    have e2 : c.toNat ≤ min (numvalToRune t b) maxRune := by
      rw [numvalToRune_denotes h2]; unfold maxInt32; simp only [maxRune] at hc ⊢; omega
    have hn : ¬ (lo > maxRune ∨ lo > min (numvalToRune t b) maxRune) := by omega
    refine ⟨[(min (numvalToRune t b) maxRune - lo + 1, c.toNat - lo)], ?_, fun σ S m k depth st s' hds _ _ _ => ?_⟩
    · intro p hp
      rw [List.mem_singleton.mp hp]
      refine ⟨by simp only; omega, ?_⟩
      simp only [maxRune]
      omega
    · cases hds with
      | cons _ _ _ _ _ h5 h6 =>
        cases h6
        simp only [astElem, astRange, List.getD_cons_zero, List.getD_cons_succ]
        rw [e1, if_neg hn, h5, AstSt.emit, encode_rune, Nat.add_sub_cancel' h3, runeChar_char]

/-! ## Derivations -/

/-- The bounds and the alternatives of a repetition are small enough for the draws not to wrap. -/
def FewRep (q : Rep) : Prop :=
  q.min < 2 ^ 62 ∧ (∀ u, q.max = some u → u < 2 ^ 62) ∧ ∀ a, q.elem = .group a ∨ q.elem = .option a → a.length ≤ 2 ^ 62

@[inherit_doc FewRep]
def FewElem (e : Elem) : Prop := (∀ q ∈ elemReps e, FewRep q) ∧ ∀ a, e = .group a ∨ e = .option a → a.length ≤ 2 ^ 62

@[inherit_doc FewRep]
def FewAlt (a : Alt) : Prop := a.length ≤ 2 ^ 62 ∧ ∀ q ∈ altReps a, FewRep q

theorem altReps_concat {a : Alt} {c : Concat} (hc : c ∈ a) : ∀ q ∈ concatReps c, q ∈ altReps a := by
  induction a with
  | nil => cases hc
  | cons d a ih =>
    intro q hq
    rw [altReps]
    rcases List.mem_cons.mp hc with rfl | hc
    · exact List.mem_append_left _ hq
    · exact List.mem_append_right _ (ih hc q hq)

theorem astPick_get {σ : Type} {S : Source σ} {o : AstOpts} {rs : List Rule} {m : CostMap} {rec : Str → Nat → AstSt σ → Run (AstSt σ)}
    {a : Alt} {c : Concat} : ∀ {j : Nat}, a[j]? = some c → ∀ depth st, astPick S o rs m rec a j depth st = astReps S o rs m rec c depth st := by
  induction a with
  | nil => intro j h; cases h
  | cons d a ih =>
    intro j h depth st
    cases j with
    | zero => cases h; rw [astPick]
    | succ j => rw [astPick]; exact ih h depth st

/-- The part that generates an alternation. -/
def altPart (g : Grammar) (a : Alt) : AstPart := fun _ S o m k depth st => astAlt S o g.rules m (astRule S o g.rules m k) a depth st

/-- The part that generates a concatenation. -/
def concatPart (g : Grammar) (c : Concat) : AstPart := fun _ S o m k depth st => astReps S o g.rules m (astRule S o g.rules m k) c depth st

/-- The part that generates an element. -/
def elemPart (g : Grammar) (e : Elem) : AstPart := fun _ S o m k depth st => astElem S o g.rules m (astRule S o g.rules m k) e depth st

/-- The part that generates an element `n` times. -/
def loopPart (g : Grammar) (e : Elem) (lo n i : Nat) : AstPart := fun _ S o m k depth st =>
  astLoop o (fun st => astElem S o g.rules m (astRule S o g.rules m k) e depth st) lo n i st

theorem alt_makes {R : Nat} {g : Grammar} {a : Alt} {c : Concat} {w : Bytes} {L : Nat} (hc : c ∈ a) (hlen : a.length ≤ 2 ^ 62)
    (h : AstMakes R w (concatPart g c) L) : AstMakes R w (altPart g a) L := by
  intro o h1
  obtain ⟨ds, hf, hd⟩ := h o h1
  obtain ⟨j, hj, e⟩ := List.mem_iff_getElem.mp hc
  have hget : a[j]? = some c := by rw [List.getElem?_eq_getElem hj, e]
  have hne : a.isEmpty = false := by cases a with | nil => cases hc | cons => rfl
  by_cases hone : a.length > 1
  · refine ⟨(a.length, j) :: ds, ?_, fun σ S m k depth st s' hds hk hdep hl => ?_⟩
    · intro p hp
      rcases List.mem_cons.mp hp with rfl | hp
      · exact ⟨hj, hlen⟩
      · exact hf p hp
    · cases hds with
      | cons _ _ _ _ _ h3 h4 =>
        have hov : astOver o st depth = false := notOver (by omega) (by omega)
        have hi : astIdx S o g.rules m a depth st = (j, { st with src := (S.intn st.src a.length).2 }) := by
          unfold astIdx
          rw [hov]
          simp only [Bool.false_eq_true, if_false]
          rw [if_pos hone, h3]
        unfold altPart astAlt
        simp only [hne, Bool.false_eq_true, if_false, hi]
        rw [astPick_get hget]
        exact hd σ S m k depth _ s' h4 hk hdep hl
  · refine ⟨ds, hf, fun σ S m k depth st s' hds hk hdep hl => ?_⟩
    have hov : astOver o st depth = false := notOver (by omega) (by omega)
    obtain rfl : j = 0 := by omega
    have hi : astIdx S o g.rules m a depth st = (0, st) := by
      unfold astIdx
      rw [hov]
      simp only [Bool.false_eq_true, if_false]
      rw [if_neg hone]
    unfold altPart astAlt
    simp only [hne, Bool.false_eq_true, if_false, hi]
    rw [astPick_get hget]
    exact hd σ S m k depth _ s' hds hk hdep hl

theorem opt_makes {R : Nat} {g : Grammar} {a : Alt} {w : Bytes} {L : Nat} (h : AstMakes R w (altPart g a) L) : AstMakes R w (elemPart g (.option a)) L := by
  intro o h1
  obtain ⟨ds, hf, hd⟩ := h o h1
  refine ⟨(2, 1) :: ds, ?_, fun σ S m k depth st s' hds hk hdep hl => ?_⟩
  · intro p hp
    rcases List.mem_cons.mp hp with rfl | hp
    · exact ⟨by norm_num, by norm_num⟩
    · exact hf p hp
  · cases hds with
    | cons _ _ _ _ _ h3 h4 =>
      have hov : astOver o st depth = false := notOver (by omega) (by omega)
      unfold elemPart
      rw [astElem]
      simp only [hov, Bool.false_eq_true, if_false, h3, if_true]
      exact hd σ S m k depth { st with src := (S.intn st.src 2).2 } s' h4 hk hdep hl

theorem optNone_makes (g : Grammar) (a : Alt) (R : Nat) : AstMakes R [] (elemPart g (.option a)) 0 := by
  intro o h1
  refine ⟨[(2, 0)], ?_, fun σ S m k depth st s' hds hk hdep hl => ?_⟩
  · intro p hp
    rw [List.mem_singleton.mp hp]
    exact ⟨by norm_num, by norm_num⟩
  · cases hds with
    | cons _ _ _ _ _ h3 h4 =>
      cases h4
      have hov : astOver o st depth = false := notOver (by omega) (by simpa using hl)
      unfold elemPart
      rw [astElem]
      simp only [hov, Bool.false_eq_true, if_false, h3, zero_ne_one, List.append_nil]

theorem loop_makes {R : Nat} {g : Grammar} {e : Elem} {n : Nat} {u v : Bytes} {L L' lo i : Nat} (h : AstMakes R u (elemPart g e) L)
    (h' : AstMakes R v (loopPart g e lo n (i + 1)) L') : AstMakes R (u ++ v) (loopPart g e lo (n + 1) i) (max L L') := by
  intro o h1
  obtain ⟨ds, hf, hd⟩ := h o h1
  obtain ⟨ds', hf', hd'⟩ := h' o h1
  refine ⟨ds ++ ds', fun p hp => (List.mem_append.mp hp).elim (hf p) (hf' p), fun σ S m k depth st s' hds hk hdep hlen => ?_⟩
  obtain ⟨t, h3, h4⟩ := Draws.append_inv _ _ hds
  rw [List.length_append] at hlen
  push_cast at hlen
  have e1 : astElem S o g.rules m (astRule S o g.rules m k) e depth st = _ := hd σ S m k depth st t h3 (by omega) (by omega) (by omega)
  have e2 : astLoop o (fun st => astElem S o g.rules m (astRule S o g.rules m k) e depth st) lo n (i + 1) ⟨t, st.out ++ u⟩ = _ :=
    hd' σ S m k depth ⟨t, st.out ++ u⟩ s' h4 (by omega) (by omega) (by simp only [List.length_append]; push_cast; omega)
  unfold loopPart
  rw [astLoop, e1]
  simp only [Run.bnd]
  rw [if_neg (by simp only [List.length_append]; push_cast; omega), e2, List.append_assoc]

/-- The part that generates a repetition. -/
def repPart (g : Grammar) (q : Rep) : AstPart := fun _ S o m k depth st =>
  astLoop o (fun st => astElem S o g.rules m (astRule S o g.rules m k) q.elem depth st) q.min (astCount S o q.min q.max depth st).1 0
    (astCount S o q.min q.max depth st).2

/-- The number of repetitions when nothing wraps. -/
theorem astCount_eq {σ : Type} (S : Source σ) (o : AstOpts) {mn hi : Nat} {mx : Option Nat} (h : ∀ u, mx = some u → mn ≤ u ∧ hi = u)
    (h' : mx = none → (hi : Int) = mn + o.maxRepeat ∧ hi < 2 ^ 63) (depth : Nat) (st : AstSt σ) :
    astCount S o mn mx depth st = if !astOver o st depth && decide ((hi : Int) > mn) && decide (0 < wrap64 ((hi : Int) - mn + 1)) then
      (mn + (S.intn st.src (wrap64 ((hi : Int) - mn + 1)).toNat).1, { st with src := (S.intn st.src (wrap64 ((hi : Int) - mn + 1)).toNat).2 })
      else (mn, st) := by
  cases mx with
  | none =>
    obtain ⟨e1, e2⟩ := h' rfl
    unfold astCount
    simp only
    rw [← e1, wrap64_eq (by omega) (by omega)]
  | some u =>
    obtain ⟨e1, rfl⟩ := h u rfl
    unfold astCount
    simp only
    have e : (if hi < mn then wrap64 (mn + o.maxRepeat) else (hi : Int)) = hi := if_neg (by omega)
    simp only [e]

theorem rep_makes {R : Nat} {g : Grammar} {mn : Nat} {mx : Option Nat} {e : Elem} {n : Nat} {w : Bytes} {L : Nat} (hR : R < 2 ^ 62)
    (h1 : mn ≤ n) (h2 : n ≤ mx.getD (mn + R)) (hmin : mn < 2 ^ 62) (hfew : ∀ u, mx = some u → u < 2 ^ 62)
    (h : AstMakes R w (loopPart g e mn n 0) L) : AstMakes R w (repPart g ⟨mn, mx, e⟩) L := by
  intro o ho1
  obtain ⟨ds, hf, hd⟩ := h o ho1
  -- the number of times that can be drawn
  obtain ⟨hi, hhi, hhi', hn, hsmall⟩ : ∃ hi : Nat, (∀ u, mx = some u → mn ≤ u ∧ hi = u) ∧
      (mx = none → (hi : Int) = mn + o.maxRepeat ∧ hi < 2 ^ 63) ∧ n ≤ hi ∧ hi - mn < 2 ^ 62 := by
    cases mx with
    | none => exact ⟨mn + R, (fun u h => by cases h), fun _ => ⟨by rw [ho1]; omega, by omega⟩, h2, by omega⟩
    | some u =>
      have h3 : n ≤ u := h2
      have h4 := hfew u rfl
      exact ⟨u, (fun v h => by cases h; exact ⟨by omega, rfl⟩), (fun h => by cases h), h3, by omega⟩
  by_cases hgt : mn < hi
  · have hw : wrap64 ((hi : Int) - mn + 1) = ((hi - mn + 1 : Nat) : Int) := by rw [wrap64_eq (by omega) (by omega)]; omega
    refine ⟨(hi - mn + 1, n - mn) :: ds, ?_, fun σ S m k depth st s' hds hk hdep hl => ?_⟩
    · intro p hp
      rcases List.mem_cons.mp hp with rfl | hp
      · exact ⟨by simp only; omega, by simp only; omega⟩
      · exact hf p hp
    · cases hds with
      | cons _ _ _ _ _ h3 h4 =>
        have hov : astOver o st depth = false := notOver (by omega) (by omega)
        have hc : astCount S o mn mx depth st = (n, { st with src := (S.intn st.src (hi - mn + 1)).2 }) := by
          rw [astCount_eq S o hhi hhi', hov, hw]
          simp only [Int.toNat_natCast, Bool.not_false, Bool.true_and, Bool.and_eq_true, decide_eq_true_eq]
          rw [if_pos ⟨by omega, by omega⟩, h3, Nat.add_sub_cancel' h1]
        show astLoop o _ mn (astCount S o mn mx depth st).1 0 (astCount S o mn mx depth st).2 = _
        rw [hc]
        exact hd σ S m k depth { st with src := (S.intn st.src (hi - mn + 1)).2 } s' h4 (by omega) (by omega) hl
  · obtain rfl : n = mn := by omega
    refine ⟨ds, hf, fun σ S m k depth st s' hds hk hdep hl => ?_⟩
    have hc : astCount S o n mx depth st = (n, st) := by
      rw [astCount_eq S o hhi hhi', if_neg]
      simp only [Bool.and_eq_true, decide_eq_true_eq]
      omega
    show astLoop o _ n (astCount S o n mx depth st).1 0 (astCount S o n mx depth st).2 = _
    rw [hc]
    exact hd σ S m k depth st s' hds (by omega) (by omega) hl

theorem rule_makes {R : Nat} {g : Grammar} (hd : NamesDistinct g) {n : Str} {r : Rule} {w : Bytes} {L : Nat} (hr : Resolves g n r)
    (h : AstMakes R w (altPart g r.alt) L) : AstMakes R w (elemPart g (.rulename n)) (L + 1) := by
  intro o h1
  obtain ⟨ds, hf, hdr⟩ := h o h1
  refine ⟨ds, hf, fun σ S m k depth st s' hds hk hdep hl => ?_⟩
  obtain ⟨k, rfl⟩ : ∃ k', k = k' + 1 := ⟨k - 1, by omega⟩
  unfold elemPart
  rw [astElem, astRule, (getRule_iff hd).mpr hr]
  exact hdr σ S m k (depth + 1) st s' hds (by omega) (by omega) hl

/-- For every derivation there is a depth from which on there are answers that make the generator follow it. -/
theorem capped_makes {g : Grammar} (hd : NamesDistinct g) (hfew : ∀ r ∈ g.rules ++ Core.rules, FewAlt r.alt) {R : Nat} (hR : R < 2 ^ 62)
    {e' : Elem} {w : Bytes} (h : Derives (capped R g) e' w) : ∀ e, e' = capElem R e → FewElem e → ∃ L, AstMakes R w (elemPart g e) L := by
  refine Derives.rec (motive_1 := fun e' w _ => ∀ e, e' = capElem R e → FewElem e → ∃ L, AstMakes R w (elemPart g e) L)
    (motive_2 := fun a' w _ => ∀ a, a' = capAlt R a → FewAlt a → ∃ L, AstMakes R w (altPart g a) L)
    (motive_3 := fun c' w _ => ∀ c, c' = capConcat R c → (∀ q ∈ concatReps c, FewRep q) → ∃ L, AstMakes R w (concatPart g c) L)
    (motive_4 := fun q' w _ => ∀ mn mx e, q' = ⟨mn, some (mx.getD (mn + R)), capElem R e⟩ → (∀ q' ∈ repReps ⟨mn, mx, e⟩, FewRep q') →
      ∃ L, AstMakes R w (repPart g ⟨mn, mx, e⟩) L)
    (motive_5 := fun e' n w _ => ∀ e, e' = capElem R e → FewElem e → ∃ L, ∀ lo i, AstMakes R w (loopPart g e lo n i) L) ?_ ?_ ?_ ?_ ?_ ?_ ?_ ?_ ?_ ?_ ?_ h
  · intro n r' w hr' _ ih e he _
    obtain ⟨r, hr, rfl⟩ := resolves_capped hr'
    cases e <;> simp only [capElem, Elem.rulename.injEq, reduceCtorEq] at he
    subst he
    obtain ⟨L, hL⟩ := ih r.alt rfl (hfew r (List.mem_append.mpr (by cases hr with
      | user h1 _ => exact .inl h1
      | core h1 _ _ => exact .inr h1)))
    exact ⟨L + 1, rule_makes hd hr hL⟩
  · intro a' w _ ih e he hf
    cases e <;> simp only [capElem, Elem.group.injEq, reduceCtorEq] at he
    rename_i a
    obtain ⟨L, hL⟩ := ih a he ⟨hf.2 a (.inl rfl), fun q hq => hf.1 q (by rw [elemReps]; exact hq)⟩
    refine ⟨L, fun o h1 => ?_⟩
    obtain ⟨ds, hfi, hdd⟩ := hL o h1
    refine ⟨ds, hfi, fun σ S m k depth st s' hds hk hdep hl => ?_⟩
    have := hdd σ S m k depth st s' hds hk hdep hl
    unfold elemPart
    rw [astElem]
    exact this
  · intro a' e he _
    cases e <;> simp only [capElem, Elem.option.injEq, reduceCtorEq] at he
    exact ⟨0, optNone_makes g _ R⟩
  · intro a' w _ ih e he hf
    cases e <;> simp only [capElem, Elem.option.injEq, reduceCtorEq] at he
    rename_i a
    obtain ⟨L, hL⟩ := ih a he ⟨hf.2 a (.inr rfl), fun q hq => hf.1 q (by rw [elemReps]; exact hq)⟩
    exact ⟨L, opt_makes hL⟩
  · intro e' cs ht e he _
    have : e' = e := by
      cases e with
      | rulename n => rw [capElem] at he; subst he; cases ht
      | group a => rw [capElem] at he; subst he; cases ht
      | option a => rw [capElem] at he; subst he; cases ht
      | charVal s vs => rw [capElem] at he; exact he
      | numVal b s es => rw [capElem] at he; exact he
      | proseVal v => rw [capElem] at he; exact he
    subst this
    exact ⟨0, term_makes ht g R⟩
  · intro a' c' w hc _ ih a ha hf
    subst ha
    obtain ⟨c, h1, h2⟩ := mem_capAlt hc
    obtain ⟨L, hL⟩ := ih c h2 fun q hq => hf.2 q (altReps_concat h1 q hq)
    exact ⟨L, alt_makes h1 hf.1 hL⟩
  · intro c hc _
    cases c with
    | cons q c => obtain ⟨mn, mx, e⟩ := q; rw [capConcat] at hc; cases hc
    | nil =>
      refine ⟨0, fun o _ => ⟨[], (fun p hp => by cases hp), fun σ S m k depth st s' hds _ _ _ => ?_⟩⟩
      cases hds
      unfold concatPart
      rw [astReps, List.append_nil]
  · intro q' c' u v _ _ ih1 ih2 c hc hf
    cases c with
    | nil => rw [capConcat] at hc; cases hc
    | cons q c =>
      obtain ⟨mn, mx, e⟩ := q
      rw [capConcat] at hc
      obtain ⟨e1, e2⟩ := List.cons.inj hc
      obtain ⟨L, hL⟩ := ih1 mn mx e e1 fun q' hq => hf q' (by rw [concatReps]; exact List.mem_append_left _ hq)
      obtain ⟨L', hL'⟩ := ih2 c e2 fun q' hq => hf q' (by rw [concatReps]; exact List.mem_append_right _ hq)
      refine ⟨max L L', fun o h1 => ?_⟩
      obtain ⟨ds, hfi, hdd⟩ := hL.seq hL' o h1
      refine ⟨ds, hfi, fun σ S m k depth st s' hds hk hdep hl => ?_⟩
      have := hdd σ S m k depth st s' hds hk hdep hl
      unfold concatPart
      rw [astReps]
      exact this
  · intro mn' mx' e' n w h1 h2 _ ih mn mx e he hf
    obtain ⟨rfl, rfl, rfl⟩ := Rep.mk.inj he
    have hq := hf ⟨mn', mx, e⟩ (by rw [repReps]; exact List.mem_cons_self ..)
    obtain ⟨L, hL⟩ := ih e rfl ⟨fun q hq => hf q (by rw [repReps]; exact List.mem_cons_of_mem _ hq), hq.2.2⟩
    exact ⟨L, rep_makes hR h1 (h2 _ rfl) hq.1 hq.2.1 (hL mn' 0)⟩
  · intro e' e _ _
    refine ⟨0, fun lo i o _ => ⟨[], (fun p hp => by cases hp), fun σ S m k depth st s' hds _ _ _ => ?_⟩⟩
    cases hds
    unfold loopPart
    rw [astLoop, List.append_nil]
  · intro e' n u v _ _ ih1 ih2 e he hf
    obtain ⟨L, hL⟩ := ih1 e he hf
    obtain ⟨L', hL'⟩ := ih2 e he hf
    exact ⟨max L L', fun lo i => loop_makes hL (hL' lo (i + 1))⟩

/-- A derivation does not need repetitions without end. -/
theorem derives_capped {g : Grammar} {e : Elem} {w : Bytes} (h : Derives g e w) : ∃ N, ∀ R, N ≤ R → Derives (capped R g) (capElem R e) w := by
  have hmem : ∀ (R : Nat) (a : Alt) (c : Concat), c ∈ a → capConcat R c ∈ capAlt R a := by
    intro R a c hc
    induction a with
    | nil => cases hc
    | cons d a ih =>
      rw [capAlt]
      rcases List.mem_cons.mp hc with rfl | hc
      · exact List.mem_cons_self ..
      · exact List.mem_cons_of_mem _ (ih hc)
  refine Derives.rec (motive_1 := fun e w _ => ∃ N, ∀ R, N ≤ R → Derives (capped R g) (capElem R e) w)
    (motive_2 := fun a w _ => ∃ N, ∀ R, N ≤ R → DerivesAlt (capped R g) (capAlt R a) w)
    (motive_3 := fun c w _ => ∃ N, ∀ R, N ≤ R → DerivesConcat (capped R g) (capConcat R c) w)
    (motive_4 := fun q w _ => ∃ N, ∀ R, N ≤ R → DerivesRep (capped R g) ⟨q.min, some (q.max.getD (q.min + R)), capElem R q.elem⟩ w)
    (motive_5 := fun e n w _ => ∃ N, ∀ R, N ≤ R → DerivesTimes (capped R g) (capElem R e) n w) ?_ ?_ ?_ ?_ ?_ ?_ ?_ ?_ ?_ ?_ ?_ h
  · rintro n r w hr _ ⟨N, hN⟩
    refine ⟨N, fun R hR => ?_⟩
    rw [capElem]
    exact .rule _ (capRule R r) _ (capped_resolves hr) (hN R hR)
  · rintro a w _ ⟨N, hN⟩
    refine ⟨N, fun R hR => ?_⟩
    rw [capElem]
    exact .group _ _ (hN R hR)
  · intro a
    refine ⟨0, fun R _ => ?_⟩
    rw [capElem]
    exact .optNone _
  · rintro a w _ ⟨N, hN⟩
    refine ⟨N, fun R hR => ?_⟩
    rw [capElem]
    exact .optSome _ _ (hN R hR)
  · intro e cs ht
    refine ⟨0, fun R _ => ?_⟩
    have : capElem R e = e := by cases ht <;> rw [capElem]
    rw [this]
    exact .term _ _ ht
  · rintro a c w hc _ ⟨N, hN⟩
    exact ⟨N, fun R hR => .mk _ _ _ (hmem R a c hc) (hN R hR)⟩
  · refine ⟨0, fun R _ => ?_⟩
    rw [capConcat]
    exact .nil
  · rintro q c u v _ _ ⟨N, hN⟩ ⟨N', hN'⟩
    refine ⟨max N N', fun R hR => ?_⟩
    obtain ⟨mn, mx, e⟩ := q
    rw [capConcat]
    exact .cons _ _ _ _ (hN R (by omega)) (hN' R (by omega))
  · rintro mn mx e n w h1 h2 _ ⟨N, hN⟩
    refine ⟨max N n, fun R hR => .mk _ _ _ n _ h1 (fun u hu => ?_) (hN R (by omega))⟩
    obtain rfl := Option.some.inj hu
    cases mx with
    | none => show n ≤ mn + R; omega
    | some u => exact h2 u rfl
  · intro e; exact ⟨0, fun R _ => .zero _⟩
  · rintro e n u v _ _ ⟨N, hN⟩ ⟨N', hN'⟩
    exact ⟨max N N', fun R hR => .succ _ _ _ _ (hN R (by omega)) (hN' R (by omega))⟩

/-- A repetition is `FewRep`, as a computation. -/
def fewRepB (q : Rep) : Bool :=
  decide (q.min < 2 ^ 62) && (match q.max with | some u => decide (u < 2 ^ 62) | none => true) &&
    (match q.elem with | .group a => decide (a.length ≤ 2 ^ 62) | .option a => decide (a.length ≤ 2 ^ 62) | _ => true)

theorem few_of {g : Grammar} (h : (g.rules ++ Core.rules).all (fun r => decide (r.alt.length ≤ 2 ^ 62) && (altReps r.alt).all fewRepB) = true) :
    ∀ r ∈ g.rules ++ Core.rules, FewAlt r.alt := by
  intro r hr
  have h1 := List.all_eq_true.mp h r hr
  rw [Bool.and_eq_true, List.all_eq_true] at h1
  refine ⟨of_decide_eq_true h1.1, fun q hq => ?_⟩
  have h2 := h1.2 q hq
  obtain ⟨mn, mx, e⟩ := q
  rw [fewRepB, Bool.and_eq_true, Bool.and_eq_true] at h2
  obtain ⟨⟨h2, h3⟩, h4⟩ := h2
  refine ⟨of_decide_eq_true h2, fun u hu => ?_, fun a ha => ?_⟩
  · change mx = some u at hu
    subst hu
    exact of_decide_eq_true h3
  · rcases ha with ha | ha <;> · change e = _ at ha; subst ha; exact of_decide_eq_true h4

namespace Props

/-- C125.  Every text of the grammar in which unbounded repetitions end after `MaxRepeat` more than their minimum is generated, from
some tape and from some stream of random numbers, by all generators with that `MaxRepeat`, a large enough `MaxDepth` and a `MaxLen` above
the length of the text, whatever the costs.  Bounds and numbers of alternatives are below 2^62. -/
theorem C125_reaches (g : Grammar) (hd : NamesDistinct g) (hfew : ∀ r ∈ g.rules ++ Core.rules, FewAlt r.alt) (name : Str) (start : Rule)
    (hr : Resolves g name start) (R : Nat) (hR : R < 2 ^ 62) (w : Bytes) (hw : DerivesRule (capped R g) name w) :
    ∃ L : Nat, ∀ (o : AstOpts) (m : CostMap), (L : Int) < o.maxDepth → (w.length : Int) < o.maxLen → o.maxRepeat = R →
      ∀ fuel, L ≤ fuel → (∃ tape, astWalk tapeSource o g.rules m fuel start ⟨tape, 0⟩ = .ok w) ∧
        ∃ rnd, astWalk (randSource rnd) o g.rules m fuel start 0 = .ok w := by
  have hmem : start ∈ g.rules ++ Core.rules := List.mem_append.mpr (by cases hr with
    | user h1 _ => exact .inl h1
    | core h1 _ _ => exact .inr h1)
  have hfa := hfew start hmem
  obtain ⟨L, hL⟩ : ∃ L, AstMakes R w (elemPart g (.group start.alt)) L := by
    cases hw with
    | rule _ r' _ hr' hda =>
      obtain ⟨r, h1, rfl⟩ := resolves_capped hr'
      obtain rfl := resolves_unique hd hr h1 rfl
      refine capped_makes hd hfew hR (.group _ _ hda) _ (by rw [capElem]; rfl) ⟨fun q hq => hfa.2 q (by rw [elemReps] at hq; exact hq), fun b hb => ?_⟩
      rcases hb with hb | hb
      · cases hb; exact hfa.1
      · cases hb
    | term _ _ ht => cases ht
  refine ⟨L, fun o m h1 h2 h3 fuel hfuel => ?_⟩
  obtain ⟨ds, hf, hdd⟩ := hL o h3
  have run : ∀ (σ : Type) (S : Source σ) (s s' : σ), Draws S s ds s' → astWalk S o g.rules m fuel start s = .ok w := by
    intro σ S s s' hds
    have key := hdd σ S m fuel 0 ⟨s, []⟩ s' hds hfuel (by simpa using h1) (by simpa using h2)
    unfold elemPart at key
    rw [astElem] at key
    unfold astWalk astAlt
    rw [key]
    rfl
  constructor
  · obtain ⟨bs, hbs⟩ := tape_draws ds (fun p hp => ⟨(hf p hp).1, (hf p hp).2.trans (by norm_num)⟩) []
    obtain ⟨s', hs'⟩ := hbs []
    exact ⟨_, run _ _ _ s' hs'⟩
  · obtain ⟨rnd, s', hrnd⟩ := rand_draws _ ds hf 0
    exact ⟨rnd, run _ _ _ s' (hrnd rnd fun _ _ => rfl)⟩

/-- C125.  So what generators with `MaxRepeat` = R return, over all other options and all tapes, is exactly the language of the grammar in
which unbounded repetitions end after R more than their minimum. -/
theorem C125_exact (g : Grammar) (hd : NamesDistinct g) (hfew : ∀ r ∈ g.rules ++ Core.rules, FewAlt r.alt) (name : Str) (start : Rule)
    (hr : Resolves g name start) (hwr : WritableReach g start) (m : CostMap) (R : Nat) (hR : R < 2 ^ 62) (w : Bytes) :
    DerivesRule (capped R g) name w ↔
      ∃ (o : AstOpts) (fuel : Nat) (tape : Bytes), o.maxRepeat = R ∧ astWalk tapeSource o g.rules m fuel start ⟨tape, 0⟩ = .ok w := by
  constructor
  · intro hw
    obtain ⟨L, hL⟩ := C125_reaches g hd hfew name start hr R hR w hw
    obtain ⟨⟨tape, ht⟩, _⟩ := hL ⟨L + 1, w.length + 1, R⟩ m (by simp only; omega) (by simp only; omega) rfl L (Nat.le_refl _)
    exact ⟨_, L, tape, rfl, ht⟩
  · rintro ⟨o, fuel, tape, ho, hrun⟩
    have h := (C123_repeat g hd m name start hr hwr tapeSource C29_sources.1 o (by omega) fuel ⟨tape, 0⟩ w hrun).1
    rw [ho, Int.toNat_natCast] at h
    exact h

/-- C125.  Every text of the rule is one of that grammar for every large enough R. -/
theorem C125_all (g : Grammar) (name : Str) (w : Bytes) : DerivesRule g name w ↔ ∃ N, ∀ R, N ≤ R → DerivesRule (capped R g) name w := by
  constructor
  · intro h
    obtain ⟨N, hN⟩ := derives_capped h
    refine ⟨N, fun R hR => ?_⟩
    have := hN R hR
    rw [capElem] at this
    exact this
  · rintro ⟨N, hN⟩
    exact capped_derives (hN N (Nat.le_refl _)) _ (by rw [capElem])

/-- A grammar with optional, repeated and recursive parts meets the hypotheses of C125, and a nested list is a text that is reached. -/
example : NamesDistinct lists ∧ (∀ r ∈ lists.rules ++ Core.rules, FewAlt r.alt) ∧
    ∃ start, Resolves lists (str% "List") start ∧ WritableReach lists start ∧ DerivesRule (capped 2 lists) (str% "List") (bytes% "(()(j(01)))") ∧
      ∃ L : Nat, ∀ o : AstOpts, (L : Int) < o.maxDepth → 11 < o.maxLen → o.maxRepeat = 2 →
        ∃ tape, astWalk tapeSource o lists.rules (fun _ => none) L start ⟨tape, 0⟩ = .ok (bytes% "(()(j(01)))") := by
  have hd : NamesDistinct lists := namesDistinct_of (by decide)
  have hfew : ∀ r ∈ lists.rules ++ Core.rules, FewAlt r.alt := few_of (by decide +kernel)
  obtain ⟨start, m, h1, h2⟩ : ∃ start m, getRule (str% "List") lists.rules = some start ∧
      astWalk tapeSource { maxRepeat := 2 } lists.rules m (32 + 2 ^ 30) start
        ⟨[2, 1, 0, 1, 2, 0, 0, 3, 9, 4, 1, 2, 3, 4, 5, 6, 7, 8, 9, 1, 2, 4], 0⟩ = .ok (bytes% "(()(j(01)))") :=
    ⟨lists.rules[0], fun _ => none, by decide +kernel, by decide +kernel⟩
  have hr : Resolves lists (str% "List") start := (getRule_iff hd).mp h1
  have hw : WritableReach lists start := writable_of (by decide +kernel) (by decide +kernel) hr
  have hder := (C125_exact lists hd hfew _ start hr hw m 2 (by decide) _).mpr ⟨_, _, _, rfl, h2⟩
  obtain ⟨L, hL⟩ := C125_reaches lists hd hfew _ start hr 2 (by decide) _ hder
  exact ⟨hd, hfew, start, hr, hw, hder, L, fun o h3 h4 h5 => (hL o _ h3 h4 h5 L (Nat.le_refl _)).1⟩

end Props
end Verif
