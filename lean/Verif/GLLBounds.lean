import Verif.GLL
import Verif.Sppf
import Verif.SlotsLang
import Mathlib.Data.List.ProdSigma

/-! # Well-formed slot grammars, bounds on positions and counts, and the number of facts -/

namespace Verif
open Spec

/-- The shape every lowered grammar has. -/
structure SGOK (sg : SG) : Prop where
  ne : ∀ n, ∀ p ∈ sg.alts n, p ≠ []
  rep : ∀ n, (sg.nt n).isRep = true → ∃ s, sg.alts n = [[.eps], [s, .nt n]]
  start : (sg.nt sg.start).isRep = false
  startLt : sg.start < sg.nts.length
  refs : ∀ n, ∀ p ∈ sg.alts n, ∀ s, .nt s ∈ p → s < sg.nts.length

theorem symElem_lt {ix : List (Str × Nat)} {nts : List NT} (hg : Good ⟨nts, ix, false⟩) {e : Elem} {id : Nat}
    (h : SymElem ix e (.nt id)) : id < nts.length := by
  cases e <;> simp only [SymElem] at h
  case rulename | group | option =>
    obtain ⟨id', h1, h2⟩ := h
    simp only [Sym.nt.injEq] at h1
    subst h1
    exact hg.lookup_lt h2
  all_goals simp at h

theorem symAlts_ok {ix : List (Str × Nat)} {nts : List NT} (hg : Good ⟨nts, ix, false⟩) {a : Alt}
    {out : List (List Sym)} (h : SymAlts ix a out) :
    ∀ p ∈ out, p ≠ [] ∧ ∀ s, .nt s ∈ p → s < nts.length := by
  induction h with
  | nil => simp
  | @cons c p a out hc _ ih =>
    intro q hq
    rcases List.mem_cons.mp hq with rfl | hq
    · obtain ⟨raw, hraw, rfl⟩ := hc
      by_cases he : raw = []
      · rw [if_pos he]; simp
      · rw [if_neg he]
        refine ⟨he, fun s hs => ?_⟩
        have : ∀ r s, SymRep ix r (.nt s) → s < nts.length := by
          intro r s hr
          unfold SymRep at hr
          split_ifs at hr
          · exact symElem_lt hg hr
          · obtain ⟨id, h1, h2⟩ := hr
            simp only [Sym.nt.injEq] at h1
            subst h1
            exact hg.lookup_lt h2
        clear he ih hq
        induction hraw with
        | nil => simp at hs
        | cons hr _ ih =>
          rcases List.mem_cons.mp hs with hs | hs
          · subst hs; exact this _ _ hr
          · exact ih hs
    · exact ih q hq

theorem nt_of_get? {sg : SG} {n : Nat} {nt : NT} (h : sg.nts[n]? = some nt) : sg.nt n = nt := by
  unfold SG.nt
  rw [List.getD_eq_getElem?_getD, h]; rfl

theorem nt_out {sg : SG} {n : Nat} (h : sg.nts.length ≤ n) : sg.nt n = {} := by
  unfold SG.nt
  rw [List.getD_eq_getElem?_getD, List.getElem?_eq_none h]; rfl

theorem Lowered.ok {g : Grammar} {root : Str} {sg : SG} {ix : List (Str × Nat)} (h : Lowered g root sg ix) :
    SGOK sg := by
  have hlt : sg.start < sg.nts.length := h.good.lookup_lt h.start
  have key : ∀ n, (∀ p ∈ sg.alts n, p ≠ []) ∧
      ((sg.nt n).isRep = true → ∃ s, sg.alts n = [[.eps], [s, .nt n]]) ∧
      (∀ p ∈ sg.alts n, ∀ s, .nt s ∈ p → s < sg.nts.length) := by
    intro n
    by_cases hn : n < sg.nts.length
    · obtain ⟨o, nt, ho, hi, hnt, hc⟩ := h.filled n hn
      unfold SG.alts
      rw [nt_of_get? hnt]
      have hg := h.good
      cases o with
      | rule m =>
        obtain ⟨hr, hc⟩ := hc
        split at hc
        · subst hc; simp
        · have := symAlts_ok hg hc.2.2
          exact ⟨fun p hp => (this p hp).1, fun h => (by rw [hr] at h; cases h), fun p hp => (this p hp).2⟩
      | grp a =>
        have := symAlts_ok hg hc.2.2
        exact ⟨fun p hp => (this p hp).1, fun h => (by rw [hc.2.1] at h; cases h), fun p hp => (this p hp).2⟩
      | opt a =>
        obtain ⟨_, hr, out, hout, halts⟩ := hc
        have := symAlts_ok hg hout
        rw [halts]
        refine ⟨?_, fun h => (by rw [hr] at h; cases h), ?_⟩
        · intro p hp
          rcases List.mem_cons.mp hp with rfl | hp
          · simp
          · exact (this p hp).1
        · intro p hp
          rcases List.mem_cons.mp hp with rfl | hp
          · simp
          · exact (this p hp).2
      | rep r =>
        rcases hc.2 with ⟨m, _, _, hnt'⟩ | ⟨_, hrep, _, _, id, s, hid, hs, halts⟩
        · subst hnt'; simp
        · have hidn : id = n := by
            have h1 := hg.index_get.mpr hi
            have h2 : ix.lookup (repKey r) = some n := h1
            rw [h2] at hid
            simpa using hid.symm
          subst hidn
          rw [halts]
          refine ⟨by simp, fun _ => ⟨s, rfl⟩, ?_⟩
          intro p hp t ht
          simp only [List.mem_cons, List.not_mem_nil, or_false] at hp
          rcases hp with rfl | rfl
          · simp at ht
          · simp only [List.mem_cons, Sym.nt.injEq, List.not_mem_nil, or_false] at ht
            rcases ht with ht | ht
            · subst ht; exact symElem_lt hg hs
            · subst ht; exact hn
    · unfold SG.alts
      rw [nt_out (by omega)]
      simp
  refine ⟨fun n => (key n).1, fun n => (key n).2.1, ?_, hlt, fun n => (key n).2.2⟩
  obtain ⟨o, nt, ho, hi, hnt, hc⟩ := h.filled sg.start hlt
  rw [nt_of_get? hnt]
  have hk : o.key = ruleKey root := by
    have h1 := h.good.index_get.mp h.start
    rw [h1] at hi
    simpa using hi.symm
  cases o with
  | rule n => exact hc.1
  | grp a => exact hc.2.1
  | opt a => exact hc.2.1
  | rep r => simp [Obj.key, repKey, ruleKey] at hk

/-! ## Positions -/

theorem decode_bounds {inp : Bytes} {i : Nat} {c : Char} {k : Nat}
    (h : decodeRune (inp.drop i) = some (c, k)) : i + k ≤ inp.length := by
  have hat := (decode_at inp i k c).mp h
  have hi : i ≤ inp.length := by
    by_contra hc
    rw [List.drop_eq_nil_of_le (by omega)] at h
    simp [decodeRune] at h
  exact (at_le hat hi).2

theorem matchCharVal_bounds {inp : Bytes} {s : Bool} {vs : List Char} {i j : Nat} (hi : i ≤ inp.length)
    (h : matchCharVal inp s vs i = some j) : i ≤ j ∧ j ≤ inp.length := by
  induction vs generalizing i with
  | nil => simp [matchCharVal] at h; omega
  | cons v vs ih =>
    simp only [matchCharVal] at h
    split_ifs at h
    split at h
    · simp at h
    rename_i c k hd
    split_ifs at h
    have := ih (decode_bounds hd) h
    omega

theorem matchSeries_bounds {inp : Bytes} {b : Str} {es : List Str} {i j : Nat} (hi : i ≤ inp.length)
    (h : matchSeries inp b es i = some j) : i ≤ j ∧ j ≤ inp.length := by
  induction es generalizing i with
  | nil => simp [matchSeries] at h; omega
  | cons v vs ih =>
    simp only [matchSeries] at h
    split_ifs at h with h1 h2
    push Not at h2
    have := ih h2.1 h
    omega

theorem matchSym_bounds {inp : Bytes} {s : Sym} {i j : Nat} (hi : i ≤ inp.length)
    (h : matchSym inp s i = some j) : i ≤ j ∧ j ≤ inp.length := by
  cases s with
  | nt n => simp [matchSym] at h
  | eps => simp [matchSym] at h; omega
  | term e =>
    simp only [matchSym] at h
    cases e with
    | charVal s vs => exact matchCharVal_bounds hi h
    | numVal b st es =>
      cases st with
      | series => exact matchSeries_bounds hi h
      | range =>
        simp only [matchElem, matchRange] at h
        split at h
        · split_ifs at h
          split at h
          · simp at h
          rename_i hd
          split_ifs at h
          have := decode_bounds hd
          simp at h
          omega
        · simp at h
    | _ => simp [matchElem] at h

/-- Largest count a frame of the nonterminal can have. -/
def bnd (sg : SG) (n : Nat) : Nat :=
  if (sg.nt n).isRep then (match (sg.nt n).repMax with | none => (sg.nt n).repMin | some m => m) else 0

theorem foldl_max_le {l : List Nat} {a : Nat} : a ≤ l.foldl max a ∧ ∀ x ∈ l, x ≤ l.foldl max a := by
  induction l generalizing a with
  | nil => simp
  | cons b l ih =>
    have := ih (a := max a b)
    rw [List.foldl_cons]
    refine ⟨by have := this.1; omega, fun x hx => ?_⟩
    rcases List.mem_cons.mp hx with rfl | hx
    · have := this.1; omega
    · exact this.2 x hx

theorem bnd_le (sg : SG) (n : Nat) : bnd sg n ≤ maxCount sg := by
  unfold bnd
  split_ifs with h
  · have hn : n < sg.nts.length := by
      by_contra hc
      rw [nt_out (by omega)] at h
      simp at h
    refine foldl_max_le.2 _ (List.mem_map.mpr ⟨sg.nt n, ?_, rfl⟩)
    rw [nt_of_get? (List.getElem?_eq_getElem hn)]
    exact List.getElem_mem _
  · exact Nat.zero_le _

/-- Bounds on the positions and counts in a fact. -/
def InRange (sg : SG) (n : Nat) : Item → Prop
  | .at L u i rc => posOf u ≤ i ∧ i ≤ n ∧ rc ≤ bnd sg L.nt ∧ ∀ v, u = some v → v.rc ≤ bnd sg v.ret.nt
  | .edge v u => posOf u ≤ v.pos ∧ v.pos ≤ n ∧ v.rc ≤ bnd sg v.ret.nt ∧
      ∀ v, u = some v → v.rc ≤ bnd sg v.ret.nt
  | .popped v j => v.pos ≤ j ∧ j ≤ n ∧ v.rc ≤ bnd sg v.ret.nt
  | .adv _ l k r => l ≤ k ∧ k ≤ r ∧ r ≤ n

theorem childRC_le {sg : SG} (hok : SGOK sg) {L : Slot} {rc s : Nat} (hs : (sg.prod L)[L.dot]? = some (.nt s))
    (ha : (sg.nt L.nt).isRep = true → L.alt ∈ startAlts sg L.nt rc) :
    childRC sg L.nt rc s ≤ bnd sg s := by
  unfold childRC
  by_cases hr : (sg.nt s).isRep = true
  · rw [if_pos hr]
    by_cases he : s = L.nt
    · rw [if_pos he]
      subst he
      have ha := ha hr
      unfold bnd
      rw [if_pos hr]
      obtain ⟨es, halts⟩ := hok.rep _ hr
      have h1 : L.alt = 1 := by
        simp only [startAlts, hr, if_true, List.mem_append] at ha
        rcases ha with ha | ha
        · have h0 : L.alt = 0 := by
            revert ha; split <;> simp
          unfold SG.prod at hs
          rw [halts, h0] at hs
          simp at hs
          have : L.dot = 0 ∨ 1 ≤ L.dot := by omega
          rcases this with h | h
          · rw [h] at hs; simp at hs
          · rw [List.getElem?_eq_none (by simpa using h)] at hs; simp at hs
        · revert ha; split <;> simp
      cases hm : (sg.nt L.nt).repMax with
      | none => rw [capRC_none hm]; split_ifs <;> simp only <;> omega
      | some m =>
        rw [capRC_some hm]
        simp only [startAlts, hr, if_true, List.mem_append, hm, h1] at ha
        have : rc < m := by
          by_contra hc
          rcases ha with ha | ha
          · revert ha; split <;> simp
          · simp [hc] at ha
        simp only; omega
    · rw [if_neg he]; exact Nat.zero_le _
  · rw [if_neg hr]; exact Nat.zero_le _

theorem reach_inRange {sg : SG} (hok : SGOK sg) {inp : Bytes} {it : Item} (h : Reach sg inp it) :
    InRange sg inp.length it := by
  induction h with
  | start alt _ => exact ⟨Nat.le_refl _, Nat.zero_le _, Nat.zero_le _, nofun⟩
  | pop L v i rc _ _ ih => exact ⟨ih.1, ih.2.1, ih.2.2.2 v rfl⟩
  | callEdge L u i rc s _ _ ih => exact ⟨ih.1, ih.2.1, ih.2.2.1, ih.2.2.2⟩
  | callAt L u i rc s alt h hs ha ih =>
    refine ⟨Nat.le_refl _, ih.2.1, ?_, ?_⟩
    · apply childRC_le hok hs
      intro hr
      have hf := (reach_sound h).1
      cases u with
      | none =>
        rw [hf.1, hok.start] at hr
        simp at hr
      | some v => exact hf.2.2.2
    · intro v hv
      simp only [Option.some.injEq] at hv
      subst hv
      exact ih.2.2.1
  | retAt v u j _ _ ih1 ih2 =>
    exact ⟨Nat.le_trans ih1.1 ih2.1, ih2.2.1, ih1.2.2.1, ih1.2.2.2⟩
  | retRec v u j _ _ ih1 ih2 => exact ⟨ih1.1, ih2.1, ih2.2.1⟩
  | termAt L u i rc s j _ _ hm ih =>
    have := matchSym_bounds ih.2.1 hm
    exact ⟨Nat.le_trans ih.1 this.1, this.2, ih.2.2.1, ih.2.2.2⟩
  | termRec L u i rc s j _ _ hm ih =>
    have := matchSym_bounds ih.2.1 hm
    exact ⟨ih.1, this.1, this.2⟩

/-! ## Counting control facts -/

/-- All slots. -/
def slots (sg : SG) : List Slot :=
  (List.range sg.nts.length).flatMap fun n => (List.range (sg.alts n).length).flatMap fun a =>
    (List.range ((sg.prod ⟨n, a, 0⟩).length + 1)).map fun d => ⟨n, a, d⟩

theorem map_range_getD {α β : Type} (l : List α) (d : α) (f : α → β) :
    (List.range l.length).map (fun n => f (l.getD n d)) = l.map f := by
  apply List.ext_getElem
  · simp
  · intro n h1 h2
    simp at h1 h2
    simp [h1]

theorem slots_length (sg : SG) : (slots sg).length = slotCount sg := by
  unfold slots slotCount
  rw [List.length_flatMap]
  congr 1
  rw [← map_range_getD sg.nts {} fun n => (n.alts.map fun p => p.length + 1).sum]
  apply List.map_congr_left
  intro n _
  rw [List.length_flatMap]
  congr 1
  simp only [List.length_map, List.length_range]
  show (List.range (sg.alts n).length).map (fun x => ((sg.alts n).getD x []).length + 1) = _
  rw [map_range_getD (sg.alts n) [] fun p => p.length + 1]
  rfl

theorem frame_mem {sg : SG} (hok : SGOK sg) {u : GNode} {nt rc alt : Nat} (h : Frame sg u nt rc alt) :
    alt < (sg.alts nt).length := by
  cases u with
  | none => rw [h.1]; exact h.2.2
  | some v =>
    have ha := h.2.2.2
    by_cases hr : (sg.nt nt).isRep = true
    · obtain ⟨s, halts⟩ := hok.rep nt hr
      rw [halts]
      simp only [startAlts, hr, if_true, List.mem_append] at ha
      rcases ha with ha | ha <;> revert ha <;> split <;> simp <;> omega
    · have hr' : (sg.nt nt).isRep = false := by simpa using hr
      simpa [startAlts, hr'] using ha

theorem alts_lt {sg : SG} {n alt : Nat} (h : alt < (sg.alts n).length) : n < sg.nts.length := by
  by_contra hc
  unfold SG.alts at h
  rw [nt_out (by omega)] at h
  simp at h

theorem mem_slots {sg : SG} {L : Slot} (h : L.alt < (sg.alts L.nt).length)
    (hd : L.dot ≤ (sg.prod L).length) : L ∈ slots sg := by
  unfold slots
  simp only [List.mem_flatMap, List.mem_range, List.mem_map]
  exact ⟨L.nt, alts_lt h, L.alt, h, L.dot, Nat.lt_succ_of_le hd, rfl⟩

/-- All stack nodes that can occur. -/
def gnodes (sg : SG) (n : Nat) : List GNode :=
  none :: ((slots sg ×ˢ List.range (n + 1)) ×ˢ List.range (maxCount sg + 1)).map
    fun p => some ⟨p.1.1, p.1.2, p.2⟩

/-- All control points that can occur. -/
def ctrls (sg : SG) (n : Nat) : List ((Slot × GNode) × Nat) := (slots sg ×ˢ gnodes sg n) ×ˢ List.range (n + 1)

theorem ctrls_length (sg : SG) (n : Nat) : (ctrls sg n).length = gllFuel sg n := by
  unfold ctrls gnodes gllFuel
  rw [List.length_product, List.length_product, slots_length, List.length_cons, List.length_map,
    List.length_product, List.length_product, slots_length, List.length_range, List.length_range,
    Nat.add_comm 1]

theorem mem_ctrls {sg : SG} (hok : SGOK sg) {inp : Bytes} {L : Slot} {u : GNode} {i rc : Nat}
    (h : Reach sg inp (.at L u i rc)) : ((L, u), i) ∈ ctrls sg inp.length := by
  obtain ⟨hf, hd, _⟩ := reach_sound h
  obtain ⟨hr1, hr2, hr3, hr4⟩ := reach_inRange hok h
  unfold ctrls
  rw [List.mem_product, List.mem_product]
  refine ⟨⟨mem_slots (frame_mem hok hf) hd, ?_⟩, by simp; omega⟩
  unfold gnodes
  cases u with
  | none => exact List.mem_cons_self ..
  | some v =>
    refine List.mem_cons_of_mem _ (List.mem_map.mpr ⟨((v.ret, v.pos), v.rc), ?_, rfl⟩)
    rw [List.mem_product, List.mem_product]
    have h1 := hf.1
    have h2 := (List.getElem?_eq_some_iff.mp hf.2.1).1
    refine ⟨⟨mem_slots ?_ (by omega), ?_⟩, ?_⟩
    · by_contra hc
      have : sg.prod v.ret = [] := by
        unfold SG.prod
        rw [List.getD_eq_getElem?_getD, List.getElem?_eq_none (by omega)]; rfl
      rw [this] at h2
      simp at h2
    · have hp : posOf (some v) = v.pos := rfl
      rw [hp] at hr1
      simp; omega
    · have := hr4 v rfl
      have := bnd_le sg v.ret.nt
      simp; omega

/-- The count of a frame is determined by its stack node and nonterminal. -/
theorem frame_rc {sg : SG} {u : GNode} {nt rc rc' alt alt' : Nat} (h : Frame sg u nt rc alt)
    (h' : Frame sg u nt rc' alt') : rc = rc' := by
  cases u with
  | none => rw [h.2.1, h'.2.1]
  | some v => rw [h.2.2.1, h'.2.2.1]

end Verif
