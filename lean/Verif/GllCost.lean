import Verif.PropsBsr
import Verif.PropsSppf
import Verif.TreeSpec
import Verif.PropsAbnf
import Verif.PropsCodegen

/-!
# C113: what the parsers cost

The comment on `ParseForest` (/repo/sppf.go:664-667) promises cubic time for any grammar, and the one on
`WithMaxForestNodes` (/repo/sppf.go:636-639) that the option limits the time.  This file bounds the number of rounds of
the main loops (/repo/sppf.go:495-502, /repo/bsr.go:203-210), which is the number of descriptors ever put on the work
list, and shows where the promises fail.
-/

namespace Verif
open Spec Text Eval

namespace GllCost

/-! ## Counts are bounded by positions -/

/-- Repetitions that may count further than `B` consume input each time. -/
def Consuming (sg : SG) (inp : Bytes) (B : Nat) : Prop :=
  ∀ n, (sg.nt n).isRep = true → B < bnd sg n →
    ∃ s, sg.alts n = [[.eps], [s, .nt n]] ∧ s ≠ .nt n ∧ ∀ rc i, ¬ SymD sg inp n rc s i i

/-- Counts of repetitions that may count further than `B` do not exceed the position at which they were reached. -/
def Counted (sg : SG) (B : Nat) : Item → Prop
  | .at L u _ rc => (B < bnd sg L.nt → rc ≤ posOf u) ∧ ∀ v, u = some v → B < bnd sg v.ret.nt → v.rc ≤ v.pos
  | .edge v u => (B < bnd sg v.ret.nt → v.rc ≤ posOf u) ∧ ∀ v, u = some v → B < bnd sg v.ret.nt → v.rc ≤ v.pos
  | _ => True

theorem capRC_succ (rc : Nat) (n : NT) : capRC rc n ≤ rc + 1 := by
  unfold capRC
  split_ifs <;> omega

theorem reach_counted {sg : SG} (hok : SGOK sg) {inp : Bytes} {B : Nat} (hc : Consuming sg inp B) {it : Item}
    (h : Reach sg inp it) : Counted sg B it := by
  induction h with
  | start alt _ => exact ⟨fun _ => Nat.zero_le _, nofun⟩
  | pop => trivial
  | callEdge L u i rc s _ _ ih => exact ih
  | callAt L u i rc s alt h hs ha ih =>
    have hr := reach_inRange hok h
    have hsd := (reach_sound h).2.2
    refine ⟨?_, ?_⟩
    · intro hB
      show childRC sg L.nt rc s ≤ i
      unfold childRC
      split_ifs with hrep he
      · subst he
        obtain ⟨e, halts, hne, hcons⟩ := hc _ hrep hB
        have hdot : L.alt = 1 ∧ L.dot = 1 := by
          have hp : sg.prod L = [[.eps], [e, .nt L.nt]].getD L.alt [] := by
            show (sg.alts L.nt).getD L.alt [] = _
            rw [halts]
          rw [hp] at hs
          rcases L with ⟨n, a, d⟩
          match a, d with
          | 0, 0 => simp at hs
          | 0, d + 1 => simp at hs
          | 1, 0 => simp only [List.getD_cons_succ, List.getD_cons_zero, List.getElem?_cons_zero, Option.some.injEq] at hs; exact absurd hs hne
          | 1, 1 => exact ⟨rfl, rfl⟩
          | 1, d + 2 => simp at hs
          | a + 2, d => simp at hs
        have hp : sg.prod L = [e, .nt L.nt] := by
          show (sg.alts L.nt).getD L.alt [] = _
          rw [halts, hdot.1]; rfl
        rw [hp, hdot.2] at hsd
        have hlt : posOf u < i := by
          cases hsd with
          | cons _ _ _ _ _ m _ h1 h2 =>
            cases h2
            by_contra hn
            have := hr.1
            have e : posOf u = i := by omega
            rw [e] at h1
            exact hcons _ _ h1
        have h1 := capRC_succ rc (sg.nt L.nt)
        have h2 := ih.1 hB
        omega
      · exact Nat.zero_le _
      · exact Nat.zero_le _
    · intro v hv hB
      cases hv
      have h1 := ih.1 hB
      have h2 := hr.1
      show rc ≤ i
      omega
  | retAt v u j _ _ ih1 _ => exact ih1
  | retRec => trivial
  | termAt L u i rc s j _ _ hm ih => exact ih
  | termRec => trivial

/-! ## Counting control points -/

/-- All stack nodes with counts up to `C`. -/
def stackNodes (sg : SG) (n C : Nat) : List GNode :=
  none :: ((slots sg ×ˢ List.range (n + 1)) ×ˢ List.range (C + 1)).map fun p => some ⟨p.1.1, p.1.2, p.2⟩

/-- All control points with counts up to `C`. -/
def points (sg : SG) (n C : Nat) : List ((Slot × GNode) × Nat) := (slots sg ×ˢ stackNodes sg n C) ×ˢ List.range (n + 1)

theorem points_length (sg : SG) (n C : Nat) :
    (points sg n C).length = slotCount sg * (1 + slotCount sg * (n + 1) * (C + 1)) * (n + 1) := by
  unfold points stackNodes
  rw [List.length_product, List.length_product, slots_length, List.length_cons, List.length_map,
    List.length_product, List.length_product, slots_length, List.length_range, List.length_range,
    Nat.add_comm 1]

theorem mem_points {sg : SG} (hok : SGOK sg) {inp : Bytes} {B : Nat} (hc : Consuming sg inp B) {L : Slot} {u : GNode} {i rc : Nat}
    (h : Reach sg inp (.at L u i rc)) : ((L, u), i) ∈ points sg inp.length (max inp.length B) := by
  have h0 := mem_ctrls hok h
  unfold ctrls at h0
  unfold points
  rw [List.mem_product, List.mem_product] at h0 ⊢
  refine ⟨⟨h0.1.1, ?_⟩, h0.2⟩
  have h1 := h0.1.2
  unfold gnodes at h1
  unfold stackNodes
  rcases List.mem_cons.mp h1 with h2 | h2
  · rw [h2]; exact List.mem_cons_self
  · obtain ⟨p, hp, hu⟩ := List.mem_map.mp h2
    subst hu
    refine List.mem_cons_of_mem _ (List.mem_map.mpr ⟨p, ?_, rfl⟩)
    rw [List.mem_product, List.mem_product] at hp ⊢
    refine ⟨hp.1, ?_⟩
    have h3 := (reach_counted hok hc h).2 _ rfl
    have h4 := hp.1.2
    have h5 := (reach_inRange hok h).2.2.2 _ rfl
    simp only [List.mem_range] at h4 ⊢
    simp only at h3 h5
    by_cases hB : B < bnd sg p.1.1.nt
    · exact Nat.lt_succ_of_le (le_trans (h3 hB) (le_trans (Nat.lt_succ_iff.mp h4) (le_max_left _ _)))
    · omega

/-! ## The loops -/

theorem sppf_rounds {sg : SG} (hok : SGOK sg) {inp : Bytes} {B : Nat} (hc : Consuming sg inp B) {N : Nat} {sched : Sched NodeKey}
    (hf : sched.Fair) (fuel p : Nat) {st : SppfSt} (h : LoopInv sg inp st) (hp : st.seen.length = p + st.work.length)
    (hfuel : (points sg inp.length (max inp.length B)).length ≤ fuel + p) :
    ∃ st', sppfLoop sg inp N sched fuel st = some st' := by
  induction fuel generalizing st p with
  | zero =>
    unfold sppfLoop
    split
    · exact ⟨st, rfl⟩
    · rename_i d work hw
      exfalso
      have hle : st.seen.length ≤ (points sg inp.length (max inp.length B)).length := by
        rw [← List.length_map (fun d : Desc => ((d.L, d.u), d.i))]
        apply List.Subperm.length_le
        apply List.subperm_of_subset
        · apply List.Nodup.map_on _ h.inv.seenNodup
          intro a ha b hb heq
          obtain ⟨ha1, ha2, _⟩ := h.inv.seen a ha
          obtain ⟨hb1, hb2, _⟩ := h.inv.seen b hb
          obtain ⟨L, u, i, w, rc⟩ := a
          obtain ⟨L', u', i', w', rc'⟩ := b
          simp only [Prod.mk.injEq] at heq
          obtain ⟨⟨rfl, rfl⟩, rfl⟩ := heq
          simp only at ha2 hb2
          have := frame_rc (reach_sound ha1).1 (reach_sound hb1).1
          simp only at this
          subst this ha2 hb2
          rfl
        · intro x hx
          obtain ⟨d, hd, rfl⟩ := List.mem_map.mp hx
          exact mem_points hok hc (h.inv.seen d hd).1
      rw [hw] at hp
      simp only [List.length_cons] at hp
      omega
  | succ fuel ih =>
    unfold sppfLoop
    split
    · exact ⟨st, rfl⟩
    · rename_i d work hw
      split_ifs with ha
      · exact ⟨st, rfl⟩
      · obtain ⟨h1, h2⟩ := loopInv_step (N := N) hok hf hw h
        apply ih (p + 1) h1
        · rw [hw] at hp
          simp only [List.length_cons] at hp
          omega
        · omega

theorem bsr_rounds {sg : SG} (hok : SGOK sg) {inp : Bytes} {B : Nat} (hc : Consuming sg inp B) {N : Nat} {sched : Sched Nat}
    (hf : sched.Fair) (fuel p : Nat) {st : BsrSt} (h : BLoopInv sg inp st) (hp : st.seen.length = p + st.work.length)
    (hfuel : (points sg inp.length (max inp.length B)).length ≤ fuel + p) :
    ∃ st', bsrLoop sg inp N sched fuel st = some st' := by
  induction fuel generalizing st p with
  | zero =>
    unfold bsrLoop
    split
    · exact ⟨st, rfl⟩
    · rename_i d work hw
      exfalso
      have hle : st.seen.length ≤ (points sg inp.length (max inp.length B)).length := by
        rw [← List.length_map (fun d : BDesc => ((d.L, d.u), d.i))]
        apply List.Subperm.length_le
        apply List.subperm_of_subset
        · apply List.Nodup.map_on _ h.inv.seenNodup
          intro a ha b hb heq
          have ha1 := h.inv.seen a ha
          have hb1 := h.inv.seen b hb
          obtain ⟨L, u, i, rc⟩ := a
          obtain ⟨L', u', i', rc'⟩ := b
          simp only [Prod.mk.injEq] at heq
          obtain ⟨⟨rfl, rfl⟩, rfl⟩ := heq
          have := frame_rc (reach_sound ha1).1 (reach_sound hb1).1
          simp only at this
          subst this
          rfl
        · intro x hx
          obtain ⟨d, hd, rfl⟩ := List.mem_map.mp hx
          exact mem_points hok hc (h.inv.seen d hd)
      rw [hw] at hp
      simp only [List.length_cons] at hp
      omega
  | succ fuel ih =>
    unfold bsrLoop
    split
    · exact ⟨st, rfl⟩
    · rename_i d work hw
      split_ifs with ha
      · exact ⟨st, rfl⟩
      · obtain ⟨h1, h2⟩ := bloopInv_step (N := N) hf hw h
        apply ih (p + 1) h1
        · rw [hw] at hp
          simp only [List.length_cons] at hp
          omega
        · omega

/-! ## In terms of the grammar -/

theorem symElem_not_rep {sg : SG} {ix : List (Str × Nat)} (hg : Good ⟨sg.nts, ix, false⟩) {r : Rep} {e : Elem} {id : Nat}
    (hr : ix.lookup (repKey r) = some id) : ¬ SymElem ix e (.nt id) := by
  intro h
  have key : ∀ k, ix.lookup k = some id → k = repKey r := by
    intro k hk
    have h1 := (hg.index_get (k := k)).mp hk
    have h2 := (hg.index_get (k := repKey r)).mp hr
    rw [h1] at h2
    simpa using h2
  cases e <;> simp only [SymElem] at h
  case rulename n =>
    obtain ⟨j, h1, h2⟩ := h
    cases h1
    have := key _ h2
    simp [ruleKey, repKey] at this
  case group a =>
    obtain ⟨j, h1, h2⟩ := h
    cases h1
    have := key _ h2
    simp [grpKey, repKey] at this
  case option a =>
    obtain ⟨j, h1, h2⟩ := h
    cases h1
    have := key _ h2
    simp [optKey, repKey] at this
  all_goals cases h

theorem lowered_consuming {g : Grammar} {root : Str} {sg : SG} {ix : List (Str × Nat)} (hl : Lowered g root sg ix)
    (hdp : DistinctPrint g) (hwf : NumValsWF g) (inp : Bytes) {B : Nat}
    (hB : ∀ r ∈ rulesReps (g.rules ++ Core.rules), Derives g r.elem [] → r.max.getD r.min ≤ B) : Consuming sg inp B := by
  intro n hrep hn
  have hlt : n < sg.nts.length := by
    by_contra hc
    rw [nt_out (by omega)] at hrep
    cases hrep
  obtain ⟨o, nt, ho, hi, hnt, hc⟩ := hl.filled n hlt
  have hk : ix.lookup o.key = some n := hl.good.index_get.mpr hi
  have hnt' := nt_of_get? hnt
  cases o with
  | rule m => rw [hnt', hc.1] at hrep; cases hrep
  | grp a => rw [hnt', hc.2.1] at hrep; cases hrep
  | opt a => rw [hnt', hc.2.1] at hrep; cases hrep
  | rep r =>
    rcases hc.2 with ⟨m, _, _, e⟩ | ⟨_, _, h3, h4, id, s, h5, h6, h7⟩
    · rw [hnt', e] at hrep; cases hrep
    · have hid : id = n := by
        have : ix.lookup (repKey r) = some n := hk
        rw [this] at h5
        simpa using h5.symm
      subst hid
      refine ⟨s, by show (sg.nt id).alts = _; rw [hnt', h7], ?_, fun rc i hd => ?_⟩
      · rintro rfl
        exact symElem_not_rep hl.good h5 h6
      · obtain ⟨w, hat, hw⟩ := symMeans_elem hwf ⟨r, ho.1, rfl⟩ h6 (symD_means hl hdp hwf hd)
        have hw0 : w = [] := by
          have := hat.2
          exact List.length_eq_zero_iff.mp (by omega)
        subst hw0
        have := hB r ho.1 hw
        unfold bnd at hn
        rw [if_pos hrep, hnt', h3, h4] at hn
        cases hm : r.max with
        | none => rw [hm] at this hn; simp only [Option.getD_none] at this hn; omega
        | some m => rw [hm] at this hn; simp only [Option.getD_some] at this hn; omega

/-! ## A repetition that consumes nothing -/

/-- `a = n""`, with `n` written in decimal. -/
def hollow (n : Nat) : Grammar := ⟨[⟨str% "a", [[⟨n, some n, .charVal false []⟩]]⟩]⟩

/-- What `hollow n` is lowered to. -/
def hollowSG (n : Nat) : SG :=
  ⟨[{ isRule := true, ruleName := str% "a", alts := [[.nt 1]] },
    { isRep := true, repMin := n, repMax := some n, alts := [[.eps], [.term (.charVal false []), .nt 1]] }], 0⟩

theorem hollow_compiles {n : Nat} (hn : 2 ≤ n) : compileSlots (hollow n) (str% "a") 0 = .ok (hollowSG n) := by
  have h1 : ¬ (n = 1 ∧ some n = some 1) := by omega
  have hk : List.lookup (repKey ⟨n, some n, .charVal false []⟩) [(ruleKey (str% "a"), 0)] = none := by
    have : (repKey ⟨n, some n, .charVal false []⟩ == ruleKey (str% "a")) = false := by simp [repKey, ruleKey]
    simp [List.lookup, this]
  have hg : getRule (str% "a") (hollow n).rules = some ⟨str% "a", [[⟨n, some n, .charVal false []⟩]]⟩ := rfl
  unfold compileSlots
  rw [hg]
  show (match lowerRule (hollow n) 0 (_ + 1) _ _ with | none => _ | some (id, st) => _) = _
  simp only [lowerRule, reserve, List.lookup_nil, hg, budgetExceeded, lowerAlts, lowerConcat, lowerRep, h1, if_false]
  simp only [List.length_nil, List.nil_append, gt_iff_lt, Nat.lt_irrefl, false_and, if_false, hk]
  simp [badBounds, lowerElem, setNT, hollowSG]

/-- The stack node under count `k`. -/
def under : Nat → GKey
  | 0 => ⟨⟨0, 0, 1⟩, 0, 0⟩
  | k + 1 => ⟨⟨1, 1, 2⟩, 0, k⟩

/-- The state before the round that raises the count to `k + 1`. -/
structure Descending (k : Nat) (st : SppfSt) : Prop where
  work : st.work = [⟨⟨1, 1, 0⟩, some (under k), 0, none, k⟩]
  aborted : st.aborted = false
  popped : st.popped = []
  edges : ∀ x ∈ st.edges, x.1.ret = ⟨1, 1, 2⟩ → x.1.rc < k
  seen : ∀ d ∈ st.seen, d.rc ≤ k
  nodes : st.nodes = [] ∨ st.nodes = [.term 0 0]

theorem matches_empty (inp : Bytes) : matchSym inp (.term (.charVal false [])) 0 = some 0 := rfl

theorem hollow_alts {n k : Nat} (h : k < n) : startAlts (hollowSG n) 1 k = [1] := by
  have h1 : (hollowSG n).nt 1 = { isRep := true, repMin := n, repMax := some n, alts := [[.eps], [.term (.charVal false []), .nt 1]] } := rfl
  unfold startAlts
  rw [h1]
  simp only [if_true, h, decide_true]
  rw [if_neg (by omega)]
  rfl

theorem hollow_child (n k : Nat) : childRC (hollowSG n) 1 k 1 = k + 1 := by
  simp [childRC, hollowSG, SG.nt, capRC]

theorem descend_step {n k : Nat} (hk : k + 1 < n) (inp : Bytes) (N : Nat) {sched : Sched NodeKey} (hf : sched.Fair) {st : SppfSt}
    (h : Descending k st) :
    Descending (k + 1) (process (hollowSG n) inp N sched ⟨⟨1, 1, 0⟩, some (under k), 0, none, k⟩ { st with work := [] }) := by
  have e1 : findNode N (.term 0 0) { st with work := [] } = { st with work := [], nodes := [.term 0 0] } := by
    unfold findNode
    rcases h.nodes with hn | hn
    · have ha := h.aborted
      rw [if_neg (by rw [hn]; exact List.not_mem_nil)]
      simp only [hn, ha, List.length_nil]
      congr 1
      simp only [Bool.false_or, decide_eq_false_iff_not]
      omega
    · rw [if_pos (by rw [hn]; exact List.mem_singleton.mpr rfl), ← hn]
  have e2 : getNodeP (hollowSG n) N ⟨1, 1, 1⟩ none (.term 0 0) { st with work := [], nodes := [.term 0 0] } =
      (.term 0 0, { st with work := [], nodes := [.term 0 0] }) := rfl
  have e3 : create (hollowSG n) N sched ⟨1, 1, 2⟩ (some (under k)) 0 (some (.term 0 0)) k { st with work := [], nodes := [.term 0 0] } =
      { st with work := [], nodes := [.term 0 0], edges := st.edges ++ [(⟨⟨1, 1, 2⟩, 0, k⟩, ⟨some (.term 0 0), some (under k)⟩)], tick := st.tick + 1 } := by
    unfold create
    have hz : sched st.tick (poppedOf ⟨⟨1, 1, 2⟩, 0, k⟩ { st with work := [], nodes := [.term 0 0] }) = [] := by
      have : poppedOf ⟨⟨1, 1, 2⟩, 0, k⟩ { st with work := [], nodes := [.term 0 0] } = [] := by
        unfold poppedOf
        rw [show ({ st with work := [], nodes := [.term 0 0] } : SppfSt).popped = [] from h.popped]
        rfl
      rw [this]
      exact List.perm_nil.mp (hf _ _)
    simp only [hz, List.foldl_nil]
    rw [if_neg]
    intro hm
    have := h.edges _ hm rfl
    simp at this
  have e4 := hollow_child n k
  have e5 : process (hollowSG n) inp N sched ⟨⟨1, 1, 0⟩, some (under k), 0, none, k⟩ { st with work := [] } =
      sppfAdd ⟨⟨1, 1, 0⟩, some (under (k + 1)), 0, none, k + 1⟩ { st with work := [], nodes := [.term 0 0], edges := st.edges ++ [(⟨⟨1, 1, 2⟩, 0, k⟩, ⟨some (.term 0 0), some (under k)⟩)], tick := st.tick + 1 } := by
    show processFrom (hollowSG n) inp N sched (some (under k)) k [.term (.charVal false []), .nt 1] ⟨1, 1, 0⟩ 0 none _ = _
    rw [processFrom]
    · rw [matches_empty]
      simp only [e1]
      show processFrom (hollowSG n) inp N sched (some (under k)) k [.nt 1] ⟨1, 1, 1⟩ 0 (some (.term 0 0)) _ = _
      rw [processFrom]
      show (startAlts (hollowSG n) 1 (childRC (hollowSG n) 1 k 1)).foldl _ (create (hollowSG n) N sched ⟨1, 1, 2⟩ (some (under k)) 0 (some (.term 0 0)) k _) = _
      rw [e4, hollow_alts hk]
      rw [List.foldl_cons, List.foldl_nil]
      rw [show ((getNodeP (hollowSG n) N (Slot.next ⟨1, 1, 0⟩) none (.term 0 0) { st with work := [], nodes := [.term 0 0] }).2) = { st with work := [], nodes := [.term 0 0] } from rfl, e3]
      rfl
    · intro s h
      cases h
  rw [e5]
  unfold sppfAdd
  rw [if_neg]
  · refine ⟨rfl, h.aborted, h.popped, ?_, ?_, .inr rfl⟩
    · intro x hx hr
      rcases List.mem_append.mp hx with hx | hx
      · have := h.edges x hx hr
        omega
      · rw [List.mem_singleton.mp hx]
        exact Nat.lt_succ_self _
    · intro d hd
      rcases List.mem_cons.mp hd with rfl | hd
      · exact Nat.le_refl _
      · have := h.seen d hd
        omega
  · intro hm
    have := h.seen _ hm
    simp at this

theorem descend_first {n : Nat} (hn : 0 < n) (inp : Bytes) (N : Nat) {sched : Sched NodeKey} (hf : sched.Fair) :
    (sppfInit (hollowSG n)).work = [⟨⟨0, 0, 0⟩, none, 0, none, 0⟩] ∧ (sppfInit (hollowSG n)).aborted = false ∧
    Descending 0 (process (hollowSG n) inp N sched ⟨⟨0, 0, 0⟩, none, 0, none, 0⟩ { sppfInit (hollowSG n) with work := [] }) := by
  refine ⟨rfl, rfl, ?_⟩
  have e : process (hollowSG n) inp N sched ⟨⟨0, 0, 0⟩, none, 0, none, 0⟩ { sppfInit (hollowSG n) with work := [] } =
      { work := [⟨⟨1, 1, 0⟩, some (under 0), 0, none, 0⟩], seen := [⟨⟨1, 1, 0⟩, some (under 0), 0, none, 0⟩, ⟨⟨0, 0, 0⟩, none, 0, none, 0⟩],
        edges := [(under 0, ⟨none, none⟩)], tick := 1 } := by
    show processFrom (hollowSG n) inp N sched none 0 [.nt 1] ⟨0, 0, 0⟩ 0 none _ = _
    rw [processFrom]
    show (startAlts (hollowSG n) 1 0).foldl _ _ = _
    rw [hollow_alts hn, List.foldl_cons, List.foldl_nil]
    have hz : sched 0 [] = [] := List.perm_nil.mp (hf _ _)
    have e3 : create (hollowSG n) N sched (Slot.next ⟨0, 0, 0⟩) none 0 none 0 { sppfInit (hollowSG n) with work := [] } =
        { seen := [⟨⟨0, 0, 0⟩, none, 0, none, 0⟩], edges := [(under 0, ⟨none, none⟩)], tick := 1 } := by
      show List.foldl _ _ (sched 0 []) = _
      rw [hz]
      rfl
    rw [e3]
    rfl
  rw [e]
  refine ⟨rfl, rfl, rfl, ?_, ?_, .inl rfl⟩
  · intro x hx hr
    rw [List.mem_singleton.mp hx] at hr
    cases hr
  · intro d hd
    rcases List.mem_cons.mp hd with rfl | hd
    · exact Nat.le_refl _
    · rw [List.mem_singleton.mp hd]

theorem descending_none {n : Nat} (inp : Bytes) (N : Nat) {sched : Sched NodeKey} (hf : sched.Fair) (fuel : Nat) :
    ∀ {k : Nat} {st : SppfSt}, Descending k st → k + fuel < n → sppfLoop (hollowSG n) inp N sched fuel st = none := by
  induction fuel with
  | zero =>
    intro k st h _
    unfold sppfLoop
    rw [h.work]
    simp [h.aborted]
  | succ fuel ih =>
    intro k st h hk
    unfold sppfLoop
    rw [h.work]
    simp only
    rw [if_neg (by rw [h.aborted]; exact Bool.false_ne_true)]
    have h' := descend_step (n := n) (k := k) (by omega) inp N hf h
    exact ih h' (show k + 1 + fuel < n by omega)

/-- The same state of `ParseBSR`. -/
structure BDescending (k : Nat) (st : BsrSt) : Prop where
  work : st.work = [⟨⟨1, 1, 0⟩, some (under k), 0, k⟩]
  aborted : st.aborted = false
  popped : st.popped = []
  edges : ∀ x ∈ st.edges, x.1.ret = ⟨1, 1, 2⟩ → x.1.rc < k
  seen : ∀ d ∈ st.seen, d.rc ≤ k

theorem bdescend_step {n k : Nat} (hk : k + 1 < n) (inp : Bytes) (N : Nat) {sched : Sched Nat} (hf : sched.Fair) {st : BsrSt}
    (h : BDescending k st) :
    BDescending (k + 1) (bsrProcess (hollowSG n) inp N sched ⟨⟨1, 1, 0⟩, some (under k), 0, k⟩ { st with work := [] }) := by
  have e3 : bsrCreate (hollowSG n) N sched ⟨1, 1, 2⟩ (some (under k)) 0 k { st with work := [] } =
      { st with work := [], edges := st.edges ++ [(⟨⟨1, 1, 2⟩, 0, k⟩, some (under k))], tick := st.tick + 1 } := by
    unfold bsrCreate
    have hz : sched st.tick (bsrPoppedOf ⟨⟨1, 1, 2⟩, 0, k⟩ { st with work := [] }) = [] := by
      have : bsrPoppedOf ⟨⟨1, 1, 2⟩, 0, k⟩ { st with work := [] } = [] := by
        unfold bsrPoppedOf
        rw [show ({ st with work := [] } : BsrSt).popped = [] from h.popped]
        rfl
      rw [this]
      exact List.perm_nil.mp (hf _ _)
    simp only [hz, List.foldl_nil]
    rw [if_neg]
    intro hm
    have := h.edges _ hm rfl
    simp at this
  have e5 : bsrProcess (hollowSG n) inp N sched ⟨⟨1, 1, 0⟩, some (under k), 0, k⟩ { st with work := [] } =
      bsrAdd ⟨⟨1, 1, 0⟩, some (under (k + 1)), 0, k + 1⟩ { st with work := [], edges := st.edges ++ [(⟨⟨1, 1, 2⟩, 0, k⟩, some (under k))], tick := st.tick + 1 } := by
    show bsrProcessFrom (hollowSG n) inp N sched (some (under k)) k [.term (.charVal false []), .nt 1] ⟨1, 1, 0⟩ 0 _ = _
    rw [bsrProcessFrom]
    · rw [matches_empty]
      show bsrProcessFrom (hollowSG n) inp N sched (some (under k)) k [.nt 1] ⟨1, 1, 1⟩ 0 _ = _
      rw [bsrProcessFrom]
      show (startAlts (hollowSG n) 1 (childRC (hollowSG n) 1 k 1)).foldl _ (bsrCreate (hollowSG n) N sched ⟨1, 1, 2⟩ (some (under k)) 0 k _) = _
      rw [hollow_child, hollow_alts hk]
      rw [List.foldl_cons, List.foldl_nil]
      rw [show bsrRecord (hollowSG n) N (Slot.next ⟨1, 1, 0⟩) (posOf (some (under k))) 0 0 { st with work := [] } = { st with work := [] } from rfl, e3]
      rfl
    · intro s h
      cases h
  rw [e5]
  unfold bsrAdd
  rw [if_neg]
  · refine ⟨rfl, h.aborted, h.popped, ?_, ?_⟩
    · intro x hx hr
      rcases List.mem_append.mp hx with hx | hx
      · have := h.edges x hx hr
        omega
      · rw [List.mem_singleton.mp hx]
        exact Nat.lt_succ_self _
    · intro d hd
      rcases List.mem_cons.mp hd with rfl | hd
      · exact Nat.le_refl _
      · have := h.seen d hd
        omega
  · intro hm
    have := h.seen _ hm
    simp at this

theorem bdescend_first {n : Nat} (hn : 0 < n) (inp : Bytes) (N : Nat) {sched : Sched Nat} (hf : sched.Fair) :
    (bsrInit (hollowSG n)).work = [⟨⟨0, 0, 0⟩, none, 0, 0⟩] ∧ (bsrInit (hollowSG n)).aborted = false ∧
    BDescending 0 (bsrProcess (hollowSG n) inp N sched ⟨⟨0, 0, 0⟩, none, 0, 0⟩ { bsrInit (hollowSG n) with work := [] }) := by
  refine ⟨rfl, rfl, ?_⟩
  have e : bsrProcess (hollowSG n) inp N sched ⟨⟨0, 0, 0⟩, none, 0, 0⟩ { bsrInit (hollowSG n) with work := [] } =
      { work := [⟨⟨1, 1, 0⟩, some (under 0), 0, 0⟩], seen := [⟨⟨1, 1, 0⟩, some (under 0), 0, 0⟩, ⟨⟨0, 0, 0⟩, none, 0, 0⟩],
        edges := [(under 0, none)], tick := 1 } := by
    show bsrProcessFrom (hollowSG n) inp N sched none 0 [.nt 1] ⟨0, 0, 0⟩ 0 _ = _
    rw [bsrProcessFrom]
    show (startAlts (hollowSG n) 1 0).foldl _ _ = _
    rw [hollow_alts hn, List.foldl_cons, List.foldl_nil]
    have hz : sched 0 [] = [] := List.perm_nil.mp (hf _ _)
    have e3 : bsrCreate (hollowSG n) N sched (Slot.next ⟨0, 0, 0⟩) none 0 0 { bsrInit (hollowSG n) with work := [] } =
        { seen := [⟨⟨0, 0, 0⟩, none, 0, 0⟩], edges := [(under 0, none)], tick := 1 } := by
      show List.foldl _ _ (sched 0 []) = _
      rw [hz]
      rfl
    rw [e3]
    rfl
  rw [e]
  refine ⟨rfl, rfl, rfl, ?_, ?_⟩
  · intro x hx hr
    rw [List.mem_singleton.mp hx] at hr
    cases hr
  · intro d hd
    rcases List.mem_cons.mp hd with rfl | hd
    · exact Nat.le_refl _
    · rw [List.mem_singleton.mp hd]

theorem bdescending_none {n : Nat} (inp : Bytes) (N : Nat) {sched : Sched Nat} (hf : sched.Fair) (fuel : Nat) :
    ∀ {k : Nat} {st : BsrSt}, BDescending k st → k + fuel < n → bsrLoop (hollowSG n) inp N sched fuel st = none := by
  induction fuel with
  | zero =>
    intro k st h _
    unfold bsrLoop
    rw [h.work]
    simp [h.aborted]
  | succ fuel ih =>
    intro k st h hk
    unfold bsrLoop
    rw [h.work]
    simp only
    rw [if_neg (by rw [h.aborted]; exact Bool.false_ne_true)]
    have h' := bdescend_step (n := n) (k := k) (by omega) inp N hf h
    exact ih h' (show k + 1 + fuel < n by omega)

end GllCost

namespace Props
open GllCost

/-- C113.  If repetitions whose element can be empty do not count beyond `B`, the number of rounds of both parsers, that
is of descriptors they ever hold, is cubic in the length of the input, however large other counts are. -/
theorem C113_rounds (g : Grammar) (hwf : NumValsWF g) (hdp : DistinctPrint g) (root : Str) (maxSlots : Nat) (sg : SG)
    (h : compileSlots g root maxSlots = .ok sg) (B : Nat)
    (hB : ∀ r ∈ rulesReps (g.rules ++ Core.rules), Derives g r.elem [] → r.max.getD r.min ≤ B) (inp : Bytes) (N fuel : Nat)
    (hfuel : slotCount sg * (1 + slotCount sg * (inp.length + 1) * (max inp.length B + 1)) * (inp.length + 1) ≤ fuel) :
    (∀ sched : Sched NodeKey, sched.Fair → ∃ st, sppfLoop sg inp N sched fuel (sppfInit sg) = some st) ∧
    (∀ sched : Sched Nat, sched.Fair → ∃ st, bsrLoop sg inp N sched fuel (bsrInit sg) = some st) := by
  obtain ⟨ix, hl, _, _⟩ := compileSlots_lowered h
  have hc := lowered_consuming hl hdp hwf inp hB
  rw [← points_length] at hfuel
  constructor
  · intro sched hf
    obtain ⟨h1, h2⟩ := loopInv_init sg inp
    exact sppf_rounds hl.ok hc hf fuel 0 h1 (by omega) (by omega)
  · intro sched hf
    obtain ⟨h1, h2⟩ := bloopInv_init sg inp
    exact bsr_rounds hl.ok hc hf fuel 0 h1 (by omega) (by omega)

/-- C113.  With `a = n""` both parsers make more than `n` rounds, on every input and whatever the budgets. -/
theorem C113_at_least (n : Nat) (hn : 2 ≤ n) (maxSlots : Nat) (hs : maxSlots = 0 ∨ 2 < maxSlots) :
    ∃ sg, compileSlots (hollow n) (str% "a") maxSlots = .ok sg ∧
      (∀ sched : Sched NodeKey, sched.Fair → ∀ inp N, ∀ fuel ≤ n, sppfLoop sg inp N sched fuel (sppfInit sg) = none) ∧
      (∀ sched : Sched Nat, sched.Fair → ∀ inp N, ∀ fuel ≤ n, bsrLoop sg inp N sched fuel (bsrInit sg) = none) := by
  refine ⟨hollowSG n, ?_, ?_, ?_⟩
  · rcases hs with rfl | hs
    · exact hollow_compiles hn
    · exact (C11_budget _ _ _ (by omega) _).mpr ⟨hollow_compiles hn, hs⟩
  · intro sched hf inp N fuel hle
    obtain ⟨h1, h2, h3⟩ := descend_first (n := n) (by omega) inp N hf
    unfold sppfLoop
    rw [h1]
    simp only [h2, Bool.false_eq_true, if_false]
    cases fuel with
    | zero => rfl
    | succ fuel => exact descending_none inp N hf fuel h3 (by omega)
  · intro sched hf inp N fuel hle
    obtain ⟨h1, h2, h3⟩ := bdescend_first (n := n) (by omega) inp N hf
    unfold bsrLoop
    rw [h1]
    simp only [h2, Bool.false_eq_true, if_false]
    cases fuel with
    | zero => rfl
    | succ fuel => exact bdescending_none inp N hf fuel h3 (by omega)

/-- `a = 9999999999"x" [a]`. -/
def heavy : Grammar := ⟨[⟨str% "a", [[⟨9999999999, some 9999999999, .charVal false (str% "x")⟩, ⟨1, some 1, .option [[⟨1, some 1, .rulename (str% "a")⟩]]⟩]]⟩]⟩

/-- C113_rounds: a large count of an element that consumes input, and an option. -/
example : NumValsWF heavy ∧ DistinctPrint heavy ∧ (∃ sg, compileSlots heavy (str% "a") 65536 = .ok sg ∧ slotCount sg < 30) ∧
    (∀ r ∈ rulesReps (heavy.rules ++ Core.rules), Derives heavy r.elem [] → r.max.getD r.min ≤ 1) ∧
    Derives heavy (.option [[⟨1, some 1, .rulename (str% "a")⟩]]) [] := by
  refine ⟨numValsWF_of (by decide), distinctPrint_of (by decide +kernel), ⟨_, rfl, by decide +kernel⟩, ?_, .optNone _⟩
  have key : ∀ r ∈ rulesReps (heavy.rules ++ Core.rules), r.elem = .charVal false (str% "x") ∨ r.max.getD r.min ≤ 1 := by decide +kernel
  intro r hr hd
  rcases key r hr with h | h
  · rw [h] at hd
    generalize hw : ([] : Bytes) = w at hd
    cases hd with
    | term _ cs ht =>
      cases ht with
      | insensitive _ cs h =>
        cases h with
        | cons h1 h2 => cases h2; simp [utf8] at hw
  · exact h

/-- C113 as promised fails: a source of 27 bytes makes both parsers run for more than 2^63 - 1 rounds, even on the empty
input and with budgets of one node and three nonterminals. -/
theorem C113_fails (sched : Sched NodeKey) (hf : sched.Fair) : ∃ (s : Str) (g : Grammar) (sg : SG),
    s = str% "a = 9223372036854775807\"\"\r\n" ∧ (utf8 s).length = 27 ∧ parseABNF sched (utf8 s) [] = .ok g ∧
    compileSlots g (str% "a") 3 = .ok sg ∧
    (∀ sched' : Sched NodeKey, sched'.Fair → ∀ inp, ∀ fuel ≤ 2 ^ 63 - 1, sppfLoop sg inp 1 sched' fuel (sppfInit sg) = none) ∧
    (∀ sched' : Sched Nat, sched'.Fair → ∀ inp, ∀ fuel ≤ 2 ^ 63 - 1, bsrLoop sg inp 1 sched' fuel (bsrInit sg) = none) := by
  have hs : (hollow (2 ^ 63 - 1)).str = str% "a = 9223372036854775807\"\"\r\n" := by decide +kernel
  have hp : parseABNF sched (utf8 (hollow (2 ^ 63 - 1)).str) [] = .ok (hollow (2 ^ 63 - 1)) := by
    refine (C79_same_partial (hollow (2 ^ 63 - 1)) (by decide) (by decide) (namesDistinct_of (by decide)) ?_
      (by unfold Fits; decide) (by decide) sched hf [] fun _ => sound_of (by decide) (by decide)).1
    intro r hr
    rw [show r = _ from List.mem_singleton.mp hr]
    rintro ⟨c, hc, hn⟩
    rw [sameName_iff] at hn
    revert c
    decide
  obtain ⟨sg, h1, h2, h3⟩ := C113_at_least (2 ^ 63 - 1) (by decide) 3 (.inr (by decide))
  exact ⟨_, _, sg, rfl, by decide +kernel, hs ▸ hp, h1, fun sched' hf' inp => h2 sched' hf' inp 1, fun sched' hf' inp => h3 sched' hf' inp 1⟩

/-- C113 for the emitted parsers: the rounds of the loop of an emitted `Parse` (/repo/codegen.go:869-889) are bounded
like those of `ParseBSR`, whatever the budget `MaxElements`. -/
theorem C113_emitted (g : Grammar) (hwf : NumValsWF g) (hdp : DistinctPrint g) (root : Str) (p : Cg.Prog)
    (h : Cg.generate g root = .ok p) (B : Nat)
    (hB : ∀ r ∈ rulesReps (g.rules ++ Core.rules), Derives g r.elem [] → r.max.getD r.min ≤ B) :
    ∃ sg, compileSlots g root Cg.defaultMaxSlots = .ok sg ∧ ∀ sched : Sched Nat, sched.Fair → ∀ inp N fuel,
      slotCount sg * (1 + slotCount sg * (inp.length + 1) * (max inp.length B + 1)) * (inp.length + 1) ≤ fuel →
      Cg.parse p N sched fuel inp ≠ .diverges := by
  obtain ⟨sg, hc, rfl⟩ := Cg.generate_ok h
  refine ⟨sg, hc, fun sched hf inp N fuel hfuel hd => ?_⟩
  obtain ⟨st, hst⟩ := (C113_rounds g hwf hdp root _ sg hc B hB inp N fuel hfuel).2 sched hf
  obtain ⟨ix, hl, _, _⟩ := compileSlots_lowered hc
  have hs := Cg.sim_loop (root := root) (N := N) hl.ok hf fuel _ _ (Cg.sim_seeded (sg := sg) (inp := inp) (root := root) hl.ok)
  rw [hst] at hs
  obtain ⟨g', _, h1, _⟩ := hs
  unfold Cg.parse at hd
  rw [h1] at hd
  split at hd
  · rename_i h; exact absurd h (by simp)
  · split at hd <;> exact absurd hd (by simp)
  · split at hd <;> exact absurd hd (by simp)

/-- C113_emitted: a parser is emitted for `heavy`, whose other hypotheses are shown above. -/
example : ∃ p, Cg.generate heavy (str% "a") = .ok p := ⟨_, rfl⟩

/-- C113: the parser emitted for the text of 27 bytes of `C113_fails` has not returned after 2^63-1 rounds, whatever the
input and the budget. -/
theorem C113_emitted_fails : ∃ p, Cg.generate (hollow (2 ^ 63 - 1)) (str% "a") = .ok p ∧
    ∀ sched : Sched Nat, sched.Fair → ∀ inp N, ∀ fuel ≤ 2 ^ 63 - 1, Cg.parse p N sched fuel inp = .diverges := by
  obtain ⟨sg, h1, _, h3⟩ := C113_at_least (2 ^ 63 - 1) (by decide) Cg.defaultMaxSlots (.inr (by decide))
  refine ⟨Cg.emit sg (str% "a"), by unfold Cg.generate; rw [h1], fun sched hf inp N fuel hle => ?_⟩
  obtain ⟨ix, hl, _, _⟩ := compileSlots_lowered h1
  have hs := Cg.sim_loop (root := str% "a") (N := N) hl.ok hf fuel _ _ (Cg.sim_seeded (sg := sg) (inp := inp) (root := str% "a") hl.ok)
  rw [h3 sched hf inp N fuel hle] at hs
  unfold Cg.parse
  rw [hs]

end Props
end Verif
