import Verif.CodegenSim
import Verif.PackedMap

/-!
# The emitted queries answer like those of the interpreter

Over the same set of elements, numbered, every query of the emitted `Result` (/repo/codegen.go:600-867) gives the
answer of `BSRForest` (/repo/bsr.go:291-549).
-/

namespace Verif
namespace Cg

section
variable {sg : SG} {root : Str} {inp : Bytes} {S : List BsrElem}

/-- Every element is about a slot of the grammar with something before the dot. -/
def OkSet (sg : SG) (S : List BsrElem) : Prop := ∀ e ∈ S, IsSlot sg e.slot ∧ 1 ≤ e.slot.dot

/-- The result of the emitted parser for the set `S` of the interpreter. -/
abbrev encR (sg : SG) (inp : Bytes) (S : List BsrElem) : Result := ⟨inp, S.map (encE sg)⟩

theorem pivots_enc (hS : OkSet sg S) {L : Slot} (hL : IsSlot sg L) (l r : Nat) :
    (encR sg inp S).pivots (enc sg L) l r = (⟨sg, inp, S⟩ : BsrForest).pivots L l r := by
  unfold Result.pivots BsrForest.pivots encR
  simp only []
  induction S with
  | nil => rfl
  | cons e S ih =>
    have ih := ih fun x hx => hS x (List.mem_cons_of_mem _ hx)
    have he := (hS e (by simp)).1
    simp only [List.map_cons, List.filter_cons]
    have hiff : ((encE sg e).sl = enc sg L ∧ (encE sg e).l = l ∧ (encE sg e).r = r) ↔ (e.slot = L ∧ e.l = l ∧ e.r = r) := by
      simp only [encE]
      constructor
      · rintro ⟨h1, h2⟩; exact ⟨enc_inj he hL h1, h2⟩
      · rintro ⟨rfl, h2⟩; exact ⟨rfl, h2⟩
    by_cases hc : e.slot = L ∧ e.l = l ∧ e.r = r
    · rw [if_pos (by simpa using hiff.mpr hc), if_pos (by simpa using hc), List.map_cons, List.map_cons, ih]; rfl
    · rw [if_neg (by simpa using fun a b => (not_and.mp (not_and.mp (mt hiff.mp hc) a)) b), if_neg (by simpa using hc), ih]

theorem pivots_dot (hS : OkSet sg S) {L : Slot} {l k r : Nat} (h : k ∈ (⟨sg, inp, S⟩ : BsrForest).pivots L l r) :
    IsSlot sg L ∧ 1 ≤ L.dot := hS ⟨L, l, k, r⟩ (mem_pivots.mp h)

theorem info_enc {L : Slot} (hL : IsSlot sg L) :
    (emit sg root).info (enc sg L) = ⟨L.nt, L.alt, L.dot, (sg.prod L).length⟩ := by
  unfold Prog.info
  rw [List.getD_eq_getElem?_getD, show (emit sg root).slotInfo = (assignSlots sg).2 from rfl, slots_enc hL]
  rfl

theorem qnt_enc {n : Nat} : (emit sg root).qnt n =
    ⟨(sg.nt n).isRule, (sg.nt n).ruleName, (sg.alts n).map fun p => p.map qSym⟩ := by
  unfold Prog.qnt SG.alts SG.nt
  rw [List.getD_eq_getElem?_getD, List.getD_eq_getElem?_getD]
  show ((sg.nts.map fun n => (⟨n.isRule, n.ruleName, n.alts.map fun p => p.map qSym⟩ : QNT))[n]?).getD _ = _
  rw [List.getElem?_map]
  cases sg.nts[n]? <;> rfl

theorem prod_enc {L : Slot} (hL : IsSlot sg L) : (emit sg root).prod (enc sg L) = (sg.prod L).map qSym := by
  unfold Prog.prod
  rw [info_enc hL]
  simp only [qnt_enc]
  unfold SG.prod
  rw [List.getD_eq_getElem?_getD, List.getD_eq_getElem?_getD, List.getElem?_map]
  cases (sg.alts L.nt)[L.alt]? <;> rfl

theorem getD_qSym (p : List Sym) (i : Nat) : (p.map qSym).getD i .eps = qSym (p.getD i .eps) := by
  rw [List.getD_eq_getElem?_getD, List.getD_eq_getElem?_getD, List.getElem?_map]
  cases p[i]? <;> rfl

theorem isSlot_end {n a : Nat} (hn : n < sg.nts.length) (ha : a < (sg.alts n).length) : IsSlot sg (sg.endSlot n a) :=
  ⟨hn, ha, le_refl _⟩

theorem complete_enc {n : Nat} (hn : n < sg.nts.length) : (emit sg root).complete n =
    (List.range (sg.alts n).length).map fun a => enc sg (sg.endSlot n a) := by
  unfold Prog.complete
  rw [List.getD_eq_getElem?_getD]
  show (((List.range sg.nts.length).map fun nt =>
      (List.range (sg.alts nt).length).map fun alt => compID sg (assignSlots sg).1 nt alt)[n]?).getD [] = _
  rw [List.getElem?_map, List.getElem?_range hn]
  rfl

theorem nt_lt (hok : SGOK sg) {L : Slot} {i n : Nat} (hL : IsSlot sg L) (h : (sg.prod L).getD i .eps = .nt n) :
    n < sg.nts.length := by
  have hp : sg.prod L ∈ sg.alts L.nt := by
    unfold SG.prod
    rw [List.getD_eq_getElem?_getD, List.getElem?_eq_getElem hL.2.1]
    exact List.getElem_mem _
  refine hok.refs L.nt _ hp n ?_
  rw [List.getD_eq_getElem?_getD] at h
  cases hi : (sg.prod L)[i]? with
  | none => rw [hi] at h; cases h
  | some s =>
    rw [hi] at h
    simp only [Option.getD_some] at h
    subst h
    exact List.mem_of_getElem? hi

/-- `Valid`. -/
theorem valid_enc (hok : SGOK sg) (hS : OkSet sg S) :
    (encR sg inp S).valid (emit sg root) = (⟨sg, inp, S⟩ : BsrForest).valid := by
  unfold Result.valid BsrForest.valid
  have hc := complete_enc (root := root) hok.startLt
  unfold Prog.complete at hc
  rw [show (emit sg root).start = sg.start from rfl, hc, List.any_map]
  refine Bool.eq_iff_iff.mpr ?_
  simp only [List.any_eq_true, Function.comp_apply, List.mem_range]
  constructor
  · rintro ⟨a, ha, hl⟩
    rw [pivots_enc hS (isSlot_end hok.startLt ha)] at hl
    exact ⟨a, ha, hl⟩
  · rintro ⟨a, ha, hl⟩
    refine ⟨a, ha, ?_⟩
    rw [pivots_enc hS (isSlot_end hok.startLt ha)]
    exact hl

/-! ## Counting -/

/-- A node of the interpreter, as the emitted program has it; leaves do not occur. -/
def encNode (sg : SG) : NodeKey → NodeID
  | .sym n l r => .sym n l r
  | .inter L l r => .inter (enc sg L) l r
  | .term l r => .sym 0 l r

/-- The nodes the searches meet. -/
def OkNode (sg : SG) : NodeKey → Prop
  | .sym n _ _ => n < sg.nts.length
  | .inter L _ _ => IsSlot sg L
  | .term _ _ => False

theorem qKid_enc (s : Sym) (a b : Nat) : qKid (qSym s) a b = (symKid s a b).map (encNode sg) := by
  cases s <;> rfl

theorem isSlot_pred {L : Slot} (hL : IsSlot sg L) : IsSlot sg ⟨L.nt, L.alt, L.dot - 1⟩ :=
  ⟨hL.1, hL.2.1, Nat.le_trans (Nat.sub_le _ _) hL.2.2⟩

theorem enc_pred {L : Slot} (hd : 1 ≤ L.dot) : enc sg L - 1 = enc sg ⟨L.nt, L.alt, L.dot - 1⟩ := by
  simp only [enc]; omega

theorem elemKids_enc {L : Slot} (hL : IsSlot sg L) (hd : 1 ≤ L.dot) (l k r : Nat) :
    qElemKids (emit sg root) (enc sg L) l k r = (elemKids sg L l k r).map (encNode sg) := by
  unfold qElemKids elemKids
  rw [prod_enc hL, info_enc hL]
  simp only [getD_qSym, qKid_enc (sg := sg), List.map_append]
  congr 1
  by_cases h1 : L.dot = 1
  · simp [h1]
  · rw [if_neg h1, if_neg h1]
    by_cases h2 : L.dot = 2
    · rw [if_pos h2, if_pos h2]
    · rw [if_neg h2, if_neg h2, enc_pred hd]; rfl

theorem symKid_ok (hok : SGOK sg) {L : Slot} {i : Nat} (hL : IsSlot sg L) {a b : Nat} {c : NodeKey}
    (h : c ∈ symKid ((sg.prod L).getD i .eps) a b) : OkNode sg c := by
  cases hs : (sg.prod L).getD i .eps with
  | nt n =>
    rw [hs] at h
    simp only [symKid, List.mem_singleton] at h
    subst h
    exact nt_lt hok hL hs
  | eps => rw [hs] at h; simp [symKid] at h
  | term e => rw [hs] at h; simp [symKid] at h

theorem elemKids_ok (hok : SGOK sg) {L : Slot} (hL : IsSlot sg L) {l k r : Nat} {c : NodeKey}
    (h : c ∈ elemKids sg L l k r) : OkNode sg c := by
  unfold elemKids at h
  rcases List.mem_append.mp h with h | h
  · exact symKid_ok hok hL h
  · split_ifs at h
    · cases h
    · exact symKid_ok hok hL h
    · simp only [List.mem_singleton] at h
      subst h
      exact isSlot_pred hL

theorem renames (hok : SGOK sg) (hS : OkSet sg S) :
    Renames (⟨sg, inp, S⟩ : BsrForest).packsOf ((encR sg inp S).packsOf (emit sg root)) (encNode sg) (OkNode sg) where
  closed := by
    intro n hn pk hpk c hc
    cases n with
    | term => exact hn.elim
    | sym n l r =>
      simp only [BsrForest.packsOf, List.mem_flatMap, List.mem_map, List.mem_range] at hpk
      obtain ⟨a, ha, k, _, rfl⟩ := hpk
      exact elemKids_ok hok (isSlot_end hn ha) hc
    | inter L l r =>
      simp only [BsrForest.packsOf, List.mem_map] at hpk
      obtain ⟨k, _, rfl⟩ := hpk
      exact elemKids_ok hok hn hc
  inj := by
    intro a b ha hb h
    cases a <;> cases b <;> first | exact ha.elim | exact hb.elim | skip
    · simp only [encNode, NodeID.sym.injEq] at h; simp [h]
    · simp [encNode] at h
    · simp [encNode] at h
    · simp only [encNode, NodeID.inter.injEq] at h
      rw [enc_inj ha hb h.1, h.2.1, h.2.2]
  packs := by
    intro n hn
    cases n with
    | term => exact hn.elim
    | sym n l r =>
      simp only [encNode, Result.packsOf, BsrForest.packsOf]
      rw [complete_enc hn, List.flatMap_map, List.map_flatMap]
      refine List.flatMap_congr fun a ha => ?_
      have hL := isSlot_end hn (List.mem_range.mp ha)
      rw [pivots_enc hS hL, List.map_map]
      refine List.map_congr_left fun k hk => ?_
      exact elemKids_enc hL (pivots_dot hS hk).2 _ _ _
    | inter L l r =>
      simp only [encNode, Result.packsOf, BsrForest.packsOf]
      rw [pivots_enc hS hn, List.map_map]
      refine List.map_congr_left fun k hk => ?_
      exact elemKids_enc hn (pivots_dot hS hk).2 _ _ _

/-- `NumTrees`. -/
theorem numTrees_enc (hok : SGOK sg) (hS : OkSet sg S) :
    (encR sg inp S).numTrees (emit sg root) = (⟨sg, inp, S⟩ : BsrForest).numTrees := by
  unfold Result.numTrees BsrForest.numTrees
  rw [valid_enc hok hS]
  have h1 := numTreesFrom_map (renames (inp := inp) (root := root) hok hS) false (S.length + 2)
    (root := .sym sg.start 0 inp.length) hok.startLt
  split_ifs with hv
  · simpa [Result.fuel, BsrForest.fuel, Result.root, BsrForest.root, encNode, emit] using h1
  · rfl

/-- `Ambiguous`. -/
theorem ambiguous_enc (hok : SGOK sg) (hS : OkSet sg S) :
    (encR sg inp S).ambiguous (emit sg root) = (⟨sg, inp, S⟩ : BsrForest).ambiguous := by
  unfold Result.ambiguous BsrForest.ambiguous
  rw [valid_enc hok hS]
  have h1 := ambiguousFrom_map (renames (inp := inp) (root := root) hok hS) (S.length + 2)
    (root := .sym sg.start 0 inp.length) hok.startLt
  split_ifs with hv
  · simpa [Result.fuel, BsrForest.fuel, Result.root, BsrForest.root, encNode, emit] using h1
  · rfl

/-! ## Trees -/

theorem findSome?_map_congr {α β γ δ : Type} {l : List α} {e : α → β} {f : β → Option δ} {g : α → Option γ} {h : γ → δ}
    (hc : ∀ a ∈ l, f (e a) = (g a).map h) : (l.map e).findSome? f = (l.findSome? g).map h := by
  induction l with
  | nil => rfl
  | cons a l ih =>
    have ih := ih fun x hx => hc x (List.mem_cons_of_mem _ hx)
    simp only [List.map_cons, List.findSome?_cons, hc a (by simp)]
    cases g a <;> simp [ih]

theorem pick_enc (hS : OkSet sg S) {n : Nat} (hn : n < sg.nts.length) (a b : Nat) :
    (encR sg inp S).pick (emit sg root) n a b =
      ((⟨sg, inp, S⟩ : BsrForest).pick n a b).map fun q => (enc sg q.1, q.2) := by
  unfold Result.pick BsrForest.pick
  rw [complete_enc hn]
  refine findSome?_map_congr fun ai hai => ?_
  rw [pivots_enc hS (isSlot_end hn (List.mem_range.mp hai)), Option.map_map]
  rfl

theorem pick_ok (hS : OkSet sg S) {n a b : Nat} {L : Slot} {k : Nat}
    (h : (⟨sg, inp, S⟩ : BsrForest).pick n a b = some (L, k)) : IsSlot sg L ∧ 1 ≤ L.dot := by
  unfold BsrForest.pick at h
  obtain ⟨ai, _, h1⟩ := List.exists_of_findSome?_eq_some h
  obtain ⟨k', h2, h3⟩ := Option.map_eq_some_iff.mp h1
  simp only [Prod.mk.injEq] at h3
  obtain ⟨rfl, rfl⟩ := h3
  exact pivots_dot hS (List.mem_of_head? h2)

theorem mem_visited (vis : List NodeKey) (hv : ∀ x ∈ vis, OkNode sg x) (n a b : Nat) :
    NodeID.sym n a b ∈ vis.map (encNode sg) ↔ NodeKey.sym n a b ∈ vis := by
  constructor
  · intro h
    obtain ⟨x, hx, he⟩ := List.mem_map.mp h
    have := hv x hx
    cases x with
    | term => exact this.elim
    | inter => simp [encNode] at he
    | sym =>
      simp only [encNode, NodeID.sym.injEq] at he
      obtain ⟨rfl, rfl, rfl⟩ := he
      exact hx
  · intro h; exact List.mem_map_of_mem (f := encNode sg) h

theorem collectChild_enc (hS : OkSet sg S)
    {rec : List NodeKey → Slot → Nat → Nat → Nat → Option (List ParseTree)}
    {rec' : List NodeID → Nat → Nat → Nat → Nat → Option (List ParseTree)}
    (hrec : ∀ vis, (∀ x ∈ vis, OkNode sg x) → ∀ L, IsSlot sg L → 1 ≤ L.dot → ∀ l k r,
      rec' (vis.map (encNode sg)) (enc sg L) l k r = rec vis L l k r)
    (vis : List NodeKey) (hv : ∀ x ∈ vis, OkNode sg x) (s : Sym) (hs : ∀ n, s = .nt n → n < sg.nts.length) (a b : Nat) :
    (encR sg inp S).collectChild (emit sg root) rec' (vis.map (encNode sg)) (qSym s) a b =
      (⟨sg, inp, S⟩ : BsrForest).collectChild rec vis s a b := by
  cases s with
  | eps => rfl
  | term e => rfl
  | nt n =>
    have hn := hs n rfl
    simp only [qSym, Result.collectChild, BsrForest.collectChild]
    by_cases h1 : NodeKey.sym n a b ∈ vis
    · rw [if_pos h1, if_pos ((mem_visited vis hv n a b).mpr h1)]
    · rw [if_neg h1, if_neg (mt (mem_visited vis hv n a b).mp h1), pick_enc hS hn]
      cases hp : (⟨sg, inp, S⟩ : BsrForest).pick n a b with
      | none => rfl
      | some q =>
        obtain ⟨L, k⟩ := q
        obtain ⟨hL, hd⟩ := pick_ok hS hp
        simp only [Option.map_some, qnt_enc]
        have := hrec (.sym n a b :: vis) (by
          intro x hx
          rcases List.mem_cons.mp hx with rfl | hx
          · exact hn
          · exact hv x hx) L hL hd a k b
        rw [List.map_cons] at this
        rw [show NodeID.sym n a b = encNode sg (.sym n a b) from rfl, this]

theorem collectElem_enc (hok : SGOK sg) (hS : OkSet sg S) : ∀ (fuel : Nat) (vis : List NodeKey),
    (∀ x ∈ vis, OkNode sg x) → ∀ L, IsSlot sg L → 1 ≤ L.dot → ∀ l k r,
    (encR sg inp S).collectElem (emit sg root) fuel (vis.map (encNode sg)) (enc sg L) l k r =
      (⟨sg, inp, S⟩ : BsrForest).collectElem fuel vis L l k r := by
  intro fuel
  induction fuel with
  | zero => intros; rfl
  | succ fuel ih =>
    intro vis hv L hL hd l k r
    simp only [Result.collectElem, BsrForest.collectElem]
    rw [info_enc hL, prod_enc hL]
    simp only [getD_qSym]
    rw [collectChild_enc hS (fun vis hv L hL hd l k r => ih vis hv L hL hd l k r) vis hv _ (fun n hn => nt_lt hok hL hn),
      collectChild_enc hS (fun vis hv L hL hd l k r => ih vis hv L hL hd l k r) vis hv _ (fun n hn => nt_lt hok hL hn)]
    congr 1
    by_cases h1 : L.dot = 1
    · rw [if_pos h1, if_pos h1]
    · rw [if_neg h1, if_neg h1]
      by_cases h2 : L.dot = 2
      · rw [if_pos h2, if_pos h2]
      · rw [if_neg h2, if_neg h2, enc_pred hd, pivots_enc hS (isSlot_pred hL)]
        cases hp : (⟨sg, inp, S⟩ : BsrForest).pivots ⟨L.nt, L.alt, L.dot - 1⟩ l k with
        | nil => rfl
        | cons k' ks => exact ih vis hv _ (isSlot_pred hL) (by show 1 ≤ L.dot - 1; omega) l k' k

/-- `Tree`; the start symbol is a rule. -/
theorem treeWith_enc (hok : SGOK sg) (hS : OkSet sg S) (hr : (sg.nt sg.start).isRule = true) (fuel : Nat) :
    (encR sg inp S).treeWith (emit sg root) fuel = (⟨sg, inp, S⟩ : BsrForest).treeWith fuel := by
  unfold Result.treeWith BsrForest.treeWith
  rw [valid_enc hok hS, show (emit sg root).start = sg.start from rfl, pick_enc hS hok.startLt]
  simp only [hr, if_true, qnt_enc]
  cases hp : (⟨sg, inp, S⟩ : BsrForest).pick sg.start 0 inp.length with
  | none => rfl
  | some q =>
    obtain ⟨L, k⟩ := q
    obtain ⟨hL, hd⟩ := pick_ok hS hp
    simp only [Option.map_some]
    have := collectElem_enc (root := root) (inp := inp) hok hS fuel [] (by simp) L hL hd 0 k inp.length
    rw [List.map_nil] at this
    rw [this]

end
end Cg
end Verif
