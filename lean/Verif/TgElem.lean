import Verif.TgBuild
import Verif.RegexBuild
import Verif.GenLemmas

/-!
# The construction of transition graphs is exact: elements, concatenations, alternations and rules
-/

namespace Verif

open Spec

/-! ## New nodes -/

/-- The nodes `allocAll` makes. -/
theorem allocAll_spec (es : List Elem) : ∀ h : TgHeap,
    (allocAll es h).1 = List.range' h.size es.length ∧ (allocAll es h).2.size = h.size + es.length ∧
    (∀ n < h.size, (allocAll es h).2.elem n = h.elem n ∧ (allocAll es h).2.nexts n = h.nexts n) ∧
    ∀ i (hi : i < es.length), (allocAll es h).2.elem (h.size + i) = es[i] ∧ (allocAll es h).2.nexts (h.size + i) = [] := by
  induction es with
  | nil => intro h; simp [allocAll]
  | cons e es ih =>
    intro h
    obtain ⟨h1, h2, h3, h4⟩ := ih (h.alloc e).2
    simp only [allocAll]
    have hs : (h.alloc e).2.size = h.size + 1 := rfl
    rw [hs] at h1 h2 h3 h4
    refine ⟨?_, ?_, ?_, ?_⟩
    · rw [h1, List.length_cons, List.range'_succ]
      rfl
    · rw [h2, List.length_cons]; omega
    · intro n hn
      obtain ⟨h5, h6⟩ := h3 n (by omega)
      rw [h5, h6]
      simp [TgHeap.alloc, Nat.ne_of_lt hn]
    · intro i hi
      cases i with
      | zero =>
        obtain ⟨h5, h6⟩ := h3 h.size (by omega)
        rw [Nat.add_zero, h5, h6]
        simp [TgHeap.alloc]
      | succ i =>
        have := h4 i (by simpa using hi)
        rw [show h.size + 1 + i = h.size + (i + 1) by omega] at this
        simpa using this

theorem spells_single {D : Elem → Bytes → Prop} {h : TgHeap} {outs : Pts} {n : Nat} (hn : h.nexts n = []) {w : Bytes} :
    Spells D h outs n w ↔ some n ∈ outs ∧ D (h.elem n) w := by
  constructor
  · intro hs
    cases hs with
    | stop _ _ h1 h2 => exact ⟨h1, h2⟩
    | step _ m _ _ h1 h2 => rw [hn] at h2; simp at h2
  · rintro ⟨h1, h2⟩
    exact .stop _ _ h1 h2

/-- Parallel new nodes. -/
theorem alloc_ok {D : Elem → Bytes → Prop} (es : List Elem) (hes : ∀ e ∈ es, leafElem e = true) (h : TgHeap) :
    Extends h (allocAll es h).2 ∧ ∃ R : Finset Nat, (∀ n ∈ R, h.size ≤ n) ∧ R.card = es.length ∧
    FragOK D (allocAll es h).2 R ⟨(allocAll es h).1.map some, (allocAll es h).1.map some⟩ (fun w => ∃ e ∈ es, D e w) := by
  obtain ⟨h1, h2, h3, h4⟩ := allocAll_spec es h
  have hmem : ∀ n, n ∈ (allocAll es h).1 ↔ ∃ i, i < es.length ∧ n = h.size + i := by
    intro n
    rw [h1, List.mem_range']
    constructor
    · rintro ⟨i, h5, h6⟩
      exact ⟨i, h5, by omega⟩
    · rintro ⟨i, h5, h6⟩
      exact ⟨i, h5, by omega⟩
  refine ⟨⟨by omega, fun n hn => ⟨(h3 n hn).1, fun m => by rw [(h3 n hn).2]⟩⟩, (allocAll es h).1.toFinset, ?_, ?_, ?_⟩
  · intro n hn
    obtain ⟨i, _, rfl⟩ := (hmem n).mp (by simpa using hn)
    omega
  · rw [h1, List.toFinset_card_of_nodup List.nodup_range', List.length_range']
  · refine ⟨?_, ?_, ?_, ?_, ?_, ?_, ?_⟩
    · intro n hn; simpa using hn
    · intro n hn; simpa using hn
    · intro n hn m hm
      obtain ⟨i, hi, rfl⟩ := (hmem n).mp (by simpa using hn)
      rw [(h4 i hi).2] at hm
      simp at hm
    · intro n hn
      obtain ⟨i, hi, rfl⟩ := (hmem n).mp (by simpa using hn)
      omega
    · intro n hn
      obtain ⟨i, hi, rfl⟩ := (hmem n).mp (by simpa using hn)
      rw [(h4 i hi).1]
      exact hes _ (List.getElem_mem hi)
    · intro hn; simp at hn
    · intro w
      constructor
      · rintro ⟨e, he, hw⟩
        obtain ⟨i, hi, rfl⟩ := List.mem_iff_getElem.mp he
        have hin : some (h.size + i) ∈ (allocAll es h).1.map some := by
          simpa using (hmem (h.size + i)).mpr ⟨i, hi, rfl⟩
        refine .inr ⟨h.size + i, hin, (spells_single (h4 i hi).2).mpr ⟨hin, ?_⟩⟩
        rw [(h4 i hi).1]
        exact hw
      · rintro (⟨hx, _⟩ | ⟨n, hn, hw⟩)
        · simp at hx
        · obtain ⟨i, hi, rfl⟩ := (hmem n).mp (by simpa using hn)
          obtain ⟨_, h5⟩ := (spells_single (h4 i hi).2).mp hw
          rw [(h4 i hi).1] at h5
          exact ⟨_, List.getElem_mem hi, h5⟩

/-- `linkAll` adds the edges. -/
theorem linkAll_plugged (curr prevs : List Nat) : ∀ h, Plugged h (linkAll curr prevs h) (prevs.map some) (curr.map some) := by
  induction prevs with
  | nil =>
    intro h
    exact ⟨rfl, fun _ => rfl, fun n m => by simp [linkAll]⟩
  | cons v vs ih =>
    intro h
    rw [linkAll]
    have H := ih (h.setNexts v (h.nexts v ++ curr))
    refine ⟨H.size, H.elem, fun n m => ?_⟩
    rw [H.nexts]
    by_cases e : n = v
    · subst e
      simp [TgHeap.setNexts]
      tauto
    · simp [TgHeap.setNexts, e]

/-! ## Deflated characters -/

variable {g : Grammar}

theorem derives_charVal {s : Bool} {vs : List Char} {w : Bytes} :
    Derives g (.charVal s vs) w ↔ ∃ ws, (if s then ws = vs else List.Forall₂ SameLetter vs ws) ∧ w = utf8 ws := by
  constructor
  · intro h
    cases h with
    | term _ cs h =>
      cases h with
      | sensitive => exact ⟨_, rfl, rfl⟩
      | insensitive _ _ h => exact ⟨_, h, rfl⟩
  · rintro ⟨ws, h, rfl⟩
    cases s with
    | true => simp only [if_true] at h; subst h; exact .term _ _ (.sensitive _)
    | false => exact .term _ _ (.insensitive _ _ h)

theorem derives_charVal_nil {s : Bool} {w : Bytes} : Derives g (.charVal s []) w ↔ w = [] := by
  rw [derives_charVal]
  cases s <;> simp [utf8]

theorem derives_charVal_snoc {s : Bool} {vs : List Char} {c : Char} {w : Bytes} :
    Derives g (.charVal s (vs ++ [c])) w ↔ LCat (Derives g (.charVal s vs)) (Derives g (.charVal s [c])) w := by
  constructor
  · intro h
    obtain ⟨ws, h1, rfl⟩ := derives_charVal.mp h
    cases s with
    | true =>
      simp only [if_true] at h1
      subst h1
      exact ⟨_, _, utf8_append .., derives_charVal.mpr ⟨_, rfl, rfl⟩, derives_charVal.mpr ⟨_, rfl, rfl⟩⟩
    | false =>
      simp only [Bool.false_eq_true, if_false] at h1
      have h1' := h1
      rw [List.forall₂_iff_zip] at h1
      obtain ⟨hlen, _⟩ := h1
      have e : ws = ws.take vs.length ++ ws.drop vs.length := (List.take_append_drop _ _).symm
      rw [e] at h1' ⊢
      have hl : vs.length = (ws.take vs.length).length := by simp at hlen ⊢; omega
      have h2 := List.forall₂_take vs.length h1'
      have h3 := List.forall₂_drop vs.length h1'
      rw [List.take_left' rfl, List.take_left' hl.symm] at h2
      rw [List.drop_left' rfl, List.drop_left' hl.symm] at h3
      exact ⟨_, _, utf8_append .., derives_charVal.mpr ⟨_, h2, rfl⟩, derives_charVal.mpr ⟨_, h3, rfl⟩⟩
  · rintro ⟨u, v, rfl, hu, hv⟩
    obtain ⟨us, h1, rfl⟩ := derives_charVal.mp hu
    obtain ⟨ws, h2, rfl⟩ := derives_charVal.mp hv
    rw [← utf8_append]
    refine derives_charVal.mpr ⟨_, ?_, rfl⟩
    cases s with
    | true => simp only [if_true] at h1 h2 ⊢; rw [h1, h2]
    | false => exact List.rel_append h1 h2

theorem derives_caseNodes {s : Bool} {c : Char} {w : Bytes} :
    (∃ e ∈ (caseNodes s c).map (fun d => Elem.charVal true [d]), Derives g e w) ↔ Derives g (.charVal s [c]) w := by
  have hone : ∀ d, Derives g (.charVal true [d]) w ↔ w = utf8 [d] := fun d => by
    rw [derives_charVal]
    simp
  simp only [List.mem_map, exists_exists_and_eq_and, hone]
  have hA : 'A'.toNat = 65 := rfl
  have hZ : 'Z'.toNat = 90 := rfl
  have ha : 'a'.toNat = 97 := rfl
  have hz : 'z'.toNat = 122 := rfl
  cases s with
  | true =>
    rw [hone]
    simp [caseNodes]
  | false =>
    rw [derives_chr]
    constructor
    · rintro ⟨d, hd, rfl⟩
      refine ⟨d, ?_, rfl⟩
      unfold caseNodes at hd
      simp only [and_true] at hd
      split_ifs at hd with h1 h2 h3 h3
      · simp only [List.mem_cons, List.not_mem_nil, or_false] at hd
        rcases hd with rfl | rfl
        · rw [sameLetter_iff, lower_lower]
        · exact upperChar_same c
      · simp only [List.mem_cons, List.not_mem_nil, or_false] at hd
        rcases hd with rfl | rfl
        · rw [sameLetter_iff, lower_lower]
        · exact .inl rfl
      · simp only [List.mem_cons, List.not_mem_nil, or_false] at hd
        rcases hd with rfl | rfl
        · exact .inl rfl
        · exact upperChar_same c
      · simp only [List.mem_cons, List.not_mem_nil, or_false] at hd
        rcases hd with rfl | rfl <;> exact .inl rfl
      · simp only [List.mem_cons, List.not_mem_nil, or_false] at hd
        exact .inl hd.symm
    · rintro ⟨d, hd, rfl⟩
      refine ⟨d, ?_, rfl⟩
      have hup : ∀ x : Char, x.toNat = d.toNat → x = d := fun x h => Char.toNat_inj.mp h
      rcases hd with rfl | ⟨h1, h2, h3⟩ | ⟨h1, h2, h3⟩
      · unfold caseNodes
        simp only [and_true]
        split_ifs with h1 h2 h3 h3
        · omega
        · simp
        · simp
        · simp
        · simp
      · have h1' : 65 ≤ c.toNat := h1
        have h2' : c.toNat ≤ 90 := h2
        unfold caseNodes
        simp only [and_true]
        rw [if_pos (.inr ⟨by omega, by omega⟩), if_pos ⟨by omega, by omega⟩]
        have : lowerChar c = d := by
          apply hup
          rw [lowerChar_toNat, if_pos ⟨by omega, by omega⟩]
          omega
        simp [this]
      · have h1' : 97 ≤ c.toNat := h1
        have h2' : c.toNat ≤ 122 := h2
        unfold caseNodes
        simp only [and_true]
        rw [if_pos (.inl ⟨by omega, by omega⟩), if_neg (by omega), if_pos (show 'a'.toNat ≤ c.toNat ∧ c.toNat ≤ 'z'.toNat from ⟨by omega, by omega⟩)]
        have : upperChar c = d := by
          apply hup
          unfold upperChar
          rw [if_pos ⟨by omega, by omega⟩, toNat_ofNat_char (by omega)]
          omega
        simp [this]

theorem charLoop_ok (s : Bool) (cs : List Char) : ∀ (p : List Char) (ins prevs : List Nat) (h : TgHeap) (R : Finset Nat),
    prevs ≠ [] → FragOK (Derives g) h R ⟨ins.map some, prevs.map some⟩ (Derives g (.charVal s p)) →
    ∃ Q, (charLoop s cs ins prevs h).2.size = h.size + Q.card ∧ Q.card ≤ 2 * cs.length ∧
      Agree (fun n => n < h.size ∧ n ∉ R) h (charLoop s cs ins prevs h).2 ∧ (∀ n ∈ Q, h.size ≤ n) ∧
      FragOK (Derives g) (charLoop s cs ins prevs h).2 (R ∪ Q) (charLoop s cs ins prevs h).1 (Derives g (.charVal s (p ++ cs))) := by
  induction cs with
  | nil =>
    intro p ins prevs h R _ H
    refine ⟨∅, by simp [charLoop], by simp, fun n _ => ⟨rfl, fun _ => Iff.rfl⟩, by simp, ?_⟩
    rw [List.append_nil, Finset.union_empty]
    exact H
  | cons c cs ih =>
    intro p ins prevs h R hne H
    rw [charLoop]
    simp only [if_neg hne]
    obtain ⟨hext, Q1, hnew, hcard, H1⟩ := alloc_ok (D := Derives g) ((caseNodes s c).map fun d => Elem.charVal true [d]) (by simp [leafElem]) h
    obtain ⟨e1, e2, e3, -⟩ := allocAll_spec ((caseNodes s c).map fun d => Elem.charVal true [d]) h
    have hcl : (caseNodes s c).length = 1 ∨ (caseNodes s c).length = 2 := by
      unfold caseNodes
      simp only
      split_ifs <;> simp
    generalize allocAll ((caseNodes s c).map fun d => Elem.charVal true [d]) h = x at *
    have hd : Disjoint R Q1 := Finset.disjoint_left.mpr fun y hy hy' => by
      have := H.bound y hy
      have := hnew y hy'
      omega
    have hp := linkAll_plugged x.1 prevs x.2
    obtain ⟨H2, -⟩ := concat_ok (H.extend hext) H1 hd hp rfl
    have hcur : x.1 ≠ [] := by
      rw [e1]
      intro h0
      have := congrArg List.length h0
      rw [List.length_range', List.length_map] at this
      simp only [List.length_nil] at this
      omega
    have H3 : FragOK (Derives g) (linkAll x.1 prevs x.2) (R ∪ Q1) ⟨ins.map some, x.1.map some⟩ (Derives g (.charVal s (p ++ [c]))) := by
      refine (H2.pts (fun y => ?_) (fun y => ?_)).congr fun w => ?_
      · simp [concatTG]
      · simp only [concatTG, noEmpty]
        cases y <;> simp
      · rw [derives_charVal_snoc]
        constructor
        · rintro ⟨u, v, h1, h2, h3⟩
          exact ⟨u, v, h1, h2, derives_caseNodes.mpr h3⟩
        · rintro ⟨u, v, h1, h2, h3⟩
          exact ⟨u, v, h1, h2, derives_caseNodes.mp h3⟩
    obtain ⟨Q2, f1, f2, f3, f4, f5⟩ := ih (p ++ [c]) ins x.1 _ _ hcur H3
    rw [hp.size] at f1 f3 f4
    have hd2 : Disjoint Q1 Q2 := Finset.disjoint_left.mpr fun y hy hy' => by
      have := H1.bound y hy
      have := f4 y hy'
      omega
    refine ⟨Q1 ∪ Q2, ?_, ?_, ?_, ?_, ?_⟩
    · rw [f1, e2, Finset.card_union_of_disjoint hd2, hcard]; omega
    · rw [Finset.card_union_of_disjoint hd2, hcard, List.length_map, List.length_cons]; omega
    · rintro n ⟨hn, hnR⟩
      have hx : n ∉ R ∪ Q1 := by
        rw [Finset.mem_union, not_or]
        exact ⟨hnR, fun hq => by have := hnew n hq; omega⟩
      obtain ⟨k1, k2⟩ := f3 n ⟨by rw [e2]; omega, hx⟩
      obtain ⟨k3, k4⟩ := e3 n hn
      refine ⟨by rw [k1, hp.elem, k3], fun m => ?_⟩
      rw [k2, hp.nexts, k4]
      refine ⟨fun h5 => h5.resolve_right fun h6 => hnR (H.outs n h6.1), .inl⟩
    · intro n hn
      rcases Finset.mem_union.mp hn with hn | hn
      · exact hnew n hn
      · have := f4 n hn; omega
    · rw [← Finset.union_assoc]
      simpa using f5

theorem charGraph_ok (s : Bool) {vs : List Char} (hv : vs ≠ []) (h : TgHeap) :
    Extends h (charLoop s vs [] [] h).2 ∧ ∃ R : Finset Nat, (∀ n ∈ R, h.size ≤ n) ∧ R.card ≤ 2 * vs.length ∧
    FragOK (Derives g) (charLoop s vs [] [] h).2 R (charLoop s vs [] [] h).1 (Derives g (.charVal s vs)) := by
  cases vs with
  | nil => exact absurd rfl hv
  | cons c cs =>
    rw [charLoop]
    simp only [if_true, linkAll]
    obtain ⟨hext, Q1, hnew, hcard, H1⟩ := alloc_ok (D := Derives g) ((caseNodes s c).map fun d => Elem.charVal true [d]) (by simp [leafElem]) h
    obtain ⟨e1, e2, e3, -⟩ := allocAll_spec ((caseNodes s c).map fun d => Elem.charVal true [d]) h
    have hcl : (caseNodes s c).length = 1 ∨ (caseNodes s c).length = 2 := by
      unfold caseNodes
      simp only
      split_ifs <;> simp
    generalize allocAll ((caseNodes s c).map fun d => Elem.charVal true [d]) h = x at *
    have hcur : x.1 ≠ [] := by
      rw [e1]
      intro h0
      have := congrArg List.length h0
      rw [List.length_range', List.length_map] at this
      simp only [List.length_nil] at this
      omega
    obtain ⟨Q2, f1, f2, f3, f4, f5⟩ := charLoop_ok s cs [c] x.1 x.1 x.2 Q1 hcur (H1.congr fun w => derives_caseNodes.symm)
    refine ⟨⟨by rw [f1, e2]; omega, fun n hn => ?_⟩, Q1 ∪ Q2, ?_, ?_, f5⟩
    · obtain ⟨k1, k2⟩ := f3 n ⟨by rw [e2]; omega, fun hq => by have := hnew n hq; omega⟩
      obtain ⟨k3, k4⟩ := e3 n hn
      exact ⟨k1.trans k3, fun m => by rw [k2, k4]⟩
    · intro n hn
      rcases Finset.mem_union.mp hn with hn | hn
      · exact hnew n hn
      · have := f4 n hn; omega
    · have := Finset.card_union_le Q1 Q2
      rw [hcard, List.length_map] at this
      simp only [List.length_cons]
      omega

/-! ## Elements -/

/-- When numeric values are deflated, a series has one element and a range is well-formed. -/
def TgLeaf (o : TgOpts) : Elem → Prop
  | .numVal _ .series es => o.nums = true → es.length = 1
  | .numVal b .range es => o.nums = true → TermWF (.numVal b .range es)
  | _ => True

/-- The numbers of nodes of an element do not overflow. -/
def TgSize (o : TgOpts) : Elem → Prop
  | .charVal _ vs => NodeBudget o → 2 * vs.length < 2 ^ 63
  | .numVal _ .series es => NodeBudget o → es.length < 2 ^ 63
  | _ => True

variable {o : TgOpts} {rd : Prop}

/-- A graph, which spells `L` if `rd`. -/
def TgPostIf (o : TgOpts) (g : Grammar) (rd : Prop) (N : Nat) (F : Finset Nat) (c0 : Int) (L : Bytes → Prop) (h0 : TgHeap)
    (x : TgFrag × TgSt) : Prop :=
  ∃ L', (rd → ∀ w, L' w ↔ L w) ∧ TgPost o g rd N F c0 L' h0 x

theorem Run.Sat.postIf {N : Nat} {F : Finset Nat} {c0 : Int} {L : Bytes → Prop} {h0 : TgHeap} {x : TgOut (TgFrag × TgSt)}
    (h : x.Sat False False (OnOk (TgPost o g rd N F c0 L h0))) : x.Sat False False (OnOk (TgPostIf o g rd N F c0 L h0)) :=
  h.mono fun y hy => by
    cases y with
    | error e => trivial
    | ok y => exact ⟨L, fun _ _ => Iff.rfl, hy⟩


theorem oneNode_sat (e : Elem) (hleaf : leafElem e = true) {N : Nat} {F : Finset Nat} {c0 : Int} {st : TgSt} (hN : N ≤ st.heap.size)
    (S : StOK o g rd F st) (hc : NodeBudget o → c0 ≤ st.count) :
    (oneNode o e st).Sat False False (OnOk (TgPost o g rd N F c0 (Derives g e) st.heap)) := by
  unfold oneNode
  cases hr : reserveNodes o 1 st with
  | none => trivial
  | some st' =>
    obtain ⟨h1, h2, h3⟩ := reserveNodes_some hr
    obtain ⟨hext, R, hnew, hcard, H⟩ := alloc_ok (D := Derives g) [e] (by simpa using hleaf) st'.heap
    simp only [allocAll] at hext H
    rw [h1] at hnew
    have hext' : Extends st.heap (st'.heap.alloc e).2 := by rw [← h1]; exact hext
    refine ⟨hext'.toN hN, R, H.congr fun w => by simp, fun n hn => hN.trans (hnew n hn), ?_, fun hb => ?_⟩
    · refine S.extend (st' := { st' with heap := (st'.heap.alloc e).2 }) h2 hext' hnew H.bound fun hb => ?_
      have := h3 hb (S.count hb) (by norm_num)
      have := S.count hb
      simp only
      omega
    · have := h3 hb (S.count hb) (by norm_num)
      have := hc hb
      simp only [List.length_singleton] at hcard
      simp only [hcard]
      omega

theorem parNodes_sat (es : List Elem) (hleaf : ∀ e ∈ es, leafElem e = true) (he : NodeBudget o → es.length < 2 ^ 63) {N : Nat} {F : Finset Nat} {c0 : Int} {st : TgSt}
    (hN : N ≤ st.heap.size) (S : StOK o g rd F st) (hc : NodeBudget o → c0 ≤ st.count) :
    (parNodes o es st).Sat False False (OnOk (TgPost o g rd N F c0 (fun w => ∃ e ∈ es, Derives g e w) st.heap)) := by
  unfold parNodes
  cases hr : reserveNodes o es.length st with
  | none => trivial
  | some st' =>
    obtain ⟨h1, h2, h3⟩ := reserveNodes_some hr
    obtain ⟨hext, R, hnew, hcard, H⟩ := alloc_ok (D := Derives g) es hleaf st'.heap
    rw [h1] at hnew
    have hext' : Extends st.heap (allocAll es st'.heap).2 := by rw [← h1]; exact hext
    refine ⟨hext'.toN hN, R, H, fun n hn => hN.trans (hnew n hn), ?_, fun hb => ?_⟩
    · refine S.extend (st' := { st' with heap := (allocAll es st'.heap).2 }) h2 hext' hnew H.bound fun hb => ?_
      have := h3 hb (S.count hb) (by have := he hb; omega)
      have := S.count hb
      simp only
      omega
    · have := h3 hb (S.count hb) (by have := he hb; omega)
      have := hc hb
      simp only [hcard]
      omega

theorem none_sat {L : Bytes → Prop} (hL : ∀ w, ¬ L w) {N : Nat} {F : Finset Nat} {c0 : Int} {st : TgSt}
    (S : StOK o g rd F st) (hc : NodeBudget o → c0 ≤ st.count) : TgPost o g rd N F c0 L st.heap ({}, st) :=
  ⟨ExtendsN.refl N _, ∅, (never_ok _).congr fun w => ⟨fun h => (hL w h).elim, False.elim⟩, by simp, by simpa using S, by simpa using hc⟩

theorem rangeNodes_sat {b : Str} {es : List Str} (hw : TermWF (.numVal b .range es)) {N : Nat} {F : Finset Nat} {c0 : Int}
    {st : TgSt} (hN : N ≤ st.heap.size) (S : StOK o g rd F st) (hc : NodeBudget o → c0 ≤ st.count) :
    (rangeNodes o b es st).Sat False False (OnOk (TgPost o g rd N F c0 (Derives g (.numVal b .range es)) st.heap)) := by
  obtain ⟨s, t, lo, hi, rfl, hs, ht⟩ := hw
  obtain ⟨r, _, hr, -⟩ := id hs
  unfold rangeNodes
  simp only [List.getD_cons_zero, List.getD_cons_succ, numvalToRune_denotes hs, numvalToRune_denotes ht, maxInt32, maxRune]
  have hch := fun c : Char => char_valid c
  split_ifs with h1
  · refine none_sat (fun w hw => ?_) S hc
    obtain ⟨c, h2, h3, rfl⟩ := (derives_range hs ht).mp hw
    have := hch c
    omega
  · refine (parNodes_sat _ (List.forall_mem_map.mpr fun _ _ => rfl) (fun _ => ?_) hN S hc).mono fun x hx => ?_
    · rw [List.length_map, List.length_range']
      omega
    · cases x with
      | error e => trivial
      | ok x =>
        obtain ⟨k1, R, k2, k3⟩ := hx
        refine ⟨k1, R, k2.congr fun w => ?_, k3⟩
        rw [derives_range hs ht]
        simp only [List.mem_map, exists_exists_and_eq_and, derives_code (int32ToNumval_denotes hr _), List.mem_range']
        constructor
        · rintro ⟨c, h2, h3, rfl⟩
          have := hch c
          exact ⟨c.toNat, ⟨c.toNat - min lo 2147483647, by omega, by omega⟩, c, rfl, rfl⟩
        · rintro ⟨_, ⟨i, h2, rfl⟩, c, h3, rfl⟩
          exact ⟨c, by omega, by omega, rfl⟩

theorem OnOk.mono {α : Type} {Q Q' : α → Prop} (h : ∀ a, Q a → Q' a) : ∀ x, OnOk Q x → OnOk Q' x
  | .error _, _ => trivial
  | .ok a, ha => h a ha

theorem rangeNodes_if {b : Str} {es : List Str} (hw : rd → TermWF (.numVal b .range es)) {N : Nat} {F : Finset Nat} {c0 : Int}
    {st : TgSt} (hN : N ≤ st.heap.size) (S : StOK o g rd F st) (hc : NodeBudget o → c0 ≤ st.count) :
    (rangeNodes o b es st).Sat False False (OnOk (TgPostIf o g rd N F c0 (Derives g (.numVal b .range es)) st.heap)) := by
  by_cases hrd : rd
  · exact (rangeNodes_sat (hw hrd) hN S hc).postIf
  · unfold rangeNodes
    simp only
    split_ifs with h1
    · exact ⟨fun _ => False, fun h => absurd h hrd, none_sat (fun w => id) S hc⟩
    · refine (parNodes_sat _ (List.forall_mem_map.mpr fun _ _ => rfl) (fun _ => ?_) hN S hc).mono (OnOk.mono fun x hx => ⟨_, fun h => absurd h hrd, hx⟩)
      rw [List.length_map, List.length_range']
      unfold maxRune at *
      omega

mutual
/-- No concatenation inside is empty. -/
def elemFull : Elem → Bool
  | .group a => altFull a
  | .option a => altFull a
  | _ => true
/-- No concatenation inside the repetitions is empty. -/
def repsFull : List Rep → Bool
  | [] => true
  | ⟨_, _, e⟩ :: c => elemFull e && repsFull c
/-- No concatenation is empty. -/
def altFull : List (List Rep) → Bool
  | [] => true
  | c :: a => !c.isEmpty && repsFull c && altFull a
end

/-- A call on the name `n` gives a graph of its rule. -/
def TgCallOK (o : TgOpts) (g : Grammar) (rd : Prop) (rec : Str → TgSt → TgOut (TgFrag × TgSt)) (n : Str) : Prop :=
  ∀ (N : Nat) (F : Finset Nat) (c0 : Int) (st : TgSt), 0 ≤ c0 → N ≤ st.heap.size → StOK o g rd F st →
    (NodeBudget o → c0 ≤ st.count) → (rec n st).Sat False False (OnOk (TgPostIf o g rd N F c0 (Derives g (.rulename n)) st.heap))

/-- What is asked of a repetition. -/
def TgReady (o : TgOpts) (g : Grammar) (rd : Prop) (rec : Str → TgSt → TgOut (TgFrag × TgSt)) (q : Rep) : Prop :=
  TgSize o q.elem ∧ (rd → TgLeaf o q.elem) ∧ ∀ n, q.elem = .rulename n → o.rules = true → TgCallOK o g rd rec n

theorem derives_group {a : Alt} {w : Bytes} : Derives g (.group a) w ↔ DerivesAlt g a w := by
  constructor
  · intro h
    cases h with
    | group _ _ h => exact h
    | term _ _ h => cases h
  · exact .group _ _

theorem derives_option {a : Alt} {w : Bytes} : Derives g (.option a) w ↔ w = [] ∨ DerivesAlt g a w := by
  constructor
  · intro h
    generalize hw : w = w' at h
    cases h with
    | optNone => exact .inl rfl
    | optSome _ _ h => exact .inr h
    | term _ _ h => cases h
  · rintro (rfl | h)
    · exact .optNone _
    · exact .optSome _ _ h

theorem TgPostIf.lang {N : Nat} {F : Finset Nat} {c0 : Int} {L L' : Bytes → Prop} {h0 : TgHeap} {x : TgFrag × TgSt}
    (h : TgPostIf o g rd N F c0 L h0 x) (hl : ∀ w, L' w ↔ L w) : TgPostIf o g rd N F c0 L' h0 x := by
  obtain ⟨L1, h1, h2⟩ := h
  exact ⟨L1, fun hrd w => (h1 hrd w).trans (hl w).symm, h2⟩

section
variable {rec : Str → TgSt → TgOut (TgFrag × TgSt)}

/-- The element and then its repetition. -/
theorem rep_step {e : Elem} {st : TgSt} {N : Nat} {F : Finset Nat} {c0 : Int} (mn : Nat) (mx : Option Nat) (hc0 : 0 ≤ c0)
    (hN : N ≤ st.heap.size)
    (h : (elemGraph o rec e st).Sat False False (OnOk (TgPostIf o g rd N F c0 (Derives g e) st.heap))) :
    (tgBind (elemGraph o rec e st) fun (f, st) => repGraph o mn mx f st).Sat False False
      (OnOk (TgPostIf o g rd N F c0 (DerivesRep g ⟨mn, mx, e⟩) st.heap)) := by
  refine tgBind_sat h ?_
  rintro ⟨f, st1⟩ ⟨L, hL, h1, R, h2, h3, h4, h5⟩
  refine (repGraph_sat mn mx hc0 (hN.trans h1.1) h2 h3 h4 h5).mono (OnOk.mono ?_)
  rintro x ⟨k1, R', k2, k3⟩
  refine ⟨_, fun hrd w => ?_, h1.trans k1, R', k2, k3⟩
  rw [derivesRep_iff]
  unfold LRep
  simp only [ltimes_congr (hL hrd)]

theorem tgBind_assoc {α β γ : Type} (x : TgOut α) (f : α → TgOut β) (k : β → TgOut γ) :
    tgBind (tgBind x f) k = tgBind x fun a => tgBind (f a) k := by
  cases x with
  | ok r => cases r <;> rfl
  | panic => rfl
  | fuel => rfl

mutual
theorem elemGraph_sat : (e : Elem) → ∀ mn mx, (∀ q ∈ repReps ⟨mn, mx, e⟩, TgReady o g rd rec q) → elemFull e = true →
    ∀ (N : Nat) (F : Finset Nat) (c0 : Int) (st : TgSt), 0 ≤ c0 → N ≤ st.heap.size → StOK o g rd F st →
    (NodeBudget o → c0 ≤ st.count) → (elemGraph o rec e st).Sat False False (OnOk (TgPostIf o g rd N F c0 (Derives g e) st.heap))
  | .charVal s vs, mn, mx, h, _, N, F, c0, st, _, hN, S, hc => by
    rw [elemGraph]
    by_cases hv : vs = []
    · rw [if_pos hv]
      subst hv
      exact ⟨_, fun _ _ => derives_charVal_nil.symm, ExtendsN.refl N _, ∅, empty_ok _, by simp, by simpa using S, by simpa using hc⟩
    · rw [if_neg hv]
      by_cases hch : o.chars = false
      · rw [if_pos hch]
        exact (oneNode_sat _ rfl hN S hc).postIf
      · rw [if_neg hch]
        have hlen : NodeBudget o → 2 * vs.length < 2 ^ 63 := (h _ (List.mem_cons_self ..)).1
        cases hr : reserveNodes o (2 * vs.length) st with
        | none => trivial
        | some st' =>
          obtain ⟨h1, h2, h3⟩ := reserveNodes_some hr
          obtain ⟨hext, R, hnew, hcard, H⟩ := charGraph_ok (g := g) s hv st'.heap
          rw [h1] at hnew
          have hext' : Extends st.heap (charLoop s vs [] [] st'.heap).2 := by rw [← h1]; exact hext
          refine ⟨_, fun _ _ => Iff.rfl, hext'.toN hN, R, H, fun n hn => hN.trans (hnew n hn), ?_, fun hb => ?_⟩
          · refine S.extend (st' := { st' with heap := (charLoop s vs [] [] st'.heap).2 }) h2 hext' hnew H.bound fun hb => ?_
            have := h3 hb (S.count hb) (by have := hlen hb; omega)
            have := S.count hb
            simp only
            omega
          · have := h3 hb (S.count hb) (by have := hlen hb; omega)
            have := hc hb
            simp only
            omega
  | .numVal b .range es, mn, mx, h, _, N, F, c0, st, _, hN, S, hc => by
    rw [elemGraph]
    by_cases hn : o.nums = true
    · rw [if_pos hn]
      exact rangeNodes_if (fun hrd => (h _ (List.mem_cons_self ..)).2.1 hrd hn) hN S hc
    · rw [if_neg hn]
      exact (oneNode_sat _ rfl hN S hc).postIf
  | .numVal b .series es, mn, mx, h, _, N, F, c0, st, _, hN, S, hc => by
    rw [elemGraph]
    by_cases hn : o.nums = true
    · rw [if_pos hn]
      have hl : NodeBudget o → es.length < 2 ^ 63 := (h _ (List.mem_cons_self ..)).1
      refine (parNodes_sat _ (by simp [leafElem]) (fun hb => by rw [List.length_map]; exact hl hb) hN S hc).mono
        (OnOk.mono fun x hx => ⟨_, fun hrd w => ?_, hx⟩)
      have h1 : es.length = 1 := (h _ (List.mem_cons_self ..)).2.1 hrd hn
      obtain ⟨s, he⟩ := List.length_eq_one_iff.mp h1
      rw [he]
      simp
    · rw [if_neg hn]
      exact (oneNode_sat _ rfl hN S hc).postIf
  | .rulename n, mn, mx, h, _, N, F, c0, st, hc0, hN, S, hc => by
    rw [elemGraph]
    by_cases hr : o.rules = true
    · rw [if_pos hr]
      exact (h _ (List.mem_cons_self ..)).2.2 n rfl hr N F c0 st hc0 hN S hc
    · rw [if_neg hr]
      exact (oneNode_sat _ rfl hN S hc).postIf
  | .option a, mn, mx, h, hf, N, F, c0, st, hc0, hN, S, hc => by
    rw [elemGraph]
    refine tgBind_sat (altGraph_sat a (fun q hq => h q (List.mem_cons_of_mem _ hq)) hf N F c0 ∅ {} (fun _ => False) st hc0 hN
      (never_ok _) (by simp) (by simpa using S) (by simpa using hc)) ?_
    rintro ⟨f, st1⟩ ⟨L', hL, h1, R, h2, h3⟩
    refine ⟨fun w => w = [] ∨ L' w, fun hrd w => ?_, h1, R, h2.opt (fun x => ?_) (fun x => ?_), h3⟩
    · simp only [derives_option, hL hrd, false_or]
    · rw [mem_appendNodes]; simp [or_comm]
    · rw [mem_appendNodes]; simp [or_comm]
  | .group a, mn, mx, h, hf, N, F, c0, st, hc0, hN, S, hc => by
    rw [elemGraph]
    refine (altGraph_sat a (fun q hq => h q (List.mem_cons_of_mem _ hq)) hf N F c0 ∅ {} (fun _ => False) st hc0 hN
      (never_ok _) (by simp) (by simpa using S) (by simpa using hc)).mono (OnOk.mono fun x hx => hx.lang fun w => ?_)
    rw [derives_group]; simp
  | .proseVal v, _, _, _, _, _, _, _, _, _, _, _, _ => by rw [elemGraph]; trivial
theorem altGraph_sat : (a : List (List Rep)) → (∀ q ∈ altReps a, TgReady o g rd rec q) → altFull a = true →
    ∀ (N : Nat) (F : Finset Nat) (c0 : Int) (R1 : Finset Nat) (acc : TgFrag) (L1 : Bytes → Prop) (st : TgSt), 0 ≤ c0 →
    N ≤ st.heap.size → FragOK (Derives g) st.heap R1 acc L1 → (∀ n ∈ R1, N ≤ n) → StOK o g rd (F ∪ R1) st →
    (NodeBudget o → c0 + R1.card ≤ st.count) →
    (altGraph o rec a acc st).Sat False False (OnOk (TgPostIf o g rd N F c0 (fun w => L1 w ∨ DerivesAlt g a w) st.heap))
  | [], _, _, N, F, c0, R1, acc, L1, st, _, _, H, hR, S, hc => by
    rw [altGraph]
    refine ⟨L1, fun _ w => ?_, ExtendsN.refl N _, R1, H, hR, S, hc⟩
    simp [derivesAlt_nil]
  | c :: a, h, hf, N, F, c0, R1, acc, L1, st, hc0, hN, H, hR, S, hc => by
    rw [altGraph]
    simp only [altFull, Bool.and_eq_true, Bool.not_eq_true', List.isEmpty_eq_false_iff] at hf
    obtain ⟨⟨hne, hcf⟩, haf⟩ := hf
    refine tgBind_sat (concatGraph_sat c (fun q hq => h q (by simp [altReps, hq])) hne hcf st.heap.size (F ∪ R1) (c0 + R1.card) st
      (by omega) (le_refl _) S hc) ?_
    rintro ⟨f, st1⟩ ⟨L2, hL2, h1, R2, h2, h3, h4, h5⟩
    have H1 : FragOK (Derives g) st1.heap R1 acc L1 :=
      H.frame (fun n hn => h1.2 n (H.bound n hn)) h1.1
    have hd : Disjoint R1 R2 := Finset.disjoint_left.mpr fun y hy hy' => by
      have := H.bound y hy
      have := h3 y hy'
      omega
    refine (altGraph_sat a (fun q hq => h q (by simp [altReps, hq])) haf N F c0 (R1 ∪ R2) (altMerge acc f) _ st1 hc0 (hN.trans h1.1)
      (alt_ok H1 h2 hd) ?_ ?_ ?_).mono (OnOk.mono ?_)
    · intro n hn
      rcases Finset.mem_union.mp hn with hn | hn
      · exact hR n hn
      · exact hN.trans (h3 n hn)
    · rw [← Finset.union_assoc]; exact h4
    · intro hb
      have := h5 hb
      rw [Finset.card_union_of_disjoint hd]
      simp only at this
      push_cast
      omega
    · rintro x ⟨L3, hL3, k1, R, k2, k3⟩
      refine ⟨L3, fun hrd w => ?_, (h1.mono hN).trans k1, R, k2, k3⟩
      simp only [hL3 hrd, hL2 hrd, derivesAlt_cons, or_assoc]
theorem concatGraph_sat : (c : List Rep) → (∀ q ∈ concatReps c, TgReady o g rd rec q) → c ≠ [] → repsFull c = true →
    ∀ (N : Nat) (F : Finset Nat) (c0 : Int) (st : TgSt), 0 ≤ c0 → N ≤ st.heap.size → StOK o g rd F st →
    (NodeBudget o → c0 ≤ st.count) → (concatGraph o rec c st).Sat False False (OnOk (TgPostIf o g rd N F c0 (DerivesConcat g c) st.heap))
  | [], _, hne, _, _, _, _, _, _, _, _, _ => absurd rfl hne
  | ⟨mn, mx, e⟩ :: c, h, _, hf, N, F, c0, st, hc0, hN, S, hc => by
    rw [concatGraph]
    simp only [repsFull, Bool.and_eq_true] at hf
    have h0 := rep_step mn mx hc0 hN (elemGraph_sat e mn mx (fun q hq => h q (by simp [concatReps, hq])) hf.1 N F c0 st hc0 hN S hc)
    have h1 := tgBind_sat (f := fun (f, st) => concatRest o rec c f st)
      (Q' := TgPostIf o g rd N F c0 (DerivesConcat g (⟨mn, mx, e⟩ :: c)) st.heap) h0 (by
      rintro ⟨f, st1⟩ ⟨L1, hL1, h1, R, h2, h3, h4, h5⟩
      refine (concatRest_sat c (fun q hq => h q (by simp [concatReps, hq])) hf.2 N F c0 R f _ st1 hc0 (hN.trans h1.1) h2 h3 h4 h5).mono
        (OnOk.mono ?_)
      rintro x ⟨L2, hL2, k1, R', k2, k3⟩
      refine ⟨L2, fun hrd w => ?_, h1.trans k1, R', k2, k3⟩
      rw [hL2 hrd, derivesConcat_cons]
      simp only [LCat, hL1 hrd])
    rw [tgBind_assoc] at h1
    exact h1
theorem concatRest_sat : (c : List Rep) → (∀ q ∈ concatReps c, TgReady o g rd rec q) → repsFull c = true →
    ∀ (N : Nat) (F : Finset Nat) (c0 : Int) (R1 : Finset Nat) (acc : TgFrag) (L1 : Bytes → Prop) (st : TgSt), 0 ≤ c0 →
    N ≤ st.heap.size → FragOK (Derives g) st.heap R1 acc L1 → (∀ n ∈ R1, N ≤ n) → StOK o g rd (F ∪ R1) st →
    (NodeBudget o → c0 + R1.card ≤ st.count) →
    (concatRest o rec c acc st).Sat False False (OnOk (TgPostIf o g rd N F c0 (LCat L1 (DerivesConcat g c)) st.heap))
  | [], _, _, N, F, c0, R1, acc, L1, st, _, _, H, hR, S, hc => by
    rw [concatRest]
    refine ⟨L1, fun _ w => ?_, ExtendsN.refl N _, R1, H, hR, S, hc⟩
    simp [LCat, derivesConcat_nil]
  | ⟨mn, mx, e⟩ :: c, h, hf, N, F, c0, R1, acc, L1, st, hc0, hN, H, hR, S, hc => by
    rw [concatRest]
    simp only [repsFull, Bool.and_eq_true] at hf
    have h0 := rep_step mn mx (by omega) (le_refl _) (elemGraph_sat e mn mx (fun q hq => h q (by simp [concatReps, hq])) hf.1
      st.heap.size (F ∪ R1) (c0 + R1.card) st (by omega) (le_refl _) S hc)
    have h1 := tgBind_sat (f := fun (f, st) => concatRest o rec c (concatTG acc f st.heap).1 { st with heap := (concatTG acc f st.heap).2 })
      (Q' := TgPostIf o g rd N F c0 (LCat L1 (DerivesConcat g (⟨mn, mx, e⟩ :: c))) st.heap) h0 (by
      rintro ⟨f, st1⟩ ⟨L2, hL2, h1, R2, h2, h3, h4, h5⟩
      simp only at h1 h2 h3 h4 h5
      have H1 : FragOK (Derives g) st1.heap R1 acc L1 := H.frame (fun n hn => h1.2 n (H.bound n hn)) h1.1
      have hd : Disjoint R1 R2 := Finset.disjoint_left.mpr fun y hy hy' => by
        have := H.bound y hy
        have := h3 y hy'
        omega
      have hp : Plugged st1.heap (concatTG acc f st1.heap).2 acc.outs f.ins := plugAppend_plugged _ _ _
      have hsz : (concatTG acc f st1.heap).2.size = st1.heap.size := hp.size
      refine (concatRest_sat c (fun q hq => h q (by simp [concatReps, hq])) hf.2 N F c0 (R1 ∪ R2) _ _
        { st1 with heap := (concatTG acc f st1.heap).2 } hc0 (by simp only [hsz]; exact hN.trans h1.1)
        (concat_ok H1 h2 hd hp rfl).1 ?_ ?_ ?_).mono (OnOk.mono ?_)
      · intro n hn
        rcases Finset.mem_union.mp hn with hn | hn
        · exact hR n hn
        · exact hN.trans (h3 n hn)
      · rw [← Finset.union_assoc]
        exact h4.plug hp fun n hn => Finset.mem_union_left _ (Finset.mem_union_right _ (H1.outs n hn))
      · intro hb
        have := h5 hb
        rw [Finset.card_union_of_disjoint hd]
        simp only at this ⊢
        push_cast
        omega
      · rintro x ⟨L3, hL3, k1, R, k2, k3⟩
        refine ⟨L3, fun hrd w => ?_, ((h1.mono hN).plug hp fun n hn => hR n (H1.outs n hn)).trans k1, R, k2, k3⟩
        rw [hL3 hrd]
        constructor
        · rintro ⟨_, v, rfl, ⟨u, v1, rfl, hu, h6⟩, h7⟩
          exact ⟨u, v1 ++ v, by simp, hu, derivesConcat_cons.mpr ⟨v1, v, rfl, (hL2 hrd _).mp h6, h7⟩⟩
        · rintro ⟨u, v, rfl, hu, hv⟩
          obtain ⟨v1, v2, rfl, h6, h7⟩ := derivesConcat_cons.mp hv
          exact ⟨u ++ v1, v2, by simp, ⟨u, v1, rfl, hu, (hL2 hrd _).mpr h6⟩, h7⟩)
    rw [tgBind_assoc] at h1
    exact h1
end
end

/-! ## Rules -/

/-- What is asked of a rule. -/
def RuleReady (o : TgOpts) (rd : Prop) (r : Rule) : Prop :=
  (∀ q ∈ altReps r.alt, TgSize o q.elem ∧ (rd → TgLeaf o q.elem)) ∧ altFull r.alt = true

theorem derives_rule_of (hd : NamesDistinct g) {n : Str} {r : Rule} (hr : Resolves g n r) {w : Bytes} :
    Derives g (.rulename n) w ↔ DerivesAlt g r.alt w := by
  rw [derives_rulename]
  constructor
  · rintro ⟨r', h1, h2⟩
    rw [resolves_unique hd hr h1 rfl]
    exact h2
  · exact fun h => ⟨r, hr, h⟩

theorem tgLookup_mem {α : Type} {m : List (Str × α)} {k : Str} {v : α} (h : m.lookup k = some v) : (k, v) ∈ m := by
  induction m with
  | nil => simp [List.lookup] at h
  | cons p m ih =>
    obtain ⟨a, b⟩ := p
    rw [List.lookup] at h
    by_cases e : k = a
    · subst e
      simp at h
      simp [h]
    · have : (k == a) = false := by simp [e]
      rw [this] at h
      exact List.mem_cons_of_mem _ (ih h)

theorem ruleGraph_ok (hd : NamesDistinct g) (k : Nat) : ∀ (path : List Str) (n : Str),
    path.Nodup → (∀ x ∈ path, x ∈ ruleKeys g) →
    (∀ r, Resolves g n r → NoCycleBelow g r ∧ (∀ r', Relation.ReflTransGen (Refers g) r r' → RuleReady o rd r') ∧
      ∀ x ∈ path, ∃ r', canon r'.name = x ∧ Resolves g r'.name r' ∧ Relation.TransGen (Refers g) r' r) →
    (ruleKeys g).length < path.length + k → TgCallOK o g rd (ruleGraph o g k) n := by
  induction k with
  | zero =>
    intro path n hn hs _ hl
    have := (List.subperm_of_subset hn hs).length_le
    omega
  | succ k ih =>
    intro path n hn hs hp hl N F c0 st hc0 hN S hc
    rw [ruleGraph]
    have hone : NodeBudget o → ((1 : Nat) : Int) * o.maxNodes < 2 ^ 63 := fun hb => by simpa using hb.small
    cases hlk : st.buf.lookup (canon n) with
    | some f =>
      obtain ⟨name, L, h1, hL, Q, h2, h3, h4⟩ := S.buf _ (tgLookup_mem hlk)
      refine tgBind_sat (reserveClones_sat h2 S.count h4 hone) ?_
      rintro st1 ⟨k1, k2, k3⟩
      rw [k1]
      refine (cloneGraph_sat h2).bnd ?_
      rintro ⟨f', h'⟩ ⟨m1, m2, R', m3, m4, m5⟩
      refine ⟨L, fun hrd w => ?_, m1.toN hN, R', m3, fun x hx => hN.trans (m4 x hx), ?_, fun hb => ?_⟩
      · rw [hL hrd, derives_rulename, derives_rulename]
        simp only [resolves_congr h1]
      · exact S.extend (st' := { st1 with heap := h' }) k2 m1 m4 m3.bound fun hb => ⟨(k3 hb).1, (k3 hb).2.1⟩
      · have := (k3 hb).2.2 _ m5
        have := hc hb
        simp only at *
        omega
    | none =>
      cases hg : getRule n g.rules with
      | none => trivial
      | some r =>
        have hr : Resolves g n r := (getRule_iff hd).mp hg
        obtain ⟨hcyc, hready, hpath⟩ := hp r hr
        have hfresh : canon r.name ∉ path := by
          intro hm
          obtain ⟨r', h1, h2, h3⟩ := hpath _ hm
          obtain rfl := resolves_unique hd h2 (resolves_self hr) h1
          exact hcyc ⟨r', .refl, h3⟩
        have hcalls : ∀ q ∈ altReps r.alt, TgReady o g rd (ruleGraph o g k) q := by
          intro q hq
          refine ⟨((hready r .refl).1 q hq).1, ((hready r .refl).1 q hq).2, fun m hm _ => ?_⟩
          refine ih (canon r.name :: path) m (List.nodup_cons.mpr ⟨hfresh, hn⟩) ?_ ?_ (by simp only [List.length_cons]; omega)
          · intro x hx
            rcases List.mem_cons.mp hx with rfl | hx
            · exact resolves_key hr
            · exact hs x hx
          · intro r2 hr2
            have hstep : Refers g r r2 := ⟨q, hq, m, hm, hr2⟩
            refine ⟨fun ⟨r3, h3, h4⟩ => hcyc ⟨r3, .head hstep h3, h4⟩, fun r3 h3 => hready r3 (.head hstep h3), fun x hx => ?_⟩
            rcases List.mem_cons.mp hx with rfl | hx
            · exact ⟨r, rfl, resolves_self hr, .single hstep⟩
            · obtain ⟨r', h1, h2, h3⟩ := hpath x hx
              exact ⟨r', h1, h2, .tail h3 hstep⟩
        refine tgBind_sat (altGraph_sat r.alt hcalls (hready r .refl).2 N F c0 ∅ {} (fun _ => False) st hc0 hN (never_ok _) (by simp)
          (by simpa using S) (by simpa using hc)) ?_
        rintro ⟨f, st1⟩ ⟨L, hL, h1, R, h2, h3, h4, h5⟩
        simp only at h1 h2 h3 h4 h5
        have hR : NodeBudget o → (R.card : Int) ≤ o.maxNodes := fun hb => by
          have := h5 hb
          have := h4.count hb
          omega
        refine tgBind_sat (reserveClones_sat h2 h4.count hR hone) ?_
        rintro st2 ⟨k1, k2, k3⟩
        rw [k1]
        refine (cloneGraph_sat h2).bnd ?_
        rintro ⟨f', h'⟩ ⟨m1, m2, R', m3, m4, m5⟩
        have hl : rd → ∀ w, L w ↔ Derives g (.rulename n) w := fun hrd w => by
          rw [hL hrd, derives_rule_of hd hr]; simp
        have S2 : StOK o g rd (F ∪ R) { st2 with heap := h' } := by
          have := h4.extend (R := ∅) (st' := { st2 with heap := h' }) k2 m1 (by simp) (by simp) fun hb => ⟨(k3 hb).1, (k3 hb).2.1⟩
          simpa using this
        refine ⟨L, hl, h1.trans (m1.toN (hN.trans h1.1)), R, h2.extend m1, h3, ⟨?_, S2.count, S2.live⟩, fun hb => ?_⟩
        · intro p hp'
          rcases List.mem_cons.mp hp' with rfl | hp'
          · refine ⟨n, L, rfl, hl, R', m3, Finset.disjoint_left.mpr fun x hx hx' => ?_, fun hb => ?_⟩
            · have := m4 x hx
              have := h4.live x hx'
              omega
            · have := (k3 hb).2.2 _ m5
              have := (k3 hb).2.1
              have := h4.count hb
              omega
          · exact S2.buf p hp'
        · have := (k3 hb).2.2 _ m5
          have := h5 hb
          simp only at *
          omega

/-- The rules whose text `TransitionGraph` visits. -/
def TgReach (o : TgOpts) (g : Grammar) (r r' : Rule) : Prop :=
  r' = r ∨ (o.rules = true ∧ Relation.ReflTransGen (Refers g) r r')

theorem transitionGraph_sat (hd : NamesDistinct g) {core : List Rule} (hcore : core.Perm Core.rules)
    {order : List Str} (ho : order.Perm ((dependencyGraph core g).map Prod.fst)) {name : Str}
    (hready : ∀ r, Resolves g name r → ∀ r', TgReach o g r r' → RuleReady o rd r') :
    (transitionGraph o core g order name).Sat False False (OnOk fun (f, h) =>
      ∃ L R, (rd → ∀ w, L w ↔ Derives g (.rulename name) w) ∧ FragOK (Derives g) h R f L ∧ (NodeBudget o → (R.card : Int) ≤ o.maxNodes)) := by
  unfold transitionGraph
  cases hg : getRule name g.rules with
  | none => trivial
  | some r =>
    have hr : Resolves g name r := (getRule_iff hd).mp hg
    simp only
    cases hs : (if o.rules then semvalABNF g else none) with
    | some e => trivial
    | none =>
      simp only
      obtain ⟨b, hb, hcyc⟩ := (Props.C20_exact g hd core hcore order ho name).2 r hr
      rw [hb]
      simp only [Run.bnd]
      cases b with
      | true => trivial
      | false =>
        have hno : NoCycleBelow g r := fun h => absurd (hcyc.mpr h) (by simp)
        rw [if_neg (by simp)]
        refine tgBind_sat (altGraph_sat (g := g) r.alt (rd := rd) (fun q hq => ⟨((hready r hr r (.inl rfl)).1 q hq).1, ((hready r hr r (.inl rfl)).1 q hq).2, fun m hm hru => ?_⟩)
          (hready r hr r (.inl rfl)).2 0 ∅ 0 ∅ {} (fun _ => False) {} (le_refl _) (Nat.zero_le _) (never_ok _) (by simp) ?_ ?_) ?_
        · refine ruleGraph_ok hd _ [canon r.name] m (by simp) (by simpa using resolves_key hr) (fun r2 hr2 => ?_) ?_
          · have hstep : Refers g r r2 := ⟨q, hq, m, hm, hr2⟩
            refine ⟨fun ⟨r3, h3, h4⟩ => hno ⟨r3, .head hstep h3, h4⟩,
              fun r3 h3 => hready r hr r3 (.inr ⟨hru, .head hstep h3⟩), fun x hx => ?_⟩
            obtain rfl := List.mem_singleton.mp hx
            exact ⟨r, rfl, resolves_self hr, .single hstep⟩
          · simp [ruleKeys]; omega
        · refine ⟨by simp, fun hb => ⟨le_refl _, le_of_lt hb.pos⟩, by simp⟩
        · intro _; simp
        · rintro ⟨f, st⟩ ⟨L, hL, h1, R, h2, h3, h4, h5⟩
          refine ⟨L, R, fun hrd w => ?_, h2, fun hb => ?_⟩
          · rw [hL hrd, derives_rule_of hd hr]; simp
          · have := h5 hb
            have := (h4.count hb).2
            simp only at *
            omega

end Verif
