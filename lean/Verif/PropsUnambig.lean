import Verif.OnceKit
import Verif.PropsForest

/-! # C74: grammars that settle every choice have one tree per text -/

namespace Verif
open Spec

theorem length_le_one {α : Type _} {l : List α} (hn : l.Nodup) (h : ∀ a ∈ l, ∀ b ∈ l, a = b) : ¬ 2 ≤ l.length := by
  match l, hn, h with
  | [], _, _ => simp
  | [_], _, _ => simp
  | a :: b :: l, hn, h =>
    have := h a (List.mem_cons_self ..) b (by simp)
    simp [this] at hn

namespace Props

/-- C74.  If every choice of the grammar is settled by the text, `Ambiguous` is false on every input, there is one
tree on the inputs that are accepted, and it is a derivation tree. -/
theorem C74_sppf (g : Grammar) (hwf : NumValsWF g) (hdp : DistinctPrint g) (hu : Unambiguous g)
    (sched : Sched NodeKey) (hf : sched.Fair) (inp : Bytes) (root : Str) (maxNodes maxSlots : Nat) (f : Forest)
    (h : parseForest sched inp g root maxNodes maxSlots = .ok f) :
    f.ambiguous = some false ∧
    (f.valid = true → f.numTrees = some 1 ∧ ∃ t, f.tree = some t ∧ DerivationTree g inp t) := by
  obtain ⟨hc, _, _, hL, _, _, _, hr⟩ := parseForest_ok hf h
  obtain ⟨ix, hl, _, _⟩ := compileSlots_lowered hc
  obtain ⟨n, b, c1, c2, c3, c4, c5⟩ := C40_consistent g sched hf inp root maxNodes maxSlots f h
  have hb : b = false := by
    cases hro : f.root with
    | none => exact c5 (by unfold Forest.valid; rw [hro]; rfl)
    | some r =>
      obtain ⟨_, ⟨b', e1, e2⟩, _⟩ := C48_counts g sched hf inp root maxNodes maxSlots f h r hro
      rw [c2] at e1
      obtain rfl := Option.some.inj e1
      cases b with
      | false => rfl
      | true =>
        obtain ⟨x, _, hx⟩ := e2.mp rfl
        refine absurd hx (length_le_one (packsOf_nodup hL.inv.packsNodup x) fun a ha b hb => ?_)
        exact packs_unique hl hdp hwf hu hL.inv (mem_packsOf.mp ha) (mem_packsOf.mp hb)
  subst hb
  refine ⟨c2, fun hv => ⟨?_, C50_derivation_partial g hwf hdp hu.settled sched hf inp root maxNodes maxSlots f h hv⟩⟩
  rw [c1, (c4 hv).mp rfl]

/-- C74 for the BSR engine, whatever the order in which the set is stored. -/
theorem C74_bsr (g : Grammar) (hwf : NumValsWF g) (hdp : DistinctPrint g) (hu : Unambiguous g)
    (sched : Sched Nat) (hf : sched.Fair) (inp : Bytes) (root : Str) (maxElems maxSlots : Nat) (f₀ : BsrForest)
    (h : parseBSR sched inp g root maxElems maxSlots = .ok f₀)
    (f : BsrForest) (hs : f.sg = f₀.sg) (hi : f.input = f₀.input) (hp : f.set.Perm f₀.set) :
    f.ambiguous = some false ∧ (f.valid = true → f.numTrees = some 1 ∧
      ∃ t F, (∀ fuel, F ≤ fuel → f.treeWith fuel = some t) ∧ DerivationTree g inp t) := by
  obtain ⟨n, b, c1, c2, c3, c4, c5, _⟩ := C40_bsr g sched hf inp root maxElems maxSlots f₀ h f hs hi hp
  obtain ⟨fs, hfs⟩ := forest_for hf h
  have hpair := pair_of fwd_fair hf hfs h hs hi hp
  obtain ⟨ix, hl, _, _⟩ := compileSlots_lowered (parseForest_ok fwd_fair hfs).1
  have hb : b = false := by
    cases hv : f.valid with
    | false => exact c5 hv
    | true =>
      have hro : NodeOK fs.sg inp f.root := by
        rw [← hpair.sg, hs]
        exact bsr_root_ok hf h hs hi (bsr_valid_perm hs hi hp ▸ hv)
      obtain ⟨n', b', _, k2, _, _, k5, _⟩ := answers (closed_universe hpair hro) false (List.mem_cons_self ..)
        (universe_fuel f) (bsr_productive hpair hro rfl)
      have : f.ambiguous = some b' := by unfold BsrForest.ambiguous; rw [hv]; exact k2
      rw [c2] at this
      obtain rfl := Option.some.inj this
      cases b with
      | false => rfl
      | true =>
        obtain ⟨x, hx, hx2⟩ := k5.mp rfl
        obtain ⟨_, hx3, hx4⟩ := below_bsr hpair hro rfl hx
        rw [packsOf_elems, List.length_map] at hx2
        refine absurd hx2 (length_le_one (elemsOf_nodup hpair.nodup x) fun a ha b hb => ?_)
        obtain ⟨L, m⟩ := a
        obtain ⟨L', m'⟩ := b
        obtain ⟨a1, a2, a3⟩ := (mem_elemsOf hpair hx3 hx4).mp ha
        obtain ⟨b1, b2, b3⟩ := (mem_elemsOf hpair hx3 hx4).mp hb
        obtain ⟨e1, _, e2, _⟩ := node_unique hl hdp hwf hu a1 b1 a2 b2 (a3.trans b3.symm)
        rw [e1, e2]
  subst hb
  refine ⟨c2, fun hv => ?_⟩
  have hn : f.numTrees = some 1 := by rw [c1, (c4 hv).mp rfl]
  exact ⟨hn, C50_bsr_partial g hwf hdp hu.settled sched hf inp root maxElems maxSlots f₀ h f hs hi hp hv
    (by rw [hn]; decide)⟩

/-- `l = DIGIT *("," DIGIT)` settles every choice. -/
theorem listG_unambiguous : Unambiguous listG := by
  have hk : KeepsCore listG := by
    intro u hu r hr
    simp only [listG, List.mem_singleton] at hu
    subst hu
    rw [sameName_iff]
    revert r
    decide +kernel
  have hcomma : ∀ s, Derives listG (.charVal false [',']) (utf8 s) ↔ s = [','] := by
    intro s
    rw [Once.lit_char]
    simp only [sameLetter_nonletter (show (',' : Char).toNat < 65 by decide), exists_eq_left]
  have hgrp : ∀ s, Derives listG (.group [[Ex.one (Ex.lit (str% ",")), Ex.one (Ex.ref (str% "DIGIT"))]]) (utf8 s) →
      ∃ c, s = [',', c] := by
    intro s h
    simp only [Ex.one, Ex.lit, Ex.ref, derives_group, derivesAlt_cons, derivesAlt_nil, or_false, Once.concat_more,
      derivesConcat_one, derivesRep_one, hcomma, Once.says_DIGIT hk] at h
    obtain ⟨_, _, rfl, rfl, c, _, rfl⟩ := h
    exact ⟨c, rfl⟩
  refine Once.unambiguous_of hk ?_ ?_
  · intro r hr
    simp only [listG, List.mem_singleton] at hr
    subst hr
    refine Once.altOnce_one (Once.concatOnce_two (Once.cut_length 1 fun s h => ?_))
    rw [derivesConcat_one, Ex.one, derivesRep_one, Ex.ref, Once.says_DIGIT hk] at h
    obtain ⟨c, _, rfl⟩ := h
    rfl
  · intro r hr
    obtain rfl : r = ⟨0, none, .group [[Ex.one (Ex.lit (str% ",")), Ex.one (Ex.ref (str% "DIGIT"))]]⟩ := by
      revert r
      decide +kernel
    refine ⟨Once.repOnce_of (fun h => ?_) (Once.cut_length 2 fun s h => ?_), ?_⟩
    · obtain ⟨c, hc⟩ := hgrp _ h
      cases hc
    · obtain ⟨c, rfl⟩ := hgrp _ h
      rfl
    · refine Once.altOnce_one (Once.concatOnce_two (Once.cut_length 1 fun s h => ?_))
      rw [derivesConcat_one, Ex.one, derivesRep_one, Ex.lit, hcomma] at h
      rw [h]; rfl

-- C74: such a grammar
example : Unambiguous listG ∧ NumValsWF listG ∧ DistinctPrint listG :=
  ⟨listG_unambiguous, numValsWF_of (by decide), distinctPrint_of (by decide +kernel)⟩

end Props
end Verif
