import Verif.BsrTree
import Verif.PropsRecog

/-! # C39, C40, C41, C48, C49, C50: queries over parse forests -/

namespace Verif
open Spec

/-! ## Trees -/

mutual
/-- The spans of the leaves of a tree, left to right; a leaf is a childless node without a name. -/
def ParseTree.leaves : ParseTree → List (Nat × Nat)
  | .node r s e [] => if r = [] then [(s, e)] else []
  | .node _ _ _ (c :: cs) => c.leaves ++ leavesOf cs
/-- The same for a list of trees. -/
def leavesOf : List ParseTree → List (Nat × Nat)
  | [] => []
  | c :: cs => c.leaves ++ leavesOf cs
end

/-- `t` is `t'` or one of its descendants. -/
inductive ParseTree.Sub (t : ParseTree) : ParseTree → Prop
  | refl : ParseTree.Sub t t
  | step {r : Str} {s e : Nat} {ch : List ParseTree} {c : ParseTree} : c ∈ ch → ParseTree.Sub t c →
      ParseTree.Sub t (.node r s e ch)

/-- The spans follow each other without gap or overlap from `i` to `j`. -/
def Tiles : List (Nat × Nat) → Nat → Nat → Prop
  | [], i, j => i = j
  | (s, e) :: l, i, j => s = i ∧ s ≤ e ∧ Tiles l e j

/-- The bytes of a span. -/
def textOf (inp : Bytes) (p : Nat × Nat) : Bytes := (inp.drop p.1).take (p.2 - p.1)

theorem Tiles.append {a b : List (Nat × Nat)} {i j k : Nat} (h1 : Tiles a i j) (h2 : Tiles b j k) :
    Tiles (a ++ b) i k := by
  induction a generalizing i with
  | nil => cases h1; exact h2
  | cons p a ih => obtain ⟨s, e⟩ := p; exact ⟨h1.1, h1.2.1, ih h1.2.2⟩

theorem Tiles.le {a : List (Nat × Nat)} {i j : Nat} (h : Tiles a i j) : i ≤ j := by
  induction a generalizing i with
  | nil => cases h; exact Nat.le_refl _
  | cons p a ih => obtain ⟨s, e⟩ := p; obtain ⟨rfl, h1, h2⟩ := h; exact Nat.le_trans h1 (ih h2)

theorem Tiles.text {inp : Bytes} {a : List (Nat × Nat)} {i j : Nat} (h : Tiles a i j) :
    a.flatMap (textOf inp) = (inp.drop i).take (j - i) := by
  induction a generalizing i with
  | nil => cases h; simp
  | cons p a ih =>
    obtain ⟨s, e⟩ := p
    obtain ⟨rfl, h1, h2⟩ := h
    have h3 := h2.le
    rw [List.flatMap_cons, ih h2, textOf]
    simp only
    rw [show j - s = (e - s) + (j - e) by omega, List.take_add, List.drop_drop, show s + (e - s) = e by omega]

theorem nodeOK_le {sg : SG} {inp : Bytes} {k : NodeKey} (hok : SGOK sg) (h : NodeOK sg inp k) :
    k.start ≤ k.fin ∧ k.fin ≤ inp.length := by
  cases k with
  | sym n l r =>
    obtain ⟨L, m, _, _, h⟩ := h
    obtain ⟨h1, h2, h3⟩ := reach_inRange hok h
    exact ⟨Nat.le_trans h1 h2, h3⟩
  | inter L l r =>
    obtain ⟨_, _, m, h⟩ := h
    obtain ⟨h1, h2, h3⟩ := reach_inRange hok h
    exact ⟨Nat.le_trans h1 h2, h3⟩
  | term l r =>
    obtain ⟨L, u, rc, s, h, _, hm⟩ := h
    exact matchSym_bounds (reach_inRange hok h).2.1 hm

mutual
theorem leaves_tile {sg : SG} {inp : Bytes} (hok : SGOK sg) : ∀ t : ParseTree, TreeOK sg inp t →
    Tiles t.leaves t.start t.fin
  | .node r s e [], h => by
    unfold ParseTree.leaves
    cases h with
    | leaf _ _ h => exact ⟨rfl, (nodeOK_le hok h).1, rfl⟩
    | rule _ _ _ _ _ h hc _ _ =>
      split_ifs
      · exact ⟨rfl, (nodeOK_le hok h).1, rfl⟩
      · exact hc
  | .node r s e (c :: cs), h => by
    unfold ParseTree.leaves
    cases h with
    | rule _ _ _ _ _ _ h1 h2 _ =>
      obtain ⟨rfl, h3⟩ := h1
      exact (leaves_tile hok c (h2 c (List.mem_cons_self ..))).append
        (leavesOf_tile hok cs (fun t ht => h2 t (List.mem_cons_of_mem _ ht)) _ _ h3)
theorem leavesOf_tile {sg : SG} {inp : Bytes} (hok : SGOK sg) : ∀ ts : List ParseTree, (∀ t ∈ ts, TreeOK sg inp t) →
    ∀ i j, Chain ts i j → Tiles (leavesOf ts) i j
  | [], _, _, _, h => h
  | c :: cs, h, i, j, hc => by
    obtain ⟨rfl, h3⟩ := hc
    exact (leaves_tile hok c (h c (List.mem_cons_self ..))).append
      (leavesOf_tile hok cs (fun t ht => h t (List.mem_cons_of_mem _ ht)) _ _ h3)
end

theorem TreeOK.sub {sg : SG} {inp : Bytes} {t t' : ParseTree} (h : t.Sub t') (ht : TreeOK sg inp t') :
    TreeOK sg inp t := by
  induction h with
  | refl => exact ht
  | step hc _ ih =>
    cases ht with
    | leaf => cases hc
    | rule _ _ _ _ _ _ _ h _ => exact ih (h _ hc)

theorem textOf_at {inp w : Bytes} {i j : Nat} (h : At inp i j w) : textOf inp (i, j) = w := by
  obtain ⟨⟨t, h1⟩, rfl⟩ := h
  simp [textOf, ← h1]

theorem treeOK_facts {g : Grammar} {root : Str} {sg : SG} {ix : List (Str × Nat)} {inp : Bytes}
    (hl : Lowered g root sg ix) (hdp : DistinctPrint g) (hwf : NumValsWF g) {t t' : ParseTree} (h : TreeOK sg inp t)
    (ht' : t'.Sub t) : t'.start ≤ t'.fin ∧ t'.fin ≤ inp.length ∧ Tiles t'.leaves t'.start t'.fin ∧
        ((t'.rule = [] ∧ t'.children = []) ∨ DerivesRule g t'.rule (textOf inp (t'.start, t'.fin))) := by
  have h6 := h.sub ht'
  have h7 := leaves_tile hl.ok _ h6
  refine ⟨h7.le, ?_, h7, ?_⟩
  · cases h6 with
    | leaf _ _ h => exact (nodeOK_le hl.ok h).2
    | rule _ _ _ _ _ h _ _ _ => exact (nodeOK_le hl.ok h).2
  · cases h6 with
    | leaf _ _ h => exact .inl ⟨rfl, rfl⟩
    | rule n s e ch' hn h _ _ _ =>
      obtain ⟨w, h8, h9⟩ := rule_node_derives hl hdp hwf hn h
      right
      simp only [ParseTree.rule, ParseTree.start, ParseTree.fin]
      rw [textOf_at h8]
      exact h9

namespace Props

/-- C39.  The tree of a valid forest is rooted at the start rule over the whole input.  For each of its nodes: the
leaves below, left to right, tile the span, and either the node is an unnamed leaf or the text of its span is
derivable from the rule it names. -/
theorem C39_tree (g : Grammar) (hwf : NumValsWF g) (hdp : DistinctPrint g) (sched : Sched NodeKey)
    (hf : sched.Fair) (inp : Bytes) (root : Str) (maxNodes maxSlots : Nat) (f : Forest)
    (h : parseForest sched inp g root maxNodes maxSlots = .ok f) (hv : f.valid = true) :
    ∃ t r, f.tree = some t ∧ getRule root g.rules = some r ∧ t.rule = r.name ∧ t.start = 0 ∧ t.fin = inp.length ∧
      ∀ t' : ParseTree, t'.Sub t → t'.start ≤ t'.fin ∧ t'.fin ≤ inp.length ∧ Tiles t'.leaves t'.start t'.fin ∧
        ((t'.rule = [] ∧ t'.children = []) ∨ DerivesRule g t'.rule (textOf inp (t'.start, t'.fin))) := by
  obtain ⟨hc, hin, hok, hL, hw, _, _, hr⟩ := parseForest_ok hf h
  obtain ⟨h1, r, h2, h3⟩ := start_isRule hc
  obtain ⟨ix, hl, _, _⟩ := compileSlots_lowered hc
  have hm : NodeKey.sym f.sg.start 0 inp.length ∈ f.st.nodes := by
    by_contra hm
    rw [if_neg hm] at hr
    unfold Forest.valid at hv
    rw [hr] at hv
    cases hv
  rw [if_pos hm] at hr
  obtain ⟨ch, h4, h5⟩ := tree_ok hok hL.inv hr hm h1
  exact ⟨_, r, h4, h2, h3, rfl, rfl, fun t' ht' => treeOK_facts hl hdp hwf h5 ht'⟩

/-- C39.  The texts of the leaves of the tree, put together, are the input; there is no tree otherwise. -/
theorem C39_text (g : Grammar) (hwf : NumValsWF g) (hdp : DistinctPrint g) (sched : Sched NodeKey)
    (hf : sched.Fair) (inp : Bytes) (root : Str) (maxNodes maxSlots : Nat) (f : Forest)
    (h : parseForest sched inp g root maxNodes maxSlots = .ok f) :
    (f.valid = true → ∃ t, f.tree = some t ∧ t.leaves.flatMap (textOf inp) = inp) ∧
    (f.valid = false → f.tree = none) := by
  constructor
  · intro hv
    obtain ⟨t, r, h1, _, _, h2, h3, h4⟩ := C39_tree g hwf hdp sched hf inp root maxNodes maxSlots f h hv
    refine ⟨t, h1, ?_⟩
    rw [(h4 t .refl).2.2.1.text, h2, h3]
    simp
  · intro hv
    unfold Forest.valid at hv
    unfold Forest.tree
    cases hr : f.root with
    | none => rfl
    | some r => rw [hr] at hv; cases hv

/-- C40.  On a valid forest `NumTrees` is not zero, and `Ambiguous` is false exactly when it is one; on one that is
not valid they are zero and false. -/
theorem C40_consistent (g : Grammar) (sched : Sched NodeKey) (hf : sched.Fair) (inp : Bytes) (root : Str)
    (maxNodes maxSlots : Nat) (f : Forest) (h : parseForest sched inp g root maxNodes maxSlots = .ok f) :
    ∃ (n : Int) (b : Bool), f.numTrees = some n ∧ f.ambiguous = some b ∧ (f.valid = true ↔ n ≠ 0) ∧
      (f.valid = true → (b = false ↔ n = 1)) ∧ (f.valid = false → b = false) := by
  obtain ⟨_, _, _, hL, _, _, _, hr⟩ := parseForest_ok hf h
  unfold Forest.numTrees Forest.ambiguous Forest.valid
  rw [hr]
  split_ifs with hm
  · obtain ⟨r, b, h1, h2, h3, h4, _⟩ := answers (closed_nodes hL.inv) true hm (fuel := f.fuel)
      (by unfold Forest.fuel; omega) (productive hL.inv hm)
    exact ⟨r, b, h1, h2, by simp [h3], fun _ => h4, nofun⟩
  · exact ⟨0, false, rfl, rfl, by simp, nofun, fun _ => rfl⟩

/-- C48.  `NumTrees` counts exactly: it is the number of trees of the shared forest, a tree being a choice of one
packing at every occurrence of a node; it is -1 exactly when there are infinitely many, which is exactly when some
node of the forest lies below itself.  `Ambiguous` is whether some node has two packings.  `Nodes` is the number of
nodes at or below the root. -/
theorem C48_counts (g : Grammar) (sched : Sched NodeKey) (hf : sched.Fair) (inp : Bytes) (root : Str)
    (maxNodes maxSlots : Nat) (f : Forest) (h : parseForest sched inp g root maxNodes maxSlots = .ok f)
    (r : NodeKey) (hr : f.root = some r) :
    (∃ n : Int, f.numTrees = some n ∧
      ((∃ ts, TreesAt f.packsOf true r ts ∧ n = ts.length) ∨ (n = -1 ∧ ¬ ∃ ts, TreesAt f.packsOf true r ts)) ∧
      (n = -1 ↔ ∃ x, AtOrBelow f.packsOf r x ∧ StrictlyBelow f.packsOf x x)) ∧
    (∃ b, f.ambiguous = some b ∧ (b = true ↔ ∃ x, AtOrBelow f.packsOf r x ∧ 2 ≤ (f.packsOf x).length)) ∧
    ∃ s : List NodeKey, s.Nodup ∧ (∀ x, x ∈ s ↔ AtOrBelow f.packsOf r x) ∧ f.nodes = some s.length := by
  obtain ⟨_, _, _, hL, _, _, _, hroot⟩ := parseForest_ok hf h
  rw [hr] at hroot
  split_ifs at hroot with hm
  simp only [Option.some.injEq] at hroot
  subst hroot
  obtain ⟨n, b, h1, h2, _, _, h5, h6, h7⟩ := answers (closed_nodes hL.inv) true hm (fuel := f.fuel)
    (by unfold Forest.fuel; omega) (productive hL.inv hm)
  unfold Forest.numTrees Forest.ambiguous Forest.nodes
  rw [hr]
  exact ⟨⟨n, h1, h6, h7⟩, ⟨b, h2, h5⟩, nodesFrom_spec (closed_nodes hL.inv) hm (by unfold Forest.fuel; omega)⟩

end Props

/-! ## Both engines -/

/-- A run of the other engine to compare with. -/
theorem pair_of {sched : Sched NodeKey} {sched' : Sched Nat} (hf : sched.Fair) (hf' : sched'.Fair) {inp : Bytes}
    {g : Grammar} {root : Str} {N N' M M' : Nat} {f : Forest} {f₀ : BsrForest}
    (h : parseForest sched inp g root N M = .ok f) (h' : parseBSR sched' inp g root N' M' = .ok f₀)
    {f' : BsrForest} (hs : f'.sg = f₀.sg) (hi : f'.input = f₀.input) (hp : f'.set.Perm f₀.set) : Pair f f' inp := by
  obtain ⟨e1, _, hok, hL, hw, _⟩ := parseForest_ok hf h
  obtain ⟨e2, hin, _, hnd, hset⟩ := parseBSR_ok hf' h'
  have hc : ∀ M sg, compileSlots g root M = .ok sg → compileSlots g root 0 = .ok sg := by
    intro M sg hM
    by_cases hz : M = 0
    · subst hz; exact hM
    · exact ((Props.C11_budget g root M (by omega) sg).mp hM).1
  have e1 := hc _ _ e1
  have e2 := hc _ _ e2
  rw [e1] at e2
  simp only [Except.ok.injEq] at e2
  exact ⟨hok, hL, hw, hs.trans e2.symm, hi.trans hin, hp.nodup_iff.mpr hnd, fun L l k r => by
    rw [hp.mem_iff, hset, e2]⟩

/-- The SPPF run on the same slot grammar as a BSR run. -/
theorem forest_for {sched' : Sched Nat} (hf' : sched'.Fair) {inp : Bytes} {g : Grammar} {root : Str} {N' M' : Nat}
    {f' : BsrForest} (h' : parseBSR sched' inp g root N' M' = .ok f') :
    ∃ f, parseForest Props.fwd inp g root 0 M' = .ok f := by
  obtain ⟨st0, h⟩ := parseForest_eq (inp := inp) Props.fwd_fair (parseBSR_ok hf' h').1
  have := h 0
  rw [if_neg (by omega)] at this
  exact ⟨_, this⟩

theorem bsr_valid_perm {f f' : BsrForest} (hs : f'.sg = f.sg) (hi : f'.input = f.input) (hp : f'.set.Perm f.set) :
    f'.valid = f.valid := by
  unfold BsrForest.valid
  rw [hs, hi]
  congr 1
  funext ai
  unfold BsrForest.pivots
  rw [((hp.filter _).map _).length_eq]

theorem bsr_root_ok {sched' : Sched Nat} (hf' : sched'.Fair) {inp : Bytes} {g : Grammar} {root : Str} {N' M' : Nat}
    {f₀ f' : BsrForest} (h' : parseBSR sched' inp g root N' M' = .ok f₀) (hs : f'.sg = f₀.sg)
    (hi : f'.input = f₀.input) (hv : f₀.valid = true) : NodeOK f₀.sg inp f'.root := by
  obtain ⟨_, hin, hok, _⟩ := parseBSR_ok hf' h'
  have := (bsr_valid_iff hf' h').mp hv
  rw [← root_iff hok] at this
  unfold BsrForest.root
  rw [hs, hi, hin]
  exact this

namespace Props

/-- C40 for the BSR engine: the elements are looked up through a map of slices filled in map order, so any order of
`set` is allowed. -/
theorem C40_bsr (g : Grammar) (sched : Sched Nat) (hf : sched.Fair) (inp : Bytes) (root : Str)
    (maxElems maxSlots : Nat) (f₀ : BsrForest) (h : parseBSR sched inp g root maxElems maxSlots = .ok f₀)
    (f : BsrForest) (hs : f.sg = f₀.sg) (hi : f.input = f₀.input) (hp : f.set.Perm f₀.set) :
    ∃ (n : Int) (b : Bool), f.numTrees = some n ∧ f.ambiguous = some b ∧ (f.valid = true ↔ n ≠ 0) ∧
      (f.valid = true → (b = false ↔ n = 1)) ∧ (f.valid = false → b = false) ∧
      (f.valid = true → (∃ ts, TreesAt f.packsOf false f.root ts ∧ n = ts.length) ∨
        (n = -1 ∧ ¬ ∃ ts, TreesAt f.packsOf false f.root ts)) := by
  obtain ⟨fs, hfs⟩ := forest_for hf h
  have hpair := pair_of fwd_fair hf hfs h hs hi hp
  have hve := bsr_valid_perm hs hi hp
  unfold BsrForest.numTrees BsrForest.ambiguous
  cases hv : f.valid with
  | true =>
    have hro : NodeOK fs.sg inp f.root := by
      rw [← hpair.sg, hs]
      exact bsr_root_ok hf h hs hi (hve ▸ hv)
    have hcl := closed_universe hpair hro
    obtain ⟨n, b, h1, h2, h3, h4, _, h6, _⟩ := answers hcl false (List.mem_cons_self ..) (universe_fuel f)
      (bsr_productive hpair hro rfl)
    exact ⟨n, b, h1, h2, by simp [h3], fun _ => h4, nofun, fun _ => h6⟩
  | false => exact ⟨0, false, rfl, rfl, by simp, nofun, fun _ => rfl, nofun⟩

/-- C41, what holds of it: whenever both return, one says "infinite" exactly when the other does; the SPPF never
counts more trees than the BSR set, and never reports an ambiguity the BSR set does not.  Missing: the other
direction, which is false (`C41_fails`) and holds with a condition (`C41_equal_partial`). -/
theorem C41_agree_partial (g : Grammar) (sched : Sched NodeKey) (sched' : Sched Nat) (hf : sched.Fair)
    (hf' : sched'.Fair) (inp : Bytes) (root : Str) (N N' M M' : Nat) (f : Forest) (f₀ : BsrForest)
    (h : parseForest sched inp g root N M = .ok f) (h' : parseBSR sched' inp g root N' M' = .ok f₀)
    (f' : BsrForest) (hs : f'.sg = f₀.sg) (hi : f'.input = f₀.input) (hp : f'.set.Perm f₀.set) :
    ∃ (n n' : Int) (b b' : Bool), f.numTrees = some n ∧ f'.numTrees = some n' ∧ f.ambiguous = some b ∧
      f'.ambiguous = some b' ∧ (n = -1 ↔ n' = -1) ∧ n ≤ n' ∧ (b = true → b' = true) := by
  have hpair := pair_of hf hf' h h' hs hi hp
  have hagree := C03_agree g sched sched' hf hf' inp root N N' M M' f f₀ h h'
  rw [← bsr_valid_perm hs hi hp] at hagree
  obtain ⟨_, _, _, hL, hw, _, _, hroot⟩ := parseForest_ok hf h
  cases hv : f.valid with
  | false =>
    have hr : f.root = none := by
      cases hr : f.root with
      | none => rfl
      | some r => unfold Forest.valid at hv; rw [hr] at hv; cases hv
    refine ⟨0, 0, false, false, ?_, ?_, ?_, ?_, Iff.rfl, le_refl _, id⟩
    · unfold Forest.numTrees; rw [hr]
    · unfold BsrForest.numTrees; rw [← hagree, hv]; rfl
    · unfold Forest.ambiguous; rw [hr]
    · unfold BsrForest.ambiguous; rw [← hagree, hv]; rfl
  | true =>
    have hve := bsr_valid_perm hs hi hp
    have hro : NodeOK f.sg inp f'.root := by
      rw [← hpair.sg, hs]
      exact bsr_root_ok hf' h' hs hi (hve ▸ hagree ▸ hv)
    have hm := (nodes_iff hL hw _).mpr hro
    have hroot' : f.root = some f'.root := by
      have : f'.root = .sym f.sg.start 0 inp.length := by
        unfold BsrForest.root; rw [hpair.sg, hpair.input]
      rw [this] at hm ⊢
      rw [hroot, if_pos hm]
    obtain ⟨n, b, h1, h2, h3, h4, h5, h6, h7⟩ := answers (closed_nodes hL.inv) true hm (fuel := f.fuel)
      (by unfold Forest.fuel; omega) (productive hL.inv hm)
    obtain ⟨n', b', k1, k2, k3, k4, k5, k6, k7⟩ := answers (closed_universe hpair hro) false (List.mem_cons_self ..)
      (universe_fuel f') (bsr_productive hpair hro rfl)
    refine ⟨n, n', b, b', ?_, ?_, ?_, ?_, ?_, ?_, ?_⟩
    · unfold Forest.numTrees; rw [hroot']; exact h1
    · unfold BsrForest.numTrees; rw [← hagree, hv]; exact k1
    · unfold Forest.ambiguous; rw [hroot']; exact h2
    · unfold BsrForest.ambiguous; rw [← hagree, hv]; exact k2
    · rw [h7, k7]; exact cycle_iff hpair hro rfl
    · rcases numTreesFrom_cert (closed_nodes hL.inv) true hm (fuel := f.fuel) (by unfold Forest.fuel; omega) with
        ⟨c1, c2⟩ | ⟨m, v, c1, c2, c3⟩
      · rw [h1] at c1
        have : n = -1 := by simpa using c1
        have : n' = -1 := k7.mpr ((cycle_iff hpair hro rfl).mp c2)
        omega
      · rcases numTreesFrom_cert (closed_universe hpair hro) false (List.mem_cons_self ..) (universe_fuel f') with
          ⟨d1, d2⟩ | ⟨m', v', d1, d2, d3⟩
        · have e1 : n = -1 := h7.mpr ((cycle_iff hpair hro rfl).mpr d2)
          have e2 : n' = -1 := k7.mpr d2
          omega
        · have := compare_counts hpair (R := (· ≤ ·)) (fun k hk hn u v => total_le hpair hk hn) c1 d1 hro rfl c2 d2
          rw [h1] at c3
          rw [k1] at d3
          simp only [Option.some.injEq] at c3 d3
          omega
    · intro hb
      obtain ⟨x, x1, x2⟩ := h5.mp hb
      obtain ⟨y1, y2⟩ := below_sppf hpair hro rfl x1
      have hn : x.isNT = true := by
        cases x with
        | term s e => rw [packsOf_term hL.inv] at x2; simp at x2
        | _ => rfl
      refine k5.mpr ⟨x, y2 hn, ?_⟩
      have := (packs_subperm hpair y1 hn).length_le
      rw [List.length_map] at this
      omega

/-- C41, with a condition: the two engines agree on both counts when no rule, group, option or repetition has two
alternatives, of at most two symbols, that can cover the same text in the same way. -/
theorem C41_equal_partial (g : Grammar) (sched : Sched NodeKey) (sched' : Sched Nat) (hf : sched.Fair)
    (hf' : sched'.Fair) (inp : Bytes) (root : Str) (N N' M M' : Nat) (f : Forest) (f₀ : BsrForest)
    (h : parseForest sched inp g root N M = .ok f) (h' : parseBSR sched' inp g root N' M' = .ok f₀)
    (f' : BsrForest) (hs : f'.sg = f₀.sg) (hi : f'.input = f₀.input) (hp : f'.set.Perm f₀.set)
    (htw : ∀ n i j, ¬ Twins f.sg n i j) : f.numTrees = f'.numTrees ∧ f.ambiguous = f'.ambiguous := by
  obtain ⟨n, n', b, b', e1, e2, e3, e4, e5, e6, e7⟩ := C41_agree_partial g sched sched' hf hf' inp root N N' M M' f f₀ h h'
    f' hs hi hp
  obtain ⟨n₁, b₁, c1, c2, c3, c4, c5⟩ := C40_consistent g sched hf inp root N M f h
  obtain ⟨n₂, b₂, d1, d2, d3, d4, d5, _⟩ := C40_bsr g sched' hf' inp root N' M' f₀ h' f' hs hi hp
  have hpair := pair_of hf hf' h h' hs hi hp
  have hagree := C03_agree g sched sched' hf hf' inp root N N' M M' f f₀ h h'
  rw [← bsr_valid_perm hs hi hp] at hagree
  rw [e1] at c1; rw [e3] at c2; rw [e2] at d1; rw [e4] at d2
  simp only [Option.some.injEq] at c1 c2 d1 d2
  subst c1 c2 d1 d2
  have hn : n = n' := by
    cases hv : f.valid with
    | false =>
      rw [hv] at c3 hagree
      rw [← hagree] at d3
      have a1 : n = 0 := by by_contra hne; exact absurd (c3.mpr hne) (by decide)
      have a2 : n' = 0 := by by_contra hne; exact absurd (d3.mpr hne) (by decide)
      rw [a1, a2]
    | true =>
      obtain ⟨_, _, _, hL, hw, _, _, hroot⟩ := parseForest_ok hf h
      have hve := bsr_valid_perm hs hi hp
      have hro : NodeOK f.sg inp f'.root := by
        rw [← hpair.sg, hs]
        exact bsr_root_ok hf' h' hs hi (hve ▸ hagree ▸ hv)
      have hm := (nodes_iff hL hw _).mpr hro
      have hroot' : f.root = some f'.root := by
        have : f'.root = .sym f.sg.start 0 inp.length := by
          unfold BsrForest.root; rw [hpair.sg, hpair.input]
        rw [this] at hm ⊢
        rw [hroot, if_pos hm]
      unfold Forest.numTrees at e1
      rw [hroot'] at e1
      unfold BsrForest.numTrees at e2
      rw [← hagree, hv] at e2
      simp only [if_true] at e1 e2
      rcases numTreesFrom_cert (closed_nodes hL.inv) true hm (fuel := f.fuel) (by unfold Forest.fuel; omega) with
        ⟨x1, _⟩ | ⟨m, v, x1, x2, x3⟩
      · rw [e1] at x1
        have : n = -1 := by simpa using x1
        rw [this, e5.mp this]
      · rcases numTreesFrom_cert (closed_universe hpair hro) false (List.mem_cons_self ..) (universe_fuel f') with
          ⟨y1, _⟩ | ⟨m', v', y1, y2, y3⟩
        · rw [e2] at y1
          have : n' = -1 := by simpa using y1
          rw [this, e5.mpr this]
        · have := compare_counts hpair (R := (· = ·))
            (fun k hk hn u v => total_eq hpair hk hn (packs_perm hpair htw hk hn)) x1 y1 hro rfl x2 y2
          rw [e1] at x3
          rw [e2] at y3
          simp only [Option.some.injEq] at x3 y3
          omega
  subst hn
  refine ⟨e1.trans e2.symm, ?_⟩
  rw [e3, e4, Option.some.injEq]
  cases hv : f.valid with
  | false => rw [c5 hv, d5 (hagree ▸ hv)]
  | true =>
    have h1 := c4 hv
    have h2 := d4 (hagree ▸ hv)
    rw [← h1] at h2
    cases b with
    | false => exact (h2.mpr rfl).symm
    | true =>
      cases b' with
      | true => rfl
      | false => exact absurd (h2.mp rfl) (by decide)

/-! ## Trees of the BSR engine -/

/-- C49, what holds of it: `Tree` terminates on every forest that is returned, whatever the map order, and gives a
node for the start rule over the whole input exactly when the forest is valid. -/
theorem C49_terminates_partial (g : Grammar) (sched : Sched Nat) (hf : sched.Fair) (inp : Bytes) (root : Str)
    (N M : Nat) (f₀ : BsrForest) (h : parseBSR sched inp g root N M = .ok f₀)
    (f : BsrForest) (hs : f.sg = f₀.sg) (hi : f.input = f₀.input) (hp : f.set.Perm f₀.set) :
    (f.valid = true → ∃ t r F, (∀ fuel, F ≤ fuel → f.treeWith fuel = some t) ∧ getRule root g.rules = some r ∧
      t.rule = r.name ∧ t.start = 0 ∧ t.fin = inp.length) ∧
    (f.valid = false → ∀ fuel, f.treeWith fuel = none) := by
  obtain ⟨hc, hin, hok, _, hset⟩ := parseBSR_ok hf h
  obtain ⟨fs, hfs⟩ := forest_for hf h
  have hpair := pair_of fwd_fair hf hfs h hs hi hp
  constructor
  · intro hv
    have hro : NodeOK fs.sg inp f.root := by
      rw [← hpair.sg, hs]
      exact bsr_root_ok hf h hs hi (bsr_valid_perm hs hi hp ▸ hv)
    have hr : f.root = .sym fs.sg.start 0 inp.length := by unfold BsrForest.root; rw [hpair.sg, hpair.input]
    rw [hr] at hro
    obtain ⟨L, m, h1, h2, _, _⟩ := pick_of_node hpair hro
    obtain ⟨hr1, r, hr2, hr3⟩ := start_isRule hc
    rw [← hs, hpair.sg] at hr1 hr3
    obtain ⟨ts, F, hF⟩ := collect_terminates f (fun e he => by
      obtain ⟨L, l, k, r⟩ := e
      exact (reach_sound ((hpair.set _ _ _ _).mp he).1).1) _ L.dot [] (Nat.le_refl _) L 0 m inp.length
      (reach_sound h2).1 (Nat.le_refl _)
    refine ⟨.node r.name 0 inp.length ts, r, F, fun fuel hfu => ?_, hr2, rfl, rfl, rfl⟩
    unfold BsrForest.treeWith
    rw [if_pos hv, hpair.sg, hpair.input, h1]
    simp only [hr1, hr3, if_true, hF fuel hfu, Option.map_some]
  · intro hv fuel
    unfold BsrForest.treeWith
    rw [hv]; rfl

/-- A BSR tree of an acyclic forest. -/
theorem bsr_acyclic_tree {g : Grammar} {sched : Sched Nat} (hf : sched.Fair) {inp : Bytes} {root : Str}
    {N M : Nat} {f₀ : BsrForest} (h : parseBSR sched inp g root N M = .ok f₀)
    {f : BsrForest} (hs : f.sg = f₀.sg) (hi : f.input = f₀.input) (hp : f.set.Perm f₀.set)
    (hv : f.valid = true) (hfin : f.numTrees ≠ some (-1)) :
    ∃ t r F, (∀ fuel, F ≤ fuel → f.treeWith fuel = some t) ∧ getRule root g.rules = some r ∧
      t.rule = r.name ∧ t.start = 0 ∧ t.fin = inp.length ∧ TreeOK f.sg inp t := by
  obtain ⟨hc, hin, hok, _, hset⟩ := parseBSR_ok hf h
  obtain ⟨fs, hfs⟩ := forest_for hf h
  have hpair := pair_of fwd_fair hf hfs h hs hi hp
  have hro : NodeOK fs.sg inp f.root := by
    rw [← hpair.sg, hs]
    exact bsr_root_ok hf h hs hi (bsr_valid_perm hs hi hp ▸ hv)
  have hm := (nodes_iff hpair.loop hpair.done _).mpr hro
  obtain ⟨n', b', k1, _, _, _, _, _, k7⟩ := answers (closed_universe hpair hro) false (List.mem_cons_self ..)
    (universe_fuel f) (bsr_productive hpair hro rfl)
  have hne : n' ≠ -1 := by
    rintro rfl
    apply hfin
    unfold BsrForest.numTrees
    rw [if_pos hv]
    exact k1
  have hno : ¬ ∃ x, AtOrBelow fs.packsOf f.root x ∧ StrictlyBelow fs.packsOf x x := by
    intro hcy
    exact hne (k7.mpr ((cycle_iff hpair hro rfl).mp hcy))
  have hac : Acyclic fs f.root := fun x h1 h2 => hno ⟨x, h1, h2⟩
  obtain ⟨hr1, r, hr2, hr3⟩ := start_isRule hc
  rw [← hs, hpair.sg] at hr1 hr3
  rcases numTreesFrom_cert (closed_nodes hpair.loop.inv) true hm (Nat.lt_succ_self _) with ⟨_, hcy⟩ | ⟨m, v, c1, c2, _⟩
  · exact absurd hcy hno
  · obtain ⟨ch, ⟨F, hF⟩, hok'⟩ := bsr_tree_ok hpair hro hac c1 (mem_keys_of_lookup c2) hv hr1
    exact ⟨_, r, F, hF, hr2, hr3, rfl, rfl, hpair.sg ▸ hok'⟩

/-- C49, with a condition: unless `NumTrees` says there are infinitely many trees, everything that `C39_tree` says
of the SPPF engine holds of the BSR engine, whatever the map order. -/
theorem C49_tree_partial (g : Grammar) (hwf : NumValsWF g) (hdp : DistinctPrint g) (sched : Sched Nat)
    (hf : sched.Fair) (inp : Bytes) (root : Str) (N M : Nat) (f₀ : BsrForest)
    (h : parseBSR sched inp g root N M = .ok f₀)
    (f : BsrForest) (hs : f.sg = f₀.sg) (hi : f.input = f₀.input) (hp : f.set.Perm f₀.set)
    (hv : f.valid = true) (hfin : f.numTrees ≠ some (-1)) :
    ∃ t r F, (∀ fuel, F ≤ fuel → f.treeWith fuel = some t) ∧ getRule root g.rules = some r ∧
      t.rule = r.name ∧ t.start = 0 ∧ t.fin = inp.length ∧ t.leaves.flatMap (textOf inp) = inp ∧
      ∀ t' : ParseTree, t'.Sub t → t'.start ≤ t'.fin ∧ t'.fin ≤ inp.length ∧ Tiles t'.leaves t'.start t'.fin ∧
        ((t'.rule = [] ∧ t'.children = []) ∨ DerivesRule g t'.rule (textOf inp (t'.start, t'.fin))) := by
  obtain ⟨t, r, F, h1, h2, h3, h4, h5, h6⟩ := bsr_acyclic_tree hf h hs hi hp hv hfin
  obtain ⟨ix, hl, _, _⟩ := compileSlots_lowered (parseBSR_ok hf h).1
  rw [hs] at h6
  refine ⟨t, r, F, h1, h2, h3, h4, h5, ?_, fun t' ht' => treeOK_facts hl hdp hwf h6 ht'⟩
  rw [(treeOK_facts hl hdp hwf h6 .refl).2.2.1.text, h4, h5]
  simp

/-- C50, with a condition: the tree of a valid SPPF forest is a derivation tree if no text can be cut into
occurrences of a repeated element both in a number the bounds allow and in one they do not. -/
theorem C50_derivation_partial (g : Grammar) (hwf : NumValsWF g) (hdp : DistinctPrint g) (hpl : CountsSettled g)
    (sched : Sched NodeKey) (hf : sched.Fair) (inp : Bytes) (root : Str) (maxNodes maxSlots : Nat) (f : Forest)
    (h : parseForest sched inp g root maxNodes maxSlots = .ok f) (hv : f.valid = true) :
    ∃ t, f.tree = some t ∧ DerivationTree g inp t := by
  obtain ⟨hc, hin, hok, hL, hw, _, _, hr⟩ := parseForest_ok hf h
  obtain ⟨h1, r, h2, h3⟩ := start_isRule hc
  obtain ⟨ix, hl, _, _⟩ := compileSlots_lowered hc
  have hm : NodeKey.sym f.sg.start 0 inp.length ∈ f.st.nodes := by
    by_contra hm
    rw [if_neg hm] at hr
    unfold Forest.valid at hv
    rw [hr] at hv
    cases hv
  rw [if_pos hm] at hr
  obtain ⟨ch, h4, h5⟩ := tree_ok hok hL.inv hr hm h1
  exact ⟨_, h4, derivationTree_of hl hdp hwf hpl h5⟩

/-- C50 for the BSR engine, with the further condition that `NumTrees` is not infinite. -/
theorem C50_bsr_partial (g : Grammar) (hwf : NumValsWF g) (hdp : DistinctPrint g) (hpl : CountsSettled g)
    (sched : Sched Nat) (hf : sched.Fair) (inp : Bytes) (root : Str) (N M : Nat) (f₀ : BsrForest)
    (h : parseBSR sched inp g root N M = .ok f₀)
    (f : BsrForest) (hs : f.sg = f₀.sg) (hi : f.input = f₀.input) (hp : f.set.Perm f₀.set)
    (hv : f.valid = true) (hfin : f.numTrees ≠ some (-1)) :
    ∃ t F, (∀ fuel, F ≤ fuel → f.treeWith fuel = some t) ∧ DerivationTree g inp t := by
  obtain ⟨t, r, F, h1, _, _, _, _, h6⟩ := bsr_acyclic_tree hf h hs hi hp hv hfin
  obtain ⟨ix, hl, _, _⟩ := compileSlots_lowered (parseBSR_ok hf h).1
  exact ⟨t, F, h1, derivationTree_of hl hdp hwf hpl (hs ▸ h6)⟩

end Props

/-! ## Concrete runs -/

mutual
/-- Equality test. -/
def treeEq : ParseTree → ParseTree → Bool
  | .node r s e ch, .node r' s' e' ch' => decide (r = r') && decide (s = s') && decide (e = e') && treesEq ch ch'
/-- Equality test. -/
def treesEq : List ParseTree → List ParseTree → Bool
  | [], [] => true
  | a :: as, b :: bs => treeEq a b && treesEq as bs
  | _, _ => false
end

mutual
theorem treeEq_eq : ∀ a b, treeEq a b = true → a = b
  | .node r s e ch, .node r' s' e' ch', h => by
    simp only [treeEq, Bool.and_eq_true, decide_eq_true_eq] at h
    obtain ⟨⟨⟨rfl, rfl⟩, rfl⟩, h⟩ := h
    rw [treesEq_eq ch ch' h]
theorem treesEq_eq : ∀ as bs, treesEq as bs = true → as = bs
  | [], [], _ => rfl
  | a :: as, b :: bs, h => by
    simp only [treesEq, Bool.and_eq_true] at h
    rw [treeEq_eq a b h.1, treesEq_eq as bs h.2]
  | [], _ :: _, h => by simp [treesEq] at h
  | _ :: _, [], h => by simp [treesEq] at h
end

namespace Ex
/-- `a = "x" / "x"` -/
def twice : Grammar := ⟨[⟨str% "a", [[one (lit (str% "x"))], [one (lit (str% "x"))]]⟩]⟩
/-- `a = a / "x"` -/
def cyclic : Grammar := ⟨[⟨str% "a", [[one (ref (str% "a"))], [one (lit (str% "x"))]]⟩]⟩
/-- `s = r / e r "z"`, `r = 2e`, `e = "xx" / "x"` -/
def counted : Grammar := ⟨[
  ⟨str% "s", [[one (ref (str% "r"))], [one (ref (str% "e")), one (ref (str% "r")), one (lit (str% "z"))]]⟩,
  ⟨str% "r", [[⟨2, some 2, ref (str% "e")⟩]]⟩,
  ⟨str% "e", [[one (lit (str% "xx"))], [one (lit (str% "x"))]]⟩]⟩
/-- `s = e r "z" / r`, `r = 2e`, `e = "x" / "xx"` -/
def counted' : Grammar := ⟨[
  ⟨str% "s", [[one (ref (str% "e")), one (ref (str% "r")), one (lit (str% "z"))], [one (ref (str% "r"))]]⟩,
  ⟨str% "r", [[⟨2, some 2, ref (str% "e")⟩]]⟩,
  ⟨str% "e", [[one (lit (str% "x"))], [one (lit (str% "xx"))]]⟩]⟩

theorem twice_wf : NumValsWF twice ∧ NamesDistinct twice ∧ DistinctPrint twice :=
  ⟨numValsWF_of (by decide), namesDistinct_of (by decide), distinctPrint_of (by decide +kernel)⟩
theorem cyclic_wf : NumValsWF cyclic ∧ NamesDistinct cyclic ∧ DistinctPrint cyclic :=
  ⟨numValsWF_of (by decide), namesDistinct_of (by decide), distinctPrint_of (by decide +kernel)⟩
theorem counted_wf : NumValsWF counted ∧ NamesDistinct counted ∧ DistinctPrint counted :=
  ⟨numValsWF_of (by decide), namesDistinct_of (by decide), distinctPrint_of (by decide +kernel)⟩
theorem counted'_wf : NumValsWF counted' ∧ NamesDistinct counted' ∧ DistinctPrint counted' :=
  ⟨numValsWF_of (by decide), namesDistinct_of (by decide), distinctPrint_of (by decide +kernel)⟩
end Ex

namespace Props

/-- Some leaf, rule node. -/
def leafAt (s e : Nat) : ParseTree := .node [] s e []

/-- The answers of a forest, and whether its tree is `t`. -/
def askForest (r : Except ParseErr Forest) (t : ParseTree) : Option (Bool × Option Int × Option Bool × Option Nat × Bool) :=
  match r with
  | .ok f => some (f.valid, f.numTrees, f.ambiguous, f.nodes, match f.tree with | some t' => treeEq t' t | none => false)
  | .error _ => none

/-- The answers of a BSR forest, and whether its tree is `t`. -/
def askBsr (r : Except ParseErr BsrForest) (t : ParseTree) : Option (Bool × Option Int × Option Bool × Bool) :=
  match r with
  | .ok f => some (f.valid, f.numTrees, f.ambiguous, match f.treeWith 50 with | some t' => treeEq t' t | none => false)
  | .error _ => none

/-- The tree of `1+2` under `Ex.expr`. -/
def exprTree : ParseTree :=
  .node (str% "expr") 0 3 [.node (str% "expr") 0 1 [.node (str% "term") 0 1 [.node (str% "DIGIT") 0 1 [leafAt 0 1]]],
    leafAt 1 2, .node (str% "term") 2 3 [.node (str% "DIGIT") 2 3 [leafAt 2 3]]]

-- C39, C40, C48: a forest with one tree
example : askForest (parseForest fwd (bytes% "1+2") Ex.expr (str% "expr") 0 0) exprTree =
    some (true, some 1, some false, some 16, true) := by decide +kernel
-- with infinitely many
example : (askForest (parseForest fwd (bytes% "x") Ex.nul (str% "a") 0 0) (.node (str% "a") 0 1 [leafAt 0 1])) =
    some (true, some (-1), some true, some 13, true) := by decide +kernel
-- with several
example : (askForest (parseForest fwd (bytes% "xxx") Ex.counted (str% "s") 0 0) exprTree).map (fun a => (a.1, a.2.1)) =
    some (true, some 3) := by decide +kernel
-- with none
example : askForest (parseForest fwd (bytes% "1+") Ex.expr (str% "expr") 0 0) exprTree =
    some (false, some 0, some false, some 0, false) := by decide +kernel
-- C49: the BSR engine
example : askBsr (parseBSR fwd (bytes% "1+2") Ex.expr (str% "expr") 0 0) exprTree =
    some (true, some 1, some false, true) := by decide +kernel
-- C50: a grammar with only plain repetitions, and a tree under it
def listG : Grammar := ⟨[⟨str% "l", [[Ex.one (Ex.ref (str% "DIGIT")),
  ⟨0, none, .group [[Ex.one (Ex.lit (str% ",")), Ex.one (Ex.ref (str% "DIGIT"))]]⟩]]⟩]⟩
/-- Boolean version of `PlainReps`. -/
def plainRepsB (g : Grammar) : Bool :=
  (rulesReps (g.rules ++ Core.rules)).all fun r => decide ((r.min = 1 ∧ r.max = some 1) ∨ (r.min = 0 ∧ r.max = none))
theorem plainReps_of {g : Grammar} (h : plainRepsB g = true) : PlainReps g :=
  fun r hr => of_decide_eq_true (List.all_eq_true.mp h r hr)
example : CountsSettled listG := (plainReps_of (by decide +kernel)).settled
example : askForest (parseForest fwd (bytes% "1,2") listG (str% "l") 0 0) (.node (str% "l") 0 3
    [.node (str% "DIGIT") 0 1 [leafAt 0 1], leafAt 1 2, .node (str% "DIGIT") 2 3 [leafAt 2 3]]) =
    some (true, some 1, some false, some 10, true) := by decide +kernel

theorem askBsr_tree {r : Option ParseTree} {t : ParseTree}
    (h : (match r with | some t' => treeEq t' t | none => false) = true) : r = some t := by
  cases r with
  | none => cases h
  | some t' => rw [treeEq_eq t' t h]

/-- C41 as stated is false: on `a = "x" / "x"` and the input `x` the SPPF has one tree and is not ambiguous, the
BSR set has two and is. -/
theorem C41_fails : ∃ (g : Grammar) (inp : Bytes) (root : Str) (f : Forest) (f' : BsrForest),
    NumValsWF g ∧ NamesDistinct g ∧ DistinctPrint g ∧ parseForest fwd inp g root 0 0 = .ok f ∧
    parseBSR fwd inp g root 0 0 = .ok f' ∧ f.numTrees = some 1 ∧ f'.numTrees = some 2 ∧
    f.ambiguous = some false ∧ f'.ambiguous = some true := by
  have h1 : askForest (parseForest fwd (bytes% "x") Ex.twice (str% "a") 0 0) (.node (str% "a") 0 1 [leafAt 0 1]) =
      some (true, some 1, some false, some 2, true) := by decide +kernel
  have h2 : askBsr (parseBSR fwd (bytes% "x") Ex.twice (str% "a") 0 0) (.node (str% "a") 0 1 [leafAt 0 1]) =
      some (true, some 2, some true, true) := by decide +kernel
  refine ⟨Ex.twice, bytes% "x", str% "a", ?_⟩
  cases hp : parseForest fwd (bytes% "x") Ex.twice (str% "a") 0 0 with
  | error e => rw [hp] at h1; cases h1
  | ok f =>
    cases hb : parseBSR fwd (bytes% "x") Ex.twice (str% "a") 0 0 with
    | error e => rw [hb] at h2; cases h2
    | ok f' =>
      rw [hp] at h1
      rw [hb] at h2
      simp only [askForest, askBsr, Option.some.injEq, Prod.mk.injEq] at h1 h2
      exact ⟨f, f', Ex.twice_wf.1, Ex.twice_wf.2.1, Ex.twice_wf.2.2, rfl, rfl, h1.2.1, h2.2.1, h1.2.2.1, h2.2.2.1⟩

/-- C49 as stated is false: on `a = a / "x"` and the input `x` the tree of the BSR engine has no leaf. -/
theorem C49_fails : ∃ (g : Grammar) (inp : Bytes) (root : Str) (f : BsrForest) (t : ParseTree) (F : Nat),
    NumValsWF g ∧ NamesDistinct g ∧ DistinctPrint g ∧ parseBSR fwd inp g root 0 0 = .ok f ∧ f.valid = true ∧
    (∀ fuel, F ≤ fuel → f.treeWith fuel = some t) ∧ t.leaves = [] ∧ inp ≠ [] := by
  have h2 : askBsr (parseBSR fwd (bytes% "x") Ex.cyclic (str% "a") 0 0)
      (.node (str% "a") 0 1 [.node (str% "a") 0 1 []]) = some (true, some (-1), some true, true) := by decide +kernel
  cases hb : parseBSR fwd (bytes% "x") Ex.cyclic (str% "a") 0 0 with
  | error e => rw [hb] at h2; cases h2
  | ok f =>
    rw [hb] at h2
    simp only [askBsr, Option.some.injEq, Prod.mk.injEq] at h2
    obtain ⟨hv, _, _, h3⟩ := h2
    refine ⟨Ex.cyclic, bytes% "x", str% "a", f, .node (str% "a") 0 1 [.node (str% "a") 0 1 []], 50, Ex.cyclic_wf.1,
      Ex.cyclic_wf.2.1, Ex.cyclic_wf.2.2, hb, hv, treeWith_mono (askBsr_tree h3), rfl, by decide⟩

/-- The tree `Tree` gives for `xxx` under `Ex.counted` and `Ex.counted'`: `r = 2e` has three children. -/
def threeE : ParseTree := .node (str% "s") 0 3 [.node (str% "r") 0 3 [.node (str% "e") 0 1 [leafAt 0 1],
  .node (str% "e") 1 2 [leafAt 1 2], .node (str% "e") 2 3 [leafAt 2 3]]]

theorem timesTrees_rulename {inp : Bytes} {m : Str} : ∀ {n : Nat} {ts : List ParseTree} {i j : Nat},
    TimesTrees inp (.rulename m) n ts i j → ts.length = n := by
  intro n
  induction n with
  | zero => intro ts i j h; cases h; rfl
  | succ n ih =>
    intro ts i j h
    cases h with
    | succ _ _ ts us _ j _ h1 h2 =>
      have h3 := ih h2
      cases h1 with
      | rule => simp [h3]
      | term _ cs _ _ h => cases h
      | empty _ _ h => cases h

theorem threeE_bad {g : Grammar} {inp : Bytes} (h : ∀ r ∈ g.rules, SameName (str% "r") r.name →
    r.alt = [[⟨2, some 2, Ex.ref (str% "e")⟩]]) (hc : ∃ r ∈ g.rules, SameName (str% "r") r.name) :
    ¬ DerivationTree g inp threeE := by
  intro hd
  rcases hd.inv with ⟨h1, _⟩ | ⟨_, _, _, _, h1⟩
  · cases h1
  rcases (h1 _ (List.mem_singleton_self _)).inv with ⟨h2, _⟩ | ⟨r, _, h2, h3, _⟩
  · cases h2
  have hr : r.alt = [[⟨2, some 2, Ex.ref (str% "e")⟩]] := by
    cases h2 with
    | user h4 h5 => exact h _ h4 h5
    | core h4 h5 h6 =>
      obtain ⟨r', h7, h8⟩ := hc
      exact absurd h8 (h6 r' h7)
  rw [hr] at h3
  cases h3 with
  | mk _ c _ _ _ h4 h5 =>
    obtain rfl := List.mem_singleton.mp h4
    generalize hts : ([.node (str% "e") 0 1 [leafAt 0 1], .node (str% "e") 1 2 [leafAt 1 2],
      .node (str% "e") 2 3 [leafAt 2 3]] : List ParseTree) = ts at h5
    cases h5 with
    | cons _ _ ts us _ j _ h6 h7 =>
      cases h7
      cases h6 with
      | mk _ _ _ n _ _ _ h8 h9 h10 =>
        have h11 := timesTrees_rulename h10
        have h12 := h9 2 rfl
        rw [List.append_nil] at hts
        rw [← hts] at h11
        simp at h11
        omega

theorem counted_r {g : Grammar} (h : g = Ex.counted ∨ g = Ex.counted') :
    (∀ r ∈ g.rules, SameName (str% "r") r.name → r.alt = [[⟨2, some 2, Ex.ref (str% "e")⟩]]) ∧
    ∃ r ∈ g.rules, SameName (str% "r") r.name := by
  rcases h with rfl | rfl
  all_goals
    constructor
    · intro r hr hs
      rw [sameName_iff] at hs
      simp only [Ex.counted, Ex.counted', List.mem_cons, List.not_mem_nil, or_false] at hr
      rcases hr with rfl | rfl | rfl
      · exact absurd hs (by decide)
      · rfl
      · exact absurd hs (by decide)
    · exact ⟨⟨str% "r", [[⟨2, some 2, Ex.ref (str% "e")⟩]]⟩, by simp [Ex.counted, Ex.counted'], (sameName_iff _ _).mpr rfl⟩

/-- C50 as stated is false: under `s = r / e r "z"`, `r = 2e`, `e = "xx" / "x"` the tree of `xxx` has three children
under the node for `r`. -/
theorem C50_fails : ∃ (g : Grammar) (inp : Bytes) (root : Str) (f : Forest) (t : ParseTree),
    NumValsWF g ∧ NamesDistinct g ∧ DistinctPrint g ∧ parseForest fwd inp g root 0 0 = .ok f ∧ f.valid = true ∧
    f.tree = some t ∧ ¬ DerivationTree g inp t := by
  have h1 : (askForest (parseForest fwd (bytes% "xxx") Ex.counted (str% "s") 0 0) threeE).map (fun a => (a.1, a.2.2.2.2)) =
      some (true, true) := by decide +kernel
  cases hp : parseForest fwd (bytes% "xxx") Ex.counted (str% "s") 0 0 with
  | error e => rw [hp] at h1; cases h1
  | ok f =>
    rw [hp] at h1
    simp only [askForest, Option.map_some, Option.some.injEq, Prod.mk.injEq] at h1
    exact ⟨Ex.counted, bytes% "xxx", str% "s", f, threeE, Ex.counted_wf.1, Ex.counted_wf.2.1, Ex.counted_wf.2.2, hp,
      h1.1, askBsr_tree h1.2, threeE_bad (counted_r (.inl rfl)).1 (counted_r (.inl rfl)).2⟩

/-- And so for the BSR engine, under `s = e r "z" / r`, `r = 2e`, `e = "x" / "xx"`. -/
theorem C50_bsr_fails : ∃ (g : Grammar) (inp : Bytes) (root : Str) (f : BsrForest) (t : ParseTree) (F : Nat),
    NumValsWF g ∧ NamesDistinct g ∧ DistinctPrint g ∧ parseBSR fwd inp g root 0 0 = .ok f ∧ f.valid = true ∧
    f.numTrees ≠ some (-1) ∧ (∀ fuel, F ≤ fuel → f.treeWith fuel = some t) ∧ ¬ DerivationTree g inp t := by
  have h1 : (askBsr (parseBSR fwd (bytes% "xxx") Ex.counted' (str% "s") 0 0) threeE).map
      (fun a => (a.1, decide (a.2.1 ≠ some (-1)), a.2.2.2)) = some (true, true, true) := by decide +kernel
  cases hp : parseBSR fwd (bytes% "xxx") Ex.counted' (str% "s") 0 0 with
  | error e => rw [hp] at h1; cases h1
  | ok f =>
    rw [hp] at h1
    simp only [askBsr, Option.map_some, Option.some.injEq, Prod.mk.injEq, decide_eq_true_eq] at h1
    exact ⟨Ex.counted', bytes% "xxx", str% "s", f, threeE, 50, Ex.counted'_wf.1, Ex.counted'_wf.2.1,
      Ex.counted'_wf.2.2, hp, h1.1, h1.2.1, treeWith_mono (askBsr_tree h1.2.2),
      threeE_bad (counted_r (.inr rfl)).1 (counted_r (.inr rfl)).2⟩

/-- Could be alike. -/
def alikeB : Sym → Sym → Bool
  | .nt a, .nt b => decide (a = b)
  | .nt _, _ => false
  | _, .nt _ => false
  | _, _ => true

/-- Could be twins. -/
def twinsB : List Sym → List Sym → Bool
  | [], [] => true
  | s :: ss, t :: ts => alikeB s t && twinsB ss ts
  | _, _ => false

theorem twinsB_of {ss ts : List Sym} (h : List.Forall₂ Alike ss ts) : twinsB ss ts = true := by
  induction h with
  | nil => rfl
  | @cons s t ss ts h _ ih =>
    simp only [twinsB, Bool.and_eq_true]
    refine ⟨?_, ih⟩
    cases s <;> cases t <;> simp_all [Alike, alikeB]

/-- No two alternatives could be twins. -/
def noTwinsB (sg : SG) : Bool :=
  (List.range sg.nts.length).all fun n =>
    (List.range (sg.alts n).length).all fun i => (List.range (sg.alts n).length).all fun j =>
      decide (i = j) || !twinsB (sg.prod ⟨n, i, 0⟩) (sg.prod ⟨n, j, 0⟩)

theorem noTwins_of {sg : SG} (h : noTwinsB sg = true) : ∀ n i j, ¬ Twins sg n i j := by
  rintro n i j ⟨h1, h2, h3, _, h4⟩
  have hn : n < sg.nts.length := by
    by_contra hn
    have : sg.alts n = [] := by
      unfold SG.alts SG.nt
      rw [List.getD_eq_getElem?_getD, List.getElem?_eq_none (by omega)]
      rfl
    rw [this] at h2
    simp at h2
  simp only [noTwinsB, List.all_eq_true, List.mem_range] at h
  have := h n hn i h2 j h3
  rw [twinsB_of h4] at this
  simp [h1] at this

-- C41_equal_partial: no two alternatives of `Ex.expr` are twins
example : ∃ f, parseForest fwd (bytes% "1+2") Ex.expr (str% "expr") 0 0 = .ok f ∧ f.valid = true ∧
    ∀ n i j, ¬ Twins f.sg n i j := by
  have h : (match parseForest fwd (bytes% "1+2") Ex.expr (str% "expr") 0 0 with
    | .ok f => f.valid && noTwinsB f.sg
    | .error _ => false) = true := by decide +kernel
  cases hp : parseForest fwd (bytes% "1+2") Ex.expr (str% "expr") 0 0 with
  | error e => rw [hp] at h; cases h
  | ok f =>
    rw [hp] at h
    simp only [Bool.and_eq_true] at h
    exact ⟨f, rfl, h.1, noTwins_of h.2⟩

end Props
end Verif
