import Mathlib.Combinatorics.Enumerative.Catalan.Tree
import Mathlib.Algebra.Order.BigOperators.Group.Finset
import Verif.FlatCount
import Verif.PropsAllTrees

/-!
# C117: the Catalan numbers

/repo/sppf_test.go:68-83 takes the number of binary trees as an oracle for `NumTrees` on sums of up to seven operands.  Here it is
proved for any number of them.
-/

namespace Verif
open Spec

namespace Sums

/-- `e` as an element (/repo/sppf_test.go:71). -/
abbrev operand : Rep := ⟨1, some 1, .rulename ['e']⟩
/-- `"+"` (/repo/sppf_test.go:71). -/
abbrev plus : Rep := ⟨1, some 1, .charVal false ['+']⟩
/-- `"1"` (/repo/sppf_test.go:71). -/
abbrev one : Rep := ⟨1, some 1, .charVal false ['1']⟩
/-- `e = e "+" e / "1"` (/repo/sppf_test.go:71). -/
def rule : Rule := ⟨['e'], [[operand, plus, operand], [one]]⟩
/-- The grammar of that rule (/repo/sppf_test.go:71). -/
def sums : Grammar := ⟨[rule]⟩
/-- `strings.TrimRight(strings.Repeat("1+", k+1), "+")`, a sum of `k+1` operands (/repo/sppf_test.go:74). -/
def text (k : Nat) : Bytes := (List.replicate k [49, 43]).flatten ++ [49]

theorem text_length (k : Nat) : (text k).length = 2 * k + 1 := by simp [text]; omega

theorem text_get (k i : Nat) (h : i < 2 * k + 1) : (text k)[i]? = some (if i % 2 = 0 then 49 else 43) := by
  induction k generalizing i with
  | zero => have : i = 0 := by omega
            subst this; rfl
  | succ k ih =>
    have he : text (k + 1) = 49 :: 43 :: text k := by simp [text, List.replicate_succ]
    rw [he]
    match i, h with
    | 0, _ => rfl
    | 1, _ => rfl
    | i + 2, h =>
      simp only [List.getElem?_cons_succ]
      rw [ih i (by omega), Nat.add_mod_right]

/-! ## Derivation trees are binary trees -/

/-- The leaf of a terminal of one byte. -/
def leaf (i : Nat) : ParseTree := .node [] i (i + 1) []

/-- A binary tree as a derivation tree from position `i`: the nodes are the operators. -/
def grow : BinaryTree Unit → Nat → ParseTree
  | .nil, i => .node ['e'] i (i + 1) [leaf i]
  | .node _ l r, i => .node ['e'] i (i + (2 * (l.numNodes + r.numNodes + 1) + 1))
      [grow l i, leaf (i + (2 * l.numNodes + 1)), grow r (i + (2 * l.numNodes + 2))]

theorem grow_start (t : BinaryTree Unit) (i : Nat) : (grow t i).start = i := by cases t <;> rfl
theorem grow_fin (t : BinaryTree Unit) (i : Nat) : (grow t i).fin = i + (2 * t.numNodes + 1) := by cases t <;> rfl
theorem grow_rule (t : BinaryTree Unit) (i : Nat) : (grow t i).rule = ['e'] := by cases t <;> rfl

theorem grow_inj {t t' : BinaryTree Unit} {i : Nat} (h : grow t i = grow t' i) : t = t' := by
  induction t generalizing t' i with
  | nil =>
    cases t' with
    | nil => rfl
    | node => simp [grow] at h
  | node a l r ihl ihr =>
    cases t' with
    | nil => simp [grow] at h
    | node b l' r' =>
      simp only [grow, ParseTree.node.injEq, List.cons.injEq, true_and, and_true] at h
      obtain ⟨_, h1, _, h2⟩ := h
      have := ihl h1
      subst this
      rw [ihr h2]

theorem once_trees {inp : Bytes} {e : Elem} {ts : List ParseTree} {i j : Nat} :
    RepTrees inp ⟨1, some 1, e⟩ ts i j ↔ ElemTrees inp e ts i j := by
  constructor
  · intro h
    cases h with
    | mk _ _ _ n _ _ _ h1 h2 h3 =>
      have : n = 1 := by have := h2 1 rfl; omega
      subst this
      cases h3 with
      | succ _ _ ts us _ m _ h4 h5 => cases h5; rw [List.append_nil]; exact h4
  · intro h
    refine .mk _ _ _ 1 _ _ _ (le_refl _) (by simp) ?_
    have := TimesTrees.succ e 0 ts [] i j j h (.zero e j)
    rwa [List.append_nil] at this

theorem concat_cons {inp : Bytes} {e : Elem} {c : Concat} {ts : List ParseTree} {i k : Nat} :
    ConcatTrees inp (⟨1, some 1, e⟩ :: c) ts i k ↔ ∃ as bs j, ts = as ++ bs ∧ ElemTrees inp e as i j ∧ ConcatTrees inp c bs j k := by
  constructor
  · intro h
    cases h with
    | cons _ _ as bs _ j _ h1 h2 => exact ⟨as, bs, j, rfl, once_trees.mp h1, h2⟩
  · rintro ⟨as, bs, j, rfl, h1, h2⟩
    exact .cons _ _ _ _ _ _ _ (once_trees.mpr h1) h2

theorem concat_nil {inp : Bytes} {ts : List ParseTree} {i k : Nat} : ConcatTrees inp [] ts i k ↔ ts = [] ∧ i = k := by
  constructor
  · intro h; cases h; exact ⟨rfl, rfl⟩
  · rintro ⟨rfl, rfl⟩; exact .nil _

/-- A quoted character that is no letter. -/
theorem terminal_one {c : Char} (hc : ¬ ('A' ≤ c ∧ c ≤ 'Z')) (hc' : ¬ ('a' ≤ c ∧ c ≤ 'z')) {cs : List Char} :
    Terminal (.charVal false [c]) cs ↔ cs = [c] := by
  constructor
  · intro h
    cases h with
    | insensitive _ _ h =>
      cases h with
      | cons h1 h2 =>
        cases h2
        rcases h1 with rfl | ⟨h1, h2, _⟩ | ⟨h1, h2, _⟩
        · rfl
        · exact absurd ⟨h1, h2⟩ hc
        · exact absurd ⟨h1, h2⟩ hc'
  · rintro rfl
    exact .insensitive _ _ (.cons (.inl rfl) .nil)

theorem elem_char {inp : Bytes} {c : Char} (hc : ¬ ('A' ≤ c ∧ c ≤ 'Z')) (hc' : ¬ ('a' ≤ c ∧ c ≤ 'z')) {b : UInt8} (hb : utf8 [c] = [b])
    {ts : List ParseTree} {i j : Nat} :
    ElemTrees inp (.charVal false [c]) ts i j ↔ ts = [leaf i] ∧ j = i + 1 ∧ inp[i]? = some b := by
  have hbt : ∀ {i j : Nat}, Spec.Between inp i j [b] ↔ j = i + 1 ∧ inp[i]? = some b := by
    intro i j
    unfold Spec.Between
    rw [List.length_singleton, and_comm]
    refine and_congr_right fun _ => ?_
    constructor
    · rintro ⟨t, ht⟩
      have := congrArg (fun l => l[0]?) ht
      simpa using this.symm
    · intro h
      obtain ⟨h1, h2⟩ := List.getElem?_eq_some_iff.mp h
      refine ⟨inp.drop (i + 1), ?_⟩
      rw [← h2, List.singleton_append]
      exact (List.drop_eq_getElem_cons h1).symm
  constructor
  · intro h
    cases h with
    | term _ cs _ _ h1 h2 =>
      rw [terminal_one hc hc'] at h1
      subst h1
      rw [hb] at h2
      obtain ⟨rfl, h3⟩ := hbt.mp h2
      exact ⟨rfl, rfl, h3⟩
    | empty _ _ h1 => rw [terminal_one hc hc'] at h1; cases h1
  · rintro ⟨rfl, rfl, h⟩
    exact .term _ [c] _ _ ((terminal_one hc hc').mpr rfl) (by rw [hb]; exact hbt.mpr ⟨rfl, h⟩)

theorem elem_e {inp : Bytes} {ts : List ParseTree} {i j : Nat} :
    ElemTrees inp (.rulename ['e']) ts i j ↔ ∃ r ch, SameName ['e'] r ∧ ts = [.node r i j ch] := by
  constructor
  · intro h
    cases h with
    | rule _ r _ _ ch h => exact ⟨r, ch, h, rfl⟩
    | term _ cs _ _ h1 => cases h1
    | empty _ _ h1 => cases h1
  · rintro ⟨r, ch, h, rfl⟩
    exact .rule _ _ _ _ _ h

/-- The ways of the rule. -/
theorem alt_iff {inp : Bytes} {ts : List ParseTree} {i j : Nat} : AltTrees inp rule.alt ts i j ↔
    (ts = [leaf i] ∧ j = i + 1 ∧ inp[i]? = some 49) ∨
    ∃ m r c r' c', SameName ['e'] r ∧ SameName ['e'] r' ∧ ts = [.node r i m c, leaf m, .node r' (m + 1) j c'] ∧ inp[m]? = some 43 := by
  have hplus : ∀ {ts : List ParseTree} {i j : Nat}, ElemTrees inp (.charVal false ['+']) ts i j ↔ ts = [leaf i] ∧ j = i + 1 ∧ inp[i]? = some 43 :=
    elem_char (by decide) (by decide) (by decide)
  have hone : ∀ {ts : List ParseTree} {i j : Nat}, ElemTrees inp (.charVal false ['1']) ts i j ↔ ts = [leaf i] ∧ j = i + 1 ∧ inp[i]? = some 49 :=
    elem_char (by decide) (by decide) (by decide)
  constructor
  · intro h
    cases h with
    | mk _ c _ _ _ hc h =>
      simp only [rule, List.mem_cons, List.not_mem_nil, or_false] at hc
      rcases hc with rfl | rfl
      · obtain ⟨_, _, m, rfl, h1, h⟩ := concat_cons.mp h
        obtain ⟨_, _, m', rfl, h2, h⟩ := concat_cons.mp h
        obtain ⟨_, _, m'', rfl, h3, h⟩ := concat_cons.mp h
        obtain ⟨rfl, rfl⟩ := concat_nil.mp h
        obtain ⟨r, c, e1, rfl⟩ := elem_e.mp h1
        obtain ⟨rfl, rfl, e2⟩ := hplus.mp h2
        obtain ⟨r', c', e3, rfl⟩ := elem_e.mp h3
        exact .inr ⟨m, r, c, r', c', e1, e3, rfl, e2⟩
      · obtain ⟨_, _, m, rfl, h1, h⟩ := concat_cons.mp h
        obtain ⟨rfl, rfl⟩ := concat_nil.mp h
        obtain ⟨rfl, rfl, e2⟩ := hone.mp h1
        exact .inl ⟨rfl, rfl, e2⟩
  · rintro (⟨rfl, rfl, h⟩ | ⟨m, r, c, r', c', h1, h2, rfl, h3⟩)
    · refine .mk _ [one] _ _ _ (by simp [rule]) (concat_cons.mpr ⟨[leaf i], [], i + 1, rfl, hone.mpr ⟨rfl, rfl, h⟩, .nil _⟩)
    · refine .mk _ [operand, plus, operand] _ _ _ (by simp [rule]) (concat_cons.mpr ⟨[_], _, m, rfl, elem_e.mpr ⟨r, c, h1, rfl⟩, ?_⟩)
      refine concat_cons.mpr ⟨[_], _, m + 1, rfl, hplus.mpr ⟨rfl, rfl, h3⟩, ?_⟩
      exact concat_cons.mpr ⟨[_], _, j, rfl, elem_e.mpr ⟨r', c', h2, rfl⟩, .nil _⟩

theorem resolves_e {n : Str} (hn : SameName ['e'] n) {r : Rule} (h : Resolves sums n r) : r = rule := by
  have hc : canon n = canon ['e'] := ((sameName_iff _ _).mp hn).symm
  have hg := resolves_getRule (namesDistinct_of (by decide)) h
  have : getRule n sums.rules = some rule := resolves_getRule (namesDistinct_of (by decide)) (.user (by simp [sums]) (by
    rw [sameName_iff, hc]; rfl))
  rw [this] at hg
  cases hg
  rfl

/-- Every derivation tree of the rule is a binary tree. -/
theorem of_tree {inp : Bytes} {t : ParseTree} (h : DerivationTree sums inp t) :
    SameName ['e'] t.rule → ∃ T : BinaryTree Unit, t = grow T t.start ∧ t.fin = t.start + (2 * T.numNodes + 1) := by
  induction h with
  | leaf s e => intro h; cases h
  | rule r s e ch hr ha _ ih =>
    intro hn
    obtain rfl := resolves_e hn hr
    rcases alt_iff.mp ha with ⟨rfl, rfl, _⟩ | ⟨m, r, c, r', c', h1, h2, rfl, _⟩
    · exact ⟨.nil, rfl, rfl⟩
    · obtain ⟨L, e1, e2⟩ := ih (.node r s m c) (by simp) h1
      obtain ⟨R, e3, e4⟩ := ih (.node r' (m + 1) e c') (by simp) h2
      simp only [ParseTree.start, ParseTree.fin] at e1 e2 e3 e4
      subst e2
      subst e4
      refine ⟨.node () L R, ?_, ?_⟩
      · simp only [grow, ParseTree.start, ParseTree.node.injEq, List.cons.injEq, and_true, true_and]
        refine ⟨rfl, by omega, e1, ?_⟩
        rw [e3]; rfl
      · simp only [ParseTree.start, ParseTree.fin, BinaryTree.numNodes]
        omega

/-- Every binary tree is a derivation tree of the texts with digits and operators in turn. -/
theorem to_tree {inp : Bytes} (T : BinaryTree Unit) (i : Nat)
    (h : ∀ p, i ≤ p → p < i + (2 * T.numNodes + 1) → inp[p]? = some (if (p - i) % 2 = 0 then 49 else 43)) :
    DerivationTree sums inp (grow T i) ∧ Tidy (grow T i) := by
  have hres : Resolves sums rule.name rule := .user (by simp [sums]) ((sameName_iff _ _).mpr rfl)
  have hleaf : ∀ i, Tidy (leaf i) := fun i => .mk _ _ _ _ (fun _ => Nat.lt_succ_self _) (by simp)
  induction T generalizing i with
  | nil =>
    refine ⟨.rule rule _ _ _ hres (alt_iff.mpr (.inl ⟨rfl, rfl, ?_⟩)) ?_, .mk _ _ _ _ nofun ?_⟩
    · have := h i (le_refl _) (by simp only [BinaryTree.numNodes]; omega)
      simpa using this
    · intro c hc; rw [List.mem_singleton.mp hc]; exact .leaf _ _
    · intro c hc; rw [List.mem_singleton.mp hc]; exact hleaf _
  | node a l r ihl ihr =>
    simp only [BinaryTree.numNodes] at h
    obtain ⟨l1, l2⟩ := ihl i fun p h1 h2 => h p h1 (by omega)
    obtain ⟨r1, r2⟩ := ihr (i + (2 * l.numNodes + 2)) fun p h1 h2 => by
      rw [h p (by omega) (by omega)]
      congr 2
      rw [show p - i = (p - (i + (2 * l.numNodes + 2))) + 2 * (l.numNodes + 1) by omega, Nat.add_mul_mod_self_left]
    have hb : ∀ (T : BinaryTree Unit) (i : Nat), ∃ ch, grow T i = .node ['e'] i (i + (2 * T.numNodes + 1)) ch := by
      intro T i
      cases T <;> exact ⟨_, rfl⟩
    obtain ⟨cl, el⟩ := hb l i
    obtain ⟨cr, er⟩ := hb r (i + (2 * l.numNodes + 2))
    have hin : ∀ c ∈ [grow l i, leaf (i + (2 * l.numNodes + 1)), grow r (i + (2 * l.numNodes + 2))],
        DerivationTree sums inp c ∧ Tidy c := by
      intro c hc
      simp only [List.mem_cons, List.not_mem_nil, or_false] at hc
      rcases hc with rfl | rfl | rfl
      · exact ⟨l1, l2⟩
      · exact ⟨.leaf _ _, hleaf _⟩
      · exact ⟨r1, r2⟩
    refine ⟨.rule rule _ _ _ hres (alt_iff.mpr (.inr ⟨i + (2 * l.numNodes + 1), ['e'], cl, ['e'], cr, ?_, ?_, ?_, ?_⟩)) fun c hc => (hin c hc).1,
      .mk _ _ _ _ nofun fun c hc => (hin c hc).2⟩
    · exact (sameName_iff _ _).mpr rfl
    · exact (sameName_iff _ _).mpr rfl
    · rw [el, er]
      simp only [List.cons.injEq, ParseTree.node.injEq, and_true, true_and]
      exact ⟨by omega, by omega⟩
    · rw [h _ (by omega) (by omega)]
      rw [if_neg (by omega)]

/-- The derivation trees of a sum are the binary trees with a node for each operator. -/
theorem whole_iff (k : Nat) (d : ParseTree) :
    WholeTree sums ['e'] (text k) d ↔ ∃ T : BinaryTree Unit, T.numNodes = k ∧ grow T 0 = d := by
  constructor
  · intro h
    obtain ⟨T, h1, h2⟩ := of_tree h.derives h.root
    rw [h.start] at h1 h2
    rw [h.fin, text_length] at h2
    exact ⟨T, by omega, h1.symm⟩
  · rintro ⟨T, rfl, rfl⟩
    obtain ⟨h1, h2⟩ := to_tree (inp := text T.numNodes) T 0 fun p _ hp => by
      rw [text_get _ _ (by omega), Nat.sub_zero]
    refine ⟨h1, h2, ?_, ?_, grow_start .., ?_⟩
    · rw [grow_rule]; exact (sameName_iff _ _).mpr rfl
    · rw [grow_rule]; simp
    · rw [grow_fin, text_length]; omega

theorem flat : FlatFrom sums ['e'] := by
  have hall : ∀ r, Uses sums ['e'] r → r = rule := by
    intro r h
    induction h with
    | root r h => exact resolves_e ((sameName_iff _ _).mpr rfl) h
    | step r q c p n _ hc hp he hq ih =>
      subst ih
      simp only [rule, List.mem_cons, List.not_mem_nil, or_false] at hc
      rcases hc with rfl | rfl <;> simp only [List.mem_cons, List.not_mem_nil, or_false] at hp
      · rcases hp with rfl | rfl | rfl <;> cases he <;> exact resolves_e ((sameName_iff _ _).mpr rfl) hq
      · subst hp; cases he
  intro r hr
  rw [hall r hr]
  refine ⟨?_, ?_, ?_, ?_⟩
  · intro c hc
    simp only [rule, List.mem_cons, List.not_mem_nil, or_false] at hc
    rcases hc with rfl | rfl <;> simp
  · intro c hc p hp
    simp only [rule, List.mem_cons, List.not_mem_nil, or_false] at hc
    rcases hc with rfl | rfl <;> simp only [List.mem_cons, List.not_mem_nil, or_false] at hp
    · rcases hp with rfl | rfl | rfl <;> exact ⟨rfl, rfl⟩
    · subst hp; exact ⟨rfl, rfl⟩
  · have hres : ∃ q, Resolves sums ['e'] q := ⟨rule, .user (by simp [sums]) ((sameName_iff _ _).mpr rfl)⟩
    have hne : ∀ c, ¬ Terminal (.charVal false [c]) [] := by
      intro c h; cases h with | insensitive _ _ h => cases h
    intro c hc p hp
    simp only [rule, List.mem_cons, List.not_mem_nil, or_false] at hc
    rcases hc with rfl | rfl <;> simp only [List.mem_cons, List.not_mem_nil, or_false] at hp
    · rcases hp with rfl | rfl | rfl
      · exact hres
      · exact hne _
      · exact hres
    · subst hp; exact hne _
  · exact .cons (by intro b hb; rw [List.mem_singleton.mp hb]; exact .inl (by decide)) (.cons (by simp) .nil)

theorem catalan_pos (n : Nat) : 0 < catalan n := by
  have h := succ_mul_catalan_eq_centralBinom n
  have := Nat.centralBinom_pos n
  by_contra h0
  have : catalan n = 0 := by omega
  rw [this] at h
  omega

theorem catalan_ge (n : Nat) : n + 1 ≤ catalan (n + 1) := by
  rw [catalan_succ]
  calc n + 1 = ∑ _i : Fin n.succ, 1 := by simp
    _ ≤ _ := Finset.sum_le_sum fun i _ => Nat.mul_pos (catalan_pos _) (catalan_pos _)

end Sums

namespace Props
open Sums

/-- C117.  The oracle of /repo/sppf_test.go:68-83 is right for any number of operands: a sum of `k+1` operands is valid, `NumTrees`
is the `k`-th Catalan number and `Ambiguous` tells whether there are three operands or more. -/
theorem C117_catalan (k : Nat) (sched : Sched NodeKey) (hf : sched.Fair) (N M : Nat) (f : Forest)
    (h : parseForest sched (text k) sums ['e'] N M = .ok f) :
    f.valid = true ∧ f.numTrees = some (catalan k : Int) ∧ f.ambiguous = some (decide (2 ≤ k)) := by
  have hnd : NamesDistinct sums := namesDistinct_of (by decide)
  have hwf : NumValsWF sums := numValsWF_of (by decide)
  have hdp : DistinctPrint sums := distinctPrint_of (by decide +kernel)
  have hnm : Spelt.Named (rulesReps (sums.rules ++ Core.rules)) := named_of (by decide +kernel)
  have hcs : CountsSettled sums := (plainReps_of (by decide +kernel)).settled
  obtain ⟨n, h1, h2⟩ := C117_count sums hwf hnd hdp hnm hcs sched hf (text k) ['e'] (by simp) flat N M f h
  have hn : n = catalan k := by
    classical
    rcases h2 with ⟨ds, h3, h4, rfl⟩ | ⟨_, h3⟩
    · have : ds.toFinset = (BinaryTree.treesOfNumNodesEq k).image (grow · 0) := by
        ext d
        rw [List.mem_toFinset, h4, whole_iff, Finset.mem_image]
        simp only [BinaryTree.mem_treesOfNumNodesEq]
      have hc := congrArg Finset.card this
      rw [List.toFinset_card_of_nodup h3, Finset.card_image_of_injective _ fun a b h => grow_inj h,
        BinaryTree.treesOfNumNodesEq_card_eq_catalan] at hc
      rw [hc]
    · refine absurd ⟨((BinaryTree.treesOfNumNodesEq k).image (grow · 0)).toList, fun d hd => ?_⟩ h3
      rw [Finset.mem_toList, Finset.mem_image]
      obtain ⟨T, e1, e2⟩ := (whole_iff k d).mp hd
      exact ⟨T, BinaryTree.mem_treesOfNumNodesEq.mpr e1, e2⟩
  obtain ⟨n', b, c1, c2, c3, c4, _⟩ := C40_consistent sums sched hf _ _ N M f h
  rw [h1] at c1
  cases c1
  have hpos := catalan_pos k
  have hv : f.valid = true := c3.mpr (by omega)
  refine ⟨hv, by rw [h1, hn], ?_⟩
  rw [c2]
  congr 1
  have hb := c4 hv
  rw [hn] at hb
  by_cases hk : 2 ≤ k
  · obtain ⟨j, rfl⟩ : ∃ j, k = j + 1 := ⟨k - 1, by omega⟩
    have hge := catalan_ge j
    simp only [hk, decide_true]
    cases b with
    | true => rfl
    | false =>
      have := hb.mp rfl
      omega
  · have : catalan k = 1 := by
      interval_cases k
      · exact catalan_zero
      · exact catalan_one
    simp_all

/-- What the grammar of sums is lowered to (/repo/sppf.go:102-167). -/
def sumSlots : SG := ⟨[{ isRule := true, ruleName := ['e'], alts := [[.nt 0, .term (.charVal false ['+']), .nt 0], [.term (.charVal false ['1'])]] }], 0⟩

theorem sums_slots : compileSlots sums ['e'] 0 = .ok sumSlots := by decide +kernel

/-- C117.  The same for `ParseBSR` (/repo/bsr.go:312-472). -/
theorem C117_catalan_bsr (k : Nat) (sched : Sched Nat) (hf : sched.Fair) (N M : Nat) (f : BsrForest)
    (h : parseBSR sched (text k) sums ['e'] N M = .ok f) :
    f.valid = true ∧ f.numTrees = some (catalan k : Int) ∧ f.ambiguous = some (decide (2 ≤ k)) := by
  obtain ⟨f₀, h₀⟩ := forest_for hf h
  obtain ⟨h1, h2, h3⟩ := C117_catalan k fwd fwd_fair 0 M f₀ h₀
  have hv := C03_agree sums fwd sched fwd_fair hf _ _ 0 N M M f₀ f h₀ h
  have hsg : compileSlots sums ['e'] 0 = .ok f₀.sg := by
    have hM := (parseForest_ok fwd_fair h₀).1
    by_cases hz : M = 0
    · rw [hz] at hM; exact hM
    · exact ((C11_budget sums ['e'] M (by omega) f₀.sg).mp hM).1
  rw [sums_slots] at hsg
  simp only [Except.ok.injEq] at hsg
  obtain ⟨e1, e2⟩ := C41_equal_partial sums fwd sched fwd_fair hf _ _ 0 N M M f₀ f h₀ h f rfl rfl (.refl _) (by
    intro n i j ht
    obtain ⟨hij, hi, hj, _, hall⟩ := ht
    have hlen := hall.length_eq
    rw [← hsg] at hi hj hlen
    match n with
    | 0 =>
      have hi' : i < 2 := hi
      have hj' : j < 2 := hj
      interval_cases i <;> interval_cases j <;> first | exact hij rfl | (revert hlen; decide)
    | n + 1 => exact absurd hi (by simp [SG.alts, SG.nt, sumSlots]))
  exact ⟨by rw [← hv]; exact h1, by rw [← e1]; exact h2, by rw [← e2]; exact h3⟩

/-! ## Examples -/

-- C117_catalan and C117_catalan_bsr: sums of three and of four operands
example : (match parseForest fwd (text 2) sums ['e'] 0 0 with
    | .ok f => some (f.valid, f.numTrees, f.ambiguous) | .error _ => none) = some (true, some 2, some true) := by decide +kernel
example : (match parseBSR fwd (text 3) sums ['e'] 0 0 with
    | .ok f => some (f.valid, f.numTrees, f.ambiguous) | .error _ => none) = some (true, some 5, some true) := by decide +kernel
-- C117_reads, C117_count: the hypotheses hold of the grammar of sums
example : NumValsWF sums ∧ NamesDistinct sums ∧ DistinctPrint sums ∧ Spelt.Named (rulesReps (sums.rules ++ Core.rules)) ∧
    CountsSettled sums ∧ FlatFrom sums ['e'] ∧ (parseForest fwd (text 2) sums ['e'] 0 0).isOk :=
  ⟨numValsWF_of (by decide), namesDistinct_of (by decide), distinctPrint_of (by decide +kernel), named_of (by decide +kernel),
    (plainReps_of (by decide +kernel)).settled, flat, by decide +kernel⟩

end Props
end Verif
