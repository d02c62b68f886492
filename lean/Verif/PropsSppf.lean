import Verif.SppfLemmas
import Verif.PropsSlots

/-! # C01, C07, C09, C35, C47: the SPPF engine -/

namespace Verif
open Spec

/-- The state a forest was built from. -/
theorem parseForest_ok {sched : Sched NodeKey} (hf : sched.Fair) {inp : Bytes} {g : Grammar} {root : Str}
    {N M : Nat} {f : Forest} (h : parseForest sched inp g root N M = .ok f) :
    compileSlots g root M = .ok f.sg ∧ f.input = inp ∧ SGOK f.sg ∧ LoopInv f.sg inp f.st ∧ f.st.work = [] ∧
      f.st.aborted = false ∧
      sppfLoop f.sg inp N sched (gllFuel f.sg inp.length) (sppfInit f.sg) = some f.st ∧
      f.root = if NodeKey.sym f.sg.start 0 inp.length ∈ f.st.nodes then
        some (.sym f.sg.start 0 inp.length) else none := by
  unfold parseForest at h
  split at h
  · simp at h
  rename_i sg hsg
  obtain ⟨ix, hl, _, _⟩ := compileSlots_lowered hsg
  have hok := hl.ok
  split at h
  · simp at h
  rename_i st hst
  split_ifs at h with ha
  all_goals
    simp only [Except.ok.injEq] at h
    subst h
    obtain ⟨hinit, hcount⟩ := loopInv_init sg inp
    obtain ⟨st', h1, h2, h3⟩ := sppfLoop_spec (N := N) hok hf (gllFuel sg inp.length) 0 hinit (by omega) (by omega)
    rw [hst] at h1
    simp only [Option.some.injEq] at h1
    subst h1
    refine ⟨hsg, rfl, hok, h2, ?_, by simpa using ha, hst, ?_⟩
    · rcases h3 with h3 | h3
      · exact absurd h3 ha
      · exact h3
    · simp_all

/-- A run with a budget in terms of the run without one. -/
theorem parseForest_eq {sched : Sched NodeKey} (hf : sched.Fair) {inp : Bytes} {g : Grammar} {root : Str}
    {M : Nat} {sg : SG} (h : compileSlots g root M = .ok sg) :
    ∃ st0, ∀ N, parseForest sched inp g root N M =
      if 0 < N ∧ N < st0.nodes.length then .error (.forestTooLarge N)
      else .ok ⟨sg, inp, if NodeKey.sym sg.start 0 inp.length ∈ st0.nodes then
        some (.sym sg.start 0 inp.length) else none, st0⟩ := by
  obtain ⟨ix, hl, _, _⟩ := compileSlots_lowered h
  obtain ⟨hinit, hcount⟩ := loopInv_init sg inp
  have hi : (sppfInit sg).nodes = [] ∧ (sppfInit sg).aborted = false := by
    unfold sppfInit
    generalize List.range (sg.alts sg.start).length = l
    have : ∀ st : SppfSt, st.nodes = [] ∧ st.aborted = false → (l.foldl (fun st alt => sppfAdd
        ⟨⟨sg.start, alt, 0⟩, none, 0, none, 0⟩ st) st).nodes = [] ∧ (l.foldl (fun st alt => sppfAdd
        ⟨⟨sg.start, alt, 0⟩, none, 0, none, 0⟩ st) st).aborted = false := by
      induction l with
      | nil => exact fun _ h => h
      | cons a l ih =>
        intro st hst
        apply ih
        have : ∀ d, (sppfAdd d st).nodes = [] ∧ (sppfAdd d st).aborted = false := by
          intro d; unfold sppfAdd; split_ifs <;> exact hst
        exact this _
    exact this _ ⟨rfl, rfl⟩
  have hclear : (sppfInit sg).clear = sppfInit sg := by
    generalize sppfInit sg = st at hi
    cases st; simp only [SppfSt.clear] at *; simp only [hi.2]
  have hb : ∀ N, Budget N (sppfInit sg) := by
    intro N; unfold Budget; rw [hi.1, hi.2]; simp
  obtain ⟨st0, h1, _, _⟩ := sppfLoop_spec (N := 0) hl.ok hf (gllFuel sg inp.length) 0 hinit (by omega) (by omega)
  refine ⟨st0, fun N => ?_⟩
  rw [← hclear] at h1
  obtain ⟨r, h2, h3, h4⟩ := sppfLoop_budget (N := N) (hb N) h1
  unfold parseForest
  rw [h]
  simp only [h2, h3, decide_eq_true_eq]
  by_cases hN : 0 < N ∧ N < st0.nodes.length
  · rw [if_pos hN, if_pos hN]
  · rw [if_neg hN, if_neg hN]
    have := h4 (by rw [h3]; simpa using hN)
    subst this
    rfl

/-- How lowering can end. -/
theorem compileSlots_cases (g : Grammar) (root : Str) (max : Nat) :
    (∃ sg, compileSlots g root max = .ok sg) ∨ compileSlots g root max = .error .ruleNotFound ∨
    (0 < max ∧ compileSlots g root max = .error (.grammarTooLarge max)) := by
  cases hr : getRule root g.rules with
  | none => exact .inr (.inl (by unfold compileSlots; rw [hr]))
  | some r =>
    have ht := Props.C11_terminates g root max
    obtain ⟨sg, hsg⟩ := compileSlots_unbounded hr
    by_cases h0 : max = 0
    · subst h0; exact .inl ⟨sg, hsg⟩
    · unfold compileSlots at ht ⊢
      rw [hr] at ht ⊢
      simp only [] at ht ⊢
      split at ht
      · exact absurd rfl ht
      · split_ifs
        · exact .inr (.inr ⟨by omega, rfl⟩)
        · exact .inl ⟨_, rfl⟩

/-- The nodes of a finished forest are exactly those the rules call for. -/
theorem nodes_iff {sg : SG} {inp : Bytes} {st : SppfSt} (h : LoopInv sg inp st) (hw : st.work = []) (k : NodeKey) :
    k ∈ st.nodes ↔ NodeOK sg inp k := by
  refine ⟨h.inv.nodes k, fun hk => ?_⟩
  cases k with
  | sym n l r =>
    obtain ⟨L, m, rfl, hd, hr⟩ := hk
    have := reach_rep h hw hr
    have hu : ¬ Unary sg L := fun hu => hu.2 hd
    have := (this hu).1
    unfold nodeFor at this
    rwa [if_pos hd] at this
  | inter L l r =>
    obtain ⟨h1, h2, m, hr⟩ := hk
    have := reach_rep h hw hr
    have := (this fun hu => h1 hu.1).1
    unfold nodeFor at this
    rwa [if_neg h2, if_neg h1] at this
  | term l r =>
    obtain ⟨L, u, rc, s, hr, hs, hm⟩ := hk
    have := reach_rep h hw hr
    simp only [Rep', drop_of_get? hs] at this
    exact (done_term hm this).1

theorem packs_iff {sg : SG} {inp : Bytes} {st : SppfSt} (h : LoopInv sg inp st) (hw : st.work = []) (p : Pack) :
    p ∈ st.packs ↔ ∃ L l m r, Reach sg inp (.adv L l m r) ∧ ¬ Unary sg L ∧
      p = (nodeFor sg L l r, kids sg L l m r) := by
  constructor
  · intro hp
    obtain ⟨_, _, L, l, m, r, h1, h2, h3, h4⟩ := h.inv.packs p.1 p.2 hp
    exact ⟨L, l, m, r, h1, h2, by rw [← h3, ← h4]⟩
  · rintro ⟨L, l, m, r, h1, h2, rfl⟩
    exact (reach_rep h hw h1 h2).2

theorem root_iff {sg : SG} {inp : Bytes} (hok : SGOK sg) {r : Nat} :
    NodeOK sg inp (.sym sg.start 0 r) ↔ NTD sg inp sg.start 0 0 r := by
  rw [← reach_accepts hok.start (hok.ne _)]
  rfl

/-- Acceptance of the engine is derivability in the slot grammar, with no condition on the grammar. -/
theorem forest_valid_iff {sched : Sched NodeKey} (hf : sched.Fair) {inp : Bytes} {g : Grammar} {root : Str}
    {N M : Nat} {f : Forest} (h : parseForest sched inp g root N M = .ok f) :
    f.valid = true ↔ NTD f.sg inp f.sg.start 0 0 inp.length := by
  obtain ⟨_, _, hok, hL, hw, _, _, hr⟩ := parseForest_ok hf h
  rw [← root_iff hok, ← nodes_iff hL hw]
  unfold Forest.valid
  rw [hr]
  split_ifs with hm <;> simp [hm]

theorem prefix_full {α : Type} {w l : List α} (h : w <+: l) (hl : l.length = w.length) : w = l := by
  obtain ⟨t, rfl⟩ := h
  have : t = [] := by
    apply List.eq_nil_of_length_eq_zero
    rw [List.length_append] at hl
    omega
  simp [this]

namespace Props

/-- C01.  Whatever order maps are iterated in and whatever the budgets, a forest that is returned is valid exactly
when the whole input is derivable from the rule. -/
theorem C01_exact (g : Grammar) (hwf : NumValsWF g) (hnd : NamesDistinct g) (hdp : DistinctPrint g)
    (sched : Sched NodeKey) (hf : sched.Fair) (inp : Bytes) (root : Str) (maxNodes maxSlots : Nat) (f : Forest)
    (h : parseForest sched inp g root maxNodes maxSlots = .ok f) :
    f.valid = true ↔ DerivesRule g root inp := by
  rw [forest_valid_iff hf h, C11_language g hwf hnd hdp root maxSlots f.sg (parseForest_ok hf h).1]
  constructor
  · rintro ⟨w, h1, h2, h3⟩
    rw [List.drop_zero] at h1
    rw [Nat.zero_add] at h2
    rw [← prefix_full h1 h2]; exact h3
  · intro h3
    exact ⟨inp, by simp, by simp, h3⟩

/-- C01.  Iteration order does not matter: two runs give the same set of nodes and of packs. -/
theorem C01_order (g : Grammar) (sched sched' : Sched NodeKey) (hf : sched.Fair) (hf' : sched'.Fair) (inp : Bytes)
    (root : Str) (maxNodes maxNodes' maxSlots : Nat) (f f' : Forest)
    (h : parseForest sched inp g root maxNodes maxSlots = .ok f)
    (h' : parseForest sched' inp g root maxNodes' maxSlots = .ok f') :
    f.root = f'.root ∧ f.st.nodes.Perm f'.st.nodes ∧ f.st.packs.Perm f'.st.packs := by
  obtain ⟨hc, _, hok, hL, hw, _, _, hr⟩ := parseForest_ok hf h
  obtain ⟨hc', _, hok', hL', hw', _, _, hr'⟩ := parseForest_ok hf' h'
  rw [hc] at hc'
  simp only [Except.ok.injEq] at hc'
  rw [← hc'] at hok' hL' hr'
  have hn : ∀ k, k ∈ f.st.nodes ↔ k ∈ f'.st.nodes := fun k => by
    rw [nodes_iff hL hw, nodes_iff hL' hw']
  refine ⟨?_, (List.perm_ext_iff_of_nodup hL.inv.nodesNodup hL'.inv.nodesNodup).mpr hn,
    (List.perm_ext_iff_of_nodup hL.inv.packsNodup hL'.inv.packsNodup).mpr fun p => ?_⟩
  · rw [hr, hr']
    simp only [hn]
  · rw [packs_iff hL hw, packs_iff hL' hw']

/-- C07.  The main loop stops within `gllFuel` rounds on every slot grammar obtained by lowering, whatever the
input, the order of map iteration and the budget; more fuel changes nothing. -/
theorem C07_terminates (g : Grammar) (root : Str) (maxSlots : Nat) (sg : SG)
    (h : compileSlots g root maxSlots = .ok sg) (sched : Sched NodeKey) (hf : sched.Fair) (inp : Bytes)
    (maxNodes : Nat) :
    ∃ st, ∀ fuel, slotCount sg * (1 + slotCount sg * (inp.length + 1) * (maxCount sg + 1)) * (inp.length + 1) ≤ fuel →
      sppfLoop sg inp maxNodes sched fuel (sppfInit sg) = some st := by
  obtain ⟨ix, hl, _, _⟩ := compileSlots_lowered h
  obtain ⟨hinit, hcount⟩ := loopInv_init sg inp
  obtain ⟨st', h1, _, _⟩ := sppfLoop_spec (N := maxNodes) hl.ok hf (gllFuel sg inp.length) 0 hinit (by omega) (by omega)
  exact ⟨st', fun fuel hle => sppfLoop_mono hle h1⟩

/-- C07.  `ParseForest` returns on every grammar, rule and input: the only errors are an unknown rule and the two
budgets. -/
theorem C07_returns (g : Grammar) (root : Str) (sched : Sched NodeKey) (hf : sched.Fair) (inp : Bytes)
    (maxNodes maxSlots : Nat) :
    (∃ f, parseForest sched inp g root maxNodes maxSlots = .ok f) ∨
    parseForest sched inp g root maxNodes maxSlots = .error .ruleNotFound ∨
    (0 < maxSlots ∧ parseForest sched inp g root maxNodes maxSlots = .error (.grammarTooLarge maxSlots)) ∨
    (0 < maxNodes ∧ parseForest sched inp g root maxNodes maxSlots = .error (.forestTooLarge maxNodes)) := by
  cases hc : compileSlots g root maxSlots with
  | error e =>
    rcases compileSlots_cases g root maxSlots with ⟨sg, h⟩ | h | ⟨h0, h⟩ <;> rw [hc] at h
    · simp at h
    · refine .inr (.inl ?_)
      simp only [parseForest, hc, h]
    · refine .inr (.inr (.inl ⟨h0, ?_⟩))
      simp only [parseForest, hc, h]
  | ok sg =>
    obtain ⟨st0, hst⟩ := parseForest_eq (inp := inp) hf hc
    by_cases hN : 0 < maxNodes ∧ maxNodes < st0.nodes.length
    · exact .inr (.inr (.inr ⟨hN.1, by rw [hst, if_pos hN]⟩))
    · exact .inl ⟨_, by rw [hst, if_neg hN]⟩

/-- C09.  With a node budget `N > 0`, exactly the forests of at most `N` nodes are returned, and they are those of
the unbounded run. -/
theorem C09_budget (g : Grammar) (root : Str) (sched : Sched NodeKey) (hf : sched.Fair) (inp : Bytes)
    (N maxSlots : Nat) (hN : 0 < N) (f : Forest) :
    parseForest sched inp g root N maxSlots = .ok f ↔
      parseForest sched inp g root 0 maxSlots = .ok f ∧ f.st.nodes.length ≤ N := by
  cases hc : compileSlots g root maxSlots with
  | error e => simp [parseForest, hc]
  | ok sg =>
    obtain ⟨st0, hst⟩ := parseForest_eq (inp := inp) hf hc
    rw [hst, hst, if_neg (by omega : ¬ (0 < 0 ∧ 0 < st0.nodes.length))]
    by_cases hlt : N < st0.nodes.length
    · rw [if_pos ⟨hN, hlt⟩]
      simp only [reduceCtorEq, Except.ok.injEq, false_iff, not_and]
      rintro rfl
      simpa using hlt
    · rw [if_neg fun h => hlt h.2]
      simp only [Except.ok.injEq]
      constructor
      · rintro rfl
        exact ⟨rfl, Nat.le_of_not_lt hlt⟩
      · exact fun h => h.1

/-- C09.  When the unbounded forest has more than `N` nodes, the error is the budget error. -/
theorem C09_error (g : Grammar) (root : Str) (sched : Sched NodeKey) (hf : sched.Fair) (inp : Bytes)
    (N maxSlots : Nat) (hN : 0 < N) (f : Forest) (h : parseForest sched inp g root 0 maxSlots = .ok f)
    (hlen : N < f.st.nodes.length) :
    parseForest sched inp g root N maxSlots = .error (.forestTooLarge N) := by
  obtain ⟨hc, _⟩ := parseForest_ok hf h
  obtain ⟨st0, hst⟩ := parseForest_eq (inp := inp) hf hc
  rw [hst, if_neg (by omega : ¬ (0 < 0 ∧ 0 < st0.nodes.length))] at h
  simp only [Except.ok.injEq] at h
  rw [← h] at hlen
  rw [hst, if_pos ⟨hN, hlen⟩]

/-- C35.  The furthest failure: it lies inside the input; everything listed as expected is a terminal of the slot
grammar that is tried there and does not match; and no terminal that is tried fails further right, or there
without being listed. -/
theorem C35_furthest (g : Grammar) (root : Str) (sched : Sched NodeKey) (hf : sched.Fair) (inp : Bytes)
    (maxNodes maxSlots : Nat) (f : Forest) (h : parseForest sched inp g root maxNodes maxSlots = .ok f) :
    f.st.maxPos ≤ inp.length ∧
    (∀ t ∈ f.st.expected, ∃ e L u rc, Reach f.sg inp (.at L u f.st.maxPos rc) ∧
      (f.sg.prod L)[L.dot]? = some (.term e) ∧ matchElem inp e f.st.maxPos = none ∧ t = e.str) ∧
    (∀ e L u i rc, Reach f.sg inp (.at L u i rc) → (f.sg.prod L)[L.dot]? = some (.term e) →
      matchElem inp e i = none → i < f.st.maxPos ∨ i = f.st.maxPos ∧ e.str ∈ f.st.expected) := by
  obtain ⟨_, _, hok, hL, hw, _⟩ := parseForest_ok hf h
  refine ⟨hL.inv.maxPos, ?_, ?_⟩
  · intro t ht
    obtain ⟨L, u, rc, s, h1, h2, h3, h4, h5⟩ := hL.inv.expected t ht
    cases s with
    | nt n => exact absurd rfl (h3 n)
    | eps => simp [matchSym] at h4
    | term e => exact ⟨e, L, u, rc, h1, h2, h4, h5⟩
  · intro e L u i rc h1 h2 h3
    have := reach_rep hL hw h1
    have hm : matchSym inp (.term e) i = none := h3
    simp only [Rep', drop_of_get? h2, Done, hm] at this
    exact this

/-- C47.  Every span in a forest lies inside the input. -/
theorem C47_spans (g : Grammar) (root : Str) (sched : Sched NodeKey) (hf : sched.Fair) (inp : Bytes)
    (maxNodes maxSlots : Nat) (f : Forest) (h : parseForest sched inp g root maxNodes maxSlots = .ok f) :
    (∀ k ∈ f.st.nodes, k.start ≤ k.fin ∧ k.fin ≤ inp.length) ∧
    (∀ k ch, (k, ch) ∈ f.st.packs → k ∈ f.st.nodes ∧ ∀ c ∈ ch, c ∈ f.st.nodes) := by
  obtain ⟨_, _, hok, hL, hw, _⟩ := parseForest_ok hf h
  refine ⟨fun k hk => ?_, fun k ch hp => ⟨(hL.inv.packs k ch hp).1, (hL.inv.packs k ch hp).2.1⟩⟩
  have := hL.inv.nodes k hk
  cases k with
  | sym n l r =>
    obtain ⟨L, m, _, _, hr⟩ := this
    have := reach_inRange hok hr
    exact ⟨Nat.le_trans this.1 this.2.1, this.2.2⟩
  | inter L l r =>
    obtain ⟨_, _, m, hr⟩ := this
    have := reach_inRange hok hr
    exact ⟨Nat.le_trans this.1 this.2.1, this.2.2⟩
  | term l r =>
    obtain ⟨L, u, rc, s, hr, hs, hm⟩ := this
    exact matchSym_bounds (reach_inRange hok hr).2.1 hm

/-! ## The hypotheses are met -/

/-- insertion order -/
def fwd {α : Type} : Sched α := fun _ l => l
/-- reverse order on every other iteration -/
def zigzag {α : Type} : Sched α := fun n l => if n % 2 = 0 then l.reverse else l

theorem fwd_fair {α : Type} : (fwd : Sched α).Fair := fun _ l => List.Perm.refl l
theorem zigzag_fair {α : Type} : (zigzag : Sched α).Fair := fun n l => by
  unfold zigzag; split_ifs
  · exact List.reverse_perm l
  · exact List.Perm.refl l

/-- `Valid()` of the forest, if there is one. -/
def validOf (r : Except ParseErr Forest) : Option Bool :=
  match r with
  | .ok f => some f.valid
  | .error _ => none

/-- Number of nodes, if there is a forest. -/
def nodesOf (r : Except ParseErr Forest) : Option Nat :=
  match r with
  | .ok f => some f.st.nodes.length
  | .error _ => none

/-- Diagnostics, if there is a forest. -/
def diagOf (r : Except ParseErr Forest) : Option (Nat × List Str) :=
  match r with
  | .ok f => some (f.st.maxPos, f.st.expected)
  | .error _ => none

-- left recursion, under two iteration orders, on a member and a non-member
example : validOf (parseForest fwd (bytes% "1+(2+3)") Ex.expr (str% "expr") 0 0) = some true := by decide +kernel
example : validOf (parseForest zigzag (bytes% "1+(2+3)") Ex.expr (str% "expr") 0 0) = some true := by decide +kernel
example : validOf (parseForest zigzag (bytes% "1+(2+)") Ex.expr (str% "expr") 0 65536) = some false := by
  decide +kernel
-- hidden left recursion and a nullable bounded repetition
example : validOf (parseForest fwd (bytes% "xxxx") Ex.nul (str% "a") 0 0) = some true := by decide +kernel
example : validOf (parseForest zigzag (bytes% "") Ex.nul (str% "a") 0 0) = some true := by decide +kernel
-- the member is derivable, the non-member is not
example : DerivesRule Ex.expr (str% "expr") (bytes% "1+(2+3)") := by
  have h : validOf (parseForest fwd (bytes% "1+(2+3)") Ex.expr (str% "expr") 0 0) = some true := by decide +kernel
  cases hp : parseForest fwd (bytes% "1+(2+3)") Ex.expr (str% "expr") 0 0 with
  | error e => rw [hp] at h; simp [validOf] at h
  | ok f =>
    rw [hp] at h
    exact (C01_exact _ Ex.expr_wf.1 Ex.expr_wf.2.1 Ex.expr_wf.2.2 fwd fwd_fair _ _ _ _ f hp).mp (by simpa [validOf] using h)
-- the budget is exact
example : nodesOf (parseForest fwd (bytes% "1+2") Ex.expr (str% "expr") 0 0) = some 16 := by decide +kernel
example : nodesOf (parseForest fwd (bytes% "1+2") Ex.expr (str% "expr") 16 0) = some 16 := by decide +kernel
example : nodesOf (parseForest fwd (bytes% "1+2") Ex.expr (str% "expr") 15 0) = none := by decide +kernel
-- a rejected input
example : diagOf (parseForest fwd (bytes% "1+") Ex.expr (str% "expr") 0 0) =
    some (2, [str% "\"(\"", str% "%x30-39"]) := by decide +kernel

end Props
end Verif
