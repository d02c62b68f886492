import Verif.GllCost

/-!
# C115: how large the lowered grammar is

`compileSlots` (/repo/sppf.go:78-221) makes one nonterminal of a repetition whatever its bounds
(/repo/sppf.go:163-167).  Here the number of slots is bounded by what is written in the grammar.
-/

namespace Verif
namespace SlotSize
open Spec

/-- What is written, at any depth: the number of alternatives in the rules `rs`. -/
def alternatives (rs : List Rule) : Nat :=
  (rs.map fun r => r.alt.length).sum + ((rulesReps rs).map fun r => match r.elem with
    | .group a => a.length
    | .option a => a.length
    | _ => 0).sum

/-- At most what an alternation contributes to the number of slots. -/
def altSlots (a : Alt) : Nat := (a.map fun c => c.length + 2).sum

def width (a : Alt) : Nat := (a.map List.length).sum

def elemWidth : Elem → Nat
  | .group a => width a
  | .option a => width a
  | _ => 0

def elemAlts : Elem → Nat
  | .group a => a.length
  | .option a => a.length
  | _ => 0

theorem alternatives_eq (rs : List Rule) :
    alternatives rs = (rs.map fun r => r.alt.length).sum + ((rulesReps rs).map fun r => elemAlts r.elem).sum := rfl

theorem altSlots_eq (a : Alt) : altSlots a = width a + 2 * a.length := by
  induction a with
  | nil => rfl
  | cons c a ih =>
    have h1 : altSlots (c :: a) = c.length + 2 + altSlots a := by simp [altSlots]
    have h2 : width (c :: a) = c.length + width a := by simp [width]
    rw [h1, h2, ih, List.length_cons]
    omega

/-- Every repetition is in exactly one concatenation. -/
def inner (l : List Rep) : Nat := (l.map fun r => elemWidth r.elem).sum

theorem inner_append (l l' : List Rep) : inner (l ++ l') = inner l + inner l' := by simp [inner]

mutual
theorem elem_width (e : Elem) : elemWidth e + inner (elemReps e) = (elemReps e).length := by
  match e with
  | .group a => rw [elemReps, elemWidth, alt_width a]
  | .option a => rw [elemReps, elemWidth, alt_width a]
  | .rulename _ => rfl
  | .charVal .. => rfl
  | .numVal .. => rfl
  | .proseVal _ => rfl
theorem rep_width (r : Rep) : 1 + inner (repReps r) = (repReps r).length := by
  match r with
  | ⟨mn, mx, e⟩ =>
    have h := elem_width e
    rw [repReps, List.length_cons]
    have : inner (⟨mn, mx, e⟩ :: elemReps e) = elemWidth e + inner (elemReps e) := by simp [inner]
    omega
theorem concat_width (c : List Rep) : c.length + inner (concatReps c) = (concatReps c).length := by
  match c with
  | [] => rfl
  | r :: c =>
    have h1 := rep_width r
    have h2 := concat_width c
    rw [concatReps, inner_append, List.length_append, List.length_cons]
    omega
theorem alt_width (a : List (List Rep)) : width a + inner (altReps a) = (altReps a).length := by
  match a with
  | [] => rfl
  | c :: a =>
    have h1 := concat_width c
    have h2 := alt_width a
    rw [altReps, inner_append, List.length_append]
    have : width (c :: a) = c.length + width a := by simp [width]
    omega
end

theorem rules_width (rs : List Rule) : (rs.map fun r => width r.alt).sum + inner (rulesReps rs) = (rulesReps rs).length := by
  induction rs with
  | nil => rfl
  | cons r rs ih =>
    have h := alt_width r.alt
    have : rulesReps (r :: rs) = altReps r.alt ++ rulesReps rs := by simp [rulesReps]
    rw [this, inner_append, List.length_append, List.map_cons, List.sum_cons]
    omega

/-! ## What a nonterminal is charged to -/

/-- A rule, or an object that is no rule. -/
abbrev Charge := Rule ⊕ Obj

def cost : Charge → Nat
  | .inl r => altSlots r.alt
  | .inr (.rule _) => 0
  | .inr (.rep _) => 5
  | .inr (.grp a) => altSlots a
  | .inr (.opt a) => 2 + altSlots a

def elemCharge : Elem → List Charge
  | .group a => [.inr (.grp a)]
  | .option a => [.inr (.opt a)]
  | _ => []

def pool (g : Grammar) : List Charge :=
  (g.rules ++ Core.rules).map .inl ++ (allReps g).flatMap fun r => .inr (.rep r) :: elemCharge r.elem

def chargeOf (g : Grammar) : Obj → Option Charge
  | .rule n => (getRule n g.rules).map .inl
  | o => some (.inr o)

theorem charge_mem {g : Grammar} {root : Str} {o : Obj} (ho : Occ g root o) {c : Charge} (h : chargeOf g o = some c) : c ∈ pool g := by
  cases o with
  | rule n =>
    obtain ⟨r, hr, rfl⟩ := Option.map_eq_some_iff.mp h
    refine List.mem_append_left _ (List.mem_map.mpr ⟨r, ?_, rfl⟩)
    rcases getRule_resolves hr with ⟨h1, _⟩ | ⟨h1, _, _⟩
    · exact List.mem_append_left _ h1
    · exact List.mem_append_right _ h1
  | rep r =>
    cases h
    exact List.mem_append_right _ (List.mem_flatMap.mpr ⟨r, ho.1, List.mem_cons_self ..⟩)
  | grp a =>
    cases h
    obtain ⟨r, hr, he⟩ := ho
    exact List.mem_append_right _ (List.mem_flatMap.mpr ⟨r, hr, by simp [he, elemCharge]⟩)
  | opt a =>
    cases h
    obtain ⟨r, hr, he⟩ := ho
    exact List.mem_append_right _ (List.mem_flatMap.mpr ⟨r, hr, by simp [he, elemCharge]⟩)

theorem resolved_name {g : Grammar} {n : Str} {r : Rule} (h : getRule n g.rules = some r) : canon n = canon r.name := by
  rcases getRule_resolves h with ⟨_, h1⟩ | ⟨_, h1, _⟩ <;> exact (sameName_iff _ _).mp h1

theorem charge_key {g : Grammar} {o o' : Obj} {c : Charge} (h : chargeOf g o = some c) (h' : chargeOf g o' = some c) : o.key = o'.key := by
  cases o with
  | rule n =>
    obtain ⟨r, hr, rfl⟩ := Option.map_eq_some_iff.mp h
    cases o' with
    | rule n' =>
      obtain ⟨r', hr', he⟩ := Option.map_eq_some_iff.mp h'
      cases he
      show ruleKey n = ruleKey n'
      rw [ruleKey, ruleKey, resolved_name hr, resolved_name hr']
    | rep r => cases h'
    | grp a => cases h'
    | opt a => cases h'
  | rep r =>
    cases h
    cases o' with
    | rule n' => obtain ⟨_, _, he⟩ := Option.map_eq_some_iff.mp h'; cases he
    | _ => cases h' <;> rfl
  | grp r =>
    cases h
    cases o' with
    | rule n' => obtain ⟨_, _, he⟩ := Option.map_eq_some_iff.mp h'; cases he
    | _ => cases h' <;> rfl
  | opt r =>
    cases h
    cases o' with
    | rule n' => obtain ⟨_, _, he⟩ := Option.map_eq_some_iff.mp h'; cases he
    | _ => cases h' <;> rfl

def ntSlots (n : NT) : Nat := (n.alts.map fun p => p.length + 1).sum

theorem alts_slots {ix : List (Str × Nat)} {a : Alt} {out : List (List Sym)} (h : SymAlts ix a out) :
    (out.map fun p => p.length + 1).sum ≤ altSlots a := by
  unfold SymAlts at h
  induction h with
  | nil => exact Nat.le_refl _
  | @cons c p a out hc _ ih =>
    obtain ⟨raw, h1, rfl⟩ := hc
    have := h1.length_eq
    have hl : (if raw = [] then [Sym.eps] else raw).length ≤ c.length + 1 := by
      split
      · simp
      · omega
    have h2 : altSlots (c :: a) = c.length + 2 + altSlots a := by simp [altSlots]
    rw [List.map_cons, List.sum_cons, h2]
    omega

theorem content_slots {g : Grammar} {ix : List (Str × Nat)} {o : Obj} {nt : NT} (h : Content g ix o nt) :
    ntSlots nt ≤ ((chargeOf g o).map cost).getD 0 := by
  cases o with
  | rule n =>
    obtain ⟨_, h⟩ := h
    cases hr : getRule n g.rules with
    | none => rw [hr] at h; subst h; exact Nat.zero_le _
    | some r =>
      rw [hr] at h
      simp only [chargeOf, hr, Option.map_some, Option.getD_some, cost]
      exact alts_slots h.2.2
  | rep r =>
    obtain ⟨_, ⟨_, _, _, rfl⟩ | ⟨_, _, _, _, id, s, _, _, h⟩⟩ := h
    · exact Nat.zero_le _
    · simp [ntSlots, h, chargeOf, cost]
  | grp a => exact alts_slots h.2.2
  | opt a =>
    obtain ⟨_, _, out, h1, h2⟩ := h
    have := alts_slots h1
    simp only [ntSlots, h2, List.map_cons, List.sum_cons, List.length_singleton, chargeOf, Option.map_some, Option.getD_some, cost]
    omega

theorem sum_elim (f : Nat → Option Charge) (l : List Nat) :
    (l.map fun n => ((f n).map cost).getD 0).sum = ((l.filterMap f).map cost).sum := by
  induction l with
  | nil => rfl
  | cons n l ih =>
    rw [List.map_cons, List.sum_cons, ih]
    cases h : f n with
    | none => simp [h]
    | some c => simp [h]

theorem lowered_slots {g : Grammar} {root : Str} {sg : SG} {ix : List (Str × Nat)} (h : Lowered g root sg ix) :
    slotCount sg ≤ ((pool g).map cost).sum := by
  classical
  have hf : ∀ n, ∃ o, n < sg.nts.length → Occ g root o ∧ ix[n]? = some (o.key, n) ∧ ntSlots (sg.nts.getD n {}) ≤ ((chargeOf g o).map cost).getD 0 := by
    intro n
    by_cases hn : n < sg.nts.length
    · obtain ⟨o, nt, h1, h2, h3, h4⟩ := h.filled n hn
      refine ⟨o, fun _ => ⟨h1, h2, ?_⟩⟩
      have : sg.nts.getD n {} = nt := by
        rw [List.getD_eq_getElem?_getD]
        simp only at h3
        rw [h3, Option.getD_some]
      rw [this]
      exact content_slots h4
    · exact ⟨.rule [], fun h => absurd h hn⟩
  obtain ⟨o, ho⟩ := Classical.axiomOfChoice hf
  have h1 : slotCount sg = ((List.range sg.nts.length).map fun n => ntSlots (sg.nts.getD n {})).sum := by
    rw [map_range_getD sg.nts {} ntSlots]; rfl
  have h2 : ((List.range sg.nts.length).map fun n => ntSlots (sg.nts.getD n {})).sum ≤
      ((List.range sg.nts.length).map fun n => ((chargeOf g (o n)).map cost).getD 0).sum := by
    apply List.sum_le_sum
    intro n hn
    exact (ho n (List.mem_range.mp hn)).2.2
  rw [sum_elim (fun n => chargeOf g (o n))] at h2
  have h3 : ((List.range sg.nts.length).filterMap fun n => chargeOf g (o n)).Nodup := by
    refine List.pairwise_filterMap.mpr ((List.nodup_range (n := sg.nts.length)).imp_of_mem ?_)
    intro n m hn hm hne c hc c' hc' he
    subst he
    have hk := charge_key hc hc'
    have hn := h.good.index_get.mpr (ho n (List.mem_range.mp hn)).2.1
    have hm := h.good.index_get.mpr (ho m (List.mem_range.mp hm)).2.1
    rw [hk, hm] at hn
    exact hne (Option.some.inj hn).symm
  have h4 : ((List.range sg.nts.length).filterMap fun n => chargeOf g (o n)) ⊆ pool g := by
    intro c hc
    obtain ⟨n, hn, he⟩ := List.mem_filterMap.mp hc
    exact charge_mem (ho n (List.mem_range.mp hn)).1 he
  obtain ⟨l, hp, hs⟩ := List.subperm_of_subset h3 h4
  have h5 : (l.map cost).sum = (((List.range sg.nts.length).filterMap fun n => chargeOf g (o n)).map cost).sum := (hp.map cost).sum_eq
  have h6 : (l.map cost).sum ≤ ((pool g).map cost).sum := (hs.map cost).sum_le_sum (fun _ _ => Nat.zero_le _)
  omega

theorem pool_cost (g : Grammar) : ((pool g).map cost).sum ≤ 8 * (allReps g).length + 2 * alternatives (g.rules ++ Core.rules) := by
  have h1 : ∀ l : List Rep, ((l.flatMap fun r => (.inr (.rep r) :: elemCharge r.elem : List Charge)).map cost).sum ≤
      7 * l.length + inner l + 2 * (l.map fun r => elemAlts r.elem).sum := by
    intro l
    induction l with
    | nil => exact Nat.le_refl _
    | cons r l ih =>
      have he : ((elemCharge r.elem).map cost).sum ≤ 2 + elemWidth r.elem + 2 * elemAlts r.elem := by
        cases r.elem <;> simp [elemCharge, cost, elemWidth, elemAlts, altSlots_eq]; omega
      have hi : inner (r :: l) = elemWidth r.elem + inner l := by simp [inner]
      simp only [List.flatMap_cons, List.map_append, List.map_cons, List.sum_append, List.sum_cons, cost, List.length_cons] at ih ⊢
      omega
  have h2 : ∀ l : List Rule, ((l.map (Sum.inl : Rule → Charge)).map cost).sum =
      (l.map fun r => width r.alt).sum + 2 * (l.map fun r => r.alt.length).sum := by
    intro l
    induction l with
    | nil => rfl
    | cons r l ih =>
      simp only [List.map_cons, List.sum_cons, cost, altSlots_eq] at ih ⊢
      omega
  have h3 := rules_width (g.rules ++ Core.rules)
  have h4 := h1 (allReps g)
  have h5 := h2 (g.rules ++ Core.rules)
  have h6 := alternatives_eq (g.rules ++ Core.rules)
  unfold pool
  rw [List.map_append, List.sum_append]
  change _ + inner (allReps g) = (allReps g).length at h3
  change _ = _ + ((allReps g).map _).sum at h6
  omega

theorem assignAlts_length (nt : Nat) : ∀ (prods : List (List Sym)) (alt : Nat) (l : List Cg.SInfo),
    (Cg.assignAlts nt alt prods l).2.length = l.length + (prods.map fun p => p.length + 1).sum
  | [], _, _ => rfl
  | p :: ps, alt, l => by
    rw [Cg.assignAlts]
    simp only [assignAlts_length nt ps, List.length_append, List.length_map, List.length_range, List.map_cons, List.sum_cons]
    omega

theorem assignNTs_length : ∀ (nts : List NT) (n : Nat) (l : List Cg.SInfo),
    (Cg.assignNTs n nts l).2.length = l.length + (nts.map ntSlots).sum
  | [], _, _ => rfl
  | x :: xs, n, l => by
    rw [Cg.assignNTs]
    simp only [assignNTs_length xs, assignAlts_length, List.map_cons, List.sum_cons, ntSlots]
    omega

theorem assign_length (sg : SG) : (Cg.assignSlots sg).2.length = slotCount sg :=
  (assignNTs_length sg.nts 0 []).trans (Nat.zero_add _)

end SlotSize

namespace Props
open Spec SlotSize

/-- C115.  The number of slots is bounded by the number of repetitions and alternatives written in the grammar and in the
core rules, whatever the bounds of the repetitions are. -/
theorem C115_slots (g : Grammar) (root : Str) (max : Nat) (sg : SG) (h : compileSlots g root max = .ok sg) :
    slotCount sg ≤ 8 * (rulesReps (g.rules ++ Core.rules)).length + 2 * alternatives (g.rules ++ Core.rules) := by
  obtain ⟨_, hl, _, _⟩ := compileSlots_lowered h
  exact (lowered_slots hl).trans (pool_cost g)

/-- C115.  The parser that is emitted has as many cases as there are slots, and names no more of them. -/
theorem C115_emitted (g : Grammar) (root : Str) (p : Cg.Prog) (h : Cg.generate g root = .ok p) :
    p.cases.length ≤ 8 * (rulesReps (g.rules ++ Core.rules)).length + 2 * alternatives (g.rules ++ Core.rules) ∧
    p.slotInfo.length = p.cases.length := by
  obtain ⟨sg, hc, rfl⟩ := Cg.generate_ok h
  have h1 := Cg.cases_length sg root
  rw [assign_length] at h1
  exact ⟨h1 ▸ C115_slots g root _ sg hc, (assign_length sg).trans h1.symm⟩

/-- C115.  With C113: the rounds of the parsers in terms of what is written. -/
theorem C115_rounds (g : Grammar) (hwf : NumValsWF g) (hdp : DistinctPrint g) (root : Str) (maxSlots : Nat) (sg : SG)
    (h : compileSlots g root maxSlots = .ok sg) (B : Nat)
    (hB : ∀ r ∈ rulesReps (g.rules ++ Core.rules), Derives g r.elem [] → r.max.getD r.min ≤ B) (S : Nat)
    (hS : 8 * (rulesReps (g.rules ++ Core.rules)).length + 2 * alternatives (g.rules ++ Core.rules) ≤ S) (inp : Bytes) (N fuel : Nat)
    (hfuel : S * (1 + S * (inp.length + 1) * (max inp.length B + 1)) * (inp.length + 1) ≤ fuel) :
    (∀ sched : Sched NodeKey, sched.Fair → ∃ st, sppfLoop sg inp N sched fuel (sppfInit sg) = some st) ∧
    (∀ sched : Sched Nat, sched.Fair → ∃ st, bsrLoop sg inp N sched fuel (bsrInit sg) = some st) := by
  have hs := (C115_slots g root maxSlots sg h).trans hS
  refine C113_rounds g hwf hdp root maxSlots sg h B hB inp N fuel (le_trans ?_ hfuel)
  gcongr

/-- `a = 2*1000000000("x" / b)`, `b = ["y"] 99999999(a)`: the counts are large, what is written is not. -/
def tall : Grammar := ⟨[⟨str% "a", [[⟨2, some 1000000000, .group [[⟨1, some 1, .charVal false (str% "x")⟩], [⟨1, some 1, .rulename (str% "b")⟩]]⟩]]⟩,
  ⟨str% "b", [[⟨1, some 1, .option [[⟨1, some 1, .charVal false (str% "y")⟩]]⟩, ⟨99999999, some 99999999, .group [[⟨1, some 1, .rulename (str% "a")⟩]]⟩]]⟩]⟩

/-- C115_rounds: the hypotheses but the last are those of C113_rounds, shown for `heavy` in `Verif.GllCost`. -/
example : 8 * (rulesReps (heavy.rules ++ Core.rules)).length + 2 * alternatives (heavy.rules ++ Core.rules) ≤ 400 := by decide +kernel

/-- C115 for `tall`: at most 364 slots by the theorem, most of them for the core rules, in fact 25. -/
example : ∃ sg p, compileSlots tall (str% "a") 65536 = .ok sg ∧ Cg.generate tall (str% "a") = .ok p ∧ slotCount sg = 25 ∧ p.cases.length = 25 ∧
    8 * (rulesReps (tall.rules ++ Core.rules)).length + 2 * alternatives (tall.rules ++ Core.rules) = 364 := by
  refine ⟨_, _, rfl, rfl, ?_, ?_, ?_⟩
  · decide +kernel
  · decide +kernel
  · decide +kernel

end Props
end Verif
