import Verif.Slots
import Mathlib.Tactic.Common

/-!
# The control structure shared by the two GLL engines

`slot`, `gssKey`, `capRC`, the gates of `addRepAlts` and `matchTerm` are common to /repo/sppf.go and
/repo/bsr.go.  This file also defines, as a specification device used in proofs only, the derivation relation of a
slot grammar (`NTD`) and the least set of facts closed under the GLL rules (`Reach`), and proves them equivalent.
-/

namespace Verif

/-- `slot` (/repo/sppf.go:275). -/
structure Slot where
  nt : Nat
  alt : Nat
  dot : Nat
  deriving DecidableEq

/-- `gssKey` (/repo/sppf.go:331-335); GSS nodes are interned by it (/repo/sppf.go:346-354,
/repo/bsr.go:77-85), so a GSS node is its key. -/
structure GKey where
  ret : Slot
  pos : Nat
  rc : Nat
  deriving DecidableEq

/-- A GSS node: `none` is `u0` (/repo/sppf.go:491, /repo/bsr.go:199). -/
abbrev GNode := Option GKey

/-- Field `pos` of a GSS node (/repo/sppf.go:279, 491). -/
def posOf : GNode → Nat
  | none => 0
  | some v => v.pos

/-- `p.sg.nts[n]`; ids out of range are excluded by `Reach`-invariants. -/
def SG.nt (sg : SG) (n : Nat) : NT := sg.nts.getD n {}

/-- `p.sg.nts[n].alts`. -/
def SG.alts (sg : SG) (n : Nat) : List (List Sym) := (sg.nt n).alts

/-- `p.sg.nts[L.nt].alts[L.alt]` (/repo/sppf.go:510, /repo/bsr.go:216). -/
def SG.prod (sg : SG) (L : Slot) : List Sym := (sg.alts L.nt).getD L.alt []

/-- `slot{L.nt, L.alt, L.dot + 1}` (/repo/sppf.go:521,547, /repo/bsr.go:223,242). -/
def Slot.next (L : Slot) : Slot := ⟨L.nt, L.alt, L.dot + 1⟩

/-- `capRC` (/repo/sppf.go:585-591). -/
def capRC (rc : Nat) (n : NT) : Nat :=
  if n.repMax = none ∧ rc + 1 > n.repMin then n.repMin else rc + 1

/-- The count given to a callee (/repo/sppf.go:525-537, /repo/bsr.go:225-235): 0 unless a repetition continues
its own chain. -/
def childRC (sg : SG) (caller rc s : Nat) : Nat :=
  if (sg.nt s).isRep then (if s = caller then capRC rc (sg.nt s) else 0) else 0

/-- The alternates a callee is started with (/repo/sppf.go:525-538, 600-608, /repo/bsr.go:130-138, 225-235), in
order. -/
def startAlts (sg : SG) (s rc : Nat) : List Nat :=
  if (sg.nt s).isRep then
    (if rc ≥ (sg.nt s).repMin then [0] else []) ++
      (if (match (sg.nt s).repMax with | none => true | some m => decide (rc < m)) then [1] else [])
  else List.range (sg.alts s).length

/-- `matchTerm` on a symbol (/repo/sppf.go:427-430, /repo/bsr.go:140-143). -/
def matchSym (inp : Bytes) (s : Sym) (i : Nat) : Option Nat :=
  match s with
  | .eps => some i
  | .term e => matchElem inp e i
  | .nt _ => none

/-! ## Derivations of a slot grammar -/

mutual
/-- Nonterminal `s`, entered with count `c`, derives the input from `i` to `j`. -/
inductive NTD (sg : SG) (inp : Bytes) : Nat → Nat → Nat → Nat → Prop
  | mk (s c i j alt) : alt ∈ startAlts sg s c → SeqD sg inp s c (sg.prod ⟨s, alt, 0⟩) i j → NTD sg inp s c i j
/-- The symbols, inside a production of `caller` with count `rc`, derive the input from `i` to `j`. -/
inductive SeqD (sg : SG) (inp : Bytes) : Nat → Nat → List Sym → Nat → Nat → Prop
  | nil (caller rc i) : SeqD sg inp caller rc [] i i
  | cons (caller rc s rest i j k) : SymD sg inp caller rc s i j → SeqD sg inp caller rc rest j k →
      SeqD sg inp caller rc (s :: rest) i k
/-- One symbol derives the input from `i` to `j`. -/
inductive SymD (sg : SG) (inp : Bytes) : Nat → Nat → Sym → Nat → Nat → Prop
  | term (caller rc s i j) : matchSym inp s i = some j → SymD sg inp caller rc s i j
  | nt (caller rc s i j) : NTD sg inp s (childRC sg caller rc s) i j → SymD sg inp caller rc (.nt s) i j
end

theorem SeqD.append {sg : SG} {inp : Bytes} {c rc : Nat} {a b : List Sym} {i j k : Nat}
    (h1 : SeqD sg inp c rc a i j) (h2 : SeqD sg inp c rc b j k) : SeqD sg inp c rc (a ++ b) i k := by
  induction a generalizing i with
  | nil => cases h1; exact h2
  | cons s a ih =>
    cases h1 with
    | cons _ _ _ _ _ m _ hs hr => exact .cons _ _ _ _ _ m _ hs (ih hr)

theorem SeqD.split {sg : SG} {inp : Bytes} {c rc : Nat} {a b : List Sym} {i k : Nat}
    (h : SeqD sg inp c rc (a ++ b) i k) : ∃ j, SeqD sg inp c rc a i j ∧ SeqD sg inp c rc b j k := by
  induction a generalizing i with
  | nil => exact ⟨i, .nil _ _ _, h⟩
  | cons s a ih =>
    cases h with
    | cons _ _ _ _ _ m _ hs hr =>
      obtain ⟨j, h1, h2⟩ := ih hr
      exact ⟨j, .cons _ _ _ _ _ m _ hs h1, h2⟩

theorem SeqD.snoc {sg : SG} {inp : Bytes} {c rc : Nat} {a : List Sym} {s : Sym} {i j k : Nat}
    (h1 : SeqD sg inp c rc a i j) (h2 : SymD sg inp c rc s j k) : SeqD sg inp c rc (a ++ [s]) i k :=
  h1.append (.cons _ _ _ _ _ _ _ h2 (.nil _ _ _))

/-! ## Facts closed under the GLL rules -/

/-- A fact about a GLL run. -/
inductive Item where
  /-- control is at slot `L` with stack `u`, position `i`, count `rc` -/
  | at (L : Slot) (u : GNode) (i rc : Nat)
  /-- GSS edge -/
  | edge (v : GKey) (u : GNode)
  /-- the callee of `v` returned at `j` -/
  | popped (v : GKey) (j : Nat)
  /-- the dot was advanced into `L` over `[l,r]` with pivot `k` -/
  | adv (L : Slot) (l k r : Nat)

/-- The least set of facts closed under the steps of the engines. -/
inductive Reach (sg : SG) (inp : Bytes) : Item → Prop
  | start (alt) : alt < (sg.alts sg.start).length → Reach sg inp (.at ⟨sg.start, alt, 0⟩ none 0 0)
  | pop (L v i rc) : Reach sg inp (.at L (some v) i rc) → L.dot = (sg.prod L).length →
      Reach sg inp (.popped v i)
  | callEdge (L u i rc s) : Reach sg inp (.at L u i rc) → (sg.prod L)[L.dot]? = some (.nt s) →
      Reach sg inp (.edge ⟨L.next, i, rc⟩ u)
  | callAt (L u i rc s alt) : Reach sg inp (.at L u i rc) → (sg.prod L)[L.dot]? = some (.nt s) →
      alt ∈ startAlts sg s (childRC sg L.nt rc s) →
      Reach sg inp (.at ⟨s, alt, 0⟩ (some ⟨L.next, i, rc⟩) i (childRC sg L.nt rc s))
  | retAt (v u j) : Reach sg inp (.edge v u) → Reach sg inp (.popped v j) →
      Reach sg inp (.at v.ret u j v.rc)
  | retRec (v u j) : Reach sg inp (.edge v u) → Reach sg inp (.popped v j) →
      Reach sg inp (.adv v.ret (posOf u) v.pos j)
  | termAt (L u i rc s j) : Reach sg inp (.at L u i rc) → (sg.prod L)[L.dot]? = some s →
      matchSym inp s i = some j → Reach sg inp (.at L.next u j rc)
  | termRec (L u i rc s j) : Reach sg inp (.at L u i rc) → (sg.prod L)[L.dot]? = some s →
      matchSym inp s i = some j → Reach sg inp (.adv L.next (posOf u) i j)

/-! ## Soundness of the facts -/

/-- The stack node `u` called nonterminal `nt` with count `rc` and alternate `alt`. -/
def Frame (sg : SG) (u : GNode) (nt rc alt : Nat) : Prop :=
  match u with
  | none => nt = sg.start ∧ rc = 0 ∧ alt < (sg.alts sg.start).length
  | some v => 1 ≤ v.ret.dot ∧ (sg.prod v.ret)[v.ret.dot - 1]? = some (.nt nt) ∧
      rc = childRC sg v.ret.nt v.rc nt ∧ alt ∈ startAlts sg nt rc

/-- What a fact means in terms of derivations. -/
def Sound (sg : SG) (inp : Bytes) : Item → Prop
  | .at L u i rc => Frame sg u L.nt rc L.alt ∧ L.dot ≤ (sg.prod L).length ∧
      SeqD sg inp L.nt rc ((sg.prod L).take L.dot) (posOf u) i
  | .edge v u => 1 ≤ v.ret.dot ∧ (∃ s, (sg.prod v.ret)[v.ret.dot - 1]? = some (.nt s)) ∧
      Frame sg u v.ret.nt v.rc v.ret.alt ∧
      SeqD sg inp v.ret.nt v.rc ((sg.prod v.ret).take (v.ret.dot - 1)) (posOf u) v.pos
  | .popped v j => ∀ s, (sg.prod v.ret)[v.ret.dot - 1]? = some (.nt s) →
      NTD sg inp s (childRC sg v.ret.nt v.rc s) v.pos j
  | .adv L l k r => 1 ≤ L.dot ∧ L.dot ≤ (sg.prod L).length ∧ ∃ rc s u, Frame sg u L.nt rc L.alt ∧
      posOf u = l ∧ (sg.prod L)[L.dot - 1]? = some s ∧
      SeqD sg inp L.nt rc ((sg.prod L).take (L.dot - 1)) l k ∧ SymD sg inp L.nt rc s k r

theorem prod_next (sg : SG) (L : Slot) : sg.prod L.next = sg.prod L := rfl
theorem prod_dot (sg : SG) (a b c d : Nat) : sg.prod ⟨a, b, c⟩ = sg.prod ⟨a, b, d⟩ := rfl

theorem take_succ_of_get? {l : List Sym} {n : Nat} {s : Sym} (h : l[n]? = some s) :
    l.take (n + 1) = l.take n ++ [s] := by
  rw [List.take_add_one, h]; rfl

theorem reach_sound {sg : SG} {inp : Bytes} {it : Item} (h : Reach sg inp it) : Sound sg inp it := by
  induction h with
  | start alt ha => exact ⟨⟨rfl, rfl, ha⟩, Nat.zero_le _, SeqD.nil _ _ _⟩
  | pop L v i rc _ hd ih =>
    obtain ⟨⟨h1, h2, h3, h4⟩, _, h6⟩ := ih
    intro s hs
    rw [h2] at hs
    simp only [Option.some.injEq, Sym.nt.injEq] at hs
    subst hs
    rw [hd, List.take_length] at h6
    rw [← h3]
    exact .mk _ _ _ _ L.alt h4 h6
  | callEdge L u i rc s _ hs ih =>
    obtain ⟨h1, h2, h3⟩ := ih
    refine ⟨Nat.le_add_left _ _, ⟨s, ?_⟩, h1, ?_⟩
    · exact hs
    · exact h3
  | callAt L u i rc s alt _ hs ha ih =>
    refine ⟨⟨Nat.le_add_left _ _, ?_, rfl, ha⟩, Nat.zero_le _, SeqD.nil _ _ _⟩
    exact hs
  | retAt v u j _ _ ih1 ih2 =>
    obtain ⟨h1, ⟨s, h2⟩, h3, h4⟩ := ih1
    have hd := ih2 s h2
    refine ⟨h3, ?_, ?_⟩
    · have := (List.getElem?_eq_some_iff.mp h2).1
      omega
    · have := take_succ_of_get? h2
      rw [Nat.sub_add_cancel h1] at this
      rw [this]
      exact h4.snoc (.nt _ _ _ _ _ hd)
  | retRec v u j _ _ ih1 ih2 =>
    obtain ⟨h1, ⟨s, h2⟩, h3, h4⟩ := ih1
    have hd := ih2 s h2
    refine ⟨h1, ?_, v.rc, _, u, h3, rfl, h2, h4, .nt _ _ _ _ _ hd⟩
    have := (List.getElem?_eq_some_iff.mp h2).1
    omega
  | termAt L u i rc s j _ hs hm ih =>
    obtain ⟨h1, h2, h3⟩ := ih
    refine ⟨h1, ?_, ?_⟩
    · have := (List.getElem?_eq_some_iff.mp hs).1
      exact this
    · have := take_succ_of_get? hs
      rw [show L.next.dot = L.dot + 1 from rfl, prod_next, this]
      exact h3.snoc (.term _ _ _ _ _ hm)
  | termRec L u i rc s j _ hs hm ih =>
    obtain ⟨h1, h2, h3⟩ := ih
    refine ⟨Nat.le_add_left _ _, ?_, rc, s, u, h1, rfl, ?_, ?_, .term _ _ _ _ _ hm⟩
    · exact (List.getElem?_eq_some_iff.mp hs).1
    · exact hs
    · exact h3

/-! ## Completeness of the facts -/

/-- The completed slot of the production of `L`. -/
def SG.done (sg : SG) (L : Slot) : Slot := ⟨L.nt, L.alt, (sg.prod L).length⟩

theorem SG.done_next (sg : SG) (L : Slot) : sg.done L.next = sg.done L := rfl

/-- Motives of the completeness induction. -/
def NTDC (sg : SG) (inp : Bytes) (s c i j : Nat) : Prop :=
  ∀ v : GKey, (∀ alt ∈ startAlts sg s c, Reach sg inp (.at ⟨s, alt, 0⟩ (some v) i c)) →
    Reach sg inp (.popped v j)

def SeqDC (sg : SG) (inp : Bytes) (caller rc : Nat) (syms : List Sym) (i j : Nat) : Prop :=
  ∀ (L : Slot) (u : GNode), L.nt = caller → (sg.prod L).drop L.dot = syms → L.dot ≤ (sg.prod L).length →
    Reach sg inp (.at L u i rc) →
    Reach sg inp (.at (sg.done L) u j rc) ∧
      (syms ≠ [] → ∃ k, Reach sg inp (.adv (sg.done L) (posOf u) k j))

def SymDC (sg : SG) (inp : Bytes) (caller rc : Nat) (s : Sym) (i j : Nat) : Prop :=
  ∀ (L : Slot) (u : GNode), L.nt = caller → (sg.prod L)[L.dot]? = some s → Reach sg inp (.at L u i rc) →
    Reach sg inp (.at L.next u j rc) ∧ Reach sg inp (.adv L.next (posOf u) i j)

theorem ntdc_mk {sg : SG} {inp : Bytes} {s c i j alt : Nat} (ha : alt ∈ startAlts sg s c)
    (ih : SeqDC sg inp s c (sg.prod ⟨s, alt, 0⟩) i j) : NTDC sg inp s c i j := by
  intro v hv
  have := (ih ⟨s, alt, 0⟩ (some v) rfl (by simp) (Nat.zero_le _) (hv alt ha)).1
  exact .pop _ _ _ _ this rfl

theorem seqdc_nil {sg : SG} {inp : Bytes} {c rc i : Nat} : SeqDC sg inp c rc [] i i := by
  intro L u _ hd hle hr
  have : L.dot = (sg.prod L).length := by
    have := congrArg List.length hd
    simp at this
    omega
  have e : sg.done L = L := by unfold SG.done; rw [← this]
  rw [e]
  exact ⟨hr, fun h => absurd rfl h⟩

theorem seqdc_cons {sg : SG} {inp : Bytes} {c rc : Nat} {s : Sym} {rest : List Sym} {i m j : Nat}
    (hs : SymDC sg inp c rc s i m) (hrest : SeqDC sg inp c rc rest m j) (hd0 : rest = [] → m = j) :
    SeqDC sg inp c rc (s :: rest) i j := by
  intro L u hc hd hle hr
  have hget : (sg.prod L)[L.dot]? = some s := by
    have h0 : ((sg.prod L).drop L.dot)[0]? = some s := by rw [hd]; rfl
    simpa using h0
  have hlt := (List.getElem?_eq_some_iff.mp hget).1
  obtain ⟨h1, h2⟩ := hs L u hc hget hr
  have hd' : (sg.prod L.next).drop L.next.dot = rest := by
    rw [prod_next]
    show (sg.prod L).drop (L.dot + 1) = rest
    rw [← List.drop_drop, hd]; rfl
  obtain ⟨h3, h4⟩ := hrest L.next u hc hd' hlt h1
  rw [SG.done_next] at h3 h4
  refine ⟨h3, fun _ => ?_⟩
  by_cases hr : rest = []
  · have hm := hd0 hr
    subst hr
    have : L.next = sg.done L := by
      unfold SG.done Slot.next
      have := congrArg List.length hd
      simp at this
      congr 1
      omega
    rw [this, hm] at h2
    exact ⟨_, h2⟩
  · exact h4 hr

theorem symdc_term {sg : SG} {inp : Bytes} {c rc : Nat} {s : Sym} {i j : Nat}
    (hm : matchSym inp s i = some j) : SymDC sg inp c rc s i j :=
  fun _ _ _ hget hr => ⟨.termAt _ _ _ _ _ _ hr hget hm, .termRec _ _ _ _ _ _ hr hget hm⟩

theorem symdc_nt {sg : SG} {inp : Bytes} {c rc s i j : Nat}
    (hn : NTDC sg inp s (childRC sg c rc s) i j) : SymDC sg inp c rc (.nt s) i j := by
  intro L u hc hget hr
  subst hc
  have hp := hn ⟨L.next, i, rc⟩ fun alt ha => .callAt _ _ _ _ _ _ hr hget ha
  have he := Reach.callEdge _ _ _ _ _ hr hget
  exact ⟨.retAt _ _ _ he hp, .retRec _ _ _ he hp⟩

theorem seqd_nil_eq {sg : SG} {inp : Bytes} {c rc i j : Nat} {l : List Sym} (h : SeqD sg inp c rc l i j)
    (hl : l = []) : i = j := by
  subst hl; cases h; rfl

theorem seqd_complete {sg : SG} {inp : Bytes} {caller rc : Nat} {syms : List Sym} {i j : Nat}
    (h : SeqD sg inp caller rc syms i j) : SeqDC sg inp caller rc syms i j := by
  refine SeqD.rec (motive_1 := fun s c i j _ => NTDC sg inp s c i j)
    (motive_2 := fun c rc l i j _ => SeqDC sg inp c rc l i j)
    (motive_3 := fun c rc s i j _ => SymDC sg inp c rc s i j) ?_ ?_ ?_ ?_ ?_ h
  · intro s c i j alt ha _ ih; exact ntdc_mk ha ih
  · intro c rc i; exact seqdc_nil
  · intro c rc s rest i j k _ hr ih1 ih2; exact seqdc_cons ih1 ih2 (seqd_nil_eq hr)
  · intro c rc s i j hm; exact symdc_term hm
  · intro c rc s i j _ ih; exact symdc_nt ih

/-- Acceptance in terms of recorded facts is derivability in the slot grammar. -/
theorem reach_accepts {sg : SG} {inp : Bytes} (hrep : (sg.nt sg.start).isRep = false)
    (hne : ∀ p ∈ sg.alts sg.start, p ≠ []) (r : Nat) :
    (∃ L k, L.nt = sg.start ∧ L.dot = (sg.prod L).length ∧ Reach sg inp (.adv L 0 k r)) ↔
    NTD sg inp sg.start 0 0 r := by
  constructor
  · rintro ⟨L, k, h1, h2, h3⟩
    obtain ⟨h4, h5, rc, s, u, h6, hpu, h7, h8, h9⟩ := reach_sound h3
    have hfull : SeqD sg inp L.nt rc (sg.prod L) 0 r := by
      have ht := take_succ_of_get? h7
      rw [Nat.sub_add_cancel h4, h2, List.take_length] at ht
      rw [ht]
      have : L.dot - 1 = (sg.prod L).length - 1 := by omega
      rw [this] at h8
      exact h8.snoc h9
    rw [h1] at hfull h6
    have hchild : ∀ c rc, childRC sg c rc sg.start = 0 := by intro c rc; simp [childRC, hrep]
    have hrc : rc = 0 ∧ L.alt < (sg.alts sg.start).length := by
      cases u with
      | none => exact ⟨h6.2.1, h6.2.2⟩
      | some v =>
        obtain ⟨_, _, h, ha⟩ := h6
        refine ⟨by rw [h, hchild], ?_⟩
        simpa [startAlts, hrep] using ha
    obtain ⟨rfl, hlt⟩ := hrc
    refine .mk _ _ _ _ L.alt (by simpa [startAlts, hrep] using hlt) ?_
    have : sg.prod ⟨sg.start, L.alt, 0⟩ = sg.prod L := by unfold SG.prod; rw [h1]
    rw [this]
    exact hfull
  · rintro ⟨_, _, _, _, alt, ha, hs⟩
    have hlt : alt < (sg.alts sg.start).length := by simpa [startAlts, hrep] using ha
    have hmem : sg.prod ⟨sg.start, alt, 0⟩ ∈ sg.alts sg.start := by
      unfold SG.prod
      rw [List.getD_eq_getElem?_getD, List.getElem?_eq_getElem hlt]
      simp
    obtain ⟨k, hk⟩ := (seqd_complete hs ⟨sg.start, alt, 0⟩ none rfl (by simp) (Nat.zero_le _)
      (.start alt hlt)).2 (hne _ hmem)
    exact ⟨_, k, rfl, rfl, hk⟩

end Verif
