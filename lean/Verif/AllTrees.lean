import Verif.PropsForest
import Verif.TreeText

/-!
# C105: every derivation tree is in the forest

`NumTrees` and `Ambiguous` (/repo/sppf.go:729-796, /repo/bsr.go:312-472) against the derivation trees of the grammar.
-/

namespace Verif
open Spec

namespace Spec

/-- No unnamed node of the tree, that is, no leaf for a terminal, has an empty span. -/
inductive Tidy : ParseTree → Prop
  | mk (r s e ch) : (r = [] → s < e) → (∀ c ∈ ch, Tidy c) → Tidy (.node r s e ch)

theorem Tidy.inv {r : Str} {s e : Nat} {ch : List ParseTree} (h : Tidy (.node r s e ch)) :
    (r = [] → s < e) ∧ ∀ c ∈ ch, Tidy c := by
  generalize ht : ParseTree.node r s e ch = t at h
  cases h with
  | mk _ _ _ _ h1 h2 => cases ht; exact ⟨h1, h2⟩

/-- A way to derive the whole input from the rule `name`, as a tree. -/
structure WholeTree (g : Grammar) (name : Str) (inp : Bytes) (t : ParseTree) : Prop where
  derives : DerivationTree g inp t
  tidy : Tidy t
  root : SameName name t.rule
  named : t.rule ≠ []
  start : t.start = 0
  fin : t.fin = inp.length

end Spec

section
variable {g : Grammar} {root : Str} {sg : SG} {ix : List (Str × Nat)} {inp : Bytes}

/-! ## Derivations of a slot grammar, with their trees -/

mutual
/-- Nonterminal `s`, entered with count `c`, derives the input from `i` to `j` with these trees inside. -/
inductive NTDT (sg : SG) (inp : Bytes) : Nat → Nat → List ParseTree → Nat → Nat → Prop
  | mk (s c ts i j alt) : alt ∈ startAlts sg s c → SeqDT sg inp s c (sg.prod ⟨s, alt, 0⟩) ts i j → NTDT sg inp s c ts i j
/-- Consecutive symbols. -/
inductive SeqDT (sg : SG) (inp : Bytes) : Nat → Nat → List Sym → List ParseTree → Nat → Nat → Prop
  | nil (caller rc i) : SeqDT sg inp caller rc [] [] i i
  | cons (caller rc s rest ts us i j k) : SymDT sg inp caller rc s ts i j → SeqDT sg inp caller rc rest us j k →
      SeqDT sg inp caller rc (s :: rest) (ts ++ us) i k
/-- One symbol. -/
inductive SymDT (sg : SG) (inp : Bytes) : Nat → Nat → Sym → List ParseTree → Nat → Nat → Prop
  | term (caller rc s i j) : matchSym inp s i = some j → SymDT sg inp caller rc s (termLeaf i j) i j
  | rule (caller rc s ch i j) : (sg.nt s).isRule = true → NTDT sg inp s (childRC sg caller rc s) ch i j →
      SymDT sg inp caller rc (.nt s) [.node (sg.nt s).ruleName i j ch] i j
  | sub (caller rc s ts i j) : (sg.nt s).isRule = false → NTDT sg inp s (childRC sg caller rc s) ts i j →
      SymDT sg inp caller rc (.nt s) ts i j
end

theorem NTDT.forget {s c : Nat} {ts : List ParseTree} {i j : Nat} (h : NTDT sg inp s c ts i j) : NTD sg inp s c i j := by
  refine NTDT.rec (motive_1 := fun s c _ i j _ => NTD sg inp s c i j) (motive_2 := fun c rc l _ i j _ => SeqD sg inp c rc l i j)
    (motive_3 := fun c rc s _ i j _ => SymD sg inp c rc s i j) ?_ ?_ ?_ ?_ ?_ ?_ h
  · exact fun s c ts i j alt h1 _ h2 => .mk _ _ _ _ alt h1 h2
  · exact fun c rc i => .nil _ _ _
  · exact fun c rc s rest ts us i j k _ _ h1 h2 => .cons _ _ _ _ _ _ _ h1 h2
  · exact fun c rc s i j h => .term _ _ _ _ _ h
  · exact fun c rc s ch i j _ _ h => .nt _ _ _ _ _ h
  · exact fun c rc s ts i j _ _ h => .nt _ _ _ _ _ h

theorem SymDT.forget {c rc : Nat} {s : Sym} {ts : List ParseTree} {i j : Nat} (h : SymDT sg inp c rc s ts i j) : SymD sg inp c rc s i j := by
  cases h with
  | term _ _ _ _ _ h => exact .term _ _ _ _ _ h
  | rule _ _ _ _ _ _ _ h => exact .nt _ _ _ _ _ h.forget
  | sub _ _ _ _ _ _ _ h => exact .nt _ _ _ _ _ h.forget

theorem ntdt_of_prod {s c : Nat} {ts : List ParseTree} {i j : Nat} {p : List Sym} (hr : (sg.nt s).isRep = false)
    (hp : p ∈ (sg.nt s).alts) (h : SeqDT sg inp s c p ts i j) : NTDT sg inp s c ts i j := by
  obtain ⟨n, hn, he⟩ := List.getElem_of_mem hp
  refine .mk _ _ _ _ _ n ?_ ?_
  · simp only [startAlts, hr, SG.alts]
    simpa using hn
  · have : sg.prod ⟨s, n, 0⟩ = p := by
      unfold SG.prod SG.alts
      rw [List.getD_eq_getElem?_getD, List.getElem?_eq_getElem hn, he]; rfl
    rw [this]; exact h

theorem termLeaf_self (i : Nat) : termLeaf i i = [] := by simp [termLeaf]

theorem symDT_empty {c rc i : Nat} {s : Sym} (h : matchSym inp s i = some i) : SymDT sg inp c rc s [] i i := by
  have := SymDT.term (sg := sg) c rc s i i h
  rwa [termLeaf_self] at this

theorem seqDT_eps {caller rc i : Nat} : SeqDT sg inp caller rc [.eps] [] i i := by
  have := SeqDT.cons (sg := sg) (inp := inp) caller rc .eps [] [] [] i i i (symDT_empty rfl) (.nil _ _ _)
  simpa using this

/-- What is known of a node below another: a leaf is not empty, and the children of a rule node are derived from its
nonterminal. -/
def Planted (g : Grammar) (root : Str) (sg : SG) (ix : List (Str × Nat)) (inp : Bytes) : ParseTree → Prop
  | .node r i j ch => (r = [] → i < j) ∧
      (r ≠ [] → ∀ n id, SameName n r → OccName g root n → ix.lookup (ruleKey n) = some id →
        (sg.nt id).isRule = true ∧ (sg.nt id).ruleName = r ∧ NTDT sg inp id 0 ch i j)

/-- From the grammar to the slot grammar: the children of a rule. -/
theorem alt_complete (hl : Lowered g root sg ix) (hdp : DistinctPrint g) (hwf : NumValsWF g)
    (hnm : ∀ r ∈ allReps g, r.elem ≠ .rulename []) {a : Alt} {ts : List ParseTree} {i j : Nat} (h : AltTrees inp a ts i j) :
    (∀ r ∈ altReps a, r ∈ allReps g) → (∀ t ∈ ts, Planted g root sg ix inp t) → ∀ (out : List (List Sym)), SymAlts ix a out →
      ∃ p ∈ out, ∀ caller rc, (sg.nt caller).isRep = false → SeqDT sg inp caller rc p ts i j := by
  refine AltTrees.rec
    (motive_1 := fun e ts i j _ => (∃ r ∈ allReps g, r.elem = e) → (∀ t ∈ ts, Planted g root sg ix inp t) →
      ∀ (s : Sym) (caller rc : Nat), SymElem ix e s → SymDT sg inp caller rc s ts i j)
    (motive_2 := fun a ts i j _ => (∀ r ∈ altReps a, r ∈ allReps g) → (∀ t ∈ ts, Planted g root sg ix inp t) →
      ∀ (out : List (List Sym)), SymAlts ix a out →
      ∃ p ∈ out, ∀ caller rc, (sg.nt caller).isRep = false → SeqDT sg inp caller rc p ts i j)
    (motive_3 := fun c ts i j _ => (∀ r ∈ c, r ∈ allReps g) → (∀ t ∈ ts, Planted g root sg ix inp t) → ∀ (raw : List Sym),
      List.Forall₂ (SymRep ix) c raw → ∀ caller rc, (sg.nt caller).isRep = false → SeqDT sg inp caller rc raw ts i j)
    (motive_4 := fun r ts i j _ => r ∈ allReps g → (∀ t ∈ ts, Planted g root sg ix inp t) → ∀ (s : Sym), SymRep ix r s →
      ∀ caller rc, (sg.nt caller).isRep = false → SymDT sg inp caller rc s ts i j)
    (motive_5 := fun e n ts i j _ => (∃ r ∈ allReps g, r.elem = e) → (∀ t ∈ ts, Planted g root sg ix inp t) →
      (n = 1 → ∀ (s : Sym) (caller rc : Nat), SymElem ix e s → SymDT sg inp caller rc s ts i j) ∧
      (∀ r ∈ allReps g, r.elem = e → ¬ (r.min = 1 ∧ r.max = some 1) → ∀ id, ix.lookup (repKey r) = some id →
        ∀ c, WithinBounds r c n → NTDT sg inp id c ts i j))
    ?_ ?_ ?_ ?_ ?_ ?_ ?_ ?_ ?_ ?_ ?_ ?_ h
  · intro n r i j ch hsame hocc hpl s caller rc hs
    obtain ⟨id, rfl, hk⟩ := hs
    obtain ⟨q, hq, he⟩ := hocc
    have hr : r ≠ [] := by
      rintro rfl
      have h0 := (sameName_iff _ _).mp hsame
      have : n = [] := by
        cases n with
        | nil => rfl
        | cons c cs => simp [canon] at h0
      subst this
      exact hnm q hq he
    obtain ⟨h1, h2, h3⟩ := (hpl (.node r i j ch) (by simp)).2 hr n id hsame (Or.inr ⟨q, hq, he⟩) hk
    have hc := hl.content hdp (o := .rule n) (Or.inr ⟨q, hq, he⟩) hk
    have := SymDT.rule caller rc id ch i j h1 (by rw [childRC_nonrep hc.1]; exact h3)
    rwa [h2] at this
  · intro a ts i j _ ih hocc hpl s caller rc hs
    obtain ⟨id, rfl, hk⟩ := hs
    obtain ⟨r, hr, he⟩ := hocc
    have hc := hl.content hdp (o := .grp a) ⟨r, hr, he⟩ hk
    obtain ⟨p, hp, hseq⟩ := ih (fun p hp => allReps_closed hr (by rw [he]; exact hp)) hpl _ hc.2.2
    exact .sub _ _ _ _ _ _ hc.1 (ntdt_of_prod hc.2.1 hp (hseq _ _ hc.2.1))
  · intro a i hocc hpl s caller rc hs
    obtain ⟨id, rfl, hk⟩ := hs
    obtain ⟨r, hr, he⟩ := hocc
    obtain ⟨h0, hnr, out, hout, halts⟩ := hl.content hdp (o := .opt a) ⟨r, hr, he⟩ hk
    exact .sub _ _ _ _ _ _ h0 (ntdt_of_prod hnr (by rw [halts]; simp) seqDT_eps)
  · intro a ts i j _ ih hocc hpl s caller rc hs
    obtain ⟨id, rfl, hk⟩ := hs
    obtain ⟨r, hr, he⟩ := hocc
    obtain ⟨h0, hnr, out, hout, halts⟩ := hl.content hdp (o := .opt a) ⟨r, hr, he⟩ hk
    obtain ⟨p, hp, hseq⟩ := ih (fun p hp => allReps_closed hr (by rw [he]; exact hp)) hpl _ hout
    exact .sub _ _ _ _ _ _ h0 (ntdt_of_prod hnr (by rw [halts]; exact List.mem_cons_of_mem _ hp) (hseq _ _ hnr))
  · intro e cs i j ht hb hocc hpl s caller rc hs
    have hse : s = .term e := by cases ht <;> exact hs
    obtain ⟨r, hr, he⟩ := hocc
    have hw := allReps_wf hwf hr
    rw [he] at hw
    subst hse
    have hlt : i < j := (hpl (.node [] i j []) (by simp)).1 rfl
    have := SymDT.term (sg := sg) caller rc (.term e) i j ((matchElem_iff inp e hw i j).mpr ⟨cs, ht, by rw [encodeAll_eq_utf8]; exact hb⟩)
    rwa [show termLeaf i j = [.node [] i j []] by simp [termLeaf, hlt]] at this
  · intro e i ht hocc hpl s caller rc hs
    have hse : s = .term e := by cases ht <;> exact hs
    obtain ⟨r, hr, he⟩ := hocc
    have hw := allReps_wf hwf hr
    rw [he] at hw
    subst hse
    exact symDT_empty ((matchElem_iff inp e hw i i).mpr ⟨[], ht, by simp [encodeAll_eq_utf8, utf8_nil, at_nil]⟩)
  · intro a c ts i j hc _ ih hall hpl out hout
    obtain ⟨p, hp, raw, hraw, hpe⟩ := forall₂_mem_left hout hc
    refine ⟨p, hp, fun caller rc hnr => ?_⟩
    have hseq := ih (fun r hr => hall r (mem_altReps hc hr)) hpl raw hraw caller rc hnr
    by_cases he : raw = []
    · rw [if_pos he] at hpe
      subst he hpe
      cases hseq
      exact seqDT_eps
    · rw [if_neg he] at hpe
      subst hpe
      exact hseq
  · intro i _ _ raw hraw caller rc hnr
    cases hraw
    exact .nil _ _ _
  · intro r c ts us i j k _ _ ih1 ih2 hall hpl raw hraw caller rc hnr
    cases hraw with
    | cons hr hrest =>
      exact .cons _ _ _ _ _ _ _ _ _ (ih1 (hall r (by simp)) (fun t ht => hpl t (List.mem_append_left _ ht)) _ hr caller rc hnr)
        (ih2 (fun r hr => hall r (List.mem_cons_of_mem _ hr)) (fun t ht => hpl t (List.mem_append_right _ ht)) _ hrest caller rc hnr)
  · intro mn mx e n ts i j h1 h2 _ ih hr hpl s hs caller rc hnr
    obtain ⟨ih1, ih2⟩ := ih ⟨_, hr, rfl⟩ hpl
    unfold SymRep at hs
    by_cases hone : mn = 1 ∧ mx = some 1
    · rw [if_pos (by exact hone)] at hs
      have hn : n = 1 := by
        have := h2 1 hone.2
        omega
      exact ih1 hn s caller rc hs
    · rw [if_neg (by exact hone)] at hs
      obtain ⟨id, rfl, hk⟩ := hs
      have hc := hl.content hdp (o := .rep ⟨mn, mx, e⟩) ⟨hr, hone⟩ hk
      refine .sub _ _ _ _ _ _ hc.1 ?_
      rw [childRC_caller hnr]
      exact ih2 _ hr rfl hone id hk 0 ⟨by simpa using h1, fun m hm => by simpa using h2 m hm⟩
  · intro e i _ _
    refine ⟨nofun, ?_⟩
    intro r hr he hone id hk c hb
    obtain ⟨_, hc⟩ := hl.content hdp (o := .rep r) ⟨hr, hone⟩ hk
    rcases hc with ⟨m, hm, hlt, _⟩ | ⟨_, hrep, hmin, hmax, id', es, hid, hes, halts⟩
    · have := hb.1; have := hb.2 m hm; omega
    · refine .mk _ _ _ _ _ 0 ?_ ?_
      · simp only [startAlts, hrep, if_true, List.mem_append, hmin]
        left
        have := hb.1
        rw [if_pos (by omega)]; simp
      · have : sg.prod ⟨id, 0, 0⟩ = [.eps] := by simp [SG.prod, SG.alts, halts]
        rw [this]
        exact seqDT_eps
  · intro e n ts us i j k h1 h2 ih1 ih2 hocc hpl
    have hp1 : ∀ t ∈ ts, Planted g root sg ix inp t := fun t ht => hpl t (List.mem_append_left _ ht)
    have hp2 : ∀ t ∈ us, Planted g root sg ix inp t := fun t ht => hpl t (List.mem_append_right _ ht)
    refine ⟨?_, ?_⟩
    · intro hn s caller rc hs
      obtain rfl : n = 0 := by omega
      cases h2
      rw [List.append_nil]
      exact ih1 hocc hp1 s caller rc hs
    · intro r hr he hone id hk c hb
      obtain ⟨_, hc⟩ := hl.content hdp (o := .rep r) ⟨hr, hone⟩ hk
      have hnrule := (hl.content hdp (o := .rep r) ⟨hr, hone⟩ hk).1
      rcases hc with ⟨m, hm, hlt, _⟩ | ⟨_, hrep, hmin, hmax, id', es, hid, hes, halts⟩
      · have := hb.1; have := hb.2 m hm; omega
      · have hid' : id' = id := by
          have := hk.symm.trans hid
          simpa using this.symm
        subst hid'
        refine .mk _ _ _ _ _ 1 ?_ ?_
        · simp only [startAlts, hrep, if_true, List.mem_append, hmax]
          right
          cases hm : r.max with
          | none => simp
          | some m =>
            have := hb.2 m hm
            have : c < m := by omega
            simp [this]
        · have : sg.prod ⟨id', 1, 0⟩ = [es, .nt id'] := by simp [SG.prod, SG.alts, halts]
          rw [this]
          rw [he] at hes
          refine .cons _ _ _ _ _ _ _ _ _ (ih1 hocc hp1 es id' c hes) ?_
          have hus : us = us ++ [] := (List.append_nil us).symm
          rw [hus]
          refine .cons _ _ _ _ _ _ _ _ _ (.sub _ _ _ _ _ _ hnrule ?_) (.nil _ _ _)
          refine (ih2 hocc hp2).2 r hr he hone id' hk _ ?_
          have hch : childRC sg id' c id' = capRC c (sg.nt id') := by simp [childRC, hrep]
          rw [hch]
          unfold WithinBounds at hb ⊢
          cases hmx : r.max with
          | none =>
            rw [hmx] at hmax
            rw [capRC_none hmax, hmin]
            refine ⟨?_, by simp⟩
            split_ifs <;> omega
          | some M =>
            rw [hmx] at hmax
            rw [capRC_some hmax]
            have := hb.2 M hmx
            refine ⟨by omega, ?_⟩
            intro m hm
            simp at hm
            omega

/-- Every derivation tree is one of the slot grammar. -/
theorem planted (hl : Lowered g root sg ix) (hdp : DistinctPrint g) (hwf : NumValsWF g) (hnd : NamesDistinct g)
    (hnm : ∀ r ∈ allReps g, r.elem ≠ .rulename []) {t : ParseTree} (h : DerivationTree g inp t) (ht : Tidy t) :
    Planted g root sg ix inp t := by
  induction h with
  | leaf s e => exact ⟨ht.inv.1, fun h => absurd rfl h⟩
  | rule r s e ch hres ha _ ih =>
    refine ⟨ht.inv.1, fun _ n id hsame hocc hk => ?_⟩
    have hc := hl.content hdp (o := .rule n) hocc hk
    have hg : getRule n g.rules = some r := by
      refine resolves_getRule hnd ?_
      have h0 := (sameName_iff _ _).mp hsame
      have hmove : ∀ x, SameName r.name x ↔ SameName n x := fun x => by rw [sameName_iff, sameName_iff, h0]
      cases hres with
      | user h1 h2 => exact .user h1 ((hmove _).mp h2)
      | core h1 h2 h3 => exact .core h1 ((hmove _).mp h2) fun u hu h => h3 u hu ((hmove _).mpr h)
    obtain ⟨hnr, hc⟩ := hc
    rw [hg] at hc
    obtain ⟨p, hp, hseq⟩ := alt_complete hl hdp hwf hnm ha (fun p hp => mem_allReps hg hp)
      (fun t h' => ih t h' (ht.inv.2 t h')) _ hc.2.2
    exact ⟨hc.1, hc.2.1, ntdt_of_prod hnr hp (hseq _ _ hnr)⟩

/-! ## From the slot grammar to the forest -/

/-- What a node adds to the tree around what is inside. -/
def wrap (sg : SG) (k : NodeKey) (ts : List ParseTree) : List ParseTree :=
  match k with
  | .sym n s e => if (sg.nt n).isRule then [.node (sg.nt n).ruleName s e ts] else ts
  | _ => ts

mutual
/-- The trees inside a tree of the packed forest. -/
def inside (sg : SG) : PTree NodeKey → List ParseTree
  | .node k _ ch => match k with
    | .term s e => termLeaf s e
    | _ => insideAll sg ch
/-- Those of several. -/
def insideAll (sg : SG) : List (PTree NodeKey) → List ParseTree
  | [] => []
  | t :: ts => wrap sg t.root (inside sg t) ++ insideAll sg ts
end

/-- Some tree of the packed forest at `k` has these trees inside. -/
def Shown (sg : SG) (G : NodeKey → List (List NodeKey)) (k : NodeKey) (ts : List ParseTree) : Prop :=
  ∃ t : PTree NodeKey, t.Of G true ∧ t.root = k ∧ inside sg t = ts

/-- The same with what the node adds. -/
def ShownAs (sg : SG) (G : NodeKey → List (List NodeKey)) (k : NodeKey) (ts : List ParseTree) : Prop :=
  ∃ us, Shown sg G k us ∧ wrap sg k us = ts

theorem shown_pack {G : NodeKey → List (List NodeKey)} {k : NodeKey} (hk : ∀ s e, k ≠ .term s e) {pk : List NodeKey} (hp : pk ∈ G k)
    {tss : List (List ParseTree)} (h : List.Forall₂ (ShownAs sg G) pk tss) : Shown sg G k tss.flatten := by
  have : ∃ ch : List (PTree NodeKey), ch.map PTree.root = pk ∧ (∀ c ∈ ch, c.Of G true) ∧ insideAll sg ch = tss.flatten := by
    clear hp
    induction h with
    | nil => exact ⟨[], rfl, by simp, rfl⟩
    | cons h1 _ ih =>
      obtain ⟨_, ⟨t, h2, rfl, rfl⟩, rfl⟩ := h1
      obtain ⟨ch, rfl, h3, h4⟩ := ih
      refine ⟨t :: ch, rfl, ?_, by rw [insideAll, h4, List.flatten_cons]⟩
      intro c hc
      rcases List.mem_cons.mp hc with rfl | hc
      · exact h2
      · exact h3 c hc
  obtain ⟨ch, rfl, h1, h2⟩ := this
  obtain ⟨i, hi⟩ := List.getElem?_of_mem hp
  refine ⟨.node k i ch, .node k i ch hi h1, rfl, ?_⟩
  rw [← h2]
  cases k with
  | term s e => exact absurd rfl (hk s e)
  | sym | inter => simp [inside]

/-- The part of a production before the dot. -/
def Before (sg : SG) (G : NodeKey → List (List NodeKey)) (L : Slot) (l r : Nat) (pre : List ParseTree) : Prop :=
  if L.dot = 0 then pre = [] ∧ l = r
  else if L.dot = (sg.prod L).length then Shown sg G (.sym L.nt l r) pre
  else ShownAs sg G (nodeFor sg L l r) pre

theorem wrap_inter (L : Slot) (l r : Nat) (ts : List ParseTree) : wrap sg (.inter L l r) ts = ts := rfl

/-- Moving the dot over a symbol. -/
theorem before_next {G : NodeKey → List (List NodeKey)}
    (hG : ∀ L l m r, Reach sg inp (.adv L l m r) → ¬ Unary sg L → kids sg L l m r ∈ G (nodeFor sg L l r))
    {L : Slot} {l i m : Nat} {s : Sym} (hget : (sg.prod L)[L.dot]? = some s) (hr : Reach sg inp (.adv L.next l i m))
    {pre ts : List ParseTree} (hpre : Before sg G L l i pre) (hts : ShownAs sg G (childNode s i m) ts) :
    Before sg G L.next l m (pre ++ ts) := by
  have hlt := (List.getElem?_eq_some_iff.mp hget).1
  have hlast : sg.lastSym L.next = s := lastSym_of (by rw [prod_next]; exact hget)
  have hnd : L.next.dot = L.dot + 1 := rfl
  have hprev : L.next.prev = L := by cases L; rfl
  unfold Before
  rw [if_neg (by rw [hnd]; omega)]
  unfold Before at hpre
  by_cases hu : Unary sg L.next
  · obtain ⟨h1, h2⟩ := hu
    rw [if_neg h2]
    have h0 : L.dot = 0 := by omega
    rw [if_pos h0] at hpre
    obtain ⟨rfl, rfl⟩ := hpre
    unfold nodeFor
    rw [if_neg h2, if_pos h1, hlast, List.nil_append]
    exact hts
  · have hp := hG _ _ _ _ hr hu
    have hk : ∀ s e, nodeFor sg L.next l m ≠ .term s e := by
      intro s e
      unfold nodeFor
      split_ifs with c1 c2
      · exact nofun
      · exact absurd ⟨c2, c1⟩ hu
      · exact nofun
    have hshown : Shown sg G (nodeFor sg L.next l m) (pre ++ ts) := by
      unfold kids wFor at hp
      rw [hprev, hlast] at hp
      by_cases h0 : L.dot = 0
      · rw [if_pos h0] at hpre
        obtain ⟨rfl, rfl⟩ := hpre
        rw [if_pos h0, Option.toList_none, List.nil_append] at hp
        have := shown_pack hk hp (tss := [ts]) (.cons hts .nil)
        simpa using this
      · rw [if_neg h0, if_neg (by omega)] at hpre
        rw [if_neg h0, Option.toList_some, List.singleton_append] at hp
        have := shown_pack hk hp (tss := [pre, ts]) (.cons hpre (.cons hts .nil))
        simpa using this
    by_cases hd : L.next.dot = (sg.prod L.next).length
    · rw [if_pos hd]
      unfold nodeFor at hshown
      rwa [if_pos hd] at hshown
    · rw [if_neg hd]
      have h1 : L.next.dot ≠ 1 := fun h1 => hu ⟨h1, hd⟩
      refine ⟨_, hshown, ?_⟩
      unfold nodeFor
      rw [if_neg hd, if_neg h1, wrap_inter]

theorem ntd_reached {s c i j : Nat} (h : NTD sg inp s c i j) : NTDC sg inp s c i j := by
  cases h with
  | mk _ _ _ _ alt ha h => exact ntdc_mk ha (seqd_complete h)

theorem startAlts_lt (hok : SGOK sg) {s c alt : Nat} (h : alt ∈ startAlts sg s c) : alt < (sg.alts s).length := by
  unfold startAlts at h
  by_cases hr : (sg.nt s).isRep = true
  · obtain ⟨x, hx⟩ := hok.rep s hr
    rw [if_pos hr, List.mem_append] at h
    rw [hx]
    have : alt = 0 ∨ alt = 1 := by
      rcases h with h | h
      · split_ifs at h
        · exact .inl (by simpa using h)
        · cases h
      · split_ifs at h
        · exact .inr (by simpa using h)
        · cases h
    rcases this with rfl | rfl <;> simp
  · rw [if_neg hr] at h
    simpa using h

/-- Every derivation of the slot grammar that the engine comes to is shown. -/
theorem ntdt_shown (hok : SGOK sg) {G : NodeKey → List (List NodeKey)} (hterm : ∀ s e, G (.term s e) = [])
    (hG : ∀ L l m r, Reach sg inp (.adv L l m r) → ¬ Unary sg L → kids sg L l m r ∈ G (nodeFor sg L l r))
    {s c : Nat} {ts : List ParseTree} {i j : Nat} (h : NTDT sg inp s c ts i j) :
    ∀ u : GNode, posOf u = i → (∀ alt ∈ startAlts sg s c, Reach sg inp (.at ⟨s, alt, 0⟩ u i c)) → Shown sg G (.sym s i j) ts := by
  refine NTDT.rec
    (motive_1 := fun s c ts i j _ => ∀ u : GNode, posOf u = i →
      (∀ alt ∈ startAlts sg s c, Reach sg inp (.at ⟨s, alt, 0⟩ u i c)) → Shown sg G (.sym s i j) ts)
    (motive_2 := fun c rc l ts i j _ => ∀ (L : Slot) (u : GNode) (pre : List ParseTree), L.nt = c → (sg.prod L).drop L.dot = l →
      L.dot ≤ (sg.prod L).length → Reach sg inp (.at L u i rc) → Before sg G L (posOf u) i pre →
      Before sg G (sg.done L) (posOf u) j (pre ++ ts))
    (motive_3 := fun c rc s ts i j _ => ∀ (L : Slot) (u : GNode), L.nt = c → (sg.prod L)[L.dot]? = some s →
      Reach sg inp (.at L u i rc) → ShownAs sg G (childNode s i j) ts) ?_ ?_ ?_ ?_ ?_ ?_ h
  · intro s c ts i j alt ha _ ih u hu hr
    have h1 := ih ⟨s, alt, 0⟩ u [] rfl (by simp) (Nat.zero_le _) (hr alt ha) (by
      unfold Before; rw [if_pos rfl]; exact ⟨rfl, hu⟩)
    rw [List.nil_append, hu] at h1
    have hlen : (sg.prod ⟨s, alt, 0⟩).length ≠ 0 := by
      intro h0
      have he : sg.prod ⟨s, alt, 0⟩ = [] := List.eq_nil_of_length_eq_zero h0
      by_cases hlt : alt < (sg.alts s).length
      · have : sg.prod ⟨s, alt, 0⟩ ∈ sg.alts s := by
          unfold SG.prod
          rw [List.getD_eq_getElem?_getD, List.getElem?_eq_getElem hlt]
          exact List.getElem_mem _
        exact hok.ne _ _ this he
      · exact absurd (startAlts_lt hok ha) hlt
    unfold Before SG.done at h1
    rw [if_neg hlen] at h1
    have : sg.prod ⟨s, alt, (sg.prod ⟨s, alt, 0⟩).length⟩ = sg.prod ⟨s, alt, 0⟩ := rfl
    rw [if_pos (by rw [this])] at h1
    exact h1
  · intro c rc i L u pre hc hd hle hr hpre
    have : L.dot = (sg.prod L).length := by
      have := congrArg List.length hd
      simp at this
      omega
    have e : sg.done L = L := by unfold SG.done; rw [← this]
    rw [e, List.append_nil]
    exact hpre
  · intro c rc s rest ts us i m j h1 _ ih1 ih2 L u pre hc hd hle hr hpre
    have hget : (sg.prod L)[L.dot]? = some s := by
      have h0 : ((sg.prod L).drop L.dot)[0]? = some s := by rw [hd]; rfl
      simpa using h0
    have hlt := (List.getElem?_eq_some_iff.mp hget).1
    have hd' : (sg.prod L.next).drop L.next.dot = rest := by
      rw [prod_next]
      show (sg.prod L).drop (L.dot + 1) = rest
      rw [← List.drop_drop, hd]; rfl
    have hsym : SymDC sg inp c rc s i m := by
      cases h1.forget with
      | term _ _ _ _ _ hm => exact symdc_term hm
      | nt _ _ s' _ _ hn => exact symdc_nt (ntd_reached hn)
    obtain ⟨h2, h3⟩ := hsym L u hc hget hr
    have := ih2 L.next u (pre ++ ts) hc hd' hlt h2 (before_next hG hget h3 hpre (ih1 L u hc hget hr))
    rw [List.append_assoc] at this
    exact this
  · intro c rc s i j hm L u hc hget hr
    have hs : childNode s i j = .term i j := by
      cases s with
      | nt n => simp [matchSym] at hm
      | eps | term => rfl
    rw [hs]
    exact ⟨_, ⟨.node (.term i j) 0 [], .leaf _ (hterm i j) rfl, rfl, rfl⟩, rfl⟩
  · intro c rc s ch i j hrule _ ih L u hc hget hr
    refine ⟨ch, ih (some ⟨L.next, i, rc⟩) rfl fun alt ha => ?_, ?_⟩
    · subst hc
      exact .callAt _ _ _ _ _ _ hr hget ha
    · simp [wrap, childNode, hrule]
  · intro c rc s ts i j hrule _ ih L u hc hget hr
    refine ⟨ts, ih (some ⟨L.next, i, rc⟩) rfl fun alt ha => ?_, ?_⟩
    · subst hc
      exact .callAt _ _ _ _ _ _ hr hget ha
    · simp [wrap, childNode, hrule]

/-! ## What `Tree` returns when there is only one -/

theorem treeKids_inside {G : NodeKey → List (List NodeKey)} {rec : List NodeKey → NodeKey → Option (List ParseTree)} {stack : List NodeKey}
    (hterm : ∀ s e, G (.term s e) = []) :
    ∀ (ch : List (PTree NodeKey)), (∀ c ∈ ch, c.Of G true) → (∀ c ∈ ch, c.root ∉ stack) →
    (∀ c ∈ ch, (∀ s e, c.root ≠ .term s e) → ∀ ts, rec (c.root :: stack) c.root = some ts → ts = inside sg c) →
    ∀ ts, treeKids sg rec stack (ch.map PTree.root) = some ts → ts = insideAll sg ch
  | [], _, _, _, ts, h => by simp only [List.map_nil, treeKids, Option.some.injEq] at h; rw [← h]; rfl
  | c :: ch, hof, hst, hrec, ts, h => by
    simp only [List.map_cons, treeKids, Option.bind_eq_some_iff, Option.map_eq_some_iff] at h
    obtain ⟨a, h1, b, h2, rfl⟩ := h
    have hb := treeKids_inside hterm ch (fun c hc => hof c (List.mem_cons_of_mem _ hc)) (fun c hc => hst c (List.mem_cons_of_mem _ hc))
      (fun c hc => hrec c (List.mem_cons_of_mem _ hc)) b h2
    rw [insideAll, ← hb]
    congr 1
    have hc := hrec c (List.mem_cons_self ..)
    have hs := hst c (List.mem_cons_self ..)
    have ho := hof c (List.mem_cons_self ..)
    clear hrec hst hof h2 hb
    cases hk : c.root with
    | term s e =>
      rw [hk] at h1
      simp only [treeChild, Option.some.injEq] at h1
      subst h1
      cases ho with
      | leaf k _ _ => simp only [PTree.root] at hk; subst hk; rfl
      | node k i ch' hi _ =>
        simp only [PTree.root] at hk
        subst hk
        rw [hterm] at hi
        simp at hi
    | sym n s e =>
      rw [hk] at h1 hc hs
      simp only [treeChild, if_neg hs] at h1
      unfold wrap
      by_cases hr : (sg.nt n).isRule = true
      · simp only [hr, if_true] at h1 ⊢
        obtain ⟨x, hx, rfl⟩ := Option.map_eq_some_iff.mp h1
        rw [hc nofun x hx]
      · simp only [hr] at h1 ⊢
        exact hc nofun a h1
    | inter L s e =>
      rw [hk] at h1 hc hs
      simp only [treeChild, if_neg hs] at h1
      exact hc nofun a h1

theorem collect_inside {f : Forest} (hterm : ∀ s e, f.packsOf (.term s e) = []) {t : PTree NodeKey} (ht : t.Of f.packsOf true) :
    (∀ x, AtOrBelow f.packsOf t.root x → (f.packsOf x).length ≤ 1) → (∀ x, AtOrBelow f.packsOf t.root x → ¬ StrictlyBelow f.packsOf x x) →
    ∀ (stack : List NodeKey), (∀ x, StrictlyBelow f.packsOf t.root x → x ∉ stack) →
    ∀ fuel ts, f.collect fuel stack t.root = some ts → ts = inside f.sg t := by
  induction ht with
  | leaf k hk _ =>
    intro _ _ stack _ fuel ts h
    cases fuel with
    | zero => cases h
    | succ fuel =>
      unfold Forest.collect at h
      simp only [PTree.root, hk, Option.some.injEq] at h
      rw [← h]
      cases k <;> rfl
  | node k i ch hi hof ih =>
    intro h1 h2 stack hst fuel ts h
    cases fuel with
    | zero => cases h
    | succ fuel =>
      have hlen := h1 k .refl
      obtain ⟨hlt, hget⟩ := List.getElem?_eq_some_iff.mp hi
      have hp : f.packsOf k = [ch.map PTree.root] := by
        match hq : f.packsOf k, hlen, hlt, hget with
        | [x], _, hl, hg =>
          have : i = 0 := by simp at hl; omega
          subst this
          simp at hg
          rw [hg]
      have hchild : ∀ c ∈ ch, Child f.packsOf k c.root := fun c hc => ⟨_, by rw [hp]; exact List.mem_singleton_self _, List.mem_map_of_mem hc⟩
      unfold Forest.collect at h
      simp only [PTree.root, hp] at h
      have := treeKids_inside hterm ch hof (fun c hc => hst _ (.single (hchild c hc))) ?_ ts h
      · rw [this]
        cases k with
        | term s e => rw [hterm] at hp; cases hp
        | sym | inter => simp [inside]
      · intro c hc _ us hus
        refine ih c hc (fun x hx => h1 x (.head (hchild c hc) hx)) (fun x hx => h2 x (.head (hchild c hc) hx)) _ ?_ _ _ hus
        intro x hx hm
        rcases List.mem_cons.mp hm with rfl | hm
        · exact h2 _ (.single (hchild c hc)) hx
        · exact hst x (.head (hchild c hc) hx) hm

/-! ## A tree for every derivation -/

theorem alt_tree (hnm : ∀ r ∈ allReps g, r.elem ≠ .rulename []) {a : Alt} {w : Bytes} (h : DerivesAlt g a w) :
    (∀ r ∈ altReps a, r ∈ allReps g) → ∀ i j, At inp i j w →
      ∃ ts, AltTrees inp a ts i j ∧ ∀ t ∈ ts, DerivationTree g inp t ∧ Tidy t := by
  refine DerivesAlt.rec
    (motive_1 := fun e w _ => (∃ r ∈ allReps g, r.elem = e) → ∀ i j, At inp i j w →
      ∃ ts, ElemTrees inp e ts i j ∧ ∀ t ∈ ts, DerivationTree g inp t ∧ Tidy t)
    (motive_2 := fun a w _ => (∀ r ∈ altReps a, r ∈ allReps g) → ∀ i j, At inp i j w →
      ∃ ts, AltTrees inp a ts i j ∧ ∀ t ∈ ts, DerivationTree g inp t ∧ Tidy t)
    (motive_3 := fun c w _ => (∀ r ∈ c, r ∈ allReps g) → ∀ i j, At inp i j w →
      ∃ ts, ConcatTrees inp c ts i j ∧ ∀ t ∈ ts, DerivationTree g inp t ∧ Tidy t)
    (motive_4 := fun r w _ => r ∈ allReps g → ∀ i j, At inp i j w →
      ∃ ts, RepTrees inp r ts i j ∧ ∀ t ∈ ts, DerivationTree g inp t ∧ Tidy t)
    (motive_5 := fun e n w _ => (∃ r ∈ allReps g, r.elem = e) → ∀ i j, At inp i j w →
      ∃ ts, TimesTrees inp e n ts i j ∧ ∀ t ∈ ts, DerivationTree g inp t ∧ Tidy t)
    ?_ ?_ ?_ ?_ ?_ ?_ ?_ ?_ ?_ ?_ ?_ h
  · rintro n r w hres _ ih ⟨q, hq, he⟩ i j hat
    have hg : ∀ p ∈ altReps r.alt, p ∈ allReps g := by
      intro p hp
      unfold allReps rulesReps
      refine List.mem_flatMap.mpr ⟨r, ?_, hp⟩
      cases hres with
      | user h1 _ => exact List.mem_append_left _ h1
      | core h1 _ _ => exact List.mem_append_right _ h1
    obtain ⟨ch, h1, h2⟩ := ih hg i j hat
    have hs := sameName_of_resolves hres
    refine ⟨[.node r.name i j ch], .rule _ _ _ _ _ hs, ?_⟩
    intro t ht
    rw [List.mem_singleton.mp ht]
    refine ⟨.rule r i j ch (resolves_sameName hres hres) h1 fun c hc => (h2 c hc).1, .mk _ _ _ _ ?_ fun c hc => (h2 c hc).2⟩
    intro h0
    rw [h0] at hs
    have h0 := (sameName_iff _ _).mp hs
    have : n = [] := by
      cases n with
      | nil => rfl
      | cons c cs => simp [canon] at h0
    subst this
    exact absurd he (hnm q hq)
  · rintro a w _ ih ⟨q, hq, he⟩ i j hat
    obtain ⟨ts, h1, h2⟩ := ih (fun p hp => allReps_closed hq (by rw [he]; exact hp)) i j hat
    exact ⟨ts, .group _ _ _ _ h1, h2⟩
  · rintro a _ i j hat
    rw [at_nil] at hat
    subst hat
    exact ⟨[], .optNone _ _, by simp⟩
  · rintro a w _ ih ⟨q, hq, he⟩ i j hat
    obtain ⟨ts, h1, h2⟩ := ih (fun p hp => allReps_closed hq (by rw [he]; exact hp)) i j hat
    exact ⟨ts, .optSome _ _ _ _ h1, h2⟩
  · rintro e cs ht _ i j hat
    by_cases hcs : cs = []
    · subst hcs
      rw [utf8_nil, at_nil] at hat
      subst hat
      exact ⟨[], .empty _ _ ht, by simp⟩
    · have : utf8 cs ≠ [] := fun h0 => hcs (utf8_eq_nil h0)
      have := List.length_pos_iff.mpr this
      have h2 := hat.2
      refine ⟨[.node [] i j []], .term _ _ _ _ ht hat, ?_⟩
      intro t htm
      rw [List.mem_singleton.mp htm]
      exact ⟨.leaf _ _, .mk _ _ _ _ (fun _ => by omega) (by simp)⟩
  · intro a c w hc _ ih hall i j hat
    obtain ⟨ts, h1, h2⟩ := ih (fun r hr => hall r (mem_altReps hc hr)) i j hat
    exact ⟨ts, .mk _ _ _ _ _ hc h1, h2⟩
  · intro _ i j hat
    rw [at_nil] at hat
    subst hat
    exact ⟨[], .nil _, by simp⟩
  · intro r c u v _ _ ih1 ih2 hall i j hat
    obtain ⟨ha, hb⟩ := (at_append _ _ _ _ _).mp hat
    obtain ⟨ts, h1, h2⟩ := ih1 (hall r (by simp)) _ _ ha
    obtain ⟨us, h3, h4⟩ := ih2 (fun r hr => hall r (List.mem_cons_of_mem _ hr)) _ _ hb
    refine ⟨ts ++ us, .cons _ _ _ _ _ _ _ h1 h3, ?_⟩
    intro t ht
    rcases List.mem_append.mp ht with ht | ht
    · exact h2 t ht
    · exact h4 t ht
  · intro mn mx e n w h1 h2 _ ih hr i j hat
    obtain ⟨ts, h3, h4⟩ := ih ⟨_, hr, rfl⟩ i j hat
    exact ⟨ts, .mk _ _ _ _ _ _ _ h1 h2 h3, h4⟩
  · intro e _ i j hat
    rw [at_nil] at hat
    subst hat
    exact ⟨[], .zero _ _, by simp⟩
  · intro e n u v _ _ ih1 ih2 hocc i j hat
    obtain ⟨ha, hb⟩ := (at_append _ _ _ _ _).mp hat
    obtain ⟨ts, h1, h2⟩ := ih1 hocc _ _ ha
    obtain ⟨us, h3, h4⟩ := ih2 hocc _ _ hb
    refine ⟨ts ++ us, .succ _ _ _ _ _ _ _ h1 h3, ?_⟩
    intro t ht
    rcases List.mem_append.mp ht with ht | ht
    · exact h2 t ht
    · exact h4 t ht

end

/-! ## Trees of the forest -/

section
variable {g : Grammar} {root : Str} {inp : Bytes}

theorem nonempty_of_sameName {n m : Str} (h : SameName n m) (hn : n ≠ []) : m ≠ [] := by
  rintro rfl
  have h0 := (sameName_iff _ _).mp h
  cases n with
  | nil => exact hn rfl
  | cons c cs => simp [canon] at h0

/-- A derivation tree as a tree of the packed forest. -/
theorem whole_shown (hwf : NumValsWF g) (hnd : NamesDistinct g) (hdp : DistinctPrint g)
    (hnm : ∀ r ∈ allReps g, r.elem ≠ .rulename []) {sched : Sched NodeKey} (hf : sched.Fair) {N M : Nat} {f : Forest}
    (h : parseForest sched inp g root N M = .ok f) {d : ParseTree} (hd : WholeTree g root inp d) :
    f.root = some (.sym f.sg.start 0 inp.length) ∧
      ∃ t : PTree NodeKey, t.Of f.packsOf true ∧ t.root = .sym f.sg.start 0 inp.length ∧
        d = .node (f.sg.nt f.sg.start).ruleName 0 inp.length (inside f.sg t) := by
  obtain ⟨hc, _, hok, hL, hw, _, _, hr⟩ := parseForest_ok hf h
  obtain ⟨ix, hl, _, _⟩ := compileSlots_lowered hc
  obtain ⟨r, s, e, ch⟩ := d
  have hs : s = 0 := hd.start
  have he : e = inp.length := hd.fin
  subst hs he
  obtain ⟨h1, h2, h3⟩ := (planted (root := root) hl hdp hwf hnd hnm hd.derives hd.tidy).2 hd.named root f.sg.start hd.root
    (Or.inl rfl) hl.start
  have hterm := fun s e => packsOf_term hL.inv s e
  obtain ⟨t, h4, h5, h6⟩ := ntdt_shown hok hterm (fun L l m r hrch hu => mem_packsOf.mpr ((packs_iff hL hw _).mpr ⟨L, l, m, r, hrch, hu, rfl⟩))
    h3 none rfl (fun alt ha => .start alt (startAlts_lt hok ha))
  have hm : NodeKey.sym f.sg.start 0 inp.length ∈ f.st.nodes :=
    (nodes_iff hL hw _).mpr ((root_iff hok).mpr h3.forget)
  rw [if_pos hm] at hr
  exact ⟨hr, t, h4, h5, by rw [h2, h6]⟩

end

/-- When `Ambiguous` is false. -/
theorem only_one {g : Grammar} (hwf : NumValsWF g) (hnd : NamesDistinct g) (hdp : DistinctPrint g)
    (hnm : Spelt.Named (rulesReps (g.rules ++ Core.rules))) {sched : Sched NodeKey} (hf : sched.Fair) {inp : Bytes} {root : Str}
    (hroot : root ≠ []) {N M : Nat} {f : Forest} (h : parseForest sched inp g root N M = .ok f) (hv : f.valid = true)
    (ha : f.ambiguous = some false) :
    f.root = some (.sym f.sg.start 0 inp.length) ∧
    (∀ x, AtOrBelow f.packsOf (.sym f.sg.start 0 inp.length) x → ¬ StrictlyBelow f.packsOf x x) ∧
    (∀ x, AtOrBelow f.packsOf (.sym f.sg.start 0 inp.length) x → (f.packsOf x).length ≤ 1) ∧
    ∃ t : PTree NodeKey, (∀ t' : PTree NodeKey, t'.Of f.packsOf true ∧ t'.root = .sym f.sg.start 0 inp.length ↔ t' = t) ∧
      ∀ d, WholeTree g root inp d ↔ d = .node (f.sg.nt f.sg.start).ruleName 0 inp.length (inside f.sg t) := by
  have hder := (Props.C01_exact g hwf hnd hdp sched hf inp root N M f h).mp hv
  obtain ⟨r, hres, halt⟩ : ∃ r, Resolves g root r ∧ DerivesAlt g r.alt inp := by
    unfold DerivesRule at hder
    cases hder with
    | rule n r w h1 h2 => exact ⟨r, h1, h2⟩
    | term e cs ht => cases ht
  have hg := resolves_getRule hnd hres
  obtain ⟨ch, h1, h2⟩ := alt_tree (inp := inp) hnm halt (fun p hp => mem_allReps hg hp) 0 inp.length ⟨by simp, by simp⟩
  have hsame := sameName_of_resolves hres
  have hne := nonempty_of_sameName hsame hroot
  have hd : WholeTree g root inp (.node r.name 0 inp.length ch) :=
    ⟨.rule r _ _ _ (resolves_sameName hres hres) h1 fun c hc => (h2 c hc).1, .mk _ _ _ _ (fun h0 => absurd h0 hne) fun c hc => (h2 c hc).2,
      hsame, hne, rfl, rfl⟩
  obtain ⟨hr, t, h3, h4, h5⟩ := whole_shown hwf hnd hdp hnm hf h hd
  obtain ⟨⟨n, k1, _, k2⟩, ⟨b, k3, k4⟩, _⟩ := Props.C48_counts g sched hf inp root N M f h _ hr
  obtain ⟨n', b', c1, c2, _, c3, _⟩ := Props.C40_consistent g sched hf inp root N M f h
  rw [ha] at k3 c2
  cases k3; cases c2
  rw [k1] at c1
  cases c1
  have hn1 : n = 1 := (c3 hv).mp rfl
  have hlen : ∀ x, AtOrBelow f.packsOf (.sym f.sg.start 0 inp.length) x → (f.packsOf x).length ≤ 1 := by
    intro x hx
    by_contra h0
    exact absurd (k4.mpr ⟨x, hx, by omega⟩) (by simp)
  have hac : ∀ x, AtOrBelow f.packsOf (.sym f.sg.start 0 inp.length) x → ¬ StrictlyBelow f.packsOf x x := by
    intro x hx hy
    have := k2.mpr ⟨x, hx, hy⟩
    omega
  have huniq : ∀ t' : PTree NodeKey, t'.Of f.packsOf true → t'.root = .sym f.sg.start 0 inp.length → t' = t := by
    intro t' h6 h7
    exact unique_tree h3 (by rw [h4]; exact hlen) t' h6 (by rw [h4, h7])
  refine ⟨hr, hac, hlen, t, fun t' => ⟨fun h6 => huniq t' h6.1 h6.2, ?_⟩, fun d => ⟨fun hd' => ?_, ?_⟩⟩
  · rintro rfl; exact ⟨h3, h4⟩
  · obtain ⟨_, t', h6, h7, h8⟩ := whole_shown hwf hnd hdp hnm hf h hd'
    rw [h8, huniq t' h6 h7]
  · rintro rfl
    rw [← h5]; exact hd

namespace Props
open Spec

/-! ## C105 -/

/-- C105.  Every derivation tree of the whole input is in the forest: `NumTrees` is infinite or at least the number of
derivation trees, however many are named. -/
theorem C105_all (g : Grammar) (hwf : NumValsWF g) (hnd : NamesDistinct g) (hdp : DistinctPrint g)
    (hnm : Spelt.Named (rulesReps (g.rules ++ Core.rules))) (sched : Sched NodeKey) (hf : sched.Fair) (inp : Bytes) (root : Str)
    (N M : Nat) (f : Forest) (h : parseForest sched inp g root N M = .ok f)
    (ds : List ParseTree) (hds : ds.Nodup) (hall : ∀ d ∈ ds, WholeTree g root inp d) :
    ∃ n, f.numTrees = some n ∧ (n = -1 ∨ (ds.length : Int) ≤ n) := by
  cases ds with
  | nil =>
    obtain ⟨n, _, h1, _, _⟩ := C40_consistent g sched hf inp root N M f h
    refine ⟨n, h1, ?_⟩
    cases hr : f.root with
    | none => right; unfold Forest.numTrees at h1; rw [hr] at h1; simp at h1; simp [← h1]
    | some r =>
      obtain ⟨⟨n', h2, h3, _⟩, _⟩ := C48_counts g sched hf inp root N M f h r hr
      rw [h1] at h2
      cases h2
      rcases h3 with ⟨ts, _, rfl⟩ | ⟨rfl, _⟩
      · right; simp
      · left; rfl
  | cons d0 ds' =>
    have hr := (whole_shown hwf hnd hdp hnm hf h (hall d0 (by simp))).1
    obtain ⟨⟨n, h2, h3, _⟩, _⟩ := C48_counts g sched hf inp root N M f h _ hr
    refine ⟨n, h2, ?_⟩
    rcases h3 with ⟨ts, hts, rfl⟩ | ⟨rfl, _⟩
    · right
      have hsub : d0 :: ds' ⊆ ts.map fun t => .node (f.sg.nt f.sg.start).ruleName 0 inp.length (inside f.sg t) := by
        intro d hd
        obtain ⟨_, t, h4, h5, h6⟩ := whole_shown hwf hnd hdp hnm hf h (hall d hd)
        exact List.mem_map.mpr ⟨t, (hts.mem t).mpr ⟨h4, h5⟩, h6.symm⟩
      have := (hds.subperm hsub).length_le
      rw [List.length_map] at this
      exact_mod_cast this
    · left; rfl

/-- C105.  If the input is valid and `Ambiguous` is false, the input has exactly one derivation tree, and it is the one
that `Tree` returns. -/
theorem C105_unique (g : Grammar) (hwf : NumValsWF g) (hnd : NamesDistinct g) (hdp : DistinctPrint g)
    (hnm : Spelt.Named (rulesReps (g.rules ++ Core.rules))) (sched : Sched NodeKey) (hf : sched.Fair) (inp : Bytes) (root : Str) (hroot : root ≠ [])
    (N M : Nat) (f : Forest) (h : parseForest sched inp g root N M = .ok f) (hv : f.valid = true) (ha : f.ambiguous = some false) :
    ∃ d, f.tree = some d ∧ WholeTree g root inp d ∧ ∀ d', WholeTree g root inp d' → d' = d := by
  obtain ⟨hc, _, hok, hL, hw, _, _, _⟩ := parseForest_ok hf h
  obtain ⟨hr, hac, hlen, t, ht, hd⟩ := only_one hwf hnd hdp hnm hf hroot h hv ha
  obtain ⟨h3, h4⟩ := (ht t).mpr rfl
  obtain ⟨ch', e1, _⟩ := tree_ok hok hL.inv hr (by
    have := (parseForest_ok hf h).2.2.2.2.2.2.2
    rw [hr] at this
    split_ifs at this with hm
    exact hm) (start_isRule hc).1
  have e2 : ch' = inside f.sg t := by
    unfold Forest.tree at e1
    rw [hr] at e1
    obtain ⟨us, e3, e4⟩ := Option.map_eq_some_iff.mp e1
    have e5 := collect_inside (fun s e => packsOf_term hL.inv s e) h3 (by rw [h4]; exact hlen) (by rw [h4]; exact hac)
      [.sym f.sg.start 0 inp.length] (by
        intro x hx hm
        rw [List.mem_singleton.mp hm] at hx
        rw [h4] at hx
        exact hac _ .refl hx) f.fuel us (by rw [h4]; exact e3)
    simp only [ParseTree.node.injEq] at e4
    rw [← e4.2.2.2, e5]
  subst e2
  exact ⟨_, e1, (hd _).mpr rfl, fun d' h' => (hd d').mp h'⟩

end Props
end Verif
