import Verif.AllTrees

/-!
# C117: how many trees `NumTrees` counts

`NumTrees` (/repo/sppf.go:729-796) counts ways to choose packings; here these are compared with the derivation trees of
the grammar, of which C105 says there are at most as many.
-/

namespace Verif
open Spec

section
variable {inp : Bytes}

/-! ## Every tree of the packed forest reads as a derivation tree -/

/-- The trees of the symbols before the dot. -/
theorem pack_seq {sg : SG} (hok : SGOK sg) {L : Slot} {l m r : Nat} (h : Reach sg inp (.adv L l m r))
    {tss : List (List ParseTree)} (ht : List.Forall₂ (KShape sg inp) (kids sg L l m r) tss) :
    SeqT sg inp L.nt ((sg.prod L).take L.dot) tss.flatten l r := by
  obtain ⟨h1, h2, rc, s, u, _, _, h3, h4, h5⟩ := reach_sound h
  have hle := reach_inRange hok h
  have hprev : L.prev.dot = L.dot - 1 := rfl
  have hpp : sg.prod L.prev = sg.prod L := rfl
  have hsnoc : ∀ {a b : List ParseTree}, SeqT sg inp L.nt ((sg.prod L).take (L.dot - 1)) a l m → SymT sg inp L.nt s b m r →
      SeqT sg inp L.nt ((sg.prod L).take L.dot) (a ++ b) l r := by
    intro a b ha hb
    have hs := ha.snoc hb
    rwa [← take_succ_of_get? h3, Nat.sub_add_cancel h1] at hs
  unfold kids at ht
  unfold wFor at ht
  split_ifs at ht with c
  · rw [hprev] at c
    simp only [Option.toList_none, List.nil_append, List.forall₂_cons_left_iff, List.forall₂_nil_left_iff] at ht
    obtain ⟨b, _, hb, rfl, rfl⟩ := ht
    rw [lastSym_of h3] at hb
    have := hsnoc (a := []) (b := b) ?_ (symT_of_kshape hle.2.1 h5 hb)
    · simpa using this
    · rw [c] at h4 ⊢
      simp only [List.take_zero] at h4 ⊢
      cases h4
      exact .nil _ _
  · rw [hprev] at c
    simp only [Option.toList_some, List.singleton_append, List.forall₂_cons_left_iff, List.forall₂_nil_left_iff] at ht
    obtain ⟨a, _, ha, ⟨b, _, hb, rfl, rfl⟩, rfl⟩ := ht
    rw [lastSym_of h3] at hb
    simp only [List.flatten_cons, List.flatten_nil, List.append_nil]
    refine hsnoc ?_ (symT_of_kshape hle.2.1 h5 hb)
    unfold nodeFor at ha
    rw [hpp, hprev, if_neg (by omega)] at ha
    split_ifs at ha with c2
    · obtain ⟨x, hx⟩ : ∃ x, (sg.prod L)[0]? = some x := ⟨_, List.getElem?_eq_getElem (by omega)⟩
      have htake : (sg.prod L).take (L.dot - 1) = [x] := by
        rw [c2]
        have := take_succ_of_get? hx
        simpa using this
      rw [htake] at h4 ⊢
      have hl : sg.lastSym L.prev = x := lastSym_of (by rw [hpp, hprev, c2]; exact hx)
      rw [hl] at ha
      have := SeqT.cons L.nt x [] a [] l m m (symT_of_kshape hle.1 (seqD_one h4) ha) (.nil _ m)
      simpa using this
    · exact ha

/-- The trees inside a node are what it stands for. -/
structure InsideOK (sg : SG) (inp : Bytes) (k : NodeKey) (ts : List ParseTree) : Prop where
  chain : Chain ts k.start k.fin
  ok : ∀ t ∈ ts, TreeOK sg inp t
  shape : CShape sg inp k ts

theorem wrap_ok {sg : SG} {k : NodeKey} (hk : NodeOK sg inp k) {ts : List ParseTree} (h : InsideOK sg inp k ts) :
    Chain (wrap sg k ts) k.start k.fin ∧ (∀ t ∈ wrap sg k ts, TreeOK sg inp t) ∧ KShape sg inp k (wrap sg k ts) := by
  obtain ⟨h1, h2, h3⟩ := h
  cases k with
  | term s e => exact ⟨h1, h2, h3⟩
  | inter L s e => exact ⟨h1, h2, h3⟩
  | sym n s e =>
    simp only [wrap]
    split_ifs with hr
    · refine ⟨⟨rfl, rfl⟩, ?_, .rule n s e ts hr⟩
      intro t ht
      rw [List.mem_singleton.mp ht]
      exact .rule n s e ts hr hk h1 h2 h3
    · exact ⟨h1, h2, .sub n ts s e (by simpa using hr) h3⟩

theorem insideAll_ok {sg : SG} {ch : List (PTree NodeKey)} (hk : ∀ c ∈ ch, NodeOK sg inp c.root)
    (h : ∀ c ∈ ch, InsideOK sg inp c.root (inside sg c)) {i j : Nat} (hc : ChainKeys (ch.map PTree.root) i j) :
    Chain (insideAll sg ch) i j ∧ (∀ t ∈ insideAll sg ch, TreeOK sg inp t) ∧
      ∃ tss, List.Forall₂ (KShape sg inp) (ch.map PTree.root) tss ∧ insideAll sg ch = tss.flatten := by
  induction ch generalizing i with
  | nil => exact ⟨hc, by simp [insideAll], [], .nil, rfl⟩
  | cons c ch ih =>
    obtain ⟨h1, h2, h3⟩ := wrap_ok (hk c (List.mem_cons_self ..)) (h c (List.mem_cons_self ..))
    obtain ⟨hs, hc⟩ := hc
    obtain ⟨h4, h5, tss, h6, h7⟩ := ih (fun c hc => hk c (List.mem_cons_of_mem _ hc)) (fun c hc => h c (List.mem_cons_of_mem _ hc)) hc
    rw [hs] at h1
    unfold insideAll
    refine ⟨h1.append h4, ?_, _ :: tss, .cons h3 h6, by rw [h7]; rfl⟩
    intro t ht
    rcases List.mem_append.mp ht with ht | ht
    · exact h2 t ht
    · exact h5 t ht

/-- Every tree of the packed forest. -/
theorem inside_ok {f : Forest} (hok : SGOK f.sg) (hi : Inv f.sg inp f.st) {t : PTree NodeKey} (ht : t.Of f.packsOf true) :
    t.root ∈ f.st.nodes → InsideOK f.sg inp t.root (inside f.sg t) := by
  induction ht with
  | leaf k hk _ =>
    intro hn
    cases k with
    | term s e =>
      have hno := hi.nodes _ hn
      have hle : s ≤ e := by
        obtain ⟨L, u, rc, sy, hr, hs', hm⟩ := hno
        exact (matchSym_bounds (reach_inRange hok hr).2.1 hm).1
      obtain ⟨_, h1, h2, h3, h4⟩ := termLeaf_emits hle hno
      cases h1
      exact ⟨h2, h3, h4⟩
    | sym n s e =>
      obtain ⟨ch, hch⟩ := hi.packed _ hn nofun
      have := mem_packsOf.mpr hch
      simp only [PTree.root] at this
      rw [hk] at this
      cases this
    | inter L s e =>
      obtain ⟨ch, hch⟩ := hi.packed _ hn nofun
      have := mem_packsOf.mpr hch
      simp only [PTree.root] at this
      rw [hk] at this
      cases this
  | node k i ch hg _ ih =>
    intro hn
    have hm : (k, ch.map PTree.root) ∈ f.st.packs := mem_packsOf.mp (List.mem_of_getElem? hg)
    obtain ⟨_, hcn, L, l, m, r, h1, h2, h3, h4⟩ := hi.packs _ _ hm
    have hcn' : ∀ c ∈ ch, c.root ∈ f.st.nodes := fun c hc => hcn _ (List.mem_map_of_mem hc)
    obtain ⟨h5, h6, tss, h7, h8⟩ := insideAll_ok (fun c hc => hi.nodes _ (hcn' c hc)) (fun c hc => ih c hc (hcn' c hc))
      (pack_chain hi hm)
    have hin : inside f.sg (.node k i ch) = insideAll f.sg ch := by
      cases k with
      | term s e =>
        have := packsOf_term hi s e
        rw [this] at hg
        simp at hg
      | sym | inter => simp [inside]
    rw [hin]
    refine ⟨h5, h6, ?_⟩
    rw [h8]
    show CShape f.sg inp k _
    rw [h3]
    rw [h4] at h7
    exact pack_shape hok h1 h2 h7

/-! ## Flat slot grammars -/

/-- From the start only nonterminals of rules and terminals that never match the empty text are met, and no trees belong to two
productions of a rule. -/
structure FlatSG (sg : SG) (P : Nat → Prop) : Prop where
  start : P sg.start
  sym : ∀ n, P n → ∀ p ∈ sg.alts n, ∀ s ∈ p, (∃ m, s = .nt m ∧ (sg.nt m).isRule = true ∧ P m) ∨
    ∃ e, s = .term e ∧ ∀ inp i j, matchSym inp s i = some j → i < j
  apart : ∀ n, P n → ∀ (a b : Nat) (p q : List Sym), (sg.alts n)[a]? = some p → (sg.alts n)[b]? = some q → a ≠ b → ∀ inp ts i j,
    SeqT sg inp n p ts i j → ¬ SeqT sg inp n q ts i j

theorem prod_get {sg : SG} {L : Slot} {s : Sym} {d : Nat} (h : (sg.prod L)[d]? = some s) :
    (sg.alts L.nt)[L.alt]? = some (sg.prod L) := by
  unfold SG.prod at h ⊢
  rw [List.getD_eq_getElem?_getD] at h ⊢
  cases ha : (sg.alts L.nt)[L.alt]? with
  | none => rw [ha] at h; simp at h
  | some p => rfl

/-- What the facts are about. -/
def Alive (P : Nat → Prop) : Item → Prop
  | .at L _ _ _ => P L.nt
  | .edge v _ => P v.ret.nt
  | .popped _ _ => True
  | .adv L _ _ _ => P L.nt

theorem FlatSG.alive {sg : SG} {P : Nat → Prop} (hP : FlatSG sg P) {it : Item} (h : Reach sg inp it) : Alive P it := by
  induction h with
  | start alt ha => exact hP.start
  | pop => trivial
  | callEdge L u i rc s _ hs ih => exact ih
  | callAt L u i rc s alt _ hs ha ih =>
    rcases hP.sym _ ih _ (List.mem_of_getElem? (prod_get hs)) _ (List.mem_of_getElem? hs) with ⟨m, h1, _, h2⟩ | ⟨e, h1, _⟩
    · cases h1; exact h2
    · cases h1
  | retAt v u j _ _ ih _ => exact ih
  | retRec v u j _ _ ih _ => exact ih
  | termAt L u i rc s j _ hs hm ih => exact ih
  | termRec L u i rc s j _ hs hm ih => exact ih

theorem insideAll_append {sg : SG} (a b : List (PTree NodeKey)) : insideAll sg (a ++ b) = insideAll sg a ++ insideAll sg b := by
  induction a with
  | nil => rfl
  | cons t a ih => rw [List.cons_append, insideAll, insideAll, ih, List.append_assoc]

theorem insideAll_one {sg : SG} (c : PTree NodeKey) : insideAll sg [c] = wrap sg c.root (inside sg c) := by
  simp [insideAll]

theorem wrap_inj {sg : SG} {k : NodeKey} {a b : List ParseTree} (h : wrap sg k a = wrap sg k b) : a = b := by
  unfold wrap at h
  cases k with
  | sym n s e =>
    simp only at h
    split_ifs at h
    · simpa using h
    · exact h
  | inter | term => exact h

/-- The last child of a packing of a flat grammar shows where it starts. -/
theorem last_one {sg : SG} {P : Nat → Prop} (hP : FlatSG sg P) {L : Slot} {l m r : Nat} (h : Reach sg inp (.adv L l m r))
    {c : PTree NodeKey} (hc : c.root = childNode (sg.lastSym L) m r) : ∃ x : ParseTree, wrap sg c.root (inside sg c) = [x] ∧ x.start = m := by
  obtain ⟨h1, h2, rc, s, u, _, _, h3, h4, h5⟩ := reach_sound h
  rw [lastSym_of h3] at hc
  rw [hc]
  rcases hP.sym _ (hP.alive h) _ (List.mem_of_getElem? (prod_get h3)) _ (List.mem_of_getElem? h3) with ⟨n, rfl, hr, _⟩ | ⟨e, rfl, hne⟩
  · simp only [childNode, wrap, hr, if_true]
    exact ⟨_, rfl, rfl⟩
  · have := hne _ _ _ (symD_match h5 nofun)
    obtain ⟨k, i, ch⟩ := c
    simp only [PTree.root] at hc
    subst hc
    simp only [childNode, wrap, inside, termLeaf, if_pos this]
    exact ⟨_, rfl, rfl⟩

/-- Trees of the packed forest of a flat grammar that read the same are the same. -/
theorem inside_inj {f : Forest} (hok : SGOK f.sg) (hi : Inv f.sg inp f.st) {P : Nat → Prop} (hP : FlatSG f.sg P)
    {t : PTree NodeKey} (ht : t.Of f.packsOf true) :
    ∀ t' : PTree NodeKey, t'.Of f.packsOf true → t'.root = t.root → inside f.sg t = inside f.sg t' → t = t' := by
  induction ht with
  | leaf k hk _ =>
    intro t' ht' hr _
    cases ht' with
    | leaf k' _ _ => simp only [PTree.root] at hr; rw [hr]
    | node k' i' ch' hg' _ =>
      simp only [PTree.root] at hr
      rw [hr, hk] at hg'
      simp at hg'
  | node k i ch hg hof ih =>
    intro t' ht' hr hin
    cases ht' with
    | leaf k' hk' _ =>
      simp only [PTree.root] at hr
      rw [← hr, hk'] at hg
      simp at hg
    | node k' i' ch' hg' hof' =>
      simp only [PTree.root] at hr
      subst hr
      have hm : (k', ch.map PTree.root) ∈ f.st.packs := mem_packsOf.mp (List.mem_of_getElem? hg)
      have hm' : (k', ch'.map PTree.root) ∈ f.st.packs := mem_packsOf.mp (List.mem_of_getElem? hg')
      have hins : ∀ (j : Nat) (c : List (PTree NodeKey)), inside f.sg (.node k' j c) = insideAll f.sg c := by
        intro j c
        cases k' with
        | term s e =>
          rw [packsOf_term hi s e] at hg
          simp at hg
        | sym | inter => simp [inside]
      rw [hins, hins] at hin
      obtain ⟨hn, hcn, L, l, m, r, h1, h2, h3, h4⟩ := hi.packs _ _ hm
      obtain ⟨_, hcn', L', l', m', r', h1', h2', h3', h4'⟩ := hi.packs _ _ hm'
      -- the trees of the production
      have hseq : SeqT f.sg inp L.nt ((f.sg.prod L).take L.dot) (insideAll f.sg ch) l r := by
        have hcn2 : ∀ c ∈ ch, c.root ∈ f.st.nodes := fun c hc => hcn _ (List.mem_map_of_mem hc)
        obtain ⟨_, _, tss, h7, h8⟩ := insideAll_ok (fun c hc => hi.nodes _ (hcn2 c hc))
          (fun c hc => inside_ok hok hi (hof c hc) (hcn2 c hc)) (pack_chain hi hm)
        rw [h4] at h7
        rw [h8]
        exact pack_seq hok h1 h7
      have hseq' : SeqT f.sg inp L'.nt ((f.sg.prod L').take L'.dot) (insideAll f.sg ch') l' r' := by
        have hcn2 : ∀ c ∈ ch', c.root ∈ f.st.nodes := fun c hc => hcn' _ (List.mem_map_of_mem hc)
        obtain ⟨_, _, tss, h7, h8⟩ := insideAll_ok (fun c hc => hi.nodes _ (hcn2 c hc))
          (fun c hc => inside_ok hok hi (hof' c hc) (hcn2 c hc)) (pack_chain hi hm')
        rw [h4'] at h7
        rw [h8]
        exact pack_seq hok h1' h7
      have hsame : L' = L ∧ l' = l ∧ r' = r := by
        rw [h3] at h3'
        obtain ⟨_, _, _, _, _, _, _, g3, _, _⟩ := reach_sound h1
        obtain ⟨_, _, _, _, _, _, _, g3', _, _⟩ := reach_sound h1'
        unfold nodeFor at h3'
        by_cases c1 : L.dot = (f.sg.prod L).length
        · rw [if_pos c1] at h3'
          by_cases c2 : L'.dot = (f.sg.prod L').length
          · rw [if_pos c2] at h3'
            simp only [NodeKey.sym.injEq] at h3'
            obtain ⟨e1, rfl, rfl⟩ := h3'
            have halt : L.alt = L'.alt := by
              by_contra hne
              rw [c1, List.take_length] at hseq
              rw [c2, List.take_length, ← e1, ← hin] at hseq'
              exact hP.apart _ (hP.alive h1) _ _ _ _ (prod_get g3) (by rw [e1]; exact prod_get g3') hne _ _ _ _ hseq hseq'
            have : f.sg.prod L = f.sg.prod L' := by unfold SG.prod; rw [e1, halt]
            refine ⟨?_, rfl, rfl⟩
            cases L; cases L'
            simp only [Slot.mk.injEq] at *
            exact ⟨e1.symm, halt.symm, by rw [c2, c1, this]⟩
          · rw [if_neg c2, if_neg fun c3 => h2' ⟨c3, c2⟩] at h3'
            cases h3'
        · rw [if_neg c1, if_neg fun c3 => h2 ⟨c3, c1⟩] at h3'
          by_cases c2 : L'.dot = (f.sg.prod L').length
          · rw [if_pos c2] at h3'
            cases h3'
          · rw [if_neg c2, if_neg fun c3 => h2' ⟨c3, c2⟩] at h3'
            simp only [NodeKey.inter.injEq] at h3'
            exact ⟨h3'.1.symm, h3'.2.1.symm, h3'.2.2.symm⟩
      obtain ⟨rfl, rfl, rfl⟩ := hsame
      unfold kids at h4 h4'
      obtain ⟨pre, cs, rfl, e1, e2⟩ := List.map_eq_append_iff.mp h4
      obtain ⟨pre', cs', rfl, e1', e2'⟩ := List.map_eq_append_iff.mp h4'
      obtain ⟨c, rest, rfl, e3, e4⟩ := List.map_eq_cons_iff.mp e2
      obtain ⟨c', rest', rfl, e3', e4'⟩ := List.map_eq_cons_iff.mp e2'
      rw [List.map_eq_nil_iff] at e4 e4'
      subst e4 e4'
      obtain ⟨x, hx, hxs⟩ := last_one hP h1 e3
      obtain ⟨x', hx', hxs'⟩ := last_one hP h1' e3'
      have hin' := hin
      rw [insideAll_append, insideAll_append, insideAll_one, insideAll_one, hx, hx'] at hin'
      obtain ⟨hpre, hxx⟩ := List.append_inj' hin' rfl
      simp only [List.cons.injEq, and_true] at hxx
      subst hxx
      rw [hxs] at hxs'
      subst hxs'
      have hroot : c'.root = c.root := by rw [e3, e3']
      have hcc : c = c' := by
        refine ih c (by simp) c' (hof' c' (by simp)) hroot ?_
        refine wrap_inj (sg := f.sg) (k := c.root) ?_
        rw [hx, ← hroot, hx']
      have hpp : pre = pre' := by
        cases hw : wFor f.sg L'.prev l' m with
        | none =>
          rw [hw] at e1 e1'
          simp only [Option.toList_none, List.map_eq_nil_iff] at e1 e1'
          rw [e1, e1']
        | some w =>
          rw [hw] at e1 e1'
          simp only [Option.toList_some] at e1 e1'
          obtain ⟨a, as, rfl, b1, b2⟩ := List.map_eq_cons_iff.mp e1
          obtain ⟨a', as', rfl, b1', b2'⟩ := List.map_eq_cons_iff.mp e1'
          rw [List.map_eq_nil_iff] at b2 b2'
          subst b2 b2'
          have hra : a'.root = a.root := by rw [b1, b1']
          rw [insideAll_one, insideAll_one, hra] at hpre
          rw [ih a (by simp) a' (hof' a' (by simp)) hra (wrap_inj hpre)]
      subst hcc hpp
      have hii : i = i' := by
        have := hg.trans hg'.symm
        obtain ⟨q1, q2⟩ := List.getElem?_eq_some_iff.mp hg
        obtain ⟨q1', q2'⟩ := List.getElem?_eq_some_iff.mp hg'
        exact (packsOf_nodup hi.packsNodup _).getElem_inj_iff.mp (q2.trans q2'.symm)
      rw [hii]

end

/-! ## Flat grammars -/

namespace Spec

/-- The rules that derivations from `root` can use. -/
inductive Uses (g : Grammar) (root : Str) : Rule → Prop
  | root (r) : Resolves g root r → Uses g root r
  | step (r q c p n) : Uses g root r → c ∈ r.alt → p ∈ c → p.elem = .rulename n → Resolves g n q → Uses g root q

/-- No text and no tree belongs to both elements. -/
def ElemsApart (e e' : Elem) : Prop :=
  (∀ n m, e = .rulename n → e' = .rulename m → ¬ SameName n m) ∧ ∀ cs, Terminal e cs → ¬ Terminal e' cs

/-- The concatenations differ in length or somewhere in their elements. -/
def ConcatsApart (c d : Concat) : Prop :=
  c.length ≠ d.length ∨ ∃ (k : Nat) (p q : Rep), c[k]? = some p ∧ d[k]? = some q ∧ ElemsApart p.elem q.elem

/-- Nothing but names of rules and terminals, each of them once, no terminal for the empty text, and every two alternatives apart. -/
structure FlatRule (g : Grammar) (r : Rule) : Prop where
  filled : ∀ c ∈ r.alt, c ≠ []
  once : ∀ c ∈ r.alt, ∀ p ∈ c, p.min = 1 ∧ p.max = some 1
  elems : ∀ c ∈ r.alt, ∀ p ∈ c, match p.elem with
    | .rulename n => ∃ q, Resolves g n q
    | .group _ => False
    | .option _ => False
    | e => ¬ Terminal e []
  apart : r.alt.Pairwise ConcatsApart

/-- All that derivations from `root` can use is flat. -/
def FlatFrom (g : Grammar) (root : Str) : Prop := ∀ r, Uses g root r → FlatRule g r

theorem ElemsApart.symm {e e' : Elem} (h : ElemsApart e e') : ElemsApart e' e :=
  ⟨fun n m h1 h2 h3 => h.1 m n h2 h1 (by rw [sameName_iff] at h3 ⊢; exact h3.symm), fun cs h1 h2 => h.2 cs h2 h1⟩

theorem ConcatsApart.symm {c d : Concat} (h : ConcatsApart c d) : ConcatsApart d c := by
  rcases h with h | ⟨k, p, q, h1, h2, h3⟩
  · exact .inl h.symm
  · exact .inr ⟨k, q, p, h2, h1, h3.symm⟩

end Spec

section
variable {g : Grammar} {root : Str} {sg : SG} {ix : List (Str × Nat)} {inp : Bytes}

theorem forall₂_with_mem {α β : Type} {R : α → β → Prop} {a : List α} {b : List β} (h : List.Forall₂ R a b) :
    List.Forall₂ (fun x y => x ∈ a ∧ R x y) a b := by
  rw [List.forall₂_iff_get] at h ⊢
  exact ⟨h.1, fun i h1 h2 => ⟨List.get_mem .., h.2 i h1 h2⟩⟩

/-- A symbol of a flat rule has one tree, over its span. -/
theorem symT_one {n : Nat} {s : Sym} {ts : List ParseTree} {i j : Nat} (h : SymT sg inp n s ts i j)
    (hs : (∃ m, s = .nt m ∧ (sg.nt m).isRule = true) ∨ ∃ e, s = .term e ∧ ∀ inp i j, matchSym inp s i = some j → i < j) :
    ∃ x : ParseTree, ts = [x] ∧ x.start = i ∧ x.fin = j := by
  cases h with
  | eps => rcases hs with ⟨m, h, _⟩ | ⟨e, h, _⟩ <;> cases h
  | leaf e => exact ⟨_, rfl, rfl, rfl⟩
  | none _ e i hm =>
    rcases hs with ⟨m, h, _⟩ | ⟨e, _, h⟩
    · cases h
    · exact absurd (h _ _ _ hm) (by omega)
  | nt _ rc m _ _ _ hd hk =>
    rcases hs with ⟨m', h, hr⟩ | ⟨e, h, _⟩
    · cases h
      cases hk with
      | rule => exact ⟨_, rfl, rfl, rfl⟩
      | sub _ _ _ _ h0 => rw [hr] at h0; cases h0
    · cases h

theorem seqT_each {n : Nat} {p : List Sym} {ts : List ParseTree} {i j : Nat} (h : SeqT sg inp n p ts i j)
    (hs : ∀ s ∈ p, (∃ m, s = .nt m ∧ (sg.nt m).isRule = true) ∨ ∃ e, s = .term e ∧ ∀ inp i j, matchSym inp s i = some j → i < j) :
    List.Forall₂ (fun s x => SymT sg inp n s [x] x.start x.fin) p ts := by
  induction p generalizing ts i with
  | nil => cases h; exact .nil
  | cons s p ih =>
    cases h with
    | cons _ _ _ t1 t2 _ m _ h1 h2 =>
      obtain ⟨x, rfl, rfl, rfl⟩ := symT_one h1 (hs s (List.mem_cons_self ..))
      exact .cons h1 (ih h2 fun s h => hs s (List.mem_cons_of_mem _ h))

/-- The nonterminals of the rules that can be used. -/
def UsedNT (g : Grammar) (root : Str) (ix : List (Str × Nat)) (n : Nat) : Prop :=
  ∃ name r, Occ g root (.rule name) ∧ ix.lookup (ruleKey name) = some n ∧ getRule name g.rules = some r ∧ Uses g root r

/-- What a symbol of a flat rule is. -/
def SymFlat (g : Grammar) (root : Str) (sg : SG) (ix : List (Str × Nat)) (e : Elem) (s : Sym) : Prop :=
  (∃ n q m, e = .rulename n ∧ n ≠ [] ∧ Resolves g n q ∧ s = .nt m ∧ (sg.nt m).isRule = true ∧ (sg.nt m).ruleName = q.name ∧ UsedNT g root ix m) ∨
  (TermWF e ∧ (∀ n, e ≠ .rulename n) ∧ s = .term e ∧ ¬ Terminal e [])

theorem symFlat_nonempty {e : Elem} (hwf : TermWF e) (h0 : ¬ Terminal e []) {i j : Nat} (h : matchSym inp (.term e) i = some j) : i < j := by
  obtain ⟨cs, h1, h2⟩ := (matchElem_iff inp e hwf i j).mp h
  rw [encodeAll_eq_utf8] at h2
  have hne : utf8 cs ≠ [] := fun h => h0 (utf8_eq_nil h ▸ h1)
  have := List.length_pos_iff.mpr hne
  rw [h2.2]
  omega

theorem flat_prods (hl : Lowered g root sg ix) (hdp : DistinctPrint g) (hwf : NumValsWF g) (hnd : NamesDistinct g)
    (hnm : ∀ r ∈ allReps g, r.elem ≠ .rulename []) (hfl : FlatFrom g root) {n : Nat} (h : UsedNT g root ix n) :
    ∃ r, FlatRule g r ∧ List.Forall₂ (List.Forall₂ fun (p : Rep) s => SymFlat g root sg ix p.elem s) r.alt (sg.alts n) := by
  obtain ⟨name, r, ho, hk, hg, hu⟩ := h
  have hr := hfl r hu
  refine ⟨r, hr, ?_⟩
  obtain ⟨_, hc⟩ := hl.content hdp ho hk
  rw [hg] at hc
  obtain ⟨_, _, hc⟩ := hc
  refine List.Forall₂.imp ?_ (forall₂_with_mem hc)
  rintro c p ⟨hcm, raw, h1, rfl⟩
  have hne : raw ≠ [] := by
    rintro rfl
    cases h1
    exact hr.filled _ hcm rfl
  rw [if_neg hne]
  refine List.Forall₂.imp ?_ (forall₂_with_mem h1)
  rintro p s ⟨hpm, hs⟩
  unfold SymRep at hs
  rw [if_pos (hr.once c hcm p hpm)] at hs
  have hall : p ∈ allReps g := mem_allReps hg (mem_altReps hcm hpm)
  have he := hr.elems c hcm p hpm
  have hn0 := hnm p hall
  have hw := allReps_wf hwf hall
  have hstep := fun n q (hn : p.elem = .rulename n) hq => Uses.step r q c p n hu hcm hpm hn hq
  have hocc : ∀ n, p.elem = .rulename n → Occ g root (.rule n) := fun n hn => .inr ⟨p, hall, hn⟩
  cases hpe : p.elem with
  | rulename n =>
    rw [hpe] at hs he hn0
    obtain ⟨id, rfl, hid⟩ := hs
    obtain ⟨q, hq⟩ := he
    have hgq := resolves_getRule hnd hq
    obtain ⟨_, hcq⟩ := hl.content hdp (hocc n hpe) hid
    rw [hgq] at hcq
    exact .inl ⟨n, q, id, rfl, fun h => hn0 (by rw [h]), hq, rfl, hcq.1, hcq.2.1, n, q, hocc n hpe, hid, hgq, hstep n q hpe hq⟩
  | group a => rw [hpe] at he; exact he.elim
  | option a => rw [hpe] at he; exact he.elim
  | charVal | numVal | proseVal => rw [hpe] at hs he hw; exact .inr ⟨hw, nofun, hs, he⟩

theorem flatSG (hl : Lowered g root sg ix) (hdp : DistinctPrint g) (hwf : NumValsWF g) (hnd : NamesDistinct g)
    (hnm : ∀ r ∈ allReps g, r.elem ≠ .rulename []) (hfl : FlatFrom g root) (hs : (getRule root g.rules).isSome) :
    FlatSG sg (UsedNT g root ix) := by
  have hsyms : ∀ n, UsedNT g root ix n → ∀ p ∈ sg.alts n, ∀ s ∈ p, ∃ e, SymFlat g root sg ix e s := by
    intro n hn p hp s hs
    obtain ⟨r, _, h1⟩ := flat_prods hl hdp hwf hnd hnm hfl hn
    obtain ⟨a, ha⟩ := List.getElem?_of_mem hp
    obtain ⟨k, hk⟩ := List.getElem?_of_mem hs
    obtain ⟨h2, h3⟩ := List.forall₂_iff_get.mp h1
    obtain ⟨hlt, he⟩ := List.getElem?_eq_some_iff.mp ha
    have h4 := h3 a (by omega) hlt
    simp only [List.get_eq_getElem] at h4
    rw [he] at h4
    obtain ⟨h5, h6⟩ := List.forall₂_iff_get.mp h4
    obtain ⟨hlt', he'⟩ := List.getElem?_eq_some_iff.mp hk
    have h7 := h6 k (by omega) hlt'
    simp only [List.get_eq_getElem] at h7
    rw [he'] at h7
    exact ⟨_, h7⟩
  have hsym : ∀ n, UsedNT g root ix n → ∀ p ∈ sg.alts n, ∀ s ∈ p, (∃ m, s = .nt m ∧ (sg.nt m).isRule = true ∧ UsedNT g root ix m) ∨
      ∃ e, s = .term e ∧ ∀ inp i j, matchSym inp s i = some j → i < j := by
    intro n hn p hp s hs
    obtain ⟨e, ⟨_, _, m, _, _, _, h1, h2, _, h3⟩ | ⟨h1, _, rfl, h2⟩⟩ := hsyms n hn p hp s hs
    · exact .inl ⟨m, h1, h2, h3⟩
    · exact .inr ⟨e, rfl, fun inp i j hm => symFlat_nonempty h1 h2 hm⟩
  refine ⟨?_, hsym, ?_⟩
  · obtain ⟨r, hr⟩ := Option.isSome_iff_exists.mp hs
    exact ⟨root, r, .inl rfl, hl.start, hr, .root r (getRule_resolves hr)⟩
  · intro n hn a b p q ha hb hab inp ts i j hp hq
    have hflat : ∀ p ∈ sg.alts n, ∀ s ∈ p, (∃ m, s = .nt m ∧ (sg.nt m).isRule = true) ∨
        ∃ e, s = .term e ∧ ∀ inp i j, matchSym inp s i = some j → i < j := fun p hp s hs => by
      rcases hsym n hn p hp s hs with ⟨m, h1, h2, _⟩ | h
      · exact .inl ⟨m, h1, h2⟩
      · exact .inr h
    have e1 := seqT_each hp (hflat p (List.mem_of_getElem? ha))
    have e2 := seqT_each hq (hflat q (List.mem_of_getElem? hb))
    obtain ⟨r, hr, h1⟩ := flat_prods hl hdp hwf hnd hnm hfl hn
    obtain ⟨h2, h3⟩ := List.forall₂_iff_get.mp h1
    obtain ⟨hla, rfl⟩ := List.getElem?_eq_some_iff.mp ha
    obtain ⟨hlb, rfl⟩ := List.getElem?_eq_some_iff.mp hb
    have fa := h3 a (by omega) hla
    have fb := h3 b (by omega) hlb
    simp only [List.get_eq_getElem] at fa fb
    have hap : ConcatsApart (r.alt[a]'(by omega)) (r.alt[b]'(by omega)) := by
      have hpw := List.pairwise_iff_getElem.mp hr.apart
      rcases Nat.lt_or_gt_of_ne hab with hlt | hlt
      · exact hpw a b _ _ hlt
      · exact (hpw b a _ _ hlt).symm
    rcases hap with hlen | ⟨k, p, q, hk, hk', hel⟩
    · have := fa.length_eq; have := fb.length_eq; have := e1.length_eq; have := e2.length_eq
      omega
    · obtain ⟨kl, rfl⟩ := List.getElem?_eq_some_iff.mp hk
      obtain ⟨kl', rfl⟩ := List.getElem?_eq_some_iff.mp hk'
      have l1 := fa.length_eq; have l2 := fb.length_eq; have l3 := e1.length_eq; have l4 := e2.length_eq
      have s1 := (List.forall₂_iff_get.mp fa).2 k kl (by omega)
      have s2 := (List.forall₂_iff_get.mp fb).2 k kl' (by omega)
      have t1 := (List.forall₂_iff_get.mp e1).2 k (by omega) (by omega)
      have t2 := (List.forall₂_iff_get.mp e2).2 k (by omega) (by omega)
      simp only [List.get_eq_getElem] at s1 s2 t1 t2
      generalize ts[k]'(by omega) = x at t1 t2
      have hx : ∀ m, (sg.nt m).isRule = true → ∀ i j, SymT sg inp n (.nt m) [x] i j → x.rule = (sg.nt m).ruleName := by
        intro m hm i j h
        generalize hyy : [x] = y at h
        cases h with
        | nt _ rc m _ _ _ hd hk =>
          cases hk with
          | rule => cases hyy; rfl
          | sub _ _ _ _ h0 => rw [hm] at h0; cases h0
      have hy : ∀ e i j, SymT sg inp n (.term e) [x] i j → x.rule = [] ∧ matchSym inp (.term e) i = some j := by
        intro e i j h
        generalize hyy : [x] = y at h
        cases h with
        | leaf _ e i j hm => cases hyy; exact ⟨rfl, hm⟩
        | none => cases hyy
      rcases s1 with ⟨n1, q1, m1, a1, a2, a3, a4, a5, a6, _⟩ | ⟨a1, _, a2, a3⟩ <;>
        rcases s2 with ⟨n2, q2, m2, b1, b2, b3, b4, b5, b6, _⟩ | ⟨b1, _, b2, b3⟩
      · rw [a4] at t1
        rw [b4] at t2
        have w1 := hx _ a5 _ _ t1
        have w2 := hx _ b5 _ _ t2
        rw [a6] at w1
        rw [b6] at w2
        refine hel.1 n1 n2 a1 b1 ?_
        have z1 := (sameName_iff _ _).mp (sameName_of_resolves a3)
        have z2 := (sameName_iff _ _).mp (sameName_of_resolves b3)
        rw [sameName_iff, z1, z2, ← w1, ← w2]
      · rw [a4] at t1
        rw [b2] at t2
        have w1 := hx _ a5 _ _ t1
        have w2 := hy _ _ _ t2
        rw [w2.1, a6] at w1
        exact nonempty_of_sameName (sameName_of_resolves a3) a2 w1.symm
      · rw [a2] at t1
        rw [b4] at t2
        have w1 := hy _ _ _ t1
        have w2 := hx _ b5 _ _ t2
        rw [w1.1, b6] at w2
        exact nonempty_of_sameName (sameName_of_resolves b3) b2 w2.symm
      · rw [a2] at t1
        rw [b2] at t2
        have w1 := (matchElem_iff inp _ a1 _ _).mp (hy _ _ _ t1).2
        have w2 := (matchElem_iff inp _ b1 _ _).mp (hy _ _ _ t2).2
        obtain ⟨cs, c1, c2⟩ := w1
        obtain ⟨cs', d1, d2⟩ := w2
        obtain rfl := encodeAll_inj (at_unique c2 d2)
        exact hel.2 _ c1 d1

end

/-! ## The two counts -/

theorem insideAll_mem {sg : SG} {ch : List (PTree NodeKey)} {x : ParseTree} (h : x ∈ insideAll sg ch) :
    ∃ c ∈ ch, x ∈ wrap sg c.root (inside sg c) := by
  induction ch with
  | nil => cases h
  | cons c ch ih =>
    rw [insideAll, List.mem_append] at h
    rcases h with h | h
    · exact ⟨c, List.mem_cons_self .., h⟩
    · obtain ⟨c', h1, h2⟩ := ih h
      exact ⟨c', List.mem_cons_of_mem _ h1, h2⟩

theorem wrap_tidy {sg : SG} (hn : ∀ n, (sg.nt n).isRule = true → (sg.nt n).ruleName ≠ []) {k : NodeKey} {ts : List ParseTree}
    (h : ∀ x ∈ ts, Tidy x) : ∀ x ∈ wrap sg k ts, Tidy x := by
  intro x hx
  cases k with
  | sym n s e =>
    simp only [wrap] at hx
    split_ifs at hx with hr
    · rw [List.mem_singleton.mp hx]
      exact .mk _ _ _ _ (fun h0 => absurd h0 (hn n hr)) h
    · exact h x hx
  | inter | term => exact h x hx

theorem inside_tidy {sg : SG} (hn : ∀ n, (sg.nt n).isRule = true → (sg.nt n).ruleName ≠ []) {G : NodeKey → List (List NodeKey)} {t : PTree NodeKey}
    (ht : t.Of G true) : ∀ x ∈ inside sg t, Tidy x := by
  have hleaf : ∀ s e, ∀ x ∈ termLeaf s e, Tidy x := by
    intro s e x hx
    unfold termLeaf at hx
    split_ifs at hx with h
    · rw [List.mem_singleton.mp hx]
      exact .mk _ _ _ _ (fun _ => h) (by simp)
    · cases hx
  induction ht with
  | leaf k _ _ =>
    cases k with
    | term s e => exact hleaf s e
    | sym | inter => intro x hx; simp [inside, insideAll] at hx
  | node k i ch _ _ ih =>
    have hall : ∀ x ∈ insideAll sg ch, Tidy x := by
      intro x hx
      obtain ⟨c, h1, h2⟩ := insideAll_mem hx
      exact wrap_tidy hn (ih c h1) x h2
    cases k with
    | term s e => exact hleaf s e
    | sym | inter => simpa only [inside] using hall

theorem ruleName_ne {g : Grammar} {root : Str} {sg : SG} {ix : List (Str × Nat)} (hl : Lowered g root sg ix)
    (hnm : ∀ r ∈ allReps g, r.elem ≠ .rulename []) (hroot : root ≠ []) (n : Nat) (h : (sg.nt n).isRule = true) : (sg.nt n).ruleName ≠ [] := by
  obtain ⟨m, q, ho, _, hq, hname⟩ := rule_obj hl h
  rw [hname]
  refine nonempty_of_sameName (sameName_of_resolves (getRule_resolves hq)) ?_
  rcases ho with rfl | ⟨p, hp, he⟩
  · exact hroot
  · rintro rfl
    exact hnm p hp he

namespace Props

/-! ## C117 -/

/-- C117.  The trees of the forest, read as trees of rules and terminals, are exactly the derivation trees of the whole input,
if repetition counts are settled. -/
theorem C117_reads (g : Grammar) (hwf : NumValsWF g) (hnd : NamesDistinct g) (hdp : DistinctPrint g)
    (hnm : Spelt.Named (rulesReps (g.rules ++ Core.rules))) (hcs : CountsSettled g) (sched : Sched NodeKey) (hf : sched.Fair)
    (inp : Bytes) (root : Str) (hroot : root ≠ []) (N M : Nat) (f : Forest) (h : parseForest sched inp g root N M = .ok f)
    (d : ParseTree) :
    WholeTree g root inp d ↔ ∃ r : NodeKey, f.root = some r ∧ ∃ t : PTree NodeKey, t.Of f.packsOf true ∧ t.root = r ∧
      wrap f.sg r (inside f.sg t) = [d] := by
  obtain ⟨hc, _, hok, hL, hw, _, _, hr⟩ := parseForest_ok hf h
  obtain ⟨ix, hl, _, hsome⟩ := compileSlots_lowered hc
  obtain ⟨hsr, q, hq, hqn⟩ := start_isRule hc
  constructor
  · intro hd
    obtain ⟨h1, t, h2, h3, h4⟩ := whole_shown hwf hnd hdp hnm hf h hd
    exact ⟨_, h1, t, h2, h3, by simp [wrap, hsr, h4]⟩
  · rintro ⟨r, h1, t, h2, rfl, h3⟩
    rw [h1] at hr
    split_ifs at hr with hm
    simp only [Option.some.injEq] at hr
    have hin := inside_ok hok hL.inv h2 (by rw [hr]; exact hm)
    obtain ⟨_, h4, _⟩ := wrap_ok (hL.inv.nodes _ (by rw [hr]; exact hm)) hin
    have h5 := wrap_tidy (k := t.root) (ruleName_ne hl hnm hroot) (inside_tidy (ruleName_ne hl hnm hroot) h2)
    rw [h3] at h4 h5
    have h4 := derivationTree_of hl hdp hwf hcs (h4 d (by simp))
    have h5 := h5 d (by simp)
    rw [hr] at h3
    simp only [wrap, hsr, if_true, List.cons.injEq, and_true] at h3
    subst h3
    have hsame : SameName root (f.sg.nt f.sg.start).ruleName := by
      rw [hqn]; exact sameName_of_resolves (getRule_resolves hq)
    exact ⟨h4, h5, hsame, nonempty_of_sameName hsame hroot, rfl, rfl⟩

/-- C117.  For a flat grammar `NumTrees` is the number of derivation trees of the whole input: -1 exactly when there are infinitely
many, and their number otherwise. -/
theorem C117_count (g : Grammar) (hwf : NumValsWF g) (hnd : NamesDistinct g) (hdp : DistinctPrint g)
    (hnm : Spelt.Named (rulesReps (g.rules ++ Core.rules))) (hcs : CountsSettled g) (sched : Sched NodeKey) (hf : sched.Fair)
    (inp : Bytes) (root : Str) (hroot : root ≠ []) (hfl : FlatFrom g root) (N M : Nat) (f : Forest)
    (h : parseForest sched inp g root N M = .ok f) :
    ∃ n : Int, f.numTrees = some n ∧
      ((∃ ds : List ParseTree, ds.Nodup ∧ (∀ d, d ∈ ds ↔ WholeTree g root inp d) ∧ n = ds.length) ∨
       (n = -1 ∧ ¬ ∃ ds : List ParseTree, ∀ d, WholeTree g root inp d → d ∈ ds)) := by
  obtain ⟨hc, _, hok, hL, hw, _, _, hr⟩ := parseForest_ok hf h
  obtain ⟨ix, hl, _, hsome⟩ := compileSlots_lowered hc
  obtain ⟨hsr, _⟩ := start_isRule hc
  have hP := flatSG hl hdp hwf hnd hnm hfl hsome
  have hreads := C117_reads g hwf hnd hdp hnm hcs sched hf inp root hroot N M f h
  split_ifs at hr with hm
  · obtain ⟨⟨n, h1, h2, _⟩, _⟩ := C48_counts g sched hf inp root N M f h _ hr
    let rd : PTree NodeKey → ParseTree := fun t => .node (f.sg.nt f.sg.start).ruleName 0 inp.length (inside f.sg t)
    have hrd : ∀ d, WholeTree g root inp d ↔
        ∃ t : PTree NodeKey, (t.Of f.packsOf true ∧ t.root = .sym f.sg.start 0 inp.length) ∧ rd t = d := by
      intro d
      rw [hreads]
      constructor
      · rintro ⟨r, e1, t, e2, e3, e4⟩
        rw [hr] at e1
        cases e1
        exact ⟨t, ⟨e2, e3⟩, by simpa [wrap, hsr] using e4⟩
      · rintro ⟨t, ⟨e2, e3⟩, e4⟩
        exact ⟨_, hr, t, e2, e3, by simpa [wrap, hsr] using e4⟩
    have hinj : ∀ t t' : PTree NodeKey, t.Of f.packsOf true → t'.Of f.packsOf true → t'.root = t.root → rd t = rd t' → t = t' := by
      intro t t' e1 e2 e3 e4
      exact inside_inj hok hL.inv hP e1 t' e2 e3 (by simpa [rd] using e4)
    refine ⟨n, h1, ?_⟩
    rcases h2 with ⟨ts, hts, rfl⟩ | ⟨rfl, hno⟩
    · left
      refine ⟨ts.map rd, ?_, ?_, by simp⟩
      · refine hts.nodup.map_on ?_
        intro t ht t' ht' he
        obtain ⟨a1, a2⟩ := (hts.mem t).mp ht
        obtain ⟨b1, b2⟩ := (hts.mem t').mp ht'
        exact hinj t t' a1 b1 (by rw [a2, b2]) he
      · intro d
        rw [hrd, List.mem_map]
        constructor
        · rintro ⟨t, e1, e2⟩; exact ⟨t, (hts.mem t).mp e1, e2⟩
        · rintro ⟨t, e1, e2⟩; exact ⟨t, (hts.mem t).mpr e1, e2⟩
    · right
      refine ⟨rfl, ?_⟩
      rintro ⟨ds, hds⟩
      apply hno
      classical
      let pick : ParseTree → List (PTree NodeKey) := fun d =>
        if hd : ∃ t : PTree NodeKey, (t.Of f.packsOf true ∧ t.root = .sym f.sg.start 0 inp.length) ∧ rd t = d then [hd.choose] else []
      have hp : ∀ t, t ∈ ds.flatMap pick ↔ t.Of f.packsOf true ∧ t.root = .sym f.sg.start 0 inp.length := by
        intro t
        rw [List.mem_flatMap]
        constructor
        · rintro ⟨d, _, ht⟩
          simp only [pick] at ht
          split_ifs at ht with hd
          · rw [List.mem_singleton.mp ht]
            exact hd.choose_spec.1
          · cases ht
        · rintro ⟨e1, e2⟩
          have hex : ∃ t' : PTree NodeKey, (t'.Of f.packsOf true ∧ t'.root = .sym f.sg.start 0 inp.length) ∧ rd t' = rd t := ⟨t, ⟨e1, e2⟩, rfl⟩
          refine ⟨rd t, hds _ ((hrd _).mpr hex), ?_⟩
          simp only [pick, dif_pos hex, List.mem_singleton]
          obtain ⟨⟨c1, c2⟩, c3⟩ := hex.choose_spec
          exact hinj _ _ e1 c1 (by rw [c2, e2]) c3.symm
      exact ⟨(ds.flatMap pick).dedup, List.nodup_dedup _, fun t => by rw [List.mem_dedup]; exact hp t⟩
  · refine ⟨0, by unfold Forest.numTrees; rw [hr], .inl ⟨[], by simp, fun d => ?_, rfl⟩⟩
    simp only [List.not_mem_nil, false_iff]
    intro hd
    obtain ⟨r, e1, _⟩ := (hreads d).mp hd
    rw [hr] at e1
    cases e1

end Props
end Verif
