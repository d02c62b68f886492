import Verif.Forest
import Verif.PackedLemmas
import Verif.PropsBsr

/-! # The shape of a finished forest -/

namespace Verif
open Spec

section
variable {f : Forest} {inp : Bytes}

theorem mem_packsOf {f : Forest} {k : NodeKey} {ch : List NodeKey} : ch ∈ f.packsOf k ↔ (k, ch) ∈ f.st.packs := by
  unfold Forest.packsOf
  simp only [List.mem_map, List.mem_filter, decide_eq_true_eq]
  constructor
  · rintro ⟨⟨a, b⟩, ⟨h1, h2⟩, h3⟩
    simp only at h2 h3; subst h2 h3; exact h1
  · intro h; exact ⟨_, ⟨h, rfl⟩, rfl⟩

theorem packsOf_nodup {f : Forest} (h : f.st.packs.Nodup) (k : NodeKey) : (f.packsOf k).Nodup := by
  unfold Forest.packsOf
  refine (h.filter _).map_on ?_
  rintro ⟨a, b⟩ h1 ⟨c, d⟩ h2 h3
  simp only [List.mem_filter, decide_eq_true_eq] at h1 h2 h3
  rw [h1.2, h2.2, h3]

/-- The first packing, as `FirstOlder` names it. -/
theorem packsOf_head {f : Forest} {k : NodeKey} {ch : List NodeKey}
    (h : f.st.packs.find? (fun p => decide (p.1 = k)) = some (k, ch)) : ∃ rest, f.packsOf k = ch :: rest := by
  unfold Forest.packsOf
  generalize f.st.packs = l at h
  induction l with
  | nil => simp at h
  | cons p l ih =>
    by_cases hp : p.1 = k
    · rw [List.find?_cons_of_pos (by simpa using hp)] at h
      rw [List.filter_cons_of_pos (by simpa using hp)]
      obtain rfl := Option.some.inj h
      exact ⟨_, rfl⟩
    · rw [List.find?_cons_of_neg (by simpa using hp)] at h
      rw [List.filter_cons_of_neg (by simpa using hp)]
      exact ih h

theorem packsOf_term {f : Forest} (hi : Inv f.sg inp f.st) (s e : Nat) : f.packsOf (.term s e) = [] := by
  apply List.eq_nil_iff_forall_not_mem.mpr
  intro ch h
  obtain ⟨_, _, L, l, m, r, h1, h2, h3, _⟩ := hi.packs _ _ (mem_packsOf.mp h)
  exact (nodeOK_adv h1 h2).2 s e h3.symm

theorem closed_nodes {f : Forest} (hi : Inv f.sg inp f.st) : ClosedList f.packsOf f.st.nodes := by
  rintro n _ c ⟨pk, hpk, hc⟩
  exact (hi.packs n pk (mem_packsOf.mp hpk)).2.1 c hc

theorem productive_from {f : Forest} (hi : Inv f.sg inp f.st) :
    ∀ b a, f.st.nodes = a ++ b → ∀ k ∈ b, ∃ t : PTree NodeKey, t.Of f.packsOf true ∧ t.root = k := by
  intro b
  induction b with
  | nil => intro a _ k hk; simp at hk
  | cons x b ih =>
    intro a he k hk
    have ih' := ih (a ++ [x]) (by rw [he]; simp)
    rcases List.mem_cons.mp hk with rfl | hk
    · by_cases ht : ∃ s e, k = .term s e
      · obtain ⟨s, e, rfl⟩ := ht
        exact ⟨_, .leaf _ (packsOf_term hi s e) rfl, rfl⟩
      · obtain ⟨ch, h1, h2⟩ := hi.first a k b he fun s e h => ht ⟨s, e, h⟩
        obtain ⟨rest, hp⟩ := packsOf_head h1
        have : ∀ l : List NodeKey, (∀ c ∈ l, c ∈ b) → ∃ ts : List (PTree NodeKey), ts.map PTree.root = l ∧
            ∀ t ∈ ts, t.Of f.packsOf true := by
          intro l
          induction l with
          | nil => intro _; exact ⟨[], rfl, by simp⟩
          | cons c l ihl =>
            intro hl
            obtain ⟨t, a1, a2⟩ := ih' c (hl c (List.mem_cons_self ..))
            obtain ⟨ts, b1, b2⟩ := ihl fun c hc => hl c (List.mem_cons_of_mem _ hc)
            refine ⟨t :: ts, by rw [List.map_cons, a2, b1], fun t' ht => ?_⟩
            rcases List.mem_cons.mp ht with rfl | ht
            · exact a1
            · exact b2 t' ht
        obtain ⟨ts, b1, b2⟩ := this ch h2
        exact ⟨.node k 0 ts, .node k 0 ts (by rw [hp, b1]; rfl) b2, rfl⟩
    · exact ih' k hk

theorem below_nodes {f : Forest} (hi : Inv f.sg inp f.st) {r k : NodeKey} (hr : r ∈ f.st.nodes)
    (h : AtOrBelow f.packsOf r k) : k ∈ f.st.nodes := by
  induction h with
  | refl => exact hr
  | tail _ hc ih => exact closed_nodes hi _ ih _ hc

theorem productive {f : Forest} (hi : Inv f.sg inp f.st) {r : NodeKey} (hr : r ∈ f.st.nodes) :
    Productive f.packsOf true r := fun k hk =>
  productive_from hi f.st.nodes [] rfl k (below_nodes hi hr hk)

/-! ## Trees -/

/-- The trees follow each other from `i` to `j`. -/
def Chain : List ParseTree → Nat → Nat → Prop
  | [], i, j => i = j
  | t :: ts, i, j => t.start = i ∧ Chain ts t.fin j

theorem Chain.append {as bs : List ParseTree} {i j k : Nat} (h1 : Chain as i j) (h2 : Chain bs j k) :
    Chain (as ++ bs) i k := by
  induction as generalizing i with
  | nil => cases h1; exact h2
  | cons t ts ih => exact ⟨h1.1, ih h1.2⟩

mutual
/-- The trees are what some production of nonterminal `n` gives over `[i,j]`, repetition counts aside. -/
inductive NTT (sg : SG) (inp : Bytes) : Nat → List ParseTree → Nat → Nat → Prop
  | mk (n alt ts i j) : alt < (sg.alts n).length → SeqT sg inp n (sg.prod ⟨n, alt, 0⟩) ts i j → NTT sg inp n ts i j
/-- The trees of consecutive symbols of a production of `c`. -/
inductive SeqT (sg : SG) (inp : Bytes) : Nat → List Sym → List ParseTree → Nat → Nat → Prop
  | nil (c i) : SeqT sg inp c [] [] i i
  | cons (c s rest ts us i j k) : SymT sg inp c s ts i j → SeqT sg inp c rest us j k →
      SeqT sg inp c (s :: rest) (ts ++ us) i k
/-- The trees of a symbol of a production of `c`. -/
inductive SymT (sg : SG) (inp : Bytes) : Nat → Sym → List ParseTree → Nat → Nat → Prop
  | eps (c i) : SymT sg inp c .eps [] i i
  | leaf (c e i j) : matchSym inp (.term e) i = some j → SymT sg inp c (.term e) [.node [] i j []] i j
  | none (c e i) : matchSym inp (.term e) i = some i → SymT sg inp c (.term e) [] i i
  | nt (c rc n ts i j) : SymD sg inp c rc (.nt n) i j → NTK sg inp n ts i j → SymT sg inp c (.nt n) ts i j
/-- The trees emitted for a nonterminal. -/
inductive NTK (sg : SG) (inp : Bytes) : Nat → List ParseTree → Nat → Nat → Prop
  | rule (n i j ch) : (sg.nt n).isRule = true → NTK sg inp n [.node (sg.nt n).ruleName i j ch] i j
  | sub (n ts i j) : (sg.nt n).isRule = false → NTT sg inp n ts i j → NTK sg inp n ts i j
end

theorem SeqT.snoc {sg : SG} {c : Nat} {a : List Sym} {s : Sym} {ts us : List ParseTree} {i j k : Nat}
    (h1 : SeqT sg inp c a ts i j) (h2 : SymT sg inp c s us j k) : SeqT sg inp c (a ++ [s]) (ts ++ us) i k := by
  induction a generalizing ts i with
  | nil =>
    cases h1
    have := SeqT.cons c s [] us [] j k k h2 (.nil c k)
    simpa using this
  | cons x a ih =>
    cases h1 with
    | cons _ _ _ t1 t2 _ m _ h3 h4 =>
      rw [List.append_assoc]
      exact .cons _ _ _ _ _ _ m _ h3 (ih h4)

/-- What every tree that is emitted looks like. -/
inductive TreeOK (sg : SG) (inp : Bytes) : ParseTree → Prop
  | leaf (s e) : NodeOK sg inp (.term s e) → TreeOK sg inp (.node [] s e [])
  | rule (n s e ch) : (sg.nt n).isRule = true → NodeOK sg inp (.sym n s e) → Chain ch s e →
      (∀ c ∈ ch, TreeOK sg inp c) → NTT sg inp n ch s e → TreeOK sg inp (.node (sg.nt n).ruleName s e ch)

/-- The trees emitted for a node, by the kind of node. -/
def KShape (sg : SG) (inp : Bytes) : NodeKey → List ParseTree → Prop
  | .term s e, ts => ts = termLeaf s e
  | .sym n s e, ts => NTK sg inp n ts s e
  | .inter L s e, ts => SeqT sg inp L.nt ((sg.prod L).take L.dot) ts s e

/-- The trees collected for the inside of a node. -/
def CShape (sg : SG) (inp : Bytes) : NodeKey → List ParseTree → Prop
  | .term s e, ts => ts = termLeaf s e
  | .sym n s e, ts => NTT sg inp n ts s e
  | .inter L s e, ts => SeqT sg inp L.nt ((sg.prod L).take L.dot) ts s e

theorem alt_lt {sg : SG} {L : Slot} (h1 : 1 ≤ L.dot) (h2 : L.dot ≤ (sg.prod L).length) :
    L.alt < (sg.alts L.nt).length := by
  by_contra hge
  have : sg.prod L = [] := by
    unfold SG.prod
    rw [List.getD_eq_getElem?_getD, List.getElem?_eq_none (by omega)]; rfl
  rw [this] at h2
  simp at h2
  omega

theorem symD_match {sg : SG} {c rc : Nat} {s : Sym} {i j : Nat} (h : SymD sg inp c rc s i j) (hs : ∀ n, s ≠ .nt n) :
    matchSym inp s i = some j := by
  cases h with
  | term _ _ _ _ _ hm => exact hm
  | nt _ _ n _ _ _ => exact absurd rfl (hs n)

theorem seqD_one {sg : SG} {c rc : Nat} {s : Sym} {i j : Nat} (h : SeqD sg inp c rc [s] i j) : SymD sg inp c rc s i j := by
  cases h with
  | cons _ _ _ _ _ m _ h1 h2 => cases h2; exact h1

theorem matchSym_eps {i j : Nat} (h : matchSym inp .eps i = some j) : i = j := by
  simpa [matchSym] using h

theorem symT_of_kshape {sg : SG} {c rc : Nat} {s : Sym} {i j : Nat} {ts : List ParseTree} (hle : i ≤ j)
    (hd : SymD sg inp c rc s i j) (h : KShape sg inp (childNode s i j) ts) : SymT sg inp c s ts i j := by
  cases s with
  | nt n => exact .nt _ _ _ _ _ _ hd h
  | eps =>
    have := matchSym_eps (symD_match hd nofun)
    subst this
    simp only [childNode, KShape, termLeaf, gt_iff_lt, lt_self_iff_false, if_false] at h
    subst h
    exact .eps _ i
  | term e =>
    have hm := symD_match hd nofun
    simp only [childNode, KShape, termLeaf] at h
    split_ifs at h with h1
    · subst h; exact .leaf _ e i j hm
    · obtain rfl : i = j := by omega
      subst h
      exact .none _ e i hm

/-- The trees of the last symbol and of what comes before. -/
theorem adv_shape {sg : SG} {L : Slot} {l m r : Nat} (h : Reach sg inp (.adv L l m r)) {a b : List ParseTree}
    (ha : SeqT sg inp L.nt ((sg.prod L).take (L.dot - 1)) a l m) (hb : SymT sg inp L.nt (sg.lastSym L) b m r) (hu : ¬ Unary sg L) :
    CShape sg inp (nodeFor sg L l r) (a ++ b) := by
  obtain ⟨h1, h2, rc, s, u, _, _, h3, _, _⟩ := reach_sound h
  rw [lastSym_of h3] at hb
  have hs := ha.snoc hb
  rw [← take_succ_of_get? h3, Nat.sub_add_cancel h1] at hs
  unfold nodeFor
  split_ifs with c1 c2
  · rw [c1, List.take_length] at hs
    exact .mk _ L.alt _ _ _ (alt_lt h1 h2) hs
  · exact absurd ⟨c2, c1⟩ hu
  · exact hs

theorem pack_shape {sg : SG} (hok : SGOK sg) {L : Slot} {l m r : Nat} (h : Reach sg inp (.adv L l m r))
    (hu : ¬ Unary sg L) {tss : List (List ParseTree)} (ht : List.Forall₂ (KShape sg inp) (kids sg L l m r) tss) :
    CShape sg inp (nodeFor sg L l r) tss.flatten := by
  obtain ⟨h1, h2, rc, s, u, _, _, h3, h4, h5⟩ := reach_sound h
  have hle := reach_inRange hok h
  have hprev : L.prev.dot = L.dot - 1 := rfl
  have hpp : sg.prod L.prev = sg.prod L := rfl
  unfold kids at ht
  unfold wFor at ht
  split_ifs at ht with c
  · rw [hprev] at c
    simp only [Option.toList_none, List.nil_append, List.forall₂_cons_left_iff, List.forall₂_nil_left_iff] at ht
    obtain ⟨b, _, hb, rfl, rfl⟩ := ht
    rw [lastSym_of h3] at hb
    have := adv_shape h (a := []) (b := b) ?_ ?_ hu
    · simpa using this
    · rw [c] at h4 ⊢
      simp only [List.take_zero] at h4 ⊢
      cases h4
      exact .nil _ _
    · rw [lastSym_of h3]
      exact symT_of_kshape hle.2.1 h5 hb
  · rw [hprev] at c
    simp only [Option.toList_some, List.singleton_append, List.forall₂_cons_left_iff, List.forall₂_nil_left_iff] at ht
    obtain ⟨a, _, ha, ⟨b, _, hb, rfl, rfl⟩, rfl⟩ := ht
    rw [lastSym_of h3] at hb
    simp only [List.flatten_cons, List.flatten_nil, List.append_nil]
    refine adv_shape h ?_ ?_ hu
    · unfold nodeFor at ha
      rw [hpp, hprev, if_neg (by omega)] at ha
      split_ifs at ha with c2
      · obtain ⟨x, hx⟩ : ∃ x, (sg.prod L)[0]? = some x := ⟨_, List.getElem?_eq_getElem (by omega)⟩
        have htake : (sg.prod L).take (L.dot - 1) = [x] := by
          rw [c2]
          have := take_succ_of_get? hx
          simpa using this
        rw [htake] at h4 ⊢
        have hl : sg.lastSym L.prev = x := lastSym_of (by rw [hpp, hprev, c2]; exact hx)
        rw [hl] at ha
        have := SeqT.cons L.nt x [] a [] l m m (symT_of_kshape hle.1 (seqD_one h4) ha) (.nil _ m)
        simpa using this
      · exact ha
    · rw [lastSym_of h3]
      exact symT_of_kshape hle.2.1 h5 hb

/-- Trees emitted for a node. -/
def Emits (sg : SG) (inp : Bytes) (k : NodeKey) (r : Option (List ParseTree)) : Prop :=
  ∃ ts, r = some ts ∧ Chain ts k.start k.fin ∧ (∀ t ∈ ts, TreeOK sg inp t) ∧ KShape sg inp k ts

theorem termLeaf_emits {sg : SG} {s e : Nat} (hle : s ≤ e) (h : NodeOK sg inp (.term s e)) :
    Emits sg inp (.term s e) (some (termLeaf s e)) := by
  refine ⟨_, rfl, ?_, ?_, rfl⟩ <;> unfold termLeaf <;> split_ifs with h1
  · exact ⟨rfl, rfl⟩
  · show s = e; omega
  · intro t ht
    rw [List.mem_singleton.mp ht]
    exact .leaf s e h
  · simp

/-- Children of a packing follow each other over the span of the node. -/
def ChainKeys : List NodeKey → Nat → Nat → Prop
  | [], i, j => i = j
  | k :: ks, i, j => k.start = i ∧ ChainKeys ks k.fin j

theorem kids_chain {sg : SG} {L : Slot} {l m r : Nat} (h : Reach sg inp (.adv L l m r)) :
    ChainKeys (kids sg L l m r) l r := by
  have h1 : 1 ≤ L.dot := (reach_sound h).1
  unfold kids wFor
  have hprev : L.prev.dot = L.dot - 1 := rfl
  split_ifs with h0
  · simp only [Option.toList_none, List.nil_append]
    exact ⟨by rw [childNode_start]; exact (adv_pivot h (by omega)).symm, childNode_fin ..⟩
  · simp only [Option.toList_some, List.singleton_append]
    exact ⟨nodeFor_start .., by rw [childNode_start, nodeFor_fin], childNode_fin ..⟩

theorem treeKids_emits {sg : SG} {rec : List NodeKey → NodeKey → Option (List ParseTree)} {stack ks : List NodeKey}
    (h : ∀ k ∈ ks, Emits sg inp k (treeChild sg rec stack k)) {i j : Nat} (hc : ChainKeys ks i j) :
    ∃ ts, treeKids sg rec stack ks = some ts ∧ Chain ts i j ∧ (∀ t ∈ ts, TreeOK sg inp t) ∧
      ∃ tss, List.Forall₂ (KShape sg inp) ks tss ∧ ts = tss.flatten := by
  induction ks generalizing i with
  | nil => exact ⟨[], rfl, hc, by simp, [], .nil, rfl⟩
  | cons k ks ih =>
    obtain ⟨a, h1, h2, h3, hsh⟩ := h k (List.mem_cons_self ..)
    obtain ⟨hs, hc⟩ := hc
    obtain ⟨b, h4, h5, h6, tss, hf, rfl⟩ := ih (fun k hk => h k (List.mem_cons_of_mem _ hk)) hc
    refine ⟨a ++ tss.flatten, by simp [treeKids, h1, h4], ?_, ?_, a :: tss, .cons hsh hf, rfl⟩
    · rw [hs] at h2
      exact h2.append h5
    · intro t ht
      rcases List.mem_append.mp ht with ht | ht
      · exact h3 t ht
      · exact h6 t ht

/-- The span of a packing is that of its node. -/
theorem pack_chain {f : Forest} (hi : Inv f.sg inp f.st) {k : NodeKey} {ch : List NodeKey}
    (h : (k, ch) ∈ f.st.packs) : ChainKeys ch k.start k.fin := by
  obtain ⟨_, _, L, l, m, r, h1, h2, rfl, rfl⟩ := hi.packs k ch h
  rw [nodeFor_start, nodeFor_fin]
  exact kids_chain h1

/-- The inside of a node from its first packing. -/
theorem collect_emits {f : Forest} (hok : SGOK f.sg) (hi : Inv f.sg inp f.st) {k : NodeKey} {ch : List NodeKey}
    (hm : (k, ch) ∈ f.st.packs) {rec : List NodeKey → NodeKey → Option (List ParseTree)} {stack : List NodeKey}
    (h : ∀ c ∈ ch, Emits f.sg inp c (treeChild f.sg rec stack c)) :
    ∃ ts, treeKids f.sg rec stack ch = some ts ∧ Chain ts k.start k.fin ∧ (∀ t ∈ ts, TreeOK f.sg inp t) ∧
      CShape f.sg inp k ts := by
  obtain ⟨ts, h1, h2, h3, tss, h4, rfl⟩ := treeKids_emits h (pack_chain hi hm)
  refine ⟨_, h1, h2, h3, ?_⟩
  obtain ⟨_, _, L, l, m, r, h5, h6, rfl, rfl⟩ := hi.packs k ch hm
  exact pack_shape hok h5 h6 h4

theorem emits_from {f : Forest} (hok : SGOK f.sg) (hi : Inv f.sg inp f.st) :
    ∀ b a, f.st.nodes = a ++ b → ∀ fuel, b.length ≤ fuel → ∀ stack, (∀ x ∈ b, x ∉ stack) → ∀ k ∈ b,
      Emits f.sg inp k (treeChild f.sg (f.collect fuel) stack k) := by
  intro b
  induction b with
  | nil => intro a _ _ _ _ _ k hk; simp at hk
  | cons x b ih =>
    intro a he fuel hf stack hs k hk
    have he' : f.st.nodes = (a ++ [x]) ++ b := by rw [he]; simp
    have hnd : x ∉ b := by
      have := hi.nodesNodup
      rw [he] at this
      exact (List.nodup_cons.mp (List.nodup_append.mp this).2.1).1
    rcases List.mem_cons.mp hk with rfl | hk
    · have hkn : k ∈ f.st.nodes := by rw [he]; simp
      have hok' := hi.nodes k hkn
      have hns : k ∉ stack := hs k (List.mem_cons_self ..)
      have hrec : (∀ s e, k ≠ .term s e) → ∃ ts, f.collect fuel (k :: stack) k = some ts ∧
          Chain ts k.start k.fin ∧ (∀ t ∈ ts, TreeOK f.sg inp t) ∧ CShape f.sg inp k ts := by
        intro hne
        obtain ⟨ch, h1, h2⟩ := hi.first a k b he hne
        obtain ⟨rest, hp⟩ := packsOf_head h1
        obtain ⟨fuel, rfl⟩ : ∃ n, fuel = n + 1 := ⟨fuel - 1, by simp only [List.length_cons] at hf; omega⟩
        unfold Forest.collect
        rw [hp]
        have hmem : (k, ch) ∈ f.st.packs := mem_packsOf.mp (by rw [hp]; exact List.mem_cons_self ..)
        refine collect_emits hok hi hmem ?_
        intro c hc
        refine ih (a ++ [k]) he' fuel (by simp only [List.length_cons] at hf; omega) (k :: stack) ?_ c (h2 c hc)
        intro y hy hy'
        rcases List.mem_cons.mp hy' with rfl | hy'
        · exact hnd hy
        · exact hs y (List.mem_cons_of_mem _ hy) hy'
      cases k with
      | term s e =>
        refine termLeaf_emits ?_ hok'
        obtain ⟨L, u, rc, sy, hr, hs', hm⟩ := hok'
        exact (matchSym_bounds (reach_inRange hok hr).2.1 hm).1
      | inter L s e =>
        unfold treeChild
        rw [if_neg hns]
        exact hrec nofun
      | sym n s e =>
        obtain ⟨ts, h1, h2, h3, h4⟩ := hrec nofun
        simp only [treeChild, if_neg hns, h1]
        split_ifs with hr
        · refine ⟨_, rfl, ⟨rfl, rfl⟩, ?_, .rule n s e ts hr⟩
          intro t ht
          rw [List.mem_singleton.mp ht]
          exact .rule n s e ts hr hok' h2 h3 h4
        · exact ⟨ts, rfl, h2, h3, .sub n ts s e (by simpa using hr) h4⟩
    · refine ih (a ++ [x]) he' fuel (by simp only [List.length_cons] at hf; omega) stack ?_ k hk
      exact fun y hy => hs y (List.mem_cons_of_mem _ hy)

theorem tree_ok {f : Forest} (hok : SGOK f.sg) (hi : Inv f.sg inp f.st) {n s e : Nat}
    (hr : f.root = some (.sym n s e)) (hn : NodeKey.sym n s e ∈ f.st.nodes) (hrule : (f.sg.nt n).isRule = true) :
    ∃ ch, f.tree = some (.node (f.sg.nt n).ruleName s e ch) ∧
      TreeOK f.sg inp (.node (f.sg.nt n).ruleName s e ch) := by
  obtain ⟨a, b, he⟩ := List.append_of_mem hn
  have hnd : NodeKey.sym n s e ∉ b := by
    have := hi.nodesNodup
    rw [he] at this
    exact (List.nodup_cons.mp (List.nodup_append.mp this).2.1).1
  obtain ⟨pk, h1, h2⟩ := hi.first a _ b he nofun
  obtain ⟨rest, hp⟩ := packsOf_head h1
  have hk : ∃ ts, f.collect f.fuel [.sym n s e] (.sym n s e) = some ts ∧ Chain ts s e ∧
      (∀ t ∈ ts, TreeOK f.sg inp t) ∧ CShape f.sg inp (.sym n s e) ts := by
    unfold Forest.fuel Forest.collect
    rw [hp]
    have hmem : (NodeKey.sym n s e, pk) ∈ f.st.packs := mem_packsOf.mp (by rw [hp]; exact List.mem_cons_self ..)
    refine collect_emits hok hi hmem ?_
    intro c hc
    refine emits_from hok hi b (a ++ [.sym n s e]) (by rw [he]; simp) _ (by rw [he]; simp; omega) _ ?_ c (h2 c hc)
    intro y hy hy'
    rw [List.mem_singleton.mp hy'] at hy
    exact hnd hy
  obtain ⟨ts, h3, h4, h5, h6⟩ := hk
  refine ⟨ts, ?_, .rule n s e ts hrule (hi.nodes _ hn) h4 h5 h6⟩
  unfold Forest.tree
  rw [hr]
  simp only [h3, Option.map_some, hrule, if_true]
  rfl

/-- A node of a nonterminal stands for a derivation of it. -/
theorem ntd_of_node {sg : SG} (hok : SGOK sg) {n l r : Nat} (h : NodeOK sg inp (.sym n l r)) :
    ∃ rc, NTD sg inp n rc l r := by
  obtain ⟨L, k, h1, h2, h3⟩ := h
  obtain ⟨h4, h5, rc, s, u, h6, hpu, h7, h8, h9⟩ := reach_sound h3
  have hfull : SeqD sg inp L.nt rc (sg.prod L) l r := by
    have ht := take_succ_of_get? h7
    rw [Nat.sub_add_cancel h4, h2, List.take_length] at ht
    rw [ht]
    have : L.dot - 1 = (sg.prod L).length - 1 := by omega
    rw [this] at h8
    exact h8.snoc h9
  rw [h1] at hfull h6
  have ha : L.alt ∈ startAlts sg n rc := by
    cases u with
    | none =>
      obtain ⟨rfl, rfl, hlt⟩ := h6
      simpa [startAlts, hok.start] using hlt
    | some v => exact h6.2.2.2
  refine ⟨rc, .mk _ _ _ _ L.alt ha ?_⟩
  have : sg.prod ⟨n, L.alt, 0⟩ = sg.prod L := by unfold SG.prod; rw [h1]
  rw [this]
  exact hfull

/-- The node of a rule spans a text the rule derives. -/
theorem rule_node_derives {g : Grammar} {root : Str} {sg : SG} {ix : List (Str × Nat)} (hl : Lowered g root sg ix)
    (hdp : DistinctPrint g) (hwf : NumValsWF g) {n l r : Nat} (hr : (sg.nt n).isRule = true)
    (h : NodeOK sg inp (.sym n l r)) : ∃ w, At inp l r w ∧ DerivesRule g (sg.nt n).ruleName w := by
  obtain ⟨rc, hn⟩ := ntd_of_node hl.ok h
  have hlt : n < sg.nts.length := by
    by_contra hge
    rw [nt_out (by omega)] at hr
    cases hr
  obtain ⟨o, nt, ho, hk, hnt, hc⟩ := hl.filled n hlt
  have hkey := hl.good.index_get.mpr hk
  rw [nt_of_get? hnt] at hr ⊢
  cases o with
  | rule m =>
    obtain ⟨w, hat, hd⟩ := ntd_sound hl hdp hwf hn ho hkey
    refine ⟨w, hat, ?_⟩
    obtain ⟨_, hc⟩ := hc
    split at hc
    · rw [hc] at hr; cases hr
    · rename_i q hq
      rw [hc.2.1]
      have hsame : canon m = canon q.name := by
        rw [← sameName_iff]
        cases getRule_resolves hq with
        | user _ h => exact h
        | core _ h _ => exact h
      have hmove : ∀ x, SameName m x ↔ SameName q.name x := fun x => by rw [sameName_iff, sameName_iff, hsame]
      cases hd with
      | rule _ q' _ hres hda =>
        refine .rule _ q' _ ?_ hda
        cases hres with
        | user h1 h2 => exact .user h1 ((hmove _).mp h2)
        | core h1 h2 h3 => exact .core h1 ((hmove _).mp h2) fun u hu h => h3 u hu ((hmove _).mpr h)
      | term _ _ ht => cases ht
  | rep _ => rw [hc.1] at hr; cases hr
  | grp _ => rw [hc.1] at hr; cases hr
  | opt _ => rw [hc.1] at hr; cases hr

theorem start_isRule {g : Grammar} {root : Str} {max : Nat} {sg : SG} (h : compileSlots g root max = .ok sg) :
    (sg.nt sg.start).isRule = true ∧ ∃ r, getRule root g.rules = some r ∧ (sg.nt sg.start).ruleName = r.name := by
  obtain ⟨ix, hl, _, hs⟩ := compileSlots_lowered h
  obtain ⟨o, nt, _, hk, hnt, hc⟩ := hl.filled sg.start (hl.good.lookup_lt hl.start)
  have hkey : ruleKey root = o.key := by
    have := hl.good.index_get.mp hl.start
    rw [hk] at this
    simpa using this.symm
  rw [nt_of_get? hnt]
  cases o with
  | rule m =>
    have hkey := List.append_cancel_left hkey
    have : getRule root g.rules = getRule m g.rules := by unfold getRule getRuleIn equalFold; rw [hkey]
    obtain ⟨_, hc⟩ := hc
    rw [this] at hs ⊢
    split at hc
    · rename_i h0
      rw [h0] at hs; cases hs
    · rename_i r hr
      exact ⟨hc.1, r, hr, hc.2.1⟩
  | rep _ => exfalso; simp [Obj.key, ruleKey, repKey] at hkey
  | grp _ => exfalso; simp [Obj.key, ruleKey, grpKey] at hkey
  | opt _ => exfalso; simp [Obj.key, ruleKey, optKey] at hkey

end

end Verif
