import Verif.AllTrees
import Verif.PropsCodegen

/-! # C105 for `ParseBSR` and for generated parsers -/

namespace Verif
open Spec

namespace Spec
mutual
/-- The tree without the leaves that have no text. -/
def shed : ParseTree → ParseTree
  | .node r s e ch => .node r s e (shedAll ch)
/-- Of several trees. -/
def shedAll : List ParseTree → List ParseTree
  | [] => []
  | t :: ts => if t.rule = [] ∧ t.fin ≤ t.start then shedAll ts else shed t :: shedAll ts
end
end Spec

theorem shedAll_append (a b : List ParseTree) : shedAll (a ++ b) = shedAll a ++ shedAll b := by
  induction a with
  | nil => simp [shedAll]
  | cons t a ih =>
    rw [List.cons_append, shedAll, shedAll, ih]
    split_ifs <;> simp

/-- No rule of the slot grammar is without a name. -/
theorem ruleNames_ne {g : Grammar} {root : Str} {sg : SG} {ix : List (Str × Nat)} (hl : Lowered g root sg ix) (hroot : root ≠ [])
    (hnm : ∀ r ∈ allReps g, r.elem ≠ .rulename []) {n : Nat} (h : (sg.nt n).isRule = true) : (sg.nt n).ruleName ≠ [] := by
  by_cases hn : n < sg.nts.length
  · obtain ⟨o, nt, ho, _, hnt, hc⟩ := hl.filled n hn
    rw [nt_of_get? hnt] at h ⊢
    cases o with
    | rule m =>
      have hm : m ≠ [] := by
        rcases ho with rfl | ⟨r, hr, he⟩
        · exact hroot
        · rintro rfl; exact hnm r hr he
      obtain ⟨_, hc⟩ := hc
      split at hc
      · subst hc; simp at h
      · rename_i r hr
        rw [hc.2.1]
        exact nonempty_of_sameName (sameName_of_resolves (getRule_resolves hr)) hm
    | rep _ => rw [hc.1] at h; cases h
    | grp _ => rw [hc.1] at h; cases h
    | opt _ => rw [hc.1] at h; cases h
  · unfold SG.nt at h
    rw [List.getD_eq_getElem?_getD, List.getElem?_eq_none (by omega)] at h
    simp at h

section
variable {f : Forest} {f' : BsrForest} {inp : Bytes}

/-- What is collected for one symbol. -/
theorem child_shown (hp : Pair f f' inp) (hname : ∀ n, (f.sg.nt n).isRule = true → (f.sg.nt n).ruleName ≠ [])
    {rec : List NodeKey → Slot → Nat → Nat → Nat → Option (List ParseTree)} {visited : List NodeKey} {c rc : Nat} {s : Sym} {a b : Nat}
    (hd : SymD f.sg inp c rc s a b) (hok : NodeOK f.sg inp (childNode s a b)) (hnv : childNode s a b ∉ visited)
    (hrec : ∀ L m ts, Reach f.sg inp (.adv L a m b) → ¬ Unary f.sg L → nodeFor f.sg L a b = childNode s a b →
      rec (childNode s a b :: visited) L a m b = some ts → Shown f.sg f.packsOf (childNode s a b) (shedAll ts))
    {us : List ParseTree} (h : f'.collectChild rec visited s a b = some us) :
    ShownAs f.sg f.packsOf (childNode s a b) (shedAll us) := by
  have hleaf : Shown f.sg f.packsOf (.term a b) (termLeaf a b) :=
    ⟨.node (.term a b) 0 [], .leaf _ (packsOf_term hp.loop.inv a b) rfl, rfl, rfl⟩
  cases s with
  | eps =>
    obtain rfl := matchSym_eps (symD_match hd nofun)
    simp only [BsrForest.collectChild, Option.some.injEq] at h
    subst h
    refine ⟨_, hleaf, ?_⟩
    show wrap f.sg (.term a a) _ = _
    simp [wrap, termLeaf, shedAll]
  | term e =>
    simp only [BsrForest.collectChild, Option.some.injEq] at h
    subst h
    refine ⟨_, hleaf, ?_⟩
    show wrap f.sg (.term a b) _ = _
    simp only [wrap, termLeaf, shedAll, ParseTree.rule, ParseTree.fin, ParseTree.start, shed, true_and]
    by_cases hab : b > a
    · rw [if_pos hab, if_neg (by omega)]
    · rw [if_neg hab, if_pos (by omega)]
  | nt n =>
    obtain ⟨L, m, h1, h2, h3, h4⟩ := pick_of_node hp hok
    have hnv' : NodeKey.sym n a b ∉ visited := hnv
    simp only [BsrForest.collectChild, if_neg hnv', h1] at h
    obtain ⟨ch, h5, rfl⟩ := Option.map_eq_some_iff.mp h
    refine ⟨_, hrec L m ch h2 h3 h4 h5, ?_⟩
    rw [hp.sg]
    show wrap f.sg (.sym n a b) _ = _
    unfold wrap
    simp only
    by_cases hr : (f.sg.nt n).isRule = true
    · rw [if_pos hr, if_pos hr]
      simp [shedAll, shed, ParseTree.rule, hname n hr]
    · rw [if_neg hr, if_neg hr]

/-- What is collected for one element. -/
theorem collect_shown (hp : Pair f f' inp) (hname : ∀ n, (f.sg.nt n).isRule = true → (f.sg.nt n).ruleName ≠ [])
    {root : NodeKey} (hac : Acyclic f root) : ∀ fuel visited L l m r ts, Reach f.sg inp (.adv L l m r) → ¬ Unary f.sg L →
      AtOrBelow f.packsOf root (nodeFor f.sg L l r) → (∀ v ∈ visited, ¬ StrictlyBelow f.packsOf (nodeFor f.sg L l r) v) →
      f'.collectElem fuel visited L l m r = some ts → Shown f.sg f.packsOf (nodeFor f.sg L l r) (shedAll ts) := by
  intro fuel
  induction fuel with
  | zero => intro visited L l m r ts _ _ _ _ h; simp [BsrForest.collectElem] at h
  | succ fuel ih =>
    intro visited L l m r ts hr hu hb hv h
    obtain ⟨g1, g2, rc, s, u, _, _, g3, g4, g5⟩ := reach_sound hr
    have hpk : kids f.sg L l m r ∈ f.packsOf (nodeFor f.sg L l r) := by
      rw [mem_packsOf, packs_iff hp.loop hp.done]
      exact ⟨L, l, m, r, hr, hu, rfl⟩
    have hchild : ∀ c ∈ kids f.sg L l m r, Child f.packsOf (nodeFor f.sg L l r) c := fun c hc => ⟨_, hpk, hc⟩
    -- a symbol of the element
    have hsym : ∀ c rc s a b us, SymD f.sg inp c rc s a b → childNode s a b ∈ kids f.sg L l m r →
        f'.collectChild (f'.collectElem fuel) visited s a b = some us → ShownAs f.sg f.packsOf (childNode s a b) (shedAll us) := by
      intro c rc s a b us hd hc h1
      have hch := hchild _ hc
      refine child_shown hp hname hd (child_ok hp hch) (fun hm => hv _ hm (.single hch)) ?_ h1
      intro L' m' ts' k1 k2 k3 k4
      rw [← k3] at hch ⊢
      refine ih _ L' a m' b ts' k1 k2 (hb.tail hch) ?_ (k3 ▸ k4)
      intro v hvm hs
      rcases List.mem_cons.mp hvm with rfl | hvm
      · exact hac _ (hb.tail hch) hs
      · exact hv v hvm (.head hch hs)
    have hk : ∀ s e, nodeFor f.sg L l r ≠ .term s e := by
      intro s e
      unfold nodeFor
      split_ifs with c1 c2
      · exact nofun
      · exact absurd ⟨c2, c1⟩ hu
      · exact nofun
    have hlast : (f'.sg.prod L).getD (L.dot - 1) .eps = s := by
      rw [hp.sg, List.getD_eq_getElem?_getD, g3]; rfl
    rw [BsrForest.collectElem] at h
    simp only [Option.bind_eq_some_iff, Option.map_eq_some_iff] at h
    obtain ⟨a, h1, b, h2, rfl⟩ := h
    rw [hlast] at h2
    have hb' := hsym _ _ _ _ _ _ g5 (by have := kids_mem_last f.sg L l m r; rwa [lastSym_of g3] at this) h2
    rw [shedAll_append]
    by_cases c1 : L.dot = 1
    · rw [if_pos c1] at h1
      cases h1
      have hkd : kids f.sg L l m r = [childNode s m r] := by unfold kids; rw [wFor_one c1, lastSym_of g3]; rfl
      rw [hkd] at hpk
      have := shown_pack hk hpk (tss := [shedAll b]) (.cons hb' .nil)
      simpa [shedAll] using this
    · rw [if_neg c1] at h1
      by_cases c2 : L.dot = 2
      · rw [if_pos c2] at h1
        obtain ⟨x, hx⟩ : ∃ x, (f.sg.prod L)[0]? = some x := ⟨_, List.getElem?_eq_getElem (by omega)⟩
        have htake : (f.sg.prod L).take (L.dot - 1) = [x] := by
          rw [c2]
          have := take_succ_of_get? hx
          simpa using this
        rw [htake] at g4
        have hxe : (f'.sg.prod L).getD 0 .eps = x := by
          rw [hp.sg, List.getD_eq_getElem?_getD, hx]; rfl
        rw [hxe] at h1
        have hw := kids_mem_w (r := r) (wFor_two (l := l) (m := m) c2 g2)
        have hlp : f.sg.lastSym L.prev = x := lastSym_of (by
          show (f.sg.prod L)[L.dot - 1 - 1]? = _
          rw [c2]; exact hx)
        rw [hlp] at hw
        have ha' := hsym _ _ _ _ _ _ (seqD_one g4) hw h1
        have hkd : kids f.sg L l m r = [childNode x l m, childNode s m r] := by
          unfold kids; rw [wFor_two c2 g2, lastSym_of g3, hlp]; rfl
        rw [hkd] at hpk
        have := shown_pack hk hpk (tss := [shedAll a, shedAll b]) (.cons ha' (.cons hb' .nil))
        simpa using this
      · rw [if_neg c2] at h1
        have hwf := wFor_more (sg := f.sg) (l := l) (m := m) (show 3 ≤ L.dot by omega) g2
        have hw := kids_mem_w (r := r) hwf
        have hch := hchild _ hw
        obtain ⟨d1, d2, m', hr'⟩ := child_ok hp hch
        have hmem : m' ∈ f'.pivots L.prev l m := by
          rw [mem_pivots, hp.set]
          exact ⟨hr', .inl (by show 2 ≤ L.dot - 1; omega)⟩
        have hnf : nodeFor f.sg L.prev l m = .inter L.prev l m := by
          unfold nodeFor
          rw [if_neg d2, if_neg d1]
        have ha' : Shown f.sg f.packsOf (.inter L.prev l m) (shedAll a) := by
          cases hpv : f'.pivots ⟨L.nt, L.alt, L.dot - 1⟩ l m with
          | nil =>
            rw [show L.prev = ⟨L.nt, L.alt, L.dot - 1⟩ from rfl, hpv] at hmem
            cases hmem
          | cons k' rest =>
            rw [hpv] at h1
            have hin : k' ∈ f'.pivots L.prev l m := by
              rw [show L.prev = ⟨L.nt, L.alt, L.dot - 1⟩ from rfl, hpv]; exact List.mem_cons_self ..
            have hset := (hp.set _ _ _ _).mp (mem_pivots.mp hin)
            rw [← hnf] at hch ⊢
            exact ih visited L.prev l k' m a hset.1 ((kept_iff (reach_sound hset.1).1).mp hset.2) (hb.tail hch)
              (fun v hvm hs => hv v hvm (.head hch hs)) h1
        have hkd : kids f.sg L l m r = [.inter L.prev l m, childNode s m r] := by
          unfold kids; rw [hwf, lastSym_of g3]; rfl
        rw [hkd] at hpk
        have := shown_pack hk hpk (tss := [shedAll a, shedAll b]) (.cons ⟨_, ha', rfl⟩ (.cons hb' .nil))
        simpa using this

end

namespace Props
open Spec

/-- C105 for the BSR engine: `NumTrees` is infinite or at least the number of derivation trees, whatever the map order. -/
theorem C105_bsr_all (g : Grammar) (hwf : NumValsWF g) (hnd : NamesDistinct g) (hdp : DistinctPrint g)
    (hnm : Spelt.Named (rulesReps (g.rules ++ Core.rules))) (sched : Sched Nat) (hf : sched.Fair) (inp : Bytes) (root : Str)
    (N M : Nat) (f₀ : BsrForest) (h : parseBSR sched inp g root N M = .ok f₀)
    (f : BsrForest) (hs : f.sg = f₀.sg) (hi : f.input = f₀.input) (hp : f.set.Perm f₀.set)
    (ds : List ParseTree) (hds : ds.Nodup) (hall : ∀ d ∈ ds, WholeTree g root inp d) :
    ∃ n, f.numTrees = some n ∧ (n = -1 ∨ (ds.length : Int) ≤ n) := by
  obtain ⟨fs, hfs⟩ := forest_for hf h
  obtain ⟨n, h1, h2⟩ := C105_all g hwf hnd hdp hnm fwd fwd_fair inp root 0 M fs hfs ds hds hall
  obtain ⟨n', n'', _, _, k1, k2, _, _, k3, k4, _⟩ := C41_agree_partial g fwd sched fwd_fair hf inp root 0 N M M fs f₀ hfs h f hs hi hp
  rw [h1] at k1
  cases k1
  refine ⟨n'', k2, ?_⟩
  rcases h2 with rfl | h2
  · exact .inl (k3.mp rfl)
  · right; omega

/-- C105 for the BSR engine: if the input is valid and `Ambiguous` is false, the input has exactly one derivation tree,
and it is what `Tree` returns, but for the leaves without text that `BSRForest.Tree` keeps. -/
theorem C105_bsr_unique (g : Grammar) (hwf : NumValsWF g) (hnd : NamesDistinct g) (hdp : DistinctPrint g)
    (hnm : Spelt.Named (rulesReps (g.rules ++ Core.rules))) (sched : Sched Nat) (hf : sched.Fair) (inp : Bytes) (root : Str)
    (hroot : root ≠ []) (N M : Nat) (f₀ : BsrForest) (h : parseBSR sched inp g root N M = .ok f₀)
    (f : BsrForest) (hs : f.sg = f₀.sg) (hi : f.input = f₀.input) (hp : f.set.Perm f₀.set)
    (hv : f.valid = true) (ha : f.ambiguous = some false) :
    ∃ t F, (∀ fuel, F ≤ fuel → f.treeWith fuel = some t) ∧ WholeTree g root inp (shed t) ∧
      ∀ d, WholeTree g root inp d → d = shed t := by
  obtain ⟨fs, hfs⟩ := forest_for hf h
  have hpair := pair_of fwd_fair hf hfs h hs hi hp
  have hvs : fs.valid = true := by
    have := C03_agree g fwd sched fwd_fair hf inp root 0 N M M fs f₀ hfs h
    rw [this, ← bsr_valid_perm hs hi hp, hv]
  have has : fs.ambiguous = some false := by
    obtain ⟨_, _, b, b', _, _, k1, k2, _, _, k3⟩ := C41_agree_partial g fwd sched fwd_fair hf inp root 0 N M M fs f₀ hfs h f hs hi hp
    rw [ha] at k2
    cases k2
    cases b with
    | true => exact absurd (k3 rfl) (by simp)
    | false => exact k1
  obtain ⟨hr, hac, hlen, pt, hpt, hd⟩ := only_one hwf hnd hdp hnm fwd_fair hroot hfs hvs has
  obtain ⟨t, r, F, h1, _⟩ := C49_terminates_partial g sched hf inp root N M f₀ h f hs hi hp |>.1 hv
  have hc := (parseForest_ok fwd_fair hfs).1
  obtain ⟨ix, hl, _, _⟩ := compileSlots_lowered hc
  have hname : ∀ n, (fs.sg.nt n).isRule = true → (fs.sg.nt n).ruleName ≠ [] := fun n hn => ruleNames_ne hl hroot hnm hn
  have hkey : shed t = .node (fs.sg.nt fs.sg.start).ruleName 0 inp.length (inside fs.sg pt) := by
    have h2 := h1 F (Nat.le_refl _)
    have hro : NodeOK fs.sg inp (.sym fs.sg.start 0 inp.length) := by
      have := bsr_root_ok hf h hs hi (bsr_valid_perm hs hi hp ▸ hv)
      rw [← hs, hpair.sg] at this
      unfold BsrForest.root at this
      rwa [hpair.sg, hpair.input] at this
    obtain ⟨L, m, p1, p2, p3, p4⟩ := pick_of_node hpair hro
    unfold BsrForest.treeWith at h2
    rw [if_pos hv, hpair.sg, hpair.input, p1] at h2
    simp only [(start_isRule hc).1, if_true, Option.map_eq_some_iff] at h2
    obtain ⟨ch, h3, rfl⟩ := h2
    have h4 := collect_shown hpair hname (root := .sym fs.sg.start 0 inp.length) (fun x hx => hac x hx) F [] L 0 m inp.length ch p2 p3
      (by rw [p4]) (by simp) h3
    rw [p4] at h4
    obtain ⟨t', q1, q2, q3⟩ := h4
    have := (hpt t').mp ⟨q1, q2⟩
    subst this
    rw [shed, q3]
  refine ⟨t, F, h1, ?_, ?_⟩
  · rw [hkey]; exact (hd _).mpr rfl
  · intro d hd'; rw [hkey]; exact (hd d).mp hd'

/-- C105 for generated parsers, without a budget: their `NumTrees` is infinite or at least the number of derivation
trees, and if the input is valid and their `Ambiguous` is false, the only derivation tree is what their `Tree` returns,
but for leaves without text. -/
theorem C105_generated (g : Grammar) (hwf : NumValsWF g) (hnd : NamesDistinct g) (hdp : DistinctPrint g)
    (hnm : Spelt.Named (rulesReps (g.rules ++ Core.rules))) (root : Str) (hroot : root ≠ []) (p : Cg.Prog)
    (h : Cg.generate g root = .ok p) (sched : Sched Nat) (hf : sched.Fair) (inp : Bytes) :
    ∃ r F, (∀ fuel, F ≤ fuel → Cg.parse p 0 sched fuel inp = .result r) ∧
      (∀ ds : List ParseTree, ds.Nodup → (∀ d ∈ ds, WholeTree g root inp d) →
        ∃ n, r.numTrees p = some n ∧ (n = -1 ∨ (ds.length : Int) ≤ n)) ∧
      (r.valid p = true → r.ambiguous p = some false → ∃ t F', (∀ fuel, F' ≤ fuel → r.treeWith p fuel = some t) ∧
        WholeTree g root inp (shed t) ∧ ∀ d, WholeTree g root inp d → d = shed t) := by
  obtain ⟨r, f, h1, h2, F, h3⟩ := C45_unbounded_partial g root p h sched hf inp
  refine ⟨r, F, h3, ?_, ?_⟩
  · intro ds hds hall
    rw [h2.numTrees]
    exact C105_bsr_all g hwf hnd hdp hnm sched hf inp root _ _ f h1 f rfl rfl (.refl _) ds hds hall
  · intro hv ha
    rw [h2.valid] at hv
    rw [h2.ambiguous] at ha
    simp only [h2.tree]
    exact C105_bsr_unique g hwf hnd hdp hnm sched hf inp root hroot _ _ f h1 f rfl rfl (.refl _) hv ha

/-! ## Cases -/

/-- Boolean version of `Spelt.Named` on a grammar. -/
def namedB (g : Grammar) : Bool :=
  (rulesReps (g.rules ++ Core.rules)).all fun r => match r.elem with | .rulename [] => false | _ => true
theorem named_of {g : Grammar} (h : namedB g = true) : Spelt.Named (rulesReps (g.rules ++ Core.rules)) := by
  intro r hr he
  have := List.all_eq_true.mp h r hr
  rw [he] at this
  cases this

-- the conditions on the grammar
example : NumValsWF Ex.expr ∧ NamesDistinct Ex.expr ∧ DistinctPrint Ex.expr ∧ Spelt.Named (rulesReps (Ex.expr.rules ++ Core.rules)) :=
  ⟨Ex.expr_wf.1, Ex.expr_wf.2.1, Ex.expr_wf.2.2, named_of (by decide +kernel)⟩
-- C105_unique: an input that is valid and not ambiguous, and its tree
example : askForest (parseForest fwd (bytes% "1+2") Ex.expr (str% "expr") 0 0) exprTree =
    some (true, some 1, some false, some 16, true) := by decide +kernel

/-- `s = a / b`, `a = "x"`, `b = "x"`. -/
def twoWays : Grammar := ⟨[⟨str% "s", [[Ex.one (Ex.ref (str% "a"))], [Ex.one (Ex.ref (str% "b"))]]⟩,
  ⟨str% "a", [[Ex.one (Ex.lit (str% "x"))]]⟩, ⟨str% "b", [[Ex.one (Ex.lit (str% "x"))]]⟩]⟩
/-- Its tree of `x` by the rule `n`. -/
def twoWaysTree (n : Str) : ParseTree := .node (str% "s") 0 1 [.node n 0 1 [.node [] 0 1 []]]

theorem twoWays_ok : NumValsWF twoWays ∧ NamesDistinct twoWays ∧ DistinctPrint twoWays ∧
    Spelt.Named (rulesReps (twoWays.rules ++ Core.rules)) :=
  ⟨numValsWF_of (by decide), namesDistinct_of (by decide), distinctPrint_of (by decide +kernel), named_of (by decide +kernel)⟩

theorem once {inp : Bytes} {e : Elem} {ts : List ParseTree} {i j : Nat} (h : ElemTrees inp e ts i j) :
    ConcatTrees inp [Ex.one e] ts i j := by
  have h1 := TimesTrees.succ e 0 ts [] i j j h (.zero e j)
  have h2 := RepTrees.mk 1 (some 1) e 1 _ i j (Nat.le_refl _) (fun m hm => by cases hm; exact Nat.le_refl _) h1
  have := ConcatTrees.cons _ [] _ [] i j j h2 (.nil j)
  rw [List.append_nil, List.append_nil] at this
  exact this

theorem twoWays_tree (n : Str) (hn : n = str% "a" ∨ n = str% "b") : WholeTree twoWays (str% "s") (bytes% "x") (twoWaysTree n) := by
  have hx : AltTrees (bytes% "x") [[Ex.one (Ex.lit (str% "x"))]] [.node [] 0 1 []] 0 1 :=
    .mk _ _ _ _ _ (List.mem_singleton_self _) (once (.term _ ['x'] 0 1 (.insensitive _ _ (.cons (.inl rfl) .nil)) ⟨by decide +kernel, by decide +kernel⟩))
  have hleaf : Tidy (.node [] 0 1 []) := .mk _ _ _ _ (fun _ => by omega) (by simp)
  have hmid : DerivationTree twoWays (bytes% "x") (.node n 0 1 [.node [] 0 1 []]) := by
    rcases hn with rfl | rfl
    · exact .rule ⟨str% "a", [[Ex.one (Ex.lit (str% "x"))]]⟩ 0 1 _ (getRule_resolves (by decide +kernel)) hx
        (by intro c hc; rw [List.mem_singleton.mp hc]; exact .leaf 0 1)
    · exact .rule ⟨str% "b", [[Ex.one (Ex.lit (str% "x"))]]⟩ 0 1 _ (getRule_resolves (by decide +kernel)) hx
        (by intro c hc; rw [List.mem_singleton.mp hc]; exact .leaf 0 1)
  have htop : AltTrees (bytes% "x") [[Ex.one (Ex.ref (str% "a"))], [Ex.one (Ex.ref (str% "b"))]] [.node n 0 1 [.node [] 0 1 []]] 0 1 := by
    refine .mk _ [Ex.one (Ex.ref n)] _ _ _ ?_ (once (.rule n n 0 1 _ ((sameName_iff _ _).mpr rfl)))
    rcases hn with rfl | rfl <;> simp
  refine ⟨.rule ⟨str% "s", _⟩ 0 1 _ (getRule_resolves (by decide +kernel)) htop ?_, ?_, (sameName_iff _ _).mpr rfl, ?_, rfl, rfl⟩
  · intro c hc; rw [List.mem_singleton.mp hc]; exact hmid
  · refine .mk _ _ _ _ (fun h => by simp at h) ?_
    intro c hc; rw [List.mem_singleton.mp hc]
    exact .mk _ _ _ _ (fun _ => by omega) (by intro c hc; rw [List.mem_singleton.mp hc]; exact hleaf)
  · show (str% "s") ≠ []; decide

-- C105_all: two derivation trees, so `NumTrees` is at least two
example : ∃ ds : List ParseTree, ds.Nodup ∧ ds.length = 2 ∧ ∀ d ∈ ds, WholeTree twoWays (str% "s") (bytes% "x") d := by
  refine ⟨[twoWaysTree (str% "a"), twoWaysTree (str% "b")], ?_, rfl, ?_⟩
  · simp [twoWaysTree]
  · intro d hd
    rcases List.mem_cons.mp hd with rfl | hd
    · exact twoWays_tree _ (.inl rfl)
    · rw [List.mem_singleton.mp hd]; exact twoWays_tree _ (.inr rfl)
example : (askForest (parseForest fwd (bytes% "x") twoWays (str% "s") 0 0) (twoWaysTree (str% "a"))).map (fun a => (a.1, a.2.1, a.2.2.1)) =
    some (true, some 2, some true) := by decide +kernel
-- C105_generated: a grammar that is accepted
example : (Cg.generate twoWays (str% "s")).isOk = true := by decide +kernel

end Props
end Verif
