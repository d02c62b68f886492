import Verif.ForestLemmas

/-! # What a derivation tree is -/

namespace Verif
open Spec

namespace Spec

/-- `inp` has the bytes `w` between `i` and `j`. -/
def Between (inp : Bytes) (i j : Nat) (w : Bytes) : Prop := w <+: inp.drop i ∧ j = i + w.length

mutual
/-- The trees, left to right, are a way element `e` covers `[i,j]`: one node for a rule, an unnamed childless node
for a terminal (which may be left out if its text is empty). -/
inductive ElemTrees (inp : Bytes) : Elem → List ParseTree → Nat → Nat → Prop
  | rule (n r i j ch) : SameName n r → ElemTrees inp (.rulename n) [.node r i j ch] i j
  | group (a ts i j) : AltTrees inp a ts i j → ElemTrees inp (.group a) ts i j
  | optNone (a i) : ElemTrees inp (.option a) [] i i
  | optSome (a ts i j) : AltTrees inp a ts i j → ElemTrees inp (.option a) ts i j
  | term (e cs i j) : Terminal e cs → Between inp i j (utf8 cs) → ElemTrees inp e [.node [] i j []] i j
  | empty (e i) : Terminal e [] → ElemTrees inp e [] i i
/-- Some concatenation of the alternation. -/
inductive AltTrees (inp : Bytes) : Alt → List ParseTree → Nat → Nat → Prop
  | mk (a c ts i j) : c ∈ a → ConcatTrees inp c ts i j → AltTrees inp a ts i j
/-- Its repetitions in turn. -/
inductive ConcatTrees (inp : Bytes) : Concat → List ParseTree → Nat → Nat → Prop
  | nil (i) : ConcatTrees inp [] [] i i
  | cons (r c ts us i j k) : RepTrees inp r ts i j → ConcatTrees inp c us j k → ConcatTrees inp (r :: c) (ts ++ us) i k
/-- A number of occurrences within the bounds. -/
inductive RepTrees (inp : Bytes) : Rep → List ParseTree → Nat → Nat → Prop
  | mk (mn mx e n ts i j) : mn ≤ n → (∀ m, mx = some m → n ≤ m) → TimesTrees inp e n ts i j →
      RepTrees inp ⟨mn, mx, e⟩ ts i j
/-- Exactly `n` occurrences. -/
inductive TimesTrees (inp : Bytes) : Elem → Nat → List ParseTree → Nat → Nat → Prop
  | zero (e i) : TimesTrees inp e 0 [] i i
  | succ (e n ts us i j k) : ElemTrees inp e ts i j → TimesTrees inp e n us j k → TimesTrees inp e (n + 1) (ts ++ us) i k
end

/-- Every node is an unnamed childless one, or its children are a way the rule it names covers its span. -/
inductive DerivationTree (g : Grammar) (inp : Bytes) : ParseTree → Prop
  | leaf (s e) : DerivationTree g inp (.node [] s e [])
  | rule (r s e ch) : Resolves g r.name r → AltTrees inp r.alt ch s e → (∀ c ∈ ch, DerivationTree g inp c) →
      DerivationTree g inp (.node r.name s e ch)

theorem DerivationTree.inv {g : Grammar} {inp : Bytes} {n : Str} {s e : Nat} {ch : List ParseTree}
    (h : DerivationTree g inp (.node n s e ch)) : (n = [] ∧ ch = []) ∨
      ∃ r : Rule, r.name = n ∧ Resolves g n r ∧ AltTrees inp r.alt ch s e ∧ ∀ c ∈ ch, DerivationTree g inp c := by
  generalize ht : ParseTree.node n s e ch = t at h
  cases h with
  | leaf s e => cases ht; exact .inl ⟨rfl, rfl⟩
  | rule r s e ch h1 h2 h3 => cases ht; exact .inr ⟨r, rfl, h1, h2, h3⟩

/-- `k` occurrences are allowed. -/
def CountOK (r : Rep) (k : Nat) : Prop := r.min ≤ k ∧ ∀ m, r.max = some m → k ≤ m

/-- If a text can be cut into occurrences of a repeated element in two ways, the bounds allow both or neither. -/
def CountsSettled (g : Grammar) : Prop :=
  ∀ r ∈ rulesReps (g.rules ++ Core.rules), ¬ (r.min = 1 ∧ r.max = some 1) → ∀ w k k', DerivesTimes g r.elem k w →
    DerivesTimes g r.elem k' w → CountOK r k → CountOK r k'

/-- Repetitions occur only as `1` or `*`. -/
def PlainReps (g : Grammar) : Prop :=
  ∀ r ∈ rulesReps (g.rules ++ Core.rules), (r.min = 1 ∧ r.max = some 1) ∨ (r.min = 0 ∧ r.max = none)

theorem PlainReps.settled {g : Grammar} (h : PlainReps g) : CountsSettled g := by
  intro r hr h1 w k k' _ _ _
  rcases h r hr with h2 | ⟨h2, h3⟩
  · exact absurd h2 h1
  · exact ⟨by omega, by simp [h3]⟩

end Spec

/-! ## From slot grammars to grammars -/

section
variable {g : Grammar} {root : Str} {sg : SG} {ix : List (Str × Nat)} {inp : Bytes}

theorem sameName_of_resolves {n : Str} {r : Rule} (h : Resolves g n r) : SameName n r.name := by
  cases h with
  | user _ h => exact h
  | core _ h _ => exact h

theorem utf8_eq_nil {cs : List Char} (h : utf8 cs = []) : cs = [] := by
  cases cs with
  | nil => rfl
  | cons c cs =>
    exfalso
    simp only [utf8, List.flatMap_cons, List.append_eq_nil_iff] at h
    have := congrArg List.length h.1
    have h2 := c.utf8Size_pos
    rw [String.length_utf8EncodeChar] at this
    simp at this
    omega

theorem symD_means (hl : Lowered g root sg ix) (hdp : DistinctPrint g) (hwf : NumValsWF g) {c rc i j : Nat} {s : Sym}
    (h : SymD sg inp c rc s i j) : SymMeans g root sg ix inp c rc s i j := by
  cases h with
  | term _ _ _ _ _ hm =>
    refine ⟨?_, ?_, ?_⟩
    · rintro rfl; simpa [matchSym] using hm
    · rintro e he rfl
      obtain ⟨cs, ht, hat⟩ := (matchElem_iff inp e he i j).mp hm
      exact ⟨cs, ht, by rwa [encodeAll_eq_utf8] at hat⟩
    · rintro o id _ rfl; simp [matchSym] at hm
  | nt _ _ n _ _ h =>
    refine ⟨nofun, nofun, ?_⟩
    rintro o id ho hs hk
    simp only [Sym.nt.injEq] at hs
    subst hs
    exact ntd_sound hl hdp hwf h ho hk

theorem seqD_means (hl : Lowered g root sg ix) (hdp : DistinctPrint g) (hwf : NumValsWF g) {c rc : Nat} {l : List Sym} :
    ∀ {i j : Nat}, SeqD sg inp c rc l i j → SeqMeans (SymMeans g root sg ix inp c rc) l i j := by
  induction l with
  | nil => intro i j h; cases h; rfl
  | cons s l ih =>
    intro i j h
    cases h with
    | cons _ _ _ _ _ m _ h1 h2 => exact ⟨m, symD_means hl hdp hwf h1, ih h2⟩

/-- What the trees of an object's nonterminal are. -/
def MeansT (inp : Bytes) (o : Obj) (ts : List ParseTree) (i j : Nat) (g : Grammar) : Prop :=
  match o with
  | .rule n => ∃ r, getRule n g.rules = some r ∧ AltTrees inp r.alt ts i j
  | .grp a => ElemTrees inp (.group a) ts i j
  | .opt a => ElemTrees inp (.option a) ts i j
  | .rep r => ∃ k w, TimesTrees inp r.elem k ts i j ∧ At inp i j w ∧ DerivesTimes g r.elem k w

/-- For a sequence. -/
inductive SeqMeansT (P : Sym → List ParseTree → Nat → Nat → Prop) : List Sym → List ParseTree → Nat → Nat → Prop
  | nil (i) : SeqMeansT P [] [] i i
  | cons (s rest ts us i j k) : P s ts i j → SeqMeansT P rest us j k → SeqMeansT P (s :: rest) (ts ++ us) i k

/-- For a symbol. -/
def SymMeansT (g : Grammar) (root : Str) (sg : SG) (ix : List (Str × Nat)) (inp : Bytes) (c : Nat) (s : Sym)
    (ts : List ParseTree) (i j : Nat) : Prop :=
  (∃ rc, SymMeans g root sg ix inp c rc s i j) ∧
  (s = .eps → i = j ∧ ts = []) ∧
  (∀ e, TermWF e → s = .term e → ElemTrees inp e ts i j) ∧
  (∀ o id, Occ g root o → s = .nt id → ix.lookup o.key = some id →
    match o with
    | .rule n => ElemTrees inp (.rulename n) ts i j
    | o => MeansT inp o ts i j g)

theorem at_unique {w w' : Bytes} {i j : Nat} (h : At inp i j w) (h' : At inp i j w') : w = w' := by
  obtain ⟨h1, h2⟩ := h
  obtain ⟨h3, h4⟩ := h'
  exact (List.prefix_of_prefix_length_le h1 h3 (by omega)).eq_of_length (by omega)

theorem symMeansT_elem {caller : Nat} {ts : List ParseTree} {i j : Nat} {e : Elem} {s : Sym} (hwf : NumValsWF g)
    (hocc : ∃ r ∈ allReps g, r.elem = e) (hse : SymElem ix e s) (h : SymMeansT g root sg ix inp caller s ts i j) :
    ElemTrees inp e ts i j := by
  obtain ⟨_, _, h2, h3⟩ := h
  obtain ⟨r, hr, he⟩ := hocc
  cases e with
  | rulename n =>
    obtain ⟨id, hs, hl⟩ := hse
    exact h3 (.rule n) id (Or.inr ⟨r, hr, he⟩) hs hl
  | group a =>
    obtain ⟨id, hs, hl⟩ := hse
    exact h3 (.grp a) id ⟨r, hr, he⟩ hs hl
  | option a =>
    obtain ⟨id, hs, hl⟩ := hse
    exact h3 (.opt a) id ⟨r, hr, he⟩ hs hl
  | charVal | numVal | proseVal =>
    have hw := allReps_wf hwf hr
    rw [he] at hw
    exact h2 _ hw hse

theorem symMeansT_rep {caller : Nat} (hnr : (sg.nt caller).isRep = false) {ts : List ParseTree} {i j : Nat} {r : Rep} {s : Sym} (hwf : NumValsWF g) (hpl : CountsSettled g)
    (hr : r ∈ allReps g) (hsr : SymRep ix r s) (h : SymMeansT g root sg ix inp caller s ts i j) : RepTrees inp r ts i j := by
  obtain ⟨mn, mx, e⟩ := r
  unfold SymRep at hsr
  by_cases h1 : mn = 1 ∧ mx = some 1
  · rw [if_pos (by exact h1)] at hsr
    have hd := symMeansT_elem hwf ⟨_, hr, rfl⟩ hsr h
    refine .mk _ _ _ 1 _ _ _ (by omega) ?_ ?_
    · intro m hm; rw [h1.2] at hm; simp at hm; omega
    · have := TimesTrees.succ e 0 ts [] i j j hd (.zero e j)
      simpa using this
  · rw [if_neg (by exact h1)] at hsr
    obtain ⟨id, hs, hl⟩ := hsr
    obtain ⟨k, w, hk, hw, hd⟩ := h.2.2.2 (.rep ⟨mn, mx, e⟩) id ⟨hr, h1⟩ hs hl
    obtain ⟨rc, hm⟩ := h.1
    have hm := hm.2.2 (.rep ⟨mn, mx, e⟩) id ⟨hr, h1⟩ hs hl
    rw [childRC_caller hnr] at hm
    obtain ⟨w', k', hw', hd', hb1, hb2⟩ := hm (fun _ _ => Nat.zero_le _)
    obtain rfl := at_unique hw hw'
    obtain ⟨h2, h3⟩ := hpl _ hr h1 w k' k hd' hd ⟨by simpa using hb1, fun m hm => by simpa using hb2 m hm⟩
    exact .mk _ _ _ k _ _ _ h2 h3 hk

theorem seqMeansT_concat {caller : Nat} (hnr : (sg.nt caller).isRep = false) (hwf : NumValsWF g) (hpl : CountsSettled g) {c : Concat} {raw : List Sym}
    (hf : List.Forall₂ (SymRep ix) c raw) : ∀ {ts : List ParseTree} {i j : Nat}, (∀ r ∈ c, r ∈ allReps g) →
    SeqMeansT (SymMeansT g root sg ix inp caller) raw ts i j → ConcatTrees inp c ts i j := by
  induction hf with
  | nil => intro ts i j _ h; cases h; exact .nil _
  | cons hr _ ih =>
    intro ts i j hm h
    cases h with
    | cons _ _ t u _ m _ h1 h2 =>
      exact .cons _ _ _ _ _ m _ (symMeansT_rep hnr hwf hpl (hm _ (by simp)) hr h1)
        (ih (fun r hr => hm r (List.mem_cons_of_mem _ hr)) h2)

theorem seqMeansT_alt {caller : Nat} (hnr : (sg.nt caller).isRep = false) {ts : List ParseTree} {i j : Nat} (hwf : NumValsWF g) (hpl : CountsSettled g) {a : Alt}
    {out : List (List Sym)} (hf : SymAlts ix a out) (hm : ∀ r ∈ altReps a, r ∈ allReps g) {p : List Sym}
    (hp : p ∈ out) (h : SeqMeansT (SymMeansT g root sg ix inp caller) p ts i j) : AltTrees inp a ts i j := by
  induction hf with
  | nil => simp at hp
  | @cons c q a out hcq _ ih =>
    rcases List.mem_cons.mp hp with rfl | hp
    · obtain ⟨raw, hraw, hp⟩ := hcq
      by_cases he : raw = []
      · rw [if_pos he] at hp
        subst he hp
        cases hraw
        cases h with
        | cons _ _ t u _ m _ h1 h2 =>
          cases h2
          obtain ⟨rfl, rfl⟩ := h1.2.1 rfl
          exact .mk _ [] _ _ _ (by simp) (.nil _)
      · rw [if_neg he] at hp
        subst hp
        exact .mk _ _ _ _ _ (by simp) (seqMeansT_concat hnr hwf hpl hraw
          (fun r hr => hm r (mem_altReps (List.mem_cons_self ..) hr)) h)
    · cases ih (fun r hr => hm r (by rw [altReps]; exact List.mem_append_right _ hr)) hp with
      | mk _ c' _ _ _ hc' hd => exact .mk _ c' _ _ _ (List.mem_cons_of_mem _ hc') hd

theorem prod_mem_alts {sg : SG} {s alt : Nat} (h : alt < (sg.alts s).length) : sg.prod ⟨s, alt, 0⟩ ∈ (sg.nt s).alts := by
  unfold SG.prod
  rw [List.getD_eq_getElem?_getD, List.getElem?_eq_getElem h]
  exact List.getElem_mem _

/-- The trees of a nonterminal, read in the grammar. -/
theorem ntt_sound (hl : Lowered g root sg ix) (hdp : DistinctPrint g) (hwf : NumValsWF g) (hpl : CountsSettled g)
    {s i j : Nat} {ts : List ParseTree} (h : NTT sg inp s ts i j) {o : Obj} (ho : Occ g root o)
    (hk : ix.lookup o.key = some s) : MeansT inp o ts i j g := by
  refine NTT.rec
    (motive_1 := fun s ts i j _ => ∀ o, Occ g root o → ix.lookup o.key = some s → MeansT inp o ts i j g)
    (motive_2 := fun c l ts i j _ => SeqMeansT (SymMeansT g root sg ix inp c) l ts i j)
    (motive_3 := fun c s ts i j _ => SymMeansT g root sg ix inp c s ts i j)
    (motive_4 := fun n ts i j _ => ∀ o, Occ g root o → ix.lookup o.key = some n →
      match o with
      | .rule m => ElemTrees inp (.rulename m) ts i j
      | o => MeansT inp o ts i j g) ?_ ?_ ?_ ?_ ?_ ?_ ?_ ?_ ?_ h o ho hk
  · intro s alt ts i j ha _ ih o ho hk
    have hc := hl.content hdp ho hk
    have hp := prod_mem_alts ha
    cases o with
    | rule n =>
      obtain ⟨hnr, hc⟩ := hc
      split at hc
      · rw [hc] at hp; simp at hp
      · rename_i r hr
        exact ⟨r, hr, seqMeansT_alt hnr hwf hpl hc.2.2 (fun p hp => mem_allReps hr hp) hp ih⟩
    | grp a =>
      obtain ⟨r, hr, he⟩ := ho
      exact .group _ _ _ _ (seqMeansT_alt hc.2.1 hwf hpl hc.2.2
        (fun p hp => allReps_closed hr (by rw [he]; exact hp)) hp ih)
    | opt a =>
      obtain ⟨r, hr, he⟩ := ho
      obtain ⟨_, hnr, out, hout, halts⟩ := hc
      rw [halts] at hp
      rcases List.mem_cons.mp hp with hp | hp
      · rw [hp] at ih
        cases ih with
        | cons _ _ t u _ m _ h1 h2 =>
          cases h2
          obtain ⟨rfl, rfl⟩ := h1.2.1 rfl
          exact .optNone _ _
      · exact .optSome _ _ _ _ (seqMeansT_alt hnr hwf hpl hout
          (fun p hp => allReps_closed hr (by rw [he]; exact hp)) hp ih)
    | rep r =>
      rcases hc.2 with ⟨m, _, _, hnt⟩ | ⟨_, hrep, hmin, hmax, id, es, hid, hes, halts⟩
      · rw [hnt] at hp; simp at hp
      · have hid' : id = s := by
          have := hk.symm.trans hid
          simpa using this.symm
        subst hid'
        rw [halts] at hp
        simp only [List.mem_cons, List.not_mem_nil, or_false] at hp
        rcases hp with hp | hp <;> rw [hp] at ih
        · cases ih with
          | cons _ _ t u _ m _ h1 h2 =>
            cases h2
            obtain ⟨rfl, rfl⟩ := h1.2.1 rfl
            exact ⟨0, [], .zero _ _, (at_nil _ _ _).mpr rfl, .zero _⟩
        · cases ih with
          | cons _ _ t u _ m _ h1 h2 =>
            cases h2 with
            | cons _ _ t2 u2 _ m2 _ h3 h4 =>
              cases h4
              rw [List.append_nil]
              obtain ⟨k, v, hk', hv, hdv⟩ := h3.2.2.2 (.rep r) id ho rfl hk
              obtain ⟨rc, hm⟩ := h1.1
              obtain ⟨u, hu, hdu⟩ := symMeans_elem hwf ⟨r, ho.1, rfl⟩ hes hm
              refine ⟨k + 1, u ++ v, .succ _ _ _ _ _ m _ (symMeansT_elem hwf ⟨r, ho.1, rfl⟩ hes h1) hk', ?_,
                .succ _ _ _ _ hdu hdv⟩
              rw [at_append]
              exact ⟨⟨hu.1, rfl⟩, hu.2 ▸ hv⟩
  · exact fun _ i => .nil i
  · exact fun _ s rest ts us i j k _ _ h1 h2 => .cons s rest ts us i j k h1 h2
  · exact fun c i => ⟨⟨0, symD_means hl hdp hwf (.term _ _ _ _ _ rfl)⟩, fun _ => ⟨rfl, rfl⟩, nofun, nofun⟩
  · intro c e i j hm
    refine ⟨⟨0, symD_means hl hdp hwf (.term _ _ _ _ _ hm)⟩, nofun, fun e' hw he => ?_, nofun⟩
    simp only [Sym.term.injEq] at he
    subst he
    obtain ⟨cs, h1, h2⟩ := (matchElem_iff inp _ hw _ _).mp hm
    rw [encodeAll_eq_utf8] at h2
    exact .term _ cs _ _ h1 h2
  · intro c e i hm
    refine ⟨⟨0, symD_means hl hdp hwf (.term _ _ _ _ _ hm)⟩, nofun, fun e' hw he => ?_, nofun⟩
    simp only [Sym.term.injEq] at he
    subst he
    obtain ⟨cs, h1, h2⟩ := (matchElem_iff inp _ hw _ _).mp hm
    rw [encodeAll_eq_utf8] at h2
    have h3 := h2.2
    obtain rfl : cs = [] := utf8_eq_nil (List.eq_nil_of_length_eq_zero (by omega))
    exact .empty _ _ h1
  · intro c rc n ts i j hd _ ih
    refine ⟨⟨rc, symD_means hl hdp hwf hd⟩, nofun, nofun, fun o id ho he hk => ?_⟩
    simp only [Sym.nt.injEq] at he
    subst he
    exact ih o ho hk
  · intro n i j ch hr o ho hk
    have hc := hl.content hdp ho hk
    cases o with
    | rule m =>
      obtain ⟨_, hc⟩ := hc
      split at hc
      · rw [hc] at hr; cases hr
      · rename_i q hq
        exact .rule _ _ _ _ _ (hc.2.1 ▸ sameName_of_resolves (getRule_resolves hq))
    | rep _ => rw [hc.1] at hr; cases hr
    | grp _ => rw [hc.1] at hr; cases hr
    | opt _ => rw [hc.1] at hr; cases hr
  · intro n ts i j hr _ ih o ho hk
    have hc := hl.content hdp ho hk
    have hm := ih o ho hk
    cases o with
    | rule m =>
      exfalso
      obtain ⟨_, hc⟩ := hc
      split at hc
      · rename_i h0
        obtain ⟨r, h1, _⟩ := hm
        rw [h0] at h1
        cases h1
      · rw [hc.1] at hr; cases hr
    | rep _ => exact hm
    | grp _ => exact hm
    | opt _ => exact hm

/-- The object behind a rule nonterminal. -/
theorem rule_obj (hl : Lowered g root sg ix) {n : Nat} (hr : (sg.nt n).isRule = true) :
    ∃ m q, Occ g root (.rule m) ∧ ix.lookup (ruleKey m) = some n ∧ getRule m g.rules = some q ∧
      (sg.nt n).ruleName = q.name := by
  have hlt : n < sg.nts.length := by
    by_contra hge
    rw [nt_out (by omega)] at hr
    cases hr
  obtain ⟨o, nt, ho, hk, hnt, hc⟩ := hl.filled n hlt
  have hkey := hl.good.index_get.mpr hk
  rw [nt_of_get? hnt] at hr ⊢
  cases o with
  | rule m =>
    obtain ⟨_, hc⟩ := hc
    split at hc
    · rw [hc] at hr; cases hr
    · rename_i q hq
      exact ⟨m, q, ho, hkey, hq, hc.2.1⟩
  | rep _ => rw [hc.1] at hr; cases hr
  | grp _ => rw [hc.1] at hr; cases hr
  | opt _ => rw [hc.1] at hr; cases hr

theorem resolves_sameName {m : Str} {q r : Rule} (hq : Resolves g m q) (hr : Resolves g m r) : Resolves g q.name r := by
  have hsame := (sameName_iff _ _).mp (sameName_of_resolves hq)
  have hmove : ∀ x, SameName m x ↔ SameName q.name x := fun x => by rw [sameName_iff, sameName_iff, hsame]
  cases hr with
  | user h1 h2 => exact .user h1 ((hmove _).mp h2)
  | core h1 h2 h3 => exact .core h1 ((hmove _).mp h2) fun u hu h => h3 u hu ((hmove _).mpr h)

theorem derivationTree_of (hl : Lowered g root sg ix) (hdp : DistinctPrint g) (hwf : NumValsWF g) (hpl : CountsSettled g)
    {t : ParseTree} (h : TreeOK sg inp t) : DerivationTree g inp t := by
  induction h with
  | leaf s e _ => exact .leaf s e
  | rule n s e ch hr _ _ _ hn ih =>
    obtain ⟨m, q, ho, hk, hq, hname⟩ := rule_obj hl hr
    obtain ⟨r, h1, h2⟩ := ntt_sound hl hdp hwf hpl hn ho hk
    rw [hname]
    rw [hq] at h1
    cases h1
    exact .rule q _ _ _ (resolves_sameName (getRule_resolves hq) (getRule_resolves hq)) h2 ih

end
end Verif
