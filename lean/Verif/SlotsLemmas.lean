import Verif.Slots
import Mathlib.Data.List.Nodup
import Mathlib.Data.List.Range

/-! # What lowering computes -/

namespace Verif
open Spec

/-- The things that become nonterminals. -/
inductive Obj where
  | rule (name : Str)
  | rep (r : Rep)
  | grp (a : Alt)
  | opt (a : Alt)

/-- The dedup key of an object. -/
def Obj.key : Obj → Str
  | .rule n => ruleKey n
  | .rep r => repKey r
  | .grp a => grpKey a
  | .opt a => optKey a

/-- All repetitions a lowering can meet. -/
def allReps (g : Grammar) : List Rep := rulesReps (g.rules ++ Core.rules)

/-- The name is the root or is referred to somewhere. -/
def OccName (g : Grammar) (root n : Str) : Prop := n = root ∨ ∃ r ∈ allReps g, r.elem = .rulename n

/-- The object occurs in the grammar. -/
def Occ (g : Grammar) (root : Str) : Obj → Prop
  | .rule n => OccName g root n
  | .rep r => r ∈ allReps g ∧ ¬ (r.min = 1 ∧ r.max = some 1)
  | .grp a => ∃ r ∈ allReps g, r.elem = .group a
  | .opt a => ∃ r ∈ allReps g, r.elem = .option a

/-- Symbol of an element under a finished index. -/
def SymElem (ix : List (Str × Nat)) : Elem → Sym → Prop
  | .rulename n, s => ∃ id, s = .nt id ∧ ix.lookup (ruleKey n) = some id
  | .group a, s => ∃ id, s = .nt id ∧ ix.lookup (grpKey a) = some id
  | .option a, s => ∃ id, s = .nt id ∧ ix.lookup (optKey a) = some id
  | e, s => s = .term e

/-- Symbol of a repetition. -/
def SymRep (ix : List (Str × Nat)) (r : Rep) (s : Sym) : Prop :=
  if r.min = 1 ∧ r.max = some 1 then SymElem ix r.elem s
  else ∃ id, s = .nt id ∧ ix.lookup (repKey r) = some id

/-- Production of a concatenation. -/
def SymConcat (ix : List (Str × Nat)) (c : Concat) (p : List Sym) : Prop :=
  ∃ raw, List.Forall₂ (SymRep ix) c raw ∧ p = if raw = [] then [.eps] else raw

/-- Productions of an alternation. -/
def SymAlts (ix : List (Str × Nat)) (a : Alt) (out : List (List Sym)) : Prop :=
  List.Forall₂ (SymConcat ix) a out

/-- What the nonterminal of an object must look like. -/
def Content (g : Grammar) (ix : List (Str × Nat)) : Obj → NT → Prop
  | .rule n, nt =>
    nt.isRep = false ∧
    match getRule n g.rules with
    | none => nt = {}
    | some r => nt.isRule = true ∧ nt.ruleName = r.name ∧ SymAlts ix r.alt nt.alts
  | .rep r, nt =>
    nt.isRule = false ∧
    ((∃ m, r.max = some m ∧ m < r.min ∧ nt = {}) ∨
    ((∀ m, r.max = some m → r.min ≤ m) ∧ nt.isRep = true ∧ nt.repMin = r.min ∧ nt.repMax = r.max ∧
      ∃ id s, ix.lookup (repKey r) = some id ∧ SymElem ix r.elem s ∧ nt.alts = [[.eps], [s, .nt id]]))
  | .grp a, nt => nt.isRule = false ∧ nt.isRep = false ∧ SymAlts ix a nt.alts
  | .opt a, nt => nt.isRule = false ∧ nt.isRep = false ∧ ∃ out, SymAlts ix a out ∧ nt.alts = [.eps] :: out

/-! ## Monotonicity -/

theorem lookup_prefix {ix ix' : List (Str × Nat)} (h : ix <+: ix') {k : Str} {id : Nat}
    (hk : ix.lookup k = some id) : ix'.lookup k = some id := by
  obtain ⟨t, rfl⟩ := h
  rw [List.lookup_append, hk]; rfl

theorem SymElem.mono {ix ix' : List (Str × Nat)} (h : ix <+: ix') {e : Elem} {s : Sym}
    (hs : SymElem ix e s) : SymElem ix' e s := by
  cases e <;> simp only [SymElem] at hs ⊢
  case rulename | group | option =>
    obtain ⟨id, h1, h2⟩ := hs
    exact ⟨id, h1, lookup_prefix h h2⟩
  all_goals exact hs

theorem SymRep.mono {ix ix' : List (Str × Nat)} (h : ix <+: ix') {r : Rep} {s : Sym}
    (hs : SymRep ix r s) : SymRep ix' r s := by
  unfold SymRep at hs ⊢
  split_ifs at hs ⊢ with hc
  · exact hs.mono h
  · obtain ⟨id, h1, h2⟩ := hs
    exact ⟨id, h1, lookup_prefix h h2⟩

theorem SymConcat.mono {ix ix' : List (Str × Nat)} (h : ix <+: ix') {c : Concat} {p : List Sym}
    (hs : SymConcat ix c p) : SymConcat ix' c p := by
  obtain ⟨raw, h1, h2⟩ := hs
  exact ⟨raw, h1.imp fun _ _ h' => h'.mono h, h2⟩

theorem SymAlts.mono {ix ix' : List (Str × Nat)} (h : ix <+: ix') {a : Alt} {out : List (List Sym)}
    (hs : SymAlts ix a out) : SymAlts ix' a out := List.Forall₂.imp (fun _ _ h' => h'.mono h) hs

theorem Content.mono {g : Grammar} {ix ix' : List (Str × Nat)} (h : ix <+: ix') {o : Obj} {nt : NT}
    (hc : Content g ix o nt) : Content g ix' o nt := by
  cases o with
  | rule n =>
    simp only [Content] at hc ⊢
    refine ⟨hc.1, ?_⟩
    have hc := hc.2
    split at hc
    · exact hc
    · exact ⟨hc.1, hc.2.1, hc.2.2.mono h⟩
  | rep r =>
    simp only [Content] at hc ⊢
    refine ⟨hc.1, hc.2.imp id ?_⟩
    rintro ⟨h1, h2, h3, h4, id, s, h5, h6, h7⟩
    exact ⟨h1, h2, h3, h4, id, s, lookup_prefix h h5, h6.mono h, h7⟩
  | grp a => exact ⟨hc.1, hc.2.1, hc.2.2.mono h⟩
  | opt a =>
    obtain ⟨h1, h2, out, h3, h4⟩ := hc
    exact ⟨h1, h2, out, h3.mono h, h4⟩

/-! ## State invariant -/

/-- Ids are handed out in order, one per key. -/
structure Good (st : LowerSt) : Prop where
  ids : st.index.map Prod.snd = List.range st.nts.length
  keys : (st.index.map Prod.fst).Nodup

theorem Good.length {st : LowerSt} (h : Good st) : st.index.length = st.nts.length := by
  have := congrArg List.length h.ids
  simpa using this

theorem lookup_eq_none_iff' {ix : List (Str × Nat)} {k : Str} :
    ix.lookup k = none ↔ k ∉ ix.map Prod.fst := by
  induction ix with
  | nil => simp
  | cons a t ih =>
    obtain ⟨k', id⟩ := a
    rw [List.lookup_cons]
    by_cases h : k = k'
    · simp [h]
    · have : (k == k') = false := by simp [h]
      rw [this]
      simp only [List.map_cons, List.mem_cons, h, false_or]
      exact ih

theorem lookup_of_mem {ix : List (Str × Nat)} (hn : (ix.map Prod.fst).Nodup) {k : Str} {id : Nat}
    (h : (k, id) ∈ ix) : ix.lookup k = some id := by
  induction ix with
  | nil => simp at h
  | cons a t ih =>
    obtain ⟨k', id'⟩ := a
    rw [List.lookup_cons]
    simp only [List.map_cons, List.nodup_cons] at hn
    rcases List.mem_cons.mp h with h | h
    · obtain ⟨rfl, rfl⟩ := Prod.mk.inj h
      simp
    · have hne : k ≠ k' := by
        intro hkk
        rw [← hkk] at hn
        exact hn.1 (List.mem_map.mpr ⟨(k, id), h, rfl⟩)
      have : (k == k') = false := by simp [hne]
      rw [this]
      exact ih hn.2 h

theorem mem_of_lookup {ix : List (Str × Nat)} {k : Str} {id : Nat} (h : ix.lookup k = some id) :
    (k, id) ∈ ix := by
  induction ix with
  | nil => simp at h
  | cons a t ih =>
    obtain ⟨k', id'⟩ := a
    rw [List.lookup_cons] at h
    by_cases hk : k = k'
    · simp [hk] at h ⊢
      exact Or.inl h.symm
    · have : (k == k') = false := by simp [hk]
      rw [this] at h
      exact List.mem_cons_of_mem _ (ih h)

theorem Good.index_get {st : LowerSt} (h : Good st) {k : Str} {id : Nat} :
    st.index.lookup k = some id ↔ st.index[id]? = some (k, id) := by
  constructor
  · intro hl
    obtain ⟨n, hn, he⟩ := List.getElem_of_mem (mem_of_lookup hl)
    have h1 : (st.index.map Prod.snd)[n]? = some id := by simp [hn, he]
    rw [h.ids] at h1
    have h2 : n < st.nts.length := by have := h.length; omega
    rw [List.getElem?_range h2] at h1
    simp only [Option.some.injEq] at h1
    subst h1
    rw [List.getElem?_eq_getElem hn, he]
  · intro hg
    exact lookup_of_mem h.keys (List.mem_of_getElem? hg)

theorem Good.lookup_lt {st : LowerSt} (h : Good st) {k : Str} {id : Nat}
    (hl : st.index.lookup k = some id) : id < st.nts.length := by
  have := h.index_get.mp hl
  have h2 := (List.getElem?_eq_some_iff.mp this).1
  have := h.length
  omega

/-- Nonterminal `n` has the content of some object of the grammar. -/
def Filled (g : Grammar) (root : Str) (st : LowerSt) (n : Nat) : Prop :=
  ∃ o nt, Occ g root o ∧ st.index[n]? = some (o.key, n) ∧ st.nts[n]? = some nt ∧ Content g st.index o nt

/-- What a lowering call from `st` to `st'` guarantees. -/
structure Post (g : Grammar) (root : Str) (max : Nat) (st st' : LowerSt) : Prop where
  good : Good st'
  nts : st.nts <+: st'.nts
  index : st.index <+: st'.index
  over : st.over = true → st'.over = true
  content : st'.over = false → ∀ n, st.nts.length ≤ n → n < st'.nts.length → Filled g root st' n
  budget : st'.over = false → 0 < max → st'.nts.length = st.nts.length ∨ st'.nts.length < max

theorem Post.refl {g : Grammar} {root : Str} {max : Nat} {st : LowerSt} (h : Good st) : Post g root max st st :=
  ⟨h, List.prefix_rfl, List.prefix_rfl, id, fun _ n h1 h2 => by omega, fun _ _ => Or.inl rfl⟩

theorem Filled.mono {g : Grammar} {root : Str} {st st' : LowerSt} {n : Nat} (h1 : st.nts <+: st'.nts)
    (h2 : st.index <+: st'.index) (hf : Filled g root st n) : Filled g root st' n := by
  obtain ⟨o, nt, a, b, c, d⟩ := hf
  refine ⟨o, nt, a, ?_, ?_, d.mono h2⟩
  · obtain ⟨t, ht⟩ := h2
    rw [← ht, List.getElem?_append_left (List.getElem?_eq_some_iff.mp b).1, b]
  · obtain ⟨t, ht⟩ := h1
    rw [← ht, List.getElem?_append_left (List.getElem?_eq_some_iff.mp c).1, c]

theorem Post.not_over {g : Grammar} {root : Str} {max : Nat} {a b : LowerSt} (h : Post g root max a b)
    (hb : b.over = false) : a.over = false := by
  cases ha : a.over
  · rfl
  · rw [h.over ha] at hb; exact hb

theorem Post.trans {g : Grammar} {root : Str} {max : Nat} {a b c : LowerSt} (h1 : Post g root max a b)
    (h2 : Post g root max b c) : Post g root max a c where
  good := h2.good
  nts := h1.nts.trans h2.nts
  index := h1.index.trans h2.index
  over := h2.over ∘ h1.over
  content := by
    intro ho n hn hn'
    by_cases hb : n < b.nts.length
    · exact (h1.content (h2.not_over ho) n hn hb).mono h2.nts h2.index
    · exact h2.content ho n (by omega) hn'
  budget := by
    intro ho hm
    have := h1.budget (h2.not_over ho) hm
    have := h2.budget ho hm
    omega

/-- The state right after reserving a fresh key and checking the budget. -/
def fresh (max : Nat) (key : Str) (st : LowerSt) : LowerSt :=
  budgetExceeded max
    { st with nts := st.nts ++ [{}], index := st.index ++ [(key, st.nts.length)] }

theorem fresh_nts (max : Nat) (key : Str) (st : LowerSt) : (fresh max key st).nts = st.nts ++ [({} : NT)] := by
  unfold fresh budgetExceeded; split <;> rfl
theorem fresh_index (max : Nat) (key : Str) (st : LowerSt) :
    (fresh max key st).index = st.index ++ [(key, st.nts.length)] := by
  unfold fresh budgetExceeded; split <;> rfl
theorem fresh_over (max : Nat) (key : Str) (st : LowerSt) (h : st.over = true) :
    (fresh max key st).over = true := by
  unfold fresh budgetExceeded; split <;> simp [h]
theorem fresh_not_over (max : Nat) (key : Str) (st : LowerSt) (h : (fresh max key st).over = false)
    (hm : 0 < max) : (fresh max key st).nts.length < max := by
  unfold fresh budgetExceeded at h ⊢
  split_ifs at h ⊢ with hc
  push Not at hc
  exact hc hm

theorem fresh_good {max : Nat} {key : Str} {st : LowerSt} (h : Good st)
    (hk : st.index.lookup key = none) : Good (fresh max key st) where
  ids := by
    rw [fresh_nts, fresh_index]
    simp [h.ids, List.range_succ]
  keys := by
    rw [fresh_index]
    simp only [List.map_append, List.map_cons, List.map_nil]
    rw [List.nodup_append]
    refine ⟨h.keys, by simp, ?_⟩
    intro a ha b hb
    simp at hb
    subst hb
    rintro rfl
    exact (lookup_eq_none_iff'.mp hk) ha

theorem reserve_cases (key : Str) (st : LowerSt) (max : Nat) :
    (∃ id, st.index.lookup key = some id ∧ reserve key st = (id, true, st)) ∨
    (st.index.lookup key = none ∧ ∃ st1, reserve key st = (st.nts.length, false, st1) ∧
      budgetExceeded max st1 = fresh max key st) := by
  unfold reserve
  cases h : st.index.lookup key with
  | none => exact Or.inr ⟨rfl, _, rfl, rfl⟩
  | some id => exact Or.inl ⟨id, rfl, rfl⟩

/-- A fresh nonterminal that is left empty, either because the budget is exceeded or on purpose. -/
theorem post_stop {g : Grammar} {root : Str} {max : Nat} {o : Obj} {st : LowerSt} (h : Good st)
    (hk : st.index.lookup o.key = none)
    (hc : (fresh max o.key st).over = false → Occ g root o ∧ Content g (fresh max o.key st).index o {}) :
    Post g root max st (fresh max o.key st) where
  good := fresh_good h hk
  nts := by rw [fresh_nts]; exact List.prefix_append _ _
  index := by rw [fresh_index]; exact List.prefix_append _ _
  over := fresh_over _ _ _
  content := by
    intro ho n hn hn'
    have hn2 : n = st.nts.length := by rw [fresh_nts] at hn'; simp at hn'; omega
    subst hn2
    obtain ⟨h1, h2⟩ := hc ho
    refine ⟨o, {}, h1, ?_, ?_, h2⟩
    · rw [fresh_index, List.getElem?_append_right (by rw [h.length])]
      simp [h.length]
    · rw [fresh_nts]; simp
  budget := fun ho hm => Or.inr (fresh_not_over _ _ _ ho hm)

/-- A fresh nonterminal whose content is assigned after lowering its parts. -/
theorem post_set {g : Grammar} {root : Str} {max : Nat} {o : Obj} {st st2 : LowerSt} (h : Good st)
    (hp : Post g root max (fresh max o.key st) st2) (n : NT)
    (hc : st2.over = false → Occ g root o ∧ Content g st2.index o n) :
    Post g root max st (setNT st.nts.length n st2) where
  good := ⟨by simpa [setNT] using hp.good.ids, hp.good.keys⟩
  nts := by
    obtain ⟨t, ht⟩ := hp.nts
    rw [fresh_nts] at ht
    refine ⟨n :: t, ?_⟩
    simp only [setNT, ← ht]
    simp
  index := by
    refine List.IsPrefix.trans ?_ hp.index
    rw [fresh_index]; exact List.prefix_append _ _
  over := fun ho => hp.over (fresh_over _ _ _ ho)
  content := by
    intro ho m hm hm'
    have ho : st2.over = false := ho
    simp only [setNT, List.length_set] at hm'
    have hlen : (fresh max o.key st).nts.length = st.nts.length + 1 := by rw [fresh_nts]; simp
    rcases Nat.eq_or_lt_of_le hm with rfl | hlt
    · obtain ⟨h1, h2⟩ := hc ho
      refine ⟨o, n, h1, ?_, ?_, h2⟩
      · obtain ⟨t, ht⟩ := hp.index
        rw [fresh_index] at ht
        simp only [setNT, ← ht]
        rw [List.append_assoc, List.getElem?_append_right (by rw [h.length])]
        simp [h.length]
      · simp only [setNT]
        rw [List.getElem?_set_self hm']
    · obtain ⟨o', nt', a, b, c, d⟩ := hp.content ho m (by omega) hm'
      refine ⟨o', nt', a, b, ?_, d⟩
      simp only [setNT]
      rw [List.getElem?_set_ne (by omega), c]
  budget := by
    intro ho hm
    have h1 := hp.budget ho hm
    have h2 := fresh_not_over _ _ _ (hp.not_over ho) hm
    simp only [setNT, List.length_set]
    omega

/-! ## The main induction -/

/-- Guarantee of a `lowerer.rule` implementation. -/
def RuleSpec (g : Grammar) (root : Str) (max : Nat) (rule : LowerRuleFn) : Prop :=
  ∀ name st id st', OccName g root name → Good st → rule name st = some (id, st') →
    Post g root max st st' ∧ (st'.over = false → st'.index.lookup (ruleKey name) = some id)

mutual
theorem lowerAlts_spec {g : Grammar} {root : Str} {max : Nat} {rule : LowerRuleFn} (hr : RuleSpec g root max rule) :
    (a : List (List Rep)) → (∀ r ∈ altReps a, r ∈ allReps g) → ∀ st out st', Good st →
      lowerAlts rule max a st = some (out, st') →
      Post g root max st st' ∧ (st'.over = false → SymAlts st'.index a out)
  | [], _, st, out, st', hg, h => by
    simp only [lowerAlts, Option.some.injEq, Prod.mk.injEq] at h
    obtain ⟨rfl, rfl⟩ := h
    exact ⟨.refl hg, fun _ => .nil⟩
  | c :: a, ho, st, out, st', hg, h => by
    simp only [lowerAlts] at h
    split at h
    · simp at h
    rename_i seq st1 h1
    split at h
    · simp at h
    rename_i out' st2 h2
    simp only [Option.some.injEq, Prod.mk.injEq] at h
    obtain ⟨rfl, rfl⟩ := h
    obtain ⟨p1, q1⟩ := lowerConcat_spec hr c (fun r hr => ho r (by simp [altReps, hr])) st seq st1 hg h1
    obtain ⟨p2, q2⟩ := lowerAlts_spec hr a (fun r hr => ho r (by simp [altReps, hr])) st1 out' st2
      p1.good h2
    refine ⟨p1.trans p2, fun hov => ?_⟩
    have hov1 := p2.not_over hov
    exact .cons ⟨seq, (q1 hov1).imp fun _ _ h' => h'.mono p2.index, rfl⟩ (q2 hov)
theorem lowerConcat_spec {g : Grammar} {root : Str} {max : Nat} {rule : LowerRuleFn} (hr : RuleSpec g root max rule) :
    (c : List Rep) → (∀ r ∈ concatReps c, r ∈ allReps g) → ∀ st out st', Good st →
      lowerConcat rule max c st = some (out, st') →
      Post g root max st st' ∧ (st'.over = false → List.Forall₂ (SymRep st'.index) c out)
  | [], _, st, out, st', hg, h => by
    simp only [lowerConcat, Option.some.injEq, Prod.mk.injEq] at h
    obtain ⟨rfl, rfl⟩ := h
    exact ⟨.refl hg, fun _ => .nil⟩
  | r :: c, ho, st, out, st', hg, h => by
    simp only [lowerConcat] at h
    split at h
    · simp at h
    rename_i s st1 h1
    split at h
    · simp at h
    rename_i out' st2 h2
    simp only [Option.some.injEq, Prod.mk.injEq] at h
    obtain ⟨rfl, rfl⟩ := h
    obtain ⟨p1, q1⟩ := lowerRep_spec hr r (fun r hr => ho r (by simp [concatReps, hr])) st s st1 hg h1
    obtain ⟨p2, q2⟩ := lowerConcat_spec hr c (fun r hr => ho r (by simp [concatReps, hr])) st1 out' st2
      p1.good h2
    refine ⟨p1.trans p2, fun hov => ?_⟩
    have hov1 := p2.not_over hov
    exact .cons ((q1 hov1).mono p2.index) (q2 hov)
theorem lowerRep_spec {g : Grammar} {root : Str} {max : Nat} {rule : LowerRuleFn} (hr : RuleSpec g root max rule) :
    (r : Rep) → (∀ r' ∈ repReps r, r' ∈ allReps g) → ∀ st s st', Good st →
      lowerRep rule max r st = some (s, st') →
      Post g root max st st' ∧ (st'.over = false → SymRep st'.index r s)
  | ⟨mn, mx, e⟩, ho, st, s, st', hg, h => by
    simp only [lowerRep] at h
    have hocc : Rep.mk mn mx e ∈ allReps g := ho _ (by simp [repReps])
    have hoe : ∀ r' ∈ elemReps e, r' ∈ allReps g := fun r' hr' => ho r' (by simp [repReps, hr'])
    by_cases h11 : mn = 1 ∧ mx = some 1
    · rw [if_pos h11] at h
      obtain ⟨p, q⟩ := lowerElem_spec hr e hoe ⟨_, hocc, rfl⟩ st s st' hg h
      refine ⟨p, fun hov => ?_⟩
      unfold SymRep
      exact (if_pos h11).mpr (q hov)
    · rw [if_neg h11] at h
      have h11' : ¬ ((Rep.mk mn mx e).min = 1 ∧ (Rep.mk mn mx e).max = some 1) := h11
      rcases reserve_cases (repKey ⟨mn, mx, e⟩) st max with ⟨id, hl, hres⟩ | ⟨hl, st1, hres, hfr⟩
      · rw [hres] at h
        simp only [Option.some.injEq, Prod.mk.injEq] at h
        obtain ⟨rfl, rfl⟩ := h
        refine ⟨.refl hg, fun _ => ?_⟩
        unfold SymRep
        rw [if_neg h11']
        exact ⟨id, rfl, hl⟩
      · rw [hres] at h
        simp only [hfr] at h
        have hkey : (Obj.rep ⟨mn, mx, e⟩).key = repKey ⟨mn, mx, e⟩ := rfl
        have hself : (fresh max (repKey ⟨mn, mx, e⟩) st).index.lookup (repKey ⟨mn, mx, e⟩)
            = some st.nts.length := by
          rw [fresh_index, List.lookup_append, hl]; simp
        have hsym : ∀ st3 : LowerSt, (fresh max (repKey ⟨mn, mx, e⟩) st).index <+: st3.index →
            SymRep st3.index ⟨mn, mx, e⟩ (.nt st.nts.length) := by
          intro st3 h3
          unfold SymRep
          rw [if_neg h11']
          exact ⟨_, rfl, lookup_prefix h3 hself⟩
        split_ifs at h with hov hlt
        · simp only [Option.some.injEq, Prod.mk.injEq] at h
          obtain ⟨rfl, rfl⟩ := h
          refine ⟨post_stop (o := .rep ⟨mn, mx, e⟩) hg hl ?_, fun _ => hsym _ List.prefix_rfl⟩
          intro hno
          rw [hkey, hov] at hno; simp at hno
        · simp only [Option.some.injEq, Prod.mk.injEq] at h
          obtain ⟨rfl, rfl⟩ := h
          refine ⟨post_stop (o := .rep ⟨mn, mx, e⟩) hg hl ?_, fun _ => hsym _ List.prefix_rfl⟩
          intro _
          refine ⟨⟨hocc, h11'⟩, rfl, Or.inl ?_⟩
          cases mx with
          | none => simp [badBounds] at hlt
          | some m => exact ⟨m, rfl, by simpa [badBounds] using hlt, rfl⟩
        · split at h
          · simp at h
          rename_i esym st2 h2
          simp only [Option.some.injEq, Prod.mk.injEq] at h
          obtain ⟨rfl, rfl⟩ := h
          obtain ⟨p, q⟩ := lowerElem_spec hr e hoe ⟨_, hocc, rfl⟩ _ esym st2 (fresh_good hg hl) h2
          refine ⟨post_set (o := .rep ⟨mn, mx, e⟩) hg p _ ?_, fun _ => hsym _ p.index⟩
          intro hno
          refine ⟨⟨hocc, h11'⟩, rfl, Or.inr ⟨?_, rfl, rfl, rfl, _, esym, lookup_prefix p.index hself,
            q hno, rfl⟩⟩
          intro m hm
          have hm' : mx = some m := hm
          subst hm'
          simp [badBounds] at hlt
          exact hlt
theorem lowerElem_spec {g : Grammar} {root : Str} {max : Nat} {rule : LowerRuleFn} (hr : RuleSpec g root max rule) :
    (e : Elem) → (∀ r' ∈ elemReps e, r' ∈ allReps g) → (∃ r ∈ allReps g, r.elem = e) → ∀ st s st', Good st →
      lowerElem rule max e st = some (s, st') →
      Post g root max st st' ∧ (st'.over = false → SymElem st'.index e s)
  | .rulename n, _, hex, st, s, st', hg, h => by
    simp only [lowerElem] at h
    split at h
    · simp at h
    rename_i id st1 h1
    simp only [Option.some.injEq, Prod.mk.injEq] at h
    obtain ⟨rfl, rfl⟩ := h
    obtain ⟨p, q⟩ := hr n st id st1 (Or.inr hex) hg h1
    exact ⟨p, fun hov => ⟨id, rfl, q hov⟩⟩
  | .group a, ho, hex, st, s, st', hg, h => by
    simp only [lowerElem] at h
    have hoa : ∀ r' ∈ altReps a, r' ∈ allReps g := fun r' hr' => ho r' (by simpa [elemReps] using hr')
    rcases reserve_cases (grpKey a) st max with ⟨id, hl, hres⟩ | ⟨hl, st1, hres, hfr⟩
    · rw [hres] at h
      simp only [Option.some.injEq, Prod.mk.injEq] at h
      obtain ⟨rfl, rfl⟩ := h
      exact ⟨.refl hg, fun _ => ⟨id, rfl, hl⟩⟩
    · rw [hres] at h
      simp only [hfr] at h
      have hkey : (Obj.grp a).key = grpKey a := rfl
      have hself : (fresh max (grpKey a) st).index.lookup (grpKey a) = some st.nts.length := by
        rw [fresh_index, List.lookup_append, hl]; simp
      split_ifs at h with hov
      · simp only [Option.some.injEq, Prod.mk.injEq] at h
        obtain ⟨rfl, rfl⟩ := h
        refine ⟨post_stop (o := .grp a) hg hl ?_, fun _ => ⟨_, rfl, hself⟩⟩
        intro hno
        rw [hkey, hov] at hno; simp at hno
      · split at h
        · simp at h
        rename_i out st2 h2
        simp only [Option.some.injEq, Prod.mk.injEq] at h
        obtain ⟨rfl, rfl⟩ := h
        obtain ⟨p, q⟩ := lowerAlts_spec hr a hoa _ out st2 (fresh_good hg hl) h2
        refine ⟨post_set (o := .grp a) hg p _ ?_, fun _ => ⟨_, rfl, lookup_prefix p.index hself⟩⟩
        intro hno
        exact ⟨hex, rfl, rfl, q hno⟩
  | .option a, ho, hex, st, s, st', hg, h => by
    simp only [lowerElem] at h
    have hoa : ∀ r' ∈ altReps a, r' ∈ allReps g := fun r' hr' => ho r' (by simpa [elemReps] using hr')
    rcases reserve_cases (optKey a) st max with ⟨id, hl, hres⟩ | ⟨hl, st1, hres, hfr⟩
    · rw [hres] at h
      simp only [Option.some.injEq, Prod.mk.injEq] at h
      obtain ⟨rfl, rfl⟩ := h
      exact ⟨.refl hg, fun _ => ⟨id, rfl, hl⟩⟩
    · rw [hres] at h
      simp only [hfr] at h
      have hkey : (Obj.opt a).key = optKey a := rfl
      have hself : (fresh max (optKey a) st).index.lookup (optKey a) = some st.nts.length := by
        rw [fresh_index, List.lookup_append, hl]; simp
      split_ifs at h with hov
      · simp only [Option.some.injEq, Prod.mk.injEq] at h
        obtain ⟨rfl, rfl⟩ := h
        refine ⟨post_stop (o := .opt a) hg hl ?_, fun _ => ⟨_, rfl, hself⟩⟩
        intro hno
        rw [hkey, hov] at hno; simp at hno
      · split at h
        · simp at h
        rename_i out st2 h2
        simp only [Option.some.injEq, Prod.mk.injEq] at h
        obtain ⟨rfl, rfl⟩ := h
        obtain ⟨p, q⟩ := lowerAlts_spec hr a hoa _ out st2 (fresh_good hg hl) h2
        refine ⟨post_set (o := .opt a) hg p _ ?_, fun _ => ⟨_, rfl, lookup_prefix p.index hself⟩⟩
        intro hno
        exact ⟨hex, rfl, rfl, out, q hno, rfl⟩
  | .charVal a b, _, _, st, s, st', hg, h => by
    simp only [lowerElem, Option.some.injEq, Prod.mk.injEq] at h
    obtain ⟨rfl, rfl⟩ := h
    exact ⟨.refl hg, fun _ => rfl⟩
  | .numVal a b c, _, _, st, s, st', hg, h => by
    simp only [lowerElem, Option.some.injEq, Prod.mk.injEq] at h
    obtain ⟨rfl, rfl⟩ := h
    exact ⟨.refl hg, fun _ => rfl⟩
  | .proseVal a, _, _, st, s, st', hg, h => by
    simp only [lowerElem, Option.some.injEq, Prod.mk.injEq] at h
    obtain ⟨rfl, rfl⟩ := h
    exact ⟨.refl hg, fun _ => rfl⟩
end

theorem getRule_mem {n : Str} {rs : List Rule} {r : Rule} (h : getRule n rs = some r) :
    r ∈ rs ++ Core.rules := by
  unfold getRule at h
  rw [Option.or_eq_some_iff] at h
  rcases h with h | ⟨_, h⟩
  · exact List.mem_append_left _ (List.mem_of_find?_eq_some h)
  · exact List.mem_append_right _ (List.mem_of_find?_eq_some h)

theorem mem_allReps {g : Grammar} {n : Str} {r : Rule} (h : getRule n g.rules = some r) {p : Rep}
    (hp : p ∈ altReps r.alt) : p ∈ allReps g :=
  List.mem_flatMap.mpr ⟨r, getRule_mem h, hp⟩

theorem lowerRule_spec (g : Grammar) (root : Str) (max fuel : Nat) :
    RuleSpec g root max (lowerRule g max fuel) := by
  induction fuel with
  | zero => intro name st id st' _ _ h; simp [lowerRule] at h
  | succ fuel ih =>
    intro name st id st' hocc hg h
    simp only [lowerRule] at h
    have hkey : (Obj.rule name).key = ruleKey name := rfl
    rcases reserve_cases (ruleKey name) st max with ⟨id, hl, hres⟩ | ⟨hl, st1, hres, hfr⟩
    · rw [hres] at h
      simp only [Option.some.injEq, Prod.mk.injEq] at h
      obtain ⟨rfl, rfl⟩ := h
      exact ⟨.refl hg, fun _ => hl⟩
    · rw [hres] at h
      simp only [hfr] at h
      have hself : (fresh max (ruleKey name) st).index.lookup (ruleKey name) = some st.nts.length := by
        rw [fresh_index, List.lookup_append, hl]; simp
      split_ifs at h with hov
      · simp only [Option.some.injEq, Prod.mk.injEq] at h
        obtain ⟨rfl, rfl⟩ := h
        refine ⟨post_stop (o := .rule name) hg hl ?_, fun _ => hself⟩
        intro hno
        rw [hkey, hov] at hno; simp at hno
      · split at h
        · rename_i hnone
          simp only [Option.some.injEq, Prod.mk.injEq] at h
          obtain ⟨rfl, rfl⟩ := h
          refine ⟨post_stop (o := .rule name) hg hl ?_, fun _ => hself⟩
          intro _
          exact ⟨hocc, rfl, by rw [hnone]⟩
        · rename_i r hsome
          split at h
          · simp at h
          rename_i out st2 h2
          simp only [Option.some.injEq, Prod.mk.injEq] at h
          obtain ⟨rfl, rfl⟩ := h
          obtain ⟨p, q⟩ := lowerAlts_spec ih r.alt (fun _ hp => mem_allReps hsome hp) _ out st2
            (fresh_good hg hl) h2
          refine ⟨post_set (o := .rule name) hg p _ ?_, fun _ => lookup_prefix p.index hself⟩
          intro hno
          refine ⟨hocc, rfl, ?_⟩
          rw [hsome]
          exact ⟨rfl, rfl, q hno⟩

/-! ## Termination -/

/-- Number of rules whose name has not been reserved yet. -/
def unseen (g : Grammar) (st : LowerSt) : Nat :=
  ((g.rules ++ Core.rules).filter fun r => (st.index.lookup (ruleKey r.name)).isNone).length

theorem unseen_anti {g : Grammar} {st st' : LowerSt} (h : st.index <+: st'.index) :
    unseen g st' ≤ unseen g st := by
  unfold unseen
  apply List.Sublist.length_le
  apply List.monotone_filter_right
  intro r hr
  simp only [Option.isNone_iff_eq_none] at hr ⊢
  cases hl : st.index.lookup (ruleKey r.name) with
  | none => rfl
  | some id => rw [lookup_prefix h hl] at hr; simp at hr

theorem canon_of_getRule {n : Str} {rs : List Rule} {r : Rule} (h : getRule n rs = some r) :
    canon n = canon r.name := by
  unfold getRule at h
  rw [Option.or_eq_some_iff] at h
  rcases h with h | ⟨_, h⟩
  · have := List.find?_some h
    simpa [equalFold] using this
  · have := List.find?_some h
    simpa [equalFold] using this

theorem unseen_fresh {g : Grammar} {max : Nat} {st : LowerSt} {n : Str} {r : Rule}
    (hr : getRule n g.rules = some r) (hl : st.index.lookup (ruleKey n) = none) :
    unseen g (fresh max (ruleKey n) st) < unseen g st := by
  have hk : ruleKey r.name = ruleKey n := by unfold ruleKey; rw [canon_of_getRule hr]
  unfold unseen
  have hsub : List.Sublist
      ((g.rules ++ Core.rules).filter fun r => ((fresh max (ruleKey n) st).index.lookup (ruleKey r.name)).isNone)
      ((g.rules ++ Core.rules).filter fun r => (st.index.lookup (ruleKey r.name)).isNone) := by
    apply List.monotone_filter_right
    intro r' hr'
    simp only [Option.isNone_iff_eq_none] at hr' ⊢
    rw [fresh_index, List.lookup_append] at hr'
    cases hl' : st.index.lookup (ruleKey r'.name) with
    | none => rfl
    | some id => rw [hl'] at hr'; simp at hr'
  refine Nat.lt_of_le_of_ne hsub.length_le fun he => ?_
  have heq := hsub.eq_of_length he
  have hm : r ∈ (g.rules ++ Core.rules).filter fun r => (st.index.lookup (ruleKey r.name)).isNone := by
    rw [List.mem_filter]
    exact ⟨getRule_mem hr, by rw [hk, hl]; rfl⟩
  rw [← heq, List.mem_filter] at hm
  have := hm.2
  rw [fresh_index, List.lookup_append, hk, hl] at this
  simp at this

/-- A `lowerer.rule` implementation that always returns while at most `n` rules are unseen. -/
def RuleTot (g : Grammar) (root : Str) (n : Nat) (rule : LowerRuleFn) : Prop :=
  ∀ name st, OccName g root name → Good st → unseen g st ≤ n → rule name st ≠ none

mutual
theorem lowerAlts_tot {g : Grammar} {root : Str} {max : Nat} {rule : LowerRuleFn}
    (hr : RuleSpec g root max rule) {n : Nat} (ht : RuleTot g root n rule) :
    (a : List (List Rep)) → (∀ r ∈ altReps a, r ∈ allReps g) → ∀ st, Good st → unseen g st ≤ n →
      lowerAlts rule max a st ≠ none
  | [], _, st, _, _ => by simp [lowerAlts]
  | c :: a, ho, st, hg, hu => by
    simp only [lowerAlts]
    have ho1 : ∀ r ∈ concatReps c, r ∈ allReps g := fun r hr => ho r (by simp [altReps, hr])
    have ho2 : ∀ r ∈ altReps a, r ∈ allReps g := fun r hr => ho r (by simp [altReps, hr])
    split
    · rename_i h1
      exact absurd h1 (lowerConcat_tot hr ht c ho1 st hg hu)
    · rename_i seq st1 h1
      obtain ⟨p1, _⟩ := lowerConcat_spec hr c ho1 st seq st1 hg h1
      split
      · rename_i h2
        exact absurd h2 (lowerAlts_tot hr ht a ho2 st1 p1.good (le_trans (unseen_anti p1.index) hu))
      · simp
theorem lowerConcat_tot {g : Grammar} {root : Str} {max : Nat} {rule : LowerRuleFn}
    (hr : RuleSpec g root max rule) {n : Nat} (ht : RuleTot g root n rule) :
    (c : List Rep) → (∀ r ∈ concatReps c, r ∈ allReps g) → ∀ st, Good st → unseen g st ≤ n →
      lowerConcat rule max c st ≠ none
  | [], _, st, _, _ => by simp [lowerConcat]
  | r :: c, ho, st, hg, hu => by
    simp only [lowerConcat]
    have ho1 : ∀ r' ∈ repReps r, r' ∈ allReps g := fun r hr => ho r (by simp [concatReps, hr])
    have ho2 : ∀ r ∈ concatReps c, r ∈ allReps g := fun r hr => ho r (by simp [concatReps, hr])
    split
    · rename_i h1
      exact absurd h1 (lowerRep_tot hr ht r ho1 st hg hu)
    · rename_i s st1 h1
      obtain ⟨p1, _⟩ := lowerRep_spec hr r ho1 st s st1 hg h1
      split
      · rename_i h2
        exact absurd h2 (lowerConcat_tot hr ht c ho2 st1 p1.good (le_trans (unseen_anti p1.index) hu))
      · simp
theorem lowerRep_tot {g : Grammar} {root : Str} {max : Nat} {rule : LowerRuleFn}
    (hr : RuleSpec g root max rule) {n : Nat} (ht : RuleTot g root n rule) :
    (r : Rep) → (∀ r' ∈ repReps r, r' ∈ allReps g) → ∀ st, Good st → unseen g st ≤ n →
      lowerRep rule max r st ≠ none
  | ⟨mn, mx, e⟩, ho, st, hg, hu => by
    simp only [lowerRep]
    have hocc : Rep.mk mn mx e ∈ allReps g := ho _ (by simp [repReps])
    have hoe : ∀ r' ∈ elemReps e, r' ∈ allReps g := fun r' hr' => ho r' (by simp [repReps, hr'])
    by_cases h11 : mn = 1 ∧ mx = some 1
    · rw [if_pos h11]
      exact lowerElem_tot hr ht e hoe ⟨_, hocc, rfl⟩ st hg hu
    · rw [if_neg h11]
      rcases reserve_cases (repKey ⟨mn, mx, e⟩) st max with ⟨id, hl, hres⟩ | ⟨hl, st1, hres, hfr⟩
      · rw [hres]; simp
      · rw [hres]
        simp only [hfr]
        have hu' : unseen g (fresh max (repKey ⟨mn, mx, e⟩) st) ≤ n :=
          le_trans (unseen_anti (by rw [fresh_index]; exact List.prefix_append _ _)) hu
        split_ifs
        · simp
        · simp
        · split
          · rename_i h2
            exact absurd h2 (lowerElem_tot hr ht e hoe ⟨_, hocc, rfl⟩ _ (fresh_good hg hl) hu')
          · simp
theorem lowerElem_tot {g : Grammar} {root : Str} {max : Nat} {rule : LowerRuleFn}
    (hr : RuleSpec g root max rule) {n : Nat} (ht : RuleTot g root n rule) :
    (e : Elem) → (∀ r' ∈ elemReps e, r' ∈ allReps g) → (∃ r ∈ allReps g, r.elem = e) → ∀ st, Good st →
      unseen g st ≤ n → lowerElem rule max e st ≠ none
  | .rulename n, _, hex, st, hg, hu => by
    simp only [lowerElem]
    split
    · rename_i h1
      exact absurd h1 (ht n st (Or.inr hex) hg hu)
    · simp
  | .group a, ho, hex, st, hg, hu => by
    simp only [lowerElem]
    have hoa : ∀ r' ∈ altReps a, r' ∈ allReps g := fun r' hr' => ho r' (by simpa [elemReps] using hr')
    rcases reserve_cases (grpKey a) st max with ⟨id, hl, hres⟩ | ⟨hl, st1, hres, hfr⟩
    · rw [hres]; simp
    · rw [hres]
      simp only [hfr]
      have hu' : unseen g (fresh max (grpKey a) st) ≤ n :=
        le_trans (unseen_anti (by rw [fresh_index]; exact List.prefix_append _ _)) hu
      split_ifs
      · simp
      · split
        · rename_i h2
          exact absurd h2 (lowerAlts_tot hr ht a hoa _ (fresh_good hg hl) hu')
        · simp
  | .option a, ho, hex, st, hg, hu => by
    simp only [lowerElem]
    have hoa : ∀ r' ∈ altReps a, r' ∈ allReps g := fun r' hr' => ho r' (by simpa [elemReps] using hr')
    rcases reserve_cases (optKey a) st max with ⟨id, hl, hres⟩ | ⟨hl, st1, hres, hfr⟩
    · rw [hres]; simp
    · rw [hres]
      simp only [hfr]
      have hu' : unseen g (fresh max (optKey a) st) ≤ n :=
        le_trans (unseen_anti (by rw [fresh_index]; exact List.prefix_append _ _)) hu
      split_ifs
      · simp
      · split
        · rename_i h2
          exact absurd h2 (lowerAlts_tot hr ht a hoa _ (fresh_good hg hl) hu')
        · simp
  | .charVal a b, _, _, st, _, _ => by simp [lowerElem]
  | .numVal a b c, _, _, st, _, _ => by simp [lowerElem]
  | .proseVal a, _, _, st, _, _ => by simp [lowerElem]
end

theorem lowerRule_tot (g : Grammar) (root : Str) (max fuel : Nat) :
    RuleTot g root fuel (lowerRule g max (fuel + 1)) := by
  induction fuel with
  | zero =>
    intro name st _ _ hu
    simp only [lowerRule]
    rcases reserve_cases (ruleKey name) st max with ⟨id, hl, hres⟩ | ⟨hl, st1, hres, hfr⟩
    · rw [hres]; simp
    · rw [hres]
      simp only [hfr]
      split_ifs
      · simp
      · split
        · simp
        · rename_i r hr
          have := unseen_fresh (max := max) hr hl
          omega
  | succ fuel ih =>
    intro name st hocc hg hu
    rw [lowerRule]
    rcases reserve_cases (ruleKey name) st max with ⟨id, hl, hres⟩ | ⟨hl, st1, hres, hfr⟩
    · rw [hres]; simp
    · rw [hres]
      simp only [hfr]
      split_ifs
      · simp
      · split
        · simp
        · rename_i r hr
          have := unseen_fresh (max := max) hr hl
          split
          · rename_i h2
            exact absurd h2 (lowerAlts_tot (lowerRule_spec g root max (fuel + 1)) ih r.alt
              (fun _ hp => mem_allReps hr hp) _ (fresh_good hg hl) (by omega))
          · simp

/-- The fuel given by `compileSlots` is never exhausted. -/
theorem lower_terminates (g : Grammar) (root : Str) (max : Nat) (st : LowerSt) (hg : Good st) :
    lowerRule g max (lowerFuel g) root st ≠ none := by
  apply lowerRule_tot g root max (g.rules.length + Core.rules.length) root st (Or.inl rfl) hg
  unfold unseen
  refine le_trans (List.length_filter_le _ _) ?_
  simp

theorem good_init : Good ⟨[], [], false⟩ := ⟨rfl, by simp⟩

/-- The facts about a finished lowering that the rest of the development uses. -/
structure Lowered (g : Grammar) (root : Str) (sg : SG) (ix : List (Str × Nat)) : Prop where
  good : Good ⟨sg.nts, ix, false⟩
  start : ix.lookup (ruleKey root) = some sg.start
  filled : ∀ n < sg.nts.length, Filled g root ⟨sg.nts, ix, false⟩ n

theorem compileSlots_lowered {g : Grammar} {root : Str} {max : Nat} {sg : SG}
    (h : compileSlots g root max = .ok sg) :
    ∃ ix, Lowered g root sg ix ∧ (0 < max → sg.nts.length < max) ∧ (getRule root g.rules).isSome := by
  unfold compileSlots at h
  split at h
  · simp at h
  rename_i r hr
  split at h
  · simp at h
  rename_i id st hl
  split_ifs at h with ho
  simp only [Except.ok.injEq] at h
  subst h
  obtain ⟨p, q⟩ := lowerRule_spec g root max (lowerFuel g) root _ id st (Or.inl rfl) good_init hl
  have ho' : st.over = false := by simpa using ho
  obtain ⟨nts, ix, ov⟩ := st
  simp only at ho' ; subst ho'
  refine ⟨ix, ⟨p.good, q rfl, fun n hn => p.content rfl n (by simp) hn⟩, ?_, by rw [hr]; rfl⟩
  intro hm
  have hb := p.budget rfl hm
  have hlt := p.good.lookup_lt (q rfl)
  simp at hb hlt ⊢
  rcases hb with rfl | hb
  · simp at hlt
  · exact hb

end Verif
