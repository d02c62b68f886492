import Verif.CodegenMatch
import Verif.PropsBsr

/-!
# The emitted parser runs like the interpreter

A simulation between the emitted program (/repo/codegen.go:451-598, 869-889) and `bsrParser` (/repo/bsr.go), by the
numbering of slots.
-/

namespace Verif
namespace Cg

section
variable (sg : SG) (inp : Bytes)

/-- A GSS key of the interpreter, as the emitted program has it. -/
def encK (v : GKey) : GnKey := ⟨enc sg v.ret, v.pos, v.rc⟩
/-- A GSS node of the interpreter, as the emitted program has it. -/
def encN (u : GNode) : GnNode := u.map (encK sg)
/-- A descriptor of the interpreter, as the emitted program has it. -/
def encD (d : BDesc) : GDesc := ⟨enc sg d.L, d.i, d.rc, encN sg d.u⟩
/-- An element of the interpreter, as the emitted program has it. -/
def encE (e : BsrElem) : GElem := ⟨enc sg e.slot, e.l, e.k, e.r⟩

/-- The slot of a node is one of the grammar. -/
def OkN (u : GNode) : Prop := ∀ v, u = some v → IsSlot sg v.ret
/-- A descriptor is about a slot of the grammar and a position in the input. -/
def OkD (d : BDesc) : Prop := IsSlot sg d.L ∧ OkN sg d.u ∧ d.i ≤ inp.length

/-- The two states agree. -/
structure Rel (g : PSt) (b : BsrSt) : Prop where
  set : g.set = b.set.map (encE sg)
  edges : g.edges = b.edges.map fun q => (encK sg q.1, encN sg q.2)
  popped : g.popped = b.popped.map fun q => (encK sg q.1, q.2)
  seen : g.seen = b.seen.map (encD sg)
  work : g.work = b.work.map (encD sg)
  aborted : g.aborted = b.aborted
  tick : g.tick = b.tick
  fault : g.fault = false
  okSet : ∀ e ∈ b.set, IsSlot sg e.slot
  okEdges : ∀ q ∈ b.edges, IsSlot sg q.1.ret ∧ OkN sg q.2
  okPopped : ∀ q ∈ b.popped, IsSlot sg q.1.ret ∧ q.2 ≤ inp.length
  okSeen : ∀ d ∈ b.seen, OkD sg inp d
  okWork : ∀ d ∈ b.work, OkD sg inp d

end

section
variable {sg : SG} {inp : Bytes}

theorem encK_inj {v w : GKey} (hv : IsSlot sg v.ret) (hw : IsSlot sg w.ret) (h : encK sg v = encK sg w) : v = w := by
  simp only [encK, GnKey.mk.injEq] at h
  have := enc_inj hv hw h.1
  cases v; cases w
  simp_all

theorem encN_inj {u v : GNode} (hu : OkN sg u) (hv : OkN sg v) (h : encN sg u = encN sg v) : u = v := by
  cases u <;> cases v
  · rfl
  · cases h
  · cases h
  · simp only [encN, Option.map_some, Option.some.injEq] at h
    rw [encK_inj (hu _ rfl) (hv _ rfl) h]

theorem encD_inj {d e : BDesc} (hd : OkD sg inp d) (he : OkD sg inp e) (h : encD sg d = encD sg e) : d = e := by
  simp only [encD, GDesc.mk.injEq] at h
  have h1 := enc_inj hd.1 he.1 h.1
  have h2 := encN_inj hd.2.1 he.2.1 h.2.2.2
  cases d; cases e
  simp_all

theorem encE_inj {d e : BsrElem} (hd : IsSlot sg d.slot) (he : IsSlot sg e.slot) (h : encE sg d = encE sg e) : d = e := by
  simp only [encE, GElem.mk.injEq] at h
  have h1 := enc_inj hd he h.1
  cases d; cases e
  simp_all

theorem mem_map_iff {α β : Type} {f : α → β} {x : α} {l : List α} (h : ∀ y ∈ l, f x = f y → x = y) :
    f x ∈ l.map f ↔ x ∈ l := by
  constructor
  · intro hx
    obtain ⟨y, hy, e⟩ := List.mem_map.mp hx
    rw [h y hy e.symm]; exact hy
  · exact fun hx => List.mem_map.mpr ⟨x, hx, rfl⟩

theorem gpos_enc (u : GNode) : gpos (encN sg u) = posOf u := by cases u <;> rfl

theorem sim_add {g : PSt} {b : BsrSt} {d : BDesc} (hr : Rel sg inp g b) (hd : OkD sg inp d) :
    Rel sg inp (add (encD sg d) g) (bsrAdd d b) := by
  unfold add bsrAdd
  have hm : encD sg d ∈ g.seen ↔ d ∈ b.seen := by
    rw [hr.seen]; exact mem_map_iff fun y hy => encD_inj hd (hr.okSeen y hy)
  by_cases h : d ∈ b.seen
  · rw [if_pos h, if_pos (hm.mpr h)]; exact hr
  · rw [if_neg h, if_neg (fun x => h (hm.mp x))]
    exact { hr with
      seen := by simp only [hr.seen, List.map_cons]
      work := by simp only [hr.work, List.map_cons]
      okSeen := fun e he => (List.mem_cons.mp he).elim (fun h => h ▸ hd) (hr.okSeen e)
      okWork := fun e he => (List.mem_cons.mp he).elim (fun h => h ▸ hd) (hr.okWork e) }

theorem sim_foldl {α : Type} {f : PSt → α → PSt} {f' : BsrSt → α → BsrSt} {l : List α} {P : α → Prop}
    (hf : ∀ a, P a → ∀ g b, Rel sg inp g b → Rel sg inp (f g a) (f' b a)) (hl : ∀ a ∈ l, P a) {g : PSt} {b : BsrSt}
    (hr : Rel sg inp g b) : Rel sg inp (l.foldl f g) (l.foldl f' b) := by
  induction l generalizing g b with
  | nil => exact hr
  | cons a l ih => exact ih (fun x hx => hl x (by simp [hx])) (hf a (hl a (by simp)) g b hr)

variable {root : Str} {N : Nat} {sched : Sched Nat}

theorem sim_record {g : PSt} {b : BsrSt} {L : Slot} (hL : IsSlot sg L) {l k r : Nat} (hr : Rel sg inp g b) :
    Rel sg inp (record (emit sg root) N (enc sg L) l k r g) (bsrRecord sg N L l k r b) := by
  unfold record bsrRecord
  have hs : (emit sg root).slotInfo[enc sg L]? = some ⟨L.nt, L.alt, L.dot, (sg.prod L).length⟩ := slots_enc hL
  rw [hs]
  simp only
  by_cases h1 : L.dot ≥ 2 ∨ L.dot = (sg.prod L).length
  · rw [if_pos h1, if_pos h1]
    have hlen : g.set.length = b.set.length := by rw [hr.set, List.length_map]
    rw [hlen]
    by_cases h2 : N > 0 ∧ b.set.length ≥ N
    · rw [if_pos h2, if_pos h2]
      exact { hr with aborted := rfl }
    · rw [if_neg h2, if_neg h2]
      unfold insert bsrInsert
      have hm : (⟨enc sg L, l, k, r⟩ : GElem) ∈ g.set ↔ (⟨L, l, k, r⟩ : BsrElem) ∈ b.set := by
        rw [hr.set]; exact mem_map_iff (f := encE sg) (x := ⟨L, l, k, r⟩) fun y hy => encE_inj hL (hr.okSet y hy)
      by_cases h3 : (⟨L, l, k, r⟩ : BsrElem) ∈ b.set
      · rw [if_pos h3, if_pos (hm.mpr h3)]; exact hr
      · rw [if_neg h3, if_neg (fun x => h3 (hm.mp x))]
        exact { hr with
          set := by simp only [hr.set, List.map_cons]; rfl
          okSet := fun e he => (List.mem_cons.mp he).elim (fun h => h ▸ hL) (hr.okSet e) }
  · rw [if_neg h1, if_neg h1]; exact hr

theorem sim_resume {g : PSt} {b : BsrSt} {v : GKey} {u : GNode} {j : Nat} (hv : IsSlot sg v.ret) (hu : OkN sg u)
    (hj : j ≤ inp.length) (hr : Rel sg inp g b) :
    Rel sg inp (resume (emit sg root) N (encK sg v) (encN sg u) j g) (bsrResume sg N v u j b) := by
  unfold resume bsrResume
  have h1 := sim_record (root := root) (N := N) (l := posOf u) (k := v.pos) (r := j) hv hr
  have h2 := sim_add (d := ⟨v.ret, u, j, v.rc⟩) h1 ⟨hv, hu, hj⟩
  rw [gpos_enc]
  exact h2

theorem sim_poppedOf {g : PSt} {b : BsrSt} {v : GKey} (hv : IsSlot sg v.ret) (hr : Rel sg inp g b) :
    poppedOf (encK sg v) g = bsrPoppedOf v b := by
  unfold poppedOf bsrPoppedOf
  rw [hr.popped]
  have h := hr.okPopped
  generalize b.popped = l at h
  induction l with
  | nil => rfl
  | cons q l ih =>
    have ih := ih fun x hx => h x (by simp [hx])
    have hq := (h q (by simp)).1
    simp only [List.map_cons, List.filter_cons]
    by_cases e : q.1 = v
    · simp only [e, decide_true, if_true, List.map_cons, ih]
    · have : ¬ encK sg q.1 = encK sg v := fun x => e (encK_inj hq hv x)
      simp only [e, this, decide_false, Bool.false_eq_true, if_false, ih]

theorem sim_edgesOf {g : PSt} {b : BsrSt} {v : GKey} (hv : IsSlot sg v.ret) (hr : Rel sg inp g b) :
    edgesOf (encK sg v) g = (bsrEdgesOf v b).map (encN sg) := by
  unfold edgesOf bsrEdgesOf
  rw [hr.edges]
  have h := hr.okEdges
  generalize b.edges = l at h
  induction l with
  | nil => rfl
  | cons q l ih =>
    have ih := ih fun x hx => h x (by simp [hx])
    have hq := (h q (by simp)).1
    simp only [List.map_cons, List.filter_cons]
    by_cases e : q.1 = v
    · simp only [e, decide_true, if_true, List.map_cons, ih]
    · have : ¬ encK sg q.1 = encK sg v := fun x => e (encK_inj hq hv x)
      simp only [e, this, decide_false, Bool.false_eq_true, if_false, ih]

theorem sim_create (hf : sched.Fair) {g : PSt} {b : BsrSt} {L : Slot} {u : GNode} {i rc : Nat} (hL : IsSlot sg L)
    (hu : OkN sg u) (hr : Rel sg inp g b) :
    Rel sg inp (create (emit sg root) N sched (enc sg L) (encN sg u) i rc g) (bsrCreate sg N sched L u i rc b) := by
  unfold create bsrCreate
  set v : GKey := ⟨L, i, rc⟩ with hv
  have hvk : (⟨enc sg L, i, rc⟩ : GnKey) = encK sg v := rfl
  have hvs : IsSlot sg v.ret := hL
  have hm : (encK sg v, encN sg u) ∈ g.edges ↔ (v, u) ∈ b.edges := by
    rw [hr.edges]
    exact mem_map_iff (f := fun q : GKey × GNode => (encK sg q.1, encN sg q.2)) (x := (v, u)) fun y hy e => by
      simp only [Prod.mk.injEq] at e
      have := hr.okEdges y hy
      exact Prod.ext (encK_inj hvs this.1 e.1) (encN_inj hu this.2 e.2)
  simp only [hvk]
  by_cases h : (v, u) ∈ b.edges
  · rw [if_pos h, if_pos (hm.mpr h)]; exact hr
  · rw [if_neg h, if_neg (fun x => h (hm.mp x)), sim_poppedOf hvs hr, hr.tick]
    have hbase : Rel sg inp { g with edges := g.edges ++ [(encK sg v, encN sg u)], tick := b.tick + 1 }
        { b with edges := b.edges ++ [(v, u)], tick := b.tick + 1 } :=
      { hr with
        edges := by simp only [hr.edges, List.map_append, List.map_cons, List.map_nil]
        tick := rfl
        okEdges := fun q hq => (List.mem_append.mp hq).elim (hr.okEdges q)
          fun hq => by rw [List.mem_singleton.mp hq]; exact ⟨hvs, hu⟩ }
    have := sim_foldl (sg := sg) (inp := inp) (P := fun j => j ≤ inp.length) (l := sched b.tick (bsrPoppedOf v b))
      (f := fun st j => resume (emit sg root) N (encK sg v) (encN sg u) j st)
      (f' := fun st j => bsrResume sg N v u j st)
      (fun j hj g' b' hr' => sim_resume hvs hu hj hr')
      (fun j hj => (hr.okPopped _ (mem_bsrPoppedOf.mp ((hf b.tick (bsrPoppedOf v b)).mem_iff.mp hj))).2) hbase
    exact this

theorem sim_pop {g : PSt} {b : BsrSt} {u : GNode} {j : Nat} (hu : OkN sg u) (hj : j ≤ inp.length) (hr : Rel sg inp g b) :
    Rel sg inp (pop (emit sg root) N (encN sg u) j g) (bsrPop sg N u j b) := by
  cases u with
  | none => exact hr
  | some v =>
    have hv := hu v rfl
    unfold pop bsrPop
    show Rel sg inp ((edgesOf (encK sg v) (if (encK sg v, j) ∈ g.popped then g else
        { g with popped := (encK sg v, j) :: g.popped })).foldl _ _) _
    have hm : (encK sg v, j) ∈ g.popped ↔ (v, j) ∈ b.popped := by
      rw [hr.popped]
      exact mem_map_iff (f := fun q : GKey × Nat => (encK sg q.1, q.2)) (x := (v, j)) fun y hy e => by
        simp only [Prod.mk.injEq] at e
        exact Prod.ext (encK_inj hv (hr.okPopped y hy).1 e.1) e.2
    have hbase : Rel sg inp (if (encK sg v, j) ∈ g.popped then g else { g with popped := (encK sg v, j) :: g.popped })
        (if (v, j) ∈ b.popped then b else { b with popped := (v, j) :: b.popped }) := by
      by_cases h : (v, j) ∈ b.popped
      · rw [if_pos h, if_pos (hm.mpr h)]; exact hr
      · rw [if_neg h, if_neg (fun x => h (hm.mp x))]
        exact { hr with
          popped := by simp only [hr.popped, List.map_cons]
          okPopped := fun q hq => (List.mem_cons.mp hq).elim (fun h => h ▸ ⟨hv, hj⟩) (hr.okPopped q) }
    generalize hg : (if (encK sg v, j) ∈ g.popped then g else { g with popped := (encK sg v, j) :: g.popped }) = g' at hbase
    generalize hb : (if (v, j) ∈ b.popped then b else { b with popped := (v, j) :: b.popped }) = b' at hbase
    simp only [hb]
    rw [sim_edgesOf hv hbase, List.foldl_map]
    exact sim_foldl (P := OkN sg) (f := fun st u => resume (emit sg root) N (encK sg v) (encN sg u) j st)
      (f' := fun st u => bsrResume sg N v u j st)
      (fun w hw g' b' hr' => sim_resume hv hw hj hr')
      (fun w hw => (hbase.okEdges _ (mem_bsrEdgesOf.mp hw)).2) hbase

/-! ## Calls -/

theorem exec_adds {p : Prog} {u : GnNode} {rc L : Nat} (ids : List Nat) (e : Env) {v : GnKey} (hv : e.v = some v) (st : PSt) :
    exec p inp N sched u rc L (ids.map Stmt.add0 ++ [.ret]) e st =
      .ret (ids.foldl (fun st id => add ⟨id, e.i, 0, some v⟩ st) st) := by
  induction ids generalizing st with
  | nil => rfl
  | cons id ids ih =>
    simp only [List.map_cons, List.cons_append, exec, hv, List.foldl_cons]
    exact ih _

theorem exec_call {p : Prog} {u : GnNode} {rc L self callee retID i : Nat} {ids : List (List Nat)} (st : PSt) :
    exec p inp N sched u rc L (emitCall sg ids self callee retID) { i := i } st =
      .ret ((startAlts sg callee (childRC sg self rc callee)).foldl
        (fun st alt => add ⟨startID ids callee alt, i, childRC sg self rc callee, some ⟨retID, i, rc⟩⟩ st)
        (create p N sched retID u i rc st)) := by
  unfold emitCall
  show exec p inp N sched u rc L _ { i := i, v := some ⟨retID, i, rc⟩ } (create p N sched retID u i rc st) = _
  generalize create p N sched retID u i rc st = st'
  unfold startAlts childRC
  by_cases hrep : (sg.nt callee).isRep = true
  · simp only [hrep, if_true]
    by_cases hs : callee = self
    · simp only [hs, if_true]
      cases hm : (sg.nt self).repMax with
      | none =>
        have hc : capRC rc (sg.nt self) = if rc + 1 > (sg.nt self).repMin then (sg.nt self).repMin else rc + 1 := by
          unfold capRC; rw [hm]; simp
        rw [hc]
        simp only [List.cons_append, List.nil_append, exec]
        generalize (if rc + 1 > (sg.nt self).repMin then (sg.nt self).repMin else rc + 1) = c
        by_cases hge : c ≥ (sg.nt self).repMin
        · simp only [hge, if_true, List.cons_append, List.nil_append, List.foldl_cons, List.foldl_nil]
        · simp only [hge, if_false, if_true, List.nil_append, List.foldl_cons, List.foldl_nil]
      | some m =>
        have hc : capRC rc (sg.nt self) = rc + 1 := by
          unfold capRC; rw [hm]; simp
        rw [hc]
        simp only [List.cons_append, List.nil_append, exec, decide_eq_true_eq]
        by_cases hge : rc + 1 ≥ (sg.nt self).repMin <;> by_cases hlt : rc + 1 < m <;>
          simp only [hge, hlt, if_true, if_false, List.cons_append, List.nil_append, List.append_nil, List.foldl_cons, List.foldl_nil]
    · simp only [hs, if_false]
      have h0 : ((0 : Nat) ≥ (sg.nt callee).repMin) ↔ (sg.nt callee).repMin = 0 := by omega
      have := exec_adds (p := p) (inp := inp) (N := N) (sched := sched) (u := u) (rc := rc) (L := L)
        (((if (0 : Nat) ≥ (sg.nt callee).repMin then [0] else []) ++
          (if (match (sg.nt callee).repMax with | none => true | some m => decide (0 < m)) then [1] else [])).map
            (startID ids callee)) { i := i, v := some ⟨retID, i, rc⟩ } rfl st'
      rw [List.foldl_map] at this
      refine Eq.trans ?_ this
      congr 1
      rw [List.map_append, List.map_append]
      simp only [h0]
      congr 1
      clear this
      cases hmx : (sg.nt callee).repMax with
      | none =>
        by_cases hmin : (sg.nt callee).repMin = 0 <;>
          simp only [hmin, if_true, if_false, List.map_cons, List.map_nil]
      | some m =>
        by_cases hmin : (sg.nt callee).repMin = 0 <;> by_cases hlt : 0 < m <;>
          simp only [hmin, hlt, if_true, if_false, decide_true, decide_false, Bool.false_eq_true, List.map_cons, List.map_nil]
  · simp only [Bool.not_eq_true] at hrep
    simp only [hrep, Bool.false_eq_true, if_false]
    have := exec_adds (p := p) (inp := inp) (N := N) (sched := sched) (u := u) (rc := rc) (L := L)
      ((List.range (sg.nt callee).alts.length).map (startID ids callee)) { i := i, v := some ⟨retID, i, rc⟩ } rfl st'
    rw [List.foldl_map, List.map_map] at this
    exact this

theorem isSlot_start (hok : SGOK sg) {s c alt : Nat} (hs : s < sg.nts.length) (h : alt ∈ startAlts sg s c) : IsSlot sg ⟨s, alt, 0⟩ := by
  refine ⟨hs, ?_, Nat.zero_le _⟩
  unfold startAlts at h
  by_cases h1 : (sg.nt s).isRep = true
  · obtain ⟨t, ht⟩ := hok.rep s h1
    rw [if_pos h1, List.mem_append] at h
    simp only [ht, List.length_cons, List.length_nil]
    rcases h with h | h <;> split_ifs at h <;> simp only [List.mem_singleton, List.not_mem_nil] at h <;> omega
  · rw [if_neg h1] at h
    exact List.mem_range.mp h

/-! ## The whole run -/

theorem sim_processLoop (hok : SGOK sg) (hf : sched.Fair) {u : GNode} {rc : Nat} (hu : OkN sg u) : ∀ (rest : List Sym) (L : Slot) (i : Nat) (fuel : Nat)
    (g : PSt) (b : BsrSt), IsSlot sg L → (sg.prod L).drop L.dot = rest → i ≤ inp.length → rest.length + 1 ≤ fuel → Rel sg inp g b →
    Rel sg inp (processLoop (emit sg root) inp N sched (encN sg u) rc fuel (enc sg L) i g)
      (bsrProcessFrom sg inp N sched u rc rest L i b) := by
  intro rest
  induction rest with
  | nil =>
    intro L i fuel g b hL hrest hi hfuel hr
    obtain ⟨fuel, rfl⟩ : ∃ k, fuel = k + 1 := ⟨fuel - 1, by simp only [List.length_nil] at hfuel; omega⟩
    obtain ⟨ser, hc, _⟩ := case_of (root := root) hL
    have hdot : L.dot = (sg.prod L).length := by
      have := congrArg List.length hrest
      rw [List.length_drop, List.length_nil] at this
      have := hL.2.2
      omega
    rw [processLoop, hc, emitCase, if_pos hdot]
    exact sim_pop hu hi hr
  | cons s rest ih =>
    intro L i fuel g b hL hrest hi hfuel hr
    obtain ⟨fuel, rfl⟩ : ∃ k, fuel = k + 1 := ⟨fuel - 1, by simp only [List.length_cons] at hfuel; omega⟩
    obtain ⟨ser, hc, hpre⟩ := case_of (root := root) hL
    have hlt : L.dot < (sg.prod L).length := by
      by_contra hge
      rw [List.drop_eq_nil_of_le (by omega)] at hrest
      cases hrest
    have hsym : ((sg.alts L.nt).getD L.alt []).getD L.dot .eps = s := by
      show (sg.prod L).getD L.dot .eps = s
      rw [List.drop_eq_getElem_cons hlt] at hrest
      simp only [List.cons.injEq] at hrest
      rw [List.getD_eq_getElem?_getD, List.getElem?_eq_getElem hlt]
      exact hrest.1
    have hnext : IsSlot sg L.next := ⟨hL.1, hL.2.1, hlt⟩
    have hdrop : (sg.prod L.next).drop L.next.dot = rest := by
      show (sg.prod L).drop (L.dot + 1) = rest
      rw [List.drop_eq_getElem_cons hlt] at hrest
      simp only [List.cons.injEq] at hrest
      exact hrest.2
    have hmem : s ∈ sg.prod L := by
      have : s ∈ (sg.prod L).drop L.dot := by rw [hrest]; simp
      exact List.mem_of_mem_drop this
    have hprod : sg.prod L ∈ sg.alts L.nt := by
      rw [SG.prod, List.getD_eq_getElem?_getD, List.getElem?_eq_getElem hL.2.1]
      exact List.getElem_mem _
    rw [processLoop, hc]
    by_cases hnt : ∃ n, s = .nt n
    · obtain ⟨n, rfl⟩ := hnt
      rw [emitCase]
      simp only [ne_of_lt hlt, if_false, hsym, exec_call]
      rw [bsrProcessFrom]
      have hn : n < sg.nts.length := hok.refs _ _ hprod _ hmem
      have hcr := sim_create (root := root) (N := N) hf (i := i) (rc := rc) hnext hu hr
      exact sim_foldl (P := fun alt => alt ∈ startAlts sg n (childRC sg L.nt rc n))
        (fun alt ha g' b' hr' => sim_add (d := ⟨⟨n, alt, 0⟩, some ⟨L.next, i, rc⟩, i, childRC sg L.nt rc n⟩) hr'
          ⟨isSlot_start hok hn ha, fun v hv => by cases hv; exact hnext, hi⟩)
        (fun _ h => h) hcr
    · have hns : ∀ n, s ≠ .nt n := fun n h => hnt ⟨n, h⟩
      have hE : emitCase sg (assignSlots sg).1 (enc sg L) ⟨L.nt, L.alt, L.dot, (sg.prod L).length⟩ ser =
          emitTerminal s (enc sg L + 1) ser := by
        rw [emitCase]
        simp only [ne_of_lt hlt, if_false, hsym]
      have hB : bsrProcessFrom sg inp N sched u rc (s :: rest) L i b =
          match matchSym inp s i with
          | none => b
          | some j => bsrProcessFrom sg inp N sched u rc rest L.next j (bsrRecord sg N L.next (posOf u) i j b) := by
        cases s with
        | nt n => exact absurd rfl (hns n)
        | eps => rfl
        | term e => rfl
      rw [hE] at hpre
      rw [hE]
      simp only [exec_terminal hns hpre g hi]
      rw [hB]
      cases hm : matchSym inp s i with
      | none => exact hr
      | some j =>
        have hj := (matchSym_bounds hi hm).2
        simp only
        have := ih L.next j fuel _ _ hnext hdrop hj (by simp only [List.length_cons] at hfuel; omega)
          (sim_record (root := root) (N := N) (l := posOf u) (k := i) (r := j) hnext hr)
        rw [gpos_enc]
        exact this

theorem sim_process (hok : SGOK sg) (hf : sched.Fair) {d : BDesc} (hd : OkD sg inp d) {g : PSt} {b : BsrSt} (hr : Rel sg inp g b) :
    Rel sg inp (process (emit sg root) inp N sched (encD sg d) g) (bsrProcess sg inp N sched d b) := by
  unfold process bsrProcess
  refine sim_processLoop hok hf hd.2.1 _ d.L d.i _ g b hd.1 rfl hd.2.2 ?_ hr
  rw [List.length_drop]
  have := prod_short (root := root) hd.1
  omega

/-- The loop of `Parse` stops with the state in which that of `ParseBSR` stops. -/
theorem sim_loop (hok : SGOK sg) (hf : sched.Fair) : ∀ (fuel : Nat) (g : PSt) (b : BsrSt), Rel sg inp g b →
    match bsrLoop sg inp N sched fuel b with
    | none => parseLoop (emit sg root) inp N sched fuel g = none
    | some b' => ∃ g', Rel sg inp g' b' ∧
        parseLoop (emit sg root) inp N sched fuel g = some (if b'.work = [] then .done g' else .tooLarge g') ∧
        (b'.work ≠ [] → b'.aborted = true) := by
  intro fuel
  induction fuel with
  | zero =>
    intro g b hr
    unfold bsrLoop parseLoop
    have hw := hr.work
    cases hb : b.work with
    | nil =>
      rw [hb] at hw
      simp only [hw, List.map_nil]
      exact ⟨g, hr, by rw [hb]; simp, fun h => absurd hb h⟩
    | cons d work =>
      rw [hb] at hw
      simp only [hw, List.map_cons, hr.aborted]
      cases ha : b.aborted
      · simp only [Bool.false_eq_true, if_false]
      · simp only [if_true]
        exact ⟨g, hr, by rw [hb]; simp, fun _ => ha⟩
  | succ fuel ih =>
    intro g b hr
    unfold bsrLoop parseLoop
    have hw := hr.work
    cases hb : b.work with
    | nil =>
      rw [hb] at hw
      simp only [hw, List.map_nil]
      exact ⟨g, hr, by rw [hb]; simp, fun h => absurd hb h⟩
    | cons d work =>
      rw [hb] at hw
      simp only [hw, List.map_cons, hr.aborted]
      cases ha : b.aborted
      · simp only [Bool.false_eq_true, if_false]
        have hd : OkD sg inp d := hr.okWork d (by rw [hb]; simp)
        have hr' : Rel sg inp { g with work := work.map (encD sg) } { b with work := work } :=
          { hr with work := rfl, okWork := fun e he => hr.okWork e (by rw [hb]; simp [he]) }
        rw [← ha] ; rw [← hr.aborted.trans rfl] at *; exact ih _ _ (sim_process hok hf hd hr')
      · simp only [if_true]
        exact ⟨g, hr, by rw [hb]; simp, fun _ => ha⟩

theorem rel_empty : Rel sg inp {} {} where
  set := rfl
  edges := rfl
  popped := rfl
  seen := rfl
  work := rfl
  aborted := rfl
  tick := rfl
  fault := rfl
  okSet := nofun
  okEdges := nofun
  okPopped := nofun
  okSeen := nofun
  okWork := nofun

theorem sim_seeded (hok : SGOK sg) : Rel sg inp (seeded (emit sg root)) (bsrInit sg) := by
  unfold seeded bsrInit
  show Rel sg inp (((List.range (sg.alts sg.start).length).map fun alt => startID (assignSlots sg).1 sg.start alt).foldl _ {}) _
  rw [List.foldl_map]
  exact sim_foldl (P := fun alt => alt < (sg.alts sg.start).length)
    (fun alt ha g' b' hr' => sim_add (d := ⟨⟨sg.start, alt, 0⟩, none, 0, 0⟩) hr'
      ⟨⟨hok.startLt, ha, Nat.zero_le _⟩, nofun, Nat.zero_le _⟩)
    (fun a ha => List.mem_range.mp ha) rel_empty

end
end Cg
end Verif
