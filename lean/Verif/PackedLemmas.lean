import Mathlib.Data.Set.Finite.Basic
import Mathlib.Data.List.Nodup
import Mathlib.Data.List.Forall2
import Verif.Packed

/-! # The queries over a packed forest are exact -/

namespace Verif

set_option linter.unusedSectionVars false

section
variable {α : Type} [DecidableEq α] {G : α → List (List α)}

theorem mem_flatten_child {n c : α} : c ∈ (G n).flatten ↔ Child G n c := by
  simp [Child, List.mem_flatten]

/-- `U` holds all nodes a search can meet. -/
def ClosedList (G : α → List (List α)) (U : List α) : Prop := ∀ n ∈ U, ∀ c, Child G n c → c ∈ U

/-- Members of `U` not in `s`. -/
def left (U s : List α) : Nat := (U.filter fun x => decide (x ∉ s)).length

theorem left_cons_lt {U s : List α} {n : α} (h : n ∈ U) (hn : n ∉ s) : left U (n :: s) < left U s := by
  unfold left
  induction U with
  | nil => simp at h
  | cons a U ih =>
    have hmono : (U.filter fun x => decide (x ∉ n :: s)).length ≤ (U.filter fun x => decide (x ∉ s)).length := by
      apply List.Sublist.length_le
      apply List.monotone_filter_right
      intro x
      simp
    by_cases ha : a = n
    · subst ha
      rw [List.filter_cons_of_neg (by simp), List.filter_cons_of_pos (by simpa using hn)]
      simp only [List.length_cons]
      omega
    · have hm : n ∈ U := (List.mem_cons.mp h).resolve_left (Ne.symm ha)
      have := ih hm
      by_cases has : a ∈ s
      · rw [List.filter_cons_of_neg (by simp [has]), List.filter_cons_of_neg (by simp [has])]
        exact this
      · rw [List.filter_cons_of_pos (by simp [has, ha]), List.filter_cons_of_pos (by simp [has])]
        simpa using this

theorem left_mono {U s s' : List α} (h : ∀ x ∈ s, x ∈ s') : left U s' ≤ left U s := by
  unfold left
  apply List.Sublist.length_le
  apply List.monotone_filter_right
  intro x
  simp only [decide_not, Bool.not_eq_true', decide_eq_false_iff_not]
  exact fun hx hs => hx (h x hs)

theorem left_nil (U : List α) : left U [] = U.length := by simp [left]

/-! ## Nodes -/

/-- What a search that started at one of `ns` with `seen` leaves behind. -/
structure Walked (G : α → List (List α)) (ns seen seen' : List α) : Prop where
  starts : ∀ n ∈ ns, n ∈ seen'
  grows : ∀ x ∈ seen, x ∈ seen'
  reached : ∀ x ∈ seen', x ∈ seen ∨ ∃ n ∈ ns, AtOrBelow G n x
  closed : ∀ x ∈ seen', x ∉ seen → ∀ c, Child G x c → c ∈ seen'
  nodup : seen.Nodup → seen'.Nodup

theorem Walked.append {ns ms s s' s'' : List α} (h1 : Walked G ns s s') (h2 : Walked G ms s' s'') :
    Walked G (ns ++ ms) s s'' := by
  refine ⟨?_, fun x hx => h2.grows x (h1.grows x hx), ?_, ?_, fun h => h2.nodup (h1.nodup h)⟩
  · intro n hn
    rcases List.mem_append.mp hn with hn | hn
    · exact h2.grows n (h1.starts n hn)
    · exact h2.starts n hn
  · intro x hx
    rcases h2.reached x hx with h | ⟨n, hn, h⟩
    · rcases h1.reached x h with h | ⟨n, hn, h⟩
      · exact .inl h
      · exact .inr ⟨n, List.mem_append_left _ hn, h⟩
    · exact .inr ⟨n, List.mem_append_right _ hn, h⟩
  · intro x hx hxs c hc
    by_cases hx' : x ∈ s'
    · exact h2.grows c (h1.closed x hx' hxs c hc)
    · exact h2.closed x hx hx' c hc

theorem Walked.seen {n : α} {s : List α} (h : n ∈ s) : Walked G [n] s s :=
  ⟨by simpa using h, fun _ h => h, fun _ h => .inl h, fun _ h h' => absurd h h', fun h => h⟩

theorem Walked.enter {n : α} {s s' : List α} (hn : n ∉ s) (h : Walked G (G n).flatten (n :: s) s') :
    Walked G [n] s s' := by
  refine ⟨?_, fun x hx => h.grows x (List.mem_cons_of_mem _ hx), ?_, ?_,
    fun hs => h.nodup (List.nodup_cons.mpr ⟨hn, hs⟩)⟩
  · intro m hm
    rw [List.mem_singleton.mp hm]
    exact h.grows n (List.mem_cons_self ..)
  · intro x hx
    rcases h.reached x hx with h | ⟨m, hm, h⟩
    · rcases List.mem_cons.mp h with rfl | h
      · exact .inr ⟨x, List.mem_cons_self .., .refl⟩
      · exact .inl h
    · exact .inr ⟨n, List.mem_cons_self .., .head (mem_flatten_child.mp hm) h⟩
  · intro x hx hxs c hc
    by_cases hxn : x = n
    · subst hxn
      exact h.starts c (mem_flatten_child.mpr hc)
    · exact h.closed x hx (by simp [hxn, hxs]) c hc

theorem Walked.all {root : α} {s : List α} (h : Walked G [root] [] s) (x : α) : x ∈ s ↔ AtOrBelow G root x := by
  constructor
  · intro hx
    rcases h.reached x hx with h | ⟨n, hn, h⟩
    · simp at h
    · rw [List.mem_singleton.mp hn] at h
      exact h
  · intro hb
    induction hb with
    | refl => exact h.starts root (List.mem_cons_self ..)
    | tail _ hc ih => exact h.closed _ ih (by simp) _ hc

theorem walkKids_spec {U : List α} {rec : α → List α → Option (List α)} {b : Nat} {ns : List α}
    (hrec : ∀ n ∈ ns, ∀ seen, left U seen < b → ∃ s', rec n seen = some s' ∧ Walked G [n] seen s') :
    ∀ seen, left U seen < b → ∃ s', walkKids rec ns seen = some s' ∧ Walked G ns seen s' := by
  induction ns with
  | nil =>
    intro seen _
    exact ⟨seen, rfl, by simp, fun _ h => h, fun _ h => .inl h, fun _ h h' => absurd h h', fun h => h⟩
  | cons c cs ih =>
    intro seen hl
    obtain ⟨s1, h1, w1⟩ := hrec c (List.mem_cons_self ..) seen hl
    obtain ⟨s2, h2, w2⟩ := ih (fun n hn => hrec n (List.mem_cons_of_mem _ hn)) s1
      (lt_of_le_of_lt (left_mono w1.grows) hl)
    exact ⟨s2, by simp [walkKids, h1, h2], w1.append w2⟩

theorem walk_spec {U : List α} (hU : ClosedList G U) :
    ∀ f n seen, n ∈ U → left U seen < f → ∃ s', walk G f n seen = some s' ∧ Walked G [n] seen s' := by
  intro f
  induction f with
  | zero => intro n seen _ h; omega
  | succ f ih =>
    intro n seen hn hl
    unfold walk
    split_ifs with hs
    · exact ⟨seen, rfl, .seen hs⟩
    · have := left_cons_lt hn hs
      obtain ⟨s', h1, w1⟩ := walkKids_spec (G := G) (U := U) (rec := walk G f) (b := f) (ns := (G n).flatten)
        (fun m hm seen h => ih m seen (hU n hn m (mem_flatten_child.mp hm)) h) (n :: seen) (by omega)
      exact ⟨s', h1, .enter hs w1⟩

/-- `Nodes` counts the nodes reachable from the root, each once. -/
theorem nodesFrom_spec {U : List α} (hU : ClosedList G U) {root : α} (hr : root ∈ U) {fuel : Nat}
    (hf : U.length < fuel) :
    ∃ s : List α, s.Nodup ∧ (∀ x, x ∈ s ↔ AtOrBelow G root x) ∧ nodesFrom G fuel root = some s.length := by
  obtain ⟨s, h, w⟩ := walk_spec hU fuel root [] hr (by rw [left_nil]; exact hf)
  exact ⟨s, w.nodup List.nodup_nil, w.all, by simp [nodesFrom, h]⟩

/-! ## Ambiguous -/

/-- What a search for a second packing leaves behind. -/
def AmbDone (G : α → List (List α)) (ns seen : List α) : Bool × List α → Prop
  | (true, _) => ∃ n ∈ ns, ∃ x, AtOrBelow G n x ∧ 2 ≤ (G x).length
  | (false, s') => Walked G ns seen s' ∧ ∀ x ∈ s', x ∉ seen → (G x).length ≤ 1

theorem ambKids_spec {U : List α} {rec : α → List α → Option (Bool × List α)} {b : Nat} {ns : List α}
    (hrec : ∀ n ∈ ns, ∀ seen, left U seen < b → ∃ r, rec n seen = some r ∧ AmbDone G [n] seen r) :
    ∀ seen, left U seen < b → ∃ r, ambKids rec ns seen = some r ∧ AmbDone G ns seen r := by
  induction ns with
  | nil =>
    intro seen _
    exact ⟨(false, seen), rfl, ⟨by simp, fun _ h => h, fun _ h => .inl h, fun _ h h' => absurd h h', fun h => h⟩,
      fun _ h h' => absurd h h'⟩
  | cons c cs ih =>
    intro seen hl
    obtain ⟨⟨b1, s1⟩, h1, w1⟩ := hrec c (List.mem_cons_self ..) seen hl
    cases b1 with
    | true =>
      refine ⟨(true, s1), by simp [ambKids, h1], ?_⟩
      obtain ⟨n, hn, hx⟩ := w1
      rw [List.mem_singleton.mp hn] at hx
      exact ⟨c, List.mem_cons_self .., hx⟩
    | false =>
      obtain ⟨w1, a1⟩ := w1
      obtain ⟨⟨b2, s2⟩, h2, w2⟩ := ih (fun n hn => hrec n (List.mem_cons_of_mem _ hn)) s1
        (lt_of_le_of_lt (left_mono w1.grows) hl)
      refine ⟨(b2, s2), by simp [ambKids, h1, h2], ?_⟩
      cases b2 with
      | true =>
        obtain ⟨n, hn, hx⟩ := w2
        exact ⟨n, List.mem_cons_of_mem _ hn, hx⟩
      | false =>
        obtain ⟨w2, a2⟩ := w2
        refine ⟨w1.append w2, fun x hx hxs => ?_⟩
        by_cases hx' : x ∈ s1
        · exact a1 x hx' hxs
        · exact a2 x hx hx'

theorem ambWalk_spec {U : List α} (hU : ClosedList G U) :
    ∀ f n seen, n ∈ U → left U seen < f → ∃ r, ambWalk G f n seen = some r ∧ AmbDone G [n] seen r := by
  intro f
  induction f with
  | zero => intro n seen _ h; omega
  | succ f ih =>
    intro n seen hn hl
    unfold ambWalk
    split_ifs with hs hp
    · exact ⟨_, rfl, .seen hs, fun _ h h' => absurd h h'⟩
    · exact ⟨_, rfl, n, List.mem_cons_self .., n, .refl, hp⟩
    · have := left_cons_lt hn hs
      obtain ⟨⟨b, s'⟩, h1, w1⟩ := ambKids_spec (G := G) (U := U) (rec := ambWalk G f) (b := f) (ns := (G n).flatten)
        (fun m hm seen h => ih m seen (hU n hn m (mem_flatten_child.mp hm)) h) (n :: seen) (by omega)
      refine ⟨(b, s'), h1, ?_⟩
      cases b with
      | true =>
        obtain ⟨m, hm, x, hx, h2⟩ := w1
        exact ⟨n, List.mem_cons_self .., x, .head (mem_flatten_child.mp hm) hx, h2⟩
      | false =>
        obtain ⟨w1, a1⟩ := w1
        refine ⟨.enter hs w1, fun x hx hxs => ?_⟩
        by_cases hxn : x = n
        · subst hxn; omega
        · exact a1 x hx (by simp [hxn, hxs])

/-- `Ambiguous` holds iff a node with two packings is reachable. -/
theorem ambiguousFrom_spec {U : List α} (hU : ClosedList G U) {root : α} (hr : root ∈ U) {fuel : Nat}
    (hf : U.length < fuel) :
    ∃ b, ambiguousFrom G fuel root = some b ∧ (b = true ↔ ∃ x, AtOrBelow G root x ∧ 2 ≤ (G x).length) := by
  obtain ⟨⟨b, s⟩, h, w⟩ := ambWalk_spec hU fuel root [] hr (by rw [left_nil]; exact hf)
  refine ⟨b, by simp [ambiguousFrom, h], ?_⟩
  cases b with
  | true =>
    obtain ⟨n, hn, hx⟩ := w
    rw [List.mem_singleton.mp hn] at hx
    exact ⟨fun _ => hx, fun _ => rfl⟩
  | false =>
    refine ⟨nofun, ?_⟩
    rintro ⟨x, hx, h2⟩
    have := w.2 x ((w.1.all x).mpr hx) (by simp)
    omega

/-! ## NumTrees -/

/-- The number of trees at `n`, given those at its children. -/
def totalAt (G : α → List (List α)) (leaf : Bool) (val : α → Nat) (n : α) : Nat :=
  if G n = [] then leaf.toNat else ((G n).map fun pk => (pk.map val).prod).sum

/-- The value recorded for `c`. -/
def memoVal (m : List (α × Nat)) (c : α) : Nat := (m.lookup c).getD 0

/-- Every entry was computed from entries made before it. -/
inductive Cert (G : α → List (List α)) (leaf : Bool) : List (α × Nat) → Prop
  | nil : Cert G leaf []
  | cons (n : α) (v : Nat) (m : List (α × Nat)) : Cert G leaf m → n ∉ m.map Prod.fst →
      (∀ c, Child G n c → c ∈ m.map Prod.fst) → v = totalAt G leaf (memoVal m) n → Cert G leaf ((n, v) :: m)

theorem lookup_of_mem_keys {m : List (α × Nat)} {c : α} (h : c ∈ m.map Prod.fst) : ∃ v, m.lookup c = some v := by
  induction m with
  | nil => simp at h
  | cons p m ih =>
    rw [List.lookup_cons]
    by_cases hp : c = p.1
    · subst hp; simp
    · rw [beq_eq_false_iff_ne.mpr hp]
      exact ih ((List.mem_cons.mp h).resolve_left hp)

theorem mem_keys_of_lookup {m : List (α × Nat)} {c : α} {v : Nat} (h : m.lookup c = some v) : c ∈ m.map Prod.fst := by
  induction m with
  | nil => simp at h
  | cons p m ih =>
    rw [List.lookup_cons] at h
    by_cases hp : c = p.1
    · subst hp; simp
    · rw [beq_eq_false_iff_ne.mpr hp] at h
      exact List.mem_cons_of_mem _ (ih h)

/-- What the calls for `ns`, made under `stack`, leave behind. -/
structure Counted (G : α → List (List α)) (leaf : Bool) (stack ns : List α) (st st' : CountSt α) : Prop where
  flag : st.infinite = true → st'.infinite = true
  cycle : st'.infinite = true → st.infinite = true ∨ ∃ n ∈ ns, ∃ x, AtOrBelow G n x ∧ StrictlyBelow G x x
  cert : st'.infinite = false → Cert G leaf st.memo → (∀ x ∈ st.memo.map Prod.fst, x ∉ stack) →
    Cert G leaf st'.memo ∧ (∀ x ∈ st'.memo.map Prod.fst, x ∉ stack) ∧ (∀ n ∈ ns, n ∈ st'.memo.map Prod.fst) ∧
    ∀ x v, st.memo.lookup x = some v → st'.memo.lookup x = some v

theorem Counted.refl (leaf : Bool) (stack : List α) (st : CountSt α) : Counted G leaf stack [] st st :=
  ⟨fun h => h, .inl, fun _ h h' => ⟨h, h', by simp, fun _ _ h => h⟩⟩

theorem Counted.append {leaf : Bool} {stack ns ms : List α} {s s' s'' : CountSt α}
    (h1 : Counted G leaf stack ns s s') (h2 : Counted G leaf stack ms s' s'') :
    Counted G leaf stack (ns ++ ms) s s'' := by
  refine ⟨fun h => h2.flag (h1.flag h), ?_, ?_⟩
  · intro h
    rcases h2.cycle h with h | ⟨n, hn, h⟩
    · rcases h1.cycle h with h | ⟨n, hn, h⟩
      · exact .inl h
      · exact .inr ⟨n, List.mem_append_left _ hn, h⟩
    · exact .inr ⟨n, List.mem_append_right _ hn, h⟩
  · intro hf hc hs
    have hf' : s'.infinite = false := by
      cases h : s'.infinite with
      | false => rfl
      | true => rw [h2.flag h] at hf; exact hf
    obtain ⟨a1, a2, a3, a4⟩ := h1.cert hf' hc hs
    obtain ⟨b1, b2, b3, b4⟩ := h2.cert hf a1 a2
    refine ⟨b1, b2, ?_, fun x v h => b4 x v (a4 x v h)⟩
    intro n hn
    rcases List.mem_append.mp hn with hn | hn
    · obtain ⟨v, hv⟩ := lookup_of_mem_keys (a3 n hn)
      exact mem_keys_of_lookup (b4 n v hv)
    · exact b3 n hn

/-- The values returned agree with those recorded. -/
def ValOK (G : α → List (List α)) (leaf : Bool) (stack : List α) (st : CountSt α) (st' : CountSt α)
    (v : Nat) (spec : (α → Nat) → Nat) : Prop :=
  st'.infinite = false → Cert G leaf st.memo → (∀ x ∈ st.memo.map Prod.fst, x ∉ stack) → v = spec (memoVal st'.memo)

theorem countKids_spec {leaf : Bool} {stack : List α} {rec : α → CountSt α → Option (Nat × CountSt α)}
    {ns : List α} (hrec : ∀ n ∈ ns, ∀ st, ∃ v st', rec n st = some (v, st') ∧ Counted G leaf stack [n] st st' ∧
      ValOK G leaf stack st st' v (fun val => val n)) :
    ∀ st, ∃ v st', countKids rec ns st = some (v, st') ∧ Counted G leaf stack ns st st' ∧
      ValOK G leaf stack st st' v (fun val => (ns.map val).prod) := by
  induction ns with
  | nil => intro st; exact ⟨1, st, rfl, .refl .., fun _ _ _ => rfl⟩
  | cons c cs ih =>
    intro st
    obtain ⟨v1, s1, h1, w1, e1⟩ := hrec c (List.mem_cons_self ..) st
    obtain ⟨v2, s2, h2, w2, e2⟩ := ih (fun n hn => hrec n (List.mem_cons_of_mem _ hn)) s1
    refine ⟨v1 * v2, s2, by simp [countKids, h1, h2], w1.append w2, ?_⟩
    intro hf hc hs
    have hf' : s1.infinite = false := by
      cases h : s1.infinite with
      | false => rfl
      | true => rw [w2.flag h] at hf; exact hf
    obtain ⟨a1, a2, a3, a4⟩ := w1.cert hf' hc hs
    obtain ⟨b1, b2, b3, b4⟩ := w2.cert hf a1 a2
    rw [e2 hf a1 a2, e1 hf' hc hs]
    obtain ⟨v, hv⟩ := lookup_of_mem_keys (a3 c (List.mem_cons_self ..))
    simp only [List.map_cons, List.prod_cons]
    congr 1
    simp only [memoVal, hv, b4 c v hv]

theorem memoVal_stable {m m' : List (α × Nat)} (h : ∀ x v, m.lookup x = some v → m'.lookup x = some v)
    {ns : List α} (hn : ∀ n ∈ ns, n ∈ m.map Prod.fst) : ns.map (memoVal m') = ns.map (memoVal m) := by
  apply List.map_congr_left
  intro n hm
  obtain ⟨v, hv⟩ := lookup_of_mem_keys (hn n hm)
  simp only [memoVal, hv, h n v hv]

theorem countPacks_spec {leaf : Bool} {stack : List α} {rec : α → CountSt α → Option (Nat × CountSt α)}
    {pks : List (List α)} (hrec : ∀ n ∈ pks.flatten, ∀ st, ∃ v st', rec n st = some (v, st') ∧
      Counted G leaf stack [n] st st' ∧ ValOK G leaf stack st st' v (fun val => val n)) :
    ∀ st, ∃ v st', countPacks rec pks st = some (v, st') ∧ Counted G leaf stack pks.flatten st st' ∧
      ValOK G leaf stack st st' v (fun val => (pks.map fun pk => (pk.map val).prod).sum) := by
  induction pks with
  | nil => intro st; exact ⟨0, st, rfl, .refl .., fun _ _ _ => rfl⟩
  | cons pk pks ih =>
    intro st
    obtain ⟨v1, s1, h1, w1, e1⟩ := countKids_spec (G := G) (leaf := leaf) (stack := stack) (rec := rec) (ns := pk)
      (fun n hn => hrec n (by simp [hn])) st
    obtain ⟨v2, s2, h2, w2, e2⟩ := ih (fun n hn => hrec n (by
      rw [List.flatten_cons]; exact List.mem_append_right _ hn)) s1
    refine ⟨v1 + v2, s2, by simp [countPacks, h1, h2], by rw [List.flatten_cons]; exact w1.append w2, ?_⟩
    intro hf hc hs
    have hf' : s1.infinite = false := by
      cases h : s1.infinite with
      | false => rfl
      | true => rw [w2.flag h] at hf; exact hf
    obtain ⟨a1, a2, a3, a4⟩ := w1.cert hf' hc hs
    obtain ⟨b1, b2, b3, b4⟩ := w2.cert hf a1 a2
    rw [e2 hf a1 a2, e1 hf' hc hs]
    simp only [List.map_cons, List.sum_cons]
    rw [memoVal_stable b4 a3]

theorem count_spec {U : List α} (hU : ClosedList G U) (leaf : Bool) :
    ∀ f stack n, n ∈ U → left U stack < f → (∀ s ∈ stack, StrictlyBelow G s n) → ∀ st,
      ∃ v st', count G leaf f stack n st = some (v, st') ∧ Counted G leaf stack [n] st st' ∧
        ValOK G leaf stack st st' v (fun val => val n) := by
  intro f
  induction f with
  | zero => intro stack n _ h; omega
  | succ f ih =>
    intro stack n hn hl hst st
    unfold count
    cases hlk : st.memo.lookup n with
    | some v =>
      refine ⟨v, st, rfl, ⟨fun h => h, .inl, fun _ h h' => ⟨h, h', ?_, fun _ _ h => h⟩⟩, ?_⟩
      · intro m hm
        rw [List.mem_singleton.mp hm]
        exact mem_keys_of_lookup hlk
      · intro _ _ _
        simp only [memoVal, hlk, Option.getD_some]
    | none =>
      simp only []
      by_cases hs : n ∈ stack
      · rw [if_pos hs]
        refine ⟨1, _, rfl, ⟨fun _ => rfl, fun _ => .inr ⟨n, List.mem_cons_self .., n, .refl, hst n hs⟩, nofun⟩, nofun⟩
      · rw [if_neg hs]
        have hlt := left_cons_lt hn hs
        obtain ⟨v, s1, h1, w1, e1⟩ := countPacks_spec (G := G) (leaf := leaf) (stack := n :: stack)
          (rec := count G leaf f (n :: stack)) (pks := G n) (by
            intro c hc
            have hc' := mem_flatten_child.mp hc
            refine ih (n :: stack) c (hU n hn c hc') (by omega) ?_
            intro s hs'
            rcases List.mem_cons.mp hs' with rfl | hs'
            · exact .single hc'
            · exact .tail (hst s hs') hc') st
        have hnk : n ∉ st.memo.map Prod.fst := by
          intro h
          obtain ⟨v, hv⟩ := lookup_of_mem_keys h
          rw [hlk] at hv; cases hv
        refine ⟨if G n = [] then leaf.toNat else v,
          { s1 with memo := (n, if G n = [] then leaf.toNat else v) :: s1.memo }, by rw [h1]; rfl,
          ⟨w1.flag, ?_, ?_⟩, ?_⟩
        · intro h
          rcases w1.cycle h with h | ⟨m, hm, x, hx, hxx⟩
          · exact .inl h
          · exact .inr ⟨n, List.mem_cons_self .., x, .head (mem_flatten_child.mp hm) hx, hxx⟩
        · intro hf hc hsk
          have hsk' : ∀ x ∈ st.memo.map Prod.fst, x ∉ n :: stack := by
            intro x hx hx'
            rcases List.mem_cons.mp hx' with rfl | hx'
            · exact hnk hx
            · exact hsk x hx hx'
          obtain ⟨a1, a2, a3, a4⟩ := w1.cert hf hc hsk'
          have hn1 : n ∉ s1.memo.map Prod.fst := fun h => a2 n h (List.mem_cons_self ..)
          refine ⟨.cons n _ _ a1 hn1 (fun c h => a3 c (mem_flatten_child.mpr h)) ?_, ?_, ?_, ?_⟩
          · unfold totalAt
            split_ifs
            · rfl
            · exact e1 hf hc hsk'
          · intro x hx
            rcases List.mem_cons.mp hx with rfl | hx
            · exact hs
            · exact fun h => a2 x hx (List.mem_cons_of_mem _ h)
          · intro m hm
            rw [List.mem_singleton.mp hm]
            exact List.mem_cons_self ..
          · intro x v hv
            have hx : x ≠ n := by
              rintro rfl
              rw [hlk] at hv; cases hv
            rw [List.lookup_cons, beq_eq_false_iff_ne.mpr hx]
            exact a4 x v hv
        · intro hf hc hsk
          simp only [memoVal, List.lookup_cons, beq_self_eq_true, Option.getD_some]

/-! ## Counting trees -/

/-- All ways to pick one from each list. -/
def choices {β : Type} : List (List β) → List (List β)
  | [] => [[]]
  | l :: ls => l.flatMap fun a => (choices ls).map (a :: ·)

theorem mem_choices {β : Type} {ls : List (List β)} {x : List β} :
    x ∈ choices ls ↔ List.Forall₂ (· ∈ ·) x ls := by
  induction ls generalizing x with
  | nil => simp [choices, List.forall₂_nil_right_iff]
  | cons l ls ih =>
    simp only [choices, List.mem_flatMap, List.mem_map, ih, List.forall₂_cons_right_iff]
    constructor
    · rintro ⟨a, ha, y, hy, rfl⟩
      exact ⟨a, y, ha, hy, rfl⟩
    · rintro ⟨a, y, ha, hy, rfl⟩
      exact ⟨a, ha, y, hy, rfl⟩

theorem length_choices {β : Type} (ls : List (List β)) : (choices ls).length = (ls.map List.length).prod := by
  induction ls with
  | nil => rfl
  | cons l ls ih =>
    simp only [choices, List.length_flatMap, List.length_map, ih, List.map_cons, List.prod_cons]
    simp [List.map_const']

theorem nodup_choices {β : Type} {ls : List (List β)} (h : ∀ l ∈ ls, l.Nodup) : (choices ls).Nodup := by
  induction ls with
  | nil => simp [choices]
  | cons l ls ih =>
    have ih := ih fun l hl => h l (List.mem_cons_of_mem _ hl)
    have hl := h l (List.mem_cons_self ..)
    simp only [choices]
    rw [List.nodup_flatMap]
    refine ⟨fun a _ => ih.map fun x y h => (List.cons.inj h).2, ?_⟩
    refine hl.imp_of_mem fun {a b} _ _ hab => ?_
    intro x hx hy
    simp only [List.mem_map] at hx hy
    obtain ⟨u, _, rfl⟩ := hx
    obtain ⟨v, _, he⟩ := hy
    exact hab (List.cons.inj he).1.symm

/-- `ts` lists the trees at `n`, each once. -/
structure TreesAt (G : α → List (List α)) (leaf : Bool) (n : α) (ts : List (PTree α)) : Prop where
  nodup : ts.Nodup
  mem : ∀ t, t ∈ ts ↔ t.Of G leaf ∧ t.root = n

theorem forall2_mem_map {β : Type} {f : β → List (PTree α)} {g : PTree α → β} {ch : List (PTree α)} {pk : List β}
    (hg : ∀ c ∈ pk, ∀ t, t ∈ f c → g t = c) (h : List.Forall₂ (· ∈ ·) ch (pk.map f)) : ch.map g = pk := by
  induction pk generalizing ch with
  | nil => rw [List.map_nil, List.forall₂_nil_right_iff] at h; simp [h]
  | cons c pk ih =>
    rw [List.map_cons, List.forall₂_cons_right_iff] at h
    obtain ⟨t, ts, h1, h2, rfl⟩ := h
    rw [List.map_cons, hg c (List.mem_cons_self ..) t h1, ih (fun c hc => hg c (List.mem_cons_of_mem _ hc)) h2]

theorem forall2_mem_of_map {f : α → List (PTree α)} {ch : List (PTree α)} {pk : List α}
    (hr : ch.map PTree.root = pk) (h : ∀ t ∈ ch, t ∈ f t.root) : List.Forall₂ (· ∈ ·) ch (pk.map f) := by
  induction ch generalizing pk with
  | nil => subst hr; exact .nil
  | cons t ch ih =>
    subst hr
    exact .cons (h t (List.mem_cons_self ..)) (ih rfl fun t ht => h t (List.mem_cons_of_mem _ ht))

theorem forall2_mem_mem {β γ : Type} {f : γ → List β} {ch : List β} {pk : List γ}
    (h : List.Forall₂ (· ∈ ·) ch (pk.map f)) {t : β} (ht : t ∈ ch) : ∃ c ∈ pk, t ∈ f c := by
  induction pk generalizing ch with
  | nil => rw [List.map_nil, List.forall₂_nil_right_iff] at h; simp [h] at ht
  | cons c pk ih =>
    rw [List.map_cons, List.forall₂_cons_right_iff] at h
    obtain ⟨t', ts, h1, h2, rfl⟩ := h
    rcases List.mem_cons.mp ht with rfl | ht
    · exact ⟨c, List.mem_cons_self .., h1⟩
    · obtain ⟨c', hc, h⟩ := ih h2 ht
      exact ⟨c', List.mem_cons_of_mem _ hc, h⟩

/-- The trees at `n`, from those at its children. -/
theorem treesAt_step {leaf : Bool} {n : α} {T : α → List (PTree α)} (h : ∀ c, Child G n c → TreesAt G leaf c (T c)) :
    ∃ ts, TreesAt G leaf n ts ∧ ts.length = totalAt G leaf (fun c => (T c).length) n := by
  by_cases hG : G n = []
  · cases leaf with
    | false =>
      refine ⟨[], ⟨List.nodup_nil, fun t => ⟨by simp, ?_⟩⟩, by simp [totalAt, hG]⟩
      rintro ⟨ht, rfl⟩
      cases ht with
      | leaf k _ h' => cases h'
      | node k i ch hi _ => simp [PTree.root] at hG; rw [hG] at hi; simp at hi
    | true =>
      refine ⟨[.node n 0 []], ⟨by simp, fun t => ?_⟩, by simp [totalAt, hG]⟩
      rw [List.mem_singleton]
      constructor
      · rintro rfl
        exact ⟨.leaf n hG rfl, rfl⟩
      · rintro ⟨ht, rfl⟩
        cases ht with
        | leaf k _ h => rfl
        | node k i ch hi _ => simp [PTree.root] at hG; rw [hG] at hi; simp at hi
  · refine ⟨(G n).zipIdx.flatMap fun p => (choices (p.1.map T)).map (.node n p.2), ⟨?_, ?_⟩, ?_⟩
    · rw [List.nodup_flatMap]
      constructor
      · rintro ⟨pk, i⟩ hp
        refine (nodup_choices ?_).map fun x y h => by simpa using h
        intro l hl
        obtain ⟨c, hc, rfl⟩ := List.mem_map.mp hl
        exact (h c ⟨pk, (List.mem_zipIdx' hp).2 ▸ List.getElem_mem _, hc⟩).nodup
      · have hnd : ((G n).zipIdx.map Prod.snd).Nodup := by
          rw [List.zipIdx_map_snd]; exact List.nodup_range'
        refine (List.pairwise_map.mp hnd).imp fun {a b} hab => ?_
        intro x hx hy
        simp only [List.mem_map] at hx hy
        obtain ⟨u, _, rfl⟩ := hx
        obtain ⟨v, _, he⟩ := hy
        simp only [PTree.node.injEq] at he
        exact hab he.2.1.symm
    · intro t
      simp only [List.mem_flatMap, List.mem_map, Prod.exists, mem_choices]
      constructor
      · rintro ⟨pk, i, hp, ch, hch, rfl⟩
        have hi : (G n)[i]? = some pk := by
          rw [List.mem_zipIdx_iff_getElem?] at hp; exact hp
        have hmem : ∀ c ∈ pk, Child G n c := fun c hc => ⟨pk, List.mem_of_getElem? hi, hc⟩
        refine ⟨.node n i ch ?_ ?_, rfl⟩
        · rw [hi, forall2_mem_map (g := PTree.root) (fun c hc t ht => ((h c (hmem c hc)).mem t |>.mp ht).2) hch]
        · intro t ht
          obtain ⟨c, hc, ht'⟩ := forall2_mem_mem hch ht
          exact ((h c (hmem c hc)).mem t |>.mp ht').1
      · rintro ⟨ht, rfl⟩
        cases ht with
        | leaf k h1 h2 => exact absurd h1 hG
        | node k i ch hi hall =>
          refine ⟨ch.map PTree.root, i, ?_, ch, ?_, rfl⟩
          · rw [List.mem_zipIdx_iff_getElem?]; exact hi
          · refine forall2_mem_of_map rfl fun t ht => ?_
            exact ((h t.root ⟨_, List.mem_of_getElem? hi, List.mem_map_of_mem ht⟩).mem t).mpr ⟨hall t ht, rfl⟩
    · simp only [totalAt, hG, if_false, List.length_flatMap, List.length_map, length_choices, List.map_map]
      congr 1
      conv_rhs => rw [← List.zipIdx_map_fst 0 (G n), List.map_map]
      rfl

theorem totalAt_congr {leaf : Bool} {n : α} {f g : α → Nat} (h : ∀ c, Child G n c → f c = g c) :
    totalAt G leaf f n = totalAt G leaf g n := by
  unfold totalAt
  split_ifs
  · rfl
  · congr 1
    apply List.map_congr_left
    intro pk hpk
    congr 1
    apply List.map_congr_left
    intro c hc
    exact h c ⟨pk, hpk, hc⟩

theorem cert_trees {leaf : Bool} {m : List (α × Nat)} (hc : Cert G leaf m) :
    ∀ n v, m.lookup n = some v → ∃ ts, TreesAt G leaf n ts ∧ ts.length = v := by
  induction hc with
  | nil => intro n v h; simp at h
  | cons k w m _ hk hch hw ih =>
    intro n v h
    rw [List.lookup_cons] at h
    by_cases hn : n = k
    · subst hn
      rw [beq_self_eq_true] at h
      obtain rfl := Option.some.inj h
      classical
      have hex : ∀ c, Child G n c → ∃ ts, TreesAt G leaf c ts ∧ ts.length = memoVal m c := by
        intro c hc
        obtain ⟨v, hv⟩ := lookup_of_mem_keys (hch c hc)
        obtain ⟨ts, h1, h2⟩ := ih c v hv
        exact ⟨ts, h1, by simp only [memoVal, hv, h2, Option.getD_some]⟩
      let T : α → List (PTree α) := fun c => if h : Child G n c then (hex c h).choose else []
      have hT : ∀ c (h : Child G n c), TreesAt G leaf c (T c) ∧ (T c).length = memoVal m c := by
        intro c h
        simp only [T, h, dif_pos]
        exact (hex c h).choose_spec
      obtain ⟨ts, h1, h2⟩ := treesAt_step (T := T) fun c h => (hT c h).1
      exact ⟨ts, h1, by rw [h2, hw, totalAt_congr fun c h => (hT c h).2]⟩
    · rw [beq_eq_false_iff_ne.mpr hn] at h
      exact ih n v h

/-- `NumTrees` is the number of trees, or -1 when a cycle is reachable. -/
theorem numTreesFrom_spec {U : List α} (hU : ClosedList G U) (leaf : Bool) {root : α} (hr : root ∈ U) {fuel : Nat}
    (hf : U.length < fuel) :
    ∃ r : Int, numTreesFrom G leaf fuel root = some r ∧
      ((∃ ts, TreesAt G leaf root ts ∧ r = ts.length) ∨ (r = -1 ∧ ∃ x, AtOrBelow G root x ∧ StrictlyBelow G x x)) := by
  obtain ⟨v, st, h, w, e⟩ := count_spec hU leaf fuel [] root hr (by rw [left_nil]; exact hf) (by simp) {}
  refine ⟨if st.infinite then -1 else (v : Int), by simp only [numTreesFrom, h, Option.map_some], ?_⟩
  cases hi : st.infinite with
  | true =>
    right
    refine ⟨by simp, ?_⟩
    rcases w.cycle hi with h | ⟨n, hn, h⟩
    · cases h
    · rw [List.mem_singleton.mp hn] at h
      exact h
  | false =>
    left
    obtain ⟨c1, _, c3, _⟩ := w.cert hi .nil (by simp)
    obtain ⟨v', hv⟩ := lookup_of_mem_keys (c3 root (List.mem_cons_self ..))
    obtain ⟨ts, h1, h2⟩ := cert_trees c1 root v' hv
    refine ⟨ts, h1, ?_⟩
    have : v = memoVal st.memo root := e hi .nil (by simp)
    simp only [memoVal, hv, Option.getD_some] at this
    simp [h2, this]

theorem numTreesFrom_cert {U : List α} (hU : ClosedList G U) (leaf : Bool) {root : α} (hr : root ∈ U) {fuel : Nat}
    (hf : U.length < fuel) :
    (numTreesFrom G leaf fuel root = some (-1) ∧ ∃ x, AtOrBelow G root x ∧ StrictlyBelow G x x) ∨
    ∃ m v, Cert G leaf m ∧ m.lookup root = some v ∧ numTreesFrom G leaf fuel root = some (v : Int) := by
  obtain ⟨v, st, h, w, e⟩ := count_spec hU leaf fuel [] root hr (by rw [left_nil]; exact hf) (by simp) {}
  cases hi : st.infinite with
  | true =>
    left
    refine ⟨by simp only [numTreesFrom, h, Option.map_some, hi, if_true], ?_⟩
    rcases w.cycle hi with h | ⟨n, hn, h⟩
    · cases h
    · rw [List.mem_singleton.mp hn] at h
      exact h
  | false =>
    right
    obtain ⟨c1, _, c3, _⟩ := w.cert hi .nil (by simp)
    obtain ⟨v', hv⟩ := lookup_of_mem_keys (c3 root (List.mem_cons_self ..))
    have : v = memoVal st.memo root := e hi .nil (by simp)
    simp only [memoVal, hv, Option.getD_some] at this
    subst this
    exact ⟨st.memo, v, c1, hv, by simp [numTreesFrom, h, hi]⟩

theorem cert_below {leaf : Bool} {m : List (α × Nat)} (hc : Cert G leaf m) :
    ∀ n ∈ m.map Prod.fst, ∀ x, Child G n x → x ∈ m.map Prod.fst := by
  induction hc with
  | nil => simp
  | cons k w m _ _ hch _ ih =>
    intro n hn x hx
    rcases List.mem_cons.mp hn with rfl | hn
    · exact List.mem_cons_of_mem _ (hch x hx)
    · exact List.mem_cons_of_mem _ (ih n hn x hx)

theorem cert_induct {leaf : Bool} {m : List (α × Nat)} (hc : Cert G leaf m) {P : α → Prop}
    (h : ∀ k, (∀ c, Child G k c → P c) → P k) : ∀ n ∈ m.map Prod.fst, P n := by
  induction hc with
  | nil => simp
  | cons k w m _ _ hch _ ih =>
    intro n hn
    rcases List.mem_cons.mp hn with rfl | hn
    · exact h _ fun c hc => ih c (hch c hc)
    · exact ih n hn

theorem TreesAt.length_eq {leaf : Bool} {n : α} {ts ts' : List (PTree α)} (h : TreesAt G leaf n ts)
    (h' : TreesAt G leaf n ts') : ts.length = ts'.length :=
  ((List.perm_ext_iff_of_nodup h.nodup h'.nodup).mpr fun t => by rw [h.mem, h'.mem]).length_eq

/-- Trees for the members of a list. -/
theorem trees_list {β : Type} {P : PTree β → Prop} {l : List β} (h : ∀ c ∈ l, ∃ t, P t ∧ t.root = c) :
    ∃ ts : List (PTree β), ts.map PTree.root = l ∧ ∀ t ∈ ts, P t := by
  induction l with
  | nil => exact ⟨[], rfl, by simp⟩
  | cons c l ih =>
    obtain ⟨t, h1, h2⟩ := h c (List.mem_cons_self ..)
    obtain ⟨ts, h3, h4⟩ := ih fun c hc => h c (List.mem_cons_of_mem _ hc)
    refine ⟨t :: ts, by rw [List.map_cons, h2, h3], fun t' ht => ?_⟩
    rcases List.mem_cons.mp ht with rfl | ht
    · exact h1
    · exact h4 t' ht

/-! ## Pumping -/

/-- The number of nodes of a tree. -/
def PTree.size : PTree α → Nat
  | .node _ _ ch => 1 + (ch.map PTree.size).sum

/-- A tree at a child extends to a larger tree at the parent, and distinct trees to distinct trees. -/
theorem extend_tree {leaf : Bool} {n c : α} (h : Child G n c)
    (hp : ∀ d, Child G n d → ∃ t : PTree α, t.Of G leaf ∧ t.root = d) :
    ∃ F : PTree α → PTree α, (∀ t, t.Of G leaf → t.root = c → (F t).Of G leaf ∧ (F t).root = n) ∧
      (∀ t, t.size < (F t).size) ∧ ∀ t t', F t = F t' → t = t' := by
  obtain ⟨pk, hpk, hc⟩ := h
  obtain ⟨i, hi⟩ := List.getElem?_of_mem hpk
  obtain ⟨as, bs, rfl⟩ := List.append_of_mem hc
  have hlist : ∀ l : List α, (∀ d ∈ l, Child G n d) → ∃ ts : List (PTree α), ts.map PTree.root = l ∧
      ∀ t ∈ ts, t.Of G leaf := by
    intro l
    induction l with
    | nil => intro _; exact ⟨[], rfl, by simp⟩
    | cons d l ih =>
      intro hd
      obtain ⟨t, h1, h2⟩ := hp d (hd d (List.mem_cons_self ..))
      obtain ⟨ts, h3, h4⟩ := ih fun d h => hd d (List.mem_cons_of_mem _ h)
      refine ⟨t :: ts, by rw [List.map_cons, h2, h3], fun t' ht => ?_⟩
      rcases List.mem_cons.mp ht with rfl | ht
      · exact h1
      · exact h4 t' ht
  obtain ⟨ta, a1, a2⟩ := hlist as fun d hd => ⟨_, hpk, by simp [hd]⟩
  obtain ⟨tb, b1, b2⟩ := hlist bs fun d hd => ⟨_, hpk, by simp [hd]⟩
  refine ⟨fun t => .node n i (ta ++ t :: tb), ?_, ?_, ?_⟩
  · intro t ht hr
    refine ⟨.node n i _ ?_ ?_, rfl⟩
    · rw [hi, List.map_append, List.map_cons, a1, b1, hr]
    · intro t' ht'
      rcases List.mem_append.mp ht' with h | h
      · exact a2 t' h
      · rcases List.mem_cons.mp h with rfl | h
        · exact ht
        · exact b2 t' h
  · intro t
    simp only [PTree.size, List.map_append, List.map_cons, List.sum_append, List.sum_cons]
    omega
  · intro t t' h
    simp only [PTree.node.injEq, List.append_cancel_left_eq, List.cons.injEq, and_true, true_and] at h
    exact h

/-- Every node below the root has a tree. -/
def Productive (G : α → List (List α)) (leaf : Bool) (root : α) : Prop :=
  ∀ k, AtOrBelow G root k → ∃ t : PTree α, t.Of G leaf ∧ t.root = k

theorem extend_below {leaf : Bool} {root c : α} (hp : Productive G leaf root) {n : α} (hn : AtOrBelow G root n)
    (h : AtOrBelow G n c) :
    ∃ F : PTree α → PTree α, (∀ t, t.Of G leaf → t.root = c → (F t).Of G leaf ∧ (F t).root = n) ∧
      (∀ t, t.size ≤ (F t).size) ∧ ∀ t t', F t = F t' → t = t' := by
  induction h using Relation.ReflTransGen.head_induction_on with
  | refl => exact ⟨id, fun t h1 h2 => ⟨h1, h2⟩, fun _ => Nat.le_refl _, fun _ _ h => h⟩
  | head hc _ ih =>
    obtain ⟨F, f1, f2, f3⟩ := ih (hn.tail hc)
    obtain ⟨E, e1, e2, e3⟩ := extend_tree hc fun d hd => hp d (hn.tail hd)
    refine ⟨E ∘ F, fun t h1 h2 => ?_, fun t => ?_, fun t t' h => f3 _ _ (e3 _ _ h)⟩
    · obtain ⟨a, b⟩ := f1 t h1 h2
      exact e1 _ a b
    · exact Nat.le_of_lt (Nat.lt_of_le_of_lt (f2 t) (e2 _))

/-- A reachable cycle gives arbitrarily large trees. -/
theorem large_trees {leaf : Bool} {root : α} (hp : Productive G leaf root)
    (hc : ∃ x, AtOrBelow G root x ∧ StrictlyBelow G x x) (N : Nat) :
    ∃ t : PTree α, t.Of G leaf ∧ t.root = root ∧ N ≤ t.size := by
  obtain ⟨x, hx, hxx⟩ := hc
  have hgrow : ∃ F : PTree α → PTree α, (∀ t, t.Of G leaf → t.root = x → (F t).Of G leaf ∧ (F t).root = x) ∧
      ∀ t, t.size < (F t).size := by
    obtain ⟨y, h1, h2⟩ := Relation.TransGen.head'_iff.mp hxx
    obtain ⟨F, f1, f2, _⟩ := extend_below hp (hx.tail h1) h2
    obtain ⟨E, e1, e2, _⟩ := extend_tree h1 fun d hd => hp d (hx.tail hd)
    refine ⟨E ∘ F, fun t h1 h2 => ?_, fun t => Nat.lt_of_le_of_lt (f2 t) (e2 _)⟩
    obtain ⟨a, b⟩ := f1 t h1 h2
    exact e1 _ a b
  obtain ⟨F, f1, f2⟩ := hgrow
  have hx' : ∃ t : PTree α, t.Of G leaf ∧ t.root = x ∧ N ≤ t.size := by
    induction N with
    | zero =>
      obtain ⟨t, h1, h2⟩ := hp x hx
      exact ⟨t, h1, h2, Nat.zero_le _⟩
    | succ N ih =>
      obtain ⟨t, h1, h2, h3⟩ := ih
      obtain ⟨a, b⟩ := f1 t h1 h2
      exact ⟨F t, a, b, Nat.lt_of_le_of_lt h3 (f2 t)⟩
  obtain ⟨t, h1, h2, h3⟩ := hx'
  obtain ⟨E, e1, e2, _⟩ := extend_below hp .refl hx
  obtain ⟨a, b⟩ := e1 t h1 h2
  exact ⟨E t, a, b, Nat.le_trans h3 (e2 t)⟩

theorem infinite_trees {leaf : Bool} {root : α} (hp : Productive G leaf root)
    (hc : ∃ x, AtOrBelow G root x ∧ StrictlyBelow G x x) : ¬ ∃ ts, TreesAt G leaf root ts := by
  rintro ⟨ts, h⟩
  have hb : ∃ N, ∀ t ∈ ts, t.size < N := by
    clear h
    induction ts with
    | nil => exact ⟨0, by simp⟩
    | cons t ts ih =>
      obtain ⟨N, hN⟩ := ih
      refine ⟨max N (t.size + 1), fun t' ht => ?_⟩
      rcases List.mem_cons.mp ht with rfl | ht
      · omega
      · have := hN t' ht; omega
  obtain ⟨N, hN⟩ := hb
  obtain ⟨t, h1, h2, h3⟩ := large_trees hp hc N
  have := hN t ((h.mem t).mpr ⟨h1, h2⟩)
  omega

/-- Two packings below the root give two trees. -/
theorem two_trees {leaf : Bool} {root : α} (hp : Productive G leaf root)
    (h : ∃ x, AtOrBelow G root x ∧ 2 ≤ (G x).length) :
    ∃ t t' : PTree α, t ≠ t' ∧ (t.Of G leaf ∧ t.root = root) ∧ t'.Of G leaf ∧ t'.root = root := by
  obtain ⟨x, hx, h2⟩ := h
  have hpack : ∀ i (hi : i < (G x).length), ∃ ch, PTree.Of G leaf (.node x i ch) := by
    intro i hi
    have hget : (G x)[i]? = some ((G x)[i]) := List.getElem?_eq_getElem hi
    have : ∀ l : List α, (∀ c ∈ l, Child G x c) → ∃ ch : List (PTree α), ch.map PTree.root = l ∧
        ∀ t ∈ ch, t.Of G leaf := by
      intro l
      induction l with
      | nil => intro _; exact ⟨[], rfl, by simp⟩
      | cons c l ih =>
        intro hl
        obtain ⟨t, a, b⟩ := hp c (hx.tail (hl c (List.mem_cons_self ..)))
        obtain ⟨ts, d, e⟩ := ih fun c hc => hl c (List.mem_cons_of_mem _ hc)
        refine ⟨t :: ts, by rw [List.map_cons, b, d], fun t' ht => ?_⟩
        rcases List.mem_cons.mp ht with rfl | ht
        · exact a
        · exact e t' ht
    obtain ⟨ch, a, b⟩ := this (G x)[i] fun c hc => ⟨_, List.getElem_mem hi, hc⟩
    exact ⟨ch, .node x i ch (by rw [hget, a]) b⟩
  obtain ⟨c0, h0⟩ := hpack 0 (by omega)
  obtain ⟨c1, h1⟩ := hpack 1 (by omega)
  obtain ⟨E, e1, _, e3⟩ := extend_below hp .refl hx
  exact ⟨_, _, fun h => by have := e3 _ _ h; simp at this, e1 _ h0 rfl, e1 _ h1 rfl⟩

/-- Without two packings there is at most one tree. -/
theorem unique_tree {leaf : Bool} {t : PTree α} (ht : t.Of G leaf) :
    (∀ x, AtOrBelow G t.root x → (G x).length ≤ 1) → ∀ t' : PTree α, t'.Of G leaf → t'.root = t.root → t' = t := by
  induction ht with
  | leaf k h _ =>
    intro _ t' ht' hr
    cases ht' with
    | leaf k' _ _ => simp only [PTree.root] at hr; rw [hr]
    | node k' i ch hi _ => simp only [PTree.root] at hr; rw [hr, h] at hi; simp at hi
  | node k i ch hi hall ih =>
    intro h1 t' ht' hr
    cases ht' with
    | leaf k' h' _ => simp only [PTree.root] at hr; rw [hr] at h'; rw [h'] at hi; simp at hi
    | node k' i' ch' hi' hall' =>
      simp only [PTree.root] at hr
      subst hr
      have hl := h1 k' .refl
      have hi0 : i = 0 := by
        have := (List.getElem?_eq_some_iff.mp hi).1; omega
      have hi0' : i' = 0 := by
        have := (List.getElem?_eq_some_iff.mp hi').1; omega
      subst hi0 hi0'
      have hroots : ch'.map PTree.root = ch.map PTree.root := by
        rw [hi] at hi'; exact (Option.some.inj hi').symm
      have hmem := List.mem_of_getElem? hi
      have : ch' = ch := by
        have hsub : ∀ c ∈ ch, Child G k' c.root := fun c hc => ⟨_, hmem, List.mem_map_of_mem hc⟩
        clear hi hi' hmem
        induction ch generalizing ch' with
        | nil => simpa using hroots
        | cons c ch ih2 =>
          cases ch' with
          | nil => simp at hroots
          | cons c' ch' =>
            simp only [List.map_cons, List.cons.injEq] at hroots
            rw [ih c (List.mem_cons_self ..)
              (fun x hx => h1 x (.head (hsub c (List.mem_cons_self ..)) hx)) c' (hall' c' (List.mem_cons_self ..))
              hroots.1]
            rw [ih2 (fun c hc => hall c (List.mem_cons_of_mem _ hc)) (fun c hc => ih c (List.mem_cons_of_mem _ hc)) ch'
              (fun c hc => hall' c (List.mem_cons_of_mem _ hc)) h1 hroots.2 fun c hc => hsub c (List.mem_cons_of_mem _ hc)]
      rw [this]

end

/-- The answers together. -/
theorem answers [DecidableEq α] {U : List α} (hU : ClosedList G U) (leaf : Bool) {root : α} (hr : root ∈ U) {fuel : Nat}
    (hf : U.length < fuel) (hp : Productive G leaf root) :
    ∃ (r : Int) (b : Bool), numTreesFrom G leaf fuel root = some r ∧ ambiguousFrom G fuel root = some b ∧ r ≠ 0 ∧
      (b = false ↔ r = 1) ∧ (b = true ↔ ∃ x, AtOrBelow G root x ∧ 2 ≤ (G x).length) ∧
      ((∃ ts, TreesAt G leaf root ts ∧ r = ts.length) ∨ (r = -1 ∧ ¬ ∃ ts, TreesAt G leaf root ts)) ∧
      (r = -1 ↔ ∃ x, AtOrBelow G root x ∧ StrictlyBelow G x x) := by
  obtain ⟨r, h1, h2⟩ := numTreesFrom_spec hU leaf hr hf
  obtain ⟨b, h3, h4⟩ := ambiguousFrom_spec hU hr hf
  obtain ⟨t0, ht0, hr0⟩ := hp root .refl
  have hinf := infinite_trees hp
  refine ⟨r, b, h1, h3, ?_, ?_, h4, ?_, ?_⟩
  · rcases h2 with ⟨ts, h, rfl⟩ | ⟨rfl, _⟩
    · have : t0 ∈ ts := (h.mem _).mpr ⟨ht0, hr0⟩
      have := List.length_pos_of_mem this
      omega
    · decide
  · rcases h2 with ⟨ts, h, rfl⟩ | ⟨rfl, hc⟩
    · constructor
      · intro hb
        have hu : ∀ x, AtOrBelow G t0.root x → (G x).length ≤ 1 := by
          intro x hx
          by_contra hge
          rw [hr0] at hx
          rw [h4.mpr ⟨x, hx, by omega⟩] at hb
          cases hb
        have : ts = [t0] := by
          have hm : ∀ t ∈ ts, t = t0 := fun t ht => by
            obtain ⟨h5, h6⟩ := (h.mem t).mp ht
            exact unique_tree ht0 hu t h5 (h6.trans hr0.symm)
          have h0 : t0 ∈ ts := (h.mem _).mpr ⟨ht0, hr0⟩
          have hnd := h.nodup
          match ts, hm, h0, hnd with
          | [a], hm, _, _ => rw [hm a (List.mem_cons_self ..)]
          | a :: b :: l, hm, _, hnd =>
            rw [hm a (List.mem_cons_self ..), hm b (by simp)] at hnd
            simp at hnd
        rw [this]; rfl
      · intro hl
        cases hb : b with
        | false => rfl
        | true =>
          obtain ⟨t, t', hne, h5, h6⟩ := two_trees hp (h4.mp hb)
          obtain ⟨a, rfl⟩ := List.length_eq_one_iff.mp (by exact_mod_cast hl)
          have e1 := List.mem_singleton.mp ((h.mem t).mpr h5)
          have e2 := List.mem_singleton.mp ((h.mem t').mpr h6)
          exact absurd (e1.trans e2.symm) hne
    · constructor
      · intro hb
        exfalso
        have hu : ∀ x, AtOrBelow G t0.root x → (G x).length ≤ 1 := by
          intro x hx
          by_contra hge
          rw [hr0] at hx
          rw [h4.mpr ⟨x, hx, by omega⟩] at hb
          cases hb
        obtain ⟨t, h5, h6, h7⟩ := large_trees hp hc (t0.size + 1)
        rw [unique_tree ht0 hu t h5 (h6.trans hr0.symm)] at h7
        omega
      · intro h; cases h
  · rcases h2 with h | ⟨rfl, hc⟩
    · exact .inl h
    · exact .inr ⟨rfl, hinf hc⟩
  · rcases h2 with ⟨ts, h, rfl⟩ | ⟨rfl, hc⟩
    · constructor
      · intro h; omega
      · intro hc; exact absurd ⟨ts, h⟩ (hinf hc)
    · exact ⟨fun _ => hc, fun _ => rfl⟩

end Verif
