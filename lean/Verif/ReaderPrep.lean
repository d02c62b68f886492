import Verif.Reader
import Verif.FuzzNew

/-!
# What `prepare` computes
-/

namespace Verif

/-- The points that can be reached from the entry points. -/
inductive PtReached (h : TgHeap) (f : TgFrag) : Option Nat → Prop
  | ins (x) : x ∈ f.ins → PtReached h f x
  | step (x y) : PtReached h f x → y ∈ h.nextPts x → PtReached h f y

/-- The points that write something, and from which an end point can be reached over such points. -/
inductive PtEnds (h : TgHeap) (f : TgFrag) : Option Nat → Prop
  | stop (x) : ptProduces h x = true → x ∈ f.outs → PtEnds h f x
  | step (x y) : ptProduces h x = true → y ∈ h.nextPts x → PtEnds h f y → PtEnds h f x

theorem mem_nextPts {h : TgHeap} {x y : Option Nat} : y ∈ h.nextPts x ↔ ∃ n m, x = some n ∧ y = some m ∧ m ∈ h.nexts n := by
  cases x with
  | none => simp [TgHeap.nextPts]
  | some n =>
    simp only [TgHeap.nextPts, List.mem_map, Option.some.injEq]
    constructor
    · rintro ⟨m, h1, rfl⟩; exact ⟨n, m, rfl, rfl, h1⟩
    · rintro ⟨n', m, rfl, rfl, h1⟩; exact ⟨m, h1, rfl⟩

theorem ptReached_some {h : TgHeap} {f : TgFrag} {n : Nat} : PtReached h f (some n) ↔ ReachedFrom h f.ins n := by
  constructor
  · intro H
    generalize hx : some n = x at H
    induction H generalizing n with
    | ins x h1 => subst hx; exact ⟨n, h1, .refl⟩
    | step x y _ h2 ih =>
      subst hx
      obtain ⟨a, b, rfl, e, h3⟩ := mem_nextPts.mp h2
      obtain rfl := Option.some.inj e
      obtain ⟨i, h4, h5⟩ := ih rfl
      exact ⟨i, h4, h5.tail h3⟩
  · rintro ⟨i, h1, h2⟩
    induction h2 with
    | refl => exact .ins _ h1
    | tail _ h3 ih => exact .step _ _ ih (mem_nextPts.mpr ⟨_, _, rfl, rfl, h3⟩)

/-- Nodes not yet collected. -/
def uncollected (h : TgHeap) (all : Pts) : Nat := ((List.range h.size).filter fun n => some n ∉ all).length

theorem uncollected_mono {h : TgHeap} {all all' : Pts} (hs : all ⊆ all') : uncollected h all' ≤ uncollected h all := by
  refine List.Sublist.length_le (List.monotone_filter_right _ fun n hn => ?_)
  simp only [decide_eq_true_eq] at hn ⊢
  exact fun h => hn (hs h)

theorem uncollected_cons {h : TgHeap} {all : Pts} {n : Nat} (hn : n < h.size) (ha : some n ∉ all) :
    uncollected h (some n :: all) < uncollected h all := by
  have key : ∀ l : List Nat, n ∈ l →
      (l.filter fun m => decide (some m ∉ some n :: all)).length < (l.filter fun m => decide (some m ∉ all)).length := by
    intro l hl
    induction l with
    | nil => cases hl
    | cons a l ih =>
      have hle : (l.filter fun m => decide (some m ∉ some n :: all)).length ≤ (l.filter fun m => decide (some m ∉ all)).length := by
        refine List.Sublist.length_le (List.monotone_filter_right _ fun m hm => ?_)
        simp only [decide_eq_true_eq, List.mem_cons, not_or] at hm ⊢
        exact hm.2
      by_cases e : a = n
      · subst e
        rw [List.filter_cons_of_neg (by simp), List.filter_cons_of_pos (by simpa using ha)]
        exact Nat.lt_succ_of_le hle
      · have := ih ((List.mem_cons.mp hl).resolve_left fun h => e h.symm)
        by_cases ha' : some a ∈ all
        · rw [List.filter_cons_of_neg (by simp [ha']), List.filter_cons_of_neg (by simpa using ha')]
          exact this
        · rw [List.filter_cons_of_pos (by simp [ha', e]), List.filter_cons_of_pos (by simpa using ha')]
          simpa using this
  exact key _ (List.mem_range.mpr hn)

/-- What collecting from the points `xs` on adds. -/
structure CollectPost (h : TgHeap) (f : TgFrag) (xs all all' : Pts) : Prop where
  sub : all ⊆ all'
  has : xs ⊆ all'
  new : ∀ x ∈ all', x ∈ all ∨ (PtReached h f x ∧ h.nextPts x ⊆ all')

theorem collectEach_sat {h : TgHeap} {f : TgFrag} {rec : Option Nat → Pts → Run Pts} (xs : Pts) : ∀ all,
    (∀ x ∈ xs, ∀ all', all ⊆ all' → (rec x all').Sat False False (CollectPost h f [x] all')) →
    (collectEach rec xs all).Sat False False (CollectPost h f xs all) := by
  induction xs with
  | nil => intro all _; exact ⟨List.Subset.refl _, by simp, fun x hx => .inl hx⟩
  | cons x xs ih =>
    intro all H
    rw [collectEach]
    refine Run.Sat.bnd (H x (List.mem_cons_self ..) all (List.Subset.refl _)) fun all1 h1 => ?_
    refine (ih all1 fun y hy all' hs => H y (List.mem_cons_of_mem _ hy) all' (List.Subset.trans h1.sub hs)).mono fun all2 h2 => ?_
    refine ⟨List.Subset.trans h1.sub h2.sub, ?_, fun y hy => ?_⟩
    · intro y hy
      rcases List.mem_cons.mp hy with rfl | hy
      · exact h2.sub (h1.has (List.mem_cons_self ..))
      · exact h2.has hy
    · rcases h2.new y hy with h3 | h3
      · rcases h1.new y h3 with h4 | h4
        · exact .inl h4
        · exact .inr ⟨h4.1, List.Subset.trans h4.2 h2.sub⟩
      · exact .inr h3

theorem readerCollect_sat {h : TgHeap} {f : TgFrag} (hfin : GraphFin h f) (k : Nat) : ∀ x all, PtReached h f x →
    uncollected h all < k → (readerCollect h k x all).Sat False False (CollectPost h f [x] all) := by
  induction k with
  | zero => intro x all _ hk; omega
  | succ k ih =>
    intro x all hx hk
    rw [readerCollect]
    by_cases hm : x ∈ all
    · rw [if_pos hm]
      exact ⟨List.Subset.refl _, by simpa using hm, fun y hy => .inl hy⟩
    rw [if_neg hm]
    refine (collectEach_sat (h.nextPts x) (x :: all) fun y hy all' hs => ih y all' (.step x y hx hy) ?_).mono fun all' H => ?_
    · obtain ⟨n, m, rfl, rfl, h1⟩ := mem_nextPts.mp hy
      have h2 := uncollected_cons (h := h) (hfin n (ptReached_some.mp hx)) hm
      have h3 := uncollected_mono (h := h) hs
      omega
    · refine ⟨fun y hy => H.sub (List.mem_cons_of_mem _ hy), by simpa using H.sub (List.mem_cons_self ..), fun y hy => ?_⟩
      rcases H.new y hy with h1 | h1
      · rcases List.mem_cons.mp h1 with rfl | h1
        · exact .inr ⟨hx, H.has⟩
        · exact .inl h1
      · exact .inr h1

theorem uncollected_le (h : TgHeap) (all : Pts) : uncollected h all ≤ h.size := by
  have := List.length_filter_le (fun n => decide (some n ∉ all)) (List.range h.size)
  rwa [List.length_range] at this

theorem collect_sat {h : TgHeap} {f : TgFrag} (hfin : GraphFin h f) :
    (collectEach (readerCollect h (h.size + 2)) f.ins []).Sat False False fun all => ∀ x, x ∈ all ↔ PtReached h f x := by
  refine (collectEach_sat (f := f) f.ins [] fun x hx all _ => readerCollect_sat hfin _ x all (.ins x hx) ?_).mono fun all H x => ?_
  · have := uncollected_le h all
    omega
  · constructor
    · intro hx
      exact ((H.new x hx).resolve_left (by simp)).1
    · intro hx
      induction hx with
      | ins x h1 => exact H.has h1
      | step x y _ h2 ih => exact ((H.new x ih).resolve_left (by simp)).2 h2

/-! ## The fixpoint -/

/-- What holds of `canReach` at any time. -/
def CanSound (h : TgHeap) (f : TgFrag) (all : Pts) (can : Option Nat → Bool) : Prop := ∀ x, can x = true → x ∈ all ∧ PtEnds h f x

/-- Points still without the mark. -/
def unreached (all : Pts) (can : Option Nat → Bool) : Nat := (all.filter fun x => !can x).length

theorem unreached_mark {all : Pts} {can : Option Nat → Bool} {x : Option Nat} (hx : x ∈ all) (hc : can x = false) :
    unreached all (fun y => if y = x then true else can y) < unreached all can := by
  unfold unreached
  induction all with
  | nil => cases hx
  | cons a l ih =>
    have hle : (l.filter fun y => !(if y = x then true else can y)).length ≤ (l.filter fun y => !can y).length := by
      refine List.Sublist.length_le (List.monotone_filter_right _ fun m hm => ?_)
      by_cases e : m = x
      · simp [e] at hm
      · simpa [e] using hm
    by_cases e : a = x
    · subst e
      rw [List.filter_cons_of_neg (by simp), List.filter_cons_of_pos (by simpa using hc)]
      exact Nat.lt_succ_of_le hle
    · have := ih ((List.mem_cons.mp hx).resolve_left fun h => e h.symm)
      by_cases ha : can a = true
      · rw [List.filter_cons_of_neg (by simp [e, ha]), List.filter_cons_of_neg (by simpa using ha)]
        exact this
      · rw [List.filter_cons_of_pos (by simpa [e] using ha), List.filter_cons_of_pos (by simpa using ha)]
        simpa using this

/-- What one round does. -/
structure RoundPost (h : TgHeap) (f : TgFrag) (all xs : Pts) (can : Option Nat → Bool) (ch : Bool)
    (r : (Option Nat → Bool) × Bool) : Prop where
  sound : CanSound h f all r.1
  left : unreached all r.1 ≤ unreached all can
  less : r.2 = true → ch = true ∨ unreached all r.1 < unreached all can
  same : r.2 = false → ch = false ∧ r.1 = can ∧ ∀ x ∈ xs, can x = true ∨ ptProduces h x = false ∨ reachNow h f can x = false

theorem reachNow_ends {h : TgHeap} {f : TgFrag} {all : Pts} {can : Option Nat → Bool} (hs : CanSound h f all can) {x : Option Nat}
    (hp : ptProduces h x = true) (hr : reachNow h f can x = true) : PtEnds h f x := by
  unfold reachNow at hr
  rw [Bool.or_eq_true, decide_eq_true_eq, List.any_eq_true] at hr
  rcases hr with h1 | ⟨y, h1, h2⟩
  · exact .stop x hp h1
  · rw [Bool.and_eq_true] at h2
    exact .step x y hp h1 (hs y h2.2).2

theorem reachRound_post {h : TgHeap} {f : TgFrag} {all : Pts} (xs : Pts) : ∀ can ch, xs ⊆ all → CanSound h f all can →
    RoundPost h f all xs can ch (reachRound h f xs can ch) := by
  induction xs with
  | nil => intro can ch _ hs; exact ⟨hs, le_refl _, fun h => .inl h, fun h => ⟨h, rfl, by simp⟩⟩
  | cons x xs ih =>
    intro can ch hx hs
    have hxs : xs ⊆ all := fun y hy => hx (List.mem_cons_of_mem _ hy)
    rw [reachRound]
    by_cases h1 : (can x || !ptProduces h x) = true
    · rw [if_pos h1]
      have H := ih can ch hxs hs
      refine ⟨H.sound, H.left, H.less, fun h2 => ?_⟩
      obtain ⟨h3, h4, h5⟩ := H.same h2
      refine ⟨h3, h4, fun y hy => ?_⟩
      rcases List.mem_cons.mp hy with rfl | hy
      · rw [Bool.or_eq_true] at h1
        rcases h1 with h1 | h1
        · exact .inl h1
        · exact .inr (.inl (by simpa using h1))
      · exact h5 y hy
    rw [if_neg h1]
    simp only [Bool.or_eq_true, not_or, Bool.not_eq_true, Bool.not_eq_false'] at h1
    by_cases h2 : reachNow h f can x = true
    · rw [if_pos h2]
      have hs' : CanSound h f all (fun y => if y = x then true else can y) := fun y hy => by
        by_cases e : y = x
        · subst e
          exact ⟨hx (List.mem_cons_self ..), reachNow_ends hs h1.2 h2⟩
        · simp only [if_neg e] at hy
          exact hs y hy
      have H := ih _ true hxs hs'
      have hlt := unreached_mark (hx (List.mem_cons_self ..)) h1.1
      refine ⟨H.sound, le_trans H.left (le_of_lt hlt), fun _ => .inr (lt_of_le_of_lt H.left hlt), fun h3 => ?_⟩
      exact absurd (H.same h3).1 (by simp)
    · rw [if_neg h2]
      have H := ih can ch hxs hs
      refine ⟨H.sound, H.left, H.less, fun h3 => ?_⟩
      obtain ⟨h4, h5, h6⟩ := H.same h3
      refine ⟨h4, h5, fun y hy => ?_⟩
      rcases List.mem_cons.mp hy with rfl | hy
      · exact .inr (.inr (by simpa using h2))
      · exact h6 y hy

theorem reachLoop_sat {h : TgHeap} {f : TgFrag} {sched : Sched (Option Nat)} (hf : sched.Fair) {all : Pts} (k : Nat) : ∀ i can,
    CanSound h f all can → unreached all can < k → (reachLoop h f sched all k i can).Sat False False fun can =>
      CanSound h f all can ∧ ∀ x ∈ all, can x = true ∨ ptProduces h x = false ∨ reachNow h f can x = false := by
  induction k with
  | zero => intro i can _ hk; omega
  | succ k ih =>
    intro i can hs hk
    rw [reachLoop]
    have H := reachRound_post (sched i all) can false (hf i all).subset hs
    generalize reachRound h f (sched i all) can false = r at H
    by_cases h1 : r.2 = true
    · simp only [h1, if_true]
      refine ih _ _ H.sound ?_
      have := (H.less h1).resolve_left (by simp)
      omega
    · have h2 := H.same (by simpa using h1)
      simp only [h1]
      refine ⟨H.sound, fun x hx => ?_⟩
      have h3 := h2.2.1
      show r.1 x = true ∨ ptProduces h x = false ∨ reachNow h f r.1 x = false
      rw [h3]
      exact h2.2.2 x ((hf i all).mem_iff.mpr hx)

/-- What `prepare` computes. -/
structure ReaderOK (f : TgFrag) (h : TgHeap) (R : Reader) : Prop where
  frag : R.frag = f
  heap : R.heap = h
  can : ∀ x, R.can x = true ↔ PtReached h f x ∧ PtEnds h f x
  entries : ∃ p : Option Nat → Bool, R.entries = f.ins.filter p ∧ ∀ x, x ∈ R.entries ↔ x ∈ f.ins ∧ PtEnds h f x

theorem ptEnds_produces {h : TgHeap} {f : TgFrag} {x : Option Nat} (H : PtEnds h f x) : ptProduces h x = true := by
  cases H <;> assumption

theorem readerPrepare_sat {sched : Sched (Option Nat)} (hf : sched.Fair) {f : TgFrag} {h : TgHeap} (hfin : GraphFin h f) :
    (readerPrepare sched f h).Sat False False (ReaderOK f h) := by
  unfold readerPrepare
  refine Run.Sat.bnd (collect_sat hfin) fun all hall => ?_
  refine Run.Sat.bnd (reachLoop_sat hf _ 0 (fun _ => false) (fun x hx => by cases hx) ?_) fun can hcan => ?_
  · have : unreached all (fun _ => false) ≤ all.length := List.length_filter_le ..
    omega
  · have hcan' : ∀ x, can x = true ↔ PtReached h f x ∧ PtEnds h f x := by
      intro x
      constructor
      · intro hx
        exact ⟨(hall x).mp (hcan.1 x hx).1, (hcan.1 x hx).2⟩
      · rintro ⟨h1, h2⟩
        induction h2 with
        | stop x h3 h4 =>
          rcases hcan.2 x ((hall x).mpr h1) with h5 | h5 | h5
          · exact h5
          · rw [h3] at h5; cases h5
          · unfold reachNow at h5
            rw [decide_eq_true h4] at h5
            cases h5
        | step x y h3 h4 h6 ih =>
          have h7 := ih (.step x y h1 h4)
          rcases hcan.2 x ((hall x).mpr h1) with h5 | h5 | h5
          · exact h5
          · rw [h3] at h5; cases h5
          · unfold reachNow at h5
            rw [Bool.or_eq_false_iff, List.any_eq_false] at h5
            have := h5.2 y h4
            rw [h7, ptEnds_produces h6] at this
            exact absurd rfl this
    refine ⟨rfl, rfl, hcan', _, rfl, fun x => ?_⟩
    rw [List.mem_filter, Bool.and_eq_true, hcan']
    constructor
    · rintro ⟨h1, _, _, h2⟩; exact ⟨h1, h2⟩
    · rintro ⟨h1, h2⟩; exact ⟨h1, ptEnds_produces h2, .ins x h1, h2⟩

end Verif
