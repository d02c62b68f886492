import Verif.Fuzz
import Verif.TgClone

/-!
# What `NewGenerator` computes
-/

namespace Verif

/-- A finite graph: the nodes that can be reached exist. -/
def GraphFin (h : TgHeap) (f : TgFrag) : Prop := ∀ n, ReachedFrom h f.ins n → n < h.size

/-- The outcome of collecting the nodes. -/
def Collected (h : TgHeap) (ins : Pts) : Except Elem (List (Nat × Nat)) → Prop
  | .error e => ∃ n, ReachedFrom h ins n ∧ h.elem n = e ∧ producing e = false
  | .ok rev => (∀ n, ReachedFrom h ins n → producing (h.elem n) = true) ∧
      ∀ m n, (m, n) ∈ rev ↔ ReachedFrom h ins n ∧ m ∈ h.nexts n

theorem fuzzCollect_sat {h : TgHeap} {ins : Pts} (hb : ∀ n, ReachedFrom h ins n → n < h.size) (k : Nat) : ∀ stack seen rev,
    (∀ x ∈ seen, ReachedFrom h ins x ∧ producing (h.elem x) = true) → (∀ x ∈ stack, ReachedFrom h ins x) →
    (∀ i, some i ∈ ins → i ∈ seen ∨ i ∈ stack) → (∀ x ∈ seen, ∀ m ∈ h.nexts x, m ∈ seen ∨ m ∈ stack) →
    (∀ m n, (m, n) ∈ rev ↔ n ∈ seen ∧ m ∈ h.nexts n) →
    stack.length + edgesLeft h seen < k →
    (fuzzCollect h k stack seen rev).Sat False False (Collected h ins) := by
  induction k with
  | zero => intro stack seen rev _ _ _ _ _ hk; omega
  | succ k ih =>
    intro stack seen rev h1 h2 h3 h4 h5 hk
    cases stack with
    | nil =>
      rw [fuzzCollect]
      have hall : ∀ n, ReachedFrom h ins n → n ∈ seen := by
        rintro n ⟨i, h6, h7⟩
        induction h7 with
        | refl => exact (h3 i h6).resolve_right (by simp)
        | tail _ h8 ih' => exact (h4 _ ih' _ h8).resolve_right (by simp)
      refine ⟨fun n hn => (h1 n (hall n hn)).2, fun m n => ?_⟩
      rw [h5]
      exact and_congr_left fun _ => ⟨fun h => (h1 n h).1, hall n⟩
    | cons n stack =>
      rw [fuzzCollect]
      by_cases hs : n ∈ seen
      · rw [if_pos hs]
        refine ih stack seen rev h1 (fun x hx => h2 x (List.mem_cons_of_mem _ hx)) ?_ ?_ h5 (by simp only [List.length_cons] at hk; omega)
        · intro i hi
          rcases h3 i hi with h6 | h6
          · exact .inl h6
          · rcases List.mem_cons.mp h6 with rfl | h6
            · exact .inl hs
            · exact .inr h6
        · intro x hx m hm
          rcases h4 x hx m hm with h6 | h6
          · exact .inl h6
          · rcases List.mem_cons.mp h6 with rfl | h6
            · exact .inl hs
            · exact .inr h6
      · rw [if_neg hs]
        have hn' : ReachedFrom h ins n := h2 n (List.mem_cons_self ..)
        have hnext : ∀ m ∈ h.nexts n, ReachedFrom h ins m := fun m hm => by
          obtain ⟨i, h6, h7⟩ := hn'
          exact ⟨i, h6, h7.tail hm⟩
        by_cases hpr : producing (h.elem n) = false
        · rw [if_pos hpr]
          exact ⟨n, hn', rfl, hpr⟩
        rw [if_neg hpr]
        refine ih _ _ _ ?_ ?_ ?_ ?_ ?_ ?_
        · intro x hx
          rcases List.mem_cons.mp hx with rfl | hx
          · exact ⟨hn', by simpa using hpr⟩
          · exact h1 x hx
        · intro x hx
          rcases List.mem_append.mp hx with h6 | h6
          · exact hnext x (List.mem_reverse.mp h6)
          · exact h2 x (List.mem_cons_of_mem _ h6)
        · intro i hi
          rw [List.mem_append, List.mem_cons]
          rcases h3 i hi with h6 | h6
          · exact .inl (.inr h6)
          · rcases List.mem_cons.mp h6 with rfl | h6
            · exact .inl (.inl rfl)
            · exact .inr (.inr h6)
        · intro x hx m hm
          rw [List.mem_append, List.mem_reverse, List.mem_cons]
          rcases List.mem_cons.mp hx with rfl | hx
          · exact .inr (.inl hm)
          · rcases h4 x hx m hm with h6 | h6
            · exact .inl (.inr h6)
            · rcases List.mem_cons.mp h6 with rfl | h6
              · exact .inl (.inl rfl)
              · exact .inr (.inr h6)
        · intro m x
          rw [List.mem_append, h5, List.mem_cons, List.mem_map]
          constructor
          · rintro (⟨h6, h7⟩ | ⟨m', h6, h7⟩)
            · exact ⟨.inr h6, h7⟩
            · obtain ⟨rfl, rfl⟩ := Prod.mk.inj h7
              exact ⟨.inl rfl, h6⟩
          · rintro ⟨rfl | h6, h7⟩
            · exact .inr ⟨m, h7, rfl⟩
            · exact .inl ⟨h6, h7⟩
        · have := edgesLeft_cons h seen n (hb n hn') hs
          simp only [List.length_cons, List.length_append, List.length_reverse] at hk ⊢
          omega

/-! ## The backward search -/

/-- The pairs whose second node has no distance yet. -/
def unmarked (rev : List (Nat × Nat)) (d : Option Nat → Option Nat) : Nat := (rev.filter fun p => (d (some p.2)).isNone).length

theorem unmarked_mark {rev : List (Nat × Nat)} {d : Option Nat → Option Nat} {p v : Nat} (hp : p ∈ rev.map Prod.snd)
    (hn : (d (some p)).isSome = false) :
    unmarked rev (fun x => if x = some p then some v else d x) < unmarked rev d := by
  induction rev with
  | nil => cases hp
  | cons a rev ih =>
    have hle : ∀ l : List (Nat × Nat), unmarked l (fun x => if x = some p then some v else d x) ≤ unmarked l d := by
      intro l
      refine (List.Sublist.length_le ?_)
      refine List.monotone_filter_right l fun x hx => ?_
      simp only at hx ⊢
      by_cases e : (some x.2 : Option Nat) = some p
      · rw [if_pos e] at hx; cases hx
      · rwa [if_neg e] at hx
    unfold unmarked
    by_cases e : a.2 = p
    · rw [List.filter_cons_of_neg (by simp [e]), List.filter_cons_of_pos (by simp only [e]; simpa using hn)]
      exact Nat.lt_succ_of_le (hle rev)
    · have hp' : p ∈ rev.map Prod.snd := by
        rcases List.mem_cons.mp hp with h | h
        · exact absurd h.symm e
        · exact h
      have := ih hp'
      unfold unmarked at this
      by_cases ha : (d (some a.2)).isNone = true
      · rw [List.filter_cons_of_pos (by simpa [e] using ha), List.filter_cons_of_pos (by exact ha)]
        simpa using this
      · rw [List.filter_cons_of_neg (by simpa [e] using ha), List.filter_cons_of_neg (by exact ha)]
        exact this

/-- What marking the nodes before one does: `new` are the nodes added. -/
structure Marked (v : Nat) (xs new : List (Option Nat)) (d d' : Option Nat → Option Nat) : Prop where
  add : ∀ x ∈ new, x ∈ xs ∧ d x = none ∧ d' x = some v
  old : ∀ x, x ∉ new → d' x = d x
  all : ∀ x ∈ xs, (d' x).isSome = true

theorem Marked.cons {v : Nat} {x : Option Nat} {xs new : List (Option Nat)} {d d' : Option Nat → Option Nat} (hx : d x = none)
    (H : Marked v xs new (fun y => if y = x then some v else d y) d') : Marked v (x :: xs) (x :: new) d d' := by
  have hxn : x ∉ new := fun h => by
    have := (H.add x h).2.1
    rw [if_pos rfl] at this
    cases this
  have hdx : d' x = some v := by rw [H.old x hxn, if_pos rfl]
  refine ⟨fun y hy => ?_, fun y hy => ?_, fun y hy => ?_⟩
  · rcases List.mem_cons.mp hy with rfl | hy
    · exact ⟨List.mem_cons_self .., hx, hdx⟩
    · obtain ⟨h1, h2, h3⟩ := H.add y hy
      refine ⟨List.mem_cons_of_mem _ h1, ?_, h3⟩
      by_cases e : y = x
      · rw [if_pos e] at h2; cases h2
      · rwa [if_neg e] at h2
  · rw [List.mem_cons, not_or] at hy
    rw [H.old y hy.2, if_neg hy.1]
  · rcases List.mem_cons.mp hy with rfl | hy
    · rw [hdx]; rfl
    · exact H.all y hy

theorem Marked.skip {v : Nat} {x : Option Nat} {xs new : List (Option Nat)} {d d' : Option Nat → Option Nat}
    (hx : (d x).isSome = true) (H : Marked v xs new d d') : Marked v (x :: xs) new d d' := by
  refine ⟨fun y hy => ⟨List.mem_cons_of_mem _ (H.add y hy).1, (H.add y hy).2⟩, H.old, fun y hy => ?_⟩
  rcases List.mem_cons.mp hy with rfl | hy
  · by_cases e : y ∈ new
    · rw [(H.add y e).2.2]; rfl
    · rw [H.old y e]; exact hx
  · exact H.all y hy

theorem fuzzEnds_spec (es : Pts) : ∀ q d, ∃ new, (fuzzEnds es q d).1 = q ++ new ∧ new.length ≤ es.length ∧
    Marked 0 es new d (fuzzEnds es q d).2 := by
  induction es with
  | nil => intro q d; exact ⟨[], by simp [fuzzEnds], by simp, ⟨by simp, by simp [fuzzEnds], by simp⟩⟩
  | cons e es ih =>
    intro q d
    rw [fuzzEnds]
    by_cases hd : (d e).isSome = true
    · rw [if_pos hd]
      obtain ⟨new, h1, h2, h3⟩ := ih q d
      exact ⟨new, h1, by simp only [List.length_cons]; omega, h3.skip hd⟩
    · rw [if_neg hd]
      obtain ⟨new, h1, h2, h3⟩ := ih (q ++ [e]) (fun x => if x = e then some 0 else d x)
      exact ⟨e :: new, by rw [h1]; simp, by simp only [List.length_cons]; omega, h3.cons (by simpa using hd)⟩

theorem fuzzPreds_spec {rev : List (Nat × Nat)} (v : Nat) (ps : List Nat) : ∀ q d, (∀ p ∈ ps, p ∈ rev.map Prod.snd) →
    ∃ new, (fuzzPreds v ps q d).1 = q ++ new ∧ new.length + unmarked rev (fuzzPreds v ps q d).2 ≤ unmarked rev d ∧
    Marked (v + 1) (ps.map some) new d (fuzzPreds v ps q d).2 := by
  induction ps with
  | nil => intro q d _; exact ⟨[], by simp [fuzzPreds], by simp [fuzzPreds], ⟨by simp, by simp [fuzzPreds], by simp⟩⟩
  | cons p ps ih =>
    intro q d hps
    rw [fuzzPreds]
    have hps' : ∀ p ∈ ps, p ∈ rev.map Prod.snd := fun p hp => hps p (List.mem_cons_of_mem _ hp)
    by_cases hd : (d (some p)).isSome = true
    · rw [if_pos hd]
      obtain ⟨new, h1, h2, h3⟩ := ih q d hps'
      exact ⟨new, h1, h2, h3.skip hd⟩
    · rw [if_neg hd]
      obtain ⟨new, h1, h2, h3⟩ := ih (q ++ [some p]) (fun x => if x = some p then some (v + 1) else d x) hps'
      refine ⟨some p :: new, by rw [h1]; simp, ?_, h3.cons (by simpa using hd)⟩
      have := unmarked_mark (v := v + 1) (hps p (List.mem_cons_self ..)) (by simpa using hd)
      simp only [List.length_cons]
      omega

/-- The distances known so far are those of paths, end points have distance 0. -/
structure DistSound (rev : List (Nat × Nat)) (outs : Pts) (d : Option Nat → Option Nat) : Prop where
  ends : ∀ x ∈ outs, d x = some 0
  step : ∀ x v, d x = some v → (v = 0 ∧ x ∈ outs) ∨ ∃ n m u, x = some n ∧ v = u + 1 ∧ (m, n) ∈ rev ∧ d (some m) = some u

/-- A node before one of distance `v` has at most distance `v + 1`. -/
def DistNear (rev : List (Nat × Nat)) (d : Option Nat → Option Nat) (x : Option Nat) : Prop :=
  ∀ v, d x = some v → ∀ m n, x = some m → (m, n) ∈ rev → ∃ u, d (some n) = some u ∧ u ≤ v + 1

/-- The invariant of the search. -/
structure BfsInv (rev : List (Nat × Nat)) (outs : Pts) (q : List (Option Nat)) (d : Option Nat → Option Nat) : Prop where
  sound : DistSound rev outs d
  queued : ∀ x ∈ q, (d x).isSome = true
  sorted : q.Pairwise fun a b => (d a).getD 0 ≤ (d b).getD 0
  top : ∀ x ∈ q, ∀ y u, d y = some u → u ≤ (d x).getD 0 + 1
  done : ∀ x, x ∉ q → DistNear rev d x

theorem mem_revOf {rev : List (Nat × Nat)} {x : Option Nat} {n : Nat} : n ∈ revOf rev x ↔ ∃ m, x = some m ∧ (m, n) ∈ rev := by
  unfold revOf
  rw [List.mem_map]
  constructor
  · rintro ⟨⟨m, n'⟩, h1, h2⟩
    rw [List.mem_filter] at h1
    simp only at h2 h1
    subst h2
    exact ⟨m, (of_decide_eq_true h1.2).symm, h1.1⟩
  · rintro ⟨m, rfl, h⟩
    exact ⟨(m, n), by simp [h], rfl⟩

theorem bfs_step {rev : List (Nat × Nat)} {outs : Pts} {x : Option Nat} {q : List (Option Nat)} {d : Option Nat → Option Nat}
    (H : BfsInv rev outs (x :: q) d) {new : List (Option Nat)} {d' : Option Nat → Option Nat}
    (hm : Marked ((d x).getD 0 + 1) ((revOf rev x).map some) new d d') : BfsInv rev outs (q ++ new) d' := by
  obtain ⟨v, hv⟩ := Option.isSome_iff_exists.mp (H.queued x (List.mem_cons_self ..))
  have hv' : (d x).getD 0 = v := by rw [hv]; rfl
  rw [hv'] at hm
  have hkeep : ∀ y u, d y = some u → d' y = some u := fun y u hy => by
    rw [hm.old y, hy]
    intro hn
    rw [(hm.add y hn).2.1] at hy
    cases hy
  have hback : ∀ y u, d' y = some u → d y = some u ∨ (y ∈ new ∧ u = v + 1) := fun y u hy => by
    by_cases hn : y ∈ new
    · right
      rw [(hm.add y hn).2.2, Option.some.injEq] at hy
      exact ⟨hn, hy.symm⟩
    · left
      rwa [hm.old y hn] at hy
  have hq : ∀ y ∈ q, ∃ u, d y = some u ∧ d' y = some u ∧ v ≤ u ∧ u ≤ v + 1 := fun y hy => by
    obtain ⟨u, hu⟩ := Option.isSome_iff_exists.mp (H.queued y (List.mem_cons_of_mem _ hy))
    have h1 := List.rel_of_pairwise_cons H.sorted hy
    have h2 := H.top x (List.mem_cons_self ..) y u hu
    rw [hv', hu] at h1
    rw [hv'] at h2
    exact ⟨u, hu, hkeep y u hu, by simpa using h1, h2⟩
  have hnew : ∀ y ∈ new, d' y = some (v + 1) := fun y hy => (hm.add y hy).2.2
  refine ⟨⟨fun y hy => hkeep y 0 (H.sound.ends y hy), fun y u hy => ?_⟩, fun y hy => ?_, ?_, fun y hy z u hz => ?_, fun y hy => ?_⟩
  · rcases hback y u hy with h1 | ⟨h1, rfl⟩
    · rcases H.sound.step y u h1 with h2 | ⟨n, m, w, e1, e2, h2, h3⟩
      · exact .inl h2
      · exact .inr ⟨n, m, w, e1, e2, h2, hkeep _ _ h3⟩
    · right
      obtain ⟨n, h2, rfl⟩ := List.mem_map.mp (hm.add y h1).1
      obtain ⟨m, rfl, h3⟩ := mem_revOf.mp h2
      exact ⟨n, m, v, rfl, rfl, h3, hkeep _ _ hv⟩
  · rcases List.mem_append.mp hy with hy | hy
    · obtain ⟨u, _, h2, _⟩ := hq y hy
      rw [h2]; rfl
    · rw [hnew y hy]; rfl
  · rw [List.pairwise_append]
    refine ⟨(List.Pairwise.of_cons H.sorted).imp_of_mem fun {a b} ha hb hab => ?_, List.Pairwise.imp_of_mem (R := fun _ _ => True)
      (fun {a b} ha hb _ => by rw [hnew a ha, hnew b hb]) (List.pairwise_of_forall fun _ _ => trivial), fun a ha b hb => ?_⟩
    · obtain ⟨u, h1, h2, _⟩ := hq a ha
      obtain ⟨w, h3, h4, _⟩ := hq b hb
      rw [h1, h3] at hab
      rw [h2, h4]
      exact hab
    · obtain ⟨u, _, h2, _, h3⟩ := hq a ha
      rw [h2, hnew b hb]
      exact h3
  · have hz' : u ≤ v + 1 := by
      rcases hback z u hz with h1 | ⟨_, rfl⟩
      · have := H.top x (List.mem_cons_self ..) z u h1
        rwa [hv'] at this
      · exact le_refl _
    rcases List.mem_append.mp hy with hy | hy
    · obtain ⟨w, _, h2, h3, _⟩ := hq y hy
      rw [h2]
      simp only [Option.getD_some]
      omega
    · rw [hnew y hy]
      simp only [Option.getD_some]
      omega
  · rw [List.mem_append, not_or] at hy
    intro u hu m n e hmn
    have hu' : d y = some u := by rwa [hm.old y hy.2] at hu
    by_cases hyx : y = x
    · subst hyx
      obtain rfl : u = v := by rw [hv] at hu'; exact (Option.some.inj hu').symm
      have h1 : (some n : Option Nat) ∈ (revOf rev y).map some := List.mem_map.mpr ⟨n, mem_revOf.mpr ⟨m, e, hmn⟩, rfl⟩
      obtain ⟨w, hw⟩ := Option.isSome_iff_exists.mp (hm.all _ h1)
      refine ⟨w, hw, ?_⟩
      rcases hback _ _ hw with h2 | ⟨_, rfl⟩
      · have := H.top y (List.mem_cons_self ..) _ _ h2
        rwa [hv'] at this
      · exact le_refl _
    · obtain ⟨w, hw, hle⟩ := H.done y (by simp [hyx, hy.1]) u hu' m n e hmn
      exact ⟨w, hkeep _ _ hw, hle⟩

theorem fuzzBfs_sat {rev : List (Nat × Nat)} {outs : Pts} (k : Nat) : ∀ q d, BfsInv rev outs q d → q.length + unmarked rev d < k →
    (fuzzBfs rev k q d).Sat False False fun d => DistSound rev outs d ∧ ∀ x, DistNear rev d x := by
  induction k with
  | zero => intro q d _ hk; omega
  | succ k ih =>
    intro q d H hk
    cases q with
    | nil => exact ⟨H.sound, fun x => H.done x (by simp)⟩
    | cons x q =>
      rw [fuzzBfs]
      obtain ⟨new, h1, h2, h3⟩ := fuzzPreds_spec (rev := rev) ((d x).getD 0) (revOf rev x) q d fun p hp => by
        obtain ⟨m, _, h⟩ := mem_revOf.mp hp
        exact List.mem_map.mpr ⟨_, h, rfl⟩
      rw [h1]
      refine ih _ _ (bfs_step H h3) ?_
      simp only [List.length_append, List.length_cons] at hk ⊢
      omega

/-- The distances `NewGenerator` computes. -/
structure DistOK (h : TgHeap) (f : TgFrag) (d : Option Nat → Option Nat) : Prop where
  ends : ∀ x ∈ f.outs, d x = some 0
  step : ∀ x v, d x = some v → (v = 0 ∧ x ∈ f.outs) ∨
    ∃ n m u, x = some n ∧ v = u + 1 ∧ ReachedFrom h f.ins n ∧ m ∈ h.nexts n ∧ d (some m) = some u
  near : ∀ n m v, ReachedFrom h f.ins n → m ∈ h.nexts n → d (some m) = some v → ∃ u, d (some n) = some u ∧ u ≤ v + 1

/-- What `NewGenerator` returns. -/
structure FuzzOK (o : FuzzOpts) (f : TgFrag) (h : TgHeap) (G : FuzzGen) : Prop where
  frag : G.frag = f
  heap : G.heap = h
  opts : G.opts = o
  produces : ∀ n, ReachedFrom h f.ins n → producing (h.elem n) = true
  dist : DistOK h f G.dist
  entries : G.entries = f.ins.filter fun e => (G.dist e).isSome

/-- The outcome of `NewGenerator`. -/
def NewGenPost (o : FuzzOpts) (f : TgFrag) (h : TgHeap) : Except Elem FuzzGen → Prop
  | .error e => ∃ n, ReachedFrom h f.ins n ∧ h.elem n = e ∧ producing e = false
  | .ok G => FuzzOK o f h G

theorem newGenerator_sat (o : FuzzOpts) {f : TgFrag} {h : TgHeap} (hfin : GraphFin h f) :
    (newGenerator o f h).Sat False False (NewGenPost o f h) := by
  unfold newGenerator
  refine Run.Sat.bnd (fuzzCollect_sat hfin _ _ _ _ (by simp) ?_ ?_ (by simp) (by simp) ?_) ?_
  · intro x hx
    rw [List.mem_reverse, mem_filterMap_id] at hx
    exact ⟨x, hx, .refl⟩
  · intro i hi
    right
    rw [List.mem_reverse, mem_filterMap_id]
    exact hi
  · rw [← edges_eq, List.length_reverse]
    have := List.length_filterMap_le id f.ins
    omega
  · intro r hr
    cases r with
    | error e => exact hr
    | ok rev =>
      simp only
      obtain ⟨new, h1, h2, h3⟩ := fuzzEnds_spec f.outs [] fun _ => none
      rw [List.nil_append] at h1
      rw [h1]
      have h0 : ∀ y u, (fuzzEnds f.outs [] fun _ => none).2 y = some u → y ∈ new ∧ u = 0 := fun y u hy => by
        by_cases hn : y ∈ new
        · rw [(h3.add y hn).2.2, Option.some.injEq] at hy
          exact ⟨hn, hy.symm⟩
        · rw [h3.old y hn] at hy
          cases hy
      refine Run.Sat.bnd (fuzzBfs_sat (rev := rev) (outs := f.outs) _ _ _ ⟨⟨fun x hx => ?_, fun x v hx => ?_⟩, fun x hx => ?_, ?_, fun x hx y u hy => ?_, fun x hx => ?_⟩ ?_) ?_
      · obtain ⟨u, hu⟩ := Option.isSome_iff_exists.mp (h3.all x hx)
        rw [hu, (h0 x u hu).2]
      · obtain ⟨h4, rfl⟩ := h0 x v hx
        exact .inl ⟨rfl, (h3.add x h4).1⟩
      · rw [(h3.add x hx).2.2]; rfl
      · exact List.Pairwise.imp_of_mem (R := fun _ _ => True) (fun {a b} ha hb _ => by rw [(h3.add a ha).2.2, (h3.add b hb).2.2])
          (List.pairwise_of_forall fun _ _ => trivial)
      · rw [(h0 y u hy).2]; omega
      · intro v hv
        exact absurd (h0 x v hv).1 hx
      · have : unmarked rev (fuzzEnds f.outs [] fun _ => none).2 ≤ rev.length := List.length_filter_le ..
        omega
      · rintro d ⟨hs, hn⟩
        refine ⟨rfl, rfl, rfl, hr.1, ⟨hs.ends, fun x v hx => ?_, fun n m v hr' hm hv => ?_⟩, rfl⟩
        · rcases hs.step x v hx with h4 | ⟨n, m, u, e1, e2, h4, h5⟩
          · exact .inl h4
          · exact .inr ⟨n, m, u, e1, e2, ((hr.2 m n).mp h4).1, ((hr.2 m n).mp h4).2, h5⟩
        · exact hn (some m) v hv m n rfl ((hr.2 m n).mpr ⟨hr', hm⟩)

end Verif
