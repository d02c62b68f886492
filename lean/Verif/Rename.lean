import Verif.PropsReader
import Verif.NearMiss

/-!
# The identifiers of nodes do not matter to readers and generators
-/

namespace Verif

open Spec

/-- The renaming of points; `emptyNode` keeps its name. -/
def ptRen (s : Equiv.Perm Nat) : Equiv.Perm (Option Nat) := s.optionCongr

@[simp] theorem ptRen_none (s : Equiv.Perm Nat) : ptRen s none = none := rfl

@[simp] theorem ptRen_some (s : Equiv.Perm Nat) (n : Nat) : ptRen s (some n) = some (s n) := rfl

/-- The nodes with other identifiers. -/
def TgHeap.ren (h : TgHeap) (s : Equiv.Perm Nat) : TgHeap :=
  ⟨h.size, fun n => h.elem (s.symm n), fun n => (h.nexts (s.symm n)).map s⟩

/-- The entry and end points under the new identifiers. -/
def TgFrag.ren (f : TgFrag) (s : Equiv.Perm Nat) : TgFrag := ⟨f.ins.map (ptRen s), f.outs.map (ptRen s)⟩

/-- The reader under the new identifiers. -/
def Reader.ren (R : Reader) (s : Equiv.Perm Nat) : Reader :=
  ⟨R.frag.ren s, R.heap.ren s, fun x => R.can ((ptRen s).symm x), R.entries.map (ptRen s)⟩

section

variable (s : Equiv.Perm Nat)

theorem nextPts_ren (h : TgHeap) (x : Option Nat) : (h.ren s).nextPts (ptRen s x) = (h.nextPts x).map (ptRen s) := by
  cases x with
  | none => rfl
  | some n => simp [TgHeap.nextPts, TgHeap.ren, List.map_map, Function.comp_def]

theorem ptProduces_ren (h : TgHeap) (x : Option Nat) : ptProduces (h.ren s) (ptRen s x) = ptProduces h x := by
  cases x with
  | none => rfl
  | some n => simp [ptProduces, TgHeap.ren]

theorem ptEmit_ren (h : TgHeap) (x : Option Nat) (i : Nat) : ptEmit (h.ren s) (ptRen s x) i = ptEmit h x i := by
  cases x with
  | none => rfl
  | some n => simp [ptEmit, TgHeap.ren]

theorem mem_map_ren {l : Pts} {x : Option Nat} : ptRen s x ∈ l.map (ptRen s) ↔ x ∈ l :=
  List.mem_map_of_injective (ptRen s).injective

theorem trailText_ren (h : TgHeap) : ∀ (p : Pts) (v : List Nat), trailText (h.ren s) (p.map (ptRen s)) v = trailText h p v
  | [], _ => by simp [trailText]
  | _ :: _, [] => by simp [trailText]
  | n :: p, i :: v => by
    simp only [List.map_cons, trailText, ptEmit_ren, trailText_ren h p v]

/-! ## Preparation -/

theorem ptReached_ren {h : TgHeap} {f : TgFrag} {x : Option Nat} : PtReached (h.ren s) (f.ren s) (ptRen s x) ↔ PtReached h f x := by
  constructor
  · intro H
    generalize hy : ptRen s x = y at H
    induction H generalizing x with
    | ins y h1 => exact .ins _ ((mem_map_ren s).mp (hy ▸ h1))
    | step y z _ h2 ih =>
      obtain ⟨y', rfl⟩ := (ptRen s).surjective y
      rw [nextPts_ren, ← hy, mem_map_ren] at h2
      exact .step _ _ (ih rfl) h2
  · intro H
    induction H with
    | ins x h1 => exact .ins _ ((mem_map_ren s).mpr h1)
    | step x y _ h2 ih => exact .step _ _ ih (by rw [nextPts_ren, mem_map_ren]; exact h2)

theorem ptEnds_ren {h : TgHeap} {f : TgFrag} {x : Option Nat} : PtEnds (h.ren s) (f.ren s) (ptRen s x) ↔ PtEnds h f x := by
  constructor
  · intro H
    generalize hy : ptRen s x = y at H
    induction H generalizing x with
    | stop y h1 h2 => exact .stop _ (by rw [← hy, ptProduces_ren] at h1; exact h1) ((mem_map_ren s).mp (hy ▸ h2))
    | step y z h1 h2 _ ih =>
      obtain ⟨z', rfl⟩ := (ptRen s).surjective z
      rw [← hy, nextPts_ren, mem_map_ren] at h2
      exact .step _ _ (by rw [← hy, ptProduces_ren] at h1; exact h1) h2 (ih rfl)
  · intro H
    induction H with
    | stop x h1 h2 => exact .stop _ (by rw [ptProduces_ren]; exact h1) ((mem_map_ren s).mpr h2)
    | step x y h1 h2 _ ih => exact .step _ _ (by rw [ptProduces_ren]; exact h1) (by rw [nextPts_ren, mem_map_ren]; exact h2) ih

theorem graphFin_ren {h : TgHeap} {f : TgFrag} (hs : ∀ n, n < h.size → s n < h.size) (hfin : GraphFin h f) : GraphFin (h.ren s) (f.ren s) := by
  intro n hn
  have h1 := ptReached_some.mpr hn
  rw [show some n = ptRen s (some (s.symm n)) by simp, ptReached_ren] at h1
  have := hs _ (hfin _ (ptReached_some.mp h1))
  simpa [TgHeap.ren] using this

theorem readerOK_ren {h : TgHeap} {f : TgFrag} {R : Reader} (H : ReaderOK f h R) : ReaderOK (f.ren s) (h.ren s) (R.ren s) where
  frag := by simp [Reader.ren, H.frag]
  heap := by simp [Reader.ren, H.heap]
  can x := by
    obtain ⟨x, rfl⟩ := (ptRen s).surjective x
    rw [ptReached_ren, ptEnds_ren, ← H.can]
    simp [Reader.ren]
  entries := by
    obtain ⟨p, h1, h2⟩ := H.entries
    refine ⟨fun x => p ((ptRen s).symm x), ?_, fun x => ?_⟩
    · simp only [Reader.ren, TgFrag.ren, h1, List.filter_map]
      congr 2
      funext x
      simp
    · obtain ⟨x, rfl⟩ := (ptRen s).surjective x
      rw [ptEnds_ren]
      simp only [Reader.ren, TgFrag.ren, mem_map_ren]
      exact h2 x

/-! ## Trails -/

theorem pathEdges_ren : ∀ p : Pts, pathEdges (p.map (ptRen s)) = (pathEdges p).map (Prod.map (ptRen s) (ptRen s))
  | [] => rfl
  | [_] => rfl
  | n :: p :: rest => by
    have := pathEdges_ren (p :: rest)
    simp only [List.map_cons] at this
    simp only [List.map_cons, pathEdges, this, Prod.map]

theorem pair_ren {l : List (Option Nat × Option Nat)} {x y : Option Nat} :
    (ptRen s x, ptRen s y) ∈ l.map (Prod.map (ptRen s) (ptRen s)) ↔ (x, y) ∈ l := by
  rw [show (ptRen s x, ptRen s y) = Prod.map (ptRen s) (ptRen s) (x, y) from rfl,
    List.mem_map_of_injective (Function.Injective.prodMap (ptRen s).injective (ptRen s).injective)]

theorem steps_ren (R : Reader) (path : Pts) : (R.ren s).steps (path.map (ptRen s)) = (R.steps path).map (ptRen s) := by
  cases path with
  | nil => rfl
  | cons p rest =>
    have := pathEdges_ren s (p :: rest)
    simp only [List.map_cons] at this
    simp only [Reader.steps, List.map_cons, this]
    rw [show (R.ren s).heap = R.heap.ren s from rfl, nextPts_ren, List.filter_map]
    congr 2
    funext m
    simp only [Function.comp_apply, pair_ren]
    simp [Reader.ren]

theorem leaves_ren (R : Reader) : ∀ (r : Nat) (path : Pts), (R.ren s).leaves r (path.map (ptRen s)) = (R.leaves r path).map (List.map (ptRen s))
  | 0, _ => rfl
  | r + 1, path => by
    simp only [Reader.leaves, steps_ren, List.flatMap_map, List.map_flatMap]
    refine List.flatMap_congr fun n _ => ?_
    exact leaves_ren R r (n :: path)

theorem levels_ren (R : Reader) (M l : Nat) : (R.ren s).levels M l = (R.levels M l).map (List.map (ptRen s)) := by
  simp only [Reader.levels, List.map_flatMap]
  exact List.flatMap_congr fun i _ => leaves_ren s R i []

theorem atEnd_ren (R : Reader) (p : Pts) : (R.ren s).atEnd (p.map (ptRen s)) = R.atEnd p := by
  cases p with
  | nil => rfl
  | cons n p =>
    simp only [List.map_cons, Reader.atEnd, Reader.ren, TgFrag.ren, mem_map_ren]

theorem ptTotals_ren (h : TgHeap) (p : Pts) : ptTotals (h.ren s) (p.map (ptRen s)) = ptTotals h p := by
  simp [ptTotals, ptEmit_ren, Function.comp_def]

theorem trailItems_ren (h : TgHeap) (ps : List Pts) :
    trailItems (h.ren s) (ps.map (List.map (ptRen s))) = (trailItems h ps).map fun i => (i.1.map (ptRen s), i.2) := by
  simp only [trailItems, List.flatMap_map, List.map_flatMap]
  refine List.flatMap_congr fun p _ => ?_
  rw [← List.map_reverse, ptTotals_ren]
  simp [Function.comp_def]

theorem range_ren {k : Nat} (hs : ∀ n, n < k → s n < k) : ((List.range k).map s).Perm (List.range k) := by
  refine (List.Subperm.perm_of_length_le (List.subperm_of_subset ?_ ?_) (by simp))
  · exact (List.nodup_range).map s.injective
  · intro x hx
    obtain ⟨n, hn, rfl⟩ := List.mem_map.mp hx
    exact List.mem_range.mpr (hs n (List.mem_range.mp hn))

theorem allPtEdges_ren {h : TgHeap} (hs : ∀ n, n < h.size → s n < h.size) : (allPtEdges (h.ren s)).length = (allPtEdges h).length := by
  have hperm := range_ren s hs
  have : (allPtEdges (h.ren s)).Perm (((List.range h.size).map s).flatMap fun n => ((h.ren s).nexts n).map fun m => (some n, some m)) :=
    (hperm.symm).flatMap_right _
  rw [this.length_eq]
  simp [allPtEdges, List.flatMap_map, TgHeap.ren, List.length_flatMap]

theorem items_ren {R : Reader} (hs : ∀ n, n < R.heap.size → s n < R.heap.size) :
    (R.ren s).items = R.items.map fun i => (i.1.map (ptRen s), i.2) := by
  simp only [Reader.items]
  rw [show (R.ren s).heap = R.heap.ren s from rfl, allPtEdges_ren s hs, levels_ren, List.filter_map, ← trailItems_ren]
  congr 3
  funext p
  exact atEnd_ren s R p

/-! ## The compact mode -/

/-- The result of a call under the new identifiers. -/
def Run.ren {α β : Type} (f : α → β) : Run α → Run β
  | .ok a => .ok (f a)
  | .panic => .panic
  | .fuel => .fuel

theorem Run.bnd_ren {α β γ δ : Type} {f : α → β} {g : γ → δ} {r : Run α} {k : α → Run γ} {k' : β → Run δ} (h : ∀ a, k' (f a) = (k a).ren g) :
    (r.ren f).bnd k' = (r.bnd k).ren g := by
  cases r <;> simp [Run.ren, Run.bnd, h]

/-- A map from points to points under the new identifiers. -/
def mapRen (m : Option Nat → Option Nat) : Option Nat → Option Nat := fun x => ptRen s (m ((ptRen s).symm x))

/-- A partial map under the new identifiers. -/
def optRen (m : Option Nat → Option (Option Nat)) : Option Nat → Option (Option Nat) := fun x => (m ((ptRen s).symm x)).map (ptRen s)

/-- The pairs of points under the new identifiers. -/
abbrev pairRen : Option Nat × Option Nat → Option Nat × Option Nat := Prod.map (ptRen s) (ptRen s)

def FwdSt.ren (st : FwdSt) : FwdSt := ⟨mapRen s st.pred, st.disc.map (ptRen s), st.edges.map (pairRen s), st.queue.map (ptRen s)⟩

theorem mapRen_set (m : Option Nat → Option Nat) (n v : Option Nat) :
    (fun x => if x = ptRen s n then ptRen s v else mapRen s m x) = mapRen s (fun x => if x = n then v else m x) := by
  funext x
  obtain ⟨x, rfl⟩ := (ptRen s).surjective x
  simp only [mapRen, Equiv.symm_apply_apply, (ptRen s).injective.eq_iff]
  split <;> rfl

theorem optRen_set (m : Option Nat → Option (Option Nat)) (n v : Option Nat) :
    (fun x => if x = ptRen s n then some (ptRen s v) else optRen s m x) = optRen s (fun x => if x = n then some v else m x) := by
  funext x
  obtain ⟨x, rfl⟩ := (ptRen s).surjective x
  simp only [optRen, Equiv.symm_apply_apply, (ptRen s).injective.eq_iff]
  split <;> rfl

theorem viable_ren (R : Reader) (n : Option Nat) : (R.ren s).viable (ptRen s n) = (R.viable n).map (ptRen s) := by
  simp only [Reader.viable]
  rw [show (R.ren s).heap = R.heap.ren s from rfl, nextPts_ren, List.filter_map]
  congr 2
  funext m
  simp [ptProduces_ren, Reader.ren]

theorem seeAll_ren : ∀ (ns : Pts) (st : FwdSt), seeAll (ns.map (ptRen s)) (st.ren s) = (seeAll ns st).ren s
  | [], _ => rfl
  | n :: ns, st => by
    simp only [List.map_cons, seeAll]
    rw [show (st.ren s).disc = st.disc.map (ptRen s) from rfl]
    simp only [mem_map_ren]
    split
    · exact seeAll_ren ns st
    · rw [← seeAll_ren ns]
      simp only [FwdSt.ren, mapRen_set, List.map_append, List.map_cons, List.map_nil]

theorem seeNexts_ren (n : Option Nat) : ∀ (ns : Pts) (st : FwdSt),
    seeNexts (ptRen s n) (ns.map (ptRen s)) (st.ren s) = (seeNexts n ns st).ren s
  | [], _ => rfl
  | m :: ms, st => by
    simp only [List.map_cons, seeNexts]
    have h1 : (if (ptRen s n, ptRen s m) ∈ (st.ren s).edges then st.ren s
        else { st.ren s with edges := (st.ren s).edges ++ [(ptRen s n, ptRen s m)] }) =
        FwdSt.ren s (if (n, m) ∈ st.edges then st else { st with edges := st.edges ++ [(n, m)] }) := by
      rw [show (st.ren s).edges = st.edges.map (pairRen s) from rfl]
      simp only [pair_ren]
      split
      · rfl
      · simp [FwdSt.ren]
    rw [h1]
    generalize (if (n, m) ∈ st.edges then st else { st with edges := st.edges ++ [(n, m)] }) = st
    rw [show (st.ren s).disc = st.disc.map (ptRen s) from rfl]
    simp only [mem_map_ren]
    split
    · exact seeNexts_ren n ms st
    · rw [← seeNexts_ren n ms]
      simp only [FwdSt.ren, mapRen_set, List.map_append, List.map_cons, List.map_nil]

theorem forward_ren (R : Reader) : ∀ (k : Nat) (st : FwdSt), (R.ren s).forward k (st.ren s) = (R.forward k st).ren (FwdSt.ren s)
  | 0, _ => rfl
  | k + 1, st => by
    simp only [Reader.forward]
    rw [show (st.ren s).queue = st.queue.map (ptRen s) from rfl]
    cases st.queue with
    | nil => rfl
    | cons n q =>
      simp only [List.map_cons]
      rw [← forward_ren R k, ← seeNexts_ren, viable_ren]
      rfl

theorem revAdj_ren (R : Reader) (disc : Pts) (x : Option Nat) :
    (R.ren s).revAdj (disc.map (ptRen s)) (ptRen s x) = (R.revAdj disc x).map (ptRen s) := by
  simp only [Reader.revAdj, List.flatMap_map, List.map_flatMap]
  refine List.flatMap_congr fun n _ => ?_
  rw [viable_ren, List.filter_map, List.map_map, List.map_map]
  have : ((fun m => decide (m = ptRen s x)) ∘ ⇑(ptRen s)) = fun m => decide (m = x) := by
    funext m
    simp only [Function.comp_apply, (ptRen s).injective.eq_iff]
  rw [this]
  rfl

theorem endPreds_ren (n : Option Nat) : ∀ (ps q : Pts) (succ : Option Nat → Option (Option Nat)),
    endPreds (ptRen s n) (ps.map (ptRen s)) (q.map (ptRen s)) (optRen s succ) =
      ((endPreds n ps q succ).1.map (ptRen s), optRen s (endPreds n ps q succ).2)
  | [], _, _ => rfl
  | p :: ps, q, succ => by
    simp only [List.map_cons, endPreds]
    have h1 : (optRen s succ (ptRen s p)).isSome = (succ p).isSome := by simp [optRen]
    rw [h1]
    split
    · exact endPreds_ren n ps q succ
    · rw [← endPreds_ren n ps, optRen_set]
      simp only [List.map_append, List.map_cons, List.map_nil]

theorem backward_ren (R : Reader) (disc : Pts) : ∀ (k : Nat) (q : Pts) (succ : Option Nat → Option (Option Nat)),
    (R.ren s).backward (disc.map (ptRen s)) k (q.map (ptRen s)) (optRen s succ) = (R.backward disc k q succ).ren (optRen s)
  | 0, _, _ => by simp [Reader.backward, Run.ren]
  | k + 1, [], succ => rfl
  | k + 1, n :: q, succ => by
    simp only [List.map_cons, Reader.backward, revAdj_ren, endPreds_ren]
    exact backward_ren R disc k _ _

theorem entryPathRev_ren (pred : Option Nat → Option Nat) : ∀ (k : Nat) (cur : Option Nat),
    entryPathRev (mapRen s pred) k (ptRen s cur) = (entryPathRev pred k cur).ren (List.map (ptRen s))
  | 0, _ => rfl
  | k + 1, cur => by
    have h1 : mapRen s pred (ptRen s cur) = ptRen s (pred cur) := by simp [mapRen]
    simp only [entryPathRev, h1, (ptRen s).injective.eq_iff]
    split
    · rfl
    · rw [entryPathRev_ren pred k]
      exact Run.bnd_ren fun _ => rfl

theorem endPathFrom_ren (succ : Option Nat → Option (Option Nat)) : ∀ (k : Nat) (cur : Option Nat),
    endPathFrom (optRen s succ) k (ptRen s cur) = (endPathFrom succ k cur).ren (List.map (ptRen s))
  | 0, _ => rfl
  | k + 1, cur => by
    have h1 : (optRen s succ (ptRen s cur)).getD none = ptRen s ((succ cur).getD none) := by
      simp only [optRen, Equiv.symm_apply_apply]
      cases succ cur <;> rfl
    simp only [endPathFrom, h1, (ptRen s).injective.eq_iff]
    split
    · rfl
    · rw [endPathFrom_ren succ k]
      exact Run.bnd_ren fun _ => rfl

def CoverSt.ren (st : CoverSt) : CoverSt :=
  ⟨fun x => st.nodes ((ptRen s).symm x), fun e => st.edges ((ptRen s).symm e.1, (ptRen s).symm e.2), fun x => st.next ((ptRen s).symm x), st.prods,
    st.walks.map (List.map (ptRen s))⟩

def CoverMaps.ren (M : CoverMaps) : CoverMaps := ⟨mapRen s M.pred, optRen s M.succ, M.disc.map (ptRen s), M.edges.map (pairRen s)⟩

theorem eq_symm_iff {x n : Option Nat} : x = ptRen s n ↔ (ptRen s).symm x = n := (Equiv.symm_apply_eq _).symm

theorem markWalk_ren : ∀ (w : Pts) (st : CoverSt), markWalk (w.map (ptRen s)) (st.ren s) = (markWalk w st).ren s
  | [], _ => rfl
  | [n], st => by
    simp only [List.map_cons, List.map_nil, markWalk, CoverSt.ren, eq_symm_iff]
  | n :: m :: w, st => by
    have := markWalk_ren (m :: w) { st with nodes := fun x => if x = n then true else st.nodes x,
                                            edges := fun e => if e = (n, m) then true else st.edges e }
    simp only [List.map_cons, markWalk] at this ⊢
    rw [← this]
    simp only [CoverSt.ren, eq_symm_iff, Prod.ext_iff]

theorem claimEach_ren (h : TgHeap) (next : Option Nat → Nat) : ∀ (w : Pts) (claimed : Option Nat → Nat) (new : Nat),
    claimEach (h.ren s) (fun x => next ((ptRen s).symm x)) (w.map (ptRen s)) (fun x => claimed ((ptRen s).symm x)) new =
      ((claimEach h next w claimed new).1, fun x => (claimEach h next w claimed new).2.1 ((ptRen s).symm x), (claimEach h next w claimed new).2.2)
  | [], _, _ => rfl
  | n :: w, claimed, new => by
    simp only [List.map_cons, claimEach, Equiv.symm_apply_apply, ptEmit_ren]
    split
    · have := claimEach_ren h next w (fun x => if x = n then claimed x + 1 else claimed x) (new + 1)
      simp only [eq_symm_iff] at this ⊢
      rw [this]
    · rw [claimEach_ren h next w claimed new]

theorem emitWalk_ren (h : TgHeap) (w : Pts) (force : Bool) (st : CoverSt) :
    emitWalk (h.ren s) (w.map (ptRen s)) force (st.ren s) = ((emitWalk h w force st).1, (emitWalk h w force st).2.ren s) := by
  have e : claimEach (h.ren s) (st.ren s).next (w.map (ptRen s)) (fun _ => 0) 0 = _ := claimEach_ren s h st.next w (fun _ => 0) 0
  simp only [emitWalk, e]
  split
  · rfl
  · simp only [CoverSt.ren, trailText_ren]

theorem addWalk_ren (h : TgHeap) (w : Pts) (st : CoverSt) : addWalk (h.ren s) (w.map (ptRen s)) (st.ren s) = (addWalk h w st).ren s := by
  have := emitWalk_ren s h w true { st with walks := st.walks ++ [w] }
  simp only [addWalk, ← markWalk_ren]
  congr 1
  rw [show (CoverSt.ren s { st with walks := st.walks ++ [w] }) = { st.ren s with walks := (st.ren s).walks ++ [w.map (ptRen s)] } by
    simp [CoverSt.ren]] at this
  rw [this]

theorem coverEdges_ren (h : TgHeap) (M : CoverMaps) : ∀ (es : List (Option Nat × Option Nat)) (st : CoverSt),
    coverEdges (h.ren s) (M.ren s) (es.map (pairRen s)) (st.ren s) = (coverEdges h M es st).ren (CoverSt.ren s)
  | [], _ => rfl
  | (u, w) :: es, st => by
    have h1 : (st.ren s).edges (ptRen s u, ptRen s w) = st.edges (u, w) := by simp [CoverSt.ren]
    have h2 : ((M.ren s).succ (ptRen s w)).isNone = (M.succ w).isNone := by simp [CoverMaps.ren, optRen]
    have h3 : (M.ren s).disc.length = M.disc.length := by simp [CoverMaps.ren]
    simp only [List.map_cons, Prod.map_apply, coverEdges, h1, h2, h3]
    split
    · exact coverEdges_ren h M es st
    · rw [show (M.ren s).pred = mapRen s M.pred from rfl, show (M.ren s).succ = optRen s M.succ from rfl, entryPathRev_ren, endPathFrom_ren]
      refine Run.bnd_ren fun p => Run.bnd_ren fun q => ?_
      rw [← coverEdges_ren h M es, ← addWalk_ren]
      simp

theorem coverNodes_ren (h : TgHeap) (outs : Pts) (M : CoverMaps) : ∀ (vs : Pts) (st : CoverSt),
    coverNodes (h.ren s) (outs.map (ptRen s)) (M.ren s) (vs.map (ptRen s)) (st.ren s) = (coverNodes h outs M vs st).ren (CoverSt.ren s)
  | [], _ => rfl
  | v :: vs, st => by
    have h1 : (st.ren s).nodes (ptRen s v) = st.nodes v := by simp [CoverSt.ren]
    have h2 : ((M.ren s).succ (ptRen s v)).isNone = (M.succ v).isNone := by simp [CoverMaps.ren, optRen]
    have h3 : (M.ren s).disc.length = M.disc.length := by simp [CoverMaps.ren]
    simp only [List.map_cons, coverNodes, h1, h2, h3]
    split
    · exact coverNodes_ren h outs M vs st
    · rw [show (M.ren s).pred = mapRen s M.pred from rfl, show (M.ren s).succ = optRen s M.succ from rfl, entryPathRev_ren, endPathFrom_ren]
      refine Run.bnd_ren fun p => ?_
      simp only [mem_map_ren]
      split
      · rw [← coverNodes_ren h outs M vs, ← addWalk_ren]
        simp
      · refine Run.bnd_ren fun q => ?_
        rw [← coverNodes_ren h outs M vs, ← addWalk_ren]
        simp

theorem coverValues_ren (h : TgHeap) (w : Pts) : ∀ (k : Nat) (st : CoverSt),
    coverValues (h.ren s) (w.map (ptRen s)) k (st.ren s) = (coverValues h w k st).ren (CoverSt.ren s)
  | 0, _ => rfl
  | k + 1, st => by
    simp only [coverValues, emitWalk_ren]
    split
    · exact coverValues_ren h w k _
    · rfl

theorem coverWalks_ren (h : TgHeap) : ∀ (ws : List Pts) (st : CoverSt),
    coverWalks (h.ren s) (ws.map (List.map (ptRen s))) (st.ren s) = (coverWalks h ws st).ren (CoverSt.ren s)
  | [], _ => rfl
  | w :: ws, st => by
    simp only [List.map_cons, coverWalks]
    rw [show ((w.map (ptRen s)).map fun n => (ptEmit (h.ren s) n 0).2) = w.map fun n => (ptEmit h n 0).2 by simp [ptEmit_ren], coverValues_ren]
    exact Run.bnd_ren fun st => coverWalks_ren h ws st

theorem idxOf_ren (disc : Pts) (x : Option Nat) : (disc.map (ptRen s)).idxOf (ptRen s x) = disc.idxOf x := by
  induction disc with
  | nil => rfl
  | cons y l ih =>
    have : (ptRen s y == ptRen s x) = (y == x) := by rw [Bool.eq_iff_iff]; simp
    rw [List.map_cons, List.idxOf_cons, List.idxOf_cons, this, ih]

theorem edgeBefore_ren (disc : Pts) (a b : Option Nat × Option Nat) :
    edgeBefore (disc.map (ptRen s)) (pairRen s a) (pairRen s b) = edgeBefore disc a b := by
  simp only [edgeBefore, Prod.map_fst, Prod.map_snd, idxOf_ren]

theorem sort_ren (disc : Pts) (es : List (Option Nat × Option Nat)) :
    (es.map (pairRen s)).insertionSort (fun a b => edgeBefore (disc.map (ptRen s)) a b = true) =
      (es.insertionSort fun a b => edgeBefore disc a b = true).map (pairRen s) := by
  have hins : ∀ (e : Option Nat × Option Nat) (l : List (Option Nat × Option Nat)),
      (l.map (pairRen s)).orderedInsert (fun a b => edgeBefore (disc.map (ptRen s)) a b = true) (pairRen s e) =
        (l.orderedInsert (fun a b => edgeBefore disc a b = true) e).map (pairRen s) := by
    intro e l
    induction l with
    | nil => rfl
    | cons y l ih =>
      simp only [List.map_cons, List.orderedInsert, edgeBefore_ren]
      split
      · rfl
      · rw [ih, List.map_cons]
  induction es with
  | nil => rfl
  | cons e es ih => simp only [List.map_cons, List.insertionSort_cons, ih, hins]

theorem compact_ren (R : Reader) : (R.ren s).compact = R.compact := by
  have hid : ∀ r : Run (List Bytes), r = r.ren id := by rintro (_ | _ | _) <;> rfl
  rw [hid R.compact]
  unfold Reader.compact
  have h0 : seeAll (R.ren s).entries {} = (seeAll R.entries {}).ren s := by
    rw [← seeAll_ren]
    congr 1
    simp only [FwdSt.ren, List.map_nil]
    congr
    funext x
    simp [mapRen]
  rw [h0, show (R.ren s).heap.size = R.heap.size from rfl, forward_ren]
  refine Run.bnd_ren fun fw => ?_
  have h1 : ((fw.ren s).disc.filter fun n => decide (n ∈ (R.ren s).frag.outs)) = (fw.disc.filter fun n => decide (n ∈ R.frag.outs)).map (ptRen s) := by
    rw [show (fw.ren s).disc = fw.disc.map (ptRen s) from rfl, List.filter_map]
    congr 2
    funext n
    simp only [Function.comp_apply, Reader.ren, TgFrag.ren, mem_map_ren]
  have h2 : (fun x => if x ∈ (fw.disc.filter fun n => decide (n ∈ R.frag.outs)).map (ptRen s) then some x else none) =
      optRen s fun x => if x ∈ fw.disc.filter (fun n => decide (n ∈ R.frag.outs)) then some x else none := by
    funext x
    obtain ⟨x, rfl⟩ := (ptRen s).surjective x
    simp only [mem_map_ren, optRen, Equiv.symm_apply_apply]
    split <;> rfl
  simp only [h1, h2]
  rw [show (fw.ren s).disc = fw.disc.map (ptRen s) from rfl, List.length_map, backward_ren]
  refine Run.bnd_ren fun succ => ?_
  rw [show (fw.ren s).edges = fw.edges.map (pairRen s) from rfl, sort_ren]
  have h3 : (({} : CoverSt).ren s) = {} := rfl
  have h4 := coverEdges_ren s R.heap ⟨fw.pred, succ, fw.disc, fw.edges⟩ (fw.edges.insertionSort fun a b => edgeBefore fw.disc a b = true) {}
  rw [h3] at h4
  rw [show (⟨(fw.ren s).pred, optRen s succ, fw.disc.map (ptRen s), fw.edges.map (pairRen s)⟩ : CoverMaps) =
    CoverMaps.ren s ⟨fw.pred, succ, fw.disc, fw.edges⟩ from rfl, show (R.ren s).heap = R.heap.ren s from rfl, h4]
  refine Run.bnd_ren fun st => ?_
  rw [show (R.ren s).frag.outs = R.frag.outs.map (ptRen s) from rfl, coverNodes_ren]
  refine Run.bnd_ren fun st => ?_
  rw [show (st.ren s).walks = st.walks.map (List.map (ptRen s)) from rfl, coverWalks_ren]
  exact Run.bnd_ren fun st => rfl

/-! ## The generator -/

theorem edges_ren {h : TgHeap} (hs : ∀ n, n < h.size → s n < h.size) : (h.ren s).edges = h.edges := by
  have : ((List.range h.size).map fun n => ((h.ren s).nexts n).length).Perm (((List.range h.size).map s).map fun n => ((h.ren s).nexts n).length) :=
    (range_ren s hs).symm.map _
  rw [TgHeap.edges, show (h.ren s).size = h.size from rfl, this.sum_eq, TgHeap.edges, List.map_map]
  simp [TgHeap.ren, Function.comp_def]

theorem nexts_ren (h : TgHeap) (n : Nat) : (h.ren s).nexts (s n) = (h.nexts n).map s := by simp [TgHeap.ren]

theorem elem_ren (h : TgHeap) (n : Nat) : (h.ren s).elem (s n) = h.elem n := by simp [TgHeap.ren]

theorem fuzzCollect_ren (h : TgHeap) : ∀ (k : Nat) (stack seen : List Nat) (rev : List (Nat × Nat)),
    fuzzCollect (h.ren s) k (stack.map s) (seen.map s) (rev.map (Prod.map s s)) =
      (fuzzCollect h k stack seen rev).ren (Except.map (List.map (Prod.map s s)))
  | 0, _, _, _ => by simp [fuzzCollect, Run.ren]
  | _ + 1, [], _, _ => rfl
  | k + 1, n :: stack, seen, rev => by
    simp only [List.map_cons, fuzzCollect, List.mem_map_of_injective s.injective, elem_ren]
    split
    · exact fuzzCollect_ren h k stack seen rev
    · split
      · rfl
      · rw [← fuzzCollect_ren h k]
        simp [nexts_ren, Function.comp_def, List.map_reverse]

/-- The distances under the new identifiers. -/
def distRen (d : Option Nat → Option Nat) : Option Nat → Option Nat := fun x => d ((ptRen s).symm x)

theorem distRen_set (d : Option Nat → Option Nat) (n : Option Nat) (v : Nat) :
    (fun x => if x = ptRen s n then some v else distRen s d x) = distRen s (fun x => if x = n then some v else d x) := by
  funext x
  simp only [distRen, eq_symm_iff]

theorem fuzzEnds_ren : ∀ (es : Pts) (q : List (Option Nat)) (d : Option Nat → Option Nat),
    fuzzEnds (es.map (ptRen s)) (q.map (ptRen s)) (distRen s d) = ((fuzzEnds es q d).1.map (ptRen s), distRen s (fuzzEnds es q d).2)
  | [], _, _ => rfl
  | e :: es, q, d => by
    have h1 : distRen s d (ptRen s e) = d e := by simp [distRen]
    simp only [List.map_cons, fuzzEnds, h1]
    split
    · exact fuzzEnds_ren es q d
    · rw [distRen_set, ← fuzzEnds_ren es]
      simp

theorem fuzzPreds_ren (v : Nat) : ∀ (ps : List Nat) (q : List (Option Nat)) (d : Option Nat → Option Nat),
    fuzzPreds v (ps.map s) (q.map (ptRen s)) (distRen s d) = ((fuzzPreds v ps q d).1.map (ptRen s), distRen s (fuzzPreds v ps q d).2)
  | [], _, _ => rfl
  | p :: ps, q, d => by
    have h1 : distRen s d (some (s p)) = d (some p) := by rw [← ptRen_some]; simp only [distRen, Equiv.symm_apply_apply]
    simp only [List.map_cons, fuzzPreds, h1]
    split
    · exact fuzzPreds_ren v ps q d
    · rw [← ptRen_some, distRen_set, ← fuzzPreds_ren v ps]
      simp

theorem revOf_ren (rev : List (Nat × Nat)) (x : Option Nat) : revOf (rev.map (Prod.map s s)) (ptRen s x) = (revOf rev x).map s := by
  simp only [revOf, List.filter_map, List.map_map]
  have : ((fun p : Nat × Nat => decide (some p.1 = ptRen s x)) ∘ Prod.map s s) = fun p => decide (some p.1 = x) := by
    funext p
    simp only [Function.comp_apply, Prod.map_fst, ← ptRen_some, (ptRen s).injective.eq_iff]
  rw [this]
  rfl

theorem fuzzBfs_ren (rev : List (Nat × Nat)) : ∀ (k : Nat) (q : List (Option Nat)) (d : Option Nat → Option Nat),
    fuzzBfs (rev.map (Prod.map s s)) k (q.map (ptRen s)) (distRen s d) = (fuzzBfs rev k q d).ren (distRen s)
  | 0, _, _ => by simp [fuzzBfs, Run.ren]
  | _ + 1, [], _ => rfl
  | k + 1, x :: q, d => by
    have h1 : distRen s d (ptRen s x) = d x := by simp [distRen]
    simp only [List.map_cons, fuzzBfs, h1, revOf_ren, fuzzPreds_ren]
    exact fuzzBfs_ren rev k _ _

/-- The generator under the new identifiers. -/
def FuzzGen.ren (G : FuzzGen) : FuzzGen := ⟨G.frag.ren s, G.heap.ren s, G.opts, distRen s G.dist, G.entries.map (ptRen s)⟩

theorem newGenerator_ren (o : FuzzOpts) (f : TgFrag) {h : TgHeap} (hs : ∀ n, n < h.size → s n < h.size) :
    newGenerator o (f.ren s) (h.ren s) = (newGenerator o f h).ren (Except.map (FuzzGen.ren s)) := by
  unfold newGenerator
  have h1 : ((f.ren s).ins.filterMap id).reverse = ((f.ins.filterMap id).reverse).map s := by
    rw [List.map_reverse]
    congr 1
    simp only [TgFrag.ren]
    induction f.ins with
    | nil => rfl
    | cons x l ih =>
      cases x with
      | none => rw [List.map_cons, ptRen_none, List.filterMap_cons_none rfl, List.filterMap_cons_none rfl, ih]
      | some n =>
        rw [List.map_cons, ptRen_some, List.filterMap_cons_some (f := id) (b := s n) rfl, List.filterMap_cons_some (f := id) (b := n) rfl, ih,
          List.map_cons]
  have h2 : (f.ren s).ins.length = f.ins.length := by simp [TgFrag.ren]
  have h3 := fuzzCollect_ren s h (f.ins.length + h.edges + 1) ((f.ins.filterMap id).reverse) [] []
  simp only [List.map_nil] at h3
  rw [h1, h2, edges_ren s hs, h3]
  refine Run.bnd_ren fun r => ?_
  cases r with
  | error e => rfl
  | ok rev =>
    have h4 := fuzzEnds_ren s f.outs [] fun _ => none
    have h5 : distRen s (fun _ => none) = fun _ => none := rfl
    rw [h5, List.map_nil] at h4
    simp only [Except.map]
    rw [show (f.ren s).outs = f.outs.map (ptRen s) from rfl, h4, List.length_map, List.length_map, fuzzBfs_ren]
    refine Run.bnd_ren fun d => ?_
    simp only [Run.ren, Except.map, FuzzGen.ren, TgFrag.ren, List.filter_map]
    congr 5
    funext x
    simp [distRen]

/-- The state of a walk under the new identifiers. -/
def WalkSt.ren {σ : Type} (st : WalkSt σ) : WalkSt σ := { st with visits := fun p => st.visits (s.symm p.1, s.symm p.2) }

theorem emitNode_ren {σ : Type} (S : Source σ) (e : Elem) (st : WalkSt σ) : emitNode S e (st.ren s) = (emitNode S e st).ren s := by
  unfold emitNode
  split <;> rfl

theorem nearestToEnd_ren (d : Option Nat → Option Nat) : ∀ (cs : List Nat) (best : Nat),
    nearestToEnd (distRen s d) (s best) (cs.map s) = s (nearestToEnd d best cs)
  | [], _ => rfl
  | c :: cs, best => by
    have h1 : ∀ n, distRen s d (some (s n)) = d (some n) := fun n => by rw [← ptRen_some]; simp only [distRen, Equiv.symm_apply_apply]
    simp only [List.map_cons, nearestToEnd, h1]
    rw [← nearestToEnd_ren d cs]
    congr 1
    split <;> rfl

theorem liveAll_ren (G : FuzzGen) (n : Nat) : (G.ren s).liveAll (s n) = (G.liveAll n).map s := by
  simp only [FuzzGen.liveAll]
  rw [show (G.ren s).heap = G.heap.ren s from rfl, nexts_ren, List.filter_map]
  congr 2
  funext m
  simp only [Function.comp_apply, FuzzGen.ren, distRen, ← ptRen_some, Equiv.symm_apply_apply]

theorem liveCapped_ren (G : FuzzGen) (v : Nat × Nat → Nat) (n : Nat) :
    (G.ren s).liveCapped (fun p => v (s.symm p.1, s.symm p.2)) (s n) = (G.liveCapped v n).map s := by
  simp only [FuzzGen.liveCapped, liveAll_ren, List.filter_map]
  congr 2
  funext m
  simp [FuzzGen.ren]

theorem go_ren {σ : Type} (st : WalkSt σ) (n m : Nat) (src : σ) : (st.ren s).go (s n) (s m) src = (st.go n m src).ren s := by
  simp only [WalkSt.go, WalkSt.ren, Prod.ext_iff, Equiv.symm_apply_eq]

theorem walkLoop_ren {σ : Type} (S : Source σ) (G : FuzzGen) : ∀ (k : Nat) (x : Option Nat) (st : WalkSt σ),
    walkLoop S (G.ren s) k (ptRen s x) (st.ren s) = (walkLoop S G k x st).ren (WalkSt.ren s)
  | 0, _, _ => by simp [walkLoop, Run.ren]
  | _ + 1, none, _ => rfl
  | k + 1, some n, st => by
    have hm : some (s n) ∈ (G.ren s).frag.outs ↔ some n ∈ G.frag.outs := by
      rw [← ptRen_some]
      exact mem_map_ren s
    simp only [ptRen_some, walkLoop, liveAll_ren]
    rw [show (G.ren s).heap = G.heap.ren s from rfl, elem_ren, emitNode_ren]
    generalize emitNode S (G.heap.elem n) st = st
    cases G.liveAll n with
    | nil => rfl
    | cons best cands =>
      have h1 : (G.ren s).liveCapped (st.ren s).visits (s n) = (G.liveCapped st.visits n).map s := liveCapped_ren s G st.visits n
      simp only [List.map_cons, h1, hm, List.map_eq_nil_iff, List.length_map, List.getElem?_map]
      rw [show (G.ren s).opts = G.opts from rfl, show (st.ren s).out = st.out from rfl, show (st.ren s).steps = st.steps from rfl,
        show (st.ren s).src = st.src from rfl, show (G.ren s).dist = distRen s G.dist from rfl]
      split
      · split
        · rfl
        · split
          · rfl
          · cases (G.liveCapped st.visits n)[(S.intn st.src ((G.liveCapped st.visits n).length + 1)).1 - 1]? with
            | none => rfl
            | some m =>
              simp only [Option.map_some]
              rw [go_ren, ← ptRen_some, walkLoop_ren S G k]
      · split
        · rw [nearestToEnd_ren, go_ren, ← ptRen_some, walkLoop_ren S G k]
        · cases (G.liveCapped st.visits n)[(S.intn st.src (G.liveCapped st.visits n).length).1]? with
          | none => rfl
          | some m =>
            simp only [Option.map_some]
            rw [go_ren, ← ptRen_some, walkLoop_ren S G k]

theorem farthest_ren {G : FuzzGen} (hs : ∀ n, n < G.heap.size → s n < G.heap.size) : (G.ren s).farthest = G.farthest := by
  have h1 : ((List.range G.heap.size).map fun n => ((G.ren s).dist (some n)).getD 0).Perm
      (((List.range G.heap.size).map s).map fun n => ((G.ren s).dist (some n)).getD 0) := (range_ren s hs).symm.map _
  unfold FuzzGen.farthest
  rw [show (G.ren s).heap.size = G.heap.size from rfl, h1.foldr_eq, List.map_map]
  congr 2
  funext n
  simp only [Function.comp_apply, FuzzGen.ren, distRen, ← ptRen_some, Equiv.symm_apply_apply]

theorem fuzzWalk_ren {σ : Type} (S : Source σ) {G : FuzzGen} (hs : ∀ n, n < G.heap.size → s n < G.heap.size) (src : σ) :
    fuzzWalk S (G.ren s) src = (fuzzWalk S G src).ren (WalkSt.ren s) := by
  unfold fuzzWalk
  rw [show (G.ren s).entries = G.entries.map (ptRen s) from rfl, farthest_ren s hs]
  simp only [List.map_eq_nil_iff, List.length_map, List.getElem?_map]
  split
  · rfl
  · cases G.entries[(S.intn src G.entries.length).1]? with
    | none => rfl
    | some e => exact walkLoop_ren s S G _ e { src := (S.intn src G.entries.length).2 }

theorem fuzzGenerate_ren {G : FuzzGen} (hs : ∀ n, n < G.heap.size → s n < G.heap.size) (tape : Bytes) :
    fuzzGenerate (G.ren s) tape = fuzzGenerate G tape := by
  have hid : ∀ r : Run Bytes, r = r.ren id := by rintro (_ | _ | _) <;> rfl
  rw [hid (fuzzGenerate G tape)]
  unfold fuzzGenerate
  rw [show (G.ren s).opts = G.opts from rfl]
  split
  · rw [fuzzWalk_ren s _ hs]
    exact Run.bnd_ren fun st => rfl
  · rw [fuzzWalk_ren s _ hs]
    exact Run.bnd_ren fun st => rfl

end

namespace Props

/-! ## C121: the texts of a reader -/

/-- C121.  The graph is the same however Go visits the map of rules and the maps of `RuleContainsCycle`. -/
theorem C121_graph (t : TgOpts) {g g' : Grammar} (hd : NamesDistinct g) (hg : g.rules.Perm g'.rules) {core core' : List Rule}
    (hcore : core.Perm Core.rules) (hcore' : core'.Perm Core.rules) {order order' : List Str}
    (hor : order.Perm ((dependencyGraph core g).map Prod.fst)) (hor' : order'.Perm ((dependencyGraph core' g').map Prod.fst)) {name : Str}
    {f : TgFrag} {h : TgHeap} (hok : transitionGraph t core g order name = .ok (.ok (f, h))) :
    transitionGraph t core' g' order' name = .ok (.ok (f, h)) := by
  have hd' : NamesDistinct g' := hg.pairwise hd fun h hs => h ((sameName_iff _ _).mpr ((sameName_iff _ _).mp hs).symm)
  have hget := C18_order g g' hd hg
  have hres : ∀ n r, Resolves g n r ↔ Resolves g' n r := fun n r => by rw [← getRule_iff hd, ← getRule_iff hd', hget]
  have href : Refers g = Refers g' := by
    funext r r'
    simp only [Refers, hres]
  have hrule : ∀ k, ruleGraph t g k = ruleGraph t g' k := by
    intro k
    induction k with
    | zero => rfl
    | succ k ih =>
      funext n st
      simp only [ruleGraph, hget, ih]
  have hsem := C17_order g g' hg
  unfold transitionGraph at hok ⊢
  rw [← hget]
  cases hr : getRule name g.rules with
  | none => rw [hr] at hok; simp at hok
  | some r =>
    have hr1 := (getRule_iff hd).mp hr
    obtain ⟨b, hb, hc⟩ := (C20_exact g hd core hcore order hor name).2 r hr1
    obtain ⟨b', hb', hc'⟩ := (C20_exact g' hd' core' hcore' order' hor' name).2 r ((hres _ _).mp hr1)
    have hbb : b = b' := by
      rw [Bool.eq_iff_iff, hc, hc']
      unfold Cyclic
      rw [href]
    subst hbb
    have hs : (if t.rules then semvalABNF g else none) = none ↔ (if t.rules then semvalABNF g' else none) = none := by
      split
      · exact hsem
      · rfl
    simp only [hr, hb] at hok
    simp only [hb']
    cases h1 : (if t.rules then semvalABNF g else none) with
    | some e => rw [h1] at hok; simp at hok
    | none =>
      rw [h1] at hok
      rw [hs.mp h1, ← hrule, ← hg.length_eq]
      exact hok

/-- C121.  The texts that a reader of a finite graph lists, and their order, do not depend on the identifiers of the nodes, which are random,
or on the order in which Go visits maps, in both modes. -/
theorem C121_reader (f : TgFrag) (h : TgHeap) (hfin : GraphFin h f) : ∃ trails compact : List Bytes,
    ∀ (s : Equiv.Perm Nat) (_ : ∀ n, n < h.size → s n < h.size) (sched : Sched (Option Nat)) (_ : sched.Fair),
      ∃ R, readerPrepare sched (f.ren s) (h.ren s) = .ok R ∧ R.compact = .ok compact ∧
        ∀ cs, ∃ K, ∀ k ≥ K, R.calls k cs {} = .ok (listCalls cs trails) := by
  obtain ⟨R, _, HR⟩ := prepare_ok (sched := fun _ l => l) (fun _ l => .refl l) hfin
  obtain ⟨_, _, runs, _, hall⟩ := C65_compact f h hfin
  obtain ⟨R1, e1, hcomp⟩ := hall (fun _ l => l) fun _ l => .refl l
  obtain ⟨R2, e2, HR2⟩ := prepare_ok (sched := fun _ l => l) (fun _ l => .refl l) hfin
  rw [e1] at e2
  cases e2
  obtain rfl := readerOK_unique HR HR2
  refine ⟨R.items.map fun i => trailText h i.1 i.2, runs.map fun r => trailText h r.1 r.2, fun s hs sched hf => ?_⟩
  have hfin' := graphFin_ren s hs hfin
  obtain ⟨R', h1, HR'⟩ := prepare_ok hf hfin'
  obtain rfl := readerOK_unique (readerOK_ren s HR) HR'
  refine ⟨_, h1, by rw [compact_ren, hcomp], fun cs => ?_⟩
  obtain ⟨x, K, hK, rfl⟩ := calls_settles (leaves_bound hfin' HR') cs {} (R.ren s).items (by
    have := readPos_new (R.ren s)
    rw [HR'.heap] at this
    exact this)
  refine ⟨K, fun k hk => ?_⟩
  refine (hK k hk).trans ?_
  rw [HR'.heap, items_ren s (by rw [HR.heap]; exact hs), List.map_map]
  simp only [Function.comp_def, trailText_ren]

/-- C121.  What a generator gives for a tape, and for a source of random numbers, does not depend on the identifiers of the nodes: if it can
be built under some identifiers, it can be built under all, and gives the same texts and near misses. -/
theorem C121_generator {o : FuzzOpts} {f : TgFrag} {h : TgHeap} {G : FuzzGen} (hG : newGenerator o f h = .ok (.ok G)) (s : Equiv.Perm Nat)
    (hs : ∀ n, n < h.size → s n < h.size) : ∃ G', newGenerator o (f.ren s) (h.ren s) = .ok (.ok G') ∧
      (∀ tape, fuzzGenerate G' tape = fuzzGenerate G tape) ∧ (∀ rnd, fuzzGenerateRand G' rnd = fuzzGenerateRand G rnd) ∧
      ∀ os scheds g name tape, nearMiss os scheds g name G' tape = nearMiss os scheds g name G tape := by
  have hh : G.heap = h := by
    unfold newGenerator at hG
    cases h1 : fuzzCollect h (f.ins.length + h.edges + 1) ((f.ins.filterMap id).reverse) [] [] with
    | panic => rw [h1] at hG; cases hG
    | fuel => rw [h1] at hG; cases hG
    | ok r =>
      rw [h1] at hG
      cases r with
      | error e => simp [Run.bnd] at hG
      | ok rev =>
        simp only [Run.bnd] at hG
        split at hG
        · cases hG; rfl
        · cases hG
        · cases hG
  have hs' : ∀ n, n < G.heap.size → s n < G.heap.size := by rw [hh]; exact hs
  refine ⟨G.ren s, by rw [newGenerator_ren s o f hs, hG]; rfl, fuzzGenerate_ren s hs', fun rnd => ?_, fun os scheds g name tape => ?_⟩
  · have hid : ∀ r : Run Bytes, r = r.ren id := by rintro (_ | _ | _) <;> rfl
    rw [hid (fuzzGenerateRand G rnd)]
    unfold fuzzGenerateRand
    rw [fuzzWalk_ren s _ hs']
    exact Run.bnd_ren fun st => rfl
  · have hid : ∀ r : Run (Option Candidate), r = r.ren id := by rintro (_ | _ | _) <;> rfl
    rw [hid (nearMiss os scheds g name G tape)]
    unfold nearMiss
    rw [fuzzWalk_ren s _ hs']
    exact Run.bnd_ren fun st => hid _

/-- Checks that a graph has at least two nodes and a generator. -/
def twoNodes (t : TgOpts) (g : Grammar) (name : Str) : Bool :=
  match transitionGraph t Core.rules g (plainOrder g) name with
  | .ok (.ok (f, h)) =>
    match newGenerator {} f h with
    | .ok (.ok _) => decide (2 ≤ h.size)
    | _ => false
  | _ => false

/-- The hypotheses of C121 are met by the graph of `a = "x" *2("b" / %d99-100)` with two nodes exchanged; what its readers list is in
`PropsReader`. -/
example : ∃ f h G, transitionGraph {} Core.rules fewTrails (plainOrder fewTrails) ['a'] = .ok (.ok (f, h)) ∧ GraphFin h f ∧ NamesDistinct fewTrails ∧
    newGenerator {} f h = .ok (.ok G) ∧ (∀ n, n < h.size → Equiv.swap 0 1 n < h.size) ∧ Sched.Fair (α := Option Nat) (fun _ l => l.reverse) := by
  have hd : NamesDistinct fewTrails := namesDistinct_of (by decide)
  have H : twoNodes {} fewTrails ['a'] = true := by decide +kernel
  unfold twoNodes at H
  split at H
  · rename_i f h e
    split at H
    · rename_i G e2
      have h2 : 2 ≤ h.size := of_decide_eq_true H
      refine ⟨f, h, G, e, tg_finite hd (.refl _) (.refl _) (plain_of (by decide +kernel)) e, hd, e2, fun n hn => ?_, fun _ l => List.reverse_perm l⟩
      rw [Equiv.swap_apply_def]
      split_ifs <;> omega
    · cases H
  · cases H

end Props

end Verif
