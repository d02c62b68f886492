import Verif.ReaderCompact
import Verif.PropsFuzz

/-!
# Properties of readers of transition graphs: C31 and C64 to C67
-/

namespace Verif.Props

open Verif Verif.Spec

/-! ## C64: all trails -/

theorem prepare_ok {sched : Sched (Option Nat)} (hf : sched.Fair) {f : TgFrag} {h : TgHeap} (hfin : GraphFin h f) :
    ∃ R, readerPrepare sched f h = .ok R ∧ ReaderOK f h R := by
  have H := readerPrepare_sat hf hfin
  cases hx : readerPrepare sched f h with
  | panic => rw [hx] at H; exact H.elim
  | fuel => rw [hx] at H; exact H.elim
  | ok R => rw [hx] at H; exact ⟨R, rfl, H⟩

/-- Preparation has one outcome. -/
theorem readerOK_unique {f : TgFrag} {h : TgHeap} {R R' : Reader} (H : ReaderOK f h R) (H' : ReaderOK f h R') : R = R' := by
  obtain ⟨p, h1, h2⟩ := H.entries
  obtain ⟨p', h1', h2'⟩ := H'.entries
  have hcan : R.can = R'.can := funext fun x => by
    rw [Bool.eq_iff_iff, H.can, H'.can]
  have hent : R.entries = R'.entries := by
    rw [h1, h1']
    refine List.filter_congr fun x hx => ?_
    have h3 := h2 x
    have h4 := h2' x
    rw [h1, List.mem_filter] at h3
    rw [h1', List.mem_filter] at h4
    rw [Bool.eq_iff_iff]
    constructor
    · intro hp
      exact (h4.mpr (h3.mp ⟨hx, hp⟩)).2
    · intro hp
      exact (h3.mpr (h4.mp ⟨hx, hp⟩)).2
  obtain ⟨a, b, c, d⟩ := R
  obtain ⟨a', b', c', d'⟩ := R'
  have e1 : a = f := H.frag
  have e2 : b = h := H.heap
  have e3 : a' = f := H'.frag
  have e4 : b' = h := H'.heap
  simp only at hcan hent
  rw [e1, e2, e3, e4, hcan, hent]

/-- The first call finds a new reader. -/
theorem readPos_new (R : Reader) : ReadPos R ((allPtEdges R.heap).length + 2) {} R.items :=
  .between (st := {}) _ rfl rfl rfl (.start rfl)

/-- C64.  In the mode `CoverageAllTrails` a reader of a finite graph lists the trails from an entry point to an end point,
each with every combination of what its nodes write, shorter ones first and without repetition, and then says that
there is no more; whatever the order of Go's maps, and however calls of `Next` and `Scan` are mixed. -/
theorem C64_trails (f : TgFrag) (h : TgHeap) (hfin : GraphFin h f) :
    ∃ items : List (Pts × List Nat),
      (∀ p v, (p, v) ∈ items ↔ Trail h f p ∧ Variation h p v) ∧
      items.Pairwise (fun a b => a.1.length ≤ b.1.length) ∧
      (f.ins.Nodup → (∀ n, (h.nexts n).Nodup) → items.Nodup) ∧
      ∀ sched : Sched (Option Nat), sched.Fair → ∃ R, readerPrepare sched f h = .ok R ∧
        ∀ cs, ∃ K, ∀ k ≥ K, R.calls k cs {} = .ok (listCalls cs (items.map fun i => trailText h i.1 i.2)) := by
  obtain ⟨R, _, HR⟩ := prepare_ok (sched := fun _ l => l) (fun _ l => .refl l) hfin
  refine ⟨R.items, fun p v => mem_items hfin HR, items_sorted R, fun h1 h2 => items_nodup HR h1 h2, fun sched hs => ?_⟩
  obtain ⟨R', h1, HR'⟩ := prepare_ok hs hfin
  obtain rfl := readerOK_unique HR HR'
  refine ⟨R, h1, fun cs => ?_⟩
  obtain ⟨x, K, hK, rfl⟩ := calls_settles (leaves_bound hfin HR) cs {} R.items (by
    have := readPos_new R
    rw [HR.heap] at this
    exact this)
  rw [HR.heap] at hK
  exact ⟨K, hK⟩

/-- Runs a reader for the graph of a rule. -/
def readRun (t : TgOpts) (g : Grammar) (name : Str) (k : Nat) (cs : List Bool) : Option (List ReadOut) :=
  match transitionGraph t Core.rules g (plainOrder g) name with
  | .ok (.ok (f, h)) =>
    match readerPrepare (fun _ l => l) f h with
    | .ok R =>
      match R.calls k cs {} with
      | .ok l => some l
      | _ => none
    | _ => none
  | _ => none

/-- `a = "x" *2("b" / %d99-100)`. -/
def fewTrails : Grammar := ⟨[⟨['a'], [[⟨1, some 1, .charVal true ['x']⟩,
  ⟨0, some 2, .group [[⟨1, some 1, .charVal true ['b']⟩], [⟨1, some 1, .numVal ['d'] .range [str% "99", str% "100"]⟩]]⟩]]⟩]⟩

example : readRun {} fewTrails ['a'] 60 [true, true, false, false, false, false, false, true] =
    some [.next true, .next true, .scan (some (bytes% "x")), .scan (some (bytes% "xb")), .scan (some (bytes% "xc")), .scan (some (bytes% "xd")),
      .scan (some (bytes% "xbb")), .next true] := by
  decide +kernel

example : ∃ f h, transitionGraph {} Core.rules dashes (plainOrder dashes) ['a'] = .ok (.ok (f, h)) ∧ GraphFin h f ∧
    Sched.Fair (α := Option Nat) (fun _ l => l.reverse) := by
  obtain ⟨f, h, G, e1, e2, h1, _⟩ := dashes_meets
  exact ⟨f, h, e1, h1, fun _ l => List.reverse_perm l⟩

/-! ## C65: the compact mode -/

/-- C65.  In the mode `CoverageCompact` a reader of a finite graph gives a list of texts, each that of a walk from an
entry point to an end point.  Every vertex and edge that lies on such a walk lies on one of these, every value of such a
vertex is written, and there are at most as many texts as edges, vertices and values together. -/
theorem C65_compact (f : TgFrag) (h : TgHeap) (hfin : GraphFin h f) :
    ∃ V E runs, CompactPost f h V E runs ∧ ∀ sched : Sched (Option Nat), sched.Fair → ∃ R, readerPrepare sched f h = .ok R ∧
      R.compact = .ok (runs.map fun r => trailText h r.1 r.2) := by
  obtain ⟨R, _, HR⟩ := prepare_ok (sched := fun _ l => l) (fun _ l => .refl l) hfin
  have H := compact_sat hfin HR
  cases hx : R.compact with
  | panic => rw [hx] at H; exact H.elim
  | fuel => rw [hx] at H; exact H.elim
  | ok prods =>
    rw [hx] at H
    obtain ⟨V, E, runs, h1, rfl⟩ := H
    refine ⟨V, E, runs, h1, fun sched hs => ?_⟩
    obtain ⟨R', h2, HR'⟩ := prepare_ok hs hfin
    obtain rfl := readerOK_unique HR HR'
    exact ⟨R, h2, hx⟩

/-- C65 in terms of texts: whatever a node on some walk can write is written by some text at this node. -/
theorem C65_values (f : TgFrag) (h : TgHeap) (hfin : GraphFin h f) (sched : Sched (Option Nat)) (hs : sched.Fair) :
    ∃ R prods, readerPrepare sched f h = .ok R ∧ R.compact = .ok prods ∧
      ∀ p n w, PtWalk h f p → some n ∈ p → NodeSays (h.elem n) w →
        ∃ q v i, PtWalk h f q ∧ Variation h q v ∧ trailText h q v ∈ prods ∧ (some n, i) ∈ q.zip v ∧ (nodeEmit (h.elem n) i).1 = w := by
  obtain ⟨V, E, runs, C, hall⟩ := C65_compact f h hfin
  obtain ⟨R, h1, h2⟩ := hall sched hs
  refine ⟨R, _, h1, h2, fun p n w hp hn hw => ?_⟩
  obtain ⟨i, hi, rfl⟩ := hw
  obtain ⟨r, h3, h4⟩ := C.shows (some n) ((C.vertices _).mpr ⟨p, hp, hn⟩) i hi
  exact ⟨r.1, r.2, i, (C.sound r h3).1, (C.sound r h3).2, List.mem_map.mpr ⟨r, h3, rfl⟩, h4, rfl⟩

/-- The texts of the compact mode for the graph of a rule. -/
def compactRun (t : TgOpts) (g : Grammar) (name : Str) : Option (List Bytes) :=
  match transitionGraph t Core.rules g (plainOrder g) name with
  | .ok (.ok (f, h)) =>
    match readerPrepare (fun _ l => l) f h with
    | .ok R =>
      match R.compact with
      | .ok l => some l
      | _ => none
    | _ => none
  | _ => none

example : compactRun {} fewTrails ['a'] =
    some [bytes% "xb", bytes% "xc", bytes% "xbb", bytes% "xbc", bytes% "xdb", bytes% "xcd"] := by
  decide +kernel

example : ∃ f h p n, transitionGraph {} Core.rules dashes (plainOrder dashes) ['a'] = .ok (.ok (f, h)) ∧ GraphFin h f ∧
    PtWalk h f p ∧ some n ∈ p := by
  obtain ⟨f, h, G, e1, e2, h1, _, _, _, h3, h4⟩ := dashes_meets
  obtain ⟨V, E, runs, C, hall⟩ := C65_compact f h h1
  have : compactRun {} dashes ['a'] ≠ some [] ∧ (compactRun {} dashes ['a']).all (fun l => l.all fun w => !w.isEmpty) = true := by decide +kernel
  obtain ⟨R, e3, e4⟩ := hall (fun _ l => l) (fun _ l => .refl l)
  unfold compactRun at this
  simp only [e1, e3, e4] at this
  cases runs with
  | nil => exact absurd rfl this.1
  | cons r runs =>
    obtain ⟨x, h5, h6⟩ := (C.sound r (List.mem_cons_self ..)).1.start
    cases hp : r.1 with
    | nil => rw [hp] at h5; cases h5
    | cons y p =>
      cases y with
      | some n => exact ⟨f, h, r.1, n, e1, h1, (C.sound r (List.mem_cons_self ..)).1, by rw [hp]; exact List.mem_cons_self ..⟩
      | none =>
        exfalso
        have W := (C.sound r (List.mem_cons_self ..)).1
        have hv := (C.sound r (List.mem_cons_self ..)).2
        have hpnil : p = [] := by
          cases p with
          | nil => rfl
          | cons z p =>
            obtain ⟨_, _, e, _⟩ := mem_nextPts.mp (W.follows (none, z) (by rw [hp]; exact List.mem_cons_self ..))
            cases e
        subst hpnil
        have h7 := this.2
        simp only [List.map_cons, Option.all_some, List.all_cons, Bool.and_eq_true] at h7
        have h8 := h7.1
        rw [hp] at h8 hv
        cases hr : r.2 with
        | nil => rw [hr] at hv; exact hv.elim
        | cons i v => rw [hr] at h8; cases h8

/-! ## C31: the texts of readers -/

theorem writes_derives {g : Grammar} {f : TgFrag} {h : TgHeap} (ht : ∀ n, ReachedFrom h f.ins n → producing (h.elem n) = true → Emittable (h.elem n))
    {w : Bytes} (hw : GraphWord Writes h f w) : GraphWord (Derives g) h f w :=
  graphWord_mono (fun n hn _ hv => nodeSays_derives (ht n hn hv.1) hv.1 hv.2) hw

/-- C31.  Every text a reader gives in either mode is a text of the rule.  What is missing: the literals and values of the
graph must be ones that can be written down, and no series of several numbers may be deflated. -/
theorem C31_reader_partial (t : TgOpts) (g : Grammar) (hd : NamesDistinct g) (core : List Rule) (hcore : core.Perm Core.rules)
    (order : List Str) (ho : order.Perm ((dependencyGraph core g).map Prod.fst)) (name : Str)
    (hp : ∀ r, Visits t g name r → Plain r) (hn : t.nums = true → ∀ r, Visits t g name r → OneChar r)
    (f : TgFrag) (h : TgHeap) (hok : transitionGraph t core g order name = .ok (.ok (f, h)))
    (ht : ∀ n, ReachedFrom h f.ins n → producing (h.elem n) = true → Emittable (h.elem n))
    (sched : Sched (Option Nat)) (hs : sched.Fair) :
    ∃ R, readerPrepare sched f h = .ok R ∧
      (∃ prods, R.compact = .ok prods ∧ ∀ w ∈ prods, DerivesRule g name w) ∧
      ∃ texts, (∀ w ∈ texts, DerivesRule g name w) ∧ ∀ cs, ∃ K, ∀ k ≥ K, R.calls k cs {} = .ok (listCalls cs texts) := by
  have hfin := tg_finite hd hcore ho hp hok
  have hlang := C30_exact_partial t g hd core hcore order ho name hp hn f h hok
  obtain ⟨items, h1, _, _, h2⟩ := C64_trails f h hfin
  obtain ⟨V, E, runs, C, h3⟩ := C65_compact f h hfin
  obtain ⟨R, h4, h5⟩ := h2 sched hs
  obtain ⟨R', h6, h7⟩ := h3 sched hs
  obtain rfl : R = R' := by
    rw [h4] at h6
    injection h6
  refine ⟨R, h4, ⟨_, h7, fun w hw => ?_⟩, _, fun w hw => ?_, h5⟩
  · obtain ⟨r, hr, rfl⟩ := List.mem_map.mp hw
    exact (hlang _).mp (writes_derives ht (walk_word (C.sound r hr).1 (C.sound r hr).2))
  · obtain ⟨r, hr, rfl⟩ := List.mem_map.mp hw
    obtain ⟨h8, h9⟩ := (h1 r.1 r.2).mp hr
    exact (hlang _).mp (writes_derives ht (walk_word h8.toPtWalk h9))

example : ∃ f h, NamesDistinct dashes ∧ transitionGraph {} Core.rules dashes (plainOrder dashes) ['a'] = .ok (.ok (f, h)) ∧
    (∀ r, Visits {} dashes ['a'] r → Plain r) ∧ (∀ n, ReachedFrom h f.ins n → producing (h.elem n) = true → Emittable (h.elem n)) := by
  obtain ⟨f, h, G, e1, e2, _, h2, _, _, h3, h4⟩ := dashes_meets
  exact ⟨f, h, namesDistinct_of (by decide), e1, h3, fun n hn _ => h2 n hn⟩

/-! ## C66: what the trails cover -/

theorem variation_zero (h : TgHeap) (p : Pts) : Variation h p (p.map fun _ => 0) := by
  induction p with
  | nil => trivial
  | cons x p ih => exact ⟨ptEmit_pos h x, ih⟩

/-- `a = 1*("a" "b")`. -/
def pairs : Grammar := ⟨[⟨['a'], [[⟨1, none, .group [[⟨1, some 1, .charVal true ['a']⟩, ⟨1, some 1, .charVal true ['b']⟩]]⟩]]⟩]⟩

/-- C66 as stated is false: in the graph of `a = 1*("a" "b")` the edge from `b` back to `a` lies on a walk, but on no
trail. -/
theorem C66_fails : NamesDistinct pairs ∧ semvalABNF pairs = none ∧
    ∃ f h p e, transitionGraph {} Core.rules pairs (plainOrder pairs) ['a'] = .ok (.ok (f, h)) ∧ GraphFin h f ∧
      PtWalk h f p ∧ e ∈ edgesAlong p ∧ ∀ q, Trail h f q → e ∉ edgesAlong q := by
  have hd : NamesDistinct pairs := namesDistinct_of (by decide)
  have hp : ∀ r, Visits {} pairs ['a'] r → Plain r := plain_of (by decide +kernel)
  have hshow : tgShow (transitionGraph {} Core.rules pairs (plainOrder pairs) ['a']) =
    some ([some 2], [some 3], [(.charVal true ['a'], [1]), (.charVal true ['b'], []), (.charVal true ['a'], [3]), (.charVal true ['b'], [2])]) := by
    decide +kernel
  obtain ⟨f, h, e1, e2, e3, e4⟩ := tgShow_some hshow
  have n2 := e4 2 (by decide)
  have n3 := e4 3 (by decide)
  simp only [List.getElem_cons_succ, List.getElem_cons_zero] at n2 n3
  have hx2 : ∀ y, y ∈ h.nextPts (some 2) ↔ y = some 3 := by intro y; simp [TgHeap.nextPts, n2.2]
  have hx3 : ∀ y, y ∈ h.nextPts (some 3) ↔ y = some 2 := by intro y; simp [TgHeap.nextPts, n3.2]
  refine ⟨hd, by decide +kernel, f, h, [some 2, some 3, some 2, some 3], (some 3, some 2), e1, tg_finite hd (.refl _) (.refl _) hp e1, ?_, ?_, ?_⟩
  · refine ⟨⟨some 2, rfl, by rw [e2]; exact List.mem_singleton.mpr rfl⟩, fun e he => ?_, fun x hx => ?_, ⟨some 3, rfl, by rw [e3]; exact List.mem_singleton.mpr rfl⟩⟩
    · simp only [edgesAlong, List.tail_cons, List.zip_cons_cons, List.zip_nil_right, List.mem_cons, List.not_mem_nil, or_false] at he
      rcases he with rfl | rfl | rfl
      · exact (hx2 _).mpr rfl
      · exact (hx3 _).mpr rfl
      · exact (hx2 _).mpr rfl
    · simp only [List.mem_cons, List.not_mem_nil, or_false] at hx
      rcases hx with rfl | rfl | rfl | rfl <;> simp [ptProduces, n2.1, n3.1, producing]
  · simp [edgesAlong]
  · intro q hq he
    obtain ⟨x, h1, h2⟩ := hq.start
    rw [e2, List.mem_singleton] at h2
    subst h2
    cases q with
    | nil => cases h1
    | cons y q =>
      simp only [List.head?_cons, Option.some.injEq] at h1
      subst h1
      have hone := hq.once
      have hfol := hq.follows
      obtain ⟨z, h5, h6⟩ := hq.stop
      rw [e3, List.mem_singleton] at h6
      subst h6
      cases q with
      | nil => simp [edgesAlong] at he
      | cons a q =>
        obtain rfl := (hx2 a).mp (hfol (some 2, a) (List.mem_cons_self ..))
        cases q with
        | nil => simp [edgesAlong] at he
        | cons b q =>
          obtain rfl := (hx3 b).mp (hfol (some 3, b) (List.mem_cons_of_mem _ (List.mem_cons_self ..)))
          cases q with
          | nil => simp at h5
          | cons c q =>
            obtain rfl := (hx2 c).mp (hfol (some 2, c) (List.mem_cons_of_mem _ (List.mem_cons_of_mem _ (List.mem_cons_self ..))))
            simp [edgesAlong] at hone

/-- The reachable part of the graph has no cycle. -/
def NoCycle (h : TgHeap) (f : TgFrag) : Prop :=
  ∃ rank : Option Nat → Nat, ∀ x y, PtReached h f x → y ∈ h.nextPts x → rank x < rank y

theorem walk_ranked {h : TgHeap} {f : TgFrag} {rank : Option Nat → Nat} (hr : ∀ x y, PtReached h f x → y ∈ h.nextPts x → rank x < rank y)
    (p : Pts) : ∀ x, PtReached h f x → (∀ e ∈ edgesAlong (x :: p), e.2 ∈ h.nextPts e.1) →
      (∀ y ∈ p, rank x < rank y) ∧ (edgesAlong (x :: p)).Nodup := by
  induction p with
  | nil => intro x _ _; simp [edgesAlong]
  | cons y p ih =>
    intro x hx hf
    have h1 := hf (x, y) (List.mem_cons_self ..)
    have h2 := hr x y hx h1
    obtain ⟨h3, h4⟩ := ih y (.step x y hx h1) fun e he => hf e (List.mem_cons_of_mem _ he)
    have h5 : ∀ z ∈ y :: p, rank x < rank z := by
      intro z hz
      rcases List.mem_cons.mp hz with rfl | hz
      · exact h2
      · exact h2.trans (h3 z hz)
    refine ⟨h5, ?_⟩
    rw [edgesAlong_cons, List.nodup_cons]
    refine ⟨fun he => ?_, h4⟩
    have := h5 x (List.of_mem_zip he).1
    omega

/-- Without cycles every walk is a trail. -/
theorem walk_trail {h : TgHeap} {f : TgFrag} (hc : NoCycle h f) {p : Pts} (H : PtWalk h f p) : Trail h f p := by
  obtain ⟨rank, hr⟩ := hc
  refine ⟨H, ?_⟩
  obtain ⟨x, h1, h2⟩ := H.start
  cases p with
  | nil => cases h1
  | cons y p =>
    simp only [List.head?_cons, Option.some.injEq] at h1
    subst h1
    exact (walk_ranked hr p y (.ins y h2) H.follows).2

theorem spells_walk {h : TgHeap} {f : TgFrag} {n : Nat} {w : Bytes} (H : Spells Writes h f.outs n w) : ∃ p v,
    (∀ e ∈ edgesAlong (some n :: p), e.2 ∈ h.nextPts e.1) ∧ (∀ x ∈ some n :: p, ptProduces h x = true) ∧
    (∃ x, (some n :: p).getLast? = some x ∧ x ∈ f.outs) ∧ Variation h (some n :: p) v ∧ trailText h (some n :: p) v = w := by
  induction H with
  | stop n w h1 h2 =>
    obtain ⟨h3, i, h4, rfl⟩ := h2
    refine ⟨[], [i], by simp [edgesAlong], fun x hx => ?_, ⟨some n, rfl, h1⟩, ⟨h4, trivial⟩, by simp [trailText, ptEmit]⟩
    rw [List.mem_singleton.mp hx]
    exact h3
  | step n m u v h1 h2 _ ih =>
    obtain ⟨h3, i, h4, rfl⟩ := h1
    obtain ⟨p, is, h5, h6, h7, h8, rfl⟩ := ih
    refine ⟨some m :: p, i :: is, fun e he => ?_, fun x hx => ?_, by rwa [List.getLast?_cons_cons], ⟨h4, h8⟩, by simp [trailText, ptEmit]⟩
    · rw [edgesAlong_cons] at he
      rcases List.mem_cons.mp he with rfl | he
      · exact mem_nextPts.mpr ⟨n, m, rfl, rfl, h2⟩
      · exact h5 e he
    · rcases List.mem_cons.mp hx with rfl | hx
      · exact h3
      · exact h6 x hx

/-- The words of a graph are the texts of its walks. -/
theorem word_walk {h : TgHeap} {f : TgFrag} {w : Bytes} (H : GraphWord Writes h f w) : ∃ p v, PtWalk h f p ∧ Variation h p v ∧ trailText h p v = w := by
  rcases H with ⟨h1, h2, rfl⟩ | ⟨n, h1, h2⟩
  · refine ⟨[none], [0], ⟨⟨none, rfl, h1⟩, by simp [edgesAlong], fun x hx => ?_, ⟨none, rfl, h2⟩⟩, ⟨Nat.one_pos, trivial⟩, rfl⟩
    rw [List.mem_singleton.mp hx]
    rfl
  · obtain ⟨p, v, h3, h4, h5, h6, h7⟩ := spells_walk h2
    exact ⟨some n :: p, v, ⟨⟨some n, rfl, h1⟩, h3, h4, h5⟩, h6, h7⟩

/-- C66.  If the graph has no cycle, the mode `CoverageAllTrails` covers every walk: the texts of the reader are those of
all walks.  What is missing: on graphs with cycles only the vertices and edges on trails are covered. -/
theorem C66_partial (f : TgFrag) (h : TgHeap) (hfin : GraphFin h f) (hc : NoCycle h f) :
    ∃ items : List (Pts × List Nat), (∀ p v, (p, v) ∈ items ↔ PtWalk h f p ∧ Variation h p v) ∧
      ∀ sched : Sched (Option Nat), sched.Fair → ∃ R, readerPrepare sched f h = .ok R ∧
        ∀ cs, ∃ K, ∀ k ≥ K, R.calls k cs {} = .ok (listCalls cs (items.map fun i => trailText h i.1 i.2)) := by
  obtain ⟨items, h1, _, _, h2⟩ := C64_trails f h hfin
  refine ⟨items, fun p v => ?_, h2⟩
  rw [h1]
  exact ⟨fun h => ⟨h.1.toPtWalk, h.2⟩, fun h => ⟨walk_trail hc h.1, h.2⟩⟩

/-- C66.  The reader of a graph without cycles lists the whole language of the rule.  What is missing: as before, and the
elements of the graph must be literals with at most thirty letters and numeric values. -/
theorem C66_language_partial (t : TgOpts) (g : Grammar) (hd : NamesDistinct g) (core : List Rule) (hcore : core.Perm Core.rules)
    (order : List Str) (ho : order.Perm ((dependencyGraph core g).map Prod.fst)) (name : Str)
    (hp : ∀ r, Visits t g name r → Plain r) (hn : t.nums = true → ∀ r, Visits t g name r → OneChar r)
    (f : TgFrag) (h : TgHeap) (hok : transitionGraph t core g order name = .ok (.ok (f, h)))
    (ht : WritesText h f) (hprod : ∀ n, ReachedFrom h f.ins n → producing (h.elem n) = true ∧ FewLetters (h.elem n)) (hc : NoCycle h f)
    (sched : Sched (Option Nat)) (hs : sched.Fair) :
    ∃ R texts, readerPrepare sched f h = .ok R ∧ (∀ w, w ∈ texts ↔ DerivesRule g name w) ∧
      ∀ cs, ∃ K, ∀ k ≥ K, R.calls k cs {} = .ok (listCalls cs texts) := by
  have hfin := tg_finite hd hcore ho hp hok
  have hlang := C30_exact_partial t g hd core hcore order ho name hp hn f h hok
  obtain ⟨items, h1, h2⟩ := C66_partial f h hfin hc
  obtain ⟨R, h3, h4⟩ := h2 sched hs
  refine ⟨R, _, h3, fun w => ?_, h4⟩
  rw [← hlang, List.mem_map]
  constructor
  · rintro ⟨r, hr, rfl⟩
    obtain ⟨h5, h6⟩ := (h1 r.1 r.2).mp hr
    exact writes_derives (fun n hn _ => ht n hn) (walk_word h5 h6)
  · intro hw
    obtain ⟨p, v, h5, h6, rfl⟩ := word_walk (graphWord_mono
      (fun n hn v hv => ⟨(hprod n hn).1, derives_nodeSays (hprod n hn).2 (hprod n hn).1 hv⟩) hw)
    exact ⟨(p, v), (h1 p v).mpr ⟨h5, h6⟩, rfl⟩

/-- Edges lead to later nodes only. -/
def tgForward (t : TgOpts) (g : Grammar) (name : Str) : Bool :=
  match transitionGraph t Core.rules g (plainOrder g) name with
  | .ok (.ok (_, h)) => (List.range h.size).all fun n => (h.nexts n).all fun m => decide (n < m)
  | _ => false

theorem noCycle_of {t : TgOpts} {g : Grammar} {name : Str} (hb : tgForward t g name = true) {f : TgFrag} {h : TgHeap}
    (hok : transitionGraph t Core.rules g (plainOrder g) name = .ok (.ok (f, h))) (hfin : GraphFin h f) : NoCycle h f := by
  refine ⟨fun x => x.getD 0, fun x y hx hy => ?_⟩
  obtain ⟨n, m, rfl, rfl, hm⟩ := mem_nextPts.mp hy
  unfold tgForward at hb
  simp only [hok, List.all_eq_true, List.mem_range, decide_eq_true_eq] at hb
  exact hb n (hfin n (ptReached_some.mp hx)) m hm

/-- What C66 assumes holds for `fewTrails`. -/
example : ∃ f h, NamesDistinct fewTrails ∧ transitionGraph {} Core.rules fewTrails (plainOrder fewTrails) ['a'] = .ok (.ok (f, h)) ∧
    (∀ r, Visits {} fewTrails ['a'] r → Plain r) ∧ GraphFin h f ∧ WritesText h f ∧
    (∀ n, ReachedFrom h f.ins n → producing (h.elem n) = true ∧ FewLetters (h.elem n)) ∧ NoCycle h f := by
  have hd : NamesDistinct fewTrails := namesDistinct_of (by decide)
  have hp : ∀ r, Visits {} fewTrails ['a'] r → Plain r := plain_of (by decide +kernel)
  have hsome : (tgShow (transitionGraph {} Core.rules fewTrails (plainOrder fewTrails) ['a'])).isSome = true := by decide +kernel
  obtain ⟨⟨i, o, l⟩, hl⟩ := Option.isSome_iff_exists.mp hsome
  obtain ⟨f, h, e1, _⟩ := tgShow_some hl
  have hfin := tg_finite hd (.refl _) (.refl _) hp e1
  have hall := tgAll_reached hd (p := fun e _ => emittableB e && producing e &&
    match e with | .charVal false vs => decide (letterCount vs ≤ 30) | _ => true) (q := fun _ => true) (by decide +kernel) hp e1
  simp only [Bool.and_eq_true] at hall
  refine ⟨f, h, hd, e1, hp, hfin, fun n hn => emittable_of (hall.2 n hn).1.1, fun n hn => ⟨(hall.2 n hn).1.2, ?_⟩, noCycle_of (by decide +kernel) e1 hfin⟩
  have := (hall.2 n hn).2
  generalize h.elem n = e at this
  unfold FewLetters
  split
  · exact of_decide_eq_true this
  · trivial

/-! ## C67: nil means the end -/

/-- C67, for the mode `CoverageAllTrails`: `Scan` returns nil exactly if `Next` says there is nothing more, and for good. -/
theorem C67_trails_partial (f : TgFrag) (h : TgHeap) (hfin : GraphFin h f) (sched : Sched (Option Nat)) (hs : sched.Fair) :
    ∃ R N, readerPrepare sched f h = .ok R ∧ ∀ cs, ∃ K l, (∀ k ≥ K, R.calls k cs {} = .ok l) ∧ l.length = cs.length ∧
      ∀ i (hi : i < cs.length),
        (cs[i] = true → l[i]? = some (.next (decide ((cs.take i).count false < N)))) ∧
        (cs[i] = false → ∃ o, l[i]? = some (.scan o) ∧ (o = none ↔ N ≤ (cs.take i).count false)) := by
  obtain ⟨items, _, _, _, h2⟩ := C64_trails f h hfin
  obtain ⟨R, h3, h4⟩ := h2 sched hs
  refine ⟨R, items.length, h3, fun cs => ?_⟩
  obtain ⟨K, hK⟩ := h4 cs
  refine ⟨K, _, hK, ?_⟩
  have key : ∀ (cs : List Bool) (ts : List Bytes), (listCalls cs ts).length = cs.length ∧
      ∀ i (hi : i < cs.length),
        (cs[i] = true → (listCalls cs ts)[i]? = some (.next (decide ((cs.take i).count false < ts.length)))) ∧
        (cs[i] = false → ∃ o, (listCalls cs ts)[i]? = some (.scan o) ∧ (o = none ↔ ts.length ≤ (cs.take i).count false)) := by
    intro cs
    induction cs with
    | nil => intro ts; exact ⟨rfl, fun i hi => absurd hi (Nat.not_lt_zero _)⟩
    | cons c cs ih =>
      intro ts
      cases c with
      | true =>
        obtain ⟨h5, h6⟩ := ih ts
        refine ⟨by simp [listCalls, h5], fun i hi => ?_⟩
        cases i with
        | zero => exact ⟨fun _ => (by cases ts <;> simp [listCalls]), fun h => (by cases h)⟩
        | succ i =>
          obtain ⟨h8, h9⟩ := h6 i (by simpa using hi)
          exact ⟨by simpa [listCalls] using h8, by simpa [listCalls] using h9⟩
      | false =>
        obtain ⟨h5, h6⟩ := ih ts.tail
        refine ⟨by simp [listCalls, h5], fun i hi => ?_⟩
        cases i with
        | zero => exact ⟨fun h => (by cases h), fun _ => ⟨_, rfl, by cases ts <;> simp⟩⟩
        | succ i =>
          obtain ⟨h8, h9⟩ := h6 i (by simpa using hi)
          have hcount : ((false :: cs).take (i + 1)).count false = (cs.take i).count false + 1 := by simp
          rw [hcount]
          refine ⟨fun hc => ?_, fun hc => ?_⟩
          · have := h8 (by simpa using hc)
            simp only [listCalls, List.getElem?_cons_succ]
            rw [this]
            simp only [List.length_tail, Option.some.injEq, ReadOut.next.injEq, decide_eq_decide]
            omega
          · obtain ⟨o, h10, h11⟩ := h9 (by simpa using hc)
            refine ⟨o, by simpa [listCalls] using h10, ?_⟩
            rw [h11, List.length_tail]
            omega
  have := key cs (items.map fun i => trailText h i.1 i.2)
  rwa [List.length_map] at this

/-- `a = *"x"`. -/
def xs : Grammar := ⟨[⟨['a'], [[⟨0, none, .charVal true ['x']⟩]]⟩]⟩

/-- C67 as stated is false: in the mode `CoverageCompact` a reader of `a = *"x"` returns nil for the empty text although
`Next` announced a text. -/
theorem C67_fails : semvalABNF xs = none ∧ ∃ prods, compactRun {} xs ['a'] = some prods ∧
    compactCalls [true, false, true, false, true, false] prods =
      [.next true, .scan (some (bytes% "xx")), .next true, .scan none, .next false, .scan none] ∧
    readRun {} xs ['a'] 60 [true, false, true, false, true, false, true] =
      some [.next true, .scan (some []), .next true, .scan (some (bytes% "x")), .next true, .scan (some (bytes% "xx")), .next false] := by
  refine ⟨by decide +kernel, [bytes% "xx", []], by decide +kernel, by decide +kernel, by decide +kernel⟩

/-- C67, for the mode `CoverageCompact`: the calls go through the list of texts, provided that none is empty. -/
theorem C67_compact_partial (prods : List Bytes) (hne : [] ∉ prods) (cs : List Bool) : compactCalls cs prods = listCalls cs prods := by
  induction cs generalizing prods with
  | nil => rfl
  | cons c cs ih =>
    cases c with
    | true => simp only [compactCalls, listCalls, ih prods hne]
    | false =>
      cases prods with
      | nil => simp only [compactCalls, listCalls, List.head?_nil, List.tail_nil, ih [] hne]
      | cons t ts =>
        have h1 : t ≠ [] := fun h => hne (by simp [h])
        simp only [compactCalls, listCalls, List.head?_cons, List.tail_cons, if_neg h1, ih ts fun h => hne (List.mem_cons_of_mem _ h)]

example : ([] : Bytes) ∉ [bytes% "xx", bytes% "y"] ∧ compactCalls [false, true, false, true] [bytes% "xx", bytes% "y"] =
    [.scan (some (bytes% "xx")), .next true, .scan (some (bytes% "y")), .next false] := by
  decide +kernel

end Verif.Props
