import Verif.Inlining
import Verif.PropsTarjan

/-!
# C135: only references matter to cycles

What `RuleContainsCycle` and `IsDAG` answer for grammars whose rules refer to the same names
(/repo/dag.go:83-130).
-/

namespace Verif.Props
open Spec

/-- The alternation mentions the name, in whatever case and at whatever depth (references: /repo/abnf.go:99-113). -/
def Mentions (a : Alt) (n : Str) : Prop := ∃ q ∈ altReps a, ∃ m, q.elem = .rulename m ∧ SameName n m

/-- The rules have the same names, one by one, and mention the same names (rules: /repo/abnf.go:25-31). -/
def SameRefs (g g' : Grammar) : Prop :=
  List.Forall₂ (fun r r' => r'.name = r.name ∧ ∀ n, Mentions r.alt n ↔ Mentions r'.alt n) g.rules g'.rules

theorem sameRefs_symm {g g' : Grammar} (hg : SameRefs g g') : SameRefs g' g := by
  unfold SameRefs at *
  have h : ∀ {l l' : List Rule}, List.Forall₂ (fun r r' => r'.name = r.name ∧ ∀ n, Mentions r.alt n ↔ Mentions r'.alt n) l l' →
      List.Forall₂ (fun r r' => r'.name = r.name ∧ ∀ n, Mentions r.alt n ↔ Mentions r'.alt n) l' l := by
    intro l l' h
    induction h with
    | nil => exact .nil
    | cons h1 _ ih => exact .cons ⟨h1.1.symm, fun n => (h1.2 n).symm⟩ ih
  exact h hg

theorem sameRefs_nd {g g' : Grammar} (hg : SameRefs g g') (hd : NamesDistinct g) : NamesDistinct g' := by
  have hn : g'.rules.map Rule.name = g.rules.map Rule.name := by
    unfold SameRefs at hg
    generalize g.rules = l at hg
    generalize g'.rules = l' at hg
    induction hg with
    | nil => rfl
    | cons h1 _ ih => rw [List.map_cons, List.map_cons, h1.1, ih]
  unfold NamesDistinct at *
  have h : ∀ l : List Rule, (l.Pairwise fun a b => ¬ SameName a.name b.name) ↔ (l.map Rule.name).Pairwise fun a b => ¬ SameName a b :=
    fun l => by rw [List.pairwise_map]
  rw [h] at hd ⊢
  rwa [hn]

theorem resolves_refs {g g' : Grammar} (hg : SameRefs g g') {n : Str} {r : Rule} (h : Resolves g n r) :
    ∃ r', Resolves g' n r' ∧ ∀ n, Mentions r.alt n ↔ Mentions r'.alt n := by
  cases h with
  | user h1 h2 =>
    obtain ⟨r', h3, h4, h5⟩ := forall2_left hg h1
    exact ⟨r', .user h3 (h4 ▸ h2), h5⟩
  | core h1 h2 h3 =>
    refine ⟨r, .core h1 h2 fun u hu hs => ?_, fun _ => Iff.rfl⟩
    obtain ⟨x, hx, h4, _⟩ := forall2_mem hg hu
    exact h3 x hx (h4 ▸ hs)

theorem resolves_named {g : Grammar} {n : Str} {r : Rule} (h : Resolves g n r) : SameName n r.name := by
  cases h <;> assumption

theorem resolves_cong {g : Grammar} {n m : Str} {r : Rule} (h : Resolves g n r) (e : SameName n m) : Resolves g m r := by
  have e' := (sameName_iff _ _).mp e
  cases h with
  | user h1 h2 => exact .user h1 ((sameName_iff _ _).mpr (e'.symm.trans ((sameName_iff _ _).mp h2)))
  | core h1 h2 h3 =>
    exact .core h1 ((sameName_iff _ _).mpr (e'.symm.trans ((sameName_iff _ _).mp h2))) fun u hu hs =>
      h3 u hu ((sameName_iff _ _).mpr (e'.trans ((sameName_iff _ _).mp hs)))

/-- The two rules are what some name means in the two grammars (/repo/utils.go:137-147). -/
def Paired (g g' : Grammar) (r r' : Rule) : Prop := ∃ n, Resolves g n r ∧ Resolves g' n r'

theorem paired_unique {g g' : Grammar} (hd' : NamesDistinct g') {r x y : Rule} (h : Paired g g' r x) (h' : Paired g g' r y) : x = y := by
  obtain ⟨n, h1, h2⟩ := h
  obtain ⟨m, h3, h4⟩ := h'
  have e : SameName m n := (sameName_iff _ _).mpr (((sameName_iff _ _).mp (resolves_named h3)).trans ((sameName_iff _ _).mp (resolves_named h1)).symm)
  exact resolves_unique hd' h2 (resolves_cong h4 e) rfl

theorem refers_paired {g g' : Grammar} (hg : SameRefs g g') (hd' : NamesDistinct g') {x y x' : Rule} (h : Refers g x y)
    (hp : Paired g g' x x') : ∃ y', Refers g' x' y' ∧ Paired g g' y y' := by
  obtain ⟨q, h1, n, h2, h3⟩ := h
  obtain ⟨k, h4, h5⟩ := hp
  obtain ⟨x'', h6, h7⟩ := resolves_refs hg h4
  obtain rfl := resolves_unique hd' h5 h6 rfl
  obtain ⟨q', h8, m, h9, h10⟩ := (h7 n).mp ⟨q, h1, n, h2, (sameName_iff _ _).mpr rfl⟩
  obtain ⟨y', h11, _⟩ := resolves_refs hg h3
  exact ⟨y', ⟨q', h8, m, h9, resolves_cong h11 h10⟩, n, h3, h11⟩

theorem reach_paired {g g' : Grammar} (hg : SameRefs g g') (hd' : NamesDistinct g') {x y x' : Rule} (h : Relation.ReflTransGen (Refers g) x y)
    (hp : Paired g g' x x') : ∃ y', Relation.ReflTransGen (Refers g') x' y' ∧ Paired g g' y y' := by
  induction h with
  | refl => exact ⟨x', .refl, hp⟩
  | tail _ h ih =>
    obtain ⟨z, h1, h2⟩ := ih
    obtain ⟨y', h3, h4⟩ := refers_paired hg hd' h h2
    exact ⟨y', h1.tail h3, h4⟩

theorem cyclic_paired {g g' : Grammar} (hg : SameRefs g g') (hd' : NamesDistinct g') {x x' : Rule} (h : Cyclic g x)
    (hp : Paired g g' x x') : Cyclic g' x' := by
  obtain ⟨z, h1, h2⟩ := Relation.TransGen.head'_iff.mp h
  obtain ⟨z', h3, h4⟩ := refers_paired hg hd' h1 hp
  obtain ⟨x'', h5, h6⟩ := reach_paired hg hd' h2 h4
  obtain rfl := paired_unique hd' hp h6
  exact Relation.TransGen.head'_iff.mpr ⟨z', h3, h5⟩

theorem cycle_below {g g' : Grammar} (hg : SameRefs g g') (hd' : NamesDistinct g') {r r' : Rule} (hp : Paired g g' r r')
    (h : ∃ x, Relation.ReflTransGen (Refers g) r x ∧ Cyclic g x) : ∃ x, Relation.ReflTransGen (Refers g') r' x ∧ Cyclic g' x := by
  obtain ⟨x, h1, h2⟩ := h
  obtain ⟨x', h3, h4⟩ := reach_paired hg hd' h1 hp
  exact ⟨x', h3, cyclic_paired hg hd' h2 h4⟩

/-- C135.  `RuleContainsCycle` answers alike for grammars whose rules mention the same names, whatever the iteration orders. -/
theorem C135_cycle {g g' : Grammar} (hg : SameRefs g g') (hd : NamesDistinct g) (n : Str)
    {core core' : List Rule} (hcore : core.Perm Core.rules) (hcore' : core'.Perm Core.rules) {order order' : List Str}
    (ho : order.Perm ((dependencyGraph core g).map Prod.fst)) (ho' : order'.Perm ((dependencyGraph core' g').map Prod.fst)) :
    ruleContainsCycle core g order n = ruleContainsCycle core' g' order' n := by
  have hd' := sameRefs_nd hg hd
  obtain ⟨h1, h2⟩ := C20_exact g hd core hcore order ho n
  obtain ⟨h1', h2'⟩ := C20_exact g' hd' core' hcore' order' ho' n
  by_cases hr : ∃ r, Resolves g n r
  · obtain ⟨r, hr⟩ := hr
    obtain ⟨r', hr', _⟩ := resolves_refs hg hr
    obtain ⟨b, h4, h5⟩ := h2 r hr
    obtain ⟨b', h4', h5'⟩ := h2' r' hr'
    have : b = b' := by
      rw [Bool.eq_iff_iff, h5, h5']
      exact ⟨cycle_below hg hd' ⟨n, hr, hr'⟩, cycle_below (sameRefs_symm hg) hd ⟨n, hr', hr⟩⟩
    rw [h4, h4', this]
  · rw [h1.mpr hr, h1'.mpr]
    rintro ⟨r', hr'⟩
    obtain ⟨r, h, _⟩ := resolves_refs (sameRefs_symm hg) hr'
    exact hr ⟨r, h⟩

theorem mutual_paired {g g' : Grammar} (hg : SameRefs g g') (hd : NamesDistinct g) (hd' : NamesDistinct g')
    (h : ∃ n m r r', Resolves g n r ∧ Resolves g m r' ∧ r ≠ r' ∧ Relation.ReflTransGen (Refers g) r r' ∧ Relation.ReflTransGen (Refers g) r' r) :
    ∃ n m r r', Resolves g' n r ∧ Resolves g' m r' ∧ r ≠ r' ∧ Relation.ReflTransGen (Refers g') r r' ∧ Relation.ReflTransGen (Refers g') r' r := by
  obtain ⟨n, m, x, y, h1, h2, h3, h4, h5⟩ := h
  obtain ⟨x', h6, _⟩ := resolves_refs hg h1
  obtain ⟨y', h7, _⟩ := resolves_refs hg h2
  have hx : Paired g g' x x' := ⟨n, h1, h6⟩
  have hy : Paired g g' y y' := ⟨m, h2, h7⟩
  refine ⟨n, m, x', y', h6, h7, ?_, ?_, ?_⟩
  · rintro rfl
    exact h3 (paired_unique hd (g := g') (g' := g) (r := x') ⟨n, h6, h1⟩ ⟨m, h7, h2⟩)
  · obtain ⟨z, h8, h9⟩ := reach_paired hg hd' h4 hx
    rwa [← paired_unique hd' h9 hy]
  · obtain ⟨z, h8, h9⟩ := reach_paired hg hd' h5 hy
    rwa [← paired_unique hd' h9 hx]

/-- C135.  `IsDAG` answers alike too. -/
theorem C135_dag {g g' : Grammar} (hg : SameRefs g g') (hd : NamesDistinct g)
    {core core' : List Rule} (hcore : core.Perm Core.rules) (hcore' : core'.Perm Core.rules) {order order' : List Str}
    (ho : order.Perm ((dependencyGraph core g).map Prod.fst)) (ho' : order'.Perm ((dependencyGraph core' g').map Prod.fst)) :
    isDAG core g order = isDAG core' g' order' := by
  have hd' := sameRefs_nd hg hd
  obtain ⟨b, h1, h2⟩ := C21_isDAG_partial g hd core hcore order ho
  obtain ⟨b', h1', h2'⟩ := C21_isDAG_partial g' hd' core' hcore' order' ho'
  have : b = b' := by
    rw [Bool.eq_iff_iff, h2, h2']
    exact ⟨fun h h' => h (mutual_paired (sameRefs_symm hg) hd' hd h'), fun h h' => h (mutual_paired hg hd hd' h')⟩
  rw [h1, h1', this]

/-- `a = [B "x"] / 2"y"`, `b = *A`: the references of `chained`, written differently. -/
def rechained : Grammar := ⟨[⟨str% "a", [[Ex.one (.option [[Ex.one (Ex.ref (str% "B")), Ex.one (Ex.lit (str% "x"))]])], [⟨2, some 2, Ex.lit (str% "y")⟩]]⟩,
  ⟨str% "b", [[⟨0, none, Ex.ref (str% "A")⟩]]⟩]⟩

theorem mentions_iff {a : Alt} {n : Str} :
    Mentions a n ↔ canon n ∈ (altReps a).filterMap fun q => match q.elem with | .rulename m => some (canon m) | _ => none := by
  rw [List.mem_filterMap]
  constructor
  · rintro ⟨q, h1, m, h2, h3⟩
    exact ⟨q, h1, by rw [h2, (sameName_iff _ _).mp h3]⟩
  · rintro ⟨q, h1, h2⟩
    cases h : q.elem with
    | rulename m =>
      rw [h] at h2
      exact ⟨q, h1, m, h, (sameName_iff _ _).mpr (Option.some.inj h2).symm⟩
    | _ => rw [h] at h2; cases h2

theorem chained_refs : SameRefs chained rechained := by
  refine .cons ⟨rfl, fun n => ?_⟩ (.cons ⟨rfl, fun n => ?_⟩ .nil)
  · rw [mentions_iff, mentions_iff]
    exact Iff.of_eq (congrArg (canon n ∈ ·) (by decide))
  · rw [mentions_iff, mentions_iff]
    exact Iff.of_eq (congrArg (canon n ∈ ·) (by decide))

/-- C135: the hypotheses hold, a cycle is found in both, and neither is a DAG. -/
example : SameRefs chained rechained ∧ NamesDistinct chained ∧
    ruleContainsCycle Core.rules chained (plainOrder chained) (str% "a") = some (.ok true) ∧
    ruleContainsCycle Core.rules rechained (plainOrder rechained) (str% "a") = some (.ok true) ∧
    isDAG Core.rules chained (plainOrder chained) = .ok false ∧ isDAG Core.rules rechained (plainOrder rechained) = .ok false :=
  ⟨chained_refs, chained_nd, by decide +kernel, by decide +kernel, by decide +kernel, by decide +kernel⟩

end Verif.Props
