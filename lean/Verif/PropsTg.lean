import Verif.TgFails

/-!
# Properties of transition graphs: C30, C60 and C61
-/

namespace Verif.Props

open Verif Verif.Spec

/-- The rules whose text `TransitionGraph(name)` visits. -/
def Visits (o : TgOpts) (g : Grammar) (name : Str) (r' : Rule) : Prop := ∃ r, Resolves g name r ∧ TgReach o g r r'

/-- A text that fits in memory: no concatenation is empty, and no literal or series has `2 ^ 62` elements. -/
def Plain (r : Rule) : Prop :=
  altFull r.alt = true ∧ ∀ q ∈ altReps r.alt, (∀ s vs, q.elem = .charVal s vs → vs.length < 2 ^ 62) ∧
    ∀ b st es, q.elem = .numVal b st es → es.length < 2 ^ 62

/-- Every num-val is a range of two numerals, or a series of one element. -/
def OneChar (r : Rule) : Prop :=
  ∀ q ∈ altReps r.alt, ∀ b st es, q.elem = .numVal b st es → TermWF q.elem ∧ (st = .series → es.length = 1)

theorem ready_of {o : TgOpts} {rd : Prop} {r : Rule} (h : Plain r) (h' : rd → o.nums = true → OneChar r) : RuleReady o rd r := by
  refine ⟨fun q hq => ⟨?_, fun hrd => ?_⟩, h.1⟩
  · obtain ⟨h1, h2⟩ := h.2 q hq
    cases he : q.elem with
    | charVal s vs => exact fun _ => by have := h1 s vs he; omega
    | numVal b st es =>
      cases st with
      | series => exact fun _ => by have := h2 b _ es he; omega
      | range => trivial
    | _ => trivial
  · cases he : q.elem with
    | numVal b st es =>
      cases st with
      | series => exact fun hn => (h' hrd hn q hq b _ es he).2 rfl
      | range => exact fun hn => he ▸ (h' hrd hn q hq b _ es he).1
    | _ => trivial

theorem visits_mem {o : TgOpts} {g : Grammar} {name : Str} {r : Rule} (h : Visits o g name r) : r ∈ g.rules ++ Core.rules := by
  have hres : ∀ {n : Str} {s : Rule}, Resolves g n s → s ∈ g.rules ++ Core.rules := by
    intro n s hs
    cases hs with
    | user h _ => exact List.mem_append_left _ h
    | core h _ _ => exact List.mem_append_right _ h
  obtain ⟨r0, h0, rfl | ⟨_, h1⟩⟩ := h
  · exact hres h0
  · cases h1 with
    | refl => exact hres h0
    | tail _ h2 =>
      obtain ⟨_, _, _, _, h3⟩ := h2
      exact hres h3

/-- Boolean version of `Plain`. -/
def plainb (r : Rule) : Bool :=
  altFull r.alt && (altReps r.alt).all fun q =>
    match q.elem with
    | .charVal _ vs => decide (vs.length < 2 ^ 62)
    | .numVal _ _ es => decide (es.length < 2 ^ 62)
    | _ => true

theorem plain_of {o : TgOpts} {g : Grammar} {name : Str} (h : (g.rules ++ Core.rules).all plainb = true) :
    ∀ r, Visits o g name r → Plain r := by
  intro r hr
  have h1 := List.all_eq_true.mp h r (visits_mem hr)
  simp only [plainb, Bool.and_eq_true, List.all_eq_true] at h1
  refine ⟨h1.1, fun q hq => ⟨fun s vs he => ?_, fun b st es he => ?_⟩⟩
  · have := h1.2 q hq
    rw [he] at this
    exact of_decide_eq_true this
  · have := h1.2 q hq
    rw [he] at this
    exact of_decide_eq_true this

/-- Boolean version of `OneChar`. -/
def oneCharB (r : Rule) : Bool :=
  (altReps r.alt).all fun q =>
    match q.elem with
    | .numVal b .series es => termWFb (.numVal b .series es) && decide (es.length = 1)
    | .numVal b .range es => termWFb (.numVal b .range es)
    | _ => true

theorem oneChar_of {o : TgOpts} {g : Grammar} {name : Str} (h : (g.rules ++ Core.rules).all oneCharB = true) :
    ∀ r, Visits o g name r → OneChar r := by
  intro r hr q hq b st es he
  have h1 := List.all_eq_true.mp (List.all_eq_true.mp h r (visits_mem hr)) q hq
  rw [he] at h1 ⊢
  cases st with
  | series =>
    simp only [Bool.and_eq_true] at h1
    exact ⟨termWFb_sound h1.1, fun _ => of_decide_eq_true h1.2⟩
  | range => exact ⟨termWFb_sound h1, fun h => by cases h⟩

/-! ## C30: the language of the graph -/

/-- C30.  If `TransitionGraph` returns a graph, then the words spelled by its paths from an entry point to an end point
are exactly the texts of the rule, whatever the options and the iteration orders.  What is missing: with numeric values
deflated, no series may have several elements. -/
theorem C30_exact_partial (o : TgOpts) (g : Grammar) (hd : NamesDistinct g) (core : List Rule) (hcore : core.Perm Core.rules)
    (order : List Str) (ho : order.Perm ((dependencyGraph core g).map Prod.fst)) (name : Str)
    (hp : ∀ r, Visits o g name r → Plain r) (hn : o.nums = true → ∀ r, Visits o g name r → OneChar r)
    (f : TgFrag) (h : TgHeap) (hok : transitionGraph o core g order name = .ok (.ok (f, h))) (w : Bytes) :
    GraphWord (Derives g) h f w ↔ DerivesRule g name w := by
  have H := transitionGraph_sat (o := o) (rd := True) hd hcore ho (name := name)
    fun r hr r' hr' => ready_of (hp r' ⟨r, hr, hr'⟩) fun _ hn' => hn hn' r' ⟨r, hr, hr'⟩
  rw [hok] at H
  obtain ⟨L, R, h1, h2, _⟩ := H
  rw [h2.graphWord, h1 trivial]
  rfl

/-- The outcome as finite data: the entry points, the end points, and the elements and successors of the nodes. -/
def tgShow : TgOut (TgFrag × TgHeap) → Option (Pts × Pts × List (Elem × List Nat))
  | .ok (.ok (f, h)) => some (f.ins, f.outs, (List.range h.size).map fun n => (h.elem n, h.nexts n))
  | _ => none

theorem tgShow_some {x : TgOut (TgFrag × TgHeap)} {i o : Pts} {l : List (Elem × List Nat)} (h : tgShow x = some (i, o, l)) :
    ∃ f h, x = .ok (.ok (f, h)) ∧ f.ins = i ∧ f.outs = o ∧ ∀ n (hn : n < l.length), h.elem n = l[n].1 ∧ h.nexts n = l[n].2 := by
  unfold tgShow at h
  split at h
  · rename_i f hp
    simp only [Option.some.injEq, Prod.mk.injEq] at h
    obtain ⟨h1, h2, h3⟩ := h
    subst h3
    exact ⟨f, hp, rfl, h1, h2, fun n hn => by simp⟩
  · cases h

/-- `route = "/" 1*2seg [ID]`, `seg = %x61-63 *"-" / ID`, `id = 2*%s"Z"`. -/
def routes : Grammar := ⟨[
  ⟨str% "route", [[⟨1, some 1, .charVal false ['/']⟩, ⟨1, some 2, .rulename (str% "seg")⟩,
    ⟨1, some 1, .option [[⟨1, some 1, .rulename (str% "ID")⟩]]⟩]]⟩,
  ⟨str% "seg", [[⟨1, some 1, .numVal ['x'] .range [str% "61", str% "63"]⟩, ⟨0, none, .charVal false ['-']⟩],
    [⟨1, some 1, .rulename (str% "ID")⟩]]⟩,
  ⟨str% "id", [[⟨2, none, .charVal true ['Z']⟩]]⟩]⟩

example : NamesDistinct routes ∧
    (∀ r, Visits { rules := true, nums := true, chars := true } routes (str% "ROUTE") r → Plain r ∧ OneChar r) ∧
    (tgShow (transitionGraph { rules := true, nums := true, chars := true } Core.rules routes (plainOrder routes) (str% "ROUTE"))).isSome = true :=
  ⟨namesDistinct_of (by decide), fun r hr => ⟨plain_of (by decide +kernel) r hr, oneChar_of (by decide +kernel) r hr⟩, by decide +kernel⟩

example : tgShow (transitionGraph {} Core.rules routes (plainOrder routes) (str% "seg")) =
    some ([some 0, some 2], [some 0, some 1, some 2],
      [(.numVal ['x'] .range [str% "61", str% "63"], [1]), (.charVal false ['-'], [1]), (.rulename (str% "ID"), [])]) := by
  decide +kernel

/-- The grammar `a = %x61.62`. -/
def twoCodes : Grammar := ⟨[⟨['a'], [[⟨1, some 1, .numVal ['x'] .series [str% "61", str% "62"]⟩]]⟩]⟩

/-- C30 as stated is false: with numeric values deflated, `a = %x61.62` becomes a graph of the words `a` and `b`. -/
theorem C30_fails : NamesDistinct twoCodes ∧ semvalABNF twoCodes = none ∧
    ∃ f h, transitionGraph { nums := true } Core.rules twoCodes (plainOrder twoCodes) ['a'] = .ok (.ok (f, h)) ∧
      GraphWord (Derives twoCodes) h f (bytes% "a") ∧ ¬ DerivesRule twoCodes ['a'] (bytes% "a") := by
  have hd : NamesDistinct twoCodes := namesDistinct_of (by decide)
  have h61 : Denotes ['x'] (str% "61") 97 := denotes_hex [6, 1] 97 (by decide)
  have h62 : Denotes ['x'] (str% "62") 98 := denotes_hex [6, 2] 98 (by decide)
  refine ⟨hd, by decide +kernel, ?_⟩
  obtain ⟨f, h, e1, e2, e3, e4⟩ := tgShow_some (x := transitionGraph { nums := true } Core.rules twoCodes (plainOrder twoCodes) ['a'])
    (i := [some 0, some 1]) (o := [some 0, some 1])
    (l := [(.numVal ['x'] .series [str% "61"], []), (.numVal ['x'] .series [str% "62"], [])]) (by decide +kernel)
  refine ⟨f, h, e1, .inr ⟨0, by simp [e2], .stop _ _ (by simp [e3]) ?_⟩, ?_⟩
  · rw [(e4 0 (by simp)).1]
    exact (derives_code h61).mpr ⟨'a', rfl, rfl⟩
  · intro hw
    obtain ⟨r, hr, hw⟩ := derives_rulename.mp hw
    have hr' : Resolves twoCodes ['a'] twoCodes.rules[0] := (getRule_iff hd).mp (by decide +kernel)
    obtain rfl := resolves_unique hd hr hr' rfl
    have : twoCodes.rules[0].alt = [[⟨1, some 1, .numVal ['x'] .series [str% "61", str% "62"]⟩]] := rfl
    rw [this, derivesAlt_cons, derivesConcat_one, derivesRep_one] at hw
    rcases hw with hw | hw
    · generalize he : (bytes% "a") = v at hw
      cases hw with
      | term _ cs ht =>
        cases ht with
        | series _ _ _ hc =>
          cases hc with
          | @cons _ c1 _ _ h1 h2 =>
            cases h2 with
            | @cons _ c2 _ _ h3 h4 =>
              cases h4
              obtain rfl : c1 = 'a' := Char.toNat_inj.mp (denotes_fun h1 h61)
              obtain rfl : c2 = 'b' := Char.toNat_inj.mp (denotes_fun h3 h62)
              exact absurd he (by decide)
    · exact derivesAlt_nil hw

/-! ## C60: the budget -/

/-- C60.  With `WithMaxNodes`, the entry and end points of the returned graph and the nodes reachable from the entry
points are at most that many. -/
theorem C60_budget (o : TgOpts) (hpos : 0 < o.maxNodes) (hsmall : o.maxNodes < 2 ^ 63) (hprod : o.threshold * o.maxNodes < 2 ^ 63)
    (g : Grammar) (hd : NamesDistinct g) (core : List Rule) (hcore : core.Perm Core.rules)
    (order : List Str) (ho : order.Perm ((dependencyGraph core g).map Prod.fst)) (name : Str)
    (hp : ∀ r, Visits o g name r → Plain r)
    (f : TgFrag) (h : TgHeap) (hok : transitionGraph o core g order name = .ok (.ok (f, h))) :
    ∃ R : Finset Nat, (∀ n, some n ∈ f.outs ∨ ReachedFrom h f.ins n → n ∈ R) ∧ (R.card : Int) ≤ o.maxNodes := by
  have H := transitionGraph_sat (o := o) (rd := False) hd hcore ho (name := name)
    fun r hr r' hr' => ready_of (hp r' ⟨r, hr, hr'⟩) fun h => h.elim
  rw [hok] at H
  obtain ⟨L, R, _, h2, h3⟩ := H
  refine ⟨R, ?_, h3 ⟨hpos, hsmall, hprod⟩⟩
  rintro n (hn | hn)
  · exact h2.outs n hn
  · exact reached_in h2.closed h2.ins hn

example : tgShow (transitionGraph { rules := true, maxNodes := 6 } Core.rules routes (plainOrder routes) (str% "seg")) = none ∧
    (tgShow (transitionGraph { rules := true, maxNodes := 7 } Core.rules routes (plainOrder routes) (str% "seg"))).isSome = true ∧
    (∀ r, Visits { rules := true, maxNodes := 7 } routes (str% "seg") r → Plain r) ∧
    (0 : Int) < 7 ∧ (7 : Int) < 2 ^ 63 ∧ (256 : Int) * 7 < 2 ^ 63 :=
  ⟨by decide +kernel, by decide +kernel, plain_of (by decide +kernel), by decide, by decide, by decide⟩

/-! ## C61: termination and failures -/

/-- C61.  `TransitionGraph` returns: it neither panics nor loops. -/
theorem C61_total (o : TgOpts) (g : Grammar) (hd : NamesDistinct g) (core : List Rule) (hcore : core.Perm Core.rules)
    (order : List Str) (ho : order.Perm ((dependencyGraph core g).map Prod.fst)) (name : Str)
    (hp : ∀ r, Visits o g name r → Plain r) : ∃ res, transitionGraph o core g order name = .ok res := by
  have H := transitionGraph_sat (o := o) (rd := False) hd hcore ho (name := name)
    fun r hr r' hr' => ready_of (hp r' ⟨r, hr, hr'⟩) fun h => h.elim
  cases hx : transitionGraph o core g order name with
  | ok res => exact ⟨res, rfl⟩
  | panic => rw [hx] at H; exact H.elim
  | fuel => rw [hx] at H; exact H.elim

/-- A repetition that can be made into a graph: its bounds are in order and below the threshold unless it is optional,
single or without bounds, its element is no prose-val, and if it is a rule to deflate there is such a rule. -/
def Convertible (o : TgOpts) (g : Grammar) (q : Rep) : Prop :=
  (match q.max with
    | none => q.min = 0 ∨ (q.min : Int) ≤ o.threshold
    | some m => q.min ≤ m ∧ (m = 1 ∨ (m : Int) ≤ o.threshold)) ∧
  (∀ p, q.elem ≠ .proseVal p) ∧ (o.rules = true → ∀ n, q.elem = .rulename n → ∃ r, Resolves g n r)

/-- What a graph takes. -/
def HasGraph (o : TgOpts) (g : Grammar) (name : Str) : Prop :=
  ∃ r, Resolves g name r ∧ (o.rules = true → semvalABNF g = none) ∧
    (¬ ∃ r', Relation.ReflTransGen (Refers g) r r' ∧ Cyclic g r') ∧
    ∀ r', TgReach o g r r' → ∀ q ∈ altReps r'.alt, Convertible o g q

theorem convertible_iff {o : TgOpts} {g : Grammar} {q : Rep} :
    Convertible o g q ↔ RepFine o (fun m => ∃ s, Resolves g m s) q := by
  unfold Convertible RepFine Unrolls
  refine and_congr_left fun _ => ?_
  cases q.max with
  | none => rfl
  | some m => simp only; omega

theorem transitionGraph_exactly (o : TgOpts) (g : Grammar) (hd : NamesDistinct g) (core : List Rule) (hcore : core.Perm Core.rules)
    (order : List Str) (ho : order.Perm ((dependencyGraph core g).map Prod.fst)) (name : Str) :
    (transitionGraph o core g order name).Sat True True (Exactly o (HasGraph o g name) fun _ => True) := by
  unfold transitionGraph
  cases hg : getRule name g.rules with
  | none =>
    left
    rintro ⟨r, h1, _⟩
    rw [(getRule_iff hd).mpr h1] at hg
    cases hg
  | some r =>
    have hr : Resolves g name r := (getRule_iff hd).mp hg
    have huniq : ∀ s, Resolves g name s → s = r := fun s hs => resolves_unique hd hs hr rfl
    simp only
    cases hs : (if o.rules then semvalABNF g else none) with
    | some e =>
      left
      rintro ⟨_, _, h2, _⟩
      split_ifs at hs with h3
      rw [h2 h3] at hs
      cases hs
    | none =>
      simp only
      obtain ⟨b, hb, hcyc⟩ := (Props.C20_exact g hd core hcore order ho name).2 r hr
      rw [hb]
      simp only [Run.bnd]
      cases b with
      | true =>
        left
        rintro ⟨s, h1, _, h3, _⟩
        obtain rfl := huniq s h1
        exact h3 (hcyc.mp rfl)
      | false =>
        rw [if_neg (by simp)]
        refine exactly_congr (tgBind_exactly (P' := True) (altGraph_exactly (B := RuleFine o g)
          (fun hr' => ruleGraph_exactly hd hr' _) r.alt {} {} (by simp [BufOnly])) fun x _ _ => ⟨trivial, trivial⟩) ?_
        have hsem : o.rules = true → semvalABNF g = none := fun h => by rw [if_pos h] at hs; exact hs
        have hno : ¬ ∃ r', Relation.ReflTransGen (Refers g) r r' ∧ Cyclic g r' := fun h => absurd (hcyc.mpr h) (by simp)
        by_cases hru : o.rules = true
        · rw [← ruleFine_iff hd hru hr, and_true]
          constructor
          · rintro ⟨s, h1, h2⟩
            obtain rfl := huniq s h1
            refine ⟨s, hr, hsem, hno, fun r' hr' q hq => convertible_iff.mpr ?_⟩
            rcases hr' with rfl | ⟨_, hr'⟩
            · exact h2 r' .refl q hq
            · exact h2 r' hr' q hq
          · rintro ⟨s, h1, _, _, h2⟩
            obtain rfl := huniq s h1
            exact ⟨s, hr, fun r' hr' q hq => convertible_iff.mp (h2 r' (.inr ⟨hru, hr'⟩) q hq)⟩
        · rw [and_true]
          have hB : ∀ (B B' : Str → Prop) q, RepFine o B q → RepFine o B' q := fun B B' q h =>
            ⟨h.1, h.2.1, fun h' => absurd h' hru⟩
          constructor
          · intro h2
            refine ⟨r, hr, hsem, hno, fun r' hr' q hq => convertible_iff.mpr ?_⟩
            rcases hr' with rfl | ⟨h3, _⟩
            · exact hB _ _ q (h2 q hq)
            · exact absurd h3 hru
          · rintro ⟨s, h1, _, _, h2⟩ q hq
            obtain rfl := huniq s h1
            exact hB _ _ q (convertible_iff.mp (h2 s (.inl rfl) q hq))

/-- C61.  `TransitionGraph` returns a graph only if the rule exists, the grammar is valid if rules are deflated, no rule
that can be reached is cyclic, and all repetitions visited can be converted; and an error other than
`ErrMaxNodesExceeded` only if one of these fails.  `ErrMaxNodesExceeded` needs a budget. -/
theorem C61_errors (o : TgOpts) (g : Grammar) (hd : NamesDistinct g) (core : List Rule) (hcore : core.Perm Core.rules)
    (order : List Str) (ho : order.Perm ((dependencyGraph core g).map Prod.fst)) (name : Str) :
    (∀ x, transitionGraph o core g order name = .ok (.ok x) → HasGraph o g name) ∧
    (∀ e, transitionGraph o core g order name = .ok (.error e) → e ≠ .maxNodes → ¬ HasGraph o g name) ∧
    (transitionGraph o core g order name = .ok (.error .maxNodes) → HasGraph o g name → 0 < o.maxNodes) := by
  have H := transitionGraph_exactly o g hd core hcore order ho name
  refine ⟨fun x hx => ?_, fun e he hne => ?_, fun he hg => ?_⟩
  · rw [hx] at H
    exact H.1
  · rw [he] at H
    exact H.resolve_right fun h => hne h.1
  · rw [he] at H
    rcases H with h | h
    · exact absurd hg h
    · exact h.2

/-- C61.  Without a budget, `TransitionGraph` returns a graph exactly under these conditions. -/
theorem C61_exact (o : TgOpts) (hb : o.maxNodes ≤ 0) (g : Grammar) (hd : NamesDistinct g) (core : List Rule)
    (hcore : core.Perm Core.rules) (order : List Str) (ho : order.Perm ((dependencyGraph core g).map Prod.fst)) (name : Str)
    (hp : ∀ r, Visits o g name r → Plain r) :
    (∃ x, transitionGraph o core g order name = .ok (.ok x)) ↔ HasGraph o g name := by
  obtain ⟨h1, h2, h3⟩ := C61_errors o g hd core hcore order ho name
  constructor
  · rintro ⟨x, hx⟩
    exact h1 x hx
  · intro hg
    obtain ⟨res, hres⟩ := C61_total o g hd core hcore order ho name hp
    cases res with
    | ok x => exact ⟨x, hres⟩
    | error e =>
      by_cases he : e = .maxNodes
      · subst he
        have := h3 hres hg
        omega
      · exact absurd hg (h2 e hres he)

/-- `a = 3*2"x" / 12"y" / <z> / a`. -/
def hopeless : Grammar := ⟨[
  ⟨['a'], [[⟨3, some 2, .charVal false ['x']⟩]]⟩, ⟨['b'], [[⟨12, some 12, .charVal false ['y']⟩]]⟩,
  ⟨['c'], [[⟨1, some 1, .proseVal [['z']]⟩]]⟩, ⟨['d'], [[⟨1, some 1, .rulename ['d']⟩]]⟩]⟩

example : [['a'], ['b'], ['c'], ['d'], ['e']].map (fun n =>
    (tgShow (transitionGraph { threshold := 11 } Core.rules hopeless (plainOrder hopeless) n)).isSome) = [false, false, false, false, false] ∧
    (tgShow (transitionGraph { threshold := 12 } Core.rules hopeless (plainOrder hopeless) ['b'])).isSome = true ∧
    (∀ r, Visits {} hopeless ['a'] r → Plain r) ∧ NamesDistinct hopeless :=
  ⟨by decide +kernel, by decide +kernel, plain_of (by decide +kernel), namesDistinct_of (by decide)⟩

end Verif.Props
