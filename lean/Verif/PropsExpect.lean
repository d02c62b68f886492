import Verif.ExpectRun
import Verif.TgText

/-!
# Properties of `ExpectedNext`: C33, C68 and C69
-/

namespace Verif.Props

open Verif Verif.Spec

/-- The whole way: the graph of a rule, a generator for it, and what it expects after a prefix. -/
def expRun (t : TgOpts) (g : Grammar) (name : Str) (pre : Bytes) : Option (Option (Bytes × Bool)) :=
  match transitionGraph t Core.rules g (plainOrder g) name with
  | .ok (.ok (f, h)) =>
    match newGenerator {} f h with
    | .ok (.ok G) => some (expectedNext G (fun _ l => l) pre)
    | _ => none
  | _ => none

theorem expRun_some {t : TgOpts} {g : Grammar} {name : Str} {pre : Bytes} {r : Option (Bytes × Bool)} (h : expRun t g name pre = some r) :
    ∃ f h G, transitionGraph t Core.rules g (plainOrder g) name = .ok (.ok (f, h)) ∧ newGenerator {} f h = .ok (.ok G) ∧
      expectedNext G (fun _ l => l) pre = r := by
  unfold expRun at h
  split at h
  · rename_i f hp e1
    split at h
    · rename_i G e2
      cases h
      exact ⟨f, hp, G, e1, e2, rfl⟩
    · cases h
  · cases h

/-! ## C33: nothing is missed -/

/-- C33 for graphs.  If no element of the graph has the empty text, then whenever the analysis succeeds, every octet
that continues the prefix to the beginning of a word is among the expected ones, and a prefix that is a word is
accepted. -/
theorem C33_graph (g : Grammar) (o : FuzzOpts) (f : TgFrag) (h : TgHeap) (hfin : GraphFin h f) (G : FuzzGen)
    (hG : newGenerator o f h = .ok (.ok G)) (hsolid : ∀ n, ReachedFrom h f.ins n → ¬ Derives g (h.elem n) [])
    (ord : Nat → List Emission → List Emission) (hord : ∀ n l, (ord n l).Perm l) (pre next : Bytes) (acc : Bool)
    (he : expectedNext G ord pre = some (next, acc)) :
    (∀ b rest, GraphWord (Derives g) h f (pre ++ b :: rest) → b ∈ next) ∧ (GraphWord (Derives g) h f pre → acc = true) := by
  have H := newGenerator_ok hfin hG
  obtain rfl := H.frag
  obtain rfl := H.heap
  have HD : Covers (fun e w => Derives g e w ∧ w ≠ []) G.heap (emissionsOf G.heap ord) := by
    rintro n es w h1 ⟨h2, h3⟩
    exact ⟨h3, emissions_cover (hord n) h1 h2⟩
  have hmono : ∀ w, GraphWord (Derives g) G.heap G.frag w → GraphWord (fun e w => Derives g e w ∧ w ≠ []) G.heap G.frag w :=
    fun w hw => graphWord_mono (fun n hn v hv => ⟨hv, by rintro rfl; exact hsolid n hn hv⟩) hw
  constructor
  · intro b rest hw
    rcases hmono _ hw with ⟨_, _, h1⟩ | ⟨n, h1, h2⟩
    · simp at h1
    · exact (expectedNext_complete he HD h1 h2).2 b rest rfl
  · intro hw
    rcases hmono _ hw with ⟨_, h1, rfl⟩ | ⟨n, h1, h2⟩
    · obtain ⟨ready, ready', last, all, _, h4, _, h5⟩ := expectedNext_parts he
      simp only [expLoop, Option.some.injEq, Prod.mk.injEq] at h4
      obtain ⟨_, _, rfl⟩ := h4
      rw [(h5 rfl).2.1 rfl]
      exact decide_eq_true h1
    · rw [← List.append_nil pre] at h2
      exact (expectedNext_complete he HD h1 h2).1 rfl

/-- C33.  For the graph of a rule: every octet that continues the prefix to the beginning of a text of the rule is
expected, and a prefix that is a text is accepted.  What is missing: the analysis must succeed (see C69), and no series
of several numbers may be deflated. -/
theorem C33_partial (t : TgOpts) (g : Grammar) (hd : NamesDistinct g) (core : List Rule) (hcore : core.Perm Core.rules)
    (order : List Str) (ho : order.Perm ((dependencyGraph core g).map Prod.fst)) (name : Str)
    (hp : ∀ r, Visits t g name r → Plain r) (hs : ∀ r, Visits t g name r → FullSeries r)
    (hn : t.nums = true → ∀ r, Visits t g name r → OneChar r)
    (f : TgFrag) (h : TgHeap) (hok : transitionGraph t core g order name = .ok (.ok (f, h)))
    (o : FuzzOpts) (G : FuzzGen) (hG : newGenerator o f h = .ok (.ok G))
    (ord : Nat → List Emission → List Emission) (hord : ∀ n l, (ord n l).Perm l) (pre next : Bytes) (acc : Bool)
    (he : expectedNext G ord pre = some (next, acc)) :
    (∀ b rest, DerivesRule g name (pre ++ b :: rest) → b ∈ next) ∧ (DerivesRule g name pre → acc = true) := by
  have hfin := tg_finite hd hcore ho hp hok
  have hlang := C30_exact_partial t g hd core hcore order ho name hp hn f h hok
  have H := C33_graph g o f h hfin G hG (fun n hn => solid_of hd hs hok n ((newGenerator_ok hfin hG).produces n hn)) ord hord pre next acc he
  exact ⟨fun b rest hw => H.1 b rest ((hlang _).mpr hw), fun hw => H.2 ((hlang _).mpr hw)⟩

/-- An octet that is not expected spoils the prefix for good. -/
theorem C33_spoils_partial (t : TgOpts) (g : Grammar) (hd : NamesDistinct g) (core : List Rule) (hcore : core.Perm Core.rules)
    (order : List Str) (ho : order.Perm ((dependencyGraph core g).map Prod.fst)) (name : Str)
    (hp : ∀ r, Visits t g name r → Plain r) (hs : ∀ r, Visits t g name r → FullSeries r)
    (hn : t.nums = true → ∀ r, Visits t g name r → OneChar r)
    (f : TgFrag) (h : TgHeap) (hok : transitionGraph t core g order name = .ok (.ok (f, h)))
    (o : FuzzOpts) (G : FuzzGen) (hG : newGenerator o f h = .ok (.ok G))
    (ord : Nat → List Emission → List Emission) (hord : ∀ n l, (ord n l).Perm l) (pre next : Bytes) (acc : Bool)
    (he : expectedNext G ord pre = some (next, acc)) (b : UInt8) (hb : b ∉ next) (rest : Bytes) :
    ¬ DerivesRule g name (pre ++ b :: rest) := fun hw =>
  hb ((C33_partial t g hd core hcore order ho name hp hs hn f h hok o G hG ord hord pre next acc he).1 b rest hw)

/-- Checks `FullSeries`. -/
def fullSeriesB (r : Rule) : Bool := (altReps r.alt).all fun q => match q.elem with | .numVal _ .series es => !es.isEmpty | _ => true

theorem fullSeries_of {o : TgOpts} {g : Grammar} {name : Str} (h : (g.rules ++ Core.rules).all fullSeriesB = true) :
    ∀ r, Visits o g name r → FullSeries r := by
  intro r hr q hq b es he
  have h1 := List.all_eq_true.mp (List.all_eq_true.mp h r (visits_mem hr)) q hq
  rw [he] at h1
  rintro rfl
  cases h1

example : ∃ f h G, transitionGraph {} Core.rules dashes (plainOrder dashes) ['a'] = .ok (.ok (f, h)) ∧ newGenerator {} f h = .ok (.ok G) ∧
    expectedNext G (fun _ l => l) (bytes% "a-") = some (bytes% "Xabcx", false) ∧
    (∀ r, Visits {} dashes ['a'] r → FullSeries r) ∧ ∀ r, Visits {} dashes ['a'] r → Plain r := by
  obtain ⟨f, h, G, e1, e2, e3⟩ := expRun_some (t := {}) (g := dashes) (name := ['a']) (pre := bytes% "a-")
    (r := some (bytes% "Xabcx", false)) (by decide +kernel)
  exact ⟨f, h, G, e1, e2, e3, fullSeries_of (by decide +kernel), plain_of (by decide +kernel)⟩

/-- `a = %x61.62`. -/
def twoChars : Grammar := ⟨[⟨['a'], [[⟨1, some 1, .numVal ['x'] .series [str% "61", str% "62"]⟩]]⟩]⟩

/-- C33 as stated is false: if numbers are deflated, `a = %x61.62` turns into a choice of `a` and `b`, so nothing is
expected after `a`, although `ab` is a text of the rule. -/
theorem C33_fails : ∃ f h G, transitionGraph { nums := true } Core.rules twoChars (plainOrder twoChars) ['a'] = .ok (.ok (f, h)) ∧
    newGenerator {} f h = .ok (.ok G) ∧ expectedNext G (fun _ l => l) (bytes% "a") = some ([], true) ∧
    DerivesRule twoChars ['a'] (bytes% "ab") ∧ ¬ DerivesRule twoChars ['a'] (bytes% "a") := by
  have hd : NamesDistinct twoChars := namesDistinct_of (by decide)
  have h61 : Denotes ['x'] (str% "61") 97 := denotes_hex [6, 1] 97 (by decide)
  have h62 : Denotes ['x'] (str% "62") 98 := denotes_hex [6, 2] 98 (by decide)
  obtain ⟨f, h, G, e1, e2, e3⟩ := expRun_some (t := { nums := true }) (g := twoChars) (name := ['a']) (pre := bytes% "a")
    (r := some ([], true)) (by decide +kernel)
  have hr : Resolves twoChars ['a'] twoChars.rules[0] := (getRule_iff hd).mp (by decide +kernel)
  have halt : twoChars.rules[0].alt = [[⟨1, some 1, .numVal ['x'] .series [str% "61", str% "62"]⟩]] := rfl
  refine ⟨f, h, G, e1, e2, e3, ?_, fun hw => ?_⟩
  · rw [DerivesRule, derives_rule_of hd hr, halt, derivesAlt_cons]
    left
    rw [derivesConcat_one, derivesRep_one]
    exact .term _ ['a', 'b'] (.series _ _ _ (.cons h61 (.cons h62 .nil)))
  · rw [DerivesRule, derives_rule_of hd hr, halt, derivesAlt_cons] at hw
    rcases hw with hw | hw
    · rw [derivesConcat_one, derivesRep_one] at hw
      generalize hx : bytes% "a" = x at hw
      cases hw with
      | term _ cs ht =>
        cases ht with
        | series _ _ _ hc =>
          cases hc with
          | cons h1 hc =>
            cases hc with
            | cons h2 hc =>
              cases hc
              rename_i c1 c2
              have e1 := denotes_fun h61 h1
              have e2 := denotes_fun h62 h2
              have c1' : c1 = 'a' := Char.toNat_inj.mp e1.symm
              have c2' : c2 = 'b' := Char.toNat_inj.mp e2.symm
              subst c1' c2'
              exact absurd hx (by decide +kernel)
    · exact derivesAlt_nil hw

/-! ## C68: nothing is invented -/

/-- C68 for graphs.  If the ranges are flat, a nonempty prefix is accepted only if it is a word; and if an end point can be
reached from every node, every expected octet continues the prefix to the beginning of a word. -/
theorem C68_graph (g : Grammar) (o : FuzzOpts) (f : TgFrag) (h : TgHeap) (hfin : GraphFin h f) (G : FuzzGen)
    (hG : newGenerator o f h = .ok (.ok G)) (ht : WritesText h f) (hflat : ∀ n, ReachedFrom h f.ins n → Flat (h.elem n))
    (ord : Nat → List Emission → List Emission) (hord : ∀ n l, (ord n l).Perm l) (pre next : Bytes) (acc : Bool)
    (he : expectedNext G ord pre = some (next, acc)) :
    (pre ≠ [] → acc = true → GraphWord (Derives g) h f pre) ∧
    ((∀ n, ReachedFrom h f.ins n → ∃ k, StepsToEnd h f n k) → ∀ b ∈ next, ∃ rest, GraphWord (Derives g) h f (pre ++ b :: rest)) := by
  have H := newGenerator_ok hfin hG
  obtain rfl := H.frag
  obtain rfl := H.heap
  -- what an emission says is a text, for the nodes that count
  have HD : Covered (fun e w => Emittable e → Flat e → Derives g e w) G.heap (emissionsOf G.heap ord) :=
    fun n es em w h1 h2 h3 hem hfl => emissions_exact (hord n) hem hfl h1 h2 h3
  have hback : ∀ n w, some n ∈ G.frag.ins → Spells (fun e w => Emittable e → Flat e → Derives g e w) G.heap G.frag.outs n w →
      GraphWord (Derives g) G.heap G.frag w := fun n w h1 h2 =>
    graphWord_mono (D := fun e w => Emittable e → Flat e → Derives g e w) (fun m hm v hv => hv (ht m hm) (hflat m hm)) (.inr ⟨n, h1, h2⟩)
  obtain ⟨h1, h2⟩ := expectedNext_sound hord he HD
  refine ⟨fun hp ha => ?_, fun hend b hb => ?_⟩
  · obtain ⟨n, h3, h4⟩ := h1 hp ha
    exact hback n _ h3 h4
  · have hlive : ∀ n, ReachedFrom G.heap G.frag.ins n → some n ∈ G.frag.outs ∨ ∃ m ∈ G.heap.nexts n,
        ∃ v, Spells (fun e w => Emittable e → Flat e → Derives g e w) G.heap G.frag.outs m v := by
      intro n hn
      obtain ⟨k, hk⟩ := hend n hn
      have hspell : ∀ m k, StepsToEnd G.heap G.frag m k → ReachedFrom G.heap G.frag.ins m →
          ∃ v, Spells (fun e w => Emittable e → Flat e → Derives g e w) G.heap G.frag.outs m v := by
        intro m k hs
        induction hs with
        | stop m hm =>
          intro hr
          exact ⟨_, .stop m _ hm fun hem _ => nodeSays_derives hem (H.produces m hr) ⟨0, nodeEmit_pos _, rfl⟩⟩
        | step m m' k hm _ ih =>
          intro hr
          have hr' : ReachedFrom G.heap G.frag.ins m' := by
            obtain ⟨i, h5, h6⟩ := hr
            exact ⟨i, h5, h6.tail hm⟩
          obtain ⟨v, hv⟩ := ih hr'
          exact ⟨_, .step m m' _ v (fun hem _ => nodeSays_derives hem (H.produces m hr) ⟨0, nodeEmit_pos _, rfl⟩) hm hv⟩
      cases hk with
      | stop _ h5 => exact .inl h5
      | step _ m k h5 h6 =>
        refine .inr ⟨m, h5, hspell m k h6 ?_⟩
        obtain ⟨i, h7, h8⟩ := hn
        exact ⟨i, h7, h8.tail h5⟩
    obtain ⟨n, rest, h3, h4⟩ := h2 hlive b hb
    exact ⟨rest, hback n _ h3 h4⟩

/-- C68.  For the graph of a rule: a nonempty prefix is accepted exactly if it is a text of the rule, and an octet is
expected exactly if it continues the prefix to the beginning of a text.  What is missing: as for C33, the ranges must be
flat and consist of characters, and every node of the graph must lead to an end point. -/
theorem C68_partial (t : TgOpts) (g : Grammar) (hd : NamesDistinct g) (core : List Rule) (hcore : core.Perm Core.rules)
    (order : List Str) (ho : order.Perm ((dependencyGraph core g).map Prod.fst)) (name : Str)
    (hp : ∀ r, Visits t g name r → Plain r) (hs : ∀ r, Visits t g name r → FullSeries r)
    (hn : t.nums = true → ∀ r, Visits t g name r → OneChar r) (hx : ∀ r, Visits t g name r → TextRule t r)
    (f : TgFrag) (h : TgHeap) (hok : transitionGraph t core g order name = .ok (.ok (f, h)))
    (hflat : ∀ n, ReachedFrom h f.ins n → Flat (h.elem n)) (hend : ∀ n, ReachedFrom h f.ins n → ∃ k, StepsToEnd h f n k)
    (o : FuzzOpts) (G : FuzzGen) (hG : newGenerator o f h = .ok (.ok G))
    (ord : Nat → List Emission → List Emission) (hord : ∀ n l, (ord n l).Perm l) (pre next : Bytes) (acc : Bool)
    (he : expectedNext G ord pre = some (next, acc)) :
    (∀ b, b ∈ next ↔ ∃ rest, DerivesRule g name (pre ++ b :: rest)) ∧ (pre ≠ [] → (acc = true ↔ DerivesRule g name pre)) := by
  have hfin := tg_finite hd hcore ho hp hok
  have hlang := C30_exact_partial t g hd core hcore order ho name hp hn f h hok
  obtain ⟨h1, h2⟩ := C33_partial t g hd core hcore order ho name hp hs hn f h hok o G hG ord hord pre next acc he
  obtain ⟨h3, h4⟩ := C68_graph g o f h hfin G hG
    (fun n hn => emittable_of_rules hd hx hok n ((newGenerator_ok hfin hG).produces n hn)) hflat ord hord pre next acc he
  refine ⟨fun b => ⟨fun hb => ?_, fun ⟨rest, hw⟩ => h1 b rest hw⟩, fun hpre => ⟨fun ha => (hlang _).mp (h3 hpre ha), h2⟩⟩
  obtain ⟨rest, hw⟩ := h4 hend b hb
  exact ⟨rest, (hlang _).mp hw⟩

/-- Checks `TextRule`. -/
def textRuleB (o : TgOpts) (r : Rule) : Bool := (altReps r.alt).all fun q => emittableB q.elem && (!o.nums || match q.elem with
  | .numVal b .range es => decide (numvalToRune (es.getD 1 []) b < 0xD800) || decide (0xDFFF < numvalToRune (es.getD 0 []) b)
  | _ => true)

theorem textRule_of {o : TgOpts} {g : Grammar} {name : Str} (h : (g.rules ++ Core.rules).all (textRuleB o) = true) :
    ∀ r, Visits o g name r → TextRule o r := by
  intro r hr q hq
  have h1 := List.all_eq_true.mp (List.all_eq_true.mp h r (visits_mem hr)) q hq
  rw [Bool.and_eq_true] at h1
  refine ⟨emittable_of h1.1, fun hn b s t lo hi he hs ht => ?_⟩
  have h2 := h1.2
  rw [hn, he] at h2
  simp only [Bool.not_true, Bool.false_or, List.getD_cons_zero, List.getD_cons_succ, numvalToRune_denotes hs, numvalToRune_denotes ht,
    Bool.or_eq_true, decide_eq_true_eq, maxInt32] at h2
  omega

example : ∀ r, Visits { nums := true } dashes ['a'] r → TextRule { nums := true } r := textRule_of (by decide +kernel)

/-- Checks `Flat`. -/
def flatB : Elem → Bool
  | .numVal b .range es => decide (numvalToRune (es.getD 1 []) b < 128) ||
      decide (numvalToRune (es.getD 0 []) b < maxInt32 ∧ numvalToRune (es.getD 1 []) b < maxInt32 ∧ numvalToRune (es.getD 0 []) b / 64 = numvalToRune (es.getD 1 []) b / 64)
  | _ => true

theorem flat_of {e : Elem} (h : flatB e = true) : Flat e := by
  unfold Flat
  split
  · rintro s t lo hi rfl hs ht
    simp only [flatB, Bool.or_eq_true, decide_eq_true_eq, List.getD_cons_zero, List.getD_cons_succ, numvalToRune_denotes hs,
      numvalToRune_denotes ht, maxInt32] at h
    omega
  · trivial

/-- All nodes of the graph lead to an end point, for the examples. -/
def endsB (t : TgOpts) (g : Grammar) (name : Str) (k : Nat) : Bool :=
  match transitionGraph t Core.rules g (plainOrder g) name with
  | .ok (.ok (f, h)) => (List.range h.size).all fun n => decide (n ∈ go f h k)
  | _ => false
where
  go (f : TgFrag) (h : TgHeap) : Nat → List Nat
    | 0 => f.outs.filterMap id
    | k + 1 => (List.range h.size).filter (fun n => (h.nexts n).any fun m => decide (m ∈ go f h k)) ++ go f h k

theorem endsB_go {f : TgFrag} {h : TgHeap} (k : Nat) : ∀ n ∈ endsB.go f h k, ∃ j, StepsToEnd h f n j := by
  induction k with
  | zero =>
    intro n hn
    rw [endsB.go] at hn
    exact ⟨0, .stop n (by simpa using hn)⟩
  | succ k ih =>
    intro n hn
    rw [endsB.go, List.mem_append] at hn
    rcases hn with hn | hn
    · obtain ⟨m, h1, h2⟩ := List.any_eq_true.mp (List.mem_filter.mp hn).2
      obtain ⟨j, hj⟩ := ih m (of_decide_eq_true h2)
      exact ⟨j + 1, .step n m j h1 hj⟩
    · exact ih n hn

theorem endsB_reached {t : TgOpts} {g : Grammar} (hd : NamesDistinct g) {name : Str} {k : Nat} (hall : endsB t g name k = true)
    (hp : ∀ r, Visits t g name r → Plain r) {f : TgFrag} {h : TgHeap}
    (hok : transitionGraph t Core.rules g (plainOrder g) name = .ok (.ok (f, h))) :
    ∀ n, ReachedFrom h f.ins n → ∃ k, StepsToEnd h f n k := by
  unfold endsB at hall
  rw [hok] at hall
  simp only [List.all_eq_true, List.mem_range, decide_eq_true_eq] at hall
  exact fun n hn => endsB_go k n (hall n (tg_finite hd (.refl _) (.refl _) hp hok n hn))

example : ∃ f h G, transitionGraph {} Core.rules dashes (plainOrder dashes) ['a'] = .ok (.ok (f, h)) ∧ newGenerator {} f h = .ok (.ok G) ∧
    expectedNext G (fun _ l => l) (bytes% "a-x") = some ([], true) ∧ (∀ n, ReachedFrom h f.ins n → Flat (h.elem n)) ∧
    (∀ n, ReachedFrom h f.ins n → ∃ k, StepsToEnd h f n k) ∧ WritesText h f := by
  have hd : NamesDistinct dashes := namesDistinct_of (by decide)
  have hp : ∀ r, Visits {} dashes ['a'] r → Plain r := plain_of (by decide +kernel)
  obtain ⟨f, h, G, e1, e2, e3⟩ := expRun_some (t := {}) (g := dashes) (name := ['a']) (pre := bytes% "a-x")
    (r := some ([], true)) (by decide +kernel)
  have hall := tgAll_reached hd (p := fun e _ => flatB e && emittableB e) (q := fun _ => true) (by decide +kernel) hp e1
  simp only [Bool.and_eq_true] at hall
  exact ⟨f, h, G, e1, e2, e3, fun n hn => flat_of (hall.2 n hn).1, endsB_reached hd (k := 3) (by decide +kernel) hp e1,
    fun n hn => emittable_of (hall.2 n hn).2⟩

/-- `a = %xFF-100`. -/
def wide : Grammar := ⟨[⟨['a'], [[⟨1, some 1, .numVal ['x'] .range [str% "FF", str% "100"]⟩]]⟩]⟩
/-- `a = %x62-61 "y"`, `b = a / a / "z"`. -/
def lost : Grammar := ⟨[⟨['a'], [[⟨1, some 1, .numVal ['x'] .range [str% "62", str% "61"]⟩, ⟨1, some 1, .charVal false ['y']⟩]]⟩,
  ⟨['b'], [[⟨1, some 1, .rulename ['a']⟩], [⟨1, some 1, .rulename ['a']⟩], [⟨1, some 1, .charVal false ['z']⟩]]⟩]⟩

/-- C68 as stated is false.  The bytes of the characters of a range are mixed: after `C3`, `%xFF-100` is said to allow `80`,
and `C3 80` to be a text.  An end point without a way to it is lost when a graph is copied: the copy of the graph of
`a = %x62-61 "y"` says that the empty text is one. -/
theorem C68_fails :
    (∃ f h G, transitionGraph {} Core.rules wide (plainOrder wide) ['a'] = .ok (.ok (f, h)) ∧ newGenerator {} f h = .ok (.ok G) ∧
      expectedNext G (fun _ l => l) [0xC3] = some ([0x80, 0xBF], false) ∧ expectedNext G (fun _ l => l) [0xC3, 0x80] = some ([], true) ∧
      ∀ rest, ¬ DerivesRule wide ['a'] ([0xC3] ++ 0x80 :: rest)) ∧
    (∃ f h G, transitionGraph { rules := true, nums := true } Core.rules lost (plainOrder lost) ['b'] = .ok (.ok (f, h)) ∧
      newGenerator {} f h = .ok (.ok G) ∧ (expectedNext G (fun _ l => l) []) = some (bytes% "Zz", true) ∧ ¬ DerivesRule lost ['b'] []) := by
  have hff : Denotes ['x'] (str% "FF") 255 := denotes_hex [15, 15] 255 (by decide)
  have h100 : Denotes ['x'] (str% "100") 256 := denotes_hex [1, 0, 0] 256 (by decide)
  have h62 : Denotes ['x'] (str% "62") 98 := denotes_hex [6, 2] 98 (by decide)
  have h61 : Denotes ['x'] (str% "61") 97 := denotes_hex [6, 1] 97 (by decide)
  constructor
  · have hd : NamesDistinct wide := namesDistinct_of (by decide)
    obtain ⟨f, h, G, e1, e2, e3⟩ := expRun_some (t := {}) (g := wide) (name := ['a']) (pre := [0xC3]) (r := some ([0x80, 0xBF], false)) (by decide +kernel)
    obtain ⟨f', h', G', e1', e2', e3'⟩ := expRun_some (t := {}) (g := wide) (name := ['a']) (pre := [0xC3, 0x80]) (r := some ([], true)) (by decide +kernel)
    rw [e1] at e1'
    cases e1'
    rw [e2] at e2'
    cases e2'
    refine ⟨f, h, G, e1, e2, e3, e3', fun rest hw => ?_⟩
    rw [DerivesRule, derives_rule_of hd (r := wide.rules[0]) ((getRule_iff hd).mp (by decide +kernel))] at hw
    have : wide.rules[0].alt = [[⟨1, some 1, .numVal ['x'] .range [str% "FF", str% "100"]⟩]] := rfl
    rw [this, derivesAlt_cons, derivesConcat_one, derivesRep_one] at hw
    rcases hw with hw | hw
    · obtain ⟨c, h1, h2, h3⟩ := (derives_range hff h100).mp hw
      rw [← encodeAll_eq_utf8] at h3
      have hc : c.toNat = 255 ∨ c.toNat = 256 := by omega
      simp only [encodeAll, List.flatMap_cons, List.flatMap_nil, List.append_nil, encodeRune] at h3
      rcases hc with hc | hc
      · rw [hc] at h3
        simp at h3
      · rw [hc] at h3
        simp at h3
    · exact derivesAlt_nil hw
  · have hd : NamesDistinct lost := namesDistinct_of (by decide)
    obtain ⟨f, h, G, e1, e2, e3⟩ := expRun_some (t := { rules := true, nums := true }) (g := lost) (name := ['b']) (pre := [])
      (r := some (bytes% "Zz", true)) (by decide +kernel)
    refine ⟨f, h, G, e1, e2, e3, fun hw => ?_⟩
    have ha : ∀ w, ¬ Derives lost (.rulename ['a']) w := by
      intro w hw
      rw [derives_rule_of hd (r := lost.rules[0]) ((getRule_iff hd).mp (by decide +kernel))] at hw
      have : lost.rules[0].alt = [[⟨1, some 1, .numVal ['x'] .range [str% "62", str% "61"]⟩, ⟨1, some 1, .charVal false ['y']⟩]] := rfl
      rw [this, derivesAlt_cons] at hw
      rcases hw with hw | hw
      · obtain ⟨u, v, _, hu, _⟩ := derivesConcat_cons.mp hw
        obtain ⟨c, h1, h2, _⟩ := (derives_range h62 h61).mp (derivesRep_one.mp hu)
        omega
      · exact derivesAlt_nil hw
    rw [DerivesRule, derives_rule_of hd (r := lost.rules[1]) ((getRule_iff hd).mp (by decide +kernel))] at hw
    have : lost.rules[1].alt = [[⟨1, some 1, .rulename ['a']⟩], [⟨1, some 1, .rulename ['a']⟩], [⟨1, some 1, .charVal false ['z']⟩]] := rfl
    rw [this, derivesAlt_cons, derivesAlt_cons, derivesAlt_cons, derivesConcat_one, derivesConcat_one, derivesRep_one, derivesRep_one] at hw
    rcases hw with hw | hw | hw | hw
    · exact ha _ hw
    · exact ha _ hw
    · exact charVal_solid (by simp) hw
    · exact derivesAlt_nil hw

/-! ## C69: the order of a map, and when the analysis succeeds -/

/-- C69.  The result does not depend on the order in which the map of emissions is visited. -/
theorem C69_order (G : FuzzGen) (o1 o2 : Nat → List Emission → List Emission) (h1 : ∀ n l, (o1 n l).Perm l)
    (h2 : ∀ n l, (o2 n l).Perm l) (pre : Bytes) : expectedNext G o1 pre = expectedNext G o2 pre := by
  cases e1 : expectedNext G o1 pre with
  | some r => exact (expectedNext_order h1 h2 e1).symm
  | none =>
    cases e2 : expectedNext G o2 pre with
    | none => rfl
    | some r => rw [expectedNext_order h2 h1 e2] at e1; cases e1

/-- `a = %x7F-82`: two lengths. -/
example : let g : Grammar := ⟨[⟨['a'], [[⟨1, some 1, .numVal ['x'] .range [str% "7F", str% "82"]⟩]]⟩]⟩
    expRun {} g ['a'] [] = some (some ([0x7F, 0xC2], false)) ∧ expRun {} g ['a'] [0xC2] = some (some ([0x80, 0x81, 0x82], false)) ∧
    ∀ n : Nat, ∀ l : List Emission, ((fun _ l => l.reverse) n l : List Emission).Perm l := by
  exact ⟨by decide +kernel, by decide +kernel, fun _ l => l.reverse_perm⟩

/-- What `ExpectedNext` can expand: literals, series of characters, and ranges that have a character, are within ASCII or
comprise at most `2 ^ 16` code points. -/
def Analysable : Elem → Prop
  | .charVal _ _ => True
  | .numVal b .series es => ∀ s ∈ es, ∃ c : Char, Denotes b s c.toNat
  | .numVal b .range es => ∃ s t lo hi, es = [s, t] ∧ Denotes b s lo ∧ Denotes b t hi ∧ lo ≤ hi ∧ lo ≤ 0x10FFFF ∧
      (hi < 128 ∨ min hi 0x10FFFF - lo < 65536)
  | _ => False

/-- Elements are expanded exactly if they are analysable, for well-formed numbers. -/
theorem C69_elems (ord : List Emission → List Emission) (e : Elem) (hwf : TermWF e) : (∃ es, nodeEmissions ord e = some es) ↔ Analysable e := by
  cases e with
  | charVal s vs => exact ⟨fun _ => trivial, fun _ => ⟨_, rfl⟩⟩
  | numVal b st es =>
    cases st with
    | series =>
      simp only [nodeEmissions, Analysable, Option.map_eq_some_iff]
      have key : ∀ es : List Str, (∀ s ∈ es, ∃ v, Denotes b s v) → ((∃ em, seriesSets b es = some em) ↔ ∀ s ∈ es, ∃ c : Char, Denotes b s c.toNat) := by
        intro es
        induction es with
        | nil => intro _; simp [seriesSets]
        | cons s es ih =>
          intro hw
          have ih := ih fun x hx => hw x (List.mem_cons_of_mem _ hx)
          obtain ⟨v, hv⟩ := hw s (List.mem_cons_self ..)
          rw [seriesSets]
          have hval : validRune (numvalToRune s b) = true ↔ ∃ c : Char, Denotes b s c.toNat := by
            rw [numvalToRune_denotes hv, validRune_iff]
            unfold maxInt32
            constructor
            · intro h
              exact ⟨Char.ofNat v, by rw [toNat_ofNat_char (by omega)]; exact hv⟩
            · rintro ⟨c, hc⟩
              have := denotes_fun hv hc
              have := char_valid c
              omega
          by_cases h : validRune (numvalToRune s b) = true
          · rw [if_pos h]
            simp only [Option.map_eq_some_iff, List.forall_mem_cons]
            rw [← ih]
            constructor
            · rintro ⟨em, x, hx, _⟩
              exact ⟨hval.mp h, x, hx⟩
            · rintro ⟨_, x, hx⟩
              exact ⟨_, x, hx, rfl⟩
          · rw [if_neg h]
            simp only [reduceCtorEq, exists_false, List.forall_mem_cons, false_iff]
            exact fun h' => h (hval.mpr h'.1)
      rw [← key es hwf]
      constructor
      · rintro ⟨_, x, hx, _⟩
        exact ⟨x, hx⟩
      · rintro ⟨x, hx⟩
        exact ⟨_, x, hx, rfl⟩
    | range =>
      obtain ⟨s, t, lo, hi, rfl, hs, ht⟩ := hwf
      simp only [nodeEmissions, Analysable, List.getD_cons_zero, List.getD_cons_succ, numvalToRune_denotes hs, numvalToRune_denotes ht]
      have huniq : (∃ s' t' lo' hi', [s, t] = [s', t'] ∧ Denotes b s' lo' ∧ Denotes b t' hi' ∧ lo' ≤ hi' ∧ lo' ≤ 0x10FFFF ∧
          (hi' < 128 ∨ min hi' 0x10FFFF - lo' < 65536)) ↔ (lo ≤ hi ∧ lo ≤ 0x10FFFF ∧ (hi < 128 ∨ min hi 0x10FFFF - lo < 65536)) := by
        constructor
        · rintro ⟨s', t', lo', hi', e, h1, h2, h3⟩
          simp only [List.cons.injEq, and_true] at e
          obtain ⟨rfl, rfl⟩ := e
          obtain rfl := denotes_fun hs h1
          obtain rfl := denotes_fun ht h2
          exact h3
        · exact fun h => ⟨s, t, lo, hi, rfl, hs, ht, h⟩
      rw [huniq]
      by_cases h1 : min lo maxInt32 > maxRune ∨ min lo maxInt32 > min (min hi maxInt32) maxRune
      · rw [if_pos h1]
        simp only [reduceCtorEq, exists_false, false_iff]
        simp only [maxInt32, maxRune] at h1
        omega
      rw [if_neg h1]
      by_cases h2 : min (min hi maxInt32) maxRune ≤ 127
      · rw [if_pos h2]
        simp only [Option.some.injEq, exists_eq', true_iff]
        simp only [maxInt32, maxRune] at h1 h2
        omega
      rw [if_neg h2]
      by_cases h3 : min (min hi maxInt32) maxRune - min lo maxInt32 + 1 > rangeCap
      · rw [if_pos h3]
        simp only [reduceCtorEq, exists_false, false_iff]
        simp only [maxInt32, maxRune, rangeCap] at h1 h2 h3
        omega
      · rw [if_neg h3]
        simp only [Option.some.injEq, exists_eq', true_iff]
        simp only [maxInt32, maxRune, rangeCap] at h1 h2 h3
        omega
  | _ => exact ⟨fun ⟨_, h⟩ => by (cases h), fun h => h.elim⟩

/-- C69.  The analysis succeeds for every prefix if all elements of the graph are analysable. -/
theorem C69_ok (o : FuzzOpts) (f : TgFrag) (h : TgHeap) (hfin : GraphFin h f) (G : FuzzGen) (hG : newGenerator o f h = .ok (.ok G))
    (hwf : ∀ n, ReachedFrom h f.ins n → TermWF (h.elem n)) (ha : ∀ n, ReachedFrom h f.ins n → Analysable (h.elem n))
    (ord : Nat → List Emission → List Emission) (pre : Bytes) : ∃ r, expectedNext G ord pre = some r := by
  have H := newGenerator_ok hfin hG
  obtain rfl := H.frag
  obtain rfl := H.heap
  have hk : ∀ n, ReachedFrom G.heap G.frag.ins n → ∃ es, emissionsOf G.heap ord n = some es :=
    fun n hn => (C69_elems (ord n) _ (hwf n hn)).mpr (ha n hn)
  obtain ⟨ready, hr⟩ := expStartAll_some (ems := emissionsOf G.heap ord) (G.frag.ins.filterMap id)
    (fun n hn => hk n ⟨n, by simpa using hn, .refl⟩) []
  obtain ⟨⟨ready', last, all⟩, hl⟩ := expLoop_some (f := G.frag) hk pre ready false fun s hs => ⟨s.node, (start_reached hr s hs).2.1, .refl⟩
  unfold expectedNext
  simp only [hr, hl]
  split_ifs <;> exact ⟨_, rfl⟩

example : Analysable (.numVal ['x'] .range [str% "61", str% "63"]) ∧ TermWF (.numVal ['x'] .range [str% "61", str% "63"]) ∧
    Analysable (.charVal false ['-']) := by
  have h1 : Denotes ['x'] (str% "61") 97 := denotes_hex [6, 1] 97 (by decide)
  have h2 : Denotes ['x'] (str% "63") 99 := denotes_hex [6, 3] 99 (by decide)
  exact ⟨⟨_, _, 97, 99, rfl, h1, h2, by omega, by omega, .inl (by omega)⟩, ⟨_, _, 97, 99, rfl, h1, h2⟩, trivial⟩

end Verif.Props
