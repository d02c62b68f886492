import Verif.FuzzAll
import Verif.PropsTg
import Verif.PropsEntropy
import Verif.PropsGen

/-!
# Properties of walks over transition graphs: C31, C62 and C63
-/

namespace Verif.Props

open Verif Verif.Spec

/-- The graphs `TransitionGraph` returns are finite. -/
theorem tg_finite {o : TgOpts} {g : Grammar} (hd : NamesDistinct g) {core : List Rule} (hcore : core.Perm Core.rules)
    {order : List Str} (ho : order.Perm ((dependencyGraph core g).map Prod.fst)) {name : Str}
    (hp : ∀ r, Visits o g name r → Plain r) {f : TgFrag} {h : TgHeap} (hok : transitionGraph o core g order name = .ok (.ok (f, h))) :
    GraphFin h f := by
  have H := transitionGraph_sat (o := o) (rd := False) hd hcore ho (name := name)
    fun r hr r' hr' => ready_of (hp r' ⟨r, hr, hr'⟩) fun h => h.elim
  rw [hok] at H
  obtain ⟨L, R, _, h2, _⟩ := H
  exact fun n hn => h2.bound n (reached_in h2.closed h2.ins hn)

/-! ## C31: soundness and termination -/

/-- The graph writes text only: its elements can be written down. -/
def WritesText (h : TgHeap) (f : TgFrag) : Prop := ∀ n, ReachedFrom h f.ins n → Emittable (h.elem n)

theorem newGenerator_ok {o : FuzzOpts} {f : TgFrag} {h : TgHeap} (hfin : GraphFin h f) {G : FuzzGen}
    (hG : newGenerator o f h = .ok (.ok G)) : FuzzOK o f h G := by
  have H := newGenerator_sat o hfin
  rw [hG] at H
  exact H

/-- `NewGenerator` returns, and refuses a graph exactly if it holds a rule name, group, option or prose. -/
theorem C31_new (o : FuzzOpts) (f : TgFrag) (h : TgHeap) (hfin : GraphFin h f) :
    ((∃ G, newGenerator o f h = .ok (.ok G)) ↔ ∀ n, ReachedFrom h f.ins n →
      (∃ s vs, h.elem n = .charVal s vs) ∨ ∃ b st es, h.elem n = .numVal b st es) ∧
    ∃ res, newGenerator o f h = .ok res := by
  have H := newGenerator_sat o hfin
  have hpr : ∀ e, producing e = true ↔ (∃ s vs, e = .charVal s vs) ∨ ∃ b st es, e = .numVal b st es := by
    intro e
    cases e <;> simp [producing]
  cases hx : newGenerator o f h with
  | panic => rw [hx] at H; exact H.elim
  | fuel => rw [hx] at H; exact H.elim
  | ok res =>
    rw [hx] at H
    refine ⟨?_, res, rfl⟩
    cases res with
    | error e =>
      obtain ⟨n, h1, rfl, h3⟩ := H
      constructor
      · rintro ⟨G, hG⟩; cases hG
      · intro hall
        rw [(hpr _).mpr (hall n h1)] at h3
        cases h3
    | ok G => exact ⟨fun _ n hn => (hpr _).mp (FuzzOK.produces H n hn), fun _ => ⟨G, rfl⟩⟩

theorem entries_nil {o : FuzzOpts} {f : TgFrag} {h : TgHeap} {G : FuzzGen} (H : FuzzOK o f h G) (he : G.entries = []) (w : Bytes) :
    ¬ GraphWord NodeSays h f w := by
  intro hw
  have hno : ∀ e ∈ f.ins, G.dist e = none := by
    intro e h1
    by_contra hne
    have : e ∈ G.entries := by
      rw [H.entries]
      exact List.mem_filter.mpr ⟨h1, by simpa [Option.isSome_iff_ne_none] using hne⟩
    rw [he] at this
    cases this
  rcases hw with ⟨h1, h2, _⟩ | ⟨n, h1, h2⟩
  · have := hno _ h1
    rw [H.dist.ends _ h2] at this
    cases this
  · obtain ⟨L, hs⟩ := spells_in h2
    obtain ⟨v, hv, _⟩ := spellsIn_dist H hs ⟨n, h1, .refl⟩
    rw [hno _ h1] at hv
    cases hv

/-- A node always writes something, so a graph with a word has one for the walk. -/
theorem graphWord_some {D : Elem → Bytes → Prop} {h : TgHeap} {f : TgFrag} {w : Bytes} (hw : GraphWord D h f w) :
    ∃ w', GraphWord NodeSays h f w' := by
  have hsome : ∀ e, ∃ v, NodeSays e v := fun e => ⟨_, 0, nodeEmit_pos e, rfl⟩
  rcases hw with h1 | ⟨n, h1, h2⟩
  · exact ⟨w, .inl h1⟩
  · have : ∃ w', Spells NodeSays h f.outs n w' := by
      clear h1
      induction h2 with
      | stop n w h1 _ =>
        obtain ⟨v, hv⟩ := hsome (h.elem n)
        exact ⟨v, .stop n v h1 hv⟩
      | step n m u v _ h2 _ ih =>
        obtain ⟨x, hx⟩ := hsome (h.elem n)
        obtain ⟨w', ih⟩ := ih
        exact ⟨x ++ w', .step n m x w' hx h2 ih⟩
    obtain ⟨w', h3⟩ := this
    exact ⟨w', .inr ⟨n, h1, h3⟩⟩

/-- C31.  A walk over a finite graph ends, whatever the source answers, and writes a word of the graph.  What is missing:
the graph must have a word, and its elements must be ones that can be written down. -/
theorem C31_walk_partial (g : Grammar) (o : FuzzOpts) (f : TgFrag) (h : TgHeap) (hfin : GraphFin h f) (G : FuzzGen)
    (hG : newGenerator o f h = .ok (.ok G)) {σ : Type} (S : Source σ) (hS : S.InRange) (s : σ) :
    ∃ st, fuzzWalk S G s = .ok st ∧
      (WritesText h f → (∃ w, GraphWord (Derives g) h f w) → GraphWord (Derives g) h f st.out) := by
  have H := newGenerator_ok hfin hG
  have hw := fuzzWalk_sat H hfin hS s
  cases hx : fuzzWalk S G s with
  | panic => rw [hx] at hw; exact hw.elim
  | fuel => rw [hx] at hw; exact hw.elim
  | ok st =>
    rw [hx] at hw
    refine ⟨st, rfl, fun ht hne => ?_⟩
    rcases hw.word with ⟨h1, _⟩ | h1
    · obtain ⟨w, hw'⟩ := hne
      obtain ⟨w', hw'⟩ := graphWord_some hw'
      exact absurd hw' (entries_nil H h1 w')
    · exact graphWord_mono (fun n hn v hv => nodeSays_derives (ht n hn) (H.produces n hn) hv) h1

/-- The three ways to run a generator, as one. -/
theorem generate_eq (G : FuzzGen) : ∀ tape, ∃ (σ : Type) (S : Source σ) (s : σ), S.InRange ∧
    fuzzGenerate G tape = (fuzzWalk S G s).bnd fun st => .ok st.out := by
  intro tape
  obtain ⟨h1, h2, _⟩ := C29_sources
  unfold fuzzGenerate
  by_cases hs : G.opts.stable = true
  · exact ⟨_, indexedSource, ⟨tape, 0⟩, h2, by rw [if_pos hs]⟩
  · exact ⟨_, tapeSource, ⟨tape, 0⟩, h1, by rw [if_neg hs]⟩

/-- C31.  Every text `Generate` and `GenerateRand` return for the graph of a rule is a text of the rule, for every tape
and stream.  What is missing: as for walks, and no series of several numbers may be deflated. -/
theorem C31_member_partial (t : TgOpts) (g : Grammar) (hd : NamesDistinct g) (core : List Rule) (hcore : core.Perm Core.rules)
    (order : List Str) (ho : order.Perm ((dependencyGraph core g).map Prod.fst)) (name : Str)
    (hp : ∀ r, Visits t g name r → Plain r) (hn : t.nums = true → ∀ r, Visits t g name r → OneChar r)
    (f : TgFrag) (h : TgHeap) (hok : transitionGraph t core g order name = .ok (.ok (f, h)))
    (o : FuzzOpts) (G : FuzzGen) (hG : newGenerator o f h = .ok (.ok G)) (ht : WritesText h f) (hne : ∃ w, DerivesRule g name w) :
    (∀ tape, ∃ w, fuzzGenerate G tape = .ok w ∧ DerivesRule g name w) ∧
    ∀ rnd, ∃ w, fuzzGenerateRand G rnd = .ok w ∧ DerivesRule g name w := by
  have hfin := tg_finite hd hcore ho hp hok
  have hlang := C30_exact_partial t g hd core hcore order ho name hp hn f h hok
  have hne' : ∃ w, GraphWord (Derives g) h f w := by
    obtain ⟨w, hw⟩ := hne
    exact ⟨w, (hlang w).mpr hw⟩
  constructor
  · intro tape
    obtain ⟨σ, S, s, hS, e⟩ := generate_eq G tape
    obtain ⟨st, h1, h2⟩ := C31_walk_partial g o f h hfin G hG S hS s
    refine ⟨st.out, ?_, (hlang _).mp (h2 ht hne')⟩
    rw [e, h1]
    rfl
  · intro rnd
    obtain ⟨st, h1, h2⟩ := C31_walk_partial g o f h hfin G hG (randSource rnd) (C29_sources.2.2 rnd) 0
    refine ⟨st.out, ?_, (hlang _).mp (h2 ht hne')⟩
    unfold fuzzGenerateRand
    rw [h1]
    rfl

/-- The whole way: the graph of a rule, a generator for it, and what it makes of a tape. -/
def fuzzRun (t : TgOpts) (o : FuzzOpts) (g : Grammar) (name : Str) (tape : Bytes) : Option Bytes :=
  match transitionGraph t Core.rules g (plainOrder g) name with
  | .ok (.ok (f, h)) =>
    match newGenerator o f h with
    | .ok (.ok G) =>
      match fuzzGenerate G tape with
      | .ok w => some w
      | _ => none
    | _ => none
  | _ => none

theorem fuzzRun_some {t : TgOpts} {o : FuzzOpts} {g : Grammar} {name : Str} {tape w : Bytes} (h : fuzzRun t o g name tape = some w) :
    ∃ f h G, transitionGraph t Core.rules g (plainOrder g) name = .ok (.ok (f, h)) ∧ newGenerator o f h = .ok (.ok G) ∧
      fuzzGenerate G tape = .ok w := by
  unfold fuzzRun at h
  split at h
  · rename_i f hp e1
    split at h
    · rename_i G e2
      split at h
      · rename_i w' e3
        cases h
        exact ⟨f, hp, G, e1, e2, e3⟩
      · cases h
    · cases h
  · cases h

/-- `a = *(%x61-63 "-") "x" / "yz"`. -/
def dashes : Grammar := ⟨[⟨['a'], [[⟨0, none, .group [[⟨1, some 1, .numVal ['x'] .range [str% "61", str% "63"]⟩, ⟨1, some 1, .charVal false ['-']⟩]]⟩,
  ⟨1, some 1, .charVal false ['x']⟩], [⟨1, some 1, .charVal false ['y', 'z']⟩]]⟩]⟩

example : fuzzRun {} { maxSteps := 9 } dashes ['a'] [0, 2, 0, 0, 1, 1, 1, 1] = some (bytes% "c-a-X") ∧
    fuzzRun {} { maxSteps := 9, stable := true } dashes ['a'] [0, 0, 0, 2, 0, 0, 0, 2] = some (bytes% "yZ") := by
  decide +kernel

/-- Checks all nodes of the graph of a rule, for the examples. -/
def tgAll (t : TgOpts) (g : Grammar) (name : Str) (p : Elem → List Nat → Bool) (q : Nat → Bool) : Bool :=
  match transitionGraph t Core.rules g (plainOrder g) name with
  | .ok (.ok (f, h)) => q f.ins.length && (List.range h.size).all fun n => p (h.elem n) (h.nexts n)
  | _ => false

theorem tgAll_reached {t : TgOpts} {g : Grammar} (hd : NamesDistinct g) {name : Str} {p : Elem → List Nat → Bool} {q : Nat → Bool}
    (hall : tgAll t g name p q = true) (hp : ∀ r, Visits t g name r → Plain r) {f : TgFrag} {h : TgHeap}
    (hok : transitionGraph t Core.rules g (plainOrder g) name = .ok (.ok (f, h))) :
    q f.ins.length = true ∧ ∀ n, ReachedFrom h f.ins n → p (h.elem n) (h.nexts n) = true := by
  unfold tgAll at hall
  rw [hok] at hall
  simp only [Bool.and_eq_true, List.all_eq_true, List.mem_range] at hall
  exact ⟨hall.1, fun n hn => hall.2 n (tg_finite hd (.refl _) (.refl _) hp hok n hn)⟩

/-- What C31, C62 and C63 assume holds for `dashes`. -/
theorem dashes_meets : ∃ f h G, transitionGraph {} Core.rules dashes (plainOrder dashes) ['a'] = .ok (.ok (f, h)) ∧
    newGenerator { maxSteps := 9 } f h = .ok (.ok G) ∧ GraphFin h f ∧ WritesText h f ∧ f.ins.length ≤ 2 ^ 32 ∧
    (∀ n, ReachedFrom h f.ins n → (h.nexts n).length < 2 ^ 32 ∧ FewLetters (h.elem n)) ∧
    (∀ r, Visits {} dashes ['a'] r → Plain r) ∧ DerivesRule dashes ['a'] (bytes% "yz") := by
  have hd : NamesDistinct dashes := namesDistinct_of (by decide)
  have hp : ∀ r, Visits {} dashes ['a'] r → Plain r := plain_of (by decide +kernel)
  obtain ⟨f, h, G, e1, e2, _⟩ := fuzzRun_some (t := {}) (o := { maxSteps := 9 }) (g := dashes) (name := ['a'])
    (tape := [0, 2, 0, 0, 1, 1, 1, 1]) (w := bytes% "c-a-X") (by decide +kernel)
  have hall := tgAll_reached hd (p := fun e l => emittableB e && decide (l.length < 2 ^ 32) &&
    match e with | .charVal false vs => decide (letterCount vs ≤ 30) | _ => true) (q := fun n => decide (n ≤ 2 ^ 32)) (by decide +kernel) hp e1
  simp only [Bool.and_eq_true, decide_eq_true_eq] at hall
  refine ⟨f, h, G, e1, e2, tg_finite hd (.refl _) (.refl _) hp e1, fun n hn => emittable_of (hall.2 n hn).1.1, hall.1,
    fun n hn => ⟨(hall.2 n hn).1.2, ?_⟩, hp, ?_⟩
  · have := (hall.2 n hn).2
    generalize h.elem n = e at this
    unfold FewLetters
    split
    · exact of_decide_eq_true this
    · trivial
  · rw [DerivesRule, derives_rule_of hd (r := dashes.rules[0]) ((getRule_iff hd).mp (by decide +kernel))]
    refine .mk _ [⟨1, some 1, .charVal false ['y', 'z']⟩] _ (by simp [dashes]) ?_
    rw [derivesConcat_one, derivesRep_one]
    exact .term _ ['y', 'z'] (.insensitive _ _ (.cons (.inl rfl) (.cons (.inl rfl) .nil)))

example : tapeSource.InRange ∧ indexedSource.InRange ∧ ∃ f h G, newGenerator { maxSteps := 9 } f h = .ok (.ok G) ∧ GraphFin h f ∧
    WritesText h f ∧ ∃ w, GraphWord (Derives dashes) h f w := by
  obtain ⟨f, h, G, e1, e2, h1, h2, _, _, h3, h4⟩ := dashes_meets
  exact ⟨C29_sources.1, C29_sources.2.1, f, h, G, e2, h1, h2, _,
    (C30_exact_partial {} dashes (namesDistinct_of (by decide)) Core.rules (.refl _) _ (.refl _) ['a'] h3 (fun h => by cases h) f h e1 _).mpr h4⟩

/-- `a = "x" %x62-61 "y"`, `a = %x62-61` and `a = %xD7FF-D800`. -/
def odd1 : Grammar := ⟨[⟨['a'], [[⟨1, some 1, .charVal false ['x']⟩, ⟨1, some 1, .numVal ['x'] .range [str% "62", str% "61"]⟩,
  ⟨1, some 1, .charVal false ['y']⟩]]⟩]⟩
@[inherit_doc odd1]
def odd2 : Grammar := ⟨[⟨['a'], [[⟨1, some 1, .numVal ['x'] .range [str% "62", str% "61"]⟩]]⟩]⟩
@[inherit_doc odd1]
def odd3 : Grammar := ⟨[⟨['a'], [[⟨1, some 1, .numVal ['x'] .range [str% "D7FF", str% "D800"]⟩]]⟩]⟩

/-- C31 as stated is false.  A range without members is passed without writing anything; if the graph has no word at all,
the empty text is returned; and a surrogate is written as U+FFFD. -/
theorem C31_fails :
    (semvalABNF odd1 = none ∧ ∃ f h G, transitionGraph {} Core.rules odd1 (plainOrder odd1) ['a'] = .ok (.ok (f, h)) ∧
      newGenerator {} f h = .ok (.ok G) ∧ fuzzGenerate G [] = .ok (bytes% "xy") ∧ ¬ GraphWord (Derives odd1) h f (bytes% "xy")) ∧
    (semvalABNF odd2 = none ∧ ∃ f h G, transitionGraph { nums := true } Core.rules odd2 (plainOrder odd2) ['a'] = .ok (.ok (f, h)) ∧
      newGenerator {} f h = .ok (.ok G) ∧ fuzzGenerate G [] = .ok [] ∧ ¬ GraphWord (Derives odd2) h f []) ∧
    (semvalABNF odd3 = none ∧ ∃ f h G, transitionGraph {} Core.rules odd3 (plainOrder odd3) ['a'] = .ok (.ok (f, h)) ∧
      newGenerator {} f h = .ok (.ok G) ∧ fuzzGenerate G [1] = .ok [0xEF, 0xBF, 0xBD] ∧
      ¬ GraphWord (Derives odd3) h f [0xEF, 0xBF, 0xBD]) := by
  have h62 : Denotes ['x'] (str% "62") 98 := denotes_hex [6, 2] 98 (by decide)
  have h61 : Denotes ['x'] (str% "61") 97 := denotes_hex [6, 1] 97 (by decide)
  have hlo : Denotes ['x'] (str% "D7FF") 0xD7FF := denotes_hex [13, 7, 15, 15] _ (by decide)
  have hhi : Denotes ['x'] (str% "D800") 0xD800 := denotes_hex [13, 8, 0, 0] _ (by decide)
  refine ⟨⟨by decide +kernel, ?_⟩, ⟨by decide +kernel, ?_⟩, ⟨by decide +kernel, ?_⟩⟩
  · have hd : NamesDistinct odd1 := namesDistinct_of (by decide)
    obtain ⟨f, h, G, e1, e2, e3⟩ := fuzzRun_some (t := {}) (o := {}) (g := odd1) (name := ['a']) (tape := []) (w := bytes% "xy") (by decide +kernel)
    refine ⟨f, h, G, e1, e2, e3, fun hw => ?_⟩
    rw [C30_exact_partial {} odd1 hd Core.rules (.refl _) _ (.refl _) ['a'] (plain_of (by decide +kernel)) (fun h => by cases h) f h e1,
      DerivesRule, derives_rule_of hd (r := odd1.rules[0]) ((getRule_iff hd).mp (by decide +kernel))] at hw
    have : odd1.rules[0].alt = [[⟨1, some 1, .charVal false ['x']⟩, ⟨1, some 1, .numVal ['x'] .range [str% "62", str% "61"]⟩,
      ⟨1, some 1, .charVal false ['y']⟩]] := rfl
    rw [this, derivesAlt_cons] at hw
    rcases hw with hw | hw
    · obtain ⟨u, v, _, _, hv⟩ := derivesConcat_cons.mp hw
      obtain ⟨u', v', _, hu', _⟩ := derivesConcat_cons.mp hv
      obtain ⟨c, h1, h2, _⟩ := (derives_range h62 h61).mp (derivesRep_one.mp hu')
      omega
    · exact derivesAlt_nil hw
  · have hd : NamesDistinct odd2 := namesDistinct_of (by decide)
    obtain ⟨f, h, G, e1, e2, e3⟩ := fuzzRun_some (t := { nums := true }) (o := {}) (g := odd2) (name := ['a']) (tape := []) (w := []) (by decide +kernel)
    refine ⟨f, h, G, e1, e2, e3, fun hw => ?_⟩
    rw [C30_exact_partial { nums := true } odd2 hd Core.rules (.refl _) _ (.refl _) ['a'] (plain_of (by decide +kernel))
      (fun _ => oneChar_of (by decide +kernel)) f h e1,
      DerivesRule, derives_rule_of hd (r := odd2.rules[0]) ((getRule_iff hd).mp (by decide +kernel))] at hw
    have : odd2.rules[0].alt = [[⟨1, some 1, .numVal ['x'] .range [str% "62", str% "61"]⟩]] := rfl
    rw [this, derivesAlt_cons, derivesConcat_one, derivesRep_one] at hw
    rcases hw with hw | hw
    · obtain ⟨c, h1, h2, _⟩ := (derives_range h62 h61).mp hw
      omega
    · exact derivesAlt_nil hw
  · have hd : NamesDistinct odd3 := namesDistinct_of (by decide)
    obtain ⟨f, h, G, e1, e2, e3⟩ := fuzzRun_some (t := {}) (o := {}) (g := odd3) (name := ['a']) (tape := [1]) (w := [0xEF, 0xBF, 0xBD]) (by decide +kernel)
    refine ⟨f, h, G, e1, e2, e3, fun hw => ?_⟩
    rw [C30_exact_partial {} odd3 hd Core.rules (.refl _) _ (.refl _) ['a'] (plain_of (by decide +kernel)) (fun h => by cases h) f h e1,
      DerivesRule, derives_rule_of hd (r := odd3.rules[0]) ((getRule_iff hd).mp (by decide +kernel))] at hw
    have : odd3.rules[0].alt = [[⟨1, some 1, .numVal ['x'] .range [str% "D7FF", str% "D800"]⟩]] := rfl
    rw [this, derivesAlt_cons, derivesConcat_one, derivesRep_one] at hw
    rcases hw with hw | hw
    · obtain ⟨c, h1, h2, h3⟩ := (derives_range hlo hhi).mp hw
      have : utf8 [c] = utf8 [Char.ofNat 0xFFFD] := by rw [← h3]; decide +kernel
      have := utf8_inj this
      simp only [List.cons.injEq, and_true] at this
      subst this
      exact absurd h2 (by decide)
    · exact derivesAlt_nil hw

/-! ## C62: limits -/

/-- From node `n` an end point can be reached in `k` steps. -/
inductive StepsToEnd (h : TgHeap) (f : TgFrag) : Nat → Nat → Prop
  | stop (n) : some n ∈ f.outs → StepsToEnd h f n 0
  | step (n m k) : m ∈ h.nexts n → StepsToEnd h f m k → StepsToEnd h f n (k + 1)

/-- C62.  Beyond its limits a walk goes straight to an end point.  With `F` steps enough from every node to an end point,
if there is a way, and `E` bytes the most a node writes, a walk makes at most `maxSteps + F` steps and writes at most
`maxLength + (F + 1) * E` bytes. -/
theorem C62_limits (o : FuzzOpts) (f : TgFrag) (h : TgHeap) (hfin : GraphFin h f) (G : FuzzGen)
    (hG : newGenerator o f h = .ok (.ok G)) {σ : Type} (S : Source σ) (hS : S.InRange) (s : σ) (F E : Nat)
    (hF : ∀ n, ReachedFrom h f.ins n → (∃ k, StepsToEnd h f n k) → ∃ k ≤ F, StepsToEnd h f n k)
    (hE : ∀ n, ReachedFrom h f.ins n → ∀ i < (nodeEmit (h.elem n) 0).2, (nodeEmit (h.elem n) i).1.length ≤ E) :
    ∃ st, fuzzWalk S G s = .ok st ∧ (st.steps : Int) ≤ max o.maxSteps 0 + F ∧
      (st.out.length : Int) ≤ max o.maxLength 0 + (F + 1) * E := by
  have H := newGenerator_ok hfin hG
  have hw := fuzzWalk_sat H hfin hS s
  have hlow : ∀ n k, StepsToEnd h f n k → ReachedFrom h f.ins n → ∃ v, G.dist (some n) = some v ∧ v ≤ k := by
    intro n k hs
    induction hs with
    | stop n h1 => exact fun _ => ⟨0, H.dist.ends _ h1, le_refl _⟩
    | step n m k h1 _ ih =>
      intro hr
      have hrm : ReachedFrom h f.ins m := by
        obtain ⟨i, h5, h6⟩ := hr
        exact ⟨i, h5, h6.tail h1⟩
      obtain ⟨v, h3, h4⟩ := ih hrm
      obtain ⟨u, h5, h6⟩ := H.dist.near n m v hr h1 h3
      exact ⟨u, h5, by omega⟩
  have hex : ∀ v n, G.dist (some n) = some v → StepsToEnd h f n v := by
    intro v
    induction v with
    | zero =>
      intro n hn
      rcases H.dist.step _ _ hn with h1 | ⟨_, _, _, _, h1, _⟩
      · exact .stop n h1.2
      · omega
    | succ v ih =>
      intro n hn
      rcases H.dist.step _ _ hn with h1 | ⟨n', m, u, e1, e2, _, h3, h4⟩
      · omega
      · obtain rfl := Option.some.inj e1
        obtain rfl : v = u := by omega
        exact .step n m v h3 (ih m h4)
  have hfar : G.farthest ≤ F := by
    have key : ∀ l : List Nat, (∀ x ∈ l, x ≤ F) → l.foldr max 0 ≤ F := by
      intro l hl
      induction l with
      | nil => exact Nat.zero_le _
      | cons a l ih =>
        rw [List.foldr_cons]
        exact max_le (hl a (List.mem_cons_self ..)) (ih fun x hx => hl x (List.mem_cons_of_mem _ hx))
    unfold FuzzGen.farthest
    refine key _ fun x hx => ?_
    obtain ⟨n, _, rfl⟩ := List.mem_map.mp hx
    cases hdn : G.dist (some n) with
    | none => exact Nat.zero_le _
    | some v =>
      show v ≤ F
      rcases H.dist.step _ _ hdn with h1 | ⟨n', m, u, e1, _, hr, _, _⟩
      · omega
      · obtain rfl := Option.some.inj e1
        obtain ⟨k, h1, h2⟩ := hF n hr ⟨v, hex v n hdn⟩
        obtain ⟨v', h3, h4⟩ := hlow n k h2 hr
        rw [hdn, Option.some.injEq] at h3
        omega
  cases hx : fuzzWalk S G s with
  | panic => rw [hx] at hw; exact hw.elim
  | fuel => rw [hx] at hw; exact hw.elim
  | ok st =>
    rw [hx] at hw
    refine ⟨st, rfl, ?_, ?_⟩
    · have := hw.steps
      rw [H.opts] at this
      omega
    · have h1 := hw.length E fun n hn w hw => by
        obtain ⟨i, h2, rfl⟩ := hw
        exact hE n hn i h2
      rw [H.opts] at h1
      have : ((G.farthest : Int) + 1) * E ≤ (F + 1) * E := by
        have : (G.farthest + 1) * E ≤ (F + 1) * E := Nat.mul_le_mul_right _ (by omega)
        exact_mod_cast this
      omega

/-- The limits are no hard bounds: with one passage of every edge, at most one byte and no step, `a = *("x" "y")` still
gives `xyxy`, `xy` and `xy`. -/
example : let g : Grammar := ⟨[⟨['a'], [[⟨0, none, .group [[⟨1, some 1, .charVal true ['x']⟩, ⟨1, some 1, .charVal true ['y']⟩]]⟩]]⟩]⟩
    fuzzRun {} { maxReps := 1, maxSteps := 9 } g ['a'] [1, 1, 1, 1] = some (bytes% "xyxy") ∧
    fuzzRun {} { maxLength := 1, maxSteps := 9 } g ['a'] [1, 1, 1, 1] = some (bytes% "xy") ∧
    fuzzRun {} { maxSteps := 0 } g ['a'] [1, 1, 1, 1] = some (bytes% "xy") := by
  decide +kernel

/-! ## C63: every text can be generated -/

/-- C63.  For every text of the rule there is a bound such that generators with higher limits generate the text: from
some tape, in either addressing mode, and from some stream.  The elements of the graph are literals with at most thirty
letters and numeric values. -/
theorem C63_reaches (t : TgOpts) (g : Grammar) (hd : NamesDistinct g) (core : List Rule) (hcore : core.Perm Core.rules)
    (order : List Str) (ho : order.Perm ((dependencyGraph core g).map Prod.fst)) (name : Str)
    (hp : ∀ r, Visits t g name r → Plain r) (hn : t.nums = true → ∀ r, Visits t g name r → OneChar r)
    (f : TgFrag) (h : TgHeap) (hok : transitionGraph t core g order name = .ok (.ok (f, h)))
    (hins : f.ins.length ≤ 2 ^ 32) (hnext : ∀ n, ReachedFrom h f.ins n → (h.nexts n).length < 2 ^ 32)
    (hfew : ∀ n, ReachedFrom h f.ins n → FewLetters (h.elem n)) (w : Bytes) (hw : DerivesRule g name w) :
    ∃ L : Nat, ∀ (o : FuzzOpts) (G : FuzzGen), newGenerator o f h = .ok (.ok G) → (L : Int) < o.maxReps → (L : Int) < o.maxSteps →
      (w.length : Int) < o.maxLength →
      (∃ tape, fuzzGenerate G tape = .ok w) ∧ ∃ rnd, fuzzGenerateRand G rnd = .ok w := by
  have hfin := tg_finite hd hcore ho hp hok
  have hgw := (C30_exact_partial t g hd core hcore order ho name hp hn f h hok w).mpr hw
  by_cases hprod : ∀ n, ReachedFrom h f.ins n → producing (h.elem n) = true
  · obtain ⟨L, hL⟩ := pathLength (graphWord_mono (fun n hn v hv => derives_nodeSays (hfew n hn) (hprod n hn) hv) hgw)
    refine ⟨L, fun o G hG h1 h2 h3 => ?_⟩
    have H := newGenerator_ok hfin hG
    obtain ⟨ds, hf, hds⟩ := fuzzWalk_draw H (B := 2 ^ 32) (by norm_num) hnext hins hL h1 h2 h3
    have hf' : FitIn (2 ^ 63 - 256) ds := fun p hp => ⟨(hf p hp).1, (hf p hp).2.trans (by norm_num)⟩
    constructor
    · unfold fuzzGenerate
      by_cases hs : G.opts.stable = true
      · obtain ⟨bs, hb⟩ := indexed_draws ds hf 0 [] rfl
        obtain ⟨s', hb⟩ := hb []
        obtain ⟨st', h4, h5⟩ := hds indexedSource _ s' hb
        refine ⟨[] ++ bs ++ [], ?_⟩
        rw [if_pos hs, h4]
        show Run.ok st'.out = _
        rw [h5]
      · obtain ⟨bs, hb⟩ := tape_draws ds hf' []
        obtain ⟨s', hb⟩ := hb []
        obtain ⟨st', h4, h5⟩ := hds tapeSource _ s' hb
        refine ⟨[] ++ bs ++ [], ?_⟩
        rw [if_neg hs]
        have h4' : fuzzWalk tapeSource G ⟨[] ++ bs ++ [], 0⟩ = .ok st' := h4
        rw [h4']
        show Run.ok st'.out = _
        rw [h5]
    · obtain ⟨rnd, s', hr⟩ := rand_draws _ ds hf 0
      obtain ⟨st', h4, h5⟩ := hds (randSource rnd) 0 s' (hr rnd fun _ _ => rfl)
      refine ⟨rnd, ?_⟩
      unfold fuzzGenerateRand
      rw [h4]
      show Run.ok st'.out = _
      rw [h5]
  · refine ⟨0, fun o G hG => absurd ?_ hprod⟩
    exact (newGenerator_ok hfin hG).produces

end Verif.Props
