import Verif.Cmd
import Verif.PropsMeta
import Verif.PropsReader

/-!
# The fuzz targets

The targets of /repo/transition_graph_fuzz.go and /repo/regex_fuzz.go, run on any input; those of /repo/generate_fuzz.go and
/repo/grammar_fuzz.go are C77, C82 and C83.
-/

namespace Verif
open Spec Text Eval Props

/-- `fuzzTarget_GrammarToTransitionGraph` (/repo/transition_graph_fuzz.go:26-41): the drawing, or `none` if the input is skipped. -/
def graphTarget (sched : Sched NodeKey) (core : List Rule) (order : Grammar → List Str) (ident : Nat → Str)
    (visit : List Nat → List Nat) (inp : Bytes) (name : Str) : Run (Option Str) :=
  match parseABNF sched inp [.withValidation false] with
  | .error _ => .ok none
  | .ok g =>
    (transitionGraph { rules := true, threshold := 3 } core g (order g) name).bnd fun r =>
      match r with
      | .error _ => .ok none
      | .ok (f, h) => (toMermaid ident visit f h).bnd fun s => .ok (some s)

/-- `for tgr.Next() { tgr.Scan() }` (/repo/transition_graph_fuzz.go:77-80): what `Scan` returns, in order.  `n` bounds the rounds. -/
def Reader.drain (R : Reader) (k : Nat) : Nat → TrailSt → Run (List (Option Bytes))
  | 0, _ => .fuel
  | n + 1, st => (R.next k st).bnd fun r =>
    if r.1 then (R.scan k r.2).bnd fun x => (R.drain k n x.2).bnd fun l => .ok (x.1 :: l) else .ok []

/-- `fuzzTarget_ExhaustiveCombinations` (/repo/transition_graph_fuzz.go:61-81): what `Scan` returns, or `none` if the input is
skipped. -/
def trailsTarget (sched : Sched NodeKey) (core : List Rule) (order : Grammar → List Str) (rsched : Sched (Option Nat)) (k : Nat)
    (inp : Bytes) (name : Str) : Run (Option (List (Option Bytes))) :=
  match parseABNF sched inp [.withValidation false] with
  | .error _ => .ok none
  | .ok g =>
    (transitionGraph { rules := true, threshold := 3 } core g (order g) name).bnd fun r =>
      match r with
      | .error _ => .ok none
      | .ok (f, h) => (readerPrepare rsched f h).bnd fun R => (R.drain k k {}).bnd fun l => .ok (some l)

/-- How `FuzzRegex` can end (/repo/regex_fuzz.go:8-33): it passes, or `Regex` returned an error it was not expected to, or a pattern
that `regexp.Compile` is to take. -/
inductive RegexVerdict where
  | pass
  | unexpected (e : RegexErr)
  | compile (s : Str)

/-- `FuzzRegex` (/repo/regex_fuzz.go:8-33) on the generated grammar text. -/
def regexTarget (sched : Sched NodeKey) (core : List Rule) (order : Grammar → List Str) (inp : Bytes) (name : Str) : RegexVerdict :=
  match parseABNF sched inp [] with
  | .error _ => .pass
  | .ok g =>
    match regex core (order g) g 0 name with
    | .error .ruleNotFound => .pass
    | .error .proseVal => .pass
    | .error e => .unexpected e
    | .ok s => .compile s

/-! ## Draining a reader -/

/-- The calls of the loop: `Next` and `Scan` in turn, `Next` at the end. -/
def loopCalls : Nat → List Bool
  | 0 => [true]
  | n + 1 => true :: false :: loopCalls n

theorem drain_calls {R : Reader} {k : Nat} : ∀ (ts : List Bytes) (st : TrailSt) (n : Nat), ts.length < n →
    R.calls k (loopCalls ts.length) st = .ok (listCalls (loopCalls ts.length) ts) → R.drain k n st = .ok (ts.map some) := by
  intro ts
  induction ts with
  | nil =>
    intro st n hn h
    cases n with
    | zero => simp at hn
    | succ n =>
      rw [List.length_nil, loopCalls, Reader.calls] at h
      rw [Reader.drain]
      cases hx : R.next k st with
      | panic => rw [hx] at h; cases h
      | fuel => rw [hx] at h; cases h
      | ok r =>
        rw [hx, Run.bnd, Reader.calls, Run.bnd] at h
        simp only [listCalls, Run.ok.injEq, List.cons.injEq, ReadOut.next.injEq] at h
        rw [Run.bnd, h.1]
        rfl
  | cons t ts ih =>
    intro st n hn h
    cases n with
    | zero => simp at hn
    | succ n =>
      rw [List.length_cons, loopCalls, Reader.calls] at h
      rw [Reader.drain]
      cases hx : R.next k st with
      | panic => rw [hx] at h; cases h
      | fuel => rw [hx] at h; cases h
      | ok r =>
        rw [hx, Run.bnd, Reader.calls] at h
        cases hy : R.scan k r.2 with
        | panic => rw [hy] at h; cases h
        | fuel => rw [hy] at h; cases h
        | ok x =>
          rw [hy, Run.bnd] at h
          cases hz : R.calls k (loopCalls ts.length) x.2 with
          | panic => rw [hz] at h; cases h
          | fuel => rw [hz] at h; cases h
          | ok l =>
            rw [hz, Run.bnd, Run.bnd] at h
            simp only [listCalls, Run.ok.injEq, List.cons.injEq, ReadOut.next.injEq, ReadOut.scan.injEq, List.head?_cons, List.tail_cons] at h
            obtain ⟨h1, h2, h3⟩ := h
            rw [Run.bnd, h1]
            simp only [List.isEmpty_cons, Bool.not_false, if_true]
            rw [hy, Run.bnd, ih x.2 n (by simp at hn; omega) (by rw [hz, h3]), Run.bnd, h2]
            rfl

namespace Props

/-! ## C96: the targets for transition graphs -/

/-- C96.  The targets for transition graphs never fail: on every input that fits in memory and every rule, either the input is
skipped, or the graph is built and drawn, and the reader's loop ends after listing every trail with every variation. -/
theorem C96_graph (sched : Sched NodeKey) (hf : sched.Fair) (core : List Rule) (hcore : core.Perm Core.rules) (order : Grammar → List Str)
    (ho : ∀ g, (order g).Perm ((dependencyGraph core g).map Prod.fst)) (ident : Nat → Str) (visit : List Nat → List Nat)
    (hv : ∀ l, (visit l).Perm l) (inp : Bytes) (hlen : inp.length < 2 ^ 62) (name : Str) :
    ∃ res, graphTarget sched core order ident visit inp name = .ok res := by
  unfold graphTarget
  cases hp : parseABNF sched inp [.withValidation false] with
  | error e => exact ⟨_, rfl⟩
  | ok g =>
    simp only
    have hd := (C80_wellformed sched hf _ inp g rfl hp).2.1
    have hpl := fun o => parsed_plain sched hf _ inp g rfl hp hlen (o := o) (name := name)
    obtain ⟨res, hres⟩ := C61_total { rules := true, threshold := 3 } g hd core hcore _ (ho g) name (hpl _)
    rw [hres, Run.bnd]
    cases res with
    | error e => exact ⟨_, rfl⟩
    | ok q =>
      obtain ⟨f, h⟩ := q
      simp only
      obtain ⟨ns, lab, _, _, _, h8⟩ := C87_total _ g hd core hcore _ (ho g) name (hpl _) (parsed_ranges sched hf _ inp g rfl hp) f h hres ident visit hv
      rw [h8]
      exact ⟨_, rfl⟩

theorem C96_trails (sched : Sched NodeKey) (hf : sched.Fair) (core : List Rule) (hcore : core.Perm Core.rules) (order : Grammar → List Str)
    (ho : ∀ g, (order g).Perm ((dependencyGraph core g).map Prod.fst)) (rsched : Sched (Option Nat)) (hr : rsched.Fair)
    (inp : Bytes) (hlen : inp.length < 2 ^ 62) (name : Str) :
    ∃ res K, (∀ k, K ≤ k → trailsTarget sched core order rsched k inp name = .ok res) ∧
      ∀ l, res = some l → ∃ g f h, parseABNF sched inp [.withValidation false] = .ok g ∧
        transitionGraph { rules := true, threshold := 3 } core g (order g) name = .ok (.ok (f, h)) ∧
        ∀ x, x ∈ l ↔ ∃ p v, Trail h f p ∧ Variation h p v ∧ x = some (trailText h p v) := by
  unfold trailsTarget
  cases hp : parseABNF sched inp [.withValidation false] with
  | error e => exact ⟨none, 0, fun _ _ => rfl, fun l h => by cases h⟩
  | ok g =>
    simp only
    have hd := (C80_wellformed sched hf _ inp g rfl hp).2.1
    have hpl := fun o => parsed_plain sched hf _ inp g rfl hp hlen (o := o) (name := name)
    obtain ⟨res, hres⟩ := C61_total { rules := true, threshold := 3 } g hd core hcore _ (ho g) name (hpl _)
    simp only [hres, Run.bnd]
    cases res with
    | error e => exact ⟨none, 0, fun _ _ => rfl, fun l h => by cases h⟩
    | ok q =>
      obtain ⟨f, h⟩ := q
      simp only
      obtain ⟨items, h1, _, _, h4⟩ := C64_trails f h (tg_finite hd hcore (ho g) (hpl _) hres)
      obtain ⟨R, h5, h6⟩ := h4 rsched hr
      obtain ⟨K, hK⟩ := h6 (loopCalls items.length)
      refine ⟨some ((items.map fun i => trailText h i.1 i.2).map some), max K (items.length + 1), fun k hk => ?_, ?_⟩
      · simp only [h5]
        rw [drain_calls (items.map fun i => trailText h i.1 i.2) {} k (by simp; omega)
          (by rw [List.length_map]; exact hK k (by omega))]
      · intro l hl
        cases hl
        refine ⟨g, f, h, rfl, hres, fun x => ?_⟩
        simp only [List.mem_map]
        constructor
        · rintro ⟨_, ⟨i, hi, rfl⟩, rfl⟩
          obtain ⟨h7, h8⟩ := (h1 i.1 i.2).mp hi
          exact ⟨i.1, i.2, h7, h8, rfl⟩
        · rintro ⟨p, v, h7, h8, rfl⟩
          exact ⟨_, ⟨(p, v), (h1 p v).mpr ⟨h7, h8⟩, rfl⟩, rfl⟩

/-! ## C97: the target for regular expressions -/

/-- C97.  `FuzzRegex` can end in three ways only: it passes, it meets a rule that reaches a cycle, or it compiles a pattern; and
the pattern compiles if no count over 1000, no crossed bounds and no surrogate is reached.  Missing, and false: that the first and
third outcomes are the only ones, and that every pattern compiles. -/
theorem C97_verdict_partial (sched : Sched NodeKey) (hf : sched.Fair) (core : List Rule) (hcore : core.Perm Core.rules) (order : Grammar → List Str)
    (ho : ∀ g, (order g).Perm ((dependencyGraph core g).map Prod.fst)) (inp : Bytes) (name : Str) :
    match regexTarget sched core order inp name with
    | .pass => ∀ g r, parseABNF sched inp [] = .ok g → Resolves g name r → NoCycleBelow g r ∧ ReachesProse g r
    | .unexpected e => e = .cyclicRule ∧ ∃ g r r', parseABNF sched inp [] = .ok g ∧ Resolves g name r ∧
        Relation.ReflTransGen (Refers g) r r' ∧ Cyclic g r'
    | .compile s => ∃ g r, parseABNF sched inp [] = .ok g ∧ Resolves g name r ∧ NoCycleBelow g r ∧ ¬ ReachesProse g r ∧
        (ReachOK g r → ∃ p, RE2.Reads s p ∧ ∀ cs, p.Lang cs ↔ DerivesRule g name (utf8 cs)) := by
  unfold regexTarget
  cases hp : parseABNF sched inp [] with
  | error e => exact fun g r h => by cases h
  | ok g =>
    simp only
    have hd := (C80_wellformed sched hf _ inp g rfl hp).2.1
    rcases regex_cases hd hcore (ho g) 0 name with ⟨hno, he⟩ | ⟨r, hr, ⟨⟨r', h1, h2⟩, he⟩ | ⟨hn, ⟨h1, he⟩ | ⟨h1, re, _, he⟩⟩⟩
    · rw [he]
      intro g' r h hr
      cases h
      exact absurd ⟨r, hr⟩ hno
    · rw [he]
      exact ⟨rfl, g, r, r', rfl, hr, h1, h2⟩
    · rw [he]
      intro g' r₂ h hr₂
      cases h
      obtain rfl := resolves_unique hd hr hr₂ rfl
      exact ⟨hn, h1⟩
    · rw [if_neg (by simp)] at he
      rw [he]
      refine ⟨g, r, rfl, hr, hn, h1, fun hok => ?_⟩
      obtain ⟨p, h3, h4⟩ := C24_language_partial g hd core hcore (order g) (ho g) 0 name r hr hok _ he
      exact ⟨p, (h3 p).mpr rfl, h4⟩

/-- The text, if there is one. -/
def wrote {ε : Type} : Run (Except ε Bytes) → Option Bytes
  | .ok (.ok w) => some w
  | _ => none

theorem wrote_some {ε : Type} {x : Run (Except ε Bytes)} {w : Bytes} (h : wrote x = some w) : x = .ok (.ok w) := by
  match x, h with
  | .ok (.ok _), h => cases h; rfl

/-- What the generator writes if it draws zeros only. -/
def zeroText : Str := str% "A=0A;\r\n"

def zeroGrammar : Grammar := ⟨[⟨['A'], [[⟨0, some 0, .rulename ['A']⟩]]⟩]⟩

theorem zero_parses (sched : Sched NodeKey) (hf : sched.Fair) : parseABNF sched (utf8 zeroText) [] = .ok zeroGrammar := by
  have hr : ReadsFile rfc zeroText [⟨['A'], false, [[⟨0, some 0, .rulename ['A']⟩]]⟩] := by
    refine ⟨by decide, ?_⟩
    have hx : ReadsAlt rfc (str% "0A") [[⟨0, some 0, .rulename ['A']⟩]] :=
      .one _ _ (.one _ _ (.mk ['0'] _ _ _ _ (.exactly ['0'] (by simp) (by unfold Digit; decide)) (.rulename ['A'] (nameOK_iff.mp (by decide)))))
    have l1 := ReadsRule.define ['A'] [] [] _ _ [] (str% ";\r\n") (nameOK_iff.mp (by decide)) .nil .nil hx
      (by unfold Wsp; decide) (.comment [] (by simp))
    exact .rule _ _ _ _ l1 .nil
  rw [C78_exact_partial sched hf [] zeroText _ hr (by unfold Fits; decide) (quiet_of (by decide)) (.inl rfl)]
  exact ⟨ordered_of ⟨_, rfl⟩, by rw [rulesOf_eq]; rfl, fun _ => sound_of (by decide) (by decide)⟩

/-- The draws that make the generator write `A=2000%I" ";`. -/
def manyDraws (i : Nat) : Nat := if i = 33 ∨ i = 47 then 3 else if i = 36 then 2 else if i = 63 then 1 else 0

def manyText : Str := str% "A=2000%I\" \";\r\n"

def manyGrammar : Grammar := ⟨[⟨['A'], [[⟨2000, some 2000, .charVal false [' ']⟩]]⟩]⟩

theorem many_parses (sched : Sched NodeKey) (hf : sched.Fair) : parseABNF sched (utf8 manyText) [] = .ok manyGrammar := by
  have hr : ReadsFile rfc manyText [⟨['A'], false, [[⟨2000, some 2000, .charVal false [' ']⟩]]⟩] := by
    refine ⟨by decide, ?_⟩
    have hx : ReadsAlt rfc (str% "2000%I\" \"") [[⟨2000, some 2000, .charVal false [' ']⟩]] :=
      .one _ _ (.one _ _ (.mk (str% "2000") _ _ _ _ (.exactly (str% "2000") (by simp) (by unfold Digit; decide))
        (.insensitive 'I' [' '] (by simp) (by decide))))
    have l1 := ReadsRule.define ['A'] [] [] _ _ [] (str% ";\r\n") (nameOK_iff.mp (by decide)) .nil .nil hx
      (by unfold Wsp; decide) (.comment [] (by simp))
    exact .rule _ _ _ _ l1 .nil
  rw [C78_exact_partial sched hf [] manyText _ hr (by unfold Fits; decide) (quiet_of (by decide)) (.inl rfl)]
  exact ⟨ordered_of ⟨_, rfl⟩, by rw [rulesOf_eq]; rfl, fun _ => sound_of (by decide) (by decide)⟩

theorem zero_written : generate (fun _ => 0) {} Abnf.grammar 40 (str% "rulelist") = .ok (.ok (utf8 zeroText)) :=
  wrote_some (by decide +kernel)

theorem many_written : generate manyDraws {} Abnf.grammar 40 (str% "rulelist") = .ok (.ok (utf8 manyText)) :=
  wrote_some (by decide +kernel)

/-- C97 as the target asserts it is false: there are draws for which `ABNF.Generate` writes a rule that names itself, on which
`Regex` returns an error that the target does not expect, and draws for which the pattern does not compile. -/
theorem C97_fails (sched : Sched NodeKey) (hf : sched.Fair) :
    (∃ rnd fuel inp, generate rnd {} Abnf.grammar fuel (str% "rulelist") = .ok (.ok inp) ∧
      regexTarget sched Core.rules plainOrder inp ['A'] = .unexpected .cyclicRule) ∧
    ∃ rnd fuel inp s, generate rnd {} Abnf.grammar fuel (str% "rulelist") = .ok (.ok inp) ∧
      regexTarget sched Core.rules plainOrder inp ['A'] = .compile s ∧ ¬ ∃ p, RE2.Reads s p := by
  constructor
  · refine ⟨fun _ => 0, 40, utf8 zeroText, zero_written, ?_⟩
    unfold regexTarget
    rw [zero_parses sched hf]
    have : regex Core.rules (plainOrder zeroGrammar) zeroGrammar 0 ['A'] = .error .cyclicRule := by decide +kernel
    simp only [this]
  · refine ⟨manyDraws, 40, utf8 manyText, str% " {2000}", many_written, ?_, ?_⟩
    · unfold regexTarget
      rw [many_parses sched hf]
      have : regex Core.rules (plainOrder manyGrammar) manyGrammar 0 ['A'] = .ok (str% " {2000}") := by decide +kernel
      simp only [this]
    · refine refused_count (ds := str% "2000") (v := 2000) ⟨10, [2, 0, 0, 0], .dec, by simp, by
        repeat first | exact .nil | refine .cons (by unfold HasDigit; decide) ?_, by decide⟩ (by decide) ?_ (by decide)
      intro q t h
      cases h with
      | lit => rfl

/-- C96 and C97 for the text of the examples of C78. -/
example (sched : Sched NodeKey) (hf : sched.Fair) : sched.Fair ∧ (utf8 srcText).length < 2 ^ 62 ∧
    parseABNF sched (utf8 srcText) [] = .ok srcGrammar ∧ Resolves srcGrammar ['a'] srcGrammar.rules[0] ∧ ReachOK srcGrammar srcGrammar.rules[0] ∧
    regexTarget sched Core.rules plainOrder (utf8 srcText) ['a'] = .compile (str% "[Xx]|[A-Z]{2,3}") := by
  have hr : Resolves srcGrammar ['a'] srcGrammar.rules[0] := (getRule_iff (namesDistinct_of (by decide))).mp (by decide +kernel)
  refine ⟨hf, by decide, src_parses sched hf, hr, reachOK_of (by decide +kernel) hr, ?_⟩
  unfold regexTarget
  rw [src_parses sched hf]
  have : regex Core.rules (plainOrder srcGrammar) srcGrammar 0 ['a'] = .ok (str% "[Xx]|[A-Z]{2,3}") := by decide +kernel
  simp only [this]

end Props
end Verif
