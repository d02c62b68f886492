import Verif.Cmd
import Verif.PropsExpect
import Verif.PropsMiss
import Verif.Deter
import Verif.PropsRule
import Verif.PropsAst
import Verif.Mermaid

/-!
# The example fuzz targets

The targets of /repo/examples/fuzzing/example_test.go, for any function under test.
-/

namespace Verif
open Spec Text Eval Props

/-- How a target ends: it passes, or it fails since the generator gave a text that the grammar has not, since the near miss is in
the grammar, since the function rejects a text, or since it accepts what is none. -/
inductive FuzzVerdict where
  | pass
  | generator (w : Bytes)
  | nearMiss (w : Bytes)
  | rejected (w : Bytes)
  | accepted (w : Bytes)

/-- `ok, _ := g.IsValid(…)`: an error leaves `ok` false. -/
def isOk : Option (Run Bool) → Run Bool
  | none => .ok false
  | some r => r

/-- The options of `newGen` for the graph (/repo/examples/fuzzing/example_test.go:208-211, also 60-63). -/
def exampleTg : TgOpts := { rules := true, maxNodes := 2 ^ 20 }

/-- The options of `newGen` for the generator (/repo/examples/fuzzing/example_test.go:215-218), with `stable` those of
`FuzzValidAcceptedStable` (/repo/examples/fuzzing/example_test.go:67-71). -/
def exampleFuzz (stable : Bool) : FuzzOpts := { maxLength := 32, maxReps := 8, stable := stable }

/-- The options of `newASTGen` (/repo/examples/fuzzing/example_test.go:231-235). -/
def exampleAst : AstOpts := { maxDepth := 12, maxLen := 256, maxRepeat := 4 }

/-- The options of `FuzzFunction` (/repo/examples/fuzzing/example_test.go:22-25). -/
def exampleGen : GenOpts := { repMax := 15, threshold := 1024 }

/-- `newGen` (/repo/examples/fuzzing/example_test.go:202-223) for a text and a rule; `none` if it ends the test. -/
def newGen (sched : Sched NodeKey) (core : List Rule) (order : Grammar → List Str) (stable : Bool) (text : Bytes) (name : Str) :
    Run (Option (Grammar × FuzzGen)) :=
  match parseABNF sched text [] with
  | .error _ => .ok none
  | .ok g =>
    (transitionGraph exampleTg core g (order g) name).bnd fun r =>
      match r with
      | .error _ => .ok none
      | .ok (f, h) => (newGenerator (exampleFuzz stable) f h).bnd fun q =>
        match q with
        | .error _ => .ok none
        | .ok G => .ok (some (g, G))

/-- The body of `FuzzValidAccepted` (/repo/examples/fuzzing/example_test.go:39-48); `fn` is `Function`. -/
def validAccepted (o : LOrders) (s : Sched Nat) (g : Grammar) (name : Str) (G : FuzzGen) (fn : Bytes → Bool) (tape : Bytes) : Run FuzzVerdict :=
  (fuzzGenerate G tape).bnd fun w =>
    (isOk (isValid o s g name w)).bnd fun b =>
      .ok (if b = false then .generator w else if fn w = false then .rejected w else .pass)

/-- The body of `FuzzValidAcceptedStable` (/repo/examples/fuzzing/example_test.go:76-80). -/
def validAcceptedStable (G : FuzzGen) (fn : Bytes → Bool) (tape : Bytes) : Run FuzzVerdict :=
  (fuzzGenerate G tape).bnd fun w => .ok (if fn w = false then .rejected w else .pass)

/-- The body of `FuzzNearMissRejected` (/repo/examples/fuzzing/example_test.go:93-105); `os` and `ss` are the orders of the calls of
`IsValid` inside `NearMiss`, `o` and `s` those of the last one. -/
def nearMissRejected (os : Nat → LOrders) (ss : Nat → Sched Nat) (o : LOrders) (s : Sched Nat) (g : Grammar) (name : Str) (G : FuzzGen)
    (fn : Bytes → Bool) (tape : Bytes) : Run FuzzVerdict :=
  (nearMiss os ss g name G tape).bnd fun r =>
    match r with
    | none => .ok .pass
    | some c => (isOk (isValid o s g name c.1)).bnd fun b =>
      .ok (if b then .nearMiss c.1 else if fn c.1 then .accepted c.1 else .pass)

/-- The first octet that is not in the list (/repo/examples/fuzzing/example_test.go:125-139). -/
def firstBad (l : Bytes) : Option UInt8 := ((List.range 256).map UInt8.ofNat).find? fun c => decide (c ∉ l)

/-- Where the production is cut (/repo/examples/fuzzing/example_test.go:117-120). -/
def cutAt (w tape : Bytes) : Nat :=
  match tape with
  | [] => 0
  | t :: _ => if w.length > 0 then t.toNat % (w.length + 1) else 0

/-- The body of `FuzzExpectedNextErrorPosition` (/repo/examples/fuzzing/example_test.go:115-149). -/
def errorPosition (ord : Nat → List Emission → List Emission) (G : FuzzGen) (fn : Bytes → Bool) (tape : Bytes) : Run FuzzVerdict :=
  (fuzzGenerate G tape).bnd fun w =>
    let pre := w.take (cutAt w tape)
    match expectedNext G ord pre with
    | none => .ok .pass
    | some (next, _) =>
      match firstBad next with
      | none => .ok .pass
      | some bad => .ok (if fn (pre ++ [bad]) then .accepted (pre ++ [bad]) else .pass)

/-- The body of `FuzzDifferentialBothDirections` (/repo/examples/fuzzing/example_test.go:160-174). -/
def bothDirections (os : Nat → LOrders) (ss : Nat → Sched Nat) (o o' : LOrders) (s s' : Sched Nat) (g : Grammar) (name : Str) (G : FuzzGen)
    (fn : Bytes → Bool) (tape : Bytes) : Run FuzzVerdict :=
  (fuzzGenerate G tape).bnd fun w =>
    (isOk (isValid o s g name w)).bnd fun b =>
      if b && !fn w then .ok (.rejected w)
      else (nearMiss os ss g name G tape).bnd fun r =>
        match r with
        | none => .ok .pass
        | some c => (isOk (isValid o' s' g name c.1)).bnd fun b =>
          .ok (if !b && fn c.1 then .accepted c.1 else .pass)

/-- The body of `FuzzAST` (/repo/examples/fuzzing/example_test.go:185-197), which asks for the rule `asked`. -/
def astAccepted (o : LOrders) (s : Sched Nat) (g : Grammar) (asked : Str) (m : CostMap) (fuel : Nat) (start : Rule) (fn : Bytes → Bool)
    (tape : Bytes) : Run FuzzVerdict :=
  (astWalk tapeSource exampleAst g.rules m fuel start ⟨tape, 0⟩).bnd fun w =>
    (isOk (isValid o s g asked w)).bnd fun b =>
      .ok (if b = false then .generator w else if fn w = false then .rejected w else .pass)

namespace Props
open Cli

/-! ## C61: the order of maps does not matter to the graph -/

/-- C61.  The graph, or the error, does not depend on the orders in which maps are visited. -/
theorem C61_order (o : TgOpts) (g : Grammar) (hd : NamesDistinct g) (core core' : List Rule) (hcore : core.Perm Core.rules)
    (hcore' : core'.Perm Core.rules) (order order' : List Str) (ho : order.Perm ((dependencyGraph core g).map Prod.fst))
    (ho' : order'.Perm ((dependencyGraph core' g).map Prod.fst)) (name : Str) :
    transitionGraph o core g order name = transitionGraph o core' g order' name := by
  unfold transitionGraph
  cases hg : getRule name g.rules with
  | none => rfl
  | some r =>
    have hr : Resolves g name r := (getRule_iff hd).mp hg
    simp only
    obtain ⟨b, hb, h1⟩ := (C20_exact g hd core hcore order ho name).2 r hr
    obtain ⟨b', hb', h2⟩ := (C20_exact g hd core' hcore' order' ho' name).2 r hr
    have : b = b' := Bool.eq_iff_iff.mpr (h1.trans h2.symm)
    rw [hb, hb', this]

/-! ## C116: the oracles -/

section
variable (g : Grammar) (hd : NamesDistinct g)
    (core : List Rule) (hcore : core.Perm Core.rules) (order : List Str) (ho : order.Perm ((dependencyGraph core g).map Prod.fst))
    (name : Str) (hck : Checkable g name) (hp : ∀ r, Visits exampleTg g name r → Plain r)
    (hx : ∀ r, Visits exampleTg g name r → TextRule exampleTg r)
    (hne : ∃ w, DerivesRule g name w) (f : TgFrag) (h : TgHeap) (hok : transitionGraph exampleTg core g order name = .ok (.ok (f, h)))
    (st : Bool) (G : FuzzGen) (hG : newGenerator (exampleFuzz st) f h = .ok (.ok G)) (fn : Bytes → Bool)

include hd hcore ho hp hx hne hok hG in
/-- C116.  `FuzzValidAcceptedStable` fails exactly if the function rejects the text the tape stands for, which is a text of the rule. -/
theorem C116_stable (tape : Bytes) : ∃ w, DerivesRule g name w ∧ fuzzGenerate G tape = .ok w ∧
    validAcceptedStable G fn tape = .ok (if fn w then .pass else .rejected w) := by
  obtain ⟨w, h1, h2⟩ := ((C31_rule_partial exampleTg g hd core hcore order ho name hp (fun h => by cases h) hx f h hok).1 _ G hG hne).1 tape
  refine ⟨w, h2, h1, ?_⟩
  unfold validAcceptedStable
  rw [h1]
  cases hfn : fn w <;> simp [Run.bnd, hfn]

include hck hd hcore ho hok in
theorem valid_no (o : LOrders) (hof : o.Fair g) (s : Sched Nat) (hs : s.Fair) (w : Bytes)
    (hno : ¬ DerivesRule g name w) : isValid o s g name w = some (.ok false) := by
  obtain ⟨b, h, hb⟩ := C05_graph_partial hd hcore ho hok hck o hof s hs w
  cases b with
  | false => exact h
  | true => exact absurd (hb.mp rfl) hno

include hck hd hcore ho hok in
theorem valid_yes (o : LOrders) (hof : o.Fair g) (s : Sched Nat) (hs : s.Fair) (w : Bytes)
    (hyes : DerivesRule g name w) : isValid o s g name w = some (.ok true) := by
  obtain ⟨b, h, hb⟩ := C05_graph_partial hd hcore ho hok hck o hof s hs w
  rw [h, hb.mpr hyes]

include hck hd hcore ho hp hx hne hok hG in
/-- C116.  So does `FuzzValidAccepted`: its check of the generator passes.  What is missing: grammars for which `IsValid` is not
known to be complete, see C05. -/
theorem C116_valid_partial (o : LOrders) (hof : o.Fair g) (s : Sched Nat) (hs : s.Fair) (tape : Bytes) :
    ∃ w, DerivesRule g name w ∧ fuzzGenerate G tape = .ok w ∧
      validAccepted o s g name G fn tape = .ok (if fn w then .pass else .rejected w) := by
  obtain ⟨w, h1, h2⟩ := ((C31_rule_partial exampleTg g hd core hcore order ho name hp (fun h => by cases h) hx f h hok).1 _ G hG hne).1 tape
  refine ⟨w, h2, h1, ?_⟩
  unfold validAccepted
  rw [h1, Run.bnd, valid_yes g hd core hcore order ho name hck f h hok o hof s hs w h2]
  cases hfn : fn w <;> simp [Run.bnd, isOk]

include hck hd hcore ho hp hok hG in
/-- C116.  `FuzzNearMissRejected` has something to assert for every tape, and fails exactly if the function accepts the near miss, which
is no text of the rule.  What is missing: other grammars, see `C116_near_fails`. -/
theorem C116_near_partial (os : Nat → LOrders) (hos : ∀ i, (os i).Fair g) (ss : Nat → Sched Nat)
    (hss : ∀ i, (ss i).Fair) (o : LOrders) (hof : o.Fair g) (s : Sched Nat) (hs : s.Fair) (tape : Bytes) :
    ∃ r, ¬ DerivesRule g name r.1 ∧ nearMiss os ss g name G tape = .ok (some r) ∧
      nearMissRejected os ss o s g name G fn tape = .ok (if fn r.1 then .accepted r.1 else .pass) := by
  obtain ⟨_, _, _, r, _, _, _, _, _, _, h2, h1⟩ := C119_nearMiss_partial hd hcore ho hp hok hG hck tape
  replace h1 := h1 os hos ss hss
  refine ⟨r, h2, h1, ?_⟩
  unfold nearMissRejected
  rw [h1, Run.bnd]
  simp only [valid_no g hd core hcore order ho name hck f h hok o hof s hs _ h2, isOk, Run.bnd, Bool.false_eq_true, if_false]

include hd hcore ho hp hx hne hok hG in
/-- C116.  `FuzzExpectedNextErrorPosition` asserts nothing, or it fails exactly if the function accepts a text that is no text of the
rule, and whose first fault is where it was put: what stands before it begins a text of the rule, with it no text begins. -/
theorem C116_position (hs : ∀ r, Visits exampleTg g name r → FullSeries r) (ord : Nat → List Emission → List Emission)
    (hord : ∀ n l, (ord n l).Perm l) (tape : Bytes) :
    ∃ w, DerivesRule g name w ∧ fuzzGenerate G tape = .ok w ∧ cutAt w tape ≤ w.length ∧
      (errorPosition ord G fn tape = .ok .pass ∨ ∃ bad, (∀ rest, ¬ DerivesRule g name (w.take (cutAt w tape) ++ bad :: rest)) ∧
        fn (w.take (cutAt w tape) ++ [bad]) = true ∧ errorPosition ord G fn tape = .ok (.accepted (w.take (cutAt w tape) ++ [bad]))) := by
  obtain ⟨w, h1, h2⟩ := ((C31_rule_partial exampleTg g hd core hcore order ho name hp (fun h => by cases h) hx f h hok).1 _ G hG hne).1 tape
  refine ⟨w, h2, h1, ?_, ?_⟩
  · unfold cutAt
    cases tape with
    | nil => exact Nat.zero_le _
    | cons t ts =>
      simp only
      split_ifs
      · exact Nat.le_of_lt_succ (Nat.mod_lt _ (Nat.succ_pos _))
      · exact Nat.zero_le _
  · unfold errorPosition
    rw [h1, Run.bnd]
    simp only
    cases he : expectedNext G ord (w.take (cutAt w tape)) with
    | none => exact .inl rfl
    | some r =>
      obtain ⟨next, acc⟩ := r
      simp only
      cases hb : firstBad next with
      | none => exact .inl rfl
      | some bad =>
        have hbad : bad ∉ next := of_decide_eq_true (List.find?_some (p := fun c => decide (c ∉ next)) hb)
        simp only
        cases hfn : fn (w.take (cutAt w tape) ++ [bad]) with
        | false => exact .inl (by simp)
        | true =>
          exact .inr ⟨bad, fun rest => C33_spoils_partial exampleTg g hd core hcore order ho name hp hs (fun h => by cases h) f h hok _ G hG ord hord
            _ next acc he bad hbad rest, hfn, by simp⟩

include hck hd hcore ho hp hx hne hok hG in
/-- C116.  `FuzzDifferentialBothDirections` asks both questions of one tape. -/
theorem C116_both_partial (os : Nat → LOrders) (hos : ∀ i, (os i).Fair g) (ss : Nat → Sched Nat)
    (hss : ∀ i, (ss i).Fair) (o o' : LOrders) (hof : o.Fair g) (hof' : o'.Fair g) (s s' : Sched Nat) (hs : s.Fair) (hs' : s'.Fair) (tape : Bytes) :
    ∃ w r, DerivesRule g name w ∧ ¬ DerivesRule g name r.1 ∧ fuzzGenerate G tape = .ok w ∧ nearMiss os ss g name G tape = .ok (some r) ∧
      bothDirections os ss o o' s s' g name G fn tape =
        .ok (if fn w = false then .rejected w else if fn r.1 then .accepted r.1 else .pass) := by
  obtain ⟨w, h1, h2⟩ := ((C31_rule_partial exampleTg g hd core hcore order ho name hp (fun h => by cases h) hx f h hok).1 _ G hG hne).1 tape
  obtain ⟨_, _, _, r, _, _, _, _, _, _, h4, h3⟩ := C119_nearMiss_partial hd hcore ho hp hok hG hck tape
  replace h3 := h3 os hos ss hss
  refine ⟨w, r, h2, h4, h1, h3, ?_⟩
  unfold bothDirections
  rw [h1, Run.bnd, valid_yes g hd core hcore order ho name hck f h hok o hof s hs w h2]
  simp only [isOk, Run.bnd, Bool.true_and]
  cases hfn : fn w with
  | false => simp
  | true =>
    simp only [Bool.not_true, Bool.false_eq_true, if_false]
    rw [h3]
    simp only [valid_no g hd core hcore order ho name hck f h hok o' hof' s' hs' _ h4, Bool.not_false, Bool.true_and]
    cases fn r.1 <;> simp

include hck hd hcore ho hp hx hne hok hG in
/-- C116.  If the function decides the rule, none of these targets ever fails. -/
theorem C116_silent_partial (hser : ∀ r, Visits exampleTg g name r → FullSeries r) (hfn : ∀ w, fn w = true ↔ DerivesRule g name w)
    (os : Nat → LOrders) (hos : ∀ i, (os i).Fair g) (ss : Nat → Sched Nat)
    (hss : ∀ i, (ss i).Fair) (o o' : LOrders) (hof : o.Fair g) (hof' : o'.Fair g) (s s' : Sched Nat) (hs : s.Fair) (hs' : s'.Fair)
    (ord : Nat → List Emission → List Emission) (hord : ∀ n l, (ord n l).Perm l) (tape : Bytes) :
    validAccepted o s g name G fn tape = .ok .pass ∧ validAcceptedStable G fn tape = .ok .pass ∧
      nearMissRejected os ss o s g name G fn tape = .ok .pass ∧ errorPosition ord G fn tape = .ok .pass ∧
      bothDirections os ss o o' s s' g name G fn tape = .ok .pass := by
  have hno : ∀ w, ¬ DerivesRule g name w → fn w = false := fun w h => by
    cases hv : fn w with
    | false => rfl
    | true => exact absurd ((hfn w).mp hv) h
  refine ⟨?_, ?_, ?_, ?_, ?_⟩
  · obtain ⟨w, h1, _, h2⟩ := C116_valid_partial g hd core hcore order ho name hck hp hx hne f h hok st G hG fn o hof s hs tape
    rw [h2, if_pos ((hfn w).mpr h1)]
  · obtain ⟨w, h1, _, h2⟩ := C116_stable g hd core hcore order ho name hp hx hne f h hok st G hG fn tape
    rw [h2, if_pos ((hfn w).mpr h1)]
  · obtain ⟨r, h1, _, h2⟩ := C116_near_partial g hd core hcore order ho name hck hp f h hok st G hG fn os hos ss hss o hof s hs tape
    rw [h2, hno _ h1]
    rfl
  · obtain ⟨w, _, _, _, h1 | ⟨bad, h1, h2, _⟩⟩ :=
      C116_position g hd core hcore order ho name hp hx hne f h hok st G hG fn hser ord hord tape
    · exact h1
    · exact absurd ((hfn _).mp h2) (h1 [])
  · obtain ⟨w, r, h1, h2, _, _, h3⟩ := C116_both_partial g hd core hcore order ho name hck hp hx hne f h hok st G hG fn os hos ss hss
      o o' hof hof' s s' hs hs' tape
    rw [h3, (hfn w).mpr h1, hno _ h2]
    rfl
end

/-- The hypotheses of these theorems for a rule with a range and a loop. -/
example : ∃ f h G, transitionGraph exampleTg Core.rules dashes (plainOrder dashes) ['a'] = .ok (.ok (f, h)) ∧
    newGenerator (exampleFuzz false) f h = .ok (.ok G) ∧ (∃ w, DerivesRule dashes ['a'] w) ∧
    Checkable dashes ['a'] ∧ NamesDistinct dashes ∧ (∀ r, Visits exampleTg dashes ['a'] r → Plain r) ∧
    (∀ r, Visits exampleTg dashes ['a'] r → TextRule exampleTg r) ∧ (∀ r, Visits exampleTg dashes ['a'] r → FullSeries r) := by
  have hd : NamesDistinct dashes := namesDistinct_of (by decide)
  obtain ⟨f, h, G, l, e1, e2, e3⟩ := missRun_some (t := exampleTg) (o := exampleFuzz false) (g := dashes) (name := ['a']) (tape := [0, 2, 0, 0, 1, 1, 1, 1])
    (u := bytes% "c-a-X") (v := bytes% "`-a-X") (by decide +kernel)
  exact ⟨f, h, G, e1, e2, ⟨bytes% "c-a-X", derives_of_forest (numValsWF_of (by decide)) hd (distinctPrint_of (by decide +kernel)) (by decide +kernel)⟩,
    checkable_of hd [['a']] (by decide +kernel) (by decide +kernel), hd, plain_of (by decide +kernel), textRule_of (by decide +kernel), fullSeries_of (by decide +kernel)⟩

/-! ## C116: the example as shipped -/

/-- The text of /repo/examples/fuzzing/my-grammar.abnf. -/
def myText : Str := str% "a = \"a\"\r\n"

/-- Its definitions. -/
def myDefs : List Def := [⟨['a'], false, [[⟨1, some 1, .charVal false ['a']⟩]]⟩]

/-- Its grammar. -/
def myGrammar : Grammar := ⟨[⟨['a'], [[⟨1, some 1, .charVal false ['a']⟩]]⟩]⟩

theorem my_says : Says (utf8 myText) myDefs := by
  refine ⟨⟨_, rfl, ⟨by decide, ?_⟩, quiet_of (by decide)⟩, by unfold Fits; decide⟩
  have sp : Gap [' '] := gap_space
  have hx : ReadsAlt rfc (str% "\"a\"") [[⟨1, some 1, .charVal false ['a']⟩]] :=
    .one _ _ (.one _ _ (.mk [] _ _ _ _ .none (.string ['a'] (by decide))))
  exact .rule _ _ _ _ (ReadsRule.define ['a'] [' '] [' '] _ _ [] (str% "\r\n") (nameOK_iff.mp (by decide)) sp sp hx (by simp) .plain) .nil

theorem my_parses (sched : Sched NodeKey) (hf : sched.Fair) : parseABNF sched (utf8 myText) [] = .ok myGrammar := by
  rw [my_says.parses sched hf [] rfl]
  exact ⟨by rw [rulesOf_eq]; rfl, ordered_of ⟨_, rfl⟩, fun _ => by rw [rulesOf_eq]; exact sound_of (by decide) (by decide)⟩

theorem my_nd : NamesDistinct myGrammar := namesDistinct_of (by decide)

theorem my_checkable : Checkable myGrammar ['a'] := checkable_of my_nd [['a']] (by decide +kernel) (by decide +kernel)

theorem my_tallied : ∀ r ∈ rulesReps myGrammar.rules, Tallied myGrammar r :=
  fun r hr => .inl ((show ∀ r ∈ rulesReps myGrammar.rules, r.min ≤ 2 by decide) r hr)

theorem my_texts (w : Bytes) : DerivesRule myGrammar ['a'] w ↔ w = bytes% "a" ∨ w = bytes% "A" := by
  have hr : Resolves myGrammar ['a'] (myGrammar.rules[0]) := (getRule_iff my_nd).mp (by decide +kernel)
  refine (derives_rule_of my_nd hr).trans ?_
  show DerivesAlt myGrammar [[⟨1, some 1, .charVal false ['a']⟩]] w ↔ _
  simp only [derivesAlt_cons, derivesAlt_nil, or_false, derivesConcat_one, derivesRep_one, derives_charVal, Bool.false_eq_true, if_false]
  constructor
  · rintro ⟨ws, h, rfl⟩
    cases h with
    | cons h1 h2 =>
      cases h2
      rcases sameLetter_cases h1 with rfl | rfl
      · exact .inl (by decide)
      · exact .inr (by decide)
  · rintro (rfl | rfl)
    · exact ⟨['a'], .cons (.inl rfl) .nil, by decide⟩
    · exact ⟨['A'], .cons ((sameLetter_iff _ _).mpr (by decide)) .nil, by decide⟩

/-- What the generator of the example gives for a tape. -/
theorem my_run (stable : Bool) : ∃ f h G, transitionGraph exampleTg Core.rules myGrammar (plainOrder myGrammar) ['a'] = .ok (.ok (f, h)) ∧
    newGenerator (exampleFuzz stable) f h = .ok (.ok G) ∧ fuzzGenerate G [0] = .ok (bytes% "a") ∧
    fuzzGenerate G (if stable then [0, 0, 0, 1] else [1]) = .ok (bytes% "A") := by
  cases stable with
  | false =>
    obtain ⟨f, h, G, e1, e2, e3⟩ := fuzzRun_some (t := exampleTg) (o := exampleFuzz false) (g := myGrammar) (name := ['a']) (tape := [0])
      (w := bytes% "a") (by decide +kernel)
    obtain ⟨f', h', G', e1', e2', e3'⟩ := fuzzRun_some (t := exampleTg) (o := exampleFuzz false) (g := myGrammar) (name := ['a']) (tape := [1])
      (w := bytes% "A") (by decide +kernel)
    rw [e1] at e1'
    cases e1'
    rw [e2] at e2'
    cases e2'
    exact ⟨f, h, G, e1, e2, e3, e3'⟩
  | true =>
    obtain ⟨f, h, G, e1, e2, e3⟩ := fuzzRun_some (t := exampleTg) (o := exampleFuzz true) (g := myGrammar) (name := ['a']) (tape := [0])
      (w := bytes% "a") (by decide +kernel)
    obtain ⟨f', h', G', e1', e2', e3'⟩ := fuzzRun_some (t := exampleTg) (o := exampleFuzz true) (g := myGrammar) (name := ['a']) (tape := [0, 0, 0, 1])
      (w := bytes% "A") (by decide +kernel)
    rw [e1] at e1'
    cases e1'
    rw [e2] at e2'
    cases e2'
    exact ⟨f, h, G, e1, e2, e3, e3'⟩

/-- C116.  For the grammar of the example, whatever the orders of maps: `newGen` gives a generator; if the function accepts exactly `a` and
`A`, no target ever fails; and the targets for acceptance pass for all tapes exactly if it accepts both. -/
theorem C116_example (sched : Sched NodeKey) (hf : sched.Fair) (core : List Rule) (hcore : core.Perm Core.rules)
    (order : Grammar → List Str) (ho : ∀ g, (order g).Perm ((dependencyGraph core g).map Prod.fst)) (stable : Bool) (fn : Bytes → Bool)
    (os : Nat → LOrders) (hos : ∀ i, (os i).Fair myGrammar) (ss : Nat → Sched Nat)
    (hss : ∀ i, (ss i).Fair) (o o' : LOrders) (hof : o.Fair myGrammar) (hof' : o'.Fair myGrammar) (s s' : Sched Nat) (hs : s.Fair) (hs' : s'.Fair)
    (ord : Nat → List Emission → List Emission) (hord : ∀ n l, (ord n l).Perm l) :
    ∃ G, newGen sched core order stable (utf8 myText) ['a'] = .ok (some (myGrammar, G)) ∧
      ((∀ w, fn w = true ↔ w = bytes% "a" ∨ w = bytes% "A") → ∀ tape,
        validAccepted o s myGrammar ['a'] G fn tape = .ok .pass ∧ validAcceptedStable G fn tape = .ok .pass ∧
        nearMissRejected os ss o s myGrammar ['a'] G fn tape = .ok .pass ∧ errorPosition ord G fn tape = .ok .pass ∧
        bothDirections os ss o o' s s' myGrammar ['a'] G fn tape = .ok .pass) ∧
      ((∀ tape, validAccepted o s myGrammar ['a'] G fn tape = .ok .pass) ↔ fn (bytes% "a") = true ∧ fn (bytes% "A") = true) ∧
      ((∀ tape, validAcceptedStable G fn tape = .ok .pass) ↔ fn (bytes% "a") = true ∧ fn (bytes% "A") = true) := by
  obtain ⟨f, h, G, e1, e2, e3, e4⟩ := my_run stable
  have e1' := (C61_order exampleTg myGrammar my_nd core _ hcore (.refl _) (order myGrammar) _ (ho _) (.refl _) ['a']).trans e1
  have hck := my_checkable
  have hp : ∀ r, Visits exampleTg myGrammar ['a'] r → Plain r := plain_of (by decide +kernel)
  have hx : ∀ r, Visits exampleTg myGrammar ['a'] r → TextRule exampleTg r := textRule_of (by decide +kernel)
  have hser : ∀ r, Visits exampleTg myGrammar ['a'] r → FullSeries r := fullSeries_of (by decide +kernel)
  have hne : ∃ w, DerivesRule myGrammar ['a'] w := ⟨_, (my_texts _).mpr (.inl rfl)⟩
  have hv := C116_valid_partial myGrammar my_nd core hcore _ (ho _) ['a'] hck hp hx hne f h e1' stable G e2 fn o hof s hs
  have hst := C116_stable myGrammar my_nd core hcore _ (ho _) ['a'] hp hx hne f h e1' stable G e2 fn
  refine ⟨G, ?_, fun hfn tape => C116_silent_partial myGrammar my_nd core hcore _ (ho _) ['a'] hck hp hx hne f h e1' stable G e2 fn hser
    (fun w => (hfn w).trans (my_texts w).symm) os hos ss hss o o' hof hof' s s' hs hs' ord hord tape, ⟨fun H => ?_, fun H tape => ?_⟩,
    ⟨fun H => ?_, fun H tape => ?_⟩⟩
  · unfold newGen
    rw [my_parses sched hf]
    simp only [e1', Run.bnd, e2]
  · have key : ∀ tape w, fuzzGenerate G tape = .ok w → fn w = true := by
      intro tape w hg
      obtain ⟨w', _, h1, h2⟩ := hv tape
      rw [hg] at h1
      cases h1
      rw [H tape] at h2
      by_contra hno
      rw [if_neg hno] at h2
      cases h2
    exact ⟨key _ _ e3, key _ _ e4⟩
  · obtain ⟨w, h1, _, h2⟩ := hv tape
    rcases (my_texts w).mp h1 with rfl | rfl
    · rw [h2, H.1]; rfl
    · rw [h2, H.2]; rfl
  · have key : ∀ tape w, fuzzGenerate G tape = .ok w → fn w = true := by
      intro tape w hg
      obtain ⟨w', _, h1, h2⟩ := hst tape
      rw [hg] at h1
      cases h1
      rw [H tape] at h2
      by_contra hno
      rw [if_neg hno] at h2
      cases h2
    exact ⟨key _ _ e3, key _ _ e4⟩
  · obtain ⟨w, h1, _, h2⟩ := hst tape
    rcases (my_texts w).mp h1 with rfl | rfl
    · rw [h2, H.1]; rfl
    · rw [h2, H.2]; rfl

/-- The hypotheses of C116_example are met by the plain orders. -/
example : (fwd : Sched NodeKey).Fair ∧ (plainOrders myGrammar).Fair myGrammar ∧ plainSched.Fair ∧
    (∀ g, (plainOrder g).Perm ((dependencyGraph Core.rules g).map Prod.fst)) :=
  ⟨fwd_fair, plainOrders_fair _, plainSched_fair, fun _ => .refl _⟩

/-- The function of /repo/examples/fuzzing/example.go:5-8. -/
def shipped (_ : Bytes) : Bool := false

/-- C116.  The function that comes with the example fails `FuzzValidAccepted` for every tape, and never the other direction. -/
theorem C116_shipped (core : List Rule) (hcore : core.Perm Core.rules) (order : List Str)
    (ho : order.Perm ((dependencyGraph core myGrammar).map Prod.fst)) (f : TgFrag) (h : TgHeap)
    (hok : transitionGraph exampleTg core myGrammar order ['a'] = .ok (.ok (f, h))) (G : FuzzGen)
    (hG : newGenerator (exampleFuzz false) f h = .ok (.ok G)) (o : LOrders) (hof : o.Fair myGrammar) (s : Sched Nat) (hs : s.Fair) (tape : Bytes) :
    (validAccepted o s myGrammar ['a'] G shipped tape = .ok (.rejected (bytes% "a")) ∨
      validAccepted o s myGrammar ['a'] G shipped tape = .ok (.rejected (bytes% "A"))) ∧
    ∀ ord : Nat → List Emission → List Emission, errorPosition ord G shipped tape = .ok .pass := by
  obtain ⟨w, h1, h0, h2⟩ := C116_valid_partial myGrammar my_nd core hcore _ ho ['a'] my_checkable
    (plain_of (by decide +kernel)) (textRule_of (by decide +kernel)) ⟨_, (my_texts _).mpr (.inl rfl)⟩ f h hok false G hG shipped o hof s hs tape
  constructor
  · rcases (my_texts w).mp h1 with rfl | rfl
    · exact .inl h2
    · exact .inr h2
  · intro ord
    unfold errorPosition
    rw [h0, Run.bnd]
    simp only
    split
    · rfl
    · split
      · rfl
      · rfl

/-! ## C116: the targets for acceptance find every wrong rejection -/

/-- C116.  Whatever text of the rule the function rejects, with limits that are high enough there is a tape for which `FuzzValidAcceptedStable`
reports just this text, and so does `FuzzValidAccepted` where `IsValid` accepts it.  What is missing: literals of more than thirty letters. -/
theorem C116_finds_partial (t : TgOpts) (g : Grammar) (hd : NamesDistinct g) (core : List Rule) (hcore : core.Perm Core.rules)
    (order : List Str) (ho : order.Perm ((dependencyGraph core g).map Prod.fst)) (name : Str)
    (hp : ∀ r, Visits t g name r → Plain r) (hn : t.nums = true → ∀ r, Visits t g name r → OneChar r)
    (hfew : ∀ r, Visits t g name r → ∀ q ∈ altReps r.alt, FewLetters q.elem)
    (f : TgFrag) (h : TgHeap) (hok : transitionGraph t core g order name = .ok (.ok (f, h)))
    (hins : f.ins.length ≤ 2 ^ 32) (hnext : ∀ n, ReachedFrom h f.ins n → (h.nexts n).length < 2 ^ 32)
    (fn : Bytes → Bool) (w : Bytes) (hw : DerivesRule g name w) (hfn : fn w = false) :
    ∃ L : Nat, ∀ (o : FuzzOpts) (G : FuzzGen), newGenerator o f h = .ok (.ok G) → (L : Int) < o.maxReps → (L : Int) < o.maxSteps →
      (w.length : Int) < o.maxLength →
      ∃ tape, validAcceptedStable G fn tape = .ok (.rejected w) ∧ ∀ (o : LOrders) (s : Sched Nat), isValid o s g name w = some (.ok true) →
        validAccepted o s g name G fn tape = .ok (.rejected w) := by
  obtain ⟨L, hL⟩ := C63_rule t g hd core hcore order ho name hp hn hfew f h hok hins hnext w hw
  refine ⟨L, fun o G hG h1 h2 h3 => ?_⟩
  obtain ⟨⟨tape, ht⟩, _⟩ := hL o G hG h1 h2 h3
  refine ⟨tape, ?_, fun o s hv => ?_⟩
  · unfold validAcceptedStable
    rw [ht]
    simp [Run.bnd, hfn]
  · unfold validAccepted
    rw [ht, Run.bnd, hv]
    simp [Run.bnd, isOk, hfn]

/-- C116: the hypotheses are met by the grammar of the example and a function that rejects `A`. -/
example (stable : Bool) : ∃ f h G, transitionGraph exampleTg Core.rules myGrammar (plainOrder myGrammar) ['a'] = .ok (.ok (f, h)) ∧
    newGenerator (exampleFuzz stable) f h = .ok (.ok G) ∧ f.ins.length ≤ 2 ^ 32 ∧ (∀ n, ReachedFrom h f.ins n → (h.nexts n).length < 2 ^ 32) ∧
    (∀ r, Visits exampleTg myGrammar ['a'] r → Plain r ∧ ∀ q ∈ altReps r.alt, FewLetters q.elem) ∧ DerivesRule myGrammar ['a'] (bytes% "A") := by
  obtain ⟨f, h, G, e1, e2, _⟩ := my_run stable
  have hp : ∀ r, Visits exampleTg myGrammar ['a'] r → Plain r := plain_of (by decide +kernel)
  have hall := tgAll_reached my_nd (p := fun _ l => decide (l.length < 2 ^ 32)) (q := fun n => decide (n ≤ 2 ^ 32)) (by decide +kernel) hp e1
  have h1 : (myGrammar.rules ++ Core.rules).all (fun r => (altReps r.alt).all fun q => fewLettersB q.elem) = true := by decide +kernel
  exact ⟨f, h, G, e1, e2, of_decide_eq_true hall.1, fun n hn => of_decide_eq_true (hall.2 n hn), fun r hr => ⟨hp r hr, fun q hq =>
    fewLetters_of (List.all_eq_true.mp (List.all_eq_true.mp h1 r (visits_mem hr)) q hq)⟩, (my_texts _).mpr (.inr rfl)⟩

/-! ## C116: `FuzzAST` -/

/-- C116.  A target like `FuzzAST` that asks for the rule it generates fails exactly if the function rejects the production, which is a text of
the rule.  What is missing: grammars for which `IsValid` is not known to be complete, see C05, and rules C28 excludes. -/
theorem C116_ast_partial (g : Grammar) (hw : ∀ r ∈ g.rules, r.written = true) (hc : CaseConsistent g.strings)
    (hd : NamesDistinct g) (hl : SimpleLeftRecursion g) (hu : UnbracketedLeftRecursion g) (hm : ∀ r ∈ rulesReps g.rules, Tallied g r)
    (hsm : SmallMins g) (sched : Sched (Str × Rule)) (hf : sched.Fair) (rounds : Nat) (hr : astRounds g ≤ rounds) (name : Str) (start : Rule)
    (m : CostMap) (h : newASTGenerator sched rounds g name = .ok (.ok (start, m))) (hwr : WritableReach g start)
    (o : LOrders) (hof : o.Fair g) (s : Sched Nat) (hs : s.Fair) (fuel : Nat) (hfuel : 12 + 2 ^ 30 ≤ fuel) (fn : Bytes → Bool) (tape : Bytes) :
    ∃ w, DerivesRule g name w ∧ astAccepted o s g name m fuel start fn tape = .ok (if fn w then .pass else .rejected w) := by
  obtain ⟨w, h1, h2⟩ := C28_members_partial g hd hsm sched hf rounds hr name start m h hwr tapeSource C29_sources.1 exampleAst fuel hfuel ⟨tape, 0⟩
  refine ⟨w, h2, ?_⟩
  unfold astAccepted
  rw [h1, Run.bnd, C05_complete_written_partial g hw hc hd hl hu hm o hof s hs name w h2]
  cases hfn : fn w <;> simp [Run.bnd, isOk]

/-- The AST generator of the example. -/
theorem my_ast (sched : Sched (Str × Rule)) (hf : sched.Fair) (rounds : Nat) (hr : astRounds myGrammar ≤ rounds) :
    ∃ start m, newASTGenerator sched rounds myGrammar ['a'] = .ok (.ok (start, m)) ∧ WritableReach myGrammar start := by
  have hs : SmallMins myGrammar := smallMins_of (by decide +kernel)
  obtain ⟨start, m, h1, _⟩ := astRun_ok (S := tapeSource) (o := exampleAst) (g := myGrammar) (name := ['a']) (s := ⟨[], 0⟩) (w := bytes% "a")
    (by decide +kernel)
  refine ⟨start, m, (C59_order myGrammar my_nd hs sched plainRules hf plainRules_fair rounds _ hr (Nat.le_refl _) ['a']).trans h1, ?_⟩
  have hres : Resolves myGrammar ['a'] start := by
    refine (getRule_iff my_nd).mp ?_
    unfold newASTGenerator at h1
    cases hg : getRule ['a'] myGrammar.rules with
    | none => rw [hg] at h1; cases h1
    | some r =>
      obtain ⟨m', _, h2 | ⟨e, h2, _⟩⟩ := newAst_cases my_nd hs (sched := plainRules) plainRules_fair (Nat.le_refl _) ((getRule_iff my_nd).mp hg)
      · unfold newASTGenerator at h2
        rw [h1] at h2
        have := h2.1
        simp only [Run.ok.injEq, Except.ok.injEq, Prod.mk.injEq] at this
        rw [this.1]
      · unfold newASTGenerator at h2
        rw [h1] at h2
        cases h2
  exact writable_of (by decide +kernel) (by decide +kernel) hres

/-- C116.  As shipped, `FuzzAST` fails for every tape, whatever the function is: it asks whether the production is valid for the rule
`list`, which the grammar does not define.  Asking for `a`, it would fail exactly if the function rejects the production. -/
theorem C116_ast_fails (o : LOrders) (hof : o.Fair myGrammar) (s : Sched Nat) (hs : s.Fair) (sched : Sched (Str × Rule)) (hf : sched.Fair)
    (rounds : Nat) (hr : astRounds myGrammar ≤ rounds) (fuel : Nat) (hfuel : 12 + 2 ^ 30 ≤ fuel) :
    ∃ start m, newASTGenerator sched rounds myGrammar ['a'] = .ok (.ok (start, m)) ∧ ∀ fn tape, ∃ w, DerivesRule myGrammar ['a'] w ∧
      astAccepted o s myGrammar (str% "list") m fuel start fn tape = .ok (.generator w) ∧
      astAccepted o s myGrammar ['a'] m fuel start fn tape = .ok (if fn w then .pass else .rejected w) := by
  obtain ⟨start, m, h1, h2⟩ := my_ast sched hf rounds hr
  refine ⟨start, m, h1, fun fn tape => ?_⟩
  have hsm : SmallMins myGrammar := smallMins_of (by decide +kernel)
  obtain ⟨w, h3, h4⟩ := C28_members_partial myGrammar my_nd hsm sched hf rounds hr _ start m h1 h2 tapeSource C29_sources.1 exampleAst fuel hfuel ⟨tape, 0⟩
  refine ⟨w, h4, ?_, ?_⟩
  · unfold astAccepted
    rw [h3, Run.bnd]
    have : isValid o s myGrammar (str% "list") w = none := by
      unfold isValid
      have : getRule (str% "list") myGrammar.rules = none := by decide +kernel
      rw [this]
    rw [this]
    rfl
  · unfold astAccepted
    rw [h3, Run.bnd, C05_complete_written_partial myGrammar (by decide) (by unfold CaseConsistent; decide) my_nd
      (simple_of my_nd [] (by decide +kernel) (by decide +kernel))
      (unbracketed_of my_nd [(str% "a", 1), (str% "lwsp", 2)] (by decide +kernel) (by decide +kernel))
      my_tallied o hof s hs _ w h4]
    cases hfn : fn w <;> simp [Run.bnd, isOk]

/-! ## C116: a sound oracle is not to be had for every grammar -/

/-- C116.  `FuzzNearMissRejected` can fail a function that decides the rule: for `a = 3*("a" / "aaa")` a tape gives the text `aaaA`. -/
theorem C116_near_fails (fn : Bytes → Bool) (hfn : ∀ w, fn w = true ↔ DerivesRule early ['a'] w) : ∃ f h G,
    transitionGraph exampleTg Core.rules early (plainOrder early) ['a'] = .ok (.ok (f, h)) ∧ newGenerator (exampleFuzz false) f h = .ok (.ok G) ∧
    nearMissRejected (fun _ => plainOrders early) (fun _ => plainSched) (plainOrders early) plainSched early ['a'] G fn
      [0, 0, 0, 0, 0, 0, 0, 0, 0, 12] = .ok (.accepted (bytes% "aaaA")) := by
  obtain ⟨f, h, G, l, e1, e2, e3⟩ := missRun_some (t := exampleTg) (o := exampleFuzz false) (g := early) (name := ['a'])
    (tape := [0, 0, 0, 0, 0, 0, 0, 0, 0, 12]) (u := bytes% "aaa") (v := bytes% "aaaA") (by decide +kernel)
  have hd : DerivesRule early ['a'] (bytes% "aaaA") :=
    derives_of_forest (numValsWF_of (by decide)) early_nd (distinctPrint_of (by decide +kernel)) (by decide +kernel)
  have hv : isValid (plainOrders early) plainSched early ['a'] (bytes% "aaaA") = some (.ok false) := by decide +kernel
  refine ⟨f, h, G, e1, e2, ?_⟩
  unfold nearMissRejected
  rw [e3, Run.bnd]
  simp only [hv, isOk, Run.bnd, (hfn _).mpr hd]
  rfl

/-! ## C116: what the targets say outside that class, and what their options are -/

/-- C116.  An octet is put after the prefix unless all 256 are expected, and it is the least that is not. -/
theorem C116_octet (l : Bytes) : (firstBad l = none ↔ ∀ c, c ∈ l) ∧ ∀ c, firstBad l = some c ↔ c ∉ l ∧ ∀ d, d < c → d ∈ l := by
  unfold firstBad
  rw [List.find?_map]
  constructor
  · rw [Option.map_eq_none_iff, List.find?_eq_none]
    constructor
    · intro h c
      have := h c.toNat (List.mem_range.mpr c.toNat_lt)
      simpa using this
    · intro h n _
      simpa using h _
  · intro c
    rw [Option.map_eq_some_iff]
    constructor
    · rintro ⟨n, h, rfl⟩
      rw [List.find?_range_eq_some] at h
      obtain ⟨h1, h2, h3⟩ := h
      have hn : n < 256 := List.mem_range.mp h2
      refine ⟨by simpa using h1, fun d hd => ?_⟩
      have hlt : d.toNat < n := by
        have := UInt8.lt_iff_toNat_lt.mp hd
        simpa [Nat.mod_eq_of_lt hn] using this
      have := h3 d.toNat hlt
      simpa using this
    · rintro ⟨h1, h2⟩
      refine ⟨c.toNat, ?_, by simp⟩
      rw [List.find?_range_eq_some]
      refine ⟨by simpa using h1, List.mem_range.mpr c.toNat_lt, fun j hj => ?_⟩
      have hj' : j < 256 := hj.trans c.toNat_lt
      have : UInt8.ofNat j ∈ l := h2 _ (UInt8.lt_iff_toNat_lt.mpr (by simpa [Nat.mod_eq_of_lt hj'] using hj))
      simpa using this

/-- C116.  Where the generator gives a text and the next octets are known, a function that accepts everything passes
`FuzzExpectedNextErrorPosition` only if every octet is expected. -/
theorem C116_octets (ord : Nat → List Emission → List Emission) (G : FuzzGen) (tape w next : Bytes) (acc : Bool)
    (hg : fuzzGenerate G tape = .ok w) (he : expectedNext G ord (w.take (cutAt w tape)) = some (next, acc)) :
    errorPosition ord G (fun _ => true) tape = .ok .pass ↔ ∀ c, c ∈ next := by
  unfold errorPosition
  rw [hg, Run.bnd]
  simp only [he]
  cases hb : firstBad next with
  | none => exact iff_of_true rfl ((C116_octet next).1.mp hb)
  | some c =>
    refine iff_of_false (by simp) fun h => ?_
    exact (((C116_octet next).2 c).mp hb).1 (h c)

/-- Checks what a generator gives for a tape. -/
def givesB (G : FuzzGen) (tape w : Bytes) : Bool := match fuzzGenerate G tape with | .ok v => decide (v = w) | _ => false

theorem gives_of {G : FuzzGen} {tape w : Bytes} (h : givesB G tape w = true) : fuzzGenerate G tape = .ok w := by
  unfold givesB at h
  split at h
  · rename_i v e
    rw [e, of_decide_eq_true h]
  · cases h

/-- The hypotheses of `C116_octets` for the grammar of the example. -/
example : ∃ f h G next acc, transitionGraph exampleTg Core.rules myGrammar (plainOrder myGrammar) ['a'] = .ok (.ok (f, h)) ∧
    newGenerator (exampleFuzz false) f h = .ok (.ok G) ∧ fuzzGenerate G [1] = .ok (bytes% "A") ∧
    expectedNext G (fun _ l => l) ((bytes% "A").take (cutAt (bytes% "A") [1])) = some (next, acc) := by
  obtain ⟨f, h, G, e1, e2, e3⟩ := genAll_some (t := exampleTg) (o := exampleFuzz false) (g := myGrammar) (name := ['a'])
    (k := fun G => givesB G [1] (bytes% "A") && (expectedNext G (fun _ l => l) ((bytes% "A").take (cutAt (bytes% "A") [1]))).isSome) (by decide +kernel)
  rw [Bool.and_eq_true] at e3
  obtain ⟨⟨next, acc⟩, hx⟩ := Option.isSome_iff_exists.mp e3.2
  exact ⟨f, h, G, next, acc, e1, e2, gives_of e3.1, hx⟩

/-- C116.  For `a = 3*("a" / "aaa")`, whose text `aaaa` `IsValid` rejects, `FuzzValidAccepted` blames the generator for a text of the rule,
whatever the function is, and `FuzzDifferentialBothDirections` does not report that a function rejects it. -/
theorem C116_valid_fails (fn : Bytes → Bool) : ∃ f h G tape,
    transitionGraph exampleTg Core.rules early (plainOrder early) ['a'] = .ok (.ok (f, h)) ∧ newGenerator (exampleFuzz false) f h = .ok (.ok G) ∧
    fuzzGenerate G tape = .ok (bytes% "aaaa") ∧ DerivesRule early ['a'] (bytes% "aaaa") ∧
    validAccepted (plainOrders early) plainSched early ['a'] G fn tape = .ok (.generator (bytes% "aaaa")) ∧
    (∀ os ss o' s', bothDirections os ss (plainOrders early) o' plainSched s' early ['a'] G fn tape ≠ .ok (.rejected (bytes% "aaaa"))) := by
  obtain ⟨f, h, G, e1, e2, e3⟩ := genAll_some (t := exampleTg) (o := exampleFuzz false) (g := early) (name := ['a'])
    (k := fun G => givesB G [0,0,0,0,0,0,1,0,0,0,0,0] (bytes% "aaaa")) (by decide +kernel)
  have e3 := gives_of e3
  have hv : isValid (plainOrders early) plainSched early ['a'] (bytes% "aaaa") = some (.ok false) := by decide +kernel
  refine ⟨f, h, G, _, e1, e2, e3,
    derives_of_forest (numValsWF_of (by decide)) early_nd (distinctPrint_of (by decide +kernel)) (by decide +kernel), ?_, fun os ss o' s' => ?_⟩
  · unfold validAccepted
    rw [e3, Run.bnd, hv]
    rfl
  · unfold bothDirections
    rw [e3, Run.bnd, hv, show isOk (some (.ok false)) = .ok false from rfl]
    simp only [Run.bnd, Bool.false_and, Bool.false_eq_true, if_false]
    cases nearMiss os ss early ['a'] G [0,0,0,0,0,0,1,0,0,0,0,0] with
    | ok r =>
      cases r with
      | none => simp
      | some c =>
        simp only
        generalize isOk (isValid o' s' early ['a'] c.1) = q
        cases q with
        | ok b => simp only [ne_eq, Run.ok.injEq]; split_ifs <;> simp
        | panic => simp
        | fuel => simp
    | panic => simp
    | fuel => simp

/-- A list of a rule. -/
def exes : Grammar := ⟨[⟨['a'], [[⟨0, none, .rulename ['b']⟩]]⟩, ⟨['b'], [[⟨1, some 1, .charVal true ['x']⟩]]⟩]⟩

/-- The options of the targets: rules are expanded, a loop is taken up to eight times after the first, and the other generator repeats up
to four times. -/
example : fuzzRun exampleTg (exampleFuzz false) exes ['a'] (List.replicate 20 1) = some (List.replicate 9 120) ∧
    (match astRun tapeSource exampleAst exes ['a'] ⟨List.replicate 20 4, 0⟩ with | .ok w => some w | _ => none) = some (List.replicate 4 120) := by
  decide +kernel

/-! ## C116: `FuzzFunction` -/

/-- C116.  For the grammar of the example `Generate` returns a text of the rule for every seed, so that `FuzzFunction` calls the function
with `a` or `A`. -/
theorem C116_baseline (rnd : Nat → Nat) (fuel : Nat) :
    ∃ w, generate rnd exampleGen myGrammar fuel ['a'] = .ok (.ok w) ∧ (w = bytes% "a" ∨ w = bytes% "A") := by
  have hr : Resolves myGrammar ['a'] (myGrammar.rules[0]) := (getRule_iff my_nd).mp (by decide +kernel)
  have hx : ∃ w, generate rnd exampleGen myGrammar fuel ['a'] = .ok (.ok w) := by
    rw [Verif.generate_eq my_nd hr rnd exampleGen fuel (by decide +kernel)]
    have h1 : (rnd 0) % 1 = 0 := Nat.mod_one _
    simp [myGrammar, genAlt, genPick, genReps, toRep, exampleGen, Run.bnd, h1, genLoop, genElem]
    split_ifs <;> exact ⟨_, rfl⟩
  obtain ⟨w, hx⟩ := hx
  exact ⟨w, hx, (my_texts w).mp (C27_members_partial myGrammar my_nd ['a'] _ hr (emitReach_of (by decide +kernel) hr) rnd exampleGen fuel w hx)⟩

end Props
end Verif
