import Verif.Part
import Verif.PropsMiss
import Verif.PropsRule

/-!
# Near misses of a rule

A rule that has a transition graph uses no cyclic rule, so `IsValid` is exact for it (`C05_rule_partial`), and so are the near misses of
/repo/fuzz.go:386-405.
-/

namespace Verif
open Spec

namespace Props

/-- A rule with a transition graph uses no left-recursive rule. -/
theorem graph_noLeftRec {t : TgOpts} {g : Grammar} (hd : NamesDistinct g) {name : Str} (h : HasGraph t g name) :
    ∃ r0, Resolves g name r0 ∧ ∀ r, UsesRule g name r → ¬ LeftRecursive g r.name := by
  obtain ⟨r0, h0, _, h1, _⟩ := h
  refine ⟨r0, h0, noLeftRec_of_noCycle hd fun r hr hcy => h1 ?_⟩
  obtain ⟨r1, h3, h4⟩ := hr
  have : r1 = r0 := by
    have h5 := (getRule_iff hd).mpr h3
    rw [(getRule_iff hd).mpr h0] at h5
    exact (Option.some.inj h5).symm
  subst this
  exact ⟨r, h4, hcy⟩

/-- With an exact test the loop returns the first candidate that is neither the text itself nor a text of the rule. -/
theorem nearMissLoop_find {check : Nat → Bytes → Option (Run Bool)} {v : Bytes → Bool} (hv : ∀ i c, check i c = some (.ok (v c))) (base : Bytes)
    (cs : List Candidate) : ∀ i, nearMissLoop check base i cs = .ok (cs.find? fun c => decide (c.1 ≠ base) && !v c.1) := by
  induction cs with
  | nil => intro i; rfl
  | cons c cs ih =>
    intro i
    rw [nearMissLoop, List.find?_cons]
    by_cases hb : c.1 = base
    · simp [hb, ih]
    · simp only [hb, if_false, hv, ne_eq, not_false_eq_true, decide_true, Bool.true_and]
      cases v c.1
      · simp
      · simp [ih]

variable {t : TgOpts} {g : Grammar} (hd : NamesDistinct g) {core : List Rule} (hcore : core.Perm Core.rules)
  {order : List Str} (hor : order.Perm ((dependencyGraph core g).map Prod.fst)) {name : Str}
  (hp : ∀ r, Visits t g name r → Plain r) {f : TgFrag} {h : TgHeap} (hok : transitionGraph t core g order name = .ok (.ok (f, h)))
  {o : FuzzOpts} {G : FuzzGen} (hG : newGenerator o f h = .ok (.ok G))

include hd hcore hor hok in
/-- C05 for a rule with a transition graph.  Missing: repetitions that `Checkable` leaves out, see `C05_fails`. -/
theorem C05_graph_partial (hc : Checkable g name) (o : LOrders) (ho : o.Fair g) (sched : Sched Nat) (hs : sched.Fair) (inp : Bytes) :
    ∃ b, isValid o sched g name inp = some (.ok b) ∧ (b = true ↔ DerivesRule g name inp) := by
  obtain ⟨r0, h0, hl⟩ := graph_noLeftRec hd ((C61_errors t g hd core hcore order hor name).1 _ hok)
  exact C05_rule_partial g hd name r0 h0 hc.written hc.cased hl hc.tallied o ho sched hs inp

include hd hcore hor hok hp hG in
/-- C71 for every rule with a transition graph, however left-recursive the rest of the grammar is: `NearMiss` returns, and finds something
for every tape. -/
theorem C71_rule (hw : ∀ r, UsesRule g name r → r.written = true) (hc : PartConsistent g name)
    (os : Nat → LOrders) (hos : ∀ i, (os i).Fair g) (scheds : Nat → Sched Nat) (hss : ∀ i, (scheds i).Fair) :
    (∀ tape, ∃ r, nearMiss os scheds g name G tape = .ok (some r)) ∧ ∀ rnd, ∃ r, nearMissRand os scheds g name G rnd = .ok (some r) := by
  obtain ⟨r0, h0, hl⟩ := graph_noLeftRec hd ((C61_errors t g hd core hcore order hor name).1 _ hok)
  have hfin := tg_finite hd hcore hor hp hok
  have key : ∀ tape, ∃ r, nearMiss os scheds g name G tape = .ok (some r) := by
    intro tape
    obtain ⟨st, cs, _, h2, _, _, h5⟩ := nearMiss_parts hfin hG os scheds g name tape
    have hchk : ∀ i w, ∃ b, isValid (os i) (scheds i) g name w = some (.ok b) := fun i w =>
      C44_rule_partial g hd name r0 h0 hl (os i) (hos i) (scheds i) (hss i) w
    obtain ⟨_, h6, h7⟩ := nearMissLoop_ok (check := fun i c => isValid (os i) (scheds i) g name c) (base := st.out) cs 0
    obtain ⟨r, hr⟩ := h7 fun c _ j => by
      obtain ⟨b, hb⟩ := hchk j c.1
      simp only [hb]
      exact ⟨nofun, nofun⟩
    rw [h2, hr]
    cases r with
    | some r => exact ⟨r, rfl⟩
    | none =>
      exfalso
      rcases h6 hr _ (h5 0xFF (by decide)) with h8 | ⟨j, h8 | h8⟩
      · have := congrArg List.length h8
        simp at this
      · obtain ⟨b, hb⟩ := hchk j (st.out ++ [0xFF])
        simp only [hb] at h8
        cases h8
      · have h9 := C04_rule g hd name r0 h0 hw hc hl (os j) (hos j) (scheds j) (hss j) _ h8
        obtain ⟨cs', h10⟩ := C24_texts g name _ h9
        exact utf8_snoc cs' st.out h10.symm
  exact ⟨key, fun rnd => key _⟩

include hd hcore hor hok hp hG in
/-- C119.  `NearMiss` is deterministic in the tape and total: for each tape there is a near miss which is returned whatever the iteration
orders of the Go maps, and it is the first candidate that is neither the production of the tape nor a text of the rule.  Missing: the
repetitions that `Checkable` leaves out, where `IsValid` itself is wrong, see `C05_fails`. -/
theorem C119_nearMiss_partial (hc : Checkable g name) (tape : Bytes) :
    ∃ st cs pre r post, fuzzWalk tapeSource G ⟨tape, 0⟩ = .ok st ∧ nearMissCandidates tapeSource st.src st.out st.trace = .ok cs ∧
      cs = pre ++ r :: post ∧ (∀ c ∈ pre, c.1 = st.out ∨ DerivesRule g name c.1) ∧ r.1 ≠ st.out ∧ ¬ DerivesRule g name r.1 ∧
      ∀ (os : Nat → LOrders) (_ : ∀ i, (os i).Fair g) (scheds : Nat → Sched Nat) (_ : ∀ i, (scheds i).Fair),
        nearMiss os scheds g name G tape = .ok (some r) := by
  classical
  have hfin := tg_finite hd hcore hor hp hok
  have hex := C05_graph_partial hd hcore hor hok hc
  obtain ⟨st, cs, h1, _, h3, _, h5⟩ := nearMiss_parts hfin hG (fun _ => plainOrders g) (fun _ => plainSched) g name tape
  have hfind : ∀ (os : Nat → LOrders) (_ : ∀ i, (os i).Fair g) (scheds : Nat → Sched Nat) (_ : ∀ i, (scheds i).Fair),
      nearMiss os scheds g name G tape = .ok (cs.find? fun c => decide (c.1 ≠ st.out) && !decide (DerivesRule g name c.1)) := by
    intro os hos scheds hss
    obtain ⟨st', cs', h1', h2', h3', _⟩ := nearMiss_parts hfin hG os scheds g name tape
    rw [h1] at h1'
    cases h1'
    rw [h3] at h3'
    cases h3'
    rw [h2']
    refine nearMissLoop_find (v := fun c => decide (DerivesRule g name c)) (fun i c => ?_) _ cs 0
    obtain ⟨b, hb, hbd⟩ := hex (os i) (hos i) (scheds i) (hss i) c
    rw [hb]
    cases b with
    | true => rw [decide_eq_true (hbd.mp rfl)]
    | false => rw [decide_eq_false fun h => by cases hbd.mpr h]
  have hsome : (cs.find? fun c => decide (c.1 ≠ st.out) && !decide (DerivesRule g name c.1)).isSome := by
    rw [List.find?_isSome]
    refine ⟨_, h5 0xFF (by decide), ?_⟩
    rw [Bool.and_eq_true]
    refine ⟨decide_eq_true fun h => ?_, ?_⟩
    · have := congrArg List.length h
      simp at this
    · rw [decide_eq_false fun h => ?_]
      · rfl
      · obtain ⟨cs', h10⟩ := C24_texts g name _ h
        exact utf8_snoc cs' st.out h10.symm
  obtain ⟨r, hr⟩ := Option.isSome_iff_exists.mp hsome
  obtain ⟨hr1, pre, post, hcs, hpre⟩ := List.find?_eq_some_iff_append.mp hr
  simp only [Bool.and_eq_true, decide_eq_true_eq, Bool.not_eq_true', decide_eq_false_iff_not] at hr1
  refine ⟨st, cs, pre, r, post, h1, h3, hcs, fun c hc => ?_, hr1.1, hr1.2, fun os hos scheds hss => ?_⟩
  · have := hpre c hc
    by_contra hn
    push Not at hn
    simp [hn] at this
  · rw [hfind os hos scheds hss, hr]

include hd hcore hor hok hp hG in
/-- C32 for a rule with a transition graph: what `NearMiss` returns is no text of the rule. -/
theorem C32_rule_partial (hc : Checkable g name) (os : Nat → LOrders) (hos : ∀ i, (os i).Fair g) (scheds : Nat → Sched Nat)
    (hss : ∀ i, (scheds i).Fair) (tape : Bytes) (r : Candidate) (hr : nearMiss os scheds g name G tape = .ok (some r)) :
    ¬ DerivesRule g name r.1 := by
  obtain ⟨_, _, _, r', _, _, _, _, _, _, h6, h7⟩ := C119_nearMiss_partial hd hcore hor hp hok hG hc tape
  rw [h7 os hos scheds hss] at hr
  cases hr
  exact h6

/-- The rule `id` of `mixed` meets the hypotheses, though `IsValid` panics on another rule of this grammar. -/
example : ∃ f h G l, transitionGraph { rules := true } Core.rules mixed (plainOrder mixed) (str% "id") = .ok (.ok (f, h)) ∧
    newGenerator { maxSteps := 9 } f h = .ok (.ok G) ∧
    nearMiss (fun _ => plainOrders mixed) (fun _ => plainSched) mixed (str% "id") G [1, 2, 3, 4, 5, 6, 7, 8, 9] = .ok (some (bytes% "`4G8A", l)) ∧
    NamesDistinct mixed ∧ Checkable mixed (str% "id") ∧ ∀ r, Visits { rules := true } mixed (str% "id") r → Plain r := by
  obtain ⟨f, h, G, l, e1, e2, e3⟩ := missRun_some (t := { rules := true }) (o := { maxSteps := 9 }) (g := mixed) (name := str% "id")
    (tape := [1, 2, 3, 4, 5, 6, 7, 8, 9]) (u := bytes% "c4G8A") (v := bytes% "`4G8A") (by decide +kernel)
  exact ⟨f, h, G, l, e1, e2, e3, mixed_nd,
    checkable_of mixed_nd [str% "id", str% "alpha", str% "digit"] (by decide +kernel) (by decide +kernel), plain_of (by decide +kernel)⟩

end Props
end Verif
