import Verif.TreeSpec
import Verif.GenCheck
import Verif.PropsRegex

/-!
# Random generation: the claims C27, C53, C54 and C55
-/

namespace Verif

open Spec

/-! ## Checking the hypotheses -/

/-- A test for `Emittable`. -/
def emittableB : Elem → Bool
  | .numVal b .series es => termWFb (.numVal b .series es) && es.all fun s => validRune (numvalToRune s b)
  | .numVal b .range es => termWFb (.numVal b .range es) &&
      (let lo := numvalToRune (es.getD 0 []) b
       let hi := numvalToRune (es.getD 1 []) b
       decide (lo ≤ hi) && decide (lo ≤ 0x10FFFF) && (decide (hi < 0xD800) || decide (0xDFFF < lo) || decide (0xFFFD ≤ hi)))
  | .proseVal _ => false
  | _ => true

theorem emittable_of {e : Elem} (h : emittableB e = true) : Emittable e := by
  cases e with
  | numVal b s es =>
    cases s with
    | series =>
      simp only [emittableB, Bool.and_eq_true, List.all_eq_true] at h
      intro s hs
      obtain ⟨v, hv⟩ := termWFb_sound h.1 s hs
      have h2 := h.2 s hs
      rw [numvalToRune_denotes hv, validRune_iff] at h2
      unfold maxInt32 at h2
      exact ⟨Char.ofNat v, by rw [toNat_ofNat_char (by omega)]; exact hv⟩
    | range =>
      simp only [emittableB, Bool.and_eq_true, decide_eq_true_eq, Bool.or_eq_true] at h
      obtain ⟨h1, ⟨h2, h3⟩, h4⟩ := h
      obtain ⟨s, t, lo, hi, rfl, hs, ht⟩ := termWFb_sound h1
      simp only [List.getD_cons_zero, List.getD_cons_succ, numvalToRune_denotes hs, numvalToRune_denotes ht, maxInt32] at h2 h3 h4
      exact ⟨s, t, lo, hi, rfl, hs, ht, by omega, by omega, by omega⟩
  | proseVal v => cases h
  | _ => trivial

theorem reach_reps {g : Grammar} {n : Str} {r r' : Rule} (hr : Resolves g n r) (h : Relation.ReflTransGen (Refers g) r r')
    {q : Rep} (hq : q ∈ altReps r'.alt) : q ∈ rulesReps (g.rules ++ Core.rules) := by
  have hres : ∃ m, Resolves g m r' := by
    rcases Relation.ReflTransGen.cases_tail h with e | ⟨_, _, h4⟩
    · exact ⟨n, e ▸ hr⟩
    · exact ⟨_, refers_resolves h4⟩
  obtain ⟨m, hm⟩ := hres
  refine List.mem_flatMap.mpr ⟨r', ?_, hq⟩
  cases hm with
  | user h _ => exact List.mem_append_left _ h
  | core h _ _ => exact List.mem_append_right _ h

theorem reach_rule {g : Grammar} {n : Str} {r r' : Rule} (hr : Resolves g n r) (h : Relation.ReflTransGen (Refers g) r r') :
    r' ∈ g.rules ++ Core.rules := by
  have hres : ∃ m, Resolves g m r' := by
    rcases Relation.ReflTransGen.cases_tail h with e | ⟨_, _, h4⟩
    · exact ⟨n, e ▸ hr⟩
    · exact ⟨_, refers_resolves h4⟩
  obtain ⟨m, hm⟩ := hres
  cases hm with
  | user h _ => exact List.mem_append_left _ h
  | core h _ _ => exact List.mem_append_right _ h

/-- The bounds do not cross. -/
def boundsB (q : Rep) : Bool := match q.max with | some m => decide (q.min ≤ m) | none => true

theorem bounds_of {q : Rep} (h : boundsB q = true) : ∀ m, q.max = some m → q.min ≤ m := by
  intro m hm
  unfold boundsB at h
  rw [hm] at h
  simpa using h

theorem emitReach_of {g : Grammar} (h : ((rulesReps (g.rules ++ Core.rules)).all fun q => emittableB q.elem && boundsB q) = true)
    {n : Str} {r : Rule} (hr : Resolves g n r) : EmitReach g r := by
  intro r' hr' q hq
  have := List.all_eq_true.mp h q (reach_reps hr hr' hq)
  rw [Bool.and_eq_true] at this
  exact ⟨emittable_of this.1, bounds_of this.2⟩

/-- A test for `HasText`. -/
def hasTextB : Elem → Bool
  | .numVal b s es => emittableB (.numVal b s es)
  | _ => true

theorem hasText_of {e : Elem} (h : hasTextB e = true) : HasText e := by
  cases e with
  | numVal b s es =>
    have he : Emittable (.numVal b s es) := emittable_of h
    cases s with
    | series =>
      obtain ⟨ws, _, h1⟩ := genSeries_out b es he {}
      exact ⟨ws, h1⟩
    | range =>
      obtain ⟨w, _, h1⟩ := genRange_out (g := ⟨[]⟩) (fun _ => 0) b es he {}
      obtain ⟨cs, rfl⟩ := derives_isText h1
      exact ⟨cs, (derives_term (by simp) (by simp) (by simp) cs).mp h1⟩
  | _ => trivial

theorem textReach_of {g : Grammar} (h : ((rulesReps (g.rules ++ Core.rules)).all fun q => hasTextB q.elem && boundsB q) = true)
    {n : Str} {r : Rule} (hr : Resolves g n r) : TextReach g r := by
  intro r' hr' q hq
  have := List.all_eq_true.mp h q (reach_reps hr hr' hq)
  rw [Bool.and_eq_true] at this
  exact ⟨hasText_of this.1, bounds_of this.2⟩

/-- A test for the conditions of `ClosedReach`. -/
def closedRepB (g : Grammar) (q : Rep) : Bool :=
  match q.elem with
  | .rulename n => (getRule n g.rules).isSome
  | .group a => !a.isEmpty
  | .option a => !a.isEmpty
  | _ => true

theorem closedRep_of {g : Grammar} {q : Rep} (h : closedRepB g q = true) : (∀ n, q.elem = .rulename n → ∃ r2, Resolves g n r2) ∧
    ∀ a, q.elem = .group a ∨ q.elem = .option a → a ≠ [] := by
  unfold closedRepB at h
  constructor
  · intro n hn
    rw [hn] at h
    exact getRule_isSome.mp h
  · rintro a (ha | ha) rfl <;> · rw [ha] at h; cases h

theorem closedReach_of {g : Grammar} (h : ((rulesReps (g.rules ++ Core.rules)).all fun q => closedRepB g q) = true)
    (h' : ((g.rules ++ Core.rules).all fun r => !r.alt.isEmpty) = true) {n : Str} {r : Rule} (hr : Resolves g n r) :
    ClosedReach g r := fun r' hr' =>
  ⟨(by have := List.all_eq_true.mp h' r' (reach_rule hr hr'); intro e; rw [e] at this; cases this),
   fun q hq => closedRep_of (List.all_eq_true.mp h q (reach_reps hr hr' hq))⟩

/-- A test for the further conditions of `SafeReach`. -/
def safeRepB (repMax : Int) (q : Rep) : Bool :=
  match q.max with
  | some m => decide (q.min ≠ m + 1)
  | none => decide ((q.min : Int) ≠ repMax + 1)

theorem safeReach_of {g : Grammar} {repMax : Int}
    (h : ((rulesReps (g.rules ++ Core.rules)).all fun q => closedRepB g q && safeRepB repMax q) = true)
    (h' : ((g.rules ++ Core.rules).all fun r => !r.alt.isEmpty) = true) {n : Str} {r : Rule} (hr : Resolves g n r) :
    SafeReach g repMax r := by
  intro r' hr'
  refine ⟨(by have := List.all_eq_true.mp h' r' (reach_rule hr hr'); intro e; rw [e] at this; cases this), fun q hq => ?_⟩
  have := List.all_eq_true.mp h q (reach_reps hr hr' hq)
  rw [Bool.and_eq_true] at this
  obtain ⟨h1, h2⟩ := closedRep_of this.1
  have h3 := this.2
  unfold safeRepB at h3
  refine ⟨h1, fun m hm => ?_, fun hm => ?_, h2⟩
  · rw [hm] at h3; simpa using h3
  · rw [hm] at h3; simpa using h3

theorem safe_closed {g : Grammar} {repMax : Int} {r : Rule} (h : SafeReach g repMax r) : ClosedReach g r := fun r' hr' =>
  ⟨(h r' hr').1, fun q hq => ⟨((h r' hr').2 q hq).refs, ((h r' hr').2 q hq).alts⟩⟩

/-! ## The whole function -/

theorem check_sat {g : Grammar} (hd : NamesDistinct g) {name : Str} {r : Rule} (hr : Resolves g name r) (hc : ClosedReach g r) :
    (checkCanGenerateSafely g name = .ok none ∧ ∃ k, ExpRule g k name) ∨
    (checkCanGenerateSafely g name = .ok (some .cyclicRule) ∧ ¬ ∃ k, ExpRule g k name) := by
  have h := checkGenRule_sat hd (g.rules.length + Core.rules.length + 1 + 1) [] name (by simp) (by simp) ⟨r, hr, hc⟩
    (by simp only [ruleKeys, List.length_map, List.length_append]; omega)
  have hg := (getRule_iff hd).mpr hr
  rw [checkGenRule, if_neg (by simp), hg] at h
  simp only at h
  unfold checkCanGenerateSafely
  rw [hg]
  simp only
  cases hrun : checkGenAlt (checkGenRule g (g.rules.length + Core.rules.length + 1)) [name] r.alt with
  | panic => rw [hrun] at h; exact h.elim
  | fuel => rw [hrun] at h; exact h.elim
  | ok b =>
    rw [hrun] at h
    obtain ⟨h1, h2⟩ := h
    cases b with
    | true => exact .inr ⟨rfl, fun ⟨k, hk⟩ => by simpa using h2 k hk (by simp)⟩
    | false => exact .inl ⟨rfl, h1 rfl⟩

theorem generate_eq {g : Grammar} (hd : NamesDistinct g) {name : Str} {r : Rule} (hr : Resolves g name r)
    (rnd : Nat → Nat) (o : GenOpts) (fuel : Nat) (h : checkCanGenerateSafely g name = .ok none) :
    generate rnd o g fuel name = (genAlt rnd o (genRule rnd o g fuel) r.alt {}).bnd fun st => .ok (.ok st.out) := by
  unfold generate
  rw [h, (getRule_iff hd).mpr hr]
  rfl

namespace Props

/-- C27.  Whatever the stream of random numbers, the options and the depth of recursion, the bytes `Generate` returns are
derivable from the rule.  Missing from the full claim, and false there: rules that reach a prose-val, an empty num-val
range or one that starts with surrogates, a series with values that are no characters, or bounds that cross. -/
theorem C27_members_partial (g : Grammar) (hd : NamesDistinct g) (name : Str) (r : Rule) (hr : Resolves g name r)
    (he : EmitReach g r) (rnd : Nat → Nat) (o : GenOpts) (fuel : Nat) (w : Bytes)
    (h : generate rnd o g fuel name = .ok (.ok w)) : DerivesRule g name w := by
  have h1 := genRule_sat hd (rnd := rnd) (o := o) (pan := True) (mem := True) (fuel + 1) name {}
    (fun r' hr' => by rw [resolves_unique hd hr' hr rfl]; exact ⟨fun _ => he, .inl trivial⟩) (.inl trivial)
  have hg := (getRule_iff hd).mpr hr
  rw [genRule, hg] at h1
  simp only at h1
  unfold generate at h
  cases hc : checkCanGenerateSafely g name with
  | panic => rw [hc] at h; cases h
  | fuel => rw [hc] at h; cases h
  | ok e =>
    rw [hc, Run.bnd] at h
    cases e with
    | some e => simp at h
    | none =>
      rw [hg] at h
      simp only at h
      cases hx : genAlt rnd o (genRule rnd o g fuel) r.alt {} with
      | panic => rw [hx] at h; cases h
      | fuel => rw [hx] at h; cases h
      | ok st =>
        rw [hx] at h h1
        simp only [Run.bnd, Run.ok.injEq, Except.ok.injEq] at h
        obtain ⟨w', hw, hdw⟩ := h1 trivial
        simp only [List.nil_append] at hw
        rw [← h, hw]
        exact hdw

/-- A recursive grammar for the examples: `list = "(" *3item ")"`, `item = 1*ALPHA / list / %x30.31`. -/
def lists : Grammar := ⟨[
  ⟨str% "list", [[⟨1, some 1, .charVal false ['(']⟩, ⟨0, some 3, .rulename (str% "ITEM")⟩, ⟨1, some 1, .charVal false [')']⟩]]⟩,
  ⟨str% "item", [[⟨1, none, .rulename (str% "alpha")⟩], [⟨1, some 1, .rulename (str% "list")⟩],
    [⟨1, some 1, .numVal ['x'] .series [str% "30", str% "31"]⟩]]⟩]⟩

theorem lists_resolves : Resolves lists (str% "List") (lists.rules[0]) :=
  (getRule_iff (namesDistinct_of (by decide))).mp (by decide +kernel)

example : NamesDistinct lists ∧ EmitReach lists (lists.rules[0]) ∧
    generate (fun n => n % 5 + n / 7) { repMax := 3 } lists 20 (str% "List") = .ok (.ok (bytes% "(((cG()))FJ((im((0101))())0101))")) :=
  ⟨namesDistinct_of (by decide), emitReach_of (by decide +kernel) lists_resolves, by decide +kernel⟩

/-- The grammar `a = "x" / <any word>`. -/
def proseAlt : Grammar := ⟨[⟨['a'], [[⟨1, some 1, .charVal false ['x']⟩], [⟨1, some 1, .proseVal [str% "any word"]⟩]]⟩]⟩

/-- C27 fails for prose-vals: the check passes because the other alternative can be generated, and then nothing is
written for the prose-val. -/
theorem C27_fails : NamesDistinct proseAlt ∧ semvalABNF proseAlt = none ∧
    generate (fun _ => 1) {} proseAlt 1 ['a'] = .ok (.ok []) ∧ ¬ DerivesRule proseAlt ['a'] [] := by
  have hd : NamesDistinct proseAlt := namesDistinct_of (by decide)
  refine ⟨hd, by decide +kernel, by decide +kernel, fun h => ?_⟩
  have hr : Resolves proseAlt ['a'] (proseAlt.rules[0]) := (getRule_iff hd).mp (by decide +kernel)
  obtain ⟨r, hr', h⟩ := derives_rulename.mp h
  obtain rfl := resolves_unique hd hr' hr rfl
  change DerivesAlt proseAlt [[⟨1, some 1, .charVal false ['x']⟩], [⟨1, some 1, .proseVal [str% "any word"]⟩]] [] at h
  rcases derivesAlt_cons.mp h with h | h
  · rw [derivesConcat_one, derivesRep_one, derives_chr] at h
    obtain ⟨c, _, h⟩ := h
    exact absurd (utf8_eq_nil h.symm) (by simp)
  · rcases derivesAlt_cons.mp h with h | h
    · rw [derivesConcat_one, derivesRep_one] at h
      have := (derives_term (cs := []) (by simp) (by simp) (by simp)).mp h
      cases this
    · cases h with
      | mk _ _ _ hc _ => cases hc

/-- C27 fails for surrogates: U+FFFD is written for them. -/
theorem C27_fails_surrogate : NamesDistinct surrogate ∧ semvalABNF surrogate = none ∧
    generate (fun _ => 0) {} surrogate 1 ['a'] = .ok (.ok [0xEF, 0xBF, 0xBD]) ∧
    ¬ DerivesRule surrogate ['a'] [0xEF, 0xBF, 0xBD] := by
  have hd : NamesDistinct surrogate := namesDistinct_of (by decide)
  refine ⟨hd, by decide +kernel, by decide +kernel, fun h => ?_⟩
  obtain ⟨_, _, _, _, _, _, _, h1⟩ := C24_fails
  exact h1 _ h

/-- C53.  `Generate` reports an unknown rule exactly when no rule has the name, and otherwise refuses exactly the rules
that derive nothing: recursion with no way out, or prose that cannot be avoided. -/
theorem C53_refuses (g : Grammar) (hd : NamesDistinct g) (name : Str) (rnd : Nat → Nat) (o : GenOpts) (fuel : Nat) :
    (generate rnd o g fuel name = .ok (.error .ruleNotFound) ↔ ¬ ∃ r, Resolves g name r) ∧
    ∀ r, Resolves g name r → ClosedReach g r → TextReach g r →
      (generate rnd o g fuel name = .ok (.error .cyclicRule) ↔ ¬ ∃ w, DerivesRule g name w) := by
  have hno : ∀ e, generate rnd o g fuel name = .ok (.error e) → checkCanGenerateSafely g name = .ok (some e) := by
    intro e h
    unfold generate at h
    cases hc : checkCanGenerateSafely g name with
    | panic => rw [hc] at h; cases h
    | fuel => rw [hc] at h; cases h
    | ok e' =>
      rw [hc, Run.bnd] at h
      cases e' with
      | some e' => simp only [Run.ok.injEq, Except.error.injEq] at h; rw [h]
      | none =>
        simp only at h
        cases hg : getRule name g.rules with
        | none => rw [hg] at h; cases h
        | some r =>
          rw [hg] at h
          simp only at h
          cases hx : genAlt rnd o (genRule rnd o g fuel) r.alt {} with
          | panic => rw [hx] at h; cases h
          | fuel => rw [hx] at h; cases h
          | ok st => rw [hx] at h; simp [Run.bnd] at h
  have hyes : ∀ e, checkCanGenerateSafely g name = .ok (some e) → generate rnd o g fuel name = .ok (.error e) := by
    intro e h
    unfold generate
    rw [h]
    rfl
  constructor
  · constructor
    · rintro h ⟨r, hr⟩
      have h1 := hno _ h
      unfold checkCanGenerateSafely at h1
      rw [(getRule_iff hd).mpr hr] at h1
      simp only at h1
      cases hx : checkGenAlt (checkGenRule g (g.rules.length + Core.rules.length + 1)) [name] r.alt with
      | panic => rw [hx] at h1; cases h1
      | fuel => rw [hx] at h1; cases h1
      | ok b => rw [hx] at h1; cases b <;> simp [Run.bnd] at h1
    · intro h
      apply hyes
      unfold checkCanGenerateSafely
      have : getRule name g.rules = none := by
        cases hg : getRule name g.rules with
        | none => rfl
        | some r => exact absurd (getRule_isSome.mp (by rw [hg]; rfl)) h
      rw [this]
  · intro r hr hc ht
    have hw : (∃ k, ExpRule g k name) ↔ ∃ w, DerivesRule g name w := by
      constructor
      · rintro ⟨k, hk⟩
        exact expRule_word k name (fun r' hr' => by rw [resolves_unique hd hr' hr rfl]; exact ht) hk
      · rintro ⟨w, hw⟩
        exact derives_exp hw
    rcases check_sat hd hr hc with ⟨h1, h2⟩ | ⟨h1, h2⟩
    · constructor
      · intro h
        rw [hno _ h] at h1
        cases h1
      · intro h; exact absurd (hw.mp h2) h
    · rw [hw] at h2
      exact ⟨fun _ => h2, fun _ => hyes _ h1⟩

/-- The grammar `a = b / *<word> c "x"`, `b = "(" b ")" / <word>`, `c = [a]`. -/
def tangled : Grammar := ⟨[⟨['a'], [[⟨1, some 1, .rulename ['b']⟩], [⟨0, none, .proseVal [str% "word"]⟩, ⟨1, some 1, .rulename ['C']⟩,
    ⟨1, some 1, .charVal false ['x']⟩]]⟩,
  ⟨['b'], [[⟨1, some 1, .charVal false ['(']⟩, ⟨1, some 1, .rulename ['b']⟩, ⟨1, some 1, .charVal false [')']⟩],
    [⟨1, some 1, .proseVal [str% "word"]⟩]]⟩,
  ⟨['c'], [[⟨1, some 1, .option [[⟨1, some 1, .rulename ['a']⟩]]⟩]]⟩]⟩

theorem tangled_resolves : Resolves tangled ['b'] (tangled.rules[1]) :=
  (getRule_iff (namesDistinct_of (by decide))).mp (by decide +kernel)

example : NamesDistinct tangled ∧ ClosedReach tangled (tangled.rules[1]) ∧ TextReach tangled (tangled.rules[1]) ∧
    generate (fun _ => 1) {} tangled 9 ['b'] = .ok (.error .cyclicRule) ∧
    generate (fun _ => 1) {} tangled 9 ['A'] = .ok (.ok (bytes% "x")) :=
  ⟨namesDistinct_of (by decide), closedReach_of (by decide +kernel) (by decide +kernel) tangled_resolves,
   textReach_of (by decide +kernel) tangled_resolves, by decide +kernel, by decide +kernel⟩

/-- C54.  `Generate` does not panic.  Missing from the full claim, and false there: rules that reach an undefined rule,
or a repetition whose minimum is one more than its maximum, where the maximum option stands in for a missing maximum. -/
theorem C54_nopanic_partial (g : Grammar) (hd : NamesDistinct g) (name : Str) (rnd : Nat → Nat) (o : GenOpts)
    (h : ∀ r, Resolves g name r → SafeReach g o.repMax r) (fuel : Nat) : generate rnd o g fuel name ≠ .panic := by
  intro hp
  by_cases hr : ∃ r, Resolves g name r
  · obtain ⟨r, hr⟩ := hr
    have hs := h r hr
    rcases check_sat hd hr (safe_closed hs) with ⟨h1, _⟩ | ⟨h1, _⟩
    · rw [generate_eq hd hr rnd o fuel h1] at hp
      have h2 := genRule_sat hd (rnd := rnd) (o := o) (pan := False) (mem := False) (fuel + 1) name {}
        (fun r' hr' => by rw [resolves_unique hd hr' hr rfl]; exact ⟨fun h => h.elim, .inr hs⟩) (.inr ⟨r, hr⟩)
      rw [genRule, (getRule_iff hd).mpr hr] at h2
      simp only at h2
      cases hx : genAlt rnd o (genRule rnd o g fuel) r.alt {} with
      | panic => rw [hx] at h2; exact h2
      | fuel => rw [hx] at hp; cases hp
      | ok st => rw [hx] at hp; cases hp
    · unfold generate at hp
      rw [h1] at hp
      cases hp
  · rw [((C53_refuses g hd name rnd o fuel).1).mpr hr] at hp
    cases hp

example : NamesDistinct lists ∧ (∀ r, Resolves lists (str% "List") r → SafeReach lists 16 r) :=
  ⟨namesDistinct_of (by decide), fun _ hr => safeReach_of (by decide +kernel) (by decide +kernel) hr⟩

/-- The grammar `a = 17*"x"`. -/
def seventeen : Grammar := ⟨[⟨['a'], [[⟨17, none, .charVal false ['x']⟩]]⟩]⟩

/-- C54 fails: with the default options, a repetition of 17 or more divides by zero, whatever the seed. -/
theorem C54_fails : NamesDistinct seventeen ∧ semvalABNF seventeen = none ∧
    ∀ rnd fuel, generate rnd {} seventeen fuel ['a'] = .panic := by
  have hd : NamesDistinct seventeen := namesDistinct_of (by decide)
  have hr : Resolves seventeen ['a'] (seventeen.rules[0]) := (getRule_iff hd).mp (by decide +kernel)
  refine ⟨hd, by decide +kernel, fun rnd fuel => ?_⟩
  rw [generate_eq hd hr rnd {} fuel (by decide +kernel)]
  have : (rnd 0) % 1 = 0 := Nat.mod_one _
  simp [seventeen, genAlt, genPick, genReps, toRep, Run.bnd, this]

/-- C55.  On a rule that leads to no recursion `Generate` ends, whatever the random stream: nesting as deep as there are
rules is enough. -/
theorem C55_ends (g : Grammar) (hd : NamesDistinct g) (name : Str) (r : Rule) (hr : Resolves g name r) (hn : NoCycleBelow g r)
    (rnd : Nat → Nat) (o : GenOpts) (hs : SafeReach g o.repMax r) (fuel : Nat) (hf : g.rules.length + Core.rules.length ≤ fuel) :
    ∃ res, generate rnd o g fuel name = .ok res := by
  have h1 : generate rnd o g fuel name ≠ .panic :=
    C54_nopanic_partial g hd name rnd o (fun r' hr' => by rw [resolves_unique hd hr' hr rfl]; exact hs) fuel
  have h2 : generate rnd o g fuel name ≠ .fuel := by
    intro hp
    rcases check_sat hd hr (safe_closed hs) with ⟨hc, _⟩ | ⟨hc, _⟩
    · rw [generate_eq hd hr rnd o fuel hc] at hp
      have h3 := genRule_ends hd (rnd := rnd) (o := o) (fuel + 1) [] name {} (by simp) (by simp)
        (fun r' hr' => by rw [resolves_unique hd hr' hr rfl]; exact ⟨hn, by simp⟩)
        (by simp only [ruleKeys, List.length_map, List.length_append, List.length_nil]; omega)
      rw [genRule, (getRule_iff hd).mpr hr] at h3
      simp only at h3
      cases hx : genAlt rnd o (genRule rnd o g fuel) r.alt {} with
      | panic => rw [hx] at hp; cases hp
      | fuel => rw [hx] at h3; exact h3
      | ok st => rw [hx] at hp; cases hp
    · unfold generate at hp
      rw [hc] at hp
      cases hp
  cases hx : generate rnd o g fuel name with
  | ok res => exact ⟨res, rfl⟩
  | panic => exact absurd hx h1
  | fuel => exact absurd hx h2

example : NamesDistinct greeting ∧ Resolves greeting (str% "GREETING") (greeting.rules[0]) ∧ NoCycleBelow greeting (greeting.rules[0]) ∧
    SafeReach greeting 16 (greeting.rules[0]) ∧
    generate (fun n => 2 * n) {} greeting 18 (str% "GREETING") = .ok (.ok (bytes% "Hi.MCIOEKA-A")) := by
  have hd : NamesDistinct greeting := namesDistinct_of (by decide)
  refine ⟨hd, greeting_resolves, fun h => ?_, safeReach_of (by decide +kernel) (by decide +kernel) greeting_resolves, by decide +kernel⟩
  obtain ⟨b, h1, h2⟩ := (C20_exact greeting hd Core.rules (.refl _) (plainOrder greeting) (.refl _) (str% "GREETING")).2 _ greeting_resolves
  have h3 : ruleContainsCycle Core.rules greeting (plainOrder greeting) (str% "GREETING") = some (.ok false) := by decide +kernel
  rw [h1, h2.mpr h] at h3
  cases h3

/-- The grammar `a = "x" / a`. -/
def looping : Grammar := ⟨[⟨['a'], [[⟨1, some 1, .charVal false ['x']⟩], [⟨1, some 1, .rulename ['a']⟩]]⟩]⟩

/-- On a recursive rule that `Generate` accepts a random stream can make it recurse for ever. -/
theorem C55_recursive : NamesDistinct looping ∧ semvalABNF looping = none ∧
    ∀ fuel, generate (fun _ => 1) {} looping fuel ['a'] = .fuel := by
  have hd : NamesDistinct looping := namesDistinct_of (by decide)
  have hr : Resolves looping ['a'] (looping.rules[0]) := (getRule_iff hd).mp (by decide +kernel)
  have key : ∀ fuel st, genRule (fun _ => 1) {} looping fuel ['a'] st = .fuel := by
    intro fuel
    induction fuel with
    | zero => intro st; rfl
    | succ k ih =>
      intro st
      rw [genRule, (getRule_iff hd).mpr hr]
      simp [looping, genAlt, genPick, genReps, toRep, genLoop, generateKeepGoing, genElem, Run.bnd] at ih ⊢
      rw [ih]
  refine ⟨hd, by decide +kernel, fun fuel => ?_⟩
  rw [generate_eq hd hr _ {} fuel (by decide +kernel)]
  have := key (fuel + 1) {}
  rw [genRule, (getRule_iff hd).mpr hr] at this
  simp only at this
  rw [this]
  rfl

end Props
end Verif
