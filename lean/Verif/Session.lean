import Verif.PropsMeta

/-!
# Calls of `ParseABNF` one after another

`coreRules` (/repo/rules.go:7) is a variable of the package.  `GetRule` (/repo/utils.go:136-143) reads it, so it is part
of the ABNF meta-grammar that `ParseABNF` parses with and of the check which names are core rules; `=/` on a core rule
changes it (/repo/grammar.go:185-190).  Here `ParseABNF` is a function of the value of `coreRules` before the call, and
also says its value after the call.
-/

namespace Verif
open Spec

namespace Session
open Eval

/-- The meta-grammar `ABNF` (/repo/abnf.go) when `coreRules` is `core`: `GetRule` looks up the rules of the grammar first
and then `coreRules` (/repo/utils.go:136-143).  As in the other modules the rules of `Core.rules` come after these, and
are not found if `core` has rules with the same names. -/
def abnfWith (core : List Rule) : Grammar := ⟨Abnf.grammar.rules ++ core⟩

/-- The loop of `feval.rulelist` (/repo/grammar.go:164-192), with the state it stops in. -/
def rulesFrom (inp : Bytes) (redefineCore : Bool) (st : EvalSt) : List ParseTree → Option AbnfErr × EvalSt
  | [] => (none, st)
  | t :: ts =>
    if t.rule = str% "rule" then
      match rule inp t with
      | .error e => (some (.tree e), st)
      | .ok d =>
        match evalDef redefineCore st d with
        | .error e => (some (.eval e), st)
        | .ok st' => rulesFrom inp redefineCore st' ts
    else rulesFrom inp redefineCore st ts

/-- The inner loop of the dependency check (/repo/grammar.go:393-400) when `coreRules` is `core`. -/
def depsWith (core rs : List Rule) : List Str → Option SemErr
  | [] => none
  | d :: ds => if (getRule d (rs ++ core)).isSome then depsWith core rs ds else some (.dependencyNotFound d)

/-- `SemvalABNF` (/repo/grammar.go:389-409) when `coreRules` is `core`. -/
def semvalWith (core : List Rule) (g : Grammar) : Option SemErr :=
  (g.rules.findSome? fun r => depsWith core g.rules (getDependencies r.alt)).or
    (g.rules.findSome? fun r => semvalAlternation r.alt)

/-- `ParseABNF` (/repo/grammar.go:77-106) when `coreRules` is `core`, and the value of `coreRules` afterwards. -/
def parseABNFWith (core : List Rule) (sched : Sched NodeKey) (inp : Bytes) (opts : List ABNFOption) :
    Except AbnfErr Grammar × List Rule :=
  let o := processOptions opts
  match parseForest sched inp (abnfWith core) (str% "rulelist") 0 65536 with
  | .error e => (.error (.forest e), core)
  | .ok f =>
    if f.valid = false then (.error (.syntax f.parseError), core)
    else
      match f.ambiguous with
      | none => (.error .stuck, core)
      | some true => (.error .multipleSolutions, core)
      | some false =>
        match f.tree with
        | none => (.error (.tree .noSolution), core)
        | some t =>
          match rulesFrom inp o.redefineCore ⟨[], core⟩ t.children with
          | (some e, st) => (.error e, st.core)
          | (none, st) =>
            if o.validate = true then
              match semvalWith st.core (grammarOf st) with
              | some e => (.error (.semantic e), st.core)
              | none => (.ok (grammarOf st), st.core)
            else (.ok (grammarOf st), st.core)

/-- A call of `ParseABNF`: its order of map iteration, its input and its options. -/
structure Call where
  sched : Sched NodeKey
  inp : Bytes
  opts : List ABNFOption

/-- A program that calls `ParseABNF` several times: what the calls return, and `coreRules` at the end. -/
def run (core : List Rule) : List Call → List (Except AbnfErr Grammar) × List Rule
  | [] => ([], core)
  | c :: cs =>
    let r := parseABNFWith core c.sched c.inp c.opts
    let q := run r.2 cs
    (r.1 :: q.1, q.2)

/-! ## The first call -/

theorem compile_fresh : compileSlots (abnfWith Core.rules) (str% "rulelist") 65536 = compileSlots Abnf.grammar (str% "rulelist") 65536 := by
  decide +kernel

theorem forest_fresh (sched : Sched NodeKey) (inp : Bytes) :
    parseForest sched inp (abnfWith Core.rules) (str% "rulelist") 0 65536 = parseForest sched inp Abnf.grammar (str% "rulelist") 0 65536 := by
  unfold parseForest
  rw [compile_fresh]

theorem rules_run (inp : Bytes) (rc : Bool) : ∀ (ts : List ParseTree) (st : EvalSt),
    rules inp rc st ts = match rulesFrom inp rc st ts with | (some e, _) => .error e | (none, st') => .ok st'
  | [], st => rfl
  | t :: ts, st => by
    rw [rules, rulesFrom]
    split_ifs
    · cases rule inp t with
      | error e => rfl
      | ok d =>
        simp only
        cases evalDef rc st d with
        | error e => rfl
        | ok st' => exact rules_run inp rc ts st'
    · exact rules_run inp rc ts st

/-- The rules have the names of the core rules. -/
def CoreNames (core : List Rule) : Prop := core.map Rule.name = Core.rules.map Rule.name

theorem extendIn_names (n : Str) (a : Alt) : ∀ core : List Rule, (extendIn n a core).map Rule.name = core.map Rule.name
  | [] => rfl
  | r :: rs => by
    rw [extendIn]
    split_ifs
    · rfl
    · simp [extendIn_names n a rs]

theorem evalDef_names {rc : Bool} {st st' : EvalSt} {d : Def} (h : evalDef rc st d = .ok st') : st'.core.map Rule.name = st.core.map Rule.name := by
  unfold evalDef at h
  simp only at h
  split_ifs at h
  · cases h; rfl
  · cases h; rfl
  · split at h
    · rename_i mp sh _
      cases h
      cases sh
      · rfl
      · exact extendIn_names _ _ _
    · split at h
      · cases h
      · cases h; exact extendIn_names _ _ _

theorem run_names {inp : Bytes} {rc : Bool} : ∀ {ts : List ParseTree} {st : EvalSt},
    (rulesFrom inp rc st ts).2.core.map Rule.name = st.core.map Rule.name
  | [], st => rfl
  | t :: ts, st => by
    rw [rulesFrom]
    split_ifs
    · cases rule inp t with
      | error e => rfl
      | ok d =>
        simp only
        cases hd : evalDef rc st d with
        | error e => rfl
        | ok st' => exact (run_names (ts := ts)).trans (evalDef_names hd)
    · exact run_names

theorem getRuleIn_names {n : Str} : ∀ {rs rs' : List Rule}, rs.map Rule.name = rs'.map Rule.name →
    (getRuleIn n rs).isSome = (getRuleIn n rs').isSome
  | [], [], _ => rfl
  | [], _ :: _, h => by cases h
  | _ :: _, [], h => by cases h
  | r :: rs, r' :: rs', h => by
    simp only [List.map_cons, List.cons.injEq] at h
    unfold getRuleIn
    rw [List.find?_cons, List.find?_cons, h.1]
    cases equalFold n r'.name
    · exact getRuleIn_names h.2
    · rfl

theorem semval_names {core : List Rule} (h : CoreNames core) (g : Grammar) : semvalWith core g = semvalABNF g := by
  have hg : ∀ d, (getRule d (g.rules ++ core)).isSome = (getRule d g.rules).isSome := by
    intro d
    have := getRuleIn_names (n := d) h
    unfold getRule getRuleIn at *
    rw [List.find?_append]
    cases g.rules.find? fun r => equalFold d r.name with
    | some x => rfl
    | none =>
      simp only [Option.none_or]
      cases hc : core.find? fun r => equalFold d r.name with
      | none => rfl
      | some x => rw [hc] at this; exact this
  have hd : ∀ ds, depsWith core g.rules ds = semvalDeps g.rules ds := by
    intro ds
    induction ds with
    | nil => rfl
    | cons d ds ih => rw [depsWith, semvalDeps, hg, ih]
  unfold semvalWith semvalABNF
  simp only [hd]

/-- A call in a program that has just started is the call the other modules describe. -/
theorem parse_fresh (sched : Sched NodeKey) (inp : Bytes) (opts : List ABNFOption) :
    (parseABNFWith Core.rules sched inp opts).1 = parseABNF sched inp opts := by
  unfold parseABNFWith parseABNF
  simp only [forest_fresh]
  cases parseForest sched inp Abnf.grammar (str% "rulelist") 0 65536 with
  | error e => rfl
  | ok f =>
    simp only
    by_cases hv : f.valid = false
    · rw [if_pos hv, if_pos hv]
    · rw [if_neg hv, if_neg hv]
      cases f.ambiguous with
      | none => rfl
      | some b =>
        cases b with
        | true => rfl
        | false =>
          simp only
          cases f.tree with
          | none => rfl
          | some t =>
            simp only [evaluate, rules_run]
            have hn := run_names (inp := inp) (rc := (processOptions opts).redefineCore) (ts := t.children) (st := ⟨[], Core.rules⟩)
            cases hr : rulesFrom inp (processOptions opts).redefineCore ⟨[], Core.rules⟩ t.children with
            | mk e st =>
              rw [hr] at hn
              cases e with
              | some e => rfl
              | none =>
                simp only [semval_names (show CoreNames st.core from hn)]
                split_ifs
                · cases semvalABNF (grammarOf st) <;> rfl
                · rfl

/-! ## Calls that leave the core rules alone -/

/-- No entry of the map is an entry of `coreRules`. -/
def Own (st : EvalSt) : Prop := ∀ p ∈ st.mp, p.2 = false

theorem own_set {e : Rule × Bool} (he : e.2 = false) {m : List (Rule × Bool)} (hm : ∀ p ∈ m, p.2 = false) : ∀ p ∈ mpSet e m, p.2 = false := by
  intro p hp
  rcases Props.mem_mpSet hp with rfl | h
  · exact he
  · exact hm p h

theorem own_extend {n : Str} {a : Alt} : ∀ {m m' : List (Rule × Bool)} {b : Bool}, extendMp n a m = some (m', b) →
    (∀ p ∈ m, p.2 = false) → b = false ∧ ∀ p ∈ m', p.2 = false
  | [], _, _, h, _ => by cases h
  | q :: m, m', b, h, hm => by
    rw [extendMp] at h
    split_ifs at h
    · cases h
      refine ⟨hm q (by simp), fun p hp => ?_⟩
      rcases List.mem_cons.mp hp with rfl | hp
      · exact hm q (by simp)
      · exact hm p (by simp [hp])
    · cases hr : extendMp n a m with
      | none => rw [hr] at h; cases h
      | some x =>
        rw [hr] at h
        cases h
        obtain ⟨h1, h2⟩ := own_extend hr fun p hp => hm p (by simp [hp])
        refine ⟨h1, fun p hp => ?_⟩
        rcases List.mem_cons.mp hp with rfl | hp
        · exact hm _ (by simp)
        · exact h2 p hp

theorem evalDef_keeps {rc : Bool} {st st' : EvalSt} {d : Def} (hs : Own st) (h : evalDef rc st d = .ok st')
    (hx : rc = false ∨ d.extend = false ∨ getRuleIn d.name st.core = none) : st'.core = st.core ∧ Own st' := by
  unfold evalDef at h
  simp only at h
  split_ifs at h with h1 h2 h3 h4 h5
  · cases h; exact ⟨rfl, own_set rfl hs⟩
  · cases h; exact ⟨rfl, own_set rfl hs⟩
  · split at h
    · rename_i mp sh hm
      cases h
      obtain ⟨h6, h7⟩ := own_extend hm hs
      exact ⟨by simp [h6], h7⟩
    · split at h
      · cases h
      · rename_i r hr
        rcases hx with hx | hx | hx
        · exact absurd ⟨hx, by rw [hr]; rfl⟩ h5
        · exact absurd hx h1
        · rw [hr] at hx; cases hx

/-- The definitions the children called `rule` say. -/
def Says (inp : Bytes) (ts : List ParseTree) (d : Def) : Prop := ∃ t ∈ ts, t.rule = str% "rule" ∧ rule inp t = .ok d

theorem run_keeps {inp : Bytes} {rc : Bool} : ∀ {ts : List ParseTree} {st : EvalSt}, Own st →
    (rc = false ∨ ∀ d, Says inp ts d → d.extend = true → getRuleIn d.name st.core = none) →
    (rulesFrom inp rc st ts).2.core = st.core
  | [], st, _, _ => rfl
  | t :: ts, st, hs, hx => by
    have hx' : rc = false ∨ ∀ d, Says inp ts d → d.extend = true → getRuleIn d.name st.core = none :=
      hx.imp id fun h d ⟨u, h1, h2⟩ => h d ⟨u, List.mem_cons_of_mem _ h1, h2⟩
    rw [rulesFrom]
    split_ifs with ht
    · cases hr : rule inp t with
      | error e => rfl
      | ok d =>
        simp only
        cases hd : evalDef rc st d with
        | error e => rfl
        | ok st' =>
          obtain ⟨h1, h2⟩ := evalDef_keeps hs hd (hx.imp id fun h => by
            cases he : d.extend with
            | false => exact .inl rfl
            | true => exact .inr (h d ⟨t, by simp, ht, hr⟩ he))
          simp only
          rw [run_keeps h2 (by rw [h1]; exact hx'), h1]
    · exact run_keeps hs hx'

theorem parse_keeps (core : List Rule) (sched : Sched NodeKey) (inp : Bytes) (opts : List ABNFOption)
    (hx : (processOptions opts).redefineCore = false ∨ ∀ f t, parseForest sched inp (abnfWith core) (str% "rulelist") 0 65536 = .ok f →
      f.valid = true → f.tree = some t → ∀ d, Says inp t.children d → d.extend = true → getRuleIn d.name core = none) :
    (parseABNFWith core sched inp opts).2 = core := by
  unfold parseABNFWith
  simp only
  cases hp : parseForest sched inp (abnfWith core) (str% "rulelist") 0 65536 with
  | error e => rfl
  | ok f =>
    simp only
    by_cases hv : f.valid = false
    · rw [if_pos hv]
    · rw [if_neg hv]
      cases f.ambiguous with
      | none => rfl
      | some b =>
        cases b with
        | true => rfl
        | false =>
          simp only
          cases ht : f.tree with
          | none => rfl
          | some t =>
            have hk := run_keeps (inp := inp) (rc := (processOptions opts).redefineCore) (ts := t.children) (st := ⟨[], core⟩)
              (fun p hp => by cases hp) (hx.imp id fun h => h f t hp (by simpa using hv) ht)
            cases hr : rulesFrom inp (processOptions opts).redefineCore ⟨[], core⟩ t.children with
            | mk e st =>
              rw [hr] at hk
              simp only
              rw [hr]
              cases e with
              | some e => exact hk
              | none =>
                simp only
                split_ifs
                · cases semvalWith st.core (grammarOf st) <;> exact hk
                · exact hk

theorem defs_says {inp : Bytes} : ∀ {ts : List ParseTree} {ds : List Def}, Eval.defs inp ts = .ok ds → ∀ d, Says inp ts d → d ∈ ds
  | [], ds, _, d, ⟨t, h, _⟩ => by cases h
  | t :: ts, ds, h, d, ⟨u, hu, hr, hd⟩ => by
    rw [Eval.defs] at h
    split_ifs at h with ht
    · cases ho : rule inp t with
      | error e => rw [ho] at h; cases h
      | ok d' =>
        rw [ho] at h
        cases hs : Eval.defs inp ts with
        | error e => rw [hs] at h; cases h
        | ok ds' =>
          rw [hs] at h
          cases h
          rcases List.mem_cons.mp hu with rfl | hu
          · rw [ho] at hd; cases hd; simp
          · exact List.mem_cons_of_mem _ (defs_says hs d ⟨u, hu, hr, hd⟩)
    · rcases List.mem_cons.mp hu with rfl | hu
      · exact absurd hr ht
      · exact defs_says h d ⟨u, hu, hr, hd⟩

/-- The loop of `feval.rulelist` (/repo/grammar.go:164-192) on evaluated definitions, with the state it stops in. -/
def defsFrom (rc : Bool) (st : EvalSt) : List Def → EvalSt
  | [] => st
  | d :: ds =>
    match evalDef rc st d with
    | .error _ => st
    | .ok st' => defsFrom rc st' ds

theorem rulesFrom_defs {inp : Bytes} {rc : Bool} : ∀ {ts : List ParseTree} {ds : List Def} {st : EvalSt}, Eval.defs inp ts = .ok ds →
    (rulesFrom inp rc st ts).2 = defsFrom rc st ds
  | [], ds, st, h => by
    rw [Eval.defs] at h
    cases h
    rfl
  | t :: ts, ds, st, h => by
    rw [Eval.defs] at h
    rw [rulesFrom]
    split_ifs at h ⊢ with hr
    · cases hd : rule inp t with
      | error e => rw [hd] at h; cases h
      | ok d =>
        rw [hd] at h
        cases hds : Eval.defs inp ts with
        | error e => rw [hds] at h; cases h
        | ok ds' =>
          rw [hds] at h
          cases h
          rw [defsFrom]
          simp only
          cases evalDef rc st d with
          | error e => rfl
          | ok st' => exact rulesFrom_defs hds
    · exact rulesFrom_defs h

end Session

namespace Props
open Spec Text Eval Session

/-- The call cannot touch the core rules: it is made without `WithRedefineCoreRules(true)`, or its input, if it is a
source text, extends none of them. -/
def Harmless (c : Call) : Prop :=
  (processOptions c.opts).redefineCore = false ∨
    ∀ s ds, c.inp = utf8 s → ReadsFile code s ds → ∀ d ∈ ds, d.extend = true → ¬ IsCoreName d.name

/-- C86.  A call made without `WithRedefineCoreRules(true)` leaves the core rules as they are, whatever they are. -/
theorem C86_strict (core : List Rule) (sched : Sched NodeKey) (inp : Bytes) (opts : List ABNFOption)
    (h : (processOptions opts).redefineCore = false) : (parseABNFWith core sched inp opts).2 = core :=
  parse_keeps core sched inp opts (.inl h)

theorem harmless_keeps {c : Call} (hf : c.sched.Fair) (h : Harmless c) : (parseABNFWith Core.rules c.sched c.inp c.opts).2 = Core.rules := by
  refine parse_keeps _ _ _ _ (h.imp id fun h f t hp hv ht d hd he => ?_)
  rw [forest_fresh] at hp
  obtain ⟨t', s, ds, ht', hi, hr, hds⟩ := abnf_tree hf hp hv
  rw [ht] at ht'
  cases ht'
  exact (isCoreName_iff _).mpr (h s ds hi hr d (defs_says hds d hd) he)

/-- C86.  In a program all of whose calls are harmless, every call returns what it would return as the first call of the
program: no call is influenced by the ones before. -/
theorem C86_independent (cs : List Call) (hf : ∀ c ∈ cs, c.sched.Fair) (h : ∀ c ∈ cs, Harmless c) :
    run Core.rules cs = (cs.map fun c => parseABNF c.sched c.inp c.opts, Core.rules) := by
  induction cs with
  | nil => rfl
  | cons c cs ih =>
    rw [run]
    simp only [harmless_keeps (hf c (by simp)) (h c (by simp)), parse_fresh, ih (fun c hc => hf c (by simp [hc])) (fun c hc => h c (by simp [hc]))]
    rfl

/-- C86.  What a first call does to the core rules is what the definitions of its text do, up to the first one that is
refused; so the core rules can change even if the call fails. -/
theorem C86_core (sched : Sched NodeKey) (hf : sched.Fair) (opts : List ABNFOption) (s : Str) (ds : List Def) (h : ReadsFile code s ds) :
    (parseABNFWith Core.rules sched (utf8 s) opts).2 = (defsFrom (processOptions opts).redefineCore ⟨[], Core.rules⟩ ds).core := by
  obtain ⟨f, hp⟩ := abnf_forest sched hf (utf8 s)
  have hv := (C01_exact _ Abnf.numValsWF Abnf.namesDistinct Abnf.distinctPrint sched hf _ _ 0 65536 f hp).mpr
    (Abnf.says_rulelist.mpr ⟨ds, h⟩)
  obtain ⟨t, s', ds', ht, he, hr, hd⟩ := abnf_tree hf hp hv
  obtain rfl := utf8_inj he
  obtain rfl := h.unique hr
  have ha := (C76_sppf sched hf _ _ 0 65536 f hp).1
  have hk := rulesFrom_defs (rc := (processOptions opts).redefineCore) (st := ⟨[], Core.rules⟩) hd
  unfold parseABNFWith
  simp only [forest_fresh, hp, hv, ha, ht]
  rw [if_neg (by simp), ← hk]
  cases hr : rulesFrom (utf8 s) (processOptions opts).redefineCore ⟨[], Core.rules⟩ t.children with
  | mk e st =>
    cases e with
    | some e => rfl
    | none =>
      simp only
      split_ifs
      · cases semvalWith st.core (grammarOf st) <;> rfl
      · rfl

/-- `ALPHA =/ "-"`. -/
def dashText : Str := str% "ALPHA=/\"-\"\r\n"
/-- What it says. -/
def dashDefs : List Def := [⟨str% "ALPHA", true, [[Ex.one (Ex.lit (str% "-"))]]⟩]
/-- The core rules it leaves behind. -/
def dashCore : List Rule := extendIn (str% "ALPHA") [[Ex.one (Ex.lit (str% "-"))]] Core.rules

theorem dash_reads : ReadsFile code dashText dashDefs := by
  refine ⟨by decide, ?_⟩
  have hx : ReadsAlt code (str% "\"-\"") [[Ex.one (Ex.lit (str% "-"))]] :=
    .one _ _ (.one _ _ (.mk [] _ _ _ _ .none (.string ['-'] (by decide))))
  have l := ReadsRule.extend (str% "ALPHA") [] [] _ _ [] (str% "\r\n") (nameOK_iff.mp (by decide)) .nil .nil hx (by simp) .plain
  exact .rule _ _ _ _ l .nil

theorem dash_core (sched : Sched NodeKey) (hf : sched.Fair) :
    (parseABNFWith Core.rules sched (utf8 dashText) [.withRedefineCoreRules true]).2 = dashCore :=
  (C86_core sched hf _ dashText dashDefs dash_reads).trans rfl

/-- The meta-grammar with these core rules. -/
def dashAbnf : Grammar := abnfWith dashCore

theorem dash_valid (sched : Sched NodeKey) (hf : sched.Fair) :
    ∃ f, parseForest sched (bytes% "-=A\r\n") dashAbnf (str% "rulelist") 0 65536 = .ok f ∧ f.valid = true := by
  have hwf : NumValsWF dashAbnf := numValsWF_of (by decide +kernel)
  have hd : NamesDistinct dashAbnf := namesDistinct_of (by decide +kernel)
  have hdp : DistinctPrint dashAbnf := distinctPrint_of (by decide +kernel)
  have hc : ∃ sg, compileSlots dashAbnf (str% "rulelist") 65536 = .ok sg := by
    have h : (match compileSlots dashAbnf (str% "rulelist") 65536 with | .ok _ => true | .error _ => false) = true := by
      decide +kernel
    cases hc : compileSlots dashAbnf (str% "rulelist") 65536 with
    | ok sg => exact ⟨sg, rfl⟩
    | error e => rw [hc] at h; cases h
  obtain ⟨sg, hsg⟩ := hc
  have hall : ∀ sched : Sched NodeKey, sched.Fair → ∃ f, parseForest sched (bytes% "-=A\r\n") dashAbnf (str% "rulelist") 0 65536 = .ok f := by
    intro sched hf
    obtain ⟨st, h⟩ := parseForest_eq hf (inp := bytes% "-=A\r\n") hsg
    rw [h 0, if_neg (fun h => absurd h.1 (lt_irrefl 0))]
    exact ⟨_, rfl⟩
  obtain ⟨f, hp⟩ := hall sched hf
  refine ⟨f, hp, (C01_exact _ hwf hd hdp sched hf _ _ 0 65536 f hp).mpr ?_⟩
  obtain ⟨f', hp'⟩ := hall fwd fwd_fair
  refine (C01_exact _ hwf hd hdp fwd fwd_fair _ _ 0 65536 f' hp').mp ?_
  have h : (match parseForest fwd (bytes% "-=A\r\n") dashAbnf (str% "rulelist") 0 65536 with | .ok f => f.valid | .error _ => false) = true := by
    decide +kernel
  rw [hp'] at h
  exact h

theorem dash_refused (sched : Sched NodeKey) (hf : sched.Fair) (opts : List ABNFOption) :
    ∃ e, parseABNF sched (bytes% "-=A\r\n") opts = .error (.syntax (some e)) := by
  refine (C77_syntax sched hf opts _).mpr ?_
  rintro ⟨s, ds, he, hr⟩
  have he' : utf8 (str% "-=A\r\n") = utf8 s := he
  obtain rfl := utf8_inj he'
  obtain ⟨_, h⟩ := hr
  generalize hs : (str% "-=A\r\n") = s at h
  cases h with
  | rule s d t ds h _ =>
    cases h with
    | define n g₁ g₂ s a ws nl h1 h2 h3 h4 h5 h6 =>
      cases n with
      | nil => exact h1
      | cons c n =>
        obtain rfl : '-' = c := (List.cons.inj hs).1
        exact absurd (nameOK_iff.mpr h1) (by simp [nameOK, Char.isAlpha, Char.isUpper, Char.isLower])
    | extend n g₁ g₂ s a ws nl h1 h2 h3 h4 h5 h6 =>
      cases n with
      | nil => exact h1
      | cons c n =>
        obtain rfl : '-' = c := (List.cons.inj hs).1
        exact absurd (nameOK_iff.mpr h1) (by simp [nameOK, Char.isAlpha, Char.isUpper, Char.isLower])
  | blank ws nl t ds h1 h2 _ =>
    cases ws with
    | nil =>
      cases h2 with
      | plain => cases hs
      | comment => cases hs
    | cons c ws =>
      obtain rfl : '-' = c := (List.cons.inj hs).1
      have := h1 '-' (by simp)
      revert this
      unfold Wsp
      decide
  | nil => cases hs

theorem run_syntax {inp : Bytes} {rc : Bool} {p : Option ParseError} : ∀ (ts : List ParseTree) {st : EvalSt},
    (rulesFrom inp rc st ts).1 ≠ some (.syntax p)
  | [], st => nofun
  | t :: ts, st => by
    rw [rulesFrom]
    split_ifs
    · cases rule inp t with
      | error e => nofun
      | ok d =>
        simp only
        cases evalDef rc st d with
        | error e => nofun
        | ok st' => exact run_syntax ts
    · exact run_syntax ts

/-- C86 fails with `WithRedefineCoreRules(true)`: after the call for `ALPHA =/ "-"`, a call with the default options reads
`-=A` where it would report a syntax error otherwise. -/
theorem C86_redefine_fails (sched : Sched NodeKey) (hf : sched.Fair) : ∃ c c' : Call, c.sched = sched ∧ c'.sched = sched ∧ c'.opts = [] ∧
    (run Core.rules [c, c']).1 ≠ [parseABNF c.sched c.inp c.opts, parseABNF c'.sched c'.inp c'.opts] := by
  refine ⟨⟨sched, utf8 dashText, [.withRedefineCoreRules true]⟩, ⟨sched, bytes% "-=A\r\n", []⟩, rfl, rfl, rfl, ?_⟩
  intro h
  simp only [run, List.cons.injEq, dash_core sched hf] at h
  obtain ⟨_, h, _⟩ := h
  obtain ⟨e, he⟩ := dash_refused sched hf []
  rw [he] at h
  obtain ⟨f, h1, h2⟩ := dash_valid sched hf
  unfold parseABNFWith at h
  rw [show abnfWith dashCore = dashAbnf from rfl, h1] at h
  simp only [h2] at h
  rw [if_neg (by simp)] at h
  cases ha : f.ambiguous with
  | none => rw [ha] at h; cases h
  | some b =>
    rw [ha] at h
    cases b with
    | true => cases h
    | false =>
      simp only at h
      cases ht : f.tree with
      | none => rw [ht] at h; cases h
      | some t =>
        rw [ht] at h
        simp only at h
        cases hr : rulesFrom (bytes% "-=A\r\n") (processOptions []).redefineCore ⟨[], dashCore⟩ t.children with
        | mk x st =>
          rw [hr] at h
          cases x with
          | some x =>
            cases h
            exact run_syntax _ (congrArg Prod.fst hr)
          | none =>
            simp only at h
            split_ifs at h
            · cases hv : semvalWith st.core (grammarOf st) with
              | some x => rw [hv] at h; cases h
              | none => rw [hv] at h; cases h

/-- C86 for two calls, one for a source text and one that fails. -/
example : Harmless ⟨fwd, utf8 srcText, []⟩ ∧ Harmless ⟨fwd, utf8 (str% "a = b"), [.withRedefineCoreRules false]⟩ ∧ (fwd : Sched NodeKey).Fair :=
  ⟨.inl rfl, .inl rfl, fwd_fair⟩

/-- C86 for a call with `WithRedefineCoreRules(true)` whose text extends a rule of its own. -/
example : Harmless ⟨fwd, utf8 srcText, [.withRedefineCoreRules true]⟩ := by
  refine .inr fun s ds he h d hd hx => (isCoreName_iff _).mp ?_
  obtain rfl := utf8_inj he
  obtain rfl := (file_code src_reads (by unfold Fits; decide) src_quiet).unique h
  clear hx
  revert d
  decide +kernel

end Props
end Verif
