import Verif.NearMiss
import Verif.PropsExpect
import Verif.PropsRecog
import Verif.PropsRegex

/-!
# Properties of `NearMiss`: C32, C70 and C71
-/

namespace Verif.Props

open Verif Verif.Spec

/-- `p` differs from `base` as a label says.  A boundary that is a surrogate is written as U+FFFD. -/
inductive Perturbs (base : Bytes) : Miss → Bytes → Prop
  | range (u x v : Bytes) (above : Bool) (e : Elem) (c : Char) (hb : base = u ++ x ++ v) (hx : ∀ g, Emittable e → Derives g e x)
      (hr : ∃ b es, e = .numVal b .range es)
      (hc : ∀ b s t lo hi, e = .numVal b .range [s, t] → Denotes b s lo → Denotes b t hi →
        ∃ n, (above = false → n + 1 = lo) ∧ (above = true → n = min hi 0x10FFFF + 1) ∧ n ≤ 0x10FFFF ∧
          (c.toNat = n ∨ 0xD800 ≤ n ∧ n ≤ 0xDFFF ∧ c.toNat = 0xFFFD)) :
      Perturbs base (.range u.length above e) (u ++ utf8 [c] ++ v)
  | subst (u : Bytes) (b : UInt8) (v : Bytes) (nb : UInt8) (hb : base = u ++ b :: v) (hne : nb ≠ b) :
      Perturbs base (.subst u.length nb) (u ++ nb :: v)
  | truncated (u v : Bytes) (hb : base = u ++ v) (hne : v ≠ []) : Perturbs base (.truncated v.length u.length) u
  | trailing (b : UInt8) : Perturbs base (.trailing b) (base ++ [b])
  | deleted (u : Bytes) (b : UInt8) (v : Bytes) (hb : base = u ++ b :: v) : Perturbs base (.deleted u.length) (u ++ v)

theorem runeChar_cases {n : Nat} (h : n ≤ 0x10FFFF) :
    (runeChar n).toNat = n ∨ 0xD800 ≤ n ∧ n ≤ 0xDFFF ∧ (runeChar n).toNat = 0xFFFD := by
  by_cases hv : validRune n = true
  · exact .inl (runeChar_toNat hv)
  · right
    have h1 : ¬ (n < 0xD800 ∨ (0xDFFF < n ∧ n < 0x110000)) := fun h => hv ((validRune_iff n).mpr h)
    refine ⟨by omega, by omega, ?_⟩
    rw [runeChar, if_neg hv]
    decide

theorem rangeMisses_ok {base : Bytes} {trace : List TraceSeg} (ht : TraceOK base trace) {s : TraceSeg} (hs : s ∈ trace) {c : Candidate}
    (hc : c ∈ rangeMisses base s) : Perturbs base c.2 c.1 := by
  obtain ⟨h1, h2⟩ := ht s hs
  have hlen : (base.take s.off).length = s.off := by rw [List.length_take]; omega
  have hbase : base = base.take s.off ++ (base.drop s.off).take s.len ++ base.drop (s.off + s.len) := by
    rw [List.append_assoc, ← List.drop_drop, List.take_append_drop, List.take_append_drop]
  unfold rangeMisses at hc
  split at hc
  · rename_i b es he
    have hx : ∀ g, Emittable s.elem → Derives g s.elem ((base.drop s.off).take s.len) := fun g hem => nodeSays_derives hem (by rw [he]; rfl) h2
    simp only [List.mem_append] at hc
    have key : ∀ (above : Bool) (n : Nat), n ≤ 0x10FFFF →
        (∀ b' s' t lo hi, s.elem = .numVal b' .range [s', t] → Denotes b' s' lo → Denotes b' t hi →
          (above = false → n + 1 = lo) ∧ (above = true → n = min hi 0x10FFFF + 1)) →
        Perturbs base (.range s.off above s.elem) (splice base s n) := by
      intro above n hn hh
      have := Perturbs.range (base := base) (base.take s.off) ((base.drop s.off).take s.len) (base.drop (s.off + s.len)) above s.elem (runeChar n)
        hbase hx ⟨b, es, he⟩ fun b' s' t lo hi e1 e2 e3 => ⟨n, (hh b' s' t lo hi e1 e2 e3).1, (hh b' s' t lo hi e1 e2 e3).2, hn, runeChar_cases hn⟩
      rw [hlen, ← encodeAll_eq_utf8] at this
      simpa [splice, encodeAll] using this
    rcases hc with hc | hc
    · split_ifs at hc with h3
      · rw [List.mem_singleton] at hc
        subst hc
        refine key false _ h3.2 fun b' s' t lo hi e1 e2 e3 => ⟨fun _ => ?_, nofun⟩
        rw [he] at e1
        simp only [Elem.numVal.injEq] at e1
        obtain ⟨rfl, _, rfl⟩ := e1
        rw [List.getD_cons_zero, numvalToRune_denotes e2] at h3 ⊢
        unfold maxInt32 maxRune at *
        omega
      · cases hc
    · split_ifs at hc with h3
      · rw [List.mem_singleton] at hc
        subst hc
        refine key true _ h3 fun b' s' t lo hi e1 e2 e3 => ⟨nofun, fun _ => ?_⟩
        rw [he] at e1
        simp only [Elem.numVal.injEq] at e1
        obtain ⟨rfl, _, rfl⟩ := e1
        rw [List.getD_cons_succ, List.getD_cons_zero, numvalToRune_denotes e3]
        unfold maxInt32 maxRune
        omega
      · cases hc
  · cases hc

theorem split_at {base : Bytes} {i : Nat} {b : UInt8} (h : base[i]? = some b) : base = base.take i ++ b :: base.drop (i + 1) ∧ (base.take i).length = i := by
  obtain ⟨h1, rfl⟩ := List.getElem?_eq_some_iff.mp h
  refine ⟨?_, by rw [List.length_take]; omega⟩
  rw [List.getElem_cons_drop h1, List.take_append_drop]

/-- What the candidates are. -/
theorem nearMissCandidates_ok {σ : Type} {S : Source σ} (hS : S.InRange) (src : σ) {base : Bytes} {trace : List TraceSeg} (ht : TraceOK base trace) :
    ∃ cs, nearMissCandidates S src base trace = .ok cs ∧ (∀ c ∈ cs, Perturbs base c.2 c.1) ∧
      (∀ b ∈ ([0x00, 0x21, 0xFF, 0x41] : Bytes), (base ++ [b], Miss.trailing b) ∈ cs) := by
  have hsub : ∃ a, substMisses S src base = .ok a ∧ ∀ c ∈ a.1, Perturbs base c.2 c.1 := by
    unfold substMisses
    by_cases h0 : base.length > 0
    · rw [if_pos h0]
      have hr := hS src base.length h0
      obtain ⟨b, hb⟩ : ∃ b, base[(S.intn src base.length).1]? = some b := ⟨_, List.getElem?_eq_getElem hr⟩
      obtain ⟨e1, e2⟩ := split_at hb
      simp only [hb]
      refine ⟨_, rfl, fun c hc => ?_⟩
      obtain ⟨nb, h1, rfl⟩ := List.mem_map.mp hc
      have h2 := of_decide_eq_true (List.mem_filter.mp h1).2
      have := Perturbs.subst _ _ _ nb e1 h2
      rw [e2] at this
      rw [List.set_eq_take_append_cons_drop, if_pos hr]
      exact this
    · rw [if_neg h0]
      exact ⟨_, rfl, nofun⟩
  obtain ⟨a, ha, hpa⟩ := hsub
  have hdel : ∃ b, deleteMisses S a.2 base = .ok b ∧ ∀ c ∈ b.1, Perturbs base c.2 c.1 := by
    unfold deleteMisses
    by_cases h0 : base.length ≥ 2
    · rw [if_pos h0]
      have hr := hS a.2 base.length (by omega)
      obtain ⟨b, hb⟩ : ∃ b, base[(S.intn a.2 base.length).1]? = some b := ⟨_, List.getElem?_eq_getElem hr⟩
      obtain ⟨e1, e2⟩ := split_at hb
      simp only [if_pos hr]
      refine ⟨_, rfl, fun c hc => ?_⟩
      rw [List.mem_singleton] at hc
      subst hc
      have := Perturbs.deleted _ _ _ e1
      rw [e2] at this
      exact this
    · rw [if_neg h0]
      exact ⟨_, rfl, nofun⟩
  obtain ⟨b, hb, hpb⟩ := hdel
  unfold nearMissCandidates
  rw [ha]
  simp only [Run.bnd, hb]
  generalize hcs : trace.flatMap (rangeMisses base) ++ a.1 ++ truncMisses base ++ trailMisses base ++ b.1 = cs
  have hP : ∀ c ∈ cs, Perturbs base c.2 c.1 := by
    rw [← hcs]
    intro c hc
    simp only [List.mem_append] at hc
    rcases hc with (((hc | hc) | hc) | hc) | hc
    · obtain ⟨s, hs, hc⟩ := List.mem_flatMap.mp hc
      exact rangeMisses_ok ht hs hc
    · exact hpa c hc
    · obtain ⟨n, hn, rfl⟩ := List.mem_map.mp hc
      have h1 := of_decide_eq_true (List.mem_filter.mp hn).2
      have := Perturbs.truncated (base := base) (base.take (base.length - n)) (base.drop (base.length - n)) (List.take_append_drop _ _).symm
        (by intro h; have := congrArg List.length h; rw [List.length_drop] at this; simp at this; omega)
      rw [List.length_drop, List.length_take, show base.length - (base.length - n) = n by omega,
        show min (base.length - n) base.length = base.length - n by omega] at this
      exact this
    · obtain ⟨nb, hn, rfl⟩ := List.mem_map.mp hc
      exact .trailing nb
    · exact hpb c hc
  have hT : ∀ b ∈ ([0x00, 0x21, 0xFF, 0x41] : Bytes), (base ++ [b], Miss.trailing b) ∈ cs := by
    intro b hb
    rw [← hcs]
    simp only [List.mem_append]
    exact .inl (.inr (List.mem_map.mpr ⟨b, hb, rfl⟩))
  by_cases h1 : cs.length > 1
  · rw [if_pos h1, if_pos (le_of_lt (hS _ _ (by omega)))]
    refine ⟨_, rfl, fun c hc => ?_, fun x hx => ?_⟩
    · rcases List.mem_append.mp hc with hc | hc
      · exact hP c (List.mem_of_mem_drop hc)
      · exact hP c (List.mem_of_mem_take hc)
    · have h2 := hT x hx
      rw [← List.take_append_drop (S.intn b.2 cs.length).1 cs, List.mem_append] at h2
      exact List.mem_append.mpr h2.symm
  · rw [if_neg h1]
    exact ⟨_, rfl, hP, hT⟩

/-- What the loop does. -/
theorem nearMissLoop_ok {check : Nat → Bytes → Option (Run Bool)} {base : Bytes} (cs : List Candidate) : ∀ i,
    (∀ r, nearMissLoop check base i cs = .ok (some r) → r ∈ cs ∧ r.1 ≠ base ∧ ∃ j, check j r.1 = some (.ok false)) ∧
    (nearMissLoop check base i cs = .ok none → ∀ c ∈ cs, c.1 = base ∨ ∃ j, check j c.1 = none ∨ check j c.1 = some (.ok true)) ∧
    ((∀ c ∈ cs, ∀ j, check j c.1 ≠ some .panic ∧ check j c.1 ≠ some .fuel) → ∃ r, nearMissLoop check base i cs = .ok r) := by
  induction cs with
  | nil => exact fun i => ⟨nofun, fun _ => nofun, fun _ => ⟨_, rfl⟩⟩
  | cons c cs ih =>
    intro i
    obtain ⟨h1, h2, h3⟩ := ih (i + 1)
    have hskip : nearMissLoop check base i (c :: cs) = nearMissLoop check base (i + 1) cs →
        (c.1 = base ∨ ∃ j, check j c.1 = none ∨ check j c.1 = some (.ok true)) → _ := fun e hs =>
      (⟨fun r hr => by rw [e] at hr; exact ⟨List.mem_cons_of_mem _ (h1 r hr).1, (h1 r hr).2⟩,
        fun hr x hx => by
          rw [e] at hr
          rcases List.mem_cons.mp hx with rfl | hx
          · exact hs
          · exact h2 hr x hx,
        fun hh => by rw [e]; exact h3 fun c hc => hh c (List.mem_cons_of_mem _ hc)⟩ :
      (∀ r, nearMissLoop check base i (c :: cs) = .ok (some r) → r ∈ c :: cs ∧ r.1 ≠ base ∧ ∃ j, check j r.1 = some (.ok false)) ∧
      (nearMissLoop check base i (c :: cs) = .ok none → ∀ x ∈ c :: cs, x.1 = base ∨ ∃ j, check j x.1 = none ∨ check j x.1 = some (.ok true)) ∧
      ((∀ x ∈ c :: cs, ∀ j, check j x.1 ≠ some .panic ∧ check j x.1 ≠ some .fuel) → ∃ r, nearMissLoop check base i (c :: cs) = .ok r))
    by_cases hb : c.1 = base
    · exact hskip (by rw [nearMissLoop, if_pos hb]) (.inl hb)
    · cases hk : check i c.1 with
      | none => exact hskip (by rw [nearMissLoop, if_neg hb, hk]) (.inr ⟨i, .inl hk⟩)
      | some x =>
        cases x with
        | ok v =>
          cases v with
          | true => exact hskip (by rw [nearMissLoop, if_neg hb, hk]) (.inr ⟨i, .inr hk⟩)
          | false =>
            have e : nearMissLoop check base i (c :: cs) = .ok (some c) := by rw [nearMissLoop, if_neg hb, hk]
            rw [e]
            refine ⟨fun r hr => ?_, nofun, fun _ => ⟨_, rfl⟩⟩
            simp only [Run.ok.injEq, Option.some.injEq] at hr
            subst hr
            exact ⟨List.mem_cons_self .., hb, i, hk⟩
        | panic =>
          have e : nearMissLoop check base i (c :: cs) = .panic := by rw [nearMissLoop, if_neg hb, hk]
          rw [e]
          exact ⟨nofun, nofun, fun hh => absurd hk (hh c (List.mem_cons_self ..) i).1⟩
        | fuel =>
          have e : nearMissLoop check base i (c :: cs) = .fuel := by rw [nearMissLoop, if_neg hb, hk]
          rw [e]
          exact ⟨nofun, nofun, fun hh => absurd hk (hh c (List.mem_cons_self ..) i).2⟩

/-- `NearMiss` in terms of its parts. -/
theorem nearMiss_parts {o : FuzzOpts} {f : TgFrag} {h : TgHeap} (hfin : GraphFin h f) {G : FuzzGen} (hG : newGenerator o f h = .ok (.ok G))
    (os : Nat → LOrders) (scheds : Nat → Sched Nat) (g : Grammar) (name : Str) (tape : Bytes) :
    ∃ st cs, fuzzWalk tapeSource G ⟨tape, 0⟩ = .ok st ∧
      nearMiss os scheds g name G tape = nearMissLoop (fun i c => isValid (os i) (scheds i) g name c) st.out 0 cs ∧
      nearMissCandidates tapeSource st.src st.out st.trace = .ok cs ∧
      (∀ c ∈ cs, Perturbs st.out c.2 c.1) ∧ (∀ b ∈ ([0x00, 0x21, 0xFF, 0x41] : Bytes), (st.out ++ [b], Miss.trailing b) ∈ cs) := by
  have H := newGenerator_ok hfin hG
  have hw := fuzzWalk_sat H hfin C29_sources.1 (⟨tape, 0⟩ : TapeSource)
  cases hx : fuzzWalk tapeSource G ⟨tape, 0⟩ with
  | panic => rw [hx] at hw; exact hw.elim
  | fuel => rw [hx] at hw; exact hw.elim
  | ok st =>
    rw [hx] at hw
    obtain ⟨cs, h1, h2, h3⟩ := nearMissCandidates_ok C29_sources.1 st.src hw.trace
    refine ⟨st, cs, rfl, ?_, h1, h2, h3⟩
    unfold nearMiss
    rw [hx]
    simp only [Run.bnd, h1]

/-! ## C32: what is returned is no text -/

/-- C32.  If `IsValid` is complete for the grammar (the hypotheses are those of C05), what `NearMiss` returns is not
derivable from the rule.  What is missing: other grammars, see `C32_fails`. -/
theorem C32_partial (g : Grammar) (hd : NamesDistinct g) (hde : DistinctElems g) (hwf : NumValsWF g) (hne : NoEmptySeries g)
    (hl : SimpleLeftRecursion g) (hu : UnbracketedLeftRecursion g)
    (hc : ∀ len, ∀ r ∈ rulesReps (g.rules ++ Core.rules), Countable g len r) (name : Str)
    (o : FuzzOpts) (f : TgFrag) (h : TgHeap) (hfin : GraphFin h f) (G : FuzzGen) (hG : newGenerator o f h = .ok (.ok G))
    (os : Nat → LOrders) (hos : ∀ i, (os i).Fair g) (scheds : Nat → Sched Nat) (hss : ∀ i, (scheds i).Fair) (tape : Bytes)
    (r : Candidate) (hr : nearMiss os scheds g name G tape = .ok (some r)) : ¬ DerivesRule g name r.1 := by
  obtain ⟨st, cs, _, h2, _⟩ := nearMiss_parts hfin hG os scheds g name tape
  rw [h2] at hr
  obtain ⟨_, _, j, hj⟩ := (nearMissLoop_ok cs 0).1 r hr
  intro hw
  rw [C05_complete_partial g hd hde hwf hne hl hu (os j) (hos j) (scheds j) (hss j) name r.1 (hc _) hw] at hj
  cases hj

/-- C32 for grammars that can be written in ABNF, with the hypotheses of `C05_complete_written_partial`. -/
theorem C32_written_partial (g : Grammar) (hw : ∀ r ∈ g.rules, r.written = true) (hc : CaseConsistent g.strings)
    (hd : NamesDistinct g) (hl : SimpleLeftRecursion g) (hu : UnbracketedLeftRecursion g) (hm : ∀ r ∈ rulesReps g.rules, Tallied g r) (name : Str)
    (o : FuzzOpts) (f : TgFrag) (h : TgHeap) (hfin : GraphFin h f) (G : FuzzGen) (hG : newGenerator o f h = .ok (.ok G))
    (os : Nat → LOrders) (hos : ∀ i, (os i).Fair g) (scheds : Nat → Sched Nat) (hss : ∀ i, (scheds i).Fair) (tape : Bytes)
    (r : Candidate) (hr : nearMiss os scheds g name G tape = .ok (some r)) : ¬ DerivesRule g name r.1 := by
  obtain ⟨st, cs, _, h2, _⟩ := nearMiss_parts hfin hG os scheds g name tape
  rw [h2] at hr
  obtain ⟨_, _, j, hj⟩ := (nearMissLoop_ok cs 0).1 r hr
  intro hw'
  rw [C05_complete_written_partial g hw hc hd hl hu hm (os j) (hos j) (scheds j) (hss j) name r.1 hw'] at hj
  cases hj

/-- The whole way: the graph of a rule, a generator for it, and its near miss for a tape, with the text it starts from. -/
def missRun (t : TgOpts) (o : FuzzOpts) (g : Grammar) (name : Str) (tape : Bytes) : Option (Bytes × Option Bytes) :=
  match transitionGraph t Core.rules g (plainOrder g) name with
  | .ok (.ok (f, h)) =>
    match newGenerator o f h with
    | .ok (.ok G) =>
      match fuzzWalk tapeSource G ⟨tape, 0⟩, nearMiss (fun _ => plainOrders g) (fun _ => plainSched) g name G tape with
      | .ok st, .ok r => some (st.out, r.map Prod.fst)
      | _, _ => none
    | _ => none
  | _ => none

theorem missRun_some {t : TgOpts} {o : FuzzOpts} {g : Grammar} {name : Str} {tape u v : Bytes} (h : missRun t o g name tape = some (u, some v)) :
    ∃ f h G l, transitionGraph t Core.rules g (plainOrder g) name = .ok (.ok (f, h)) ∧ newGenerator o f h = .ok (.ok G) ∧
      nearMiss (fun _ => plainOrders g) (fun _ => plainSched) g name G tape = .ok (some (v, l)) := by
  unfold missRun at h
  split at h
  · rename_i f hp e1
    split at h
    · rename_i G e2
      split at h
      · rename_i st r _ e3
        simp only [Option.some.injEq, Prod.mk.injEq, Option.map_eq_some_iff] at h
        obtain ⟨_, ⟨v', l⟩, rfl, rfl⟩ := h
        exact ⟨f, hp, G, l, e1, e2, e3⟩
      · cases h
    · cases h
  · cases h

example : ∃ f h G l, transitionGraph {} Core.rules dashes (plainOrder dashes) ['a'] = .ok (.ok (f, h)) ∧
    newGenerator { maxSteps := 9 } f h = .ok (.ok G) ∧ GraphFin h f ∧
    nearMiss (fun _ => plainOrders dashes) (fun _ => plainSched) dashes ['a'] G [0, 2, 0, 0, 1, 1, 1, 1] = .ok (some (bytes% "`-a-X", l)) ∧
    (∀ r ∈ dashes.rules, r.written = true) ∧ CaseConsistent dashes.strings ∧ NamesDistinct dashes ∧ SimpleLeftRecursion dashes ∧
    UnbracketedLeftRecursion dashes ∧ ∀ r ∈ rulesReps dashes.rules, r.min ≤ 2 := by
  have hd : NamesDistinct dashes := namesDistinct_of (by decide)
  obtain ⟨f, h, G, l, e1, e2, e3⟩ := missRun_some (t := {}) (o := { maxSteps := 9 }) (g := dashes) (name := ['a']) (tape := [0, 2, 0, 0, 1, 1, 1, 1])
    (u := bytes% "c-a-X") (v := bytes% "`-a-X") (by decide +kernel)
  exact ⟨f, h, G, l, e1, e2, tg_finite hd (.refl _) (.refl _) (plain_of (by decide +kernel)) e1, e3, by decide, by unfold CaseConsistent; decide, hd,
    simple_of hd [] (by decide +kernel) (by decide +kernel), unbracketed_of hd [(str% "a", 1), (str% "lwsp", 2)] (by decide +kernel) (by decide +kernel),
    by decide⟩

/-- C32 as stated is false: for `a = 3*("a" / "aaa")` a tape makes `NearMiss` return `aaaA`, a text of the rule that
`IsValid` rejects. -/
theorem C32_fails : ∃ f h G l, transitionGraph {} Core.rules early (plainOrder early) ['a'] = .ok (.ok (f, h)) ∧
    newGenerator { maxSteps := 9 } f h = .ok (.ok G) ∧
    nearMiss (fun _ => plainOrders early) (fun _ => plainSched) early ['a'] G [0, 0, 0, 0, 0, 0, 0, 0, 0, 12] = .ok (some (bytes% "aaaA", l)) ∧
    DerivesRule early ['a'] (bytes% "aaaA") := by
  obtain ⟨f, h, G, l, e1, e2, e3⟩ := missRun_some (t := {}) (o := { maxSteps := 9 }) (g := early) (name := ['a'])
    (tape := [0, 0, 0, 0, 0, 0, 0, 0, 0, 12]) (u := bytes% "aaa") (v := bytes% "aaaA") (by decide +kernel)
  exact ⟨f, h, G, l, e1, e2, e3,
    derives_of_forest (numValsWF_of (by decide)) early_nd (distinctPrint_of (by decide +kernel)) (by decide +kernel)⟩

/-! ## C70: what is returned is one step away from a text -/

/-- C70.  What `NearMiss` returns differs from what the walk wrote, in the way its label says, and `IsValid` rejects it.
This needs no hypothesis on the grammar. -/
theorem C70_label (g : Grammar) (name : Str)
    (o : FuzzOpts) (f : TgFrag) (h : TgHeap) (hfin : GraphFin h f) (G : FuzzGen) (hG : newGenerator o f h = .ok (.ok G))
    (os : Nat → LOrders) (scheds : Nat → Sched Nat) (tape : Bytes) (r : Candidate) (hr : nearMiss os scheds g name G tape = .ok (some r)) :
    ∃ st, fuzzWalk tapeSource G ⟨tape, 0⟩ = .ok st ∧ Perturbs st.out r.2 r.1 ∧ r.1 ≠ st.out ∧
      ∃ i, isValid (os i) (scheds i) g name r.1 = some (.ok false) := by
  obtain ⟨st, cs, h1, h2, _, h4, _⟩ := nearMiss_parts hfin hG os scheds g name tape
  rw [h2] at hr
  obtain ⟨h5, h6, h7⟩ := (nearMissLoop_ok cs 0).1 r hr
  exact ⟨st, h1, h4 r h5, h6, h7⟩

/-- C70 for the graph of a rule: what it is one step away from is a text of the rule. -/
theorem C70_near (t : TgOpts) (g : Grammar) (hd : NamesDistinct g) (core : List Rule) (hcore : core.Perm Core.rules)
    (order : List Str) (ho : order.Perm ((dependencyGraph core g).map Prod.fst)) (name : Str)
    (hp : ∀ r, Visits t g name r → Plain r) (hn : t.nums = true → ∀ r, Visits t g name r → OneChar r)
    (hx : ∀ r, Visits t g name r → TextRule t r) (hne : ∃ w, DerivesRule g name w)
    (f : TgFrag) (h : TgHeap) (hok : transitionGraph t core g order name = .ok (.ok (f, h)))
    (o : FuzzOpts) (G : FuzzGen) (hG : newGenerator o f h = .ok (.ok G))
    (os : Nat → LOrders) (scheds : Nat → Sched Nat) (tape : Bytes) (r : Candidate) (hr : nearMiss os scheds g name G tape = .ok (some r)) :
    ∃ base, DerivesRule g name base ∧ Perturbs base r.2 r.1 ∧ r.1 ≠ base := by
  have hfin := tg_finite hd hcore ho hp hok
  have hlang := C30_exact_partial t g hd core hcore order ho name hp hn f h hok
  obtain ⟨st, h1, h2, h3, _⟩ := C70_label g name o f h hfin G hG os scheds tape r hr
  obtain ⟨st', h4, h5⟩ := C31_walk_partial g o f h hfin G hG tapeSource C29_sources.1 ⟨tape, 0⟩
  rw [h1] at h4
  cases h4
  obtain ⟨w, hw⟩ := hne
  exact ⟨st.out, (hlang _).mp (h5 (fun n hn => emittable_of_rules hd hx hok n ((newGenerator_ok hfin hG).produces n hn)) ⟨w, (hlang w).mpr hw⟩), h2, h3⟩

/-! ## C71: there is always one -/

theorem utf8_snoc (cs : List Char) (w : Bytes) : utf8 cs ≠ w ++ [0xFF] := by
  intro h
  rw [← encodeAll_eq_utf8] at h
  have h1 : (0xFF : UInt8) ∈ encodeAll cs := by rw [h]; simp
  obtain ⟨c, _, hc⟩ := List.mem_flatMap.mp h1
  have hv := char_valid c
  have key : ∀ n : Nat, n < 255 → (0xFF : UInt8) ≠ UInt8.ofNat n := by
    intro n hn e
    have := congrArg UInt8.toNat e
    simp only [UInt8.toNat_ofNat'] at this
    have h3 : (0xFF : UInt8).toNat = 255 := rfl
    omega
  unfold encodeRune at hc
  simp only at hc
  split_ifs at hc <;> simp only [List.mem_cons, List.not_mem_nil, or_false] at hc
  · exact key _ (by omega) hc
  · rcases hc with hc | hc <;> exact key _ (by omega) hc
  · rcases hc with hc | hc | hc <;> exact key _ (by omega) hc
  · rcases hc with hc | hc | hc | hc <;> exact key _ (by omega) hc

/-- C71.  If no rule that can start with itself is on a longer left-recursive cycle, `NearMiss` returns, and it finds
something for every tape: the octet `FF` after a text is a candidate that no rule derives. -/
theorem C71_finds (g : Grammar) (hd : NamesDistinct g) (hde : DistinctElems g) (hwf : NumValsWF g) (hl : SimpleLeftRecursion g) (name : Str)
    (hres : ∃ r, Resolves g name r) (o : FuzzOpts) (f : TgFrag) (h : TgHeap) (hfin : GraphFin h f) (G : FuzzGen)
    (hG : newGenerator o f h = .ok (.ok G)) (os : Nat → LOrders) (hos : ∀ i, (os i).Fair g) (scheds : Nat → Sched Nat)
    (hss : ∀ i, (scheds i).Fair) :
    (∀ tape, ∃ r, nearMiss os scheds g name G tape = .ok (some r)) ∧ ∀ rnd, ∃ r, nearMissRand os scheds g name G rnd = .ok (some r) := by
  have key : ∀ tape, ∃ r, nearMiss os scheds g name G tape = .ok (some r) := by
    intro tape
    obtain ⟨st, cs, _, h2, _, _, h5⟩ := nearMiss_parts hfin hG os scheds g name tape
    have hchk : ∀ i w, ∃ b, isValid (os i) (scheds i) g name w = some (.ok b) := by
      intro i w
      rcases C44_returns_partial g hd hl (os i) (hos i) (scheds i) (hss i) name w with ⟨_, h3⟩ | ⟨b, h3, _⟩
      · exact absurd hres h3
      · exact ⟨b, h3⟩
    obtain ⟨_, h6, h7⟩ := nearMissLoop_ok (check := fun i c => isValid (os i) (scheds i) g name c) (base := st.out) cs 0
    obtain ⟨r, hr⟩ := h7 fun c _ j => by
      obtain ⟨b, hb⟩ := hchk j c.1
      simp only [hb]
      exact ⟨nofun, nofun⟩
    rw [h2, hr]
    cases r with
    | some r => exact ⟨r, rfl⟩
    | none =>
      exfalso
      rcases h6 hr _ (h5 0xFF (by decide)) with h8 | ⟨j, h8 | h8⟩
      · have := congrArg List.length h8
        simp at this
      · obtain ⟨b, hb⟩ := hchk j (st.out ++ [0xFF])
        simp only [hb] at h8
        cases h8
      · have h9 := C04_sound g hd hde hwf (os j) (hos j) (scheds j) (hss j) name _ h8
        obtain ⟨cs', h10⟩ := C24_texts g name _ h9
        exact utf8_snoc cs' st.out h10.symm
  exact ⟨key, fun rnd => key _⟩

/-- A generator of `dashes` meets the hypotheses of C70 and C71. -/
example : ∃ f h G, transitionGraph {} Core.rules dashes (plainOrder dashes) ['a'] = .ok (.ok (f, h)) ∧ GraphFin h f ∧
    newGenerator { maxSteps := 9 } f h = .ok (.ok G) ∧ NamesDistinct dashes ∧ DistinctElems dashes ∧ NumValsWF dashes ∧
    SimpleLeftRecursion dashes ∧ (∃ r, Resolves dashes ['a'] r) ∧ (∀ r, Visits {} dashes ['a'] r → Plain r) ∧
    (∀ r, Visits {} dashes ['a'] r → TextRule {} r) ∧ ∃ w, DerivesRule dashes ['a'] w := by
  obtain ⟨f, h, G, e1, e2, e3, _, _, _, e5, e6⟩ := dashes_meets
  have hd : NamesDistinct dashes := namesDistinct_of (by decide)
  exact ⟨f, h, G, e1, e3, e2, hd, distinctElems_of (by decide +kernel), numValsWF_of (by decide),
    simple_of hd [] (by decide +kernel) (by decide +kernel), ⟨dashes.rules[0], (getRule_iff hd).mp (by decide +kernel)⟩, e5,
    textRule_of (by decide +kernel), _, e6⟩

end Verif.Props
