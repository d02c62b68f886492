import Verif.BsrLemmas
import Verif.PropsSppf

/-! # C02, C03, C08, C10: the BSR engine -/

namespace Verif
open Spec

/-- A run with a budget in terms of the run without one. -/
theorem parseBSR_eq {sched : Sched Nat} (hf : sched.Fair) {inp : Bytes} {g : Grammar} {root : Str}
    {M : Nat} {sg : SG} (h : compileSlots g root M = .ok sg) :
    SGOK sg ∧ ∃ st0, BLoopInv sg inp st0 ∧ st0.work = [] ∧ st0.aborted = false ∧
      parseBSR sched inp g root 0 M = .ok ⟨sg, inp, st0.set⟩ ∧
      ∀ N, 0 < N → parseBSR sched inp g root N M = .error (.forestTooLarge N) ∧ N ≤ st0.set.length ∨
        parseBSR sched inp g root N M = .ok ⟨sg, inp, st0.set⟩ ∧ st0.set.length ≤ N := by
  obtain ⟨ix, hl, _, _⟩ := compileSlots_lowered h
  obtain ⟨hinit, hcount⟩ := bloopInv_init sg inp
  have hi : (bsrInit sg).set = [] ∧ (bsrInit sg).aborted = false := by
    unfold bsrInit
    generalize List.range (sg.alts sg.start).length = l
    have : ∀ st : BsrSt, st.set = [] ∧ st.aborted = false → (l.foldl (fun st alt => bsrAdd
        ⟨⟨sg.start, alt, 0⟩, none, 0, 0⟩ st) st).set = [] ∧ (l.foldl (fun st alt => bsrAdd
        ⟨⟨sg.start, alt, 0⟩, none, 0, 0⟩ st) st).aborted = false := by
      induction l with
      | nil => exact fun _ h => h
      | cons a l ih =>
        intro st hst
        apply ih
        have : ∀ d, (bsrAdd d st).set = [] ∧ (bsrAdd d st).aborted = false := by
          intro d; unfold bsrAdd; split_ifs <;> exact hst
        exact this _
    exact this _ ⟨rfl, rfl⟩
  obtain ⟨st0, h1, h2, h3⟩ := bsrLoop_spec (N := 0) hl.ok hf (gllFuel sg inp.length) 0 hinit (by omega) (by omega)
  have ha0 := (bsrLoop_set_mono h1 hi.2).2
  refine ⟨hl.ok, st0, h2, ?_, ha0, ?_, fun N hN => ?_⟩
  · rcases h3 with h3 | h3
    · rw [ha0] at h3; cases h3
    · exact h3
  · simp only [parseBSR, h, h1, ha0]; rfl
  · obtain ⟨r, k1, k2, k3⟩ := bsrLoop_spec (N := N) hl.ok hf (gllFuel sg inp.length) 0 hinit (by omega) (by omega)
    obtain ⟨b1, b2, b3⟩ := bsrLoop_budget hi.2 (by rw [hi.1]; simp) h1 k1
    cases hr : r.aborted with
    | true =>
      left
      refine ⟨?_, ?_⟩
      · simp only [parseBSR, h, k1, hr]; rfl
      · by_contra hlt
        rw [b3 (.inr (by omega))] at hr
        cases hr
    | false =>
      right
      have := b2 hr
      subst this
      exact ⟨by simp only [parseBSR, h, k1, hr]; rfl, b1 hN⟩

/-- What a returned BSR forest is. -/
theorem parseBSR_ok {sched : Sched Nat} (hf : sched.Fair) {inp : Bytes} {g : Grammar} {root : Str}
    {N M : Nat} {f : BsrForest} (h : parseBSR sched inp g root N M = .ok f) :
    compileSlots g root M = .ok f.sg ∧ f.input = inp ∧ SGOK f.sg ∧ f.set.Nodup ∧
      ∀ L l k r, (⟨L, l, k, r⟩ : BsrElem) ∈ f.set ↔ Reach f.sg inp (.adv L l k r) ∧ Kept f.sg L := by
  cases hc : compileSlots g root M with
  | error e => simp [parseBSR, hc] at h
  | ok sg =>
    obtain ⟨hok, st0, hL, hw, ha, h0, hN⟩ := parseBSR_eq (inp := inp) hf hc
    have hf' : f = ⟨sg, inp, st0.set⟩ := by
      by_cases hz : N = 0
      · subst hz
        rw [h0] at h
        simpa using h.symm
      · rcases hN N (by omega) with ⟨h', _⟩ | ⟨h', _⟩ <;> rw [h'] at h
        · simp at h
        · simpa using h.symm
    subst hf'
    refine ⟨rfl, rfl, hok, hL.inv.setNodup, fun L l k r => ⟨fun h => hL.inv.set _ h, fun h => ?_⟩⟩
    rcases breach_rep hL hw h.1 h.2 with h | h
    · rw [ha] at h; cases h
    · exact h

theorem mem_pivots {f : BsrForest} {L : Slot} {l k r : Nat} :
    k ∈ f.pivots L l r ↔ (⟨L, l, k, r⟩ : BsrElem) ∈ f.set := by
  unfold BsrForest.pivots
  simp only [List.mem_map, List.mem_filter, decide_eq_true_eq]
  constructor
  · rintro ⟨⟨a, b, c, d⟩, ⟨h1, h2, h3, h4⟩, h5⟩
    simp only at h2 h3 h4 h5
    subst h2 h3 h4 h5
    exact h1
  · intro h; exact ⟨_, ⟨h, rfl, rfl, rfl⟩, rfl⟩

theorem bsr_valid_iff {sched : Sched Nat} (hf : sched.Fair) {inp : Bytes} {g : Grammar} {root : Str}
    {N M : Nat} {f : BsrForest} (h : parseBSR sched inp g root N M = .ok f) :
    f.valid = true ↔ NTD f.sg inp f.sg.start 0 0 inp.length := by
  obtain ⟨_, hin, hok, _, hset⟩ := parseBSR_ok hf h
  rw [← reach_accepts hok.start (hok.ne _)]
  unfold BsrForest.valid
  rw [hin, List.any_eq_true]
  constructor
  · rintro ⟨ai, _, hl⟩
    simp only [gt_iff_lt, decide_eq_true_eq] at hl
    obtain ⟨k, hk⟩ := List.exists_mem_of_length_pos hl
    exact ⟨_, k, rfl, rfl, ((hset _ _ _ _).mp (mem_pivots.mp hk)).1⟩
  · rintro ⟨L, k, h1, h2, h3⟩
    have hs : f.sg.endSlot f.sg.start L.alt = L := by
      obtain ⟨n, a, d⟩ := L
      simp only at h1 h2
      subst h1
      unfold SG.endSlot
      rw [h2]; rfl
    refine ⟨L.alt, ?_, ?_⟩
    · rw [List.mem_range]
      obtain ⟨_, _, rc, s, u, hfr, _⟩ := reach_sound h3
      rw [← h1]; exact frame_mem hok hfr
    · simp only [gt_iff_lt, decide_eq_true_eq]
      rw [hs]
      exact List.length_pos_of_mem (mem_pivots.mpr ((hset _ _ _ _).mpr ⟨h3, .inr h2⟩))

namespace Props

/-- C02.  Whatever order maps are iterated in and whatever the budgets, a BSR forest that is returned is valid
exactly when the whole input is derivable from the rule. -/
theorem C02_exact (g : Grammar) (hwf : NumValsWF g) (hnd : NamesDistinct g) (hdp : DistinctPrint g)
    (sched : Sched Nat) (hf : sched.Fair) (inp : Bytes) (root : Str) (maxElems maxSlots : Nat) (f : BsrForest)
    (h : parseBSR sched inp g root maxElems maxSlots = .ok f) :
    f.valid = true ↔ DerivesRule g root inp := by
  rw [bsr_valid_iff hf h, C11_language g hwf hnd hdp root maxSlots f.sg (parseBSR_ok hf h).1]
  constructor
  · rintro ⟨w, h1, h2, h3⟩
    rw [List.drop_zero] at h1
    rw [Nat.zero_add] at h2
    rw [← prefix_full h1 h2]; exact h3
  · intro h3
    exact ⟨inp, by simp, by simp, h3⟩

/-- C02.  Iteration order does not matter: two runs give the same set of elements. -/
theorem C02_order (g : Grammar) (sched sched' : Sched Nat) (hf : sched.Fair) (hf' : sched'.Fair) (inp : Bytes)
    (root : Str) (N N' maxSlots : Nat) (f f' : BsrForest)
    (h : parseBSR sched inp g root N maxSlots = .ok f) (h' : parseBSR sched' inp g root N' maxSlots = .ok f') :
    f.set.Perm f'.set := by
  obtain ⟨hc, _, _, hn, hs⟩ := parseBSR_ok hf h
  obtain ⟨hc', _, _, hn', hs'⟩ := parseBSR_ok hf' h'
  rw [hc] at hc'
  simp only [Except.ok.injEq] at hc'
  rw [← hc'] at hs'
  rw [List.perm_ext_iff_of_nodup hn hn']
  rintro ⟨L, l, k, r⟩
  rw [hs, hs']

/-- C03.  The two engines agree on acceptance whenever both return, for every grammar without exception. -/
theorem C03_agree (g : Grammar) (sched : Sched NodeKey) (sched' : Sched Nat) (hf : sched.Fair) (hf' : sched'.Fair)
    (inp : Bytes) (root : Str) (maxNodes maxElems maxSlots maxSlots' : Nat) (f : Forest) (f' : BsrForest)
    (h : parseForest sched inp g root maxNodes maxSlots = .ok f)
    (h' : parseBSR sched' inp g root maxElems maxSlots' = .ok f') : f.valid = f'.valid := by
  have h1 := forest_valid_iff hf h
  have h2 := bsr_valid_iff hf' h'
  have hc : ∀ M sg, compileSlots g root M = .ok sg → compileSlots g root 0 = .ok sg := by
    intro M sg hM
    by_cases hz : M = 0
    · subst hz; exact hM
    · exact ((C11_budget g root M (by omega) sg).mp hM).1
  have e1 := hc _ _ (parseForest_ok hf h).1
  have e2 := hc _ _ (parseBSR_ok hf' h').1
  rw [e1] at e2
  simp only [Except.ok.injEq] at e2
  rw [← e2] at h2
  rw [Bool.eq_iff_iff, h1, h2]

/-- C08.  The main loop stops within `gllFuel` rounds on every slot grammar obtained by lowering, whatever the
input, the order of map iteration and the budget; more fuel changes nothing. -/
theorem C08_terminates (g : Grammar) (root : Str) (maxSlots : Nat) (sg : SG)
    (h : compileSlots g root maxSlots = .ok sg) (sched : Sched Nat) (hf : sched.Fair) (inp : Bytes)
    (maxElems : Nat) :
    ∃ st, ∀ fuel, slotCount sg * (1 + slotCount sg * (inp.length + 1) * (maxCount sg + 1)) * (inp.length + 1) ≤ fuel →
      bsrLoop sg inp maxElems sched fuel (bsrInit sg) = some st := by
  obtain ⟨ix, hl, _, _⟩ := compileSlots_lowered h
  obtain ⟨hinit, hcount⟩ := bloopInv_init sg inp
  obtain ⟨st', h1, _, _⟩ := bsrLoop_spec (N := maxElems) hl.ok hf (gllFuel sg inp.length) 0 hinit (by omega) (by omega)
  exact ⟨st', fun fuel hle => bsrLoop_mono hle h1⟩

/-- C08.  `ParseBSR` returns on every grammar, rule and input: the only errors are an unknown rule and the two
budgets. -/
theorem C08_returns (g : Grammar) (root : Str) (sched : Sched Nat) (hf : sched.Fair) (inp : Bytes)
    (maxElems maxSlots : Nat) :
    (∃ f, parseBSR sched inp g root maxElems maxSlots = .ok f) ∨
    parseBSR sched inp g root maxElems maxSlots = .error .ruleNotFound ∨
    (0 < maxSlots ∧ parseBSR sched inp g root maxElems maxSlots = .error (.grammarTooLarge maxSlots)) ∨
    (0 < maxElems ∧ parseBSR sched inp g root maxElems maxSlots = .error (.forestTooLarge maxElems)) := by
  cases hc : compileSlots g root maxSlots with
  | error e =>
    rcases compileSlots_cases g root maxSlots with ⟨sg, h⟩ | h | ⟨h0, h⟩ <;> rw [hc] at h
    · simp at h
    · refine .inr (.inl ?_)
      simp only [parseBSR, hc, h]
    · refine .inr (.inr (.inl ⟨h0, ?_⟩))
      simp only [parseBSR, hc, h]
  | ok sg =>
    obtain ⟨_, st0, _, _, _, h0, hN⟩ := parseBSR_eq (inp := inp) hf hc
    by_cases hz : maxElems = 0
    · subst hz; exact .inl ⟨_, h0⟩
    · rcases hN maxElems (by omega) with ⟨h', _⟩ | ⟨h', _⟩
      · exact .inr (.inr (.inr ⟨by omega, h'⟩))
      · exact .inl ⟨_, h'⟩

/-- C10.  With a budget `N > 0`, a forest that is returned is that of the unbounded run and has at most `N`
elements. -/
theorem C10_budget (g : Grammar) (root : Str) (sched : Sched Nat) (hf : sched.Fair) (inp : Bytes)
    (N maxSlots : Nat) (hN : 0 < N) (f : BsrForest) (h : parseBSR sched inp g root N maxSlots = .ok f) :
    parseBSR sched inp g root 0 maxSlots = .ok f ∧ f.set.length ≤ N := by
  have hc := (parseBSR_ok hf h).1
  obtain ⟨_, st0, _, _, _, h0, hB⟩ := parseBSR_eq (inp := inp) hf hc
  rcases hB N hN with ⟨h', _⟩ | ⟨h', hl⟩ <;> rw [h'] at h
  · simp at h
  · simp only [Except.ok.injEq] at h
    exact ⟨by rw [h0, h], by rw [← h]; exact hl⟩

/-- C10.  The budget error is only given when the unbounded run has at least `N` elements, and always when it has
more. -/
theorem C10_error (g : Grammar) (root : Str) (sched : Sched Nat) (hf : sched.Fair) (inp : Bytes)
    (N maxSlots : Nat) (hN : 0 < N) (f : BsrForest) (h : parseBSR sched inp g root 0 maxSlots = .ok f) :
    (f.set.length < N → parseBSR sched inp g root N maxSlots = .ok f) ∧
    (N < f.set.length → parseBSR sched inp g root N maxSlots = .error (.forestTooLarge N)) := by
  have hc := (parseBSR_ok hf h).1
  obtain ⟨_, st0, _, _, _, h0, hB⟩ := parseBSR_eq (inp := inp) hf hc
  rw [h0] at h
  simp only [Except.ok.injEq] at h
  have hset : f.set = st0.set := by rw [← h]
  rcases hB N hN with ⟨h', hl⟩ | ⟨h', hl⟩
  · exact ⟨fun hlt => by rw [hset] at hlt; omega, fun _ => h'⟩
  · exact ⟨fun _ => by rw [h', ← h], fun hlt => by rw [hset] at hlt; omega⟩

/-- C47, for the BSR engine.  Every span recorded lies inside the input. -/
theorem C47_spans_bsr (g : Grammar) (root : Str) (sched : Sched Nat) (hf : sched.Fair) (inp : Bytes)
    (maxElems maxSlots : Nat) (f : BsrForest) (h : parseBSR sched inp g root maxElems maxSlots = .ok f) :
    ∀ e ∈ f.set, e.l ≤ e.k ∧ e.k ≤ e.r ∧ e.r ≤ inp.length := by
  obtain ⟨_, _, hok, _, hset⟩ := parseBSR_ok hf h
  rintro ⟨L, l, k, r⟩ he
  exact reach_inRange hok ((hset _ _ _ _).mp he).1

/-! ## The hypotheses are met -/

/-- `Valid()` and size of the BSR forest, if there is one. -/
def bsrOf (r : Except ParseErr BsrForest) : Option (Bool × Nat) :=
  match r with
  | .ok f => some (f.valid, f.set.length)
  | .error _ => none

example : bsrOf (parseBSR fwd (bytes% "1+(2+3)") Ex.expr (str% "expr") 0 0) = some (true, 21) := by decide +kernel
example : bsrOf (parseBSR zigzag (bytes% "1+(2+3)") Ex.expr (str% "expr") 0 0) = some (true, 21) := by decide +kernel
example : (bsrOf (parseBSR fwd (bytes% "1+(2+") Ex.expr (str% "expr") 0 0)).map Prod.fst = some false := by
  decide +kernel
example : (bsrOf (parseBSR fwd (bytes% "xxxx") Ex.nul (str% "a") 0 0)).map Prod.fst = some true := by decide +kernel
-- one above the size is enough, one below is not
example : (bsrOf (parseBSR fwd (bytes% "1+(2+3)") Ex.expr (str% "expr") 22 0)).map Prod.fst = some true := by
  decide +kernel
example : bsrOf (parseBSR fwd (bytes% "1+(2+3)") Ex.expr (str% "expr") 20 0) = none := by decide +kernel

end Props
end Verif
