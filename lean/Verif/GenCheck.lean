import Verif.GenLemmas

/-!
# The rules `Generate` reaches, and those it refuses
-/

namespace Verif

open Spec

/-! ## Generating a rule -/

/-- Every repetition that can be reached from the rule has texts that can be written, and bounds that do not cross. -/
def EmitReach (g : Grammar) (r : Rule) : Prop :=
  ∀ r', Relation.ReflTransGen (Refers g) r r' → ∀ q ∈ altReps r'.alt, Emittable q.elem ∧ ∀ m, q.max = some m → q.min ≤ m

/-- A repetition that makes nothing panic: its reference resolves; it does not make the number of repetitions a
remainder of a division by zero; its alternation is not empty. -/
structure SafeRep (g : Grammar) (repMax : Int) (q : Rep) : Prop where
  refs : ∀ n, q.elem = .rulename n → ∃ r, Resolves g n r
  fin : ∀ m, q.max = some m → q.min ≠ m + 1
  inf : q.max = none → (q.min : Int) ≠ repMax + 1
  alts : ∀ a, q.elem = .group a ∨ q.elem = .option a → a ≠ []

/-- The same for everything that can be reached. -/
def SafeReach (g : Grammar) (repMax : Int) (r : Rule) : Prop :=
  ∀ r', Relation.ReflTransGen (Refers g) r r' → r'.alt ≠ [] ∧ ∀ q ∈ altReps r'.alt, SafeRep g repMax q

theorem genRule_sat {g : Grammar} (hd : NamesDistinct g) {rnd : Nat → Nat} {o : GenOpts} {pan mem : Prop} (k : Nat) : ∀ n st,
    (∀ r, Resolves g n r → (mem → EmitReach g r) ∧ (pan ∨ SafeReach g o.repMax r)) → (pan ∨ ∃ r, Resolves g n r) →
    (genRule rnd o g k n st).Sat pan True (GenPost mem (Derives g (.rulename n)) st) := by
  induction k with
  | zero => intro n st _ _; trivial
  | succ k ih =>
    intro n st h hr
    rw [genRule]
    cases hg : getRule n g.rules with
    | none =>
      rcases hr with hp | hr
      · exact hp
      · rw [← getRule_isSome, hg] at hr
        cases hr
    | some r =>
      have hres := (getRule_iff hd).mp hg
      obtain ⟨h1, h2⟩ := h r hres
      refine (genAlt_sat (g := g) r.alt (fun q hq => ⟨fun m hm st' => ?_, fun hm => h1 hm r .refl q hq, ?_⟩)
        (h2.imp_right fun h2 => (h2 r .refl).1) st).mono fun st' h3 hm => ?_
      · refine ih m st' (fun r2 hr2 => ?_) (h2.imp_right fun h2 => ((h2 r .refl).2 q hq).refs m hm)
        have hs : Refers g r r2 := ⟨q, hq, m, hm, hr2⟩
        exact ⟨fun hm r3 h3 => h1 hm r3 (.head hs h3), h2.imp_right fun h2 r3 h3 => h2 r3 (.head hs h3)⟩
      · refine h2.imp_right fun h2 => ?_
        have := (h2 r .refl).2 q hq
        exact ⟨this.fin, this.inf, this.alts⟩
      · obtain ⟨w, hw, hdw⟩ := h3 hm
        exact ⟨w, hw, .rule n r w hres hdw⟩

/-- Without recursion, nesting as deep as there are rules is enough. -/
theorem genRule_ends {g : Grammar} (hd : NamesDistinct g) {rnd : Nat → Nat} {o : GenOpts} (k : Nat) : ∀ (path : List Str)
    (n : Str) (st : GenSt), path.Nodup → (∀ x ∈ path, x ∈ ruleKeys g) →
    (∀ r, Resolves g n r → NoCycleBelow g r ∧ ∀ x ∈ path, ∃ r', canon r'.name = x ∧ Resolves g r'.name r' ∧
      Relation.TransGen (Refers g) r' r) →
    (ruleKeys g).length < path.length + k → (genRule rnd o g k n st).Sat True False fun _ => True := by
  induction k with
  | zero =>
    intro path n st hn hs _ hl
    have := (List.subperm_of_subset hn hs).length_le
    omega
  | succ k ih =>
    intro path n st hn hs hp hl
    rw [genRule]
    cases hg : getRule n g.rules with
    | none => trivial
    | some r =>
      have hr : Resolves g n r := (getRule_iff hd).mp hg
      obtain ⟨hc, hpath⟩ := hp r hr
      have hfresh : canon r.name ∉ path := by
        intro hm
        obtain ⟨r', h1, h2, h3⟩ := hpath _ hm
        obtain rfl := resolves_unique hd h2 (resolves_self hr) h1
        exact hc ⟨r', .refl, h3⟩
      refine (genAlt_sat (g := g) (mem := False) r.alt (fun q hq => ⟨fun m hm st' => ?_, fun h => h.elim, .inl trivial⟩)
        (.inl trivial) st).mono fun _ _ => trivial
      refine (ih (canon r.name :: path) m st' (List.nodup_cons.mpr ⟨hfresh, hn⟩) ?_ ?_ (by simp only [List.length_cons]; omega)).mono
        fun _ _ h => h.elim
      · intro x hx
        rcases List.mem_cons.mp hx with rfl | hx
        · exact resolves_key hr
        · exact hs x hx
      · intro r2 hr2
        have hstep : Refers g r r2 := ⟨q, hq, m, hm, hr2⟩
        refine ⟨fun ⟨r3, h3, h4⟩ => hc ⟨r3, .head hstep h3, h4⟩, fun x hx => ?_⟩
        rcases List.mem_cons.mp hx with rfl | hx
        · exact ⟨r, rfl, resolves_self hr, .single hstep⟩
        · obtain ⟨r', h1, h2, h3⟩ := hpath x hx
          exact ⟨r', h1, h2, .tail h3 hstep⟩

/-! ## Expansions by depth -/

mutual
/-- The element has an expansion, given which rules have one. -/
def ExpElem (rec : Str → Prop) : Elem → Prop
  | .rulename n => rec n
  | .group a => ExpAlt rec a
  | .proseVal _ => False
  | _ => True
/-- Some concatenation has one. -/
def ExpAlt (rec : Str → Prop) : List (List Rep) → Prop
  | [] => False
  | c :: a => ExpConcat rec c ∨ ExpAlt rec a
/-- All mandatory repetitions have one. -/
def ExpConcat (rec : Str → Prop) : List Rep → Prop
  | [] => True
  | ⟨mn, _, e⟩ :: c => (mn = 0 ∨ ExpElem rec e) ∧ ExpConcat rec c
end

/-- The rule has an expansion in which at most `k` rules are nested. -/
def ExpRule (g : Grammar) : Nat → Str → Prop
  | 0, _ => False
  | k + 1, n => ∃ r, Resolves g n r ∧ ExpAlt (ExpRule g k) r.alt

section
variable {P Q : Str → Prop}
mutual
theorem expElem_mono (h : ∀ n, P n → Q n) : (e : Elem) → ExpElem P e → ExpElem Q e
  | .rulename n, hp => h n hp
  | .group a, hp => expAlt_mono h a hp
  | .option _, _ => trivial
  | .charVal _ _, _ => trivial
  | .numVal _ _ _, _ => trivial
  | .proseVal _, hp => hp.elim
theorem expAlt_mono (h : ∀ n, P n → Q n) : (a : List (List Rep)) → ExpAlt P a → ExpAlt Q a
  | [], hp => hp.elim
  | c :: a, hp => hp.imp (expConcat_mono h c) (expAlt_mono h a)
theorem expConcat_mono (h : ∀ n, P n → Q n) : (c : List Rep) → ExpConcat P c → ExpConcat Q c
  | [], _ => trivial
  | ⟨_, _, e⟩ :: c, hp => ⟨hp.1.imp_right (expElem_mono h e), expConcat_mono h c hp.2⟩
end
end

theorem expRule_mono {g : Grammar} {k k' : Nat} (h : k ≤ k') (n : Str) (hp : ExpRule g k n) : ExpRule g k' n := by
  induction k generalizing k' n with
  | zero => exact hp.elim
  | succ k ih =>
    obtain ⟨r, hr, ha⟩ := hp
    cases k' with
    | zero => omega
    | succ k' => exact ⟨r, hr, expAlt_mono (fun n hn => ih (by omega) n hn) r.alt ha⟩

theorem expRule_congr {g : Grammar} {k : Nat} {n m : Str} (h : canon n = canon m) (hp : ExpRule g k n) : ExpRule g k m := by
  cases k with
  | zero => exact hp
  | succ k =>
    obtain ⟨r, hr, ha⟩ := hp
    exact ⟨r, (resolves_congr h).mp hr, ha⟩

theorem expAlt_mem {P : Str → Prop} {a : Alt} : ExpAlt P a ↔ ∃ c ∈ a, ExpConcat P c := by
  induction a with
  | nil => simp [ExpAlt]
  | cons c a ih => simp [ExpAlt, ih]

theorem expConcat_mem {P : Str → Prop} {c : Concat} : ExpConcat P c ↔ ∀ q ∈ c, q.min = 0 ∨ ExpElem P q.elem := by
  induction c with
  | nil => simp [ExpConcat]
  | cons q c ih => obtain ⟨mn, mx, e⟩ := q; simp [ExpConcat, ih]

mutual
theorem expElem_exists {g : Grammar} : (e : Elem) → ExpElem (fun m => ∃ k, ExpRule g k m) e → ∃ k, ExpElem (ExpRule g k) e
  | .rulename _, h => h
  | .group a, h => expAlt_exists a h
  | .option _, _ => ⟨0, trivial⟩
  | .charVal _ _, _ => ⟨0, trivial⟩
  | .numVal _ _ _, _ => ⟨0, trivial⟩
  | .proseVal _, h => h.elim
theorem expAlt_exists {g : Grammar} : (a : List (List Rep)) → ExpAlt (fun m => ∃ k, ExpRule g k m) a → ∃ k, ExpAlt (ExpRule g k) a
  | [], h => h.elim
  | c :: a, h => by
    rcases h with h | h
    · obtain ⟨k, hk⟩ := expConcat_exists c h
      exact ⟨k, .inl hk⟩
    · obtain ⟨k, hk⟩ := expAlt_exists a h
      exact ⟨k, .inr hk⟩
theorem expConcat_exists {g : Grammar} : (c : List Rep) → ExpConcat (fun m => ∃ k, ExpRule g k m) c → ∃ k, ExpConcat (ExpRule g k) c
  | [], _ => ⟨0, trivial⟩
  | ⟨mn, _, e⟩ :: c, h => by
    obtain ⟨k, hk⟩ := expConcat_exists c h.2
    have : ∃ k', mn = 0 ∨ ExpElem (ExpRule g k') e := by
      rcases h.1 with h0 | h0
      · exact ⟨0, .inl h0⟩
      · obtain ⟨k', hk'⟩ := expElem_exists e h0
        exact ⟨k', .inr hk'⟩
    obtain ⟨k', hk'⟩ := this
    exact ⟨max k' k, hk'.imp_right (expElem_mono (fun n => expRule_mono (le_max_left _ _) n) e),
      expConcat_mono (fun n => expRule_mono (le_max_right _ _) n) c hk⟩
end

/-- What derives something has an expansion. -/
theorem derives_exp {g : Grammar} {e : Elem} {w : Bytes} (h : Derives g e w) : ∃ k, ExpElem (ExpRule g k) e := by
  refine Derives.rec (motive_1 := fun e _ _ => ∃ k, ExpElem (ExpRule g k) e)
    (motive_2 := fun a _ _ => ∃ k, ExpAlt (ExpRule g k) a) (motive_3 := fun c _ _ => ∃ k, ExpConcat (ExpRule g k) c)
    (motive_4 := fun q _ _ => ∃ k, q.min = 0 ∨ ExpElem (ExpRule g k) q.elem)
    (motive_5 := fun e n _ _ => ∃ k, n = 0 ∨ ExpElem (ExpRule g k) e) ?_ ?_ ?_ ?_ ?_ ?_ ?_ ?_ ?_ ?_ ?_ h
  · rintro n r w hr _ ⟨k, hk⟩; exact ⟨k + 1, r, hr, hk⟩
  · rintro a w _ ⟨k, hk⟩; exact ⟨k, hk⟩
  · intro a; exact ⟨0, trivial⟩
  · rintro a w _ _; exact ⟨0, trivial⟩
  · intro e cs h
    cases h <;> exact ⟨0, trivial⟩
  · rintro a c w hc _ ⟨k, hk⟩; exact ⟨k, expAlt_mem.mpr ⟨c, hc, hk⟩⟩
  · exact ⟨0, trivial⟩
  · rintro r c u v _ _ ⟨k, hk⟩ ⟨k', hk'⟩
    refine ⟨max k k', expConcat_mem.mpr fun q hq => ?_⟩
    rcases List.mem_cons.mp hq with rfl | hq
    · exact hk.imp_right (expElem_mono (fun n => expRule_mono (le_max_left _ _) n) _)
    · exact (expConcat_mem.mp hk' q hq).imp_right (expElem_mono (fun n => expRule_mono (le_max_right _ _) n) _)
  · rintro mn mx e n w hmn _ _ ⟨k, hk⟩
    refine ⟨k, hk.imp_left fun h => ?_⟩
    simp only [Rep.min_mk]
    omega
  · intro e; exact ⟨0, .inl rfl⟩
  · rintro e n u v _ _ ⟨k, hk⟩ _; exact ⟨k, .inr hk⟩

/-! ## From expansions to words -/

/-- A prose-val, or a terminal with texts. -/
def HasText (e : Elem) : Prop :=
  match e with
  | .numVal _ _ _ => ∃ cs, Terminal e cs
  | _ => True

/-- Every repetition that can be reached, if it is no prose-val, has texts, and its bounds do not cross. -/
def TextReach (g : Grammar) (r : Rule) : Prop :=
  ∀ r', Relation.ReflTransGen (Refers g) r r' → ∀ q ∈ altReps r'.alt, HasText q.elem ∧ ∀ m, q.max = some m → q.min ≤ m

theorem derivesTimes_rep {g : Grammar} {e : Elem} {w : Bytes} (h : Derives g e w) : ∀ n, ∃ v, DerivesTimes g e n v
  | 0 => ⟨[], .zero e⟩
  | n + 1 => by
    obtain ⟨v, hv⟩ := derivesTimes_rep h n
    exact ⟨w ++ v, .succ e n w v h hv⟩

section
variable {g : Grammar} {P : Str → Prop}
mutual
theorem expElem_word : (e : Elem) → ∀ mn mx, (∀ q ∈ repReps ⟨mn, mx, e⟩, (HasText q.elem ∧ ∀ m, q.max = some m → q.min ≤ m) ∧
    ∀ n, q.elem = .rulename n → P n → ∃ w, Derives g (.rulename n) w) → ExpElem P e → ∃ w, Derives g e w
  | .rulename n, mn, mx, h, he => (h _ (List.mem_cons_self ..)).2 n rfl he
  | .group a, mn, mx, h, he => by
    obtain ⟨w, hw⟩ := expAlt_word a (fun q hq => h q (List.mem_cons_of_mem _ hq)) he
    exact ⟨w, .group a w hw⟩
  | .option a, _, _, _, _ => ⟨[], .optNone a⟩
  | .charVal true vs, _, _, _, _ => ⟨_, .term _ vs (.sensitive vs)⟩
  | .charVal false vs, _, _, _, _ => ⟨_, .term _ vs (.insensitive vs vs (List.forall₂_same.mpr fun c _ => sameLetter_refl c))⟩
  | .numVal b s es, mn, mx, h, _ => by
    obtain ⟨cs, hcs⟩ := (h _ (List.mem_cons_self ..)).1.1
    exact ⟨_, .term _ cs hcs⟩
  | .proseVal _, _, _, _, he => he.elim
theorem expAlt_word : (a : List (List Rep)) → (∀ q ∈ altReps a, (HasText q.elem ∧ ∀ m, q.max = some m → q.min ≤ m) ∧
    ∀ n, q.elem = .rulename n → P n → ∃ w, Derives g (.rulename n) w) → ExpAlt P a → ∃ w, DerivesAlt g a w
  | [], _, he => he.elim
  | c :: a, h, he => by
    rcases he with he | he
    · obtain ⟨w, hw⟩ := expConcat_word c (fun q hq => h q (by simp [altReps, hq])) he
      exact ⟨w, derivesAlt_cons.mpr (.inl hw)⟩
    · obtain ⟨w, hw⟩ := expAlt_word a (fun q hq => h q (by simp [altReps, hq])) he
      exact ⟨w, derivesAlt_cons.mpr (.inr hw)⟩
theorem expConcat_word : (c : List Rep) → (∀ q ∈ concatReps c, (HasText q.elem ∧ ∀ m, q.max = some m → q.min ≤ m) ∧
    ∀ n, q.elem = .rulename n → P n → ∃ w, Derives g (.rulename n) w) → ExpConcat P c → ∃ w, DerivesConcat g c w
  | [], _, _ => ⟨[], .nil⟩
  | ⟨mn, mx, e⟩ :: c, h, he => by
    obtain ⟨v, hv⟩ := expConcat_word c (fun q hq => h q (by simp [concatReps, hq])) he.2
    have hmax := (h ⟨mn, mx, e⟩ (by simp [concatReps, repReps])).1.2
    have : ∃ u, DerivesTimes g e mn u := by
      rcases he.1 with h0 | h0
      · exact ⟨[], h0 ▸ .zero e⟩
      · obtain ⟨u, hu⟩ := expElem_word e mn mx (fun q hq => h q (by simp [concatReps, hq])) h0
        exact derivesTimes_rep hu mn
    obtain ⟨u, hu⟩ := this
    exact ⟨u ++ v, .cons _ _ _ _ (.mk mn mx e mn u (Nat.le_refl _) hmax hu) hv⟩
end
end

theorem expRule_word {g : Grammar} (k : Nat) : ∀ n, (∀ r, Resolves g n r → TextReach g r) → ExpRule g k n →
    ∃ w, Derives g (.rulename n) w := by
  induction k with
  | zero => intro n _ he; exact he.elim
  | succ k ih =>
    rintro n h ⟨r, hr, ha⟩
    have ht := h r hr
    obtain ⟨w, hw⟩ := expAlt_word r.alt (fun q hq => ⟨ht r .refl q hq, fun m hm he =>
      ih m (fun r2 hr2 r3 h3 => ht r3 (.head ⟨q, hq, m, hm, hr2⟩ h3)) he⟩) ha
    exact ⟨w, .rule n r w hr hw⟩

/-! ## The check -/

section
variable {rec : List Str → Str → Run Bool} {known : List Str} {pan fu : Prop} {P Q : Str → Prop}

theorem joinErrs_false {errs : List Bool} : joinErrs errs = false ↔ errs = [] ∨ false ∈ errs := by
  unfold joinErrs
  cases errs with
  | nil => simp
  | cons x xs =>
    simp only [List.isEmpty_cons, Bool.not_false, Bool.true_and, reduceCtorEq, false_or, List.all_eq_false]
    constructor
    · rintro ⟨y, hy, h⟩
      simp at h
      exact h ▸ hy
    · intro h; exact ⟨false, h, by simp⟩

/-- What is assumed of the check of a rule: without an error there is an expansion (`P`), and where there is a short
expansion (`Q`) there is no error. -/
def CheckCall (rec : List Str → Str → Run Bool) (known : List Str) (pan fu : Prop) (P Q : Str → Prop) (q : Rep) : Prop :=
  ∀ n, q.elem = .rulename n → (rec known n).Sat pan fu fun b => (b = false → P n) ∧ (Q n → b = false)

mutual
theorem checkElem_sat : (e : Elem) → ∀ mn mx, (∀ q ∈ repReps ⟨mn, mx, e⟩, CheckCall rec known pan fu P Q q ∧
    ∀ a, q.elem = .group a → a ≠ []) →
    (checkGenElem rec known e).Sat pan fu fun b => (b = false → ExpElem P e) ∧ (ExpElem Q e → b = false)
  | .rulename n, mn, mx, h => (h _ (List.mem_cons_self ..)).1 n rfl
  | .group a, mn, mx, h => by
    rw [checkGenElem]
    refine (checkConcats_sat a (fun q hq => h q (List.mem_cons_of_mem _ hq))).bnd fun errs he => ?_
    obtain ⟨h1, h2, h3⟩ := he
    refine ⟨fun hb => ?_, fun hq => joinErrs_false.mpr (.inr (h3 hq))⟩
    rcases joinErrs_false.mp hb with hb | hb
    · exact absurd (List.length_eq_zero_iff.mp (by rw [← h1, hb]; rfl)) ((h _ (List.mem_cons_self ..)).2 a rfl)
    · exact h2 hb
  | .option _, _, _, _ => show _ ∧ _ from ⟨fun _ => trivial, fun _ => rfl⟩
  | .charVal _ _, _, _, _ => show _ ∧ _ from ⟨fun _ => trivial, fun _ => rfl⟩
  | .numVal _ _ _, _, _, _ => show _ ∧ _ from ⟨fun _ => trivial, fun _ => rfl⟩
  | .proseVal _, _, _, _ => show (true = false → False) ∧ (False → true = false) from ⟨fun h => (by cases h), fun h => h.elim⟩
theorem checkConcats_sat : (a : List (List Rep)) → (∀ q ∈ altReps a, CheckCall rec known pan fu P Q q ∧
    ∀ a, q.elem = .group a → a ≠ []) →
    (checkGenConcats rec known a).Sat pan fu fun errs => errs.length = a.length ∧ (false ∈ errs → ExpAlt P a) ∧
      (ExpAlt Q a → false ∈ errs)
  | [], _ => show ([] : List Bool).length = 0 ∧ (false ∈ ([] : List Bool) → False) ∧ (False → _) from ⟨rfl, fun h => (by cases h), fun h => h.elim⟩
  | c :: a, h => by
    rw [checkGenConcats]
    refine (checkConcat_sat c (fun q hq => h q (by simp [altReps, hq]))).bnd fun b hb =>
      (checkConcats_sat a (fun q hq => h q (by simp [altReps, hq]))).bnd fun errs he => ?_
    refine ⟨by simp [he.1], fun hf => ?_, fun hf => ?_⟩
    · rcases List.mem_cons.mp hf with hf | hf
      · exact .inl (hb.1 hf.symm)
      · exact .inr (he.2.1 hf)
    · rcases hf with hf | hf
      · rw [hb.2 hf]; exact List.mem_cons_self ..
      · exact List.mem_cons_of_mem _ (he.2.2 hf)
theorem checkConcat_sat : (c : List Rep) → (∀ q ∈ concatReps c, CheckCall rec known pan fu P Q q ∧
    ∀ a, q.elem = .group a → a ≠ []) →
    (checkGenConcat rec known c).Sat pan fu fun b => (b = false → ExpConcat P c) ∧ (ExpConcat Q c → b = false)
  | [], _ => show _ ∧ _ from ⟨fun _ => trivial, fun _ => rfl⟩
  | ⟨mn, mx, e⟩ :: c, h => by
    rw [checkGenConcat]
    have hc := checkConcat_sat c (fun q hq => h q (by simp [concatReps, hq]))
    by_cases h0 : mn = 0
    · rw [if_pos h0]
      exact hc.mono fun b hb => ⟨fun hf => ⟨.inl h0, hb.1 hf⟩, fun hf => hb.2 hf.2⟩
    · rw [if_neg h0]
      refine (checkElem_sat e mn mx (fun q hq => h q (by simp [concatReps, hq]))).bnd fun err he => ?_
      cases err with
      | true =>
        rw [if_pos rfl]
        exact ⟨fun hf => (by cases hf), fun hf => absurd (he.2 (hf.1.resolve_left h0)) (by simp)⟩
      | false =>
        rw [if_neg (by simp)]
        exact hc.mono fun b hb => ⟨fun hf => ⟨.inr (he.1 rfl), hb.1 hf⟩, fun hf => hb.2 hf.2⟩
end

theorem checkGenAlt_sat (a : Alt) (h : ∀ q ∈ altReps a, CheckCall rec known pan fu P Q q ∧ ∀ a, q.elem = .group a → a ≠ [])
    (ha : a ≠ []) : (checkGenAlt rec known a).Sat pan fu fun b => (b = false → ExpAlt P a) ∧ (ExpAlt Q a → b = false) := by
  refine (checkConcats_sat a h).bnd fun errs he => ?_
  obtain ⟨h1, h2, h3⟩ := he
  refine ⟨fun hb => ?_, fun hq => joinErrs_false.mpr (.inr (h3 hq))⟩
  rcases joinErrs_false.mp hb with hb | hb
  · exact absurd (List.length_eq_zero_iff.mp (by rw [← h1, hb]; rfl)) ha
  · exact h2 hb
end

/-- References resolve and alternations are not empty, wherever the rule leads. -/
def ClosedReach (g : Grammar) (r : Rule) : Prop :=
  ∀ r', Relation.ReflTransGen (Refers g) r r' → r'.alt ≠ [] ∧ ∀ q ∈ altReps r'.alt,
    (∀ n, q.elem = .rulename n → ∃ r2, Resolves g n r2) ∧ ∀ a, q.elem = .group a ∨ q.elem = .option a → a ≠ []

theorem checkGenRule_sat {g : Grammar} (hd : NamesDistinct g) (fuel : Nat) : ∀ (known : List Str) (n : Str),
    (known.map canon).Nodup → (∀ x ∈ known, canon x ∈ ruleKeys g) → (∃ r, Resolves g n r ∧ ClosedReach g r) →
    (ruleKeys g).length < known.length + fuel →
    (checkGenRule g fuel known n).Sat False False fun b => (b = false → ∃ k, ExpRule g k n) ∧
      ∀ k, ExpRule g k n → (∀ x ∈ known, ¬ ExpRule g k x) → b = false := by
  induction fuel with
  | zero =>
    intro known n hn hk _ hl
    have := (List.subperm_of_subset hn (fun x hx => by
      obtain ⟨y, hy, rfl⟩ := List.mem_map.mp hx
      exact hk y hy)).length_le
    rw [List.length_map] at this
    omega
  | succ fuel ih =>
    rintro known n hn hk ⟨r, hr, hcl⟩ hl
    rw [checkGenRule]
    by_cases hkn : known.any (fun x => equalFold n x) = true
    · rw [if_pos hkn]
      obtain ⟨x, hx, he⟩ := List.any_eq_true.mp hkn
      rw [equalFold_iff, sameName_iff] at he
      exact ⟨fun h => (by cases h), fun k h1 h2 => absurd (expRule_congr he h1) (h2 x hx)⟩
    · rw [if_neg hkn, (getRule_iff hd).mpr hr]
      simp only
      have hfresh : canon n ∉ known.map canon := by
        intro h
        obtain ⟨x, hx, he⟩ := List.mem_map.mp h
        exact hkn (List.any_eq_true.mpr ⟨x, hx, by rw [equalFold_iff, sameName_iff, he]⟩)
      have key : ∀ q ∈ altReps r.alt, ∀ m, q.elem = .rulename m →
          (checkGenRule g fuel (n :: known) m).Sat False False fun b => (b = false → ∃ k, ExpRule g k m) ∧
            ∀ k, ExpRule g k m → (∀ x ∈ n :: known, ¬ ExpRule g k x) → b = false := by
        intro q hq m hm
        obtain ⟨r2, hr2⟩ := ((hcl r .refl).2 q hq).1 m hm
        refine ih (n :: known) m ?_ ?_ ⟨r2, hr2, fun r3 h3 => hcl r3 (.head ⟨q, hq, m, hm, hr2⟩ h3)⟩
          (by simp only [List.length_cons]; omega)
        · rw [List.map_cons]; exact List.nodup_cons.mpr ⟨hfresh, hn⟩
        · intro x hx
          rcases List.mem_cons.mp hx with rfl | hx
          · rw [← resolves_name hr]; exact resolves_key hr
          · exact hk x hx
      -- one run, described for every depth
      have main : ∀ k, (∀ x ∈ n :: known, ¬ ExpRule g k x) → (checkGenAlt (checkGenRule g fuel) (n :: known) r.alt).Sat False False
          fun b => (b = false → ExpAlt (fun m => ∃ k, ExpRule g k m) r.alt) ∧ (ExpAlt (ExpRule g k) r.alt → b = false) := by
        intro k hkx
        refine checkGenAlt_sat r.alt (fun q hq => ⟨fun m hm => (key q hq m hm).mono fun b hb => ⟨hb.1, fun h => hb.2 k h hkx⟩,
          fun a ha => ((hcl r .refl).2 q hq).2 a (.inl ha)⟩) (hcl r .refl).1
      have hfin : ExpAlt (fun m => ∃ k, ExpRule g k m) r.alt → ∃ k, ExpAlt (ExpRule g k) r.alt := by
        exact expAlt_exists r.alt
      cases hrun : checkGenAlt (checkGenRule g fuel) (n :: known) r.alt with
      | panic => have := main 0 (fun x _ h => h.elim); rw [hrun] at this; exact this
      | fuel => have := main 0 (fun x _ h => h.elim); rw [hrun] at this; exact this
      | ok b =>
        refine ⟨fun hb => ?_, fun k h1 h2 => ?_⟩
        · have := main 0 (fun x _ h => h.elim)
          rw [hrun] at this
          obtain ⟨k, hk⟩ := hfin (this.1 hb)
          exact ⟨k + 1, r, hr, hk⟩
        · classical
          have hex : ∃ k, ExpRule g k n := ⟨k, h1⟩
          obtain ⟨k0, hk0, hmin⟩ : ∃ k0, ExpRule g k0 n ∧ ∀ j < k0, ¬ ExpRule g j n :=
            ⟨Nat.find hex, Nat.find_spec hex, fun j hj => Nat.find_min hex hj⟩
          have hle : k0 ≤ k := by
            by_contra hc
            exact hmin k (by omega) h1
          cases k0 with
          | zero => exact hk0.elim
          | succ k1 =>
            have := main k1 (fun x hx => by
              rcases List.mem_cons.mp hx with rfl | hx
              · exact hmin k1 (by omega)
              · exact fun h => h2 x hx (expRule_mono (by omega) x h))
            rw [hrun] at this
            obtain ⟨r', hr', ha⟩ := hk0
            rw [resolves_unique hd hr' hr rfl] at ha
            exact this.2 ha

end Verif
