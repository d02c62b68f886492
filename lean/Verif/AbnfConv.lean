import Verif.EvalSound

/-!
# Where the code reads an ABNF text as RFC 5234 does

The code and RFC 5234 differ in two points only: `feval.parseRepeat` (/repo/grammar.go:258-273) ignores the error of
`strconv.Atoi`, and `feval.rule` (/repo/grammar.go:203-206) looks for `=/` in comments too.
-/

namespace Verif
open Spec Once
open Eval (code)

namespace Text

variable {cv cv' : Conv}

theorem Repeat.any {p : Str} {mn : Nat} {mx : Option Nat} (h : Repeat cv p mn mx) : ∃ mn' mx', Repeat cv' p mn' mx' := by
  cases h with
  | none => exact ⟨_, _, .none⟩
  | exactly _ h1 h2 => exact ⟨_, _, .exactly _ h1 h2⟩
  | between a b h1 h2 => exact ⟨_, _, .between a b h1 h2⟩

theorem alt_any {s : Str} {a : Alt} (h : ReadsAlt cv s a) : ∃ a', ReadsAlt cv' s a' := by
  refine (reads_ind (cv := cv) (P1 := fun s _ => ∃ e, ReadsElem cv' s e) (P2 := fun s _ => ∃ e, ReadsRep cv' s e)
    (P3 := fun s _ => ∃ e, ReadsConcat cv' s e) (P4 := fun s _ => ∃ e, ReadsAlt cv' s e)
    ?_ ?_ ?_ ?_ ?_ ?_ ?_ ?_ ?_ ?_ ?_ ?_ ?_ ?_).2.2.2 h
  · exact fun n h => ⟨_, .rulename n h⟩
  · exact fun g₁ s g₂ a h1 _ h2 ⟨a', h⟩ => ⟨_, .group g₁ s g₂ a' h1 h h2⟩
  · exact fun g₁ s g₂ a h1 _ h2 ⟨a', h⟩ => ⟨_, .option g₁ s g₂ a' h1 h h2⟩
  · exact fun s h => ⟨_, .string s h⟩
  · exact fun m s h h' => ⟨_, .insensitive m s h h'⟩
  · exact fun m s h h' => ⟨_, .sensitive m s h h'⟩
  · exact fun m b es s h1 h2 h3 => ⟨_, .series m b es s h1 h2 h3⟩
  · exact fun m b lo hi h1 h2 h3 => ⟨_, .range m b lo hi h1 h2 h3⟩
  · exact fun s h => ⟨_, .prose s h⟩
  · rintro p mn mx s e hp _ ⟨e', h⟩
    obtain ⟨mn', mx', hp'⟩ := hp.any (cv' := cv')
    exact ⟨_, .mk p mn' mx' s e' hp' h⟩
  · exact fun s r _ ⟨r', h⟩ => ⟨_, .one s r' h⟩
  · exact fun s r gap t c _ hg h0 _ ⟨r', h⟩ ⟨c', h'⟩ => ⟨_, .more s r' gap t c' h hg h0 h'⟩
  · exact fun s r _ ⟨r', h⟩ => ⟨_, .one s r' h⟩
  · exact fun s c g₁ g₂ t a _ h1 h2 _ ⟨c', h⟩ ⟨a', h'⟩ => ⟨_, .more s c' g₁ g₂ t a' h h1 h2 h'⟩

theorem rule_any {s : Str} {d : Def} (h : ReadsRule cv s d) : ∃ d', ReadsRule cv' s d' := by
  cases h with
  | define n g₁ g₂ s a ws nl h1 h2 h3 h4 h5 h6 =>
    obtain ⟨a', h'⟩ := alt_any (cv' := cv') h4
    exact ⟨_, .define n g₁ g₂ s a' ws nl h1 h2 h3 h' h5 h6⟩
  | extend n g₁ g₂ s a ws nl h1 h2 h3 h4 h5 h6 =>
    obtain ⟨a', h'⟩ := alt_any (cv' := cv') h4
    exact ⟨_, .extend n g₁ g₂ s a' ws nl h1 h2 h3 h' h5 h6⟩

/-- Which texts are ABNF does not depend on the convention. -/
theorem file_any {s : Str} {ds : List Def} (h : ReadsFile cv s ds) : ∃ ds', ReadsFile cv' s ds' := by
  obtain ⟨h0, h⟩ := h
  suffices ∃ ds', ReadsLines cv' s ds' from this.imp fun _ h => ⟨h0, h⟩
  clear h0
  induction h with
  | nil => exact ⟨[], .nil⟩
  | rule s d t ds h _ ih =>
    obtain ⟨d', h'⟩ := rule_any (cv' := cv') h
    obtain ⟨ds', hd⟩ := ih
    exact ⟨_, .rule s d' t ds' h' hd⟩
  | blank ws nl t ds h1 h2 _ ih =>
    obtain ⟨ds', hd⟩ := ih
    exact ⟨_, .blank ws nl t ds' h1 h2 hd⟩

/-- The counts of a repetition fit in an `int` of 64 bits. -/
def Fits (r : Rep) : Prop := r.min < 2 ^ 63 ∧ ∀ m, r.max = some m → m < 2 ^ 63

theorem atoi_eq {s : Str} (h : decimal s < 2 ^ 63) : Eval.atoi s = decimal s := by
  have : Eval.atoi s = min (decimal s) (2 ^ 63 - 1) := rfl
  omega

theorem Repeat.fits {p : Str} {mn : Nat} {mx : Option Nat} (h : Repeat rfc p mn mx) (h1 : mn < 2 ^ 63)
    (h2 : ∀ m, mx = some m → m < 2 ^ 63) : Repeat code p mn mx := by
  have key : ∀ s, decimal s < 2 ^ 63 → code.num s = rfc.num s := fun s hs => atoi_eq hs
  cases h with
  | none => exact .none
  | exactly _ h3 h4 =>
    have := Repeat.exactly (cv := code) p h3 h4
    rwa [key p h1] at this
  | between a b h3 h4 =>
    have := Repeat.between (cv := code) a b h3 h4
    have e1 : (if a = [] then 0 else code.num a) = if a = [] then 0 else rfc.num a := by
      split_ifs with h
      · rfl
      · rw [if_neg h] at h1
        exact key a h1
    have e2 : (if b = [] then Option.none else some (code.num b)) = if b = [] then Option.none else some (rfc.num b) := by
      split_ifs with h
      · rfl
      · exact congrArg some (key b (h2 _ (if_neg h)))
    rwa [e1, e2] at this

theorem alt_code {s : Str} {a : Alt} (h : ReadsAlt rfc s a) (hf : ∀ r ∈ altReps a, Fits r) : ReadsAlt code s a := by
  revert hf
  refine (reads_ind (cv := rfc) (P1 := fun s e => (∀ r ∈ elemReps e, Fits r) → ReadsElem code s e)
    (P2 := fun s q => (∀ r ∈ repReps q, Fits r) → ReadsRep code s q)
    (P3 := fun s c => (∀ r ∈ concatReps c, Fits r) → ReadsConcat code s c)
    (P4 := fun s a => (∀ r ∈ altReps a, Fits r) → ReadsAlt code s a)
    ?_ ?_ ?_ ?_ ?_ ?_ ?_ ?_ ?_ ?_ ?_ ?_ ?_ ?_).2.2.2 h
  · exact fun n h _ => .rulename n h
  · exact fun g₁ s g₂ a h1 _ h2 ih hf => .group g₁ s g₂ a h1 (ih hf) h2
  · exact fun g₁ s g₂ a h1 _ h2 ih hf => .option g₁ s g₂ a h1 (ih hf) h2
  · exact fun s h _ => .string s h
  · exact fun m s h h' _ => .insensitive m s h h'
  · exact fun m s h h' _ => .sensitive m s h h'
  · exact fun m b es s h1 h2 h3 _ => .series m b es s h1 h2 h3
  · exact fun m b lo hi h1 h2 h3 _ => .range m b lo hi h1 h2 h3
  · exact fun s h _ => .prose s h
  · intro p mn mx s e hp _ ih hf
    have h1 := hf ⟨mn, mx, e⟩ (List.mem_cons_self ..)
    exact .mk p mn mx s e (hp.fits h1.1 h1.2) (ih fun r hr => hf r (List.mem_cons_of_mem _ hr))
  · exact fun s r _ ih hf => .one s r (ih fun q hq => hf q (by simp [concatReps, hq]))
  · exact fun s r gap t c _ hg h0 _ ih ih' hf => .more s r gap t c (ih fun q hq => hf q (by simp [concatReps, hq])) hg h0
      (ih' fun q hq => hf q (by simp [concatReps, hq]))
  · exact fun s r _ ih hf => .one s r (ih fun q hq => hf q (by simp [altReps, hq]))
  · exact fun s c g₁ g₂ t a _ h1 h2 _ ih ih' hf => .more s c g₁ g₂ t a (ih fun q hq => hf q (by simp [altReps, hq])) h1 h2
      (ih' fun q hq => hf q (by simp [altReps, hq]))

/-- No semicolon is followed by `=/` on its line. -/
def Quiet (s : Str) : Prop := ∀ a c b, s = a ++ ';' :: (c ++ '=' :: '/' :: b) → '\r' ∈ c

theorem Quiet.left {s t : Str} (h : Quiet (s ++ t)) : Quiet s := by
  rintro a c b rfl
  exact h a c (b ++ t) (by simp)
theorem Quiet.right {s t : Str} (h : Quiet (s ++ t)) : Quiet t := by
  rintro a c b rfl
  exact h (s ++ a) c b (by simp)

theorem contains_iff {x s : Str} : Eval.contains x s = true ↔ ∃ a b, s = a ++ (x ++ b) := by
  induction s with
  | nil =>
    rw [Eval.contains, List.isPrefixOf_iff_prefix]
    constructor
    · rintro ⟨b, hb⟩
      exact ⟨[], b, by simp [hb]⟩
    · rintro ⟨a, b, h⟩
      have := List.append_eq_nil_iff.mp h.symm
      exact ⟨b, this.2⟩
  | cons c s ih =>
    rw [Eval.contains, Bool.or_eq_true, List.isPrefixOf_iff_prefix, ih]
    constructor
    · rintro (⟨b, hb⟩ | ⟨a, b, rfl⟩)
      · exact ⟨[], b, by simp [hb]⟩
      · exact ⟨c :: a, b, rfl⟩
    · rintro ⟨a, b, h⟩
      cases a with
      | nil => exact .inl ⟨b, h.symm⟩
      | cons d a =>
        injection h with h1 h2
        exact .inr ⟨a, b, h2⟩

/-- An equals sign in a gap is in a comment. -/
theorem gap_equals {g a b : Str} (hg : Gap g) (he : g = a ++ '=' :: b) :
    ∃ a₁ c, a = a₁ ++ ';' :: c ∧ (∀ x ∈ c, x ≠ '\r') := by
  induction hg generalizing a with
  | nil => simp at he
  | cons u v hu _ ih =>
    have split := List.append_eq_append_iff.mp he
    rcases split with ⟨w, rfl, hw⟩ | ⟨w, hw, hv⟩
    · obtain ⟨a₁, c, rfl, hc⟩ := ih hw
      exact ⟨u ++ a₁, c, by simp, hc⟩
    · cases w with
      | nil =>
        rw [List.append_nil] at hw
        subst hw
        obtain ⟨a₁, c, h1, hc⟩ := ih (a := []) (by simpa using hv.symm)
        simp at h1
      | cons x w =>
        injection hv with hx _
        subst hx
        have hl : ∀ {l p q : Str}, LineEnd l → l = p ++ '=' :: q → ∃ a₁ c, p = a₁ ++ ';' :: c ∧ (∀ x ∈ c, x ≠ '\r') := by
          intro l p q hl hlq
          cases hl with
          | plain =>
            have : '=' ∈ ['\r', '\n'] := by rw [hlq]; simp
            simp at this
          | comment s hs =>
            cases p with
            | nil => simp at hlq
            | cons y p =>
              simp only [List.cons_append, List.cons.injEq] at hlq
              obtain ⟨rfl, hlq⟩ := hlq
              refine ⟨[], p, rfl, ?_⟩
              have : p <+: s ++ ['\r', '\n'] := ⟨_, hlq.symm⟩
              have hps : p <+: s := by
                rcases Nat.lt_or_ge s.length p.length with hlt | hle
                · exfalso
                  obtain ⟨r, rfl⟩ := List.prefix_of_prefix_length_le (List.prefix_append s _) this (Nat.le_of_lt hlt)
                  rw [List.append_assoc] at hlq
                  have := List.append_cancel_left hlq
                  have : '=' ∈ ['\r', '\n'] := by rw [this]; simp
                  simp at this
                · exact List.prefix_of_prefix_length_le this (List.prefix_append s _) hle
              exact fun x hx => commentChar (hs x (hps.subset hx))
        cases hu with
        | wsp c hc =>
          have : '=' ∈ [c] := by rw [hw]; simp
          rw [List.mem_singleton] at this
          subst this
          rcases hc with h | h <;> cases h
        | line l c hl' hc =>
          have h2 := List.append_eq_append_iff.mp hw
          rcases h2 with ⟨z, rfl, hz⟩ | ⟨z, hz, hz'⟩
          · have : '=' ∈ [c] := by rw [hz]; simp
            rw [List.mem_singleton] at this
            subst this
            rcases hc with h | h <;> cases h
          · cases z with
            | nil =>
              have : '=' ∈ [c] := by
                rw [List.nil_append] at hz'
                rw [← hz']; simp
              rw [List.mem_singleton] at this
              subst this
              rcases hc with h | h <;> cases h
            | cons y z =>
              injection hz' with hy _
              subst hy
              exact hl hl' hz

theorem gap_quiet {g : Str} (hg : Gap g) (hq : Quiet g) {a b : Str} : g ≠ a ++ '=' :: '/' :: b := by
  intro he
  obtain ⟨a₁, c, rfl, hc⟩ := gap_equals hg he
  exact hc _ (hq a₁ c b (by rw [he]; simp)) rfl

/-- The code takes `=` for `=` when no comment has `=/` in it. -/
theorem extends_quiet {g₁ g₂ : Str} {b : Bool} (h1 : Gap g₁) (h2 : Gap g₂) (q1 : Quiet g₁) (q2 : Quiet g₂) :
    code.extends_ g₁ b g₂ = b := by
  have hs : ¬ GapStart '/' := by rw [gapStart_iff]; decide
  change Eval.contains _ _ = b
  cases b with
  | true => exact contains_iff.mpr ⟨g₁, g₂, rfl⟩
  | false =>
    rw [← Bool.not_eq_true, contains_iff]
    rintro ⟨a, b, h⟩
    change g₁ ++ '=' :: g₂ = a ++ ('=' :: '/' :: b) at h
    rcases List.append_eq_append_iff.mp h with ⟨w, rfl, hw⟩ | ⟨w, rfl, hw⟩
    · cases w with
      | nil =>
        injection hw with _ hw
        rw [hw] at h2
        exact hs h2.head
      | cons x w =>
        injection hw with hx hw
        exact gap_quiet h2 q2 hw
    · match w, hw with
      | [], hw =>
        rw [List.nil_append] at hw
        injection hw with _ hw
        rw [← hw] at h2
        exact hs h2.head
      | [x], hw => injection hw with _ hw; injection hw with hw _; cases hw
      | x :: y :: w, hw =>
        injection hw with hx hw
        injection hw with hy hw
        subst hx hy
        exact gap_quiet h1 q1 rfl

theorem rule_code {s : Str} {d : Def} (h : ReadsRule rfc s d) (hf : ∀ r ∈ altReps d.alt, Fits r) (hq : Quiet s) : ReadsRule code s d := by
  cases h with
  | define n g₁ g₂ s a ws nl h1 h2 h3 h4 h5 h6 =>
    have := ReadsRule.define (cv := code) n g₁ g₂ s a ws nl h1 h2 h3 (alt_code h4 hf) h5 h6
    rwa [extends_quiet h2 h3 hq.right.left (hq.right.right.right (s := ['=']) (t := g₂ ++ _)).left] at this
  | extend n g₁ g₂ s a ws nl h1 h2 h3 h4 h5 h6 =>
    have := ReadsRule.extend (cv := code) n g₁ g₂ s a ws nl h1 h2 h3 (alt_code h4 hf) h5 h6
    rwa [extends_quiet h2 h3 hq.right.left (hq.right.right.right (s := ['=', '/']) (t := g₂ ++ _)).left] at this

/-- The code reads a text as RFC 5234 does if no repeat count is too large for an `int` and no comment has `=/` in it. -/
theorem file_code {s : Str} {ds : List Def} (h : ReadsFile rfc s ds) (hf : ∀ d ∈ ds, ∀ r ∈ altReps d.alt, Fits r) (hq : Quiet s) :
    ReadsFile code s ds := by
  obtain ⟨h0, h⟩ := h
  refine ⟨h0, ?_⟩
  clear h0
  induction h with
  | nil => exact .nil
  | rule s d t ds h _ ih =>
    exact .rule s d t ds (rule_code h (hf d (List.mem_cons_self ..)) hq.left) (ih (fun e he => hf e (List.mem_cons_of_mem _ he)) hq.right)
  | blank ws nl t ds h1 h2 _ ih => exact .blank ws nl t ds h1 h2 (ih hf hq.right.right)

end Text
end Verif
