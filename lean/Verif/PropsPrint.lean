import Verif.Print
import Verif.Findings

/-!
# C38: printing

`String()` of rules and grammars determines them, up to the `%s` marker it drops.
-/

namespace Verif.Props
open Verif Spec

/-- C38, part.  Two alternations that can be written in ABNF, none of whose texts is used both case-sensitively and
case-insensitively, are equal as soon as they print equally.  Missing: without the condition on case the claim is
false, see `C38_fails`. -/
theorem C38_alternation_partial (a b : Alt) (ha : a ≠ []) (hb : b ≠ []) (hwa : altWritten a = true)
    (hwb : altWritten b = true) (hc : CaseConsistent (altStrings a ++ altStrings b)) (h : altStr a = altStr b) : a = b :=
  altUncased_inj _ hc a b (List.subset_append_left ..) (List.subset_append_right ..)
    (alt_inj a b [] [] ha hb hwa hwb ⟨stop_nil, by simp⟩ ⟨stop_nil, by simp⟩ (by simpa using h)).1

/-- C38, part.  Two grammars that can be written in ABNF and print equally have the same rules in the same order, up
to the case-sensitivity markers. -/
theorem C38_grammar_partial (g g' : Grammar) (hg : ∀ r ∈ g.rules, r.written = true) (hg' : ∀ r ∈ g'.rules, r.written = true)
    (h : g.str = g'.str) :
    List.Forall₂ (fun r r' => r.name = r'.name ∧ altUncased r.alt = altUncased r'.alt) g.rules g'.rules :=
  rules_inj g.rules g'.rules hg hg' h

/-- C38, part.  Without case-sensitive strings the printed grammar determines the rules. -/
theorem C38_grammar_nocase_partial (g g' : Grammar) (hg : ∀ r ∈ g.rules, r.written = true)
    (hg' : ∀ r ∈ g'.rules, r.written = true)
    (hc : ∀ p ∈ (g.rules ++ g'.rules).flatMap (fun r => altStrings r.alt), p.1 = false)
    (h : g.str = g'.str) : g = g' := by
  have key : ∀ l m : List Rule, List.Forall₂ (fun r r' => r.name = r'.name ∧ altUncased r.alt = altUncased r'.alt) l m →
      (∀ r ∈ l ++ m, ∀ p ∈ altStrings r.alt, p.1 = false) → l = m := by
    intro l m h
    induction h with
    | nil => intro _; rfl
    | @cons r r' l m h _ ih =>
      intro hc
      have h1 : CaseConsistent (altStrings r.alt ++ altStrings r'.alt) := by
        intro p hp q hq _
        have hf : ∀ p ∈ altStrings r.alt ++ altStrings r'.alt, p.1 = false := fun p hp => by
          rcases List.mem_append.mp hp with hp | hp
          · exact hc r (by simp) p hp
          · exact hc r' (by simp) p hp
        rw [hf p hp, hf q hq]
      have h2 := altUncased_inj _ h1 r.alt r'.alt (List.subset_append_left ..) (List.subset_append_right ..) h.2
      rw [ih fun x hx p hp => hc x (by simp only [List.mem_append, List.mem_cons] at hx ⊢; tauto) p hp]
      obtain ⟨n, a⟩ := r
      obtain ⟨n', a'⟩ := r'
      simp only at h h2
      rw [h.1, h2]
  have := key g.rules g'.rules (rules_inj g.rules g'.rules hg hg' h)
    fun r hr p hp => hc p (List.mem_flatMap.mpr ⟨r, hr, hp⟩)
  obtain ⟨l⟩ := g
  obtain ⟨m⟩ := g'
  simp only at this
  rw [this]

/-- C38 fails for case-sensitive strings: `%s"x"` and `"x"` print alike but do not match the same texts. -/
theorem C38_fails : ∃ a b : Alt, altWritten a = true ∧ altWritten b = true ∧ altStr a = altStr b ∧ a ≠ b ∧
    DerivesAlt ⟨[]⟩ b (bytes% "X") ∧ ¬ DerivesAlt ⟨[]⟩ a (bytes% "X") := by
  refine ⟨[[Ex.one (.charVal true (str% "x"))]], [[Ex.one (.charVal false (str% "x"))]], rfl, rfl, rfl, by simp [Ex.one],
    .mk _ [Ex.one (.charVal false (str% "x"))] _ (by simp) ?_, ?_⟩
  · have h := Findings.rep_one (g := ⟨[]⟩) (.term (.charVal false (str% "x")) (str% "X") (.insensitive _ _
      (.cons ((sensequal_iff _ _ false).mp (by decide)) .nil)))
    have := DerivesConcat.cons _ [] _ [] h .nil
    rw [List.append_nil, show utf8 (str% "X") = bytes% "X" by decide] at this
    exact this
  · generalize hw : bytes% "X" = w
    rintro ⟨_, c, _, hc, hd⟩
    simp only [List.mem_singleton] at hc
    subst hc
    cases hd with
    | cons r c u v h1 h2 =>
      cases h2
      cases h1 with
      | mk mn mx e n w h3 h4 h5 =>
        have : n = 1 := by have := h4 1 rfl; omega
        subst this
        cases h5 with
        | succ e n u v h6 h7 =>
          cases h7
          cases h6 with
          | term e cs h => cases h; revert hw; decide

/-- C01 for grammars that can be written in ABNF and use no text both case-sensitively and case-insensitively. -/
theorem C01_exact_written (g : Grammar) (hw : ∀ r ∈ g.rules, r.written = true) (hc : CaseConsistent g.strings)
    (hnd : NamesDistinct g) (sched : Sched NodeKey) (hf : sched.Fair) (inp : Bytes) (root : Str)
    (maxNodes maxSlots : Nat) (f : Forest) (h : parseForest sched inp g root maxNodes maxSlots = .ok f) :
    f.valid = true ↔ DerivesRule g root inp :=
  C01_exact g (numValsWF_of_written hw) hnd (distinctPrint_of_written hw hc) sched hf inp root maxNodes maxSlots f h

/-- C02 for the same grammars. -/
theorem C02_exact_written (g : Grammar) (hw : ∀ r ∈ g.rules, r.written = true) (hc : CaseConsistent g.strings)
    (hnd : NamesDistinct g) (sched : Sched Nat) (hf : sched.Fair) (inp : Bytes) (root : Str)
    (maxElems maxSlots : Nat) (f : BsrForest) (h : parseBSR sched inp g root maxElems maxSlots = .ok f) :
    f.valid = true ↔ DerivesRule g root inp :=
  C02_exact g (numValsWF_of_written hw) hnd (distinctPrint_of_written hw hc) sched hf inp root maxElems maxSlots f h

/-- A grammar with every kind of element; the example below shows it printed. -/
def everything : Grammar := ⟨[
  ⟨str% "a-1", [[Ex.one (.charVal true (str% "ab")), ⟨2, some 3, .group [[Ex.one (Ex.lit (str% "x"))],
    [Ex.one (.numVal (str% "x") .range [str% "41", str% "5a"])]]⟩],
    [Ex.one (.option [[⟨0, none, Ex.ref (str% "b")⟩]]), ⟨4, some 4, .proseVal [str% "p"]⟩]]⟩,
  ⟨str% "b", [[Ex.one (.numVal (str% "d") .series [str% "13", str% "10"])]]⟩]⟩

example : (∀ r ∈ everything.rules, r.written = true) ∧ CaseConsistent everything.strings ∧ NamesDistinct everything :=
  ⟨by decide, by unfold CaseConsistent; decide, namesDistinct_of (by decide)⟩
example : everything.str = str% "a-1 = \"ab\" 2*3(\"x\" / %x41-5a) / [*b] 4<p>\r\nb = %d13.10\r\n" := by decide

end Verif.Props
