import Verif.TgNodes
import Verif.PropsFuzz

/-!
# Conditions on the nodes of a graph, read off the rules
-/

namespace Verif

open Spec Props

variable {g : Grammar} {o : TgOpts} {core : List Rule} {order : List Str} {name : Str} {f : TgFrag} {h : TgHeap}

/-- Every series of the rule has an element. -/
def FullSeries (r : Rule) : Prop := ∀ q ∈ altReps r.alt, ∀ b es, q.elem = .numVal b .series es → es ≠ []

theorem charVal_solid {s : Bool} {vs : List Char} (hv : vs ≠ []) : ¬ Derives g (.charVal s vs) [] := by
  rw [derives_charVal]
  rintro ⟨ws, h1, h2⟩
  obtain rfl := utf8_eq_nil h2.symm
  cases s with
  | true => simp only [if_true] at h1; exact hv h1.symm
  | false =>
    simp only [Bool.false_eq_true, if_false] at h1
    cases h1
    exact hv rfl

theorem numVal_solid {b : Str} {st : Status} {es : List Str} (hv : st = .series → es ≠ []) : ¬ Derives g (.numVal b st es) [] := by
  intro hw
  generalize hx : ([] : Bytes) = x at hw
  cases hw with
  | term _ cs ht =>
    obtain rfl := utf8_eq_nil hx.symm
    cases ht with
    | series _ _ _ h => cases h; exact hv rfl rfl

/-- No node of the graph derives the empty text by itself. -/
theorem solid_of (hd : NamesDistinct g) (hf : ∀ r, Visits o g name r → FullSeries r)
    (hok : transitionGraph o core g order name = .ok (.ok (f, h))) (n : Nat) (hp : producing (h.elem n) = true) :
    ¬ Derives g (h.elem n) [] := by
  refine transitionGraph_P (P := fun e => producing e = true → ¬ Derives g e []) hd (fun h => by cases h) ?_ hok n hp
  intro r hr q hq e he _
  have hfill := hf r hr q hq
  generalize q.elem = x at he hfill
  cases x with
  | charVal s vs =>
    obtain ⟨h1, h2⟩ := he
    split_ifs at h2
    · obtain ⟨c, _, d, _, rfl⟩ := h2
      exact charVal_solid (by simp)
    · subst h2
      exact charVal_solid h1
  | numVal b st es =>
    cases st with
    | series =>
      simp only [NodeElems] at he
      split_ifs at he
      · obtain ⟨s, _, rfl⟩ := he
        exact numVal_solid (by simp)
      · subst he
        exact numVal_solid fun _ => hfill b es rfl
    | range =>
      simp only [NodeElems] at he
      split_ifs at he
      · obtain ⟨s, _, _, rfl⟩ := he
        exact numVal_solid (by simp)
      · subst he
        exact numVal_solid (by simp)
  | rulename m => obtain ⟨_, rfl⟩ := he; rename_i hp'; cases hp'
  | _ => exact he.elim

/-- What can be written down: as `Emittable`, and no range with surrogates may be deflated. -/
def TextRule (o : TgOpts) (r : Rule) : Prop := ∀ q ∈ altReps r.alt, Emittable q.elem ∧
  (o.nums = true → ∀ b s t lo hi, q.elem = .numVal b .range [s, t] → Denotes b s lo → Denotes b t hi → hi < 0xD800 ∨ 0xDFFF < lo)

theorem emittable_of_rules (hd : NamesDistinct g) (ht : ∀ r, Visits o g name r → TextRule o r)
    (hok : transitionGraph o core g order name = .ok (.ok (f, h))) (n : Nat) (hp : producing (h.elem n) = true) :
    Emittable (h.elem n) := by
  refine transitionGraph_P (P := fun e => producing e = true → Emittable e) hd (fun h => by cases h) ?_ hok n hp
  intro r hr q hq e he _
  have hfill := ht r hr q hq
  generalize q.elem = x at he hfill
  cases x with
  | charVal s vs =>
    obtain ⟨h1, h2⟩ := he
    split_ifs at h2
    · obtain ⟨c, _, d, _, rfl⟩ := h2
      trivial
    · subst h2
      trivial
  | numVal b st es =>
    cases st with
    | series =>
      simp only [NodeElems] at he
      split_ifs at he
      · obtain ⟨s, hs, rfl⟩ := he
        intro s' hs'
        rw [List.mem_singleton] at hs'
        subst hs'
        exact hfill.1 s' hs
      · subst he
        exact hfill.1
    | range =>
      simp only [NodeElems] at he
      split_ifs at he with hn
      · obtain ⟨v, h1, h2, rfl⟩ := he
        obtain ⟨s, t, lo, hi, rfl, hs, ht', hle, hlo, _⟩ := hfill.1
        have hsur := hfill.2 hn b s t lo hi rfl hs ht'
        simp only [List.getD_cons_zero, List.getD_cons_succ, numvalToRune_denotes hs, numvalToRune_denotes ht', maxInt32, maxRune] at h1 h2
        obtain ⟨rx, ds, hrx, _⟩ := hs
        intro s' hs'
        rw [List.mem_singleton] at hs'
        subst hs'
        refine ⟨Char.ofNat v, ?_⟩
        rw [toNat_ofNat_char (by omega)]
        exact int32ToNumval_denotes hrx v
      · subst he
        exact hfill.1
  | rulename m => obtain ⟨_, rfl⟩ := he; rename_i hp'; cases hp'
  | _ => exact he.elim

theorem fewLetters_of_rules (hd : NamesDistinct g) (ht : ∀ r, Visits o g name r → ∀ q ∈ altReps r.alt, FewLetters q.elem)
    (hok : transitionGraph o core g order name = .ok (.ok (f, h))) (n : Nat) : FewLetters (h.elem n) := by
  refine transitionGraph_P (P := FewLetters) hd trivial ?_ hok n
  intro r hr q hq e he
  have hfill := ht r hr q hq
  generalize q.elem = x at he hfill
  cases x with
  | charVal s vs =>
    obtain ⟨h1, h2⟩ := he
    split_ifs at h2
    · obtain ⟨c, _, d, _, rfl⟩ := h2
      trivial
    · subst h2
      exact hfill
  | numVal b st es =>
    cases st with
    | series =>
      simp only [NodeElems] at he
      split_ifs at he
      · obtain ⟨s, hs, rfl⟩ := he
        trivial
      · subst he
        trivial
    | range =>
      simp only [NodeElems] at he
      split_ifs at he with hn
      · obtain ⟨v, h1, h2, rfl⟩ := he
        trivial
      · subst he
        trivial
  | rulename m => obtain ⟨_, rfl⟩ := he; trivial
  | _ => exact he.elim

end Verif
