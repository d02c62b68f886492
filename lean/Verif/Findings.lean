import Verif.PropsBsr

/-!
# Kernel-checked witnesses: engines

Concrete inputs on which a claim fails, or a hypothesis of a theorem is needed.
-/

namespace Verif.Findings
open Verif Verif.Spec Verif.Props

theorem rep_one {g : Grammar} {e : Elem} {w : Bytes} (h : Derives g e w) : DerivesRep g (Ex.one e) w := by
  have := DerivesTimes.succ e 0 w [] h (.zero e)
  rw [List.append_nil] at this
  exact .mk 1 (some 1) e 1 w (Nat.le_refl _) (by simp) this

theorem concat_two {g : Grammar} {r s : Rep} {u v : Bytes} (h1 : DerivesRep g r u) (h2 : DerivesRep g s v) :
    DerivesConcat g [r, s] (u ++ v) := by
  have := DerivesConcat.cons r [s] u v h1 (by
    have := DerivesConcat.cons s [] v [] h2 .nil
    rwa [List.append_nil] at this)
  exact this

/-- `a = *%s"x" "b" / *"x" "c"`. -/
def printing : Grammar := ⟨[⟨str% "a", [
  [⟨0, none, .charVal true (str% "x")⟩, Ex.one (Ex.lit (str% "b"))],
  [⟨0, none, Ex.lit (str% "x")⟩, Ex.one (Ex.lit (str% "c"))]]⟩]⟩

theorem printing_member : DerivesRule printing (str% "a") (bytes% "Xc") := by
  refine .rule _ ⟨str% "a", _⟩ _ (.user (List.mem_cons_self ..) ?_)
    (.mk _ [⟨0, none, Ex.lit (str% "x")⟩, Ex.one (Ex.lit (str% "c"))] _ (by simp) ?_)
  · exact (sameName_iff _ _).mpr rfl
  · refine concat_two (u := bytes% "X") (v := bytes% "c") ?_ (rep_one ?_)
    · refine .mk 0 none _ 1 _ (Nat.zero_le _) nofun ?_
      refine .succ _ 0 (bytes% "X") [] ?_ (.zero _)
      refine .term _ (str% "X") (.insensitive _ _ ?_)
      refine .cons ?_ .nil
      exact (sensequal_iff _ _ false).mp (by decide)
    · refine .term _ (str% "c") (.insensitive _ _ ?_)
      refine .cons ?_ .nil
      exact (sensequal_iff _ _ false).mp (by decide)

/-- C01 and C02 need `DistinctPrint`: without it both engines reject a member. -/
theorem C01_needs_printing :
    NumValsWF printing ∧ NamesDistinct printing ∧ DerivesRule printing (str% "a") (bytes% "Xc") ∧
    validOf (parseForest fwd (bytes% "Xc") printing (str% "a") 0 0) = some false ∧
    (bsrOf (parseBSR fwd (bytes% "Xc") printing (str% "a") 0 0)).map Prod.fst = some false :=
  ⟨numValsWF_of (by decide), namesDistinct_of (by decide), printing_member, by decide +kernel, by decide +kernel⟩

end Verif.Findings
