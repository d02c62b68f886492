import Verif.Ast
import Verif.Fuzz
import Verif.Generate
import Verif.Tg

/-!
# Functional options

The options of `Generate`, `TransitionGraph`, `Reader`, `Regex`, `NewGenerator`, `NewASTGenerator` and `ParseForest`.  Each option sets
one field; the caller starts from the defaults and applies them in order.  An `int` is an `Int`.
-/

namespace Verif

/-- `GenerateOption` (/repo/generate.go:124-154). -/
inductive GenerateOption where
  | withRepMax (n : Int)
  | withThreshold (n : Int)

/-- The two `apply` (/repo/generate.go:141-143, 152-154). -/
def GenerateOption.apply (o : GenOpts) : GenerateOption → GenOpts
  | .withRepMax n => { o with repMax := n }
  | .withThreshold n => { o with threshold := n }

/-- The options of `Generate` (/repo/generate.go:29-36). -/
def generateOptions (opts : List GenerateOption) : GenOpts := opts.foldl GenerateOption.apply {}

/-- `TGOption` (/repo/transition_graph.go:113-207). -/
inductive TGOption where
  | withDeflateRules (b : Bool)
  | withDeflateNumVals (b : Bool)
  | withDeflateCharVals (b : Bool)
  | withRepetitionThreshold (n : Int)
  | withMaxNodes (n : Int)

/-- The five `apply` (/repo/transition_graph.go:119-121, 135-137, 150-152, 165-167, 190-192). -/
def TGOption.apply (o : TgOpts) : TGOption → TgOpts
  | .withDeflateRules b => { o with rules := b }
  | .withDeflateNumVals b => { o with nums := b }
  | .withDeflateCharVals b => { o with chars := b }
  | .withRepetitionThreshold n => { o with threshold := n }
  | .withMaxNodes n => { o with maxNodes := n }

/-- The options of `TransitionGraph` (/repo/transition_graph.go:40-49). -/
def tgOptions (opts : List TGOption) : TgOpts := opts.foldl TGOption.apply {}

/-- `Reader` with its options (/repo/transition_graph.go:279-306): the mode of the reader, 0 for `CoverageAllTrails` and 1 for
`CoverageCompact` (/repo/transition_graph.go:260-276). -/
def readerMode (opts : List Int) : Int := opts.foldl (fun _ m => m) 0

/-- `Regex` with its options (/repo/regex.go:23-26, 60-71): `maxLen`. -/
def regexMaxLen (opts : List Int) : Int := opts.foldl (fun _ n => n) 0

/-- `GenOption` (/repo/fuzz.go:130-174). -/
inductive GenOption where
  | withMaxLength (n : Int)
  | withMaxReps (n : Int)
  | withMaxSteps (n : Int)
  | withStableAddressing

/-- What the options do to the generator (/repo/fuzz.go:143-174). -/
def GenOption.apply (o : FuzzOpts) : GenOption → FuzzOpts
  | .withMaxLength n => { o with maxLength := n }
  | .withMaxReps n => { o with maxReps := n }
  | .withMaxSteps n => { o with maxSteps := n }
  | .withStableAddressing => { o with stable := true }

/-- The options of `NewGenerator` (/repo/fuzz.go:183-191). -/
def fuzzOptions (opts : List GenOption) : FuzzOpts := opts.foldl GenOption.apply {}

/-- `ASTGenOption` (/repo/ast.go:38-72). -/
inductive ASTGenOption where
  | withMaxDepth (n : Int)
  | withMaxLen (n : Int)
  | withMaxRepeat (n : Int)

/-- What the options do to the generator (/repo/ast.go:51-72). -/
def ASTGenOption.apply (o : AstOpts) : ASTGenOption → AstOpts
  | .withMaxDepth n => { o with maxDepth := n }
  | .withMaxLen n => { o with maxLen := n }
  | .withMaxRepeat n => { o with maxRepeat := n }

/-- The options of `NewASTGenerator` (/repo/ast.go:83-92). -/
def astOptions (opts : List ASTGenOption) : AstOpts := opts.foldl ASTGenOption.apply {}

/-- `forestConfig` (/repo/sppf.go:631-634) with the defaults of `ParseForest` (/repo/sppf.go:669). -/
structure ForestConfig where
  maxNodes : Int := 0
  maxSlots : Int := 65536

/-- `ForestOption` (/repo/sppf.go:628-645). -/
inductive ForestOption where
  | withMaxForestNodes (n : Int)
  | withMaxSlots (n : Int)

/-- What the options do to the configuration (/repo/sppf.go:639-645). -/
def ForestOption.apply (o : ForestConfig) : ForestOption → ForestConfig
  | .withMaxForestNodes n => { o with maxNodes := n }
  | .withMaxSlots n => { o with maxSlots := n }

/-- The options of `ParseForest` (/repo/sppf.go:669-672). -/
def forestOptions (opts : List ForestOption) : ForestConfig := opts.foldl ForestOption.apply {}

/-- The value that the last of the options to set a field gives it, or the default. -/
inductive LastSets {α β : Type} (sets : α → β → Prop) (default : β) : List α → β → Prop
  | unset (opts : List α) : (∀ x ∈ opts, ∀ b, ¬ sets x b) → LastSets sets default opts default
  | set (before : List α) (x : α) (after : List α) (b : β) : sets x b → (∀ y ∈ after, ∀ b, ¬ sets y b) →
      LastSets sets default (before ++ x :: after) b

theorem lastSets_fold {α β γ : Type} (apply : γ → α → γ) (field : γ → β) (sets : α → β → Prop)
    (h1 : ∀ o x b, sets x b → field (apply o x) = b) (h2 : ∀ o x, (∀ b, ¬ sets x b) → field (apply o x) = field o) (o : γ) (opts : List α) :
    LastSets sets (field o) opts (field (opts.foldl apply o)) := by
  induction opts using List.reverseRecOn with
  | nil => exact .unset [] (by simp)
  | append_singleton opts x ih =>
    rw [List.foldl_append]
    simp only [List.foldl_cons, List.foldl_nil]
    by_cases hx : ∃ b, sets x b
    · obtain ⟨b, hb⟩ := hx
      rw [h1 _ _ b hb]
      exact .set opts x [] b hb (by simp)
    · have hx : ∀ b, ¬ sets x b := fun b hb => hx ⟨b, hb⟩
      rw [h2 _ _ hx]
      generalize field (opts.foldl apply o) = v at ih
      generalize field o = d at ih ⊢
      cases ih with
      | unset _ h =>
        refine .unset _ fun y hy => ?_
        rcases List.mem_append.mp hy with hy | hy
        · exact h y hy
        · obtain rfl := List.mem_singleton.mp hy
          exact hx
      | set before z after b hb h =>
        rw [List.append_assoc, List.cons_append]
        refine .set before z (after ++ [x]) _ hb fun y hy => ?_
        rcases List.mem_append.mp hy with hy | hy
        · exact h y hy
        · obtain rfl := List.mem_singleton.mp hy
          exact hx

namespace Props

/-! ## C102: options -/

/-- C102.  `Generate`: the last of the options of a kind decides, or the default: 16 repetitions, 256 bytes. -/
theorem C102_generate (opts : List GenerateOption) :
    LastSets (fun x b => x = .withRepMax b) 16 opts (generateOptions opts).repMax ∧
    LastSets (fun x b => x = .withThreshold b) 256 opts (generateOptions opts).threshold := by
  refine ⟨lastSets_fold GenerateOption.apply GenOpts.repMax _ ?_ ?_ {} opts, lastSets_fold GenerateOption.apply GenOpts.threshold _ ?_ ?_ {} opts⟩
  all_goals intro o x
  all_goals cases x <;> simp [GenerateOption.apply]

/-- C102.  `TransitionGraph`: nothing is deflated, the threshold is 256 and there is no budget unless an option says otherwise. -/
theorem C102_graph (opts : List TGOption) :
    LastSets (fun x b => x = .withDeflateRules b) false opts (tgOptions opts).rules ∧
    LastSets (fun x b => x = .withDeflateNumVals b) false opts (tgOptions opts).nums ∧
    LastSets (fun x b => x = .withDeflateCharVals b) false opts (tgOptions opts).chars ∧
    LastSets (fun x b => x = .withRepetitionThreshold b) 256 opts (tgOptions opts).threshold ∧
    LastSets (fun x b => x = .withMaxNodes b) 0 opts (tgOptions opts).maxNodes := by
  refine ⟨lastSets_fold TGOption.apply TgOpts.rules _ ?_ ?_ {} opts, lastSets_fold TGOption.apply TgOpts.nums _ ?_ ?_ {} opts, lastSets_fold TGOption.apply TgOpts.chars _ ?_ ?_ {} opts,
    lastSets_fold TGOption.apply TgOpts.threshold _ ?_ ?_ {} opts, lastSets_fold TGOption.apply TgOpts.maxNodes _ ?_ ?_ {} opts⟩
  all_goals intro o x
  all_goals cases x <;> simp [TGOption.apply]

/-- C102.  `NewGenerator`: 4096 bytes, 32 repetitions of an edge and 100000 steps by default; `WithStableAddressing` sets the addressing. -/
theorem C102_generator (opts : List GenOption) :
    LastSets (fun x b => x = .withMaxLength b) 4096 opts (fuzzOptions opts).maxLength ∧
    LastSets (fun x b => x = .withMaxReps b) 32 opts (fuzzOptions opts).maxReps ∧
    LastSets (fun x b => x = .withMaxSteps b) 100000 opts (fuzzOptions opts).maxSteps ∧
    ((fuzzOptions opts).stable = true ↔ .withStableAddressing ∈ opts) := by
  refine ⟨lastSets_fold GenOption.apply FuzzOpts.maxLength _ ?_ ?_ {} opts, lastSets_fold GenOption.apply FuzzOpts.maxReps _ ?_ ?_ {} opts,
    lastSets_fold GenOption.apply FuzzOpts.maxSteps _ ?_ ?_ {} opts, ?_⟩
  iterate 6
    intro o x
    cases x <;> simp [GenOption.apply]
  unfold fuzzOptions
  induction opts using List.reverseRecOn with
  | nil => simp
  | append_singleton opts x ih =>
    rw [List.foldl_append]
    cases x <;> simp [GenOption.apply, ih]

/-- C102.  `NewASTGenerator`: a depth of 32, 4096 bytes and 16 repetitions by default. -/
theorem C102_ast (opts : List ASTGenOption) :
    LastSets (fun x b => x = .withMaxDepth b) 32 opts (astOptions opts).maxDepth ∧
    LastSets (fun x b => x = .withMaxLen b) 4096 opts (astOptions opts).maxLen ∧
    LastSets (fun x b => x = .withMaxRepeat b) 16 opts (astOptions opts).maxRepeat := by
  refine ⟨lastSets_fold ASTGenOption.apply AstOpts.maxDepth _ ?_ ?_ {} opts, lastSets_fold ASTGenOption.apply AstOpts.maxLen _ ?_ ?_ {} opts,
    lastSets_fold ASTGenOption.apply AstOpts.maxRepeat _ ?_ ?_ {} opts⟩
  all_goals intro o x
  all_goals cases x <;> simp [ASTGenOption.apply]

/-- C102.  `ParseForest`: no limit on nodes and 65536 nonterminals by default. -/
theorem C102_forest (opts : List ForestOption) :
    LastSets (fun x b => x = .withMaxForestNodes b) 0 opts (forestOptions opts).maxNodes ∧
    LastSets (fun x b => x = .withMaxSlots b) 65536 opts (forestOptions opts).maxSlots := by
  refine ⟨lastSets_fold ForestOption.apply ForestConfig.maxNodes _ ?_ ?_ {} opts, lastSets_fold ForestOption.apply ForestConfig.maxSlots _ ?_ ?_ {} opts⟩
  all_goals intro o x
  all_goals cases x <;> simp [ForestOption.apply]

/-- C102.  `Reader` and `Regex` have one option each: all trails and no limit by default. -/
theorem C102_single (modes : List Int) (lens : List Int) :
    LastSets (fun x b => x = b) 0 modes (readerMode modes) ∧ LastSets (fun x b => x = b) 0 lens (regexMaxLen lens) := by
  refine ⟨lastSets_fold (fun _ m => m) id _ ?_ ?_ 0 modes, lastSets_fold (fun _ n => n) id _ ?_ ?_ 0 lens⟩
  · rintro o x b rfl; rfl
  · intro o x h; exact absurd rfl (h x)
  · rintro o x b rfl; rfl
  · intro o x h; exact absurd rfl (h x)

example : tgOptions [.withMaxNodes 9, .withDeflateRules true, .withMaxNodes 4] = { rules := true, maxNodes := 4 } ∧
    fuzzOptions [.withMaxReps 1, .withStableAddressing] = { maxReps := 1, stable := true } ∧
    generateOptions [] = { repMax := 16, threshold := 256 } := ⟨rfl, rfl, rfl⟩

end Props
end Verif
