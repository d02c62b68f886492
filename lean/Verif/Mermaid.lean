import Verif.PropsFuzz
import Verif.TgNodes
import Verif.TgText
import Verif.PropsTarjan
import Verif.Print

/-!
# The drawings: `ToMermaid` and `Depgraph.Mermaid`
-/

namespace Verif

open Spec

/-! ## Transition graphs -/

/-- The loop of `mapNodes` over the next nodes (/repo/transition_graph.go:1508-1510). -/
def mapNexts (rec : Nat → List Nat → Run (List Nat)) : List Nat → List Nat → Run (List Nat)
  | [], mp => .ok mp
  | m :: ms, mp => (rec m mp).bnd (mapNexts rec ms)

/-- `mapNodes` (/repo/transition_graph.go:1503-1511); a node stands for its identifier, which is taken to be unique, and
the map for the list of its nodes. -/
def mapNodes (h : TgHeap) : Nat → Nat → List Nat → Run (List Nat)
  | 0, _, _ => .fuel
  | k + 1, n, mp => if n ∈ mp then .ok mp else mapNexts (mapNodes h k) (h.nexts n) (mp ++ [n])

/-- The first loop of `ToMermaid` (/repo/transition_graph.go:1463-1469). -/
def mapEntries (h : TgHeap) (k : Nat) : Pts → List Nat → Run (List Nat)
  | [], mp => .ok mp
  | none :: is, mp => mapEntries h k is mp
  | some i :: is, mp => (mapNodes h k i mp).bnd (mapEntries h k is)

/-- How a character is written (/repo/transition_graph.go:1519-1527). -/
def mermaidChar (c : Char) : Str :=
  if c = '`' then str% "backquote" else if c = '"' then str% "dquote"
  else if 33 ≤ c.toNat ∧ c.toNat ≤ 127 then [c] else []

/-- `strings.Join(elems, ".")` (/repo/transition_graph.go:1533). -/
def dotted : List Str → Str
  | [] => []
  | [s] => s
  | s :: t :: ts => s ++ '.' :: dotted (t :: ts)

/-- `elemToString` (/repo/transition_graph.go:1513-1536); an index out of range panics. -/
def elemToString : Elem → Run Str
  | .rulename n => .ok n
  | .charVal _ vs => .ok (vs.flatMap mermaidChar)
  | .numVal b .range (s :: t :: _) => .ok ('0' :: b ++ s ++ '-' :: t)
  | .numVal _ .range _ => .panic
  | .numVal b .series es => .ok ('0' :: b ++ dotted es)
  | .group _ | .option _ | .proseVal _ => .panic

/-- The links of a node (/repo/transition_graph.go:1489-1491). -/
def mermaidLinks (ident : Nat → Str) (n : Nat) : List Nat → Str
  | [] => []
  | m :: ms => str% "    " ++ ident n ++ str% " --> " ++ ident m ++ '\n' :: mermaidLinks ident n ms

/-- The body of the second loop of `ToMermaid` (/repo/transition_graph.go:1474-1492). -/
def mermaidNode (ident : Nat → Str) (f : TgFrag) (h : TgHeap) (n : Nat) : Run Str :=
  (elemToString (h.elem n)).bnd fun s => .ok <|
    str% "    " ++ ident n ++
    (if some n ∈ f.outs then str% "(((\"" ++ s ++ str% "\")))" else str% "[\"" ++ s ++ str% "\"]") ++
    (if some n ∈ f.ins then str% ":::entrypoint" else []) ++ '\n' :: (mermaidLinks ident n (h.nexts n) ++ ['\n'])

/-- The second loop of `ToMermaid` (/repo/transition_graph.go:1473-1493). -/
def mermaidNodes (ident : Nat → Str) (f : TgFrag) (h : TgHeap) : List Nat → Str → Run Str
  | [], str => .ok str
  | n :: ns, str => (mermaidNode ident f h n).bnd fun s => mermaidNodes ident f h ns (str ++ s)

/-- `ToMermaid` (/repo/transition_graph.go:1460-1501): `ident` are the identifiers of the nodes and `order` is the order
in which the map is visited. -/
def toMermaid (ident : Nat → Str) (order : List Nat → List Nat) (f : TgFrag) (h : TgHeap) : Run Str :=
  (mapEntries h (h.size + 1) f.ins []).bnd fun mp =>
    (mermaidNodes ident f h (order mp) (str% "flowchart LR\n    classDef entrypoint fill:#479abf\n\n")).bnd fun str =>
      .ok (if none ∈ f.ins then str ++ str% "    emptyNode(((∅))):::entrypoint\n" else str)

/-! ## Dependency graphs -/

/-- The inner loop of `Mermaid` (/repo/dag.go:71-73). -/
def depLinks (name : Str) : List Str → Str
  | [] => []
  | d :: ds => '\t' :: name ++ str% " --> " ++ d ++ '\n' :: depLinks name ds

/-- The outer loop of `Mermaid` (/repo/dag.go:70-75). -/
def depLines : List DepNode → Str
  | [] => []
  | nd :: nds => depLinks nd.rulename nd.deps ++ '\n' :: depLines nds

/-- `Depgraph.Mermaid` (/repo/dag.go:66-77); the nodes come in the order `order`. -/
def depMermaid (order : List DepNode → List DepNode) (dg : Depgraph) : Str :=
  str% "flowchart TD\n" ++ depLines (order (dg.map Prod.snd))

/-! ## Lines -/

/-- The lines of a text, each ended by a line feed; what follows the last line feed is a line too. -/
def linesOf : Str → List Str
  | [] => [[]]
  | c :: s => if c = '\n' then [] :: linesOf s else
    match linesOf s with
    | [] => [[c]]
    | l :: ls => (c :: l) :: ls

theorem linesOf_line {l : Str} (hl : '\n' ∉ l) (s : Str) : linesOf (l ++ '\n' :: s) = l :: linesOf s := by
  induction l with
  | nil => simp [linesOf]
  | cons c l ih =>
    rw [List.mem_cons, not_or] at hl
    rw [List.cons_append, linesOf, if_neg (Ne.symm hl.1), ih hl.2]

/-- Lines put together. -/
def unlines : List Str → Str
  | [] => []
  | l :: ls => l ++ '\n' :: unlines ls

theorem unlines_append (a b : List Str) : unlines (a ++ b) = unlines a ++ unlines b := by
  induction a with
  | nil => rfl
  | cons l a ih => simp [unlines, ih]

theorem unlines_flatMap {α : Type} (f : α → List Str) (l : List α) : unlines (l.flatMap f) = l.flatMap fun x => unlines (f x) := by
  induction l with
  | nil => rfl
  | cons x l ih => rw [List.flatMap_cons, unlines_append, ih, List.flatMap_cons]

theorem linesOf_unlines {ls : List Str} (h : ∀ l ∈ ls, '\n' ∉ l) : linesOf (unlines ls) = ls ++ [[]] := by
  induction ls with
  | nil => rfl
  | cons l ls ih => rw [unlines, linesOf_line (h l (by simp)), ih fun x hx => h x (by simp [hx])]; rfl

/-! ## The traversal -/

section
variable {h : TgHeap} {P : Nat → Prop}

/-- What a part of the traversal achieves. -/
structure MapStep (h : TgHeap) (P : Nat → Prop) (mp mp' : List Nat) : Prop where
  nodup : mp'.Nodup
  sound : ∀ n ∈ mp', P n
  mono : ∀ n ∈ mp, n ∈ mp'
  closed : ∀ n ∈ mp', n ∈ mp ∨ ∀ m ∈ h.nexts n, m ∈ mp'

theorem MapStep.trans {a b c : List Nat} (x : MapStep h P a b) (y : MapStep h P b c) : MapStep h P a c where
  nodup := y.nodup
  sound := y.sound
  mono n hn := y.mono n (x.mono n hn)
  closed n hn := by
    rcases y.closed n hn with h1 | h1
    · exact (x.closed n h1).imp_right fun h2 m hm => y.mono m (h2 m hm)
    · exact .inr h1

theorem mapNexts_sat {rec : Nat → List Nat → Run (List Nat)} {N : Nat}
    (hrec : ∀ m mp, mp.Nodup → (∀ n ∈ mp, P n) → P m → N ≤ mp.length →
      (rec m mp).Sat False False fun mp' => MapStep h P mp mp' ∧ m ∈ mp') (ms : List Nat) (hms : ∀ m ∈ ms, P m) :
    ∀ mp, mp.Nodup → (∀ n ∈ mp, P n) → N ≤ mp.length → (mapNexts rec ms mp).Sat False False fun mp' =>
      MapStep h P mp mp' ∧ ∀ m ∈ ms, m ∈ mp' := by
  induction ms with
  | nil => intro mp h1 h2 _; exact ⟨⟨h1, h2, fun _ h => h, fun _ h => .inl h⟩, by simp⟩
  | cons m ms ih =>
    intro mp h1 h2 hN
    rw [mapNexts]
    refine (hrec m mp h1 h2 (hms m (by simp)) hN).bnd fun mp1 ⟨s1, e1⟩ => ?_
    have hlen : mp.length ≤ mp1.length := (List.subperm_of_subset h1 s1.mono).length_le
    refine (ih (fun m hm => hms m (by simp [hm])) mp1 s1.nodup s1.sound (by omega)).mono fun mp2 ⟨s2, e2⟩ => ⟨s1.trans s2, ?_⟩
    intro k hk
    rcases List.mem_cons.mp hk with rfl | hk
    · exact s2.mono _ e1
    · exact e2 k hk

theorem mapNodes_sat {R : Finset Nat} (hP : ∀ n, P n → n ∈ R ∧ ∀ m ∈ h.nexts n, P m) (k : Nat) : ∀ n mp, mp.Nodup →
    (∀ n ∈ mp, P n) → P n → R.card < mp.length + k →
    (mapNodes h k n mp).Sat False False fun mp' => MapStep h P mp mp' ∧ n ∈ mp' := by
  induction k with
  | zero =>
    intro n mp h1 h2 _ hk
    have := nodup_card (R := R) h1 fun x hx => (hP x (h2 x hx)).1
    omega
  | succ k ih =>
    intro n mp h1 h2 hn hk
    rw [mapNodes]
    by_cases hm : n ∈ mp
    · rw [if_pos hm]
      exact ⟨⟨h1, h2, fun _ h => h, fun _ h => .inl h⟩, hm⟩
    · rw [if_neg hm]
      have h1' : (mp ++ [n]).Nodup := by
        rw [List.nodup_append]
        refine ⟨h1, by simp, ?_⟩
        rintro x hx y hy rfl
        exact hm (by simpa [List.mem_singleton.mp hy] using hx)
      have h2' : ∀ x ∈ mp ++ [n], P x := by
        intro x hx
        rcases List.mem_append.mp hx with hx | hx
        · exact h2 x hx
        · rw [List.mem_singleton.mp hx]; exact hn
      refine (mapNexts_sat (N := mp.length + 1) (fun m mp' a b c d => ih m mp' a b c (by omega)) _ (hP n hn).2 _ h1' h2'
        (by simp)).mono fun mp' ⟨s, e⟩ => ?_
      have hmem := s.mono n (by simp)
      refine ⟨⟨s.nodup, s.sound, fun x hx => s.mono x (by simp [hx]), fun x hx => ?_⟩, hmem⟩
      rcases s.closed x hx with h3 | h3
      · rcases List.mem_append.mp h3 with h3 | h3
        · exact .inl h3
        · rw [List.mem_singleton.mp h3]; exact .inr e
      · exact .inr h3

theorem mapEntries_sat {R : Finset Nat} (hP : ∀ n, P n → n ∈ R ∧ ∀ m ∈ h.nexts n, P m) {k : Nat} (hk : R.card < k) (is : Pts)
    (his : ∀ i, some i ∈ is → P i) : ∀ mp, mp.Nodup → (∀ n ∈ mp, P n) →
    (mapEntries h k is mp).Sat False False fun mp' => MapStep h P mp mp' ∧ ∀ i, some i ∈ is → i ∈ mp' := by
  induction is with
  | nil => intro mp h1 h2; exact ⟨⟨h1, h2, fun _ h => h, fun _ h => .inl h⟩, by simp⟩
  | cons i is ih =>
    intro mp h1 h2
    have ih' := ih fun i hi => his i (List.mem_cons_of_mem _ hi)
    cases i with
    | none =>
      rw [mapEntries]
      exact (ih' mp h1 h2).mono fun mp' ⟨s, e⟩ => ⟨s, fun i hi => e i (by simpa using hi)⟩
    | some i =>
      rw [mapEntries]
      refine (mapNodes_sat hP k i mp h1 h2 (his i (by simp)) (by omega)).bnd fun mp1 ⟨s1, e1⟩ => ?_
      refine (ih' mp1 s1.nodup s1.sound).mono fun mp2 ⟨s2, e2⟩ => ⟨s1.trans s2, fun j hj => ?_⟩
      rcases List.mem_cons.mp hj with hj | hj
      · cases hj; exact s2.mono _ e1
      · exact e2 j hj

/-- The map holds the nodes that can be reached, each once. -/
theorem mapEntries_reached {f : TgFrag} (hfin : GraphFin h f) : ∃ mp, mapEntries h (h.size + 1) f.ins [] = .ok mp ∧ mp.Nodup ∧
    ∀ n, n ∈ mp ↔ ReachedFrom h f.ins n := by
  have H := mapEntries_sat (h := h) (P := ReachedFrom h f.ins) (R := Finset.range h.size) (k := h.size + 1)
    (fun n hn => ⟨Finset.mem_range.mpr (hfin n hn), fun m hm => by
      obtain ⟨i, h1, h2⟩ := hn
      exact ⟨i, h1, h2.tail hm⟩⟩) (by simp) f.ins (fun i hi => ⟨i, hi, .refl⟩) [] List.nodup_nil (by simp)
  cases hx : mapEntries h (h.size + 1) f.ins [] with
  | panic => rw [hx] at H; exact H.elim
  | fuel => rw [hx] at H; exact H.elim
  | ok mp =>
    rw [hx] at H
    obtain ⟨s, e⟩ := H
    refine ⟨mp, rfl, s.nodup, fun n => ⟨s.sound n, ?_⟩⟩
    rintro ⟨i, h1, h2⟩
    induction h2 with
    | refl => exact e i h1
    | tail _ h3 ih => exact (s.closed _ ih).resolve_left (by simp) _ h3
end

end Verif

namespace Verif.Props

open Verif Verif.Spec

/-! ## C87: the drawing of a transition graph -/

/-- How a character is shown: those that Mermaid could misread are named, those outside `!` to DEL are left out. -/
inductive Shown : Char → Str → Prop
  | back : Shown '`' (str% "backquote")
  | quote : Shown '"' (str% "dquote")
  | self (c) : '!' ≤ c → c.toNat ≤ 0x7F → c ≠ '`' → c ≠ '"' → Shown c [c]
  | hidden (c) : c < '!' ∨ 0x7F < c.toNat → Shown c []

/-- The label of an element. -/
inductive Label : Elem → Str → Prop
  | name (n) : Label (.rulename n) n
  | chars (s vs ps) : List.Forall₂ Shown vs ps → Label (.charVal s vs) ps.flatten
  | range (b s t es) : Label (.numVal b .range (s :: t :: es)) (str% "0" ++ b ++ s ++ str% "-" ++ t)
  | series (b es) : Label (.numVal b .series es) (str% "0" ++ b ++ List.intercalate ['.'] es)

theorem shown_char (c : Char) : Shown c (mermaidChar c) := by
  unfold mermaidChar
  split_ifs with h1 h2 h3
  · subst h1; exact .back
  · subst h2; exact .quote
  · exact .self c (by rw [Char.le_def, UInt32.le_iff_toNat_le]; exact h3.1) h3.2 h1 h2
  · refine .hidden c ?_
    have : c < '!' ↔ c.toNat < 33 := by rw [Char.lt_def, UInt32.lt_iff_toNat_lt]; rfl
    rw [this]
    omega

theorem dotted_eq : ∀ es, dotted es = List.intercalate ['.'] es
  | [] => rfl
  | [s] => by simp [dotted]
  | s :: t :: ts => by
    rw [dotted, dotted_eq (t :: ts), List.intercalate_cons_cons]
    simp

theorem shown_unique {c : Char} {s t : Str} (h1 : Shown c s) (h2 : Shown c t) : s = t := by
  cases h1 <;> cases h2 <;> first | rfl | (exfalso; simp_all (config := { decide := true }); done) | skip
  · rename_i h1 _ _ _ h2
    exfalso
    have : c < '!' ↔ c.toNat < 33 := by rw [Char.lt_def, UInt32.lt_iff_toNat_lt]; rfl
    rw [Char.le_def, UInt32.le_iff_toNat_le] at h1
    have h3 : 33 ≤ c.toNat := h1
    rw [this] at h2
    omega
  · rename_i h2 h1 _ _ _
    exfalso
    have : c < '!' ↔ c.toNat < 33 := by rw [Char.lt_def, UInt32.lt_iff_toNat_lt]; rfl
    rw [Char.le_def, UInt32.le_iff_toNat_le] at h1
    have h3 : 33 ≤ c.toNat := h1
    rw [this] at h2
    omega

/-- `elemToString` writes the label of an element, and panics if it has none. -/
theorem elemToString_label (e : Elem) : (∃ s, elemToString e = .ok s ∧ Label e s) ∨ (elemToString e = .panic ∧ ∀ s, ¬ Label e s) := by
  cases e with
  | rulename n => exact .inl ⟨n, rfl, .name n⟩
  | charVal s vs =>
    refine .inl ⟨_, rfl, ?_⟩
    rw [List.flatMap_def]
    refine .chars s vs _ ?_
    rw [List.forall₂_map_right_iff]
    exact List.forall₂_same.mpr fun c _ => shown_char c
  | numVal b st es =>
    cases st with
    | series => exact .inl ⟨_, rfl, by rw [dotted_eq]; exact .series b es⟩
    | range =>
      match es with
      | [] => exact .inr ⟨rfl, fun s h => by cases h⟩
      | [_] => exact .inr ⟨rfl, fun s h => by cases h⟩
      | s :: t :: r =>
        refine .inl ⟨_, rfl, ?_⟩
        have := Label.range b s t r
        simpa using this
  | group a => exact .inr ⟨rfl, fun s h => by cases h⟩
  | option a => exact .inr ⟨rfl, fun s h => by cases h⟩
  | proseVal t => exact .inr ⟨rfl, fun s h => by cases h⟩

/-- The line of a node. -/
def nodeLine (ident : Nat → Str) (f : TgFrag) (n : Nat) (label : Str) : Str :=
  str% "    " ++ ident n ++ (if some n ∈ f.outs then str% "(((\"" ++ label ++ str% "\")))" else str% "[\"" ++ label ++ str% "\"]") ++
    (if some n ∈ f.ins then str% ":::entrypoint" else [])

/-- The line of an edge. -/
def arrowLine (a b : Str) : Str := str% "    " ++ a ++ str% " --> " ++ b

/-- The drawing of the nodes `ns`. -/
def drawing (ident : Nat → Str) (f : TgFrag) (h : TgHeap) (label : Nat → Str) (ns : List Nat) : List Str :=
  [str% "flowchart LR", str% "    classDef entrypoint fill:#479abf", []] ++
  ns.flatMap (fun n => nodeLine ident f n (label n) :: (h.nexts n).map (fun m => arrowLine (ident n) (ident m)) ++ [[]]) ++
  if none ∈ f.ins then [str% "    emptyNode(((∅))):::entrypoint"] else []

theorem links_eq (ident : Nat → Str) (n : Nat) (ms : List Nat) :
    mermaidLinks ident n ms = unlines (ms.map fun m => arrowLine (ident n) (ident m)) := by
  induction ms with
  | nil => rfl
  | cons m ms ih => rw [mermaidLinks, ih, List.map_cons, unlines]; rfl

theorem mermaidNodes_run {ident : Nat → Str} {f : TgFrag} {h : TgHeap} : ∀ (ns : List Nat) (str : Str),
    (∃ lab : Nat → Str, (∀ n ∈ ns, Label (h.elem n) (lab n)) ∧ mermaidNodes ident f h ns str = .ok (str ++ unlines (ns.flatMap fun n =>
      nodeLine ident f n (lab n) :: (h.nexts n).map (fun m => arrowLine (ident n) (ident m)) ++ [[]]))) ∨
    (mermaidNodes ident f h ns str = .panic ∧ ∃ n ∈ ns, ∀ s, ¬ Label (h.elem n) s)
  | [], str => .inl ⟨fun _ => [], by simp, by simp [mermaidNodes, unlines]⟩
  | n :: ns, str => by
    rw [mermaidNodes, mermaidNode]
    rcases elemToString_label (h.elem n) with ⟨s, h1, h2⟩ | ⟨h1, h2⟩
    · rw [h1]
      simp only [Run.bnd]
      rcases mermaidNodes_run (ident := ident) (f := f) (h := h) ns (str ++ (str% "    " ++ ident n ++
        (if some n ∈ f.outs then str% "(((\"" ++ s ++ str% "\")))" else str% "[\"" ++ s ++ str% "\"]") ++
        (if some n ∈ f.ins then str% ":::entrypoint" else []) ++ '\n' :: (mermaidLinks ident n (h.nexts n) ++ ['\n']))) with
        ⟨lab, h3, h4⟩ | ⟨h3, m, hm, h4⟩
      · have hlab : ∀ m ∈ n :: ns, Label (h.elem m) (if m = n then s else lab m) := by
          intro m hm
          by_cases e : m = n
          · rw [if_pos e, e]; exact h2
          · rw [if_neg e]; exact h3 m ((List.mem_cons.mp hm).resolve_left e)
        refine .inl ⟨fun m => if m = n then s else lab m, hlab, ?_⟩
        have hsame : ∀ m ∈ ns, lab m = if m = n then s else lab m := by
          intro m hm
          by_cases e : m = n
          · subst e
            rw [if_pos rfl]
            have h5 := h3 m hm
            generalize h.elem m = e at h2 h5
            generalize lab m = t at h5
            cases h2 with
            | name => cases h5; rfl
            | chars _ vs ps hp =>
              cases h5 with
              | chars _ _ qs hq =>
                congr 1
                clear hlab h1 h4
                induction hp generalizing qs with
                | nil => cases hq; rfl
                | cons a _ ih =>
                  cases hq with
                  | cons b hq => rw [shown_unique a b, ih _ hq]
            | range => cases h5; rfl
            | series => cases h5; rfl
          · rw [if_neg e]
        rw [h4, List.flatMap_cons, unlines_append, links_eq]
        have : ∀ l : List Nat, (∀ m ∈ l, m ∈ ns) →
            l.flatMap (fun m => nodeLine ident f m (lab m) :: (h.nexts m).map (fun k => arrowLine (ident m) (ident k)) ++ [[]]) =
            l.flatMap (fun m => nodeLine ident f m (if m = n then s else lab m) :: (h.nexts m).map (fun k => arrowLine (ident m) (ident k)) ++ [[]]) := by
          intro l hl
          induction l with
          | nil => rfl
          | cons m l ih =>
            rw [List.flatMap_cons, List.flatMap_cons, ih fun m hm => hl m (by simp [hm]), ← hsame m (hl m (by simp))]
        rw [this ns fun _ h => h]
        simp [nodeLine, unlines, unlines_append]
      · exact .inr ⟨h3, m, by simp [hm], h4⟩
    · exact .inr ⟨by rw [h1]; rfl, n, by simp, h2⟩

/-- C87.  On a finite graph `ToMermaid` returns, whatever the order in which the nodes are visited, unless some node
carries an element that has no label.  The text lists each node that can be reached exactly once, followed by its edges;
the entry points and the end points are marked, and the empty node is listed if it is an entry point. -/
theorem C87_draws (ident : Nat → Str) (order : List Nat → List Nat) (ho : ∀ l, (order l).Perm l) (f : TgFrag) (h : TgHeap)
    (hfin : GraphFin h f) :
    ((∃ n, ReachedFrom h f.ins n ∧ ∀ s, ¬ Label (h.elem n) s) ∧ toMermaid ident order f h = .panic) ∨
    ∃ ns lab, ns.Nodup ∧ (∀ n, n ∈ ns ↔ ReachedFrom h f.ins n) ∧ (∀ n ∈ ns, Label (h.elem n) (lab n)) ∧
      toMermaid ident order f h = .ok (unlines (drawing ident f h lab ns)) := by
  obtain ⟨mp, h1, h2, h3⟩ := mapEntries_reached hfin
  unfold toMermaid
  rw [h1]
  simp only [Run.bnd]
  have hmem : ∀ n, n ∈ order mp ↔ ReachedFrom h f.ins n := fun n => ((ho mp).mem_iff).trans (h3 n)
  rcases mermaidNodes_run (ident := ident) (f := f) (h := h) (order mp) (str% "flowchart LR\n    classDef entrypoint fill:#479abf\n\n") with
    ⟨lab, h4, h5⟩ | ⟨h4, n, hn, h5⟩
  · refine .inr ⟨order mp, lab, (ho mp).nodup_iff.mpr h2, hmem, h4, ?_⟩
    rw [h5]
    simp only [drawing, unlines_append, Run.ok.injEq]
    by_cases hn : none ∈ f.ins
    · rw [if_pos hn, if_pos hn]; rfl
    · rw [if_neg hn, if_neg hn]; simp [unlines]
  · exact .inl ⟨⟨n, (hmem n).mp hn, h5⟩, by rw [h4]⟩

/-! ### Graphs built from grammars -/

/-- A rule as the reader of ABNF makes them: names are names, num-vals are numerals, two of them for a range. -/
def Tidy (r : Rule) : Prop := ∀ q ∈ altReps r.alt, TermWF q.elem ∧ (∀ n, q.elem = .rulename n → nameOK n = true) ∧
  ∀ b st es, q.elem = .numVal b st es → ∃ x, Radix b x

/-- The nodes that can be reached carry rule names, strings and num-vals only; and no rule names if these are deflated. -/
theorem nodes_leaf {o : TgOpts} {g : Grammar} (hd : NamesDistinct g) {core : List Rule} (hcore : core.Perm Core.rules)
    {order : List Str} (ho : order.Perm ((dependencyGraph core g).map Prod.fst)) {name : Str}
    (hp : ∀ r, Visits o g name r → Plain r) {f : TgFrag} {h : TgHeap} (hok : transitionGraph o core g order name = .ok (.ok (f, h)))
    (n : Nat) (hn : ReachedFrom h f.ins n) : leafElem (h.elem n) = true ∧ (o.rules = true → ∀ m, h.elem n ≠ .rulename m) := by
  have H := transitionGraph_sat (o := o) (rd := False) hd hcore ho (name := name)
    fun r hr r' hr' => ready_of (hp r' ⟨r, hr, hr'⟩) fun h => h.elim
  rw [hok] at H
  obtain ⟨L, R, _, h2, _⟩ := H
  refine ⟨h2.leaf n (reached_in h2.closed h2.ins hn), fun hru m hm => ?_⟩
  have := transitionGraph_P (P := fun e => ∀ m, e ≠ .rulename m) hd (fun m hm => by cases hm) ?_ hok n m hm
  · exact this
  · rintro r _ q _ e he m rfl
    cases hq : q.elem with
    | rulename k => rw [hq] at he; exact absurd (hru.symm.trans he.1) (by simp)
    | charVal s vs =>
      rw [hq] at he
      obtain ⟨_, h1⟩ := he
      split_ifs at h1
      obtain ⟨_, _, _, _, h1⟩ := h1
      cases h1
    | numVal b st es =>
      rw [hq] at he
      cases st <;> simp only [NodeElems] at he <;> split_ifs at he
      · obtain ⟨_, _, h1⟩ := he; cases h1
      · obtain ⟨_, _, _, h1⟩ := he; cases h1
    | _ => rw [hq] at he; exact he

theorem label_of_leaf {e : Elem} (h : leafElem e = true) (hr : ∀ b es, e = .numVal b .range es → 2 ≤ es.length) : ∃ s, Label e s := by
  rcases elemToString_label e with ⟨s, _, h1⟩ | ⟨h1, _⟩
  · exact ⟨s, h1⟩
  · cases e with
    | numVal b st es =>
      cases st with
      | series => cases h1
      | range =>
        have := hr b es rfl
        match es, this with
        | s :: t :: r, _ => cases h1
    | rulename | charVal => cases h1
    | group | option | proseVal => cases h

/-- C87.  `ToMermaid` draws every graph `TransitionGraph` makes of rules whose ranges have two bounds: nothing panics. -/
theorem C87_total (o : TgOpts) (g : Grammar) (hd : NamesDistinct g) (core : List Rule) (hcore : core.Perm Core.rules)
    (order : List Str) (ho : order.Perm ((dependencyGraph core g).map Prod.fst)) (name : Str)
    (hp : ∀ r, Visits o g name r → Plain r)
    (hr : ∀ r, Visits o g name r → ∀ q ∈ altReps r.alt, ∀ b es, q.elem = .numVal b .range es → 2 ≤ es.length)
    (f : TgFrag) (h : TgHeap) (hok : transitionGraph o core g order name = .ok (.ok (f, h)))
    (ident : Nat → Str) (visit : List Nat → List Nat) (hv : ∀ l, (visit l).Perm l) :
    ∃ ns lab, ns.Nodup ∧ (∀ n, n ∈ ns ↔ ReachedFrom h f.ins n) ∧ (∀ n ∈ ns, Label (h.elem n) (lab n)) ∧
      toMermaid ident visit f h = .ok (unlines (drawing ident f h lab ns)) := by
  refine (C87_draws ident visit hv f h (tg_finite hd hcore ho hp hok)).resolve_left ?_
  rintro ⟨⟨n, h1, h2⟩, _⟩
  have h3 := nodes_leaf hd hcore ho hp hok n h1
  have h4 := transitionGraph_P (P := fun e => ∀ b es, e = .numVal b .range es → 2 ≤ es.length) hd (fun b es h => by cases h) ?_ hok n
  · obtain ⟨s, h5⟩ := label_of_leaf h3.1 h4
    exact h2 s h5
  · rintro r h5 q hq e he b es rfl
    cases hx : q.elem with
    | numVal b' st es' =>
      rw [hx] at he
      cases st with
      | series =>
        simp only [NodeElems] at he
        split_ifs at he
        · obtain ⟨_, _, h6⟩ := he; cases h6
        · cases he
      | range =>
        simp only [NodeElems] at he
        split_ifs at he
        · obtain ⟨_, _, _, h6⟩ := he; cases h6
        · cases he
          exact hr r h5 q hq _ _ hx
    | charVal s vs =>
      rw [hx] at he
      obtain ⟨_, h1⟩ := he
      split_ifs at h1
      obtain ⟨_, _, _, _, h1⟩ := h1
      cases h1
    | rulename k => rw [hx] at he; cases he.2
    | group | option | proseVal => rw [hx] at he; exact he.elim

/-- C87.  Every edge is drawn, once for each time it occurs, and no other: with identifiers that are unique and have no
line feeds or blanks, and labels without line feeds. -/
theorem C87_arrows (ident : Nat → Str) (hinj : ∀ a b, ident a = ident b → a = b) (hid : ∀ n, ∀ c ∈ ident n, c ≠ '\n' ∧ c ≠ ' ' ∧ c ≠ '(' ∧ c ≠ '[')
    (f : TgFrag) (h : TgHeap) (lab : Nat → Str) (ns : List Nat) (hns : ns.Nodup) (hlab : ∀ n ∈ ns, '\n' ∉ lab n) (a b : Nat) :
    (linesOf (unlines (drawing ident f h lab ns))).count (arrowLine (ident a) (ident b)) = if a ∈ ns then (h.nexts a).count b else 0 := by
  have hfirst : ∀ {x y : Str} {c d : Char} {s t : Str}, (∀ k ∈ x, k ≠ c) → (∀ k ∈ y, k ≠ d) → (∀ k ∈ x, k ≠ d) → (∀ k ∈ y, k ≠ c) →
      x ++ c :: s = y ++ d :: t → x = y ∧ c = d ∧ s = t := by
    intro x
    induction x with
    | nil =>
      intro y c d s t _ _ _ h4 he
      cases y with
      | nil => cases he; exact ⟨rfl, rfl, rfl⟩
      | cons k y => exact absurd (List.cons.inj he).1.symm (h4 k (by simp))
    | cons k x ih =>
      intro y c d s t h1 h2 h3 h4 he
      cases y with
      | nil => exact absurd (List.cons.inj he).1 (h3 k (by simp))
      | cons l y =>
        obtain ⟨e1, e2⟩ := List.cons.inj he
        obtain ⟨e3, e4⟩ := ih (fun k hk => h1 k (by simp [hk])) (fun k hk => h2 k (by simp [hk])) (fun k hk => h3 k (by simp [hk]))
          (fun k hk => h4 k (by simp [hk])) e2
        exact ⟨by rw [e1, e3], e4⟩
  have harrow : ∀ n m, arrowLine (ident n) (ident m) = arrowLine (ident a) (ident b) ↔ n = a ∧ m = b := by
    intro n m
    constructor
    · intro he
      simp only [arrowLine, List.append_assoc, List.append_cancel_left_eq] at he
      obtain ⟨e1, _, e2⟩ := hfirst (fun k hk => (hid n k hk).2.1) (fun k hk => (hid a k hk).2.1) (fun k hk => (hid n k hk).2.1)
        (fun k hk => (hid a k hk).2.1) he
      exact ⟨hinj _ _ e1, hinj _ _ (by simpa using e2)⟩
    · rintro ⟨rfl, rfl⟩; rfl
  have hnode : ∀ n s, nodeLine ident f n s ≠ arrowLine (ident a) (ident b) := by
    intro n s he
    simp only [nodeLine, arrowLine, List.append_assoc, List.append_cancel_left_eq] at he
    split_ifs at he
    all_goals
      obtain ⟨_, e2, _⟩ := hfirst (c := _) (d := ' ') (fun k hk => by first | exact (hid n k hk).2.2.1 | exact (hid n k hk).2.2.2)
        (fun k hk => (hid a k hk).2.1) (fun k hk => (hid n k hk).2.1)
        (fun k hk => by first | exact (hid a k hk).2.2.1 | exact (hid a k hk).2.2.2) he
      cases e2
  have hshort : ∀ l : Str, l = [] ∨ l = str% "flowchart LR" ∨ l = str% "    classDef entrypoint fill:#479abf" ∨ l = str% "    emptyNode(((∅))):::entrypoint" →
      l ≠ arrowLine (ident a) (ident b) := by
    rintro l (rfl | rfl | rfl | rfl) he
    · simp [arrowLine] at he
    · simp [arrowLine] at he
    · simp only [arrowLine, List.append_assoc] at he
      obtain ⟨_, _, e⟩ := hfirst (x := str% "classDef") (y := ident a) (c := ' ') (d := ' ') (s := str% "entrypoint fill:#479abf")
        (by decide) (fun k hk => (hid a k hk).2.1) (by decide) (fun k hk => (hid a k hk).2.1) (List.append_cancel_left (as := str% "    ") he)
      cases e
    · simp only [arrowLine, List.append_assoc] at he
      obtain ⟨_, e, _⟩ := hfirst (x := str% "emptyNode") (y := ident a) (c := '(') (d := ' ') (s := str% "((∅))):::entrypoint")
        (by decide) (fun k hk => (hid a k hk).2.1) (by decide) (fun k hk => (hid a k hk).2.2.1) (List.append_cancel_left (as := str% "    ") he)
      cases e
  have hclean : ∀ l ∈ drawing ident f h lab ns, '\n' ∉ l := by
    have hidn : ∀ n, '\n' ∉ ident n := fun n hn => (hid n _ hn).1 rfl
    have harr : ∀ n m, '\n' ∉ arrowLine (ident n) (ident m) := by
      intro n m
      simp only [arrowLine, List.mem_append, not_or]
      exact ⟨⟨⟨by decide, hidn n⟩, by decide⟩, hidn m⟩
    intro l hl
    simp only [drawing, List.mem_append, List.mem_flatMap] at hl
    rcases hl with (hl | ⟨n, hn, hl | hl⟩) | hl
    · simp only [List.mem_cons, List.not_mem_nil, or_false] at hl
      rcases hl with rfl | rfl | rfl <;> decide
    · rcases List.mem_cons.mp hl with rfl | hl
      · simp only [nodeLine, List.mem_append, not_or]
        refine ⟨⟨⟨by decide, hidn n⟩, ?_⟩, ?_⟩
        · split_ifs <;> simp only [List.mem_append, not_or] <;> exact ⟨⟨by decide, hlab n hn⟩, by decide⟩
        · split_ifs <;> decide
      · obtain ⟨m, _, rfl⟩ := List.mem_map.mp hl
        exact harr n m
    · rw [List.mem_singleton.mp hl]; simp
    · split_ifs at hl
      · rw [List.mem_singleton.mp hl]; decide
      · cases hl
  rw [linesOf_unlines hclean]
  have hzero : ∀ ls : List Str, (∀ l ∈ ls, l ≠ arrowLine (ident a) (ident b)) → ls.count (arrowLine (ident a) (ident b)) = 0 :=
    fun ls h => List.count_eq_zero.mpr fun hm => h _ hm rfl
  have hmap : ∀ n, ((h.nexts n).map fun m => arrowLine (ident n) (ident m)).count (arrowLine (ident a) (ident b)) =
      if n = a then (h.nexts n).count b else 0 := by
    intro n
    by_cases e : n = a
    · subst e
      rw [if_pos rfl]
      exact List.count_map_of_injective _ (fun m => arrowLine (ident n) (ident m)) (fun x y hxy => hinj _ _ (by simpa [arrowLine] using hxy)) b
    · rw [if_neg e]
      refine hzero _ fun l hl => ?_
      obtain ⟨m, _, rfl⟩ := List.mem_map.mp hl
      exact fun he => e ((harrow n m).mp he).1
  have hbody : ∀ l : List Nat, l.Nodup → (l.flatMap fun n => nodeLine ident f n (lab n) :: (h.nexts n).map (fun m => arrowLine (ident n) (ident m)) ++ [[]]).count
      (arrowLine (ident a) (ident b)) = if a ∈ l then (h.nexts a).count b else 0 := by
    intro l hl
    induction l with
    | nil => simp
    | cons n l ih =>
      rw [List.nodup_cons] at hl
      rw [List.flatMap_cons, List.count_append, ih hl.2, List.count_append, List.count_cons_of_ne (hnode n _), hmap,
        hzero [[]] (by simpa using hshort [] (.inl rfl))]
      by_cases e : n = a
      · subst e
        rw [if_pos rfl, if_neg hl.1, if_pos (by simp)]
        rfl
      · rw [if_neg e]
        simp [Ne.symm e]
  simp only [drawing, List.count_append, hbody ns hns]
  rw [hzero [[]] (by simpa using hshort [] (.inl rfl)), hzero _ (fun l hl => ?_), hzero (if none ∈ f.ins then _ else _) (fun l hl => ?_)]
  · simp
  · split_ifs at hl
    · exact hshort l (.inr (.inr (.inr (List.mem_singleton.mp hl))))
    · cases hl
  · simp only [List.mem_cons, List.not_mem_nil, or_false] at hl
    rcases hl with rfl | rfl | rfl
    · exact hshort _ (.inr (.inl rfl))
    · exact hshort _ (.inr (.inr (.inl rfl)))
    · exact hshort _ (.inl rfl)

/-- A character that does not end a line or a quoted label. -/
def Safe (c : Char) : Prop := c ≠ '\n' ∧ c ≠ '"'

theorem safe_alnum {c : Char} (h : c.isAlphanum = true) : Safe c :=
  ⟨by rintro rfl; exact absurd h (by decide), by rintro rfl; exact absurd h (by decide)⟩

theorem safe_denotes {b s : Str} {v : Nat} (h : Denotes b s v) : (∀ c ∈ b, Safe c) ∧ ∀ c ∈ s, Safe c := by
  obtain ⟨r, ds, h1, h0, h2, h9⟩ := h
  clear h0 h9
  refine ⟨?_, fun c hc => ?_⟩
  · cases h1 <;> simp [Safe]
  · obtain ⟨d, _, hd⟩ : ∃ d, d ∈ ds ∧ HasDigit r c d := by
      clear h1
      induction h2 with
      | nil => cases hc
      | cons a _ ih =>
        rcases List.mem_cons.mp hc with rfl | hc
        · exact ⟨_, by simp, a⟩
        · obtain ⟨d, hd, h⟩ := ih hc
          exact ⟨d, by simp [hd], h⟩
    have hn : '\n'.toNat = 10 := rfl
    have hq : '"'.toNat = 34 := rfl
    obtain ⟨h3, h4⟩ := hd
    constructor <;> rintro rfl <;> omega

theorem safe_intercalate {es : List Str} (h : ∀ s ∈ es, ∀ c ∈ s, Safe c) : ∀ c ∈ List.intercalate ['.'] es, Safe c := by
  intro c hc
  rw [← dotted_eq] at hc
  induction es with
  | nil => cases hc
  | cons s es ih =>
    cases es with
    | nil => exact h s (by simp) c hc
    | cons t ts =>
      rw [dotted, List.mem_append, List.mem_cons] at hc
      rcases hc with hc | rfl | hc
      · exact h s (by simp) c hc
      · exact ⟨by decide, by decide⟩
      · exact ih (fun s hs => h s (by simp [hs])) hc

theorem safe_shown {c : Char} {s : Str} (h : Shown c s) : ∀ d ∈ s, Safe d := by
  intro d hd
  cases h with
  | back => revert d; unfold Safe; decide
  | quote => revert d; unfold Safe; decide
  | self _ h1 _ _ h4 =>
    rw [List.mem_singleton.mp hd]
    refine ⟨?_, h4⟩
    rintro rfl
    exact absurd h1 (by decide)
  | hidden => cases hd

/-- An element whose labels are safe. -/
theorem label_safe {e : Elem} {s : Str} (h : Label e s) (hw : TermWF e) (hn : ∀ n, e = .rulename n → nameOK n = true)
    (hb : ∀ b st es, e = .numVal b st es → ∃ x, Radix b x) : ∀ c ∈ s, Safe c := by
  cases h with
  | name =>
    intro c hc
    have h1 := hn s rfl
    cases s with
    | nil => cases hc
    | cons a n =>
      simp only [nameOK, Bool.and_eq_true, List.all_eq_true] at h1
      rcases List.mem_cons.mp hc with rfl | hc
      · exact safe_alnum (by simp [Char.isAlphanum, h1.1])
      · have := h1.2 c hc
        simp only [nameChar, Bool.or_eq_true, beq_iff_eq] at this
        rcases this with h | rfl
        · exact safe_alnum h
        · exact ⟨by decide, by decide⟩
  | chars s vs ps hp =>
    intro c hc
    obtain ⟨p, h1, h2⟩ := List.mem_flatten.mp hc
    clear hw hn hb hc
    induction hp with
    | nil => cases h1
    | cons a _ ih =>
      rcases List.mem_cons.mp h1 with rfl | h1
      · exact safe_shown a c h2
      · exact ih h1
  | range b s t es =>
    obtain ⟨s', t', v, w, h1, h2, h3⟩ := hw
    cases h1
    intro c hc
    simp only [List.mem_append, List.mem_singleton] at hc
    rcases hc with (((rfl | hc) | hc) | rfl) | hc
    · exact ⟨by decide, by decide⟩
    · exact (safe_denotes h2).1 c hc
    · exact (safe_denotes h2).2 c hc
    · exact ⟨by decide, by decide⟩
    · exact (safe_denotes h3).2 c hc
  | series b es =>
    intro c hc
    simp only [List.mem_append, List.mem_singleton] at hc
    rcases hc with (rfl | hc) | hc
    · exact ⟨by decide, by decide⟩
    · obtain ⟨x, hx⟩ := hb b _ es rfl
      exact (safe_denotes (int32ToNumval_denotes hx 0)).1 c hc
    · exact safe_intercalate (fun s hs => (safe_denotes (hw s hs).choose_spec).2) c hc

/-- C87.  The labels of a graph made of the rules of a written grammar neither close their quotes nor break the line. -/
theorem C87_labels (o : TgOpts) (g : Grammar) (hd : NamesDistinct g) (core : List Rule) (order : List Str) (name : Str)
    (ht : ∀ r, Visits o g name r → Tidy r) (f : TgFrag) (h : TgHeap) (hok : transitionGraph o core g order name = .ok (.ok (f, h)))
    (n : Nat) (s : Str) (hl : Label (h.elem n) s) : ∀ c ∈ s, c ≠ '\n' ∧ c ≠ '"' := by
  refine transitionGraph_P (P := fun e => ∀ s, Label e s → ∀ c ∈ s, Safe c) hd (fun s h => by cases h) ?_ hok n s hl
  intro r hr q hq e he s hs
  obtain ⟨h1, h2, h3⟩ := ht r hr q hq
  generalize q.elem = x at he h1 h2 h3
  cases x with
  | charVal b vs =>
    obtain ⟨_, h4⟩ := he
    split_ifs at h4
    · obtain ⟨_, _, _, _, rfl⟩ := h4
      exact label_safe hs trivial (by simp) (by simp)
    · subst h4
      exact label_safe hs trivial (by simp) (by simp)
  | numVal b st es =>
    obtain ⟨x, hx⟩ := h3 b st es rfl
    have hb : ∀ b' st' es' es'' st'', Elem.numVal b st'' es'' = .numVal b' st' es' → ∃ x, Radix b' x := by
      rintro _ _ _ _ _ ⟨⟩
      exact ⟨x, hx⟩
    cases st with
    | series =>
      simp only [NodeElems] at he
      split_ifs at he
      · obtain ⟨s', h4, rfl⟩ := he
        exact label_safe hs (fun t ht => by rw [List.mem_singleton.mp ht]; exact h1 s' h4) (by simp) (fun b' st' es' => hb b' st' es' _ _)
      · subst he
        exact label_safe hs h1 (by simp) (fun b' st' es' => hb b' st' es' _ _)
    | range =>
      simp only [NodeElems] at he
      split_ifs at he
      · obtain ⟨v, _, _, rfl⟩ := he
        exact label_safe hs (fun t ht => by rw [List.mem_singleton.mp ht]; exact ⟨v, int32ToNumval_denotes hx v⟩) (by simp) (fun b' st' es' => hb b' st' es' _ _)
      · subst he
        exact label_safe hs h1 (by simp) (fun b' st' es' => hb b' st' es' _ _)
  | rulename m =>
    obtain ⟨_, rfl⟩ := he
    exact label_safe hs trivial (by simpa using h2) (by simp)
  | _ => exact he.elim

/-- A test for `Tidy`, also of the bounds of ranges. -/
def tidyb (r : Rule) : Bool := (altReps r.alt).all fun q =>
  match q.elem with
  | .rulename n => nameOK n
  | .numVal b st es => b = ['x'] && (st = .series || es.length = 2) && es.all fun s => !s.isEmpty && s.all fun c => (List.range 16).any fun d => decide (HasDigit 16 c d)
  | _ => true

theorem tidy_of {o : TgOpts} {g : Grammar} {name : Str} (h : (g.rules ++ Core.rules).all tidyb = true) (r : Rule) (hr : Visits o g name r) :
    Tidy r ∧ ∀ q ∈ altReps r.alt, ∀ b es, q.elem = .numVal b .range es → 2 ≤ es.length := by
  have h1 := List.all_eq_true.mp h r (visits_mem hr)
  simp only [tidyb, List.all_eq_true] at h1
  have hden : ∀ s : Str, s ≠ [] → (∀ c ∈ s, ∃ d, HasDigit 16 c d) → ∃ v, Denotes ['x'] s v := by
    intro s hs hc
    have : ∀ s : Str, (∀ c ∈ s, ∃ d, HasDigit 16 c d) → ∃ ds, List.Forall₂ (HasDigit 16) s ds := by
      intro s hc
      induction s with
      | nil => exact ⟨[], .nil⟩
      | cons c s ih =>
        obtain ⟨d, hd⟩ := hc c (by simp)
        obtain ⟨ds, hds⟩ := ih fun c h => hc c (by simp [h])
        exact ⟨d :: ds, .cons hd hds⟩
    obtain ⟨ds, hds⟩ := this s hc
    exact ⟨_, 16, ds, .hex, hs, hds, rfl⟩
  have hnum : ∀ q ∈ altReps r.alt, ∀ b st es, q.elem = .numVal b st es → b = ['x'] ∧ (st = .series ∨ es.length = 2) ∧ ∀ s ∈ es, ∃ v, Denotes b s v := by
    intro q hq b st es hx
    have := h1 q hq
    rw [hx] at this
    simp only [Bool.and_eq_true, Bool.or_eq_true, decide_eq_true_eq, List.all_eq_true, Bool.not_eq_true', List.isEmpty_eq_false_iff, List.any_eq_true] at this
    obtain ⟨⟨rfl, h2⟩, h3⟩ := this
    exact ⟨rfl, h2, fun s hs => hden s (h3 s hs).1 fun c hc => ((h3 s hs).2 c hc).imp fun d hd => hd.2⟩
  refine ⟨fun q hq => ⟨?_, fun n hx => ?_, fun b st es hx => ?_⟩, fun q hq b es hx => ?_⟩
  · cases hx : q.elem with
    | numVal b st es =>
      obtain ⟨_, h2, h3⟩ := hnum q hq b st es hx
      cases st with
      | series => exact h3
      | range =>
        match es, h2.resolve_left (by simp) with
        | [s, t], _ =>
          obtain ⟨v, hv⟩ := h3 s (by simp)
          obtain ⟨w, hw⟩ := h3 t (by simp)
          exact ⟨s, t, v, w, rfl, hv, hw⟩
    | _ => trivial
  · have := h1 q hq
    rw [hx] at this
    exact this
  · obtain ⟨rfl, _⟩ := hnum q hq b st es hx
    exact ⟨16, .hex⟩
  · have := (hnum q hq b _ es hx).2.1
    simp at this
    omega

/-- `a = *( DIGIT / "\"-" ) [ b ]` and `b = "`"`, with a quote that cannot be written in ABNF. -/
def sketch : Grammar := ⟨[
  ⟨['a'], [[⟨0, none, .group [[⟨1, some 1, .rulename (str% "DIGIT")⟩], [⟨1, some 1, .charVal false ['"', '-']⟩]]⟩,
    ⟨1, some 1, .option [[⟨1, some 1, .rulename ['b']⟩]]⟩]]⟩,
  ⟨['b'], [[⟨1, some 1, .charVal false ['`']⟩]]⟩]⟩

/-- What C87 and C88 assume. -/
theorem sketch_meets : ∃ f h, transitionGraph { rules := true } Core.rules sketch (plainOrder sketch) ['a'] = .ok (.ok (f, h)) ∧ NamesDistinct sketch ∧
    (∀ r, Visits { rules := true } sketch ['a'] r → Plain r) ∧ (∀ r, Visits { rules := true } sketch ['a'] r → Tidy r) ∧
    (∀ r, Visits { rules := true } sketch ['a'] r → ∀ q ∈ altReps r.alt, ∀ b es, q.elem = .numVal b .range es → 2 ≤ es.length) ∧
    none ∈ f.ins ∧ (∃ n, ReachedFrom h f.ins n ∧ h.elem n = .charVal false ['`']) := by
  have hd : NamesDistinct sketch := namesDistinct_of (by decide)
  have hshow : tgShow (transitionGraph { rules := true } Core.rules sketch (plainOrder sketch) ['a']) =
    some ([some 0, some 2, some 3, none], [none, some 0, some 2, some 3], [(.numVal ['x'] .range [str% "30", str% "39"], [0, 2, 3]),
      (.numVal ['x'] .range [str% "30", str% "39"], []), (.charVal false ['"', '-'], [0, 2, 3]), (.charVal false ['`'], []), (.charVal false ['`'], [])]) := by
    decide +kernel
  obtain ⟨f, h, e1, e2, e3, e4⟩ := tgShow_some hshow
  have ht := fun r => tidy_of (o := { rules := true }) (g := sketch) (name := ['a']) (by decide +kernel) r
  refine ⟨f, h, e1, hd, plain_of (by decide +kernel), fun r hr => (ht r hr).1, fun r hr => (ht r hr).2, by simp [e2], 3, ⟨3, by simp [e2], .refl⟩, ?_⟩
  exact (e4 3 (by decide)).1

example : ∃ f h, transitionGraph { rules := true } Core.rules sketch (plainOrder sketch) ['a'] = .ok (.ok (f, h)) ∧ NamesDistinct sketch ∧
    GraphFin h f ∧ (∃ n, ReachedFrom h f.ins n) ∧ (∀ a b : Nat, List.replicate a 'n' = List.replicate b 'n' → a = b) ∧
    ∀ n, ∀ c ∈ List.replicate n 'n', c ≠ '\n' ∧ c ≠ ' ' ∧ c ≠ '(' ∧ c ≠ '[' := by
  obtain ⟨f, h, e1, e2, e3, e4, e5, e6, n, e7, _⟩ := sketch_meets
  refine ⟨f, h, e1, e2, tg_finite e2 (.refl _) (.refl _) e3 e1, ⟨n, e7⟩, fun a b hab => ?_, fun n c hc => ?_⟩
  · simpa using congrArg List.length hab
  · rw [List.eq_of_mem_replicate hc]
    decide

/-- The whole drawing of the graph of `sketch`, with numbers as identifiers. -/
example : (match transitionGraph { rules := true } Core.rules sketch (plainOrder sketch) ['a'] with
    | .ok (.ok (f, h)) => (match toMermaid itoa id f h with | .ok s => some s | _ => none)
    | _ => none) = some (str% "flowchart LR\n    classDef entrypoint fill:#479abf\n\n    0(((\"0x30-39\"))):::entrypoint\n    0 --> 0\n    0 --> 2\n    0 --> 3\n\n    2(((\"dquote-\"))):::entrypoint\n    2 --> 0\n    2 --> 2\n    2 --> 3\n\n    3(((\"backquote\"))):::entrypoint\n\n    emptyNode(((∅))):::entrypoint\n") := by
  decide +kernel

/-! ## C88: the walking generator takes every graph with rules deflated -/

/-- C88.  `NewGenerator` accepts every graph that `TransitionGraph` makes with rules deflated: such a graph holds strings
and num-vals only. -/
theorem C88_accepts (o : TgOpts) (hru : o.rules = true) (g : Grammar) (hd : NamesDistinct g) (core : List Rule) (hcore : core.Perm Core.rules)
    (order : List Str) (ho : order.Perm ((dependencyGraph core g).map Prod.fst)) (name : Str)
    (hp : ∀ r, Visits o g name r → Plain r) (f : TgFrag) (h : TgHeap) (hok : transitionGraph o core g order name = .ok (.ok (f, h)))
    (p : FuzzOpts) : ∃ G, newGenerator p f h = .ok (.ok G) := by
  refine ((C31_new p f h (tg_finite hd hcore ho hp hok)).1).mpr fun n hn => ?_
  obtain ⟨h1, h2⟩ := nodes_leaf hd hcore ho hp hok n hn
  cases hx : h.elem n with
  | charVal s vs => exact .inl ⟨s, vs, rfl⟩
  | numVal b st es => exact .inr ⟨b, st, es, rfl⟩
  | rulename m => exact absurd hx (h2 hru m)
  | group | option | proseVal => rw [hx] at h1; cases h1

/-- C88.  With rules kept, it refuses the graph exactly if a rule name can be reached. -/
theorem C88_refuses (o : TgOpts) (g : Grammar) (hd : NamesDistinct g) (core : List Rule) (hcore : core.Perm Core.rules)
    (order : List Str) (ho : order.Perm ((dependencyGraph core g).map Prod.fst)) (name : Str)
    (hp : ∀ r, Visits o g name r → Plain r) (f : TgFrag) (h : TgHeap) (hok : transitionGraph o core g order name = .ok (.ok (f, h)))
    (p : FuzzOpts) : (∃ e, newGenerator p f h = .ok (.error e)) ↔ ∃ n m, ReachedFrom h f.ins n ∧ h.elem n = .rulename m := by
  have H := C31_new p f h (tg_finite hd hcore ho hp hok)
  constructor
  · rintro ⟨e, he⟩
    by_contra hno
    obtain ⟨G, hG⟩ := H.1.mpr fun n hn => by
      obtain ⟨h1, _⟩ := nodes_leaf hd hcore ho hp hok n hn
      cases hx : h.elem n with
      | charVal s vs => exact .inl ⟨s, vs, rfl⟩
      | numVal b st es => exact .inr ⟨b, st, es, rfl⟩
      | rulename m => exact absurd ⟨n, m, hn, hx⟩ hno
      | group | option | proseVal => rw [hx] at h1; cases h1
    rw [he] at hG
    cases hG
  · rintro ⟨n, m, hn, hx⟩
    obtain ⟨res, hres⟩ := H.2
    cases res with
    | error e => exact ⟨e, hres⟩
    | ok G =>
      exfalso
      have := H.1.mp ⟨G, hres⟩ n hn
      rw [hx] at this
      simp at this

/-! ## C89: the drawing of a dependency graph -/

/-- The line of a dependency. -/
def depLine (a b : Str) : Str := str% "\t" ++ a ++ str% " --> " ++ b

theorem depLinks_eq (a : Str) (ds : List Str) : depLinks a ds = unlines (ds.map (depLine a)) := by
  induction ds with
  | nil => rfl
  | cons d ds ih => rw [depLinks, ih, List.map_cons, unlines]; rfl

theorem depLines_eq (nds : List DepNode) : depLines nds = unlines (nds.flatMap fun nd => nd.deps.map (depLine nd.rulename) ++ [[]]) := by
  induction nds with
  | nil => rfl
  | cons nd nds ih => rw [depLines, ih, depLinks_eq, List.flatMap_cons, unlines_append, unlines_append]; simp [unlines]

theorem dgSet_keys {k k' : Str} {v : DepNode} {m : List (Str × DepNode)} (h : k' ∈ (dgSet k v m).map Prod.fst) :
    k' = k ∨ k' ∈ m.map Prod.fst := by
  induction m with
  | nil => exact .inl (by simpa [dgSet] using h)
  | cons p m ih =>
    rw [dgSet] at h
    split_ifs at h with e
    · simp only [List.map_cons, List.mem_cons] at h ⊢
      tauto
    · simp only [List.map_cons, List.mem_cons] at h ⊢
      rcases h with h | h
      · exact .inr (.inl h)
      · exact (ih h).imp_right .inr

theorem dgSet_nodup {k : Str} {v : DepNode} {m : List (Str × DepNode)} (h : (m.map Prod.fst).Nodup) : ((dgSet k v m).map Prod.fst).Nodup := by
  induction m with
  | nil => simp [dgSet]
  | cons p m ih =>
    rw [List.map_cons, List.nodup_cons] at h
    rw [dgSet]
    split_ifs with e
    · rw [List.map_cons, List.nodup_cons]
      exact ⟨e ▸ h.1, h.2⟩
    · rw [List.map_cons, List.nodup_cons]
      exact ⟨fun h1 => (dgSet_keys h1).elim e h.1, ih h.2⟩

theorem dgAdd_nodup (rs : List Rule) : ∀ {m : List (Str × DepNode)}, (m.map Prod.fst).Nodup → ((dgAdd m rs).map Prod.fst).Nodup := by
  induction rs with
  | nil => exact fun h => h
  | cons r rs ih => exact fun h => ih (dgSet_nodup h)

theorem mem_lookup {m : List (Str × DepNode)} (h : (m.map Prod.fst).Nodup) {k : Str} {v : DepNode} : (k, v) ∈ m ↔ m.lookup k = some v := by
  induction m with
  | nil => simp
  | cons p m ih =>
    obtain ⟨a, b⟩ := p
    rw [List.map_cons, List.nodup_cons] at h
    rw [List.lookup, List.mem_cons]
    by_cases e : k = a
    · subst e
      simp only [beq_self_eq_true, Option.some.injEq, Prod.mk.injEq, true_and]
      constructor
      · rintro (h1 | h1)
        · exact h1.symm
        · exact absurd (List.mem_map.mpr ⟨_, h1, rfl⟩) h.1
      · exact fun h1 => .inl h1.symm
    · have : (k == a) = false := by simp [e]
      rw [this]
      simp only [Prod.mk.injEq, e, false_and, false_or]
      exact ih h.2

/-- The nodes of the graph are the rules, those of the grammar and the core rules it does not define. -/
theorem mem_nodes {g : Grammar} (hd : NamesDistinct g) {core : List Rule} (hcore : core.Perm Core.rules) (nd : DepNode) :
    nd ∈ (dependencyGraph core g).map Prod.snd ↔ ∃ r, Resolves g r.name r ∧ nd = ⟨r.name, getDependencies r.alt⟩ := by
  have hn : ((dependencyGraph core g).map Prod.fst).Nodup := dgAdd_nodup _ (dgAdd_nodup _ (by simp))
  constructor
  · intro h
    obtain ⟨⟨k, nd⟩, h1, rfl⟩ := List.mem_map.mp h
    have h2 := (mem_lookup hn).mp h1
    have hk := key_canon hd hcore (by rw [h2]; rfl)
    rw [← hk] at h2
    obtain ⟨r, h3, h4, h5⟩ := ((C19_graph g hd core hcore k).1 _).mp h2
    refine ⟨r, resolves_self h3, ?_⟩
    cases nd
    simp only at h4 h5
    rw [h4, h5]
  · rintro ⟨r, h1, rfl⟩
    have := ((C19_graph g hd core hcore r.name).1 ⟨r.name, getDependencies r.alt⟩).mpr ⟨r, h1, rfl, rfl⟩
    exact List.mem_map.mpr ⟨_, (mem_lookup hn).mpr this, rfl⟩

/-- The names of a grammar are names. -/
def NamesOK (g : Grammar) : Prop := ∀ r ∈ g.rules, nameOK r.name = true ∧ ∀ q ∈ altReps r.alt, ∀ n, q.elem = .rulename n → nameOK n = true

theorem name_char {n : Str} (h : nameOK n = true) : ∀ c ∈ n, c ≠ '\n' ∧ c ≠ ' ' := by
  intro c hc
  have halnum : ∀ c : Char, c.isAlphanum = true → c ≠ '\n' ∧ c ≠ ' ' := fun c h =>
    ⟨by rintro rfl; exact absurd h (by decide), by rintro rfl; exact absurd h (by decide)⟩
  cases n with
  | nil => cases hc
  | cons a n =>
    simp only [nameOK, Bool.and_eq_true, List.all_eq_true] at h
    rcases List.mem_cons.mp hc with rfl | hc
    · exact halnum c (by simp [Char.isAlphanum, h.1])
    · have := h.2 c hc
      simp only [nameChar, Bool.or_eq_true, beq_iff_eq] at this
      rcases this with h | rfl
      · exact halnum c h
      · decide

theorem lower_char {c : Char} (h : c ≠ '\n' ∧ c ≠ ' ') : lowerChar c ≠ '\n' ∧ lowerChar c ≠ ' ' := by
  unfold lowerChar
  have hA : 'A'.toNat = 65 := rfl
  have hZ : 'Z'.toNat = 90 := rfl
  have hn : '\n'.toNat = 10 := rfl
  have hb : ' '.toNat = 32 := rfl
  split_ifs with e
  · have := toNat_ofNat_char (n := c.toNat + 32) (by omega)
    constructor <;> intro h1 <;> rw [h1] at this <;> omega
  · exact h

theorem core_names : ∀ r ∈ Core.rules, nameOK r.name = true ∧ ∀ q ∈ altReps r.alt, ∀ n, q.elem = .rulename n → nameOK n = true := by
  have : Core.rules.all (fun r => nameOK r.name && (altReps r.alt).all fun q => match q.elem with | .rulename n => nameOK n | _ => true) = true := by
    decide +kernel
  simp only [List.all_eq_true, Bool.and_eq_true] at this
  intro r hr
  refine ⟨(this r hr).1, fun q hq n hn => ?_⟩
  have := (this r hr).2 q hq
  rw [hn] at this
  exact this

theorem dep_inj {a b x y : Str} (hb : ∀ c ∈ b, c ≠ ' ') (hx : ∀ c ∈ x, c ≠ ' ') (h : depLine b y = depLine x a) : b = x ∧ y = a := by
  simp only [depLine, List.append_assoc, List.append_cancel_left_eq] at h
  induction b generalizing x with
  | nil =>
    cases x with
    | nil => exact ⟨rfl, by simpa using h⟩
    | cons c x => exact absurd (List.cons.inj h).1.symm (hx c (by simp))
  | cons c b ih =>
    cases x with
    | nil => exact absurd (List.cons.inj h).1 (hb c (by simp))
    | cons d x =>
      obtain ⟨e1, e2⟩ := List.cons.inj h
      obtain ⟨e3, e4⟩ := ih (fun c hc => hb c (by simp [hc])) (fun c hc => hx c (by simp [hc])) e2
      exact ⟨by rw [e1, e3], e4⟩

/-- C89, the lines that are drawn: an arrow leads from the name of a rule, as it is defined, to each name the rule mentions,
folded to lower case.  What is missing: the arrows do not lead to the names of rules defined with upper case letters. -/
theorem C89_lines_partial (g : Grammar) (hd : NamesDistinct g) (hn : NamesOK g) (core : List Rule) (hcore : core.Perm Core.rules)
    (order : List DepNode → List DepNode) (ho : ∀ l, (order l).Perm l) (x y : Str) (hx : ' ' ∉ x) :
    depLine x y ∈ linesOf (depMermaid order (dependencyGraph core g)) ↔
      ∃ r, Resolves g r.name r ∧ r.name = x ∧ ∃ q ∈ altReps r.alt, ∃ n, q.elem = .rulename n ∧ y = canon n := by
  have hrule : ∀ r, Resolves g r.name r → nameOK r.name = true ∧ ∀ q ∈ altReps r.alt, ∀ n, q.elem = .rulename n → nameOK n = true := by
    intro r hr
    cases hr with
    | user h _ => exact hn r h
    | core h _ _ => exact core_names r h
  have hnode : ∀ nd ∈ order ((dependencyGraph core g).map Prod.snd), ∃ r, Resolves g r.name r ∧ nd = ⟨r.name, getDependencies r.alt⟩ :=
    fun nd h => (mem_nodes hd hcore nd).mp ((ho _).mem_iff.mp h)
  have hdep : ∀ r, Resolves g r.name r → ∀ d ∈ getDependencies r.alt, ∃ q ∈ altReps r.alt, ∃ n, q.elem = .rulename n ∧ d = canon n := by
    intro r _ d hd'
    obtain ⟨q, hq, n, h1, h2⟩ := mem_getDependencies.mp hd'
    exact ⟨q, hq, n, h1, h2.symm ▸ rfl⟩
  have hcl : ∀ l ∈ (order ((dependencyGraph core g).map Prod.snd)).flatMap (fun nd => nd.deps.map (depLine nd.rulename) ++ [[]]), '\n' ∉ l := by
    intro l hl
    obtain ⟨nd, h1, h2⟩ := List.mem_flatMap.mp hl
    obtain ⟨r, h3, rfl⟩ := hnode nd h1
    rcases List.mem_append.mp h2 with h2 | h2
    · obtain ⟨d, h4, rfl⟩ := List.mem_map.mp h2
      obtain ⟨q, hq, n, h5, rfl⟩ := hdep r h3 d h4
      simp only [depLine, List.mem_append, not_or]
      refine ⟨⟨⟨by decide, fun h => (name_char (hrule r h3).1 _ h).1 rfl⟩, by decide⟩, fun h => ?_⟩
      obtain ⟨c, h6, h7⟩ := List.mem_map.mp h
      exact (lower_char (name_char ((hrule r h3).2 q hq n h5) c h6)).1 h7
    · rw [List.mem_singleton.mp h2]; simp
  have htext : depMermaid order (dependencyGraph core g) = unlines (str% "flowchart TD" ::
      (order ((dependencyGraph core g).map Prod.snd)).flatMap (fun nd => nd.deps.map (depLine nd.rulename) ++ [[]])) := by
    rw [depMermaid, depLines_eq, unlines]; rfl
  rw [htext, linesOf_unlines (by
    intro l hl
    rcases List.mem_cons.mp hl with rfl | hl
    · decide
    · exact hcl l hl)]
  constructor
  · intro h
    simp only [List.cons_append, List.mem_cons, List.mem_append, List.not_mem_nil, or_false] at h
    rcases h with h | h | h
    · simp [depLine] at h
    · obtain ⟨nd, h1, h2⟩ := List.mem_flatMap.mp h
      obtain ⟨r, h3, rfl⟩ := hnode nd h1
      rcases List.mem_append.mp h2 with h2 | h2
      · obtain ⟨d, h4, h5⟩ := List.mem_map.mp h2
        obtain ⟨e1, rfl⟩ := dep_inj (fun c hc => (name_char (hrule r h3).1 c hc).2) (fun c hc => fun e => hx (e ▸ hc)) h5
        exact ⟨r, h3, e1, hdep r h3 d h4⟩
      · simp [depLine] at h2
    · simp [depLine] at h
  · rintro ⟨r, h1, rfl, q, hq, n, h2, rfl⟩
    refine List.mem_append_left _ (List.mem_cons_of_mem _ (List.mem_flatMap.mpr ⟨⟨r.name, getDependencies r.alt⟩, ?_, ?_⟩))
    · exact (ho _).mem_iff.mpr ((mem_nodes hd hcore _).mpr ⟨r, h1, rfl⟩)
    · refine List.mem_append_left _ (List.mem_map.mpr ⟨canon n, mem_getDependencies.mpr ⟨q, hq, n, h2, rfl⟩, rfl⟩)

/-- C89.  Between rules defined in lower case the arrows are exactly the references. -/
theorem C89_arrows_partial (g : Grammar) (hd : NamesDistinct g) (hn : NamesOK g) (core : List Rule) (hcore : core.Perm Core.rules)
    (order : List DepNode → List DepNode) (ho : ∀ l, (order l).Perm l) (r r' : Rule) (hr : Resolves g r.name r) (hr' : Resolves g r'.name r')
    (hl : canon r'.name = r'.name) :
    depLine r.name r'.name ∈ linesOf (depMermaid order (dependencyGraph core g)) ↔ Refers g r r' := by
  have hok : nameOK r.name = true := by
    cases hr with
    | user h _ => exact (hn r h).1
    | core h _ _ => exact (core_names r h).1
  rw [C89_lines_partial g hd hn core hcore order ho _ _ fun h => (name_char hok _ h).2 rfl]
  constructor
  · rintro ⟨s, h1, h2, q, hq, n, h3, h4⟩
    obtain rfl := resolves_unique hd h1 hr (by rw [h2])
    exact ⟨q, hq, n, h3, (resolves_congr (by rw [← h4, hl])).mp hr'⟩
  · rintro ⟨q, hq, n, h3, h4⟩
    exact ⟨r, hr, rfl, q, hq, n, h3, by rw [← resolves_name h4, hl]⟩

/-- `A = B` and `B = A`. -/
def loopAB : Grammar := ⟨[⟨['A'], [[⟨1, some 1, .rulename ['B']⟩]]⟩, ⟨['B'], [[⟨1, some 1, .rulename ['A']⟩]]⟩]⟩

/-- C89 as stated is false: `A` refers to `B`, but no arrow leads to `B`; it leads to `b`, which names no rule. -/
theorem C89_fails : NamesDistinct loopAB ∧ NamesOK loopAB ∧ ∃ r r', Refers loopAB r r' ∧
    depLine r.name r'.name ∉ linesOf (depMermaid id (dependencyGraph Core.rules loopAB)) ∧
    depLine r.name (str% "b") ∈ linesOf (depMermaid id (dependencyGraph Core.rules loopAB)) ∧ ∀ s, s ∈ loopAB.rules ++ Core.rules → s.name ≠ str% "b" := by
  have hd : NamesDistinct loopAB := namesDistinct_of (by decide)
  refine ⟨hd, ?_, ⟨['A'], [[⟨1, some 1, .rulename ['B']⟩]]⟩, ⟨['B'], [[⟨1, some 1, .rulename ['A']⟩]]⟩, ?_, by decide +kernel, by decide +kernel, by decide +kernel⟩
  · intro r hr
    simp only [loopAB, List.mem_cons, List.not_mem_nil, or_false] at hr
    rcases hr with rfl | rfl
    all_goals
      refine ⟨by decide, fun q hq n hn => ?_⟩
      simp only [altReps, concatReps, repReps, elemReps, List.append_nil, List.mem_singleton] at hq
      subst hq
      cases hn
      decide
  · exact ⟨⟨1, some 1, .rulename ['B']⟩, by simp [altReps, concatReps, repReps, elemReps], ['B'], rfl, (getRule_iff hd).mp (by decide +kernel)⟩

example : NamesDistinct sketch ∧ NamesOK sketch ∧ Refers sketch (sketch.rules.getD 0 ⟨[], []⟩) (sketch.rules.getD 1 ⟨[], []⟩) ∧
    canon ['b'] = ['b'] := by
  have hd : NamesDistinct sketch := namesDistinct_of (by decide)
  refine ⟨hd, ?_, ?_, by decide⟩
  · have : sketch.rules.all (fun r => nameOK r.name && (altReps r.alt).all fun q => match q.elem with | .rulename n => nameOK n | _ => true) = true := by
      decide +kernel
    simp only [List.all_eq_true, Bool.and_eq_true] at this
    intro r hr
    refine ⟨(this r hr).1, fun q hq n hn => ?_⟩
    have := (this r hr).2 q hq
    rw [hn] at this
    exact this
  · exact ⟨⟨1, some 1, .rulename ['b']⟩, by simp [sketch, altReps, concatReps, repReps, elemReps], ['b'], rfl, (getRule_iff hd).mp (by decide +kernel)⟩

end Verif.Props
