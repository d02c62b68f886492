import Verif.Forest
import Verif.PropsSppf
import Mathlib.Data.List.Sort

/-!
# Parse errors

Model of `ParseError`, `describeByte`, `newParseError` (/repo/errors.go:44-139) and `Forest.ParseError`
(/repo/sppf.go:696-705).  `Error()` is in `Verif.Messages`.
-/

namespace Verif

/-- `ParseError` (/repo/errors.go:44-60); `hint` tells whether `Hint` is set, which only the bare-LF case does. -/
structure ParseError where
  offset : Nat
  line : Nat
  col : Nat
  expected : List Str
  found : Str
  hint : Bool

/-- One upper-case hexadecimal digit of `%02X`. -/
def hexDigitU (n : Nat) : Char := if n < 10 then Char.ofNat (48 + n) else Char.ofNat (55 + n)

/-- `describeByte` (/repo/errors.go:89-104); `%q` of a printable ASCII byte escapes only the quote and the
backslash. -/
def describeByte (b : UInt8) : Str :=
  if b = 0x0D then str% "%x0D (CR)"
  else if b = 0x0A then str% "%x0A (LF)"
  else if b = 0x09 then str% "%x09 (HTAB)"
  else if b = 0x20 then str% "%x20 (SP)"
  else if 0x20 ≤ b ∧ b < 0x7F then
    if b = 0x22 ∨ b = 0x5C then ['"', '\\', Char.ofNat b.toNat, '"'] else ['"', Char.ofNat b.toNat, '"']
  else ['%', 'x', hexDigitU (b.toNat / 16), hexDigitU (b.toNat % 16)]

/-- The loop computing line and column (/repo/errors.go:117-124). -/
def lineCol : Bytes → Nat → Nat → Nat × Nat
  | [], line, col => (line, col)
  | b :: bs, line, col => if b = 0x0A then lineCol bs (line + 1) 1 else lineCol bs line (col + 1)

/-- The comparison of `sort.Strings`; Go compares bytes, which for UTF-8 is the order of code points.  The order is total, so there is only one sorted list and any sorting algorithm models
`sort.Strings`. -/
def strLe : Str → Str → Bool
  | [], _ => true
  | _ :: _, [] => false
  | a :: as, b :: bs => if a.toNat < b.toNat then true else if a.toNat = b.toNat then strLe as bs else false

/-- `newParseError` (/repo/errors.go:109-139). -/
def newParseError (inp : Bytes) (offset : Int) (expected : List Str) : ParseError :=
  let offset : Int := if offset < 0 then 0 else offset
  let offset : Nat := (if offset > inp.length then (inp.length : Int) else offset).toNat
  let lc := lineCol (inp.take offset) 1 1
  { offset := offset, line := lc.1, col := lc.2
    expected := expected.insertionSort (fun a b => strLe a b = true)
    found := match inp[offset]? with
      | some b => describeByte b
      | none => str% "EOF"
    hint := match inp[offset]? with
      | some b => b = 0x0A && (offset = 0 || inp[offset - 1]? != some 0x0D)
      | none => false }

/-- `Forest.ParseError` (/repo/sppf.go:696-705). -/
def Forest.parseError (f : Forest) : Option ParseError :=
  if f.valid then none else some (newParseError f.input f.st.maxPos f.st.expected)

/-! ## Lemmas -/

theorem lineCol_append (a b : Bytes) : ∀ l c, lineCol (a ++ b) l c = lineCol b (lineCol a l c).1 (lineCol a l c).2 := by
  induction a with
  | nil => intro l c; rfl
  | cons x a ih =>
    intro l c
    simp only [List.cons_append, lineCol]
    split_ifs
    · exact ih _ _
    · exact ih _ _

theorem lineCol_line (bs : Bytes) : ∀ l c, (lineCol bs l c).1 = l + bs.count 0x0A := by
  induction bs with
  | nil => intro l c; rfl
  | cons x bs ih =>
    intro l c
    simp only [lineCol]
    split_ifs with h
    · subst h; rw [ih, List.count_cons_self]; omega
    · rw [ih, List.count_cons_of_ne (fun e => h e)]

theorem lineCol_noLF {bs : Bytes} (h : 0x0A ∉ bs) : ∀ l c, (lineCol bs l c).2 = c + bs.length := by
  induction bs with
  | nil => intro l c; rfl
  | cons x bs ih =>
    intro l c
    simp only [List.mem_cons, not_or] at h
    simp only [lineCol]
    rw [if_neg fun e => h.1 e.symm, ih h.2, List.length_cons]
    omega

theorem strLe_total (a b : Str) : (strLe a b || strLe b a) = true := by
  induction a generalizing b with
  | nil => simp [strLe]
  | cons x a ih =>
    cases b with
    | nil => simp [strLe]
    | cons y b =>
      simp only [strLe]
      split_ifs <;> first | omega | simp | skip
      simpa using ih b

theorem strLe_trans (a b c : Str) (h1 : strLe a b = true) (h2 : strLe b c = true) : strLe a c = true := by
  induction a generalizing b c with
  | nil => rfl
  | cons x a ih =>
    cases b with
    | nil => cases h1
    | cons y b =>
      cases c with
      | nil => cases h2
      | cons z c =>
        simp only [strLe] at h1 h2 ⊢
        split_ifs at h1 h2 ⊢ <;> first | omega | rfl | skip
        exact ih b c h1 h2

instance : Std.Total (fun a b : Str => strLe a b = true) := ⟨fun a b => by simpa using strLe_total a b⟩
instance : IsTrans Str (fun a b : Str => strLe a b = true) := ⟨fun a b c => strLe_trans a b c⟩

/-- The byte a description tells. -/
def undescribe : Str → Nat
  | ['"', c, '"'] => c.toNat
  | ['"', '\\', c, '"'] => c.toNat
  | '%' :: 'x' :: a :: b :: _ => 16 * (a.toNat - if a.toNat < 65 then 48 else 55) + (b.toNat - if b.toNat < 65 then 48 else 55)
  | _ => 0

theorem describeByte_inj {a b : UInt8} (h : describeByte a = describeByte b) : a = b := by
  have key : ∀ m : Fin 256, undescribe (describeByte (UInt8.ofNat m.val)) = m.val := by decide +kernel
  have h1 := key ⟨a.toNat, a.toNat_lt⟩
  have h2 := key ⟨b.toNat, b.toNat_lt⟩
  simp only [u8_ofNat_toNat] at h1 h2
  rw [h, h2] at h1
  exact UInt8.toNat_inj.mp h1.symm

theorem describeByte_ne_EOF (a : UInt8) : describeByte a ≠ str% "EOF" := by
  have key : ∀ m : Fin 256, describeByte (UInt8.ofNat m.val) ≠ str% "EOF" := by decide +kernel
  have := key ⟨a.toNat, a.toNat_lt⟩
  rwa [u8_ofNat_toNat] at this

namespace Props

/-- C34.  Where an error points: the offset is clamped into the input; the line is one more than the number of line
feeds before it; the column is one more than the number of bytes after the last of them. -/
theorem C34_position (inp : Bytes) (offset : Int) (expected : List Str) :
    let e := newParseError inp offset expected
    e.offset ≤ inp.length ∧ ((0 ≤ offset ∧ offset ≤ inp.length) → (e.offset : Int) = offset) ∧
    e.line = 1 + (inp.take e.offset).count 0x0A ∧
    ∃ before row, inp.take e.offset = before ++ row ∧ 0x0A ∉ row ∧ (before = [] ∨ before.getLast? = some 0x0A) ∧
      e.col = 1 + row.length := by
  intro e
  have ho : e.offset ≤ inp.length := by
    simp only [e, newParseError]
    split_ifs <;> omega
  refine ⟨ho, ?_, lineCol_line _ 1 1, ?_⟩
  · rintro ⟨h1, h2⟩
    simp only [e, newParseError]
    split_ifs <;> omega
  · obtain ⟨before, row, h1, h2, h3⟩ : ∃ before row, inp.take e.offset = before ++ row ∧ (0x0A : UInt8) ∉ row ∧
        (before = [] ∨ before.getLast? = some 0x0A) := by
      generalize inp.take e.offset = bs
      induction bs using List.reverseRecOn with
      | nil => exact ⟨[], [], rfl, by simp, .inl rfl⟩
      | append_singleton bs b ih =>
        by_cases hb : b = 0x0A
        · subst hb
          exact ⟨bs ++ [0x0A], [], by simp, by simp, .inr (by simp)⟩
        · obtain ⟨before, row, rfl, h2, h3⟩ := ih
          refine ⟨before, row ++ [b], by simp, ?_, h3⟩
          simp only [List.mem_append, List.mem_singleton, not_or]
          exact ⟨h2, fun e => hb e.symm⟩
    refine ⟨before, row, h1, h2, h3, ?_⟩
    have hcol : e.col = (lineCol (inp.take e.offset) 1 1).2 := rfl
    rw [hcol, h1, lineCol_append, lineCol_noLF h2]
    congr 1
    rcases h3 with rfl | h3
    · rfl
    · obtain ⟨ys, rfl⟩ := List.getLast?_eq_some_iff.mp h3
      rw [lineCol_append]
      rfl

/-- C34.  What an error says: `Expected` is the given list, sorted; `Found` is `EOF` exactly at the end of the input
and otherwise tells the byte there; the hint is given exactly at a line feed that no carriage return precedes. -/
theorem C34_content (inp : Bytes) (offset : Int) (expected : List Str) :
    let e := newParseError inp offset expected
    (e.expected.Perm expected ∧ e.expected.Pairwise fun a b => strLe a b = true) ∧
    (e.found = str% "EOF" ↔ e.offset = inp.length) ∧
    (∀ b, inp[e.offset]? = some b → ∀ b', e.found = describeByte b' ↔ b' = b) ∧
    (e.hint = true ↔ inp[e.offset]? = some 0x0A ∧ ∀ i, e.offset = i + 1 → inp[i]? ≠ some 0x0D) := by
  intro e
  have ho : e.offset ≤ inp.length := (C34_position inp offset expected).1
  have hf : e.found = match inp[e.offset]? with | some b => describeByte b | none => str% "EOF" := rfl
  have hh : e.hint = match inp[e.offset]? with
      | some b => b = 0x0A && (e.offset = 0 || inp[e.offset - 1]? != some 0x0D)
      | none => false := rfl
  refine ⟨⟨List.perm_insertionSort .., List.pairwise_insertionSort _ _⟩, ?_, ?_, ?_⟩
  · rw [hf]
    cases hb : inp[e.offset]? with
    | none => exact ⟨fun _ => by have := List.getElem?_eq_none_iff.mp hb; omega, fun _ => rfl⟩
    | some b =>
      refine ⟨fun h => absurd h (describeByte_ne_EOF b), fun h => ?_⟩
      have := (List.getElem?_eq_some_iff.mp hb).1
      omega
  · intro b hb b'
    rw [hf, hb]
    exact ⟨fun h => (describeByte_inj h).symm, fun h => by rw [h]⟩
  · rw [hh]
    cases hb : inp[e.offset]? with
    | none => simp
    | some b =>
      cases ho : e.offset with
      | zero => simp
      | succ n => simp

-- an error in the second line
example : let e := newParseError (bytes% "a = \"x\"\nb") 7 [str% "%x20", str% "%x0D"]
    (e.offset, e.line, e.col, e.expected, e.hint) = (7, 1, 8, [str% "%x0D", str% "%x20"], true) := by decide +kernel
example : let e := newParseError (bytes% "a\nbc") 4 []
    (e.offset, e.line, e.col, e.found) = (4, 2, 3, str% "EOF") := by decide +kernel

/-- C34.  A forest has a parse error exactly when it is invalid, and the error is at the furthest failure. -/
theorem C34_forest (g : Grammar) (root : Str) (sched : Sched NodeKey) (hf : sched.Fair) (inp : Bytes)
    (maxNodes maxSlots : Nat) (f : Forest) (h : parseForest sched inp g root maxNodes maxSlots = .ok f) :
    (f.parseError = none ↔ f.valid = true) ∧
    ∀ e, f.parseError = some e → e = newParseError inp f.st.maxPos f.st.expected ∧ e.offset = f.st.maxPos := by
  obtain ⟨_, hin, _⟩ := parseForest_ok hf h
  have hm := (C35_furthest g root sched hf inp maxNodes maxSlots f h).1
  constructor
  · unfold Forest.parseError
    split_ifs with hv <;> simp [hv]
  · intro e he
    unfold Forest.parseError at he
    split_ifs at he
    have he := Option.some.inj he
    rw [hin] at he
    refine ⟨he.symm, ?_⟩
    have := (C34_position inp f.st.maxPos f.st.expected).2.1 ⟨by omega, by omega⟩
    rw [he] at this
    omega

example : (match parseForest fwd (bytes% "1+") Ex.expr (str% "expr") 0 0 with
    | .ok f => f.parseError.map fun e => (e.offset, e.line, e.col)
    | .error _ => none) = some (2, 1, 3) := by decide +kernel

end Props
end Verif
