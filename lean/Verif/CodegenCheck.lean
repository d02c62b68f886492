import Verif.CodegenIds
import Verif.SlotsLang

/-!
# Does the emitted file compile?

The part of Go's static checks that a file emitted by `GenerateGoParser` (/repo/codegen.go) could fail: a variable
declared in a case of `process` must be used, a variable used must be declared, `u` and `i` must be used,
`unicode/utf8` must be imported exactly when it is used, and a series literal must exist.  The other checks depend
on the fixed text only, or on the package name, which the caller chooses.
-/

namespace Verif
namespace Cg

/-- The variables a case may declare; `some b` means declared, and `b` whether it was used. -/
structure Scope where
  v : Option Bool := none
  crc : Option Bool := none
  j : Option Bool := none
  /-- `rv, rs`. -/
  dec : Option Bool := none
  deriving DecidableEq

/-- `x := …`: an error when `x` is already declared in the same block. -/
def declare : Option Bool → Option (Option Bool)
  | none => some (some false)
  | some _ => none

/-- A use of `x`: an error when it is not declared. -/
def useVar : Option Bool → Option (Option Bool)
  | none => none
  | some _ => some (some true)

/-- The effect of a statement on the declared variables, `none` for a compile error (the templates of
/repo/codegen.go:146-292). -/
def Stmt.check (p : Prog) (sc : Scope) : Stmt → Option Scope
  | .pop | .ret | .recordEps _ | .goto _ | .needLen _ | .byteNe .. | .foldNe .. | .needOne => some sc
  | .create _ => (declare sc.v).map fun v => { sc with v := v }
  | .crcNext => (declare sc.crc).map fun c => { sc with crc := c }
  | .crcCap _ => (useVar sc.crc).map fun c => { sc with crc := c }
  | .addIfGe .. | .addIfLt .. | .addCrc _ =>
    (useVar sc.crc).bind fun c => (useVar sc.v).map fun v => { sc with crc := c, v := v }
  | .add0 _ => (useVar sc.v).map fun v => { sc with v := v }
  | .record _ | .setI | .runeNe .. => (useVar sc.j).map fun j => { sc with j := j }
  | .setJ _ | .startJ => (declare sc.j).map fun j => { sc with j := j }
  | .decode => (declare sc.dec).bind useVar |>.map fun d => { sc with dec := d }
  | .outside .. => (useVar sc.dec).map fun d => { sc with dec := d }
  | .setJRune => (useVar sc.dec).bind fun d => (declare sc.j).map fun j => { sc with dec := d, j := j }
  | .seriesNe k => if k < p.series.length then some sc else none
  | .setJSeries k => if k < p.series.length then (declare sc.j).map fun j => { sc with j := j } else none

/-- The effect of a list of statements. -/
def checkStmts (p : Prog) : List Stmt → Scope → Option Scope
  | [], sc => some sc
  | s :: rest, sc => (s.check p sc).bind (checkStmts p rest)

/-- Every declared variable is used. -/
def Scope.allUsed (sc : Scope) : Bool :=
  sc.v != some false && sc.crc != some false && sc.j != some false && sc.dec != some false

/-- The case compiles. -/
def caseOK (p : Prog) (body : List Stmt) : Bool :=
  match checkStmts p body {} with
  | none => false
  | some sc => sc.allUsed

/-- The statement refers to package `utf8`. -/
def Stmt.usesUTF8 : Stmt → Bool
  | .decode | .runeNe .. => true
  | _ => false

/-- The statement refers to `u`. -/
def Stmt.usesU : Stmt → Bool
  | .pop | .create _ | .record _ | .recordEps _ => true
  | _ => false

/-- The statement refers to `i` other than by assigning to it. -/
def Stmt.usesI : Stmt → Bool
  | .ret | .crcNext | .crcCap _ | .setI | .goto _ | .runeNe .. | .outside .. => false
  | _ => true

/-- The emitted file compiles. -/
def Prog.compiles (p : Prog) : Bool :=
  p.cases.all (caseOK p) && (p.importUTF8 == p.cases.any fun c => c.any Stmt.usesUTF8) &&
    (p.cases.any fun c => c.any Stmt.usesU) && p.cases.any fun c => c.any Stmt.usesI

/-! ## When a case compiles -/

theorem checkStmts_append (p : Prog) (a b : List Stmt) (sc : Scope) :
    checkStmts p (a ++ b) sc = (checkStmts p a sc).bind (checkStmts p b) := by
  induction a generalizing sc with
  | nil => rfl
  | cons s a ih =>
    simp only [List.cons_append, checkStmts]
    cases s.check p sc with
    | none => rfl
    | some sc' => exact ih sc'

/-- `emitMatch` sets `j`. -/
def matchable : Elem → Bool
  | .charVal .. => true
  | .numVal _ .range (_ :: _ :: _) => true
  | .numVal b .series es => (seriesBytes b es).isSome
  | _ => false

/-- The node `v` that `emitCall` creates is used. -/
def callUses (sg : SG) (self callee : Nat) : Bool :=
  let ci := sg.nt callee
  if ci.isRep then
    callee == self || ci.repMin == 0 || ci.repMax != some 0
  else !ci.alts.isEmpty

theorem check_emitBytes (p : Prog) (b : Bool) (vs : List Char) : ∀ (off : Nat) (sc : Scope),
    checkStmts p (emitBytes b off vs) sc = some sc := by
  induction vs with
  | nil => intros; rfl
  | cons c vs ih =>
    intro off sc
    simp only [emitBytes, checkStmts]
    split_ifs <;> simpa [Stmt.check] using ih _ _

theorem check_runes (p : Prog) (f : Char → Stmt) (hf : ∀ c, ∃ b r, f c = .runeNe b r) (vs : List Char) : ∀ (sc : Scope) (b : Bool),
    sc.j = some b → ∃ b', checkStmts p (vs.map f) sc = some { sc with j := some b' } := by
  induction vs with
  | nil => intro sc b h; exact ⟨b, by simp [checkStmts, ← h]⟩
  | cons c vs ih =>
    intro sc b h
    obtain ⟨b1, r, hc⟩ := hf c
    simp only [List.map_cons, checkStmts, hc, Stmt.check, h, useVar, Option.map_some, Option.bind_some]
    exact ih { sc with j := some true } true rfl

/-- A matcher that can match declares `j`, and `rv, rs` are used. -/
theorem check_match (p : Prog) {e : Elem} {ser : List Bytes} (h : matchable e = true) (hs : (emitMatch e ser).2 <+: p.series) :
    ∃ b d, d ≠ some false ∧ checkStmts p (emitMatch e ser).1 {} = some { j := some b, dec := d } := by
  cases e with
  | rulename n => cases h
  | group a => cases h
  | option a => cases h
  | proseVal vs => cases h
  | charVal s vs =>
    simp only [emitMatch, emitCharVal]
    by_cases hv : (vs.all fun r => decide (r.toNat ≤ 0x7f)) = true
    · rw [if_pos hv]
      refine ⟨false, none, by simp, ?_⟩
      rw [checkStmts, show Stmt.check p {} (.needLen vs.length) = some {} from rfl, Option.bind_some, checkStmts_append, check_emitBytes]
      rfl
    · rw [if_neg hv, checkStmts, show Stmt.check p {} .startJ = some { j := some false } from rfl, Option.bind_some]
      obtain ⟨b, hb⟩ := check_runes p (fun r => if s = true then Stmt.runeNe false r.toNat else Stmt.runeNe true (foldRune r.toNat))
        (by intro c; split_ifs <;> exact ⟨_, _, rfl⟩) vs { j := some false } false rfl
      exact ⟨b, none, by simp, hb⟩
  | numVal b st es =>
    cases st with
    | range =>
      rcases es with _ | ⟨lo, _ | ⟨hi, es⟩⟩
      · cases h
      · cases h
      · exact ⟨false, some true, by simp, rfl⟩
    | series =>
      simp only [matchable] at h
      simp only [emitMatch, emitSeries] at hs ⊢
      cases hb : seriesBytes b es with
      | none => rw [hb] at h; cases h
      | some bs =>
        rw [hb] at hs
        simp only [] at hs ⊢
        have hlt : (seriesVar bs ser).1 < p.series.length := by
          have h1 := (List.getElem?_eq_some_iff.mp (seriesVar_spec bs ser).2).1
          have h2 := hs.length_le
          omega
        refine ⟨false, none, by simp, ?_⟩
        simp only [checkStmts, Stmt.check, if_pos hlt, Option.bind_some, declare, Option.map_some]

/-- A matcher that cannot match is `return`. -/
theorem emitMatch_ret {e : Elem} {ser : List Bytes} (h : matchable e = false) : emitMatch e ser = ([.ret], ser) := by
  cases e with
  | rulename n => rfl
  | group a => rfl
  | option a => rfl
  | proseVal vs => rfl
  | charVal s vs => cases h
  | numVal b st es =>
    cases st with
    | range =>
      rcases es with _ | ⟨lo, _ | ⟨hi, es⟩⟩
      · rfl
      · rfl
      · cases h
    | series =>
      simp only [matchable] at h
      simp only [emitMatch, emitSeries]
      cases hb : seriesBytes b es with
      | none => rfl
      | some bs => rw [hb] at h; cases h

theorem check_adds (p : Prog) (ids : List Nat) : ∀ sc : Scope, sc.v = some true →
    checkStmts p (ids.map Stmt.add0) sc = some sc := by
  induction ids with
  | nil => intros; rfl
  | cons a ids ih =>
    intro sc h
    simp only [List.map_cons, checkStmts, Stmt.check, h, useVar, Option.map_some, Option.bind_some]
    rw [show ({ sc with v := some true } : Scope) = sc by rw [← h]]
    exact ih sc h

theorem caseOK_call (p : Prog) (sg : SG) (ids : List (List Nat)) (self callee retID : Nat) :
    caseOK p (emitCall sg ids self callee retID) = callUses sg self callee := by
  unfold emitCall callUses
  simp only []
  cases hr : (sg.nt callee).isRep with
  | true =>
    simp only [if_true]
    by_cases hc : callee = self
    · subst hc
      simp only [if_true, beq_self_eq_true, Bool.true_or]
      cases (sg.nt callee).repMax <;> rfl
    · rw [if_neg hc, beq_false_of_ne hc, Bool.false_or]
      by_cases h0 : (sg.nt callee).repMin = 0
      · rw [if_pos h0, h0]
        simp only [beq_self_eq_true, Bool.true_or]
        split_ifs <;> rfl
      · rw [if_neg h0, beq_false_of_ne h0, Bool.false_or]
        cases hm : (sg.nt callee).repMax with
        | none => rfl
        | some m =>
          cases m with
          | zero => rfl
          | succ m => simp [caseOK, checkStmts, Stmt.check, declare, useVar, Scope.allUsed]; rfl
  | false =>
    simp only [Bool.false_eq_true, if_false]
    rw [show (fun alt => Stmt.add0 (startID ids callee alt)) = Stmt.add0 ∘ startID ids callee from rfl, ← List.map_map]
    cases hl : (sg.nt callee).alts with
    | nil => rfl
    | cons a as =>
      rw [show (List.range (a :: as).length) = 0 :: (List.range as.length).map (· + 1) by rw [List.length_cons, List.range_succ_eq_map]]
      unfold caseOK
      simp only [List.map_cons, List.cons_append, checkStmts, Stmt.check, declare, Option.map_some, Option.bind_some, useVar]
      rw [checkStmts_append, check_adds _ _ _ rfl]
      rfl

theorem caseOK_terminal (p : Prog) {e : Elem} {next : Nat} {ser : List Bytes} (hs : (emitTerminal (.term e) next ser).2 <+: p.series) :
    caseOK p (emitTerminal (.term e) next ser).1 = matchable e := by
  simp only [emitTerminal] at hs ⊢
  unfold caseOK
  rw [checkStmts_append]
  cases hm : matchable e with
  | true =>
    obtain ⟨b, d, h1, h2⟩ := check_match p hm hs
    rw [h2]
    simp only [Option.bind_some, checkStmts, Stmt.check, useVar, Option.map_some, Scope.allUsed]
    cases d with
    | none => rfl
    | some d => cases d <;> simp_all
  | false =>
    rw [emitMatch_ret hm]
    rfl

/-! ## When the file compiles -/

/-- The code of the symbol compiles. -/
def SymOK (sg : SG) (self : Nat) : Sym → Prop
  | .eps => True
  | .term e => matchable e = true
  | .nt n => callUses sg self n = true

theorem case_cases {sg : SG} {root : Str} {body : List Stmt} (h : body ∈ (emit sg root).cases) :
    ∃ L ser, IsSlot sg L ∧
      body = (emitCase sg (assignSlots sg).1 (enc sg L) ⟨L.nt, L.alt, L.dot, (sg.prod L).length⟩ ser).1 ∧
      (emitCase sg (assignSlots sg).1 (enc sg L) ⟨L.nt, L.alt, L.dot, (sg.prod L).length⟩ ser).2 <+: (emit sg root).series := by
  obtain ⟨id, hid⟩ := List.getElem?_of_mem h
  have hlt := (List.getElem?_eq_some_iff.mp hid).1
  rw [cases_length] at hlt
  obtain ⟨h1, h2, h3⟩ := slots_onto (List.getElem?_eq_getElem hlt)
  generalize (assignSlots sg).2[id] = s at h1 h2 h3
  obtain ⟨ser, h4, h5⟩ := case_of (root := root) h1
  refine ⟨⟨s.nt, s.alt, s.dot⟩, ser, h1, ?_, h5⟩
  rw [← h3, hid] at h4
  rw [← h3]
  exact Option.some.inj h4

theorem caseOK_emitCase {sg : SG} {root : Str} {L : Slot} {ser : List Bytes} (hL : IsSlot sg L)
    (hs : (emitCase sg (assignSlots sg).1 (enc sg L) ⟨L.nt, L.alt, L.dot, (sg.prod L).length⟩ ser).2 <+: (emit sg root).series) :
    caseOK (emit sg root) (emitCase sg (assignSlots sg).1 (enc sg L) ⟨L.nt, L.alt, L.dot, (sg.prod L).length⟩ ser).1 = true ↔
      ∀ s, (sg.prod L)[L.dot]? = some s → SymOK sg L.nt s := by
  unfold emitCase at hs ⊢
  simp only [] at hs ⊢
  by_cases hd : L.dot = (sg.prod L).length
  · rw [if_pos hd]
    refine ⟨fun _ s hs => ?_, fun _ => rfl⟩
    rw [hd, List.getElem?_eq_none (Nat.le_refl _)] at hs
    cases hs
  · rw [if_neg hd] at hs ⊢
    have hlt : L.dot < (sg.prod L).length := Nat.lt_of_le_of_ne hL.2.2 hd
    have hget : ((sg.alts L.nt).getD L.alt []).getD L.dot .eps = (sg.prod L)[L.dot] := by
      rw [List.getD_eq_getElem?_getD]
      show ((sg.prod L)[L.dot]?).getD .eps = _
      rw [List.getElem?_eq_getElem hlt]; rfl
    rw [hget] at hs ⊢
    rw [List.getElem?_eq_getElem hlt]
    simp only [Option.some.injEq, forall_eq']
    cases hsym : (sg.prod L)[L.dot] with
    | eps => simp only [SymOK, iff_true]; rfl
    | nt n => simp only [SymOK]; rw [caseOK_call]
    | term e =>
      rw [hsym] at hs
      simp only [SymOK] at hs ⊢
      rw [caseOK_terminal _ hs]

/-- The matcher decodes runes (/repo/codegen.go:119-131). -/
def decodes : Elem → Bool
  | .numVal _ .range _ => true
  | .charVal _ vs => vs.any fun r => decide (r.toNat > 0x7f)
  | _ => false

theorem emitBytes_utf8 (b : Bool) (vs : List Char) : ∀ off, (emitBytes b off vs).any Stmt.usesUTF8 = false := by
  induction vs with
  | nil => intro; rfl
  | cons c vs ih =>
    intro off
    simp only [emitBytes, List.any_cons, ih]
    split_ifs <;> rfl

theorem emitMatch_utf8 {e : Elem} {ser : List Bytes} (h : matchable e = true) :
    (emitMatch e ser).1.any Stmt.usesUTF8 = decodes e := by
  cases e with
  | rulename n => cases h
  | group a => cases h
  | option a => cases h
  | proseVal vs => cases h
  | charVal s vs =>
    simp only [emitMatch, emitCharVal, decodes]
    by_cases hv : (vs.all fun r => decide (r.toNat ≤ 0x7f)) = true
    · rw [if_pos hv]
      simp only [List.any_cons, List.any_append, emitBytes_utf8, List.any_nil]
      symm
      show (vs.any fun r => decide (r.toNat > 0x7f)) = false
      rw [List.any_eq_false]
      intro c hc
      have := List.all_eq_true.mp hv c hc
      simp only [decide_eq_true_eq] at this ⊢
      omega
    · rw [if_neg hv]
      have hx : (vs.any fun r => decide (r.toNat > 0x7f)) = true := by
        rw [List.any_eq_true]
        rw [List.all_eq_true] at hv
        push Not at hv
        obtain ⟨c, hc, h1⟩ := hv
        refine ⟨c, hc, ?_⟩
        simp only [ne_eq, decide_eq_true_eq] at h1 ⊢
        omega
      rw [hx, List.any_eq_true]
      obtain ⟨c, hc, _⟩ := List.any_eq_true.mp hx
      exact ⟨_, List.mem_cons_of_mem _ (List.mem_map_of_mem hc), by split_ifs <;> rfl⟩
  | numVal b st es =>
    cases st with
    | range =>
      rcases es with _ | ⟨lo, _ | ⟨hi, es⟩⟩
      · cases h
      · cases h
      · rfl
    | series =>
      simp only [matchable] at h
      simp only [emitMatch, emitSeries]
      cases hb : seriesBytes b es with
      | none => rw [hb] at h; cases h
      | some bs => rfl

theorem emitCall_utf8 (sg : SG) (ids : List (List Nat)) (self callee retID : Nat) :
    (emitCall sg ids self callee retID).any Stmt.usesUTF8 = false := by
  unfold emitCall
  simp only [List.any_cons, List.any_append]
  cases (sg.nt callee).isRep with
  | true =>
    simp only [if_true]
    by_cases hc : callee = self
    · rw [if_pos hc]
      cases (sg.nt callee).repMax <;> rfl
    · rw [if_neg hc]
      split_ifs <;> rfl
  | false =>
    simp only [Bool.false_eq_true, if_false, List.any_map]
    have : ((List.range (sg.nt callee).alts.length).any (Stmt.usesUTF8 ∘ fun alt => Stmt.add0 (startID ids callee alt))) = false := by
      rw [List.any_eq_false]; intro x _; simp [Stmt.usesUTF8]
    rw [this]; rfl

/-- The symbol needs package `utf8`. -/
def symDecodes : Sym → Bool
  | .term e => decodes e
  | _ => false

theorem emitCase_utf8 {sg : SG} {L : Slot} {ser : List Bytes} {ids : List (List Nat)} {id : Nat} (hL : IsSlot sg L)
    (h : ∀ s, (sg.prod L)[L.dot]? = some s → SymOK sg L.nt s) :
    (emitCase sg ids id ⟨L.nt, L.alt, L.dot, (sg.prod L).length⟩ ser).1.any Stmt.usesUTF8 = true ↔
      ∃ s, (sg.prod L)[L.dot]? = some s ∧ symDecodes s = true := by
  unfold emitCase
  simp only []
  by_cases hd : L.dot = (sg.prod L).length
  · rw [if_pos hd]
    refine ⟨fun hc => (by cases hc), ?_⟩
    rintro ⟨s, hs, _⟩
    rw [hd, List.getElem?_eq_none (Nat.le_refl _)] at hs
    cases hs
  · rw [if_neg hd]
    have hlt : L.dot < (sg.prod L).length := Nat.lt_of_le_of_ne hL.2.2 hd
    have hget : ((sg.alts L.nt).getD L.alt []).getD L.dot .eps = (sg.prod L)[L.dot] := by
      rw [List.getD_eq_getElem?_getD]
      show ((sg.prod L)[L.dot]?).getD .eps = _
      rw [List.getElem?_eq_getElem hlt]; rfl
    rw [hget]
    rw [List.getElem?_eq_getElem hlt] at h ⊢
    simp only [Option.some.injEq, forall_eq', exists_eq_left'] at h ⊢
    cases hsym : (sg.prod L)[L.dot] with
    | eps => exact ⟨fun hc => (by cases hc), fun hc => (by cases hc)⟩
    | nt n =>
      simp only [emitCall_utf8, symDecodes]
    | term e =>
      rw [hsym] at h
      simp only [SymOK] at h
      simp only [emitTerminal, List.any_append, emitMatch_utf8 h, symDecodes]
      simp [Stmt.usesUTF8]

/-- A slot before each symbol of a production. -/
theorem slot_at {sg : SG} {n : NT} (hn : n ∈ sg.nts) {prod : List Sym} (hp : prod ∈ n.alts) :
    ∃ nt alt, nt < sg.nts.length ∧ alt < (sg.alts nt).length ∧ sg.prod ⟨nt, alt, 0⟩ = prod ∧ sg.nt nt = n := by
  obtain ⟨nt, h1⟩ := List.getElem?_of_mem hn
  obtain ⟨alt, h2⟩ := List.getElem?_of_mem hp
  have e : sg.nt nt = n := by rw [SG.nt, List.getD_eq_getElem?_getD, h1]; rfl
  refine ⟨nt, alt, (List.getElem?_eq_some_iff.mp h1).1, ?_, ?_, e⟩
  · rw [SG.alts, e]; exact (List.getElem?_eq_some_iff.mp h2).1
  · rw [SG.prod, SG.alts, e, List.getD_eq_getElem?_getD, h2]; rfl

theorem scanUTF8_iff (sg : SG) : scanUTF8 sg = true ↔
    ∃ L s, IsSlot sg L ∧ (sg.prod L)[L.dot]? = some s ∧ symDecodes s = true := by
  have key : scanUTF8 sg = sg.nts.any fun n => n.alts.any fun prod => prod.any symDecodes := by
    unfold scanUTF8
    congr 1; funext n; congr 1; funext p; congr 1; funext s
    cases s with
    | eps => rfl
    | nt n => rfl
    | term e =>
      cases e <;> first | rfl | skip
      rename_i b st es
      cases st <;> rfl
  rw [key]
  simp only [List.any_eq_true]
  constructor
  · rintro ⟨n, hn, prod, hp, s, hs, h⟩
    obtain ⟨nt, alt, h1, h2, h3, _⟩ := slot_at hn hp
    obtain ⟨dot, hd⟩ := List.getElem?_of_mem hs
    refine ⟨⟨nt, alt, dot⟩, s, ⟨h1, h2, ?_⟩, ?_, h⟩
    · show dot ≤ (sg.prod ⟨nt, alt, 0⟩).length
      rw [h3]; exact Nat.le_of_lt (List.getElem?_eq_some_iff.mp hd).1
    · show (sg.prod ⟨nt, alt, 0⟩)[dot]? = _
      rw [h3]; exact hd
  · rintro ⟨L, s, hL, hs, h⟩
    obtain ⟨x, prod, h1, h2, h3, h4⟩ := isSlot_parts hL
    rw [h3] at hs
    exact ⟨x, List.mem_of_getElem? h1, prod, List.mem_of_getElem? h2, s, List.mem_of_getElem? hs, h⟩

/-- The emitted file compiles exactly when the grammar has a production and the code of every symbol compiles. -/
theorem compiles_iff (sg : SG) (root : Str) : (emit sg root).compiles = true ↔
    (∃ n ∈ sg.nts, n.alts ≠ []) ∧ ∀ L s, IsSlot sg L → (sg.prod L)[L.dot]? = some s → SymOK sg L.nt s := by
  unfold Prog.compiles
  simp only [Bool.and_eq_true, List.all_eq_true, beq_iff_eq]
  constructor
  · rintro ⟨⟨⟨h1, _⟩, h3⟩, _⟩
    refine ⟨?_, fun L s hL hs => ?_⟩
    · obtain ⟨body, hb, _⟩ := List.any_eq_true.mp h3
      obtain ⟨L, _, hL, _⟩ := case_cases hb
      obtain ⟨x, prod, e1, e2, _⟩ := isSlot_parts hL
      exact ⟨x, List.mem_of_getElem? e1, List.ne_nil_of_mem (List.mem_of_getElem? e2)⟩
    · obtain ⟨ser, h4, h5⟩ := case_of (root := root) hL
      exact (caseOK_emitCase hL h5).mp (h1 _ (List.mem_of_getElem? h4)) s hs
  · rintro ⟨⟨n, hn, hne⟩, h⟩
    obtain ⟨prod, hp⟩ := List.exists_mem_of_ne_nil _ hne
    obtain ⟨nt, alt, h1, h2, h3, _⟩ := slot_at hn hp
    have hL : IsSlot sg ⟨nt, alt, (sg.prod ⟨nt, alt, 0⟩).length⟩ := ⟨h1, h2, Nat.le_refl _⟩
    obtain ⟨ser, h4, _⟩ := case_of (root := root) hL
    have hpop : (emitCase sg (assignSlots sg).1 (enc sg ⟨nt, alt, (sg.prod ⟨nt, alt, 0⟩).length⟩)
        ⟨nt, alt, (sg.prod ⟨nt, alt, 0⟩).length, (sg.prod ⟨nt, alt, 0⟩).length⟩ ser).1 = [.pop, .ret] := by
      unfold emitCase
      simp only [if_true]
    have hmem : [Stmt.pop, .ret] ∈ (emit sg root).cases := by
      have := List.mem_of_getElem? h4
      rw [← hpop]; exact this
    refine ⟨⟨⟨?_, ?_⟩, ?_⟩, ?_⟩
    · intro body hb
      obtain ⟨L, ser, hL, rfl, h5⟩ := case_cases hb
      exact (caseOK_emitCase hL h5).mpr fun s hs => h L s hL hs
    · rw [show (emit sg root).importUTF8 = scanUTF8 sg from rfl]
      apply Bool.eq_iff_iff.mpr
      rw [scanUTF8_iff, List.any_eq_true]
      constructor
      · rintro ⟨L, s, hL, hs, hd⟩
        obtain ⟨ser, h4, _⟩ := case_of (root := root) hL
        exact ⟨_, List.mem_of_getElem? h4, (emitCase_utf8 hL fun s hs => h L s hL hs).mpr ⟨s, hs, hd⟩⟩
      · rintro ⟨body, hb, hu⟩
        obtain ⟨L, ser, hL, rfl, _⟩ := case_cases hb
        obtain ⟨s, hs, hd⟩ := (emitCase_utf8 hL fun s hs => h L s hL hs).mp hu
        exact ⟨L, s, hL, hs, hd⟩
    · exact List.any_eq_true.mpr ⟨_, hmem, rfl⟩
    · exact List.any_eq_true.mpr ⟨_, hmem, rfl⟩

end Cg
end Verif
