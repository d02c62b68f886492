import Verif.PropsMiss

/-!
# C73: the variations `NearMiss` tries
-/

namespace Verif

open Spec

/-! ## The trace of a walk -/

/-- What does not depend on draws and counters, and is preserved by writing a reachable node, holds after a walk. -/
theorem walkLoop_inv {f : TgFrag} {G : FuzzGen} {σ : Type} {S : Source σ} {P : Bytes → List TraceSeg → Prop}
    (hP : ∀ n st, ReachedFrom G.heap f.ins n → P st.out st.trace →
      P (emitNode S (G.heap.elem n) st).out (emitNode S (G.heap.elem n) st).trace) (k : Nat) :
    ∀ n st st', (∀ m, n = some m → ReachedFrom G.heap f.ins m) → P st.out st.trace → walkLoop S G k n st = .ok st' →
      P st'.out st'.trace := by
  induction k with
  | zero => intro n st st' _ _ h; cases h
  | succ k ih =>
    intro n st st' hr h0 h
    cases n with
    | none => cases h; exact h0
    | some n =>
      have hn := hr n rfl
      have h1 := hP n st hn h0
      rw [walkLoop] at h
      simp only at h
      generalize emitNode S (G.heap.elem n) st = st1 at h h1
      have hgo : ∀ m src, m ∈ G.liveAll n → walkLoop S G k (some m) (st1.go n m src) = .ok st' → P st'.out st'.trace := by
        intro m src hm hw
        refine ih (some m) (st1.go n m src) st' ?_ h1 hw
        rintro m' e
        cases e
        obtain ⟨i, h5, h6⟩ := hn
        exact ⟨i, h5, h6.tail (mem_liveAll.mp hm).1⟩
      have hcap : ∀ m ∈ G.liveCapped st1.visits n, m ∈ G.liveAll n := fun m hm => (List.mem_filter.mp hm).1
      cases hl : G.liveAll n with
      | nil => rw [hl] at h; cases h; exact h1
      | cons best cands =>
        rw [hl] at h
        simp only at h
        split at h
        · split at h
          · cases h; exact h1
          · split at h
            · cases h; exact h1
            · split at h
              · cases h
              · rename_i m hm
                exact hgo m _ (hcap m (List.mem_of_getElem? hm)) h
        · split at h
          · refine hgo _ _ ?_ h
            rw [hl]
            exact (nearest_mem ..)
          · split at h
            · cases h
            · rename_i m hm
              exact hgo m _ (hcap m (List.mem_of_getElem? hm)) h

theorem fuzzWalk_inv {f : TgFrag} {G : FuzzGen} (hE : ∀ n ∈ G.entries, n ∈ f.ins) {σ : Type} {S : Source σ}
    {P : Bytes → List TraceSeg → Prop} (h0 : P [] [])
    (hP : ∀ n st, ReachedFrom G.heap f.ins n → P st.out st.trace →
      P (emitNode S (G.heap.elem n) st).out (emitNode S (G.heap.elem n) st).trace) (s : σ) {st : WalkSt σ}
    (h : fuzzWalk S G s = .ok st) : P st.out st.trace := by
  unfold fuzzWalk at h
  split at h
  · cases h; exact h0
  · simp only at h
    split at h
    · cases h
    · rename_i e he
      refine walkLoop_inv hP _ e _ _ ?_ h0 h
      rintro m rfl
      exact ⟨m, hE _ (List.mem_of_getElem? he), .refl⟩

/-- The segments follow one another from 0 to `n`, and none is empty. -/
inductive Tiled : List TraceSeg → Nat → Prop
  | nil : Tiled [] 0
  | snoc (t : List TraceSeg) (n len : Nat) (e : Elem) : Tiled t n → 0 < len → Tiled (t ++ [⟨n, len, e⟩]) (n + len)

/-- The trace of a walk divides what it wrote into what the nodes on its way wrote. -/
theorem fuzzWalk_trace {o : FuzzOpts} {f : TgFrag} {h : TgHeap} {G : FuzzGen} (H : FuzzOK o f h G) {σ : Type} {S : Source σ} (s : σ)
    {st : WalkSt σ} (hw : fuzzWalk S G s = .ok st) :
    Tiled st.trace st.out.length ∧ ∀ x ∈ st.trace, ∃ n, ReachedFrom h f.ins n ∧ x.elem = h.elem n := by
  have hE : ∀ n ∈ G.entries, n ∈ f.ins := fun n hn => by rw [H.entries] at hn; exact (List.mem_filter.mp hn).1
  refine fuzzWalk_inv (P := fun out trace => Tiled trace out.length ∧ ∀ x ∈ trace, ∃ n, ReachedFrom h f.ins n ∧ x.elem = h.elem n)
    hE ⟨.nil, nofun⟩ ?_ s hw
  rintro n st hn ⟨h1, h2⟩
  rw [H.heap] at hn ⊢
  unfold emitNode
  split
  · simp only
    generalize (nodeEmit (h.elem n) _).1 = b
    split_ifs with hb
    · rw [List.length_append]
      refine ⟨.snoc _ _ _ _ h1 hb, fun x hx => ?_⟩
      rcases List.mem_append.mp hx with hx | hx
      · exact h2 x hx
      · rw [List.mem_singleton.mp hx]
        exact ⟨n, hn, rfl⟩
    · rw [List.length_eq_zero_iff.mp (Nat.le_zero.mp (not_lt.mp hb)), List.append_nil]
      exact ⟨h1, h2⟩
  · exact ⟨h1, h2⟩

namespace Props

/-- The rune `n` as Go writes it: a surrogate becomes U+FFFD. -/
def Rune (n : Nat) (c : Char) : Prop := n ≤ 0x10FFFF ∧ (c.toNat = n ∨ 0xD800 ≤ n ∧ n ≤ 0xDFFF ∧ c.toNat = 0xFFFD)

/-- The variations of a text with the given trace, when byte `p` is to be replaced and byte `q` is to be deleted. -/
inductive Tried (base : Bytes) (trace : List TraceSeg) (p q : Nat) : Miss → Bytes → Prop
  | below (u x v : Bytes) (b s t : Str) (n : Nat) (c : Char) (hb : base = u ++ x ++ v)
      (hs : ⟨u.length, x.length, .numVal b .range [s, t]⟩ ∈ trace) (hn : Denotes b s (n + 1)) (hc : Rune n c) :
      Tried base trace p q (.range u.length false (.numVal b .range [s, t])) (u ++ utf8 [c] ++ v)
  | above (u x v : Bytes) (b s t : Str) (n : Nat) (c : Char) (hb : base = u ++ x ++ v)
      (hs : ⟨u.length, x.length, .numVal b .range [s, t]⟩ ∈ trace) (hn : Denotes b t n) (hc : Rune (n + 1) c) :
      Tried base trace p q (.range u.length true (.numVal b .range [s, t])) (u ++ utf8 [c] ++ v)
  | subst (u : Bytes) (b : UInt8) (v : Bytes) (nb : UInt8) (hb : base = u ++ b :: v) (hp : u.length = p) (hne : nb ≠ b)
      (hnb : nb = 0x00 ∨ nb = 0xFF ∨ nb = b ^^^ 0x20 ∨ nb = b + 1 ∨ nb = 0x21) :
      Tried base trace p q (.subst p nb) (u ++ nb :: v)
  | truncated (u v : Bytes) (hb : base = u ++ v) (hne : v ≠ [])
      (hl : v.length = 1 ∨ v.length = 2 ∨ v.length = base.length / 2 ∨ u.length = 1) :
      Tried base trace p q (.truncated v.length u.length) u
  | trailing (b : UInt8) (hb : b = 0x00 ∨ b = 0x21 ∨ b = 0xFF ∨ b = 0x41) : Tried base trace p q (.trailing b) (base ++ [b])
  | deleted (u : Bytes) (b : UInt8) (v : Bytes) (hb : base = u ++ b :: v) (hq : u.length = q) (hne : 2 ≤ base.length) :
      Tried base trace p q (.deleted q) (u ++ v)

theorem rune_iff {n : Nat} {c : Char} : Rune n c ↔ n ≤ 0x10FFFF ∧ c = runeChar n := by
  have hinj : ∀ d : Char, c.toNat = d.toNat → c = d := fun d h => by
    apply Char.ext
    exact UInt32.toNat_inj.mp h
  constructor
  · rintro ⟨h1, h2⟩
    refine ⟨h1, hinj _ ?_⟩
    rcases runeChar_cases h1 with h3 | ⟨h3, h4, h5⟩ <;> rcases h2 with h2 | ⟨h6, h7, h8⟩
    · omega
    · rw [runeChar, if_neg (fun hv => by rw [validRune_iff] at hv; omega)]
      rw [h8]; decide
    · exact absurd (char_valid c) (by omega)
    · omega
  · rintro ⟨h1, rfl⟩
    exact ⟨h1, runeChar_cases h1⟩

theorem splice_eq {base u x v : Bytes} (hb : base = u ++ x ++ v) (e : Elem) (n : Nat) :
    splice base ⟨u.length, x.length, e⟩ n = u ++ utf8 [runeChar n] ++ v := by
  rw [← encodeAll_eq_utf8]
  simp only [splice, encodeAll, List.flatMap_cons, List.flatMap_nil, List.append_nil]
  rw [hb, List.append_assoc u x v, List.take_left' rfl, ← List.drop_drop, List.drop_left' rfl, List.drop_left' rfl]

theorem mem_rangeMisses {base : Bytes} {s : TraceSeg} {b x y : Str} {lo hi : Nat} (he : s.elem = .numVal b .range [x, y])
    (hlo : Denotes b x lo) (hhi : Denotes b y hi) (c : Candidate) :
    c ∈ rangeMisses base s ↔
      (∃ n, n + 1 = lo ∧ n ≤ 0x10FFFF ∧ c = (splice base s n, .range s.off false s.elem)) ∨
      (hi + 1 ≤ 0x10FFFF ∧ c = (splice base s (hi + 1), .range s.off true s.elem)) := by
  unfold rangeMisses
  rw [he]
  simp only [List.getD_cons_zero, List.getD_cons_succ, numvalToRune_denotes hlo, numvalToRune_denotes hhi, List.mem_append]
  refine or_congr ?_ ?_
  · by_cases h : 1 ≤ lo ∧ lo - 1 ≤ 0x10FFFF
    · rw [if_pos (by unfold maxInt32 maxRune; omega), List.mem_singleton]
      have : min lo maxInt32 - 1 = lo - 1 := by unfold maxInt32; omega
      rw [this]
      exact ⟨fun h' => ⟨lo - 1, by omega, by omega, h'⟩, fun ⟨n, h1, _, h3⟩ => by rw [h3, show lo - 1 = n by omega]⟩
    · rw [if_neg (by unfold maxInt32 maxRune; omega)]
      exact ⟨nofun, fun ⟨n, h1, h2, _⟩ => absurd ⟨by omega, by omega⟩ h⟩
  · by_cases h : hi + 1 ≤ 0x10FFFF
    · have : min (min hi maxInt32) maxRune = hi := by unfold maxInt32 maxRune; omega
      rw [this, if_pos (by unfold maxRune; omega), List.mem_singleton]
      exact ⟨fun h' => ⟨h, h'⟩, fun h' => h'.2⟩
    · rw [if_neg (by unfold maxInt32 maxRune; omega)]
      exact ⟨nofun, fun h' => absurd h'.1 h⟩

theorem split_unique {base u v : Bytes} {b : UInt8} (hb : base = u ++ b :: v) :
    base[u.length]? = some b ∧ base.take u.length = u ∧ base.drop (u.length + 1) = v := by
  subst hb
  refine ⟨by simp, List.take_left' rfl, ?_⟩
  rw [← List.drop_drop, List.drop_left' rfl]
  rfl

/-- The candidates are the variations, in some rotation; the bytes to be replaced and deleted are drawn. -/
theorem candidates_exact {σ : Type} {S : Source σ} (hS : S.InRange) (src : σ) {base : Bytes} {trace : List TraceSeg}
    (ht : TraceOK base trace) (hwf : ∀ s ∈ trace, TermWF s.elem) :
    ∃ (p q : Nat) (src1 src2 src3 : σ) (cs : List Candidate) (k : Nat), (base ≠ [] → (p, src1) = S.intn src base.length) ∧ (base = [] → src1 = src) ∧
      (2 ≤ base.length → (q, src2) = S.intn src1 base.length) ∧ (¬ 2 ≤ base.length → src2 = src1) ∧
      (k, src3) = S.intn src2 cs.length ∧ k < cs.length ∧
      (∀ c : Candidate, c ∈ cs ↔ Tried base trace p q c.2 c.1) ∧
      nearMissCandidates S src base trace = .ok (cs.drop k ++ cs.take k) := by
  have hrange : ∀ c : Candidate, c ∈ trace.flatMap (rangeMisses base) ↔
      ((∃ (u x v : Bytes) (b s t : Str) (n : Nat) (r : Char), base = u ++ x ++ v ∧ ⟨u.length, x.length, .numVal b .range [s, t]⟩ ∈ trace ∧
        Denotes b s (n + 1) ∧ Rune n r ∧ c = (u ++ utf8 [r] ++ v, .range u.length false (.numVal b .range [s, t]))) ∨
      ∃ (u x v : Bytes) (b s t : Str) (n : Nat) (r : Char), base = u ++ x ++ v ∧ ⟨u.length, x.length, .numVal b .range [s, t]⟩ ∈ trace ∧
        Denotes b t n ∧ Rune (n + 1) r ∧ c = (u ++ utf8 [r] ++ v, .range u.length true (.numVal b .range [s, t]))) := by
    intro c
    constructor
    · intro hc
      obtain ⟨⟨off, len, e⟩, hs, hc⟩ := List.mem_flatMap.mp hc
      obtain ⟨h1, _⟩ := ht _ hs
      have hw := hwf _ hs
      simp only at h1 hw
      have hlen : (base.take off).length = off := by rw [List.length_take]; omega
      have hlen2 : ((base.drop off).take len).length = len := by rw [List.length_take, List.length_drop]; omega
      have hbase : base = base.take off ++ (base.drop off).take len ++ base.drop (off + len) := by
        rw [List.append_assoc, ← List.drop_drop, List.take_append_drop, List.take_append_drop]
      cases e with
      | numVal b st es =>
        cases st with
        | series => simp [rangeMisses] at hc
        | range =>
          obtain ⟨x, y, lo, hi, rfl, h2, h3⟩ := hw
          have hsp := fun n => splice_eq hbase (.numVal b .range [x, y]) n
          rw [hlen, hlen2] at hsp
          rcases (mem_rangeMisses rfl h2 h3 c).mp hc with ⟨n, rfl, h4, rfl⟩ | ⟨h4, rfl⟩
          · refine .inl ⟨_, _, _, b, x, y, n, runeChar n, hbase, ?_, h2, rune_iff.mpr ⟨h4, rfl⟩, ?_⟩
            · rw [hlen, hlen2]; exact hs
            · rw [hsp, hlen]
          · refine .inr ⟨_, _, _, b, x, y, hi, runeChar (hi + 1), hbase, ?_, h3, rune_iff.mpr ⟨h4, rfl⟩, ?_⟩
            · rw [hlen, hlen2]; exact hs
            · rw [hsp, hlen]
      | _ => simp [rangeMisses] at hc
    · rintro (⟨u, x, v, b, s, t, n, r, hb, hs, hn, hr, rfl⟩ | ⟨u, x, v, b, s, t, n, r, hb, hs, hn, hr, rfl⟩)
      all_goals
        obtain ⟨hr1, rfl⟩ := rune_iff.mp hr
        refine List.mem_flatMap.mpr ⟨_, hs, ?_⟩
        obtain ⟨s', t', lo, hi, e, h2, h3⟩ := hwf _ hs
        simp only [List.cons.injEq, and_true] at e
        obtain ⟨rfl, rfl⟩ := e
        refine (mem_rangeMisses rfl h2 h3 _).mpr ?_
      · exact .inl ⟨n, denotes_fun hn h2, hr1, by rw [splice_eq hb]⟩
      · cases denotes_fun hn h3
        exact .inr ⟨hr1, by rw [splice_eq hb]⟩
  have hsub : ∃ (p : Nat) (src1 : σ) (l : List Candidate), (base ≠ [] → (p, src1) = S.intn src base.length) ∧ (base = [] → src1 = src) ∧
      substMisses S src base = .ok (l, src1) ∧ ∀ c : Candidate, c ∈ l ↔ ∃ (u : Bytes) (b : UInt8) (v : Bytes) (nb : UInt8),
        base = u ++ b :: v ∧ u.length = p ∧ nb ≠ b ∧ (nb = 0x00 ∨ nb = 0xFF ∨ nb = b ^^^ 0x20 ∨ nb = b + 1 ∨ nb = 0x21) ∧
        c = (u ++ nb :: v, .subst p nb) := by
    unfold substMisses
    by_cases h0 : base = []
    · subst h0
      exact ⟨0, src, [], fun h => absurd rfl h, fun _ => rfl, rfl, fun c => ⟨nofun, fun ⟨u, b, v, nb, h, _⟩ => by
        have := congrArg List.length h; simp at this⟩⟩
    · have hpos : base.length > 0 := List.length_pos_of_ne_nil h0
      rw [if_pos hpos]
      have hr := hS src base.length hpos
      obtain ⟨b, hb⟩ : ∃ b, base[(S.intn src base.length).1]? = some b := ⟨_, List.getElem?_eq_getElem hr⟩
      obtain ⟨e1, e2⟩ := split_at hb
      simp only [hb]
      refine ⟨(S.intn src base.length).1, (S.intn src base.length).2, _, fun _ => rfl, fun h => absurd h h0, rfl, fun c => ?_⟩
      generalize (S.intn src base.length).1 = p at hb e1 e2 hr
      simp only [List.mem_map, List.mem_filter, decide_eq_true_eq, List.mem_cons, List.not_mem_nil, or_false]
      constructor
      · rintro ⟨nb, ⟨h1, h2⟩, rfl⟩
        refine ⟨_, b, _, nb, e1, e2, h2, h1, ?_⟩
        rw [List.set_eq_take_append_cons_drop, if_pos hr]
      · rintro ⟨u, b', v, nb, h1, h2, h3, h4, rfl⟩
        obtain ⟨h5, h6, h7⟩ := split_unique h1
        rw [h2] at h5 h6 h7
        rw [hb, Option.some.injEq] at h5
        subst h5
        refine ⟨nb, ⟨h4, h3⟩, ?_⟩
        rw [List.set_eq_take_append_cons_drop, if_pos hr, h6, h7]
  obtain ⟨p, src1, la, hp1, hp2, ha, hla⟩ := hsub
  have hdel : ∃ (q : Nat) (src2 : σ) (l : List Candidate), (2 ≤ base.length → (q, src2) = S.intn src1 base.length) ∧
      (¬ 2 ≤ base.length → src2 = src1) ∧ deleteMisses S src1 base = .ok (l, src2) ∧
      ∀ c : Candidate, c ∈ l ↔ ∃ (u : Bytes) (b : UInt8) (v : Bytes), base = u ++ b :: v ∧ u.length = q ∧ 2 ≤ base.length ∧
        c = (u ++ v, .deleted q) := by
    unfold deleteMisses
    by_cases h0 : base.length ≥ 2
    · rw [if_pos h0]
      have hr := hS src1 base.length (by omega)
      obtain ⟨b, hb⟩ : ∃ b, base[(S.intn src1 base.length).1]? = some b := ⟨_, List.getElem?_eq_getElem hr⟩
      obtain ⟨e1, e2⟩ := split_at hb
      simp only [if_pos hr]
      refine ⟨(S.intn src1 base.length).1, (S.intn src1 base.length).2, _, fun _ => rfl, fun h => absurd h0 h, rfl, fun c => ?_⟩
      generalize (S.intn src1 base.length).1 = q at hb e1 e2 hr
      rw [List.mem_singleton]
      constructor
      · rintro rfl
        exact ⟨_, b, _, e1, e2, h0, rfl⟩
      · rintro ⟨u, b', v, h1, h2, _, rfl⟩
        obtain ⟨_, h6, h7⟩ := split_unique h1
        rw [h2] at h6 h7
        rw [h6, h7]
    · rw [if_neg h0]
      exact ⟨0, src1, [], fun h => absurd h h0, fun _ => rfl, rfl, fun c => ⟨nofun, fun ⟨_, _, _, _, _, h, _⟩ => absurd h h0⟩⟩
  obtain ⟨q, src2, lb, hq1, hq2, hb, hlb⟩ := hdel
  have htr : ∀ c : Candidate, c ∈ truncMisses base ↔ ∃ u v : Bytes, base = u ++ v ∧ v ≠ [] ∧
      (v.length = 1 ∨ v.length = 2 ∨ v.length = base.length / 2 ∨ u.length = 1) ∧ c = (u, .truncated v.length u.length) := by
    intro c
    unfold truncMisses
    simp only [List.mem_map, List.mem_filter, decide_eq_true_eq, List.mem_cons, List.not_mem_nil, or_false]
    constructor
    · rintro ⟨n, ⟨h1, h2⟩, rfl⟩
      have hl1 : (base.take (base.length - n)).length = base.length - n := by rw [List.length_take]; omega
      have hl2 : (base.drop (base.length - n)).length = n := by rw [List.length_drop]; omega
      refine ⟨_, _, (List.take_append_drop (base.length - n) base).symm, fun h => ?_, ?_, by rw [hl1, hl2]⟩
      · rw [h] at hl2; simp at hl2; omega
      · rw [hl1, hl2]; omega
    · rintro ⟨u, v, h1, h2, h3, rfl⟩
      have hpos := List.length_pos_of_ne_nil h2
      have hl : base.length = u.length + v.length := by rw [h1, List.length_append]
      refine ⟨v.length, ⟨by omega, by omega⟩, ?_⟩
      rw [show base.length - v.length = u.length by omega, h1, List.take_left' rfl]
  have htl : ∀ c : Candidate, c ∈ trailMisses base ↔ ∃ b : UInt8, (b = 0x00 ∨ b = 0x21 ∨ b = 0xFF ∨ b = 0x41) ∧
      c = (base ++ [b], .trailing b) := by
    intro c
    unfold trailMisses
    simp only [List.mem_map, List.mem_cons, List.not_mem_nil, or_false]
    exact ⟨fun ⟨b, h1, h2⟩ => ⟨b, h1, h2.symm⟩, fun ⟨b, h1, h2⟩ => ⟨b, h1, h2.symm⟩⟩
  generalize hcs : trace.flatMap (rangeMisses base) ++ la ++ truncMisses base ++ trailMisses base ++ lb = cs
  have hlen : cs.length > 1 := by
    rw [← hcs]
    simp only [List.length_append, trailMisses, List.length_map, List.length_cons]
    omega
  have hk := hS src2 cs.length (by omega)
  refine ⟨p, q, src1, src2, (S.intn src2 cs.length).2, cs, (S.intn src2 cs.length).1, hp1, hp2, hq1, hq2, rfl, hk, fun c => ?_, ?_⟩
  · rw [← hcs]
    simp only [List.mem_append, hrange, hla, htr, htl, hlb]
    constructor
    · rintro (((((⟨u, x, v, b, s, t, n, r, h1, h2, h3, h4, rfl⟩ | ⟨u, x, v, b, s, t, n, r, h1, h2, h3, h4, rfl⟩) |
        ⟨u, b, v, nb, h1, h2, h3, h4, rfl⟩) | ⟨u, v, h1, h2, h3, rfl⟩) | ⟨b, h1, rfl⟩) | ⟨u, b, v, h1, h2, h3, rfl⟩)
      · exact .below u x v b s t n r h1 h2 h3 h4
      · exact .above u x v b s t n r h1 h2 h3 h4
      · exact .subst u b v nb h1 h2 h3 h4
      · exact .truncated u v h1 h2 h3
      · exact .trailing b h1
      · exact .deleted u b v h1 h2 h3
    · obtain ⟨w, m⟩ := c
      intro h
      change Tried base trace p q m w at h
      cases h with
      | below u x v b s t n r h1 h2 h3 h4 => exact .inl (.inl (.inl (.inl (.inl ⟨u, x, v, b, s, t, n, r, h1, h2, h3, h4, rfl⟩))))
      | above u x v b s t n r h1 h2 h3 h4 => exact .inl (.inl (.inl (.inl (.inr ⟨u, x, v, b, s, t, n, r, h1, h2, h3, h4, rfl⟩))))
      | subst u b v nb h1 h2 h3 h4 => exact .inl (.inl (.inl (.inr ⟨u, b, v, nb, h1, h2, h3, h4, rfl⟩)))
      | truncated u v h1 h2 h3 => exact .inl (.inl (.inr ⟨_, v, h1, h2, h3, rfl⟩))
      | trailing b h1 => exact .inl (.inr ⟨b, h1, rfl⟩)
      | deleted u b v h1 h2 h3 => exact .inr ⟨u, b, v, h1, h2, h3, rfl⟩
  · unfold nearMissCandidates
    rw [ha]
    simp only [Run.bnd, hb]
    rw [hcs, if_pos hlen, if_pos hk.le]

/-- The loop returns the first candidate that differs from the text and that is rejected. -/
theorem nearMissLoop_first {check : Nat → Bytes → Option (Run Bool)} {base : Bytes} (cs : List Candidate) : ∀ i r,
    nearMissLoop check base i cs = .ok (some r) →
      ∃ pre post, cs = pre ++ r :: post ∧ r.1 ≠ base ∧ check (i + pre.length) r.1 = some (.ok false) ∧
        ∀ (j : Nat) (c : Candidate), pre[j]? = some c → c.1 = base ∨ check (i + j) c.1 = none ∨ check (i + j) c.1 = some (.ok true) := by
  induction cs with
  | nil => intro i r h; cases h
  | cons c cs ih =>
    intro i r h
    have hskip : nearMissLoop check base (i + 1) cs = .ok (some r) →
        (c.1 = base ∨ check i c.1 = none ∨ check i c.1 = some (.ok true)) →
        ∃ pre post, c :: cs = pre ++ r :: post ∧ r.1 ≠ base ∧ check (i + pre.length) r.1 = some (.ok false) ∧
        ∀ (j : Nat) (c : Candidate), pre[j]? = some c → c.1 = base ∨ check (i + j) c.1 = none ∨ check (i + j) c.1 = some (.ok true) := by
      intro h1 h2
      obtain ⟨pre, post, e1, e2, e3, e4⟩ := ih (i + 1) r h1
      refine ⟨c :: pre, post, by rw [e1]; rfl, e2, ?_, ?_⟩
      · rw [List.length_cons, show i + (pre.length + 1) = i + 1 + pre.length by omega]
        exact e3
      · intro j x hx
        cases j with
        | zero => cases hx; exact h2
        | succ j =>
          have := e4 j x hx
          rwa [show i + 1 + j = i + (j + 1) by omega] at this
    rw [nearMissLoop] at h
    by_cases hb : c.1 = base
    · rw [if_pos hb] at h
      exact hskip h (.inl hb)
    · rw [if_neg hb] at h
      cases hk : check i c.1 with
      | none => rw [hk] at h; exact hskip h (.inr (.inl hk))
      | some x =>
        rw [hk] at h
        cases x with
        | ok v =>
          cases v with
          | true => exact hskip h (.inr (.inr hk))
          | false =>
            cases h
            exact ⟨[], cs, rfl, hb, hk, nofun⟩
        | panic => cases h
        | fuel => cases h

/-- C73.  The variations `NearMiss` tries are exactly those of `Tried`, with drawn positions, in a drawn rotation, and
what it returns is the first that is not the text and that `IsValid` rejects.  The trace divides the text into what the
nodes of the graph wrote. -/
theorem C73_tries (g : Grammar) (name : Str) (o : FuzzOpts) (f : TgFrag) (h : TgHeap) (hfin : GraphFin h f) (G : FuzzGen)
    (hG : newGenerator o f h = .ok (.ok G)) (hwf : ∀ n, ReachedFrom h f.ins n → TermWF (h.elem n))
    (os : Nat → LOrders) (scheds : Nat → Sched Nat) (tape : Bytes) :
    ∃ (st : WalkSt TapeSource) (p q : Nat) (src1 src2 src3 : TapeSource) (cs : List Candidate) (k : Nat),
      fuzzWalk tapeSource G ⟨tape, 0⟩ = .ok st ∧
      Tiled st.trace st.out.length ∧ (∀ x ∈ st.trace, ∃ n, ReachedFrom h f.ins n ∧ x.elem = h.elem n) ∧
      (st.out ≠ [] → (p, src1) = tapeSource.intn st.src st.out.length) ∧ (st.out = [] → src1 = st.src) ∧
      (2 ≤ st.out.length → (q, src2) = tapeSource.intn src1 st.out.length) ∧ (¬ 2 ≤ st.out.length → src2 = src1) ∧
      (k, src3) = tapeSource.intn src2 cs.length ∧ k < cs.length ∧
      (∀ c : Candidate, c ∈ cs ↔ Tried st.out st.trace p q c.2 c.1) ∧
      ∀ r, nearMiss os scheds g name G tape = .ok (some r) →
        ∃ pre post, cs.drop k ++ cs.take k = pre ++ r :: post ∧ r.1 ≠ st.out ∧
          isValid (os pre.length) (scheds pre.length) g name r.1 = some (.ok false) ∧
          ∀ (j : Nat) (c : Candidate), pre[j]? = some c → c.1 = st.out ∨ isValid (os j) (scheds j) g name c.1 = none ∨
            isValid (os j) (scheds j) g name c.1 = some (.ok true) := by
  have H := newGenerator_ok hfin hG
  have hw := fuzzWalk_sat H hfin C29_sources.1 (⟨tape, 0⟩ : TapeSource)
  cases hx : fuzzWalk tapeSource G ⟨tape, 0⟩ with
  | panic => rw [hx] at hw; exact hw.elim
  | fuel => rw [hx] at hw; exact hw.elim
  | ok st =>
    rw [hx] at hw
    obtain ⟨t1, t2⟩ := fuzzWalk_trace H _ hx
    obtain ⟨p, q, src1, src2, src3, cs, k, h1, h2, h3, h4, h5, h6, h7, h8⟩ := candidates_exact C29_sources.1 st.src hw.trace
      fun s hs => by obtain ⟨n, h1, h2⟩ := t2 s hs; rw [h2]; exact hwf n h1
    refine ⟨st, p, q, src1, src2, src3, cs, k, rfl, t1, t2, h1, h2, h3, h4, h5, h6, h7, fun r hr => ?_⟩
    unfold nearMiss at hr
    rw [hx] at hr
    simp only [Run.bnd, h8] at hr
    simpa only [Nat.zero_add] using nearMissLoop_first _ 0 r hr

/-- C73: `NearMissRand` is `NearMiss` for a tape of 64 bytes, those the generator gives. -/
theorem C73_rand (g : Grammar) (name : Str) (G : FuzzGen) (os : Nat → LOrders) (scheds : Nat → Sched Nat) (rnd : Nat → UInt8) :
    ∃ tape : Bytes, tape.length = 64 ∧ (∀ i < 64, tape[i]? = some (rnd i)) ∧
      nearMissRand os scheds g name G rnd = nearMiss os scheds g name G tape := by
  refine ⟨_, by rw [List.length_map, List.length_range], fun i hi => ?_, rfl⟩
  rw [List.getElem?_map, List.getElem?_range hi]
  rfl

theorem termWF_of_emittable {e : Elem} (h : Emittable e) : TermWF e := by
  cases e with
  | numVal b st es =>
    cases st with
    | range =>
      obtain ⟨s, t, lo, hi, h1, h2, h3, _⟩ := h
      exact ⟨s, t, lo, hi, h1, h2, h3⟩
    | series => exact fun s hs => by obtain ⟨c, hc⟩ := h s hs; exact ⟨_, hc⟩
  | _ => trivial

example : ∃ f h G, transitionGraph {} Core.rules dashes (plainOrder dashes) ['a'] = .ok (.ok (f, h)) ∧ GraphFin h f ∧
    newGenerator { maxSteps := 9 } f h = .ok (.ok G) ∧ ∀ n, ReachedFrom h f.ins n → TermWF (h.elem n) := by
  obtain ⟨f, h, G, e1, e2, e3, _, _, _, e5, e6⟩ := dashes_meets
  exact ⟨f, h, G, e1, e3, e2, fun n hn => termWF_of_emittable (emittable_of_rules (namesDistinct_of (by decide)) (textRule_of (by decide +kernel)) e1 n
    ((newGenerator_ok e3 e2).produces n hn))⟩

end Props
end Verif
