import Verif.SlotsLemmas
import Verif.GLL
import Verif.TermLemmas

/-! # The slot grammar derives what the grammar derives -/

namespace Verif
open Spec

/-! ## Names and closure -/

theorem getRule_resolves {g : Grammar} {n : Str} {r : Rule} (h : getRule n g.rules = some r) :
    Resolves g n r := by
  unfold getRule at h
  rw [Option.or_eq_some_iff] at h
  rcases h with h | ⟨h0, h⟩
  · exact .user (List.mem_of_find?_eq_some h) ((equalFold_iff _ _).mp (by simpa using List.find?_some h))
  · refine .core (List.mem_of_find?_eq_some h) ((equalFold_iff _ _).mp (by simpa using List.find?_some h)) fun u hu hs => ?_
    have := List.find?_eq_none.mp h0 u hu
    exact this ((equalFold_iff _ _).mpr hs)

theorem find?_unique {n : Str} {rs : List Rule} (hd : rs.Pairwise fun a b => ¬ SameName a.name b.name)
    {r : Rule} (hr : r ∈ rs) (hn : SameName n r.name) : getRuleIn n rs = some r := by
  induction rs with
  | nil => simp at hr
  | cons a t ih =>
    unfold getRuleIn
    rw [List.find?_cons]
    rw [List.pairwise_cons] at hd
    rcases List.mem_cons.mp hr with rfl | hr
    · rw [(equalFold_iff _ _).mpr hn]
    · have : equalFold n a.name = false := by
        rw [Bool.eq_false_iff]
        intro he
        apply hd.1 r hr
        rw [sameName_iff] at hn ⊢
        rw [equalFold_iff, sameName_iff] at he
        rw [← he, hn]
      rw [this]
      exact ih hd.2 hr

theorem core_distinct : NamesDistinct ⟨Core.rules⟩ := by
  have : Core.rules.Pairwise fun a b => ¬ canon a.name = canon b.name := by decide
  exact this.imp fun h hs => h ((sameName_iff _ _).mp hs)

theorem resolves_getRule {g : Grammar} (hd : NamesDistinct g) {n : Str} {r : Rule}
    (h : Resolves g n r) : getRule n g.rules = some r := by
  unfold getRule
  cases h with
  | user hm hs => rw [find?_unique hd hm hs]; rfl
  | core hm hs hu =>
    have : getRuleIn n g.rules = none := by
      unfold getRuleIn
      rw [List.find?_eq_none]
      intro u hu' he
      exact hu u hu' ((equalFold_iff _ _).mp he)
    rw [this, find?_unique core_distinct hm hs]; rfl

mutual
theorem elemReps_closed : ∀ e : Elem, ∀ r ∈ elemReps e, ∀ p ∈ elemReps r.elem, p ∈ elemReps e
  | .group a, r, hr, p, hp => altReps_closed a r hr p hp
  | .option a, r, hr, p, hp => altReps_closed a r hr p hp
  | .rulename _, _, hr, _, _ => by simp [elemReps] at hr
  | .charVal _ _, _, hr, _, _ => by simp [elemReps] at hr
  | .numVal _ _ _, _, hr, _, _ => by simp [elemReps] at hr
  | .proseVal _, _, hr, _, _ => by simp [elemReps] at hr
theorem repReps_closed : ∀ q : Rep, ∀ r ∈ repReps q, ∀ p ∈ elemReps r.elem, p ∈ repReps q
  | ⟨mn, mx, e⟩, r, hr, p, hp => by
    rw [repReps] at hr ⊢
    rcases List.mem_cons.mp hr with rfl | hr
    · exact List.mem_cons_of_mem _ hp
    · exact List.mem_cons_of_mem _ (elemReps_closed e r hr p hp)
theorem concatReps_closed : ∀ c : List Rep, ∀ r ∈ concatReps c, ∀ p ∈ elemReps r.elem, p ∈ concatReps c
  | [], _, hr, _, _ => by simp [concatReps] at hr
  | q :: c, r, hr, p, hp => by
    rw [concatReps] at hr ⊢
    rcases List.mem_append.mp hr with hr | hr
    · exact List.mem_append_left _ (repReps_closed q r hr p hp)
    · exact List.mem_append_right _ (concatReps_closed c r hr p hp)
theorem altReps_closed : ∀ a : List (List Rep), ∀ r ∈ altReps a, ∀ p ∈ elemReps r.elem, p ∈ altReps a
  | [], _, hr, _, _ => by simp [altReps] at hr
  | c :: a, r, hr, p, hp => by
    rw [altReps] at hr ⊢
    rcases List.mem_append.mp hr with hr | hr
    · exact List.mem_append_left _ (concatReps_closed c r hr p hp)
    · exact List.mem_append_right _ (altReps_closed a r hr p hp)
end

theorem allReps_closed {g : Grammar} {r : Rep} (hr : r ∈ allReps g) {p : Rep} (hp : p ∈ elemReps r.elem) :
    p ∈ allReps g := by
  obtain ⟨q, hq, hr⟩ := List.mem_flatMap.mp hr
  exact List.mem_flatMap.mpr ⟨q, hq, altReps_closed _ r hr p hp⟩

theorem mem_concatReps {c : List Rep} {r : Rep} (h : r ∈ c) : r ∈ concatReps c := by
  induction c with
  | nil => simp at h
  | cons q c ih =>
    rw [concatReps]
    rcases List.mem_cons.mp h with rfl | h
    · obtain ⟨mn, mx, e⟩ := r
      rw [repReps]; simp
    · exact List.mem_append_right _ (ih h)

theorem mem_altReps {a : Alt} {c : Concat} {r : Rep} (hc : c ∈ a) (h : r ∈ c) : r ∈ altReps a := by
  induction a with
  | nil => simp at hc
  | cons q a ih =>
    rw [altReps]
    rcases List.mem_cons.mp hc with rfl | hc
    · exact List.mem_append_left _ (mem_concatReps h)
    · exact List.mem_append_right _ (ih hc)

theorem core_wf : NumValsWF ⟨Core.rules⟩ := numValsWF_of (by decide)

theorem allReps_wf {g : Grammar} (h : NumValsWF g) {r : Rep} (hr : r ∈ allReps g) : TermWF r.elem := by
  unfold allReps rulesReps at hr
  rw [List.flatMap_append] at hr
  rcases List.mem_append.mp hr with hr | hr
  · exact h r hr
  · exact core_wf r hr

/-! ## The nonterminal of an object -/

theorem Lowered.content {g : Grammar} {root : Str} {sg : SG} {ix : List (Str × Nat)}
    (h : Lowered g root sg ix) (hdp : DistinctPrint g) {o : Obj} (ho : Occ g root o) {id : Nat}
    (hl : ix.lookup o.key = some id) : Content g ix o (sg.nt id) := by
  have hlt : id < sg.nts.length := h.good.lookup_lt hl
  obtain ⟨o', nt, ho', hk, hnt, hc⟩ := h.filled id hlt
  have hnt' : sg.nt id = nt := by
    unfold SG.nt
    rw [List.getD_eq_getElem?_getD]
    show (sg.nts[id]?).getD _ = nt
    rw [show sg.nts[id]? = some nt from hnt]; rfl
  rw [hnt']
  have hk2 := h.good.index_get.mp hl
  rw [hk2] at hk
  have hkey : o.key = o'.key := by simpa using hk
  cases o <;> cases o' <;> simp only [Obj.key, ruleKey, repKey, grpKey, optKey] at hkey <;>
    first
    | (exfalso; simp at hkey; done)
    | skip
  · rename_i n m
    have hkey := List.append_cancel_left hkey
    have : getRule n g.rules = getRule m g.rules := by unfold getRule getRuleIn equalFold; rw [hkey]
    simp only [Content, this] at hc ⊢
    exact hc
  · rename_i r s
    have hkey := List.append_cancel_left hkey
    rw [(hdp r ho.1 s ho'.1).1 ho.2 ho'.2 hkey]
    exact hc
  · rename_i a b
    have hkey := List.append_cancel_left hkey
    obtain ⟨r, hr, hra⟩ := ho
    obtain ⟨s, hs, hsb⟩ := ho'
    rw [(hdp r hr s hs).2.1 a b hra hsb (by rw [hra, hsb]; exact hkey)]
    exact hc
  · rename_i a b
    have hkey := List.append_cancel_left hkey
    obtain ⟨r, hr, hra⟩ := ho
    obtain ⟨s, hs, hsb⟩ := ho'
    rw [(hdp r hr s hs).2.2 a b hra hsb (by rw [hra, hsb]; exact hkey)]
    exact hc

theorem childRC_nonrep {sg : SG} {c rc s : Nat} (h : (sg.nt s).isRep = false) : childRC sg c rc s = 0 := by
  simp [childRC, h]

theorem childRC_caller {sg : SG} {c rc s : Nat} (h : (sg.nt c).isRep = false) : childRC sg c rc s = 0 := by
  unfold childRC
  by_cases hs : s = c
  · subst hs; simp [h]
  · simp [hs]

theorem capRC_none {rc : Nat} {n : NT} (h : n.repMax = none) :
    capRC rc n = if rc + 1 > n.repMin then n.repMin else rc + 1 := by simp [capRC, h]

theorem capRC_some {rc m : Nat} {n : NT} (h : n.repMax = some m) : capRC rc n = rc + 1 := by simp [capRC, h]

/-- The symbol of an element occurs as the symbol of an object. -/
theorem content_nonrep {g : Grammar} {ix : List (Str × Nat)} {o : Obj} {nt : NT} (h : Content g ix o nt)
    (ho : ∀ r, o ≠ .rep r) : nt.isRep = false := by
  cases o with
  | rule n => exact h.1
  | rep r => exact absurd rfl (ho r)
  | grp a => exact h.2.1
  | opt a => exact h.2.1

/-! ## Soundness -/

section
variable {g : Grammar} {root : Str} {sg : SG} {ix : List (Str × Nat)} {inp : Bytes}

/-- The bounds of a repetition after `c` occurrences and `k` more. -/
def WithinBounds (r : Rep) (c k : Nat) : Prop := r.min ≤ c + k ∧ ∀ m, r.max = some m → c + k ≤ m

/-- What a derivation of an object's nonterminal means. -/
def Means (g : Grammar) (inp : Bytes) (o : Obj) (c i j : Nat) : Prop :=
  match o with
  | .rule n => ∃ w, At inp i j w ∧ Derives g (.rulename n) w
  | .grp a => ∃ w, At inp i j w ∧ Derives g (.group a) w
  | .opt a => ∃ w, At inp i j w ∧ Derives g (.option a) w
  | .rep r => (∀ m, r.max = some m → c ≤ m) →
      ∃ w k, At inp i j w ∧ DerivesTimes g r.elem k w ∧ WithinBounds r c k

/-- The sequence motive of the soundness induction. -/
def SeqMeans (P : Sym → Nat → Nat → Prop) : List Sym → Nat → Nat → Prop
  | [], i, j => i = j
  | s :: rest, i, j => ∃ m, P s i m ∧ SeqMeans P rest m j

/-- The symbol motive of the soundness induction. -/
def SymMeans (g : Grammar) (root : Str) (sg : SG) (ix : List (Str × Nat)) (inp : Bytes) (caller rc : Nat)
    (s : Sym) (i j : Nat) : Prop :=
  (s = .eps → i = j) ∧
  (∀ e, TermWF e → s = .term e → ∃ cs, Terminal e cs ∧ At inp i j (utf8 cs)) ∧
  (∀ o id, Occ g root o → s = .nt id → ix.lookup o.key = some id →
    Means g inp o (childRC sg caller rc id) i j)

theorem symMeans_elem {caller rc i j : Nat} {e : Elem} {s : Sym}
    (hwf : NumValsWF g) (hocc : ∃ r ∈ allReps g, r.elem = e)
    (hse : SymElem ix e s) (h : SymMeans g root sg ix inp caller rc s i j) :
    ∃ w, At inp i j w ∧ Derives g e w := by
  obtain ⟨_, h2, h3⟩ := h
  obtain ⟨r, hr, he⟩ := hocc
  cases e with
  | rulename n =>
    obtain ⟨id, hs, hl⟩ := hse
    exact h3 (.rule n) id (Or.inr ⟨r, hr, he⟩) hs hl
  | group a =>
    obtain ⟨id, hs, hl⟩ := hse
    exact h3 (.grp a) id ⟨r, hr, he⟩ hs hl
  | option a =>
    obtain ⟨id, hs, hl⟩ := hse
    exact h3 (.opt a) id ⟨r, hr, he⟩ hs hl
  | charVal | numVal | proseVal =>
    have hw := allReps_wf hwf hr
    rw [he] at hw
    obtain ⟨cs, ht, ha⟩ := h2 _ hw hse
    exact ⟨_, ha, .term _ _ ht⟩

theorem symMeans_rep {caller rc i j : Nat} {r : Rep} {s : Sym}
    (hwf : NumValsWF g) (hc : (sg.nt caller).isRep = false) (hr : r ∈ allReps g)
    (hsr : SymRep ix r s) (h : SymMeans g root sg ix inp caller rc s i j) :
    ∃ w, At inp i j w ∧ DerivesRep g r w := by
  obtain ⟨mn, mx, e⟩ := r
  unfold SymRep at hsr
  by_cases h1 : mn = 1 ∧ mx = some 1
  · rw [if_pos (by exact h1)] at hsr
    obtain ⟨w, ha, hd⟩ := symMeans_elem hwf ⟨_, hr, rfl⟩ hsr h
    refine ⟨w, ha, .mk _ _ _ 1 _ (by omega) ?_ ?_⟩
    · intro m hm; rw [h1.2] at hm; simp at hm; omega
    · have := DerivesTimes.succ e 0 w [] hd (.zero e)
      simpa using this
  · rw [if_neg (by exact h1)] at hsr
    obtain ⟨id, hs, hl⟩ := hsr
    have hm := h.2.2 (.rep ⟨mn, mx, e⟩) id ⟨hr, h1⟩ hs hl
    rw [childRC_caller hc] at hm
    obtain ⟨w, k, ha, hd, hb1, hb2⟩ := hm (fun _ _ => Nat.zero_le _)
    exact ⟨w, ha, .mk _ _ _ k _ (by simpa [Rep.min] using hb1) (fun m hm => by simpa using hb2 m hm) hd⟩

theorem seqMeans_concat {caller rc : Nat} (hwf : NumValsWF g) (hc : (sg.nt caller).isRep = false)
    {c : Concat} {raw : List Sym} (hf : List.Forall₂ (SymRep ix) c raw) :
    ∀ {i j : Nat}, (∀ r ∈ c, r ∈ allReps g) →
    SeqMeans (SymMeans g root sg ix inp caller rc) raw i j → ∃ w, At inp i j w ∧ DerivesConcat g c w := by
  induction hf with
  | nil => intro i j _ h; exact ⟨[], (at_nil _ _ _).mpr h.symm, .nil⟩
  | cons hr _ ih =>
    rintro i j hm ⟨m, h1, h2⟩
    obtain ⟨u, ha, hu⟩ := symMeans_rep hwf hc (hm _ (by simp)) hr h1
    obtain ⟨v, hb, hv⟩ := ih (fun r hr => hm r (List.mem_cons_of_mem _ hr)) h2
    refine ⟨u ++ v, ?_, .cons _ _ _ _ hu hv⟩
    rw [at_append]
    obtain ⟨ha1, ha2⟩ := ha
    exact ⟨⟨ha1, rfl⟩, ha2 ▸ hb⟩

theorem seqMeans_alt {caller rc i j : Nat} (hwf : NumValsWF g) (hc : (sg.nt caller).isRep = false)
    {a : Alt} {out : List (List Sym)} (hf : SymAlts ix a out) (hm : ∀ r ∈ altReps a, r ∈ allReps g)
    {p : List Sym} (hp : p ∈ out) (h : SeqMeans (SymMeans g root sg ix inp caller rc) p i j) :
    ∃ w, At inp i j w ∧ DerivesAlt g a w := by
  induction hf with
  | nil => simp at hp
  | @cons c q a out hcq _ ih =>
    rcases List.mem_cons.mp hp with rfl | hp
    · obtain ⟨raw, hraw, hp⟩ := hcq
      by_cases he : raw = []
      · rw [if_pos he] at hp
        subst he hp
        cases hraw
        obtain ⟨m, ⟨h1, _⟩, h2⟩ := h
        refine ⟨[], (at_nil _ _ _).mpr ?_, .mk _ [] _ (by simp) .nil⟩
        have := h1 rfl
        simp [SeqMeans] at h2
        omega
      · rw [if_neg he] at hp
        subst hp
        obtain ⟨w, ha, hw⟩ := seqMeans_concat hwf hc hraw
          (fun r hr => hm r (mem_altReps (List.mem_cons_self ..) hr)) h
        exact ⟨w, ha, .mk _ _ _ (by simp) hw⟩
    · obtain ⟨w, ha, hw⟩ := ih (fun r hr => hm r (by rw [altReps]; exact List.mem_append_right _ hr)) hp
      cases hw with
      | mk _ c' _ hc' hd => exact ⟨w, ha, .mk _ c' _ (List.mem_cons_of_mem _ hc') hd⟩

theorem prod_mem {sg : SG} {s alt c : Nat} (hr : (sg.nt s).isRep = false) (h : alt ∈ startAlts sg s c) :
    sg.prod ⟨s, alt, 0⟩ ∈ (sg.nt s).alts := by
  simp only [startAlts, hr] at h
  have hlt : alt < (sg.alts s).length := by simpa using h
  unfold SG.prod
  rw [List.getD_eq_getElem?_getD, List.getElem?_eq_getElem hlt]
  exact List.getElem_mem _

/-- Soundness of lowering. -/
theorem ntd_sound (hl : Lowered g root sg ix) (hdp : DistinctPrint g) (hwf : NumValsWF g)
    {s c i j : Nat} (h : NTD sg inp s c i j) {o : Obj} (ho : Occ g root o)
    (hk : ix.lookup o.key = some s) : Means g inp o c i j := by
  refine NTD.rec
    (motive_1 := fun s c i j _ => ∀ o, Occ g root o → ix.lookup o.key = some s → Means g inp o c i j)
    (motive_2 := fun c rc l i j _ => SeqMeans (SymMeans g root sg ix inp c rc) l i j)
    (motive_3 := fun c rc s i j _ => SymMeans g root sg ix inp c rc s i j) ?_ ?_ ?_ ?_ ?_ h o ho hk
  · intro s c i j alt ha _ ih o ho hk
    have hc := hl.content hdp ho hk
    cases o with
    | rule n =>
      have hp := prod_mem hc.1 ha
      obtain ⟨hnr, hc⟩ := hc
      split at hc
      · rw [hc] at hp; simp at hp
      · rename_i r hr
        obtain ⟨w, hat, hw⟩ := seqMeans_alt hwf hnr hc.2.2 (fun p hp => mem_allReps hr hp) hp ih
        exact ⟨w, hat, .rule _ r _ (getRule_resolves hr) hw⟩
    | grp a =>
      have hp := prod_mem hc.2.1 ha
      obtain ⟨r, hr, he⟩ := ho
      obtain ⟨w, hat, hw⟩ := seqMeans_alt hwf hc.2.1 hc.2.2
        (fun p hp => allReps_closed hr (by rw [he]; exact hp)) hp ih
      exact ⟨w, hat, .group _ _ hw⟩
    | opt a =>
      have hp := prod_mem hc.2.1 ha
      obtain ⟨r, hr, he⟩ := ho
      obtain ⟨_, hnr, out, hout, halts⟩ := hc
      rw [halts] at hp
      rcases List.mem_cons.mp hp with hp | hp
      · rw [hp] at ih
        obtain ⟨m, ⟨h1, _⟩, h2⟩ := ih
        have := h1 rfl
        simp [SeqMeans] at h2
        exact ⟨[], (at_nil _ _ _).mpr (by omega), .optNone _⟩
      · obtain ⟨w, hat, hw⟩ := seqMeans_alt hwf hnr hout
          (fun p hp => allReps_closed hr (by rw [he]; exact hp)) hp ih
        exact ⟨w, hat, .optSome _ _ hw⟩
    | rep r =>
      intro hcm
      rcases hc.2 with ⟨m, _, _, hnt⟩ | ⟨_, hrep, hmin, hmax, id, es, hid, hes, halts⟩
      · simp [startAlts, SG.alts, hnt] at ha
      · have hid' : id = s := by
          have := hk.symm.trans hid
          simpa using this.symm
        subst hid'
        simp only [startAlts, hrep, if_true, List.mem_append, hmin, hmax] at ha
        rcases ha with ha | ha
        · by_cases hge : c ≥ r.min
          · rw [if_pos hge] at ha
            simp at ha
            subst ha
            have : sg.prod ⟨id, 0, 0⟩ = [.eps] := by simp [SG.prod, SG.alts, halts]
            rw [this] at ih
            obtain ⟨m, ⟨h1, _⟩, h2⟩ := ih
            have := h1 rfl
            simp [SeqMeans] at h2
            exact ⟨[], 0, (at_nil _ _ _).mpr (by omega), .zero _, ⟨hge, hcm⟩⟩
          · rw [if_neg hge] at ha; simp at ha
        · have halt : alt = 1 := by
            revert ha; split <;> intro ha <;> simp at ha <;> omega
          have hcond : ∀ m, r.max = some m → c < m := by
            intro m hm
            rw [hm] at ha
            by_contra hlt
            simp [hlt] at ha
          subst halt
          have : sg.prod ⟨id, 1, 0⟩ = [es, .nt id] := by simp [SG.prod, SG.alts, halts]
          rw [this] at ih
          obtain ⟨m, hs1, m2, hs2, hm2⟩ := ih
          simp [SeqMeans] at hm2
          subst hm2
          obtain ⟨u, hau, hu⟩ := symMeans_elem hwf ⟨r, ho.1, rfl⟩ hes hs1
          have hm := hs2.2.2 (.rep r) id ho rfl hk
          have hch : childRC sg id c id = capRC c (sg.nt id) := by simp [childRC, hrep]
          rw [hch] at hm
          cases hmx : r.max with
          | none =>
            rw [hmx] at hmax
            rw [capRC_none hmax] at hm
            obtain ⟨v, k, hav, hv, hb, _⟩ := hm (by intro m hm; rw [hmx] at hm; simp at hm)
            refine ⟨u ++ v, k + 1, ?_, .succ _ _ _ _ hu hv, ?_, by rw [hmx]; simp⟩
            · rw [at_append]
              exact ⟨⟨hau.1, rfl⟩, hau.2 ▸ hav⟩
            · rw [hmin] at hb
              split_ifs at hb <;> omega
          | some M =>
            rw [hmx] at hmax
            rw [capRC_some hmax] at hm
            obtain ⟨v, k, hav, hv, hb1, hb2⟩ := hm (by
              intro m hm
              have := hcond m hm
              omega)
            refine ⟨u ++ v, k + 1, ?_, .succ _ _ _ _ hu hv, by omega, ?_⟩
            · rw [at_append]
              exact ⟨⟨hau.1, rfl⟩, hau.2 ▸ hav⟩
            · intro m hm'
              have := hb2 m hm'
              omega
  · intro c rc i; rfl
  · intro c rc s rest i j k _ _ h1 h2; exact ⟨j, h1, h2⟩
  · intro c rc s i j hm
    refine ⟨?_, ?_, ?_⟩
    · rintro rfl; simpa [matchSym] using hm
    · rintro e he rfl
      obtain ⟨cs, ht, hat⟩ := (matchElem_iff inp e he i j).mp hm
      exact ⟨cs, ht, by rwa [encodeAll_eq_utf8] at hat⟩
    · rintro o id _ rfl; simp [matchSym] at hm
  · intro c rc s i j _ ih
    refine ⟨nofun, nofun, ?_⟩
    rintro o id ho hs hk
    simp only [Sym.nt.injEq] at hs
    subst hs
    exact ih o ho hk

/-! ## Completeness -/

theorem seqD_eps {caller rc i : Nat} : SeqD sg inp caller rc [.eps] i i :=
  .cons _ _ _ _ _ i _ (.term _ _ _ _ _ rfl) (.nil _ _ _)

theorem ntd_of_prod {s c i j : Nat} {p : List Sym} (hr : (sg.nt s).isRep = false)
    (hp : p ∈ (sg.nt s).alts) (h : SeqD sg inp s c p i j) : NTD sg inp s c i j := by
  obtain ⟨n, hn, he⟩ := List.getElem_of_mem hp
  refine .mk _ _ _ _ n ?_ ?_
  · simp only [startAlts, hr, SG.alts]
    simpa using hn
  · have : sg.prod ⟨s, n, 0⟩ = p := by
      unfold SG.prod SG.alts
      rw [List.getD_eq_getElem?_getD, List.getElem?_eq_getElem hn, he]; rfl
    rw [this]; exact h

theorem forall₂_mem_left {α β : Type} {R : α → β → Prop} {l : List α} {m : List β}
    (h : List.Forall₂ R l m) {a : α} (ha : a ∈ l) : ∃ b ∈ m, R a b := by
  induction h with
  | nil => simp at ha
  | cons hr _ ih =>
    rcases List.mem_cons.mp ha with rfl | ha
    · exact ⟨_, by simp, hr⟩
    · obtain ⟨b, hb, hr⟩ := ih ha
      exact ⟨b, List.mem_cons_of_mem _ hb, hr⟩

/-- Completeness of lowering, by induction on derivations. -/
theorem derives_complete (hl : Lowered g root sg ix) (hdp : DistinctPrint g) (hwf : NumValsWF g)
    (hnd : NamesDistinct g) {e : Elem} {w : Bytes} (h : Derives g e w) :
    (∃ r ∈ allReps g, r.elem = e) ∨ e = .rulename root → ∀ (s : Sym) (caller rc i j : Nat), At inp i j w →
      SymElem ix e s → SymD sg inp caller rc s i j := by
  refine Derives.rec
    (motive_1 := fun e w _ => (∃ r ∈ allReps g, r.elem = e) ∨ e = .rulename root →
      ∀ (s : Sym) (caller rc i j : Nat), At inp i j w → SymElem ix e s → SymD sg inp caller rc s i j)
    (motive_2 := fun a w _ => (∀ r ∈ altReps a, r ∈ allReps g) → ∀ (out : List (List Sym)), SymAlts ix a out →
      ∀ (i j : Nat), At inp i j w →
      ∃ p ∈ out, ∀ caller rc, (sg.nt caller).isRep = false → SeqD sg inp caller rc p i j)
    (motive_3 := fun c w _ => (∀ r ∈ c, r ∈ allReps g) → ∀ (raw : List Sym),
      List.Forall₂ (SymRep ix) c raw → ∀ (i j : Nat), At inp i j w →
      ∀ caller rc, (sg.nt caller).isRep = false → SeqD sg inp caller rc raw i j)
    (motive_4 := fun r w _ => r ∈ allReps g → ∀ (s : Sym), SymRep ix r s → ∀ (i j : Nat), At inp i j w →
      ∀ caller rc, (sg.nt caller).isRep = false → SymD sg inp caller rc s i j)
    (motive_5 := fun e n w _ => (∃ r ∈ allReps g, r.elem = e) →
      (n = 1 → ∀ (s : Sym) (caller rc i j : Nat), At inp i j w → SymElem ix e s → SymD sg inp caller rc s i j) ∧
      (∀ r ∈ allReps g, r.elem = e → ¬ (r.min = 1 ∧ r.max = some 1) → ∀ id, ix.lookup (repKey r) = some id →
        ∀ c, WithinBounds r c n → ∀ i j, At inp i j w → NTD sg inp id c i j))
    ?_ ?_ ?_ ?_ ?_ ?_ ?_ ?_ ?_ ?_ ?_ h
  · intro n r w hres _ ih hocc s caller rc i j hat hs
    obtain ⟨id, rfl, hk⟩ := hs
    have hon : OccName g root n := by
      rcases hocc with ⟨r, hr, he⟩ | he
      · exact Or.inr ⟨r, hr, he⟩
      · exact Or.inl (by simpa using he)
    have hc := hl.content hdp (o := .rule n) hon hk
    obtain ⟨hnr, hc⟩ := hc
    have hg := resolves_getRule hnd hres
    rw [hg] at hc
    obtain ⟨p, hp, hseq⟩ := ih (fun p hp => mem_allReps hg hp) _ hc.2.2 i j hat
    refine .nt _ _ _ _ _ (ntd_of_prod hnr hp (hseq _ _ hnr))
  · intro a w _ ih hocc s caller rc i j hat hs
    obtain ⟨id, rfl, hk⟩ := hs
    obtain ⟨r, hr, he⟩ : ∃ r ∈ allReps g, r.elem = .group a := hocc.resolve_right nofun
    have hc := hl.content hdp (o := .grp a) ⟨r, hr, he⟩ hk
    obtain ⟨p, hp, hseq⟩ := ih (fun p hp => allReps_closed hr (by rw [he]; exact hp)) _ hc.2.2 i j hat
    exact .nt _ _ _ _ _ (ntd_of_prod hc.2.1 hp (hseq _ _ hc.2.1))
  · intro a hocc s caller rc i j hat hs
    obtain ⟨id, rfl, hk⟩ := hs
    obtain ⟨r, hr, he⟩ : ∃ r ∈ allReps g, r.elem = .option a := hocc.resolve_right nofun
    obtain ⟨_, hnr, out, hout, halts⟩ := hl.content hdp (o := .opt a) ⟨r, hr, he⟩ hk
    rw [at_nil] at hat
    subst hat
    exact .nt _ _ _ _ _ (ntd_of_prod hnr (by rw [halts]; simp) seqD_eps)
  · intro a w _ ih hocc s caller rc i j hat hs
    obtain ⟨id, rfl, hk⟩ := hs
    obtain ⟨r, hr, he⟩ : ∃ r ∈ allReps g, r.elem = .option a := hocc.resolve_right nofun
    obtain ⟨_, hnr, out, hout, halts⟩ := hl.content hdp (o := .opt a) ⟨r, hr, he⟩ hk
    obtain ⟨p, hp, hseq⟩ := ih (fun p hp => allReps_closed hr (by rw [he]; exact hp)) _ hout i j hat
    exact .nt _ _ _ _ _ (ntd_of_prod hnr (by rw [halts]; exact List.mem_cons_of_mem _ hp) (hseq _ _ hnr))
  · intro e cs ht hocc s caller rc i j hat hs
    have hse : s = .term e := by cases ht <;> exact hs
    have hr : ∃ r ∈ allReps g, r.elem = e := by
      rcases hocc with h | h
      · exact h
      · subst h; cases ht
    obtain ⟨r, hr, he⟩ := hr
    have hw := allReps_wf hwf hr
    rw [he] at hw
    subst hse
    refine .term _ _ _ _ _ ?_
    rw [← encodeAll_eq_utf8] at hat
    exact (matchElem_iff inp e hw i j).mpr ⟨cs, ht, hat⟩
  · intro a c w hc _ ih hall out hout i j hat
    obtain ⟨p, hp, raw, hraw, hpe⟩ := forall₂_mem_left hout hc
    refine ⟨p, hp, fun caller rc hnr => ?_⟩
    have hseq := ih (fun r hr => hall r (mem_altReps hc hr)) raw hraw i j hat caller rc hnr
    by_cases he : raw = []
    · rw [if_pos he] at hpe
      subst he hpe
      cases hseq
      exact seqD_eps
    · rw [if_neg he] at hpe
      subst hpe
      exact hseq
  · intro _ raw hraw i j hat caller rc hnr
    cases hraw
    rw [at_nil] at hat
    subst hat
    exact .nil _ _ _
  · intro r c u v _ _ ih1 ih2 hall raw hraw i j hat caller rc hnr
    cases hraw with
    | cons hr hrest =>
      rw [at_append] at hat
      exact .cons _ _ _ _ _ _ _ (ih1 (hall r (by simp)) _ hr _ _ hat.1 caller rc hnr)
        (ih2 (fun r hr => hall r (List.mem_cons_of_mem _ hr)) _ hrest _ _ hat.2 caller rc hnr)
  · intro mn mx e n w h1 h2 _ ih hr s hs i j hat caller rc hnr
    obtain ⟨ih1, ih2⟩ := ih ⟨_, hr, rfl⟩
    unfold SymRep at hs
    by_cases hone : mn = 1 ∧ mx = some 1
    · rw [if_pos (by exact hone)] at hs
      have hn : n = 1 := by
        have := h2 1 hone.2
        omega
      exact ih1 hn s caller rc i j hat hs
    · rw [if_neg (by exact hone)] at hs
      obtain ⟨id, rfl, hk⟩ := hs
      refine .nt _ _ _ _ _ ?_
      rw [childRC_caller hnr]
      exact ih2 _ hr rfl hone id hk 0 ⟨by simpa using h1, fun m hm => by simpa using h2 m hm⟩ i j hat
  · intro e _
    refine ⟨nofun, ?_⟩
    intro r hr he hone id hk c hb i j hat
    rw [at_nil] at hat
    subst hat
    obtain ⟨_, hc⟩ := hl.content hdp (o := .rep r) ⟨hr, hone⟩ hk
    rcases hc with ⟨m, hm, hlt, _⟩ | ⟨_, hrep, hmin, hmax, id', es, hid, hes, halts⟩
    · have := hb.1; have := hb.2 m hm; omega
    · refine .mk _ _ _ _ 0 ?_ ?_
      · simp only [startAlts, hrep, if_true, List.mem_append, hmin]
        left
        have := hb.1
        rw [if_pos (by omega)]; simp
      · have : sg.prod ⟨id, 0, 0⟩ = [.eps] := by simp [SG.prod, SG.alts, halts]
        rw [this]
        exact seqD_eps
  · intro e n u v _ _ ih1 ih2 hocc
    refine ⟨?_, ?_⟩
    · intro hn s caller rc i j hat hs
      have hn0 : n = 0 := by omega
      rename_i _ hv
      subst hn0
      cases hv
      simp at hat
      exact ih1 (Or.inl hocc) s caller rc i j hat hs
    · intro r hr he hone id hk c hb i j hat
      rw [at_append] at hat
      obtain ⟨_, hc⟩ := hl.content hdp (o := .rep r) ⟨hr, hone⟩ hk
      rcases hc with ⟨m, hm, hlt, _⟩ | ⟨_, hrep, hmin, hmax, id', es, hid, hes, halts⟩
      · have := hb.1; have := hb.2 m hm; omega
      · have hid' : id' = id := by
          have := hk.symm.trans hid
          simpa using this.symm
        subst hid'
        refine .mk _ _ _ _ 1 ?_ ?_
        · simp only [startAlts, hrep, if_true, List.mem_append, hmax]
          right
          cases hm : r.max with
          | none => simp
          | some m =>
            have := hb.2 m hm
            have : c < m := by omega
            simp [this]
        · have : sg.prod ⟨id', 1, 0⟩ = [es, .nt id'] := by simp [SG.prod, SG.alts, halts]
          rw [this]
          rw [he] at hes
          refine .cons _ _ _ _ _ _ _ (ih1 (Or.inl hocc) es id' c _ _ hat.1 hes) ?_
          refine .cons _ _ _ _ _ _ _ (.nt _ _ _ _ _ ?_) (.nil _ _ _)
          refine (ih2 hocc).2 r hr he hone id' hk _ ?_ _ _ hat.2
          have hch : childRC sg id' c id' = capRC c (sg.nt id') := by simp [childRC, hrep]
          rw [hch]
          unfold WithinBounds at hb ⊢
          cases hmx : r.max with
          | none =>
            rw [hmx] at hmax
            rw [capRC_none hmax, hmin]
            refine ⟨?_, by simp⟩
            split_ifs <;> omega
          | some M =>
            rw [hmx] at hmax
            rw [capRC_some hmax]
            have := hb.2 M hmx
            refine ⟨by omega, ?_⟩
            intro m hm
            simp at hm
            omega

/-- The slot grammar derives exactly what the root rule derives. -/
theorem lowered_language (hl : Lowered g root sg ix) (hdp : DistinctPrint g) (hwf : NumValsWF g)
    (hnd : NamesDistinct g) (i j : Nat) :
    NTD sg inp sg.start 0 i j ↔ ∃ w, At inp i j w ∧ DerivesRule g root w := by
  constructor
  · intro h
    exact ntd_sound hl hdp hwf h (o := .rule root) (Or.inl rfl) hl.start
  · rintro ⟨w, hat, hd⟩
    have := derives_complete hl hdp hwf hnd hd (Or.inr rfl) (.nt sg.start) 0 0 i j hat ⟨_, rfl, hl.start⟩
    have hnr := content_nonrep (hl.content hdp (o := .rule root) (Or.inl rfl) hl.start) nofun
    cases this with
    | term _ _ _ _ _ hm => simp [matchSym] at hm
    | nt _ _ _ _ _ hn => rwa [childRC_nonrep hnr] at hn

end

end Verif
