import Verif.Minimised.Lemmas
import Verif.Trim.Demo

/-! # C100: `lt-restrict -m` -/

namespace Verif.Minimised

open Verif.Fst Verif.Tools
open Verif.Compression (Dbl)

theorem keys_of {R : UString × Transducer Dbl → UString × Transducer Dbl → Prop} {us vs : List (UString × Transducer Dbl)} (h : List.Forall₂ R us vs)
    (hR : ∀ e e', R e e' → e'.1 = e.1) : vs.map (·.1) = us.map (·.1) := forall₂_keys h hR

/-- **C100** `lt-restrict` with `-m`, or with the variable `LT_RELEASE`, compared with what it writes otherwise. If no section has lost all its paths, the file
that is written has the same sections, and in each of them the same can be seen: pairs of symbols, weights of pairs and final weights, whatever the order of the
weights. If a section that has final states has lost all its paths, the program ends. What is missing: sections whose only final state has a weight
(`C29_minimize_false`), and results that are too large for the format. -/
theorem C100_minimised_partial [LinearOrder Dbl] (ch : Choice) {bs : List UInt8} {L : List UInt32} {a : Alphabet} {ts : List (UString × Transducer Dbl)}
    (hd : Dictionary bs L a ts) (hn : 2 * (a.spairinv.length + a.slexicinv.length) < 2 ^ 30) (hw : ∀ e ∈ ts, NoLoneWeight e.2)
    (option : Bool) (release : Option (List UInt8)) (hm : option = true ∨ ∃ s, release = some s ∧ s.head? ≠ some 0x6e) :
    ∃ bs', ltRestrict ch bs = .ok bs' ∧
      ((∃ k t, (k, t) ∈ ts ∧ t.finals ≠ [] ∧ ∀ ls fw, ¬ Says bs' k ls fw) → ltRestrictM option release ch bs = .exit) ∧
      ((∀ k t, (k, t) ∈ ts → t.finals ≠ [] → ∃ ls fw, Says bs' k ls fw) →
        ∃ a' vs, ltRestrictM option release ch bs = BinIO.writeSetL L a' vs ∧ ((∀ e ∈ vs, Small e.2) →
          ∃ bs'', ltRestrictM option release ch bs = .ok bs'' ∧ Dictionary bs'' L a' vs ∧ (∀ k, Has bs'' k ↔ Has bs' k) ∧
            ∀ k ws, Shows bs'' k ws ↔ Shows bs' k ws)) := by
  have hwant : wanted option release = true := by
    unfold wanted
    rcases hm with rfl | ⟨s, rfl, hs⟩
    · rfl
    · simp [hs]
  obtain ⟨a', us, g1, g2, g3, g4, g5⟩ := restrict_all ch hd.sane hd.parts
  obtain ⟨bs', j1, j2, j3, j4⟩ := rewritten (C := Result ch) hd g2 (fun X Y h => Result.congr ch h) (fun X h ls fw => by rintro ⟨ls', h1, -⟩; exact h _ _ h1) g5
    (by rw [g3]; exact hd.ntags) (by omega)
  obtain ⟨rest, hr⟩ := hd.stored
  have hfin := restrictAll_finals g1
  have hparts : ∀ e ∈ us, Part a' e.2 := j2.parts
  have hlone : ∀ e ∈ us, NoLoneWeight e.2 := by
    intro e he
    obtain ⟨x, hx, -, h2⟩ := forall₂_mem_right hfin he
    have := hw x hx
    unfold NoLoneWeight at this ⊢
    rw [h2]
    exact this
  have hmin : ∀ e ∈ us, minimize 0 e.2 ≠ .ub ∧ minimize 0 e.2 ≠ .exception := by
    intro e he
    rcases minimize_cases (hparts e he).wf (hlone e he) with ⟨-, -, h⟩ | ⟨-, v, h, -⟩ <;> rw [h] <;> simp
  have hall := restrictAll_min ch a a' ts us g1 hmin
  have hrun : ltRestrictM option release ch bs = minEach us >>= fun vs => BinIO.writeSetL L a' vs := by
    unfold ltRestrictM
    rw [if_pos hwant]
    simp only [hr, Res.bind_ok, hall]
    cases minEach us with
    | ok vs => rfl
    | exit => rfl
    | exception => rfl
    | ub => rfl
  have huniq : ∀ {k : UString} {t t' : Transducer Dbl}, (k, t) ∈ us → (k, t') ∈ us → t = t' := fun h1 h2 => by
    have e1 := mapFind_of_mem j2.sorted h1
    have e2 := mapFind_of_mem j2.sorted h2
    rw [e1] at e2; exact Option.some.inj e2
  refine ⟨bs', by simp only [ltRestrict, hr, Res.bind_ok, g1, j1], ?_, ?_⟩
  · rintro ⟨k, t, ht, hf, hno⟩
    obtain ⟨⟨k', u⟩, hu, h1, h2⟩ := forall₂_mem_left hfin ht
    obtain rfl : k' = k := h1
    rw [hrun, minEach_exit us (fun e he => (hparts e he).wf) hlone ⟨(k', u), hu, by simp only at h2; rw [h2]; exact hf, fun hl => ?_⟩]
    · rfl
    · obtain ⟨ls, fw, h⟩ := (no_lang g2 (hparts _ hu).coded).1 hl
      exact hno ls fw ((says_iff j2.stored _ _ _).2 ⟨u, hu, h⟩)
  · intro hyes
    obtain ⟨vs, m1, m2⟩ := minEach_ok us (fun e he => (hparts e he).wf) hlone fun e he => by
      by_cases hf : e.2.finals = []
      · exact .inl hf
      · obtain ⟨⟨k, t⟩, hx, h1, h2⟩ := forall₂_mem_right hfin he
        obtain ⟨ls, fw, h3⟩ := hyes k t hx (by simp only at h2; rw [← h2]; exact hf)
        obtain ⟨u, hu, h4⟩ := (says_iff j2.stored _ _ _).1 h3
        obtain ⟨k', u'⟩ := e
        obtain rfl : k' = k := h1
        obtain rfl := huniq he hu
        exact .inr ((no_lang g2 (hparts _ he).coded).2 ⟨ls, fw, h4⟩)
    have hrun' : ltRestrictM option release ch bs = BinIO.writeSetL L a' vs := by rw [hrun, m1, Res.bind_ok]
    refine ⟨a', vs, hrun', fun hsmall => ?_⟩
    have hk := keys_of m2 fun e e' h => h.1
    have hparts' : ∀ e ∈ vs, Part a' e.2 := by
      intro e he
      obtain ⟨x, hx, h1, h2, h3⟩ := forall₂_mem_right m2 he
      rcases h3 with h3 | ⟨h3, h4, h5, h6⟩
      · rw [h3]; exact hparts x hx
      · exact minimize_part g2 (hparts x hx) (hlone x hx) h4 h2 h3 h5 h6 (hsmall e he)
    obtain ⟨bs'', w1, w2⟩ := written (ts := vs) hd.letters g2 (sorted_keys_iff hk j2.sorted)
      (fun e he => by obtain ⟨x, hx, hr⟩ := forall₂_mem_right m2 he; rw [hr.1]; exact j2.names x hx) hparts' j2.ntags j2.npairs (by rw [← m2.length_eq]; exact j2.nsections)
    have hsame : ∀ u v : Transducer Dbl, Part a' u → Part a' v → (v = u ∨ (WF v ∧ u.finals ≠ [] ∧ Deterministic 0 v ∧ ∀ w, Lang 0 v w ↔ Lang 0 u w)) → ∀ ws,
        (∃ ls fw, SpellsNames a' v ls fw ∧ shown ls fw = ws) ↔ ∃ ls fw, SpellsNames a' u ls fw ∧ shown ls fw = ws := by
      rintro u v hu hv (rfl | ⟨-, -, -, h⟩) ws
      · rfl
      · rw [shown_lang g2 hu.coded, shown_lang g2 hv.coded]
        simp only [h]
    refine ⟨bs'', by rw [hrun', w1], w2, fun k => by rw [has_iff w2.stored, has_iff j2.stored, hk], fun k ws => ?_⟩
    unfold Shows
    constructor
    · rintro ⟨ls, fw, h1, h2⟩
      obtain ⟨v, hv, h3⟩ := (says_iff w2.stored _ _ _).1 h1
      obtain ⟨⟨k', u⟩, hu, e1, -, e2⟩ := forall₂_mem_right m2 hv
      obtain rfl : k = k' := e1
      obtain ⟨ls', fw', h4, h5⟩ := (hsame u v (hparts _ hu) (hparts' _ hv) e2 ws).1 ⟨ls, fw, h3, h2⟩
      exact ⟨ls', fw', (says_iff j2.stored _ _ _).2 ⟨u, hu, h4⟩, h5⟩
    · rintro ⟨ls, fw, h1, h2⟩
      obtain ⟨u, hu, h3⟩ := (says_iff j2.stored _ _ _).1 h1
      obtain ⟨⟨k', v⟩, hv, e1, -, e2⟩ := forall₂_mem_left m2 hu
      obtain rfl : k' = k := e1
      obtain ⟨ls', fw', h4, h5⟩ := (hsame u v (hparts _ hu) (hparts' _ hv) e2 ws).2 ⟨ls, fw, h3, h2⟩
      exact ⟨ls', fw', (says_iff w2.stored _ _ _).2 ⟨v, hv, h4⟩, h5⟩

/-- **C100** Without the option, and with the variable not set or beginning with `n`, nothing is minimised. -/
theorem C100_plain [LinearOrder Dbl] (ch : Choice) (bs : List UInt8) (release : Option (List UInt8)) (hr : ∀ s, release = some s → ∃ s', s = 0x6e :: s') :
    ltRestrictM false release ch bs = ltRestrict ch bs := by
  unfold ltRestrictM
  rw [if_neg]
  unfold wanted
  cases release with
  | none => simp
  | some s =>
    obtain ⟨s', rfl⟩ := hr s rfl
    simp

/-! ## An example -/

/-- `<r:RL>` -/
def tagRL : UString := "<r:RL>".toList.map fun c => c.toNat.toUInt16

/-- The alphabet of the example. -/
def exAlpha : Alphabet := (((Alphabet.empty.includeSymbol tagRL).pairCode 0x61 0x61).2.pairCode (-1) (-1)).2

theorem exAlpha_pairs : exAlpha.spairinv = [(0, 0), (0x61, 0x61), (-1, -1)] := by decide +kernel
theorem exAlpha_tags : exAlpha.slexicinv = [tagRL] := by decide +kernel

theorem exAlpha_sane : Sane exAlpha := by
  refine ⟨(Alphabet.pairCode_spec (Alphabet.pairCode_spec (Alphabet.includeSymbol_spec Alphabet.ok_empty _).1 _ _).1 _ _).1, fun s hs => ?_, fun p hp => ?_⟩
  · rw [exAlpha_tags] at hs
    rw [List.mem_singleton.1 hs]
    exact ⟨⟨[0x72, 0x3a, 0x52, 0x4c], by decide +kernel⟩, by decide +kernel⟩
  · have key : ∀ x, x = 0 ∨ x = -1 ∨ x = 0x61 → Symbol exAlpha x := by
      rintro x (rfl | rfl | rfl)
      · exact .inl (by omega)
      · exact .inr ⟨by omega, tagRL, by decide +kernel⟩
      · exact .inl (by omega)
    rw [exAlpha_pairs] at hp
    simp only [List.mem_cons, List.not_mem_nil, or_false] at hp
    rcases hp with rfl | rfl | rfl <;> exact ⟨key _ (by decide), key _ (by decide)⟩

/-- `a`. -/
def exBoth : Transducer Dbl := ⟨0, [(1, 0)], [(0, [(1, (1, 0))]), (1, [])]⟩

/-- `a` from right to left only. -/
def exRight : Transducer Dbl := ⟨0, [(2, 0)], [(0, [(2, (1, 0))]), (1, [(1, (2, 0))]), (2, [])]⟩

theorem exBoth_part : Part exAlpha exBoth :=
  Trim.part_of_check (by decide) (by decide +kernel) (by simp [arcsOf, exBoth]) (by simp [exBoth]) (by decide) (by decide)
theorem exRight_part : Part exAlpha exRight :=
  Trim.part_of_check (by decide) (by decide +kernel) (by simp [arcsOf, exRight]) (by simp [exRight]) (by decide) (by decide)

/-- The sections of the example: one for both directions, one with nothing from left to right. -/
def exSecs : List (UString × Transducer Dbl) := [([0x6d], exBoth), ([0x6e], exRight)]

theorem exFile : ∃ bs, Dictionary bs [0x61] exAlpha exSecs := by
  obtain ⟨bs, -, h⟩ := Tools.written (L := [0x61]) (a := exAlpha) (ts := exSecs) ⟨by decide, by decide, by decide⟩ exAlpha_sane (by simp [exSecs]; decide) (by decide)
    (by simpa [exSecs] using ⟨exBoth_part, exRight_part⟩) (by rw [exAlpha_tags]; decide) (by rw [exAlpha_pairs]; decide) (by decide)
  exact ⟨bs, h⟩

theorem exSecs_lone : ∀ e ∈ exSecs, NoLoneWeight e.2 := by
  intro e he p w h
  simp only [exSecs, List.mem_cons, List.not_mem_nil, or_false] at he
  rcases he with rfl | rfl
  · simp only [exBoth, List.cons.injEq, Prod.mk.injEq, and_true] at h; exact h.2.symm
  · simp only [exRight, List.cons.injEq, Prod.mk.injEq, and_true] at h; exact h.2.symm

/-- Every path of the second section begins with the mark. -/
theorem exRight_marked {ls : List ((Name × Name) × Dbl)} {fw : Dbl} (h : SpellsNames exAlpha exRight ls fw) : ∃ l ∈ ls, l.1 = (.tag tagRL, .tag tagRL) := by
  obtain ⟨p, h1, h2⟩ := h
  have hp : p = 2 := by
    have : p = 2 ∧ fw = 0 := by simpa [Final, exRight] using h2
    exact this.1
  have h1 : Path (NamedEdge exAlpha exRight) 0 ls p := h1
  cases h1 with
  | nil => cases hp
  | @cons _ r _ l ls he _ =>
    refine ⟨l, List.mem_cons_self, ?_⟩
    obtain ⟨x, y, ⟨c, h3, h4⟩, h5, h6⟩ := he
    rw [edge_iff_arcs (by decide)] at h4
    have hc : c = 2 := by
      have : c = 2 ∧ r = 1 ∧ l.2 = 0 := by simpa [arcsOf, exRight] using h4
      exact this.1
    subst hc
    have e : exAlpha.decode 2 = .ok (-1, -1) := by decide +kernel
    rw [e] at h3
    have h3 := Res.ok.inj h3
    simp only [Prod.mk.injEq] at h3
    obtain ⟨rfl, rfl⟩ := h3
    have ht : exAlpha.tagText (-1) = .ok tagRL := by decide +kernel
    have nm : ∀ {n : Name}, Named exAlpha (-1) n → n = .tag tagRL := by
      rintro n (⟨h0, -⟩ | ⟨-, s, h1, rfl⟩)
      · omega
      · rw [ht] at h1; cases h1; rfl
    exact Prod.ext (nm h5) (nm h6)

theorem exBoth_path : SpellsNames exAlpha exBoth [((.letter 0x61, .letter 0x61), 0)] 0 := by
  refine ⟨1, .cons ⟨0x61, 0x61, ⟨1, by decide +kernel, ?_⟩, .inl ⟨by omega, rfl⟩, .inl ⟨by omega, rfl⟩⟩ (.nil _), ?_⟩
  · rw [edge_iff_arcs (by decide)]; simp [arcsOf, exBoth]
  · simp [Final, exBoth]

theorem tagRL_marked : Marked preR tagRL := ⟨[0x52, 0x4c, 0x3e], by decide +kernel⟩

theorem tagRL_dropped : Dropped { dir := LR } tagRL := by
  refine ⟨?_, .inl tagRL_marked⟩
  rintro (h | ⟨s, hs, -⟩ | ⟨s, hs, -⟩ | ⟨s, hs, -⟩ | ⟨s, hs, -⟩)
  · revert h; decide +kernel
  all_goals cases hs

/-- **C100** does not hold if a section has entries for the other direction only: `lt-restrict lr` keeps the entry `a` of the other section, but `lt-restrict -m lr`
ends with an error and writes nothing. -/
theorem C100_empty_false : ∃ bs bs', ltRestrict { dir := LR } bs = .ok bs' ∧ Says bs' [0x6d] [((.letter 0x61, .letter 0x61), 0)] 0 ∧
    ∀ [LinearOrder Dbl], ltRestrictM true none { dir := LR } bs = .exit := by
  obtain ⟨bs, hd⟩ := exFile
  have hn : 2 * (exAlpha.spairinv.length + exAlpha.slexicinv.length) < 2 ^ 30 := by rw [exAlpha_pairs, exAlpha_tags]; decide
  obtain ⟨bs', a', ts', h1, -, -, -, h2⟩ := C81_restrict { dir := LR } hd hn
  refine ⟨bs, bs', h1, ?_, ?_⟩
  · refine (h2 _ _ _).2 ⟨[((.letter 0x61, .letter 0x61), 0)], (says_iff hd.stored _ _ _).2 ⟨exBoth, by simp [exSecs], exBoth_path⟩, ?_, ?_⟩
    · intro l hl s hs
      rw [List.mem_singleton.1 hl] at hs
      cases hs
    · rw [if_neg (by decide)]
      simp only [List.map_cons, List.map_nil, eraseMark]
      rw [if_neg]
      rintro ⟨t, ht, -⟩
      cases ht
  · intro _
    obtain ⟨bs2, g1, g2, -⟩ := C100_minimised_partial { dir := LR } hd hn exSecs_lone true none (.inl rfl)
    rw [h1] at g1
    cases g1
    refine g2 ⟨[0x6e], exRight, by simp [exSecs], by simp [exRight], fun ls fw h => ?_⟩
    obtain ⟨ls', h3, h4, -⟩ := (h2 _ _ _).1 h
    obtain ⟨t, ht, h5⟩ := (says_iff hd.stored _ _ _).1 h3
    have ht : t = exRight := by simpa [exSecs] using ht
    subst ht
    obtain ⟨l, hl, e⟩ := exRight_marked h5
    exact h4 l hl tagRL e tagRL_dropped

/-- The hypotheses of `C100_minimised_partial` for a result hold from right to left: both sections keep a path. -/
example : ∃ bs bs', Dictionary bs [0x61] exAlpha exSecs ∧ ltRestrict { dir := RL } bs = .ok bs' ∧
    ∀ k t, (k, t) ∈ exSecs → t.finals ≠ [] → ∃ ls fw, Says bs' k ls fw := by
  obtain ⟨bs, hd⟩ := exFile
  have hn : 2 * (exAlpha.spairinv.length + exAlpha.slexicinv.length) < 2 ^ 30 := by rw [exAlpha_pairs, exAlpha_tags]; decide
  obtain ⟨bs', a', ts', h1, -, -, -, h2⟩ := C81_restrict { dir := RL } hd hn
  refine ⟨bs, bs', hd, h1, fun k t ht _ => ?_⟩
  have nd : ¬ Dropped { dir := RL } tagRL := fun h => h.1 (.inl (by decide +kernel))
  have key : ∀ ls, SpellsNames exAlpha t ls 0 → (∀ l ∈ ls, ∀ s, l.1 = (.tag s, .tag s) → s = tagRL) → ∃ ls fw, Says bs' k ls fw := by
    intro ls h3 h4
    refine ⟨turn (ls.map (eraseMark { dir := RL })), 0, (h2 _ _ _).2 ⟨ls, (says_iff hd.stored _ _ _).2 ⟨t, ht, h3⟩, fun l hl s hs => ?_, ?_⟩⟩
    · rw [h4 l hl s hs]; exact nd
    · rw [if_pos rfl, turn_turn]
  simp only [exSecs, List.mem_cons, List.not_mem_nil, or_false, Prod.mk.injEq] at ht
  rcases ht with ⟨rfl, rfl⟩ | ⟨rfl, rfl⟩
  · exact key _ exBoth_path fun l hl s hs => by rw [List.mem_singleton.1 hl] at hs; cases hs
  · refine key [((.tag tagRL, .tag tagRL), 0), ((.letter 0x61, .letter 0x61), 0)] ⟨2, .cons (r := 1) ⟨-1, -1, ⟨2, by decide +kernel, ?_⟩, ?_, ?_⟩
      (.cons ⟨0x61, 0x61, ⟨1, by decide +kernel, ?_⟩, .inl ⟨by omega, rfl⟩, .inl ⟨by omega, rfl⟩⟩ (.nil _)), ?_⟩ fun l hl s hs => ?_
    · rw [edge_iff_arcs (by decide)]; simp [arcsOf, exRight]
    · exact .inr ⟨by omega, tagRL, by decide +kernel, rfl⟩
    · exact .inr ⟨by omega, tagRL, by decide +kernel, rfl⟩
    · rw [edge_iff_arcs (by decide)]; simp [arcsOf, exRight]
    · simp [Final, exRight]
    · simp only [List.mem_cons, List.not_mem_nil, or_false] at hl
      rcases hl with rfl | rfl
      · cases hs; rfl
      · cases hs

end Verif.Minimised
