import Verif.Labels.Lemmas
import Verif.Alphabet.Props
import Verif.Transducer.Check

/-! # Properties of operations on labels (C32-C35) -/

namespace Verif.Fst

open Verif.Alphabet

variable {W : Type}

/-! ## What the properties are stated with -/

/-- There is an arc from `q` to `p` whose label decodes to this pair of symbols, with this weight. -/
def PairEdge (a : Alphabet) (t : Transducer W) (q : Nat) (l : Pair × W) (p : Nat) : Prop :=
  ∃ c, a.decode c = .ok l.1 ∧ Edge t q (c, l.2) p

/-- An accepting path spells these pairs with these weights and ends in a state of final weight `fw`. -/
def Spells (a : Alphabet) (t : Transducer W) (ls : List (Pair × W)) (fw : W) : Prop :=
  ∃ p, Path (PairEdge a t) t.initial ls p ∧ Final t p fw

/-- The transducer relates the string `xs` to the string `ys` with weight `w`: some accepting path reads `xs` on
its left and `ys` on its right sides, ignoring the empty symbol, and its weights add up to `w`. -/
def Relates [AddMonoid W] (a : Alphabet) (t : Transducer W) (xs ys : List Int) (w : W) : Prop :=
  ∃ ls fw, Spells a t ls fw ∧ xs = (ls.map (·.1.1)).filter (· ≠ 0) ∧ ys = (ls.map (·.1.2)).filter (· ≠ 0) ∧
    w = (ls.map (·.2)).sum + fw

/-- All labels are codes of pairs of the alphabet. -/
def Coded (a : Alphabet) (t : Transducer W) : Prop := ∀ q l p, Edge t q l p → ∃ pr, a.decode l.1 = .ok pr

/-- An accepting path with these labels and final weight. -/
def Reads (t : Transducer W) (ls : List (Int × W)) (fw : W) : Prop :=
  ∃ p, Path (Edge t) t.initial ls p ∧ Final t p fw

theorem mem_row_of_mem {t : Transducer W} (h : WF t) {e : Nat × Row W} (he : e ∈ t.transitions) : row t e.1 = e.2 := by
  have := mapFind_of_mem h.sorted (k := e.1) (v := e.2) he
  simp [row, this]

theorem coded_rows {a : Alphabet} {t : Transducer W} (h : WF t) (hc : Coded a t) :
    ∀ e ∈ t.transitions, ∀ d ∈ e.2, ∃ p, HasPair a d.1 p := by
  intro e he d hd
  obtain ⟨pr, hp⟩ := hc e.1 (d.1, d.2.2) d.2.1 (by unfold Edge; rw [mem_row_of_mem h he]; exact hd)
  exact ⟨pr, decode_iff.1 hp⟩

/-! ## Concrete cases -/

/-- With the alphabet `exAlpha`: reads `a:a`, then any number of `a:<n>`, then `<v>:b`; weights 1, 2, 3, final 4. -/
def exLabels : Transducer Nat :=
  { initial := 0, finals := [(2, 4)],
    transitions := [(0, [(1, (1, 1))]), (1, [(2, (1, 2)), (3, (2, 3))]), (2, [])] }

theorem exLabels_wf : WF exLabels := wf_of_check (by decide)

theorem exLabels_coded : Coded exAlpha exLabels := by
  intro q l p h
  rw [edge_iff_arcs (by decide)] at h
  have : ∀ x ∈ arcsOf exLabels.transitions, ∃ pr, exAlpha.decode x.2.1 = .ok pr := by
    intro x hx
    have hx' : x = (0, 1, 1, 1) ∨ x = (1, 2, 1, 2) ∨ x = (1, 3, 2, 3) := by simpa [arcsOf, exLabels] using hx
    rcases hx' with rfl | rfl | rfl
    · exact ⟨(0x61, 0x61), by decide⟩
    · exact ⟨(0x61, -1), by decide⟩
    · exact ⟨(-2, 0x62), by decide⟩
  exact this _ h

theorem exLabels_spells : Spells exAlpha exLabels [((0x61, 0x61), 1), ((0x61, -1), 2), ((-2, 0x62), 3)] 4 := by
  refine ⟨2, .cons (r := 1) ⟨1, by decide, ?_⟩ (.cons (r := 1) ⟨2, by decide, ?_⟩ (.cons ⟨3, by decide, ?_⟩ (.nil _))), ?_⟩
  all_goals first | (rw [edge_iff_arcs (by decide)]; decide) | (unfold Final; decide)

/-! ## Inversion -/

/-- The transducer with other labels. -/
def relabel (f : Int → Int) (t : Transducer W) : Transducer W := { t with transitions := t.transitions.map fun e => (e.1, relabelRow f e.2) }

theorem invert_spec (a : Alphabet) (t : Transducer W) (ha' : Ok a) (ht : WF t) (hc : Coded a t) :
    ∃ a' t', invert a t = .ok (a', t') ∧ WF t' ∧ Coded a' t' ∧
      (∀ ls fw, Spells a' t' ls fw ↔ Spells a t (ls.map fun l => ((l.1.2, l.1.1), l.2)) fw) ∧
      (∀ c pr, a.decode c = .ok pr → a'.decode c = .ok pr) ∧ a'.slexicinv = a.slexicinv ∧
      invert a' t' = .ok (a', t) ∧ Ok a' ∧ Ext a a' ∧ (∃ f, t' = relabel f t) ∧
      ∀ p ∈ a'.spairinv, p ∈ a.spairinv ∨ (p.2, p.1) ∈ a.spairinv := by
  obtain ⟨b, m, k1, k2, k3, k4, k5, k6⟩ := invertRows_spec t.transitions a ha' (coded_rows ht hc)
  have hm := k6 b k2 (Ext.refl _)
  have hrel : RowsRel (fun r r' => r' = relabelRow (swapCode b) r) t.transitions m := by rw [hm]; exact RowsRel.map _ _
  have hpairs' := invertRows_pairs t.transitions a b m ha' (coded_rows ht hc) k1
  let t' : Transducer W := { t with transitions := m }
  have hrow : ∀ q, row t' q = relabelRow (swapCode b) (row t q) := fun q =>
    RowsRel.row (t := t) (t' := t') hrel rfl q
  have hpairs : ∀ e ∈ t.transitions, ∀ d ∈ e.2, ∃ p c', HasPair b d.1 p ∧ HasPair b c' (p.2, p.1) ∧
      swapCode b d.1 = c' ∧ swapCode b c' = d.1 := by
    intro e he d hd
    obtain ⟨p, hp⟩ := coded_rows ht hc e he d hd
    obtain ⟨c', hc'⟩ := k5 e he d hd
    rw [pairOf_eq hp] at hc'
    refine ⟨p, c', hp.mono k3, hc', ?_, ?_⟩
    · unfold swapCode; rw [pairOf_eq (hp.mono k3)]; exact codeOf_eq k2 hc'
    · unfold swapCode; rw [pairOf_eq hc']; exact codeOf_eq k2 (hp.mono k3)
  have hedges : ∀ q c w p, Edge t q (c, w) p → ∃ pr c', HasPair b c pr ∧ HasPair b c' (pr.2, pr.1) ∧
      swapCode b c = c' ∧ swapCode b c' = c := by
    intro q c w p he
    exact hpairs _ (row_mem ht (ht.source_lt he)) _ he
  have hE : ∀ q l p, Edge t' q l p ↔ ∃ c, Edge t q (c, l.2) p ∧ l.1 = swapCode b c := by
    intro q l p
    unfold Edge
    rw [hrow, mem_relabelRow]
    constructor
    · rintro ⟨e, he, h⟩
      simp only [Prod.mk.injEq] at h
      exact ⟨e.1, by rw [h.2]; exact he, h.1⟩
    · rintro ⟨c, he, h⟩
      exact ⟨_, he, by simp [h]⟩
  have hwf : WF t' := RowsRel.wf (t := t) hrel rfl rfl rfl ht (fun r r' h _ => by rw [h]; exact sorted_relabelRow _ _)
    (fun r r' h e he => by
      rw [h, mem_relabelRow] at he
      obtain ⟨d, hd, rfl⟩ := he
      exact ⟨d, hd, rfl⟩)
  have hcoded : Coded b t' := by
    intro q l p he
    obtain ⟨c, h1, h2⟩ := (hE q l p).1 he
    obtain ⟨pr, c', g1, g2, g3, _⟩ := hedges q c l.2 p h1
    rw [h2, g3]; exact ⟨_, decode_iff.2 g2⟩
  have hPE : ∀ q l p, PairEdge b t' q l p ↔ ∃ l', PairEdge a t q l' p ∧ l = ((l'.1.2, l'.1.1), l'.2) := by
    intro q l p
    constructor
    · rintro ⟨c, h1, h2⟩
      obtain ⟨d, h3, h4⟩ := (hE _ _ _).1 h2
      obtain ⟨pr, c', g1, g2, g3, _⟩ := hedges q d l.2 p h3
      obtain ⟨pr', hpr'⟩ := hc _ _ _ h3
      obtain rfl := (decode_iff.1 hpr' |>.mono k3).pair_unique g1
      refine ⟨(pr', l.2), ⟨d, hpr', h3⟩, ?_⟩
      have h5 := decode_iff.1 h1
      simp only at h4
      rw [h4, g3] at h5
      exact Prod.ext (h5.pair_unique g2) rfl
    · rintro ⟨l', ⟨c, h1, h2⟩, rfl⟩
      obtain ⟨pr, c', g1, g2, g3, _⟩ := hedges q c l'.2 p h2
      obtain rfl := (decode_iff.1 h1 |>.mono k3).pair_unique g1
      exact ⟨c', decode_iff.2 g2, (hE _ _ _).2 ⟨c, h2, g3.symm⟩⟩
  have hS : ∀ ls fw, Spells b t' ls fw ↔ Spells a t (ls.map fun l => ((l.1.2, l.1.1), l.2)) fw := by
    intro ls fw
    unfold Spells
    refine exists_congr fun p => and_congr ?_ Iff.rfl
    rw [Path.rel hPE]
    simp only [forall₂_eq_map]
    constructor
    · rintro ⟨ls', h, rfl⟩
      simpa [Function.comp_def] using h
    · intro h
      exact ⟨_, h, by simp [Function.comp_def]⟩
  refine ⟨b, t', by simp only [invert, k1, Res.bind_ok, Res.pure_eq]; rfl, hwf, hcoded, hS,
    fun c pr h => decode_iff.2 ((decode_iff.1 h).mono k3), k4, ?_, k2, k3, ⟨swapCode b, ?_⟩, hpairs'⟩
  · -- the second inversion
    obtain ⟨b2, m2, j1, j2, j3, _, _, j6⟩ := invertRows_spec m b k2 (coded_rows (t := t') hwf hcoded)
    have hb2 : b2 = b := by
      have key : ∀ (r : Row W) (acc : Row W), (∀ e ∈ r, ∃ p c', HasPair b e.1 p ∧ HasPair b c' (p.2, p.1)) →
          ∃ r', invertRow r b acc = .ok (b, r') := by
        intro r
        induction r with
        | nil => intro acc _; exact ⟨acc, rfl⟩
        | cons e r ih =>
          intro acc h
          obtain ⟨p, c', h1, h2⟩ := h e List.mem_cons_self
          have hf := (hasPair_find k2).2 h2
          simp only [invertRow, decode_iff.2 h1, Res.bind_ok, pairCode, hf]
          exact ih _ (fun d hd => h d (List.mem_cons_of_mem _ hd))
      have key2 : ∀ mm : List (Nat × Row W), (∀ x ∈ mm, ∀ e ∈ x.2, ∃ p c', HasPair b e.1 p ∧ HasPair b c' (p.2, p.1)) →
          ∃ mm', invertRows mm b = .ok (b, mm') := by
        intro mm
        induction mm with
        | nil => intro _; exact ⟨[], rfl⟩
        | cons x mm ih =>
          intro h
          obtain ⟨r', hr'⟩ := key x.2 [] (h x List.mem_cons_self)
          obtain ⟨mm', hm'⟩ := ih (fun y hy => h y (List.mem_cons_of_mem _ hy))
          exact ⟨(x.1, r') :: mm', by simp only [invertRows, hr', hm', Res.bind_ok, Res.pure_eq]⟩
      obtain ⟨mm', hmm'⟩ := key2 m (by
        intro x hx e he
        rw [hm] at hx
        obtain ⟨y, hy, rfl⟩ := List.mem_map.1 hx
        obtain ⟨d, hd, rfl⟩ := (mem_relabelRow _ _ _).1 he
        obtain ⟨p, c', g1, g2, g3, g4⟩ := hpairs y hy d hd
        exact ⟨(p.2, p.1), d.1, by simpa [g3] using g2, g1⟩)
      rw [hmm'] at j1
      exact (congrArg Prod.fst (Res.ok.inj j1)).symm
    subst hb2
    have hm2 := j6 b2 k2 (Ext.refl _)
    have : m2 = t.transitions := by
      rw [hm2, hm, List.map_map]
      conv_rhs => rw [← List.map_id t.transitions]
      refine List.map_congr_left fun e he => ?_
      simp only [Function.comp, id]
      rw [relabelRow_relabelRow _ _ (ht.rows e he)]
      intro d hd
      obtain ⟨p, c', _, _, g3, g4⟩ := hpairs e he d hd
      rw [g3, g4]
    show invert b2 t' = _
    simp only [invert, t', j1, this, Res.bind_ok, Res.pure_eq]
  · show (⟨t.initial, t.finals, m⟩ : Transducer W) = _
    rw [hm]; rfl

/-- **C32** Inverting a transducer whose labels are codes of the alphabet succeeds. The paths of the result spell
exactly the pairs of the old paths with the sides swapped, so it relates `ys` to `xs` exactly when the old one
related `xs` to `ys`, with the same weight. Codes of the alphabet stay valid, the names of tags are the same, and
inverting a second time gives the original transducer, transition for transition, without touching the alphabet
again. -/
theorem C32_invert [AddMonoid W] (a : Alphabet) (t : Transducer W) (ha : Reachable a) (ht : WF t) (hc : Coded a t) :
    ∃ a' t', invert a t = .ok (a', t') ∧ WF t' ∧ Coded a' t' ∧
      (∀ ls fw, Spells a' t' ls fw ↔ Spells a t (ls.map fun l => ((l.1.2, l.1.1), l.2)) fw) ∧
      (∀ xs ys w, Relates a' t' ys xs w ↔ Relates a t xs ys w) ∧
      (∀ c pr, a.decode c = .ok pr → a'.decode c = .ok pr) ∧ a'.slexicinv = a.slexicinv ∧
      invert a' t' = .ok (a', t) := by
  obtain ⟨a', t', h1, h2, h3, hS, h6, h7, h8, _⟩ := invert_spec a t ha.ok ht hc
  refine ⟨a', t', h1, h2, h3, hS, ?_, h6, h7, h8⟩
  intro xs ys w
  constructor
  · rintro ⟨ls, fw, h, h1, h2, h3⟩
    exact ⟨_, fw, (hS _ _).1 h, by rw [h2]; simp [Function.comp_def], by rw [h1]; simp [Function.comp_def],
      by rw [h3]; simp [Function.comp_def]⟩
  · rintro ⟨ls, fw, h, h1, h2, h3⟩
    refine ⟨ls.map fun l => ((l.1.2, l.1.1), l.2), fw, (hS _ _).2 (by simpa [Function.comp_def] using h),
      by rw [h2]; simp [Function.comp_def], by rw [h1]; simp [Function.comp_def], by rw [h3]; simp [Function.comp_def]⟩

example : Reachable exAlpha ∧ WF exLabels ∧ Coded exAlpha exLabels ∧
    Spells exAlpha exLabels [((0x61, 0x61), 1), ((0x61, -1), 2), ((-2, 0x62), 3)] 4 :=
  ⟨exAlpha_reachable, exLabels_wf, exLabels_coded, exLabels_spells⟩

/-! ## Deleting and epsilonising -/

/-- **C33** `deleteSymbols` keeps exactly the accepting paths none of whose arcs carries one of the symbols. -/
theorem C33_deleteSymbols (syms : List Int) (t : Transducer W) (ht : WF t) :
    WF (deleteSymbols syms t) ∧
    ∀ ls fw, Reads (deleteSymbols syms t) ls fw ↔ Reads t ls fw ∧ ∀ l ∈ ls, l.1 ∉ syms := by
  have hrel : RowsRel (fun r r' => r' = r.filter (fun a => a.1 ∉ syms)) t.transitions (deleteSymbols syms t).transitions := by
    have := RowsRel.map (fun r : Row W => syms.foldl (fun r sym => r.filter (fun a => a.1 ≠ sym)) r) t.transitions
    exact this.mono fun r r' h => by rw [h, foldl_filter_ne]
  have hE : ∀ q l p, Edge (deleteSymbols syms t) q l p ↔ ∃ l', Edge t q l' p ∧ (l = l' ∧ l'.1 ∉ syms) := by
    intro q l p
    unfold Edge
    rw [hrel.row (by simp) q, List.mem_filter]
    constructor
    · rintro ⟨h1, h2⟩; exact ⟨l, h1, rfl, by simpa using h2⟩
    · rintro ⟨_, h1, rfl, h2⟩; exact ⟨h1, by simpa using h2⟩
  refine ⟨hrel.wf (by simp) rfl rfl ht (fun r r' h hs => by rw [h]; exact hs.filter _)
    (fun r r' h e he => ⟨e, by rw [h] at he; exact List.mem_of_mem_filter he, rfl⟩), fun ls fw => ?_⟩
  have hf : ∀ ls ls' : List (Int × W), List.Forall₂ (fun l l' => l' = l ∧ l.1 ∉ syms) ls ls' ↔
      ls' = ls ∧ ∀ l ∈ ls, l.1 ∉ syms := by
    intro ls
    induction ls with
    | nil => intro ls'; simp
    | cons x xs ih =>
      intro ls'
      cases ls' with
      | nil => simp
      | cons y ys => simp [ih]; tauto
  constructor
  · rintro ⟨p, hp, hfin⟩
    obtain ⟨ls', h1, h2⟩ := (Path.rel hE).1 hp
    obtain ⟨rfl, h3⟩ := (hf _ _).1 h2
    exact ⟨⟨p, h1, hfin⟩, h3⟩
  · rintro ⟨⟨p, hp, hfin⟩, h⟩
    exact ⟨p, (Path.rel hE).2 ⟨ls, hp, (hf _ _).2 ⟨rfl, h⟩⟩, hfin⟩

/-- **C33**, the same for the accepted words. -/
theorem C33_deleteSymbols_words [AddMonoid W] (syms : List Int) (ε : Int) (hε : ε ∉ syms) (t : Transducer W)
    (ht : WF t) (s : List Int) (x : W) :
    Accepts ε (deleteSymbols syms t) s x ↔ Accepts ε t s x ∧ ∀ c ∈ s, c ∉ syms := by
  constructor
  · rintro ⟨ls, p, fw, h1, h2, rfl, rfl⟩
    obtain ⟨⟨p', h3, h4⟩, h5⟩ := ((C33_deleteSymbols syms t ht).2 ls fw).1 ⟨p, h1, h2⟩
    refine ⟨⟨ls, p', fw, h3, h4, rfl, rfl⟩, fun c hc => ?_⟩
    obtain ⟨l, hl, rfl⟩ := List.mem_map.1 (List.mem_of_mem_filter hc)
    exact h5 l hl
  · rintro ⟨⟨ls, p, fw, h1, h2, rfl, rfl⟩, h⟩
    obtain ⟨p', h3, h4⟩ := ((C33_deleteSymbols syms t ht).2 ls fw).2 ⟨⟨p, h1, h2⟩, fun l hl hs =>
      h l.1 (List.mem_filter.2 ⟨List.mem_map_of_mem hl, decide_eq_true (fun e : l.1 = ε => hε (e ▸ hs))⟩) hs⟩
    exact ⟨ls, p', fw, h3, h4, rfl, rfl⟩

/-- **C33** With a set of symbols that does not contain the empty symbol, `epsilonizeSymbols` finishes, and the
accepting paths of the result are exactly the old ones with those symbols replaced by the empty symbol, at the
same weights. -/
theorem C33_epsilonizeSymbols (syms : List Int) (h0 : (0 : Int) ∉ syms) (t : Transducer W) (ht : WF t) :
    ∃ t', epsilonizeSymbols syms t = .ok t' ∧ WF t' ∧
    ∀ ls fw, Reads t' ls fw ↔ ∃ ls', Reads t ls' fw ∧ ls = ls'.map (fun l => (if l.1 ∈ syms then 0 else l.1, l.2)) := by
  obtain ⟨m, k1, hrel⟩ := epsilonizeRows_spec syms h0 t.transitions
  have h00 : (SortedRow ([] : Row W) → SortedRow ([] : Row W)) ∧
      ∀ x, x ∈ ([] : Row W) ↔ ∃ c, (c, x.2) ∈ ([] : Row W) ∧ x.1 = eraseSym syms c := by simp
  refine ⟨{ t with transitions := m }, by simp only [epsilonizeSymbols, k1, Res.bind_ok, Res.pure_eq],
    RowsRel.wf (t := t) hrel h00 rfl rfl ht (fun r r' h hs => h.1 hs) (fun r r' h e he => ?_), fun ls fw => ?_⟩
  · obtain ⟨c, hc, _⟩ := (h.2 e).1 he
    exact ⟨_, hc, rfl⟩
  · have hE : ∀ q l p, Edge { t with transitions := m } q l p ↔
        ∃ l', Edge t q l' p ∧ l = (if l'.1 ∈ syms then 0 else l'.1, l'.2) := by
      intro q l p
      unfold Edge
      rw [(RowsRel.row (t := t) (t' := { t with transitions := m }) hrel h00 q).2]
      constructor
      · rintro ⟨c, h1, h2⟩; exact ⟨(c, l.2), h1, Prod.ext h2 rfl⟩
      · rintro ⟨l', h1, rfl⟩; exact ⟨l'.1, h1, rfl⟩
    unfold Reads
    constructor
    · rintro ⟨p, hp, hf⟩
      obtain ⟨ls', h1, h2⟩ := (Path.rel hE).1 hp
      exact ⟨ls', ⟨p, h1, hf⟩, (forall₂_eq_map _ _ _).1 h2⟩
    · rintro ⟨ls', ⟨p, h1, hf⟩, h2⟩
      exact ⟨p, (Path.rel hE).2 ⟨ls', h1, (forall₂_eq_map _ _ _).2 h2⟩, hf⟩

/-- **C33**, the same for the accepted words: the result accepts exactly the old words with the symbols erased,
with the same weights. -/
theorem C33_epsilonizeSymbols_words [AddMonoid W] (syms : List Int) (h0 : (0 : Int) ∉ syms) (t : Transducer W)
    (ht : WF t) : ∃ t', epsilonizeSymbols syms t = .ok t' ∧
    ∀ s x, Accepts 0 t' s x ↔ ∃ s', Accepts 0 t s' x ∧ s = s'.filter (fun c => c ∉ syms) := by
  obtain ⟨t', h1, _, h3⟩ := C33_epsilonizeSymbols syms h0 t ht
  refine ⟨t', h1, fun s x => ?_⟩
  have hfil : ∀ ls : List (Int × W),
      ((ls.map fun l => ((if l.1 ∈ syms then 0 else l.1 : Int), l.2)).map (·.1)).filter (· ≠ 0) =
        ((ls.map (·.1)).filter (· ≠ 0)).filter (fun c => c ∉ syms) := by
    intro ls
    induction ls with
    | nil => rfl
    | cons l ls ih =>
      simp only [List.map_cons, List.filter_cons]
      rw [ih]
      by_cases hl : l.1 ∈ syms
      · have : l.1 ≠ 0 := fun h => h0 (h ▸ hl)
        simp [hl, this]
      · by_cases hz : l.1 = 0
        · simp [hz]
        · simp [hl, hz]
  constructor
  · rintro ⟨ls, p, fw, g1, g2, rfl, rfl⟩
    obtain ⟨ls', ⟨p', g3, g4⟩, rfl⟩ := (h3 ls fw).1 ⟨p, g1, g2⟩
    exact ⟨_, ⟨ls', p', fw, g3, g4, rfl, by simp [Function.comp_def]⟩, hfil _⟩
  · rintro ⟨_, ⟨ls, p, fw, g1, g2, rfl, rfl⟩, rfl⟩
    obtain ⟨p', g3, g4⟩ := (h3 _ fw).2 ⟨ls, ⟨p, g1, g2⟩, rfl⟩
    exact ⟨_, p', fw, g3, g4, (hfil _).symm, by simp [Function.comp_def]⟩

example : (0 : Int) ∉ [2, 7] ∧ WF exLabels ∧ Reads exLabels [(1, 1), (2, 2), (3, 3)] 4 := by
  refine ⟨by decide, exLabels_wf, 2, .cons (r := 1) ?_ (.cons (r := 1) ?_ (.cons ?_ (.nil _))), ?_⟩
  all_goals first | (rw [edge_iff_arcs (by decide)]; decide) | (unfold Final; decide)

/-! ## Character equivalences -/

/-- **C34** `applyACX` with a table of equivalents succeeds on a transducer whose labels are codes of the
alphabet; its accepting paths are exactly the old ones with some left symbols replaced by declared equivalents, at
the same weights, and the old codes stay valid. -/
theorem C34_applyACX (a : Alphabet) (acx : List (Int × List Int)) (t : Transducer W) (ha : Reachable a) (ht : WF t)
    (hc : Coded a t) :
    ∃ a' t', applyACX a acx t = .ok (a', t') ∧ WF t' ∧ Coded a' t' ∧
      (∀ ls fw, Spells a' t' ls fw ↔ ∃ ls', Spells a t ls' fw ∧
        List.Forall₂ (fun l' l => l.2 = l'.2 ∧ l.1.2 = l'.1.2 ∧
          (l.1.1 = l'.1.1 ∨ ∃ zs, mapFind l'.1.1 acx = some zs ∧ l.1.1 ∈ zs)) ls' ls) ∧
      (∀ c pr, a.decode c = .ok pr → a'.decode c = .ok pr) := by
  obtain ⟨b, m, k1, k2, k3, k5, k4⟩ := acxRows_spec acx t.transitions a ha.ok (coded_rows ht hc)
  have hrel := k4 b k2 (Ext.refl _)
  have h00 : (SortedRow ([] : Row W) → SortedRow ([] : Row W)) ∧
        ∀ x, x ∈ ([] : Row W) ↔ x ∈ ([] : Row W) ∨ ∃ e ∈ ([] : Row W), ∃ p z, HasPair b e.1 p ∧ Equiv' acx p.1 z ∧
        HasPair b x.1 (z, p.2) ∧ x.2 = e.2 := by simp
  let t' : Transducer W := { t with transitions := m }
  have hE : ∀ q l p, Edge t' q l p ↔ Edge t q l p ∨ ∃ c pr z, Edge t q (c, l.2) p ∧ HasPair b c pr ∧ Equiv' acx pr.1 z ∧
      HasPair b l.1 (z, pr.2) := by
    intro q l p
    unfold Edge
    rw [(RowsRel.row (t := t) (t' := t') hrel h00 q).2]
    constructor
    · rintro (h | ⟨e, he, pr, z, h1, h2, h3, h4⟩)
      · exact .inl h
      · refine .inr ⟨e.1, pr, z, ?_, h1, h2, h3⟩
        simp only at h4
        rw [h4]; exact he
    · rintro (h | ⟨c, pr, z, he, h1, h2, h3⟩)
      · exact .inl h
      · exact .inr ⟨_, he, pr, z, h1, h2, h3, rfl⟩
  have hwf : WF t' := RowsRel.wf (t := t) hrel h00 rfl rfl ht (fun r r' h => h.1) (fun r r' h e he => by
    rcases (h.2 e).1 he with h1 | ⟨d, hd, _, _, _, _, _, h2⟩
    · exact ⟨e, h1, rfl⟩
    · exact ⟨d, hd, by rw [h2]⟩)
  refine ⟨b, t', by simp only [applyACX, k1, Res.bind_ok, Res.pure_eq]; rfl, hwf, ?_, ?_,
    fun c pr h => decode_iff.2 ((decode_iff.1 h).mono k3)⟩
  · intro q l p he
    rcases (hE _ _ _).1 he with h | ⟨_, pr, z, _, _, _, h⟩
    · obtain ⟨pr, hp⟩ := hc _ _ _ h
      exact ⟨pr, decode_iff.2 ((decode_iff.1 hp).mono k3)⟩
    · exact ⟨_, decode_iff.2 h⟩
  · intro ls fw
    have hPE : ∀ q l p, PairEdge b t' q l p ↔ ∃ l', PairEdge a t q l' p ∧ (l.2 = l'.2 ∧ l.1.2 = l'.1.2 ∧
          (l.1.1 = l'.1.1 ∨ ∃ zs, mapFind l'.1.1 acx = some zs ∧ l.1.1 ∈ zs)) := by
      intro q l p
      constructor
      · rintro ⟨c, h1, h2⟩
        rcases (hE _ _ _).1 h2 with h | ⟨d, pr, z, h3, h4, h5, h6⟩
        · obtain ⟨pr, hp⟩ := hc _ _ _ h
          have := (decode_iff.1 h1).pair_unique ((decode_iff.1 hp).mono k3)
          exact ⟨(pr, l.2), ⟨c, hp, h⟩, rfl, by rw [this], .inl (by rw [this])⟩
        · obtain ⟨pr', hp⟩ := hc _ _ _ h3
          obtain rfl := h4.pair_unique ((decode_iff.1 hp).mono k3)
          have := (decode_iff.1 h1).pair_unique h6
          exact ⟨(pr, l.2), ⟨d, hp, h3⟩, rfl, by rw [this], .inr (by rw [this]; exact h5)⟩
      · rintro ⟨l', ⟨c, h1, h2⟩, h3, h4, h5⟩
        have hp := (decode_iff.1 h1).mono k3
        rcases h5 with h5 | h5
        · refine ⟨c, decode_iff.2 ?_, (hE _ _ _).2 (.inl (by rw [h3]; exact h2))⟩
          have : l.1 = l'.1 := Prod.ext h5 h4
          rw [this]; exact hp
        · -- the new code exists because the row has the new arc
          obtain ⟨zs, hz1, hz2⟩ := h5
          obtain ⟨c', hc'⟩ := k5 _ (row_mem ht (ht.source_lt h2)) _ h2 _ _ (decode_iff.1 h1) ⟨zs, hz1, hz2⟩
          refine ⟨c', decode_iff.2 ?_, (hE _ _ _).2 (.inr ⟨c, l'.1, l.1.1, by rw [h3]; exact h2, hp, ⟨zs, hz1, hz2⟩, hc'⟩)⟩
          have : l.1 = (l.1.1, l'.1.2) := Prod.ext rfl h4
          rw [this]; exact hc'
    unfold Spells
    constructor
    · rintro ⟨p, hp, hf⟩
      obtain ⟨ls', h1, h2⟩ := (Path.rel hPE).1 hp
      exact ⟨ls', ⟨p, h1, hf⟩, h2⟩
    · rintro ⟨ls', ⟨p, h1, hf⟩, h2⟩
      exact ⟨p, (Path.rel hPE).2 ⟨ls', h1, h2⟩, hf⟩

/-- With a table that makes `á` an equivalent of `a`. -/
example : Reachable exAlpha ∧ WF exLabels ∧ Coded exAlpha exLabels ∧ mapFind (0x61 : Int) [(0x61, [0xe1])] = some [0xe1] ∧
    Spells exAlpha exLabels [((0x61, 0x61), 1), ((0x61, -1), 2), ((-2, 0x62), 3)] 4 :=
  ⟨exAlpha_reachable, exLabels_wf, exLabels_coded, by decide, exLabels_spells⟩

/-! ## Changing the alphabet -/

/-- What a symbol stands for, independently of the numbering of an alphabet. -/
inductive Name where
  | letter (c : Int)
  | tag (text : UString)
deriving DecidableEq

/-- `n` is what the symbol `x` stands for in the alphabet `a`. -/
def Named (a : Alphabet) (x : Int) (n : Name) : Prop :=
  (0 ≤ x ∧ n = .letter x) ∨ (x < 0 ∧ ∃ s, a.tagText x = .ok s ∧ n = .tag s)

/-- An arc whose label decodes to a pair of symbols with these names. -/
def NamedEdge (a : Alphabet) (t : Transducer W) (q : Nat) (l : (Name × Name) × W) (p : Nat) : Prop :=
  ∃ x y, PairEdge a t q ((x, y), l.2) p ∧ Named a x l.1.1 ∧ Named a y l.1.2

/-- An accepting path spells these pairs of names with these weights. -/
def SpellsNames (a : Alphabet) (t : Transducer W) (ls : List ((Name × Name) × W)) (fw : W) : Prop :=
  ∃ p, Path (NamedEdge a t) t.initial ls p ∧ Final t p fw

/-- Every tag that occurs in the pair of a label is a tag of the alphabet. -/
def TagsKnown (a : Alphabet) (t : Transducer W) : Prop :=
  ∀ q l p, PairEdge a t q l p → (∃ n, Named a l.1.1 n) ∧ ∃ n, Named a l.1.2 n

/-- The alphabet `b` still has all codes of `a`. -/
def Keeps (a b : Alphabet) : Prop :=
  (∀ (c : Int) (pr : Pair), a.decode c = .ok pr → b.decode c = .ok pr) ∧
  (∀ c : Int, c < 0 → ∀ s : UString, a.tagText c = .ok s → b.tagText c = .ok s)

theorem keeps_of_ext {a b : Alphabet} (h : Ext a b) : Keeps a b :=
  ⟨fun c pr hc => decode_iff.2 ((decode_iff.1 hc).mono h),
    fun c hc s hs => (tagText_iff hc).2 (((tagText_iff hc).1 hs).mono h)⟩

theorem mem_arc_syms {t : Transducer W} (h : WF t) (c : Int) :
    c ∈ (arcsOf t.transitions).map (·.2.1) ↔ ∃ q w p, Edge t q (c, w) p := by
  constructor
  · intro hc
    simp only [arcsOf, List.mem_map, List.mem_flatMap] at hc
    obtain ⟨x, ⟨e, he, d, hd, rfl⟩, rfl⟩ := hc
    exact ⟨e.1, d.2.2, d.2.1, by unfold Edge; rw [mem_row_of_mem h he]; exact hd⟩
  · rintro ⟨q, w, p, he⟩
    simp only [arcsOf, List.mem_map, List.mem_flatMap]
    exact ⟨_, ⟨_, row_mem h (h.source_lt he), _, he, rfl⟩, rfl⟩

theorem named_iff {a b : Alphabet} {x y : Int} {s : UString} (hx : HasTag a x s) (hy : HasTag b y s) (n : Name) :
    Named a x n ↔ Named b y n := by
  have h1 := (tagText_iff hx.neg).2 hx
  have h2 := (tagText_iff hy.neg).2 hy
  unfold Named
  simp only [h1, h2, hx.neg, hy.neg, not_le.2 hx.neg, not_le.2 hy.neg, false_and, false_or, true_and]

theorem named_letter {a b : Alphabet} {x : Int} (hx : ¬ x < 0) (n : Name) : Named a x n ↔ Named b x n := by
  unfold Named; simp [hx]

theorem update_spec (old new : Alphabet) (t : Transducer W) (hn : Ok new)
    (ht : WF t) (hc : Coded old t) (hk : TagsKnown old t) :
    ∃ new' t', updateAlphabet old new true t = .ok (new', t') ∧ WF t' ∧ Coded new' t' ∧ Keeps new new' ∧
      (∀ ls fw, SpellsNames new' t' ls fw ↔ SpellsNames old t ls fw) ∧ Ok new' ∧ Ext new new' ∧ (∃ f, t' = relabel f t) ∧
      (∀ s ∈ new'.slexicinv, s ∈ new.slexicinv ∨ s ∈ old.slexicinv) ∧
      (∀ p ∈ new'.spairinv, p ∈ new.spairinv ∨ ∃ pr ∈ old.spairinv, ((∃ n, Named old pr.1 n) ∧ ∃ n, Named old pr.2 n) ∧
        (∀ n, Named old pr.1 n ↔ Named new' p.1 n) ∧ ∀ n, Named old pr.2 n ↔ Named new' p.2 n) := by
  have hcs : ∀ c ∈ (arcsOf t.transitions).map (·.2.1), ¬ (true = false ∧ c < 0) → ∃ p, HasPair old c p := by
    intro c h _
    obtain ⟨q, w, p, he⟩ := (mem_arc_syms ht c).1 h
    obtain ⟨pr, hp⟩ := hc _ _ _ he
    exact ⟨pr, decode_iff.1 hp⟩
  obtain ⟨ps, ss, k1, k2, k3⟩ := collect_spec old true _ [] [] hcs
  have hps : ∀ c, c ∈ ps ↔ ∃ q w p, Edge t q (c, w) p := by
    intro c; rw [k2, ← mem_arc_syms ht]; simp
  have hss : ∀ c pr x, c ∈ ps → HasPair old c pr → (x = pr.1 ∨ x = pr.2) → x < 0 → x ∈ ss := by
    intro c pr x h1 h2 h3 h4
    rw [k3]
    exact .inr ⟨c, by rw [mem_arc_syms ht, ← hps]; exact h1, h4, .inr ⟨by simp, pr, h2, h3⟩⟩
  have htag : ∀ x ∈ ss, ∃ s, HasTag old x s := by
    intro x hx
    rw [k3] at hx
    obtain ⟨c, h1, hneg, ⟨h, _⟩ | ⟨_, pr, h2, h3⟩⟩ := hx.resolve_left (by simp)
    · cases h
    · obtain ⟨q, w, p, he⟩ := (mem_arc_syms ht c).1 h1
      obtain ⟨⟨n1, hn1⟩, ⟨n2, hn2⟩⟩ := hk q (pr, w) p ⟨c, decode_iff.2 h2, he⟩
      rcases h3 with rfl | rfl
      · rcases hn1 with h | ⟨_, s, h, _⟩
        · simp only at h; omega
        · exact ⟨s, (tagText_iff hneg).1 h⟩
      · rcases hn2 with h | ⟨_, s, h, _⟩
        · simp only at h; omega
        · exact ⟨s, (tagText_iff hneg).1 h⟩
  obtain ⟨b1, upd, l1, l2, l3, l4, l5, _, l6⟩ := updateTags_spec old ss new [] hn List.Pairwise.nil htag
  obtain ⟨b2, pm, j1, j2, j3, j4, j5, j6, j7⟩ := updatePairs_spec old upd ps b1 [] l2 List.Pairwise.nil
    (fun c h => hcs c (by rw [mem_arc_syms ht, ← hps]; exact h) (by simp))
  let g := fun x : Int => if x < 0 then updGet upd x else x
  let f : Int → Int := fun s => (mapFind s pm).getD s
  -- names are kept by `g` on all symbols that occur
  have hg : ∀ c pr x, c ∈ ps → HasPair old c pr → (x = pr.1 ∨ x = pr.2) → ∀ n, Named old x n ↔ Named b2 (g x) n := by
    intro c pr x h1 h2 h3 n
    by_cases hx : x < 0
    · obtain ⟨y, s, m1, m2, m3⟩ := l6 x (hss c pr x h1 h2 h3 hx)
      have : g x = y := by simp [g, hx, updGet, m1]
      rw [this]
      exact named_iff m2 (m3.mono j3) n
    · have : g x = x := by simp [g, hx]
      rw [this]; exact named_letter hx n
  let t' : Transducer W := { t with transitions := t.transitions.map fun e => (e.1, relabelRow f e.2) }
  have hrel : RowsRel (fun r r' => r' = relabelRow f r) t.transitions t'.transitions := RowsRel.map _ _
  have hE : ∀ q l p, Edge t' q l p ↔ ∃ c, Edge t q (c, l.2) p ∧ l.1 = f c := by
    intro q l p
    unfold Edge
    rw [hrel.row rfl q, mem_relabelRow]
    constructor
    · rintro ⟨e, he, h⟩
      simp only [Prod.mk.injEq] at h
      exact ⟨e.1, by rw [h.2]; exact he, h.1⟩
    · rintro ⟨c, he, h⟩
      exact ⟨_, he, by simp [h]⟩
  have hf : ∀ q c w p, Edge t q (c, w) p → ∃ pr, HasPair old c pr ∧ HasPair b2 (f c) (g pr.1, g pr.2) := by
    intro q c w p he
    obtain ⟨c', pr, m1, m2, m3⟩ := j7 c ((hps c).2 ⟨q, w, p, he⟩)
    exact ⟨pr, m2, by simpa [f, m1] using m3⟩
  refine ⟨b2, t', ?_, ?_, ?_, keeps_of_ext (l3.trans j3), ?_, j2, l3.trans j3, ⟨f, rfl⟩, ?_, ?_⟩
  · simp only [updateAlphabet, k1, l1, j1, Res.bind_ok, Res.pure_eq, if_true]
    rfl
  · exact hrel.wf rfl rfl rfl ht (fun r r' h _ => by rw [h]; exact sorted_relabelRow _ _) (fun r r' h e he => by
      rw [h, mem_relabelRow] at he
      obtain ⟨d, hd, rfl⟩ := he
      exact ⟨d, hd, rfl⟩)
  · intro q l p he
    obtain ⟨c, h1, h2⟩ := (hE _ _ _).1 he
    obtain ⟨pr, _, h3⟩ := hf _ _ _ _ h1
    exact ⟨_, by rw [h2]; exact decode_iff.2 h3⟩
  · intro ls fw
    have hN : ∀ q l p, NamedEdge b2 t' q l p ↔ NamedEdge old t q l p := by
      intro q l p
      constructor
      · rintro ⟨x, y, ⟨c, h1, h2⟩, h3, h4⟩
        obtain ⟨d, h5, h6⟩ := (hE _ _ _).1 h2
        obtain ⟨pr, h7, h8⟩ := hf _ _ _ _ h5
        have hd : d ∈ ps := (hps d).2 ⟨_, _, _, h5⟩
        have h9 := decode_iff.1 h1
        simp only at h6 h9
        rw [h6] at h9
        have e := h9.pair_unique h8
        simp only [Prod.mk.injEq] at e
        exact ⟨pr.1, pr.2, ⟨d, decode_iff.2 h7, h5⟩, (hg d pr _ hd h7 (.inl rfl) _).2 (e.1 ▸ h3),
          (hg d pr _ hd h7 (.inr rfl) _).2 (e.2 ▸ h4)⟩
      · rintro ⟨x, y, ⟨c, h1, h2⟩, h3, h4⟩
        obtain ⟨pr, h7, h8⟩ := hf _ _ _ _ h2
        have hd : c ∈ ps := (hps c).2 ⟨_, _, _, h2⟩
        obtain rfl := h7.pair_unique (decode_iff.1 h1)
        exact ⟨g x, g y, ⟨f c, decode_iff.2 h8, (hE _ _ _).2 ⟨c, h2, rfl⟩⟩, (hg c _ _ hd h7 (.inl rfl) _).1 h3,
          (hg c _ _ hd h7 (.inr rfl) _).1 h4⟩
    unfold SpellsNames
    exact exists_congr fun p => and_congr (Path.congr hN) Iff.rfl
  · intro s hs
    rw [j5] at hs
    refine (updateTags_tags old ss new b1 [] upd hn l1 s hs).imp_right ?_
    rintro ⟨x, hx, h1⟩
    obtain ⟨s', hs'⟩ := htag x hx
    have hneg := hs'.neg
    rw [getSymbol, if_neg (by omega), if_pos hneg, (tagText_iff hneg).2 hs'] at h1
    cases h1
    obtain ⟨i, hi, -⟩ := hs'
    exact List.mem_of_getElem? hi
  · intro p hp
    rcases updatePairs_pairs old upd ps b1 b2 [] pm l2 j1 p hp with h1 | ⟨c, h1, pr, h2, rfl⟩
    · rw [l5] at h1; exact .inl h1
    · obtain ⟨q, w, r, he⟩ := (hps c).1 h1
      exact .inr ⟨pr, by obtain ⟨i, hi, -⟩ := h2; exact List.mem_of_getElem? hi, hk q (pr, w) r ⟨c, decode_iff.2 h2, he⟩,
        hg c pr _ h1 h2 (.inl rfl), hg c pr _ h1 h2 (.inr rfl)⟩

/-- **C35** For a transducer whose labels are codes of pairs (`has_pairs`, the default) and whose tags are
known to the old alphabet, `updateAlphabet` succeeds; every accepting path of the result spells in the new
alphabet the same pairs of names with the same weights as a path spelled before in the old one, and conversely; all
codes that the new alphabet had stay valid. -/
theorem C35_updateAlphabet_pairs (old new : Alphabet) (t : Transducer W) (hn : Reachable new)
    (ht : WF t) (hc : Coded old t) (hk : TagsKnown old t) :
    ∃ new' t', updateAlphabet old new true t = .ok (new', t') ∧ WF t' ∧ Coded new' t' ∧ Keeps new new' ∧
      ∀ ls fw, SpellsNames new' t' ls fw ↔ SpellsNames old t ls fw :=
  let ⟨new', t', h1, h2, h3, h4, h5, _⟩ := update_spec old new t hn.ok ht hc hk
  ⟨new', t', h1, h2, h3, h4, h5⟩

theorem exLabels_tagsKnown : TagsKnown exAlpha exLabels := by
  rintro q l p ⟨c, h1, h2⟩
  rw [edge_iff_arcs (by decide)] at h2
  have hx' : (q, c, p, l.2) = (0, 1, 1, 1) ∨ (q, c, p, l.2) = (1, 2, 1, 2) ∨ (q, c, p, l.2) = (1, 3, 2, 3) := by
    simpa [arcsOf, exLabels] using h2
  have hd1 : exAlpha.decode 1 = .ok (0x61, 0x61) := by decide
  have hd2 : exAlpha.decode 2 = .ok (0x61, -1) := by decide
  have hd3 : exAlpha.decode 3 = .ok (-2, 0x62) := by decide
  have nl : ∀ x : Int, 0 ≤ x → ∃ n, Named exAlpha x n := fun x hx => ⟨.letter x, .inl ⟨hx, rfl⟩⟩
  rcases hx' with h | h | h <;> (simp only [Prod.mk.injEq] at h; obtain ⟨rfl, rfl, rfl, h⟩ := h)
  · rw [hd1] at h1; obtain h1 := Res.ok.inj h1
    rw [← h1]; exact ⟨nl _ (by decide), nl _ (by decide)⟩
  · rw [hd2] at h1; obtain h1 := Res.ok.inj h1
    rw [← h1]; exact ⟨nl _ (by decide), ⟨.tag tagN, .inr ⟨by decide, tagN, by decide, rfl⟩⟩⟩
  · rw [hd3] at h1; obtain h1 := Res.ok.inj h1
    rw [← h1]; exact ⟨⟨.tag tagV, .inr ⟨by decide, tagV, by decide, rfl⟩⟩, nl _ (by decide)⟩

/-- The new alphabet has the two tags in the other order. -/
example : Reachable exAlpha ∧ Reachable ((Alphabet.empty.includeSymbol tagV).includeSymbol tagN) ∧ WF exLabels ∧
    Coded exAlpha exLabels ∧ TagsKnown exAlpha exLabels ∧ ((Alphabet.empty.includeSymbol tagV).includeSymbol tagN).symCode tagN = -2 ∧
    exAlpha.symCode tagN = -1 :=
  ⟨exAlpha_reachable, (Relation.ReflTransGen.refl.tail (.include _ tagV)).tail (.include _ tagN), exLabels_wf,
    exLabels_coded, exLabels_tagsKnown, by decide, by decide⟩

/-- An arc whose label, taken as a single symbol, has this name. -/
def SymbolEdge (a : Alphabet) (t : Transducer W) (q : Nat) (l : Name × W) (p : Nat) : Prop :=
  ∃ x, Edge t q (x, l.2) p ∧ Named a x l.1

/-- **C35**, the other mode: labels that are single symbols (`has_pairs = false`). What is missing: the function
decodes letters as if they were codes of pairs, so the claim holds only where every letter on an arc happens to be the
code of some pair of the old alphabet whose tags are known; see `C35_updateAlphabet_symbols_false`. -/
theorem C35_updateAlphabet_symbols_partial (old new : Alphabet) (t : Transducer W)
    (hn : Reachable new) (ht : WF t) (hk : ∀ q l p, Edge t q l p → ∃ n, Named old l.1 n)
    (hc : ∀ q l p, Edge t q l p → 0 ≤ l.1 → ∃ pr, old.decode l.1 = .ok pr ∧ (∃ n, Named old pr.1 n) ∧ ∃ n, Named old pr.2 n) :
    ∃ new' t', updateAlphabet old new false t = .ok (new', t') ∧ WF t' ∧ Keeps new new' ∧
      ∀ ls fw, (∃ p, Path (SymbolEdge new' t') t'.initial ls p ∧ Final t' p fw) ↔
        ∃ p, Path (SymbolEdge old t) t.initial ls p ∧ Final t p fw := by
  obtain ⟨ps, ss, k1, k2, k3⟩ := collect_spec old false ((arcsOf t.transitions).map (·.2.1)) [] [] (by
    intro c h hneg
    obtain ⟨q, w, p, he⟩ := (mem_arc_syms ht c).1 h
    obtain ⟨pr, hp, _⟩ := hc _ _ _ he (by simpa using hneg)
    exact ⟨pr, decode_iff.1 hp⟩)
  have htag' : ∀ x n, Named old x n → x < 0 → ∃ s, HasTag old x s := by
    intro x n h hneg
    rcases h with h | ⟨_, s, h, _⟩
    · omega
    · exact ⟨s, (tagText_iff hneg).1 h⟩
  have htag : ∀ x ∈ ss, ∃ s, HasTag old x s := by
    intro x hx
    rw [k3] at hx
    obtain ⟨c, h1, hneg, ⟨_, _, rfl⟩ | ⟨hcn, pr, h2, h3⟩⟩ := hx.resolve_left (by simp)
    · obtain ⟨q, w, p, he⟩ := (mem_arc_syms ht x).1 h1
      obtain ⟨n, h⟩ := hk _ _ _ he
      exact htag' _ n h hneg
    · obtain ⟨q, w, p, he⟩ := (mem_arc_syms ht c).1 h1
      obtain ⟨pr', hp, ⟨n1, hn1⟩, ⟨n2, hn2⟩⟩ := hc _ _ _ he (by simpa using hcn)
      obtain rfl := h2.pair_unique (decode_iff.1 hp)
      rcases h3 with rfl | rfl
      · exact htag' _ _ hn1 hneg
      · exact htag' _ _ hn2 hneg
  obtain ⟨b, upd, l1, l2, l3, l4, _, l5, l6⟩ := updateTags_spec old ss new [] hn.ok List.Pairwise.nil htag
  let f : Int → Int := fun s => (mapFind s upd).getD s
  have hf : ∀ q c w p, Edge t q (c, w) p → ∀ n, Named b (f c) n ↔ Named old c n := by
    intro q c w p he n
    by_cases hneg : c < 0
    · obtain ⟨y, s, m1, m2, m3⟩ := l6 c (by
        rw [k3]; exact .inr ⟨c, (mem_arc_syms ht c).2 ⟨q, w, p, he⟩, hneg, .inl ⟨rfl, hneg, rfl⟩⟩)
      have : f c = y := by simp [f, m1]
      rw [this]; exact (named_iff m2 m3 n).symm
    · have : f c = c := by
        have : mapFind c upd = none := by
          rw [l5 c (fun h => ?_)]; rfl
          obtain ⟨s, hs⟩ := htag c h
          exact hneg hs.neg
        simp [f, this]
      rw [this]; exact named_letter hneg n
  let t' : Transducer W := { t with transitions := t.transitions.map fun e => (e.1, relabelRow f e.2) }
  have hrel : RowsRel (fun r r' => r' = relabelRow f r) t.transitions t'.transitions := RowsRel.map _ _
  have hE : ∀ q l p, Edge t' q l p ↔ ∃ c, Edge t q (c, l.2) p ∧ l.1 = f c := by
    intro q l p
    unfold Edge
    rw [hrel.row rfl q, mem_relabelRow]
    constructor
    · rintro ⟨e, he, h⟩
      simp only [Prod.mk.injEq] at h
      exact ⟨e.1, by rw [h.2]; exact he, h.1⟩
    · rintro ⟨c, he, h⟩
      exact ⟨_, he, by simp [h]⟩
  refine ⟨b, t', ?_, ?_, keeps_of_ext l3, ?_⟩
  · simp only [updateAlphabet, k1, l1, Res.bind_ok, Res.pure_eq]
    rfl
  · exact hrel.wf rfl rfl rfl ht (fun r r' h _ => by rw [h]; exact sorted_relabelRow _ _) (fun r r' h e he => by
      rw [h, mem_relabelRow] at he
      obtain ⟨d, hd, rfl⟩ := he
      exact ⟨d, hd, rfl⟩)
  · intro ls fw
    have hN : ∀ q l p, SymbolEdge b t' q l p ↔ SymbolEdge old t q l p := by
      intro q l p
      constructor
      · rintro ⟨x, h1, h2⟩
        obtain ⟨c, h3, h4⟩ := (hE _ _ _).1 h1
        simp only at h4
        rw [h4] at h2
        exact ⟨c, h3, (hf _ _ _ _ h3 _).1 h2⟩
      · rintro ⟨c, h1, h2⟩
        exact ⟨f c, (hE _ _ _).2 ⟨c, h1, rfl⟩, (hf _ _ _ _ h1 _).2 h2⟩
    exact exists_congr fun p => and_congr (Path.congr hN) Iff.rfl

/-- A transducer over single symbols: the letter 3 (a control character) and the tag `<v>`. -/
def exSymbols : Transducer Nat :=
  { initial := 0, finals := [(2, 0)], transitions := [(0, [(3, (1, 1))]), (1, [(-2, (2, 2))]), (2, [])] }

example : Reachable exAlpha ∧ WF exSymbols ∧ (∀ q l p, Edge exSymbols q l p → ∃ n, Named exAlpha l.1 n) ∧
    (∀ q l p, Edge exSymbols q l p → 0 ≤ l.1 →
      ∃ pr, exAlpha.decode l.1 = .ok pr ∧ (∃ n, Named exAlpha pr.1 n) ∧ ∃ n, Named exAlpha pr.2 n) := by
  have key : ∀ q l p, Edge exSymbols q l p → l.1 = 3 ∨ l.1 = -2 := by
    intro q l p h
    rw [edge_iff_arcs (by decide)] at h
    have : (q, l.1, p, l.2) = (0, 3, 1, 1) ∨ (q, l.1, p, l.2) = (1, -2, 2, 2) := by simpa [arcsOf, exSymbols] using h
    simp only [Prod.mk.injEq] at this
    tauto
  have hv : ∃ n, Named exAlpha (-2) n := ⟨.tag tagV, .inr ⟨by decide, tagV, by decide, rfl⟩⟩
  refine ⟨exAlpha_reachable, wf_of_check (by decide), fun q l p h => ?_, fun q l p h h0 => ?_⟩
  · rcases key q l p h with e | e <;> rw [e]
    · exact ⟨.letter 3, .inl ⟨by decide, rfl⟩⟩
    · exact hv
  · rcases key q l p h with e | e
    · rw [e]; exact ⟨(-2, 0x62), by decide, hv, ⟨.letter 0x62, .inl ⟨by decide, rfl⟩⟩⟩
    · omega

/-- **C35** is false for single symbols: a transducer with the one arc `a` over an alphabet without pairs other
than the empty one makes the function read outside the table of pairs. -/
theorem C35_updateAlphabet_symbols_false :
    ∃ (old new : Alphabet) (t : Transducer Nat), Reachable old ∧ Reachable new ∧ WF t ∧
      (∀ q l p, Edge t q l p → ∃ n, Named old l.1 n) ∧ updateAlphabet old new false t = .ub := by
  refine ⟨Alphabet.empty, Alphabet.empty, { initial := 0, finals := [(1, 0)], transitions := [(0, [(0x61, (1, 0))]), (1, [])] },
    Relation.ReflTransGen.refl, Relation.ReflTransGen.refl, wf_of_check (by decide), ?_, by decide⟩
  intro q l p h
  rw [edge_iff_arcs (by decide)] at h
  have : (q, l.1, p, l.2) = (0, 0x61, 1, 0) := by simpa [arcsOf] using h
  simp only [Prod.mk.injEq] at this
  rw [this.2.1]
  exact ⟨.letter 0x61, .inl ⟨by decide, rfl⟩⟩

end Verif.Fst
