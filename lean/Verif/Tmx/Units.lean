import Verif.Tmx.Store

/-! # From the units to the file -/

namespace Verif.Tmx

open Verif.Fst Verif.Alphabet Verif.Compiler Verif.Tools Verif.Chain
open Verif.Compression (Dbl)

variable {W : Type} [AddCommMonoid W] [LinearOrder W] {ch : Chars}

theorem collect_eq {lo lm : UString} (h : lo ≠ lm) (vs : List Tuv) : collect lo lm vs = (texts lo vs, texts lm vs) := by
  induction vs with
  | nil => rfl
  | cons v vs ih =>
    obtain ⟨l, s⟩ := v
    rw [collect, ih]
    simp only [texts]
    by_cases h1 : l = lm
    · have h2 : l ≠ lo := fun e => h (e ▸ h1)
      simp [h1, h.symm]
    · by_cases h2 : l = lo
      · simp [h2, h]
      · simp [h1, h2]

theorem collect_same (l : UString) (vs : List Tuv) : collect l l vs = ([], texts l vs) := by
  induction vs with
  | nil => rfl
  | cons v vs ih =>
    obtain ⟨l', s⟩ := v
    rw [collect, ih]
    simp only [texts]
    by_cases h1 : l' = l <;> simp [h1]

/-- One unit. -/
theorem procTU_spec {lo lm : UString} {vs : List Tuv} {o m : List Int} (hc : collect lo lm vs = (o, m)) (ho : ∀ c ∈ o, Char c) (hm : ∀ c ∈ m, Char c)
    (hf : Few ch (trim ch o)) {P : List (List Pair)} {a : Alphabet} {t : Transducer W} (h : Memory P a t) :
    ∃ a' t' Q, procTU ch lo lm vs (a, t) = .ok (a', t') ∧ Memory (P ++ Q) a' t' ∧ (Q = [] → t' = t) ∧
      ∀ ps, ps ∈ Q ↔ ∃ o' m', Normal ch o m o' m' ∧ 5 ≤ o'.length ∧ 5 ≤ m'.length ∧ ps = unitPairs o' m' := by
  obtain ⟨o2, m2, h1, -⟩ := align_spec (trim ch o) (trim ch m) hf
  have hn : Normal ch o m (alignBlanks ch o2 m2).1 (alignBlanks ch o2 m2).2 := (normal_iff hf).2 ⟨o2, m2, h1, rfl⟩
  have huniq : ∀ o' m', Normal ch o m o' m' → o' = (alignBlanks ch o2 m2).1 ∧ m' = (alignBlanks ch o2 m2).2 := by
    intro o' m' h'
    obtain ⟨o3, m3, k1, k2⟩ := (normal_iff hf).1 h'
    rw [h1] at k1
    cases k1
    rw [k2]
    exact ⟨rfl, rfl⟩
  obtain ⟨n1, n2⟩ := normal_mem ho hm hn
  unfold procTU
  rw [hc]
  simp only [h1, Res.bind_ok]
  generalize (alignBlanks ch o2 m2).1 = o', (alignBlanks ch o2 m2).2 = m' at *
  unfold insertTU
  by_cases hl : o'.length < 5 ∨ m'.length < 5
  · rw [if_pos hl]
    refine ⟨a, t, [], rfl, by simpa using h, fun _ => rfl, fun ps => ⟨fun hp => (by cases hp), ?_⟩⟩
    rintro ⟨o'', m'', k1, k2, k3, -⟩
    obtain ⟨rfl, rfl⟩ := huniq _ _ k1
    omega
  · rw [if_neg hl, if_neg]
    · have z1 : (0 : Int) ∉ o' := fun e => by rcases n1 _ e with e | e <;> omega
      have z2 : (0 : Int) ∉ m' := fun e => by have := n2 _ e; omega
      obtain ⟨-, -, u3, u4⟩ := unitPairs_spec z1 z2
      obtain ⟨a', t', k1, k2⟩ := h.insert u3 (by
        intro p hp
        obtain ⟨j1, j2⟩ := u4 p hp
        refine ⟨?_, ?_⟩
        · rcases j1 with e | e
          · rw [e]; exact .inr (by decide)
          · rcases n1 _ e with e | e
            · exact .inl e
            · exact .inr ⟨e.1.le, e.2⟩
        · rcases j2 with e | e
          · rw [e]; exact .inr (by decide)
          · exact .inr ⟨(n2 _ e).1.le, (n2 _ e).2⟩)
      refine ⟨a', t', _, k1, k2, fun e => absurd e (by simp), fun ps => ?_⟩
      rw [List.mem_singleton]
      constructor
      · rintro rfl
        exact ⟨o', m', hn, by omega, by omega, rfl⟩
      · rintro ⟨o'', m'', j1, -, -, rfl⟩
        obtain ⟨rfl, rfl⟩ := huniq _ _ j1
        rfl
    · rw [blankTag_eq]
      rintro (e | e)
      · have := n1 _ (List.mem_of_mem_head? e)
        omega
      · have := n2 _ (List.mem_of_mem_head? e)
        omega

/-- All units. -/
theorem procAll_spec {lo lm : UString} (hl : lo ≠ lm) (us : List (List Tuv)) (hu : ∀ vs ∈ us, Proper ch lo lm vs) {P : List (List Pair)} {a : Alphabet}
    {t : Transducer W} (h : Memory P a t) : ∃ a' t' Q, procAll ch lo lm us (a, t) = .ok (a', t') ∧ Memory (P ++ Q) a' t' ∧ (Q = [] → t' = t) ∧
      ∀ ps, ps ∈ Q ↔ ∃ o m, Remembers ch lo lm us o m ∧ ps = unitPairs o m := by
  induction us generalizing P a t with
  | nil =>
    refine ⟨a, t, [], rfl, by simpa using h, fun _ => rfl, fun ps => ⟨fun hp => (by cases hp), ?_⟩⟩
    rintro ⟨o, m, ⟨vs, hv, -⟩, -⟩
    cases hv
  | cons vs us ih =>
    obtain ⟨p1, p2, p3⟩ := hu vs (List.mem_cons_self ..)
    obtain ⟨a1, t1, Q1, k1, k2, k4, k3⟩ := procTU_spec (collect_eq hl vs) p1 p2 (p3 _ (trim_spec _)) h
    obtain ⟨a2, t2, Q2, j1, j2, j4, j3⟩ := ih (fun vs hv => hu vs (List.mem_cons_of_mem _ hv)) k2
    refine ⟨a2, t2, Q1 ++ Q2, ?_, ?_, ?_, ?_⟩
    · rw [procAll, k1, Res.bind_ok, j1]
    · rw [← List.append_assoc]; exact j2
    · intro e
      rw [List.append_eq_nil_iff] at e
      rw [j4 e.2, k4 e.1]
    · intro ps
      rw [List.mem_append, k3, j3]
      constructor
      · rintro (⟨o, m, i1, i2, i3, i4⟩ | ⟨o, m, ⟨vs', i1, i2⟩, i4⟩)
        · exact ⟨o, m, ⟨vs, List.mem_cons_self .., i1, i2, i3⟩, i4⟩
        · exact ⟨o, m, ⟨vs', List.mem_cons_of_mem _ i1, i2⟩, i4⟩
      · rintro ⟨o, m, ⟨vs', i1, i2, i3, i5⟩, i4⟩
        rcases List.mem_cons.1 i1 with rfl | i1
        · exact .inl ⟨o, m, i2, i3, i5, i4⟩
        · exact .inr ⟨o, m, ⟨vs', i1, i2, i3, i5⟩, i4⟩

theorem remembers_mem {lo lm : UString} {us : List (List Tuv)} (hu : ∀ vs ∈ us, Proper ch lo lm vs) {o m : List Int} (h : Remembers ch lo lm us o m) :
    (∀ c ∈ o, c = -1 ∨ 0 < c ∧ c < 2 ^ 29) ∧ ∀ c ∈ m, 0 < c ∧ c < 2 ^ 29 := by
  obtain ⟨vs, h1, h2, -⟩ := h
  obtain ⟨p1, p2, p3⟩ := hu vs h1
  exact normal_mem p1 p2 h2

theorem remembers_sides {lo lm : UString} {us : List (List Tuv)} (hu : ∀ vs ∈ us, Proper ch lo lm vs) {o m : List Int} (h : Remembers ch lo lm us o m) :
    ((unitPairs o m).map (·.1)).filter (· ≠ 0) = o ∧ ((unitPairs o m).map (·.2)).filter (· ≠ 0) = m := by
  obtain ⟨h1, h2⟩ := remembers_mem hu h
  have := unitPairs_spec (o := o) (m := m) (fun e => by rcases h1 _ e with e | e <;> omega) (fun e => by have := h2 _ e; omega)
  exact ⟨this.1, this.2.1⟩

/-- The compiled transducer. -/
structure Compiled (R : List Int → List Int → Prop) (a : Alphabet) (t : Transducer W) : Prop where
  ok : Ok a
  tags : a.slexicinv = [numberText, blankText]
  syms : ∀ p ∈ a.spairinv, Stored p.1 ∧ Stored p.2
  wf : WF t
  known : ∀ q l p, Edge t q l p → KA a l.1
  rel : ∀ x y, AccRel a t t.initial x y ↔ R x y

theorem parse_spec {lo lm : UString} (hl : lo ≠ lm) (us : List (List Tuv)) (hu : ∀ vs ∈ us, Proper ch lo lm vs) :
    ∃ a t, parse ch W lo lm us = .ok (a, t) ∧ Compiled (Remembers ch lo lm us) a t := by
  obtain ⟨a, t, Q, h1, h2, -, h3⟩ := procAll_spec (W := W) hl us hu memory_start
  rw [List.nil_append] at h2
  have hrel : ∀ x y, AccRel a t t.initial x y ↔ Remembers ch lo lm us x y := by
    intro x y
    rw [h2.accRel]
    constructor
    · rintro ⟨ps, k1, rfl, rfl⟩
      obtain ⟨o, m, k2, rfl⟩ := (h3 ps).1 k1
      obtain ⟨e1, e2⟩ := remembers_sides hu k2
      rw [e1, e2]
      exact k2
    · intro h
      obtain ⟨e1, e2⟩ := remembers_sides hu h
      exact ⟨_, (h3 _).2 ⟨x, y, h, rfl⟩, e1.symm, e2.symm⟩
  unfold parse
  rw [h1]
  simp only [Res.bind_ok]
  by_cases hQ : Q = []
  · subst hQ
    have hmin : minimize 0 t = .ok t := by
      unfold minimize
      rw [h2.none]
      rfl
    obtain ⟨acc, w1, -⟩ := h2.words
    refine ⟨a, t, by rw [hmin]; rfl, h2.ok, h2.tags, h2.syms, w1.wf, fun q l p he => (h2.lab.edge w1.wf he).1, hrel⟩
  · obtain ⟨t', k1, k2, -, k4, -⟩ := Trim.minimize_piece h2.ok (h2.piece hQ)
    refine ⟨a, t', by rw [k1]; rfl, h2.ok, h2.tags, h2.syms, k2.wf, k2.known, fun x y => (k4 x y).trans (hrel x y)⟩

/-! ## The file -/

theorem tag_number {a : Alphabet} (h : a.slexicinv = [numberText, blankText]) : a.tagText (-1) = .ok numberText := by
  unfold Alphabet.tagText
  rw [h]
  rfl

theorem named_stored {a : Alphabet} (h : a.slexicinv = [numberText, blankText]) {c : Int} (hc : c = -1 ∨ 0 ≤ c) (n : Name) : Named a c n ↔ n = nameOf c := by
  unfold Named nameOf
  rcases hc with rfl | hc
  · rw [tag_number h]
    constructor
    · rintro (⟨h1, -⟩ | ⟨-, s, h2, rfl⟩)
      · omega
      · cases h2; rfl
    · rintro rfl
      exact .inr ⟨by omega, _, rfl, rfl⟩
  · rw [if_neg (by omega)]
    constructor
    · rintro (⟨-, h2⟩ | ⟨h1, -⟩)
      · exact h2
      · omega
    · intro e
      exact .inl ⟨hc, e⟩

theorem named_all {a : Alphabet} (h : a.slexicinv = [numberText, blankText]) {xs : List Int} (hx : ∀ c ∈ xs, c = -1 ∨ 0 ≤ c) (X : List Name) :
    List.Forall₂ (Named a) xs X ↔ X = xs.map nameOf := by
  induction xs generalizing X with
  | nil => simp
  | cons c xs ih =>
    have ih := ih (fun c hc => hx c (List.mem_cons_of_mem _ hc))
    have hc := named_stored h (hx c (List.mem_cons_self ..))
    cases X with
    | nil => simp
    | cons n X => rw [List.forall₂_cons, hc, ih, List.map_cons, List.cons_eq_cons]

omit [AddCommMonoid W] [LinearOrder W] in
theorem Compiled.sane {R : List Int → List Int → Prop} {a : Alphabet} {t : Transducer W} (h : Compiled R a t) : Sane a := by
  refine ⟨h.ok, ?_, ?_⟩
  · intro s hs
    rw [h.tags] at hs
    simp only [List.mem_cons, List.not_mem_nil, or_false] at hs
    rcases hs with rfl | rfl
    · exact ⟨⟨[0x6e], rfl⟩, by decide⟩
    · exact ⟨⟨[0x62], rfl⟩, by decide⟩
  · have : ∀ c, Stored c → Tools.Symbol a c := by
      rintro c (rfl | hc)
      · exact .inr ⟨by decide, _, tag_number h.tags⟩
      · exact .inl hc
    intro p hp
    exact ⟨this _ (h.syms p hp).1, this _ (h.syms p hp).2⟩

/-- The sizes that the file format can hold. -/
def Fits (r : Res (Alphabet × Transducer W)) : Prop :=
  ∀ a t, r = .ok (a, t) → a.spairinv.length < 2 ^ 30 ∧ Fst.size t < 2 ^ 30 ∧ ∀ e ∈ t.transitions, e.2.length < 2 ^ 30

theorem file_spec (g : W → Dbl) (hg : ∀ w, Kept (g w)) {lo lm : UString} (hl : lo ≠ lm) (us : List (List Tuv)) (hu : ∀ vs ∈ us, Proper ch lo lm vs)
    (hf : Fits (parse ch W lo lm us)) : ∃ bs a t, ltTmxcomp ch g lo lm us = .ok bs ∧ Dictionary bs [] a [([], t)] ∧
      ∀ X Y, Trim.NMaps a t X Y ↔ ∃ o m, Remembers ch lo lm us o m ∧ X = o.map nameOf ∧ Y = m.map nameOf := by
  obtain ⟨a, t, h1, h2⟩ := parse_spec (W := W) hl us hu
  obtain ⟨m0, m1, m2⟩ := hf a t h1
  have hcd := Trim.coded_known h2.known
  obtain ⟨bs, g1, g2⟩ := Tools.written (L := []) (a := a) (ts := [(([] : UString), stored g t)]) ⟨.nil, by decide, by simp⟩ h2.sane (by simp) (by simp)
    (by
      intro e he
      rw [List.mem_singleton] at he
      rw [he]
      refine ⟨Chain.wf_stored g h2.wf, ?_, ?_, ?_, ?_, ?_⟩
      · intro q l p hl
        obtain ⟨w, hw, -⟩ := (edge_stored g t _ _ _).1 hl
        exact hcd _ _ _ hw
      · have : Fst.size (stored g t) = Fst.size t := by unfold Fst.size stored; simp
        rw [this]; exact m1
      · intro x hx
        unfold stored at hx
        obtain ⟨x', j1, rfl⟩ := List.mem_map.1 hx
        simpa using m2 x' j1
      · intro q l p hl
        obtain ⟨w, -, hw⟩ := (edge_stored g t _ _ _).1 hl
        rw [hw]; exact hg w
      · intro q w hl
        obtain ⟨u, -, rfl⟩ := (final_stored g t _ _).1 hl
        exact hg u) (by rw [h2.tags]; decide) m0 (by simp)
  refine ⟨bs, a, _, ?_, g2, ?_⟩
  · unfold ltTmxcomp
    rw [h1]
    exact g1
  · intro X Y
    rw [Trim.nmaps_stored]
    unfold Trim.NMaps
    have hsp : ∀ x y, Trim.Spelled a t x y ↔ Remembers ch lo lm us x y := by
      intro x y
      rw [← Trim.maps_spelled, ← Trim.accRel_maps hcd, h2.rel]
    simp only [hsp]
    constructor
    · rintro ⟨x, y, k1, k2, k3⟩
      obtain ⟨n1, n2⟩ := remembers_mem hu k1
      exact ⟨x, y, k1, (named_all h2.tags (fun c hc => (n1 c hc).imp_right fun e => e.1.le) X).1 k2,
        (named_all h2.tags (fun c hc => .inr (n2 c hc).1.le) Y).1 k3⟩
    · rintro ⟨x, y, k1, k2, k3⟩
      obtain ⟨n1, n2⟩ := remembers_mem hu k1
      exact ⟨x, y, k1, (named_all h2.tags (fun c hc => (n1 c hc).imp_right fun e => e.1.le) X).2 k2,
        (named_all h2.tags (fun c hc => .inr (n2 c hc).1.le) Y).2 k3⟩

end Verif.Tmx
