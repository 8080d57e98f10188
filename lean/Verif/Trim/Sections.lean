import Verif.Trim.Dots
import Verif.Product.TrimProps

/-! # The sections of `lt-trim` -/

namespace Verif.Trim

open Verif.Fst Verif.Alphabet Verif.Product Verif.Compiler

set_option linter.unusedSectionVars false

variable {W : Type} [AddCommMonoid W] [LinearOrder W] {a b : Alphabet}

/-- A section of the bilingual dictionary. -/
structure BiSection (b : Alphabet) (t : Transducer W) : Prop where
  piece : Piece b t
  noReturn : NoReturn t
  tags : TagsKnown b t
  queues : NoQueues b t

/-- A section of the analyser. -/
structure MonoSection (a : Alphabet) (t : Transducer W) : Prop where
  piece : Piece a t
  tags : TagsKnown a t
  joining : Joining a t

/-- What `trim` makes of a section. -/
theorem trim_section (ha : Ok a) (hb : Ok b) {t u : Transducer W} (ht : MonoSection a t) (hwf : WF u) (hc : Coded b u) (hk : TagsKnown b u) :
    ∃ r, trim t u a b 0 = .ok r ∧ (r.finals ≠ [] → Piece a r) ∧
      ∀ x y, Maps a r x y ↔ Maps a t x y ∧ Joined a b u y := by
  have hT : Trimmable a b t u := ⟨ha, hb, ht.piece.wf, hwf, coded_known ht.piece.known, hc, ht.tags, hk, ht.piece.finals⟩
  obtain ⟨t', h1, R, h2, -⟩ := ready hT ht.joining
  obtain ⟨s, k1, k2, k3, -, k4, k5, k6⟩ := R.trimmed
  refine ⟨trimFinals t' u s.ids s.t, ?_, ?_, ?_⟩
  · unfold trim
    rw [h1]
    simp only [Res.bind_ok]
    unfold trimStart at k1
    rw [k1]; rfl
  · intro hne
    refine ⟨k4, ?_, known_coded k5, ?_⟩
    · intro p w hf
      obtain ⟨⟨q, hq⟩, -⟩ := k6 p w hf
      obtain ⟨o, f, j1, -, -, j4, -⟩ := joinFinals_zero ht.piece.wf 0 ht.piece.finals ht.piece.zero.noLone
      rw [h1] at j1
      cases j1
      unfold Final at hq
      rw [j4] at hq
      simp only [List.mem_singleton, Prod.mk.injEq] at hq
      exact hq.2
    · obtain ⟨⟨p, w⟩, hp⟩ := List.exists_mem_of_ne_nil _ hne
      obtain ⟨-, ls, h⟩ := k6 p w hp
      exact ⟨ls, p, w, h, hp⟩
  · intro x y
    constructor
    · rintro ⟨w, hw⟩
      obtain ⟨v, u, g1, g2, g3, g4⟩ := k2 x y w hw
      exact ⟨⟨v, (h2 false _ _ _).1 g1⟩, (passed_joined ha).1 g4⟩
    · rintro ⟨⟨v, g1⟩, g2⟩
      exact k3 x y v ((h2 false _ _ _).2 g1) ((passed_joined ha).2 g2)

omit [LinearOrder W] in
theorem no_arcs {t : Transducer W} (h : numberOfTransitions t = 0) {x y : List Int} (hm : Maps a t x y) : x = [] ∧ y = [] := by
  obtain ⟨p, u, v, h1, -⟩ := maps_tr.1 hm
  have hE : ∀ q x y w p, ¬ dir false a t q x y w p := by
    rintro q x y w p ⟨c, -, he⟩
    have := length_row_le t q
    rw [h] at this
    have h0 : row t q = [] := List.length_eq_zero_iff.1 (by omega)
    unfold Edge at he
    rw [h0] at he
    cases he
  cases h1 with
  | nil => exact ⟨rfl, rfl⟩
  | cons he _ => exact absurd he (hE _ _ _ _ _)

theorem trimSections_spec (ha : Ok a) (hb : Ok b) (moved : List (UString × Transducer W))
    (hmoved : ∀ k, WF (chosen moved k) ∧ Coded b (chosen moved k) ∧ TagsKnown b (chosen moved k)) (ts : List (UString × Transducer W))
    (hts : ∀ e ∈ ts, MonoSection a e.2) :
    ∃ rs, trimSections moved a b ts = .ok rs ∧ (rs.map (·.1)).Sublist (ts.map (·.1)) ∧
      (∀ e ∈ rs, ∃ t, (e.1, t) ∈ ts ∧ Piece a e.2 ∧ ∀ x y, Maps a e.2 x y ↔ Maps a t x y ∧ Joined a b (chosen moved e.1) y) ∧
      ∀ e ∈ ts, ∀ x y, (x ≠ [] ∨ y ≠ []) → Maps a e.2 x y → Joined a b (chosen moved e.1) y → ∃ r, (e.1, r) ∈ rs ∧ Maps a r x y := by
  induction ts with
  | nil => exact ⟨[], rfl, .slnil, by simp, by simp⟩
  | cons e ts ih =>
    obtain ⟨k, t⟩ := e
    obtain ⟨rs, h1, h2, h3, h4⟩ := ih fun e he => hts e (List.mem_cons_of_mem _ he)
    have h3' : ∀ e ∈ rs, ∃ t', (e.1, t') ∈ (k, t) :: ts ∧ Piece a e.2 ∧ ∀ x y, Maps a e.2 x y ↔ Maps a t' x y ∧ Joined a b (chosen moved e.1) y := fun e he => by
      obtain ⟨t', g1, g2⟩ := h3 e he
      exact ⟨t', List.mem_cons_of_mem _ g1, g2⟩
    rw [trimSections]
    split
    · next hn =>
      refine ⟨rs, h1, h2.trans (List.sublist_cons_self ..), h3', ?_⟩
      intro e he x y hxy hm hp
      rcases List.mem_cons.1 he with rfl | he
      · obtain ⟨rfl, rfl⟩ := no_arcs hn hm
        simp at hxy
      · exact h4 e he x y hxy hm hp
    · have hs := hts _ (List.mem_cons_self ..)
      obtain ⟨m1, m2, m3⟩ := hmoved k
      obtain ⟨r, g1, g2, g3⟩ := trim_section ha hb hs m1 m2 m3
      simp only at g1 g3
      rw [g1]
      simp only [Res.bind_ok]
      by_cases hr : r.finals = []
      · rw [hr]
        simp only [List.isEmpty_nil, if_true]
        refine ⟨rs, h1, h2.trans (List.sublist_cons_self ..), h3', ?_⟩
        intro e he x y hxy hm hp
        rcases List.mem_cons.1 he with rfl | he
        · obtain ⟨p, u, v, -, j⟩ := maps_tr.1 ((g3 x y).2 ⟨hm, hp⟩)
          unfold Final at j
          rw [hr] at j
          cases j
        · exact h4 e he x y hxy hm hp
      · have hre : r.finals.isEmpty = false := by
          cases hf : r.finals with
          | nil => exact absurd hf hr
          | cons => rfl
        rw [hre]
        simp only [Bool.false_eq_true, if_false]
        have hP := g2 hr
        obtain ⟨r', j1, j2, -, j4, -⟩ := minimize_piece ha hP
        have hM : ∀ x y, Maps a r' x y ↔ Maps a t x y ∧ Joined a b (chosen moved k) y := by
          intro x y
          rw [← accRel_maps (coded_known j2.known), j4, accRel_maps (coded_known hP.known)]
          exact g3 x y
        refine ⟨(k, r') :: rs, ?_, ?_, ?_, ?_⟩
        · rw [j1, h1]; rfl
        · exact h2.cons_cons k
        · intro e he
          rcases List.mem_cons.1 he with rfl | he
          · exact ⟨t, List.mem_cons_self .., j2, hM⟩
          · exact h3' e he
        · intro e he x y hxy hm hp
          rcases List.mem_cons.1 he with rfl | he
          · exact ⟨r', List.mem_cons_self .., (hM x y).2 ⟨hm, hp⟩⟩
          · obtain ⟨r'', q1, q2⟩ := h4 e he x y hxy hm hp
            exact ⟨r'', List.mem_cons_of_mem _ q1, q2⟩

/-! ## The transducers to trim with -/

/-- Entries of `t` with tags after them. -/
structure Prepared (S : List Int) (G : Int → Prop) (b : Alphabet) (M : List Int → Prop) (r : Transducer W) : Prop where
  wf : WF r
  coded : Coded b r
  tags : TagsKnown b r
  sound : ∀ x z, Maps b r x z → ∃ x1 x2, x = x1 ++ x2 ∧ M x1 ∧ ∀ c ∈ x2, G c
  complete : ∀ x1 x2, M x1 → (∀ y ∈ x2, ∃ c ∈ S, HasPair b c (y, y)) → ∃ z, Maps b r (x1 ++ x2) z
  live : (∃ x, M x) → Live r

omit [LinearOrder W] in
theorem Prepared.congr {S : List Int} {G : Int → Prop} {M M' : List Int → Prop} {r : Transducer W} (h : Prepared S G b M r) (hM : ∀ x, M x ↔ M' x) :
    Prepared S G b M' r := by
  have : M = M' := by funext x; exact propext (hM x)
  rwa [← this]

/-- The left sides of a transducer. -/
def Lefts (b : Alphabet) (t : Transducer W) (x : List Int) : Prop := ∃ z, Maps b t x z

theorem prepared (hb : Ok b) {t : Transducer W} (ht : WF t) (hc : Coded b t) (hg : NoQueues b t) (hk : TagsKnown b t) (hr : Reached t) {S : List Int} {G : Int → Prop}
    (hS : ∀ c ∈ S, ∃ y s, HasPair b c (y, y) ∧ HasTag b y s ∧ s ≠ GROUP ∧ G y)
    (hG : ∀ x1 x2, Lefts b t x1 → Lefts b t (x1 ++ x2) → ∀ c ∈ x2, G c) (hl : (∃ x, Lefts b t x) → Live t) :
    ∃ r, prepare S b t = .ok r ∧ Prepared S G b (Lefts b t) r := by
  obtain ⟨r, h1, h2, h3, h4, h5, h6, h7⟩ := prepare_spec hb ht hc hg hk hr hS (fun x1 y1 x2 y2 m1 m2 => hG x1 x2 ⟨y1, m1⟩ ⟨y2, m2⟩)
  refine ⟨r, h1, h2, h3, h4, ?_, ?_, fun h => h7 (hl h)⟩
  · intro x z hm
    obtain ⟨x1, x2, z1, g1, g2, g3⟩ := h5 x z hm
    exact ⟨x1, x2, g1, ⟨z1, g2⟩, g3⟩
  · rintro x1 x2 ⟨z1, g1⟩ g2
    exact h6 x1 x2 z1 g1 g2

section
variable (names : List UString) (S : List Int) (G : Int → Prop)

/-- The sections that `k` is trimmed with: its namesake, if that was asked for and exists, or all that were not asked for. -/
def Partner (us : List (UString × Transducer W)) (k k' : UString) : Prop :=
  (k ∈ names ∧ k ∈ us.map (·.1) ∧ k' = k) ∨ (¬ (k ∈ names ∧ k ∈ us.map (·.1)) ∧ k' ∉ names)

theorem sortSections_spec (hb : Ok b) (hS : ∀ c ∈ S, ∃ y s, HasPair b c (y, y) ∧ HasTag b y s ∧ s ≠ GROUP ∧ G y)
    (us : List (UString × Transducer W)) (hus : ∀ e ∈ us, BiSection b e.2) (hr : ∀ e ∈ us, e.1 ∈ names → Reached e.2)
    (hlv : ∀ e ∈ us, e.1 ∈ names → Live e.2) (hG : ∀ e ∈ us, e.1 ∈ names → ∀ x1 x2, Lefts b e.2 x1 → Lefts b e.2 (x1 ++ x2) → ∀ c ∈ x2, G c) (hd : us.Pairwise (fun x y => x.1 < y.1)) :
    ∀ moved u, SortedKeys moved → (u = Fst.empty ∨ Piece b u ∧ NoReturn u) → (∀ q l p, PairEdge b u q l p → (∃ s, b.getSymbol l.1.1 = .ok s ∧ s ≠ GROUP) ∧ (∃ n, Named b l.1.1 n) ∧ ∃ n, Named b l.1.2 n) →
      ∃ moved' u', sortSections names S b us (moved, u) = .ok (moved', u') ∧ SortedKeys moved' ∧ (u' = Fst.empty ∨ Piece b u' ∧ NoReturn u') ∧
        (∀ q l p, PairEdge b u' q l p → (∃ s, b.getSymbol l.1.1 = .ok s ∧ s ≠ GROUP) ∧ (∃ n, Named b l.1.1 n) ∧ ∃ n, Named b l.1.2 n) ∧
        (∀ x, Lefts b u' x ↔ Lefts b u x ∨ ∃ e ∈ us, e.1 ∉ names ∧ Lefts b e.2 x) ∧
        (∀ e ∈ us, e.1 ∈ names → ∃ r, mapFind e.1 moved' = some r ∧ Prepared S G b (Lefts b e.2) r) ∧
        ∀ k, ¬ (k ∈ names ∧ k ∈ us.map (·.1)) → mapFind k moved' = mapFind k moved := by
  induction us with
  | nil =>
    intro moved u h1 h2 h3
    exact ⟨moved, u, rfl, h1, h2, h3, by simp, by simp, fun _ _ => rfl⟩
  | cons e us ih =>
    obtain ⟨k, t⟩ := e
    rw [List.pairwise_cons] at hd
    have ih := ih (fun e he => hus e (List.mem_cons_of_mem _ he)) (fun e he => hr e (List.mem_cons_of_mem _ he)) (fun e he => hlv e (List.mem_cons_of_mem _ he)) (fun e he => hG e (List.mem_cons_of_mem _ he)) hd.2
    have hknot : k ∉ us.map (·.1) := by
      intro hx
      obtain ⟨e, he, rfl⟩ := List.mem_map.1 hx
      exact lt_irrefl _ (hd.1 e he)
    intro moved u h1 h2 h3
    have hB := hus _ (List.mem_cons_self ..)
    simp only at hB
    rw [sortSections]
    split
    · next hk =>
      obtain ⟨r, g1, g2⟩ := prepared hb hB.piece.wf (coded_known hB.piece.known) hB.queues hB.tags (hr _ (List.mem_cons_self ..) hk) hS (hG _ (List.mem_cons_self ..) hk) (fun _ => hlv _ (List.mem_cons_self ..) hk)
      rw [g1]
      simp only [Res.bind_ok]
      obtain ⟨moved', u', j1, j2, j3, j4, j5, j6, j7⟩ := ih (mapSet k r moved) u (by rw [mapSet_eq_modify]; exact sorted_modify h1 _ _ _) h2 h3
      refine ⟨moved', u', j1, j2, j3, j4, ?_, ?_, ?_⟩
      · intro x
        rw [j5]
        constructor
        · rintro (h | ⟨e, he, h⟩)
          · exact .inl h
          · exact .inr ⟨e, List.mem_cons_of_mem _ he, h⟩
        · rintro (h | ⟨e, he, h, h'⟩)
          · exact .inl h
          · rcases List.mem_cons.1 he with rfl | he
            · exact absurd hk h
            · exact .inr ⟨e, he, h, h'⟩
      · intro e he hn
        rcases List.mem_cons.1 he with rfl | he
        · refine ⟨r, ?_, g2⟩
          simp only
          rw [j7 k (fun h => hknot h.2), mapSet_eq_modify, mapFind_modify h1, if_pos rfl]
        · exact j6 e he hn
      · intro k' hk'
        rw [j7 k' (fun h => hk' ⟨h.1, List.mem_cons_of_mem _ h.2⟩), mapSet_eq_modify, mapFind_modify h1, if_neg]
        rintro rfl
        exact hk' ⟨hk, List.mem_cons_self ..⟩
    · next hk =>
      obtain ⟨u1, g1, g2, g3, g4, g5⟩ : ∃ u1, unite t u = .ok u1 ∧ Piece b u1 ∧ NoReturn u1 ∧
          (∀ x y, AccRel b u1 u1.initial x y ↔ AccRel b u u.initial x y ∨ AccRel b t t.initial x y) ∧
          ∀ q l p, PairEdge b u1 q l p → (∃ s, b.getSymbol l.1.1 = .ok s ∧ s ≠ GROUP) ∧ (∃ n, Named b l.1.1 n) ∧ ∃ n, Named b l.1.2 n := by
        obtain ⟨u1, g1, g2, g3, g4, g5⟩ := unite_spec hb hB.piece hB.noReturn h2
        refine ⟨u1, g1, g2, g3, g4, ?_⟩
        rintro q l p ⟨c, m1, m2⟩
        rcases g5 _ _ _ m2 with ⟨q', w', p', m3 | m3⟩ | m3
        · exact h3 q' (l.1, w') p' ⟨c, m1, m3⟩
        · exact ⟨hB.queues q' (l.1, w') p' ⟨c, m1, m3⟩, hB.tags q' (l.1, w') p' ⟨c, m1, m3⟩⟩
        · simp only at m3
          rw [m3] at m1
          have := (decode_iff.1 m1).pair_unique ⟨0, hb.zero, rfl⟩
          rw [this]
          exact ⟨⟨[], rfl, by decide⟩, ⟨.letter 0, .inl ⟨le_refl _, rfl⟩⟩, ⟨.letter 0, .inl ⟨le_refl _, rfl⟩⟩⟩
      rw [g1]
      simp only [Res.bind_ok]
      obtain ⟨moved', u', j1, j2, j3, j4, j5, j6, j7⟩ := ih moved u1 h1 (.inr ⟨g2, g3⟩) g5
      have hu : Coded b u := by
        rcases h2 with rfl | h2
        · intro q l p he; exact absurd he (start_edge _ _ _)
        · exact coded_known h2.1.known
      have hL : ∀ x, Lefts b u1 x ↔ Lefts b u x ∨ Lefts b t x := by
        intro x
        unfold Lefts
        rw [← exists_or]
        refine exists_congr fun y => ?_
        rw [← accRel_maps (coded_known g2.known), g4, accRel_maps hu, accRel_maps (coded_known hB.piece.known)]
      refine ⟨moved', u', j1, j2, j3, j4, ?_, ?_, ?_⟩
      · intro x
        rw [j5, hL]
        constructor
        · rintro ((h | h) | ⟨e, he, h⟩)
          · exact .inl h
          · exact .inr ⟨_, List.mem_cons_self .., hk, h⟩
          · exact .inr ⟨e, List.mem_cons_of_mem _ he, h⟩
        · rintro (h | ⟨e, he, h, h'⟩)
          · exact .inl (.inl h)
          · rcases List.mem_cons.1 he with rfl | he
            · exact .inl (.inr h')
            · exact .inr ⟨e, he, h, h'⟩
      · intro e he hn
        rcases List.mem_cons.1 he with rfl | he
        · exact absurd hn hk
        · exact j6 e he hn
      · intro k' hk'
        exact j7 k' (fun h => hk' ⟨h.1, List.mem_cons_of_mem _ h.2⟩)

theorem known_labels (hb : Ok b) {u u' : Transducer W} (hu : ∀ q l p, PairEdge b u q l p → (∃ s, b.getSymbol l.1.1 = .ok s ∧ s ≠ GROUP) ∧ (∃ n, Named b l.1.1 n) ∧ ∃ n, Named b l.1.2 n)
    (h : ∀ q l p, Edge u' q l p → (∃ q' p', Edge u q' l p') ∨ l.1 = 0) :
    ∀ q l p, PairEdge b u' q l p → (∃ s, b.getSymbol l.1.1 = .ok s ∧ s ≠ GROUP) ∧ (∃ n, Named b l.1.1 n) ∧ ∃ n, Named b l.1.2 n := by
  rintro q l p ⟨c, m1, m2⟩
  rcases h _ _ _ m2 with ⟨q', p', m3⟩ | m3
  · exact hu q' l p' ⟨c, m1, m3⟩
  · simp only at m3
    rw [m3] at m1
    have := (decode_iff.1 m1).pair_unique ⟨0, hb.zero, rfl⟩
    rw [this]
    exact ⟨⟨[], rfl, by decide⟩, ⟨.letter 0, .inl ⟨le_refl _, rfl⟩⟩, ⟨.letter 0, .inl ⟨le_refl _, rfl⟩⟩⟩

theorem trimmers_spec (hn : [] ∉ names) (hb : Ok b) (hS : ∀ c ∈ S, ∃ y s, HasPair b c (y, y) ∧ HasTag b y s ∧ s ≠ GROUP ∧ G y)
    (us : List (UString × Transducer W)) (hus : ∀ e ∈ us, BiSection b e.2) (hr : ∀ e ∈ us, e.1 ∈ names → Reached e.2) (hlv : ∀ e ∈ us, e.1 ∈ names → Live e.2)
    (hG : ∀ e ∈ us, ∀ e' ∈ us, (e.1 = e'.1 ∧ e.1 ∈ names ∨ e.1 ∉ names ∧ e'.1 ∉ names) → ∀ x1 x2, Lefts b e.2 x1 → Lefts b e'.2 (x1 ++ x2) → ∀ c ∈ x2, G c)
    (hd : us.Pairwise (fun x y => x.1 < y.1)) :
    ∃ moved, trimmers names S b us = .ok moved ∧
      ∀ k, Prepared S G b (fun x => ∃ e ∈ us, Partner names us k e.1 ∧ Lefts b e.2 x) (chosen moved k) := by
  obtain ⟨moved, u, h1, h2, h3, h4, h5, h6, h7⟩ := sortSections_spec names S G hb hS us hus hr hlv (fun e he hk => hG e he e he (.inl ⟨rfl, hk⟩)) hd [] Fst.empty
    List.Pairwise.nil (.inl rfl) (by rintro q l p ⟨c, -, he⟩; exact absurd he (start_edge _ _ _))
  have h5 : ∀ x, Lefts b u x ↔ ∃ e ∈ us, e.1 ∉ names ∧ Lefts b e.2 x := by
    intro x
    rw [h5]
    constructor
    · rintro (⟨z, h⟩ | h)
      · rw [← accRel_maps (by intro q l p he; exact absurd he (start_edge _ _ _))] at h
        exact absurd h (accRel_empty _ _ _)
      · exact h
    · exact .inr
  obtain ⟨u1, g1, g2, g3, g4, g5, g7, g6⟩ : ∃ u1, minimize 0 u = .ok u1 ∧ WF u1 ∧ Coded b u1 ∧ Reached u1 ∧ (∀ x, Lefts b u1 x ↔ Lefts b u x) ∧
      ((∃ x, Lefts b u1 x) → Live u1) ∧ ∀ q l p, PairEdge b u1 q l p → (∃ s, b.getSymbol l.1.1 = .ok s ∧ s ≠ GROUP) ∧ (∃ n, Named b l.1.1 n) ∧ ∃ n, Named b l.1.2 n := by
    rcases h3 with rfl | ⟨h3, -⟩
    · refine ⟨Fst.empty, rfl, start_wf, ?_, ?_, fun x => Iff.rfl, ?_, h4⟩
      rotate_left 2
      · rintro ⟨x, z, hz⟩
        obtain ⟨p, _, v, -, hf⟩ := maps_tr.1 hz
        cases hf
      · intro q l p he; exact absurd he (start_edge _ _ _)
      · intro p w hf; cases hf
    · obtain ⟨u1, j1, j2, j3, j4, j5⟩ := minimize_piece hb h3
      refine ⟨u1, j1, j2.wf, coded_known j2.known, j3, fun x => exists_congr fun y => ?_, fun _ => minimize_live hb h3 j1, known_labels hb h4 j5⟩
      rw [← accRel_maps (coded_known j2.known), j4, accRel_maps (coded_known h3.known)]
  obtain ⟨r, k1, k2⟩ := prepared hb g2 g3 (fun q l p he => (g6 q l p he).1) (fun q l p he => (g6 q l p he).2) g4 hS (by
    intro x1 x2 m1 m2
    rw [g5, h5] at m1 m2
    obtain ⟨e, he, hk, m1⟩ := m1
    obtain ⟨e', he', hk', m2⟩ := m2
    exact hG e he e' he' (.inr ⟨hk, hk'⟩) x1 x2 m1 m2) g7
  refine ⟨mapSet [] r moved, ?_, ?_⟩
  · unfold trimmers
    rw [h1]
    simp only [Res.bind_ok]
    rw [g1]
    simp only [Res.bind_ok]
    rw [k1]; rfl
  · intro k
    have hfind : ∀ k, mapFind k (mapSet [] r moved) = if k = [] then some r else mapFind k moved := fun k => by
      rw [mapSet_eq_modify, mapFind_modify h2]
    by_cases hk : k ∈ names ∧ k ∈ us.map (·.1)
    · obtain ⟨e, he, hek⟩ := List.mem_map.1 hk.2
      obtain ⟨r', m1, m2⟩ := h6 e he (by rw [hek]; exact hk.1)
      have hc : chosen (mapSet [] r moved) k = r' := by
        unfold chosen
        rw [hfind, if_neg (by rintro rfl; exact hn hk.1), ← hek, m1]
        rfl
      rw [hc]
      refine m2.congr fun x => ?_
      constructor
      · intro h
        exact ⟨e, he, .inl ⟨hk.1, hk.2, hek⟩, h⟩
      · rintro ⟨e', he', hp, h⟩
        rcases hp with ⟨-, -, hp⟩ | ⟨hp, -⟩
        · have a1 := mapFind_of_mem (m := us) hd (k := e.1) (v := e.2) he
          have a2 := mapFind_of_mem (m := us) hd (k := e'.1) (v := e'.2) he'
          rw [hp] at a2
          rw [hek, a2] at a1
          rw [← Option.some.inj a1]; exact h
        · exact absurd hk hp
    · have hc : chosen (mapSet [] r moved) k = r := by
        unfold chosen
        rw [hfind, hfind, if_pos rfl]
        split
        · rfl
        · rw [h7 k hk]; rfl
      rw [hc]
      refine k2.congr fun x => ?_
      rw [g5, h5]
      constructor
      · rintro ⟨e, he, h, h'⟩
        exact ⟨e, he, .inr ⟨hk, h⟩, h'⟩
      · rintro ⟨e, he, h | ⟨-, h⟩, h'⟩
        · exact absurd ⟨h.1, h.2.1⟩ hk
        · exact ⟨e, he, h, h'⟩

end

end Verif.Trim
