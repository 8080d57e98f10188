import Verif.Product.Whole

/-! # Properties of composition (C49) -/

namespace Verif.Product

open Verif.Fst Verif.Alphabet

variable {W : Type} [AddCommMonoid W]

/-- What is needed of `f` and of `f` with joined final states. -/
theorem Composable.joined {fa ga : Alphabet} {f g : Transducer W} (h : Composable fa ga f g) :
    ∃ f', joinFinals 0 f = .ok f' ∧ WF f' ∧ Known fa ga f' g ∧ (∀ inverted x y w, RelatesDir inverted fa f' x y w ↔ RelatesDir inverted fa f x y w) ∧
      ∀ inverted, NoRivals inverted fa ga f g → NoRivals inverted fa ga f' g := by
  have hO := h.falpha
  have h0 : fa.decode 0 = .ok (0, 0) := decode_iff.2 ⟨0, hO.zero, rfl⟩
  have hn : ∃ n, Named fa 0 n := ⟨.letter 0, .inl ⟨le_rfl, rfl⟩⟩
  obtain ⟨f', h1, h2, -, h4, h5⟩ := Product.joined h.fwf h.finals fa hO
  rcases h4 with rfl | ⟨n, rfl, h4⟩
  · exact ⟨f', h1, h2, ⟨hO, h.fcoded, h.gcoded, h.ftags, h.gtags, h.shared⟩, h5, fun _ h => h⟩
  · have hP : ∀ q l p, PairEdge fa f' q l p → PairEdge fa f q l p ∨ (p = Fst.size f ∧ l.1 = (0, 0) ∧ Final f q l.2) := by
      rintro q l p ⟨c, g1, g2⟩
      rcases (h4 _ _ _).1 g2 with g2 | ⟨rfl, g2, g3⟩
      · exact .inl ⟨c, g1, g2⟩
      · simp only at g2
        rw [g2, h0] at g1
        exact .inr ⟨rfl, (Res.ok.inj g1).symm, g3⟩
    have hlt : ∀ q l p, PairEdge fa f q l p → q < Fst.size f ∧ p < Fst.size f := by
      rintro q l p ⟨c, -, he⟩
      exact ⟨h.fwf.source_lt he, h.fwf.target_lt _ _ _ he⟩
    refine ⟨f', h1, h2, ⟨hO, ?_, h.gcoded, ?_, h.gtags, h.shared⟩, h5, ?_⟩
    · intro q l p he
      rcases (h4 _ _ _).1 he with he | ⟨-, he, -⟩
      · exact h.fcoded _ _ _ he
      · rw [he]; exact ⟨_, h0⟩
    · intro q l p he
      rcases hP _ _ _ he with he | ⟨-, he, -⟩
      · exact h.ftags _ _ _ he
      · rw [he]; exact ⟨hn, hn⟩
    · intro inverted N
      refine ⟨?_, ?_, N.gone, N.gloop⟩
      · intro p x o o' w w' r g1 g2
        rcases hP _ _ _ g1 with g1 | ⟨rfl, -, g1⟩ <;> rcases hP _ _ _ g2 with g2 | ⟨g3, -, g2⟩
        · exact N.fone _ _ _ _ _ _ _ g1 g2
        · have := (hlt _ _ _ g1).2; omega
        · have := (hlt _ _ _ g2).2; omega
        · have a1 := (mapFind_iff h.fwf.finals_sorted).2 g1
          have a2 := (mapFind_iff h.fwf.finals_sorted).2 g2
          rw [a1] at a2; exact Option.some.inj a2
      · intro p o w g1
        rcases hP _ _ _ g1 with g1 | ⟨rfl, -, g1⟩
        · exact N.floop _ _ _ g1
        · have := h.fwf.finals_lt _ _ g1; omega

theorem unique_weights {inverted anywhere : Bool} {fa ga : Alphabet} {f g : Transducer W} (K : Known fa ga f g) (hga : Ok ga)
    (N : NoRivals inverted fa ga f g) (hany : anywhere = true → ∀ l, ¬ PairEdge ga g g.initial l g.initial) :
    ∀ n x y w w' m, PE fa ga inverted f g anywhere n x y w m → PE fa ga inverted f g anywhere n x y w' m → w = w' := by
  have trinj : ∀ q r y z w q' r' y' z' w', PairEdge ga g q ((y, z), w) r → PairEdge ga g q' ((y', z'), w') r' → tr fa ga z = tr fa ga z' → z = z' := by
    intro q r y z w q' r' y' z' w' h1 h2 h3
    have s1 := same_tr K h1
    have s2 := same_tr K h2
    rw [h3] at s1
    exact same_unique (fa := ga) (ga := fa) hga (z := tr fa ga z') (s1.imp fun _ h => ⟨h.2, h.1⟩) (s2.imp fun _ h => ⟨h.2, h.1⟩)
  have tr0 : ∀ q r y z w, PairEdge ga g q ((y, z), w) r → tr fa ga z = 0 → z = 0 := by
    intro q r y z w h1 h2
    by_contra h0
    exact same_ne_zero (same_tr K h1) h0 h2
  have noKeep : ∀ (q : Nat) (y z u : Int) (w : W), PairEdge ga g q ((y, z), w) q → (anywhere = true ∧ q = g.initial ∨ u = 0) →
      tr fa ga z = u → False := by
    intro q y z u w h1 h2 h3
    rcases h2 with ⟨h2, rfl⟩ | rfl
    · exact hany h2 _ h1
    · rw [tr0 _ _ _ _ _ h1 h3] at h1
      exact N.gloop _ _ _ h1
  intro n x y w w' m h1 h2
  rcases h1 with ⟨z, r, k1, k2, rfl⟩ | ⟨x1, o, v, r, k1, k2⟩ <;> rcases h2 with ⟨z', r', l1, l2, l3⟩ | ⟨x2, o', v', r', l1, l2⟩
  · obtain ⟨rfl, rfl⟩ := mk_inj k2
    obtain ⟨-, l2⟩ := mk_inj l2
    obtain rfl := trinj _ _ _ _ _ _ _ _ _ _ k1 l1 l2
    have : r = r' := congrArg (fun n : Two => (ofLex n).2) l3
    subst this
    exact N.gone _ _ _ _ _ _ _ k1 l1
  · exfalso
    obtain ⟨rfl, rfl⟩ := mk_inj k2
    rcases l2 with ⟨y', z', u, r'', -, -, -, l2, -, l3⟩ | ⟨-, l2, -, l3⟩
    · obtain ⟨rfl, -⟩ := mk_inj l2
      have : (ofLex n).1 = r' := congrArg (fun n : Two => (ofLex n).1) l3
      rw [← this] at l1
      exact N.floop _ _ _ l1
    · obtain ⟨rfl, -⟩ := mk_inj l2
      have : (ofLex n).1 = r' := congrArg (fun n : Two => (ofLex n).1) l3
      rw [← this] at l1
      exact N.floop _ _ _ l1
  · exfalso
    obtain ⟨rfl, rfl⟩ := mk_inj l2
    subst l3
    rcases k2 with ⟨y', z', u, r'', -, -, -, k2, -, k3⟩ | ⟨-, k2, -, k3⟩
    · obtain ⟨rfl, -⟩ := mk_inj k2
      have : (ofLex n).1 = r := congrArg (fun n : Two => (ofLex n).1) k3
      rw [← this] at k1
      exact N.floop _ _ _ k1
    · obtain ⟨rfl, -⟩ := mk_inj k2
      have : (ofLex n).1 = r := congrArg (fun n : Two => (ofLex n).1) k3
      rw [← this] at k1
      exact N.floop _ _ _ k1
  · rcases k2 with ⟨y1, z1, u1, r1, k2, -, -, k3, rfl, rfl⟩ | ⟨k2, k3, rfl, rfl⟩ <;>
      rcases l2 with ⟨y2, z2, u2, r2, l2, -, -, l3, rfl, l4⟩ | ⟨l2, l3, rfl, l4⟩
    · obtain ⟨rfl, rfl⟩ := mk_inj k3
      obtain ⟨rfl, l5⟩ := mk_inj l3
      have e1 : r = r' := congrArg (fun n : Two => (ofLex n).1) l4
      have e2 : r1 = r2 := congrArg (fun n : Two => (ofLex n).2) l4
      subst e1; subst e2
      obtain rfl := trinj _ _ _ _ _ _ _ _ _ _ k2 l2 l5
      rw [N.fone _ _ _ _ _ _ _ k1 l1, N.gone _ _ _ _ _ _ _ k2 l2]
    · exfalso
      obtain ⟨rfl, rfl⟩ := mk_inj k3
      obtain ⟨rfl, l5⟩ := mk_inj l3
      have e2 : r1 = (ofLex n).2 := congrArg (fun n : Two => (ofLex n).2) l4
      subst e2
      exact noKeep _ _ _ _ _ k2 l2 l5
    · exfalso
      obtain ⟨rfl, rfl⟩ := mk_inj k3
      obtain ⟨rfl, l5⟩ := mk_inj l3
      have e2 : (ofLex n).2 = r2 := congrArg (fun n : Two => (ofLex n).2) l4
      subst e2
      exact noKeep _ _ _ _ _ l2 k2 l5.symm
    · obtain ⟨rfl, rfl⟩ := mk_inj k3
      obtain ⟨rfl, rfl⟩ := mk_inj l3
      have e1 : r = r' := congrArg (fun n : Two => (ofLex n).1) l4
      subst e1
      exact N.fone _ _ _ _ _ _ _ k1 l1

/-- **C49** Composing two transducers ends and succeeds. The result is well formed; the alphabet of the first keeps its codes. The
result relates `x` to `z` with a weight only if `f` relates `x` to some `y`, `g` relates a string that meets `y` symbol for symbol (the
same symbols or wildcards) to `z`, and the weights add up to that weight. Conversely, whenever `f` and `g` relate `x` to `z` in this
way, the result relates them, with some weight. Missing: the result may have another of the possible weights, because of two arcs with
the same label between the same states only the first is kept (`C49_weights_false`); see `C49_weights` for when that cannot happen. -/
theorem C49_compose_partial (fa ga : Alphabet) (f g : Transducer W) (h : Composable fa ga f g) (inverted : Bool) :
    ∃ a gf, compose f g fa ga inverted false 0 = .ok (a, gf) ∧ WF gf ∧ Coded a gf ∧ Keeps fa a ∧
      (∀ x z w, RelatesDir inverted a gf x z w → ∃ y y' z' w1 w2, RelatesDir inverted fa f x y w1 ∧
        List.Forall₂ (Meets fa ga) y y' ∧ Relates ga g y' z' w2 ∧ List.Forall₂ (Same fa ga) z z' ∧ w = w1 + w2) ∧
      (∀ x y y' z z' w1 w2, RelatesDir inverted fa f x y w1 → List.Forall₂ (Meets fa ga) y y' → Relates ga g y' z' w2 →
        List.Forall₂ (Same fa ga) z z' → ∃ w, RelatesDir inverted a gf x z w) := by
  obtain ⟨f', h1, h2, K, h3, -⟩ := h.joined
  obtain ⟨a, gf, k1, k2, k3, k4, -, k6, k7, -, -⟩ := composed_relates K h2 h.gwf inverted false
  refine ⟨a, gf, ?_, k2, k3, keeps_of_ext k4, ?_, ?_⟩
  · unfold compose; rw [h1]; exact k1
  · intro x z w hw
    obtain ⟨y, w1, w2, g1, g2, g3⟩ := k6 x z w hw
    obtain ⟨y', z', g4, g5, g6⟩ := (gRel_false K).1 g2
    exact ⟨y, y', z', w1, w2, (h3 _ _ _ _).1 g1, g4, g5, g6, g3⟩
  · intro x y y' z z' w1 w2 g1 g2 g3 g4
    exact k7 x y z w1 w2 ((h3 _ _ _ _).2 g1) ((gRel_false K).2 ⟨y', z', g2, g3, g4⟩)

/-- **C49** If no arcs compete for the same place (for example when all weights are zero and there are no empty loops), the result
of composing two transducers relates `x` to `z` with exactly the sums of the weights of `f` and `g`. -/
theorem C49_weights (fa ga : Alphabet) (f g : Transducer W) (h : Composable fa ga f g) (inverted : Bool) (hN : NoRivals inverted fa ga f g) :
    ∃ a gf, compose f g fa ga inverted false 0 = .ok (a, gf) ∧
      ∀ x z w, RelatesDir inverted a gf x z w ↔ ∃ y y' z' w1 w2, RelatesDir inverted fa f x y w1 ∧
        List.Forall₂ (Meets fa ga) y y' ∧ Relates ga g y' z' w2 ∧ List.Forall₂ (Same fa ga) z z' ∧ w = w1 + w2 := by
  obtain ⟨f', h1, h2, K, h3, h4⟩ := h.joined
  obtain ⟨a, gf, k1, k2, k3, k4, -, k6, -, k8, -⟩ := composed_relates K h2 h.gwf inverted false
  refine ⟨a, gf, ?_, ?_⟩
  · unfold compose; rw [h1]; exact k1
  · intro x z w
    constructor
    · intro hw
      obtain ⟨y, w1, w2, g1, g2, g3⟩ := k6 x z w hw
      obtain ⟨y', z', g4, g5, g6⟩ := (gRel_false K).1 g2
      exact ⟨y, y', z', w1, w2, (h3 _ _ _ _).1 g1, g4, g5, g6, g3⟩
    · rintro ⟨y, y', z', w1, w2, g1, g2, g3, g4, rfl⟩
      exact k8 (unique_weights K h.galpha (h4 _ hN) (by simp)) x y z w1 w2 ((h3 _ _ _ _).2 g1) ((gRel_false K).2 ⟨y', z', g2, g3, g4⟩)

/-- **C49** Composing with `anywhere`: `g` is applied to parts of what `f` writes, and the rest is kept. The weights are those of `f`
and of the parts of `g` that were used; all of them are there if no arcs compete and `g` has no arc from its initial state to itself. -/
theorem C49_anywhere_partial (fa ga : Alphabet) (f g : Transducer W) (h : Composable fa ga f g) (inverted : Bool) :
    ∃ a gf, compose f g fa ga inverted true 0 = .ok (a, gf) ∧ WF gf ∧ Coded a gf ∧ Keeps fa a ∧
      (∀ x z w, RelatesDir inverted a gf x z w → ∃ y w1 w2, RelatesDir inverted fa f x y w1 ∧ Anywhere fa ga g y z w2 ∧ w = w1 + w2) ∧
      (∀ x y z w1 w2, RelatesDir inverted fa f x y w1 → Anywhere fa ga g y z w2 → ∃ w, RelatesDir inverted a gf x z w) ∧
      (NoRivals inverted fa ga f g → (∀ l, ¬ PairEdge ga g g.initial l g.initial) →
        ∀ x y z w1 w2, RelatesDir inverted fa f x y w1 → Anywhere fa ga g y z w2 → RelatesDir inverted a gf x z (w1 + w2)) := by
  obtain ⟨f', h1, h2, K, h3, h4⟩ := h.joined
  obtain ⟨a, gf, k1, k2, k3, k4, -, k6, k7, k8, -⟩ := composed_relates K h2 h.gwf inverted true
  refine ⟨a, gf, ?_, k2, k3, keeps_of_ext k4, ?_, ?_, ?_⟩
  · unfold compose; rw [h1]; exact k1
  · intro x z w hw
    obtain ⟨y, w1, w2, g1, g2, g3⟩ := k6 x z w hw
    exact ⟨y, w1, w2, (h3 _ _ _ _).1 g1, (gRel_true K).1 g2, g3⟩
  · intro x y z w1 w2 g1 g2
    exact k7 x y z w1 w2 ((h3 _ _ _ _).2 g1) ((gRel_true K).2 g2)
  · intro hN hl x y z w1 w2 g1 g2
    exact k8 (unique_weights K h.galpha (h4 _ hN) (fun _ => hl)) x y z w1 w2 ((h3 _ _ _ _).2 g1) ((gRel_true K).2 g2)

omit [AddCommMonoid W] in
/-- **C49** Without a final state in the first transducer composing stops the program. -/
theorem C49_no_finals [Add W] [Zero W] (fa ga : Alphabet) (f g : Transducer W) (h : f.finals = []) (inverted anywhere : Bool) (ε : Int) :
    compose f g fa ga inverted anywhere ε = .exit := by
  unfold compose
  rw [joinFinals_none ε h]; rfl

/-! ## A concrete case -/

theorem exLabels_pairEdge {q : Nat} {l : Pair × Nat} {p : Nat} : PairEdge exAlpha exLabels q l p ↔
    (q = 0 ∧ l = ((0x61, 0x61), 1) ∧ p = 1) ∨ (q = 1 ∧ l = ((0x61, -1), 2) ∧ p = 1) ∨ (q = 1 ∧ l = ((-2, 0x62), 3) ∧ p = 2) := by
  unfold PairEdge
  simp only [edge_iff_arcs (t := exLabels) (by decide)]
  have e : arcsOf exLabels.transitions = [(0, 1, 1, 1), (1, 2, 1, 2), (1, 3, 2, 3)] := by decide
  rw [e]
  have d1 : exAlpha.decode 1 = .ok (0x61, 0x61) := by decide
  have d2 : exAlpha.decode 2 = .ok (0x61, -1) := by decide
  have d3 : exAlpha.decode 3 = .ok (-2, 0x62) := by decide
  obtain ⟨pr, w⟩ := l
  constructor
  · rintro ⟨c, h1, h2⟩
    simp only [List.mem_cons, Prod.mk.injEq, List.not_mem_nil, or_false] at h2
    rcases h2 with ⟨rfl, rfl, rfl, rfl⟩ | ⟨rfl, rfl, rfl, rfl⟩ | ⟨rfl, rfl, rfl, rfl⟩
    · rw [d1] at h1; cases h1; exact .inl ⟨rfl, rfl, rfl⟩
    · rw [d2] at h1; cases h1; exact .inr (.inl ⟨rfl, rfl, rfl⟩)
    · rw [d3] at h1; cases h1; exact .inr (.inr ⟨rfl, rfl, rfl⟩)
  · rintro (⟨rfl, h, rfl⟩ | ⟨rfl, h, rfl⟩ | ⟨rfl, h, rfl⟩) <;> cases h
    · exact ⟨1, d1, by simp⟩
    · exact ⟨2, d2, by simp⟩
    · exact ⟨3, d3, by simp⟩

/-- The hypotheses of the theorems above hold when the transducer `exLabels`, which relates `aa<v>` to `a<n>b`, is composed with
itself backwards. -/
theorem exLabels_composable : Composable exAlpha exAlpha exLabels exLabels :=
  ⟨exAlpha_reachable.ok, exAlpha_reachable.ok, exLabels_wf, exLabels_wf, exLabels_coded, exLabels_coded, exLabels_tagsKnown, exLabels_tagsKnown,
    by decide, fun _ _ z _ _ _ _ h => ⟨z, h⟩⟩

theorem exLabels_noRivals : NoRivals true exAlpha exAlpha exLabels exLabels := by
  constructor
  · intro p x o o' w w' r h1 h2
    simp only [exLabels_pairEdge, mk, if_true, Prod.mk.injEq] at h1 h2
    omega
  · intro p o w h
    simp only [exLabels_pairEdge, mk, if_true, Prod.mk.injEq] at h
    omega
  · intro q y y' z w w' r h1 h2
    simp only [exLabels_pairEdge, Prod.mk.injEq] at h1 h2
    omega
  · intro q y w h
    simp only [exLabels_pairEdge, Prod.mk.injEq] at h
    omega

example : ∃ a gf, compose exLabels exLabels exAlpha exAlpha true false 0 = .ok (a, gf) ∧ Relates a gf [0x61, -1, 0x62] [0x61, -1, 0x62] 20 := by
  obtain ⟨a, gf, h1, h2⟩ := C49_weights exAlpha exAlpha exLabels exLabels exLabels_composable true exLabels_noRivals
  refine ⟨a, gf, h1, ?_⟩
  have R : Relates exAlpha exLabels [0x61, 0x61, -2] [0x61, -1, 0x62] 10 :=
    ⟨[((0x61, 0x61), 1), ((0x61, -1), 2), ((-2, 0x62), 3)], 4, exLabels_spells, by decide, by decide, rfl⟩
  have sameSelf : ∀ x : Int, (∃ n, Named exAlpha x n) → Same exAlpha exAlpha x x := fun x ⟨n, h⟩ => ⟨n, h, h⟩
  have s1 : Same exAlpha exAlpha 0x61 0x61 := sameSelf _ ⟨.letter 0x61, .inl ⟨by decide, rfl⟩⟩
  have s2 : Same exAlpha exAlpha (-1) (-1) := sameSelf _ ⟨.tag tagN, .inr ⟨by decide, tagN, by decide, rfl⟩⟩
  have s3 : Same exAlpha exAlpha (-2) (-2) := sameSelf _ ⟨.tag tagV, .inr ⟨by decide, tagV, by decide, rfl⟩⟩
  have s4 : Same exAlpha exAlpha 0x62 0x62 := sameSelf _ ⟨.letter 0x62, .inl ⟨by decide, rfl⟩⟩
  exact (h2 [0x61, -1, 0x62] [0x61, -1, 0x62] 20).2 ⟨[0x61, 0x61, -2], [0x61, 0x61, -2], [0x61, -1, 0x62], 10, 10, R,
    .cons (.inl s1) (.cons (.inl s1) (.cons (.inl s3) .nil)), R, .cons s1 (.cons s2 (.cons s4 .nil)), rfl⟩

/-- `NoRivals` and the absence of loops at the initial state for `C49_anywhere_partial`. -/
example : ∀ l, ¬ PairEdge exAlpha exLabels exLabels.initial l exLabels.initial := by
  intro l h
  rw [exLabels_pairEdge] at h
  rcases h with ⟨-, -, h⟩ | ⟨h, -⟩ | ⟨h, -⟩ <;> exact absurd h (by decide)

/-! ## What is not true -/

/-- The alphabet with the pairs `a:a` and `a:b`, and without tags. -/
def exPlain : Alphabet := ((Alphabet.empty.pairCode 0x61 0x61).2.pairCode 0x61 0x62).2

theorem exPlain_reachable : Reachable exPlain := (Relation.ReflTransGen.refl.tail (.pair _ 0x61 0x61)).tail (.pair _ 0x61 0x62)

/-- One arc with the code `c`. -/
def oneArc (c : Int) (w : Nat) : Transducer Nat := { initial := 0, finals := [(1, 0)], transitions := [(0, [(c, (1, w))]), (1, [])] }

theorem oneArc_wf (c : Int) (w : Nat) : WF (oneArc c w) := by
  refine ⟨rfl, ?_, Nat.zero_lt_two, ?_, by simp [SortedKeys, oneArc], ?_⟩
  · intro e he
    have : e = (0, [(c, (1, w))]) ∨ e = (1, []) := by simpa [oneArc] using he
    rcases this with rfl | rfl <;> simp [SortedRow]
  · intro q l p h
    have : q = 0 ∨ q = 1 ∨ 2 ≤ q := by omega
    rcases this with rfl | rfl | hq
    · have : (l.1, p, l.2) = (c, 1, w) := by simpa [Edge, row, oneArc, mapFind] using h
      cases this; exact Nat.one_lt_two
    · simp [Edge, row, oneArc, mapFind] at h
    · simp [Edge, row, oneArc, mapFind, show ¬ 0 = q by omega, show ¬ 1 = q by omega] at h
  · intro p v h
    have : (p, v) = (1, 0) := by simpa [Final, oneArc] using h
    cases this; exact Nat.one_lt_two

theorem oneArc_edge {c : Int} {w : Nat} {q : Nat} {l : Int × Nat} {p : Nat} : Edge (oneArc c w) q l p ↔ q = 0 ∧ l = (c, w) ∧ p = 1 := by
  have : q = 0 ∨ q = 1 ∨ 2 ≤ q := by omega
  rcases this with rfl | rfl | hq
  · simp [Edge, row, oneArc, mapFind, Prod.ext_iff]; tauto
  · simp [Edge, row, oneArc, mapFind]
  · simp [Edge, row, oneArc, mapFind, show ¬ 0 = q by omega, show ¬ 1 = q by omega]; omega

/-- **C49** A tag that `g` writes and that the alphabet of `f` does not have is lost: `f` has only `a:a`, `g` only `a:<n>`, but the
composition relates `a` to the empty string. -/
theorem C49_unknown_tag_false :
    Reachable exPlain ∧ Reachable exAlpha ∧ exPlain.decode 1 = .ok (0x61, 0x61) ∧ exAlpha.decode 2 = .ok (0x61, -1) ∧
      ∃ a gf, compose (oneArc 1 0) (oneArc 2 0) exPlain exAlpha false false 0 = .ok (a, gf) ∧ Relates a gf [0x61] [] 0 := by
  refine ⟨exPlain_reachable, exAlpha_reachable, by decide, by decide, _, _, rfl, [((0x61, 0), 0)], 0, ⟨1, ?_, ?_⟩, by decide, by decide, rfl⟩
  · refine .cons ⟨3, by decide, ?_⟩ (.nil 1)
    unfold Edge
    decide
  · unfold Final
    decide

/-- The arcs `a:a` and `a:b` of weight 0. -/
def exTwo : Transducer Nat := { initial := 0, finals := [(1, 0)], transitions := [(0, [(1, (1, 0)), (2, (1, 0))]), (1, [])] }

/-- The pairs `a:c` and `b:c`. -/
def exOnto : Alphabet := ((Alphabet.empty.pairCode 0x61 0x63).2.pairCode 0x62 0x63).2

/-- The arcs `a:c` of weight 1 and `b:c` of weight 2. -/
def exWeighted : Transducer Nat := { initial := 0, finals := [(1, 0)], transitions := [(0, [(1, (1, 1)), (2, (1, 2))]), (1, [])] }

theorem exTwo_edge {q : Nat} {l : Pair × Nat} {p : Nat} (h : PairEdge exPlain exTwo q l p) : l.1 = (0x61, 0x61) ∨ l.1 = (0x61, 0x62) := by
  obtain ⟨c, h1, h2⟩ := h
  rw [edge_iff_arcs (by decide), show arcsOf exTwo.transitions = [(0, 1, 1, 0), (0, 2, 1, 0)] by decide] at h2
  simp only [List.mem_cons, Prod.mk.injEq, List.not_mem_nil, or_false] at h2
  rcases h2 with ⟨-, rfl, -⟩ | ⟨-, rfl, -⟩
  · rw [show exPlain.decode 1 = .ok (0x61, 0x61) by decide] at h1; exact .inl (Res.ok.inj h1).symm
  · rw [show exPlain.decode 2 = .ok (0x61, 0x62) by decide] at h1; exact .inr (Res.ok.inj h1).symm

theorem exWeighted_edge {q : Nat} {l : Pair × Nat} {p : Nat} (h : PairEdge exOnto exWeighted q l p) : l.1 = (0x61, 0x63) ∨ l.1 = (0x62, 0x63) := by
  obtain ⟨c, h1, h2⟩ := h
  rw [edge_iff_arcs (by decide), show arcsOf exWeighted.transitions = [(0, 1, 1, 1), (0, 2, 1, 2)] by decide] at h2
  simp only [List.mem_cons, Prod.mk.injEq, List.not_mem_nil, or_false] at h2
  rcases h2 with ⟨-, rfl, -⟩ | ⟨-, rfl, -⟩
  · rw [show exOnto.decode 1 = .ok (0x61, 0x63) by decide] at h1; exact .inl (Res.ok.inj h1).symm
  · rw [show exOnto.decode 2 = .ok (0x62, 0x63) by decide] at h1; exact .inr (Res.ok.inj h1).symm

theorem exTwo_composable : Composable exPlain exOnto exTwo exWeighted := by
  have letter : ∀ (a : Alphabet) (x : Int), 0 ≤ x → ∃ n, Named a x n := fun a x h => ⟨.letter x, .inl ⟨h, rfl⟩⟩
  refine ⟨exPlain_reachable.ok, Reachable.ok ((Relation.ReflTransGen.refl.tail (.pair _ 0x61 0x63)).tail (.pair _ 0x62 0x63)), wf_of_check (by decide),
    wf_of_check (by decide), ?_, ?_, ?_, ?_, by decide, ?_⟩
  · intro q l p h
    rw [edge_iff_arcs (by decide), show arcsOf exTwo.transitions = [(0, 1, 1, 0), (0, 2, 1, 0)] by decide] at h
    simp only [List.mem_cons, Prod.mk.injEq, List.not_mem_nil, or_false] at h
    rcases h with ⟨-, h, -⟩ | ⟨-, h, -⟩ <;> rw [h]
    · exact ⟨(0x61, 0x61), by decide⟩
    · exact ⟨(0x61, 0x62), by decide⟩
  · intro q l p h
    rw [edge_iff_arcs (by decide), show arcsOf exWeighted.transitions = [(0, 1, 1, 1), (0, 2, 1, 2)] by decide] at h
    simp only [List.mem_cons, Prod.mk.injEq, List.not_mem_nil, or_false] at h
    rcases h with ⟨-, h, -⟩ | ⟨-, h, -⟩ <;> rw [h]
    · exact ⟨(0x61, 0x63), by decide⟩
    · exact ⟨(0x62, 0x63), by decide⟩
  · intro q l p h
    rcases exTwo_edge h with h | h <;> rw [h] <;> exact ⟨letter _ _ (by decide), letter _ _ (by decide)⟩
  · intro q l p h
    rcases exWeighted_edge h with h | h <;> rw [h] <;> exact ⟨letter _ _ (by decide), letter _ _ (by decide)⟩
  · intro q x z w r s h hn
    have hz : z = 0x63 := by
      rcases exWeighted_edge h with h | h <;> exact congrArg Prod.snd h
    rw [hz, named_tag] at hn
    exact absurd hn.1 (by decide)

/-- **C49** Weights can be lost: `f` relates `a` to `b` with weight 0 and `g` relates `b` to `c` with weight 2, but the composition does
not relate `a` to `c` with weight 2. -/
theorem C49_weights_false :
    Composable exPlain exOnto exTwo exWeighted ∧ RelatesDir false exPlain exTwo [0x61] [0x62] 0 ∧ Relates exOnto exWeighted [0x62] [0x63] 2 ∧
      ∃ a gf, compose exTwo exWeighted exPlain exOnto false false 0 = .ok (a, gf) ∧ Relates a gf [0x61] [0x63] 1 ∧ ¬ Relates a gf [0x61] [0x63] 2 := by
  refine ⟨exTwo_composable, ⟨[((0x61, 0x62), 0)], 0, ⟨1, .cons ⟨2, by decide, ?_⟩ (.nil 1), ?_⟩, by decide, by decide, rfl⟩,
    ⟨[((0x62, 0x63), 2)], 0, ⟨1, .cons ⟨2, by decide, ?_⟩ (.nil 1), ?_⟩, by decide, by decide, rfl⟩,
    (exPlain.pairCode 0x61 0x63).2, oneArc 3 1, rfl, ⟨[((0x61, 0x63), 1)], 0, ⟨1, .cons ⟨3, by decide, ?_⟩ (.nil 1), ?_⟩, by decide, by decide, rfl⟩, ?_⟩
  · unfold Edge; decide
  · unfold Final; decide
  · unfold Edge; decide
  · unfold Final; decide
  · unfold Edge; decide
  · unfold Final; decide
  · rintro ⟨ls, fw, ⟨p, hp, hf⟩, -, -, hw⟩
    have hf' : (p, fw) = (1, 0) := by simpa [Final, oneArc] using hf
    cases hf'
    cases hp with
    | cons he hp =>
      obtain ⟨c, -, he⟩ := he
      rw [oneArc_edge] at he
      obtain ⟨-, e1, rfl⟩ := he
      cases hp with
      | nil => simp only [Prod.mk.injEq] at e1; simp [e1.2] at hw
      | cons he _ =>
        obtain ⟨c, -, he⟩ := he
        rw [oneArc_edge] at he
        exact absurd he.1 (by decide)

end Verif.Product
