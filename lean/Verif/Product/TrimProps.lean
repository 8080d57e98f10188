import Verif.Product.TrimJoins
import Verif.Product.Props
import Verif.Product.Check

/-! # Properties of `trim` -/

namespace Verif.Product

open Verif.Fst Verif.Alphabet

variable {W : Type}

/-- **C50** Trimming ends and succeeds. The result is well formed, and whatever it relates was related by the transducer. The weight is
that of the transducer plus weights of arcs of the trimmer that read nothing; only if the transducer has groups the weight of a final
state may be missing. -/
theorem C50_only_removes [AddCommMonoid W] (a b : Alphabet) (t trimmer : Transducer W) (h : Trimmable a b t trimmer) :
    ∃ r, trim t trimmer a b 0 = .ok r ∧ WF r ∧ Coded a r ∧
      ∀ x y w, Relates a r x y w → ∃ u v, EmptyArcs b trimmer u ∧ Relates a t x y v ∧
        (w = v + u ∨ (HasGroups a t ∧ ∃ f v', (∃ q, Final t q f) ∧ v = v' + f ∧ w = v' + u)) := trim_over h

/-- **C50** If the transducer writes no queues and no groups, the result relates `x` to `y` if and only if the transducer does and
`y` is a row of parts with joins between them, where the trimmer accepts the last part and can read the others as far as they go, the
marks of compounds being left out. The weight is that of the transducer plus weights of arcs of the trimmer that read nothing. -/
theorem C50_joins [AddCommMonoid W] (a b : Alphabet) (t trimmer : Transducer W) (h : Trimmable a b t trimmer) (hp : Joining a t) :
    ∃ r, trim t trimmer a b 0 = .ok r ∧
      (∀ x y w, Relates a r x y w → ∃ v u, Relates a t x y v ∧ EmptyArcs b trimmer u ∧ w = v + u) ∧
      ∀ x y, (∃ w, Relates a r x y w) ↔ (∃ v, Relates a t x y v) ∧ Joined a b trimmer y := by
  obtain ⟨t', h1, R, h2, -⟩ := ready h hp
  obtain ⟨s, k1, k2, k3, -⟩ := R.trimmed
  refine ⟨trimFinals t' trimmer s.ids s.t, ?_, ?_, ?_⟩
  · unfold trim
    rw [h1]
    simp only [Res.bind_ok]
    unfold trimStart at k1
    rw [k1]; rfl
  · intro x y w hw
    obtain ⟨v, u, g1, g2, g3, -⟩ := k2 x y w hw
    exact ⟨v, u, (h2 false _ _ _).1 g1, g2, g3⟩
  · intro x y
    constructor
    · rintro ⟨w, hw⟩
      obtain ⟨v, u, g1, g2, g3, g4⟩ := k2 x y w hw
      exact ⟨⟨v, (h2 false _ _ _).1 g1⟩, (passed_joined h.talpha).1 g4⟩
    · rintro ⟨⟨v, g1⟩, g2⟩
      exact k3 x y v ((h2 false _ _ _).2 g1) ((passed_joined h.talpha).2 g2)

/-- **C50** If the transducer writes no joins, queues, groups or compounds, trimming keeps exactly what the trimmer can read: the result
relates `x` to `y` if and only if the transducer does and the trimmer accepts a string that meets `y` symbol for symbol. The weight is
that of the transducer plus weights of arcs of the trimmer that read nothing. -/
theorem C50_plain [AddCommMonoid W] (a b : Alphabet) (t trimmer : Transducer W) (h : Trimmable a b t trimmer) (hp : Plain a t) :
    ∃ r, trim t trimmer a b 0 = .ok r ∧
      (∀ x y w, Relates a r x y w → ∃ v u, Relates a t x y v ∧ EmptyArcs b trimmer u ∧ w = v + u) ∧
      ∀ x y, (∃ w, Relates a r x y w) ↔ (∃ v, Relates a t x y v) ∧ ∃ y' z g, List.Forall₂ (Meets a b) y y' ∧ Relates b trimmer y' z g := by
  obtain ⟨r, h1, h2, h3⟩ := C50_joins a b t trimmer h hp.joining
  refine ⟨r, h1, h2, fun x y => (h3 x y).trans (and_congr_right fun ⟨v, hv⟩ => joined_plain (hp.written hv))⟩

/-- The weight of an arc is determined by its states and its pair; empty loops, and the arcs of the trimmer that read nothing, weigh
nothing. -/
structure OneWeight [Zero W] (a b : Alphabet) (t trimmer : Transducer W) : Prop where
  one : ∀ p l w w' r, PairEdge a t p (l, w) r → PairEdge a t p (l, w') r → w = w'
  loop : ∀ p w, PairEdge a t p ((0, 0), w) p → w = 0
  zero : ∀ q z w q', PairEdge b trimmer q ((0, z), w) q' → w = 0

/-- **C50** With these conditions on the weights trimming keeps exactly the pairs, with their weights, that the trimmer can read. -/
theorem C50_weights [AddCommMonoid W] (a b : Alphabet) (t trimmer : Transducer W) (h : Trimmable a b t trimmer) (hp : Plain a t) (hw : OneWeight a b t trimmer) :
    ∃ r, trim t trimmer a b 0 = .ok r ∧
      ∀ x y w, Relates a r x y w ↔ Relates a t x y w ∧ ∃ y' z g, List.Forall₂ (Meets a b) y y' ∧ Relates b trimmer y' z g := by
  obtain ⟨t', h1, R, h2, h3⟩ := ready h hp.joining
  obtain ⟨s, k1, k2, -, k3, -⟩ := R.trimmed
  have zero : ∀ u, EmptyArcs b trimmer u → u = 0 := by
    rintro u ⟨ws, rfl, hws⟩
    refine List.sum_eq_zero fun w hm => ?_
    obtain ⟨q, z, q', he⟩ := hws w hm
    exact hw.zero _ _ _ _ he
  have lt : ∀ q l p, PairEdge a t q l p → q < Fst.size t ∧ p < Fst.size t := by
    rintro q l p ⟨c, -, he⟩
    exact ⟨h.twf.source_lt he, h.twf.target_lt _ _ _ he⟩
  have one : ∀ p l w w' r, PairEdge a t' p (l, w) r → PairEdge a t' p (l, w') r → w = w' := by
    intro p l w w' r g1 g2
    rcases h3 _ _ _ g1 with g1 | ⟨rfl, -, g1⟩ <;> rcases h3 _ _ _ g2 with g2 | ⟨g3, -, g2⟩
    · exact hw.one _ _ _ _ _ g1 g2
    · have := (lt _ _ _ g1).2; omega
    · have := (lt _ _ _ g2).2; omega
    · have a1 := (mapFind_iff h.twf.finals_sorted).2 g1
      have a2 := (mapFind_iff h.twf.finals_sorted).2 g2
      rw [a1] at a2; exact Option.some.inj a2
  have loop : ∀ p w, PairEdge a t' p ((0, 0), w) p → w = 0 := by
    intro p w g
    rcases h3 _ _ _ g with g | ⟨rfl, -, g⟩
    · exact hw.loop _ _ g
    · have := h.twf.finals_lt _ _ g; omega
  refine ⟨trimFinals t' trimmer s.ids s.t, ?_, ?_⟩
  · unfold trim
    rw [h1]
    simp only [Res.bind_ok]
    unfold trimStart at k1
    rw [k1]; rfl
  · intro x y w
    constructor
    · intro hw
      obtain ⟨v, u, g1, g2, rfl, g4⟩ := k2 x y w hw
      rw [zero u g2, add_zero]
      have g1 := (h2 false _ _ _).1 g1
      exact ⟨g1, (joined_plain (hp.written g1)).1 ((passed_joined h.talpha).1 g4)⟩
    · rintro ⟨g1, g2⟩
      obtain ⟨u, e1, e2⟩ := k3 (by
        intro n x y w w' m e1 e2
        rcases (R.project e1).1 with ⟨rfl, rfl, f1, z, f2⟩ | ⟨f1, f2⟩ <;> rcases (R.project e2).1 with ⟨l1, l2, l3, z', l4⟩ | ⟨l1, l2⟩
        · rw [hw.zero _ _ _ _ f2, hw.zero _ _ _ _ l4]
        · simp only at f1 l1
          rw [f1] at l1
          rw [hw.zero _ _ _ _ f2, loop _ _ l1]
        · subst l1; subst l2
          simp only at f1 l3
          rw [l3] at f1
          rw [hw.zero _ _ _ _ l4, loop _ _ f1]
        · exact one _ _ _ _ _ f1 l1) x y w ((h2 false _ _ _).2 g1) ((passed_joined h.talpha).2 ((joined_plain (hp.written g1)).2 g2))
      rw [zero u e1, add_zero] at e2
      exact e2

/-- **C50** Without a final state trimming stops the program. -/
theorem C50_no_finals [Zero W] (a b : Alphabet) (t trimmer : Transducer W) (h : t.finals = []) (ε : Int) : trim t trimmer a b ε = .exit := by
  unfold trim
  rw [joinFinals_none ε h]; rfl

/-! ## A concrete case -/

/-- Trimming `a:a`, `a:b` with `b:c` leaves `a:b`. -/
theorem exTwo_trimmable : Trimmable exPlain exOnto exTwo (oneArc 2 0) :=
  trimmable_of_check exPlain_reachable ((Relation.ReflTransGen.refl.tail (.pair _ 0x61 0x63)).tail (.pair _ 0x62 0x63))
    (by decide) (by decide) (by decide) (by decide) (by decide)

theorem exTwo_plain : Plain exPlain exTwo := by
  intro q x y w r h
  have : y = 0x61 ∨ y = 0x62 := by
    rcases exTwo_edge h with h | h
    · exact .inl (congrArg Prod.snd h)
    · exact .inr (congrArg Prod.snd h)
  refine ⟨by omega, by omega, fun s _ hs => ?_⟩
  have := (named_tag.1 hs).1
  omega

theorem exTwo_oneWeight : OneWeight exPlain exOnto exTwo (oneArc 2 0) := by
  have e1 : pairArcs exPlain exTwo = [(0, ((0x61, 0x61), 0), 1), (0, ((0x61, 0x62), 0), 1)] := by decide
  have e2 : pairArcs exOnto (oneArc 2 0) = [(0, ((0x62, 0x63), 0), 1)] := by decide
  constructor
  · intro p l w w' r h1 h2
    rw [pairEdge_iff (by decide), e1] at h1 h2
    simp at h1 h2; omega
  · intro p w h
    rw [pairEdge_iff (by decide), e1] at h
    simp at h
  · intro q z w q' h
    rw [pairEdge_iff (by decide), e2] at h
    simp at h

example : ∃ r, trim exTwo (oneArc 2 0) exPlain exOnto 0 = .ok r ∧ Relates exPlain r [0x61] [0x62] 0 ∧ ∀ w, ¬ Relates exPlain r [0x61] [0x61] w := by
  obtain ⟨r, h1, h2⟩ := C50_weights _ _ _ _ exTwo_trimmable exTwo_plain exTwo_oneWeight
  refine ⟨r, h1, (h2 _ _ _).2 ⟨relates_of_check (by decide) [(((0x61, 0x62), 0), 1)] 1 0 (by decide) (by decide) rfl rfl rfl,
    [0x62], [0x63], 0, .cons (.inl ⟨.letter 0x62, .inl ⟨by decide, rfl⟩, .inl ⟨by decide, rfl⟩⟩) .nil,
    relates_of_check (by decide) [(((0x62, 0x63), 0), 1)] 1 0 (by decide) (by decide) rfl rfl rfl⟩, ?_⟩
  intro w hw
  obtain ⟨-, y', z, g, h3, ⟨ls, fw, ⟨p, hp, hf⟩, hx, -⟩⟩ := (h2 _ _ _).1 hw
  have e2 : pairArcs exOnto (oneArc 2 0) = [(0, ((0x62, 0x63), 0), 1)] := by decide
  cases h3 with
  | @cons _ y _ ys hm h3 =>
    cases h3
    cases hp with
    | nil => cases hx
    | cons he _ =>
      rw [pairEdge_iff (by decide), e2, List.mem_singleton] at he
      cases he
      have hy : y = 0x62 := by
        have : (0x62 : Int) ∈ [y] := by rw [hx]; simp
        exact (List.mem_singleton.1 this).symm
      subst hy
      have key : ¬ Meets exPlain exOnto 0x61 0x62 := by
        unfold Meets
        simp only [named_tag, IsTagNamed]
        rintro (⟨n, h1, h2⟩ | h | h | h | h)
        · rcases h1 with ⟨-, rfl⟩ | ⟨h1, -⟩
          · rcases h2 with ⟨-, h2⟩ | ⟨h2, -⟩
            · cases h2
            · omega
          · omega
        all_goals omega
      exact key hm

/-! ## What is not true -/

/-- The alphabet with the tag `<$>` and the pairs `a:a` and `:<$>`. -/
def exGroup : Alphabet := (((Alphabet.empty.includeSymbol (units "<$>")).pairCode 0x61 0x61).2.pairCode 0 (-1)).2

theorem exGroup_reachable : Reachable exGroup :=
  ((Relation.ReflTransGen.refl.tail (.include _ _)).tail (.pair _ 0x61 0x61)).tail (.pair _ 0 (-1))

/-- The arcs `a:a` and `:<$>`, and a final state of weight 5. -/
def exGroupT : Transducer Nat :=
  { initial := 0, finals := [(2, 5)], transitions := [(0, [(1, (1, 0))]), (1, [(2, (2, 0))]), (2, [])] }

/-- **C50** Groups can lose the weight of the final state: the transducer relates `a` to `a<$>` only with weight 5, the trimmed one with
weight 0. -/
theorem C50_group_weight_false : Trimmable exGroup exGroup exGroupT (oneArc 1 0) ∧
    ∃ r, trim exGroupT (oneArc 1 0) exGroup exGroup 0 = .ok r ∧ Relates exGroup r [0x61] [0x61, -1] 0 ∧ ¬ Relates exGroup exGroupT [0x61] [0x61, -1] 0 := by
  refine ⟨trimmable_of_check exGroup_reachable exGroup_reachable (by decide) (by decide) (by decide) (by decide) (by decide),
    { initial := 0, finals := [(2, 0)], transitions := [(0, [(1, (1, 0))]), (1, [(2, (2, 0))]), (2, [])] }, by decide +kernel,
    relates_of_check (by decide) [(((0x61, 0x61), 0), 1), (((0, -1), 0), 2)] 2 0 (by decide) (by decide) (by decide) (by decide) rfl, ?_⟩
  rintro ⟨ls, fw, ⟨p, -, hf⟩, -, -, hw⟩
  have : (p, fw) = (2, 5) := by simpa [Final, exGroupT] using hf
  cases this
  omega

/-- The alphabet with the pairs `a:a`, `+:+`, `b:b`, `#:#` and `c:c`. -/
def exQueue : Alphabet :=
  (((((Alphabet.empty.pairCode 0x61 0x61).2.pairCode 0x2b 0x2b).2.pairCode 0x62 0x62).2.pairCode 0x23 0x23).2.pairCode 0x63 0x63).2

theorem exQueue_reachable : Reachable exQueue :=
  ((((Relation.ReflTransGen.refl.tail (.pair _ 0x61 0x61)).tail (.pair _ 0x2b 0x2b)).tail (.pair _ 0x62 0x62)).tail (.pair _ 0x23 0x23)).tail (.pair _ 0x63 0x63)

/-- The strings `a+b#` and `a+bc`. -/
def exQueueT : Transducer Nat :=
  { initial := 0, finals := [(4, 0)], transitions := [(0, [(1, (1, 0))]), (1, [(2, (2, 0))]), (2, [(3, (3, 0))]), (3, [(4, (4, 0)), (5, (4, 0))]), (4, [])] }

/-- The strings `a#` and `bc`. -/
def exQueueG : Transducer Nat :=
  { initial := 0, finals := [(2, 0)], transitions := [(0, [(1, (1, 0)), (3, (3, 0))]), (1, [(4, (2, 0))]), (2, []), (3, [(5, (2, 0))])] }

/-- The string `a+bc` only. -/
def exQueueOne : Transducer Nat :=
  { initial := 0, finals := [(4, 0)], transitions := [(0, [(1, (1, 0))]), (1, [(2, (2, 0))]), (2, [(3, (3, 0))]), (3, [(5, (4, 0))]), (4, [])] }

/-- **C50** After a queue `#` the other arcs of the same state are compared with the wrong state of the trimmer: `a+bc` is removed from a
transducer that also has `a+b#`, and kept in one that has not. -/
theorem C50_queue_false : Trimmable exQueue exQueue exQueueT exQueueG ∧ Relates exQueue exQueueT [0x61, 0x2b, 0x62, 0x63] [0x61, 0x2b, 0x62, 0x63] 0 ∧
    (∃ r, trim exQueueT exQueueG exQueue exQueue 0 = .ok r ∧ ∀ x y w, Relates exQueue r x y w → 0x63 ∉ y) ∧
    (∃ r, trim exQueueOne exQueueG exQueue exQueue 0 = .ok r ∧ Relates exQueue r [0x61, 0x2b, 0x62, 0x63] [0x61, 0x2b, 0x62, 0x63] 0) := by
  refine ⟨trimmable_of_check exQueue_reachable exQueue_reachable (by decide) (by decide) (by decide) (by decide) (by decide),
    relates_of_check (by decide) [(((0x61, 0x61), 0), 1), (((0x2b, 0x2b), 0), 2), (((0x62, 0x62), 0), 3), (((0x63, 0x63), 0), 4)] 4 0
      (by decide) (by decide) (by decide) (by decide) rfl,
    ⟨{ initial := 0, finals := [(4, 0)], transitions := [(0, [(1, 1, 0)]), (1, [(2, 2, 0)]), (2, [(3, 3, 0)]), (3, [(4, 4, 0)]), (4, [])] },
      by decide +kernel, ?_⟩,
    exQueueOne, by decide +kernel,
    relates_of_check (by decide) [(((0x61, 0x61), 0), 1), (((0x2b, 0x2b), 0), 2), (((0x62, 0x62), 0), 3), (((0x63, 0x63), 0), 4)] 4 0
      (by decide) (by decide) (by decide) (by decide) rfl⟩
  rintro x y w ⟨ls, fw, ⟨p, hp, -⟩, -, rfl, -⟩ hm
  obtain ⟨l, h1, h2⟩ := List.mem_map.1 (List.mem_filter.1 hm).1
  have he : ∀ {q ls p}, Path (PairEdge exQueue ({ initial := 0, finals := [(4, 0)], transitions := [(0, [(1, 1, 0)]), (1, [(2, 2, 0)]), (2, [(3, 3, 0)]), (3, [(4, 4, 0)]), (4, [])] } : Transducer Nat)) q ls p →
      ∀ l ∈ ls, l.1.2 ≠ 0x63 := by
    intro q ls p h
    induction h with
    | nil q => intro l hl; cases hl
    | cons he _ ih =>
      intro l hl
      rcases List.mem_cons.1 hl with rfl | hl
      · rw [pairEdge_iff (by decide)] at he
        have : ∀ e ∈ pairArcs exQueue ({ initial := 0, finals := [(4, 0)], transitions := [(0, [(1, 1, 0)]), (1, [(2, 2, 0)]), (2, [(3, 3, 0)]), (3, [(4, 4, 0)]), (4, [])] } : Transducer Nat), e.2.1.1.2 ≠ 0x63 := by
          decide
        exact this _ he
      · exact ih l hl
  exact he hp l h1 h2

theorem exQueueOne_joining : Joining exQueue exQueueOne := by
  intro q x y w r h
  rw [pairEdge_iff (by decide)] at h
  have h1 : ∀ e ∈ pairArcs exQueue exQueueOne, e.2.1.1.2 ≠ 0x23 ∧ 0 ≤ e.2.1.1.2 := by decide
  obtain ⟨h2, h3⟩ := h1 _ h
  refine ⟨h2, fun s _ hs => ?_⟩
  have := (named_tag.1 hs).1
  simp only at h3
  omega

theorem exQueue_covers {y y' : List Int} (h : Covers exQueue exQueue y y') (hy : ∀ c ∈ y, 0 ≤ c) : y'.length = y.length := by
  induction h with
  | nil => rfl
  | @skip c y y' h1 _ _ =>
    obtain ⟨s, -, h1⟩ := h1
    have := (named_tag.1 h1).1
    have := hy c (List.mem_cons_self ..)
    omega
  | meet _ _ _ ih => simp [ih fun c hc => hy c (List.mem_cons_of_mem _ hc)]

theorem exQueueG_two {y z : List Int} {g : Nat} (h : Relates exQueue exQueueG y z g) : y.length = 2 := by
  obtain ⟨ls, fw, ⟨p, hp, hf⟩, rfl, -⟩ := h
  have e : p = 2 := by
    have : (p, fw) = (2, 0) := by simpa [Final, exQueueG] using hf
    exact congrArg Prod.fst this
  have key : ∀ {q ls p}, Path (PairEdge exQueue exQueueG) q ls p → p = 2 →
      ((ls.map (·.1.1)).filter (· ≠ 0)).length = if q = 0 then 2 else if q = 1 ∨ q = 3 then 1 else 0 := by
    intro q ls p h hp
    induction h with
    | nil q => subst hp; rfl
    | @cons q r p l ls he _ ih =>
      have ih := ih hp
      rw [pairEdge_iff (by decide)] at he
      have k : ∀ e ∈ pairArcs exQueue exQueueG, e.2.1.1.1 ≠ 0 ∧ 1 + (if e.2.2 = 0 then 2 else if e.2.2 = 1 ∨ e.2.2 = 3 then 1 else 0) =
          (if e.1 = 0 then 2 else if e.1 = 1 ∨ e.1 = 3 then 1 else 0) := by decide
      obtain ⟨k1, k2⟩ := k _ he
      simp only at k1 k2
      rw [← k2, ← ih, List.map_cons, List.filter_cons_of_pos (by simpa using k1), List.length_cons, Nat.add_comm]
  exact key hp e

/-- What C50_joins says of `a+bc`, where the trimmer accepts `a#` and `bc`. -/
example : Trimmable exQueue exQueue exQueueOne exQueueG ∧ Joining exQueue exQueueOne ∧ Joined exQueue exQueue exQueueG [0x61, 0x2b, 0x62, 0x63] := by
  refine ⟨trimmable_of_check exQueue_reachable exQueue_reachable (by decide) (by decide) (by decide) (by decide) (by decide), exQueueOne_joining,
    [[0x61]], [0x62, 0x63], rfl, ?_, [0x62, 0x63], [0x62, 0x63], 0, ?_,
    relates_of_check (by decide) [(((0x62, 0x62), 0), 3), (((0x63, 0x63), 0), 2)] 2 0 (by decide) (by decide) (by decide) (by decide) rfl⟩
  · have hc : ∀ c : Int, 0 ≤ c → ¬ IsCompound exQueue c := fun c h0 ⟨s, _, h⟩ => by
      have := (named_tag.1 h).1
      omega
    intro p hp
    rw [List.mem_singleton] at hp
    subst hp
    exact ⟨[0x61], .meet (hc _ (by decide)) (.inl ⟨.letter 0x61, .inl ⟨by decide, rfl⟩, .inl ⟨by decide, rfl⟩⟩) .nil, _, 1,
      path_of_check (by decide) [(((0x61, 0x61), 0), 1)] 0 1 (by decide), by decide⟩
  · have hc : ∀ c : Int, 0 ≤ c → ¬ IsCompound exQueue c := fun c h0 ⟨s, _, h⟩ => by
      have := (named_tag.1 h).1
      omega
    exact .meet (hc _ (by decide)) (.inl ⟨.letter 0x62, .inl ⟨by decide, rfl⟩, .inl ⟨by decide, rfl⟩⟩)
      (.meet (hc _ (by decide)) (.inl ⟨.letter 0x63, .inl ⟨by decide, rfl⟩, .inl ⟨by decide, rfl⟩⟩) .nil)

/-- **C50** The parts before a join need not be complete: `a+bc` is kept although the trimmer accepts neither `a` nor `a+bc`, only `a#` and
`bc`. -/
theorem C50_join_false : Trimmable exQueue exQueue exQueueOne exQueueG ∧ Joining exQueue exQueueOne ∧
    (∃ r, trim exQueueOne exQueueG exQueue exQueue 0 = .ok r ∧ Relates exQueue r [0x61, 0x2b, 0x62, 0x63] [0x61, 0x2b, 0x62, 0x63] 0) ∧
    ∀ y ∈ [[0x61], [0x61, 0x2b, 0x62, 0x63]], ∀ y' z g, Covers exQueue exQueue y y' → ¬ Relates exQueue exQueueG y' z g := by
  refine ⟨trimmable_of_check exQueue_reachable exQueue_reachable (by decide) (by decide) (by decide) (by decide) (by decide), exQueueOne_joining,
    C50_queue_false.2.2.2, ?_⟩
  intro y hy y' z g hc hr
  have h1 := exQueueG_two hr
  rw [exQueue_covers hc (by
    simp only [List.mem_cons, List.not_mem_nil, or_false] at hy
    rcases hy with rfl | rfl <;> decide)] at h1
  simp only [List.mem_cons, List.not_mem_nil, or_false] at hy
  rcases hy with rfl | rfl <;> cases h1

end Verif.Product
