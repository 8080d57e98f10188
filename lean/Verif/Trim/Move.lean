import Verif.Trim.Union
import Verif.Product.Whole

/-! # `moveLemqsLast` where there is nothing to move -/

namespace Verif.Trim

open Verif.Fst Verif.Alphabet Verif.Product

set_option linter.unusedSectionVars false

variable {W : Type} [AddMonoid W] [LinearOrder W] {b : Alphabet} {t : Transducer W}

/-- No arc reads `#` (or a symbol that the alphabet does not know). -/
def NoQueues (b : Alphabet) (t : Transducer W) : Prop := ∀ q l p, PairEdge b t q l p → ∃ s, b.getSymbol l.1.1 = .ok s ∧ s ≠ GROUP

theorem moveArcs_spec (hc : Coded b t) (hg : NoQueues b t) {start src : Nat} {i : Nat} (arcs : Row W) (h : ∀ e ∈ arcs, e ∈ row t src) :
    ∀ (D : Nat → Pair → W → Nat → Prop) s, Inv (HasPair b) start D s → mapFind src s.ids = some i →
    ∃ s', moveArcs t b 0 src arcs s = .ok s' ∧
      Inv (HasPair b) start (fun n l w m => D n l w m ∨ (n = src ∧ w = 0 ∧ ∃ k w', HasPair b k l ∧ (k, m, w') ∈ arcs)) s' ∧
      s'.todo = pushes s.seen (arcs.map (·.2.1)) s.todo ∧ s'.seen = s.seen ∧
      ∀ n, (mapFind n s'.ids).isSome ↔ (mapFind n s.ids).isSome ∨ n ∈ arcs.map (·.2.1) := by
  induction arcs with
  | nil =>
    intro D s hI hs
    exact ⟨s, rfl, hI.congr (by simp), rfl, rfl, by simp⟩
  | cons e arcs ih =>
    obtain ⟨k, trg, wt⟩ := e
    intro D s hI hs
    have he : Edge t src (k, wt) trg := h _ (List.mem_cons_self ..)
    obtain ⟨pr, hpr⟩ := hc _ _ _ he
    obtain ⟨g, hg1, hg2⟩ := hg _ (pr, wt) _ ⟨k, hpr, he⟩
    obtain ⟨s1, k1, k2, k3, k4, k5, k6⟩ := hI.visit hs trg (decode_iff.1 hpr) 0
    obtain ⟨s', j1, j2, j3, j4, j5⟩ := ih (fun e he => h e (List.mem_cons_of_mem _ he)) _ s1 k2 k5
    refine ⟨s', ?_, j2.congr ?_, ?_, by rw [j4, k4], ?_⟩
    · have hid : idOf src s = i := by unfold idOf; rw [hs]; rfl
      simp only [moveArcs, moveArc, hpr, Res.bind_ok, hg1, if_neg hg2, hid, k1, j1]
    · intro n l w m
      constructor
      · rintro ((h1 | ⟨rfl, rfl, rfl, rfl⟩) | ⟨rfl, h1, k', w', h2, h3⟩)
        · exact .inl h1
        · exact .inr ⟨rfl, rfl, k, wt, decode_iff.1 hpr, List.mem_cons_self ..⟩
        · exact .inr ⟨rfl, h1, k', w', h2, List.mem_cons_of_mem _ h3⟩
      · rintro (h1 | ⟨rfl, rfl, k', w', h2, h3⟩)
        · exact .inl (.inl h1)
        · rcases List.mem_cons.1 h3 with h3 | h3
          · cases h3
            exact .inl (.inr ⟨rfl, h2.pair_unique (decode_iff.1 hpr), rfl, rfl⟩)
          · exact .inr ⟨rfl, rfl, k', w', h2, h3⟩
    · rw [j3, k3, k4, ← pushes_append]; rfl
    · intro n
      rw [j5, k6, List.map_cons, List.mem_cons, or_assoc]

/-- The arcs of the copy. -/
def Copied (b : Alphabet) (t : Transducer W) (n : Nat) (x y : Int) (w : W) (m : Nat) : Prop := w = 0 ∧ ∃ w', PairEdge b t n ((x, y), w') m

theorem moveLoop_spec (ht : WF t) (hc : Coded b t) (hg : NoQueues b t) :
    ∃ s, moveLoop t b 0 (size t * (numberOfTransitions t + 1) + 2)
        { todo := [t.initial], seen := [], ids := [(t.initial, (empty : Transducer W).initial)], t := empty } = .ok s ∧
      Kept false b t.initial (Copied b t) s := by
  let targets : Nat → List Nat := fun n => (row t n).map (·.2.1)
  let P : Search Nat W → Prop := fun s =>
    Inv (HasPair b) t.initial (fun n l w m => n ∈ s.seen ∧ w = 0 ∧ ∃ k w', HasPair b k l ∧ Edge t n (k, w') m) s ∧
    ∀ n, (mapFind n s.ids).isSome ↔ n ∈ s.seen ∨ n ∈ s.todo
  have key := loop_ok (σ := Search Nat W) (fun x => x.todo) (fun x => x.seen)
    (fun c rest s => moveArcs t b 0 c (row t c) { s with todo := rest, seen := setInsert c s.seen })
    (fun k s => moveLoop t b 0 k s)
    (by
      intro k s h
      rw [moveLoop]; simp only [h])
    (by
      intro k s c rest s' h h'
      rw [moveLoop]; simp only [h, h', Res.bind_ok])
    targets (List.range (size t)) (numberOfTransitions t)
    (by
      intro n hn m hm
      obtain ⟨⟨l, m', w⟩, h1, rfl⟩ := List.mem_map.1 hm
      exact List.mem_range.2 (ht.target_lt n (l, w) m' h1))
    (by
      intro n _
      rw [List.length_map]
      exact length_row_le _ _)
    P
    (by
      rintro s c rest ⟨h3, h4⟩ hc' htodo
      obtain ⟨i, hi⟩ := Option.isSome_iff_exists.1 ((h4 c).2 (.inr (by rw [htodo]; exact List.mem_cons_self ..)))
      obtain ⟨s', k1, k2, k3, k4, k5⟩ := moveArcs_spec (start := t.initial) hc hg (row t c) (fun _ h => h) _
        { s with todo := rest, seen := setInsert c s.seen } (h3.of_eq rfl rfl) hi
      simp only at k3 k4 k5
      refine ⟨s', k1, ⟨k2.congr ?_, ?_⟩, ?_, ?_⟩
      · intro n l w m'
        simp only [k4, mem_setInsert]
        constructor
        · rintro (⟨g1, g2⟩ | ⟨rfl, g2⟩)
          · exact ⟨.inr g1, g2⟩
          · exact ⟨.inl rfl, g2⟩
        · rintro ⟨rfl | g1, g2⟩
          · exact .inr ⟨rfl, g2⟩
          · exact .inl ⟨g1, g2⟩
      · intro n
        rw [k5, h4, htodo, k3, k4, mem_pushes, List.mem_cons, mem_setInsert]
        tauto
      · intro x; simp only [k4, mem_setInsert]
      · simp only [k3, k4]; rfl)
  obtain ⟨s, k1, ⟨k4, k5⟩, k6⟩ := key (size t * (numberOfTransitions t + 1) + 2)
    { todo := [t.initial], seen := [], ids := [(t.initial, (empty : Transducer W).initial)], t := empty }
    ⟨⟨start_wf, rfl, by simp [SortedKeys], by simp [mapFind], by
        intro n i h
        simp [mapFind] at h
        rw [← h.2]
        exact (start_wf (W := W)).initial_lt,
      by
        intro n m i h h'
        simp [mapFind] at h h'
        rw [← h.1, ← h'.1], by
        intro i c w j h
        exact absurd h (start_edge _ _ _), by
        rintro n l w m ⟨h, -⟩
        cases h⟩, by
      intro n
      simp only [mapFind, List.not_mem_nil, false_or, List.mem_singleton]
      by_cases h : t.initial = n
      · simp [h]
      · simp [h, Ne.symm h]⟩
    (by
      intro x hx
      simp only [List.mem_singleton] at hx
      subst hx
      exact List.mem_range.2 ht.initial_lt)
    (by
      intro pre c post _ h
      cases h)
    (by
      have : unseen (List.range (size t)) [] = size t := by simp [unseen]
      simp only [this, List.length_singleton, Nat.mul_add]
      omega)
  refine ⟨s, k1, k4.congr ?_⟩
  intro n l w m
  rw [k5, k6]
  unfold Copied PairEdge
  obtain ⟨x, y⟩ := l
  constructor
  · rintro ⟨h1, rfl, k, w', h2, h3⟩
    exact ⟨.inl h1, x, y, rfl, rfl, w', k, decode_iff.2 h2, h3⟩
  · rintro ⟨h1, x', y', h2, rfl, w', k, h3, h4⟩
    refine ⟨h1.resolve_right (by simp), rfl, k, w', ?_, h4⟩
    rw [h2]
    exact decode_iff.1 h3

theorem moveFinals_spec (fs : List (Nat × W)) : ∀ s : Search Nat W, SortedKeys s.ids → (∀ n m i, mapFind n s.ids = some i → mapFind m s.ids = some i → n = m) →
    SortedKeys s.t.finals → (∀ e ∈ fs, (mapFind e.1 s.ids).isSome) → (fs.map (·.1)).Nodup →
    (∀ e ∈ fs, ∀ i v, mapFind e.1 s.ids = some i → (i, v) ∉ s.t.finals) →
    ∃ F, moveFinals fs s = { s.t with finals := F } ∧ SortedKeys F ∧
      ∀ i w, (i, w) ∈ F ↔ (i, w) ∈ s.t.finals ∨ ∃ q, (q, w) ∈ fs ∧ mapFind q s.ids = some i := by
  induction fs with
  | nil =>
    intro s _ _ h _ _ _
    exact ⟨s.t.finals, rfl, h, by simp⟩
  | cons e fs ih =>
    obtain ⟨q, w⟩ := e
    intro s h1 h2 h3 h4 h5 h6
    obtain ⟨i, hi⟩ := Option.isSome_iff_exists.1 (h4 _ (List.mem_cons_self ..))
    simp only at hi
    have hids : ∀ n, mapFind n (mapInsert q 0 s.ids) = mapFind n s.ids := by
      intro n
      rw [mapInsert_eq_modify, mapFind_modify h1]
      split
      · next e => subst e; rw [hi]; rfl
      · rfl
    have hs' := sorted_mapInsert h1 q 0
    have hm := mem_mapInsert h3 i w
    have hnew : i ∉ s.t.finals.map (·.1) := by
      intro hx
      obtain ⟨⟨p, v⟩, hp, rfl⟩ := List.mem_map.1 hx
      exact h6 _ (List.mem_cons_self ..) _ _ hi hp
    rw [List.map_cons, List.nodup_cons] at h5
    have hgd : (mapFind q (mapInsert q 0 s.ids)).getD 0 = i := by rw [hids, hi]; rfl
    obtain ⟨F, k1, k2, k3⟩ := ih { s with ids := mapInsert q 0 s.ids, t := { s.t with finals := mapInsert ((mapFind q (mapInsert q 0 s.ids)).getD 0) w s.t.finals } }
      hs' (by simpa only [hids] using h2) (sorted_mapInsert h3 _ _) (fun e he => by rw [hids]; exact h4 e (List.mem_cons_of_mem _ he)) h5.2
      (by
        intro e he j v hj hmem
        simp only [hids] at hj
        simp only [hgd] at hmem
        rcases (hm _).1 hmem with ⟨hmem, -⟩ | hmem
        · cases hmem
          have := h2 _ _ _ hi hj
          exact h5.1 (by rw [this]; exact List.mem_map.2 ⟨e, he, rfl⟩)
        · exact h6 e (List.mem_cons_of_mem _ he) j v hj hmem)
    refine ⟨F, k1, k2, fun j v => ?_⟩
    rw [k3]
    simp only [hids] at hgd ⊢
    rw [hgd, hm]
    constructor
    · rintro ((⟨h, -⟩ | h) | ⟨q', h, h'⟩)
      · cases h; exact .inr ⟨q, List.mem_cons_self .., hi⟩
      · exact .inl h
      · exact .inr ⟨q', List.mem_cons_of_mem _ h, h'⟩
    · rintro (h | ⟨q', h, h'⟩)
      · exact .inl (.inr h)
      · rcases List.mem_cons.1 h with h | h
        · cases h
          rw [hi] at h'
          cases h'
          exact .inl (.inl ⟨rfl, hnew⟩)
        · exact .inr ⟨q', h, h'⟩

omit [LinearOrder W] in
theorem tr_other {S : Type} {E E' : S → Int → Int → W → S → Prop} (hE : ∀ q x y w p, E q x y w p → ∃ w', E' q x y w' p) {q p : S} {x y : List Int} {w : W}
    (h : Tr E q x y w p) : ∃ w', Tr E' q x y w' p := by
  induction h with
  | nil q => exact ⟨0, .nil q⟩
  | cons he _ ih =>
    obtain ⟨w', h'⟩ := ih
    obtain ⟨v, hv⟩ := hE _ _ _ _ _ he
    exact ⟨_, .cons hv h'⟩

omit [LinearOrder W] in
theorem path_pairs (hc : Coded b t) {q p : Nat} {ls : List (Int × W)} (h : Path (Edge t) q ls p) : ∃ ms, Path (PairEdge b t) q ms p := by
  induction h with
  | nil q => exact ⟨[], .nil q⟩
  | @cons q r p l ls he _ ih =>
    obtain ⟨ms, h1⟩ := ih
    obtain ⟨pr, hpr⟩ := hc _ _ _ he
    exact ⟨(pr, l.2) :: ms, .cons ⟨l.1, hpr, he⟩ h1⟩

omit [LinearOrder W] [AddMonoid W] in
theorem pairs_path {t : Transducer W} {q p : Nat} {ls : List (Pair × W)} (h : Path (PairEdge b t) q ls p) : ∃ cs, Path (Edge t) q cs p := by
  induction h with
  | nil q => exact ⟨[], .nil q⟩
  | cons he _ ih =>
    obtain ⟨c, -, he⟩ := he
    obtain ⟨cs, ih⟩ := ih
    exact ⟨_, .cons he ih⟩

omit [LinearOrder W] in
theorem setFinals_wf {u : Transducer W} (h : WF u) {F : List (Nat × W)} (hs : SortedKeys F) (hF : ∀ i w, (i, w) ∈ F → i < size u) :
    WF { u with finals := F } := ⟨h.keys, h.rows, h.initial_lt, h.target_lt, hs, fun p w hp => hF p w hp⟩

/-- Every state that can be reached is on the way to a final state. -/
def Live (t : Transducer W) : Prop := ∀ ls p, Path (Edge t) t.initial ls p → ∃ ms f w, Path (Edge t) p ms f ∧ Final t f w

/-- Without `#` the copy relates the same strings. -/
theorem moveLemqsLast_plain (ht : WF t) (hc : Coded b t) (hg : NoQueues b t) (hr : Reached t) :
    ∃ r, moveLemqsLast t b 0 = .ok r ∧ WF r ∧ Coded b r ∧ (∀ q x y w p, PairEdge b r q ((x, y), w) p → ∃ q' w' p', PairEdge b t q' ((x, y), w') p') ∧
      (∀ x y, (∃ w, Relates b r x y w) ↔ ∃ w, Relates b t x y w) ∧ (Live t → Live r) := by
  obtain ⟨s, k1, k2⟩ := moveLoop_spec ht hc hg
  have hTC : ∀ {q p x y w}, Tr (dir false b t) q x y w p → ∃ w', Tr (Copied b t) q x y w' p := fun h =>
    tr_other (fun q x y w p he => ⟨0, rfl, w, he⟩) h
  have hCT : ∀ {q p x y w}, Tr (Copied b t) q x y w p → ∃ w', Tr (dir false b t) q x y w' p := fun h =>
    tr_other (fun q x y w p he => by obtain ⟨-, w', he⟩ := he; exact ⟨w', he⟩) h
  have hid : ∀ e ∈ t.finals, (mapFind e.1 s.ids).isSome := by
    rintro ⟨p, w⟩ he
    obtain ⟨ls, h1⟩ := hr p w he
    obtain ⟨ms, h2⟩ := path_pairs hc h1
    obtain ⟨w', h3⟩ := hTC (tr_path.2 ⟨ms, h2, rfl, rfl, rfl⟩)
    obtain ⟨j, -, h4, -⟩ := k2.complete h3 _ k2.start
    simp only
    rw [h4]; rfl
  have hnodup : (t.finals.map (·.1)).Nodup := by
    have := ht.finals_sorted
    unfold SortedKeys at this
    exact (List.pairwise_map.2 this).imp (fun h => ne_of_lt h)
  obtain ⟨F, g1, g2, g3⟩ := moveFinals_spec t.finals s k2.sorted k2.inj (by rw [k2.finals]; exact List.Pairwise.nil) hid hnodup
    (by rw [k2.finals]; intro e _ i v _ h; cases h)
  have hFin : ∀ i w, (i, w) ∈ F ↔ ∃ q, Final t q w ∧ mapFind q s.ids = some i := by
    intro i w
    rw [g3, k2.finals]
    simp [Final]
  have hwf : WF { s.t with finals := F } := setFinals_wf k2.wf g2 (by
    intro i w hi
    obtain ⟨q, -, h⟩ := (hFin i w).1 hi
    exact k2.lt _ _ h)
  have hcr : Coded b { s.t with finals := F } := by
    intro q l p he
    obtain ⟨n, l', m, -, -, h3, -⟩ := Inv.sound k2 q l.1 l.2 p he
    exact ⟨l', decode_iff.2 h3⟩
  refine ⟨{ s.t with finals := F }, ?_, hwf, hcr, ?_, ?_, ?_⟩
  · unfold moveLemqsLast
    rw [k1]
    simp only [Res.bind_ok, Res.pure_eq, g1]
  · rintro q x y w p ⟨c, h1, h2⟩
    obtain ⟨n, l', m, -, -, h3, -, x', y', h4, -, w', h5⟩ := Inv.sound k2 q c w p h2
    have := h3.pair_unique (decode_iff.1 h1)
    rw [this] at h4
    simp only [Product.mk, Bool.false_eq_true, if_false, Prod.mk.injEq] at h4
    obtain ⟨rfl, rfl⟩ := h4
    exact ⟨n, w', m, h5⟩
  · intro x y
    have hdir : dir false b { s.t with finals := F } = dir false b s.t := rfl
    constructor
    · rintro ⟨w, hw⟩
      obtain ⟨p, u, v, h1, h2, -⟩ := (relates_tr (inverted := false)).1 hw
      rw [hdir] at h1
      obtain ⟨m, h3, h4⟩ := k2.sound h1 _ k2.start
      obtain ⟨q, h5, h6⟩ := (hFin p v).1 h2
      obtain rfl := k2.inj _ _ _ h3 h6
      obtain ⟨w', h7⟩ := hCT h4
      exact ⟨_, (relates_tr (inverted := false)).2 ⟨_, _, v, h7, h5, rfl⟩⟩
    · rintro ⟨w, hw⟩
      obtain ⟨p, u, v, h1, h2, -⟩ := (relates_tr (inverted := false)).1 hw
      obtain ⟨w', h3⟩ := hTC h1
      obtain ⟨j, w'', h4, h5⟩ := k2.complete h3 _ k2.start
      exact ⟨_, (relates_tr (inverted := false)).2 ⟨j, _, v, h5, (hFin j v).2 ⟨p, h2, h4⟩, rfl⟩⟩
  · intro hl ls p hp
    obtain ⟨ms, h1⟩ := path_pairs hcr hp
    have h2 : Tr (dir false b s.t) s.t.initial _ _ _ p := tr_path.2 ⟨ms, h1, rfl, rfl, rfl⟩
    obtain ⟨m, h3, h4⟩ := k2.sound h2 _ k2.start
    obtain ⟨w', h5⟩ := hCT h4
    obtain ⟨ms', h6, -⟩ := tr_path.1 h5
    obtain ⟨cs, h7⟩ := pairs_path h6
    obtain ⟨cs', f, fw, h8, h9⟩ := hl _ _ h7
    obtain ⟨ds, h10⟩ := path_pairs hc h8
    obtain ⟨w2, h11⟩ := hTC (tr_path.2 ⟨ds, h10, rfl, rfl, rfl⟩)
    obtain ⟨j, w3, h12, h13⟩ := k2.complete h11 _ h3
    obtain ⟨ds', h14, -⟩ := tr_path.1 h13
    obtain ⟨cs2, h15⟩ := pairs_path (t := s.t) h14
    exact ⟨cs2, j, fw, h15, (hFin j fw).2 ⟨f, h9, h12⟩⟩

end Verif.Trim
