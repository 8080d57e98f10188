import Verif.Transducer.Ops

/-! # insertTransducer and unionWith: the arcs they create -/

namespace Verif.Fst

variable {W : Type}

theorem mem_arcsOf {t : Transducer W} (h : WF t) (q : Nat) (a : Int) (p : Nat) (w : W) :
    (q, a, p, w) ∈ arcsOf t.transitions ↔ Edge t q (a, w) p := by
  simp only [arcsOf, List.mem_flatMap, List.mem_map, Prod.mk.injEq]
  constructor
  · rintro ⟨⟨q', r⟩, he, ⟨b, p', w'⟩, hm, rfl, rfl, rfl, rfl⟩
    simp only [Edge, row, mapFind_of_mem h.sorted he, Option.getD_some]
    exact hm
  · intro he
    exact ⟨(q, row t q), row_mem h (h.source_lt he), (a, (p, w)), he, rfl, rfl, rfl, rfl⟩

/-! ## newStates -/

theorem newStates_spec (j a n : Nat) (rel : List (Nat × Nat)) (t : Transducer W) (h : WF t) (hs : size t = n + a)
    (hrel : ∀ e ∈ rel, e.1 < a) :
    (newStates (List.range' a j) rel t).1 = rel ++ (List.range' a j).map (fun k => (k, n + k)) ∧
    WF (newStates (List.range' a j) rel t).2 ∧ size (newStates (List.range' a j) rel t).2 = n + a + j ∧
    (newStates (List.range' a j) rel t).2.initial = t.initial ∧
    (newStates (List.range' a j) rel t).2.finals = t.finals ∧
    ∀ q l p, Edge (newStates (List.range' a j) rel t).2 q l p ↔ Edge t q l p := by
  induction j generalizing a rel t with
  | zero => exact ⟨by simp [newStates], h, by simpa [newStates] using hs, rfl, rfl, fun _ _ _ => Iff.rfl⟩
  | succ j ih =>
    rw [List.range'_succ]
    have hm : mapSet a (newState t).1 rel = rel ++ [(a, n + a)] := by
      rw [mapSet_eq_modify, modify_append _ _ hrel, newState_fst h, hs]
    have hs' := newState_size h
    obtain ⟨i1, i2, i3, i4, i5, i6⟩ := ih (a + 1) (rel ++ [(a, n + a)]) (newState t).2 (newState_wf h) (by omega)
      (by
        intro e he
        rcases List.mem_append.mp he with he | he
        · have := hrel e he; omega
        · simp only [List.mem_singleton] at he; subst he; simp)
    simp only [newStates, hm]
    refine ⟨by rw [i1]; simp, i2, by rw [i3]; omega, i4, i5, ?_⟩
    intro q l p
    rw [i6, newState_edge h]

theorem relGet_range (n m k : Nat) (hk : k < m) : relGet ((List.range m).map (fun k => (k, n + k))) k = n + k := by
  have hs : SortedKeys ((List.range m).map (fun k => (k, n + k))) := by
    rw [SortedKeys, List.pairwise_map]; exact List.pairwise_lt_range
  rw [relGet, mapFind_of_mem hs (v := n + k)]
  · rfl
  · simp [hk]

/-! ## copyArcs -/

theorem copyArcs_spec (rel : List (Nat × Nat)) (arcs : List (Nat × Int × Nat × W)) (t : Transducer W) (h : WF t)
    (hs : ∀ a ∈ arcs, relGet rel a.1 < size t ∧ relGet rel a.2.2.1 < size t) :
    WF (copyArcs rel arcs t) ∧ size (copyArcs rel arcs t) = size t ∧ (copyArcs rel arcs t).initial = t.initial ∧
    (copyArcs rel arcs t).finals = t.finals ∧
    ∀ q l p, Edge (copyArcs rel arcs t) q l p ↔ Edge t q l p ∨
      ∃ q0 p0, (q0, l.1, p0, l.2) ∈ arcs ∧ q = relGet rel q0 ∧ p = relGet rel p0 := by
  induction arcs generalizing t with
  | nil => exact ⟨h, rfl, rfl, rfl, by simp [copyArcs]⟩
  | cons x arcs ih =>
    obtain ⟨q0, a, p0, w⟩ := x
    obtain ⟨h1, h2⟩ := hs (q0, a, p0, w) (by simp)
    have hsz := addArc_size h h1 a (relGet rel p0) w
    obtain ⟨i1, i2, i3, i4, i5⟩ := ih (addArc (relGet rel q0) a (relGet rel p0) w t) (addArc_wf h h1 a h2 w)
      (fun x hx => by rw [hsz]; exact hs x (List.mem_cons_of_mem _ hx))
    refine ⟨i1, i2.trans hsz, i3, i4, ?_⟩
    intro q l p
    obtain ⟨b, v⟩ := l
    have := i5 q (b, v) p
    rw [addArc_edge h] at this
    refine this.trans ?_
    simp only [List.mem_cons, Prod.mk.injEq]
    constructor
    · rintro ((h | ⟨rfl, ⟨rfl, rfl⟩, rfl⟩) | ⟨x, y, h1, h2, h3⟩)
      · exact .inl h
      · exact .inr ⟨q0, p0, .inl ⟨rfl, rfl, rfl, rfl⟩, rfl, rfl⟩
      · exact .inr ⟨x, y, .inr h1, h2, h3⟩
    · rintro (h | ⟨x, y, ⟨rfl, rfl, rfl, rfl⟩ | h1, h2, h3⟩)
      · exact .inl (.inl h)
      · exact .inl (.inr ⟨h2, ⟨rfl, rfl⟩, h3⟩)
      · exact .inr ⟨x, y, h1, h2, h3⟩

variable [Zero W]

omit [Zero W] in
theorem transitions_ne_nil {t : Transducer W} (h : WF t) : t.transitions.isEmpty = false := by
  have := h.initial_lt
  cases ht : t.transitions with
  | nil => simp [size, ht] at this
  | cons _ _ => rfl

/-- `insertTransducer` when the other transducer already has one final state. -/
theorem insertTransducer_spec {t o o' : Transducer W} (h : WF t) (ho : WF o) (ho' : WF o') (ε : Int) {s f : Nat}
    {fw : W} (hs : s < size t) (hj : joinFinals ε o = .ok o') (hf : o'.finals = [(f, fw)]) :
    ∃ t', insertTransducer s o ε t = .ok (size t + f, t', o') ∧ WF t' ∧ size t' = size t + size o' ∧
      t'.initial = t.initial ∧ t'.finals = t.finals ∧
      ∀ q l p, Edge t' q l p ↔ Edge t q l p ∨
        (∃ q0 p0, Edge o' q0 l p0 ∧ q = size t + q0 ∧ p = size t + p0) ∨
        (q = s ∧ l = (ε, 0) ∧ p = size t + o'.initial) := by
  have hk : o'.transitions.map (·.1) = List.range' 0 (size o') := by rw [ho'.keys, List.range_eq_range']
  have hflt : f < size o' := ho'.finals_lt f fw (by simp [Final, hf])
  have hilt := ho'.initial_lt
  obtain ⟨n1, n2, n3, n4, n5, n6⟩ := newStates_spec (size o') 0 (size t) [] t h (by simp) (by simp)
  rw [← hk] at n1 n2 n3 n4 n5 n6
  generalize hns : newStates (o'.transitions.map (·.1)) [] t = ns at n1 n2 n3 n4 n5 n6
  obtain ⟨rel, t1⟩ := ns
  simp only [List.nil_append] at n1
  simp only [ho'.keys] at n1
  have hrel : ∀ k < size o', relGet rel k = size t + k := fun k hk' => by rw [n1]; exact relGet_range _ _ _ hk'
  simp only at n2 n3 n4 n5 n6
  obtain ⟨c1, c2, c3, c4, c5⟩ := copyArcs_spec rel (arcsOf o'.transitions) t1 n2 (by
    rintro ⟨q, a, p, w⟩ hx
    rw [mem_arcsOf ho'] at hx
    have h1 := ho'.source_lt hx
    have h2 := ho'.target_lt _ _ _ hx
    simp only [hrel q h1, hrel p h2]
    omega)
  generalize htt : copyArcs rel (arcsOf o'.transitions) t1 = t2 at c1 c2 c3 c4 c5
  refine ⟨addArc s ε (size t + o'.initial) 0 t2, ?_, addArc_wf c1 (by omega) ε (by omega) 0, ?_, ?_, ?_, ?_⟩
  · simp only [insertTransducer, transitions_ne_nil ho, hj, Res.bind_ok, hns, htt, hf, hrel f hflt,
      hrel _ hilt]
    rfl
  · rw [addArc_size c1 (by omega)]; omega
  · exact c3.trans n4
  · exact c4.trans n5
  · intro q l p
    rw [addArc_edge c1, c5, n6, or_assoc]
    refine or_congr Iff.rfl (or_congr ?_ Iff.rfl)
    constructor
    · rintro ⟨q0, p0, hx, h1, h2⟩
      rw [mem_arcsOf ho'] at hx
      refine ⟨q0, p0, hx, ?_, ?_⟩
      · rw [h1, hrel _ (ho'.source_lt hx)]
      · rw [h2, hrel _ (ho'.target_lt _ _ _ hx)]
    · rintro ⟨q0, p0, hx, h1, h2⟩
      refine ⟨q0, p0, (mem_arcsOf ho' _ _ _ _).mpr hx, ?_, ?_⟩
      · rw [h1, hrel _ (ho'.source_lt hx)]
      · rw [h2, hrel _ (ho'.target_lt _ _ _ hx)]

/-- Paths of the combined graph. -/
theorem insert_path {t o t' : Transducer W} (h : WF t) {ε : Int} {s : Nat} (hs : s < size t)
    (hE : ∀ q l p, Edge t' q l p ↔ Edge t q l p ∨
        (∃ q0 p0, Edge o q0 l p0 ∧ q = size t + q0 ∧ p = size t + p0) ∨
        (q = s ∧ l = (ε, 0) ∧ p = size t + o.initial)) :
    (∀ q0 ls p, Path (Edge t') (size t + q0) ls p ↔ ∃ p0, p = size t + p0 ∧ Path (Edge o) q0 ls p0) ∧
    (∀ q ls p, q < size t → (Path (Edge t') q ls p ↔ (p < size t ∧ Path (Edge t) q ls p) ∨
      ∃ xs ys p0, p = size t + p0 ∧ Path (Edge t) q xs s ∧ Path (Edge o) o.initial ys p0 ∧
        ls = xs ++ (ε, 0) :: ys)) := by
  have part1 : ∀ q0 ls p, Path (Edge t') (size t + q0) ls p ↔ ∃ p0, p = size t + p0 ∧ Path (Edge o) q0 ls p0 := by
    intro q0 ls p
    induction ls generalizing q0 with
    | nil =>
      rw [path_nil_iff]
      constructor
      · intro hp; exact ⟨q0, hp, .nil _⟩
      · rintro ⟨p0, rfl, hp⟩; rw [path_nil_iff.mp hp]
    | cons l ls ih =>
      rw [path_cons_iff]
      constructor
      · rintro ⟨r, he, hp⟩
        rcases (hE _ _ _).mp he with he | ⟨q1, r0, he, h1, rfl⟩ | ⟨he, -⟩
        · exact absurd he (no_edge_out h (Nat.le_add_right _ _) _ _)
        · obtain rfl : q0 = q1 := by omega
          obtain ⟨p0, h2, h3⟩ := (ih r0).mp hp
          exact ⟨p0, h2, .cons he h3⟩
        · omega
      · rintro ⟨p0, rfl, hp⟩
        obtain ⟨r, he, hp⟩ := path_cons_iff.mp hp
        exact ⟨size t + r, (hE _ _ _).mpr (.inr (.inl ⟨q0, r, he, rfl, rfl⟩)), (ih r).mpr ⟨p0, rfl, hp⟩⟩
  refine ⟨part1, ?_⟩
  intro q ls p hq
  constructor
  · intro hp
    induction ls generalizing q with
    | nil =>
      have := path_nil_iff.mp hp
      subst this
      exact .inl ⟨hq, .nil _⟩
    | cons l ls ih =>
      obtain ⟨r, he, hp⟩ := path_cons_iff.mp hp
      rcases (hE _ _ _).mp he with he | ⟨q1, r0, he, h1, rfl⟩ | ⟨rfl, rfl, rfl⟩
      · rcases ih r (h.target_lt _ _ _ he) hp with ⟨h1, h2⟩ | ⟨xs, ys, p0, h1, h2, h3, h4⟩
        · exact .inl ⟨h1, .cons he h2⟩
        · exact .inr ⟨l :: xs, ys, p0, h1, .cons he h2, h3, by simp [h4]⟩
      · omega
      · obtain ⟨p0, h2, h3⟩ := (part1 _ _ _).mp hp
        exact .inr ⟨[], ls, p0, h2, .nil _, h3, rfl⟩
  · rintro (⟨-, hp⟩ | ⟨xs, ys, p0, rfl, h1, h2, rfl⟩)
    · exact hp.mono (fun q l p he => (hE _ _ _).mpr (.inl he))
    · exact (h1.mono (fun q l p he => (hE _ _ _).mpr (.inl he))).append
        (.cons ((hE _ _ _).mpr (.inr (.inr ⟨rfl, rfl, rfl⟩))) ((part1 _ _ _).mpr ⟨p0, rfl, h2⟩))

end Verif.Fst
