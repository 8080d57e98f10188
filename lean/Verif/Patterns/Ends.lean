import Verif.Patterns.Tree
import Verif.Match.Props

/-! # The ends of the patterns -/

namespace Verif.Patterns

open Verif.Fst

variable {W : Type} [Zero W] {c : Codes} {S : List Int → Prop}

/-- The invariant without the numbers. -/
structure Base (c : Codes) (S : List Int → Prop) (x : Transducer W × List (Nat × Int)) (name : Nat → List Int) : Prop where
  inv : Inv c S x.1 name
  full : ∀ p < size x.1, Full c x.1 name p
  sorted : SortedKeys x.2
  fin : ∀ p, isFinal x.1 p = (mapFind p x.2).isSome
  lt : ∀ e ∈ x.2, e.1 < size x.1
  zero : ∀ q w, Final x.1 q w → w = 0

theorem finals_irrelevant {t : Transducer W} {name : Nat → List Int} (h : Inv c S t name) (fs : List (Nat × W)) (hw : WF { t with finals := fs }) :
    Inv c S { t with finals := fs } name := ⟨hw, h.root, h.inj, h.arcs, h.det, h.born⟩

theorem full_finals {t : Transducer W} {name : Nat → List Int} {p : Nat} (h : Full c t name p) (fs : List (Nat × W)) : Full c { t with finals := fs } name p := h

theorem finish_ok {x : Transducer W × List (Nat × Int)} {name : Nat → List Int} (h : Base c S x name) {s : Nat} (hs : s < size x.1) {id : Int}
    (hid : ∀ p r, mapFind p x.2 = some r → r ≤ id) :
    Base c S (finish id s x) name ∧ size (finish id s x).1 = size x.1 ∧
      (∀ p r, mapFind p (finish id s x).2 = some r → mapFind p x.2 = some r ∨ (p = s ∧ r = id)) ∧
      (∀ p r, mapFind p x.2 = some r → mapFind p (finish id s x).2 = some r) ∧
      ∃ r, mapFind s (finish id s x).2 = some r ∧ r ≤ id := by
  unfold finish
  split
  · next hf =>
    rw [h.fin, Option.isSome_iff_exists] at hf
    obtain ⟨r, hr⟩ := hf
    exact ⟨h, rfl, fun _ _ h => .inl h, fun _ _ h => h, r, hr, hid _ _ hr⟩
  · next hf =>
    rw [h.fin] at hf
    have hn : mapFind s x.2 = none := by simpa using hf
    have hset : ∀ p, mapFind p (mapSet s id x.2) = if p = s then some id else mapFind p x.2 := by
      intro p
      rw [mapSet_eq_modify, mapFind_modify h.sorted]
    have ih := h.inv.wf
    have hw : WF (setFinal s (0 : W) true x.1) := by
      unfold setFinal
      rw [if_pos rfl]
      refine ⟨ih.keys, ih.rows, ih.initial_lt, ih.target_lt, sorted_mapInsert ih.finals_sorted _ _, ?_⟩
      intro y v hy
      rcases (mem_mapInsert ih.finals_sorted s (0 : W) (y, v)).mp hy with ⟨hy, -⟩ | hy
      · cases hy; exact hs
      · exact ih.finals_lt _ _ hy
    refine ⟨⟨finals_irrelevant h.inv _ hw, fun p hp => full_finals (h.full p hp) _, ?_, ?_, ?_, ?_⟩, rfl, ?_, ?_, id, ?_, le_refl _⟩
    · simp only
      rw [mapSet_eq_modify]; exact sorted_modify h.sorted _ _ _
    · intro p
      simp only
      rw [hset]
      unfold isFinal setFinal
      rw [if_pos rfl]
      simp only
      rw [mapInsert_eq_modify, mapFind_modify ih.finals_sorted]
      by_cases hp : p = s
      · rw [if_pos hp, if_pos hp]; rfl
      · rw [if_neg hp, if_neg hp]; exact h.fin p
    · intro e he
      have := mapFind_of_mem (by rw [mapSet_eq_modify]; exact sorted_modify h.sorted _ _ _) (show (e.1, e.2) ∈ mapSet s id x.2 from he)
      rw [hset] at this
      split at this
      · next h' => rw [h']; exact hs
      · exact h.lt _ (mapFind_mem this)
    · intro q w hq
      unfold Final setFinal at hq
      rw [if_pos rfl] at hq
      rcases (mem_mapInsert ih.finals_sorted s (0 : W) (q, w)).mp hq with ⟨hy, -⟩ | hy
      · cases hy; rfl
      · exact h.zero q w hy
    · intro p r hp
      simp only at hp
      rw [hset] at hp
      split at hp
      · next h' => exact .inr ⟨h', (Option.some.inj hp).symm⟩
      · exact .inl hp
    · intro p r hp
      simp only
      rw [hset, if_neg]
      · exact hp
      · rintro rfl
        rw [hn] at hp
        cases hp
    · simp only
      rw [hset, if_pos rfl]

theorem Clear.no_queue (hc : Clear c S) {u : List Int} (h : S (u ++ [c.queue])) : u.getLast? ≠ some c.queue :=
  hc.once _ _ h (fun h => h.2.2 rfl)

/-- The whole invariant: the numbers that the states have. -/
structure Good (c : Codes) (S : List Int → Prop) (x : Transducer W × List (Nat × Int)) (name : Nat → List Int) (done : List (Int × List Int)) : Prop where
  base : Base c S x name
  sound : ∀ p id, mapFind p x.2 = some id → ∃ v, (id, v) ∈ done ∧ (norm c v = name p ∨ norm c v = name p ++ [c.queue])
  here : ∀ id v, (id, v) ∈ done → ∃ p r, name p = norm c v ∧ mapFind p x.2 = some r ∧ r ≤ id
  before : ∀ id v, (id, v) ∈ done → ∀ u, norm c v = u ++ [c.queue] → ∃ p r, name p = u ∧ mapFind p x.2 = some r ∧ r ≤ id

theorem buildLoop_ok (hc : Clear c S) : ∀ (v : List Int) (b : Build W) (name : Nat → List Int) (u : List Int), At c S b name u →
    (∀ z, z ≠ [] → z <+: v → S (z.foldl (push c) u)) →
    ∃ b' name', buildLoop c v b = .ok b' ∧ At c S b' name' (v.foldl (push c) u) ∧ More b.t b'.t ∧ ∀ p < size b.t, name' p = name p := by
  intro v
  induction v with
  | nil => intro b name u h _; exact ⟨b, name, rfl, h, .refl _, fun _ _ => rfl⟩
  | cons x v ih =>
    intro b name u h hS
    obtain ⟨b1, name1, g1, g2, g3, g4⟩ := step_ok hc h (x := x) (hS [x] (by simp) (by simp))
    obtain ⟨b2, name2, k1, k2, k3, k4⟩ := ih b1 name1 _ g2 (fun z hz hp => hS (x :: z) (by simp) (by
      obtain ⟨r, rfl⟩ := hp
      exact ⟨r, by simp⟩))
    refine ⟨b2, name2, ?_, k2, g3.trans k3, fun p hp => ?_⟩
    · rw [buildLoop, g1]; exact k1
    · rw [k4 p (lt_of_lt_of_le hp g3.2.2.1), g4 p hp]

theorem buildOne_ok (hc : Clear c S) {x : Transducer W × List (Nat × Int)} {name : Nat → List Int} {done : List (Int × List Int)} (h : Good c S x name done)
    {id : Int} {v : List Int} (hid : ∀ e ∈ done, e.1 ≤ id) (hS : ∀ z, z <+: v → S (norm c z)) :
    ∃ x' name', buildOne c id v x = .ok x' ∧ Good c S x' name' (done ++ [(id, v)]) ∧ x'.1.initial = x.1.initial := by
  have h0 : At c S { t := x.1, state := some x.1.initial, prev := none } name [] :=
    ⟨h.base.inv, h.base.full, ⟨_, h.base.inv.wf.initial_lt, rfl, h.base.inv.root⟩, fun v hv => by simp at hv, fun _ => rfl⟩
  obtain ⟨b, name', g1, g2, g3, g4⟩ := buildLoop_ok hc v _ name [] h0 (fun z _ hz => hS z hz)
  change At c S b name' (norm c v) at g2
  have g3' : More x.1 b.t := g3
  have g4 : ∀ p < size x.1, name' p = name p := g4
  obtain ⟨s, hs, hst, hsn⟩ := g2.state
  have hbase : Base c S (b.t, x.2) name' := by
    refine ⟨g2.inv, g2.full, h.base.sorted, ?_, ?_, ?_⟩
    · intro p
      show (mapFind p b.t.finals).isSome = _
      rw [g3'.2.1]
      exact h.base.fin p
    · intro e he
      exact lt_of_lt_of_le (h.base.lt e he) g3'.2.2.1
    · intro q w hq
      unfold Final at hq
      simp only at hq
      rw [g3'.2.1] at hq
      exact h.base.zero q w hq
  have hidx : ∀ p r, mapFind p x.2 = some r → r ≤ id := by
    intro p r hp
    obtain ⟨v', h1, -⟩ := h.sound p r hp
    exact hid _ h1
  have hname : ∀ p r, mapFind p x.2 = some r → name' p = name p := fun p r hp => g4 p (h.base.lt _ (mapFind_mem hp))
  -- the state before the queue
  obtain ⟨y, hy, hyb, hysz, hyt, y1, y2, y3⟩ : ∃ y, y = finishPrev id b.prev (b.t, x.2) ∧ Base c S y name' ∧ size y.1 = size b.t ∧
      y.1.initial = b.t.initial ∧
      (∀ p r, mapFind p y.2 = some r → mapFind p x.2 = some r ∨ (r = id ∧ norm c v = name' p ++ [c.queue])) ∧
      (∀ p r, mapFind p x.2 = some r → mapFind p y.2 = some r) ∧
      (∀ u, norm c v = u ++ [c.queue] → ∃ p r, name' p = u ∧ mapFind p y.2 = some r ∧ r ≤ id) := by
    by_cases hl : (norm c v).getLast? = some c.queue
    · obtain ⟨u, hu⟩ := last_split hl
      obtain ⟨q, k1, k2, k3⟩ := g2.prev u hu
      obtain ⟨j1, j2, j3, j4, r, j5, j6⟩ := finish_ok hbase k1 (id := id) hidx
      refine ⟨_, rfl, ?_⟩
      rw [k2]
      refine ⟨j1, j2, ?_, ?_, j4, ?_⟩
      · unfold finishPrev finish
        simp only
        split <;> rfl
      · intro p r hp
        rcases j3 p r hp with hp | ⟨rfl, rfl⟩
        · exact .inl hp
        · exact .inr ⟨rfl, by rw [k3]; exact hu⟩
      · intro u' hu'
        rw [hu] at hu'
        obtain ⟨rfl, -⟩ := snoc_inj hu'
        exact ⟨q, r, k3, j5, j6⟩
    · refine ⟨_, rfl, ?_⟩
      rw [g2.none hl]
      refine ⟨hbase, rfl, rfl, fun _ _ h => .inl h, fun _ _ h => h, ?_⟩
      intro u hu
      rw [hu] at hl
      exact absurd (last_snoc _ _) hl
  have hidy : ∀ p r, mapFind p y.2 = some r → r ≤ id := by
    intro p r hp
    rcases y1 p r hp with hp | ⟨rfl, -⟩
    · exact hidx p r hp
    · exact le_refl _
  obtain ⟨j1, j2, j3, j4, r, j5, j6⟩ := finish_ok hyb (s := s) (by rw [hysz]; exact hs) (id := id) hidy
  refine ⟨finish id s y, name', ?_, ⟨j1, ?_, ?_, ?_⟩, ?_⟩
  · unfold buildOne
    rw [g1]
    simp only [Res.bind_ok]
    rw [← hy, hst]
    rfl
  · intro p id' hp
    rcases j3 p id' hp with hp | ⟨rfl, rfl⟩
    · rcases y1 p id' hp with hp | ⟨rfl, hn⟩
      · obtain ⟨v', k1, k2⟩ := h.sound p id' hp
        exact ⟨v', by simp [k1], by rw [hname p _ hp]; exact k2⟩
      · exact ⟨v, by simp, .inr hn⟩
    · exact ⟨v, by simp, .inl hsn.symm⟩
  · intro id' v' hv
    rw [List.mem_append, List.mem_singleton] at hv
    rcases hv with hv | hv
    · obtain ⟨p, r, k1, k2, k3⟩ := h.here _ _ hv
      exact ⟨p, r, by rw [hname p _ k2]; exact k1, j4 _ _ (y2 _ _ k2), k3⟩
    · cases hv
      exact ⟨s, r, hsn, j5, j6⟩
  · intro id' v' hv u hu
    rw [List.mem_append, List.mem_singleton] at hv
    rcases hv with hv | hv
    · obtain ⟨p, r, k1, k2, k3⟩ := h.before _ _ hv u hu
      exact ⟨p, r, by rw [hname p _ k2]; exact k1, j4 _ _ (y2 _ _ k2), k3⟩
    · cases hv
      obtain ⟨p, r, k1, k2, k3⟩ := y3 u hu
      exact ⟨p, r, k1, j4 _ _ k2, k3⟩
  · rw [← g3'.1, ← hyt]
    unfold finish
    split <;> rfl

theorem buildAll_ok (hc : Clear c S) : ∀ (ps : List (Int × List Int)) (x : Transducer W × List (Nat × Int)) (name : Nat → List Int) (done : List (Int × List Int)),
    Good c S x name done → (done ++ ps).Pairwise (fun a b => a.1 ≤ b.1) → (∀ e ∈ ps, ∀ z, z <+: e.2 → S (norm c z)) →
    ∃ x' name', buildAll c ps x = .ok x' ∧ Good c S x' name' (done ++ ps) := by
  intro ps
  induction ps with
  | nil => intro x name done h _ _; exact ⟨x, name, rfl, by rw [List.append_nil]; exact h⟩
  | cons e ps ih =>
    obtain ⟨id, v⟩ := e
    intro x name done h hs hS
    obtain ⟨x1, name1, g1, g2, -⟩ := buildOne_ok hc h (id := id) (v := v)
      (fun e he => (List.pairwise_append.1 hs).2.2 e he _ (List.mem_cons_self ..)) (hS _ (List.mem_cons_self ..))
    obtain ⟨x2, name2, k1, k2⟩ := ih x1 name1 (done ++ [(id, v)]) g2 (by rw [List.append_assoc]; exact hs) (fun e he => hS e (List.mem_cons_of_mem _ he))
    refine ⟨x2, name2, ?_, by rw [List.append_assoc] at k2; exact k2⟩
    rw [buildAll, g1]; exact k1

/-! ## Paths and walks -/

theorem Go.target {u n : List Int} {x : Int} (h : Go c S u x n) : S n := by
  cases h <;> assumption

theorem path_walk {t : Transducer W} {name : Nat → List Int} (h : Inv c S t name) {q p : Nat} {ls : List (Int × W)} (hp : Path (Edge t) q ls p) :
    ∀ w, Walk c S w (name q) → Walk c S (w ++ ls.map (·.1)) (name p) := by
  induction hp with
  | nil => intro w hw; simpa using hw
  | cons he _ ih =>
    intro w hw
    have := ih _ (hw.snoc (h.arcs _ _ _ he).2)
    simpa using this

theorem walk_path (hc : Clear c S) {t : Transducer W} {name : Nat → List Int} (h : Inv c S t name) (hf : ∀ p < size t, Full c t name p) {w u : List Int} (hw : Walk c S w u) :
    ∀ p < size t, name p = u → ∃ ls : List (Int × W), ls.map (·.1) = w ∧ Path (Edge t) t.initial ls p := by
  induction hw with
  | nil =>
    intro p hp hn
    have := h.inj p t.initial hp h.wf.initial_lt (by rw [hn, h.root])
    subst this
    exact ⟨[], rfl, .nil _⟩
  | @snoc u n w x hw hg ih =>
    intro p hp hn
    have key : ∃ q, name q = u ∧ Edge t q (x, 0) p := by
      cases hg with
      | plain g1 g2 =>
        obtain ⟨q, k1, k2⟩ := h.born p hp _ _ hn
        rw [birth, if_neg g1.2.2] at k2
        exact ⟨q, k1, k2⟩
      | any g1 g2 =>
        obtain ⟨q, k1, k2⟩ := h.born p hp _ _ hn
        rw [birth_any hc.ok g1] at k2
        exact ⟨q, k1, k2⟩
      | loop g1 g2 => exact ⟨p, hn, (hf p hp _ _ hn).1 g1⟩
      | queue g1 g2 =>
        obtain ⟨⟨q, k1, k2, k3⟩, -⟩ := (hf p hp _ _ hn).2.1 rfl
        rcases g1 with rfl | rfl | rfl
        · obtain ⟨q, k1, k2⟩ := h.born p hp _ _ hn
          rw [birth, if_pos rfl] at k2
          exact ⟨q, k1, k2⟩
        · exact ⟨q, k1, k2⟩
        · exact ⟨q, k1, k3⟩
      | more g => exact ⟨p, hn, ((hf p hp _ _ hn).2.1 rfl).2⟩
      | skip g1 g2 =>
        rw [snoc2] at hn
        exact (hf p hp _ _ hn).2.2 _ rfl
    obtain ⟨q, k1, k2⟩ := key
    obtain ⟨ls, j1, j2⟩ := ih q (h.wf.source_lt k2) k1
    exact ⟨ls ++ [(x, 0)], by simp [j1], j2.append (.single k2)⟩

/-! ## The places of tidy patterns -/

theorem norm_snoc (v : List Int) (x : Int) : norm c (v ++ [x]) = push c (norm c v) x := by
  simp [norm]

theorem begins_closed {ps : List (Int × List Int)} {u : List Int} {y : Int} (h : Begins c ps (u ++ [y])) : Begins c ps u ∧ (¬ c.Plain y → u.getLast? ≠ some y) := by
  obtain ⟨e, he, v, hv, hu⟩ := h
  induction v using List.reverseRecOn with
  | nil => simp [norm] at hu
  | append_singleton v x ih =>
    rw [norm_snoc] at hu
    have hv' : v <+: e.2 := (List.prefix_append _ _).trans hv
    unfold push at hu
    split at hu
    · exact ih hv' hu
    · next hn =>
      obtain ⟨rfl, rfl⟩ := snoc_inj hu
      refine ⟨⟨e, he, v, hv', rfl⟩, fun hp hl => hn ⟨?_, hl⟩⟩
      unfold Codes.Plain at hp
      tauto

theorem Tidy.clear {ps : List (Int × List Int)} (hc : c.Ok) (h : Tidy c ps) : Clear c (Begins c ps) :=
  ⟨hc, fun _ _ h => (begins_closed h).1, fun _ _ h => (begins_closed h).2, h.1, h.2⟩

theorem strict_row {t : Transducer W} (ht : WF t) (hdet : ∀ q x, (equalRange x (row t q)).length ≤ 1) (q : Nat) : (row t q).Pairwise fun a b => a.1 < b.1 := by
  have hs := row_sorted ht q
  have hd := hdet q
  unfold SortedRow at hs
  generalize row t q = r at hs hd
  induction r with
  | nil => exact .nil
  | cons e r ih =>
    rw [List.pairwise_cons] at hs ⊢
    refine ⟨fun f hf => ?_, ih hs.2 (fun x => ?_)⟩
    · have h1 := hs.1 f hf
      have h2 := hd e.1
      by_contra hlt
      have h3 : f.1 = e.1 := by omega
      have : (f.2) ∈ equalRange e.1 r := List.mem_map.2 ⟨f, List.mem_filter.2 ⟨hf, by simp [h3]⟩, rfl⟩
      have h4 := List.length_pos_of_mem this
      simp only [equalRange, List.filter_cons, decide_true, if_true, List.map_cons, List.length_cons] at h2
      unfold equalRange at h4
      omega
    · have := hd x
      refine le_trans ?_ this
      unfold equalRange
      rw [List.length_map, List.length_map]
      exact ((List.sublist_cons_self e r).filter _).length_le

theorem start (c : Codes) (S : List Int → Prop) : Good c S ((Fst.empty : Transducer W), []) (fun _ => []) [] := by
  have hrow : ∀ q, row (Fst.empty : Transducer W) q = [] := by
    intro q
    have : (Fst.empty : Transducer W) = { initial := 0, finals := [], transitions := [(0, [])] } := rfl
    rw [this]
    unfold row
    simp only [mapFind]
    split <;> rfl
  have hw : WF (Fst.empty : Transducer W) := by
    have : (Fst.empty : Transducer W) = { initial := 0, finals := [], transitions := [(0, [])] } := rfl
    refine ⟨rfl, ?_, Nat.zero_lt_one, ?_, List.Pairwise.nil, ?_⟩
    · intro e he
      rw [this] at he
      simp only [List.mem_singleton] at he
      subst he
      exact List.Pairwise.nil
    · intro q l p he
      unfold Edge at he
      rw [hrow] at he
      cases he
    · intro p w hp; cases hp
  refine ⟨⟨⟨hw, rfl, ?_, ?_, ?_, ?_⟩, ?_, List.Pairwise.nil, fun p => rfl, fun e he => (by cases he), fun q w hq => (by cases hq)⟩, ?_, ?_, ?_⟩
  · intro p q hp hq _
    have : size (Fst.empty : Transducer W) = 1 := rfl
    simp only at hp hq
    omega
  · intro q l p he
    unfold Edge at he
    rw [hrow] at he
    cases he
  · intro q x
    simp only [hrow]
    simp [equalRange]
  · intro p _ u y hn; simp at hn
  · intro p _ u y hn; simp at hn
  · intro p id h; cases h
  · intro id v h; cases h
  · intro id v h; cases h

end Verif.Patterns
