import Verif.Patterns.Places
import Verif.Transducer.Trie

/-! # The transducer made of patterns -/

namespace Verif.Patterns

open Verif.Fst

variable {W : Type} [Zero W] {c : Codes} {S : List Int → Prop} {t : Transducer W} {name : Nat → List Int}

/-- The symbol on the arc with which the place is made. -/
def birth (c : Codes) (y : Int) : Int := if y = c.queue then 0x5f else y

/-- The states are places, each at most once, and the arcs lead from place to place. -/
structure Inv (c : Codes) (S : List Int → Prop) (t : Transducer W) (name : Nat → List Int) : Prop where
  wf : WF t
  root : name t.initial = []
  inj : ∀ p q, p < size t → q < size t → name p = name q → p = q
  arcs : ∀ q l p, Edge t q l p → l.2 = 0 ∧ Go c S (name q) l.1 (name p)
  det : ∀ q x, (equalRange x (row t q)).length ≤ 1
  born : ∀ p < size t, ∀ u y, name p = u ++ [y] → ∃ q, name q = u ∧ Edge t q (birth c y, 0) p

/-- All arcs that lead to the state are there. -/
def Full (c : Codes) (t : Transducer W) (name : Nat → List Int) (p : Nat) : Prop :=
  ∀ u y, name p = u ++ [y] →
    ((y = c.char ∨ y = c.tag) → Edge t p (y, 0) p) ∧
    (y = c.queue → (∃ q, name q = u ∧ Edge t q (0x20, 0) p ∧ Edge t q (0x23, 0) p) ∧ Edge t p (c.char, 0) p) ∧
    (∀ v, u = v ++ [c.queue] → ∃ q, name q = v ∧ Edge t q (y, 0) p)

/-- `t'` has more arcs. -/
def More (t t' : Transducer W) : Prop := t'.initial = t.initial ∧ t'.finals = t.finals ∧ size t ≤ size t' ∧ ∀ q l p, Edge t q l p → Edge t' q l p

omit [Zero W] in
theorem More.refl (t : Transducer W) : More t t := ⟨rfl, rfl, le_refl _, fun _ _ _ h => h⟩

omit [Zero W] in
theorem More.trans {t t' t'' : Transducer W} (h : More t t') (h' : More t' t'') : More t t'' :=
  ⟨h'.1.trans h.1, h'.2.1.trans h.2.1, h.2.2.1.trans h'.2.2.1, fun q l p he => h'.2.2.2 q l p (h.2.2.2 q l p he)⟩

theorem Full.mono {t t' : Transducer W} (hm : More t t') {p : Nat} (h : Full c t name p) : Full c t' name p := by
  intro u y hn
  obtain ⟨h1, h2, h3⟩ := h u y hn
  refine ⟨fun hy => hm.2.2.2 _ _ _ (h1 hy), fun hy => ?_, fun v hv => ?_⟩
  · obtain ⟨⟨q, g1, g2, g3⟩, g4⟩ := h2 hy
    exact ⟨⟨q, g1, hm.2.2.2 _ _ _ g2, hm.2.2.2 _ _ _ g3⟩, hm.2.2.2 _ _ _ g4⟩
  · obtain ⟨q, g1, g2⟩ := h3 v hv
    exact ⟨q, g1, hm.2.2.2 _ _ _ g2⟩

theorem Full.congr {name' : Nat → List Int} (hw : WF t) (hn : ∀ p < size t, name' p = name p) {p : Nat} (hp : p < size t) (h : Full c t name p) : Full c t name' p := by
  intro u y hu
  rw [hn p hp] at hu
  obtain ⟨h1, h2, h3⟩ := h u y hu
  refine ⟨h1, fun hy => ?_, fun v hv => ?_⟩
  · obtain ⟨⟨q, g1, g2, g3⟩, g4⟩ := h2 hy
    exact ⟨⟨q, by rw [hn q (hw.source_lt g2)]; exact g1, g2, g3⟩, g4⟩
  · obtain ⟨q, g1, g2⟩ := h3 v hv
    exact ⟨q, by rw [hn q (hw.source_lt g2)]; exact g1, g2⟩

/-- An arc between places that exist. -/
theorem Inv.link (hc : Clear c S) (h : Inv c S t name) {a b : Nat} (ha : a < size t) (hb : b < size t) {x : Int} (hg : Go c S (name a) x (name b)) :
    ∃ t', linkStates a b x 0 t = .ok t' ∧ Inv c S t' name ∧ More t t' ∧ size t' = size t ∧ Edge t' a (x, 0) b := by
  rw [linkStates_eq h.wf ha hb]
  split
  · next hany =>
    obtain ⟨w, hw⟩ := (any_target _ _ _).1 hany
    have := (h.arcs a (x, w) b hw).1
    simp only at this
    subst this
    exact ⟨t, rfl, h, .refl t, rfl, hw⟩
  · next hany =>
    have hno : equalRange x (row t a) = [] := by
      cases hr : equalRange x (row t a) with
      | nil => rfl
      | cons e es =>
        exfalso
        obtain ⟨p, w⟩ := e
        have he : Edge t a (x, w) p := (mem_equalRange _ _ _ _).1 (by rw [hr]; simp)
        have := Go.unique hc hg (h.arcs _ _ _ he).2
        have := h.inj _ _ hb (h.wf.target_lt _ _ _ he) this
        subst this
        exact hany ((any_target _ _ _).2 ⟨w, he⟩)
    have hE := addArc_edge h.wf a x b (0 : W)
    have hsz := addArc_size h.wf ha x b (0 : W)
    refine ⟨_, rfl, ⟨addArc_wf h.wf ha x hb 0, h.root, ?_, ?_, ?_, ?_⟩, ⟨rfl, rfl, by rw [hsz], fun q l p he => (hE _ _ _).2 (.inl he)⟩, hsz, (hE _ _ _).2 (.inr ⟨rfl, rfl, rfl⟩)⟩
    · rw [hsz]; exact h.inj
    · intro q l p he
      rcases (hE _ _ _).1 he with he | ⟨rfl, rfl, rfl⟩
      · exact h.arcs _ _ _ he
      · exact ⟨rfl, hg⟩
    · intro q y
      rw [addArc_row h.wf]
      split
      · next hq =>
        subst hq
        rw [equalRange_mmInsert]
        by_cases hy : x = y
        · subst hy; rw [hno]; simp
        · rw [if_neg hy]; exact h.det q y
      · exact h.det q y
    · rw [hsz]
      intro p hp u y hn
      obtain ⟨q, g1, g2⟩ := h.born p hp u y hn
      exact ⟨q, g1, (hE _ _ _).2 (.inl g2)⟩

/-- The next place. -/
theorem Inv.follow (hc : Clear c S) (h : Inv c S t name) (hf : ∀ p < size t, Full c t name p) {s : Nat} (hs : s < size t) {y : Int}
    (hg : Go c S (name s) (birth c y) (name s ++ [y])) :
    ∃ s' t' name', insertSingleTransduction (birth c y) s 0 t = (some s', t') ∧ Inv c S t' name' ∧ More t t' ∧ (∀ p < size t, name' p = name p) ∧
      s' < size t' ∧ name' s' = name s ++ [y] ∧ Edge t' s (birth c y, 0) s' ∧ ∀ p < size t', p ≠ s' → Full c t' name' p := by
  have hd := h.det s (birth c y)
  unfold insertSingleTransduction
  rw [(exists_iff h.wf s).mpr hs, if_pos rfl]
  match hr : equalRange (birth c y) (row t s), hd with
  | [(p, v)], _ =>
    have he : Edge t s (birth c y, v) p := (mem_equalRange _ _ _ _).mp (by rw [hr]; simp)
    obtain ⟨hv, hg'⟩ := h.arcs _ _ _ he
    simp only at hv
    subst hv
    exact ⟨p, t, name, rfl, h, .refl t, fun _ _ => rfl, h.wf.target_lt _ _ _ he, Go.unique hc hg' hg, he, fun p hp _ => hf p hp⟩
  | [], _ =>
    have hno : ∀ v p, ¬ Edge t s (birth c y, v) p := by
      intro v p he
      have := (mem_equalRange _ (row t s) p v).mpr he
      rw [hr] at this; simp at this
    have w1 := newState_wf h.wf
    have s1 := newState_size h.wf
    have f1 := newState_fst h.wf
    have e1 := newState_edge h.wf
    have hfresh : ∀ p < size t, name p ≠ name s ++ [y] := by
      intro p hp hn
      obtain ⟨q, g1, g2⟩ := h.born p hp _ _ hn
      have := h.inj _ _ (h.wf.source_lt g2) hs g1
      subst this
      exact hno _ _ g2
    have hE : ∀ x l z, Edge (addArc s (birth c y) (size t) 0 (newState t).2) x l z ↔ Edge t x l z ∨ (x = s ∧ l = (birth c y, 0) ∧ z = size t) := by
      intro x l z
      rw [addArc_edge w1, e1]
    have hsz : size (addArc s (birth c y) (size t) (0 : W) (newState t).2) = size t + 1 := by
      rw [addArc_size w1 (by omega), s1]
    have hm : More t (addArc s (birth c y) (size t) (0 : W) (newState t).2) := ⟨rfl, rfl, by omega, fun q l p he => (hE _ _ _).2 (.inl he)⟩
    have hname : ∀ p < size t, Function.update name (size t) (name s ++ [y]) p = name p := fun p hp => Function.update_of_ne (by omega) _ _
    have hnew : Function.update name (size t) (name s ++ [y]) (size t) = name s ++ [y] := Function.update_self ..
    refine ⟨size t, _, Function.update name (size t) (name s ++ [y]), by rw [← f1], ⟨addArc_wf w1 (by omega) _ (by omega) 0, ?_, ?_, ?_, ?_, ?_⟩, hm, hname,
      by omega, hnew, (hE _ _ _).2 (.inr ⟨rfl, rfl, rfl⟩), ?_⟩
    · show Function.update name (size t) (name s ++ [y]) t.initial = []
      rw [hname _ h.wf.initial_lt]; exact h.root
    · rw [hsz]
      intro p q hp hq hpq
      by_cases h1 : p = size t
      · by_cases h2 : q = size t
        · rw [h1, h2]
        · subst h1
          rw [hnew, hname q (by omega)] at hpq
          exact absurd hpq.symm (hfresh q (by omega))
      · by_cases h2 : q = size t
        · subst h2
          rw [hnew, hname p (by omega)] at hpq
          exact absurd hpq (hfresh p (by omega))
        · rw [hname p (by omega), hname q (by omega)] at hpq
          exact h.inj p q (by omega) (by omega) hpq
    · intro q l p he
      rcases (hE _ _ _).1 he with he | ⟨rfl, rfl, rfl⟩
      · rw [hname _ (h.wf.source_lt he), hname _ (h.wf.target_lt _ _ _ he)]
        exact h.arcs _ _ _ he
      · rw [hnew, hname _ hs]
        exact ⟨rfl, hg⟩
    · intro q x
      rw [addArc_row w1, newState_row h.wf, newState_row h.wf]
      split
      · next hq =>
        subst hq
        rw [equalRange_mmInsert]
        by_cases hx : birth c y = x
        · subst hx; rw [hr]; simp
        · rw [if_neg hx]; exact h.det q x
      · exact h.det q x
    · rw [hsz]
      intro p hp u z hn
      by_cases hps : p = size t
      · subst hps
        rw [hnew] at hn
        obtain ⟨rfl, rfl⟩ := snoc_inj hn
        exact ⟨s, hname s hs, (hE _ _ _).2 (.inr ⟨rfl, rfl, rfl⟩)⟩
      · rw [hname p (by omega)] at hn
        obtain ⟨q, g1, g2⟩ := h.born p (by omega) u z hn
        exact ⟨q, by rw [hname q (h.wf.source_lt g2)]; exact g1, (hE _ _ _).2 (.inl g2)⟩
    · rw [hsz]
      intro p hp hne
      exact ((hf p (by omega)).congr h.wf hname (by omega)).mono hm
  | _ :: _ :: _, hd => exact absurd hd (by simp)

/-- Where the loop over a pattern is. -/
structure At (c : Codes) (S : List Int → Prop) (b : Build W) (name : Nat → List Int) (u : List Int) : Prop where
  inv : Inv c S b.t name
  full : ∀ p < size b.t, Full c b.t name p
  state : ∃ s < size b.t, b.state = some s ∧ name s = u
  prev : ∀ v, u = v ++ [c.queue] → ∃ q < size b.t, b.prev = some q ∧ name q = v
  none : u.getLast? ≠ some c.queue → b.prev = none

theorem last_split {u : List Int} {x : Int} (h : u.getLast? = some x) : ∃ v, u = v ++ [x] := by
  rw [List.getLast?_eq_some_iff] at h
  exact h

theorem birth_any (hc : c.Ok) {x : Int} (hx : x = c.char ∨ x = c.tag) : birth c x = x := by
  have := hc.two; have := hc.three
  unfold birth
  rw [if_neg (by omega)]

theorem step_ok (hc : Clear c S) {b : Build W} {u : List Int} (h : At c S b name u) {x : Int} (hS : S (push c u x)) :
    ∃ b' name', buildStep c x b = .ok b' ∧ At c S b' name' (push c u x) ∧ More b.t b'.t ∧ ∀ p < size b.t, name' p = name p := by
  obtain ⟨hi, hf, ⟨s, hs, hst, hsn⟩, hprev, hnone⟩ := h
  have hq2 := hc.ok.two; have hq3 := hc.ok.three
  unfold buildStep
  by_cases hx : c.char = x ∨ c.tag = x
  · rw [if_pos hx]
    have hx : x = c.char ∨ x = c.tag := by omega
    have hxq : x ≠ c.queue := by omega
    by_cases hl : u.getLast? = some x
    · -- the mark is repeated
      obtain ⟨v, hv⟩ := last_split hl
      have hpush : push c u x = u := by unfold push; rw [if_pos ⟨by tauto, hl⟩]
      rw [hpush] at hS ⊢
      have hpn := hnone (by rw [hl]; simpa using hxq)
      have he := (hf s hs v x (by rw [hsn, hv])).1 hx
      have hr : equalRange x (row b.t s) = [(s, 0)] := by
        have h1 := hi.det s x
        have h2 := (mem_equalRange x (row b.t s) s 0).2 he
        match hrr : equalRange x (row b.t s), h1 with
        | [], _ => rw [hrr] at h2; cases h2
        | [e], _ => rw [hrr] at h2; simp only [List.mem_singleton] at h2; rw [h2]
        | _ :: _ :: _, h1 => exact absurd h1 (by simp)
      have hins : insertAt x b.state b.t = (some s, b.t) := by
        unfold insertAt
        rw [hst]
        simp only []
        unfold insertSingleTransduction
        rw [(exists_iff hi.wf s).mpr hs, if_pos rfl, hr]
      rw [hins]
      simp only [linkPrev, hpn, Option.isSome_none, Bool.false_eq_true, if_false, Res.bind_ok]
      have hlink : linkAt (some s) (some s) x b.t = .ok b.t := by
        unfold linkAt
        simp only []
        rw [linkStates_eq hi.wf hs hs, if_pos ((any_target _ _ _).2 ⟨0, he⟩)]
      rw [hlink]
      refine ⟨{ t := b.t, state := some s, prev := none }, name, rfl, ⟨hi, hf, ⟨s, hs, rfl, hsn⟩, ?_, fun _ => rfl⟩, .refl _, fun _ _ => rfl⟩
      intro v' hv'
      rw [hv] at hv'
      exact absurd (snoc_inj hv').2 hxq
    · have hpush : push c u x = u ++ [x] := by unfold push; rw [if_neg (fun h => hl h.2)]
      rw [hpush] at hS ⊢
      have hql : u.getLast? ≠ some c.queue := by
        intro hql
        obtain ⟨v, rfl⟩ := last_split hql
        exact any_not_plain hx (hc.after _ _ (by rw [snoc2]; exact hS)).1
      have hpn := hnone hql
      have hb := birth_any hc.ok hx
      obtain ⟨s', t1, name', g1, g2, g3, g4, g5, g6, g7, g8⟩ := hi.follow hc hf hs (y := x) (by rw [hb, hsn]; exact .any hx hS)
      rw [hb] at g1
      have hins : insertAt x b.state b.t = (some s', t1) := by unfold insertAt; rw [hst]; exact g1
      rw [hins]
      simp only [linkPrev, hpn, Option.isSome_none, Bool.false_eq_true, if_false, Res.bind_ok]
      obtain ⟨t2, k1, k2, k3, k4, k5⟩ := g2.link hc g5 g5 (x := x) (by rw [g6, hsn]; exact .loop hx hS)
      have hlink : linkAt (some s') (some s') x t1 = .ok t2 := k1
      rw [hlink]
      refine ⟨{ t := t2, state := some s', prev := none }, name', rfl, ⟨k2, ?_, ⟨s', by rw [k4]; exact g5, rfl, by rw [g6, hsn]⟩, ?_, fun _ => rfl⟩, g3.trans k3, g4⟩
      · simp only
        intro p hp
        by_cases hps : p = s'
        · subst hps
          intro v y hy
          rw [g6, hsn] at hy
          obtain ⟨rfl, rfl⟩ := snoc_inj hy
          refine ⟨fun _ => k5, fun h => absurd h hxq, fun v' hv' => ?_⟩
          rw [hv'] at hql
          exact absurd (last_snoc _ _) hql
        · exact (g8 p (by omega) hps).mono k3
      · intro v hv
        exact absurd (snoc_inj hv).2 hxq
  · rw [if_neg hx]
    by_cases hq : c.queue = x
    · rw [if_pos hq]
      subst hq
      by_cases hl : u.getLast? = some c.queue
      · obtain ⟨v, hv⟩ := last_split hl
        have hpush : push c u c.queue = u := by unfold push; rw [if_pos ⟨by tauto, hl⟩]
        rw [hpush]
        obtain ⟨q, k1, k2, k3⟩ := hprev v hv
        rw [k2]
        simp only [Option.isSome_some, if_true]
        exact ⟨b, name, rfl, ⟨hi, hf, ⟨s, hs, hst, hsn⟩, hprev, hnone⟩, .refl _, fun _ _ => rfl⟩
      · have hpush : push c u c.queue = u ++ [c.queue] := by unfold push; rw [if_neg (fun h => hl h.2)]
        rw [hpush] at hS ⊢
        rw [hnone hl]
        simp only [Option.isSome_none, Bool.false_eq_true, if_false]
        have hb : birth c c.queue = 0x5f := if_pos rfl
        obtain ⟨s', t1, name', g1, g2, g3, g4, g5, g6, g7, g8⟩ := hi.follow hc hf hs (y := c.queue) (by rw [hb, hsn]; exact .queue (.inl rfl) hS)
        rw [hb] at g1
        have hins : insertAt 0x5f b.state b.t = (some s', t1) := by unfold insertAt; rw [hst]; exact g1
        rw [hins]
        simp only []
        have hs1 : s < size t1 := lt_of_lt_of_le hs g3.2.2.1
        have hsn' : name' s = u := by rw [g4 s hs, hsn]
        rw [hsn] at g6
        obtain ⟨t2, k1, k2, k3, k4, k5⟩ := g2.link hc hs1 g5 (x := 0x20) (by rw [g6, hsn']; exact .queue (.inr (.inl rfl)) hS)
        obtain ⟨t3, j1, j2, j3, j4, j5⟩ := k2.link hc (by rw [k4]; exact hs1) (by rw [k4]; exact g5) (x := 0x23) (by rw [g6, hsn']; exact .queue (.inr (.inr rfl)) hS)
        obtain ⟨t4, i1, i2, i3, i4, i5⟩ := j2.link hc (a := s') (b := s') (by rw [j4, k4]; exact g5) (by rw [j4, k4]; exact g5) (x := c.char) (by rw [g6]; exact .more hS)
        have e1 : linkAt b.state (some s') 0x20 t1 = .ok t2 := by rw [hst]; exact k1
        have e2 : linkAt b.state (some s') 0x23 t2 = .ok t3 := by rw [hst]; exact j1
        have e3 : linkAt (some s') (some s') c.char t3 = .ok t4 := i1
        rw [e1]
        simp only [Res.bind_ok]
        rw [e2]
        simp only [Res.bind_ok]
        rw [e3]
        have hsz : size t4 = size t1 := by rw [i4, j4, k4]
        have hm : More t1 t4 := (k3.trans j3).trans i3
        refine ⟨{ t := t4, state := some s', prev := b.state }, name', rfl, ⟨i2, ?_, ⟨s', by rw [hsz]; exact g5, rfl, g6⟩, ?_, fun h => absurd (last_snoc _ _) h⟩, g3.trans hm, g4⟩
        · simp only
          intro p hp
          by_cases hps : p = s'
          · subst hps
            intro v y hy
            rw [g6] at hy
            obtain ⟨rfl, rfl⟩ := snoc_inj hy
            refine ⟨fun h => by omega, fun _ => ⟨⟨s, hsn', i3.2.2.2 _ _ _ (j3.2.2.2 _ _ _ k5), i3.2.2.2 _ _ _ j5⟩, i5⟩, fun v' hv' => ?_⟩
            rw [hv'] at hl
            exact absurd (last_snoc _ _) hl
          · exact (g8 p (by omega) hps).mono hm
        · intro v hv
          obtain ⟨rfl, -⟩ := snoc_inj hv
          exact ⟨s, by simp only; omega, hst, hsn'⟩
    · rw [if_neg hq]
      have hp : c.Plain x := ⟨fun h => hx (.inl h.symm), fun h => hx (.inr h.symm), fun h => hq h.symm⟩
      have hpush : push c u x = u ++ [x] := by
        unfold push
        rw [if_neg]
        rintro ⟨h | h | h, -⟩
        · exact hp.1 h
        · exact hp.2.1 h
        · exact hp.2.2 h
      rw [hpush] at hS ⊢
      have hb : birth c x = x := if_neg hp.2.2
      obtain ⟨s', t1, name', g1, g2, g3, g4, g5, g6, g7, g8⟩ := hi.follow hc hf hs (y := x) (by rw [hb, hsn]; exact .plain hp hS)
      rw [hb] at g1
      have hins : insertAt x b.state b.t = (some s', t1) := by unfold insertAt; rw [hst]; exact g1
      rw [hins]
      simp only []
      rw [hsn] at g6
      by_cases hl : u.getLast? = some c.queue
      · obtain ⟨v, hv⟩ := last_split hl
        obtain ⟨q, k1, k2, k3⟩ := hprev v hv
        have hq1 : q < size t1 := lt_of_lt_of_le k1 g3.2.2.1
        have hqn : name' q = v := by rw [g4 q k1, k3]
        obtain ⟨t2, j1, j2, j3, j4, j5⟩ := g2.link hc hq1 g5 (x := x) (by rw [g6, hqn, hv, ← snoc2]; exact .skip hp (by rw [snoc2, ← hv]; exact hS))
        have e1 : linkPrev b.prev (some s') x t1 = .ok t2 := by
          unfold linkPrev
          rw [k2]
          exact j1
        rw [e1]
        refine ⟨{ t := t2, state := some s', prev := none }, name', rfl, ⟨j2, ?_, ⟨s', by rw [j4]; exact g5, rfl, g6⟩, ?_, fun _ => rfl⟩, g3.trans j3, g4⟩
        · simp only
          intro p hp'
          by_cases hps : p = s'
          · subst hps
            intro v1 y hy
            rw [g6] at hy
            obtain ⟨rfl, rfl⟩ := snoc_inj hy
            refine ⟨fun h => absurd hp (any_not_plain h), fun h => absurd h hp.2.2, fun v' hv' => ?_⟩
            rw [hv] at hv'
            obtain ⟨rfl, -⟩ := snoc_inj hv'
            exact ⟨q, hqn, j5⟩
          · exact (g8 p (by omega) hps).mono j3
        · intro v hv
          exact absurd (snoc_inj hv).2 hp.2.2
      · rw [hnone hl]
        have e1 : linkPrev none (some s') x t1 = .ok t1 := rfl
        rw [e1]
        refine ⟨{ t := t1, state := some s', prev := none }, name', rfl, ⟨g2, ?_, ⟨s', g5, rfl, g6⟩, ?_, fun _ => rfl⟩, g3, g4⟩
        · simp only
          intro p hp'
          by_cases hps : p = s'
          · subst hps
            intro v1 y hy
            rw [g6] at hy
            obtain ⟨rfl, rfl⟩ := snoc_inj hy
            refine ⟨fun h => absurd hp (any_not_plain h), fun h => absurd h hp.2.2, fun v' hv' => ?_⟩
            rw [hv'] at hl
            exact absurd (last_snoc _ _) hl
          · exact g8 p hp' hps
        · intro v hv
          exact absurd (snoc_inj hv).2 hp.2.2

end Verif.Patterns
