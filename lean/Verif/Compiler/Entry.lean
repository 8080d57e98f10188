import Verif.Compiler.Tokens

/-! # One text in any transducer -/

namespace Verif.Compiler

open Verif.Fst Verif.Alphabet

set_option linter.unusedSectionVars false

section
variable {W : Type} [AddMonoid W] [DecidableEq W]

/-- Two ways of one step. -/
theorem single_cases {c : Int} {q e : Nat} {w : W} {t t' : Transducer W} (hwf : WF t) (h : insertSingleTransduction c q w t = (some e, t')) :
    q < size t ∧ ((t' = t ∧ ∃ v, Edge t q (c, v) e) ∨
      (e = size t ∧ t' = (insertNewSingleTransduction c q w t).2 ∧ ∀ v p, ¬ Edge t q (c, v) p)) := by
  unfold insertSingleTransduction at h
  split at h
  case isFalse => simp at h
  next hx =>
    have hlt := (exists_iff hwf q).1 hx
    refine ⟨hlt, ?_⟩
    have hmem : ∀ p v, (p, v) ∈ equalRange c (row t q) ↔ Edge t q (c, v) p := fun p v => mem_equalRange c _ p v
    split at h
    · next p v hr =>
      simp only [Prod.mk.injEq, Option.some.injEq] at h
      obtain ⟨rfl, rfl⟩ := h
      exact .inl ⟨rfl, v, (hmem _ _).1 (by rw [hr]; simp)⟩
    · next hr =>
      right
      simp only [newState_fst hwf, Prod.mk.injEq, Option.some.injEq] at h
      refine ⟨h.1.symm, ?_, fun v p he => ?_⟩
      · rw [← h.2]
        simp only [insertNewSingleTransduction, newState_fst hwf]
      · have := (hmem p v).2 he
        rw [hr] at this
        simp at this
    · next p v p' v' hr =>
      split at h
      · simp only [Prod.mk.injEq, Option.some.injEq] at h
        obtain ⟨rfl, rfl⟩ := h
        exact .inl ⟨rfl, v, (hmem _ _).1 (by rw [hr]; simp)⟩
      · split at h
        · simp only [Prod.mk.injEq, Option.some.injEq] at h
          obtain ⟨rfl, rfl⟩ := h
          exact .inl ⟨rfl, v', (hmem _ _).1 (by rw [hr]; simp)⟩
        · simp at h
    · simp at h

/-- What is known after the loop: `us` are the labels that were followed, up to `o`, and `vs` those that were added. -/
structure Ran (t : Transducer W) (q : Nat) (w : W) (t' : Transducer W) (e o : Nat) (us vs : List (Int × W)) : Prop where
  wf : WF t'
  init : t'.initial = t.initial
  finals : t'.finals = t.finals
  size : Fst.size t' = Fst.size t + vs.length
  shared : Path (Edge t) q us o
  same : vs = [] → t' = t ∧ e = o
  sum : vs ≠ [] → (vs.map (·.2)).sum = w ∧ Fst.size t ≤ e
  stop : ∀ c v vs', vs = (c, v) :: vs' → ∀ v p, ¬ Edge t o (c, v) p
  into : ∀ p < Fst.size t, ∀ ls, Path (Edge t') p ls e ↔ ∃ xs, Path (Edge t) p xs o ∧ ls = xs ++ vs
  old : ∀ p r, r < Fst.size t → ∀ ls, Path (Edge t') p ls r ↔ Path (Edge t) p ls r

theorem path_lt {t : Transducer W} (h : WF t) {q p : Nat} {ls : List (Int × W)} (hp : Path (Edge t) q ls p) (hq : q < size t) : p < size t := by
  induction hp with
  | nil => exact hq
  | cons he _ ih => exact ih (h.target_lt _ _ _ he)

theorem Ran.stay {t : Transducer W} (h : WF t) (q : Nat) (w : W) : Ran t q w t q q [] [] :=
  ⟨h, rfl, rfl, rfl, .nil q, fun _ => ⟨rfl, rfl⟩, fun h => absurd rfl h, fun _ _ _ h => by simp at h,
    fun p _ ls => ⟨fun h => ⟨ls, h, by simp⟩, by rintro ⟨xs, h, rfl⟩; simpa using h⟩, fun _ _ _ _ => Iff.rfl⟩

/-- A label is followed. -/
theorem Ran.follow {t t' : Transducer W} {q q' e o : Nat} {w : W} {us vs : List (Int × W)} {l : Int × W} (he : Edge t q l q')
    (h : Ran t q' w t' e o us vs) : Ran t q w t' e o (l :: us) vs :=
  ⟨h.wf, h.init, h.finals, h.size, .cons he h.shared, h.same, h.sum, h.stop, h.into, h.old⟩

/-- A label is added; then all others are added too. -/
theorem Ran.add {t t' : Transducer W} (hwf : WF t) {q e o : Nat} (hq : q < Fst.size t) {w w' : W} {c : Int} {us vs : List (Int × W)}
    (hno : ∀ v p, ¬ Edge t q (c, v) p) (h : Ran (insertNewSingleTransduction c q w' t).2 (Fst.size t) w t' e o us vs)
    (hw : (vs = [] → w' = w) ∧ (vs ≠ [] → w' = 0)) : us = [] ∧ Ran t q w t' e q [] ((c, w') :: vs) := by
  obtain ⟨g1, g2, g3, g4⟩ := grow_newArc hwf hq c w'
  set t1 := (insertNewSingleTransduction c q w' t).2 with ht1
  have hout : ∀ l p, ¬ Edge t1 (Fst.size t) l p := by
    intro l p he
    rcases (g4 _ _ _).1 he with he | ⟨h', -, -⟩
    · exact absurd (hwf.source_lt he) (lt_irrefl _)
    · omega
  obtain ⟨rfl, rfl⟩ : us = [] ∧ o = Fst.size t := by
    have := h.shared
    cases this with
    | nil => exact ⟨rfl, rfl⟩
    | cons he _ => exact absurd he (hout _ _)
  refine ⟨rfl, h.wf, h.init.trans g2.init, h.finals.trans g2.finals, ?_, .nil q, fun h => by simp at h, fun _ => ?_, ?_, ?_, ?_⟩
  · rw [h.size, g3, List.length_cons]; omega
  · by_cases hvs : vs = []
    · obtain ⟨-, rfl⟩ := h.same hvs
      simp [hvs, hw.1 hvs]
    · obtain ⟨h1, h2⟩ := h.sum hvs
      simp only [List.map_cons, List.sum_cons, h1, hw.2 hvs, zero_add, true_and]
      omega
  · intro c' v' vs' hcv
    cases hcv
    exact hno
  · intro p hp ls
    rw [h.into p (by omega)]
    constructor
    · rintro ⟨xs, h1, rfl⟩
      obtain ⟨ys, rfl, h2⟩ := path_into (i := p) (l := (c, w')) (q := q) (by omega) (fun p' l' he => by
        rcases (g4 _ _ _).1 he with he | ⟨h1, h2, -⟩
        · exact absurd (hwf.target_lt _ _ _ he) (lt_irrefl _)
        · exact ⟨h1, h2⟩) h1
      exact ⟨ys, (g2.path hwf hq).1 h2, by simp⟩
    · rintro ⟨ys, h1, rfl⟩
      refine ⟨ys ++ [(c, w')], ((g2.path hwf hq).2 h1).append (.single ((g4 _ _ _).2 (.inr ⟨rfl, rfl, rfl⟩))), by simp⟩
  · intro p r hr ls
    rw [h.old p r (by omega), g2.path hwf hr]

theorem reads_cons {a a' : Alphabet} (he : Ext a a') {c x y : Int} (hc : HasPair a c (x, y)) {v : W} {zs : List (Int × W)} {l r : List Int}
    (h : Reads a' zs l r) : Reads a' ((c, v) :: zs) (sym x ++ l) (sym y ++ r) := by
  obtain ⟨ps, h1, rfl, rfl⟩ := h
  refine ⟨(x, y) :: ps, .cons (decode_iff.2 (hc.mono he)) h1, ?_, ?_⟩
  · by_cases hx : x = 0 <;> simp [sym, hx]
  · by_cases hy : y = 0 <;> simp [sym, hy]

/-- What the loop does on any transducer. -/
def Runs (l r : List Int) (w : W) (a : Alphabet) : Prop :=
  ∀ (a' : Alphabet) (q e : Nat) (t t' : Transducer W), WF t → q < size t → matchLoop [] w l r a q t = .ok (a', e, t') →
    Ext a a' ∧ ∃ o us vs, Ran t q w t' e o us vs ∧ Reads a' (us ++ vs) l r

theorem reads_nil {a : Alphabet} {us : List (Int × W)} {l r : List Int} (h : Reads a us l r) (hne : ¬ (l = [] ∧ r = [])) : us ≠ [] := by
  rintro rfl
  obtain ⟨ps, h1, h2, h3⟩ := h
  cases h1
  exact hne ⟨h2.symm, h3.symm⟩

theorem runs_step {a : Alphabet} (ha : Ok a) {x y : Int} {l r l' r' : List Int} {w w' : W}
    (hl : l = sym x ++ l') (hr : r = sym y ++ r')
    (hloop : ∀ q (t : Transducer W), matchLoop [] w l r a q t = (do
      let (a, q, t) ← matchStep [] w' x y a q t
      matchLoop [] w l' r' a q t))
    (hw : w' = if l' = [] ∧ r' = [] then w else 0) (hnil : ∀ a (q : Nat) (t : Transducer W), l' = [] ∧ r' = [] → matchLoop [] w l' r' a q t = .ok (a, q, t))
    (h : Runs l' r' w (a.pairCode x y).2) : Runs l r w a := by
  obtain ⟨p1, p2, p3, -⟩ := pairCode_spec ha x y
  intro a' q e t t' hwf hq heq
  rw [hloop] at heq
  obtain ⟨⟨a1, q1, t1⟩, h1, h2⟩ := Res.bind_eq_ok.1 heq
  simp only at h2
  rcases hi : insertSingleTransduction (a.pairCode x y).1 q w' t with ⟨_ | e1, t1'⟩
  · simp [matchStep, hi] at h1
  · rw [matchStep_eq hi] at h1
    cases h1
    rcases single_cases hwf hi with ⟨-, ⟨rfl, v, hE⟩ | ⟨rfl, rfl, hno⟩⟩
    · obtain ⟨k1, o, us, vs, k2, k3⟩ := h a' _ e _ t' hwf (hwf.target_lt _ _ _ hE) h2
      refine ⟨p2.trans k1, o, _ :: us, vs, k2.follow hE, ?_⟩
      rw [hl, hr]
      exact reads_cons k1 p3 k3
    · obtain ⟨g1, g2, g3, g4⟩ := grow_newArc hwf hq (a.pairCode x y).1 w'
      obtain ⟨k1, o, us, vs, k2, k3⟩ := h a' _ e _ t' g2.wf (by omega) h2
      have hus : us = [] := by
        have := k2.shared
        cases this with
        | nil => rfl
        | cons he _ =>
          rcases (g4 _ _ _).1 he with he | ⟨h', -, -⟩
          · exact absurd (hwf.source_lt he) (lt_irrefl _)
          · omega
      subst hus
      have hw' : (vs = [] → w' = w) ∧ (vs ≠ [] → w' = 0) := by
        by_cases hn : l' = [] ∧ r' = []
        · rw [hnil _ _ _ hn] at h2
          cases h2
          have hvs : vs = [] := by
            have := k2.size
            exact List.length_eq_zero_iff.1 (by omega)
          exact ⟨fun _ => by rw [hw, if_pos hn], fun h => absurd hvs h⟩
        · have hvs : vs ≠ [] := reads_nil k3 hn
          exact ⟨fun h => absurd h hvs, fun _ => by rw [hw, if_neg hn]⟩
      obtain ⟨-, m⟩ := Ran.add hwf hq hno k2 hw'
      refine ⟨p2.trans k1, q, [], _ :: vs, m, ?_⟩
      rw [hl, hr]
      exact reads_cons k1 p3 k3

theorem runs_all (w : W) (l r : List Int) (hl : 0 ∉ l) (hr : 0 ∉ r) (a : Alphabet) (ha : Ok a) : Runs l r w a := by
  induction l generalizing r a with
  | nil =>
    induction r generalizing a with
    | nil =>
      intro a' q e t t' hwf hq h
      cases h
      exact ⟨.refl _, q, [], [], .stay hwf q w, [], .nil, rfl, rfl⟩
    | cons y r ih =>
      have hy : y ≠ 0 := fun h => hr (by simp [h])
      refine runs_step ha (x := 0) (y := y) (l' := []) (r' := r) (w' := if r = [] then w else 0) rfl (by rw [sym_pos hy]; rfl)
        (fun q t => rfl) (by simp) ?_ (ih (fun h => hr (List.mem_cons_of_mem _ h)) _ (pairCode_spec ha 0 y).1)
      rintro a q t ⟨-, rfl⟩; rfl
  | cons x l ih =>
    have hx : x ≠ 0 := fun h => hl (by simp [h])
    cases r with
    | nil =>
      refine runs_step ha (x := x) (y := 0) (l' := l) (r' := []) (w' := if l = [] then w else 0) (by rw [sym_pos hx]; rfl) rfl
        (fun q t => rfl) (by simp) ?_ (ih [] (fun h => hl (List.mem_cons_of_mem _ h)) (by simp) _ (pairCode_spec ha x 0).1)
      rintro a q t ⟨rfl, -⟩; rfl
    | cons y r =>
      have hy : y ≠ 0 := fun h => hr (by simp [h])
      refine runs_step ha (x := x) (y := y) (l' := l) (r' := r) (w' := if l = [] ∧ r = [] then w else 0) (by rw [sym_pos hx]; rfl)
        (by rw [sym_pos hy]; rfl) (fun q t => rfl) rfl ?_ (ih r (fun h => hl (List.mem_cons_of_mem _ h)) (fun h => hr (List.mem_cons_of_mem _ h)) _
        (pairCode_spec ha x y).1)
      rintro a q t ⟨rfl, rfl⟩; rfl

end

end Verif.Compiler
