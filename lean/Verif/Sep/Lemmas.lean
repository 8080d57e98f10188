import Verif.Sep.Spec
import Verif.Compiler.Check

/-! # Inserting texts with wildcards -/

namespace Verif.Sep

open Verif.Fst Verif.Compiler Verif.Alphabet

set_option linter.unusedSectionVars false

theorem wild_eq : wild = ⟨-1, -2, -3, -4, -5, -6⟩ := by decide +kernel

/-! ## Runs -/

def isLoop (p : Pair) : Bool := decide (p ∈ wildcards)

def put (u : List Pair) (p : Pair) : List Pair := if isLoop p = true ∧ u.getLast? = some p then u else u ++ [p]

def collapse (ps : List Pair) : List Pair := ps.foldl put []

theorem collapse_snoc (ps : List Pair) (p : Pair) : collapse (ps ++ [p]) = put (collapse ps) p := by
  simp [collapse, List.foldl_append]

theorem put_last (u : List Pair) (p : Pair) : (put u p).getLast? = some p := by
  unfold put
  split
  · next h => exact h.2
  · simp

theorem runs_collapse (ps : List Pair) : Runs (collapse ps) ps := by
  induction ps using List.reverseRecOn with
  | nil => exact .nil
  | append_singleton ps p ih =>
    rw [collapse_snoc]
    unfold put
    split
    · next h =>
      obtain ⟨v, hv⟩ := List.getLast?_eq_some_iff.1 h.2
      rw [hv] at ih ⊢
      exact .more (by simpa [isLoop] using h.1) ih
    · exact .one p ih

theorem Runs.collapse_eq {u ps : List Pair} (h : Runs u ps) : collapse ps = collapse u := by
  induction h with
  | nil => rfl
  | one p _ ih => rw [collapse_snoc, collapse_snoc, ih]
  | @more u ps p hp _ ih =>
    rw [collapse_snoc, ih]
    conv_lhs => unfold put
    exact if_pos ⟨by simpa [isLoop] using hp, by rw [collapse_snoc, put_last]⟩

theorem like_iff {e ps : List Pair} : (∃ u, Runs u e ∧ Runs u ps) ↔ collapse ps = collapse e := by
  constructor
  · rintro ⟨u, h1, h2⟩; rw [h1.collapse_eq, h2.collapse_eq]
  · intro h; exact ⟨collapse e, runs_collapse e, h ▸ runs_collapse ps⟩

theorem Separate.init {u : List Pair} {p : Pair} (h : Separate (u ++ [p])) : Separate u := by
  intro v q w e
  exact h v q (w ++ [p]) (by rw [e]; simp)

theorem Separate.collapse {u : List Pair} (h : Separate u) : collapse u = u := by
  induction u using List.reverseRecOn with
  | nil => rfl
  | append_singleton u p ih =>
    rw [collapse_snoc, ih h.init, put, if_neg]
    rintro ⟨h1, h2⟩
    obtain ⟨v, rfl⟩ := List.getLast?_eq_some_iff.1 h2
    exact h v p [] (by simp) (by simpa [isLoop] using h1)

theorem Separate.runs_iff {e ps : List Pair} (h : Separate e) : (∃ u, Runs u e ∧ Runs u ps) ↔ Runs e ps := by
  rw [like_iff, h.collapse]
  constructor
  · intro h; exact h ▸ runs_collapse ps
  · intro h'; rw [h'.collapse_eq, h.collapse]

/-! ## The loops -/

theorem anyOf_spec {c : Int} {pr : Pair} (ps : List Pair) {a : Alphabet} (ha : Ok a) (hc : HasPair a c pr) :
    ∃ a', anyOf c ps a = (decide (pr ∈ ps), a') ∧ Ok a' ∧ Ext a a' := by
  induction ps generalizing a with
  | nil => exact ⟨a, by simp [anyOf], ha, .refl a⟩
  | cons p ps ih =>
    obtain ⟨h1, h2, h3, -⟩ := pairCode_spec ha p.1 p.2
    have hc' := hc.mono h2
    unfold anyOf
    by_cases e : c = (a.pairCode p.1 p.2).1
    · have : pr = p := HasPair.pair_unique hc' (e ▸ h3)
      exact ⟨_, by simp [e, this], h1, h2⟩
    · have hne : pr ≠ p := by rintro rfl; exact e (HasPair.code_unique h1 hc' h3)
      obtain ⟨a', k1, k2, k3⟩ := ih h1 hc'
      refine ⟨a', ?_, k2, h2.trans k3⟩
      simp only [if_neg e, k1, List.mem_cons, hne, false_or]

section
variable {W : Type} [Zero W]

theorem loopBack_spec {c : Int} {pr : Pair} {a : Alphabet} (ha : Ok a) (hc : HasPair a c pr) :
    ∃ a', Ok a' ∧ Ext a a' ∧ ∀ (e : Nat) (t t' : Transducer W),
      (if isLoop pr = true then linkStates e e c 0 t else .ok t) = .ok t' → loopBack c e a t = .ok (a', t') := by
  obtain ⟨a1, h1, h2, h3⟩ := anyOf_spec [(0, wild.anyTag), (0, wild.anyChar)] ha hc
  by_cases hp : pr ∈ [((0 : Int), wild.anyTag), (0, wild.anyChar)]
  · have hl : isLoop pr = false := by
      rw [wild_eq] at hp
      simp only [List.mem_cons, List.not_mem_nil, or_false] at hp
      rcases hp with rfl | rfl <;> simp [isLoop, wildcards, wild_eq]
    refine ⟨a1, h2, h3, fun e t t' h => ?_⟩
    rw [hl] at h
    simp only [Bool.false_eq_true, if_false, Res.ok.injEq] at h
    subst h
    unfold loopBack
    rw [h1, decide_eq_true hp]
  · obtain ⟨a2, k1, k2, k3⟩ := anyOf_spec wildcards h2 (hc.mono h3)
    refine ⟨a2, k2, h3.trans k3, fun e t t' h => ?_⟩
    unfold loopBack
    rw [h1, decide_eq_false hp]
    simp only
    change (match anyOf c wildcards a1 with | (true, a) => _ | (false, a) => _) = _
    rw [k1]
    by_cases hl : pr ∈ wildcards
    · rw [isLoop, decide_eq_true hl, if_pos rfl] at h
      rw [decide_eq_true hl]
      simp only [h, Res.bind_ok]
      rfl
    · rw [isLoop, decide_eq_false hl] at h
      simp only [Bool.false_eq_true, if_false, Res.ok.injEq] at h
      subst h
      rw [decide_eq_false hl]

/-! ## Trees with loops -/

/-- Every state has a name: the pairs on the way to it, without repeated wildcards. -/
structure LT (a : Alphabet) (t : Transducer W) (nm : Nat → List Pair) : Prop where
  wf : WF t
  zero : ZeroFinals t
  init : nm t.initial = []
  inj : ∀ q p, q < size t → p < size t → nm q = nm p → q = p
  edge : ∀ q c w p, Edge t q (c, w) p → ∃ pr, HasPair a c pr ∧ pr ≠ (0, 0) ∧ nm p = put (nm q) pr
  loops : ∀ q, q < size t → ∀ pr, isLoop pr = true → (nm q).getLast? = some pr → ∃ c w, HasPair a c pr ∧ Edge t q (c, w) q
  parents : ∀ q, q < size t → ∀ u pr, nm q = u ++ [pr] → ∃ p c w, nm p = u ∧ HasPair a c pr ∧ Edge t p (c, w) q
  det : ∀ q c, (equalRange c (row t q)).length ≤ 1

theorem LT.mono {a a' : Alphabet} {t : Transducer W} {nm : Nat → List Pair} (h : LT a t nm) (he : Ext a a') : LT a' t nm where
  wf := h.wf
  zero := h.zero
  init := h.init
  inj := h.inj
  edge q c w p he' := by obtain ⟨pr, h1, h2⟩ := h.edge q c w p he'; exact ⟨pr, h1.mono he, h2⟩
  loops q hq pr h1 h2 := by obtain ⟨c, w, h3, h4⟩ := h.loops q hq pr h1 h2; exact ⟨c, w, h3.mono he, h4⟩
  parents q hq u pr h1 := by obtain ⟨p, c, w, h2, h3, h4⟩ := h.parents q hq u pr h1; exact ⟨p, c, w, h2, h3.mono he, h4⟩
  det := h.det

/-- What is behind `q` after an insertion that ends in `e`. -/
structure Next (a : Alphabet) (t : Transducer W) (nm : Nat → List Pair) (u : List Pair) (t' : Transducer W) (nm' : Nat → List Pair) (e : Nat) : Prop where
  lt : LT a t' nm'
  same : ∀ p < size t, nm' p = nm p
  size_le : size t ≤ size t'
  e_lt : e < size t'
  name : nm' e = u
  finals : t'.finals = t.finals
  initial : t'.initial = t.initial

theorem LT.step {a : Alphabet} (ha : Ok a) {t : Transducer W} {nm : Nat → List Pair} (h : LT a t nm) {q : Nat} (hq : q < size t) {c : Int} {pr : Pair}
    (hc : HasPair a c pr) (hne : pr ≠ (0, 0)) (w : W) :
    ∃ e t1, insertSingleTransduction c q w t = (some e, t1) ∧ ∃ t2 nm', (if isLoop pr = true then linkStates e e c 0 t1 else .ok t1) = .ok t2 ∧
      Next a t nm (put (nm q) pr) t2 nm' e := by
  have hd := h.det q c
  unfold insertSingleTransduction
  rw [(exists_iff h.wf q).mpr hq, if_pos rfl]
  match hr : equalRange c (row t q), hd with
  | [(p, v)], _ =>
    have he : Edge t q (c, v) p := (mem_equalRange _ _ _ _).mp (by rw [hr]; simp)
    have hp := h.wf.target_lt _ _ _ he
    obtain ⟨pr', k1, -, k3⟩ := h.edge _ _ _ _ he
    obtain rfl := HasPair.pair_unique hc k1
    refine ⟨p, t, rfl, t, nm, ?_, h, fun _ _ => rfl, le_refl _, hp, k3, rfl, rfl⟩
    split
    · next hl =>
      rw [linkStates_eq h.wf hp hp, if_pos]
      rw [any_target]
      obtain ⟨c', w', j1, j2⟩ := h.loops p hp pr hl (by rw [k3, put_last])
      rw [HasPair.code_unique ha hc j1]
      exact ⟨w', j2⟩
    · rfl
  | [], _ =>
    have hno : ∀ v p, ¬ Edge t q (c, v) p := by
      intro v p he
      have := (mem_equalRange c (row t q) p v).mpr he
      rw [hr] at this; simp at this
    have hput : put (nm q) pr = nm q ++ [pr] := by
      unfold put
      rw [if_neg]
      rintro ⟨h1, h2⟩
      obtain ⟨c', w', j1, j2⟩ := h.loops q hq pr h1 h2
      rw [HasPair.code_unique ha j1 hc] at j2
      exact hno _ _ j2
    have w1 := newState_wf h.wf
    have s1 := newState_size h.wf
    have f1 := newState_fst h.wf
    have e1 := newState_edge h.wf
    set t1 := addArc q c (size t) w (newState t).2 with ht1
    have hwf1 : WF t1 := addArc_wf w1 (by omega) c (by omega) w
    have hs1 : size t1 = size t + 1 := by rw [ht1, addArc_size w1 (by omega), s1]
    have hE : ∀ x l y, Edge t1 x l y ↔ Edge t x l y ∨ (x = q ∧ l = (c, w) ∧ y = size t) := by
      intro x l y
      rw [ht1, addArc_edge w1, e1]
    have hnew : ∀ p, p < size t → nm p ≠ nm q ++ [pr] := by
      intro p hp e
      obtain ⟨p', c', w', j1, j2, j3⟩ := h.parents p hp _ _ e
      have := h.inj p' q (h.wf.source_lt j3) hq j1
      subst this
      rw [HasPair.code_unique ha j2 hc] at j3
      exact hno _ _ j3
    set nm' : Nat → List Pair := fun p => if p = size t then nm q ++ [pr] else nm p with hnm
    have hold : ∀ p, p < size t → nm' p = nm p := fun p hp => by rw [hnm]; exact if_neg (by omega)
    have hnm_new : nm' (size t) = nm q ++ [pr] := if_pos rfl
    have hinj : ∀ x y, x < size t + 1 → y < size t + 1 → nm' x = nm' y → x = y := by
      intro x y hx hy e
      by_cases h1 : x = size t
      · by_cases h2 : y = size t
        · omega
        · rw [h1, hnm_new, hold y (by omega)] at e
          exact absurd e.symm (hnew y (by omega))
      · by_cases h2 : y = size t
        · rw [h2, hnm_new, hold x (by omega)] at e
          exact absurd e (hnew x (by omega))
        · rw [hold x (by omega), hold y (by omega)] at e
          exact h.inj x y (by omega) (by omega) e
    have hlast : put (nm q ++ [pr]) pr = if isLoop pr = true then nm q ++ [pr] else nm q ++ [pr] ++ [pr] := by
      unfold put; simp
    -- what holds with and without the loop
    have key : ∀ t2 : Transducer W, WF t2 → size t2 = size t + 1 → t2.finals = t.finals → t2.initial = t.initial →
        (∀ x l y, Edge t2 x l y ↔ Edge t1 x l y ∨ (isLoop pr = true ∧ x = size t ∧ l = (c, 0) ∧ y = size t)) →
        (∀ x b, (equalRange b (row t2 x)).length ≤ 1) → Next a t nm (put (nm q) pr) t2 nm' (size t) := by
      intro t2 g1 g2 g3 g4 g5 g6
      refine ⟨⟨g1, ?_, ?_, ?_, ?_, ?_, ?_, g6⟩, hold, by omega, by omega, by rw [hnm_new, hput], g3, g4⟩
      · intro p v hf
        refine h.zero p v ?_
        unfold Final at hf ⊢
        rwa [g3] at hf
      · rw [g4, hold _ h.wf.initial_lt, h.init]
      · intro x y hx hy; exact hinj x y (by omega) (by omega)
      · intro x b v y he
        rcases (g5 _ _ _).1 he with he | ⟨hl, rfl, e, rfl⟩
        · rcases (hE _ _ _).1 he with he | ⟨rfl, e, rfl⟩
          · obtain ⟨pr', j1, j2, j3⟩ := h.edge _ _ _ _ he
            exact ⟨pr', j1, j2, by rw [hold _ (h.wf.target_lt _ _ _ he), hold _ (h.wf.source_lt he), j3]⟩
          · cases e
            exact ⟨pr, hc, hne, by rw [hnm_new, hold _ hq, hput]⟩
        · cases e
          exact ⟨pr, hc, hne, by rw [hnm_new, hlast, if_pos hl]⟩
      · intro x hx pr' j1 j2
        by_cases hx' : x = size t
        · subst hx'
          rw [hnm_new] at j2
          simp only [List.getLast?_append, List.getLast?_singleton, Option.some_or, Option.some.injEq] at j2
          subst j2
          exact ⟨c, 0, hc, (g5 _ _ _).2 (.inr ⟨j1, rfl, rfl, rfl⟩)⟩
        · rw [hold x (by omega)] at j2
          obtain ⟨c', w', k1, k2⟩ := h.loops x (by omega) pr' j1 j2
          exact ⟨c', w', k1, (g5 _ _ _).2 (.inl ((hE _ _ _).2 (.inl k2)))⟩
      · intro x hx u pr' j1
        by_cases hx' : x = size t
        · subst hx'
          rw [hnm_new] at j1
          obtain ⟨rfl, e⟩ := List.append_inj' j1 rfl
          cases e
          exact ⟨q, c, w, hold q hq, hc, (g5 _ _ _).2 (.inl ((hE _ _ _).2 (.inr ⟨rfl, rfl, rfl⟩)))⟩
        · rw [hold x (by omega)] at j1
          obtain ⟨p, c', w', k1, k2, k3⟩ := h.parents x (by omega) u pr' j1
          exact ⟨p, c', w', by rw [hold p (h.wf.source_lt k3), k1], k2, (g5 _ _ _).2 (.inl ((hE _ _ _).2 (.inl k3)))⟩
    have hrow : ∀ x, row t1 x = if x = q then mmInsert c (size t, w) (row t q) else row t x := by
      intro x
      rw [ht1, addArc_row w1, newState_row h.wf, newState_row h.wf]
    have hdet1 : ∀ x b, (equalRange b (row t1 x)).length ≤ 1 := by
      intro x b
      rw [hrow]
      split
      · next hx =>
        subst hx
        rw [equalRange_mmInsert]
        by_cases hb : b = c
        · subst hb; rw [hr]; simp
        · rw [if_neg (fun h => hb h.symm)]; exact h.det x b
      · exact h.det x b
    refine ⟨size t, t1, by rw [ht1, ← f1], ?_⟩
    by_cases hl : isLoop pr = true
    · have hnoe : ∀ v, ¬ Edge t1 (size t) (c, v) (size t) := by
        intro v he
        rcases (hE _ _ _).1 he with he | ⟨e, -⟩
        · exact no_edge_out h.wf (le_refl _) _ _ he
        · omega
      refine ⟨addArc (size t) c (size t) 0 t1, nm', ?_, key _ ?_ ?_ ?_ ?_ ?_ ?_⟩
      · rw [if_pos hl]
        exact linkStates_new hwf1 (by omega) (by omega) c 0 hnoe
      · exact addArc_wf hwf1 (by omega) c (by omega) 0
      · rw [addArc_size hwf1 (by omega), hs1]
      · rfl
      · rfl
      · intro x l y
        rw [addArc_edge hwf1]
        simp only [hl, true_and]
      · intro x b
        rw [addArc_row hwf1]
        split
        · rw [equalRange_mmInsert]
          have : equalRange b (row t1 (size t)) = [] := by
            rw [hrow, if_neg (by omega)]
            rw [List.eq_nil_iff_forall_not_mem]
            rintro ⟨y, v⟩ hm
            exact no_edge_out h.wf (le_refl _) (b, v) y ((mem_equalRange _ _ _ _).mp hm)
          rw [this]
          split <;> simp
        · exact hdet1 x b
    · refine ⟨t1, nm', by rw [if_neg hl], key _ hwf1 hs1 rfl rfl ?_ hdet1⟩
      intro x l y
      simp [hl]
  | _ :: _ :: _, hd => exact absurd hd (by simp)

theorem Next.mono {a a' : Alphabet} {t t' : Transducer W} {nm nm' : Nat → List Pair} {u : List Pair} {e : Nat} (h : Next a t nm u t' nm' e) (he : Ext a a') :
    Next a' t nm u t' nm' e := ⟨h.lt.mono he, h.same, h.size_le, h.e_lt, h.name, h.finals, h.initial⟩

theorem Next.trans {a a' : Alphabet} {t t' t'' : Transducer W} {nm nm' nm'' : Nat → List Pair} {u v : List Pair} {e e' : Nat}
    (h : Next a t nm u t' nm' e) (h' : Next a' t' nm' v t'' nm'' e') : Next a' t nm v t'' nm'' e' :=
  ⟨h'.lt, fun p hp => by rw [h'.same p (lt_of_lt_of_le hp h.size_le), h.same p hp], h.size_le.trans h'.size_le, h'.e_lt, h'.name,
    h'.finals.trans h.finals, h'.initial.trans h.initial⟩

theorem matchStep_spec {a : Alphabet} (ha : Ok a) {t : Transducer W} {nm : Nat → List Pair} (h : LT a t nm) {q : Nat} (hq : q < size t) (x y : Int)
    (hne : (x, y) ≠ (0, 0)) (w : W) :
    ∃ a' e t' nm', matchStep [] w x y a q t = .ok (a', e, t') ∧ Ok a' ∧ Ext a a' ∧ Next a' t nm (put (nm q) (x, y)) t' nm' e := by
  obtain ⟨h1, h2, h3, -⟩ := pairCode_spec ha x y
  obtain ⟨e, t1, k1, t2, nm', k2, k3⟩ := (h.mono h2).step h1 hq h3 hne w
  obtain ⟨a', j1, j2, j3⟩ := loopBack_spec (W := W) h1 h3
  refine ⟨a', e, t2, nm', ?_, j1, h2.trans j2, k3.mono j2⟩
  unfold matchStep
  simp only [k1, j3 _ _ _ k2, Res.bind_ok, acxLoop]
  rfl

theorem matchRight_spec (w : W) (r : List Int) (hr : 0 ∉ r) {a : Alphabet} (ha : Ok a) {t : Transducer W} {nm : Nat → List Pair} (h : LT a t nm) {q : Nat}
    (hq : q < size t) :
    ∃ a' e t' nm', matchRight w r a q t = .ok (a', e, t') ∧ Ok a' ∧ Ext a a' ∧ Next a' t nm ((zipPad [] r).foldl put (nm q)) t' nm' e := by
  induction r generalizing a t nm q with
  | nil => exact ⟨a, q, t, nm, rfl, ha, .refl a, h, fun _ _ => rfl, le_refl _, hq, rfl, rfl, rfl⟩
  | cons y r ih =>
    have hy : y ≠ 0 := fun e => hr (by simp [e])
    obtain ⟨a1, e1, t1, nm1, h1, h2, h3, h4⟩ := matchStep_spec ha h hq 0 y (by simp [hy]) (if r = [] then w else 0)
    obtain ⟨a2, e2, t2, nm2, k1, k2, k3, k4⟩ := ih (fun h => hr (List.mem_cons_of_mem _ h)) h2 h4.lt h4.e_lt
    refine ⟨a2, e2, t2, nm2, ?_, k2, h3.trans k3, ?_⟩
    · rw [matchRight, h1, Res.bind_ok]; exact k1
    · have := h4.trans k4
      rw [h4.name] at this
      simpa [zipPad] using this

theorem matchLoop_spec (w : W) (l r : List Int) (hl : 0 ∉ l) (hr : 0 ∉ r) {a : Alphabet} (ha : Ok a) {t : Transducer W} {nm : Nat → List Pair} (h : LT a t nm)
    {q : Nat} (hq : q < size t) :
    ∃ a' e t' nm', matchLoop [] w l r a q t = .ok (a', e, t') ∧ Ok a' ∧ Ext a a' ∧ Next a' t nm ((zipPad l r).foldl put (nm q)) t' nm' e := by
  induction l generalizing r a t nm q with
  | nil => exact matchRight_spec w r hr ha h hq
  | cons x l ih =>
    have hx : x ≠ 0 := fun e => hl (by simp [e])
    have hl' : 0 ∉ l := fun h => hl (List.mem_cons_of_mem _ h)
    cases r with
    | nil =>
      obtain ⟨a1, e1, t1, nm1, h1, h2, h3, h4⟩ := matchStep_spec ha h hq x 0 (by simp [hx]) (if l = [] then w else 0)
      obtain ⟨a2, e2, t2, nm2, k1, k2, k3, k4⟩ := ih [] hl' hr h2 h4.lt h4.e_lt
      refine ⟨a2, e2, t2, nm2, ?_, k2, h3.trans k3, ?_⟩
      · rw [matchLoop]
        simp only [equivalents, mapFind, Option.getD_none, h1, Res.bind_ok]
        exact k1
      · have := h4.trans k4
        rw [h4.name] at this
        have e : zipPad (x :: l) [] = (x, 0) :: zipPad l [] := by cases l <;> simp [zipPad]
        rw [e]
        exact this
    | cons y r =>
      obtain ⟨a1, e1, t1, nm1, h1, h2, h3, h4⟩ := matchStep_spec ha h hq x y (by simp [hx]) (if l = [] ∧ r = [] then w else 0)
      obtain ⟨a2, e2, t2, nm2, k1, k2, k3, k4⟩ := ih r hl' (fun h => hr (List.mem_cons_of_mem _ h)) h2 h4.lt h4.e_lt
      refine ⟨a2, e2, t2, nm2, ?_, k2, h3.trans k3, ?_⟩
      · rw [matchLoop]
        simp only [equivalents, mapFind, Option.getD_none, h1, Res.bind_ok]
        exact k1
      · have := h4.trans k4
        rw [h4.name] at this
        exact this

theorem matchTransduction_eq (s : Settings) (hs : s.acx = []) (l r : List Int) (hlr : ¬ (l = [] ∧ r = [])) (w : W) (a : Alphabet) (q : Nat) (t : Transducer W) :
    matchTransduction s l r w a q t = matchLoop [] w (sides s l r).1 (sides s l r).2 a q t := by
  unfold matchTransduction
  rw [hs]
  unfold sides
  cases hrl : s.rl <;> cases l <;> cases r <;> simp at hlr ⊢

end

end Verif.Sep
