import Verif.Compiler.File
import Verif.Load.Spec
import Verif.Chain.Model
import Verif.BinIO.Props

/-! # Compiled sections as the analyser loads them -/

namespace Verif.Chain

open Verif.Fst Verif.Alphabet Verif.Compiler
open Verif.Compression (Dbl cut30)
open Verif.BinIO (cut cutRow)

set_option linter.unusedSectionVars false

variable {V W : Type}

theorem cut_stored (g : V → Dbl) (t : Transducer V) : cut (stored g t) = stored (fun w => cut30 (g w)) t := by
  unfold cut stored cutRow
  simp only [List.map_map, Function.comp_def]

theorem mapFind_map {κ α β : Type} [LinearOrder κ] (f : α → β) (k : κ) (m : List (κ × α)) :
    mapFind k (m.map fun e => (e.1, f e.2)) = (mapFind k m).map f := by
  induction m with
  | nil => rfl
  | cons e m ih =>
    obtain ⟨k', v⟩ := e
    simp only [List.map_cons, mapFind]
    split
    · rfl
    · exact ih

theorem row_stored {D : Type} (g : V → D) (t : Transducer V) (q : Nat) : row (stored g t) q = (row t q).map fun x => (x.1, x.2.1, g x.2.2) := by
  unfold row stored
  simp only
  rw [mapFind_map (fun r : Row V => (r.map fun x => (x.1, x.2.1, g x.2.2) : Row D))]
  cases mapFind q t.transitions <;> rfl

theorem edge_stored {D : Type} (g : V → D) (t : Transducer V) (q : Nat) (l : Int × D) (p : Nat) :
    Edge (stored g t) q l p ↔ ∃ v, Edge t q (l.1, v) p ∧ l.2 = g v := by
  unfold Edge
  rw [row_stored, List.mem_map]
  constructor
  · rintro ⟨⟨c, p', v⟩, h1, h2⟩
    simp only [Prod.mk.injEq] at h2
    obtain ⟨h2, h3, h4⟩ := h2
    exact ⟨v, by rw [← h2, ← h3]; exact h1, h4.symm⟩
  · rintro ⟨v, h1, h2⟩
    exact ⟨_, h1, by simp only; rw [← h2]⟩

theorem final_stored {D : Type} (g : V → D) (t : Transducer V) (p : Nat) (w : D) : Final (stored g t) p w ↔ ∃ v, Final t p v ∧ w = g v := by
  unfold Final stored
  simp only [List.mem_map, Prod.mk.injEq]
  constructor
  · rintro ⟨⟨p', v⟩, h1, rfl, rfl⟩
    exact ⟨v, h1, rfl⟩
  · rintro ⟨v, h1, rfl⟩
    exact ⟨_, h1, rfl, rfl⟩

theorem wf_stored {D : Type} (g : V → D) {t : Transducer V} (h : WF t) : WF (stored g t) := by
  have hs : Fst.size (stored g t) = Fst.size t := by unfold Fst.size stored; simp
  refine ⟨?_, ?_, by rw [hs]; exact h.initial_lt, fun q l p he => ?_, ?_, fun p w hf => ?_⟩
  · rw [hs, ← h.keys]
    unfold stored
    simp only [List.map_map]
    rfl
  · intro e he
    unfold stored at he
    simp only [List.mem_map] at he
    obtain ⟨e', he', rfl⟩ := he
    have := h.rows e' he'
    unfold SortedRow at this ⊢
    simp only
    rw [List.pairwise_map]
    exact this
  · rw [hs]
    obtain ⟨v, h1, -⟩ := (edge_stored g t q l p).1 he
    exact h.target_lt _ _ _ h1
  · have := h.finals_sorted
    unfold SortedKeys at this ⊢
    unfold stored
    simp only
    rw [List.pairwise_map]
    exact this
  · rw [hs]
    obtain ⟨v, h1, -⟩ := (final_stored g t p w).1 hf
    exact h.finals_lt _ _ h1

/-- The labels of a path with the weights as they are written. -/
def spell (A : Alphabet) (g : V → Dbl) (ms : List (Int × V)) : List (Pair × Dbl) := ms.map fun l => (dec A l.1, g l.2)

theorem path_stored {A : Alphabet} (g : V → Dbl) {t : Transducer V} (hk : ∀ q l p, Edge t q l p → KA A l.1) {q p : Nat} {ls : List (Pair × Dbl)} :
    Path (PairEdge A (stored g t)) q ls p ↔ ∃ ms, Path (Edge t) q ms p ∧ ls = spell A g ms := by
  induction ls generalizing q with
  | nil =>
    constructor
    · intro h
      rw [path_nil_iff] at h
      exact ⟨[], h ▸ .nil _, rfl⟩
    · rintro ⟨ms, h1, h2⟩
      cases ms with
      | nil => rw [path_nil_iff] at h1; exact h1 ▸ .nil _
      | cons => cases h2
  | cons l ls ih =>
    constructor
    · intro h
      obtain ⟨r, ⟨c, h1, h2⟩, h3⟩ := path_cons_iff.1 h
      obtain ⟨v, h4, h5⟩ := (edge_stored ..).1 h2
      obtain ⟨ms, h6, rfl⟩ := (ih (q := r)).1 h3
      refine ⟨(c, v) :: ms, .cons h4 h6, ?_⟩
      have e1 : dec A c = l.1 := by
        unfold dec
        rw [h1]
      have : l = (l.1, l.2) := rfl
      simp only at h5
      rw [this, h5, ← e1]
      unfold spell
      rw [List.map_cons]
    · rintro ⟨ms, h1, h2⟩
      cases ms with
      | nil => cases h2
      | cons m ms =>
        rw [spell, List.map_cons, List.cons.injEq] at h2
        obtain ⟨r, h3, h4⟩ := path_cons_iff.1 h1
        obtain ⟨pr, h5⟩ := hk _ _ _ h3
        refine .cons ⟨m.1, ?_, (edge_stored ..).2 ⟨m.2, h3, by rw [h2.1]⟩⟩ ((ih (q := r)).2 ⟨ms, h4, h2.2⟩)
        rw [h2.1]
        simp only
        rw [dec_eq h5]
        exact decode_iff.2 h5

theorem spell_left (A : Alphabet) (g : V → Dbl) (ms : List (Int × V)) : ((spell A g ms).map (·.1.1)).filter (· ≠ 0) = lft A ms := by
  unfold spell lft
  rw [List.map_map]
  rfl

theorem spell_right (A : Alphabet) (g : V → Dbl) (ms : List (Int × V)) :
    ((((spell A g ms).filter fun x => x.1 ≠ (0, 0)).map fun x => (x.1.2, x.2)).map (·.1)).filter (· ≠ 0) = rgt A ms := by
  induction ms with
  | nil => rfl
  | cons m ms ih =>
    rw [rgt_cons, ← ih]
    unfold spell rgt
    simp only [List.map_cons, List.map_nil]
    by_cases hz : dec A m.1 = (0, 0)
    · rw [List.filter_cons_of_neg (by simp [hz]), hz]
      rfl
    · rw [List.filter_cons_of_pos (by simpa using hz), List.map_cons, List.map_cons]
      simp only [List.filter_cons, List.filter_nil]
      split <;> rfl

variable [AddMonoid V] [DecidableEq V]

/-- A run of a stored section and a path of the compiled one. -/
theorem runTo_stored {A : Alphabet} (g : V → Dbl) {t : Transducer V} (hk : ∀ q l p, Edge t q l p → KA A l.1) {xs : List Int} {ys : List (Int × Dbl)}
    {q : Nat} : Load.RunTo A (stored g t) xs ys q ↔ ∃ ms, Path (Edge t) t.initial ms q ∧ lft A ms = xs ∧
      ((spell A g ms).filter fun x => x.1 ≠ (0, 0)).map (fun x => (x.1.2, x.2)) = ys := by
  constructor
  · rintro ⟨ls, h1, h2, h3⟩
    obtain ⟨ms, h4, rfl⟩ := (path_stored g hk).1 h1
    rw [spell_left] at h2
    exact ⟨ms, h4, h2, h3⟩
  · rintro ⟨ms, h1, h2, h3⟩
    exact ⟨_, (path_stored g hk).2 ⟨ms, h1, rfl⟩, by rw [spell_left]; exact h2, h3⟩

/-- What a stored section relates is what the compiled one relates. -/
theorem run_stored {A : Alphabet} (g : V → Dbl) {t : Transducer V} (hk : ∀ q l p, Edge t q l p → KA A l.1) (xs y : List Int) :
    (∃ ys w, Load.Run A (stored g t) xs ys w ∧ (ys.map (·.1)).filter (· ≠ 0) = y) ↔ AccRel A t t.initial xs y := by
  constructor
  · rintro ⟨ys, w, ⟨q, h1, h2⟩, h3⟩
    obtain ⟨ms, h4, h5, rfl⟩ := (runTo_stored g hk).1 h1
    obtain ⟨v, h6, -⟩ := (final_stored ..).1 h2
    rw [spell_right] at h3
    exact ⟨ms, ⟨q, v, h4, h6⟩, h5, h3⟩
  · rintro ⟨ms, ⟨q, v, h1, h2⟩, h3, h4⟩
    exact ⟨_, g v, ⟨q, (runTo_stored g hk).2 ⟨ms, h1, h3, rfl⟩, (final_stored ..).2 ⟨v, h2, rfl⟩⟩, by rw [spell_right]; exact h4⟩

/-- A path can be cut where some of what it reads is read. -/
theorem lft_split {A : Alphabet} (ms : List (Int × V)) (xs zs : List Int) (h : lft A ms = xs ++ zs) : ∃ m1 m2, ms = m1 ++ m2 ∧ lft A m1 = xs := by
  induction ms generalizing xs with
  | nil =>
    rw [lft_nil] at h
    refine ⟨[], [], rfl, ?_⟩
    cases xs with
    | nil => rfl
    | cons => cases h
  | cons m ms ih =>
    cases xs with
    | nil => exact ⟨[], m :: ms, rfl, rfl⟩
    | cons x xs =>
      rw [lft_cons] at h
      by_cases h0 : (dec A m.1).1 = 0
      · have e : lft A [m] = [] := by simp [lft, h0]
        rw [e, List.nil_append] at h
        obtain ⟨m1, m2, rfl, h2⟩ := ih (x :: xs) h
        exact ⟨m :: m1, m2, rfl, by rw [lft_cons, e, h2]; rfl⟩
      · have e : lft A [m] = [(dec A m.1).1] := by simp [lft, h0]
        rw [e, List.singleton_append, List.cons_append, List.cons.injEq] at h
        obtain ⟨m1, m2, rfl, h2⟩ := ih xs h.2
        exact ⟨m :: m1, m2, rfl, by rw [lft_cons, e, h2, h.1]; rfl⟩

/-- What can be read in a stored section all states of which are useful is a beginning of something that it relates. -/
theorem begins_stored {A : Alphabet} (g : V → Dbl) {t : Transducer V} (hw : WF t) (hk : ∀ q l p, Edge t q l p → KA A l.1)
    (hu : ∀ q < Fst.size t, (∃ ls, Path (Edge t) t.initial ls q) ∧ ∃ w, LangFrom 0 t q w) (xs : List Int) :
    (∃ ys q, Load.RunTo A (stored g t) xs ys q) ↔ ∃ zs y, AccRel A t t.initial (xs ++ zs) y := by
  constructor
  · rintro ⟨ys, q, h1⟩
    obtain ⟨ms, h2, h3, -⟩ := (runTo_stored g hk).1 h1
    have hq : q < Fst.size t := h2.inv (· < Fst.size t) (fun _ _ _ he _ => hw.target_lt _ _ _ he) hw.initial_lt
    obtain ⟨-, w, vs, f, fw, h4, h5, -⟩ := hu q hq
    exact ⟨lft A vs, rgt A (ms ++ vs), ms ++ vs, ⟨f, fw, h2.append h4, h5⟩, by rw [lft_append, h3], rfl⟩
  · rintro ⟨zs, y, ms, ⟨p, fw, h1, -⟩, h2, -⟩
    obtain ⟨m1, m2, rfl, h4⟩ := lft_split ms xs zs h2
    obtain ⟨q, h5, -⟩ := h1.split
    exact ⟨_, q, (runTo_stored g hk).2 ⟨m1, h5, h4, rfl⟩⟩

theorem van_measure {A : Alphabet} (hA : Ok A) : Van (W := V) A fun l => decide (l ≠ (0, 0) ∧ (dec A l.1).1 = 0) := by
  rintro c ⟨x, hx⟩
  rw [decide_eq_false_iff_not]
  rintro ⟨h1, h2⟩
  simp only at h2
  rw [dec_eq hx] at h2
  simp only at h2
  subst h2
  have h0 : HasPair A 0 (0, 0) := ⟨0, hA.zero, rfl⟩
  exact h1 (by rw [hx.code_unique hA h0])

theorem repeatPath {t : Transducer V} {q : Nat} {ms : List (Int × V)} (h : Path (Edge t) q ms q) (m : Int × V → Bool) (hm : 1 ≤ ms.countP m) (k : Nat) :
    ∃ ns, Path (Edge t) q ns q ∧ k ≤ ns.countP m := by
  induction k with
  | zero => exact ⟨[], .nil _, Nat.zero_le _⟩
  | succ k ih =>
    obtain ⟨ns, h1, h2⟩ := ih
    refine ⟨ms ++ ns, h.append h1, ?_⟩
    rw [List.countP_append]
    omega

/-- A compiled section has no cycles that read nothing. -/
theorem noLoop_stored {A : Alphabet} (hA : Ok A) (g : V → Dbl) {t : Transducer V} (hw : WF t) (hd : Deterministic 0 t)
    (hk : ∀ q l p, Edge t q l p → KA A l.1) (hu : ∀ q < Fst.size t, (∃ ls, Path (Edge t) t.initial ls q) ∧ ∃ w, LangFrom 0 t q w)
    (hb : AccBd A t t.initial) : Load.NoLoop A (stored g t) := by
  intro q ls hp h0
  obtain ⟨ms, h1, rfl⟩ := (path_stored g hk).1 hp
  cases ms with
  | nil => rfl
  | cons l ms =>
    exfalso
    obtain ⟨b, hb⟩ := hb _ (van_measure hA)
    obtain ⟨r, he, -⟩ := path_cons_iff.1 h1
    have hq := hw.source_lt he
    obtain ⟨⟨us, h2⟩, w, vs, f, fw, h3, h4, -⟩ := hu q hq
    have hl : (dec A l.1).1 = 0 := h0 (dec A l.1, g l.2) (by unfold spell; simp)
    have hne : l ≠ (0, 0) := by rintro rfl; exact hd.2.2 _ _ he
    have hc : 1 ≤ (l :: ms).countP fun l => decide (l ≠ (0, 0) ∧ (dec A l.1).1 = 0) := by
      rw [List.countP_cons_of_pos]
      · omega
      · exact decide_eq_true ⟨hne, hl⟩
    obtain ⟨ns, h5, h6⟩ := repeatPath h1 _ hc (b + 1)
    have := hb (us ++ (ns ++ vs)) ⟨f, fw, h2.append (h5.append h3), h4⟩
    rw [List.countP_append, List.countP_append] at this
    omega

end Verif.Chain
