import Verif.Tmx.Units
import Verif.TmProc.Paths
import Verif.Load.Props

/-! # The memory in the file -/

namespace Verif.TmProc

open Verif.Fst Verif.Alphabet Verif.Compiler Verif.Chain
open Verif.Tmx (Memory Compiled Remembers Tuv unitPairs)
open Verif.Compression (Dbl)

variable {W : Type} [AddCommMonoid W] [LinearOrder W]

/-- The labels of the accepting paths are these words, each on one path. -/
structure Exact (Q : List (List Pair)) (a : Alphabet) (t : Transducer W) : Prop where
  one : ∀ q, ((row t q).map (·.1)).Nodup
  words : ∀ ls p w, Path (Edge t) t.initial ls p → Final t p w → ls.map (fun l => dec a l.1) ∈ Q
  stored : ∀ ps ∈ Q, ∃ ls p w, Path (Edge t) t.initial ls p ∧ Final t p w ∧ ls.map (fun l => dec a l.1) = ps
  goes : ∀ ls q, Path (Edge t) t.initial ls q → ls = [] ∨ ∃ ms p w, Path (Edge t) q ms p ∧ Final t p w
  noLoop : ∀ g : W → Dbl, Load.NoLoop a (Chain.stored g t)

omit [AddCommMonoid W] [LinearOrder W] in
theorem no_edge_empty {q p : Nat} {l : Int × W} (h : Edge (Fst.empty : Transducer W) q l p) : False := by
  have e : (Fst.empty : Transducer W).transitions = [(0, [])] := rfl
  unfold Edge row at h
  rw [e, mapFind, mapFind] at h
  split at h <;> simp at h

omit [AddCommMonoid W] [LinearOrder W] in
theorem exact_empty (a : Alphabet) : Exact [] a (Fst.empty : Transducer W) where
  one q := by
    have : row (Fst.empty : Transducer W) q = [] := by
      by_contra hne
      obtain ⟨x, hx⟩ := List.exists_mem_of_ne_nil _ hne
      exact no_edge_empty (q := q) (l := (x.1, x.2.2)) (p := x.2.1) hx
    rw [this]
    exact .nil
  words ls p w _ hf := by cases hf
  stored ps h := by cases h
  goes ls q h := by
    cases h with
    | nil => exact .inl rfl
    | cons h _ => exact (no_edge_empty h).elim
  noLoop g q ls h _ := by
    cases h with
    | nil => rfl
    | cons h _ =>
      obtain ⟨c, -, h⟩ := h
      obtain ⟨v, h, -⟩ := (edge_stored ..).1 h
      exact (no_edge_empty h).elim

omit [LinearOrder W] in
theorem map_dec {a : Alphabet} {u : List Int} {ps : List Pair} (h : List.Forall₂ (HasPair a) u ps) : (labels u : List (Int × W)).map (fun l => dec a l.1) = ps := by
  induction h with
  | nil => rfl
  | cons h _ ih =>
    unfold labels at ih ⊢
    simp only [List.map_cons, ih, dec_eq h]

theorem visible_labels {u : List Int} (h : ∀ c ∈ u, c ≠ 0) : visible 0 ((labels u : List (Int × W)) ++ [(0, 0)]) = labels u := by
  have : visible 0 (labels u : List (Int × W)) = labels u := by
    unfold visible labels
    rw [List.filter_eq_self]
    intro x hx
    obtain ⟨c, hc, rfl⟩ := List.mem_map.1 hx
    simp [h c hc]
  rw [visible_append, this]
  simp [visible]

theorem Memory.exact {P : List (List Pair)} {a : Alphabet} {t t' : Transducer W} (h : Memory P a t) (hP : P ≠ []) (hm : minimize 0 t = .ok t') : Exact P a t' := by
  obtain ⟨acc, h1, h2⟩ := h.words
  have hpc := h.piece hP
  obtain ⟨t2, m1, m2⟩ := minimize_tree h.ok hpc.wf hpc.zero hpc.known hpc.finals hpc.acc
  obtain ⟨t3, m3, m4, -⟩ := Trim.minimize_piece h.ok hpc
  rw [hm] at m1 m3
  cases m1
  cases m3
  have hlab : ∀ u ∈ acc, ∀ c ∈ u, c ≠ (0 : Int) := by
    intro u hu c hc
    obtain ⟨p, k1, -⟩ := h1.stored u hu
    obtain ⟨u1, u2, rfl⟩ := List.append_of_mem hc
    unfold labels at k1
    rw [List.map_append, List.map_cons] at k1
    obtain ⟨m, -, k2⟩ := k1.split
    obtain ⟨m', k3, -⟩ := path_cons_iff.1 k2
    exact (h1.weight _ _ _ k3).2
  -- accepted labels
  have hacc : ∀ ls p w, Path (Edge t') t'.initial ls p → Final t' p w → ∃ u ∈ acc, ls = labels u := by
    intro ls p w k1 k2
    have hw := m4.zero p w k2
    subst hw
    have hl : Lang 0 t' (visible 0 (ls ++ [(0, 0)])) := ⟨ls, p, 0, k1, k2, rfl⟩
    obtain ⟨ms, p', w', k3, k4, k5⟩ := (m2.lang _).1 hl
    obtain ⟨rfl, u, hu, k6⟩ := h1.fin p' w' k4
    obtain rfl := h1.tree _ _ _ k3 k6
    refine ⟨u, hu, ?_⟩
    rw [visible_labels (hlab u hu), visible_append] at k5
    have hself : visible 0 ls = ls := by
      unfold visible
      rw [List.filter_eq_self]
      intro x hx
      obtain ⟨l1, l2, rfl⟩ := List.append_of_mem hx
      obtain ⟨m, -, j2⟩ := k1.split
      obtain ⟨m', j3, -⟩ := path_cons_iff.1 j2
      simp only [ne_eq, decide_not, Bool.not_eq_true', decide_eq_false_iff_not]
      intro e
      rw [e] at j3
      exact m2.det.2.2 _ _ j3
    rw [hself] at k5
    simpa [visible] using k5
  have huse : ∀ q l p, Edge t' q l p → ∃ us vs f w, Path (Edge t') t'.initial (us ++ l :: vs) f ∧ Final t' f w := by
    intro q l p he
    obtain ⟨⟨us, k1⟩, -⟩ := m2.useful q (m2.wf.source_lt he)
    obtain ⟨-, w, vs, f, fw, k2, k3, -⟩ := m2.useful p (m2.wf.target_lt _ _ _ he)
    exact ⟨us, vs, f, fw, k1.append (.cons he k2), k3⟩
  have hzero : ∀ q l p, Edge t' q l p → l.2 = 0 := by
    intro q l p he
    obtain ⟨us, vs, f, w, k1, k2⟩ := huse q l p he
    obtain ⟨u, hu, e⟩ := hacc _ _ _ k1 k2
    have : l ∈ (labels u : List (Int × W)) := by rw [← e]; simp
    unfold labels at this
    obtain ⟨c, -, rfl⟩ := List.mem_map.1 this
    rfl
  refine ⟨?_, ?_, ?_, ?_, ?_⟩
  · intro q
    have hn := m2.det.2.1 q
    have e : (row t' q).map (fun e => (e.1, e.2.2)) = ((row t' q).map (·.1)).map fun c => (c, (0 : W)) := by
      rw [List.map_map]
      refine List.map_congr_left fun x hx => ?_
      have := hzero q (x.1, x.2.2) x.2.1 hx
      simp only at this
      simp [this]
    rw [e] at hn
    exact List.Nodup.of_map _ hn
  · intro ls p w k1 k2
    obtain ⟨u, hu, rfl⟩ := hacc ls p w k1 k2
    obtain ⟨ps, hps, hr⟩ := Tmx.forall2_left h2 hu
    rw [map_dec hr]
    exact hps
  · intro ps hps
    obtain ⟨u, hu, hr⟩ := Tmx.forall2_right h2 hps
    obtain ⟨p, k1, k2⟩ := h1.stored u hu
    have hl : Lang 0 t (labels u) := ⟨labels u, p, 0, k1, k2, (visible_labels (hlab u hu)).symm⟩
    obtain ⟨ms, p', w', k3, k4, k5⟩ := (m2.lang _).2 hl
    obtain ⟨u', hu', rfl⟩ := hacc ms p' w' k3 k4
    have hw := m4.zero p' w' k4
    subst hw
    rw [visible_labels (hlab u' hu')] at k5
    exact ⟨labels u', p', 0, k3, k4, by rw [← k5, map_dec hr]⟩
  · intro ls q k1
    have hq : q < Fst.size t' := k1.inv (· < Fst.size t') (fun _ _ _ he _ => m2.wf.target_lt _ _ _ he) m2.wf.initial_lt
    obtain ⟨-, w, vs, f, fw, k2, k3, -⟩ := m2.useful q hq
    exact .inr ⟨vs, f, fw, k2, k3⟩
  · intro g
    refine noLoop_stored h.ok g m2.wf m2.det m2.known m2.useful fun m _ => ?_
    have hb : ∃ n, ∀ u ∈ acc, u.length ≤ n := by
      clear h1 h2 hlab hacc
      induction acc with
      | nil => exact ⟨0, by simp⟩
      | cons u acc ih =>
        obtain ⟨n, hn⟩ := ih
        refine ⟨max n u.length, ?_⟩
        intro x hx
        rcases List.mem_cons.1 hx with rfl | hx
        · omega
        · have := hn x hx; omega
    obtain ⟨n, hn⟩ := hb
    refine ⟨n, ?_⟩
    rintro ls ⟨p, w, k1, k2⟩
    obtain ⟨u, hu, rfl⟩ := hacc ls p w k1 k2
    have := hn u hu
    exact le_trans List.countP_le_length (by simpa [labels] using this)

/-- The words of a memory. -/
theorem parse_exact {ch : Tmx.Chars} {lo lm : UString} (hl : lo ≠ lm) (us : List (List Tuv)) (hu : ∀ vs ∈ us, Tmx.Proper ch lo lm vs) :
    ∃ a t Q, Tmx.parse ch W lo lm us = .ok (a, t) ∧ Compiled (Remembers ch lo lm us) a t ∧ Exact Q a t ∧
      ∀ ps, ps ∈ Q ↔ ∃ o m, Remembers ch lo lm us o m ∧ ps = unitPairs o m := by
  obtain ⟨a, t, k1, k2⟩ := Tmx.parse_spec (W := W) hl us hu
  obtain ⟨a1, t1, Q, h1, h2, h4, h3⟩ := Tmx.procAll_spec (W := W) hl us hu Tmx.memory_start
  rw [List.nil_append] at h2
  have k1' := k1
  unfold Tmx.parse at k1'
  rw [h1] at k1'
  simp only [Res.bind_ok] at k1'
  obtain ⟨t', k3, k4⟩ := Res.bind_eq_ok.1 k1'
  cases k4
  refine ⟨a, t, Q, k1, k2, ?_, h3⟩
  by_cases hQ : Q = []
  · subst hQ
    obtain rfl := h4 rfl
    have : minimize 0 (Fst.empty : Transducer W) = .ok Fst.empty := by
      unfold minimize
      rw [h2.none]
      rfl
    rw [this] at k3
    cases k3
    exact exact_empty a
  · exact Memory.exact h2 hQ k3

end Verif.TmProc
