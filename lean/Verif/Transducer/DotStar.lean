import Verif.Transducer.Ops
import Verif.Transducer.Check

/-! # appendDotStar -/

namespace Verif.Fst

variable {W : Type}

theorem dotStarLoop_spec [Zero W] (ε : Int) (xs : List (Nat × W × Int)) (t : Transducer W) (h : WF t)
    (hlt : ∀ x ∈ xs, x.1 < size t) :
    ∃ t', dotStarLoop ε xs t = .ok t' ∧ WF t' ∧ size t' = size t ∧ t'.initial = t.initial ∧ t'.finals = t.finals ∧
      (∀ q l p, Edge t q l p → Edge t' q l p) ∧
      (∀ q l p, Edge t' q l p → Edge t q l p ∨ (p = q ∧ l.1 ≠ ε ∧ (q, l.2, l.1) ∈ xs)) ∧
      (∀ x ∈ xs, x.2.2 ≠ ε → ∃ v, Edge t' x.1 (x.2.2, v) x.1) := by
  induction xs generalizing t with
  | nil => exact ⟨t, rfl, h, rfl, rfl, rfl, fun _ _ _ he => he, fun _ _ _ he => .inl he, by simp⟩
  | cons x xs ih =>
    obtain ⟨f, w, s⟩ := x
    have hf : f < size t := hlt (f, w, s) (by simp)
    by_cases hs : s = ε
    · obtain ⟨t', h1, h2, h3, h4, h5, h6, h7, h8⟩ := ih t h (fun x hx => hlt x (by simp [hx]))
      refine ⟨t', by rw [dotStarLoop, if_neg (by simp [hs])]; exact h1, h2, h3, h4, h5, h6, ?_, ?_⟩
      · intro q l p he
        rcases h7 q l p he with he | ⟨h9, h10, h11⟩
        · exact .inl he
        · exact .inr ⟨h9, h10, by simp [h11]⟩
      · intro x hx hne
        rcases List.mem_cons.mp hx with rfl | hx
        · exact absurd hs hne
        · exact h8 x hx hne
    · have hl := linkStates_eq h hf hf s w
      have key : ∃ t1, linkStates f f s w t = .ok t1 ∧ WF t1 ∧ size t1 = size t ∧ t1.initial = t.initial ∧
          t1.finals = t.finals ∧ (∀ q l p, Edge t q l p → Edge t1 q l p) ∧
          (∀ q l p, Edge t1 q l p → Edge t q l p ∨ (p = q ∧ l.1 ≠ ε ∧ (q, l.2, l.1) = (f, w, s))) ∧
          ∃ v, Edge t1 f (s, v) f := by
        by_cases ha : (equalRange s (row t f)).any (fun e => e.1 = f) = true
        · rw [if_pos ha] at hl
          exact ⟨t, hl, h, rfl, rfl, rfl, fun _ _ _ he => he, fun _ _ _ he => .inl he, (any_target _ _ _).mp ha⟩
        · rw [if_neg ha] at hl
          refine ⟨_, hl, addArc_wf h hf s hf w, addArc_size h hf s f w, rfl, rfl, ?_, ?_, w, ?_⟩
          · intro q l p he; rw [addArc_edge h]; exact .inl he
          · intro q l p he
            rcases (addArc_edge h _ _ _ _ _ _ _).mp he with he | ⟨rfl, rfl, rfl⟩
            · exact .inl he
            · exact .inr ⟨rfl, hs, rfl⟩
          · rw [addArc_edge h]; exact .inr ⟨rfl, rfl, rfl⟩
      obtain ⟨t1, k1, k2, k3, k4, k5, k6, k7, v, k8⟩ := key
      obtain ⟨t', h1, h2, h3, h4, h5, h6, h7, h8⟩ := ih t1 k2 (fun x hx => by rw [k3]; exact hlt x (by simp [hx]))
      refine ⟨t', by rw [dotStarLoop, if_pos hs, k1]; exact h1, h2, h3.trans k3, h4.trans k4, h5.trans k5,
        fun q l p he => h6 _ _ _ (k6 _ _ _ he), ?_, ?_⟩
      · intro q l p he
        rcases h7 q l p he with he | ⟨h9, h10, h11⟩
        · rcases k7 q l p he with he | ⟨h9, h10, h11⟩
          · exact .inl he
          · exact .inr ⟨h9, h10, by simp [h11]⟩
        · exact .inr ⟨h9, h10, by simp [h11]⟩
      · intro x hx hne
        rcases List.mem_cons.mp hx with rfl | hx
        · exact ⟨v, h6 _ _ _ k8⟩
        · exact h8 x hx hne

theorem appendDotStar_spec [Zero W] (loopback : List Int) (ε : Int) {t : Transducer W} (h : WF t) :
    ∃ t', appendDotStar loopback ε t = .ok t' ∧ WF t' ∧ size t' = size t ∧ t'.initial = t.initial ∧
      t'.finals = t.finals ∧
      (∀ q l p, Edge t q l p → Edge t' q l p) ∧
      (∀ q l p, Edge t' q l p → Edge t q l p ∨ (p = q ∧ l.1 ≠ ε ∧ l.1 ∈ loopback ∧ Final t q l.2)) ∧
      (∀ q w s, Final t q w → s ∈ loopback → s ≠ ε → ∃ v, Edge t' q (s, v) q) := by
  obtain ⟨t', h1, h2, h3, h4, h5, h6, h7, h8⟩ := dotStarLoop_spec ε
    (t.finals.flatMap (fun e => loopback.map (fun s => (e.1, e.2, s)))) t h (by
      intro x hx
      simp only [List.mem_flatMap, List.mem_map] at hx
      obtain ⟨e, he, s, -, rfl⟩ := hx
      exact h.finals_lt e.1 e.2 he)
  refine ⟨t', h1, h2, h3, h4, h5, h6, ?_, ?_⟩
  · intro q l p he
    rcases h7 q l p he with he | ⟨h9, h10, h11⟩
    · exact .inl he
    · simp only [List.mem_flatMap, List.mem_map, Prod.mk.injEq] at h11
      obtain ⟨e, hem, s, hs, rfl, h12, rfl⟩ := h11
      refine .inr ⟨h9, h10, hs, ?_⟩
      rw [← h12]; exact hem
  · intro q w s hf hs hne
    refine h8 (q, w, s) ?_ hne
    simp only [List.mem_flatMap, List.mem_map]
    exact ⟨(q, w), hf, s, hs, rfl⟩

theorem final_unique {t : Transducer W} (h : WF t) {p : Nat} {v w : W} (h1 : Final t p v) (h2 : Final t p w) : v = w := by
  have e1 := mapFind_of_mem h.finals_sorted h1
  rw [mapFind_of_mem h.finals_sorted h2] at e1
  exact (Option.some.inj e1).symm

theorem appendDotStar_lang [Zero W] [DecidableEq W] (loopback : List Int) (ε : Int) {t t' : Transducer W} (h : WF t)
    (hout : ∀ p w l q, Final t p w → ¬ Edge t p l q) (ht : appendDotStar loopback ε t = .ok t')
    (w : List (Int × W)) :
    Lang ε t' w ↔ ∃ ls p fw, ∃ syms : List Int, Path (Edge t) t.initial ls p ∧ Final t p fw ∧
      (∀ s ∈ syms, s ∈ loopback ∧ s ≠ ε) ∧ w = visible ε (ls ++ syms.map (fun s => (s, fw)) ++ [(ε, fw)]) := by
  obtain ⟨t1, h1, -, -, h4, h5, h6, h7, h8⟩ := appendDotStar_spec loopback ε h
  rw [ht] at h1
  cases h1
  have hpath : ∀ q ls p, Path (Edge t') q ls p → ∃ xs ys, ls = xs ++ ys ∧ Path (Edge t) q xs p ∧
      ∀ l ∈ ys, Final t p l.2 ∧ l.1 ∈ loopback ∧ l.1 ≠ ε := by
    intro q ls p hp
    induction hp with
    | nil q => exact ⟨[], [], rfl, .nil q, by simp⟩
    | @cons q r p l ls he hp ih =>
      obtain ⟨xs, ys, rfl, hx, hy⟩ := ih
      rcases h7 _ _ _ he with he | ⟨rfl, h9, h10, h11⟩
      · exact ⟨l :: xs, ys, rfl, .cons he hx, hy⟩
      · cases xs with
        | cons x xs => obtain ⟨z, hz, -⟩ := path_cons_iff.mp hx; exact absurd hz (hout _ _ _ _ h11)
        | nil =>
          have := path_nil_iff.mp hx
          subst this
          refine ⟨[], l :: ys, rfl, .nil _, ?_⟩
          intro l' hl'
          rcases List.mem_cons.mp hl' with rfl | hl'
          · exact ⟨h11, h10, h9⟩
          · exact hy l' hl'
  constructor
  · rintro ⟨ls, p, fw, hp, hf, rfl⟩
    rw [Final, h5] at hf
    rw [h4] at hp
    obtain ⟨xs, ys, rfl, hx, hy⟩ := hpath _ _ _ hp
    refine ⟨xs, p, fw, ys.map (·.1), hx, hf, ?_, ?_⟩
    · intro s hs
      obtain ⟨l, hl, rfl⟩ := List.mem_map.mp hs
      exact (hy l hl).2
    · congr 2
      congr 1
      rw [List.map_map]
      symm
      calc ys.map _ = ys.map id := by
            refine List.map_congr_left (fun l hl => ?_)
            exact Prod.ext rfl (final_unique h hf (hy l hl).1)
        _ = ys := by simp
  · rintro ⟨ls, p, fw, syms, hp, hf, hs, rfl⟩
    refine ⟨ls ++ syms.map (fun s => (s, fw)), p, fw, ?_, by rw [Final, h5]; exact hf, rfl⟩
    rw [h4]
    refine (hp.mono h6).append ?_
    clear hp
    induction syms with
    | nil => exact .nil p
    | cons s syms ih =>
      obtain ⟨v, hv⟩ := h8 p fw s hf (hs s (by simp)).1 (hs s (by simp)).2
      refine .cons ?_ (ih (fun x hx => hs x (by simp [hx])))
      rcases h7 _ _ _ hv with he | ⟨-, -, -, h9⟩
      · exact absurd he (hout _ _ _ _ hf)
      · have h10 : fw = v := final_unique h hf h9
        rw [h10]; exact hv

end Verif.Fst
