import Verif.Transducer.Insert

/-! # Tools for concrete transducers

Used for the concrete cases and the refutations that stand beside the property theorems. -/

namespace Verif.Fst

variable {W : Type}

/-- A check that implies `WF`. -/
def checkWF (t : Transducer W) : Bool :=
  decide (t.transitions.map (·.1) = List.range (size t)) &&
  t.transitions.all (fun e => decide (e.2.Pairwise (fun a b => a.1 ≤ b.1))) &&
  decide (t.initial < size t) &&
  (arcsOf t.transitions).all (fun a => decide (a.2.2.1 < size t)) &&
  decide (t.finals.Pairwise (fun a b => a.1 < b.1)) &&
  t.finals.all (fun e => decide (e.1 < size t))

theorem wf_of_check {t : Transducer W} (h : checkWF t = true) : WF t := by
  simp only [checkWF, Bool.and_eq_true, decide_eq_true_eq, List.all_eq_true] at h
  obtain ⟨⟨⟨⟨⟨h1, h2⟩, h3⟩, h4⟩, h5⟩, h6⟩ := h
  refine ⟨h1, h2, h3, ?_, h5, fun p w hp => h6 _ hp⟩
  intro q l p he
  unfold Edge row at he
  cases hq : mapFind q t.transitions with
  | none => simp [hq] at he
  | some r =>
    rw [hq] at he
    refine h4 (q, l.1, p, l.2) ?_
    simp only [arcsOf, List.mem_flatMap, List.mem_map, Prod.mk.injEq]
    exact ⟨(q, r), mapFind_mem hq, (l.1, (p, l.2)), he, rfl, rfl, rfl, rfl⟩

/-- The arcs of a concrete transducer as a list. -/
theorem edge_iff_arcs {t : Transducer W} (h : checkWF t = true) (q : Nat) (l : Int × W) (p : Nat) :
    Edge t q l p ↔ (q, l.1, p, l.2) ∈ arcsOf t.transitions := by
  rw [mem_arcsOf (wf_of_check h)]

/-- Search for an accepting path over a given list of labels; used to show membership in concrete languages. -/
def accepting [DecidableEq W] (t : Transducer W) : Nat → List (Int × W) → List W
  | q, [] => (t.finals.filter (fun e => e.1 = q)).map (·.2)
  | q, l :: ls => ((row t q).filter (fun e => e.1 = l.1 ∧ e.2.2 = l.2)).flatMap (fun e => accepting t e.2.1 ls)

theorem lang_of_accepting [DecidableEq W] [Zero W] {t : Transducer W} {ε : Int} {q : Nat} (ls : List (Int × W)) {fw : W}
    (h : fw ∈ accepting t q ls) : LangFrom ε t q (visible ε (ls ++ [(ε, fw)])) := by
  suffices ∃ p, Path (Edge t) q ls p ∧ Final t p fw by
    obtain ⟨p, h1, h2⟩ := this
    exact ⟨ls, p, fw, h1, h2, rfl⟩
  induction ls generalizing q with
  | nil =>
    simp only [accepting, List.mem_map, List.mem_filter, decide_eq_true_eq] at h
    obtain ⟨⟨p, w⟩, ⟨h1, rfl⟩, rfl⟩ := h
    exact ⟨p, .nil p, h1⟩
  | cons l ls ih =>
    simp only [accepting, List.mem_flatMap, List.mem_filter, decide_eq_true_eq] at h
    obtain ⟨⟨a, p, w⟩, ⟨h1, h2, h3⟩, h4⟩ := h
    obtain ⟨r, h5, h6⟩ := ih h4
    refine ⟨r, .cons ?_ h5, h6⟩
    simp only at h2 h3
    rw [Edge, ← h2, ← h3]; exact h1

theorem lang_of_check [DecidableEq W] [Zero W] {t : Transducer W} {ε : Int} {w : List (Int × W)} (ls : List (Int × W)) (fw : W)
    (h : fw ∈ accepting t t.initial ls) (hw : visible ε (ls ++ [(ε, fw)]) = w) : Lang ε t w := by
  subst hw
  exact lang_of_accepting ls h

/-- Nothing leads to acceptance: an over-approximation `A` of what can still be read from each state, closed under
the arcs, refutes membership. -/
theorem langFrom_sub [DecidableEq W] [Zero W] {t : Transducer W} {ε : Int} (A : Nat → List (Int × W) → Prop)
    (hf : ∀ p fw, Final t p fw → A p (visible ε [(ε, fw)]))
    (he : ∀ q l p w, Edge t q l p → A p w → A q (visible ε [l] ++ w)) {q : Nat} {w : List (Int × W)}
    (h : LangFrom ε t q w) : A q w := by
  obtain ⟨ls, p, fw, hp, hfin, rfl⟩ := h
  induction hp with
  | nil => exact hf _ _ hfin
  | @cons q r p l ls hE hp ih =>
    have := he _ _ _ _ hE (ih hfin)
    rw [← visible_append] at this
    simpa using this

end Verif.Fst
