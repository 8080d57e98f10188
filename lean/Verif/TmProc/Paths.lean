import Verif.TmProc.Steps

/-! # Walks as paths -/

namespace Verif.TmProc

open Verif.State Verif.Walk Verif.Fst

variable {W : Type} {τ : Setting W}

/-- The symbol `z` of the memory is read for the symbol `x` of the text. -/
def Reads (τ : Setting W) (x z : Int) : Prop := x ≠ 0 ∧ (z = x ∨ (τ.chars.isUpper x = true ∧ z = τ.chars.toLower x))

theorem inputs_snoc (ls : List (Label W)) (l : Label W) : inputs (ls ++ [l]) = if l.1 = 0 then inputs ls else inputs ls ++ [l.1] := by
  by_cases h : l.1 = 0 <;> simp [inputs, h]

theorem written_snoc' (ls : List (Label W)) (l : Label W) : written (ls ++ [l]) = if l.1 = 0 ∧ l.2.2.1 = 0 then written ls else written ls ++ [l.2.2] := by
  by_cases h : l.1 = 0 <;> by_cases h2 : l.2.2.1 = 0 <;> simp [written, h, h2]

theorem forall2_snoc {α β : Type} {R : α → β → Prop} {xs : List α} {ys : List β} {x : α} {y : β} (h : List.Forall₂ R xs ys) (h2 : R x y) : List.Forall₂ R (xs ++ [x]) (ys ++ [y]) :=
  List.rel_append h (.cons h2 .nil)

/-- Walks are paths whose symbols are read for those of the text. -/
theorem walk_iff (xs : List Int) (ls : List (Label W)) (wr : List (Int × W)) (p : Nat) :
    (∃ c, Walk τ.graph τ.root (way τ) xs ls wr c p) ↔ Path (Arc τ.graph) τ.root ls p ∧ List.Forall₂ (Reads τ) xs (inputs ls) ∧ wr = written ls := by
  constructor
  · rintro ⟨c, h⟩
    induction h with
    | start => exact ⟨.nil _, .nil, rfl⟩
    | @empty xs ls wr ch p l p' _ h0 ha ih =>
      obtain ⟨h1, h2, h3⟩ := ih
      refine ⟨h1.append (.cons ha (.nil _)), by rw [inputs_snoc, if_pos h0]; exact h2, ?_⟩
      rw [written_snoc', h3]
      simp [h0]
    | @read xs ls wr ch p l p' x _ h0 hy ha ih =>
      obtain ⟨h1, h2, h3⟩ := ih
      refine ⟨h1.append (.cons ha (.nil _)), by rw [inputs_snoc, if_neg h0]; exact forall2_snoc h2 hy, ?_⟩
      rw [written_snoc', h3, if_neg (fun e => h0 e.1)]
      rfl
  · rintro ⟨h1, h2, rfl⟩
    induction ls using List.reverseRecOn generalizing xs p with
    | nil =>
      cases h1
      cases h2
      exact ⟨_, .start⟩
    | append_singleton ls l ih =>
      obtain ⟨m, h3, h4⟩ := h1.split
      obtain ⟨m', h5, h6⟩ := Fst.path_cons_iff.1 h4
      rw [Fst.path_nil_iff] at h6
      subst h6
      rw [inputs_snoc] at h2
      by_cases h0 : l.1 = 0
      · rw [if_pos h0] at h2
        obtain ⟨c, hw⟩ := ih xs m h3 h2
        refine ⟨c, ?_⟩
        rw [written_snoc']
        simpa [h0] using Walk.empty hw h0 h5
      · rw [if_neg h0] at h2
        obtain ⟨xs1, xs2, g1, g2, rfl⟩ : ∃ xs1 xs2, List.Forall₂ (Reads τ) xs1 (inputs ls) ∧ List.Forall₂ (Reads τ) xs2 [l.1] ∧ xs = xs1 ++ xs2 :=
          ⟨_, _, List.forall₂_take_append _ _ _ h2, List.forall₂_drop_append _ _ _ h2, (List.take_append_drop _ _).symm⟩
        cases g2 with
        | cons g3 g4 =>
          cases g4
          obtain ⟨c, hw⟩ := ih xs1 m h3 g1
          rw [written_snoc', if_neg (fun e => h0 e.1)]
          exact ⟨_, Walk.read hw h0 g3 h5⟩

theorem live_paths (xs : List Int) : Live τ xs ↔ ∃ ls p, Path (Arc τ.graph) τ.root ls p ∧ List.Forall₂ (Reads τ) xs (inputs ls) := by
  constructor
  · rintro ⟨ls, wr, c, p, h⟩
    obtain ⟨h1, h2, -⟩ := (walk_iff xs ls wr p).1 ⟨c, h⟩
    exact ⟨ls, p, h1, h2⟩
  · rintro ⟨ls, p, h1, h2⟩
    obtain ⟨c, h⟩ := (walk_iff xs ls _ p).2 ⟨h1, h2, rfl⟩
    exact ⟨_, _, _, _, h⟩

theorem has_paths (xs : List Int) (ls : List (Label W)) (s : List Int) :
    Has τ xs ls s ↔ ∃ p w, Path (Arc τ.graph) τ.root ls p ∧ List.Forall₂ (Reads τ) xs (inputs ls) ∧ (p, w) ∈ τ.finals ∧ s = (written ls).map (·.1) := by
  constructor
  · rintro ⟨wr, c, p, w, h, hf, rfl⟩
    obtain ⟨h1, h2, rfl⟩ := (walk_iff xs ls wr p).1 ⟨c, h⟩
    exact ⟨p, w, h1, h2, hf, rfl⟩
  · rintro ⟨p, w, h1, h2, hf, rfl⟩
    obtain ⟨c, h⟩ := (walk_iff xs ls _ p).2 ⟨h1, h2, rfl⟩
    exact ⟨_, _, _, w, h, hf, rfl⟩

/-- The steps have the states of the paths. -/
theorem after_sound (hr : Regular τ) {n : Nat} : ∀ (xs : List Int) {st : List (Rec W)}, after τ n xs = .ok st → Walk.Sound τ.graph τ.root (way τ) xs.reverse st := by
  intro xs
  induction xs with
  | nil =>
    intro st h
    rw [after] at h
    cases hi : State.init τ.graph n τ.root with
    | none => rw [hi] at h; cases h
    | some st1 =>
      rw [hi] at h
      cases h
      exact sound_init hi
  | cons x xs ih =>
    intro st h
    rw [after] at h
    obtain ⟨st0, h0, h1⟩ := Res.bind_eq_ok.1 h
    rw [stepTM_eq hr] at h1
    cases he : epsilonClosure τ.graph n (st0.flatMap fun r => intos τ.graph x id (tried τ x) r) with
    | none => rw [he] at h1; cases h1
    | some st1 =>
      rw [he] at h1
      cases h1
      rw [List.reverse_cons]
      exact sound_step (ih h0) _ (tried_steps hr x) he

/-- Whether something is the beginning of a segment can be found out. -/
theorem live_after (hr : Regular τ) {n : Nat} {xs : List Int} {st : List (Rec W)} (h : after τ n xs.reverse = .ok st) : Live τ xs ↔ st ≠ [] := by
  have hs := after_sound hr _ h
  rw [List.reverse_reverse] at hs
  constructor
  · rintro ⟨ls, wr, c, p, hw⟩ e
    have := hs.2 _ _ _ _ hw
    rw [e] at this
    cases this
  · intro hne
    obtain ⟨r, hr⟩ := List.exists_mem_of_ne_nil _ hne
    obtain ⟨ls, h1⟩ := (sound_mem hs r).1 hr
    exact ⟨_, _, _, _, h1⟩

end Verif.TmProc
