import Verif.TmProc.Spec
import Verif.Gen.Lemmas

/-! # The states of the processor -/

namespace Verif.TmProc

open Verif.State Verif.Walk
open Verif.Proc (ended)

variable {W : Type} {τ : Setting W}

/-- The symbols that are tried for `x`. -/
def tried (τ : Setting W) (x : Int) : List Int :=
  if x = 0 then [] else if τ.chars.isUpper x then if τ.chars.toLower x = x then [x] else [x, τ.chars.toLower x] else [x]

theorem tried_steps (hr : Regular τ) (x : Int) (r : Rec W) : Steps τ.graph (way τ) x r (intos τ.graph x id (tried τ x) r) := by
  have hl := hr.lowerZero x
  refine intos_steps (y := way τ) r _ ?_ ?_ ?_
  · unfold tried
    split
    · simp
    · split
      · split
        · simp
        · rename_i h
          simp [Ne.symm h]
      · simp
  · intro z hz
    unfold tried at hz
    split at hz
    · cases hz
    · rename_i h0
      split at hz
      · split at hz
        · simp at hz; omega
        · simp only [List.mem_cons, List.not_mem_nil, or_false] at hz
          rcases hz with rfl | rfl
          · exact h0
          · exact fun e => h0 (hl e)
      · simp at hz; omega
  · intro z _
    show (x ≠ 0 ∧ (z = x ∨ (τ.chars.isUpper x = true ∧ z = τ.chars.toLower x))) ↔ _
    unfold tried
    split
    · rename_i h; simp [h]
    · rename_i h
      split
      · rename_i h1
        split
        · rename_i h2
          simp [h, h1, h2]
        · simp [h, h1]
      · rename_i h1
        simp [h, h1]

theorem stepTM_eq (hr : Regular τ) (n : Nat) (x : Int) (st : List (Rec W)) :
    stepTM τ n x st = ended (epsilonClosure τ.graph n (st.flatMap fun r => intos τ.graph x id (tried τ x) r)) := by
  unfold stepTM stepCase
  congr 1
  simp only [Bool.or_false]
  have hlz := hr.lowerZero x
  cases hu : τ.chars.isUpper x with
  | true =>
    simp only [Bool.not_true, Bool.false_eq_true, if_false]
    unfold stepAlt applyAlt
    congr 1
    by_cases h0 : x = 0
    · subst h0
      simp [tried, intos]
    · rw [if_neg (by rintro (e | e); exacts [h0 e, h0 (hlz e)])]
      split
      · rename_i h2
        unfold State.apply
        rw [if_neg h0]
        refine List.flatMap_congr ?_
        intro r _
        rw [applyInto_into _ h0]
        unfold tried intos
        rw [if_neg h0, if_pos hu, if_pos h2.symm]
        simp
      · rename_i h2
        refine List.flatMap_congr ?_
        intro r _
        rw [applyInto_into _ h0, applyInto_into _ (fun e => h0 (hlz e))]
        unfold tried intos
        rw [if_neg h0, if_pos hu, if_neg (Ne.symm h2)]
        simp [Ne.symm h2]
  | false =>
    simp only [Bool.not_false, if_true]
    unfold step State.apply
    congr 1
    split
    · rename_i h0
      subst h0
      simp [tried, intos]
    · rename_i h0
      refine List.flatMap_congr ?_
      intro r _
      rw [applyInto_into _ h0]
      unfold tried intos
      rw [if_neg h0, hu]
      simp

/-- All steps for some symbols. -/
def after (τ : Setting W) (n : Nat) : List Int → Res (List (Rec W))
  | [] => ended (State.init τ.graph n τ.root)
  | x :: xs => do
    let st ← after τ n xs
    stepTM τ n x st

/-- The steps for symbols end, with the states of the paths that read them. The symbols come in reverse. -/
theorem after_ok (hr : Regular τ) (xs : List Int) : ∃ st, Walk.Sound τ.graph τ.root (way τ) xs.reverse st ∧ ∃ N, ∀ n ≥ N, after τ n xs = .ok st := by
  obtain ⟨k, hk⟩ := hr.finite
  induction xs with
  | nil =>
    obtain ⟨N, st, h⟩ := (closure_ends_iff hk [({ node := τ.root, seq := [], dirty := false } : Rec W)]).2 fun r _ => hr.noCycle _
    refine ⟨st, sound_init h, N, fun n hn => ?_⟩
    have e : State.init τ.graph n τ.root = some st := closure_mono h hn
    rw [after, e]
    rfl
  | cons x xs ih =>
    obtain ⟨st, h1, N, h2⟩ := ih
    obtain ⟨N1, st1, h3⟩ := (closure_ends_iff hk (st.flatMap fun r => intos τ.graph x id (tried τ x) r)).2 fun r _ => hr.noCycle _
    refine ⟨st1, ?_, max N N1, fun n hn => ?_⟩
    · rw [List.reverse_cons]
      exact sound_step h1 _ (tried_steps hr x) h3
    · rw [after, h2 n (by omega), Res.bind_ok, stepTM_eq hr, closure_mono h3 (by omega)]
      rfl

/-- The states after some symbols. -/
noncomputable def states (hr : Regular τ) (xs : List Int) : List (Rec W) := (after_ok hr xs.reverse).choose

theorem states_sound (hr : Regular τ) (xs : List Int) : Walk.Sound τ.graph τ.root (way τ) xs (states hr xs) := by
  have key : ∀ ys st, ys = xs → Walk.Sound τ.graph τ.root (way τ) ys st → Walk.Sound τ.graph τ.root (way τ) xs st := by
    rintro ys st rfl h
    exact h
  exact key _ _ (List.reverse_reverse xs) (after_ok hr xs.reverse).choose_spec.1

theorem states_after (hr : Regular τ) (xs : List Int) : ∃ N, ∀ n ≥ N, after τ n xs.reverse = .ok (states hr xs) := (after_ok hr xs.reverse).choose_spec.2

theorem states_all (hr : Regular τ) (L : List (List Int)) : ∃ N, ∀ n ≥ N, ∀ xs ∈ L, after τ n xs.reverse = .ok (states hr xs) := by
  induction L with
  | nil => exact ⟨0, fun n _ xs h => by cases h⟩
  | cons x L ih =>
    obtain ⟨N1, h1⟩ := ih
    obtain ⟨N2, h2⟩ := states_after hr x
    refine ⟨max N1 N2, fun n hn xs h => ?_⟩
    rcases List.mem_cons.1 h with rfl | h
    · exact h2 n (by omega)
    · exact h1 n (by omega) xs h

/-- There is fuel enough for all parts of the text. -/
def Ready (hr : Regular τ) (n : Nat) (xs : List Int) : Prop := ∀ ys, ys <:+: xs → after τ n ys.reverse = .ok (states hr ys)

theorem ready_exists (hr : Regular τ) (xs : List Int) : ∃ N, ∀ n ≥ N, Ready hr n xs := by
  obtain ⟨N, h⟩ := states_all hr (xs.tails.flatMap List.inits)
  refine ⟨N, fun n hn ys hy => h n hn ys ?_⟩
  obtain ⟨s, t, e⟩ := hy
  exact List.mem_flatMap.2 ⟨ys ++ t, (List.mem_tails _ _).2 ⟨s, by simpa using e⟩, (List.mem_inits _ _).2 ⟨t, rfl⟩⟩

theorem Ready.infix {hr : Regular τ} {n : Nat} {xs ys : List Int} (h : Ready hr n xs) (hi : ys <:+: xs) : Ready hr n ys := fun zs hz => h zs (hz.trans hi)

theorem Ready.init {hr : Regular τ} {n : Nat} {xs : List Int} (h : Ready hr n xs) : ended (State.init τ.graph n τ.root) = .ok (states hr []) := by
  have := h [] (List.nil_infix)
  exact this

theorem Ready.step {hr : Regular τ} {n : Nat} {zs xs : List Int} {x : Int} (h : Ready hr n zs) (hi : xs ++ [x] <:+: zs) :
    stepTM τ n x (states hr xs) = .ok (states hr (xs ++ [x])) := by
  have h1 := h xs ((List.prefix_append xs [x]).isInfix.trans hi)
  have h2 := h (xs ++ [x]) hi
  rw [List.reverse_append, List.reverse_singleton, List.singleton_append, after, h1, Res.bind_ok] at h2
  exact h2

theorem live_iff (hr : Regular τ) (xs : List Int) : Live τ xs ↔ states hr xs ≠ [] := by
  constructor
  · rintro ⟨ls, wr, c, p, h⟩ e
    have := (states_sound hr xs).2 _ _ _ _ h
    rw [e] at this
    cases this
  · intro h
    obtain ⟨r, hm⟩ := List.exists_mem_of_ne_nil _ h
    obtain ⟨ls, h1⟩ := (sound_mem (states_sound hr xs) r).1 hm
    exact ⟨ls, _, _, _, h1⟩

theorem isEmpty_live (hr : Regular τ) {xs : List Int} (h : Live τ xs) : (states hr xs).isEmpty = false := by
  have := (live_iff hr xs).1 h
  simpa using this

theorem isEmpty_dead (hr : Regular τ) {xs : List Int} (h : ¬ Live τ xs) : (states hr xs).isEmpty = true := by
  rw [live_iff hr xs, not_not] at h
  rw [h]
  rfl

theorem live_prefix {xs ys : List Int} (h : Live τ (xs ++ ys)) : Live τ xs := by
  obtain ⟨ls, wr, c, p, h⟩ := h
  generalize e : xs ++ ys = zs at h
  induction h generalizing ys with
  | start =>
    obtain ⟨rfl, rfl⟩ := List.append_eq_nil_iff.1 e
    exact ⟨_, _, _, _, .start⟩
  | empty _ _ _ ih => exact ih e
  | @read zs ls wr c p l p' x h h0 hy ha ih =>
    rcases List.eq_nil_or_concat ys with rfl | ⟨ys', y, rfl⟩
    · rw [List.append_nil] at e
      rw [e]
      exact ⟨_, _, _, _, .read h h0 hy ha⟩
    · rw [List.concat_eq_append, ← List.append_assoc] at e
      exact ih (List.append_inj' e rfl).1

theorem segment_live {xs : List Int} (h : Segment τ xs) : Live τ xs := by
  obtain ⟨ls, s, wr, c, p, w, h, -⟩ := h
  exact ⟨ls, wr, c, p, h⟩

theorem final_iff {p : Nat} : (mapFind p τ.finals).isSome = true ↔ ∃ w, (p, w) ∈ τ.finals := by
  rw [mapFind_isSome_iff]
  simp

theorem isFinal_iff (hr : Regular τ) (xs : List Int) : isFinal τ.finals (states hr xs) = true ↔ Segment τ xs := by
  unfold isFinal
  rw [List.any_eq_true]
  constructor
  · rintro ⟨r, hm, h⟩
    obtain ⟨w, hw⟩ := final_iff.1 h
    obtain ⟨ls, h1⟩ := (sound_mem (states_sound hr xs) r).1 hm
    exact ⟨ls, _, _, _, _, w, h1, hw, rfl⟩
  · rintro ⟨ls, s, wr, c, p, w, h1, h2, -⟩
    exact ⟨⟨p, wr, c⟩, (states_sound hr xs).2 _ _ _ _ h1, final_iff.2 ⟨w, h2⟩⟩

/-- The sequences of the final states are the targets. -/
theorem targets_ok (hr : Regular τ) (xs : List Int) : Targets τ xs (finalSeqs τ.finals (states hr xs)) := by
  obtain ⟨⟨L, hn, hL⟩, hall⟩ := states_sound hr xs
  constructor
  · clear hall
    revert hL hn
    generalize states hr xs = st
    intro hn h
    suffices ∃ L' : List (List (Label W)), L'.Sublist L ∧ List.Forall₂ (Has τ xs) L' (finalSeqs τ.finals st) by
      obtain ⟨L', k1, k2⟩ := this
      exact ⟨L', k1.nodup hn, k2⟩
    clear hn
    induction h with
    | nil => exact ⟨[], .refl _, .nil⟩
    | @cons ls r L st h1 _ ih =>
      obtain ⟨L', k1, k3⟩ := ih
      cases hf : (mapFind r.node τ.finals).isSome with
      | true =>
        obtain ⟨w, hw⟩ := final_iff.1 hf
        refine ⟨ls :: L', k1.cons_cons _, ?_⟩
        unfold finalSeqs
        rw [List.filter_cons_of_pos (by simpa using hf), List.map_cons]
        exact .cons ⟨_, _, _, w, h1, hw, rfl⟩ k3
      | false =>
        refine ⟨L', k1.cons _, ?_⟩
        unfold finalSeqs
        rw [List.filter_cons_of_neg (by simp [hf])]
        exact k3
  · rintro ls s ⟨wr, c, p, w, h1, h2, rfl⟩
    unfold finalSeqs
    exact List.mem_map.2 ⟨⟨p, wr, c⟩, List.mem_filter.2 ⟨hall _ _ _ _ h1, by simpa using final_iff.2 ⟨w, h2⟩⟩, rfl⟩

end Verif.TmProc
