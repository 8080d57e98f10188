import Verif.Compiler.File
import Verif.Alphabet.Props

/-! # The last check of `parse` -/

namespace Verif.Compiler

open Verif.Fst Verif.Alphabet

set_option linter.unusedSectionVars false

section
variable {W : Type} [AddMonoid W] [LinearOrder W] {A : Alphabet} {t : Transducer W}

theorem mem_left (hA : Ok A) {c l : Int} (hk : KA A c) : c ∈ A.symbolsWhereLeftIs l ↔ (dec A c).1 = l := by
  obtain ⟨p, hp⟩ := hk
  rw [mem_symbolsWhereLeftIs hA, dec_eq hp]
  constructor
  · rintro ⟨r, h⟩
    have := HasPair.pair_unique hp (decode_iff.1 h)
    rw [this]
  · rintro rfl
    exact ⟨p.2, decode_iff.2 hp⟩

theorem lft_eq_nil {ls : List (Int × W)} : lft A ls = [] ↔ ∀ l ∈ ls, (dec A l.1).1 = 0 := by
  unfold lft
  simp only [List.filter_eq_nil_iff, List.mem_map, ne_eq, decide_eq_true_eq, not_not]
  constructor
  · exact fun h l hl => h _ ⟨l, hl, rfl⟩
  · rintro h _ ⟨l, hl, rfl⟩; exact h l hl

theorem mem_closure (hA : Ok A) (hk : ∀ q l p, Edge t q l p → KA A l.1) (q p : Nat) (x : Int) :
    p ∈ closure t q (A.symbolsWhereLeftIs x) ↔ ∃ ls, Path (Edge t) q ls p ∧ ∀ l ∈ ls, (dec A l.1).1 = x := by
  rw [(C21_closure t q _).2]
  constructor
  · rintro ⟨ls, h⟩
    refine ⟨ls, ?_⟩
    induction h with
    | nil => exact ⟨.nil _, by simp⟩
    | cons he _ ih =>
      refine ⟨.cons he.1 ih.1, ?_⟩
      intro l hl
      rcases List.mem_cons.1 hl with rfl | hl
      · exact (mem_left hA (hk _ _ _ he.1)).1 he.2
      · exact ih.2 l hl
  · rintro ⟨ls, h, hl⟩
    refine ⟨ls, ?_⟩
    induction h with
    | nil => exact .nil _
    | cons he _ ih => exact .cons ⟨he, (mem_left hA (hk _ _ _ he)).2 (hl _ (by simp))⟩ (ih fun l h' => hl l (List.mem_cons_of_mem _ h'))

/-- The condition of `valid` for one section. -/
def check (A : Alphabet) (t : Transducer W) : Bool :=
  (closure t t.initial (A.symbolsWhereLeftIs 0)).all fun i => !isFinal t i && (closure t i (A.symbolsWhereLeftIs 0x20)).length ≤ 1

theorem isFinal_iff (q : Nat) : isFinal t q = true ↔ ∃ fw, Final t q fw := by
  unfold isFinal Final
  rw [mapFind_isSome_iff]
  simp

variable (hA : Ok A) (hwf : WF t) (huse : ∀ q < size t, (∃ ls, Path (Edge t) t.initial ls q) ∧ ∃ w, LangFrom 0 t q w)
  (hk : ∀ q l p, Edge t q l p → KA A l.1)
include hA hwf huse hk

/-- A section is refused with a reason. -/
theorem check_false (h : check A t = false) : ∃ x y, AccRel A t t.initial x y ∧ (x = [] ∨ x.head? = some 0x20) := by
  unfold check at h
  rw [List.all_eq_false] at h
  obtain ⟨i, hi, h⟩ := h
  rw [mem_closure hA hk] at hi
  obtain ⟨us, h1, h2⟩ := hi
  have h2 : lft A us = [] := lft_eq_nil.2 h2
  by_cases hf : isFinal t i = true
  · obtain ⟨fw, hf⟩ := (isFinal_iff i).1 hf
    exact ⟨[], _, ⟨us, ⟨i, fw, h1, hf⟩, h2, rfl⟩, .inl rfl⟩
  · have hlen : 1 < (closure t i (A.symbolsWhereLeftIs 0x20)).length := by
      simp only [Bool.not_eq_true] at hf
      simpa [hf] using h
    have hex : ∃ j ∈ closure t i (A.symbolsWhereLeftIs 0x20), j ≠ i := by
      by_contra hno
      have hno : ∀ j ∈ closure t i (A.symbolsWhereLeftIs 0x20), j = i := by
        intro j hj
        by_contra hne
        exact hno ⟨j, hj, hne⟩
      have hp := (C21_closure t i (A.symbolsWhereLeftIs 0x20)).1
      match hc : closure t i (A.symbolsWhereLeftIs 0x20) with
      | [] => rw [hc] at hlen; simp at hlen
      | [_] => rw [hc] at hlen; simp at hlen
      | a :: b :: _ =>
        rw [hc] at hp hno
        have := (List.pairwise_cons.1 hp).1 b (by simp)
        rw [hno a (by simp), hno b (by simp)] at this
        exact lt_irrefl _ this
    obtain ⟨j, hj, hne⟩ := hex
    rw [mem_closure hA hk] at hj
    obtain ⟨vs, h3, h4⟩ := hj
    cases h3 with
    | nil => exact absurd rfl hne
    | @cons _ p _ l vs he _ =>
      obtain ⟨-, w, ms, g, fw, h5, h6, -⟩ := huse p (hwf.target_lt _ _ _ he)
      refine ⟨_, _, ⟨us ++ l :: ms, ⟨g, fw, h1.append (.cons he h5), h6⟩, rfl, rfl⟩, .inr ?_⟩
      rw [lft_append, h2, List.nil_append]
      unfold lft
      simp [h4 l (by simp)]

/-- A section with a pair with nothing on the left is refused. -/
theorem check_nil {y : List Int} (h : AccRel A t t.initial [] y) : check A t = false := by
  obtain ⟨ls, ⟨p, fw, h1, h2⟩, h3, -⟩ := h
  unfold check
  rw [List.all_eq_false]
  refine ⟨p, (mem_closure hA hk _ _ _).2 ⟨ls, h1, lft_eq_nil.1 h3⟩, ?_⟩
  have := (isFinal_iff p).2 ⟨fw, h2⟩
  simp [this]

theorem lft_split {ls : List (Int × W)} {x : Int} {xs : List Int} (h : lft A ls = x :: xs) :
    ∃ us l vs, ls = us ++ l :: vs ∧ lft A us = [] ∧ (dec A l.1).1 = x ∧ lft A vs = xs := by
  induction ls with
  | nil => cases h
  | cons l ls ih =>
    by_cases h0 : (dec A l.1).1 = 0
    · have e : lft A (l :: ls) = lft A ls := by unfold lft; simp [h0]
      rw [e] at h
      obtain ⟨us, l', vs, rfl, h1, h2, h3⟩ := ih h
      refine ⟨l :: us, l', vs, rfl, ?_, h2, h3⟩
      unfold lft at h1 ⊢; simpa [h0] using h1
    · have e : lft A (l :: ls) = (dec A l.1).1 :: lft A ls := by unfold lft; simp [h0]
      rw [e] at h
      cases h
      exact ⟨[], l, ls, rfl, rfl, rfl, rfl⟩

/-- A section that is not refused though it has a pair that starts with a space has pairs that start with any number of spaces. -/
theorem check_space (h : check A t = true) {x y : List Int} (hx : AccRel A t t.initial (0x20 :: x) y) (n : Nat) :
    ∃ x' y', AccRel A t t.initial (List.replicate n 0x20 ++ x') y' := by
  obtain ⟨ls, ⟨p, fw, h1, h2⟩, h3, -⟩ := hx
  obtain ⟨us, l, vs, rfl, h4, h5, h6⟩ := lft_split hA hwf huse hk h3
  obtain ⟨i, k1, k2⟩ := h1.split
  cases k2 with
  | @cons _ r _ _ _ he k2 =>
    unfold check at h
    rw [List.all_eq_true] at h
    have := h i ((mem_closure hA hk _ _ _).2 ⟨us, k1, lft_eq_nil.1 h4⟩)
    simp only [Bool.and_eq_true, decide_eq_true_eq] at this
    have hlen := this.2
    have m1 : i ∈ closure t i (A.symbolsWhereLeftIs 0x20) := (mem_closure hA hk _ _ _).2 ⟨[], .nil _, by simp⟩
    have m2 : r ∈ closure t i (A.symbolsWhereLeftIs 0x20) := (mem_closure hA hk _ _ _).2 ⟨[l], .cons he (.nil _), by simpa using h5⟩
    have hri : r = i := by
      match hc : closure t i (A.symbolsWhereLeftIs 0x20) with
      | [] => rw [hc] at m1; simp at m1
      | [a] => rw [hc] at m1 m2; simp only [List.mem_singleton] at m1 m2; rw [m1, m2]
      | _ :: _ :: _ => rw [hc] at hlen; simp at hlen
    subst hri
    have hloop : Path (Edge t) r (List.replicate n l) r := by
      induction n with
      | zero => exact .nil _
      | succ n ih => exact .cons he ih
    refine ⟨x, _, ⟨us ++ (List.replicate n l ++ vs), ⟨p, fw, k1.append (hloop.append k2), h2⟩, ?_, rfl⟩⟩
    rw [lft_append, lft_append, h4, h6, List.nil_append]
    congr 1
    unfold lft
    simp [h5]

end

end Verif.Compiler
