import Verif.Match.Model
import Verif.SortedVec.Props
import Verif.Transducer.Spec
import Mathlib.Data.Nat.ModEq
import Mathlib.Tactic.Ring

/-! # Lemmas about the circular array of match states -/

namespace Verif.Match

open Verif.Fst Verif.SortedVec

theorem bufLimit_pos : 0 < bufLimit := by decide

/-- The array from `first` on, with wrap-around, holds these nodes. -/
structure Ring (s : MatchState) (l : List Nat) : Prop where
  len : s.state.length = bufLimit
  short : l.length < bufLimit
  first_lt : s.first < bufLimit
  last_eq : s.last = (s.first + l.length) % bufLimit
  holds : ∀ (i : Nat) p, l[i]? = some p → s.state[(s.first + i) % bufLimit]? = some (some p)

theorem mod_ne {n a b : Nat} (h1 : a < b) (h2 : b < a + n) : a % n ≠ b % n := by
  intro e
  have hd : n ∣ b - a := (Nat.modEq_iff_dvd' (by omega)).1 e
  have := Nat.le_of_dvd (by omega) hd
  omega

/-- The state inside the loop of `step`: `l` are the old nodes, `i` of them are done, `w` are the new ones. -/
structure Mid (f : Nat) (l : List Nat) (i : Nat) (w : List Nat) (s : MatchState) : Prop where
  len : s.state.length = bufLimit
  last_eq : s.last = (f + l.length + w.length) % bufLimit
  old : ∀ (j : Nat) p, i ≤ j → l[j]? = some p → s.state[(f + j) % bufLimit]? = some (some p)
  new : ∀ (j : Nat) p, w[j]? = some p → s.state[(f + l.length + j) % bufLimit]? = some (some p)

variable {nodes : Nat → Table Nat} {δ : Nat → Int → Option Nat}

theorem applySymbol_ok (hδ : ∀ p x, search (nodes p) x = .ok (δ p x)) {f : Nat} {l : List Nat} {i : Nat} {w : List Nat} {s : MatchState}
    (h : Mid f l i w s) (hi : i < l.length) (p : Nat) (x : Int) (hr : l.length + w.length + (δ p x).toList.length ≤ bufLimit + i)
    (hw : w.length + (δ p x).toList.length ≤ bufLimit) :
    ∃ s', applySymbol nodes p x s = .ok s' ∧ Mid f l i (w ++ (δ p x).toList) s' := by
  unfold applySymbol
  rw [hδ]
  simp only [Res.bind_ok]
  cases hd : δ p x with
  | none =>
    refine ⟨s, rfl, ?_⟩
    simpa using h
  | some d =>
    rw [hd] at hr hw
    simp only [Option.toList_some, List.length_cons, List.length_nil] at hr hw
    refine ⟨_, rfl, ?_⟩
    have hlt : s.last < bufLimit := by rw [h.last_eq]; exact Nat.mod_lt _ bufLimit_pos
    refine ⟨by simpa using h.len, ?_, ?_, ?_⟩
    · simp only [Option.toList_some, List.length_append, List.length_cons, List.length_nil]
      rw [h.last_eq, Nat.mod_add_mod]
      rfl
    · intro j q hij hq
      have hjl := (List.getElem?_eq_some_iff.1 hq).1
      simp only
      rw [List.getElem?_set_ne]
      · exact h.old j q hij hq
      · rw [h.last_eq]
        exact (mod_ne (by omega) (by omega)).symm
    · intro j q hq
      simp only [Option.toList_some] at hq ⊢
      by_cases hj : j = w.length
      · subst hj
        simp only [List.getElem?_append_right (Nat.le_refl _), Nat.sub_self, List.getElem?_cons_zero, Option.some.injEq] at hq
        subst hq
        rw [← h.last_eq, List.getElem?_set_self (by rw [h.len]; exact hlt)]
      · have hjw : j < w.length := by
          have := (List.getElem?_eq_some_iff.1 hq).1
          simp only [List.length_append, List.length_cons, List.length_nil] at this
          omega
        rw [List.getElem?_append_left hjw] at hq
        rw [List.getElem?_set_ne]
        · exact h.new j q hq
        · rw [h.last_eq]
          exact (mod_ne (by omega) (by omega)).symm

theorem applySymbols_ok (hδ : ∀ p x, search (nodes p) x = .ok (δ p x)) {f : Nat} {l : List Nat} {i p : Nat} (hp : l[i]? = some p) (xs : List Int) :
    ∀ {w : List Nat} {s : MatchState}, Mid f l i w s → l.length + w.length + (xs.filterMap (δ p)).length ≤ bufLimit + i →
    w.length + (xs.filterMap (δ p)).length ≤ bufLimit →
    ∃ s', applySymbols nodes ((f + i) % bufLimit) xs s = .ok s' ∧ Mid f l i (w ++ xs.filterMap (δ p)) s' := by
  have hi := (List.getElem?_eq_some_iff.1 hp).1
  induction xs with
  | nil =>
    intro w s h _ _
    exact ⟨s, rfl, by simpa using h⟩
  | cons x xs ih =>
    intro w s h hr hw
    have hsplit : (x :: xs).filterMap (δ p) = (δ p x).toList ++ xs.filterMap (δ p) := by
      cases hd : δ p x <;> simp [List.filterMap_cons, hd]
    rw [hsplit] at hr hw ⊢
    rw [List.length_append] at hr hw
    unfold applySymbols
    rw [h.old i p (Nat.le_refl _) hp]
    simp only
    obtain ⟨s1, e1, h1⟩ := applySymbol_ok hδ h hi p x (by omega) (by omega)
    rw [e1]
    simp only [Res.bind_ok]
    obtain ⟨s2, e2, h2⟩ := ih h1 (by rw [List.length_append]; omega) (by rw [List.length_append]; omega)
    exact ⟨s2, e2, by rwa [← List.append_assoc]⟩

/-- What the old nodes `l` become. -/
def moved (δ : Nat → Int → Option Nat) (xs : List Int) (l : List Nat) : List Nat := l.flatMap fun p => xs.filterMap (δ p)

theorem moved_length_mono (xs : List Int) (l : List Nat) (i : Nat) : (moved δ xs (l.take i)).length ≤ (moved δ xs l).length := by
  conv => rhs; rw [← List.take_append_drop i l]
  unfold moved
  rw [List.flatMap_append, List.length_append]
  omega

theorem stepLoop_ok (hδ : ∀ p x, search (nodes p) x = .ok (δ p x)) {f : Nat} {l : List Nat} (xs : List Int) (hl : l.length < bufLimit) (hf : f < bufLimit)
    (hroom : ∀ i p, l[i]? = some p → l.length + (moved δ xs (l.take (i + 1))).length ≤ bufLimit + i) (htot : (moved δ xs l).length < bufLimit) :
    ∀ (k i fuel : Nat) (s : MatchState), i + k = l.length → k ≤ fuel → Mid f l i (moved δ xs (l.take i)) s →
      ∃ s', stepLoop nodes xs ((f + l.length) % bufLimit) fuel ((f + i) % bufLimit) s = .ok s' ∧ Mid f l l.length (moved δ xs l) s' := by
  intro k
  induction k with
  | zero =>
    intro i fuel s hik _ h
    have : i = l.length := by omega
    subst this
    unfold stepLoop
    rw [if_pos rfl]
    exact ⟨s, rfl, by simpa using h⟩
  | succ k ih =>
    intro i fuel s hik hfuel h
    obtain ⟨fuel, rfl⟩ : ∃ n, fuel = n + 1 := ⟨fuel - 1, by omega⟩
    have hi : i < l.length := by omega
    have hp : l[i]? = some l[i] := List.getElem?_eq_getElem hi
    have htake : moved δ xs (l.take (i + 1)) = moved δ xs (l.take i) ++ xs.filterMap (δ l[i]) := by
      rw [List.take_succ_eq_append_getElem hi]
      unfold moved
      rw [List.flatMap_append]
      simp
    have hr := hroom i _ hp
    rw [htake, List.length_append] at hr
    have hm : (moved δ xs (l.take (i + 1))).length ≤ (moved δ xs l).length := moved_length_mono xs l (i + 1)
    rw [htake, List.length_append] at hm
    unfold stepLoop
    rw [if_neg (mod_ne (by omega) (by omega))]
    simp only
    obtain ⟨s1, e1, h1⟩ := applySymbols_ok hδ hp xs h (by omega) (by omega)
    rw [e1]
    simp only [Res.bind_ok]
    rw [Nat.mod_add_mod, Nat.add_assoc]
    refine ih (i + 1) fuel s1 (by omega) (by omega) ?_
    rw [htake]
    exact ⟨h1.len, h1.last_eq, fun j q hj => h1.old j q (by omega), h1.new⟩

/-- One step on the array, if nothing that is still needed is overwritten. -/
theorem stepWith_ok (hδ : ∀ p x, search (nodes p) x = .ok (δ p x)) {s : MatchState} {l : List Nat} (h : Ring s l) (xs : List Int)
    (hroom : ∀ i p, l[i]? = some p → l.length + (moved δ xs (l.take (i + 1))).length ≤ bufLimit + i) (htot : (moved δ xs l).length < bufLimit) :
    ∃ s', stepWith nodes xs s = .ok s' ∧ Ring s' (moved δ xs l) := by
  have hmid : Mid s.first l 0 (moved δ xs (l.take 0)) s :=
    ⟨h.len, by simpa [moved] using h.last_eq, fun j p _ hj => h.holds j p hj, by simp [moved]⟩
  obtain ⟨s', e, h'⟩ := stepLoop_ok hδ xs h.short h.first_lt hroom htot l.length 0 bufLimit s (by omega) (by have := h.short; omega) hmid
  rw [Nat.add_zero, Nat.mod_eq_of_lt h.first_lt, ← h.last_eq] at e
  refine ⟨{ s' with first := s.last }, ?_, ?_⟩
  · unfold stepWith
    rw [e]
    rfl
  · have hl : s.last < bufLimit := by rw [h.last_eq]; exact Nat.mod_lt _ bufLimit_pos
    refine ⟨h'.len, htot, hl, ?_, ?_⟩
    · rw [h'.last_eq, h.last_eq, Nat.mod_add_mod]
    · intro i p hi
      have := h'.new i p hi
      rw [h.last_eq, Nat.mod_add_mod]
      exact this

theorem classifyLoop_ok (finals : List (Nat × Int)) (banned : List Int) {s : MatchState} {l : List Nat} (h : Ring s l) :
    ∀ (k i fuel : Nat) (result : Int), i + k = l.length → k ≤ fuel →
      classifyLoop finals banned s fuel ((s.first + i) % bufLimit) result =
        .ok ((l.drop i).foldl (fun result p => match mapFind p finals with
          | some r => if r < result ∧ r ∉ banned then r else result
          | none => result) result) := by
  intro k
  induction k with
  | zero =>
    intro i fuel result hik _
    have : i = l.length := by omega
    subst this
    unfold classifyLoop
    rw [if_pos h.last_eq.symm]
    simp
  | succ k ih =>
    intro i fuel result hik hfuel
    obtain ⟨fuel, rfl⟩ : ∃ n, fuel = n + 1 := ⟨fuel - 1, by omega⟩
    have hi : i < l.length := by omega
    unfold classifyLoop
    rw [h.last_eq, if_neg (mod_ne (by omega) (by have := h.short; omega))]
    simp only
    rw [h.holds i _ (List.getElem?_eq_getElem hi)]
    simp only
    rw [Nat.mod_add_mod, Nat.add_assoc, ih (i + 1) fuel _ (by omega) (by omega), List.drop_eq_getElem_cons hi, List.foldl_cons]
    cases mapFind l[i] finals <;> rfl

/-- The result of folding the minimum of the allowed rules. -/
theorem classify_fold (finals : List (Nat × Int)) (banned : List Int) (l : List Nat) : ∀ (r0 : Int),
    let res := l.foldl (fun result p => match mapFind p finals with
          | some r => if r < result ∧ r ∉ banned then r else result
          | none => result) r0
    res ≤ r0 ∧ (res = r0 ∨ ∃ p ∈ l, mapFind p finals = some res ∧ res ∉ banned) ∧
      ∀ p ∈ l, ∀ r, mapFind p finals = some r → r ∉ banned → res ≤ r := by
  induction l with
  | nil => intro r0; simp
  | cons p l ih =>
    intro r0
    simp only [List.foldl_cons]
    obtain ⟨h1, h2, h3⟩ := ih (match mapFind p finals with
          | some r => if r < r0 ∧ r ∉ banned then r else r0
          | none => r0)
    cases hf : mapFind p finals with
    | none =>
      rw [hf] at h1 h2 h3
      simp only at h1 h2 h3 ⊢
      refine ⟨h1, ?_, ?_⟩
      · rcases h2 with h2 | ⟨q, hq, h2⟩
        · exact .inl h2
        · exact .inr ⟨q, by simp [hq], h2⟩
      · intro q hq r hr hb
        rcases List.mem_cons.1 hq with rfl | hq
        · rw [hf] at hr; cases hr
        · exact h3 q hq r hr hb
    | some x =>
      rw [hf] at h1 h2 h3
      simp only at h1 h2 h3 ⊢
      by_cases hx : x < r0 ∧ x ∉ banned
      · rw [if_pos hx] at h1 h2 h3 ⊢
        refine ⟨by omega, ?_, ?_⟩
        · rcases h2 with h2 | ⟨q, hq, h2⟩
          · exact .inr ⟨p, by simp, by rw [h2, hf], by rw [h2]; exact hx.2⟩
          · exact .inr ⟨q, by simp [hq], h2⟩
        · intro q hq r hr hb
          rcases List.mem_cons.1 hq with rfl | hq
          · rw [hf] at hr
            simp only [Option.some.injEq] at hr
            omega
          · exact h3 q hq r hr hb
      · rw [if_neg hx] at h1 h2 h3 ⊢
        refine ⟨h1, ?_, ?_⟩
        · rcases h2 with h2 | ⟨q, hq, h2⟩
          · exact .inl h2
          · exact .inr ⟨q, by simp [hq], h2⟩
        · intro q hq r hr hb
          rcases List.mem_cons.1 hq with rfl | hq
          · rw [hf] at hr
            simp only [Option.some.injEq] at hr
            subst hr
            have : ¬ x < r0 := fun hlt => hx ⟨hlt, hb⟩
            omega
          · exact h3 q hq r hr hb

end Verif.Match
