import Verif.Data.Assoc
import Mathlib.Order.Defs.LinearOrder
import Mathlib.Order.Basic
import Mathlib.Tactic.Tauto
import Mathlib.Tactic.Order

/-! # Facts about the sorted-list containers -/

namespace Verif

variable {κ ν : Type} [LinearOrder κ]

/-- The invariant of `std::map`: keys strictly increase. -/
def SortedKeys (m : List (κ × ν)) : Prop := m.Pairwise (fun a b => a.1 < b.1)

/-- The invariant of `std::multimap`: keys never decrease. -/
def SortedRow (m : List (κ × ν)) : Prop := m.Pairwise (fun a b => a.1 ≤ b.1)

theorem mapSet_eq_modify (k : κ) (v : ν) (m : List (κ × ν)) : mapSet k v m = mapModify v k (fun _ => v) m := by
  induction m with
  | nil => rfl
  | cons e m ih => obtain ⟨k', v'⟩ := e; simp only [mapSet, mapModify, ih]

theorem mapInsert_eq_modify (k : κ) (v : ν) (m : List (κ × ν)) : mapInsert k v m = mapModify v k id m := by
  induction m with
  | nil => rfl
  | cons e m ih => obtain ⟨k', v'⟩ := e; simp only [mapInsert, mapModify, ih, id]

theorem mapFind_isSome_iff (k : κ) (m : List (κ × ν)) : (mapFind k m).isSome ↔ k ∈ m.map (·.1) := by
  induction m with
  | nil => simp [mapFind]
  | cons e m ih =>
    obtain ⟨k', v'⟩ := e
    by_cases h : k' = k
    · simp [mapFind, h]
    · simp [mapFind, h, ih, eq_comm (a := k)]

theorem mapFind_eq_none_iff (k : κ) (m : List (κ × ν)) : mapFind k m = none ↔ k ∉ m.map (·.1) := by
  rw [← mapFind_isSome_iff]; simp

theorem mapFind_mem {k : κ} {v : ν} {m : List (κ × ν)} (h : mapFind k m = some v) : (k, v) ∈ m := by
  induction m with
  | nil => simp [mapFind] at h
  | cons e m ih =>
    obtain ⟨k', v'⟩ := e
    by_cases hk : k' = k
    · simp [mapFind, hk] at h; simp [hk, h]
    · simp [mapFind, hk] at h; simp [ih h]

theorem mapFind_of_mem {m : List (κ × ν)} (hs : SortedKeys m) {k : κ} {v : ν} (h : (k, v) ∈ m) :
    mapFind k m = some v := by
  induction m with
  | nil => simp at h
  | cons e m ih =>
    obtain ⟨k', v'⟩ := e
    have hs' := List.pairwise_cons.mp hs
    rcases List.mem_cons.mp h with h | h
    · simp only [Prod.mk.injEq] at h; simp [mapFind, h.1, h.2]
    · have := hs'.1 _ h
      simp only [mapFind, ne_of_lt this, if_false]
      exact ih hs'.2 h

theorem mapFind_iff {m : List (κ × ν)} (hs : SortedKeys m) {k : κ} {v : ν} :
    mapFind k m = some v ↔ (k, v) ∈ m := ⟨mapFind_mem, mapFind_of_mem hs⟩

theorem mem_keys_modify (d : ν) (k : κ) (f : ν → ν) (m : List (κ × ν)) (k' : κ) :
    k' ∈ (mapModify d k f m).map (·.1) ↔ k' = k ∨ k' ∈ m.map (·.1) := by
  induction m with
  | nil => simp [mapModify]
  | cons e m ih =>
    obtain ⟨k1, v1⟩ := e
    unfold mapModify
    split
    · simp
    · split
      · simp only [List.map_cons, List.mem_cons, ih]; tauto
      · have : k = k1 := by order
        simp [this]

theorem sorted_modify {m : List (κ × ν)} (hs : SortedKeys m) (d : ν) (k : κ) (f : ν → ν) :
    SortedKeys (mapModify d k f m) := by
  induction m with
  | nil => simp [mapModify, SortedKeys]
  | cons e m ih =>
    obtain ⟨k1, v1⟩ := e
    have hs' := List.pairwise_cons.mp hs
    unfold mapModify
    split
    · next h =>
      refine List.pairwise_cons.mpr ⟨?_, hs⟩
      intro b hb
      rcases List.mem_cons.mp hb with hb | hb
      · subst hb; exact h
      · exact lt_trans h (hs'.1 b hb)
    · split
      · next h1 h2 =>
        refine List.pairwise_cons.mpr ⟨?_, ih hs'.2⟩
        intro b hb
        have hb' : b.1 ∈ (mapModify d k f m).map (·.1) := List.mem_map_of_mem hb
        rw [mem_keys_modify] at hb'
        rcases hb' with hb' | hb'
        · rw [hb']; exact h2
        · obtain ⟨c, hc, hcb⟩ := List.mem_map.mp hb'
          rw [← hcb]; exact hs'.1 c hc
      · exact List.pairwise_cons.mpr ⟨fun b hb => hs'.1 b hb, hs'.2⟩

theorem mapFind_modify {m : List (κ × ν)} (hs : SortedKeys m) (d : ν) (k : κ) (f : ν → ν) (k' : κ) :
    mapFind k' (mapModify d k f m) = if k' = k then some (f ((mapFind k m).getD d)) else mapFind k' m := by
  induction m with
  | nil =>
    by_cases h : k' = k
    · simp [mapModify, mapFind, h]
    · simp [mapModify, mapFind, h, Ne.symm h]
  | cons e m ih =>
    obtain ⟨k1, v1⟩ := e
    have hs' := List.pairwise_cons.mp hs
    unfold mapModify
    split
    · next h =>
      have hn : mapFind k ((k1, v1) :: m) = none := by
        rw [mapFind_eq_none_iff]
        simp only [List.map_cons, List.mem_cons, List.mem_map, not_or, not_exists, not_and]
        exact ⟨ne_of_lt h, fun x hx hxk => by have := hs'.1 x hx; order⟩
      by_cases hk : k' = k
      · subst hk; rw [hn]; simp [mapFind]
      · rw [mapFind, if_neg (Ne.symm hk)]; simp [hk]
    · split
      · next h1 h2 =>
        have hne : k1 ≠ k := ne_of_lt h2
        by_cases hk : k' = k
        · subst hk; simp only [mapFind, hne, if_false]; rw [ih hs'.2]; simp
        · simp only [mapFind, hne, if_false]; rw [ih hs'.2]; simp [hk]
      · next h1 h2 =>
        have : k = k1 := by order
        subst this
        by_cases hk : k' = k
        · subst hk; simp [mapFind]
        · simp [mapFind, hk, Ne.symm hk]

theorem keys_modify_of_mem {m : List (κ × ν)} (hs : SortedKeys m) (d : ν) {k : κ} (f : ν → ν)
    (hk : k ∈ m.map (·.1)) : (mapModify d k f m).map (·.1) = m.map (·.1) := by
  induction m with
  | nil => simp at hk
  | cons e m ih =>
    obtain ⟨k1, v1⟩ := e
    have hs' := List.pairwise_cons.mp hs
    rcases List.mem_cons.mp hk with hk | hk
    · have : k = k1 := hk
      simp [mapModify, this]
    · obtain ⟨c, hc, hck⟩ := List.mem_map.mp hk
      have : k1 < k := by rw [← hck]; exact hs'.1 c hc
      simp [mapModify, this, not_lt_of_gt this, ih hs'.2 hk]

theorem modify_append (d : ν) {k : κ} (f : ν → ν) {m : List (κ × ν)} (h : ∀ e ∈ m, e.1 < k) :
    mapModify d k f m = m ++ [(k, f d)] := by
  induction m with
  | nil => rfl
  | cons e m ih =>
    obtain ⟨k1, v1⟩ := e
    have h1 : k1 < k := h (k1, v1) (by simp)
    simp [mapModify, h1, not_lt_of_gt h1, ih (fun e he => h e (List.mem_cons_of_mem _ he))]

theorem mem_mmInsert (k : κ) (v : ν) (m : List (κ × ν)) (e : κ × ν) :
    e ∈ mmInsert k v m ↔ e = (k, v) ∨ e ∈ m := by
  induction m with
  | nil => simp [mmInsert]
  | cons x m ih =>
    obtain ⟨k1, v1⟩ := x
    unfold mmInsert
    split
    · simp
    · simp only [List.mem_cons, ih]; tauto

theorem sorted_mmInsert {m : List (κ × ν)} (hs : SortedRow m) (k : κ) (v : ν) : SortedRow (mmInsert k v m) := by
  induction m with
  | nil => simp [mmInsert, SortedRow]
  | cons x m ih =>
    obtain ⟨k1, v1⟩ := x
    have hs' := List.pairwise_cons.mp hs
    unfold mmInsert
    split
    · next h =>
      refine List.pairwise_cons.mpr ⟨?_, hs⟩
      intro b hb
      rcases List.mem_cons.mp hb with hb | hb
      · subst hb; exact le_of_lt h
      · exact le_trans (le_of_lt h) (hs'.1 b hb)
    · next h =>
      refine List.pairwise_cons.mpr ⟨?_, ih hs'.2⟩
      intro b hb
      rcases (mem_mmInsert k v m b).mp hb with hb | hb
      · subst hb; exact le_of_not_gt h
      · exact hs'.1 b hb

theorem mem_mapErase (k : κ) (m : List (κ × ν)) (e : κ × ν) : e ∈ mapErase k m ↔ e ∈ m ∧ e.1 ≠ k := by
  simp [mapErase]

theorem sorted_mapErase {m : List (κ × ν)} (hs : SortedKeys m) (k : κ) : SortedKeys (mapErase k m) :=
  List.Pairwise.filter _ hs

/-- Membership in `mapInsert`: an existing key wins. -/
theorem mem_mapInsert {m : List (κ × ν)} (hs : SortedKeys m) (k : κ) (v : ν) (e : κ × ν) :
    e ∈ mapInsert k v m ↔ (e = (k, v) ∧ k ∉ m.map (·.1)) ∨ e ∈ m := by
  obtain ⟨k', v'⟩ := e
  rw [mapInsert_eq_modify, ← mapFind_iff (sorted_modify hs v k id), mapFind_modify hs, ← mapFind_iff hs]
  by_cases hk : k' = k
  · subst hk
    rw [← mapFind_eq_none_iff]
    cases h : mapFind k' m with
    | none => simp [eq_comm]
    | some x => simp
  · simp [hk]

theorem sorted_mapInsert {m : List (κ × ν)} (hs : SortedKeys m) (k : κ) (v : ν) : SortedKeys (mapInsert k v m) := by
  rw [mapInsert_eq_modify]; exact sorted_modify hs _ _ _

theorem mem_setInsert (k : κ) (l : List κ) (x : κ) : x ∈ setInsert k l ↔ x = k ∨ x ∈ l := by
  induction l with
  | nil => simp [setInsert]
  | cons y l ih =>
    unfold setInsert
    split
    · simp
    · split
      · simp only [List.mem_cons, ih]; tauto
      · have : k = y := by order
        simp [this]

theorem sorted_setInsert {l : List κ} (hs : l.Pairwise (· < ·)) (k : κ) : (setInsert k l).Pairwise (· < ·) := by
  induction l with
  | nil => simp [setInsert]
  | cons y l ih =>
    have hs' := List.pairwise_cons.mp hs
    unfold setInsert
    split
    · next h =>
      refine List.pairwise_cons.mpr ⟨?_, hs⟩
      intro b hb
      rcases List.mem_cons.mp hb with hb | hb
      · subst hb; exact h
      · exact lt_trans h (hs'.1 b hb)
    · split
      · next h1 h2 =>
        refine List.pairwise_cons.mpr ⟨?_, ih hs'.2⟩
        intro b hb
        rcases (mem_setInsert k l b).mp hb with hb | hb
        · subst hb; exact h2
        · exact hs'.1 b hb
      · exact hs

end Verif
