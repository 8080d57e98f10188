import Verif.SortedVec.Lemmas
import Mathlib.Order.Lattice.Nat

/-! # Properties of the sorted containers (C43, C44) -/

namespace Verif.SortedVec

section
variable {T : Type} [LinearOrder T]

/-- Specification of an operation on the mathematical set of elements. -/
def absStep (S : T → Prop) : Op T → (T → Prop)
  | .insert t => fun x => x = t ∨ S x
  | .insertRange r => fun x => x ∈ r ∨ S x
  | .erase t => fun x => x ≠ t ∧ S x
  | .eraseRange r => fun x => x ∉ r ∧ S x
  | .assign r => fun x => x ∈ r
  | .clear => fun _ => False

/-- **C43** After any history of operations on an initially empty `sorted_vector` the elements are strictly
increasing and are exactly those of the mathematical set obtained by the same history. -/
theorem C43_history (ops : List (Op T)) :
    (ops.foldl step []).Pairwise (· < ·) ∧
    ∀ x, x ∈ ops.foldl step [] ↔ ops.foldl absStep (fun _ => False) x := by
  have gen : ∀ (ops : List (Op T)) (l : List T) (S : T → Prop), SSorted l → (∀ x, x ∈ l ↔ S x) →
      SSorted (ops.foldl step l) ∧ ∀ x, x ∈ ops.foldl step l ↔ ops.foldl absStep S x := by
    intro ops
    induction ops with
    | nil => intro l S h1 h2; exact ⟨h1, h2⟩
    | cons op ops ih =>
      intro l S h1 h2
      apply ih
      · cases op with
        | insert t => exact insert_sorted t l h1
        | insertRange r => exact insertRange_sorted r l h1
        | erase t => exact (erase_spec t l h1).1
        | eraseRange r => exact (eraseRange_spec r l h1).1
        | assign r => exact insertRange_sorted r [] SSorted.nil
        | clear => exact SSorted.nil
      · intro x
        cases op with
        | insert t => simp only [step, absStep, mem_insert t l h1, h2]
        | insertRange r => simp only [step, absStep, mem_insertRange r l h1, h2]
        | erase t => simp only [step, absStep, (erase_spec t l h1).2.1, h2]
        | eraseRange r => simp only [step, absStep, (eraseRange_spec r l h1).2, h2]
        | assign r => simp [step, absStep, mem_insertRange r [] SSorted.nil]
        | clear => simp [step, absStep]
  exact gen ops [] _ SSorted.nil (by simp)

example : ([.insertRange [5, 2, 5, 1], .erase 2, .insert 3, .eraseRange [7, 1]] : List (Op Nat)).foldl step [] = [3, 5] := by
  decide

/-- **C43** `insert` reports whether the element was new and returns its position; `erase` reports whether it
was present; `find` and `count` decide membership. -/
theorem C43_answers (l : List T) (hl : l.Pairwise (· < ·)) (t : T) :
    ((insert t l).2.2 = true ↔ t ∉ l) ∧ (insert t l).1[(insert t l).2.1]? = some t ∧
    ((erase t l).2 = true ↔ t ∈ l) ∧
    (find t l = none ↔ t ∉ l) ∧ (∀ i, find t l = some i → l[i]? = some t) ∧
    (count t l = 1 ↔ t ∈ l) ∧ (count t l = 0 ↔ t ∉ l) := by
  have h1 := insert_spec t l hl
  have h2 := erase_spec t l hl
  have h3 := find_spec t l hl
  refine ⟨h1.2.2.1, h1.2.2.2, h2.2.2, h3.1, h3.2, ?_, ?_⟩
  · unfold count
    cases hf : find t l with
    | none => simp [h3.1.1 hf]
    | some i =>
      simp
      have := h3.1.not.1 (by simp [hf])
      exact Classical.not_not.1 this
  · unfold count
    cases hf : find t l with
    | none => simp [h3.1.1 hf]
    | some i =>
      simp
      have := h3.1.not.1 (by simp [hf])
      exact Classical.not_not.1 this

/-- **C43** `intersects` is true exactly when the two sets share an element. -/
theorem C43_intersects (a b : List T) (ha : a.Pairwise (· < ·)) (hb : b.Pairwise (· < ·)) :
    intersects a b = true ↔ ∃ x, x ∈ a ∧ x ∈ b := intersects_iff a b ha hb

/-- **C43** Two `sorted_vector`s hold the same set exactly when they are equal, whatever histories built
them; this is what makes them usable as keys of a map. -/
theorem C43_canonical (ops ops' : List (Op T)) :
    ops.foldl step [] = ops'.foldl step [] ↔
      ∀ x, ops.foldl absStep (fun _ => False) x ↔ ops'.foldl absStep (fun _ => False) x := by
  obtain ⟨h1, h2⟩ := C43_history ops
  obtain ⟨h3, h4⟩ := C43_history ops'
  constructor
  · intro h x; rw [← h2, ← h4, h]
  · intro h; exact SSorted.ext h1 h3 (fun x => by rw [h2, h4]; exact h x)

end

example : ([1, 4, 9] : List Nat).Pairwise (· < ·) ∧ ([2, 4] : List Nat).Pairwise (· < ·) ∧
    intersects [1, 4, 9] [2, 4] = true ∧ find 4 [1, 4, 9] = some 1 ∧ erase 5 [1, 4, 9] = ([1, 4, 9], false) := by
  decide

/-- **C44** `SortedVector::search` on a table sorted by tag never leaves the table, terminates, returns a
destination stored under the tag when there is one, and `NULL` otherwise. -/
theorem C44_search {D : Type} (sv : Table D) (tag : Int) (hs : sv.Pairwise (fun a b => a.1 ≤ b.1)) :
    (∃ d, search sv tag = .ok (some d) ∧ (tag, d) ∈ sv) ∨ (search sv tag = .ok none ∧ ∀ d, (tag, d) ∉ sv) := by
  apply searchLoop_spec sv tag hs
  · omega
  · omega
  · omega
  · omega
  · intros; omega
  · intro i t d hi h
    obtain ⟨hi', _⟩ := List.getElem?_eq_some_iff.1 hi
    omega

/-- **C44** With distinct tags the destination is the one stored. -/
theorem C44_search_unique {D : Type} (sv : Table D) (tag : Int) (d : D) (hs : sv.Pairwise (fun a b => a.1 < b.1))
    (h : (tag, d) ∈ sv) : search sv tag = .ok (some d) := by
  have hs' : sv.Pairwise (fun a b => a.1 ≤ b.1) := hs.imp (fun h => Int.le_of_lt h)
  rcases C44_search sv tag hs' with ⟨d', h1, h2⟩ | ⟨_, h2⟩
  · rw [h1]
    have : ∀ (l : List (Int × D)), l.Pairwise (fun a b => a.1 < b.1) → (tag, d) ∈ l → (tag, d') ∈ l → d' = d := by
      intro l
      induction l with
      | nil => simp
      | cons x l ih =>
        intro hp m1 m2
        obtain ⟨p1, p2⟩ := List.pairwise_cons.1 hp
        rcases List.mem_cons.1 m1 with n1 | n1 <;> rcases List.mem_cons.1 m2 with n2 | n2
        · subst n1; cases n2; rfl
        · subst n1; have := p1 _ n2; simp at this
        · subst n2; have := p1 _ n1; simp at this
        · exact ih p2 n1 n2
    rw [this sv hs h h2]
  · exact absurd h (h2 d)

example : ([(-3, 'a'), (0, 'b'), (7, 'c'), (9, 'd')] : Table Char).Pairwise (fun a b => a.1 < b.1) ∧
    search ([(-3, 'a'), (0, 'b'), (7, 'c'), (9, 'd')] : Table Char) 9 = .ok (some 'd') ∧
    search ([(-3, 'a'), (0, 'b'), (7, 'c'), (9, 'd')] : Table Char) 8 = .ok none := by decide

end Verif.SortedVec
