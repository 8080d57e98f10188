import Verif.SortedVec.Model
import Mathlib.Tactic.Tauto

namespace Verif.SortedVec

variable {T : Type} [LinearOrder T]

/-- Strictly increasing. -/
def SSorted (l : List T) : Prop := l.Pairwise (· < ·)

/-- Increasing, equal neighbours allowed. -/
def WSorted (l : List T) : Prop := l.Pairwise (· ≤ ·)

theorem SSorted.nil : SSorted ([] : List T) := List.Pairwise.nil

theorem SSorted.ext {a b : List T} (ha : SSorted a) (hb : SSorted b) (h : ∀ x, x ∈ a ↔ x ∈ b) : a = b := by
  induction a generalizing b with
  | nil =>
    cases b with
    | nil => rfl
    | cons y b => have := (h y).2 (by simp); simp at this
  | cons x a ih =>
    cases b with
    | nil => have := (h x).1 (by simp); simp at this
    | cons y b =>
      obtain ⟨ha1, ha2⟩ := List.pairwise_cons.1 ha
      obtain ⟨hb1, hb2⟩ := List.pairwise_cons.1 hb
      have hxy : x = y := by
        have h1 := (h x).1 (by simp)
        have h2 := (h y).2 (by simp)
        rcases List.mem_cons.1 h1 with h1 | h1
        · exact h1
        rcases List.mem_cons.1 h2 with h2 | h2
        · exact h2.symm
        exact absurd (lt_trans (ha1 y h2) (hb1 x h1)) (lt_irrefl _)
      subst hxy
      rw [ih ha2 hb2]
      intro z
      constructor
      · intro hz
        rcases List.mem_cons.1 ((h z).1 (by simp [hz])) with rfl | h'
        · exact absurd (ha1 z hz) (lt_irrefl _)
        · exact h'
      · intro hz
        rcases List.mem_cons.1 ((h z).2 (by simp [hz])) with rfl | h'
        · exact absurd (hb1 z hz) (lt_irrefl _)
        · exact h'

theorem SSorted.wsorted {l : List T} (h : SSorted l) : WSorted l := h.imp le_of_lt

theorem below_append (t : T) (l : List T) : below t l ++ fromLB t l = l := List.takeWhile_append_dropWhile

theorem mem_below {t x : T} {l : List T} (h : x ∈ below t l) : x < t := by
  induction l with
  | nil => simp [below] at h
  | cons a l ih =>
    simp only [below, List.takeWhile_cons] at h
    split at h
    · rcases List.mem_cons.1 h with rfl | h
      · simp_all
      · exact ih h
    · simp at h

theorem fromLB_head {t x : T} {l post : List T} (h : fromLB t l = x :: post) : ¬ x < t := by
  induction l with
  | nil => simp [fromLB] at h
  | cons a l ih =>
    simp only [fromLB, List.dropWhile_cons] at h
    split at h
    · exact ih h
    · simp at h; obtain ⟨rfl, rfl⟩ := h; simp_all

theorem insert_spec (t : T) (l : List T) (hl : SSorted l) :
    SSorted (insert t l).1 ∧ (∀ x, x ∈ (insert t l).1 ↔ x = t ∨ x ∈ l) ∧
    ((insert t l).2.2 = true ↔ t ∉ l) ∧ (insert t l).1[(insert t l).2.1]? = some t := by
  have happ := below_append t l
  have hb : ∀ x ∈ below t l, x < t := fun x hx => mem_below hx
  unfold insert
  split
  · rename_i he
    simp at he; subst he
    simp [SSorted]
  split
  · rename_i he
    have hl' : ∀ x ∈ l, x < t := by
      rw [he] at happ; simp at happ; intro x hx; rw [← happ] at hx; exact hb x hx
    refine ⟨?_, ?_, ?_, ?_⟩
    · apply List.pairwise_append.2
      refine ⟨hl, by simp, ?_⟩
      intro a ha b hb; simp at hb; subst hb; exact hl' a ha
    · intro x; simp; exact or_comm
    · simp; intro hm; exact absurd (hl' t hm) (lt_irrefl _)
    · rw [he] at happ; simp at happ; simp [happ]
  · rename_i x post he
    have hx := fromLB_head he
    rw [he] at happ
    have hs := hl
    rw [← happ] at hs
    obtain ⟨h1, h2, h3⟩ := List.pairwise_append.1 hs
    obtain ⟨h4, h5⟩ := List.pairwise_cons.1 h2
    split
    · rename_i hor
      have htx : t < x := by
        rcases hor with h | h
        · exact absurd h hx
        · exact h
      refine ⟨?_, ?_, ?_, ?_⟩
      · apply List.pairwise_append.2
        refine ⟨h1, ?_, ?_⟩
        · refine List.pairwise_cons.2 ⟨?_, h2⟩
          intro y hy
          rcases List.mem_cons.1 hy with rfl | hy
          · exact htx
          · exact lt_trans htx (h4 y hy)
        · intro a ha b hb'
          rcases List.mem_cons.1 hb' with rfl | hb'
          · exact hb a ha
          · exact h3 a ha b hb'
      · intro y
        conv => rhs; rw [← happ]
        simp only [List.mem_append, List.mem_cons]
        tauto
      · simp only [true_iff]
        intro hm
        rw [← happ] at hm
        rcases List.mem_append.1 hm with h | h
        · exact absurd (hb t h) (lt_irrefl _)
        · rcases List.mem_cons.1 h with rfl | h
          · exact absurd htx (lt_irrefl _)
          · exact absurd (lt_trans htx (h4 t h)) (lt_irrefl _)
      · simp
    · rename_i hor
      have hxt : x = t := by
        rcases lt_trichotomy x t with h | h | h
        · exact absurd (Or.inl h) hor
        · exact h
        · exact absurd (Or.inr h) hor
      subst hxt
      have hm : x ∈ l := by rw [← happ]; simp
      refine ⟨hl, ?_, ?_, ?_⟩
      · intro y; constructor
        · exact Or.inr
        · rintro (rfl | h)
          · exact hm
          · exact h
      · simp [hm]
      · have e : ∀ b : List T, (b ++ x :: post)[b.length]? = some x := by simp
        have := e (below x l); rw [happ] at this; exact this

theorem insert_sorted (t : T) (l : List T) (hl : SSorted l) : SSorted (insert t l).1 := (insert_spec t l hl).1
theorem mem_insert (t : T) (l : List T) (hl : SSorted l) (x : T) : x ∈ (insert t l).1 ↔ x = t ∨ x ∈ l :=
  (insert_spec t l hl).2.1 x

theorem isSorted_iff (l : List T) : isSorted l = true ↔ WSorted l := by
  induction l with
  | nil => simp [isSorted, WSorted]
  | cons a l ih =>
    cases l with
    | nil => simp [isSorted, WSorted]
    | cons b t =>
      unfold isSorted
      by_cases h : b < a
      · simp only [h, if_true, Bool.false_eq_true, false_iff]
        intro hw
        have := (List.pairwise_cons.1 hw).1 b (by simp)
        exact absurd this (not_le.2 h)
      · simp only [h, if_false, ih]
        constructor
        · intro hw
          refine List.pairwise_cons.2 ⟨?_, hw⟩
          intro x hx
          rcases List.mem_cons.1 hx with rfl | hx
          · exact not_lt.1 h
          · exact le_trans (not_lt.1 h) ((List.pairwise_cons.1 hw).1 x hx)
        · intro hw; exact (List.pairwise_cons.1 hw).2

theorem merge_nil (bs : List T) : merge [] bs = bs := rfl
theorem merge_cons_nil (a : T) (as : List T) : merge (a :: as) [] = a :: as := rfl
theorem merge_cons_cons (a b : T) (as bs : List T) :
    merge (a :: as) (b :: bs) = if b < a then b :: merge (a :: as) bs else a :: merge as (b :: bs) := rfl

theorem mem_merge (x : T) (a b : List T) : x ∈ merge a b ↔ x ∈ a ∨ x ∈ b := by
  induction a generalizing b with
  | nil => simp [merge_nil]
  | cons a as ih =>
    induction b with
    | nil => simp [merge_cons_nil]
    | cons b bs ihb =>
      rw [merge_cons_cons]
      split
      · simp only [List.mem_cons, ihb]; tauto
      · simp only [List.mem_cons, ih]; tauto

theorem merge_sorted (a b : List T) (ha : WSorted a) (hb : WSorted b) : WSorted (merge a b) := by
  induction a generalizing b with
  | nil => exact hb
  | cons a as ih =>
    obtain ⟨ha1, ha2⟩ := List.pairwise_cons.1 ha
    induction b with
    | nil => exact ha
    | cons b bs ihb =>
      obtain ⟨hb1, hb2⟩ := List.pairwise_cons.1 hb
      rw [merge_cons_cons]
      split
      · rename_i h
        refine List.pairwise_cons.2 ⟨?_, ihb hb2⟩
        intro x hx
        rcases (mem_merge x _ _).1 hx with hx | hx
        · rcases List.mem_cons.1 hx with rfl | hx
          · exact le_of_lt h
          · exact le_trans (le_of_lt h) (ha1 x hx)
        · exact hb1 x hx
      · rename_i h
        refine List.pairwise_cons.2 ⟨?_, ih (b :: bs) ha2 hb⟩
        intro x hx
        rcases (mem_merge x _ _).1 hx with hx | hx
        · exact ha1 x hx
        · rcases List.mem_cons.1 hx with rfl | hx
          · exact not_lt.1 h
          · exact le_trans (not_lt.1 h) (hb1 x hx)

theorem mem_sortInsert (x t : T) (l : List T) : x ∈ sortInsert t l ↔ x = t ∨ x ∈ l := by
  induction l with
  | nil => simp [sortInsert]
  | cons a l ih =>
    unfold sortInsert; split
    · simp only [List.mem_cons, ih]; tauto
    · simp

theorem sortInsert_sorted (t : T) (l : List T) (h : WSorted l) : WSorted (sortInsert t l) := by
  induction l with
  | nil => simp [sortInsert, WSorted]
  | cons a l ih =>
    obtain ⟨h1, h2⟩ := List.pairwise_cons.1 h
    unfold sortInsert; split
    · rename_i hlt
      refine List.pairwise_cons.2 ⟨?_, ih h2⟩
      intro x hx
      rcases (mem_sortInsert x t l).1 hx with rfl | hx
      · exact le_of_lt hlt
      · exact h1 x hx
    · rename_i hlt
      refine List.pairwise_cons.2 ⟨?_, h⟩
      intro x hx
      rcases List.mem_cons.1 hx with rfl | hx
      · exact not_lt.1 hlt
      · exact le_trans (not_lt.1 hlt) (h1 x hx)

theorem mem_sort (x : T) (l : List T) : x ∈ sort l ↔ x ∈ l := by
  induction l with
  | nil => simp [sort]
  | cons a l ih =>
    have : sort (a :: l) = sortInsert a (sort l) := rfl
    rw [this, mem_sortInsert, ih]; simp

theorem sort_sorted (l : List T) : WSorted (sort l) := by
  induction l with
  | nil => exact List.Pairwise.nil
  | cons a l ih => exact sortInsert_sorted a _ ih

theorem mem_unique (x : T) (l : List T) : x ∈ unique l ↔ x ∈ l := by
  induction l with
  | nil => simp [unique]
  | cons a l ih =>
    cases l with
    | nil => simp [unique]
    | cons b t =>
      unfold unique; split
      · rename_i h; subst h; rw [ih]; simp
      · rw [List.mem_cons, ih]; simp

theorem unique_sorted (l : List T) (h : WSorted l) : SSorted (unique l) := by
  induction l with
  | nil => exact List.Pairwise.nil
  | cons a l ih =>
    cases l with
    | nil => simp [unique, SSorted]
    | cons b t =>
      obtain ⟨h1, h2⟩ := List.pairwise_cons.1 h
      unfold unique; split
      · exact ih h2
      · rename_i hne
        refine List.pairwise_cons.2 ⟨?_, ih h2⟩
        intro x hx
        rw [mem_unique] at hx
        have hab : a < b := lt_of_le_of_ne (h1 b (by simp)) hne
        rcases List.mem_cons.1 hx with rfl | hx
        · exact hab
        · exact lt_of_lt_of_le hab ((List.pairwise_cons.1 h2).1 x hx)

theorem insertRange_spec (r l : List T) (hl : SSorted l) :
    SSorted (insertRange r l) ∧ ∀ x, x ∈ insertRange r l ↔ x ∈ r ∨ x ∈ l := by
  have key : ∀ r : List T, SSorted (unique (if isSorted r then merge l r else merge l (sort r))) ∧
      ∀ x, x ∈ unique (if isSorted r then merge l r else merge l (sort r)) ↔ x ∈ r ∨ x ∈ l := by
    intro r
    constructor
    · apply unique_sorted
      split
      · rename_i h; exact merge_sorted _ _ hl.wsorted ((isSorted_iff r).1 h)
      · exact merge_sorted _ _ hl.wsorted (sort_sorted r)
    · intro x
      rw [mem_unique]
      split
      · rw [mem_merge]; tauto
      · rw [mem_merge, mem_sort]; tauto
  unfold insertRange
  split
  · rename_i t
    exact ⟨insert_sorted t l hl, fun x => by rw [mem_insert t l hl]; simp⟩
  · exact key r

theorem insertRange_sorted (r l : List T) (hl : SSorted l) : SSorted (insertRange r l) := (insertRange_spec r l hl).1
theorem mem_insertRange (r l : List T) (hl : SSorted l) (x : T) : x ∈ insertRange r l ↔ x ∈ r ∨ x ∈ l :=
  (insertRange_spec r l hl).2 x

theorem lt_back {l : List T} {back t : T} (hl : SSorted l) (hb : l.getLast? = some back) (h : back < t) :
    ∀ x ∈ l, x < t := by
  intro x hx
  obtain ⟨l', hl'⟩ := List.getLast?_eq_some_iff.1 hb
  subst hl'
  rcases List.mem_append.1 hx with hx | hx
  · exact lt_trans ((List.pairwise_append.1 hl).2.2 x hx back (by simp)) h
  · simp at hx; subst hx; exact h

theorem front_lt {l : List T} {front t : T} (hl : SSorted l) (hf : l.head? = some front) (h : t < front) :
    ∀ x ∈ l, t < x := by
  intro x hx
  cases l with
  | nil => simp at hf
  | cons a l =>
    simp at hf; subst hf
    rcases List.mem_cons.1 hx with rfl | hx
    · exact h
    · exact lt_trans h ((List.pairwise_cons.1 hl).1 x hx)

omit [LinearOrder T] in
theorem head_last {l : List T} : (l = [] ∧ l.head? = none ∧ l.getLast? = none) ∨
    ∃ f b, l.head? = some f ∧ l.getLast? = some b := by
  cases l with
  | nil => simp
  | cons a l =>
    right
    exact ⟨a, (a :: l).getLast (by simp), rfl, List.getLast?_eq_some_getLast (by simp)⟩

/-- Where `lower_bound` stands. -/
theorem lb_cases (t : T) (l : List T) (hl : SSorted l) :
    (t ∉ l ∧ (fromLB t l = [] ∨ ∃ x post, fromLB t l = x :: post ∧ t < x)) ∨
    (∃ post, fromLB t l = t :: post ∧ l = below t l ++ t :: post ∧ (∀ x ∈ post, t < x)) := by
  have happ := below_append t l
  have hb : ∀ x ∈ below t l, x < t := fun x hx => mem_below hx
  cases he : fromLB t l with
  | nil =>
    left
    rw [he] at happ; simp at happ
    refine ⟨fun hm => ?_, Or.inl rfl⟩
    rw [← happ] at hm; exact absurd (hb t hm) (lt_irrefl _)
  | cons x post =>
    rw [he] at happ
    have hx := fromLB_head he
    have hs := hl
    rw [← happ] at hs
    obtain ⟨h1, h2, h3⟩ := List.pairwise_append.1 hs
    obtain ⟨h4, h5⟩ := List.pairwise_cons.1 h2
    rcases lt_trichotomy x t with h | h | h
    · exact absurd h hx
    · subst h; right; exact ⟨post, rfl, happ.symm, h4⟩
    · left
      refine ⟨fun hm => ?_, Or.inr ⟨x, post, rfl, h⟩⟩
      rw [← happ] at hm
      rcases List.mem_append.1 hm with hm | hm
      · exact absurd (hb t hm) (lt_irrefl _)
      · rcases List.mem_cons.1 hm with rfl | hm
        · exact absurd h (lt_irrefl _)
        · exact absurd (lt_trans h (h4 t hm)) (lt_irrefl _)

theorem erase_spec (t : T) (l : List T) (hl : SSorted l) :
    SSorted (erase t l).1 ∧ (∀ x, x ∈ (erase t l).1 ↔ x ≠ t ∧ x ∈ l) ∧ ((erase t l).2 = true ↔ t ∈ l) := by
  have hno : t ∉ l → (SSorted l ∧ (∀ x, x ∈ l ↔ x ≠ t ∧ x ∈ l) ∧ (false = true ↔ t ∈ l)) := by
    intro h
    refine ⟨hl, fun x => ⟨fun hx => ⟨?_, hx⟩, fun hx => hx.2⟩, by simp [h]⟩
    rintro rfl; exact h hx
  unfold erase
  rcases head_last (l := l) with ⟨h0, h1, h2⟩ | ⟨f, b, h1, h2⟩
  · rw [h1, h2]; exact hno (by simp [h0])
  rw [h1, h2]
  simp only
  split
  · rename_i h
    exact hno (fun hm => absurd (lt_back hl h2 h t hm) (lt_irrefl _))
  split
  · rename_i h
    exact hno (fun hm => absurd (front_lt hl h1 h t hm) (lt_irrefl _))
  rcases lb_cases t l hl with ⟨hn, he | ⟨x, post, he, hlt⟩⟩ | ⟨post, he, happ, hpost⟩
  · rw [he]; exact hno hn
  · rw [he]; simp only; rw [if_neg (by tauto)]; exact hno hn
  · rw [he]; simp only; rw [if_pos ⟨lt_irrefl _, lt_irrefl _⟩]
    have hs := hl
    rw [happ] at hs
    obtain ⟨p1, p2, p3⟩ := List.pairwise_append.1 hs
    obtain ⟨p4, p5⟩ := List.pairwise_cons.1 p2
    refine ⟨List.pairwise_append.2 ⟨p1, p5, fun a ha b hb => p3 a ha b (by simp [hb])⟩, ?_, ?_⟩
    · intro x
      conv => rhs; rw [happ]
      simp only [List.mem_append, List.mem_cons]
      constructor
      · rintro (h | h)
        · exact ⟨ne_of_lt (mem_below h), Or.inl h⟩
        · exact ⟨ne_of_gt (hpost x h), Or.inr (Or.inr h)⟩
      · rintro ⟨hne, h | h | h⟩
        · exact Or.inl h
        · exact absurd h hne
        · exact Or.inr h
    · simp only [true_iff]; rw [happ]; simp

theorem find_spec (t : T) (l : List T) (hl : SSorted l) :
    (find t l = none ↔ t ∉ l) ∧ (∀ i, find t l = some i → l[i]? = some t) := by
  have hno : t ∉ l → ((none : Option Nat) = none ↔ t ∉ l) ∧ (∀ i, (none : Option Nat) = some i → l[i]? = some t) :=
    fun h => ⟨by simp [h], by simp⟩
  unfold find
  rcases head_last (l := l) with ⟨h0, h1, h2⟩ | ⟨f, b, h1, h2⟩
  · rw [h1, h2]; exact hno (by simp [h0])
  rw [h1, h2]
  simp only
  split
  · rename_i h
    exact hno (fun hm => absurd (lt_back hl h2 h t hm) (lt_irrefl _))
  split
  · rename_i h
    exact hno (fun hm => absurd (front_lt hl h1 h t hm) (lt_irrefl _))
  rcases lb_cases t l hl with ⟨hn, he | ⟨x, post, he, hlt⟩⟩ | ⟨post, he, happ, hpost⟩
  · rw [he]; exact hno hn
  · rw [he]; simp only; rw [if_pos (Or.inr hlt)]; exact hno hn
  · rw [he]; simp only; rw [if_neg (by simp)]
    have hm : t ∈ l := by rw [happ]; simp
    refine ⟨by simp [hm], ?_⟩
    intro i hi
    simp only [Option.some.injEq] at hi; subst hi
    have e : ∀ b : List T, (b ++ t :: post)[b.length]? = some t := by simp
    have := e (below t l); rw [← happ] at this; exact this

theorem intersectsLoop_spec (n : Nat) (a b : List T) (hn : a.length + b.length < n) (ha : SSorted a) (hb : SSorted b) :
    intersectsLoop n a b = true ↔ ∃ x, x ∈ a ∧ x ∈ b := by
  induction n generalizing a b with
  | zero => omega
  | succ n ih =>
    cases a with
    | nil => simp [intersectsLoop]
    | cons a as =>
      cases b with
      | nil => simp [intersectsLoop]
      | cons b bs =>
        obtain ⟨ha1, ha2⟩ := List.pairwise_cons.1 ha
        obtain ⟨hb1, hb2⟩ := List.pairwise_cons.1 hb
        simp only [List.length_cons] at hn
        unfold intersectsLoop
        split
        · rename_i h; subst h; simp only [true_iff]; exact ⟨a, by simp, by simp⟩
        split
        · rename_i hne hlt
          rw [ih as (b :: bs) (by simp; omega) ha2 hb]
          constructor
          · rintro ⟨x, h1, h2⟩; exact ⟨x, by simp [h1], h2⟩
          · rintro ⟨x, h1, h2⟩
            rcases List.mem_cons.1 h1 with rfl | h1
            · rcases List.mem_cons.1 h2 with rfl | h2
              · exact absurd rfl hne
              · exact absurd (lt_trans hlt (hb1 x h2)) (lt_irrefl _)
            · exact ⟨x, h1, h2⟩
        · rename_i hne hlt
          have hlt : b < a := lt_of_le_of_ne (not_lt.1 hlt) (Ne.symm hne)
          rw [ih (a :: as) bs (by simp; omega) ha hb2]
          constructor
          · rintro ⟨x, h1, h2⟩; exact ⟨x, h1, by simp [h2]⟩
          · rintro ⟨x, h1, h2⟩
            rcases List.mem_cons.1 h2 with rfl | h2
            · rcases List.mem_cons.1 h1 with rfl | h1
              · exact absurd rfl hne
              · exact absurd (lt_trans hlt (ha1 x h1)) (lt_irrefl _)
            · exact ⟨x, h1, h2⟩

theorem intersects_iff (a b : List T) (ha : SSorted a) (hb : SSorted b) :
    intersects a b = true ↔ ∃ x, x ∈ a ∧ x ∈ b := intersectsLoop_spec _ a b (by omega) ha hb

theorem eraseRange_spec (r l : List T) (hl : SSorted l) :
    SSorted (r.foldl (fun l t => (erase t l).1) l) ∧
    ∀ x, x ∈ r.foldl (fun l t => (erase t l).1) l ↔ x ∉ r ∧ x ∈ l := by
  induction r generalizing l with
  | nil => simp [hl]
  | cons t r ih =>
    obtain ⟨h1, h2, _⟩ := erase_spec t l hl
    obtain ⟨h3, h4⟩ := ih _ h1
    refine ⟨h3, fun x => ?_⟩
    simp only [List.foldl_cons, h4, h2, List.mem_cons]
    tauto

/-! ## Binary search -/

theorem searchLoop_spec {D : Type} (sv : Table D) (tag : Int) (hs : sv.Pairwise (fun a b => a.1 ≤ b.1)) :
    ∀ (fuel : Nat) (left right : Int), 0 ≤ left → right < sv.length → left ≤ right + 1 → right - left + 1 < fuel →
    (∀ (i : Nat) (t : Int) (d : D), sv[i]? = some (t, d) → (i : Int) < left → t < tag) →
    (∀ (i : Nat) (t : Int) (d : D), sv[i]? = some (t, d) → right < (i : Int) → tag < t) →
    (∃ d, searchLoop sv tag fuel left right = .ok (some d) ∧ (tag, d) ∈ sv) ∨
    (searchLoop sv tag fuel left right = .ok none ∧ ∀ d, (tag, d) ∉ sv) := by
  have mono : ∀ (i j : Nat) (x y : Int × D), sv[i]? = some x → sv[j]? = some y → i ≤ j → x.1 ≤ y.1 := by
    intro i j x y hi hj hij
    rcases Nat.lt_or_eq_of_le hij with h | h
    · rw [List.pairwise_iff_getElem] at hs
      obtain ⟨hi', ei⟩ := List.getElem?_eq_some_iff.1 hi
      obtain ⟨hj', ej⟩ := List.getElem?_eq_some_iff.1 hj
      have := hs i j hi' hj' h
      rw [ei, ej] at this; exact this
    · subst h; rw [hi] at hj; cases hj; exact Int.le_refl _
  intro fuel
  induction fuel with
  | zero =>
    intro left right h0 h1 hlr h2 hl hr
    exfalso; omega
  | succ n ih =>
    intro left right h0 h1 hlr h2 hl hr
    unfold searchLoop
    by_cases hle : left ≤ right
    · rw [if_pos hle]
      have hmid : (left + right).tdiv 2 = (left + right) / 2 := Int.tdiv_eq_ediv_of_nonneg (by omega)
      simp only [hmid]
      generalize hm : (left + right) / 2 = mid
      have hm1 : left ≤ mid := by omega
      have hm2 : mid ≤ right := by omega
      rw [if_neg (by omega)]
      have hlt : mid.toNat < sv.length := by omega
      have he : sv[mid.toNat]? = some sv[mid.toNat] := List.getElem?_eq_getElem hlt
      rw [he]
      generalize hx : sv[mid.toNat] = x at he
      obtain ⟨t, d⟩ := x
      simp only
      split
      · rename_i h; subst h
        left; exact ⟨d, rfl, List.mem_of_getElem? he⟩
      split
      · rename_i hne hgt
        apply ih left (mid - 1) h0 (by omega) (by omega) (by omega) hl
        intro i t' d' hi hlt'
        have := mono mid.toNat i _ _ he hi (by omega)
        simp at this; omega
      · rename_i hne hgt
        apply ih (mid + 1) right (by omega) h1 (by omega) (by omega) _ hr
        intro i t' d' hi hlt'
        have := mono i mid.toNat _ _ hi he (by omega)
        simp at this; omega
    · rw [if_neg hle]
      right
      refine ⟨rfl, fun d hd => ?_⟩
      obtain ⟨i, hi⟩ := List.getElem?_of_mem hd
      have h3 := hl i tag d hi
      have h4 := hr i tag d hi
      omega

end Verif.SortedVec
