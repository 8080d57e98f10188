import Verif.Data.Units
import Verif.Base
import Mathlib.Data.List.GetD

/-!
# `PatternList::tagCount` and `PatternList::tagAt` (C60)

Counters and positions are `int` and `unsigned int` in the code; here they are unbounded, so texts of 2^31 units or more are
outside the model.
-/

namespace Verif.Pattern

/-- The loop of `PatternList::tagCount` (pattern_list.cc:233-245) from position `i` on. -/
def tagCountLoop : (i : Nat) → UString → Int → Int
  | _, [], count => count
  | i, u :: rest, count =>
    if i = 0 then tagCountLoop (i + 1) rest (count + 1)
    else if u = 0x2e then tagCountLoop (i + 1) rest (count + 1)
    else tagCountLoop (i + 1) rest count

/-- `PatternList::tagCount` (pattern_list.cc:228-248). -/
def tagCount (tags : UString) : Int := tagCountLoop 0 tags 0

/-- `tags.substr(pos, n)`; a position beyond the end throws, `n` negative is a huge unsigned number. -/
def substrFrom (tags : UString) (pos : Nat) (n : Int) : Res UString :=
  if pos > tags.length then .exception
  else .ok (if n < 0 then tags.drop pos else (tags.drop pos).take n.toNat)

/-- The loop of `PatternList::tagAt` (pattern_list.cc:257-276) from position `i` on, and the code after it (277-289). -/
def tagAtLoop (tags : UString) (index : Int) : (i : Nat) → UString → (start fin : Nat) → (count : Int) → Res UString
  | _, [], _, fin, count =>
    if index > count then .ok []
    else if fin ≠ 0 then substrFrom tags (fin + 1) (tags.length : Int)
    else substrFrom tags fin (tags.length : Int)
  | i, u :: rest, start, fin, count =>
    let (start, fin, count) := if u = 0x2e then ((if fin = 0 then 0 else fin + 1), i, count + 1) else (start, fin, count)
    if count = index + 1 then substrFrom tags start ((fin : Int) - start)
    else tagAtLoop tags index (i + 1) rest start fin count

/-- `PatternList::tagAt` (pattern_list.cc:250-290). -/
def tagAt (tags : UString) (index : Int) : Res UString := tagAtLoop tags index 0 tags 0 0 0

/-! ## Properties -/

/-- The pieces with dots between them. -/
def dotted : List UString → UString
  | [] => []
  | [p] => p
  | p :: ps => p ++ 0x2e :: dotted ps

theorem tagCountLoop_eq (i : Nat) (hi : i ≠ 0) (s : UString) (c : Int) : tagCountLoop i s c = c + s.count 0x2e := by
  induction s generalizing i c with
  | nil => simp [tagCountLoop]
  | cons u s ih =>
    rw [tagCountLoop, if_neg hi]
    split
    · next h => subst h; rw [ih _ (by omega)]; simp; omega
    · next h => rw [ih _ (by omega), List.count_cons_of_ne h]

theorem count_dotted (ps : List UString) (h : ∀ p ∈ ps, 0x2e ∉ p) (hne : ps ≠ []) : (dotted ps).count 0x2e + 1 = ps.length := by
  induction ps with
  | nil => exact absurd rfl hne
  | cons p ps ih =>
    have hp := List.count_eq_zero.2 (h p (by simp))
    cases ps with
    | nil => simp only [dotted, List.length_singleton]; omega
    | cons q qs =>
      have := ih (fun x hx => h x (by simp [hx])) (by simp)
      rw [dotted, List.count_append, List.count_cons_self, hp]
      · simp only [List.length_cons] at *; omega
      · intro h; cases h

/-- **C60** The number of tags: that of the pieces between the dots, provided that there is text and it does not start with a
dot. -/
theorem C60_count (ps : List UString) (h : ∀ p ∈ ps, 0x2e ∉ p) (hne : ps.head? ≠ none) (h0 : ps.head? ≠ some []) :
    tagCount (dotted ps) = ps.length := by
  obtain ⟨p, ps, rfl⟩ : ∃ p qs, ps = p :: qs := by cases ps <;> simp at hne; exact ⟨_, _, rfl⟩
  obtain ⟨u, p, rfl⟩ : ∃ u q, p = u :: q := by cases p <;> simp at h0; exact ⟨_, _, rfl⟩
  have hc := count_dotted _ h (by simp)
  have hu : u ≠ 0x2e := fun e => h (u :: p) (by simp) (by simp [e])
  obtain ⟨s, hs⟩ : ∃ s, dotted ((u :: p) :: ps) = u :: s := by
    cases ps with
    | nil => exact ⟨p, rfl⟩
    | cons q qs => exact ⟨p ++ 0x2e :: dotted (q :: qs), by rw [dotted]; simp; intro h; cases h⟩
  rw [hs] at hc ⊢
  rw [List.count_cons_of_ne hu] at hc
  rw [tagCount, tagCountLoop, if_pos rfl, tagCountLoop_eq 1 (by omega)]
  simp only [List.length_cons] at hc ⊢
  omega

theorem C60_count_empty : tagCount (dotted []) = 0 ∧ tagCount (dotted [[]]) = 0 := by decide

/-- The first place of the `k`-th piece. -/
theorem tagAtLoop_piece (tags : UString) (index : Int) (p : UString) (hp : 0x2e ∉ p) (rest : UString) :
    ∀ (i start fin : Nat) (count : Int), count ≠ index + 1 →
      tagAtLoop tags index i (p ++ rest) start fin count = tagAtLoop tags index (i + p.length) rest start fin count := by
  induction p with
  | nil => intros; simp
  | cons u p ih =>
    intro i start fin count hc
    have hu : u ≠ 0x2e := fun e => hp (by simp [e])
    rw [List.cons_append, tagAtLoop, if_neg hu]
    simp only []
    rw [if_neg hc, ih (fun h => hp (by simp [h])) _ _ _ _ hc, List.length_cons]
    congr 1; omega

/-- After the first dot: `fin` is the place of the last dot. -/
theorem tagAtLoop_rest (tags : UString) (index : Int) :
    ∀ (ps : List UString) (pre : UString) (start : Nat) (count : Int), (∀ p ∈ ps, 0x2e ∉ p) → ps ≠ [] → pre ≠ [] →
      tags = pre ++ 0x2e :: dotted ps → count ≤ index →
      tagAtLoop tags index (pre.length + 1) (dotted ps) start pre.length count = .ok (ps.getD (index - count).toNat []) := by
  intro ps
  induction ps with
  | nil => intro _ _ _ _ h; exact absurd rfl h
  | cons p ps ih =>
    intro pre start count hp _ hpre ht hc
    have hpn := hp p (by simp)
    have hl : pre.length ≠ 0 := by simpa using hpre
    cases ps with
    | nil =>
      rw [show dotted [p] = p ++ [] by simp [dotted], tagAtLoop_piece tags index p hpn [] _ _ _ _ (by omega), tagAtLoop]
      by_cases hi : index > count
      · rw [if_pos hi, List.getD_eq_default]
        simp; omega
      · have : index = count := by omega
        subst this
        rw [if_neg hi, if_pos hl, substrFrom, ht]
        simp only [dotted, List.length_append, List.length_cons]
        rw [if_neg (by omega), if_neg (by omega)]
        have : (pre ++ 0x2e :: p).drop (pre.length + 1) = p := by
          rw [show pre ++ (0x2e :: p : UString) = (pre ++ [0x2e]) ++ p by simp, List.drop_left' (by simp)]
        rw [this, List.take_of_length_le (by omega)]
        simp
    | cons q qs =>
      have hd : dotted (p :: q :: qs) = p ++ 0x2e :: dotted (q :: qs) := by rw [dotted]; intro h; cases h
      rw [hd, tagAtLoop_piece tags index p hpn _ _ _ _ _ (by omega), tagAtLoop, if_pos rfl]
      simp only []
      rw [if_neg hl]
      by_cases hi : count = index
      · subst hi
        rw [if_pos rfl, substrFrom, ht, hd]
        simp only [List.length_append, List.length_cons]
        rw [if_neg (by omega), if_neg (by omega)]
        have : (pre ++ 0x2e :: (p ++ 0x2e :: dotted (q :: qs))).drop (pre.length + 1) = p ++ 0x2e :: dotted (q :: qs) := by
          rw [show pre ++ (0x2e :: (p ++ 0x2e :: dotted (q :: qs)) : UString) = (pre ++ [0x2e]) ++ (p ++ 0x2e :: dotted (q :: qs)) by simp,
            List.drop_left' (by simp)]
        rw [this, List.take_left' (by omega)]
        simp
      · rw [if_neg (by omega)]
        have := ih (pre ++ 0x2e :: p) (pre.length + 1) (count + 1) (fun x hx => hp x (by simp [hx])) (by simp) (by simp)
          (by rw [ht, hd]; simp) (by omega)
        rw [show (pre ++ 0x2e :: p).length = pre.length + 1 + p.length by simp; omega] at this
        rw [this, show (index - count).toNat = (index - (count + 1)).toNat + 1 by omega, List.getD_cons_succ]

/-- **C60** `tagAt` gives the piece with the index, and nothing beyond the last one, provided the text does not start with a dot. -/
theorem C60_at (ps : List UString) (h : ∀ p ∈ ps, 0x2e ∉ p) (h0 : 1 < ps.length → ps.head? ≠ some []) (i : Nat) :
    tagAt (dotted ps) i = .ok (ps.getD i []) := by
  unfold tagAt
  match ps, h, h0 with
  | [], _, _ =>
    simp only [dotted, tagAtLoop, List.getD_nil]
    split
    · rfl
    · rw [if_neg (by simp)]; rfl
  | [p], h, _ =>
    rw [show dotted [p] = p by rfl]
    have := tagAtLoop_piece p i p (h p (by simp)) [] 0 0 0 0 (by omega)
    rw [List.append_nil] at this
    rw [this, tagAtLoop]
    by_cases hi : (i : Int) > 0
    · rw [if_pos hi, List.getD_eq_default]; simp; omega
    · have : i = 0 := by omega
      subst this
      rw [if_neg hi, if_neg (by simp), substrFrom, if_neg (by omega), if_neg (by omega)]
      simp
  | p :: q :: qs, h, h0 =>
    have hp0 : p ≠ [] := fun e => h0 (by simp) (by simp [e])
    have hd : dotted (p :: q :: qs) = p ++ 0x2e :: dotted (q :: qs) := by rw [dotted]; intro h; cases h
    have e1 := tagAtLoop_piece (dotted (p :: q :: qs)) i p (h p (by simp)) (0x2e :: dotted (q :: qs)) 0 0 0 0 (by omega)
    rw [← hd] at e1
    rw [e1, tagAtLoop, if_pos rfl]
    simp only [if_true]
    by_cases hi : i = 0
    · subst hi
      rw [if_pos (by simp), substrFrom, if_neg (by omega), if_neg (by omega), hd]
      simp
    · rw [if_neg (by omega)]
      have := tagAtLoop_rest (dotted (p :: q :: qs)) i (q :: qs) p 0 1 (fun x hx => h x (by simp [hx])) (by simp) hp0 hd (by omega)
      rw [show 0 + p.length + 1 = p.length + 1 by omega, show (0 : Nat) + p.length = p.length by omega, show (0 : Int) + 1 = 1 by rfl, this,
        show ((i : Int) - 1).toNat = i - 1 by omega]
      obtain ⟨j, rfl⟩ : ∃ j, i = j + 1 := ⟨i - 1, by omega⟩
      simp

def units (s : String) : UString := s.toList.map fun c => UInt16.ofNat c.toNat

example : (∀ p ∈ [units "n", units "", units "m"], 0x2e ∉ p) ∧ [units "n", units "", units "m"].head? ≠ some [] ∧
    dotted [units "n", units "", units "m"] = units "n..m" ∧ tagAt (units "n..m") 2 = .ok (units "m") := by decide

/-- **C60** Together: every tag is found at its index below the count. -/
theorem C60_all (ps : List UString) (h : ∀ p ∈ ps, 0x2e ∉ p) (hne : ps.head? ≠ none) (h0 : ps.head? ≠ some []) :
    (List.range (tagCount (dotted ps)).toNat).map (fun (i : Nat) => tagAt (dotted ps) i) = ps.map .ok := by
  rw [C60_count ps h hne h0]
  apply List.ext_getElem?
  intro i
  simp only [List.getElem?_map, Int.toNat_natCast]
  rcases Nat.lt_or_ge i ps.length with hi | hi
  · rw [List.getElem?_range hi, Option.map_some, C60_at ps h (fun _ => h0), List.getElem?_eq_getElem hi, Option.map_some,
      List.getD_eq_getElem _ _ hi]
  · rw [List.getElem?_eq_none (by simpa using hi), List.getElem?_eq_none hi]; rfl

/-- **C60** With a dot at the start both functions are wrong: one tag is counted where there are two, and the second has a dot. -/
theorem C60_leading_dot_false : tagCount (dotted [[], units "n"]) = 1 ∧ tagAt (dotted [[], units "n"]) 1 = .ok (units ".n") := by
  decide

/-- **C60** A negative index below -1 is out of range too, but the last tag is returned. -/
theorem C60_negative_false : ¬ ∀ (tags : UString) (i : Int), i < 0 → tagAt tags i = .ok [] := by
  intro h
  exact absurd (h (units "n.m") (-2) (by decide)) (by decide)

end Verif.Pattern
