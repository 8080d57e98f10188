import Verif.Post.Read
import Verif.Str.Props

/-! # Words that are joined -/

namespace Verif.Post

variable {W : Type}

theorem gather_id {n : Nat} {f : Front} {rest : List Front} (h : n ≤ f.word.length) : gather n f rest = (f, rest) := by
  cases rest with
  | nil => rfl
  | cons g rest => rw [gather, if_pos h]

theorem gather_more {n : Nat} {f g : Front} {rest : List Front} (h : f.word.length < n) : gather n f (g :: rest) = gather n (join f g) rest := by
  rw [gather, if_neg (by omega)]

theorem ahead_join (f g : Front) (rest : List Front) : ahead (join f g) rest = ahead f (g :: rest) := by
  simp [ahead, join]

theorem ahead_gather (n : Nat) (f : Front) (rest : List Front) : ahead (gather n f rest).1 (gather n f rest).2 = ahead f rest := by
  induction rest generalizing f with
  | nil => rfl
  | cons g rest ih =>
    rw [gather]
    split
    · rfl
    · rw [ih, ahead_join]

theorem gather_gather {n m : Nat} (h : n ≤ m) (f : Front) (rest : List Front) :
    gather m (gather n f rest).1 (gather n f rest).2 = gather m f rest := by
  induction rest generalizing f with
  | nil => rfl
  | cons g rest ih =>
    by_cases hn : n ≤ f.word.length
    · rw [gather_id hn]
    · rw [gather_more (by omega : f.word.length < n), ih, gather_more (by omega : f.word.length < m)]

theorem gather_length {n : Nat} {f : Front} {rest : List Front} (h : n ≤ (ahead f rest).length) : n ≤ (gather n f rest).1.word.length := by
  induction rest generalizing f with
  | nil => simpa [ahead, gather] using h
  | cons g rest ih =>
    by_cases hn : n ≤ f.word.length
    · rw [gather_id hn]; exact hn
    · rw [gather_more (by omega)]
      exact ih (by rw [ahead_join]; exact h)

theorem gather_suffix (n : Nat) (f : Front) (rest : List Front) : ∃ pre, rest = pre ++ (gather n f rest).2 := by
  induction rest generalizing f with
  | nil => exact ⟨[], rfl⟩
  | cons g rest ih =>
    rw [gather]
    split
    · exact ⟨[], rfl⟩
    · obtain ⟨pre, h⟩ := ih (join f g)
      exact ⟨g :: pre, by rw [List.cons_append, ← h]⟩

/-- Words that are not joined may come after. -/
theorem gather_append {n : Nat} {f : Front} {qs : List Front} (h : n ≤ (ahead f qs).length) (rs : List Front) :
    gather n f (qs ++ rs) = ((gather n f qs).1, (gather n f qs).2 ++ rs) := by
  induction qs generalizing f with
  | nil =>
    rw [List.nil_append, gather_id (by simpa [ahead] using h)]
    rfl
  | cons g qs ih =>
    by_cases hn : n ≤ f.word.length
    · rw [gather_id hn, gather_id hn]
    · rw [List.cons_append, gather_more (by omega), gather_more (by omega)]
      exact ih (by rw [ahead_join]; exact h)

theorem ahead_append (f : Front) (qs rs : List Front) : ahead f (qs ++ rs) = ahead f qs ++ rs.flatMap fun g => 0x20 :: g.word := by
  simp [ahead]

/-- The blanks of joined words. -/
theorem gather_blanks (n : Nat) (f : Front) (rest : List Front) :
    ((gather n f rest).1 :: (gather n f rest).2).flatMap Front.blanks = (f :: rest).flatMap Front.blanks := by
  induction rest generalizing f with
  | nil => rfl
  | cons g rest ih =>
    rw [gather]
    split
    · rfl
    · rw [ih]
      simp [join]

/-! ## Positions in words -/

/-- The position of the place `cp` in the word `cw`, where the words are separated by single symbols. -/
def offset : List (List Int) → Nat → Nat → Nat
  | w :: ws, cw + 1, cp => w.length + 1 + offset ws cw cp
  | _, _, cp => cp

/-- There is such a place. -/
def Valid (ws : List (List Int)) (cw cp : Nat) : Prop := ∃ w, ws[cw]? = some w ∧ cp ≤ w.length

def flat (ws : List (List Int)) : List Int := match ws with
  | [] => []
  | w :: ws => w ++ ws.flatMap fun v => 0x20 :: v

theorem ahead_flat (f : Front) (rest : List Front) : ahead f rest = flat ((f :: rest).map Front.word) := by
  simp [ahead, flat, List.flatMap_map]

theorem flat_cons (w v : List Int) (ws : List (List Int)) : flat (w :: v :: ws) = w ++ 0x20 :: flat (v :: ws) := by simp [flat]

theorem offset_le {ws : List (List Int)} {cw cp : Nat} (h : Valid ws cw cp) : offset ws cw cp ≤ (flat ws).length := by
  induction cw generalizing ws with
  | zero =>
    obtain ⟨w, h1, h2⟩ := h
    cases ws with
    | nil => simp at h1
    | cons v ws =>
      simp only [List.getElem?_cons_zero, Option.some.injEq] at h1
      subst h1
      simp only [offset, flat, List.length_append]
      omega
  | succ cw ih =>
    obtain ⟨w, h1, h2⟩ := h
    cases ws with
    | nil => simp at h1
    | cons v ws =>
      rw [List.getElem?_cons_succ] at h1
      have := ih ⟨w, h1, h2⟩
      cases ws with
      | nil => simp at h1
      | cons u ws =>
        rw [flat_cons, List.length_append, List.length_cons, offset]
        omega

/-- The symbol at a place. -/
theorem offset_get {ws : List (List Int)} {cw cp : Nat} {w : List Int} {x : Int} (h1 : ws[cw]? = some w) (h2 : w[cp]? = some x) :
    (flat ws)[offset ws cw cp]? = some x := by
  have hcp : cp < w.length := by
    obtain ⟨h, -⟩ := List.getElem?_eq_some_iff.1 h2
    exact h
  induction cw generalizing ws with
  | zero =>
    cases ws with
    | nil => simp at h1
    | cons v ws =>
      simp only [List.getElem?_cons_zero, Option.some.injEq] at h1
      subst h1
      simp only [offset, flat]
      rw [List.getElem?_append_left hcp, h2]
  | succ cw ih =>
    cases ws with
    | nil => simp at h1
    | cons v ws =>
      rw [List.getElem?_cons_succ] at h1
      have := ih h1
      cases ws with
      | nil => simp at h1
      | cons u ws =>
        rw [flat_cons, offset, List.getElem?_append_right (by omega)]
        have e : v.length + 1 + offset (u :: ws) cw cp - v.length = offset (u :: ws) cw cp + 1 := by omega
        rw [e, List.getElem?_cons_succ, this]

/-- The end of a word, if there is another one. -/
theorem offset_end {ws : List (List Int)} {cw : Nat} {w : List Int} (h1 : ws[cw]? = some w) (h2 : cw + 1 < ws.length) :
    (flat ws)[offset ws cw w.length]? = some 0x20 ∧ offset ws (cw + 1) 0 = offset ws cw w.length + 1 ∧ Valid ws (cw + 1) 0 := by
  refine ⟨?_, ?_, ⟨ws[cw + 1], by simp [h2], by omega⟩⟩
  · induction cw generalizing ws with
    | zero =>
      match ws, h1, h2 with
      | v :: u :: ws, h1, _ =>
        simp only [List.getElem?_cons_zero, Option.some.injEq] at h1
        subst h1
        have e : offset (v :: u :: ws) 0 v.length = v.length := rfl
        rw [flat_cons, e, List.getElem?_append_right (Nat.le_refl _)]
        simp
    | succ cw ih =>
      match ws, h1, h2 with
      | v :: u :: ws, h1, h2 =>
        rw [List.getElem?_cons_succ] at h1
        have := ih h1 (by simpa using h2)
        rw [flat_cons, offset, List.getElem?_append_right (by omega)]
        have e : v.length + 1 + offset (u :: ws) cw w.length - v.length = offset (u :: ws) cw w.length + 1 := by omega
        rw [e, List.getElem?_cons_succ, this]
      | [v], h1, _ => simp at h1
  · induction cw generalizing ws with
    | zero =>
      match ws, h1, h2 with
      | v :: u :: ws, h1, _ =>
        simp only [List.getElem?_cons_zero, Option.some.injEq] at h1
        subst h1
        simp [offset]
    | succ cw ih =>
      match ws, h1, h2 with
      | v :: u :: ws, h1, h2 =>
        rw [List.getElem?_cons_succ] at h1
        have := ih h1 (by simpa using h2)
        rw [offset, this, offset]
        omega
      | [v], h1, _ => simp at h1

/-- The end of the last word. -/
theorem offset_last {ws : List (List Int)} {cw : Nat} {w : List Int} (h1 : ws[cw]? = some w) (h2 : cw + 1 = ws.length) :
    offset ws cw w.length = (flat ws).length := by
  induction cw generalizing ws with
  | zero =>
    match ws, h1, h2 with
    | [v], h1, _ =>
      simp only [List.getElem?_cons_zero, Option.some.injEq] at h1
      subst h1
      simp [offset, flat]
    | v :: u :: ws, _, h2 => simp at h2
  | succ cw ih =>
    match ws, h1, h2 with
    | v :: u :: ws, h1, h2 =>
      rw [List.getElem?_cons_succ] at h1
      have := ih h1 (by simpa using h2)
      rw [offset, this, flat_cons, List.length_append, List.length_cons]
      omega
    | [v], h1, _ => simp at h1

/-! ## The loop that joins words -/

theorem merge_marks (a b : Option UString) : Str.mergeWblanks (markText a) (markText b) = .ok (markText (joinMarks a b)) := by
  cases a with
  | none =>
    unfold Str.mergeWblanks
    rw [if_pos (show markText none = [] from rfl)]
    cases b <;> rfl
  | some x =>
    cases b with
    | none => exact (Str.C64_merge x []).2.2
    | some y => exact (Str.C64_merge x y).1

/-- The words are joined up to the position; or, if the position is behind the space after a word and the match ends with a space, up to that
word. -/
theorem joinWords_ok (cw : Nat) : ∀ (g : Front) (qs : List Front) (cp mp : Nat) (last : UString), last ≠ [] → Valid ((g :: qs).map Front.word) cw cp →
    let off := offset ((g :: qs).map Front.word) cw cp
    let edge := 0 < cw ∧ cp = 0 ∧ last.getLast? = some 0x20
    (edge → (gather (off - 1) g qs).1.word.length = off - 1 ∧ 0 < off ∧
      joinWords cw cp mp last ((g :: qs).map Front.word) ((g :: qs).map fun f => markText f.mark) =
        .ok (1, 0, off - 1, last.dropLast, ((gather (off - 1) g qs).1 :: (gather (off - 1) g qs).2).map Front.word,
          ((gather (off - 1) g qs).1 :: (gather (off - 1) g qs).2).map fun f => markText f.mark) ∧ (gather (off - 1) g qs).2 ≠ []) ∧
    (¬ edge → joinWords cw cp mp last ((g :: qs).map Front.word) ((g :: qs).map fun f => markText f.mark) =
        .ok (0, off, off, last, ((gather off g qs).1 :: (gather off g qs).2).map Front.word,
          ((gather off g qs).1 :: (gather off g qs).2).map fun f => markText f.mark)) ∧
    (0 < cw → 0 < cp → (gather (off - 1) g qs).1.word.length ≠ off - 1) := by
  induction cw with
  | zero =>
    intro g qs cp mp last hl ⟨w, h1, h2⟩
    simp only [List.map_cons, List.getElem?_cons_zero, Option.some.injEq] at h1
    subst h1
    have e : offset ((g :: qs).map Front.word) 0 cp = cp := by simp [offset]
    refine ⟨fun h => absurd h.1 (by omega), fun _ => ?_, fun h => absurd h (by omega)⟩
    rw [e, gather_id h2]
    simp [joinWords]
  | succ k ih =>
    intro g qs cp mp last hl hv
    cases qs with
    | nil =>
      obtain ⟨w, h1, h2⟩ := hv
      simp at h1
    | cons q qs =>
      have e : offset ((g :: q :: qs).map Front.word) (k + 1) cp = g.word.length + 1 + offset ((q :: qs).map Front.word) k cp := by
        simp [offset]
      have hv' : Valid ((join g q :: qs).map Front.word) k (if k = 0 then cp + (g.word.length + 1) else cp) := by
        obtain ⟨w, h1, h2⟩ := hv
        simp only [List.map_cons, List.getElem?_cons_succ] at h1
        cases k with
        | zero =>
          simp only [List.getElem?_cons_zero, Option.some.injEq] at h1
          subst h1
          refine ⟨(join g q).word, by simp only [List.map_cons, List.getElem?_cons_zero], ?_⟩
          simp only [join, List.length_append, List.length_cons, if_true]
          omega
        | succ k =>
          refine ⟨w, ?_, by simpa using h2⟩
          simpa using h1
      have e' : offset ((join g q :: qs).map Front.word) k (if k = 0 then cp + (g.word.length + 1) else cp) =
          g.word.length + 1 + offset ((q :: qs).map Front.word) k cp := by
        cases k with
        | zero => simp [offset]; omega
        | succ k =>
          simp only [List.map_cons, offset, join, List.length_append, List.length_cons, if_neg (Nat.succ_ne_zero k)]
          omega
      have hstep : ¬ (k = 0 ∧ cp = 0 ∧ last.getLast? = some 0x20) →
          joinWords (k + 1) cp mp last ((g :: q :: qs).map Front.word) ((g :: q :: qs).map fun f => markText f.mark) =
            joinWords k (if k = 0 then cp + (g.word.length + 1) else cp) mp last ((join g q :: qs).map Front.word) ((join g q :: qs).map fun f => markText f.mark) := by
        intro hne
        simp only [List.map_cons]
        rw [joinWords, if_neg (by rintro ⟨_, _, h⟩; exact hl h), if_neg hne, merge_marks]
        rfl
      obtain ⟨i1, i2, i3⟩ := ih (join g q) qs (if k = 0 then cp + (g.word.length + 1) else cp) mp last hl hv'
      simp only [e'] at i1 i2 i3
      simp only [e]
      generalize ho : offset ((q :: qs).map Front.word) k cp = o at *
      refine ⟨?_, ?_, ?_⟩
      · rintro ⟨-, h2, h3⟩
        by_cases hk : k = 0
        · subst hk
          have ho : o = 0 := by rw [← ho, h2]; simp [offset]
          subst ho
          have e1 : g.word.length + 1 + 0 - 1 = g.word.length := by omega
          rw [e1, gather_id (Nat.le_refl _)]
          refine ⟨rfl, by omega, ?_, by simp⟩
          simp only [List.map_cons]
          rw [joinWords, if_neg (by rintro ⟨_, _, h⟩; exact hl h), if_pos ⟨rfl, h2, h3⟩, h2]
        · have hpos : 0 < o := by
            obtain ⟨k, rfl⟩ := Nat.exists_eq_succ_of_ne_zero hk
            rw [← ho]
            simp only [List.map_cons, offset]
            omega
          rw [if_neg hk] at i1
          rw [hstep (fun h => hk h.1), if_neg hk, gather_more (by omega)]
          exact i1 ⟨by omega, h2, h3⟩
      · intro hne
        rw [hstep (fun h => hne ⟨by omega, h.2⟩), gather_more (by omega)]
        refine i2 ?_
        rintro ⟨h1, h2, h3⟩
        rw [if_neg (by omega)] at h2
        exact hne ⟨by omega, h2, h3⟩
      · intro _ hcp
        by_cases hk : k = 0
        · subst hk
          have ho : o = cp := by rw [← ho]; simp [offset]
          subst ho
          obtain ⟨w, h1, h2⟩ := hv'
          simp only [List.map_cons, List.getElem?_cons_zero, Option.some.injEq, if_true] at h1 h2
          subst h1
          rw [gather_more (by omega), gather_id (by omega)]
          show (join g q).word.length ≠ _
          omega
        · rw [if_neg hk] at i3
          have hpos : 0 < o := by
            obtain ⟨k, rfl⟩ := Nat.exists_eq_succ_of_ne_zero hk
            rw [← ho]
            simp only [List.map_cons, offset]
            omega
          rw [gather_more (by omega)]
          exact i3 (by omega) hcp

end Verif.Post
