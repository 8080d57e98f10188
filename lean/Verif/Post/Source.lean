import Verif.Post.Read

/-! # The words that have not been read yet -/

namespace Verif.Post

open Verif.Input Verif.Stream

variable {W : Type} {σ : Setting W}

/-- What follows a segment: the end of the file, or a null character and more. -/
def tailText : Option (List Nat) → List Nat
  | none => []
  | some cs => 0 :: cs

def AtTail : Option (List Nat) → InFile → Prop
  | none, f => f = Stream.ended
  | some cs, f => Holds f (0 :: cs)

/-- The rest of a segment is as it should be. -/
structure Fine (σ : Setting W) (us : List Word) (last : Blank) (tail : Option (List Nat)) : Prop where
  words : ∀ w ∈ us, w.WF σ
  apart : us.IsChain Apart
  blank : ∀ p ∈ last, p.WF σ
  closed : tail = none → last = [] → ∀ w, us.getLast? = some w → w.mark ≠ none

/-- The words `us` and the blank `last` have not been read, or everything has been read and the blanks `extra` have been found at the end. -/
inductive Src (σ : Setting W) (last : Blank) (tail : Option (List Nat)) : List Word → InFile → List UString → Prop
  | unread {us f} (h : Holds f (us.flatMap Word.text ++ last.text ++ tailText tail)) (hf : Fine σ us last tail) : Src σ last tail us f []
  | read {f extra} (h : AtTail tail f) (he : extra.flatten = enc last.text) : Src σ last tail [] f extra

theorem Blank.ends {b : Blank} (hb : ∀ p ∈ b, p.WF σ) (hne : b ≠ []) (cs : List Nat) : Ends σ (b.text ++ cs) := by
  obtain ⟨p, b, rfl⟩ := List.exists_cons_of_ne_nil hne
  rw [Blank.text_cons]
  cases p with
  | space c => exact .space (hb (.space c) (by simp)).2
  | super ts =>
    simp only [Piece.text, blockText, List.cons_append]
    exact .bracket

theorem Fine.ends {w : Word} {us : List Word} {last : Blank} {tail : Option (List Nat)} (h : Fine σ (w :: us) last tail) (hm : w.mark = none) :
    Ends σ (us.flatMap Word.text ++ last.text ++ tailText tail) := by
  cases us with
  | cons v us =>
    have ha := (List.isChain_cons_cons.1 h.apart).1
    rw [List.flatMap_cons, List.append_assoc, List.append_assoc]
    unfold Word.text
    simp only [List.append_assoc]
    by_cases hb : v.blank = []
    · rcases ha with ha | ha | ha
      · exact absurd hb ha
      · exact absurd hm ha
      · obtain ⟨ts, hts⟩ := Option.ne_none_iff_exists'.1 ha
        rw [hb, hts]
        simp only [Blank.text, List.flatMap_nil, List.nil_append, Option.elim_some, wblankText, List.cons_append]
        exact .bracket
    · exact Blank.ends (fun p hp => (h.words v (by simp)).blank p hp) hb _
  | nil =>
    rw [List.flatMap_nil, List.nil_append]
    by_cases hl : last = []
    · cases tail with
      | none => exact absurd hm (h.closed rfl hl w rfl)
      | some cs =>
        rw [hl]
        exact .null
    · exact Blank.ends h.blank hl _

theorem Fine.tail {w : Word} {us : List Word} {last : Blank} {tail : Option (List Nat)} (h : Fine σ (w :: us) last tail) : Fine σ us last tail := by
  refine ⟨fun v hv => h.words v (by simp [hv]), h.apart.tail, h.blank, ?_⟩
  intro ht hl v hv
  refine h.closed ht hl v ?_
  cases us with
  | nil => simp at hv
  | cons u us => rw [List.getLast?_cons_cons]; exact hv

/-- Another word is read. -/
theorem Src.word (hs : ∀ c ∈ ['['.toNat, '\\'.toNat, '<'.toNat, 0, 0xFFFF], σ.isSpace c = false) {last : Blank} {tail : Option (List Nat)} {w : Word} {us : List Word}
    {extra : List UString} (t : Tl) (h : Src σ last tail (w :: us) t.inp extra) :
    extra = [] ∧ w.WF σ ∧ ∃ g, Src σ last tail us g [] ∧ readWord σ t = .ok (true, pushed t g (frontOf σ.alphabet w)) := by
  cases h with
  | unread h hf =>
    rw [List.flatMap_cons, List.append_assoc, List.append_assoc, ← List.append_assoc (us.flatMap _)] at h
    obtain ⟨g, h1, h2⟩ := readWord_ok hs (hf.words w (by simp)) hf.ends t h
    exact ⟨rfl, hf.words w (by simp), g, .unread h1 hf.tail, h2⟩

/-- There is no other word. -/
theorem Src.none (hs : ∀ c ∈ ['['.toNat, '\\'.toNat, '<'.toNat, 0, 0xFFFF], σ.isSpace c = false) {last : Blank} {tail : Option (List Nat)}
    {extra : List UString} (t : Tl) (h : Src σ last tail [] t.inp extra) :
    ∃ g extra', AtTail tail g ∧ (extra ++ extra').flatten = enc last.text ∧
      readWord σ t = .ok (false, { t with inp := g, blanks := t.blanks ++ extra' }) := by
  generalize hi : t.inp = i at h
  cases h with
  | unread h hf =>
    subst hi
    rw [List.flatMap_nil, List.nil_append] at h
    cases tail with
    | none =>
      rw [tailText, List.append_nil] at h
      exact ⟨Stream.ended, [enc last.text], rfl, by simp, readWord_eof hs hf.blank t h⟩
    | some cs =>
      obtain ⟨g, h1, h2⟩ := readWord_null hs hf.blank cs t h
      refine ⟨g, if last = [] then [] else [enc last.text], h1, ?_, h2⟩
      split
      · rename_i hl
        rw [hl]; rfl
      · simp
  | read h he =>
    subst hi
    cases tail with
    | none =>
      have h : t.inp = Stream.ended := h
      refine ⟨t.inp, [], h, by simpa using he, ?_⟩
      rw [readWord_ended t (by rw [h]; rfl)]
      simp
    | some cs =>
      have h : Holds t.inp (0 :: cs) := h
      have h' : Holds t.inp (Blank.text [] ++ 0 :: cs) := h
      obtain ⟨g, h1, h2⟩ := readWord_null hs (b := []) (by simp) cs t h'
      refine ⟨g, [], h1, by simpa using he, ?_⟩
      rw [h2]
      simp

end Verif.Post
