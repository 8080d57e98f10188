import Verif.Compiler.Spec

/-! # The attributes of an entry -/

namespace Verif.Compiler

open Verif.Str

theorem infix_one {c : UInt16} {s : UString} : [c] <:+: s ↔ c ∈ s := by
  constructor
  · rintro ⟨x, y, rfl⟩; simp
  · intro h
    obtain ⟨x, y, rfl⟩ := List.append_of_mem h
    exact ⟨x, y, by simp⟩

theorem cut_eq {c : UInt16} {a b x y : UString} (ha : c ∉ a) (h : a ++ c :: b = x ++ c :: y) :
    (x = a ∧ y = b) ∨ ∃ z, x = a ++ c :: z ∧ b = z ++ c :: y := by
  rcases List.append_eq_append_iff.1 h with ⟨z, hx, hb⟩ | ⟨z, hx, hb⟩
  · cases z with
    | nil => simp only [List.nil_append, List.cons.injEq, true_and] at hb; exact .inl ⟨by simpa using hx, hb.symm⟩
    | cons d z =>
      simp only [List.cons_append, List.cons.injEq] at hb
      obtain ⟨rfl, rfl⟩ := hb
      exact .inr ⟨z, hx, rfl⟩
  · cases z with
    | nil => simp only [List.nil_append, List.cons.injEq, true_and] at hb; exact .inl ⟨by simpa using hx.symm, hb⟩
    | cons d z =>
      simp only [List.cons_append, List.cons.injEq] at hb
      obtain ⟨rfl, rfl⟩ := hb
      exact absurd (by simp [hx]) ha

theorem word_cut {w a b : UString} (ha : 0x20 ∉ a) : Word w (a ++ 0x20 :: b) ↔ (w = a ∧ a ≠ []) ∨ Word w b := by
  constructor
  · rintro ⟨h1, h2, pre, post, h, rfl | ⟨p, rfl⟩, hpost⟩
    · rcases hpost with rfl | ⟨q, rfl⟩
      · simp only [List.nil_append, List.append_nil] at h
        exact absurd (by rw [← h]; simp) h2
      · rw [List.nil_append] at h
        rcases cut_eq ha h with ⟨rfl, rfl⟩ | ⟨z, rfl, rfl⟩
        · exact .inl ⟨rfl, h1⟩
        · exact absurd (by simp) h2
    · have h' : a ++ 0x20 :: b = p ++ 0x20 :: (w ++ post) := by simpa using h
      rcases cut_eq ha h' with ⟨rfl, rfl⟩ | ⟨z, rfl, rfl⟩
      · exact .inr ⟨h1, h2, [], post, by simp, .inl rfl, hpost⟩
      · exact .inr ⟨h1, h2, z ++ [0x20], post, by simp, .inr ⟨z, rfl⟩, hpost⟩
  · rintro (⟨rfl, h⟩ | ⟨h1, h2, pre, post, rfl, hpre, hpost⟩)
    · exact ⟨h, ha, [], 0x20 :: b, rfl, .inl rfl, .inr ⟨b, rfl⟩⟩
    · refine ⟨h1, h2, a ++ 0x20 :: pre, post, by simp, .inr ?_, hpost⟩
      rcases hpre with rfl | ⟨p, rfl⟩
      · exact ⟨a, rfl⟩
      · exact ⟨a ++ 0x20 :: p, by simp⟩

theorem word_last {w s : UString} (hs : 0x20 ∉ s) : Word w s ↔ w = s ∧ s ≠ [] := by
  constructor
  · rintro ⟨h1, h2, pre, post, rfl, rfl | ⟨p, rfl⟩, rfl | ⟨q, rfl⟩⟩
    · simpa using h1
    all_goals simp at hs
  · rintro ⟨rfl, h⟩
    exact ⟨h, hs, [], [], by simp, .inl rfl, .inl rfl⟩

theorem mem_pieces {s : UString} {ps : List UString} (h : Pieces [0x20] s ps) (w : UString) : w ∈ ps.filter (· ≠ []) ↔ Word w s := by
  induction h with
  | last hn =>
    rw [infix_one] at hn
    rw [word_last hn]
    simp only [List.mem_filter, List.mem_singleton, decide_eq_true_eq]
    constructor <;> (rintro ⟨rfl, h⟩; exact ⟨rfl, h⟩)
  | @cut a b ps hm _ ih =>
    have ha : 0x20 ∉ a := by
      intro ha
      obtain ⟨x, y, rfl⟩ := List.append_of_mem ha
      have := hm x (y ++ [0x20] ++ b) (by simp)
      simp at this
      omega
    have := word_cut (w := w) (b := b) ha
    rw [List.append_assoc]
    show _ ↔ Word w (a ++ 0x20 :: b)
    rw [this, ← ih, List.filter_cons]
    split
    · next h =>
      simp only [ne_eq, decide_eq_true_eq] at h
      rw [List.mem_cons]
      simp [h]
    · next h =>
      have h : a = [] := by simpa using h
      simp [h]

theorem filterEntry_iff (value filter : UString) (k : Bool) :
    filterEntry value filter k = true ↔ value = [] ∨ (k = true ∧ filter = []) ∨ Word filter value := by
  unfold filterEntry
  by_cases hv : value = []
  · simp [hv]
  · obtain ⟨ps, hps⟩ := C51_pieces_exist [0x20] value (by simp)
    rw [C51_split [0x20] value (by simp) ps hps, if_neg hv]
    have hw : (((some (ps.filter (· ≠ []))).getD []).any (· = filter)) = true ↔ Word filter value := by
      rw [← mem_pieces hps]
      simp only [Option.getD_some, List.any_eq_true, decide_eq_true_eq]
      constructor
      · rintro ⟨x, hx, rfl⟩; exact hx
      · intro h; exact ⟨_, h, rfl⟩
    by_cases hk : (k && decide (filter = [])) = true
    · rw [if_pos hk]
      simp only [Bool.and_eq_true, decide_eq_true_eq] at hk
      simp [hk]
    · rw [if_neg hk, hw]
      simp only [Bool.and_eq_true, decide_eq_true_eq] at hk
      constructor
      · exact fun h => .inr (.inr h)
      · rintro (h | h | h)
        · exact absurd h hv
        · exact absurd h hk
        · exact h

theorem skipped_iff (s : Settings) (a : Expander.Attrs) : skipped s a = false ↔ Visible s a := by
  have e1 := filterEntry_iff a.alt s.alt false
  have e2 := filterEntry_iff a.v s.variant true
  have e3 := filterEntry_iff a.vl s.left false
  have e4 := filterEntry_iff a.vr s.right false
  simp only [Bool.false_eq_true, false_and, false_or, true_and] at e1 e2 e3 e4
  unfold skipped
  constructor
  · intro h
    simp only [Bool.or_eq_false_iff, Bool.not_eq_false', Bool.and_eq_false_iff, decide_eq_false_iff_not] at h
    obtain ⟨⟨⟨⟨⟨h1, h2⟩, h3⟩, h4⟩, h5⟩, h6⟩ := h
    refine ⟨?_, h2, e1.1 h3, e2.1 h4, fun hr => e3.1 (h5.resolve_left (by simp [hr])), fun hr => e4.1 (h6.resolve_left (by simp [hr]))⟩
    exact h1.imp Classical.not_not.1 Classical.not_not.1
  · rintro ⟨h1, h2, h3, h4, h5, h6⟩
    simp only [Bool.or_eq_false_iff, Bool.not_eq_false', Bool.and_eq_false_iff, decide_eq_false_iff_not]
    refine ⟨⟨⟨⟨⟨h1.imp not_not.2 not_not.2, h2⟩, e1.2 h3⟩, e2.2 h4⟩, ?_⟩, ?_⟩
    · cases hr : s.rl
      · exact .inl rfl
      · exact .inr (e3.2 (h5 hr))
    · cases hr : s.rl
      · exact .inr (e4.2 (h6 hr))
      · exact .inl rfl

end Verif.Compiler
