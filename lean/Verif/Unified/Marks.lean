import Verif.Unified.Stages

/-! # Marks and what is visible -/

namespace Verif.Unified

open Verif.Fst Verif.Compiler Verif.Alphabet
open Verif.Expander (Attrs)
open Verif.Tools (Choice mark preR preAlt preV preVl preVr Marked Chosen Dropped Erased)

set_option linter.unusedSectionVars false

theorem mem_markOf {pre v m : UString} : m ∈ markOf pre v ↔ v ≠ [] ∧ m = mark pre v := by
  unfold markOf
  split <;> simp [*]

theorem mark_inj {pre a b : UString} : mark pre a = mark pre b ↔ a = b := by
  simp [mark]

theorem marked_mark (pre v : UString) : Marked pre (mark pre v) := ⟨v ++ [0x3e], by simp [mark]⟩

theorem dropped_r {ch : Choice} {v : UString} : Dropped ch (mark preR v) ↔ v ≠ ch.dir := by
  unfold Dropped Chosen
  simp only [mark_inj]
  simp [Marked, mark, preR, preAlt, preV, preVl, preVr]

theorem dropped_v {ch : Choice} {v : UString} : Dropped ch (mark preV v) ↔ ch.vars ≠ [] ∧ v ∉ ch.vars := by
  unfold Dropped Chosen
  simp only [mark_inj]
  simp [Marked, mark, preR, preAlt, preV, preVl, preVr, and_comm]

theorem dropped_alt {ch : Choice} {v : UString} : Dropped ch (mark preAlt v) ↔ v ∉ ch.alts := by
  unfold Dropped Chosen
  simp only [mark_inj]
  simp [Marked, mark, preR, preAlt, preV, preVl, preVr]

theorem dropped_vl {ch : Choice} {v : UString} : Dropped ch (mark preVl v) ↔ v ∉ ch.lefts := by
  unfold Dropped Chosen
  simp only [mark_inj]
  simp [Marked, mark, preR, preAlt, preV, preVl, preVr]

theorem dropped_vr {ch : Choice} {v : UString} : Dropped ch (mark preVr v) ↔ v ∉ ch.rights := by
  unfold Dropped Chosen
  simp only [mark_inj]
  simp [Marked, mark, preR, preAlt, preV, preVl, preVr]

theorem mem_entryMarks {a : Attrs} {m : UString} : m ∈ entryMarks a ↔ (a.r ≠ [] ∧ m = mark preR a.r) ∨ (a.alt ≠ [] ∧ m = mark preAlt a.alt) ∨
    (a.v ≠ [] ∧ m = mark preV a.v) ∨ (a.vl ≠ [] ∧ m = mark preVl a.vl) ∨ (a.vr ≠ [] ∧ m = mark preVr a.vr) := by
  unfold entryMarks
  simp only [List.mem_append, mem_markOf, or_assoc]

/-- A mark of an entry that stays is erased. -/
theorem erased_of_not_dropped {ch : Choice} {a : Attrs} {m : UString} (h : m ∈ entryMarks a) (hd : ¬ Dropped ch m) : Erased ch m := by
  by_contra he
  unfold Erased at he
  rw [not_or] at he
  refine hd ⟨he.1, ?_⟩
  rcases mem_entryMarks.1 h with ⟨-, rfl⟩ | ⟨-, rfl⟩ | ⟨-, rfl⟩ | ⟨-, rfl⟩ | ⟨-, rfl⟩
  · exact .inl (marked_mark ..)
  · exact .inr (.inr (.inl (marked_mark ..)))
  · exact .inr (.inl ⟨fun h => he.2 ⟨h, marked_mark ..⟩, marked_mark ..⟩)
  · exact .inr (.inr (.inr (.inl (marked_mark ..))))
  · exact .inr (.inr (.inr (.inr (marked_mark ..))))

/-- Tags that are no marks are neither dropped nor erased. -/
theorem plain_tag {ch : Choice} {t : UString} (h : ∀ pre ∈ [preR, preAlt, preV, preVl, preVr], ¬ Marked pre t) : ¬ Dropped ch t ∧ ¬ Erased ch t := by
  have h1 := h preR (by simp)
  have h2 := h preAlt (by simp)
  have h3 := h preV (by simp)
  have h4 := h preVl (by simp)
  have h5 := h preVr (by simp)
  have hc : ¬ Chosen ch t := by
    rintro (rfl | ⟨s, -, rfl⟩ | ⟨s, -, rfl⟩ | ⟨s, -, rfl⟩ | ⟨s, -, rfl⟩)
    · exact h1 (marked_mark ..)
    · exact h3 (marked_mark ..)
    · exact h2 (marked_mark ..)
    · exact h4 (marked_mark ..)
    · exact h5 (marked_mark ..)
  constructor
  · rintro ⟨-, h | ⟨-, h⟩ | h | h | h⟩
    · exact h1 h
    · exact h3 h
    · exact h2 h
    · exact h4 h
    · exact h5 h
  · rintro (h | ⟨-, h⟩)
    · exact hc h
    · exact h3 h

theorem marked_entry {a : Attrs} {m : UString} (h : m ∈ entryMarks a) : ∃ pre ∈ [preR, preAlt, preV, preVl, preVr], Marked pre m := by
  rcases mem_entryMarks.1 h with ⟨-, rfl⟩ | ⟨-, rfl⟩ | ⟨-, rfl⟩ | ⟨-, rfl⟩ | ⟨-, rfl⟩
  · exact ⟨preR, by simp, marked_mark ..⟩
  · exact ⟨preAlt, by simp, marked_mark ..⟩
  · exact ⟨preV, by simp, marked_mark ..⟩
  · exact ⟨preVl, by simp, marked_mark ..⟩
  · exact ⟨preVr, by simp, marked_mark ..⟩

theorem mem_one {v w : UString} (h : w ≠ []) : w ∈ one v ↔ v = w := by
  unfold one
  split
  · next h0 => subst h0; simp [h.symm]
  · simp [eq_comm]

/-- An entry is visible if and only if it is not ignored and none of its marks is dropped. -/
theorem visible_iff {s : Settings} {ch : Choice} (h : Same s ch) {a : Attrs} (ha : Single a) (hl : s.rl = false → a.vl = [] ∨ a.vl ∈ ch.lefts)
    (hr : s.rl = true → a.vr = [] ∨ a.vr ∈ ch.rights) :
    Visible s a ↔ a.ignore ≠ Expander.YES ∧ ∀ m ∈ entryMarks a, ¬ Dropped ch m := by
  obtain ⟨h1, h2, h3, h4, h5⟩ := ha
  have hw : ∀ {w v : UString}, 0x20 ∉ v → v ≠ [] → (Word w v ↔ v ∈ one w) := by
    intro w v hv h0
    rw [word_last hv, mem_one h0]
    simp [h0]
  have key : (∀ m ∈ entryMarks a, ¬ Dropped ch m) ↔ (a.r = [] ∨ a.r = ch.dir) ∧ (a.alt = [] ∨ a.alt ∈ ch.alts) ∧ (a.v = [] ∨ ch.vars = [] ∨ a.v ∈ ch.vars) ∧
      (a.vl = [] ∨ a.vl ∈ ch.lefts) ∧ (a.vr = [] ∨ a.vr ∈ ch.rights) := by
    have hall : (∀ m ∈ entryMarks a, ¬ Dropped ch m) ↔ (a.r ≠ [] → ¬ Dropped ch (mark preR a.r)) ∧ (a.alt ≠ [] → ¬ Dropped ch (mark preAlt a.alt)) ∧
        (a.v ≠ [] → ¬ Dropped ch (mark preV a.v)) ∧ (a.vl ≠ [] → ¬ Dropped ch (mark preVl a.vl)) ∧ (a.vr ≠ [] → ¬ Dropped ch (mark preVr a.vr)) := by
      simp only [mem_entryMarks]
      constructor
      · intro h
        exact ⟨fun h0 => h _ (.inl ⟨h0, rfl⟩), fun h0 => h _ (.inr (.inl ⟨h0, rfl⟩)), fun h0 => h _ (.inr (.inr (.inl ⟨h0, rfl⟩))),
          fun h0 => h _ (.inr (.inr (.inr (.inl ⟨h0, rfl⟩)))), fun h0 => h _ (.inr (.inr (.inr (.inr ⟨h0, rfl⟩))))⟩
      · rintro ⟨g1, g2, g3, g4, g5⟩ m (⟨h0, rfl⟩ | ⟨h0, rfl⟩ | ⟨h0, rfl⟩ | ⟨h0, rfl⟩ | ⟨h0, rfl⟩)
        exacts [g1 h0, g2 h0, g3 h0, g4 h0, g5 h0]
    rw [hall]
    simp only [dropped_r, dropped_alt, dropped_v, dropped_vl, dropped_vr, or_iff_not_imp_left, not_and_or, not_not, ne_eq]
  rw [key]
  have hone : ∀ {v : UString}, one v = [] ↔ v = [] := by
    intro v; unfold one; split <;> simp [*]
  have hdir : ch.dir = if s.rl then Expander.RL else Expander.LR := h.dir
  constructor
  · intro hv
    refine ⟨hv.ignore, hdir ▸ hv.r, ?_, ?_, ?_, ?_⟩
    · rw [h.alts]
      by_cases h0 : a.alt = []
      · exact .inl h0
      · exact .inr ((hw h2 h0).1 (hv.alt.resolve_left h0))
    · rw [h.vars, hone]
      by_cases h0 : a.v = []
      · exact .inl h0
      · exact .inr ((hv.v.resolve_left h0).imp_right (hw h3 h0).1)
    · cases hb : s.rl
      · exact hl hb
      · rw [h.lefts hb]
        by_cases h0 : a.vl = []
        · exact .inl h0
        · exact .inr ((hw h4 h0).1 ((hv.vl hb).resolve_left h0))
    · cases hb : s.rl
      · rw [h.rights hb]
        by_cases h0 : a.vr = []
        · exact .inl h0
        · exact .inr ((hw h5 h0).1 ((hv.vr hb).resolve_left h0))
      · exact hr hb
  · rintro ⟨g0, g1, g2, g3, g4, g5⟩
    rw [h.alts] at g2
    rw [h.vars, hone] at g3
    refine ⟨hdir ▸ g1, g0, ?_, ?_, fun hb => ?_, fun hb => ?_⟩
    · by_cases h0 : a.alt = []
      · exact .inl h0
      · exact .inr ((hw h2 h0).2 (g2.resolve_left h0))
    · by_cases h0 : a.v = []
      · exact .inl h0
      · exact .inr ((g3.resolve_left h0).imp_right (hw h3 h0).2)
    · rw [h.lefts hb] at g4
      by_cases h0 : a.vl = []
      · exact .inl h0
      · exact .inr ((hw h4 h0).2 (g4.resolve_left h0))
    · rw [h.rights hb] at g5
      by_cases h0 : a.vr = []
      · exact .inl h0
      · exact .inr ((hw h5 h0).2 (g5.resolve_left h0))

end Verif.Unified
