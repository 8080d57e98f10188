import Verif.TmProc.Loaded
import Verif.TmProc.EndSpec

/-! # From the units to the graph -/

namespace Verif.TmProc

open Verif.Fst Verif.State
open Verif.Tmx (unitPairs Slot Filled slotted sequenceText finalsText charText)

variable {W : Type} {τ : Setting W} {Q : List (List Pair)} {R : List Int → List Int → Prop}

/-- The words are those of the units. -/
structure Units (Q : List (List Pair)) (R : List Int → List Int → Prop) : Prop where
  words : ∀ ps, ps ∈ Q ↔ ∃ o m, R o m ∧ ps = unitPairs o m
  left : ∀ o m, R o m → ((unitPairs o m).map (·.1)).filter (· ≠ 0) = o
  right : ∀ o m, R o m → ((unitPairs o m).map (·.2)).filter (· ≠ 0) = m

theorem inputs_split : ∀ (ls : List (Label W)) (xs ys : List Int), inputs ls = xs ++ ys → ∃ l1 l2, ls = l1 ++ l2 ∧ inputs l1 = xs := by
  intro ls
  induction ls with
  | nil =>
    intro xs ys h
    refine ⟨[], [], rfl, ?_⟩
    have : xs ++ ys = [] := h.symm
    rw [List.append_eq_nil_iff] at this
    exact this.1.symm
  | cons l ls ih =>
    intro xs ys h
    have hc : inputs (l :: ls) = if l.1 = 0 then inputs ls else l.1 :: inputs ls := by by_cases e : l.1 = 0 <;> simp [inputs, e]
    rw [hc] at h
    by_cases e : l.1 = 0
    · rw [if_pos e] at h
      obtain ⟨l1, l2, rfl, h2⟩ := ih xs ys h
      refine ⟨l :: l1, l2, rfl, ?_⟩
      simpa [inputs, e] using h2
    · rw [if_neg e] at h
      cases xs with
      | nil => exact ⟨[], l :: ls, rfl, rfl⟩
      | cons x xs =>
        simp only [List.cons_append, List.cons.injEq] at h
        obtain ⟨l1, l2, rfl, h2⟩ := ih xs ys h.2
        refine ⟨l :: l1, l2, rfl, ?_⟩
        rw [← h.1, ← h2]
        simp [inputs, e]

theorem first_inputs (k : Nat) (x : W) (ls : List (Label W)) : inputs ((0, k, 0, x) :: ls) = inputs ls ∧ written ((0, k, 0, x) :: ls) = written ls := by
  constructor
  · unfold inputs; simp
  · unfold written; simp

theorem live_begun (h : Holds Q τ) (hq : Units Q R) (xs : List Int) : Live τ xs ↔ Begun τ.chars R xs := by
  rw [live_paths]
  constructor
  · rintro ⟨ls, p, h1, h2⟩
    rcases h.goes ls p h1 with h3 | ⟨ps, h3, h4⟩
    · rw [h3] at h2
      cases h2
      exact .inl rfl
    · obtain ⟨o, m, h5, rfl⟩ := (hq.words ps).1 h3
      rw [hq.left o m h5] at h4
      exact .inr ⟨o, m, h5, _, h4, h2⟩
  · rintro (rfl | ⟨o, m, h1, o1, ⟨o2, h2⟩, h3⟩)
    · exact ⟨[], τ.root, .nil _, .nil⟩
    · obtain ⟨k, x, ls, p, w, h4, -, h6⟩ := h.stored _ ((hq.words _).2 ⟨o, m, h1, rfl⟩)
      have h7 : inputs ls = o1 ++ o2 := by rw [inputs_couples, h6, hq.left o m h1, h2]
      rw [← (first_inputs k x ls).1] at h7
      obtain ⟨l1, l2, e, h8⟩ := inputs_split _ o1 o2 h7
      rw [e] at h4
      obtain ⟨q, h9, -⟩ := h4.split
      exact ⟨l1, q, h9, by rw [h8]; exact h3⟩

theorem written_couples (ls : List (Label W)) : ((written ls).map (·.1)).filter (· ≠ 0) = ((couples ls).map (·.2)).filter (· ≠ 0) := by
  induction ls with
  | nil => rfl
  | cons l ls ih =>
    unfold written couples at ih ⊢
    by_cases h1 : l.1 = 0 <;> by_cases h2 : l.2.2.1 = 0 <;> simp_all

theorem has_found (h : Holds Q τ) (hq : Units Q R) {xs : List Int} {ls : List (Label W)} {s : List Int} (hs : Has τ xs ls s) :
    ∃ o m, Found τ.chars R xs o m ∧ s.filter (· ≠ 0) = m ∧ couples ls.tail = unitPairs o m := by
  obtain ⟨p, w, h1, h2, h3, rfl⟩ := (has_paths _ _ _).1 hs
  obtain ⟨k, x, ls', rfl, h4⟩ := h.first ls p w h1 h3
  obtain ⟨o, m, h5, h6⟩ := (hq.words _).1 h4
  refine ⟨o, m, ⟨h5, ?_⟩, ?_, h6⟩
  · rw [(first_inputs k x ls').1, inputs_couples, h6, hq.left o m h5] at h2
    exact h2
  · rw [(first_inputs k x ls').2, written_couples, h6, hq.right o m h5]

theorem found_has (h : Holds Q τ) (hq : Units Q R) {xs o m : List Int} (hs : Found τ.chars R xs o m) : ∃ ls s, Has τ xs ls s := by
  obtain ⟨k, x, ls, p, w, h4, h5, h6⟩ := h.stored _ ((hq.words _).2 ⟨o, m, hs.1, rfl⟩)
  refine ⟨_, _, (has_paths _ _ _).2 ⟨p, w, h4, ?_, h5, rfl⟩⟩
  rw [(first_inputs k x ls).1, inputs_couples, h6, hq.left o m hs.1]
  exact hs.2

theorem segment_found (h : Holds Q τ) (hq : Units Q R) (xs : List Int) : Segment τ xs ↔ ∃ o m, Found τ.chars R xs o m := by
  constructor
  · rintro ⟨ls, s, hs⟩
    obtain ⟨o, m, h1, -⟩ := has_found h hq hs
    exact ⟨o, m, h1⟩
  · rintro ⟨o, m, hs⟩
    exact found_has h hq hs

/-- One unit: one path. -/
theorem targets_unit (h : Holds Q τ) (hq : Units Q R) {xs o m : List Int} (hs : Found τ.chars R xs o m) (hone : ∀ o' m', Found τ.chars R xs o' m' → o' = o ∧ m' = m)
    {seqs : List (List Int)} (ht : Targets τ xs seqs) : ∃ s, seqs = [s] ∧ s.filter (· ≠ 0) = m := by
  obtain ⟨⟨L, h1, h2⟩, h3⟩ := ht
  obtain ⟨ls, s, h4⟩ := found_has h hq hs
  have h5 := h3 ls s h4
  have hall : ∀ ls s ls' s', Has τ xs ls s → Has τ xs ls' s' → ls = ls' := by
    intro ls s ls' s' k1 k2
    obtain ⟨o1, m1, j1, -, j2⟩ := has_found h hq k1
    obtain ⟨o2, m2, j3, -, j4⟩ := has_found h hq k2
    obtain ⟨rfl, rfl⟩ := hone _ _ j1
    obtain ⟨rfl, rfl⟩ := hone _ _ j3
    obtain ⟨p, w, i1, -, i2, -⟩ := (has_paths _ _ _).1 k1
    obtain ⟨p', w', i3, -, i4, -⟩ := (has_paths _ _ _).1 k2
    exact h.one _ _ _ _ _ _ i1 i2 i3 i4 (j2.trans j4.symm)
  cases h2 with
  | nil => cases h5
  | @cons l1 s1 L' seqs' k1 k2 =>
    cases k2 with
    | nil =>
      obtain ⟨o1, m1, j1, j2, -⟩ := has_found h hq k1
      obtain ⟨rfl, rfl⟩ := hone _ _ j1
      exact ⟨s1, rfl, j2⟩
    | @cons l2 s2 _ _ k3 _ =>
      exact absurd (hall _ _ _ _ k1 k3) (by rw [List.nodup_cons] at h1; rintro rfl; simp at h1)

theorem sequence_filter (a : Alphabet) (s : List Int) : sequenceText a s = sequenceText a (s.filter (· ≠ 0)) := by
  induction s with
  | nil => rfl
  | cons c s ih =>
    by_cases h : c = 0
    · subst h
      rw [List.filter_cons_of_neg (by simp), ← ih, sequenceText]
      have : a.getSymbol 0 = .ok [] := rfl
      rw [this]
      cases sequenceText a s <;> rfl
    · rw [List.filter_cons_of_pos (by simpa using h), sequenceText, sequenceText, ih]

theorem voiced_fill {tb : Tmx.Chars} {a : Alphabet} {ns : List UString} {m : List Int} {q q' : List UString} {txt : UString} (h : Voiced ns m q txt q') :
    ∃ t, sequenceText a m = .ok t ∧ ∀ s, 0x29 ∉ s → ∃ ss r, s ++ t = slotted ss r ∧ Filled tb ns ss r q (s ++ txt) q' := by
  induction h with
  | nil => exact ⟨[], rfl, fun s hs => ⟨[], s, by simp [slotted], by simpa using Filled.last hs⟩⟩
  | @sym c m t q q' ho _ ih =>
    obtain ⟨t', h1, h2⟩ := ih
    refine ⟨charText c ++ t', Tmx.sequence_cons ho.1 ho.2.1 h1, fun s hs => ?_⟩
    obtain ⟨ss, r, k1, k2⟩ := h2 (s ++ charText c) (by
      rw [List.mem_append, not_or]
      exact ⟨hs, Tmx.units_open ho⟩)
    exact ⟨ss, r, by rw [← k1]; simp, by simpa using k2⟩
  | @ref k m n t q q' hn hk _ ih =>
    obtain ⟨t', h1, h2⟩ := ih
    refine ⟨(Slot.num (k + 1)).text ++ t', Tmx.sequence_reference (k + 1) h1, fun s hs => ?_⟩
    obtain ⟨ss, r, k1, k2⟩ := h2 [] (by simp)
    refine ⟨(s, .num (k + 1)) :: ss, r, ?_, ?_⟩
    · have : slotted ((s, Slot.num (k + 1)) :: ss) r = s ++ ((Slot.num (k + 1)).text ++ slotted ss r) := by simp [slotted]
      rw [this, ← k1]
      simp
    · have := Filled.num (ch := tb) hs hn hk k2
      simpa using this
  | @space m t q' _ ih =>
    obtain ⟨t', h1, h2⟩ := ih
    refine ⟨Slot.blank.text ++ t', ?_, fun s hs => ?_⟩
    · exact Tmx.sequence_cons (c := 0x28) (by decide) (by decide) (Tmx.sequence_cons (c := 0x23) (by decide) (by decide) (Tmx.sequence_cons (c := 0x29) (by decide) (by decide) h1))
    · obtain ⟨ss, r, k1, k2⟩ := h2 [] (by simp)
      refine ⟨(s, .blank) :: ss, r, ?_, ?_⟩
      · have : slotted ((s, Slot.blank) :: ss) r = s ++ (Slot.blank.text ++ slotted ss r) := by simp [slotted]
        rw [this, ← k1]
        simp
      · have := Filled.space (ch := tb) hs k2
        simpa using this
  | @blank x y b m t q q' _ ih =>
    obtain ⟨t', h1, h2⟩ := ih
    refine ⟨Slot.blank.text ++ t', ?_, fun s hs => ?_⟩
    · exact Tmx.sequence_cons (c := 0x28) (by decide) (by decide) (Tmx.sequence_cons (c := 0x23) (by decide) (by decide) (Tmx.sequence_cons (c := 0x29) (by decide) (by decide) h1))
    · obtain ⟨ss, r, k1, k2⟩ := h2 [] (by simp)
      refine ⟨(s, .blank) :: ss, r, ?_, ?_⟩
      · have : slotted ((s, Slot.blank) :: ss) r = s ++ (Slot.blank.text ++ slotted ss r) := by simp [slotted]
        rw [this, ← k1]
        simp
      · have := Filled.blank (ch := tb) (x := x) (b := b) (y := y) hs k2
        simpa using this

theorem written_voiced (h : Holds Q τ) (hq : Units Q R) {cs : List Token} {t : Token} {o m : List Int} {txt : UString} (hs : Found τ.chars R (vals cs) o m)
    (hone : ∀ o' m', Found τ.chars R (vals cs) o' m' → o' = o ∧ m' = m) (hv : Voiced (numbersOf cs) m (blanksOf (cs ++ [t])) txt (blanksOf [t])) :
    Written τ cs t txt := by
  intro seqs ht
  obtain ⟨s, rfl, h1⟩ := targets_unit h hq hs hone ht
  obtain ⟨t', h2, h3⟩ := voiced_fill (tb := τ.tables) (a := τ.alphabet) hv
  obtain ⟨ss, r, h4, h5⟩ := h3 [0x2f] (by decide)
  refine ⟨ss, r, ?_, by simpa using h5⟩
  rw [finalsText, sequence_filter, h1, h2, ← h4]
  simp [finalsText]

theorem tells_says (h : Holds Q τ) (hq : Units Q R) {ch : Chars} {sp : Bool} (hch : τ.chars = ch) (hsp : τ.spaces = sp) (h0 : ∀ m, ¬ R [] m) {ps : List Token} {out : UString}
    (ht : Tells ch sp R ps out) : Says τ ps out := by
  subst hch
  subst hsp
  induction ht with
  | nil => exact .nil
  | gap h1 h2 _ ih => exact .gap h1 (fun e => h2 ((live_begun h hq _).1 e)) ih
  | @segment cs rest t o m txt out h1 h2 h3 h4 h5 h6 h7 _ ih =>
    refine .segment ?_ ((segment_found h hq _).2 ⟨o, m, h1⟩) h3 (fun e => h4 ((live_begun h hq _).1 e)) (written_voiced h hq h1 h2 h5) h6 h7 ih
    rintro rfl
    obtain ⟨k1, k2⟩ := h1
    cases k2
    exact h0 m k1
  | part h1 h2 h3 h4 h5 _ ih =>
    exact .part h1 ((live_begun h hq _).2 h2) (fun e => h3 ⟨(segment_found h hq _).1 e.1, e.2⟩) h4 (fun e => h5 ((live_begun h hq _).1 e)) ih
  | word h1 h2 h3 h4 _ ih => exact .word ((live_begun h hq _).2 h1) (fun e => h2 ((live_begun h hq _).1 e)) h3 h4 ih
  | final h1 h2 h3 h4 h5 => exact .final ((live_begun h hq _).2 h1) (fun e => h2 ((live_begun h hq _).1 e)) h3 h4 h5

end Verif.TmProc
