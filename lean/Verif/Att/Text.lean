import Verif.Att.Spec

/-! # The columns and symbols of AT&T files -/

namespace Verif.Att

open Verif.Fst

variable {W : Type}

/-! ## Lines -/

theorem splitLines_column (c : UString) (hc : Column c) (s t : UString) (ts : List UString) (ls : List (List UString)) (h : splitLines s = (t :: ts) :: ls) :
    splitLines (c ++ s) = ((c ++ t) :: ts) :: ls := by
  induction c with
  | nil => exact h
  | cons u c ih =>
    obtain ⟨h1, h2, h3⟩ := hc u (by simp)
    have := ih (fun v hv => hc v (by simp [hv]))
    rw [List.cons_append, splitLines, if_neg (by simp [h2, h3]), this]
    simp [h1]

theorem splitLines_line (cols : List UString) (hne : cols ≠ []) (hc : ∀ c ∈ cols, Column c) (s : UString) :
    splitLines (List.intercalate [0x09] cols ++ 0x0a :: s) = cols :: splitLines s := by
  have nl : splitLines (0x0a :: s) = [[]] :: splitLines s := by rw [splitLines, if_pos (.inl rfl)]
  induction cols with
  | nil => exact absurd rfl hne
  | cons c cols ih =>
    cases cols with
    | nil =>
      have e : List.intercalate [0x09] [c] = c := by simp [List.intercalate]
      rw [e, splitLines_column c (hc c (by simp)) _ [] [] _ nl, List.append_nil]
    | cons d cols =>
      have e : List.intercalate [0x09] (c :: d :: cols) = c ++ (0x09 :: List.intercalate [0x09] (d :: cols)) := by
        simp [List.intercalate]
      have := ih (by simp) (fun x hx => hc x (by simp [hx]))
      rw [e, List.append_assoc, List.cons_append]
      refine (splitLines_column c (hc c (by simp)) _ [] (d :: cols) (splitLines s) ?_).trans (by rw [List.append_nil])
      rw [splitLines, if_neg (by decide), this]
      simp

theorem digits_column {ds : Digits} (h : ∀ d ∈ ds, d < 10) : Column ds.text := by
  intro u hu
  obtain ⟨d, hd, rfl⟩ := List.mem_map.1 hu
  have := h d hd
  have : d = 0 ∨ d = 1 ∨ d = 2 ∨ d = 3 ∨ d = 4 ∨ d = 5 ∨ d = 6 ∨ d = 7 ∨ d = 8 ∨ d = 9 := by omega
  rcases this with rfl | rfl | rfl | rfl | rfl | rfl | rfl | rfl | rfl | rfl <;> decide

/-- The columns of all lines; the empty line at the end comes from the last newline. -/
theorem splitLines_file (ls : List Line) (h : ∀ l ∈ ls, ∀ c ∈ l.columns, Column c) : splitLines (fileText ls) = ls.map Line.columns ++ [[[]]] := by
  induction ls with
  | nil => rfl
  | cons l ls ih =>
    have e : fileText (l :: ls) = List.intercalate [0x09] l.columns ++ 0x0a :: fileText ls := by simp [fileText, Line.text]
    have hne : l.columns ≠ [] := by
      cases l with
      | blank => simp [Line.columns]
      | sep => simp [Line.columns]
      | row r => cases r <;> simp [Line.columns, Row.columns]
    rw [e, splitLines_line _ hne (h l (by simp)), ih (fun x hx => h x (by simp [hx]))]
    rfl

/-! ## Symbols -/

theorem toNat_ofNat_lt {n : Nat} (h : n < 65536) : (UInt16.ofNat n).toNat = n := by
  rw [UInt16.toNat_ofNat']; omega

theorem utf16_head {c : Nat} (h : Scalar c) : ∃ u s, utf16 c = u :: s ∧ ¬ (0xdc00 ≤ u ∧ u < 0xe000) := by
  unfold utf16
  rcases Nat.lt_or_ge c 0x10000 with h1 | h1
  · refine ⟨_, _, by rw [if_pos h1], ?_⟩
    simp only [UInt16.le_iff_toNat_le, UInt16.lt_iff_toNat_lt, toNat_ofNat_lt h1]
    rintro ⟨h2, h3⟩
    have e1 : (0xdc00 : UInt16).toNat = 0xdc00 := rfl
    have e2 : (0xe000 : UInt16).toNat = 0xe000 := rfl
    rcases h with h | h <;> omega
  · refine ⟨_, _, by rw [if_neg (by omega)], ?_⟩
    have hc : c < 0x110000 := by rcases h with h | h <;> omega
    simp only [UInt16.le_iff_toNat_le, UInt16.lt_iff_toNat_lt]
    rw [toNat_ofNat_lt (by omega)]
    have e1 : (0xdc00 : UInt16).toNat = 0xdc00 := rfl
    omega

theorem enc_head {cs : List Nat} (h : ∀ c ∈ cs, Scalar c) : enc cs = [] ∨ ∃ u s, enc cs = u :: s ∧ ¬ (0xdc00 ≤ u ∧ u < 0xe000) := by
  cases cs with
  | nil => exact .inl rfl
  | cons c cs =>
    obtain ⟨u, s, e, h1⟩ := utf16_head (h c (by simp))
    exact .inr ⟨u, s ++ enc cs, by simp [enc, e], h1⟩

theorem codePoints_enc (cs : List Nat) (h : ∀ c ∈ cs, Scalar c) : codePoints (enc cs) = cs := by
  induction cs with
  | nil => rfl
  | cons c cs ih =>
    have ih := ih fun x hx => h x (by simp [hx])
    have hc := h c (by simp)
    have hh := enc_head (cs := cs) fun x hx => h x (by simp [hx])
    have e : enc (c :: cs) = utf16 c ++ enc cs := by simp [enc]
    rw [e]
    unfold utf16
    by_cases h1 : c < 0x10000
    · rw [if_pos h1]
      have hn := toNat_ofNat_lt h1
      rcases hh with hh | ⟨u, s, e1, h2⟩
      · rw [hh] at ih ⊢
        rw [List.singleton_append, codePoints, hn]
        rw [← ih]; rfl
      · rw [e1] at ih ⊢
        rw [List.singleton_append, codePoints, if_neg (by rintro ⟨_, _, h3, h4⟩; exact h2 ⟨h3, h4⟩), hn, ih]
    · rw [if_neg h1]
      have hc' : c < 0x110000 := by rcases hc with h | h <;> omega
      have e1 := toNat_ofNat_lt (n := 0xd800 + (c - 0x10000) / 1024) (by omega)
      have e2 := toNat_ofNat_lt (n := 0xdc00 + c % 1024) (by omega)
      have d1 : (0xd800 : UInt16).toNat = 0xd800 := rfl
      have d2 : (0xdc00 : UInt16).toNat = 0xdc00 := rfl
      have d3 : (0xe000 : UInt16).toNat = 0xe000 := rfl
      rw [List.cons_append, List.singleton_append, codePoints, if_pos]
      · rw [e1, e2, ih]
        congr 1
        omega
      · simp only [UInt16.le_iff_toNat_le, UInt16.lt_iff_toNat_lt, e1, e2, d1, d2, d3]
        omega

theorem isTag_iff (s : UString) : isTag s = true ↔ TagText s := by
  unfold isTag TagText
  simp only [Bool.and_eq_true, decide_eq_true_eq]
  constructor
  · rintro ⟨⟨h1, h2⟩, h3⟩
    cases s with
    | nil => cases h2
    | cons u s =>
      cases h2
      have hne : s ≠ [] := by rintro rfl; simp at h1
      rw [List.getLast?_cons, Option.some.injEq, ] at h3
      refine ⟨s.dropLast, ?_⟩
      congr 1
      conv => lhs; rw [← List.dropLast_append_getLast hne]
      rw [List.getLast?_eq_getLast_of_ne_nil hne] at h3
      simp only [Option.getD_some] at h3
      rw [h3]
  · rintro ⟨m, rfl⟩
    simp [List.getLast?_cons]

/-- The symbols as they are stored: no symbol is the empty one. -/
def cells (X : List Name) : List Name := if X = [] then [.letter 0] else X

/-- The symbols of a column and the way in which the compiler sees them. -/
theorem denotes_cases {hfst : Bool} {s : UString} {X : List Name} (h : Denotes hfst s X) :
    (convertHfst hfst s = [] ∧ X = []) ∨ (TagText (convertHfst hfst s) ∧ X = [.tag (convertHfst hfst s)]) ∨
    (∃ cs, convertHfst hfst s = enc cs ∧ cs ≠ [] ∧ (∀ c ∈ cs, Scalar c ∧ c ≠ 0) ∧ ¬ TagText (enc cs) ∧ X = cs.map fun (c : Nat) => .letter (c : Int)) := by
  cases h with
  | nothing => exact .inl ⟨by cases hfst <;> decide, rfl⟩
  | short => exact .inl ⟨by cases hfst <;> decide, rfl⟩
  | long => exact .inl ⟨by cases hfst <;> decide, rfl⟩
  | epsilon h => subst h; exact .inl ⟨by decide, rfl⟩
  | space =>
    have nt : ¬ TagText [0x20] := by rw [← isTag_iff]; decide
    exact .inr (.inr ⟨[0x20], by cases hfst <;> decide, by simp, by simp [Scalar], nt, by simp⟩)
  | tab =>
    have nt : ¬ TagText [0x09] := by rw [← isTag_iff]; decide
    exact .inr (.inr ⟨[0x09], by cases hfst <;> decide, by simp, by simp [Scalar], nt, by simp⟩)
  | tag h =>
    have e : convertHfst hfst s = s := by
      obtain ⟨m, rfl⟩ := h
      unfold convertHfst
      rw [if_neg, if_neg, if_neg]
      · simp [HFST_TAB_SYMBOL]
      · simp [HFST_SPACE_SYMBOL]
      · simp [HFST_EPSILON_SYMBOL_LONG, HFST_EPSILON_SYMBOL_SHORT, LTTB_EPSILON_SYMBOL]
    exact .inr (.inl ⟨by rwa [e], by rw [e]⟩)
  | @text cs h1 h2 h3 h4 =>
    refine .inr (.inr ⟨cs, ?_, h1, h2, h4, rfl⟩)
    unfold reserved at h3
    unfold convertHfst
    rw [if_neg, if_neg, if_neg]
    · rintro e; exact h3 (by rw [e]; cases hfst <;> decide)
    · rintro e; exact h3 (by rw [e]; cases hfst <;> decide)
    · rintro (e | e | ⟨rfl, e⟩)
      · exact h3 (by rw [e]; cases hfst <;> decide)
      · exact h3 (by rw [e]; cases hfst <;> decide)
      · exact h3 (by rw [e]; decide)

/-- A column has one meaning. -/
theorem Denotes.unique {hfst : Bool} {s : UString} {X Y : List Name} (h : Denotes hfst s X) (h' : Denotes hfst s Y) : X = Y := by
  have ne : ∀ cs : List Nat, cs ≠ [] → enc cs ≠ [] := by
    intro cs h
    cases cs with
    | nil => exact absurd rfl h
    | cons c cs =>
      have : utf16 c ≠ [] := by unfold utf16; split <;> simp
      simp [enc, this]
  have nt : ¬ TagText [] := by rw [← isTag_iff]; decide
  rcases denotes_cases h with ⟨h1, rfl⟩ | ⟨h1, rfl⟩ | ⟨cs, h1, h2, h3, h4, rfl⟩ <;>
    rcases denotes_cases h' with ⟨g1, rfl⟩ | ⟨g1, rfl⟩ | ⟨ds, g1, g2, g3, g4, rfl⟩
  · rfl
  · rw [h1] at g1; exact absurd g1 nt
  · exact absurd (g1.symm.trans h1) (ne _ g2)
  · rw [g1] at h1; exact absurd h1 nt
  · rfl
  · exact absurd (g1 ▸ h1) g4
  · exact absurd (h1.symm.trans g1) (ne _ h2)
  · exact absurd (h1 ▸ g1) h4
  · have := congrArg codePoints (h1.symm.trans g1)
    rw [codePoints_enc _ fun c hc => (h3 c hc).1, codePoints_enc _ fun c hc => (g3 c hc).1] at this
    rw [this]

theorem Denotes.letters {hfst : Bool} {s : UString} {X : List Name} (h : Denotes hfst s X) : Name.letter 0 ∉ X := by
  rcases denotes_cases h with ⟨_, rfl⟩ | ⟨_, rfl⟩ | ⟨cs, _, _, h3, _, rfl⟩
  · simp
  · simp
  · intro hm
    obtain ⟨c, hc, e⟩ := List.mem_map.1 hm
    have : (c : Int) = 0 := by injection e
    exact (h3 c hc).2 (by omega)

theorem filter_cells {X : List Name} (h : Name.letter 0 ∉ X) : (cells X).filter (· ≠ .letter 0) = X := by
  unfold cells
  split
  · next e => subst e; simp
  · rw [List.filter_eq_self]
    intro a ha
    simp only [ne_eq, decide_not, Bool.not_eq_eq_eq_not, Bool.not_true, decide_eq_false_iff_not]
    rintro rfl; exact h ha

end Verif.Att
