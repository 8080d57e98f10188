import Verif.Tmx.Said
import Verif.Trim.Demo

/-! # Examples for C88 and C89 -/

namespace Verif.Tmx

open Verif.Fst Verif.Tools
open Verif.Compression (Dbl)

variable {ch : Chars}

theorem leads_end {d : List Int} (h : IsNumber ch d) : Leads ch d [] := by
  refine ⟨h, ?_⟩
  intro e s he _
  have := congrArg List.length he
  simp at this
  omega

theorem leads_stop {d r : List Int} {c : Int} (h : IsNumber ch d) (hc : ch.isDigit c = false ∧ c ≠ 0x2e ∧ c ≠ 0x2c) : Leads ch d (c :: r) := by
  refine ⟨h, ?_⟩
  intro e s he h'
  by_contra hlt
  have : c ∈ e := by
    rw [List.append_eq_append_iff] at he
    rcases he with ⟨x, rfl, h2⟩ | ⟨x, rfl, h2⟩
    · cases x with
      | nil => simp at hlt
      | cons y x => cases h2; simp
    · simp at hlt
  rcases h'.2.2 c this with h1 | h1 | h1
  · rw [hc.1] at h1; cases h1
  · exact hc.2.1 h1
  · exact hc.2.2 h1

theorem numbers_length {v : List Int} {its : List Item} (h : Items ch v its) : (numbers its).length ≤ v.length := by
  induction h with
  | nil => simp [numbers]
  | sym _ _ ih => simp [numbers]; omega
  | num hl _ ih =>
    obtain ⟨c, d, rfl, -⟩ := leads_cons hl
    simp [numbers]; omega

/-- A text of fewer than 10^8 symbols has few numbers. -/
theorem few_short {v : List Int} (h : v.length < 10 ^ 8) : Few ch v := fun _ hi => lt_of_le_of_lt (numbers_length hi) h

/-- `ab 12` -/
def src : List Int := [0x61, 0x62, 0x20, 0x31, 0x32]
/-- `12 x,12` -/
def tgt : List Int := [0x31, 0x32, 0x20, 0x78, 0x2c, 0x31, 0x32]
/-- `xyz 34` -/
def other : List Int := [0x78, 0x79, 0x7a, 0x20, 0x33, 0x34]

theorem number12 : IsNumber ascii [0x31, 0x32] := ⟨⟨_, _, rfl, by decide⟩, ⟨[0x31], _, rfl, by decide⟩, by decide⟩
theorem number34 : IsNumber ascii [0x33, 0x34] := ⟨⟨_, _, rfl, by decide⟩, ⟨[0x33], _, rfl, by decide⟩, by decide⟩

def srcItems : List Item := [.sym 0x61, .sym 0x62, .sym 0x20, .num [0x31, 0x32]]
def tgtItems : List Item := [.num [0x31, 0x32], .sym 0x20, .sym 0x78, .sym 0x2c, .num [0x31, 0x32]]

theorem src_items : Items ascii src srcItems :=
  .sym (by decide) (.sym (by decide) (.sym (by decide) (.num (leads_end number12) .nil)))

theorem tgt_items : Items ascii tgt tgtItems :=
  .num (d := [0x31, 0x32]) (leads_stop number12 (by decide)) (.sym (by decide) (.sym (by decide) (.sym (by decide) (.num (leads_end number12) .nil))))

theorem other_items : Items ascii other ([.sym 0x78, .sym 0x79, .sym 0x7a, .sym 0x20] ++ .num [0x33, 0x34] :: []) :=
  .sym (by decide) (.sym (by decide) (.sym (by decide) (.sym (by decide) (.num (leads_end number34) .nil))))

-- both numbers of the target become references to the number of the source
example : Items ascii src srcItems ∧ Items ascii tgt tgtItems ∧ (∀ d ∈ numbers tgtItems, d ∈ numbers srcItems) ∧ Few ascii src ∧
    align ascii src tgt = .ok ([0x61, 0x62, 0x20, -1], reference 1 ++ [0x20, 0x78, 0x2c] ++ reference 1) :=
  ⟨src_items, tgt_items, by decide, few_short (by decide), by decide +kernel⟩

-- 34 is no number of the source, and four symbols stand before it
example : Items ascii src srcItems ∧ Items ascii other ([.sym 0x78, .sym 0x79, .sym 0x7a, .sym 0x20] ++ .num [0x33, 0x34] :: []) ∧
    [0x33, 0x34] ∉ numbers srcItems ∧ ([0x33, 0x34] : List Int).length ≤ (plain [.sym 0x78, .sym 0x79, .sym 0x7a, .sym 0x20]).length :=
  ⟨src_items, other_items, by decide, by decide⟩

/-! ## A memory -/

def en : UString := [0x65, 0x6e]
def es : UString := [0x65, 0x73]

/-- ` ab 12` for `12 x,12`, in two variants; and a unit that is too short. -/
def memory : List (List Tuv) := [[(en, [0x20, 0x61, 0x62, -2]), (es, tgt), (en, [0x20, 0x31, 0x32, 0x63])], [(en, src), (es, [0x61])]]

theorem memory_proper : ∀ vs ∈ memory, Proper ascii en es vs := by
  intro vs hv
  have hfew : ∀ o, Trimmed ascii (texts en vs) o → Few ascii o := by
    rintro o ⟨a, b, h, -⟩
    apply few_short
    have := congrArg List.length h
    simp only [List.length_append] at this
    simp only [memory, List.mem_cons, List.not_mem_nil, or_false] at hv
    have : (texts en vs).length < 10 ^ 8 := by rcases hv with rfl | rfl <;> decide
    omega
  refine ⟨?_, ?_, hfew⟩ <;>
  · simp only [memory, List.mem_cons, List.not_mem_nil, or_false] at hv
    unfold Char
    rcases hv with rfl | rfl <;> decide

def fitsCheck {W : Type} : Res (Alphabet × Transducer W) → Bool
  | .ok (a, t) => a.spairinv.length < 2 ^ 30 && (decide (Fst.size t < 2 ^ 30) && t.transitions.all fun e => decide (e.2.length < 2 ^ 30))
  | _ => true

theorem fits_of_check {W : Type} {r : Res (Alphabet × Transducer W)} (h : fitsCheck r = true) : Fits r := by
  rintro a t rfl
  simp only [fitsCheck, Bool.and_eq_true, decide_eq_true_eq, List.all_eq_true] at h
  exact ⟨h.1, h.2.1, h.2.2⟩

-- `ab <n>c` for `@(1) x,@(1)`: only this unit is stored
example : (∀ vs ∈ memory, Proper ascii en es vs) ∧ Fits (parse ascii Nat en es memory) ∧ (∀ w : Nat, Kept ((fun _ : Nat => (0 : Dbl)) w)) ∧
    Remembers ascii en es memory [0x61, 0x62, 0x20, -1, 0x63] (reference 1 ++ [0x20, 0x78, 0x2c] ++ reference 1) := by
  refine ⟨memory_proper, fits_of_check (by decide +kernel), Trim.kept_demo, _, List.mem_cons_self .., ?_, by decide, by decide⟩
  rw [normal_iff (few_short (by decide +kernel))]
  exact ⟨[0x61, 0x62, -2, 0x20, -1, 0x63], reference 1 ++ [0x20, 0x78, 0x2c] ++ reference 1, by decide +kernel, by decide +kernel⟩

/-! ## Output -/

theorem ascii_digits : Ascii ascii := by
  intro d hd
  simp only [ascii, decide_eq_true_eq]
  omega

-- the target `12 x,12` found with the number 7 gives `/7 x,7`
example : Ascii ascii ∧ Few ascii src ∧ Items ascii src srcItems ∧ align ascii src tgt = .ok (tagged srcItems, reference 1 ++ [0x20, 0x78, 0x2c] ++ reference 1) ∧
    (∀ c ∈ tgt, Open c) ∧ ([[0x37]] : List UString).length = (numbers srcItems).length ∧
    filterFinalsTM ascii .empty [reference 1 ++ [0x20, 0x78, 0x2c] ++ reference 1] [] [[0x37]] = .ok ([0x2f, 0x37, 0x20, 0x78, 0x2c, 0x37], []) := by
  refine ⟨ascii_digits, few_short (by decide), src_items, by decide +kernel, ?_, by decide, by decide +kernel⟩
  unfold Open
  decide

-- `a)b\@(1)c(#)d` with the number 7 and the blank `[<i>]`
example : Filled ascii [[0x37]] [([0x2f, 0x61], .paren), ([0x62], .num 1), ([0x63], .blank)] [0x64] [[0x5b, 0x3c, 0x69, 0x3e, 0x5d]]
    ([0x2f, 0x61] ++ [0x29] ++ ([0x62] ++ [0x37] ++ ([0x63] ++ [0x3c, 0x69, 0x3e] ++ [0x64]))) [] ∧
    finalsText .empty [[0x61, 0x29, 0x62] ++ reference 1 ++ [0x63, 0x28, 0x23, 0x29, 0x64]] =
      .ok (slotted [([0x2f, 0x61], .paren), ([0x62], .num 1), ([0x63], .blank)] [0x64]) := by
  refine ⟨.paren (by decide) ?_ ?_ (.num (k := 0) (by decide) rfl (by decide) (.blank (x := 0x5b) (b := [0x3c, 0x69, 0x3e]) (y := 0x5d) (by decide) (.last (by decide)))), by decide +kernel⟩
  · rintro (h | ⟨r, ds, h, -⟩)
    · exact absurd h (by decide)
    · have : (0x5c : UInt16) ∈ ([0x2f, 0x61] : UString) := by rw [h]; simp
      exact absurd this (by decide)
  · intro r ds e h
    have : (0x5c : UInt16) ∈ ([0x2f, 0x61] : UString) := by rw [h]; simp
    exact absurd this (by decide)

-- two targets
example : ∀ u ∈ [([Piece.ref 1, .sym 0x61], ([0x37, 0x61] : UString)), ([.sym 0x62], [0x62])], Spoken [[0x37]] u.1 u.2 ∧ ∀ c, Piece.sym c ∈ u.1 → Open c := by
  have h1 : Spoken [[0x37]] [Piece.ref 1, .sym 0x61] [0x37, 0x61] := .ref (k := 0) (n := [0x37]) rfl (.sym .nil)
  have h2 : Spoken [[0x37]] [.sym 0x62] [0x62] := .sym .nil
  intro u hu
  simp only [List.mem_cons, List.not_mem_nil, or_false] at hu
  rcases hu with rfl | rfl
  · exact ⟨h1, by simp [Open]⟩
  · exact ⟨h2, by simp [Open]⟩

end Verif.Tmx
