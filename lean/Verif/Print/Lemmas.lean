import Verif.Print.Spec
import Verif.Att.Text
import Verif.Transducer.Ops

/-! # Lemmas about `lt-print` -/

namespace Verif.Print

open Verif.Fst Verif.Att Verif.Alphabet

variable {W : Type}

/-! ## Numbers -/

theorem digitsLoop_ok (k n : Nat) (h : n ≤ k) : Digits.WF (digitsLoop k n) ∧ Digits.value (digitsLoop k n) = n := by
  induction k generalizing n with
  | zero =>
    obtain rfl : n = 0 := by omega
    exact ⟨⟨by simp [digitsLoop], by simp [digitsLoop]⟩, rfl⟩
  | succ k ih =>
    rw [digitsLoop]
    split
    · next h => exact ⟨⟨by simp, by simpa using h⟩, by simp [Digits.value]⟩
    · next h =>
      have := ih (n / 10) (by omega)
      refine ⟨⟨by simp, fun d hd => ?_⟩, ?_⟩
      · rcases List.mem_append.1 hd with hd | hd
        · exact this.1.2 d hd
        · rw [List.mem_singleton] at hd
          omega
      · have := this.2
        rw [Digits.value] at this ⊢
        rw [List.foldl_append, this]
        simp only [List.foldl_cons, List.foldl_nil]
        omega

theorem digitsOf_wf (n : Nat) : Digits.WF (digitsOf n) := (digitsLoop_ok n n (Nat.le_refl n)).1

theorem digitsOf_value (n : Nat) : Digits.value (digitsOf n) = n := (digitsLoop_ok n n (Nat.le_refl n)).2

theorem decimal_eq (n : Nat) : decimal n = Digits.text (digitsOf n) := rfl

theorem decimal_column (n : Nat) : Column (decimal n) := by
  intro u hu
  obtain ⟨d, hd, rfl⟩ := List.mem_map.1 hu
  have := (digitsOf_wf n).2 d hd
  have h : ∀ d < 10, UInt16.ofNat (48 + d) ≠ 9 ∧ UInt16.ofNat (48 + d) ≠ 10 ∧ UInt16.ofNat (48 + d) ≠ 65535 := by decide
  exact h d this

/-! ## Symbols -/

/-- The symbols that a column stands for. -/
def seen (n : Name) : List Name := if n = .letter 0 then [] else [n]

theorem takeWhile_of {s : UString} (h : (0 : UInt16) ∉ s) : s.takeWhile (· ≠ 0) = s := by
  induction s with
  | nil => rfl
  | cons u s ih =>
    have hu : u ≠ 0 := fun e => h (by simp [e])
    rw [List.takeWhile_cons_of_pos (by simpa using hu), ih fun e => h (by simp [e])]

theorem utf16_ne (c : Nat) : utf16 c ≠ [] := by unfold utf16; split <;> simp

theorem utf16_inj {c d : Nat} (hc : Scalar c) (hd : Scalar d) (h : utf16 c = utf16 d) : c = d := by
  have := congrArg codePoints (show enc [c] = enc [d] by simpa [enc] using h)
  rw [codePoints_enc _ (by simpa using hc), codePoints_enc _ (by simpa using hd)] at this
  simpa using this

theorem utf16_small {c : Nat} (h : c < 0x10000) : utf16 c = [UInt16.ofNat c] := by rw [utf16, if_pos h]

theorem utf16_units {c : Nat} (hc : Scalar c) {v : UInt16} (hv : v.toNat < 0xd800 ∨ 0xe000 ≤ v.toNat) (h : c ≠ v.toNat) : v ∉ utf16 c := by
  intro hm
  unfold utf16 at hm
  split at hm
  · rw [List.mem_singleton] at hm
    apply h
    rw [hm, UInt16.toNat_ofNat']
    omega
  · have : c < 0x110000 := by rcases hc with h | h <;> omega
    simp only [List.mem_cons, List.not_mem_nil, or_false] at hm
    rcases hm with hm | hm <;>
    · rw [hm, UInt16.toNat_ofNat'] at hv
      omega

theorem column_ok {a : Alphabet} {hfst : Bool} {x : Int} {n : Name} (hn : Named a x n) (hw : Writable hfst n) :
    ∃ s, column a hfst x = .ok s ∧ Denotes hfst s (seen n) ∧ Column s := by
  have nocol : ∀ c : Nat, Scalar c → c ≠ 0x0a → c ≠ 0xffff → c ≠ 0x09 → Column (utf16 c) := by
    intro c hs h1 h2 h3 u hu
    refine ⟨?_, ?_, ?_⟩ <;> rintro rfl
    · exact utf16_units (v := 0x09) hs (by decide) (by simpa using h3) hu
    · exact utf16_units (v := 0x0a) hs (by decide) (by simpa using h1) hu
    · exact utf16_units (v := 0xffff) hs (by decide) (by simpa using h2) hu
  rcases hn with ⟨h0, rfl⟩ | ⟨h0, s, hs, rfl⟩
  · by_cases hx : x = 0
    · subst hx
      refine ⟨if hfst then str "@0@" else str "ε", ?_, ?_, ?_⟩
      · cases hfst <;> rfl
      · cases hfst
        · exact .epsilon rfl
        · exact .short
      · unfold Column
        cases hfst <;> decide
    · rcases hw with hw | ⟨c, rfl, hc, h1, h2, h3⟩
      · exact absurd hw hx
      have hc0 : c ≠ 0 := by simpa using hx
      have hlt : c < 2 ^ 31 := by rcases hc with h | h <;> omega
      have eg : a.getSymbol c = .ok (utf16 c) := by
        rw [getSymbol, if_neg (by omega), if_neg (by omega), Int.toNat_natCast, Compression.unitsOf_utf16 _ hlt]
      have hz : (0 : UInt16) ∉ utf16 c := utf16_units hc (by decide) (by simpa using hc0)
      have es : seen (.letter c) = [.letter (c : Int)] := if_neg (by simpa using hc0)
      rw [es]
      simp only [column, eg, Res.bind_ok]
      by_cases hsp : hfst = true ∧ c = 0x20
      · obtain ⟨rfl, rfl⟩ := hsp
        exact ⟨str "@_SPACE_@", by decide, .space, by unfold Column; decide⟩
      by_cases htb : hfst = true ∧ c = 0x09
      · obtain ⟨rfl, rfl⟩ := htb
        exact ⟨str "@_TAB_@", by decide, .tab, by unfold Column; decide⟩
      have ee : escapeSymbol hfst (utf16 c) = utf16 c := by
        unfold escapeSymbol
        rw [if_neg (utf16_ne c), if_neg, if_neg]
        · rintro ⟨rfl, h⟩
          exact htb ⟨rfl, utf16_inj hc (by simp [Scalar]) (h.trans (utf16_small (c := 0x09) (by decide)).symm)⟩
        · rintro ⟨rfl, h⟩
          exact hsp ⟨rfl, utf16_inj hc (by simp [Scalar]) (h.trans (utf16_small (c := 0x20) (by decide)).symm)⟩
      have h9 : c ≠ 0x09 := by
        rintro rfl
        cases hfst
        · exact (h3 rfl).1 rfl
        · exact htb ⟨rfl, rfl⟩
      refine ⟨utf16 c, by rw [ee, takeWhile_of hz], ?_, nocol c hc h1 h2 h9⟩
      have e1 : utf16 c = enc [c] := by simp [enc]
      have hlen : (utf16 c).length ≤ 2 := by unfold utf16; split <;> simp
      rw [e1]
      refine .text (cs := [c]) (by simp) (by simpa using ⟨hc, hc0⟩) ?_ ?_
      · intro hm
        rw [← e1] at hm
        cases hfst with
        | true =>
          simp only [reserved, if_true, List.append_nil, List.mem_cons, List.not_mem_nil, or_false] at hm
          rcases hm with h | h | h | h <;> (rw [h] at hlen; revert hlen; decide)
        | false =>
          simp only [reserved, Bool.false_eq_true, if_false, List.cons_append, List.nil_append, List.mem_cons, List.not_mem_nil, or_false] at hm
          rcases hm with h | h | h | h | h
          any_goals (rw [h] at hlen; revert hlen; decide)
          exact (h3 rfl).2 (utf16_inj hc (by simp [Scalar]) (h.trans (by decide)))
      · rintro ⟨m, hm⟩
        rw [← e1] at hm
        unfold utf16 at hm
        split at hm
        · simp at hm
        · have : c < 0x110000 := by rcases hc with h | h <;> omega
          have h1 := congrArg UInt16.toNat (List.cons.inj hm).1
          rw [UInt16.toNat_ofNat'] at h1
          simp at h1
          omega
  · obtain ⟨h1, h2, h3⟩ := hw
    have es : seen (.tag s) = [.tag s] := if_neg (by simp)
    have eg : a.getSymbol x = .ok s := by rw [getSymbol, if_neg (by omega), if_pos h0, hs]
    refine ⟨s, ?_, es ▸ .tag h1, h2⟩
    simp only [column, eg, Res.bind_ok]
    obtain ⟨m, rfl⟩ := h1
    have ee : escapeSymbol hfst (0x3c :: (m ++ [0x3e])) = 0x3c :: (m ++ [0x3e]) := by
      unfold escapeSymbol
      rw [if_neg (by simp), if_neg (by simp), if_neg (by simp)]
    rw [ee, takeWhile_of h3]

end Verif.Print
