import Verif.Compression.Lemmas
import Verif.Data.Units

/-! # UTF-16 -/

namespace Verif

/-- UTF-16: the units of a code point. -/
def utf16 (c : Nat) : UString :=
  if c < 0x10000 then [UInt16.ofNat c]
  else [UInt16.ofNat (0xd800 + (c - 0x10000) / 1024), UInt16.ofNat (0xdc00 + c % 1024)]

/-- A text in UTF-16. -/
def enc (cs : List Nat) : UString := cs.flatMap utf16

/-- Unicode scalar values. -/
def Scalar (c : Nat) : Prop := c < 0xd800 ∨ (0xe000 ≤ c ∧ c < 0x110000)

namespace Compression

theorem unitsOf_utf16 (n : Nat) (h : n < 2 ^ 31) : unitsOf (UInt32.ofNat n) = utf16 n := by
  have hn : (UInt32.ofNat n).toNat = n := by rw [UInt32.toNat_ofNat']; omega
  unfold unitsOf utf16
  by_cases h1 : n < 0x10000
  · rw [if_pos (.inl (by rw [UInt32.le_iff_toNat_le, hn]; exact Nat.le_of_lt_succ h1)), if_pos h1]
    congr 1
    apply UInt16.toNat_inj.1
    rw [UInt32.toNat_toUInt16, hn, UInt16.toNat_ofNat']
  · rw [if_neg (by
      simp only [UInt32.le_iff_toNat_le, hn]
      have e1 : (0xFFFF : UInt32).toNat = 65535 := rfl
      have e2 : (0x80000000 : UInt32).toNat = 2147483648 := rfl
      omega), if_neg h1]
    have e1 : ((UInt32.ofNat n) - 0x10000).toNat = n - 0x10000 := by
      rw [UInt32.toNat_sub_of_le _ _ (by rw [UInt32.le_iff_toNat_le, hn]; exact Nat.le_of_not_lt h1), hn]
      rfl
    congr 1
    · apply UInt16.toNat_inj.1
      rw [UInt32.toNat_toUInt16, UInt32.toNat_add, UInt32.toNat_shiftRight, e1, UInt16.toNat_ofNat']
      have e3 : (0xD800 : UInt32).toNat = 0xd800 := rfl
      have e4 : (10 : UInt32).toNat % 32 = 10 := rfl
      rw [e3, e4, Nat.shiftRight_eq_div_pow]
      omega
    · congr 1
      apply UInt16.toNat_inj.1
      rw [UInt32.toNat_toUInt16, UInt32.toNat_add, UInt32.toNat_and, hn, UInt16.toNat_ofNat']
      have e3 : (0xDC00 : UInt32).toNat = 0xdc00 := rfl
      have e4 : (0x3FF : UInt32).toNat = 2 ^ 10 - 1 := rfl
      rw [e3, e4, Nat.and_two_pow_sub_one_eq_mod]
      omega

end Compression

end Verif
