import Mathlib.Order.Defs.LinearOrder
import Mathlib.Order.Basic
import Mathlib.Data.List.Lex
import Mathlib.Data.Prod.Lex

/-!
# UTF-16 strings as map keys

`UString` is `std::basic_string<UChar>` (ustring.h:27): a list of 16-bit units. `std::less` compares code
units from the left.
-/

namespace Verif

instance : LinearOrder UInt16 where
  le_refl _ := Nat.le_refl _
  le_trans _ _ _ h₁ h₂ := Nat.le_trans h₁ h₂
  le_antisymm _ _ h₁ h₂ := UInt16.le_antisymm h₁ h₂
  le_total a b := UInt16.le_total a b
  lt_iff_le_not_ge a b := by
    show a.toNat < b.toNat ↔ a.toNat ≤ b.toNat ∧ ¬ b.toNat ≤ a.toNat
    omega
  toDecidableLE := inferInstance
  toDecidableLT := inferInstance

instance : LinearOrder UInt32 where
  le_refl _ := Nat.le_refl _
  le_trans _ _ _ h₁ h₂ := Nat.le_trans h₁ h₂
  le_antisymm _ _ h₁ h₂ := UInt32.le_antisymm h₁ h₂
  le_total a b := UInt32.le_total a b
  lt_iff_le_not_ge a b := by
    show a.toNat < b.toNat ↔ a.toNat ≤ b.toNat ∧ ¬ b.toNat ≤ a.toNat
    omega
  toDecidableLE := inferInstance
  toDecidableLT := inferInstance

/-- The order of strings, with the equality test and the comparison of the core library. -/
instance : LinearOrder (List UInt16) where
  toPartialOrder := (List.instLinearOrder (α := UInt16)).toPartialOrder
  le_total := (List.instLinearOrder (α := UInt16)).le_total
  toDecidableEq := instDecidableEqList
  toDecidableLT := fun a b => List.decidableLT a b
  toDecidableLE := (List.instLinearOrder (α := UInt16)).toDecidableLE
  compare a b := compareOfLessAndEq a b
  compare_eq_compareOfLessAndEq _ _ := rfl

/-- `UString` (ustring.h:27). -/
abbrev UString := List UInt16

end Verif
