import Verif.Acx.Model
import Verif.Tools.Spec
import Verif.Data.Utf16

/-! # What a file of equivalent characters says -/

namespace Verif.Acx

open Verif.Fst
open Verif.Compression (Dbl)

/-- The attribute is there and is one character. -/
def Single (value : Option UString) (c : Nat) : Prop := c < 0x110000 ∧ value = some (utf16 c)

/-- The names of the elements: `char` and `equiv-char`. -/
def outer : UString := "char".toList.map fun c => c.toNat.toUInt16
def inner : UString := "equiv-char".toList.map fun c => c.toNat.toUInt16

/-- A file as it should be: `char` elements with one character each, and below them `equiv-char` elements with one character each. -/
def Good (root : List Node) : Prop :=
  ∀ c ∈ root, c.name = outer ∧ (∃ x, Single c.value x) ∧ ∀ e ∈ c.below, e.name = inner ∧ ∃ z, Single e.value z

/-- The file declares `z` below a `char` element for `x`. -/
def Declares (root : List Node) (x z : Nat) : Prop := ∃ c ∈ root, Single c.value x ∧ ∃ e ∈ c.below, Single e.value z

/-- The first `char` element for `x` with anything below it declares `z`. -/
def Effective (root : List Node) (x z : Nat) : Prop :=
  ∃ pre c post, root = pre ++ c :: post ∧ Single c.value x ∧ (∃ e ∈ c.below, Single e.value z) ∧ ∀ d ∈ pre, Single d.value x → d.below = []

/-- One pair of a path becomes another: the weight and the right side are the same, and the left side is the same or a letter that `E` allows in place
of it. -/
def Variant (E : Nat → Nat → Prop) (old new : (Name × Name) × Dbl) : Prop :=
  new.2 = old.2 ∧ new.1.2 = old.1.2 ∧ (new.1.1 = old.1.1 ∨ ∃ x z : Nat, old.1.1 = .letter x ∧ new.1.1 = .letter z ∧ E x z)

end Verif.Acx
