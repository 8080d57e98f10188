import Verif.TmProc.Spec

/-!
# What `lt-tmxproc` should write, given the units of a translation memory

As in `Spec.lean`, but the memory is a relation between sources and targets: no transducer, graph or file is mentioned. `R o m` says that the source `o` is stored
with the target `m`.
-/

namespace Verif.TmProc

open Verif.Stream
open Verif.Tmx (reference charText)

/-- The options without a memory. -/
def bare (ch : Chars) (sp : Bool) : Setting Unit := ⟨ch, fun _ _ => none, 0, [], .empty, [], sp⟩

/-- The symbol `z` of a source is read for the symbol `x` of the text: as it is, or as the lower-case letter of an upper-case letter. -/
def Sees (ch : Chars) (x z : Int) : Prop := x ≠ 0 ∧ (z = x ∨ (ch.isUpper x = true ∧ z = ch.toLower x))

/-- A source begins with `xs`. -/
def Begun (ch : Chars) (R : List Int → List Int → Prop) (xs : List Int) : Prop :=
  xs = [] ∨ ∃ o m, R o m ∧ ∃ o1, o1 <+: o ∧ List.Forall₂ (Sees ch) xs o1

/-- This unit has the source `xs`. -/
def Found (ch : Chars) (R : List Int → List Int → Prop) (xs o m : List Int) : Prop := R o m ∧ List.Forall₂ (Sees ch) xs o

/-- The text for a stored target, with these numbers and blanks, and the blanks that are left: each reference is replaced by the number that it names, each mark by
the inside of the next blank, or a space when there is none. -/
inductive Voiced (numbers : List UString) : List Int → List UString → UString → List UString → Prop where
  | nil {q : List UString} : Voiced numbers [] q [] q
  | sym {c : Int} {m : List Int} {t : UString} {q q' : List UString} : Tmx.Open c → Voiced numbers m q t q' → Voiced numbers (c :: m) q (charText c ++ t) q'
  | ref {k : Nat} {m : List Int} {n t : UString} {q q' : List UString} : numbers[k]? = some n → k + 1 < 2 ^ 31 → Voiced numbers m q t q' →
      Voiced numbers (reference (k + 1) ++ m) q (n ++ t) q'
  | space {m : List Int} {t : UString} {q' : List UString} : Voiced numbers m [] t q' → Voiced numbers (0x28 :: 0x23 :: 0x29 :: m) [] (0x20 :: t) q'
  | blank {x y : UInt16} {b : UString} {m : List Int} {t : UString} {q q' : List UString} : Voiced numbers m q t q' →
      Voiced numbers (0x28 :: 0x23 :: 0x29 :: m) ((x :: b ++ [y]) :: q) (b ++ t) q'

/-- What is written for a text. -/
inductive Tells (ch : Chars) (sp : Bool) (R : List Int → List Int → Prop) : List Token → UString → Prop where
  | nil : Tells ch sp R [] []
  /-- A space or a punctuation mark that begins no source is copied. -/
  | gap {t : Token} {rest : List Token} {out : UString} : Break (bare ch sp) t → ¬ Begun ch R (vals [t]) → Tells ch sp R rest out →
      Tells ch sp R (t :: rest) (t.alone ++ out)
  /-- The source of one unit, before a stop, is replaced by the target of the unit, in brackets. -/
  | segment {cs rest : List Token} {t : Token} {o m : List Int} {txt out : UString} : Found ch R (vals cs) o m →
      (∀ o' m', Found ch R (vals cs) o' m' → o' = o ∧ m' = m) → Stop (bare ch sp) t.val → ¬ Begun ch R (vals (cs ++ [t])) →
      Voiced (numbersOf cs) m (blanksOf (cs ++ [t])) txt (blanksOf [t]) → txt ≠ [] → 0 ∉ txt → Tells ch sp R (t :: rest) out →
      Tells ch sp R (cs ++ t :: rest) (0x5b :: txt ++ [0x5d] ++ out)
  /-- What is only the beginning of a source, or a source not before a stop, is copied. -/
  | part {cs rest : List Token} {t : Token} {out : UString} : cs ≠ [] → Begun ch R (vals cs) → ¬ ((∃ o m, Found ch R (vals cs) o m) ∧ Stop (bare ch sp) t.val) →
      Break (bare ch sp) t → ¬ Begun ch R (vals (cs ++ [t])) → Tells ch sp R (t :: rest) out → Tells ch sp R (cs ++ t :: rest) (copy cs ++ out)
  /-- Where no source goes on, the text is copied up to the end of the word. -/
  | word {pre ws rest : List Token} {w t : Token} {out : UString} : Begun ch R (vals pre) → ¬ Begun ch R (vals (pre ++ [w])) →
      (∀ x ∈ w :: ws, ¬ Break (bare ch sp) x) → Break (bare ch sp) t → Tells ch sp R (t :: rest) out →
      Tells ch sp R (pre ++ w :: ws ++ t :: rest) (copy (pre ++ w :: ws) ++ out)
  /-- So too if the text ends there, without numbers and blanks in the last piece. -/
  | final {pre ws : List Token} {w : Token} : Begun ch R (vals pre) → ¬ Begun ch R (vals (pre ++ [w])) → (∀ x ∈ w :: ws, ¬ Break (bare ch sp) x) →
      numbersOf (pre ++ w :: ws) = [] → blanksOf (pre ++ w :: ws) = [] → Tells ch sp R (pre ++ w :: ws) (copy (pre ++ w :: ws))

/-- What is taken for granted about ICU's tables. -/
structure Tables (ch : Chars) : Prop where
  digits : ∀ d : Nat, 0x30 ≤ d → d ≤ 0x39 → ch.isDigit d = true
  notDigit : ch.isDigit '\\'.toNat = false ∧ ch.isDigit '['.toNat = false
  nul : ch.isDigit 0 = false
  space : ch.isSpace 0x20 = true
  notUpper : ∀ c, ch.isSpace c = true → ch.isUpper c = false
  tag : ch.isSpace (-1) = false ∧ ch.isPunct (-1) = false
  lowerZero : ∀ c, ch.toLower c = 0 → c = 0

/-- No source begins with a space, and none goes on after another source with a symbol before which that may end. -/
structure Neat (ch : Chars) (sp : Bool) (R : List Int → List Int → Prop) : Prop where
  start : ∀ x o m, R (x :: o) m → ch.isSpace x = false
  longer : ∀ xs x o m, Found ch R xs o m → Stop (bare ch sp) x → ¬ Begun ch R (xs ++ [x])

end Verif.TmProc
