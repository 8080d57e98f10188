import Verif.Att.Model

/-!
# Model of `lt-print` (`lttoolbox/lt_print.cc`) and `Transducer::show`

The output is given as UTF-16 text. `u_fprintf` writes numbers as the locale of the program says; here state numbers are written in base ten with the
digits 0 to 9, and the way in which `%f` writes weights is an argument.
-/

namespace Verif.Print

open Verif.Fst Verif.Att

variable {W : Type}

/-- The last digits of a number in base ten, not more than `k + 1`. -/
def digitsLoop : (k : Nat) → Nat → List Nat
  | 0, n => [n]
  | k + 1, n => if n < 10 then [n] else digitsLoop k (n / 10) ++ [n % 10]

/-- The digits of a number in base ten: there are no more than `n + 1`. -/
def digitsOf (n : Nat) : List Nat := digitsLoop n n

/-- `%d` for a number that is not negative. -/
def decimal (n : Nat) : UString := (digitsOf n).map fun d => UInt16.ofNat (0x30 + d)

/-- `Transducer::escapeSymbol` (transducer.cc:728-751). -/
def escapeSymbol (hfst : Bool) (symbol : UString) : UString :=
  if symbol = [] then (if hfst then HFST_EPSILON_SYMBOL_SHORT else LTTB_EPSILON_SYMBOL)
  else if hfst = true ∧ symbol = [0x20] then HFST_SPACE_SYMBOL
  else if hfst = true ∧ symbol = [0x09] then HFST_TAB_SYMBOL
  else symbol

/-- The text of a symbol in `show` (transducer.cc:762-768). `%S` gets `c_str()`, so it ends before a null unit. -/
def column (a : Alphabet) (hfst : Bool) (sym : Int) : Res UString := do
  let s ← a.getSymbol sym
  .ok ((escapeSymbol hfst s).takeWhile (· ≠ 0))

/-- A line with an arc (transducer.cc:760-769). -/
def arcLine (fmt : W → UString) (a : Alphabet) (hfst : Bool) (q : Nat) (e : Int × (Nat × W)) : Res UString := do
  let p ← a.decode e.1
  let l ← column a hfst p.1
  let r ← column a hfst p.2
  .ok (decimal q ++ 0x09 :: (decimal e.2.1 ++ 0x09 :: (l ++ 0x09 :: (r ++ 0x09 :: (fmt e.2.2 ++ [0x0a])))))

/-- The loop over the arcs of a state (transducer.cc:758-770). -/
def arcLines (fmt : W → UString) (a : Alphabet) (hfst : Bool) (q : Nat) : List (Int × (Nat × W)) → Res UString
  | [] => .ok []
  | e :: es => do
    let s ← arcLine fmt a hfst q e
    let t ← arcLines fmt a hfst q es
    .ok (s ++ t)

/-- The loop over the states (transducer.cc:756-771). -/
def stateLines (fmt : W → UString) (a : Alphabet) (hfst : Bool) : List (Nat × List (Int × (Nat × W))) → Res UString
  | [] => .ok []
  | e :: es => do
    let s ← arcLines fmt a hfst e.1 e.2
    let t ← stateLines fmt a hfst es
    .ok (s ++ t)

/-- A line with a final state (transducer.cc:775). -/
def finalLine (fmt : W → UString) (e : Nat × W) : UString := decimal e.1 ++ 0x09 :: (fmt e.2 ++ [0x0a])

/-- `Transducer::show` (transducer.cc:753-777). -/
def showText (fmt : W → UString) (a : Alphabet) (hfst : Bool) (t : Transducer W) : Res UString := do
  let s ← stateLines fmt a hfst t.transitions
  .ok (s ++ t.finals.flatMap (finalLine fmt))

/-- The loop of `main` over the transducers of a file (lt_print.cc:56-64). -/
def printLoop [Zero W] (fmt : W → UString) (a : Alphabet) (hfst : Bool) : (first : Bool) → List (UString × Transducer W) → Res UString
  | _, [] => .ok []
  | first, e :: es => do
    let t ← joinFinals 0 e.2
    let s ← showText fmt a hfst t
    let r ← printLoop fmt a hfst false es
    .ok ((if first then [] else [0x2d, 0x2d, 0x0a]) ++ (s ++ r))

/-- `lt-print` without `-a` (lt_print.cc:55-65), given what `readTransducerSet` returns (`Verif.BinIO.readSet`). -/
def printSet [Zero W] (fmt : W → UString) (hfst : Bool) (a : Alphabet) (ts : List (UString × Transducer W)) : Res UString := printLoop fmt a hfst true ts

end Verif.Print
