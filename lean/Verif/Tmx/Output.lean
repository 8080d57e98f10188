import Verif.Tmx.Model
import Verif.Proc.Model

/-! # `State::filterFinalsTM` (state.cc:679-784)

The function is given the sequences of the final states that the state has, in their order. -/

namespace Verif.Tmx

open Verif.Proc (escapedCps)

variable (ch : Chars)

/-- The loop over a sequence (state.cc:692-699). -/
def sequenceText (a : Alphabet) : List Int → Res UString
  | [] => .ok []
  | c :: cs => do
    let s ← a.getSymbol c
    let r ← sequenceText a cs
    pure ((if c ∈ escapedCps then [0x5c] else []) ++ s ++ r)

/-- The loop over the states (state.cc:687-701). -/
def finalsText (a : Alphabet) : List (List Int) → Res UString
  | [] => .ok []
  | s :: ss => do
    let t ← sequenceText a s
    let r ← finalsText a ss
    pure (0x2f :: t ++ r)

/-- The fragments (state.cc:704-718): the first and the others. -/
def fragments : UString → UString × List UString
  | [] => ([], [])
  | c :: s =>
    let (f, fs) := fragments s
    if c = 0x29 then ([], f :: fs) else (c :: f, fs)

/-- The loop over the digits of a reference (state.cc:745-759), with `num` so far; `none` if something else is met. An overflow of `int` is undefined. -/
def refNumber (num : Int) : UString → Res (Option Int)
  | [] => .ok (some num)
  | c :: s =>
    if ch.isDigit c.toNat then
      let num' := num * 10 + (c.toNat - 48)
      if num' < 2 ^ 31 then refNumber num' s else .ub
    else .ok none

/-- The loop over `j` (state.cc:738-768), from `j - 1` downwards: the fragment with the number, or `none` for `substitute == false`. -/
def findRef (numbers : List UString) (s : UString) : Nat → Res (Option UString)
  | 0 => .ok none
  | j + 1 =>
    match s.drop j with
    | 0x5c :: 0x40 :: 0x28 :: d :: ds => do
      match ← refNumber ch 0 (d :: ds) with
      | some num =>
        if 0 < num then
          match numbers[(num - 1).toNat]? with
          | some n => pure (some (s.take j ++ n))
          | none => .ub
        else .ub
      | none => findRef numbers s j
    | _ => findRef numbers s j

/-- The space for `(#)` (state.cc:726-732), and the rest of the queue. `substr(1)` of an empty text throws. -/
def nextBlank : List UString → Res (UString × List UString)
  | [] => .ok ([0x20], [])
  | b :: q => if b.isEmpty then .exception else .ok ((b.drop 1).dropLast, q)

/-- The loop over the fragments (state.cc:720-781). -/
def fill (numbers : List UString) : UString → List UString → List UString → Res (UString × List UString)
  | f, [], q => .ok (f, q)
  | f, g :: gs, q =>
    if [0x28, 0x23] <:+ f then do
      let (w, q) ← nextBlank q
      let (r, q) ← fill numbers g gs q
      pure (f.dropLast.dropLast ++ w ++ r, q)
    else do
      let f' ← findRef ch numbers f f.length
      let (r, q) ← fill numbers g gs q
      pure (f'.getD (f ++ [0x29]) ++ r, q)

/-- `State::filterFinalsTM` (state.cc:679-784). -/
def filterFinalsTM (a : Alphabet) (seqs : List (List Int)) (q numbers : List UString) : Res (UString × List UString) := do
  let t ← finalsText a seqs
  fill ch numbers (fragments t).1 (fragments t).2 q

end Verif.Tmx
