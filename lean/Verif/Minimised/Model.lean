import Verif.Tools.Model
import Verif.Transducer.Model

/-!
# Model of `lt-restrict -m`

The rest of `lt-restrict` is in `Tools.Model`. `Transducer::minimize` compares weights; the order of the weights is a parameter here, and the code has that of
`double`.
-/

namespace Verif.Minimised

open Verif.Fst Verif.Tools
open Verif.Compression (Dbl)

/-- Whether lt-restrict minimises (lt_restrict.cc:97-101): the option, or the variable `LT_RELEASE` if it is set and does not begin with `n`. -/
def wanted (option : Bool) (release : Option (List UInt8)) : Bool :=
  option || match release with
    | none => false
    | some s => s.head? ≠ some 0x6e

section
variable {W : Type} [LinearOrder W] [Zero W]

/-- One turn of the last loop (lt_restrict.cc:104-111) with `minimize`. -/
def restrictMin (rl : Bool) (keep drop : List Int) (a : Alphabet) (t : Transducer W) : Res (Alphabet × Transducer W) := do
  let (a, t) ← restrictOne rl keep drop a t
  let t ← minimize 0 t
  pure (a, t)

/-- `main` of lt-restrict between reading and writing (lt_restrict.cc:62-112) with `-m`. -/
def restrictAllMin (ch : Choice) (a : Alphabet) (ts : List (UString × Transducer W)) : Res (Alphabet × List (UString × Transducer W)) := do
  let (a, keep) := chosenSymbols ch a
  let (a, keep, drop) ← sortMarks (!ch.vars.isEmpty) a.size 1 (a, keep, [])
  eachSection (restrictMin (ch.dir = RL) keep drop) ts a

end

/-- `main` of lt-restrict (lt_restrict.cc:51-119). -/
def ltRestrictM [LinearOrder Dbl] (option : Bool) (release : Option (List UInt8)) (ch : Choice) (input : List UInt8) : Res (List UInt8) :=
  if wanted option release then do
    let ((letters, a, ts), _) ← BinIO.readSet input
    let (a, ts) ← restrictAllMin ch a ts
    BinIO.writeSetL letters a ts
  else ltRestrict ch input

end Verif.Minimised
