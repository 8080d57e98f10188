import Verif.Trim.Model

/-!
# Model of `lt-compose`

`lttoolbox/lt_compose.cc`, without jobs: with jobs the threads all change the alphabet of the first file without a lock, which is a data race.
The weights of the files are read as weights of any kind (`v`) and written again (`g`), because addition of doubles is not that of a monoid.
Messages are left out.
-/

namespace Verif.Composed

open Verif.Fst Verif.Product
open Verif.Trim (unite)
open Verif.Compression (Dbl)

variable {W : Type} [LinearOrder W] [AddMonoid W]

/-- The loop over the sections of the second file (lt_compose.cc:40-46). -/
def uniteAll : List (UString × Transducer W) → Transducer W → Res (Transducer W)
  | [], u => .ok u
  | (_, t) :: ts, u => do
    let u ← unite t u
    uniteAll ts u

/-- The loop over the sections of the first file (lt_compose.cc:50-83): the alphabet of the first file, which grows from section to section, and
the results. The names come in order, so the last one is the last one of `trans_gf`. -/
def composeSections (u : Transducer W) (b : Alphabet) (inverted anywhere : Bool) :
    List (UString × Transducer W) → Alphabet → Res (Alphabet × List (UString × Transducer W))
  | [], a => .ok (a, [])
  | (k, t) :: ts, a =>
    if numberOfTransitions t = 0 then composeSections u b inverted anywhere ts a
    else do
      let (a, r) ← compose t u a b inverted anywhere 0
      if r.finals.isEmpty then composeSections u b inverted anywhere ts a
      else do
        let r ← minimize 0 r
        let (a, rs) ← composeSections u b inverted anywhere ts a
        pure (a, (k, r) :: rs)

/-- The composed sections and their alphabet (lt_compose.cc:37-83). -/
def composeSets (inverted anywhere : Bool) (a : Alphabet) (ts : List (UString × Transducer W)) (b : Alphabet) (us : List (UString × Transducer W)) :
    Res (Alphabet × List (UString × Transducer W)) := do
  let u ← uniteAll us empty
  let u ← minimize 0 u
  composeSections u b inverted anywhere ts a

/-- `lt-compose` (lt_compose.cc:27-98): the file it writes, from the two files; `inverted` is `-i` and `anywhere` is `-a`. -/
def ltCompose (v : Dbl → W) (g : W → Dbl) (inverted anywhere : Bool) (first second : List UInt8) : Res (List UInt8) := do
  let ((letters, a, ts), _) ← BinIO.readSet first
  let ((_, b, us), _) ← BinIO.readSet second
  let (a, rs) ← composeSets inverted anywhere a (Chain.storedAll v ts) b (Chain.storedAll v us)
  if rs.isEmpty then .exit else BinIO.writeSetL letters a (Chain.storedAll g rs)

end Verif.Composed
