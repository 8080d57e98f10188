import Verif.Minimised.Model
import Verif.Tools.Spec
import Verif.Transducer.Lang

/-! # What minimising keeps of a file -/

namespace Verif.Minimised

open Verif.Fst Verif.Tools
open Verif.Compression (Dbl)

/-- What can be seen of a path: its pairs with their weights and its final weight, without the pairs of nothing that have no weight. -/
def shown (ls : List ((Name × Name) × Dbl)) (fw : Dbl) : List ((Name × Name) × Dbl) :=
  (ls ++ [((Name.letter 0, Name.letter 0), fw)]).filter fun l => l ≠ ((Name.letter 0, Name.letter 0), 0)

/-- A section of name `k` of the file has a path of which this can be seen. -/
def Shows (bs : List UInt8) (k : UString) (ws : List ((Name × Name) × Dbl)) : Prop := ∃ ls fw, Says bs k ls fw ∧ shown ls fw = ws

/-- The transducer is small enough to be written. -/
def Small (t : Transducer Dbl) : Prop := Fst.size t < 2 ^ 30 ∧ ∀ e ∈ t.transitions, e.2.length < 2 ^ 30

end Verif.Minimised
