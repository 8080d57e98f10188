import Verif.State.Model
import Verif.Transducer.Spec

/-! # Paths of a run-time graph -/

namespace Verif.State

open Verif.Fst (Path)

variable {W : Type}

/-- An arc: input symbol, which of the destinations of that symbol, output symbol, weight. -/
abbrev Label (W : Type) := Int × Nat × Int × W

/-- There is such an arc from `q` to `p`. -/
def Arc (g : Graph W) (q : Nat) (l : Label W) (p : Nat) : Prop :=
  ∃ ds, g q l.1 = some ds ∧ ds[l.2.1]? = some (l.2.2.1, p, l.2.2.2)

/-- The symbols a path reads: those that are not empty. -/
def inputs (ls : List (Label W)) : List Int := (ls.map (·.1)).filter (· ≠ 0)

/-- The output symbols with weights that are remembered for a path: all but those of arcs that read and write nothing. -/
def written (ls : List (Label W)) : List (Int × W) :=
  (ls.filter fun l => ¬ (l.1 = 0 ∧ l.2.2.1 = 0)).map fun l => l.2.2

/-- A path of arcs that read nothing. -/
def EpsPath (g : Graph W) (q : Nat) (ls : List (Label W)) (p : Nat) : Prop := Path (Arc g) q ls p ∧ ∀ l ∈ ls, l.1 = 0

/-- No arc that reads nothing is on a cycle of such arcs that can be reached from `q` through such arcs. -/
def NoEpsCycle (g : Graph W) (q : Nat) : Prop :=
  ∀ ls p, EpsPath g q ls p → ∀ ls', EpsPath g p ls' p → ls' = []

/-- The graph has finitely many nodes, numbered below `n`. -/
def Finite (g : Graph W) (n : Nat) : Prop := ∀ q l p, Arc g q l p → q < n ∧ p < n

end Verif.State
