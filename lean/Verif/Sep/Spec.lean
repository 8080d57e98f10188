import Verif.Sep.Model
import Verif.Compiler.Spec

/-!
# What the entries of a separable dictionary stand for
-/

namespace Verif.Sep

open Verif.Fst Verif.Compiler

variable {N W : Type}

/-- Two sides one beside the other; the shorter one is filled with the empty symbol. -/
def zipPad : List Int → List Int → List Pair
  | [], ys => ys.map fun y => (0, y)
  | xs, [] => xs.map fun x => (x, 0)
  | x :: xs, y :: ys => (x, y) :: zipPad xs ys

/-- The pairs of the texts of an entry, the side that is read first. -/
def pairsOf (s : Settings) : List (Token N) → List Pair
  | [] => []
  | .text l r :: es => zipPad (sides s l r).1 (sides s l r).2 ++ pairsOf s es
  | _ :: es => pairsOf s es

/-- `<t/>` and `<w/>` on both sides, or on the side that is read only. -/
def wildcards : List Pair := [(wild.anyTag, wild.anyTag), (wild.anyChar, wild.anyChar), (wild.anyTag, 0), (wild.anyChar, 0)]

/-- `Runs u ps`: the pairs `ps` are those of `u`, with wildcards repeated any number of times. -/
inductive Runs : List Pair → List Pair → Prop
  | nil : Runs [] []
  | one {u ps : List Pair} (p : Pair) (h : Runs u ps) : Runs (u ++ [p]) (ps ++ [p])
  | more {u ps : List Pair} {p : Pair} (hp : p ∈ wildcards) (h : Runs (u ++ [p]) ps) : Runs (u ++ [p]) (ps ++ [p])

/-- No wildcard stands directly after itself. -/
def Separate (u : List Pair) : Prop := ∀ v p w, u = v ++ [p, p] ++ w → p ∉ wildcards

/-- The symbols of a side. -/
def lefts (ps : List Pair) : List Int := (ps.map (·.1)).filter (· ≠ 0)
def rights (ps : List Pair) : List Int := (ps.map (·.2)).filter (· ≠ 0)

/-- The pairs that a section stands for, wildcards run over any number of symbols. -/
def Given (s : Settings) (f : File N W) (k : UString) (ps : List Pair) : Prop :=
  ∃ ents, (k, ents) ∈ f.secs ∧ ∃ es, Uses s ents es ∧ Runs (pairsOf s es) ps

/-- The same where a wildcard does not count if it stands directly after itself: the entry and the pairs are runs of one sequence. -/
def Likely (s : Settings) (f : File N W) (k : UString) (ps : List Pair) : Prop :=
  ∃ ents, (k, ents) ∈ f.secs ∧ ∃ es, Uses s ents es ∧ ∃ u, Runs u (pairsOf s es) ∧ Runs u ps

/-- The pair of two boundaries. -/
def boundary : Pair := (wild.boundary, wild.boundary)

/-- Conditions on a file: no equivalent characters; entries are made of texts, which are not empty on both sides. -/
structure Texts (s : Settings) (f : File N W) : Prop where
  acx : s.acx = []
  pars : f.pars = []
  texts : ∀ k ents, (k, ents) ∈ f.secs → ∀ es, Uses s ents es → ∀ e ∈ es, ∃ l r, e = .text l r ∧ ¬ (l = [] ∧ r = []) ∧ 0 ∉ l ∧ 0 ∉ r

/-- No entry goes on with a boundary where another one ends. -/
def Ends (s : Settings) (f : File N W) : Prop := ∀ k ps vs, Likely s f k ps → ¬ Likely s f k (ps ++ boundary :: vs)

end Verif.Sep
