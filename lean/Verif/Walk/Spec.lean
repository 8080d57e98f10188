import Verif.State.Spec
import Verif.State.Select

/-!
# Reading with alternatives

Paths in a run-time graph that read a text symbol by symbol, where a symbol of the text may be read by arcs for other symbols. Nothing here
refers to sets of states.
-/

namespace Verif.Walk

open Verif.State

variable {W : Type}

/-- How symbols are read: at a node, a symbol of the text may be read by an arc for some symbol; and what is written then for the output of
the arc. -/
structure Way where
  allow : Nat → Int → Int → Prop
  out : Int → Int → Int

/-- A path from `root` that reads a text: its arcs, what it writes, whether some arc is for another symbol than the one in the text, and its
end. -/
inductive Walk (g : Graph W) (root : Nat) (y : Way) : List Int → List (Label W) → List (Int × W) → Bool → Nat → Prop
  | start : Walk g root y [] [] [] false root
  | empty {xs ls wr ch p l p'} (h : Walk g root y xs ls wr ch p) (h0 : l.1 = 0) (ha : Arc g p l p') :
    Walk g root y xs (ls ++ [l]) (if l.2.2.1 = 0 then wr else wr ++ [l.2.2]) ch p'
  | read {xs ls wr ch p l p'} {x : Int} (h : Walk g root y xs ls wr ch p) (h0 : l.1 ≠ 0) (hy : y.allow p x l.1) (ha : Arc g p l p') :
    Walk g root y (xs ++ [x]) (ls ++ [l]) (wr ++ [(y.out x l.2.2.1, l.2.2.2)]) (ch || decide (l.1 ≠ x)) p'

/-- There are fewer than `k` paths that read a text. -/
def Fewer (g : Graph W) (root : Nat) (y : Way) (k : Nat) : Prop :=
  ∀ xs (L : List (List (Label W))), L.Nodup → (∀ ls ∈ L, ∃ wr ch p, Walk g root y xs ls wr ch p) → L.length < k

/-- `rs` lists the texts with their weights: each text once, with its least weight, the best first. -/
def Best [LE W] (A : UString → W → Prop) (rs : List (UString × W)) : Prop :=
  (rs.map (·.1)).Nodup ∧ rs.Pairwise (fun a b => a.2 ≤ b.2) ∧ ∀ t w, (t, w) ∈ rs ↔ A t w ∧ ∀ w', A t w' → w ≤ w'

end Verif.Walk
