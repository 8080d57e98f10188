import Verif.Split.Model
import Verif.Compiler.Spec
import Verif.Load.Spec

/-! # A dictionary with split sections -/

namespace Verif.Split

open Verif.Compiler

variable {N W : Type}

/-- A name with `j` times `+` before it. -/
def plus (j : Nat) (k : UString) : UString := List.replicate j 0x2b ++ k

/-- The entries of a section in sections of their own: if `i` entries come before, the first has the number `i + 1`, and a section of the new name gets
the entries whose numbers divided by `m` give the number of its marks. -/
def singles (m : Nat) (k : UString) : Nat → List (CEntry N W) → List (UString × List (CEntry N W))
  | _, [] => []
  | i, e :: es => (plus ((i + 1) / m) k, [e]) :: singles m k (i + 1) es

/-- The dictionary an author could have written instead. -/
def split (m : Nat) (f : File N W) : File N W := { f with secs := f.secs.flatMap fun p => singles m p.1 0 p.2 }

/-- The entries of the sections of name `k` whose numbers divided by `m` are `j` have one that stands for the pair. Entries are counted from one in each
section. -/
def PartGives (s : Settings) (f : File N W) (m j : Nat) (k : UString) (l r : List Int) : Prop :=
  ∃ ents, (k, ents) ∈ f.secs ∧ ∃ i e es, ents[i]? = some e ∧ (i + 1) / m = j ∧ Visible s e.attrs ∧ e.content = some es ∧ Gives s f es l r

end Verif.Split
