import Verif.Load.Model
import Verif.State.Loaded

/-! # What a loaded file consists of -/

namespace Verif.Load

open Verif.State
open Verif.BinIO (TransExe)
open Verif.Fst (Path)
open Verif.Compression (Dbl)

variable {W : Type}

/-- The kinds of sections. -/
inductive Kind
  | inconditional | standard | postblank | preblank
  deriving DecidableEq

/-- How the names of sections of a kind end. -/
def Kind.ending : Kind → UString
  | .inconditional => INCONDITIONAL
  | .standard => STANDARD
  | .postblank => POSTBLANK
  | .preblank => PREBLANK

/-- A section of this name is of this kind. -/
def HasKind (name : UString) (k : Kind) : Prop := ∃ r, name = r ++ k.ending

/-- `e` is in the list, and its nodes begin with the number `b`. -/
inductive Placed : Nat → List (UString × TransExe) → Nat → UString × TransExe → Prop
  | here {base : Nat} {e : UString × TransExe} {es : List (UString × TransExe)} : Placed base (e :: es) base e
  | there {base b : Nat} {e e' : UString × TransExe} {es : List (UString × TransExe)} (h : Placed (base + e'.2.nodes.length) es b e) : Placed base (e' :: es) b e

/-- The initial node, the final nodes and the ends of arcs are nodes. -/
structure Sound (te : TransExe) : Prop where
  initial : te.initial < te.nodes.length
  target : ∀ q l p, Arc (graphOf te) q l p → p < te.nodes.length
  finals : ∀ e ∈ te.finals, e.1 < te.nodes.length
  sorted : SortedKeys te.finals

/-- A label with the weight of the model. -/
def lift (v : Dbl → W) (l : Label Dbl) : Label W := (l.1, l.2.1, l.2.2.1, v l.2.2.2)

/-! ## Sections -/

open Verif.Fst (Transducer PairEdge Final)

/-- The transducer `t` can read `xs` on the way from its initial state to `q` and write `ys`: symbols with the weights of their arcs. Nothing is noted
for arcs that read and write nothing. -/
def RunTo (a : Alphabet) (t : Transducer Dbl) (xs : List Int) (ys : List (Int × Dbl)) (q : Nat) : Prop :=
  ∃ ls, Path (PairEdge a t) t.initial ls q ∧ (ls.map (·.1.1)).filter (· ≠ 0) = xs ∧
    (ls.filter fun x => x.1 ≠ (0, 0)).map (fun x => (x.1.2, x.2)) = ys

/-- It can do so and end in a final state of weight `w`. -/
def Run (a : Alphabet) (t : Transducer Dbl) (xs : List Int) (ys : List (Int × Dbl)) (w : Dbl) : Prop := ∃ q, RunTo a t xs ys q ∧ Final t q w

/-- No cycle reads nothing. -/
def NoLoop (a : Alphabet) (t : Transducer Dbl) : Prop := ∀ q ls, Path (PairEdge a t) q ls q → (∀ x ∈ ls, x.1.1 = 0) → ls = []

/-- The final nodes of a kind. -/
def finalsOf (σ : Proc.Setting W) : Kind → List (Nat × W)
  | .inconditional => σ.inconditional
  | .standard => σ.standard
  | .postblank => σ.postblank
  | .preblank => σ.preblank

/-- A file that `lt-comp` can write: sizes are in range, the labels are in the alphabet. -/
structure Fits (letters : UString) (a : Alphabet) (ts : List (UString × Transducer Dbl)) : Prop where
  letters : letters.length < 2 ^ 30
  alphabet : a.Ok
  writable : a.Writable
  sections : BinIO.SetInRange ts
  labels : ∀ e ∈ ts, ∀ q c w p, Fst.Edge e.2 q (c, w) p → ∃ pr, a.decode c = .ok pr

/-- Symbols with weights of the model. -/
def liftAll (v : Dbl → W) (ys : List (Int × Dbl)) : List (Int × W) := ys.map fun y => (y.1, v y.2)

/-- There is a run of the loaded graph that reads `xs`, writes `ys` and ends in a final node of weight `w`. -/
def Accepts (g : Graph W) (root : Nat) (finals : List (Nat × W)) (xs : List Int) (ys : List (Int × W)) (w : W) : Prop :=
  ∃ ls p, Path (Arc g) root ls p ∧ inputs ls = xs ∧ written ls = ys ∧ (p, w) ∈ finals

/-- The sections of a file together: runs of sections with such names. Weights are cut to 30 bits. -/
def Together (v : Dbl → W) (a : Alphabet) (ts : List (UString × Transducer Dbl)) (P : UString → Prop) (xs : List Int) (ys : List (Int × W)) (w : W) : Prop :=
  ∃ e ∈ ts, P e.1 ∧ ∃ ys0 w0, Run a (BinIO.cut e.2) xs ys0 w0 ∧ ys = liftAll v ys0 ∧ w = v w0

/-- Something can be read by a section. -/
def Begins (a : Alphabet) (ts : List (UString × Transducer Dbl)) (xs : List Int) : Prop :=
  xs = [] ∨ ∃ e ∈ ts, ∃ ys q, RunTo a (BinIO.cut e.2) xs ys q

/-- The options without a dictionary. -/
def bare (o : Proc.Setting W) (letters : UString) : Proc.Setting W :=
  { o with
    graph := fun _ _ => none
    standard := []
    letters := (Compression.vec32 letters).map fun c => (c.toNat : Int) }

/-- The same for generation. -/
def bareGen (o : Gen.Setting W) : Gen.Setting W := { o with graph := fun _ _ => none, finals := [], alphabet := Alphabet.empty }

/-- What the arcs write is in the alphabet. -/
def Named (a : Alphabet) (ts : List (UString × Transducer Dbl)) (name : Int → UString) : Prop :=
  ∀ e ∈ ts, ∀ q c w p, Fst.Edge e.2 q (c, w) p → ∀ i o, a.decode c = .ok (i, o) → o < 0x110000 ∧ (o < 0 → a.tagText o = .ok (name o))

end Verif.Load
