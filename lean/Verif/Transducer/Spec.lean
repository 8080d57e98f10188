import Verif.Transducer.Model
import Verif.Data.AssocLemmas
import Mathlib.Algebra.Group.Defs
import Mathlib.Algebra.BigOperators.Group.List.Basic

/-!
# What the transducer properties are stated with

The language of a transducer is described by paths only; nothing below mentions how the operations work. A label
is a pair of symbol and weight. The words of the language list the labels of an accepting path in order, with the
weight of the final state as a last label `(ε, weight)`, and leave out the labels `(ε, 0)`, which neither consume
nor cost anything.
-/

namespace Verif.Fst

variable {W : Type}

/-- There is an arc with this label from `q` to `p`. -/
def Edge (t : Transducer W) (q : Nat) (l : Int × W) (p : Nat) : Prop := (l.1, (p, l.2)) ∈ row t q

/-- `p` is final with weight `w`. -/
def Final (t : Transducer W) (p : Nat) (w : W) : Prop := (p, w) ∈ t.finals

/-- Paths of a labelled graph and the labels along them. -/
inductive Path {S L : Type} (E : S → L → S → Prop) : S → List L → S → Prop where
  | nil (q : S) : Path E q [] q
  | cons {q r p : S} {l : L} {ls : List L} : E q l r → Path E r ls p → Path E q (l :: ls) p

/-- What remains of a list of labels without the labels `(ε, 0)`. -/
def visible [DecidableEq W] [Zero W] (ε : Int) (ls : List (Int × W)) : List (Int × W) :=
  ls.filter (fun l => l ≠ (ε, 0))

/-- The words read from state `q` to acceptance. -/
def LangFrom [DecidableEq W] [Zero W] (ε : Int) (t : Transducer W) (q : Nat) (w : List (Int × W)) : Prop :=
  ∃ ls p fw, Path (Edge t) q ls p ∧ Final t p fw ∧ w = visible ε (ls ++ [(ε, fw)])

/-- The language of a transducer. -/
def Lang [DecidableEq W] [Zero W] (ε : Int) (t : Transducer W) (w : List (Int × W)) : Prop :=
  LangFrom ε t t.initial w

/-- The coarser view: a string of symbols is accepted with a total weight. -/
def Accepts {W : Type} [AddMonoid W] (ε : Int) (t : Transducer W) (s : List Int) (x : W) : Prop :=
  ∃ ls p fw, Path (Edge t) t.initial ls p ∧ Final t p fw ∧
    s = (ls.map (·.1)).filter (· ≠ ε) ∧ x = (ls.map (·.2)).sum + fw

/-- Well-formed: the states are numbered 0, 1, ..., n-1 without gaps, rows and final states are in container
order, and the initial state, the final states and all arc targets are states. -/
structure WF (t : Transducer W) : Prop where
  keys : t.transitions.map (·.1) = List.range (size t)
  rows : ∀ e ∈ t.transitions, SortedRow e.2
  initial_lt : t.initial < size t
  target_lt : ∀ q l p, Edge t q l p → p < size t
  finals_sorted : SortedKeys t.finals
  finals_lt : ∀ p w, Final t p w → p < size t

end Verif.Fst
