/-!
# What a dictionary means

A dictionary has paradigms, which are named lists of entries, and sections of entries. An entry is a sequence of pairs of texts
and references to paradigms, and may be restricted to one direction. Its meaning is a set of pairs of texts with a direction:
the combinations of the pairs along the entry and the paradigms, in the directions that nothing along the way excludes.
Nothing here refers to the programs. `N` are the names of paradigms and `σ` the symbols of texts.
-/

namespace Verif.Dict

/-- The directions in which a pair may be used. -/
inductive Dir
  | both
  | lr
  | rl
  deriving DecidableEq

/-- Both restrictions at the same time; nothing is left of opposite ones. -/
def Dir.meet : Dir → Dir → Option Dir
  | .both, d => some d
  | d, .both => some d
  | .lr, .lr => some .lr
  | .rl, .rl => some .rl
  | _, _ => none

/-- The direction may be used left to right, or right to left. -/
def Dir.allows : (dir d : Dir) → Prop
  | _, .both => True
  | dir, d => dir = d

inductive Elem (N σ : Type)
  | text (l r : List σ)
  | par (name : N)
  deriving DecidableEq

structure Entry (N σ : Type) where
  dir : Dir
  elems : List (Elem N σ)
  deriving DecidableEq

variable {N σ : Type}

/-- The pairs that a sequence of elements gives, with the direction left by the paradigms. -/
inductive Gives (pars : List (N × List (Entry N σ))) : List (Elem N σ) → Dir → List σ → List σ → Prop
  | nil : Gives pars [] .both [] []
  | text {es d l r} (a b : List σ) : Gives pars es d l r → Gives pars (.text a b :: es) d (a ++ l) (b ++ r)
  | par {n ents es d1 d2 d3 d l1 r1 l2 r2} {e : Entry N σ} : (n, ents) ∈ pars → e ∈ ents → Gives pars e.elems d1 l1 r1 →
      e.dir.meet d1 = some d2 → Gives pars es d3 l2 r2 → d2.meet d3 = some d → Gives pars (.par n :: es) d (l1 ++ l2) (r1 ++ r2)

/-- The pairs of an entry. -/
def Entry.Gives (pars : List (N × List (Entry N σ))) (e : Entry N σ) (d : Dir) (l r : List σ) : Prop :=
  ∃ d', Dict.Gives pars e.elems d' l r ∧ e.dir.meet d' = some d

/-- The references of an entry. -/
def refsOf (es : List (Elem N σ)) : List N := es.filterMap fun
  | .par n => some n
  | _ => none

def Entry.refs (e : Entry N σ) : List N := refsOf e.elems

/-- In file order, every paradigm has its own name and refers to earlier ones only; `seen` are the names before. -/
def OrderedFrom (seen : List N) : List (N × List (Entry N σ)) → Prop
  | [] => True
  | (n, es) :: pars => n ∉ seen ∧ (∀ e ∈ es, ∀ m ∈ e.refs, m ∈ seen) ∧ OrderedFrom (n :: seen) pars

end Verif.Dict
