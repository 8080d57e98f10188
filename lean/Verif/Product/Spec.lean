import Verif.Product.Model
import Verif.Labels.Props

/-! # What the properties of `compose` and `trim` are stated with -/

namespace Verif.Product

open Verif.Fst Verif.Alphabet

/-- The symbol `x` of `a` and the symbol `y` of `b` are the same, or one of them is a wildcard for the other. -/
def Meets (a b : Alphabet) (x y : Int) : Prop :=
  (∃ n, Named a x n ∧ Named b y n) ∨
  (Named a x (.tag anyChar) ∧ 0 < y) ∨ (Named a x (.tag anyTag) ∧ y < 0) ∨
  (Named b y (.tag anyChar) ∧ 0 < x) ∨ (Named b y (.tag anyTag) ∧ x < 0)

/-- `x` in `a` and `y` in `b` stand for the same symbol. -/
def Same (a b : Alphabet) (x y : Int) : Prop := ∃ n, Named a x n ∧ Named b y n

variable {W : Type}

/-- The transducer relates `x` to `y`, where the first of them is on its right side if `inverted`. -/
def RelatesDir [AddMonoid W] (inverted : Bool) (a : Alphabet) (t : Transducer W) (x y : List Int) (w : W) : Prop :=
  if inverted then Relates a t y x w else Relates a t x y w

/-- The pair with this input and this output; the input is on the right side if `inverted`. -/
def mk (inverted : Bool) (i o : Int) : Pair := if inverted then (o, i) else (i, o)

/-- Two transducers that can be composed: they and their alphabets are well formed (as `Alphabet.Reachable.ok` shows of every alphabet made by its operations), their labels are codes of pairs of known symbols, `f` has a final
state, and the tags that `g` writes are known in the alphabet of `f`. -/
structure Composable (fa ga : Alphabet) (f g : Transducer W) : Prop where
  falpha : Ok fa
  galpha : Ok ga
  fwf : WF f
  gwf : WF g
  fcoded : Coded fa f
  gcoded : Coded ga g
  ftags : TagsKnown fa f
  gtags : TagsKnown ga g
  finals : f.finals ≠ []
  shared : ∀ q x z w r s, PairEdge ga g q ((x, z), w) r → Named ga z (.tag s) → ∃ y, Named fa y (.tag s)

/-- No two arcs compete for the same place in the composition: the weight of an arc of `f` depends only on its states and its
input, that of an arc of `g` only on its states and its output; no arc with empty input leads from a state of `f` to the same state, no
arc with empty output from a state of `g` to the same state. -/
structure NoRivals (inverted : Bool) (fa ga : Alphabet) (f g : Transducer W) : Prop where
  fone : ∀ p x o o' w w' r, PairEdge fa f p (mk inverted x o, w) r → PairEdge fa f p (mk inverted x o', w') r → w = w'
  floop : ∀ p o w, ¬ PairEdge fa f p (mk inverted 0 o, w) p
  gone : ∀ q y y' z w w' r, PairEdge ga g q ((y, z), w) r → PairEdge ga g q ((y', z), w') r → w = w'
  gloop : ∀ q y w, ¬ PairEdge ga g q ((y, 0), w) q

/-- The transducer has a path from its initial state to itself that reads `x` and writes `y`. -/
def Loops [AddMonoid W] (a : Alphabet) (t : Transducer W) (x y : List Int) (w : W) : Prop :=
  ∃ ls, Path (PairEdge a t) t.initial ls t.initial ∧ x = (ls.map (·.1.1)).filter (· ≠ 0) ∧ y = (ls.map (·.1.2)).filter (· ≠ 0) ∧
    w = (ls.map (·.2)).sum

/-- `g` applied to parts of a string: some symbols are kept, other parts are read by `g` on its way from the initial state back to
it, and the last part by `g` on its way to a final state. -/
inductive Anywhere [AddMonoid W] (fa ga : Alphabet) (g : Transducer W) : List Int → List Int → W → Prop
  | done : (∀ w, ¬ Final g g.initial w) → Anywhere fa ga g [] [] 0
  | last {y y' z z' : List Int} {w : W} : List.Forall₂ (Meets fa ga) y y' → Relates ga g y' z' w → List.Forall₂ (Same fa ga) z z' →
      Anywhere fa ga g y z w
  | keep {c : Int} {y z : List Int} {w : W} : c ≠ 0 → Anywhere fa ga g y z w → Anywhere fa ga g (c :: y) (c :: z) w
  | loop {y y' z z' ys zs : List Int} {w v : W} : List.Forall₂ (Meets fa ga) y y' → Loops ga g y' z' w → List.Forall₂ (Same fa ga) z z' →
      Anywhere fa ga g ys zs v → Anywhere fa ga g (y ++ ys) (z ++ zs) (w + v)

/-! ## Trimming -/

/-- The code units of a text in the basic plane. -/
def units (s : String) : UString := s.toList.map fun c => UInt16.ofNat c.toNat

/-- The tags that separate the parts of a group, and those that mark the parts of compounds. -/
def groupTags : List UString := ["<$>", "<$_>", "<$->"].map units
def compoundTags : List UString := ["<compound-only-L>", "<compound-R>"].map units

/-- Two transducers of which the first can be trimmed with the second. -/
structure Trimmable (a b : Alphabet) (t trimmer : Transducer W) : Prop where
  talpha : Ok a
  galpha : Ok b
  twf : WF t
  gwf : WF trimmer
  tcoded : Coded a t
  gcoded : Coded b trimmer
  ttags : TagsKnown a t
  gtags : TagsKnown b trimmer
  finals : t.finals ≠ []

/-- The transducer writes a tag that separates the parts of a group. -/
def HasGroups (a : Alphabet) (t : Transducer W) : Prop :=
  ∃ q x y w r s, PairEdge a t q ((x, y), w) r ∧ s ∈ groupTags ∧ Named a y (.tag s)

/-- The transducer writes no joins (`+`), queues (`#`), groups or compounds. -/
def Plain (a : Alphabet) (t : Transducer W) : Prop :=
  ∀ q x y w r, PairEdge a t q ((x, y), w) r → y ≠ 0x2b ∧ y ≠ 0x23 ∧ ∀ s ∈ groupTags ++ compoundTags, ¬ Named a y (.tag s)

/-- The transducer writes no queues (`#`) and no groups. -/
def Joining (a : Alphabet) (t : Transducer W) : Prop :=
  ∀ q x y w r, PairEdge a t q ((x, y), w) r → y ≠ 0x23 ∧ ∀ s ∈ groupTags, ¬ Named a y (.tag s)

/-- A tag that marks a part of a compound. -/
def IsCompound (a : Alphabet) (y : Int) : Prop := ∃ s ∈ compoundTags, Named a y (.tag s)

/-- The second string meets the first symbol for symbol once the marks of compounds are left out of that. -/
inductive Covers (a b : Alphabet) : List Int → List Int → Prop
  | nil : Covers a b [] []
  | skip {c : Int} {y y' : List Int} : IsCompound a c → Covers a b y y' → Covers a b (c :: y) y'
  | meet {c d : Int} {y y' : List Int} : ¬ IsCompound a c → Meets a b c d → Covers a b y y' → Covers a b (c :: y) (d :: y')

/-- The transducer can read the string from its initial state on, and may then be anywhere. -/
def Begins (b : Alphabet) (t : Transducer W) (y : List Int) : Prop :=
  ∃ ls p, Path (PairEdge b t) t.initial ls p ∧ y = (ls.map (·.1.1)).filter (· ≠ 0)

/-- The string is a row of parts with joins (`+`) between them; of every part but the last the transducer can read a beginning of
what it accepts, and it accepts the last. A part may contain `+` itself. -/
def Joined [AddMonoid W] (a b : Alphabet) (t : Transducer W) (y : List Int) : Prop :=
  ∃ (parts : List (List Int)) (last : List Int), y = (parts.map (· ++ [0x2b])).flatten ++ last ∧
    (∀ p ∈ parts, ∃ p', Covers a b p p' ∧ Begins b t p') ∧ ∃ y' z g, Covers a b last y' ∧ Relates b t y' z g

/-- A sum of weights of arcs that read nothing. -/
def EmptyArcs [AddMonoid W] (b : Alphabet) (trimmer : Transducer W) (u : W) : Prop :=
  ∃ ws : List W, u = ws.sum ∧ ∀ w ∈ ws, ∃ q z q', PairEdge b trimmer q ((0, z), w) q'

end Verif.Product
