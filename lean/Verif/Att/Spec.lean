import Verif.Att.Model
import Verif.Labels.Props

/-!
# The AT&T format

A file is a list of lines. A line holds an arc (source, target, two symbols, perhaps a weight), a final state (perhaps with a weight),
or separates two transducers. Nothing here refers to the compiler, except that the way in which weights are written is a setting.
-/

namespace Verif.Att

open Verif.Fst

variable {W : Type}

/-- The code units of a text in the basic plane. -/
def str (s : String) : UString := s.toList.map fun c => UInt16.ofNat c.toNat

/-- A number in base ten: its digits, its text and its value. -/
abbrev Digits := List Nat
def Digits.text (ds : Digits) : UString := ds.map fun d => UInt16.ofNat (0x30 + d)
def Digits.value (ds : Digits) : Nat := ds.foldl (fun v d => v * 10 + d) 0
def Digits.WF (ds : Digits) : Prop := ds ≠ [] ∧ ∀ d ∈ ds, d < 10

/-- A tag: something between `<` and `>`. -/
def TagText (s : UString) : Prop := ∃ m, s = 0x3c :: (m ++ [0x3e])

/-- The texts that stand for something else than their letters. -/
def reserved (hfst : Bool) : List UString :=
  [str "@0@", str "@_EPSILON_SYMBOL_@", str "@_SPACE_@", str "@_TAB_@"] ++ if hfst then [] else [str "ε"]

/-- The symbols that a column stands for: none, a letter, a tag, or the letters of a longer text. -/
inductive Denotes (hfst : Bool) : UString → List Name → Prop
  | nothing : Denotes hfst [] []
  | short : Denotes hfst (str "@0@") []
  | long : Denotes hfst (str "@_EPSILON_SYMBOL_@") []
  | epsilon : hfst = false → Denotes hfst (str "ε") []
  | space : Denotes hfst (str "@_SPACE_@") [.letter 0x20]
  | tab : Denotes hfst (str "@_TAB_@") [.letter 0x09]
  | tag {s : UString} : TagText s → Denotes hfst s [.tag s]
  | text {cs : List Nat} : cs ≠ [] → (∀ c ∈ cs, Scalar c ∧ c ≠ 0) → enc cs ∉ reserved hfst → ¬ TagText (enc cs) →
      Denotes hfst (enc cs) (cs.map fun (c : Nat) => .letter (c : Int))

/-- A line with an arc or a final state; the weight may be missing. -/
inductive Row
  | arc (src dst : Digits) (c2 c3 : UString) (w : Option UString)
  | final (src : Digits) (w : Option UString)
  deriving DecidableEq

namespace Row

def columns : Row → List UString
  | arc src dst c2 c3 w => [src.text, dst.text, c2, c3] ++ w.toList
  | final src w => src.text :: w.toList

def source : Row → Nat
  | arc src _ _ _ _ => src.value
  | final src _ => src.value

/-- The largest number in the line. -/
def top : Row → Nat
  | arc src dst _ _ _ => max src.value dst.value
  | final src _ => src.value

end Row

/-- The weight of a line. -/
def Weighs (σ : Setting W) [Zero W] : Option UString → W → Prop
  | none, w => w = 0
  | some s, w => σ.stod s = some w

/-- A text that can stand in a column. -/
def Column (s : UString) : Prop := ∀ u ∈ s, u ≠ 0x09 ∧ u ≠ 0x0a ∧ u ≠ 0xffff

structure Row.WF (σ : Setting W) [Zero W] (r : Row) : Prop where
  columns : ∀ s ∈ r.columns, Column s
  source : ∀ src dst c2 c3 w, r = .arc src dst c2 c3 w → src.WF ∧ dst.WF ∧ (∃ x, Denotes σ.hfstSymbols c2 x) ∧ (∃ y, Denotes σ.hfstSymbols c3 y) ∧
    ∃ v, Weighs σ w v
  final : ∀ src w, r = .final src w → src.WF ∧ ∃ v, Weighs σ w v

/-- The arcs of a transducer given by its lines: `readRl` reads the second column of symbols. -/
def RowEdge (σ : Setting W) [Zero W] (rows : List Row) (q : Nat) (l : (List Name × List Name) × W) (p : Nat) : Prop :=
  ∃ src dst c2 c3 w, Row.arc src dst c2 c3 w ∈ rows ∧ src.value = q ∧ dst.value = p ∧
    Denotes σ.hfstSymbols (if σ.readRl then c3 else c2) l.1.1 ∧ Denotes σ.hfstSymbols (if σ.readRl then c2 else c3) l.1.2 ∧ Weighs σ w l.2

def RowFinal (σ : Setting W) [Zero W] (rows : List Row) (p : Nat) (fw : W) : Prop :=
  ∃ src w, Row.final src w ∈ rows ∧ src.value = p ∧ Weighs σ w fw

/-- The transducer that is given by the lines, with this initial state, relates two texts with a weight. -/
def RowsRelate (σ : Setting W) [AddMonoid W] (start : Nat) (rows : List Row) (X Y : List Name) (w : W) : Prop :=
  ∃ ls p fw, Path (RowEdge σ rows) start ls p ∧ RowFinal σ rows p fw ∧ X = (ls.map (·.1.1)).flatten ∧ Y = (ls.map (·.1.2)).flatten ∧
    w = (ls.map (·.2)).sum + fw

/-- A line of a file. -/
inductive Line
  | blank
  | sep (s : UString) (columns : List UString)
  | row (r : Row)

namespace Line

def columns : Line → List UString
  | blank => [[]]
  | sep s cols => (0x2d :: s) :: cols
  | row r => r.columns

def isSep : Line → Bool
  | sep _ _ => true
  | _ => false

def text (l : Line) : UString := List.intercalate [0x09] l.columns ++ [0x0a]

end Line

def fileText (ls : List Line) : UString := ls.flatMap Line.text

/-- The transducers of a file, each with its lines in order. -/
def segments : List Line → List (List Row)
  | [] => [[]]
  | .blank :: ls => segments ls
  | .sep _ _ :: ls => [] :: segments ls
  | .row r :: ls => match segments ls with
    | [] => [[r]]
    | s :: ss => (r :: s) :: ss

/-- The numbers that the states of a list of transducers need. -/
def room (ss : List (List Row)) : Nat := (ss.map fun rows => (rows.map Row.top).foldr max 0 + 1).sum

/-- A well-formed file: the lines are, no separator directly follows another one or begins the file, the first line of a transducer has more than
one column, and the states can be numbered with values of type `int`. -/
structure FileWF (σ : Setting W) [Zero W] (ls : List Line) : Prop where
  rows : ∀ r, .row r ∈ ls → r.WF σ
  seps : ∀ s cols, .sep s cols ∈ ls → ∀ c ∈ (0x2d :: s) :: cols, Column c
  nonempty : ∀ rows ∈ (segments ls).dropLast, rows ≠ []
  first : ∀ rows ∈ segments ls, ∀ src, rows.head? ≠ some (.final src none)
  room : room (segments ls) < 2 ^ 31

/-- A file relates what one of its transducers does; the initial state is the source in the first line. -/
def FileRelates (σ : Setting W) [AddMonoid W] (ls : List Line) (X Y : List Name) (w : W) : Prop :=
  ∃ rows ∈ segments ls, ∃ r, rows.head? = some r ∧ RowsRelate σ r.source rows X Y w

/-- The same, except that the initial state of a file with one transducer only is state 0. -/
def FileMeans (σ : Setting W) [AddMonoid W] (ls : List Line) (X Y : List Name) (w : W) : Prop :=
  ∃ rows ∈ segments ls, ∃ r, rows.head? = some r ∧ RowsRelate σ (if (segments ls).length = 1 then 0 else r.source) rows X Y w

/-- Lines do not contradict each other: the same arc or final state comes with one weight only. -/
def OneWeight (σ : Setting W) [Zero W] (ls : List Line) : Prop :=
  ∀ rows ∈ segments ls, (∀ q l w v p, RowEdge σ rows q (l, w) p → RowEdge σ rows q (l, v) p → w = v) ∧
    ∀ p w v, RowFinal σ rows p w → RowFinal σ rows p v → w = v

/-- The transducer relates two texts, given by the names of their symbols, with a weight. -/
def NamesRelate [AddMonoid W] (a : Alphabet) (t : Transducer W) (X Y : List Name) (w : W) : Prop :=
  ∃ ls fw, SpellsNames a t ls fw ∧ X = (ls.map (·.1.1)).filter (· ≠ .letter 0) ∧ Y = (ls.map (·.1.2)).filter (· ≠ .letter 0) ∧
    w = (ls.map (·.2)).sum + fw

end Verif.Att
