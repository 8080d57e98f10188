import Verif.Gen.Model
import Verif.Walk.Spec
import Verif.Stream.Spec
import Verif.Proc.Spec

/-!
# What a generator should write

For each lexical unit the forms that the dictionary has for it, or the unit itself, depending on the mode. Nothing here refers to sets of
states or to the way in which tags are found in a text.
-/

namespace Verif.Gen

open Verif.State Verif.Stream Verif.Walk
open Verif.Proc (capital)
open Verif.Proc.Token (escape)

variable {W : Type}

/-! ## Units -/

/-- The pieces of a reading without the chunks. -/
def pieces (s : RSyn) : List RTok := s.toks.filter fun t => !t.isChunk

def isTagPiece : RTok → Bool
  | .tag _ => true
  | _ => false

/-- The text of a reading; of what is before its first tag; and from there on. -/
def whole (s : RSyn) : UString := enc ((pieces s).flatMap RTok.text)
def stem (s : RSyn) : UString := enc (((pieces s).takeWhile fun t => !isTagPiece t).flatMap RTok.text)
def tags (s : RSyn) : UString := enc (((pieces s).dropWhile fun t => !isTagPiece t).flatMap RTok.text)

/-- The first tag is not the first piece and not after an escaped backslash. -/
structure Tidy (s : RSyn) : Prop where
  start : ∀ ts, (pieces s).head? ≠ some (.tag ts)
  before : ((pieces s).takeWhile fun t => !isTagPiece t).getLast? = some (.tok (.esc '\\'.toNat)) → tags s = []

/-! ## Forms -/

/-- A letter that may be read as a lower-case letter. -/
def Folded (σ : Setting W) (x : Int) : Prop := 0 ≤ x ∧ σ.isUpper x = true ∧ σ.caseSensitive = false

/-- How symbols are read: as they are, or as lower-case letters; with `careful` the latter only where there is no arc for the letter itself.
Unknown tags, which have the symbol 0, cannot be read. -/
def way (σ : Setting W) (careful : Bool) : Way where
  allow p x z := x ≠ 0 ∧ (z = x ∨ (Folded σ x ∧ z = σ.toLower x ∧ (careful = true → σ.graph p x = none)))
  out _ o := o

/-- The first unit of a text is an upper-case letter, and cases are to be restored. -/
def firstUpper (σ : Setting W) (text : UString) : Bool :=
  !σ.dictionaryCase && (text.head?.map fun u => σ.isUpper (u.toNat : Int)) == some true

/-- The same for the second unit. -/
def secondUpper (σ : Setting W) (text : UString) : Bool :=
  !σ.dictionaryCase && (text[1]?.map fun u => σ.isUpper (u.toNat : Int)) == some true

/-- The text of a form. If some letter was read as a lower-case one, letters become upper-case letters: all of them, or the first. -/
def formText (σ : Setting W) (name : Int → UString) (upper first changed : Bool) (seq : List (Int × W)) : UString :=
  let t := mapText name (if changed && upper then σ.toUpper else id) escapedCps seq
  if changed && first then capital σ.toUpper t else t

/-- `t` is a form for the symbols `xs` with the weight `w`. -/
def Form [Add W] [Zero W] (σ : Setting W) (name : Int → UString) (y : Way) (upper first : Bool) (xs : List Int) (t : UString) (w : W) : Prop :=
  ∃ ls wr ch p w0, Walk σ.graph σ.root y xs ls wr ch p ∧ (p, w0) ∈ σ.finals ∧ w = w0 + (wr.map (·.2)).sum ∧ t = formText σ name upper first ch wr

/-- Texts with slashes in between. -/
def slashed : List UString → UString
  | [] => []
  | [t] => t
  | t :: ts => t ++ 0x2f :: slashed ts

/-! ## Output -/

/-- `^stem/mstem<tags>$` -/
def inTags (m : UString) (s : RSyn) : UString := 0x5e :: escape (stem s) ++ 0x2f :: m ++ escape (stem s) ++ tags s ++ [0x24]

/-- For a unit with the mark `*` or `%`: the text, with the mark in all modes but one. -/
def starText (mode : Mode) (m : UString) (s : RSyn) : UString :=
  match mode with
  | .taggedNm => inTags m s
  | .clean => escape (whole s)
  | _ => m ++ escape (whole s)

/-- For a unit with the mark `@`: nothing in the mode for careful case. -/
def atText (mode : Mode) (m : UString) (s : RSyn) : UString :=
  match mode with
  | .all => m ++ escape (whole s)
  | .unknown | .tagged => m ++ escape (stem s)
  | .bilgen | .clean => escape (stem s)
  | .taggedNm => inTags m s
  | .carefulcase => []

/-- For a unit without forms. -/
def formless (mode : Mode) (s : RSyn) : UString :=
  match mode with
  | .all => 0x23 :: escape (whole s)
  | .unknown | .tagged | .carefulcase => if whole s = [] then [] else 0x23 :: escape (stem s)
  | .bilgen | .clean => escape (stem s)
  | .taggedNm => inTags [0x23] s

/-- For a unit with forms. -/
def formed (mode : Mode) (s : RSyn) (forms : UString) : UString :=
  match mode with
  | .tagged | .taggedNm => 0x5e :: forms ++ 0x2f :: escape (stem s) ++ tags s ++ [0x24]
  | _ => forms

/-- What is written for the forms of `s`: all of them, each once, the best first; or what is written if there is none. -/
def Generates [Add W] [Zero W] [LinearOrder W] (σ : Setting W) (name : Int → UString) (mode : Mode) (s : RSyn) (out : UString) : Prop :=
  ∃ xs, SymsOf false (some σ.alphabet) s.toks xs ∧
    let A := Form σ name (way σ (mode = .carefulcase)) (secondUpper σ (whole s)) (firstUpper σ (whole s)) xs
    (∃ rs, rs ≠ [] ∧ Best A rs ∧ out = formed mode s (slashed (rs.map fun x => x.1 ++ σ.showWeight x.2))) ∨
      ((∀ t w, ¬ A t w) ∧ out = formless mode s)

/-- What is written for a reading. -/
def Reads [Add W] [Zero W] [LinearOrder W] (σ : Setting W) (name : Int → UString) (mode : Mode) (s : RSyn) (out : UString) : Prop :=
  if s.mark = some '*'.toNat then out = starText mode [0x2a] s
  else if s.mark = some '%'.toNat then out = starText mode [0x25] s
  else if s.mark = some '@'.toNat then out = atText mode [0x40] s
  else if s.mark = some '='.toNat then ∃ t, out = 0x3d :: t ∧ Generates σ name mode s t
  else Generates σ name mode s out

/-- What is written for an item of a stream: the blanks, and what is written for the first reading. -/
def Writes [Add W] [Zero W] [LinearOrder W] (σ : Setting W) (name : Int → UString) (mode : Mode) : Item → UString → Prop
  | .unit blank wb rs, out => ∃ s t, rs.head? = some s ∧ Reads σ name mode s t ∧
      out = enc (blankText blank) ++ (wb.elim [] fun w => enc (wblankText w)) ++ t
  | .null blank, out => out = enc (blankText blank) ++ [0]

/-! ## Settings -/

/-- What is taken for granted about ICU's tables, `std::sort` and the options. -/
structure Regular [LinearOrder W] (σ : Setting W) (name : Int → UString) : Prop where
  alphabet : σ.alphabet.Ok
  sortPerm : ∀ l, (σ.sort l).Perm l
  sortLe : ∀ l, (σ.sort l).Pairwise fun a b => a.2 ≤ b.2
  /-- The numbers of forms and weight classes are not limited, beyond the size of sets of states at which case folding is turned off. -/
  manyAnalyses : 65536 ≤ σ.maxAnalyses
  manyClasses : 65536 ≤ σ.maxWeightClasses
  zeroUpper : σ.isUpper 0 = false
  lowerZero : ∀ c, σ.toLower c = 0 → c = 0
  upperZero : σ.toUpper 0 = 0
  upperRange : ∀ c, c < 0x110000 → σ.toUpper c < 0x110000
  finals : (σ.finals.map (·.1)).Nodup
  /-- The graph is finite and has no cycles that read nothing. -/
  finite : ∃ k, Finite σ.graph k
  noCycle : ∀ q, NoEpsCycle σ.graph q
  /-- What arcs write is a symbol of the alphabet. -/
  names : ∀ q l p, Arc σ.graph q l p → l.2.2.1 < 0x110000 ∧ (l.2.2.1 < 0 → σ.alphabet.tagText l.2.2.1 = .ok (name l.2.2.1))

end Verif.Gen
