import Verif.Compiler.Spec
import Verif.Chain.Model
import Verif.BinIO.Props
import Verif.Load.Spec
import Verif.Proc.Spec

/-!
# What a dictionary makes of a text

The longest match of words in a text, by what a dictionary says about them. Nothing here refers to transducers, files or states.
-/

namespace Verif.Chain

open Verif.Compiler (Settings File SecGives sides)
open Verif.Load (Kind HasKind)
open Verif.Proc (Setting Piece Token Folds vals surface analysisText)

/-- What is to be known about a dictionary to divide a text. -/
structure Lexicon where
  /-- The text is an entry of a section of this kind. -/
  has : Kind → List Int → Prop
  /-- Some entry starts with the text. -/
  starts : List Int → Prop
  /-- The text, with this surface form, has this analysis. -/
  analysed : List Int → UString → UString → Prop

variable {N V W : Type}

/-- A section of this name has the pair: `x` is read and `y` is written. -/
def Says (s : Settings) (f : File N V) (k : UString) (x y : List Int) : Prop := SecGives s f k (sides s x y).1 (sides s x y).2

/-- The dictionary `f`, compiled with the settings `s`, and looked up with the options `o`. -/
def lexicon [Zero W] (o : Setting W) (name : Int → UString) (s : Settings) (f : File N V) : Lexicon where
  has κ xs := ∃ k x y, HasKind k κ ∧ Says s f k x y ∧ List.Forall₂ (Folds o) xs x
  starts xs := xs = [] ∨ ∃ k x y zs, Says s f k (x ++ zs) y ∧ List.Forall₂ (Folds o) xs x
  analysed xs sf t := ∃ k x y, Says s f k x y ∧ List.Forall₂ (Folds o) xs x ∧ t = analysisText o name sf (decide (x ≠ xs)) (y.map fun c => (c, (0 : W)))

/-- The text of a tag. -/
def tagName (f : File N V) (c : Int) : UString := 0x3c :: (f.tags[(-c - 1).toNat]?.getD []) ++ [0x3e]

/-! ## Words in a text -/

variable (L : Lexicon) (o : Setting W)

/-- An entry of a section in which words need not end where letters end. -/
def Special (xs : List Int) : Prop := L.has .inconditional xs ∨ L.has .postblank xs ∨ L.has .preblank xs

/-- An entry. -/
def Entry (xs : List Int) : Prop := L.has .standard xs ∨ Special L xs

/-- `ys` is a word at the beginning of the text `xs`. -/
def Good (xs ys : List Int) : Prop := ys ≠ [] ∧ ∃ v zs, xs = ys ++ v :: zs ∧ Entry L ys ∧ (Special L ys ∨ o.isAlphabetic v = false)

/-- It is one only because it ends where letters end. -/
def Std (xs ys : List Int) : Prop := Good L o xs ys ∧ ¬ Special L ys

/-- There is a word of a postblank section after the last one that is one only because it ends where letters end. -/
def After (xs : List Int) : Prop :=
  ∃ ys, Good L o xs ys ∧ L.has .postblank ys ∧ ¬ L.has .inconditional ys ∧ ∀ zs, Std L o xs zs → zs.length < ys.length

/-- The same for preblank sections. -/
def Before (xs : List Int) : Prop :=
  ¬ After L o xs ∧ ∃ ys, Good L o xs ys ∧ L.has .preblank ys ∧ ¬ L.has .inconditional ys ∧ ¬ L.has .postblank ys ∧
    ∀ zs, Std L o xs zs → zs.length < ys.length

/-- `lf` lists the analyses of `xs`, each once, in the order of some weights. -/
def Lists [LE W] (xs : List Int) (sf lf : UString) : Prop :=
  ∃ rs : List (UString × W), lf = rs.flatMap (fun x => 0x2f :: (x.1 ++ o.showWeight x.2)) ∧ (rs.map (·.1)).Nodup ∧
    rs.Pairwise (fun a b => a.2 ≤ b.2) ∧ ∀ t, t ∈ rs.map (·.1) ↔ L.analysed xs sf t

/-- The token that is right before `rest`: the longest known word if there is one; else the longest sequence of letters, or one
character that is no letter. -/
def Next [LE W] (tok : Token) (rest : List Piece) : Prop :=
  let xs := vals (tok.pieces ++ rest)
  match tok with
  | .word before after ps lf => Good L o xs (vals ps) ∧ (∀ zs, Good L o xs zs → zs.length ≤ ps.length) ∧
      (after = true ↔ After L o xs) ∧ (before = true ↔ Before L o xs) ∧ Lists L o (vals ps) (surface ps) lf
  | .lowered ps lf => (∀ zs, ¬ Good L o xs zs) ∧ Proc.LongestRun o ps rest ∧ Entry L (Proc.loweredUnits o ps) ∧
      Lists L o (Proc.loweredUnits o ps) (o.chars.lowerText (surface ps)) lf
  | .unknown ps => (∀ zs, ¬ Good L o xs zs) ∧ Proc.LongestRun o ps rest ∧ ¬ Entry L (Proc.loweredUnits o ps)
  | .char p => (∀ zs, ¬ Good L o xs zs) ∧ o.isAlphabetic (p.val : Int) = false

/-- The tokens of a text: none is left out, and each is the right one. -/
inductive Tokens [LE W] : List Piece → List Token → Prop
  | nil : Tokens [] []
  | cons {tok : Token} {rest : List Piece} {toks : List Token} (h : Next L o tok rest) (hs : Tokens rest toks) :
    Tokens (tok.pieces ++ rest) (tok :: toks)

/-! ## Conditions -/

/-- A text in the stream format. It ends with something that is no letter and that no entry contains, such as a newline. Something that starts
like an entry and goes on with letters fits into the buffer, with the character after it. -/
structure Fit (ps : List Piece) : Prop where
  ok : ∀ p ∈ ps, p.Ok o
  ends : ∀ qs p, ps = qs ++ [p] → o.isAlphabetic (p.val : Int) = false ∧ ∀ xs, L.starts xs → (p.val : Int) ∉ xs
  short : ∀ us ys zs q ws, ps = us ++ (ys ++ zs ++ q :: ws) → L.starts (vals ys) → (∀ v ∈ vals zs, o.isAlphabetic v = true) → (ys ++ zs).length < 2047

/-- No entry starts with a space, the only space inside entries is U+0020, and entries that do not start with a letter start with a character of
the first plane. Upper-case letters are letters. Symbols are characters and tags of the dictionary, which have names of their own; the names of
sections tell their kinds. -/
structure Tame (s : Settings) (f : File N V) : Prop where
  start : ∀ k c x y, Says s f k (c :: x) y → o.chars.isSpace c = false ∧ (o.isAlphabetic c = false → c < 0x10000)
  space : ∀ k x y, Says s f k x y → ∀ c ∈ x, o.chars.isSpace c = true → c = 0x20
  upper : ∀ c, o.chars.isUpper c = true → o.isAlphabetic c = true
  symbols : ∀ k x y, Says s f k x y → ∀ c ∈ y, c < 0x110000 ∧ -(f.tags.length : Int) ≤ c
  kinds : ∀ k x y, Says s f k x y → ∃ κ, HasKind k κ
  tags : f.tags.Nodup

/-- The file is not too big. -/
structure Small (g : V → Compression.Dbl) (letters : UString) (A : Alphabet) (secs : List (UString × Fst.Transducer V)) : Prop where
  letters : letters.length < 2 ^ 30
  writable : A.Writable
  sections : secs.length < 2 ^ 30
  range : ∀ e ∈ secs, e.1.length < 2 ^ 30 ∧ BinIO.InRange 0 (stored g e.2)

end Verif.Chain
