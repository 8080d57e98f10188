import Verif.Sao.Model
import Verif.Proc.Spec

/-!
# What the SAO mode should write

A text is a list of pieces; the dictionary is a graph with final nodes, as for the analyser. Nothing here refers to buffers, positions or the sets
of states that the processor keeps.
-/

namespace Verif.Sao

open Verif.State Verif.Proc

variable {W : Type}

/-! ## Text -/

/-- The characters that have a backslash before them: the backslash, `<` and `>`. -/
def special : List Int := [0x5c, 0x3c, 0x3e]

/-- A character, a character after a backslash, a section `<![CDATA[...]]>`. -/
inductive Piece
  | ch (c : Nat)
  | esc (c : Nat)
  | cdata (cs : List Nat)

namespace Piece

/-- The text that is read. -/
def text : Piece → List Nat
  | ch c => [c]
  | esc c => [0x5c, c]
  | cdata cs => [0x3c, 0x21, 0x5b, 0x43, 0x44, 0x41, 0x54, 0x41, 0x5b] ++ cs ++ [0x5d, 0x5d, 0x3e]

/-- The character that the dictionary sees: a section counts as a space. -/
def val : Piece → Nat
  | ch c => c
  | esc c => c
  | cdata _ => 0x20

/-- The text of a section. -/
def blank : Piece → List UString
  | cdata cs => [enc (text (cdata cs))]
  | _ => []

/-- Three characters are escaped; sections have no backslashes, and end with the first `]]>`. -/
def Ok : Piece → Prop
  | ch c => Scalar c ∧ c ≠ 0 ∧ (c : Int) ∉ special
  | esc c => (c : Int) ∈ special
  | cdata cs => (∀ c ∈ cs, Scalar c ∧ c ≠ 0 ∧ c ≠ 0x5c) ∧ ∀ xs ys, cs ≠ xs ++ 0x5d :: 0x5d :: 0x3e :: ys

end Piece

/-- The characters of a text that the dictionary sees. -/
def vals (ps : List Piece) : List Int := ps.map fun p => (p.val : Int)

/-- The text of a word. -/
def surface (ps : List Piece) : UString := enc (ps.map Piece.val)

/-! ## Dictionary -/

/-- An entry of a section in which words need not end where letters end. Those of preblank sections are not among them here. -/
def Loose (σ : Setting W) (xs : List Int) : Prop := In σ σ.inconditional xs ∨ In σ σ.postblank xs

/-- `ys` is a word at the beginning of the text `xs`. -/
def Word (σ : Setting W) (xs ys : List Int) : Prop :=
  ys ≠ [] ∧ ∃ v zs, xs = ys ++ v :: zs ∧ Entry σ ys ∧ (Loose σ ys ∨ σ.isAlphabetic v = false)

/-- There is a word with the property `P` after the last one that is one only because it ends where letters end. -/
def Later (σ : Setting W) (xs : List Int) (P : List Int → Prop) : Prop :=
  ∃ ys, Word σ xs ys ∧ P ys ∧ ∀ zs, Word σ xs zs → ¬ Loose σ zs → zs.length < ys.length

/-- A space is to be added after the word: words of inconditional sections come first. -/
def Spaced (σ : Setting W) (xs : List Int) : Prop :=
  Later σ xs (fun ys => In σ σ.postblank ys ∧ ¬ In σ σ.inconditional ys) ∧ ¬ Later σ xs (In σ σ.inconditional)

/-! ## Analyses -/

/-- `<n>` is written `&n;`. -/
def tagForm (t : UString) : UString := 0x26 :: (t.drop 1).take (t.length - 2) ++ [0x3b]

/-- The text of an analysis with the letters mapped by `f`. -/
def formOf (name : Int → UString) (f : Int → Int) (seq : List (Int × W)) : UString :=
  seq.flatMap fun x => (if x.1 ∈ special then [0x5c] else []) ++
    (if x.1 = 0 then [] else if x.1 < 0 then tagForm (name x.1) else utf16 (f x.1).toNat)

/-- The unit is an upper-case letter. -/
def upperUnit (σ : Setting W) (u : Option UInt16) : Bool := (u.map fun u => σ.chars.isUpper (u.toNat : Int)) == some true

/-- The text of an analysis: all letters are mapped if the surface form starts and ends with upper-case letters, the first one if it starts with one. -/
def analysisForm (σ : Setting W) (name : Int → UString) (sf : UString) (seq : List (Int × W)) : UString :=
  let t := formOf name (if upperUnit σ sf.head? && upperUnit σ sf.getLast? then σ.chars.toUpper else id) seq
  if upperUnit σ sf.head? then capital σ.chars.toUpper t else t

/-- `t` is an analysis of the word `xs`, up to the first slash. -/
def IsAnalysis (σ : Setting W) (name : Int → UString) (xs : List Int) (sf t : UString) : Prop :=
  ∃ ls p, Reads σ xs ls p ∧ (σ.weight p).isSome = true ∧ t = (analysisForm σ name sf (written ls)).takeWhile (· ≠ 0x2f)

/-! ## Conditions -/

/-- No entry is empty or starts with a space, tags have names, and the characters that are escaped are no spaces. -/
structure Plain (σ : Setting W) (name : Int → UString) : Prop where
  noEmpty : ¬ Entry σ []
  noSpaceStart : ∀ c, Live σ [c] → σ.chars.isSpace c = false
  tags : ∀ q l p, Arc σ.graph q l p → l.2.2.1 < 0 → name l.2.2.1 ≠ []
  escapedSpace : ∀ c ∈ special, σ.chars.isSpace c = false

/-- The text ends with something that is no letter and that no entry contains, such as a newline. -/
def Ends (σ : Setting W) (ps : List Piece) : Prop :=
  ∀ qs p, ps = qs ++ [p] → σ.isAlphabetic (p.val : Int) = false ∧ ∀ xs, Live σ xs → (p.val : Int) ∉ xs

/-- Something that starts like an entry and goes on with letters fits into the buffer, with the character after it. -/
def Short (σ : Setting W) (ps : List Piece) : Prop :=
  ∀ us ys zs q ws, ps = us ++ (ys ++ zs ++ q :: ws) → Live σ (vals ys) → (∀ v ∈ vals zs, σ.isAlphabetic v = true) → (ys ++ zs).length < 2047

/-- Where no word is known, nothing but letters starts like an entry. -/
def Tidy (σ : Setting W) (ps : List Piece) : Prop :=
  ∀ us ys ws, ps = us ++ (ys ++ ws) → Live σ (vals ys) → (∀ zs, ¬ Word σ (vals (ys ++ ws)) zs) → ∀ v ∈ vals ys, σ.isAlphabetic v = true

/-- What starts like an entry does not reach into a section, and has no spaces before one. -/
def Clear (σ : Setting W) (ps : List Piece) : Prop :=
  ∀ us ys cs ws, ps = us ++ (ys ++ Piece.cdata cs :: ws) → Live σ (vals ys) → (∀ v ∈ vals ys, σ.chars.isSpace v = false) ∧ ¬ Live σ (vals ys ++ [0x20])

/-- A text that the processor can deal with. -/
structure Fit (σ : Setting W) (ps : List Piece) : Prop where
  ok : ∀ p ∈ ps, p.Ok
  ends : Ends σ ps
  short : Short σ ps
  tidy : Tidy σ ps
  clear : Clear σ ps

/-! ## Output -/

/-- What is written for a part of the text. -/
inductive Token
  /-- A known word, maybe with a space after it. -/
  | word (after : Bool) (ps : List Piece) (t : UString)
  | unknown (ps : List Piece)
  | char (p : Piece)

namespace Token

def pieces : Token → List Piece
  | word _ ps _ => ps
  | unknown ps => ps
  | char p => [p]

/-- The output. -/
def render : Token → UString
  | word after _ t => t ++ (if after then [0x20] else [])
  | unknown ps => [0x3c, 0x64, 0x3e] ++ surface ps ++ [0x3c, 0x2f, 0x64, 0x3e]
  | char p => enc p.text

end Token

/-- The longest sequence of letters: it is not empty, and a character that is no letter follows. -/
def LongestRun (σ : Setting W) (ps rest : List Piece) : Prop :=
  ps ≠ [] ∧ (∀ v ∈ vals ps, σ.isAlphabetic v = true) ∧ ∃ p ps', rest = p :: ps' ∧ σ.isAlphabetic (p.val : Int) = false

/-- The token that is right before `rest`: the longest known word if there is one; else the longest sequence of letters, or one
character that is no letter. -/
def Next (σ : Setting W) (name : Int → UString) (tok : Token) (rest : List Piece) : Prop :=
  let xs := vals (tok.pieces ++ rest)
  match tok with
  | .word after ps t => Word σ xs (vals ps) ∧ (∀ zs, Word σ xs zs → zs.length ≤ ps.length) ∧ (after = true ↔ Spaced σ xs) ∧
      IsAnalysis σ name (vals ps) (surface ps) t
  | .unknown ps => (∀ zs, ¬ Word σ xs zs) ∧ LongestRun σ ps rest
  | .char p => (∀ zs, ¬ Word σ xs zs) ∧ σ.isAlphabetic (p.val : Int) = false

/-- The tokens of a text: none is left out, and each is the right one. -/
inductive Tokens (σ : Setting W) (name : Int → UString) : List Piece → List Token → Prop
  | nil : Tokens σ name [] []
  | cons {tok : Token} {rest : List Piece} {toks : List Token} (h : Next σ name tok rest) (hs : Tokens σ name rest toks) :
    Tokens σ name (tok.pieces ++ rest) (tok :: toks)

end Verif.Sao
