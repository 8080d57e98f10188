import Verif.Proc.Model
import Verif.State.Spec
import Verif.State.Select
import Verif.Stream.Spec
import Verif.Input.Props

/-!
# What an analyser should write

A text is a list of pieces; the dictionary is a graph with final nodes. Words are found by longest match: nothing here refers to
buffers, positions or the sets of states that the analyser keeps.
-/

namespace Verif.Proc

open Verif.State Verif.Stream
open Verif.Fst (Path)

variable {W : Type}

/-! ## Text -/

/-- A character, a character after a backslash, a superblank `[...]`, a word-bound blank `[[...]]`. -/
inductive Core
  | ch (c : Nat)
  | esc (c : Nat)
  | super (ts : List Tok)
  | wb (ts : List Tok)

namespace Core

/-- The text that is read. -/
def text : Core → List Nat
  | ch c => [c]
  | esc c => ['\\'.toNat, c]
  | super ts => blockText '['.toNat ']'.toNat ts
  | wb ts => wblankText ts

/-- The character that the dictionary sees: blanks count as a space. -/
def val : Core → Nat
  | ch c => c
  | esc c => c
  | super _ => 0x20
  | wb _ => 0x20

/-- The text of a blank. -/
def blank : Core → List UString
  | ch c => if c = 0x20 then [[0x20]] else []
  | esc _ => []
  | super ts => [enc (blockText '['.toNat ']'.toNat ts)]
  | wb ts => [enc (wblankText ts)]

end Core

/-- Some characters that are ignored, and what comes after them. -/
structure Piece where
  skipped : List Nat
  core : Core

/-- The text that is read. -/
def Piece.text (p : Piece) : List Nat := p.skipped ++ p.core.text

/-- What the dictionary sees. -/
def Piece.val (p : Piece) : Nat := p.core.val

/-- The characters of a text that the dictionary sees. -/
def vals (ps : List Piece) : List Int := ps.map fun p => (p.val : Int)

/-- The blanks of a text. -/
def blanksOf (ps : List Piece) : List UString := ps.flatMap fun p => p.core.blank

/-- The text of a word. -/
def surface (ps : List Piece) : UString := enc (ps.map Piece.val)

/-- The characters of the stream format are escaped, spaces are not. -/
def Core.Ok (σ : Setting W) : Core → Prop
  | ch c => Scalar c ∧ c ≠ 0 ∧ c ≠ 0xffff ∧ (c : Int) ∉ escapedCps ∧ (σ.useIgnored = true → c ∉ σ.ignored)
  | esc c => Scalar c ∧ c ≠ 0 ∧ c ≠ 0x20 ∧ σ.chars.isSpace c = false ∧ (σ.useIgnored = true → '\\'.toNat ∉ σ.ignored)
  | super ts => (∀ t ∈ ts, t.Inside ']'.toNat) ∧ ts.head? ≠ some (.raw '['.toNat) ∧ (σ.useIgnored = true → '['.toNat ∉ σ.ignored)
  | wb ts => WBody ts ∧ (σ.useIgnored = true → '['.toNat ∉ σ.ignored)

/-- A piece of a text in the stream format. -/
def Piece.Ok (σ : Setting W) (p : Piece) : Prop :=
  (∀ c ∈ p.skipped, Scalar c ∧ c ≠ 0 ∧ c ≠ 0xffff ∧ σ.useIgnored = true ∧ c ∈ σ.ignored) ∧ p.core.Ok σ

/-! ## Dictionary -/

/-- A letter `x` of the text may be read as `y`. -/
def Folds (σ : Setting W) (x y : Int) : Prop :=
  y = x ∨ (σ.chars.isUpper x = true ∧ σ.caseSensitive = false ∧ y = σ.chars.toLower x)

/-- The path `ls` from the root to `p` reads `xs`. -/
def Reads (σ : Setting W) (xs : List Int) (ls : List (Label W)) (p : Nat) : Prop :=
  Path (Arc σ.graph) σ.root ls p ∧ List.Forall₂ (Folds σ) xs (inputs ls)

/-- The dictionary has an entry that starts with `xs`. -/
def Live (σ : Setting W) (xs : List Int) : Prop := ∃ ls p, Reads σ xs ls p

/-- `xs` is an entry of a section with the final nodes `F`. -/
def In (σ : Setting W) (F : List (Nat × W)) (xs : List Int) : Prop := ∃ ls p w, Reads σ xs ls p ∧ (p, w) ∈ F

/-- The final weight of a node. -/
def Setting.weight (σ : Setting W) (p : Nat) : Option W :=
  (mapFind p σ.standard).or ((mapFind p σ.inconditional).or ((mapFind p σ.postblank).or (mapFind p σ.preblank)))

/-- An entry of a section in which words need not end where letters end. -/
def Special (σ : Setting W) (xs : List Int) : Prop := In σ σ.inconditional xs ∨ In σ σ.postblank xs ∨ In σ σ.preblank xs

/-- An entry. -/
def Entry (σ : Setting W) (xs : List Int) : Prop := In σ σ.standard xs ∨ Special σ xs

/-- `ys` is a word at the beginning of the text `xs`. -/
def Good (σ : Setting W) (xs ys : List Int) : Prop :=
  ys ≠ [] ∧ ∃ v zs, xs = ys ++ v :: zs ∧ Entry σ ys ∧ (Special σ ys ∨ σ.isAlphabetic v = false)

/-- It is one only because it ends where letters end. -/
def Std (σ : Setting W) (xs ys : List Int) : Prop := Good σ xs ys ∧ ¬ Special σ ys

/-- There is a word of a postblank section after the last one that is one only because it ends where letters end. -/
def After (σ : Setting W) (xs : List Int) : Prop :=
  ∃ ys, Good σ xs ys ∧ In σ σ.postblank ys ∧ ¬ In σ σ.inconditional ys ∧ ∀ zs, Std σ xs zs → zs.length < ys.length

/-- The same for preblank sections. -/
def Before (σ : Setting W) (xs : List Int) : Prop :=
  ¬ After σ xs ∧ ∃ ys, Good σ xs ys ∧ In σ σ.preblank ys ∧ ¬ In σ σ.inconditional ys ∧ ¬ In σ σ.postblank ys ∧
    ∀ zs, Std σ xs zs → zs.length < ys.length

/-! ## Analyses -/

/-- The first letter is mapped, or the one after `~`. -/
def capital (up : Int → Int) : UString → UString
  | [] => []
  | [u] => if u = 0x7e then [u] else [UInt16.ofNat (up (u.toNat : Int)).toNat]
  | u :: v :: t => if u = 0x7e then u :: UInt16.ofNat (up (v.toNat : Int)).toNat :: t else UInt16.ofNat (up (u.toNat : Int)).toNat :: v :: t

/-- The first unit of the surface form is an upper-case letter, and cases are to be restored. -/
def firstUpper (σ : Setting W) (sf : UString) : Bool :=
  !σ.dictionaryCase && (sf.head?.map fun u => σ.chars.isUpper (u.toNat : Int)) == some true

/-- There are several units, and the first and the last are upper-case letters. -/
def allUpper (σ : Setting W) (sf : UString) : Bool :=
  firstUpper σ sf && decide (sf.length > 1) && (sf.getLast?.map fun u => σ.chars.isUpper (u.toNat : Int)) == some true

/-- The text of an analysis; `changed` says whether some letter was read as a lower-case one. -/
def analysisText (σ : Setting W) (name : Int → UString) (sf : UString) (changed : Bool) (seq : List (Int × W)) : UString :=
  let t := mapText name (if changed && allUpper σ sf then σ.chars.toUpper else id) escapedCps seq
  if changed && firstUpper σ sf then capital σ.chars.toUpper t else t

/-- `t` is an analysis of `xs` with the weight `w`. -/
def Analysis [Add W] [Zero W] (σ : Setting W) (name : Int → UString) (xs : List Int) (sf t : UString) (w : W) : Prop :=
  ∃ ls p w0, Reads σ xs ls p ∧ σ.weight p = some w0 ∧ w = w0 + ((written ls).map (·.2)).sum ∧
    t = analysisText σ name sf (decide (inputs ls ≠ xs)) (written ls)

/-- `lf` lists the analyses of `xs`: each text once, with its least weight, the best first. -/
def Lists [Add W] [Zero W] [LinearOrder W] (σ : Setting W) (name : Int → UString) (xs : List Int) (sf lf : UString) : Prop :=
  ∃ rs : List (UString × W), lf = rs.flatMap (fun x => 0x2f :: (x.1 ++ σ.showWeight x.2)) ∧ (rs.map (·.1)).Nodup ∧
    rs.Pairwise (fun a b => a.2 ≤ b.2) ∧
    ∀ t w, (t, w) ∈ rs ↔ Analysis σ name xs sf t w ∧ ∀ w', Analysis σ name xs sf t w' → w ≤ w'

/-! ## Settings -/

/-- What is taken for granted about ICU's tables, `std::sort` and the options. -/
structure Regular [LinearOrder W] (σ : Setting W) (name : Int → UString) : Prop where
  /-- Compounds and restored characters are off. -/
  noCompounds : σ.decompose = false
  noRestore : σ.useRestore = false
  sortPerm : ∀ l, (σ.sort l).Perm l
  sortLe : ∀ l, (σ.sort l).Pairwise fun a b => a.2 ≤ b.2
  /-- The numbers of analyses and weight classes are not limited, beyond the size of sets of states at which case folding is turned off. -/
  manyAnalyses : 65536 ≤ σ.maxAnalyses
  manyClasses : 65536 ≤ σ.maxWeightClasses
  space : σ.chars.isSpace 0x20 = true
  spaceAlpha : ∀ c, σ.chars.isSpace c = true → σ.isAlphabetic c = false
  zeroSpace : σ.chars.isSpace 0 = false
  zeroAlpha : σ.isAlphabetic 0 = false
  zeroUpper : σ.chars.isUpper 0 = false
  lowerZero : ∀ c, σ.chars.toLower c = 0 → c = 0
  upperZero : σ.chars.toUpper 0 = 0
  upperRange : ∀ c, c < 0x110000 → σ.chars.toUpper c < 0x110000
  lowerText : ∀ s, s ≠ [] → 0 ∉ s → σ.chars.lowerText s ≠ [] ∧ 0 ∉ σ.chars.lowerText s
  letters : ∀ c ∈ σ.letters, ¬ (0xd800 ≤ c ∧ c < 0xe000)
  standard : σ.standard.Pairwise fun a b => a.1 < b.1
  /-- The graph is finite and has no cycles that read nothing. -/
  finite : ∃ k, Finite σ.graph k
  noCycle : ∀ q, NoEpsCycle σ.graph q
  /-- What arcs write is a symbol of the alphabet. -/
  names : ∀ q l p, Arc σ.graph q l p → l.2.2.1 < 0x110000 ∧ (l.2.2.1 < 0 → σ.alphabet.tagText l.2.2.1 = .ok (name l.2.2.1))

/-- No entry is empty or starts with a space, the only space inside entries is U+0020, and entries that do not start with a letter start with a
character of the first plane. -/
structure Plain (σ : Setting W) : Prop where
  noEmpty : ¬ Entry σ []
  noSpaceStart : ∀ c, Live σ [c] → σ.chars.isSpace c = false
  onlySpace : ∀ xs, Live σ xs → ∀ c ∈ xs, σ.chars.isSpace c = true → c = 0x20
  bmpStart : ∀ c, Live σ [c] → σ.isAlphabetic c = false → c < 0x10000

/-- No text can be read in so many ways that case folding is turned off. -/
def Few (σ : Setting W) : Prop :=
  ∀ xs, (∀ x ∈ xs, x ≠ 0) → ∀ L : List (List (Label W) × Nat), L.Nodup → (∀ e ∈ L, Reads σ xs e.1 e.2) → L.length < 65536

/-- The text ends with something that is no letter and that no entry contains, such as a newline. -/
def Ends (σ : Setting W) (ps : List Piece) : Prop :=
  ∀ qs p, ps = qs ++ [p] → σ.isAlphabetic (p.val : Int) = false ∧ ∀ xs, Live σ xs → (p.val : Int) ∉ xs

/-- Something that starts like an entry and goes on with letters fits into the buffer, with the character after it. -/
def Short (σ : Setting W) (ps : List Piece) : Prop :=
  ∀ us ys zs q ws, ps = us ++ (ys ++ zs ++ q :: ws) → Live σ (vals ys) → (∀ v ∈ vals zs, σ.isAlphabetic v = true) → (ys ++ zs).length < 2047

/-- A text that the analyser can deal with. -/
structure Fit (σ : Setting W) (ps : List Piece) : Prop where
  ok : ∀ p ∈ ps, p.Ok σ
  ends : Ends σ ps
  short : Short σ ps

/-! ## Output -/

/-- What is written for a part of the text. -/
inductive Token
  /-- A known word, with a space before or after. -/
  | word (before after : Bool) (ps : List Piece) (lf : UString)
  /-- A word that is known in lower case. -/
  | lowered (ps : List Piece) (lf : UString)
  | unknown (ps : List Piece)
  | char (p : Piece)

namespace Token

def pieces : Token → List Piece
  | word _ _ ps _ => ps
  | lowered ps _ => ps
  | unknown ps => ps
  | char p => [p]

/-- A text with backslashes before the characters of the stream format. -/
def escape (s : UString) : UString := s.flatMap fun u => if u ∈ Merge.escapedChars then [0x5c, u] else [u]

/-- The output. The blanks inside a word are moved after it, but for plain spaces before the first other blank. -/
def render : Token → UString
  | word before after ps lf =>
    (if before then [0x20] else []) ++ 0x5e :: escape (surface ps) ++ lf ++ 0x24 :: ((blanksOf ps).dropWhile (· = [0x20])).flatten ++
      (if after then [0x20] else [])
  | lowered ps lf => 0x5e :: escape (surface ps) ++ lf ++ [0x24]
  | unknown ps => 0x5e :: escape (surface ps) ++ 0x2f :: 0x2a :: escape (surface ps) ++ [0x24]
  | char p => match p.core.blank with
    | b :: _ => b
    | [] => escape (utf16 p.val)

/-- A token without the analyses. -/
def bare : Token → Token
  | word before after ps _ => word before after ps []
  | lowered ps _ => lowered ps []
  | t => t

end Token

/-- The code units of the lower-cased word, as letters. -/
def loweredUnits (σ : Setting W) (ps : List Piece) : List Int := (σ.chars.lowerText (surface ps)).map fun u => (u.toNat : Int)

/-- The longest sequence of letters: it is not empty, and a character that is no letter follows. -/
def LongestRun (σ : Setting W) (ps rest : List Piece) : Prop :=
  ps ≠ [] ∧ (∀ v ∈ vals ps, σ.isAlphabetic v = true) ∧ ∃ p ps', rest = p :: ps' ∧ σ.isAlphabetic (p.val : Int) = false

/-- The token that is right before `rest`: the longest known word if there is one; else the longest sequence of letters, or one
character that is no letter. -/
def Next [Add W] [Zero W] [LinearOrder W] (σ : Setting W) (name : Int → UString) (tok : Token) (rest : List Piece) : Prop :=
  let xs := vals (tok.pieces ++ rest)
  match tok with
  | .word before after ps lf => Good σ xs (vals ps) ∧ (∀ zs, Good σ xs zs → zs.length ≤ ps.length) ∧
      (after = true ↔ After σ xs) ∧ (before = true ↔ Before σ xs) ∧ Lists σ name (vals ps) (surface ps) lf
  | .lowered ps lf => (∀ zs, ¬ Good σ xs zs) ∧ LongestRun σ ps rest ∧ Entry σ (loweredUnits σ ps) ∧
      Lists σ name (loweredUnits σ ps) (σ.chars.lowerText (surface ps)) lf
  | .unknown ps => (∀ zs, ¬ Good σ xs zs) ∧ LongestRun σ ps rest ∧ ¬ Entry σ (loweredUnits σ ps)
  | .char p => (∀ zs, ¬ Good σ xs zs) ∧ σ.isAlphabetic (p.val : Int) = false

/-- The tokens of a text: none is left out, and each is the right one. -/
inductive Tokens [Add W] [Zero W] [LinearOrder W] (σ : Setting W) (name : Int → UString) : List Piece → List Token → Prop
  | nil : Tokens σ name [] []
  | cons {tok : Token} {rest : List Piece} {toks : List Token} (h : Next σ name tok rest) (hs : Tokens σ name rest toks) :
    Tokens σ name (tok.pieces ++ rest) (tok :: toks)

end Verif.Proc
