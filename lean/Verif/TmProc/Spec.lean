import Verif.TmProc.Model
import Verif.Tmx.Said
import Verif.Walk.Spec
import Verif.Stream.Spec

/-!
# What `lt-tmxproc` should write

A text is a list of tokens; the memory is a graph with final nodes. Nothing here refers to buffers, positions or the sets of states that the
processor keeps.
-/

namespace Verif.TmProc

open Verif.State Verif.Stream Verif.Walk
open Verif.Proc (escapedCps)
open Verif.Tmx (Filled slotted finalsText)

variable {W : Type}

/-! ## Text -/

/-- A character, a character after a backslash, a number, a superblank `[...]`, a word-bound blank `[[...]]`. -/
inductive Token
  | ch (c : Nat)
  | esc (c : Nat)
  | num (ds : List Nat)
  | super (ts : List Tok)
  | wb (ts : List Tok)
  deriving DecidableEq

namespace Token

/-- The text that is read. -/
def text : Token → List Nat
  | ch c => [c]
  | esc c => ['\\'.toNat, c]
  | num ds => ds
  | super ts => blockText '['.toNat ']'.toNat ts
  | wb ts => wblankText ts

/-- The symbol that the memory sees: numbers count as `<n>`, blanks as a space. -/
def val : Token → Int
  | ch c => (c : Int)
  | esc c => (c : Int)
  | num _ => -1
  | super _ => 0x20
  | wb _ => 0x20

/-- The text of a blank. -/
def blanks : Token → List UString
  | super ts => [enc (blockText '['.toNat ']'.toNat ts)]
  | wb ts => [enc (wblankText ts)]
  | _ => []

/-- The text of a number. -/
def numbers : Token → List UString
  | num ds => [enc ds]
  | _ => []

/-- How a token is copied as part of a word: without its backslash. -/
def copied : Token → UString
  | ch c => utf16 c
  | esc c => utf16 c
  | num ds => enc ds
  | super ts => enc (blockText '['.toNat ']'.toNat ts)
  | wb ts => enc (wblankText ts)

/-- How a token that stands alone is copied: with a backslash if it is a character of the stream format. -/
def alone : Token → UString
  | esc c => (if (c : Int) ∈ escapedCps then [0x5c] else []) ++ utf16 c
  | t => t.copied

end Token

def vals (ts : List Token) : List Int := ts.map Token.val
def blanksOf (ts : List Token) : List UString := ts.flatMap Token.blanks
def numbersOf (ts : List Token) : List UString := ts.flatMap Token.numbers
def copy (ts : List Token) : UString := ts.flatMap Token.copied
def textOf (ts : List Token) : List Nat := ts.flatMap Token.text

/-- The characters of the stream format are escaped, and so are digits that do not belong to a number. -/
def Token.Ok (τ : Setting W) : Token → Prop
  | ch c => Scalar c ∧ c ≠ 0 ∧ (c : Int) ∉ escapedCps ∧ τ.chars.isDigit c = false
  | esc c => Scalar c ∧ c ≠ 0 ∧ τ.chars.isSpace c = false
  | num ds => (∃ d e, ds = d :: e ∧ 0x30 ≤ d ∧ d ≤ 0x39) ∧ ∀ d ∈ ds, Scalar d ∧ τ.chars.isDigit d = true
  | super ts => (∀ t ∈ ts, t.Inside ']'.toNat) ∧ ts.head? ≠ some (.raw '['.toNat)
  | wb ts => WBody ts

/-- A number is followed by another token, which is not a number. -/
def Apart (ts : List Token) : Prop := ∀ u ds v, ts = u ++ .num ds :: v → ∃ t v', v = t :: v' ∧ ∀ es, t ≠ .num es

/-! ## The memory -/

/-- How symbols are read: as they are, or upper-case letters as lower-case letters. -/
def way (τ : Setting W) : Way where
  allow _ x z := x ≠ 0 ∧ (z = x ∨ (τ.chars.isUpper x = true ∧ z = τ.chars.toLower x))
  out _ o := o

/-- The memory has a segment that starts with `xs`. -/
def Live (τ : Setting W) (xs : List Int) : Prop := ∃ ls wr c p, Walk τ.graph τ.root (way τ) xs ls wr c p

/-- `xs` is a segment of the memory, by the path `ls`, and `s` is what belongs to it. -/
def Has (τ : Setting W) (xs : List Int) (ls : List (Label W)) (s : List Int) : Prop :=
  ∃ wr c p w, Walk τ.graph τ.root (way τ) xs ls wr c p ∧ (p, w) ∈ τ.finals ∧ s = wr.map (·.1)

/-- `xs` is a segment of the memory. -/
def Segment (τ : Setting W) (xs : List Int) : Prop := ∃ ls s, Has τ xs ls s

/-- What belongs to the segment `xs`, in some order: all of it, and nothing more often than there are paths for it. -/
def Targets (τ : Setting W) (xs : List Int) (seqs : List (List Int)) : Prop :=
  (∃ L : List (List (Label W)), L.Nodup ∧ List.Forall₂ (Has τ xs) L seqs) ∧ ∀ ls s, Has τ xs ls s → s ∈ seqs

/-- A word ends before this token. -/
def Break (τ : Setting W) (t : Token) : Prop := τ.chars.isSpace t.val = true ∨ τ.chars.isPunct t.val = true

/-- A segment may end before this symbol: punctuation, and space with the option for it. -/
def Stop (τ : Setting W) (x : Int) : Prop := τ.chars.isPunct x = true ∨ (τ.spaces = true ∧ τ.chars.isSpace x = true)

/-- What is written for the segment `cs` before the token `t`, in whatever order its targets come: references are replaced by the numbers of the
text, and marks of blanks by its blanks, all of which are used. -/
def Written (τ : Setting W) (cs : List Token) (t : Token) (txt : UString) : Prop :=
  ∀ seqs, Targets τ (vals cs) seqs → ∃ ss r, finalsText τ.alphabet seqs = .ok (slotted ss r) ∧
    Filled τ.tables (numbersOf cs) ss r (blanksOf (cs ++ [t])) (0x2f :: txt) (blanksOf [t])

/-- What is written for a text. -/
inductive Says (τ : Setting W) : List Token → UString → Prop where
  | nil : Says τ [] []
  /-- A space or a punctuation mark that begins no segment is copied. -/
  | gap {t : Token} {rest : List Token} {out : UString} : Break τ t → ¬ Live τ (vals [t]) → Says τ rest out → Says τ (t :: rest) (t.alone ++ out)
  /-- A segment is replaced by its target, in brackets. -/
  | segment {cs rest : List Token} {t : Token} {txt out : UString} : cs ≠ [] → Segment τ (vals cs) → Stop τ t.val → ¬ Live τ (vals (cs ++ [t])) →
      Written τ cs t txt → txt ≠ [] → 0 ∉ txt → Says τ (t :: rest) out → Says τ (cs ++ t :: rest) (0x5b :: txt ++ [0x5d] ++ out)
  /-- What is only the beginning of a segment, or a segment not before a stop, is copied. -/
  | part {cs rest : List Token} {t : Token} {out : UString} : cs ≠ [] → Live τ (vals cs) → ¬ (Segment τ (vals cs) ∧ Stop τ t.val) → Break τ t →
      ¬ Live τ (vals (cs ++ [t])) → Says τ (t :: rest) out → Says τ (cs ++ t :: rest) (copy cs ++ out)
  /-- Where no segment goes on, the text is copied up to the end of the word. -/
  | word {pre ws rest : List Token} {w t : Token} {out : UString} : Live τ (vals pre) → ¬ Live τ (vals (pre ++ [w])) → (∀ x ∈ w :: ws, ¬ Break τ x) → Break τ t →
      Says τ (t :: rest) out → Says τ (pre ++ w :: ws ++ t :: rest) (copy (pre ++ w :: ws) ++ out)
  /-- So too if the text ends there, without numbers and blanks in the last piece. -/
  | final {pre ws : List Token} {w : Token} : Live τ (vals pre) → ¬ Live τ (vals (pre ++ [w])) → (∀ x ∈ w :: ws, ¬ Break τ x) →
      numbersOf (pre ++ w :: ws) = [] → blanksOf (pre ++ w :: ws) = [] → Says τ (pre ++ w :: ws) (copy (pre ++ w :: ws))

/-! ## Settings -/

/-- What is taken for granted about ICU's tables and the file. -/
structure Regular (τ : Setting W) : Prop where
  number : τ.alphabet.symCode numberTag = -1
  digits : ∀ d : Nat, 0x30 ≤ d → d ≤ 0x39 → τ.chars.isDigit d = true
  notDigit : τ.chars.isDigit '\\'.toNat = false ∧ τ.chars.isDigit '['.toNat = false
  nul : τ.chars.isDigit 0 = false
  space : τ.chars.isSpace 0x20 = true
  tag : τ.chars.isSpace (-1) = false ∧ τ.chars.isPunct (-1) = false
  lowerZero : ∀ c, τ.chars.toLower c = 0 → c = 0
  /-- The graph is finite and has no cycles that read nothing. -/
  finite : ∃ k, Finite τ.graph k
  noCycle : ∀ q, NoEpsCycle τ.graph q

/-- No segment is empty or begins with a space, and none goes on after another segment with a symbol before which that may end. -/
structure Simple (τ : Setting W) : Prop where
  empty : ¬ Segment τ []
  start : ∀ x, τ.chars.isSpace x = true → ¬ Live τ [x]
  longer : ∀ xs x, Segment τ xs → Stop τ x → ¬ Live τ (xs ++ [x])

end Verif.TmProc
