import Verif.Alphabet.Lemmas
import Verif.Data.Utf16

/-!
# The Apertium stream format

Blanks and lexical units as lists of tokens, and the text that they stand for. Nothing here refers to the reader, except
that the symbols of a reading are looked up in an alphabet.
-/

namespace Verif.Stream

/-- A character, or a character after a backslash. -/
inductive Tok
  | raw (c : Nat)
  | esc (c : Nat)
  deriving DecidableEq

namespace Tok

def text : Tok → List Nat
  | raw c => [c]
  | esc c => ['\\'.toNat, c]

/-- A token of a block that ends in `stop`. -/
def Inside (stop : Nat) : Tok → Prop
  | raw c => Scalar c ∧ c ≠ stop ∧ c ≠ '\\'.toNat ∧ c ≠ 0
  | esc c => Scalar c

end Tok

def toksText (ts : List Tok) : List Nat := ts.flatMap Tok.text

/-- The text of a block: `<n>`, `{...}`, `[...]`. -/
def blockText (start stop : Nat) (ts : List Tok) : List Nat := start :: toksText ts ++ [stop]

/-- The tokens inside a word-bound blank: in these and the closing brackets, no bracket `]` is followed by another too early. -/
def WBody : List Tok → Prop
  | [] => True
  | t :: ts => (match t with
      | .raw c => Scalar c ∧ c ≠ '\\'.toNat ∧ c ≠ 0 ∧
          (c = ']'.toNat → ∃ u us, ts = u :: us ∧ u ≠ .raw ']'.toNat)
      | .esc c => Scalar c) ∧ WBody ts

def wblankText (ts : List Tok) : List Nat := '['.toNat :: '['.toNat :: toksText ts ++ [']'.toNat, ']'.toNat]

/-- A piece of the text between lexical units. -/
inductive BTok
  | tok (t : Tok)
  | super (ts : List Tok)
  | wb (ts : List Tok)
  deriving DecidableEq

namespace BTok

def text : BTok → List Nat
  | tok t => t.text
  | super ts => blockText '['.toNat ']'.toNat ts
  | wb ts => wblankText ts

/-- Plain characters are none of `^ [ \ NUL U+FFFF`; an escaped character is not NUL; a superblank does not start with `[[`. -/
def WF : BTok → Prop
  | tok (.raw c) => Scalar c ∧ c ≠ '^'.toNat ∧ c ≠ '['.toNat ∧ c ≠ '\\'.toNat ∧ c ≠ 0 ∧ c ≠ 0xFFFF
  | tok (.esc c) => Scalar c ∧ c ≠ 0
  | super ts => (∀ t ∈ ts, t.Inside ']'.toNat) ∧ ts.head? ≠ some (.raw '['.toNat)
  | wb ts => WBody ts

def isWb : BTok → Bool
  | wb _ => true
  | _ => false

end BTok

def blankText (bs : List BTok) : List Nat := bs.flatMap BTok.text

/-- A piece of a reading. -/
inductive RTok
  | tok (t : Tok)
  | tag (ts : List Tok)
  | chunk (ts : List Tok)
  deriving DecidableEq

namespace RTok

def text : RTok → List Nat
  | tok t => t.text
  | tag ts => blockText '<'.toNat '>'.toNat ts
  | chunk ts => blockText '{'.toNat '}'.toNat ts

/-- Plain characters are none of `< { \ / $ NUL`. -/
def WF : RTok → Prop
  | tok (.raw c) => Scalar c ∧ c ≠ '<'.toNat ∧ c ≠ '{'.toNat ∧ c ≠ '\\'.toNat ∧ c ≠ '/'.toNat ∧ c ≠ '$'.toNat ∧ c ≠ 0
  | tok (.esc c) => Scalar c
  | tag ts => ∀ t ∈ ts, t.Inside '>'.toNat
  | chunk ts => ∀ t ∈ ts, t.Inside '}'.toNat

def isChunk : RTok → Bool
  | chunk _ => true
  | _ => false

end RTok

/-- The five marks. -/
def marks : List Nat := ['*'.toNat, '@'.toNat, '#'.toNat, '='.toNat, '%'.toNat]

/-- A reading: a mark or none, and the pieces. -/
structure RSyn where
  mark : Option Nat
  toks : List RTok
  deriving DecidableEq

namespace RSyn

def text (r : RSyn) : List Nat := r.mark.toList ++ r.toks.flatMap RTok.text

/-- A reading without a mark does not start with a plain mark character. -/
structure WF (r : RSyn) : Prop where
  toks : ∀ t ∈ r.toks, t.WF
  mark : ∀ m, r.mark = some m → m ∈ marks
  unmarked : r.mark = none → ∀ c ∈ marks, r.toks.head? ≠ some (.tok (.raw c))

end RSyn

/-- The text of the readings with their separators, and `e` at the end. -/
def readingsTo (e : Nat) : List RSyn → List Nat
  | [] => []
  | [r] => r.text ++ [e]
  | r :: rs => r.text ++ '/'.toNat :: readingsTo e rs

/-- The text of the readings with their separators and the end of the unit. -/
abbrev readingsText (rs : List RSyn) : List Nat := readingsTo '$'.toNat rs

/-- What one call of the reader is about: a lexical unit with the blank before it, or a blank that ends in a NUL. -/
inductive Item
  | unit (blank : List BTok) (wb : Option (List Tok)) (rs : List RSyn)
  | null (blank : List BTok)

namespace Item

def text : Item → List Nat
  | unit blank wb rs => blankText blank ++ (wb.elim [] wblankText) ++ '^'.toNat :: readingsText rs
  | null blank => blankText blank ++ [0]

/-- A unit has at least one reading, and a word-bound blank directly before a unit belongs to the unit. -/
def WF : Item → Prop
  | unit blank wb rs => (∀ b ∈ blank, b.WF) ∧ (∀ w, wb = some w → WBody w) ∧
      (wb = none → ∀ w, blank.getLast? ≠ some (.wb w)) ∧ rs ≠ [] ∧ ∀ r ∈ rs, r.WF
  | null blank => ∀ b ∈ blank, b.WF

end Item

/-- A stream and its text. -/
def streamText (items : List Item) (last : List BTok) : List Nat := items.flatMap Item.text ++ blankText last

/-- `s` is the symbol of a piece of a reading in the alphabet: the code point of a character (escaped or not), the code of a
tag, and 0 for an unknown tag when unknown tags are not added. -/
def SymOf (add : Bool) (a : Alphabet) : RTok → Int → Prop
  | .tok (.raw c), s => s = c
  | .tok (.esc c), s => s = c
  | .tag ts, s => a.HasTag s (enc (blockText '<'.toNat '>'.toNat ts)) ∨
      (add = false ∧ enc (blockText '<'.toNat '>'.toNat ts) ∉ a.slexicinv ∧ s = 0)
  | .chunk _, _ => False

/-- How the reader's alphabet may change: codes stay, and it stays the same when unknown tags are not added. -/
def AlphaStep (add : Bool) : Option Alphabet → Option Alphabet → Prop
  | none, none => True
  | some a, some b => b.Ok ∧ a.Ext b ∧ (add = false → b = a)
  | _, _ => False

/-- The symbols of the pieces of a reading. -/
def SymsOf (add : Bool) (al : Option Alphabet) (toks : List RTok) (syms : List Int) : Prop :=
  match al with
  | none => syms = []
  | some a => List.Forall₂ (SymOf add a) (toks.filter fun t => !t.isChunk) syms

/-- The text of the chunks, and of the rest, of a reading. -/
def chunkText (ts : List RTok) : List Nat := (ts.filter RTok.isChunk).flatMap RTok.text
def contentText (ts : List RTok) : List Nat := (ts.filter fun t => !t.isChunk).flatMap RTok.text

/-- What is reported of a reading. -/
structure ReadsAs (add : Bool) (al : Option Alphabet) (r : RSyn) (mark : Nat) (content : UString) (symbols : List Int) : Prop where
  mark : mark = r.mark.getD 0
  content : content = enc (contentText r.toks)
  symbols : SymsOf add al r.toks symbols

end Verif.Stream
