import Verif.Post.Model
import Verif.Walk.Spec
import Verif.Stream.Spec

/-!
# What a postgenerator should write

The text is divided into words and blanks. From left to right, the longest entry of the dictionary that starts at a position replaces what it
covers, also across words, and the search goes on behind it. Words that are joined by an entry share their blanks. Nothing here refers to
sets of states, to queues or to the way in which the file is read.
-/

namespace Verif.Post

open Verif.State Verif.Stream Verif.Walk

variable {W : Type}

/-! ## The text -/

/-- A piece of a blank: a space, or a superblank. -/
inductive Piece
  | space (c : Nat)
  | super (ts : List Tok)
  deriving DecidableEq

def Piece.text : Piece → List Nat
  | .space c => [c]
  | .super ts => blockText '['.toNat ']'.toNat ts

def Piece.WF (σ : Setting W) : Piece → Prop
  | .space c => Scalar c ∧ σ.isSpace c = true
  | .super ts => (∀ t ∈ ts, t.Inside ']'.toNat) ∧ ts.head? ≠ some (.raw '['.toNat)

abbrev Blank := List Piece

def Blank.text (b : Blank) : List Nat := b.flatMap Piece.text

/-- A letter of a word: a character, a character after a backslash, or a tag. -/
inductive Letter
  | chr (t : Tok)
  | tag (ts : List Tok)
  deriving DecidableEq

def Letter.text : Letter → List Nat
  | .chr t => t.text
  | .tag ts => blockText '<'.toNat '>'.toNat ts

/-- Escaped spaces are left out; what becomes of them is shown in `C74_escaped_space_false`. -/
def Letter.WF (σ : Setting W) : Letter → Prop
  | .chr (.raw c) => Scalar c ∧ c ≠ 0 ∧ c ≠ '['.toNat ∧ c ≠ '\\'.toNat ∧ c ≠ '<'.toNat ∧ σ.isSpace c = false
  | .chr (.esc c) => Scalar c ∧ c ≠ 0 ∧ c ≠ 0x20
  | .tag ts => ∀ t ∈ ts, t.Inside '>'.toNat

/-- The symbol of a letter. Tags that are not in the alphabet have the symbol 0. -/
def Letter.Is (a : Alphabet) : Letter → Int → Prop
  | .chr (.raw c), x => x = c
  | .chr (.esc c), x => x = c
  | .tag ts, x => a.HasTag x (enc (blockText '<'.toNat '>'.toNat ts)) ∨ (enc (blockText '<'.toNat '>'.toNat ts) ∉ a.slexicinv ∧ x = 0)

/-- A part of a word: a letter; or, in words with a word-bound blank, a blank. -/
inductive Part
  | letter (l : Letter)
  | gap (b : Blank)
  deriving DecidableEq

def Part.text : Part → List Nat
  | .letter l => l.text
  | .gap b => b.text

def Part.isGap : Part → Bool
  | .gap _ => true
  | _ => false

def Part.WF (σ : Setting W) : Part → Prop
  | .letter l => l.WF σ
  | .gap b => b ≠ [] ∧ ∀ p ∈ b, p.WF σ

def Part.Is (a : Alphabet) : Part → Int → Prop
  | .letter l, x => l.Is a x
  | .gap _, x => x = 0x20

/-- A word with the blank before it, and its word-bound blank. -/
structure Word where
  blank : Blank
  mark : Option (List Tok)
  parts : List Part
  deriving DecidableEq

/-- `[[/]]` -/
def closing : List Nat := ['['.toNat, '['.toNat, '/'.toNat, ']'.toNat, ']'.toNat]

def Word.text (w : Word) : List Nat :=
  w.blank.text ++ (w.mark.elim [] wblankText) ++ w.parts.flatMap Part.text ++ w.mark.elim [] fun _ => closing

/-- Blanks in words are not next to each other, and only in words with a word-bound blank. -/
structure Word.WF (σ : Setting W) (w : Word) : Prop where
  blank : ∀ p ∈ w.blank, p.WF σ
  mark : ∀ ts, w.mark = some ts → WBody ts
  parts : ∀ p ∈ w.parts, p.WF σ
  nonempty : w.parts ≠ []
  gaps : w.mark = none → ∀ p ∈ w.parts, p.isGap = false
  apart : w.parts.IsChain fun p q => ¬ (p.isGap = true ∧ q.isGap = true)

/-- Between words without word-bound blanks there is a blank. -/
def Apart (v w : Word) : Prop := w.blank ≠ [] ∨ v.mark ≠ none ∨ w.mark ≠ none

/-- A text up to a null character or the end of the file. -/
structure Seg where
  words : List Word
  last : Blank
  deriving DecidableEq

def Seg.text (s : Seg) : List Nat := s.words.flatMap Word.text ++ s.last.text

structure Seg.WF (σ : Setting W) (s : Seg) : Prop where
  words : ∀ w ∈ s.words, w.WF σ
  apart : s.words.IsChain Apart
  last : ∀ p ∈ s.last, p.WF σ

/-- The end of the file is after a blank or a word with a word-bound blank. -/
def Seg.Closed (s : Seg) : Prop := s.last = [] → ∀ w, s.words.getLast? = some w → w.mark ≠ none

/-- The segments with null characters in between. -/
def fileText : List Seg → List Nat
  | [] => []
  | [s] => s.text
  | s :: ss => s.text ++ 0 :: fileText ss

/-! ## The dictionary -/

/-- A letter that may be read as a lower-case letter. -/
def folds (σ : Setting W) (x : Int) : Bool := σ.isUpper x && !σ.caseSensitive

/-- How symbols are read: as they are, or as lower-case letters. Where the dictionary writes the lower-case letter, the letter that was read is
written. -/
def way (σ : Setting W) : Way where
  allow _ x z := x ≠ 0 ∧ (z = x ∨ (folds σ x = true ∧ z = σ.toLower x))
  out x o := if folds σ x = true ∧ o = σ.toLower x then x else o

/-- Which of the letters are upper-case letters. -/
def caps (σ : Setting W) (xs : List Int) : List Bool := (xs.filter σ.isAlphabetic).map σ.isUpper

/-- The first letter is an upper-case letter; the first two are. -/
def first (σ : Setting W) (xs : List Int) : Bool := (caps σ xs)[0]? == some true
def upper (σ : Setting W) (xs : List Int) : Bool := first σ xs && (caps σ xs)[1]? == some true

/-- Letters become upper-case letters, tags do not. -/
def up (σ : Setting W) (x : Int) : Int := if 0 < x then σ.toUpper x else x

/-- The first letter, or the one after `~`, becomes an upper-case letter. -/
def capitalised (σ : Setting W) : List Int → List Int
  | [] => []
  | [x] => if x = 0x7e then [x] else [up σ x]
  | x :: y :: xs => if x = 0x7e then x :: up σ y :: xs else up σ x :: y :: xs

/-- What is written for the symbols of an entry. If some letter was read as a lower-case one, letters become upper-case letters. -/
def shown (σ : Setting W) (upper first changed : Bool) (ys : List Int) : List Int :=
  let zs := (ys.filter (· ≠ 0)).map (if changed && upper then up σ else id)
  if changed && first then capitalised σ zs else zs

/-- An entry that reads `xs`: what is written for it, and its weight. -/
def Entry [Add W] [Zero W] (σ : Setting W) (xs m : List Int) (w : W) : Prop :=
  ∃ ls wr ch p w0, Walk σ.graph σ.root (way σ) xs ls wr ch p ∧ (p, w0) ∈ σ.finals ∧ w = w0 + (wr.map (·.2)).sum ∧
    m = shown σ (upper σ xs) (first σ xs) ch (wr.map (·.1))

/-- `xs` is replaced by `m`: an entry with the least weight. -/
def Match [Add W] [Zero W] [LE W] (σ : Setting W) (xs m : List Int) : Prop := ∃ w, Entry σ xs m w ∧ ∀ m' w', Entry σ xs m' w' → w ≤ w'

/-! ## Rewriting -/

/-- Words that have been joined: the blank before them and the blanks inside, the word-bound blank, and the symbols. -/
structure Front where
  blanks : List UString
  mark : Option UString
  word : List Int
  deriving DecidableEq

/-- The contents of word-bound blanks are joined with `; `. -/
def joinMarks : Option UString → Option UString → Option UString
  | some x, some y => some (x ++ [0x3b, 0x20] ++ y)
  | some x, none => some x
  | none, y => y

def join (f g : Front) : Front := ⟨f.blanks ++ g.blanks, joinMarks f.mark g.mark, f.word ++ 0x20 :: g.word⟩

/-- A word and the words behind it, with spaces in between. -/
def ahead (f : Front) (rest : List Front) : List Int := f.word ++ rest.flatMap fun g => 0x20 :: g.word

/-- A word is joined with the words behind it until it has `n` symbols. -/
def gather (n : Nat) : Front → List Front → Front × List Front
  | f, [] => (f, [])
  | f, g :: rest => if n ≤ f.word.length then (f, g :: rest) else gather n (join f g) rest

/-- The longest part at the start of `ys` that is replaced: its length, and by what. -/
def Longest [Add W] [Zero W] [LE W] (σ : Setting W) (ys : List Int) (k : Nat) (m : List Int) : Prop :=
  k ≤ ys.length ∧ Match σ (ys.take k) m ∧ ∀ j, k < j → j ≤ ys.length → ∀ m', ¬ Match σ (ys.take j) m'

/-- The entry ends with a space at the end of a word, and so does what is written for it: the words before and behind the space are not
joined. -/
def Edge (f : Front) (s : Nat) (rest : List Front) (k : Nat) (m : List Int) : Prop :=
  0 < k ∧ (gather (s + k - 1) f rest).1.word.length = s + k - 1 ∧ m.getLast? = some 0x20

/-- The number of symbols at the end that are the same. -/
def overlap (a b : List Int) : Nat := ((a.reverse.zip b.reverse).takeWhile fun p => p.1 = p.2).length

/-- `k` symbols after the first `s` are replaced by `m`; and where the search goes on: before the symbols at the end that have not changed, but
behind `s`. The position is counted in the old text, also if the new one is shorter or longer. -/
def replaced (f : Front) (s : Nat) (rest : List Front) (k : Nat) (m : List Int) : Front × Nat × List Front :=
  let (g, rest) := gather (s + k) f rest
  let xs := (g.word.drop s).take k
  ({ g with word := g.word.take s ++ m ++ g.word.drop (s + k) }, max (s + 1) (s + k - overlap m xs), rest)

/-- What is done at position `s` of a word. -/
inductive Step [Add W] [Zero W] [LE W] (σ : Setting W) (f : Front) (s : Nat) (rest : List Front) : Front × Nat × List Front → Prop
  | none (h : ∀ j ≤ ((ahead f rest).drop s).length, ∀ m, ¬ Match σ (((ahead f rest).drop s).take j) m) : Step σ f s rest (f, s + 1, rest)
  | within {k m} (h : Longest σ ((ahead f rest).drop s) k m) (he : ¬ Edge f s rest k m) : Step σ f s rest (replaced f s rest k m)
  | upto {k m} (h : Longest σ ((ahead f rest).drop s) k m) (he : Edge f s rest k m) : Step σ f s rest (replaced f s rest (k - 1) m.dropLast)

/-- How words are rewritten from left to right: from a position in a word that is being rewritten, or from the start of the next word. -/
inductive Pass [Add W] [Zero W] [LE W] (σ : Setting W) : Option (Front × Nat) → List Front → List Front → Prop
  | done : Pass σ none [] []
  | start {f rest gs} (h : Pass σ (some (f, 0)) rest gs) : Pass σ none (f :: rest) gs
  | go {f s rest f' s' rest' gs} (h : Step σ f s rest (f', s', rest')) (hs : s' < f'.word.length) (h' : Pass σ (some (f', s')) rest' gs) :
    Pass σ (some (f, s)) rest gs
  | emit {f s rest f' s' rest' gs} (h : Step σ f s rest (f', s', rest')) (hs : f'.word.length ≤ s') (h' : Pass σ none rest' gs) :
    Pass σ (some (f, s)) rest (f' :: gs)

/-! ## Output -/

/-- A symbol as it is written, with a backslash before special characters. -/
def symText (name : Int → UString) (x : Int) : UString :=
  if x = 0 then [] else if x < 0 then name x else (if x ∈ Gen.escapedCps then [0x5c] else []) ++ utf16 x.toNat

/-- The symbols of a word, where the spaces are replaced by the blanks as long as there are any; and the blanks that are left. -/
def fill (σ : Setting W) (name : Int → UString) : List Int → List UString → UString × List UString
  | [], bs => ([], bs)
  | x :: xs, bs =>
    if x = 0x20 then
      match bs with
      | [] => (0x20 :: (fill σ name xs []).1, (fill σ name xs []).2)
      | b :: bs => (b ++ (fill σ name xs bs).1, (fill σ name xs bs).2)
    else if σ.dropTilde = true ∧ x = 0x7e then fill σ name xs bs
    else (symText name x ++ (fill σ name xs bs).1, (fill σ name xs bs).2)

/-- What is written for a word: the blank before it, the word in its word-bound blank, and the blanks that are left, except single spaces. -/
def Front.out (σ : Setting W) (name : Int → UString) (f : Front) : UString :=
  let (s, bs) := fill σ name f.word f.blanks.tail
  f.blanks.headD [] ++ (f.mark.elim [] fun x => [0x5b, 0x5b] ++ x ++ [0x5d, 0x5d]) ++ s ++ (f.mark.elim [] fun _ => enc closing) ++
    (bs.filter (· ≠ [0x20])).flatten

/-- A word before it is rewritten. -/
structure Word.Front (a : Alphabet) (w : Word) (f : Post.Front) : Prop where
  blanks : f.blanks = enc w.blank.text :: w.parts.filterMap fun
    | .gap b => some (enc b.text)
    | .letter _ => none
  mark : f.mark = w.mark.map fun ts => enc (toksText ts)
  word : List.Forall₂ (Part.Is a) w.parts f.word

/-- What is written for a segment. -/
def Seg.Out [Add W] [Zero W] [LE W] (σ : Setting W) (name : Int → UString) (s : Seg) (out : UString) : Prop :=
  ∃ fs gs, List.Forall₂ (Word.Front σ.alphabet) s.words fs ∧ Pass σ none fs gs ∧ out = gs.flatMap (Front.out σ name) ++ enc s.last.text

/-- Texts with null characters in between. -/
def nulled : List UString → UString
  | [] => []
  | [t] => t
  | t :: ts => t ++ 0 :: nulled ts

/-! ## Settings -/

/-- A letter of the basic plane. -/
def Plain (x : Int) : Prop := 0 < x ∧ x < 0x10000 ∧ ¬ (0xd800 ≤ x ∧ x < 0xe000)

/-- What is taken for granted about ICU's tables, `std::sort`, the dictionary and the options. -/
structure Regular [LinearOrder W] (σ : Setting W) (name : Int → UString) : Prop where
  alphabet : σ.alphabet.Ok
  names : ∀ c t, σ.alphabet.HasTag c t → name c = t
  sortPerm : ∀ l, (σ.sort l).Perm l
  sortLe : ∀ l, (σ.sort l).Pairwise fun a b => a.2 ≤ b.2
  classes : 0 < σ.maxWeightClasses
  /-- Weights are not written. -/
  silent : ∀ w, σ.showWeight w = []
  upperPos : ∀ x, σ.isUpper x = true → 0 < x
  lowerPos : ∀ x, σ.isUpper x = true → 0 < σ.toLower x ∧ σ.toLower x ≠ x
  lowerPlain : ∀ x, σ.isUpper x = true → Plain (σ.toLower x) → Plain x
  upperZero : σ.toUpper 0 = 0
  upperPlain : ∀ x, Plain x → Plain (σ.toUpper x)
  upperRange : ∀ c, c < 0x110000 → σ.toUpper c < 0x110000
  upperSpecial : ∀ x, x ∈ Gen.escapedCps → σ.toUpper x = x
  upperOther : ∀ x, σ.toUpper x ∈ Gen.escapedCps → x ∈ Gen.escapedCps
  space : σ.isSpace 0x20 = true
  spaces : ∀ c ∈ ['['.toNat, '\\'.toNat, '<'.toNat, 0, 0xFFFF], σ.isSpace c = false
  finals : (σ.finals.map (·.1)).Nodup
  /-- The graph is finite and has no cycles that read nothing. -/
  finite : ∃ k, Finite σ.graph k
  noCycle : ∀ q, NoEpsCycle σ.graph q
  /-- What arcs write is nothing, a letter of the basic plane, or a tag of the alphabet in angle brackets. -/
  writes : ∀ q l p, Arc σ.graph q l p → l.2.2.1 = 0 ∨ Plain l.2.2.1 ∨
    (l.2.2.1 < 0 ∧ σ.alphabet.HasTag l.2.2.1 (name l.2.2.1) ∧ ∃ i : UString, name l.2.2.1 = 0x3c :: i ++ [0x3e] ∧ (0x3e : UInt16) ∉ i)

/-- The number of letters that a path reads as other letters. -/
def changes (xs : List Int) (ls : List (Label W)) : Nat := ((ls.filter fun l => l.1 ≠ 0).zip xs).countP fun p => p.1.1 ≠ p.2

/-- There are fewer than 65536 paths that read a text, where each path counts twice for each letter that it reads as another letter. -/
def Few (σ : Setting W) : Prop := ∀ xs (L : List (List (Label W) × List Bool)), L.Nodup →
  (∀ e ∈ L, (∃ wr ch p, Walk σ.graph σ.root (way σ) xs e.1 wr ch p) ∧ e.2.length = changes xs e.1) → L.length < 65536

/-- Each replacement makes the text longer by less than the search goes on. For example, no entry writes more symbols than it reads. -/
def Settles [Add W] [Zero W] [LE W] (σ : Setting W) : Prop :=
  ∀ xs m, Match σ xs m → m.length < xs.length + max 1 (xs.length - overlap m xs)

/-! ## Texts that are not changed -/

/-- Special characters are after backslashes, other characters are not; there are no `~` that would be removed, and tags are in the alphabet. -/
def Part.Canonical (σ : Setting W) : Part → Prop
  | .letter (.chr (.raw c)) => (c : Int) ∉ Gen.escapedCps ∧ ¬ (σ.dropTilde = true ∧ (c : Int) = 0x7e)
  | .letter (.chr (.esc c)) => (c : Int) ∈ Gen.escapedCps
  | .letter (.tag ts) => enc (blockText '<'.toNat '>'.toNat ts) ∈ σ.alphabet.slexicinv
  | .gap _ => True

/-- No entry reads a part of the text. -/
def Seg.Untouched [Add W] [Zero W] [LE W] (σ : Setting W) (s : Seg) : Prop :=
  ∀ f rest, List.Forall₂ (Word.Front σ.alphabet) s.words (f :: rest) → ∀ xs m, xs <:+: ahead f rest → ¬ Match σ xs m

end Verif.Post
