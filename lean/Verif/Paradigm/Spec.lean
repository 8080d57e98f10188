import Verif.Trim.Spec
import Verif.Data.Utf16
import Mathlib.Data.Prod.Lex

/-! # What `lt-paradigm` is meant to list -/

namespace Verif.Paradigm

open Verif.Fst
open Verif.Tools (Has Dictionary)
open Verif.Unified (Pairs)
open Verif.Compression (isLead isTrail)

/-- The parts of patterns: a letter, which may be written with a backslash; a tag `<n>`; `*` for any letters; `<|a|b>` for one of these tags;
`<*|a|b>` for any number of these tags; `<*-a-b>` for any tags but these, with `<*>` for any tags. -/
inductive Item where
  | letter (u : UInt16) (escaped : Bool)
  | tag (n : UString)
  | star
  | one (ns : List UString)
  | some (ns : List UString)
  | but (ns : List UString)

/-- A name in brackets. -/
def tagOf (n : UString) : UString := 0x3c :: n ++ [0x3e]

/-- How a part is written. -/
def Item.text : Item → UString
  | .letter u e => if e then [0x5c, u] else [u]
  | .tag n => tagOf n
  | .star => [0x2a]
  | .one ns => tagOf (0x7c :: ([0x7c] : UString).intercalate ns)
  | .some ns => tagOf (0x2a :: 0x7c :: ([0x7c] : UString).intercalate ns)
  | .but ns => tagOf (0x2a :: ns.flatMap (0x2d :: ·))

/-- A name that can be written between the separators. -/
def Clean (sep : UInt16) (n : UString) : Prop := n ≠ [] ∧ sep ∉ n ∧ 0x3e ∉ n ∧ 0x5c ∉ n

/-- The part means what it says: letters are in the basic plane, `\` and `<` have a backslash before them, and no letter is `*` or 0; tags are known, as is one of the
tags of which one is asked for; the special parts are not themselves known as tags. -/
def Item.Proper (known : List UString) : Item → Prop
  | .letter u e => isLead u = false ∧ isTrail u = false ∧ ((u = 0x5c ∨ u = 0x3c) → e = true) ∧ u ≠ 0x2a ∧ u ≠ 0
  | .tag n => 0x3e ∉ n ∧ tagOf n ∈ known ∧ n ≠ [0x2a]
  | .star => True
  | .one ns => (∀ n ∈ ns, Clean 0x7c n) ∧ (∃ n ∈ ns, tagOf n ∈ known) ∧ (Item.one ns).text ∉ known
  | .some ns => (∀ n ∈ ns, Clean 0x7c n) ∧ (Item.some ns).text ∉ known
  | .but ns => (∀ n ∈ ns, Clean 0x2d n) ∧ (ns ≠ [] → (Item.but ns).text ∉ known)

/-- What a part of a pattern stands for, with the letters of the dictionary and the excluded tags. -/
def Item.Fits (letters : List UInt32) (exclude : List UString) : Item → List Name → Prop
  | .letter u _, Y => Y = [.letter u.toNat]
  | .tag n, Y => Y = [.tag (tagOf n)]
  | .star, Y => ∀ m ∈ Y, ∃ c ∈ letters, m = .letter c.toNat
  | .one ns, Y => ∃ n ∈ ns, Y = [.tag (tagOf n)]
  | .some ns, Y => ∀ m ∈ Y, ∃ n ∈ ns, m = .tag (tagOf n)
  | .but ns, Y => ∀ m ∈ Y, ∃ s, m = .tag s ∧ s ∉ exclude ∧ ∀ n ∈ ns, s ≠ tagOf n

/-- What a pattern stands for. -/
def Fits (letters : List UInt32) (exclude : List UString) : List Item → List Name → Prop
  | [], Y => Y = []
  | i :: is, Y => ∃ Y1 Y2, Y = Y1 ++ Y2 ∧ i.Fits letters exclude Y1 ∧ Fits letters exclude is Y2

/-- The analysis matches the pattern: what comes after the last join is what the pattern stands for, and what comes before each join is a beginning
of that. The marks of compounds do not matter. -/
def Matches (letters : List UInt32) (exclude : List UString) (is : List Item) (Y : List Name) : Prop :=
  ∃ (parts : List (List Name)) (last : List Name), Y = (parts.map (· ++ [.letter 0x2b])).flatten ++ last ∧
    (∀ p ∈ parts, ∃ p', Fits letters exclude is (Trim.unmarked p ++ p')) ∧ Fits letters exclude is (Trim.unmarked last)

/-- The dictionary has this form with this analysis. Analyses are on the right side in an analyser, else on the left. -/
def Entry (analyser : Bool) (bs : List UInt8) (k : UString) (form analysis : List Name) : Prop :=
  if analyser then Pairs bs k form analysis else Pairs bs k analysis form

/-- The text of a symbol. -/
def nameText : Name → UString
  | .letter c => utf16 c.toNat
  | .tag s => s

/-- The text of a list of symbols. -/
def textOf (Y : List Name) : UString := Y.flatMap nameText

/-- A dictionary without queues and groups on the side of the analyses. -/
structure Listable (analyser : Bool) (bs : List UInt8) (L : List UInt32) (a : Alphabet) (ts : List (UString × Transducer Compression.Dbl)) : Prop where
  dict : Dictionary bs L a ts
  entries : ∀ k, Has bs k → ∃ X Y, Pairs bs k X Y
  joining : ∀ e ∈ ts, ∀ q x y w r, PairEdge a e.2 q ((x, y), w) r →
    (if analyser then y else x) ≠ 0x23 ∧ ∀ s ∈ Product.groupTags, ¬ Named a (if analyser then y else x) (.tag s)
  noWildcards : Alphabet.anyChar ∉ a.slexicinv ∧ Alphabet.anyTag ∉ a.slexicinv

/-- Analyses and forms of the dictionary that match the pattern, as texts; neither is empty. -/
def Belongs (analyser : Bool) (bs : List UInt8) (L : List UInt32) (exclude : List UString) (is : List Item) (e : UString × UString) : Prop :=
  ∃ k X Y, Entry analyser bs k X Y ∧ Matches L exclude is Y ∧ X ≠ [] ∧ Y ≠ [] ∧ e = (textOf Y, textOf X)

/-- The characters are a line with this pattern. -/
def Line (known : List UString) (cs : List Nat) (is : List Item) : Prop :=
  (∀ c ∈ cs, c ≠ 0x0a ∧ c ≠ 0) ∧ enc cs = is.flatMap Item.text ∧ ∀ i ∈ is, i.Proper known

/-- The lines of a listing: analysis, colon, form. -/
def printed (es : List (UString × UString)) : UString := es.flatMap fun e => e.1 ++ [0x3a] ++ e.2 ++ [0x0a]

/-- What is listed for a pattern: only what belongs there; all of it, if the dictionary has no cycles; and with `-s` in order, each once. -/
structure Lists (analyser sort : Bool) (bs : List UInt8) (L : List UInt32) (exclude : List UString) (is : List Item) (es : List (UString × UString)) : Prop where
  sound : ∀ e ∈ es, Belongs analyser bs L exclude is e
  complete : (∃ n, ∀ k X Y, Pairs bs k X Y → X.length ≤ n ∧ Y.length ≤ n) → ∀ e, Belongs analyser bs L exclude is e → e ∈ es
  sorted : sort = true → (es.map toLex).Pairwise (· < ·)

/-- The input: the first pattern, and the others with the separators before them. -/
def inputOf (first : List Nat) (rest : List (Nat × List Nat)) : List Nat := first ++ rest.flatMap fun r => r.1 :: r.2

/-- The output: the listings with the same separators. -/
def outputOf (first : List (UString × UString)) (rest : List (Nat × List (UString × UString))) : UString :=
  printed first ++ rest.flatMap fun r => UInt16.ofNat r.1 :: printed r.2

/-- Nothing is joined, and there are no compounds. -/
def Unjoined (Y : List Name) : Prop := .letter 0x2b ∉ Y ∧ ∀ s ∈ Product.compoundTags, .tag s ∉ Y

end Verif.Paradigm
