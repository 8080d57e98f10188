import Verif.Trans.Model
import Verif.Bil.Spec
import Verif.Alphabet.Format

/-!
# What the functions that translate one unit return

The unit is a list of letters and tags. Nothing here refers to sets of states or to positions in texts.
-/

namespace Verif.Trans

open Verif.State Verif.Walk
open Verif.Gen (Setting Form slashed)
open Verif.Alphabet (Sym)

variable {W : Type}

/-! ## Units -/

/-- A unit: perhaps the mark `=`, then letters and tags. -/
structure LexUnit where
  mark : Bool
  syms : List Sym

/-- The text of a unit, without delimiters. -/
def LexUnit.inner (s : LexUnit) : UString := (if s.mark then [0x3d] else []) ++ s.syms.flatMap Sym.text

/-- The text of a unit. -/
def LexUnit.text (s : LexUnit) (delim : Bool) : UString := if delim then 0x5e :: s.inner ++ [0x24] else s.inner

/-- The last letter or tag without its last character: nothing for a letter, and letters for a tag. -/
def shornLast : Sym → List Sym
  | .letter _ _ => []
  | .tag t => t.dropLast.map fun u => .letter u false

/-- A unit without its last character. -/
def shorn (ss : List Sym) : List Sym := ss.dropLast ++ (ss.getLast?.elim [] shornLast)

/-- A letter that is not special and not a surrogate. -/
def PlainUnit (u : UInt16) : Prop := u ≠ 0x5c ∧ u ≠ 0x3c ∧ Compression.isLead u = false ∧ Compression.isTrail u = false

/-- A unit that is supported: its letters are in the basic plane, special letters are escaped, and its last tag has a plain name. It does
not begin with a letter that is a mark. -/
structure LexUnit.WF (s : LexUnit) : Prop where
  nonempty : s.syms ≠ []
  writable : ∀ x ∈ s.syms, x.Writable
  last : ∀ t, s.syms.getLast? = some (.tag t) → ∀ u ∈ t.tail, PlainUnit u
  star : s.syms.head? ≠ some (.letter 0x2a false) ∨ s.mark = true
  equals : s.syms.head? ≠ some (.letter 0x3d false) ∨ s.mark = true
  short : s.inner.length < 2 ^ 31

/-- The symbol of a letter or tag: 0 for a tag that is not known. -/
def symOf (a : Alphabet) : Sym → Int
  | .letter u _ => (u.toNat : Int)
  | .tag t => a.symCode t

/-! ## Translations -/

/-- How `biltrans` reads symbols: not at all, unless cases count; then as they are, or by arcs for U+0001. -/
def flagWay (σ : Setting W) : Way where
  allow _ x z := σ.caseSensitive = true ∧ x ≠ 0 ∧ (z = x ∨ z = 1)
  out _ o := o

/-- The unit of a text is an upper-case letter. -/
def upperAt (σ : Setting W) (t : UString) (i : Nat) : Bool := σ.isUpper (((t[i]?).getD 0).toNat : Int)

/-- Some path reads the symbols. -/
def Read (σ : Setting W) (y : Way) (xs : List Int) : Prop := ∃ ls wr ch p, Walk σ.graph σ.root y xs ls wr ch p

/-- The translations of the first `k` symbols. The cases are those of the first two characters of the text `t`. -/
def Trans [Add W] [Zero W] (σ : Setting W) (name : Int → UString) (y : Way) (t : UString) (xs : List Int) (k : Nat) : UString → W → Prop :=
  Form σ name y (upperAt σ t 0 && upperAt σ t 1) (upperAt σ t 0) (xs.take k)

/-- `k` is the number of symbols of the longest part at the start, not empty, that has translations. -/
def Longest [Add W] [Zero W] (σ : Setting W) (name : Int → UString) (y : Way) (t : UString) (xs : List Int) (k : Nat) : Prop :=
  0 < k ∧ k ≤ xs.length ∧ (∃ o w, Trans σ name y t xs k o w) ∧ ∀ j, k < j → j ≤ xs.length → ∀ o w, ¬ Trans σ name y t xs j o w

/-- `d` is the number of symbols of the longest part at the start that some path reads, whether or not it is the start of an entry only. -/
def Reach (σ : Setting W) (y : Way) (xs : List Int) (d : Nat) : Prop :=
  d ≤ xs.length ∧ Read σ y (xs.take d) ∧ ∀ j, d < j → j ≤ xs.length → ¬ Read σ y (xs.take j)

/-- The rest: what is after the first `d` symbols, without backslashes. -/
def rest (ss : List Sym) (d : Nat) : UString := (ss.drop d).flatMap Sym.piece

/-- The text of a unit with the translations `ts`. -/
def framed (delim mark : Bool) (ts : List UString) : UString :=
  (if delim then [0x5e] else []) ++ (if mark then [0x3d] else []) ++ slashed ts ++ (if delim then [0x24] else [])

/-- A unit that was not found. -/
def unknown (s : LexUnit) (delim : Bool) : UString := if delim then 0x5e :: 0x40 :: s.inner ++ [0x24] else 0x40 :: s.inner

/-- What is found for a unit: the translations of the longest part at the start of `ss`, the best first; their text; and the rest, after all that can be
read. -/
def Finds [Add W] [Zero W] [LinearOrder W] (σ : Setting W) (name : Int → UString) (y : Way) (t : UString) (ss : List Sym) (ts : List UString) (q : UString) : Prop :=
  ∃ k d bs, Longest σ name y t (ss.map (symOf σ.alphabet)) k ∧ Best (Trans σ name y t (ss.map (symOf σ.alphabet)) k) bs ∧ bs ≠ [] ∧
    ts = bs.map (fun x => x.1 ++ σ.showWeight x.2) ∧ Reach σ y (ss.map (symOf σ.alphabet)) d ∧ q = rest ss d

/-- Nothing is found. -/
def Lacks [Add W] [Zero W] (σ : Setting W) (name : Int → UString) (y : Way) (t : UString) (ss : List Sym) : Prop :=
  ¬ ∃ k, Longest σ name y t (ss.map (symOf σ.alphabet)) k

/-! ## Settings -/

/-- What is taken for granted about ICU's tables, `std::sort` and the options. -/
structure Regular [LinearOrder W] (σ : Setting W) (name : Int → UString) : Prop where
  base : Gen.Regular σ name
  upperTag : ∀ c, c < 0 → σ.isUpper c = false

end Verif.Trans
