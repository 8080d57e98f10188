import Verif.Chain.Spec
import Verif.Gen.Spec

/-!
# What a dictionary makes of lexical units

The forms that a dictionary has for the units of a stream. Nothing here refers to transducers, files or states.
-/

namespace Verif.Chain.Forms

open Verif.Compiler (Settings File)
open Verif.Gen (Setting Mode Folded formText pieces whole stem secondUpper firstUpper slashed formed formless starText atText)
open Verif.Stream

variable {N V W : Type}

/-- The symbol of a piece of a unit: the code point of a character, the number of a tag of the dictionary, and 0 for any other tag. -/
def symbol (f : File N V) : RTok → Int
  | .tok (.raw c) => c
  | .tok (.esc c) => c
  | .tag ts => match f.tags.findIdx? fun n => decide (0x3c :: n ++ [0x3e] = enc (blockText '<'.toNat '>'.toNat ts)) with
    | some i => -(i : Int) - 1
    | none => 0
  | .chunk _ => 0

/-- A symbol of a unit may be read as `z`: as it is, or as the lower-case letter. -/
def Folds (o : Setting W) (x z : Int) : Prop := z = x ∨ (Folded o x ∧ z = o.toLower x)

/-- `t` is a form for the symbols `xs`: some entry reads them and writes it. -/
def Form [Zero W] (o : Setting W) (name : Int → UString) (s : Settings) (f : File N V) (upper first : Bool) (xs : List Int) (t : UString) : Prop :=
  ∃ k x y, Says s f k x y ∧ List.Forall₂ (Folds o) xs x ∧ t = formText o name upper first (decide (x ≠ xs)) (y.map fun c => (c, (0 : W)))

/-- What is written for a reading without a mark: all its forms, each once, in the order of some weights, with slashes in between; or what the mode
prescribes if there is none. -/
def Generates [Zero W] [LE W] (o : Setting W) (name : Int → UString) (s : Settings) (f : File N V) (mode : Mode) (r : RSyn) (out : UString) : Prop :=
  let F := Form o name s f (secondUpper o (whole r)) (firstUpper o (whole r)) ((pieces r).map (symbol f))
  (∃ rs : List (UString × W), rs ≠ [] ∧ (rs.map (·.1)).Nodup ∧ rs.Pairwise (fun a b => a.2 ≤ b.2) ∧ (∀ t, t ∈ rs.map (·.1) ↔ F t) ∧
    out = formed mode r (slashed (rs.map fun x => x.1 ++ o.showWeight x.2))) ∨ ((∀ t, ¬ F t) ∧ out = formless mode r)

/-- What is written for a reading. -/
def Reads [Zero W] [LE W] (o : Setting W) (name : Int → UString) (s : Settings) (f : File N V) (mode : Mode) (r : RSyn) (out : UString) : Prop :=
  if r.mark = some '*'.toNat then out = starText mode [0x2a] r
  else if r.mark = some '%'.toNat then out = starText mode [0x25] r
  else if r.mark = some '@'.toNat then out = atText mode [0x40] r
  else if r.mark = some '='.toNat then ∃ t, out = 0x3d :: t ∧ Generates o name s f mode r t
  else Generates o name s f mode r out

/-- What is written for an item of a stream: the blanks, and what is written for the first reading. -/
def Writes [Zero W] [LE W] (o : Setting W) (name : Int → UString) (s : Settings) (f : File N V) (mode : Mode) : Item → UString → Prop
  | .unit blank wb rs, out => ∃ r t, rs.head? = some r ∧ Reads o name s f mode r t ∧ out = enc (blankText blank) ++ (wb.elim [] fun w => enc (wblankText w)) ++ t
  | .null blank, out => out = enc (blankText blank) ++ [0]

/-- No entry starts with a space. Symbols are characters and tags of the dictionary, which have names of their own. -/
structure Tame (s : Settings) (f : File N V) : Prop where
  start : ∀ k x y, Says s f k (0x20 :: x) y → False
  reads : ∀ k x y, Says s f k x y → ∀ c ∈ x, -(f.tags.length : Int) ≤ c
  writes : ∀ k x y, Says s f k x y → ∀ c ∈ y, c < 0x110000 ∧ -(f.tags.length : Int) ≤ c
  tags : f.tags.Nodup

/-! ## There and back -/

/-- The settings for the other direction. -/
def back (s : Settings) : Settings := { s with rl := !s.rl }

/-- No entry is restricted to one direction. -/
def Free (f : File N V) : Prop :=
  ∀ e, (∃ n ents, (n, ents) ∈ f.pars ∧ e ∈ ents) ∨ (∃ k ents, (k, ents) ∈ f.secs ∧ e ∈ ents) → e.attrs.r = [] ∧ e.attrs.vl = [] ∧ e.attrs.vr = []

/-- The text of symbols, with the characters of the stream format escaped. -/
def symbolsText (f : File N V) (y : List Int) : UString :=
  y.flatMap fun c => if c < 0 then tagName f c else (if c ∈ Gen.escapedCps then [0x5c] else []) ++ enc [c.toNat]

/-- A reading with this text. `names` are the names of the tags. -/
def reading (names : List (List Nat)) (y : List Int) : RSyn where
  mark := none
  toks := y.map fun c => if c < 0 then .tag ((names.getD (-c - 1).toNat []).map .raw)
    else if c ∈ Gen.escapedCps then .tok (.esc c.toNat) else .tok (.raw c.toNat)

/-- The names of the tags are texts without backslashes and `>`. -/
structure Names (f : File N V) (names : List (List Nat)) : Prop where
  same : f.tags = names.map enc
  plain : ∀ n ∈ names, ∀ c ∈ n, Tok.Inside '>'.toNat (.raw c)

/-- Symbols that the stream format can show: characters and tags of the dictionary. They do not start with a tag or with one of the marks `* # = %`,
and there is no backslash before the first tag. -/
structure Nice (f : File N V) (y : List Int) : Prop where
  chars : ∀ c ∈ y, 0 ≤ c → Scalar c.toNat ∧ c ≠ 0
  tags : ∀ c ∈ y, -(f.tags.length : Int) ≤ c
  start : ∀ c ∈ y.head?, 0 ≤ c ∧ c ≠ 0x2a ∧ c ≠ 0x23 ∧ c ≠ 0x3d ∧ c ≠ 0x25
  before : ∀ a b c, y ≠ a ++ 0x5c :: c :: b ∨ 0 ≤ c

end Verif.Chain.Forms
