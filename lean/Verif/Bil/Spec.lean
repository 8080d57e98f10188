import Verif.Bil.Model
import Verif.Gen.Spec

/-!
# What the bilingual mode should write

For each lexical unit its translations, with the tags that were not read after each of them. Nothing here refers to sets of states or to
positions in texts.
-/

namespace Verif.Bil

open Verif.State Verif.Stream Verif.Walk
open Verif.Gen (Mode Form pieces whole slashed escapedCps)

variable {W : Type}

/-! ## Units -/

/-- A piece of a reading, written again. Only special characters are escaped, and `*` at the start. -/
def pieceText (first : Bool) : RTok → UString
  | .tok (.raw c) | .tok (.esc c) =>
    (if (c : Int) ∈ escapedCps ∨ (first = true ∧ c = '*'.toNat) then [0x5c] else []) ++ if c = 0 then [] else utf16 c
  | .tag ts => enc (blockText '<'.toNat '>'.toNat ts)
  | .chunk _ => []

/-- The text of a reading, written again. -/
def source (s : RSyn) : UString :=
  match pieces s with
  | [] => []
  | p :: ps => pieceText true p ++ ps.flatMap (pieceText false)

/-- The text after the first `k` pieces. -/
def queue (s : RSyn) (k : Nat) : UString := ((pieces s).drop k).flatMap (pieceText false)

/-! ## Forms -/

/-- The name of a tag. -/
def nameOf (b : Alphabet) (c : Int) : UString := (b.slexicinv[(-c - 1).toNat]?).getD []

/-- How symbols are read: as they are, by arcs for any symbol, and with `fold` as lower-case letters. Where an arc writes any symbol, the
symbol is written that was read. -/
def way (σ : Setting W) (fold : Bool) : Way where
  allow _ x z := x ≠ 0 ∧ (z = x ∨ z = σ.anyChar ∨ (fold = true ∧ σ.caseSensitive = false ∧ z = σ.toLower x))
  out x o := if o = σ.anyChar then x else o

/-- The symbol is an upper-case letter. -/
def upperAt (σ : Setting W) (xs : List Int) (i : Nat) : Bool := (xs[i]?.map fun x => decide (0 < x) && σ.isUpper x) == some true

/-- The translations of symbols: those for which letters are read as they are or as lower-case letters. Cases are restored. -/
def Trans [Add W] [Zero W] (σ : Setting W) (b : Alphabet) (xs : List Int) (k : Nat) : UString → W → Prop :=
  Form σ.toSetting (nameOf b) (way σ true) (upperAt σ xs 0 && upperAt σ xs 1) (upperAt σ xs 0) (xs.take k)

/-- `k` is the number of symbols of the longest part at the start, not empty, that has translations. -/
def Longest [Add W] [Zero W] (σ : Setting W) (b : Alphabet) (xs : List Int) (k : Nat) : Prop :=
  0 < k ∧ k ≤ xs.length ∧ (∃ t w, Trans σ b xs k t w) ∧ ∀ j, k < j → j ≤ xs.length → ∀ t w, ¬ Trans σ b xs j t w

/-- In these modes, and for units without tags, only translations of the whole unit count. -/
def Whole (mode : Mode) (xs : List Int) : Prop := mode = .all ∨ mode = .bilgen ∨ ∀ x ∈ xs, 0 ≤ x

/-- What is written for a unit: the translations of the longest part at the start, the best first, with the rest of the unit after each; or the unit
with a mark. -/
def Translates [Add W] [Zero W] [LinearOrder W] (σ : Setting W) (b : Alphabet) (mode : Mode) (s : RSyn) (out : UString) : Prop :=
  ∃ xs, SymsOf true (some b) s.toks xs ∧
    ((∃ k rs, Longest σ b xs k ∧ (Whole mode xs → k = xs.length) ∧ Best (Trans σ b xs k) rs ∧
        out = slashed (rs.map fun x => x.1 ++ σ.showWeight x.2 ++ queue s k)) ∨
      (¬ ∃ k, Longest σ b xs k ∧ (Whole mode xs → k = xs.length)) ∧ out = (if mode = .all then 0x23 else 0x40) :: source s)

/-- What is written for a reading. -/
def Reads [Add W] [Zero W] [LinearOrder W] (σ : Setting W) (b : Alphabet) (mode : Mode) (s : RSyn) (out : UString) : Prop :=
  if s.mark = some '*'.toNat then out = 0x2a :: whole s ++ 0x2f :: (if mode = .clean then [] else [0x2a]) ++ whole s ++ [0x24]
  else if pieces s = [] then out = [0x24]
  else ∃ t, Translates σ b mode s t ∧ out = source s ++ 0x2f :: t ++ [0x24]

/-- The reading that is translated: the first, or the second if there are surface forms. -/
def chosen (σ : Setting W) (rs : List RSyn) : Option RSyn := if σ.surfaceForms || σ.surfaceFormsKeep then rs[1]? else rs[0]?

/-- What is written before the translated reading: `^`, or `^` and the surface form. -/
def before (σ : Setting W) (rs : List RSyn) : UString :=
  if σ.surfaceFormsKeep then match rs with
    | [] => []
    | [s] => 0x5e :: whole s ++ [0x24]
    | s :: _ => 0x5e :: whole s ++ [0x2f]
  else if (chosen σ rs).isSome then [0x5e] else []

/-- What is written for an item of a stream. -/
def Writes [Add W] [Zero W] [LinearOrder W] (σ : Setting W) (b : Alphabet) (mode : Mode) : Item → UString → Prop
  | .unit blank wb rs, out => ∃ t, (∀ s, chosen σ rs = some s → Reads σ b mode s t) ∧ (chosen σ rs = none → t = []) ∧
      out = enc (blankText blank) ++ (wb.elim [] fun w => enc (wblankText w)) ++ before σ rs ++ t
  | .null blank, out => out = enc (blankText blank) ++ [0]

/-! ## Settings -/

/-- The name of the symbol for any symbol (`Transducer::ANY_CHAR_SYMBOL`, transducer.h:98). -/
def anyName : UString := "<ANY_CHAR>".toList.map fun c => UInt16.ofNat c.toNat

/-- What is taken for granted about ICU's tables, `std::sort` and the options. -/
structure Regular [LinearOrder W] (σ : Setting W) : Prop where
  base : Gen.Regular σ.toSetting (nameOf σ.alphabet)
  any : σ.alphabet.HasTag σ.anyChar anyName
  lowerTag : ∀ c, c ≤ 0 → σ.toLower c = c
  lowerRange : ∀ c, 0 ≤ c → c < 0x110000 → 0 ≤ σ.toLower c ∧ σ.toLower c < 0x110000

/-- A unit that is supported: it has not the mark `#`, and does not contain the tag for any symbol. -/
structure Plain (s : RSyn) : Prop where
  mark : s.mark ≠ some '#'.toNat
  tags : ∀ ts, .tag ts ∈ s.toks → enc (blockText '<'.toNat '>'.toNat ts) ≠ anyName

end Verif.Bil
