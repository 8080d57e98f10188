import Verif.Input.Model
import Verif.Alphabet.Model

/-! # Model of `lttoolbox/stream_reader.cc` -/

namespace Verif.Stream

open Verif.Input

/-- `StreamReader::Reading` (stream_reader.h:29-33). -/
structure Reading where
  mark : Nat := 0
  content : UString := []
  symbols : List Int := []
  deriving DecidableEq

/-- The data members of `class StreamReader` (stream_reader.h:25-43). -/
structure Reader where
  inp : InFile
  atNull : Bool := false
  atEof : Bool := false
  blank : UString := []
  wblank : UString := []
  readings : List Reading := []
  chunk : UString := []
  alpha : Option Alphabet := none
  addUnknowns : Bool := false
  deriving DecidableEq

/-- The symbol of a tag and the alphabet afterwards (stream_reader.cc:73-76): `add_unknowns` includes the tag first. -/
def tagSymbol (add : Bool) (alpha : Option Alphabet) (tag : UString) : List Int × Option Alphabet :=
  match alpha with
  | none => ([], none)
  | some a =>
    let a := if add then a.includeSymbol tag else a
    ([a.symCode tag], some a)

/-- The inner loop of `next` (stream_reader.cc:69-93) for one reading: the reading so far is `cur`. -/
def readingLoop (add : Bool) : (turns : Nat) → (c : Nat) → (cur : Reading) → (chunk : UString) → Option Alphabet → InFile →
    Res (Nat × Reading × UString × Option Alphabet × InFile)
  | turns, c, cur, chunk, alpha, f =>
    if c ≠ '/'.toNat ∧ c ≠ '$'.toNat ∧ c ≠ 0 ∧ f.eof = false then
      match turns with
      | 0 => .ub
      | turns + 1 =>
        if c = '<'.toNat then do
          let (tag, f) ← readBlock '<'.toNat '>'.toNat f
          let s := tagSymbol add alpha tag
          let (c, f) ← get f
          readingLoop add turns c { cur with content := cur.content ++ tag, symbols := cur.symbols ++ s.1 } chunk s.2 f
        else if c = '{'.toNat then do
          let (b, f) ← readBlock '{'.toNat '}'.toNat f
          let (c, f) ← get f
          readingLoop add turns c cur (chunk ++ b) alpha f
        else if c = '\\'.toNat then do
          let (c2, f) ← get f
          let s := if alpha.isSome then [(c2 : Int)] else []
          let (c', f) ← get f
          readingLoop add turns c' { cur with content := cur.content ++ utf16 c ++ utf16 c2, symbols := cur.symbols ++ s } chunk
            alpha f
        else do
          let s := if alpha.isSome then [(c : Int)] else []
          let (c', f) ← get f
          readingLoop add turns c' { cur with content := cur.content ++ utf16 c, symbols := cur.symbols ++ s } chunk alpha f
    else .ok (c, cur, chunk, alpha, f)

/-- The characters that mark a reading (stream_reader.cc:64). -/
def isMark (c : Nat) : Bool :=
  c = '*'.toNat || c = '@'.toNat || c = '#'.toNat || c = '='.toNat || c = '%'.toNat

/-- The outer loop of `next` (stream_reader.cc:60-94). -/
def readingsLoop (add : Bool) : (turns : Nat) → (c : Nat) → List Reading → UString → Option Alphabet → InFile →
    Res (Nat × List Reading × UString × Option Alphabet × InFile)
  | turns, c, rs, chunk, alpha, f =>
    if c ≠ '$'.toNat ∧ c ≠ 0 ∧ f.eof = false then
      match turns with
      | 0 => .ub
      | turns + 1 => do
        let (p, f) ← peek f
        let (mark, f) ← if isMark p then do
            let (_, f) ← get f
            .ok (p, f)
          else .ok (0, f)
        let (c, f) ← get f
        let (c, cur, chunk, alpha, f) ← readingLoop add (turnsOf f) c { mark := mark } chunk alpha f
        readingsLoop add turns c (rs ++ [cur]) chunk alpha f
    else .ok (c, rs, chunk, alpha, f)

/-- `StreamReader::next` (stream_reader.cc:24-98); the argument is the number of calls that may be nested. -/
def nextLoop : (turns : Nat) → Reader → Res Reader
  | turns, r =>
    let r := { r with blank := [], wblank := [], readings := [], chunk := [] }
    if r.atEof then .ok r
    else do
      let r := { r with atNull := false }
      let (blank, f) ← readBlank false r.inp
      let r := { r with blank := blank }
      let (c, f) ← get f
      if c = '['.toNat then do
        let (_, f) ← get f
        let (wblank, f) ← finishWBlank f
        let (p, f) ← peek f
        if p ≠ '^'.toNat then
          match turns with
          | 0 => .ub
          | turns + 1 => do
            let r' ← nextLoop turns { r with wblank := wblank, inp := f }
            .ok { r' with blank := blank ++ wblank ++ r'.blank }
        else do
          let (c, f) ← get f
          unit { r with wblank := wblank } c f
      else unit r c f
where
  /-- stream_reader.cc:50-98: after the blanks. -/
  unit (r : Reader) (c : Nat) (f : InFile) : Res Reader :=
    if c = 0 then .ok { r with atNull := true, inp := f }
    else if f.eof then .ok { r with atEof := true, inp := f }
    else do
      let (c, rs, chunk, alpha, f) ← readingsLoop r.addUnknowns (turnsOf f) c [] r.chunk r.alpha f
      let r := { r with readings := rs, chunk := chunk, alpha := alpha, inp := f }
      if c = 0 then .ok { r with atNull := true }
      else if c = uEOF ∨ f.eof then .ok { r with atEof := true }
      else .ok r

/-- `StreamReader::next` with turns that suffice (`C67_no_overflow`). -/
def next (r : Reader) : Res Reader := nextLoop (turnsOf r.inp) r

/-- The values a program sees after a call of `next`. -/
structure Out where
  blank : UString
  wblank : UString
  readings : List Reading
  chunk : UString
  atNull : Bool
  atEof : Bool
  deriving DecidableEq

def Reader.out (r : Reader) : Out := ⟨r.blank, r.wblank, r.readings, r.chunk, r.atNull, r.atEof⟩

/-- `n` calls of `next`: the values after each. -/
def nexts : (n : Nat) → Reader → Res (List Out × Reader)
  | 0, r => .ok ([], r)
  | n + 1, r => do
    let r ← next r
    let (os, r') ← nexts n r
    .ok (r.out :: os, r')

end Verif.Stream
