import Verif.Base
import Verif.Data.Utf16

/-!
# Model of `lttoolbox/input_file.cc`

A `FILE*` is the list of the bytes that have not been read and its end-of-file flag. Read errors other than the end of the
file are not modelled. Code points are natural numbers; those read from a file are below 0x110000, for which the operator
`UString += UChar32` (ustring.h:80-88) appends `utf16 c` (`Compression.unitsOf_utf16`).
-/

namespace Verif.Input

/-- `U_EOF` of ICU's ustdio.h. -/
def uEOF : Nat := 0xFFFF

/-- The data members of `class InputFile` (input_file.h:27-31). -/
structure InFile where
  /-- the bytes of `infile` that have not been read -/
  rest : List UInt8
  /-- `feof(infile)` -/
  eof : Bool
  /-- `ubuffer[buffer_size-1], ..., ubuffer[0]` -/
  buf : List Nat
  deriving DecidableEq

/-- A file that has just been opened. -/
def opened (bytes : List UInt8) : InFile := ⟨bytes, false, []⟩

/-- `utf8::internal::sequence_length` of the utf8cpp library, with 0 for an invalid first byte. -/
def seqLen (lead : Nat) : Nat :=
  if lead < 0x80 then 1
  else if lead / 32 = 6 then 2
  else if lead / 16 = 0xe then 3
  else if lead / 8 = 0x1e then 4
  else 0

/-- One continuation byte in utf8cpp: `is_trail`, then its low six bits. -/
def trail (b : UInt8) : Res Nat := if b.toNat / 64 = 2 then .ok (b.toNat % 64) else .exception

/-- `utf8::internal::is_code_point_valid` and `is_overlong_sequence` of utf8cpp. -/
def checkCp (cp len : Nat) : Bool :=
  (cp ≤ 0x10ffff && !(0xd800 ≤ cp && cp ≤ 0xdfff)) &&
    !(if cp < 0x80 then len ≠ 1 else if cp < 0x800 then len ≠ 2 else if cp < 0x10000 then len ≠ 3 else false)

/-- The code points `get_sequence_2`, `get_sequence_3` and `get_sequence_4` of utf8cpp put together. -/
def cp2 (b x1 : Nat) : Nat := (b * 64) % 2048 + x1
def cp3 (b x1 x2 : Nat) : Nat := (b * 4096) % 65536 + x1 * 64 + x2
def cp4 (b x1 x2 x3 : Nat) : Nat := (b * 262144) % 2097152 + x1 * 4096 + x2 * 64 + x3

/-- The end of `utf8::internal::validate_next`. -/
def checked (cp len : Nat) (r : List UInt8) : Res (Nat × List UInt8) :=
  if checkCp cp len then .ok (cp, r) else .exception

/-- `get_sequence_2`, `get_sequence_3` and `get_sequence_4` with the checks after them. -/
def next2 (b : Nat) : List UInt8 → Res (Nat × List UInt8)
  | t1 :: r => do
    let x1 ← trail t1
    checked (cp2 b x1) 2 r
  | _ => .exception
def next3 (b : Nat) : List UInt8 → Res (Nat × List UInt8)
  | t1 :: t2 :: r => do
    let x1 ← trail t1
    let x2 ← trail t2
    checked (cp3 b x1 x2) 3 r
  | _ => .exception
def next4 (b : Nat) : List UInt8 → Res (Nat × List UInt8)
  | t1 :: t2 :: t3 :: r => do
    let x1 ← trail t1
    let x2 ← trail t2
    let x3 ← trail t3
    checked (cp4 b x1 x2 x3) 4 r
  | _ => .exception

/-- `utf8::next` of utf8cpp: the code point and the bytes after it. -/
def utf8next : List UInt8 → Res (Nat × List UInt8)
  | [] => .exception
  | b :: bs =>
    if seqLen b.toNat = 1 then checked b.toNat 1 bs
    else if seqLen b.toNat = 2 then next2 b.toNat bs
    else if seqLen b.toNat = 3 then next3 b.toNat bs
    else if seqLen b.toNat = 4 then next4 b.toNat bs
    else .exception

/-- `utf8::utf8to32` of utf8cpp; the number of turns is the number of bytes. -/
def utf8to32 : (turns : Nat) → List UInt8 → Res (List Nat)
  | _, [] => .ok []
  | 0, _ :: _ => .ub
  | turns + 1, b :: bs => do
    let (c, r) ← utf8next (b :: bs)
    let cs ← utf8to32 turns r
    .ok (c :: cs)

/-- The number of bytes `internal_read` reads after the first (input_file.cc:104-121). -/
def following (first : Nat) : Nat :=
  if 0xF0 ≤ first then 3 else if 0xE0 ≤ first then 2 else if 0xC0 ≤ first then 1 else 0

/-- `InputFile::internal_read` (input_file.cc:84-125). `fread` sets the end-of-file flag when there are too few bytes. More
than three code points would be written outside `ubuffer`. -/
def internalRead (f : InFile) : Res InFile :=
  if f.buf ≠ [] then .ok f
  else if f.eof then .ok { f with buf := [uEOF] }
  else
    match f.rest with
    | [] => .ok { f with eof := true, buf := [uEOF] }
    | b :: bs =>
      if b = 0 then .ok { f with rest := bs, buf := [0] }
      else
        let n := following b.toNat
        if bs.length < n then .exception
        else do
          let cs ← utf8to32 (n + 1) (b :: bs.take n)
          if cs.length > 3 then .ub
          else .ok { f with rest := bs.drop n, buf := [cs.headD 0] }

/-- `InputFile::get` (input_file.cc:127-134); with an empty buffer after reading it would read `ubuffer[-1]`. -/
def get (f : InFile) : Res (Nat × InFile) := do
  let f ← internalRead f
  match f.buf with
  | [] => .ub
  | c :: b => .ok (c, { f with buf := b })

/-- `InputFile::peek` (input_file.cc:136-143). -/
def peek (f : InFile) : Res (Nat × InFile) := do
  let f ← internalRead f
  match f.buf with
  | [] => .ub
  | c :: _ => .ok (c, f)

/-- `InputFile::unget` (input_file.cc:145-150): the buffer holds three values. -/
def unget (f : InFile) (c : Nat) : Res InFile :=
  if f.buf.length ≥ 3 then .ub else .ok { f with buf := c :: f.buf }

/-- The turns that suffice for a loop that reads (`C67_no_overflow`). -/
def turnsOf (f : InFile) : Nat := f.rest.length + f.buf.length + 2

/-- The loop of `InputFile::readBlock` (input_file.cc:175-184). Using up the turns is shown as undefined. -/
def readBlockLoop (stop : Nat) : (turns : Nat) → (c : Nat) → UString → InFile → Res (UString × InFile)
  | turns, c, ret, f =>
    if c ≠ stop ∧ f.eof = false then
      match turns with
      | 0 => .ub
      | turns + 1 => do
        let (c, f) ← get f
        if c = 0 then .ok (ret, f)
        else
          let ret := ret ++ utf16 c
          if c = '\\'.toNat then do
            let (c2, f) ← get f
            readBlockLoop stop turns c (ret ++ utf16 c2) f
          else readBlockLoop stop turns c ret f
    else .ok (ret, f)

/-- `InputFile::readBlock` (input_file.cc:169-186). -/
def readBlock (start stop : Nat) (f : InFile) : Res (UString × InFile) :=
  readBlockLoop stop (turnsOf f) 0 (utf16 start) f

/-- The loop of `InputFile::finishWBlank` (input_file.cc:195-207). -/
def finishWBlankLoop : (turns : Nat) → UString → InFile → Res (UString × InFile)
  | turns, ret, f =>
    if f.eof = false then
      match turns with
      | 0 => .ub
      | turns + 1 => do
        let (c, f) ← get f
        if c = 0 then .ok (ret, f)
        else
          let ret := ret ++ utf16 c
          if c = '\\'.toNat then do
            let (c2, f) ← get f
            finishWBlankLoop turns (ret ++ utf16 c2) f
          else if c = ']'.toNat then do
            let (c2, f) ← peek f
            if c2 = ']'.toNat then do
              let (c3, f) ← get f
              .ok (ret ++ utf16 c3, f)
            else finishWBlankLoop turns ret f
          else finishWBlankLoop turns ret f
    else .ok (ret, f)

/-- `InputFile::finishWBlank` (input_file.cc:188-209). -/
def finishWBlank (f : InFile) : Res (UString × InFile) :=
  finishWBlankLoop (turnsOf f) (utf16 '['.toNat ++ utf16 '['.toNat) f

/-- The loop of `InputFile::readBlank` (input_file.cc:215-245). -/
def readBlankLoop (readwblank : Bool) : (turns : Nat) → UString → InFile → Res (UString × InFile)
  | turns, ret, f =>
    if f.eof = false then
      match turns with
      | 0 => .ub
      | turns + 1 => do
        let (c, f) ← get f
        if c = '^'.toNat ∨ c = 0 ∨ c = uEOF then do
          let f ← unget f c
          .ok (ret, f)
        else if c = '['.toNat then do
          let (c2, f) ← get f
          if c2 = '['.toNat then
            if readwblank then do
              let (w, f) ← finishWBlank f
              readBlankLoop readwblank turns (ret ++ w) f
            else do
              let f ← unget f c2
              let f ← unget f c
              .ok (ret, f)
          else do
            let f ← unget f c2
            let (w, f) ← readBlock c ']'.toNat f
            readBlankLoop readwblank turns (ret ++ w) f
        else
          let ret := ret ++ utf16 c
          if c = '\\'.toNat then
            if f.eof then .exit
            else do
              let (p, f) ← peek f
              if p = 0 then .exit
              else do
                let (c2, f) ← get f
                readBlankLoop readwblank turns (ret ++ utf16 c2) f
          else readBlankLoop readwblank turns ret f
    else .ok (ret, f)

/-- `InputFile::readBlank` (input_file.cc:211-247). -/
def readBlank (readwblank : Bool) (f : InFile) : Res (UString × InFile) :=
  readBlankLoop readwblank (turnsOf f) [] f

/-- `n` calls of `get`. -/
def getMany : (n : Nat) → InFile → Res (List Nat × InFile)
  | 0, f => .ok ([], f)
  | n + 1, f => do
    let (c, f) ← get f
    let (cs, f) ← getMany n f
    .ok (c :: cs, f)

end Verif.Input
