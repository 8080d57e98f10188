import Verif.Base

/-!
# Model of `lttoolbox/compression.cc`, `compression.h` and the UTF-16 helpers it uses

Streams are byte lists. `unsigned int` is `UInt32`, `unsigned char` is `UInt8`. A `FILE*` opened for
reading is the list of the bytes not yet read.
-/

namespace Verif.Compression

/-- `Compression::multibyte_write` (compression.cc:50-93; the `ostream` overload 95-140 writes the same
bytes). The result is the list of bytes written; `none` is the `exit(EXIT_FAILURE)` of line 91. -/
def multibyteWrite (value : UInt32) : Option (List UInt8) :=
  if value < 0x00000040 then
    some [value.toUInt8]
  else if value < 0x00004000 then
    let low := value.toUInt8
    let up := (value >>> 8).toUInt8
    some [up ||| 0x40, low]
  else if value < 0x00400000 then
    let low := value.toUInt8
    let middle := (value >>> 8).toUInt8
    let up := (value >>> 16).toUInt8
    some [up ||| 0x80, middle, low]
  else if value < 0x40000000 then
    let low := value.toUInt8
    let middlelow := (value >>> 8).toUInt8
    let middleup := (value >>> 16).toUInt8
    let up := (value >>> 24).toUInt8
    some [up ||| 0xc0, middleup, middlelow, low]
  else
    none

/-- `Compression::readByte` (compression.cc:36-48): at end of file the failure is ignored and the
initial value 0 of the buffer is returned. -/
def readByte : List UInt8 → UInt8 × List UInt8
  | [] => (0, [])
  | b :: rest => (b, rest)

/-- `Compression::multibyte_read(FILE*)` (compression.cc:143-194). -/
def multibyteRead (input : List UInt8) : UInt32 × List UInt8 :=
  let (up, input) := readByte input
  if up < 0x40 then
    (up.toUInt32, input)
  else if up < 0x80 then
    let up := up &&& 0x3f
    let aux := up.toUInt32
    let aux := aux <<< 8
    let (low, input) := readByte input
    let result := low.toUInt32
    (result ||| aux, input)
  else if up < 0xc0 then
    let up := up &&& 0x3f
    let aux := up.toUInt32
    let aux := aux <<< 8
    let (middle, input) := readByte input
    let result := middle.toUInt32
    let aux := result ||| aux
    let aux := aux <<< 8
    let (low, input) := readByte input
    let result := low.toUInt32
    (result ||| aux, input)
  else
    let up := up &&& 0x3f
    let aux := up.toUInt32
    let aux := aux <<< 8
    let (middleup, input) := readByte input
    let result := middleup.toUInt32
    let aux := result ||| aux
    let aux := aux <<< 8
    let (middlelow, input) := readByte input
    let result := middlelow.toUInt32
    let aux := result ||| aux
    let aux := aux <<< 8
    let (low, input) := readByte input
    let result := low.toUInt32
    (result ||| aux, input)

/-- One `input.read` of a byte into an uninitialised variable (compression.cc:202 and following):
at end of file the variable stays uninitialised and is then read, which is undefined behaviour. -/
def readByteS : List UInt8 → Res (UInt8 × List UInt8)
  | [] => .ub
  | b :: rest => .ok (b, rest)

/-- `Compression::multibyte_read(std::istream&)` (compression.cc:196-254). -/
def multibyteReadS (input : List UInt8) : Res (UInt32 × List UInt8) := do
  let (up, input) ← readByteS input
  if up < 0x40 then
    pure (up.toUInt32, input)
  else if up < 0x80 then
    let up := up &&& 0x3f
    let aux := up.toUInt32
    let aux := aux <<< 8
    let (low, input) ← readByteS input
    let result := low.toUInt32
    pure (result ||| aux, input)
  else if up < 0xc0 then
    let up := up &&& 0x3f
    let aux := up.toUInt32
    let aux := aux <<< 8
    let (middle, input) ← readByteS input
    let result := middle.toUInt32
    let aux := result ||| aux
    let aux := aux <<< 8
    let (low, input) ← readByteS input
    let result := low.toUInt32
    pure (result ||| aux, input)
  else
    let up := up &&& 0x3f
    let aux := up.toUInt32
    let aux := aux <<< 8
    let (middleup, input) ← readByteS input
    let result := middleup.toUInt32
    let aux := result ||| aux
    let aux := aux <<< 8
    let (middlelow, input) ← readByteS input
    let result := middlelow.toUInt32
    let aux := result ||| aux
    let aux := aux <<< 8
    let (low, input) ← readByteS input
    let result := low.toUInt32
    pure (result ||| aux, input)

/-- Several `multibyte_write` calls in a row: the bytes are concatenated and the first refusal ends
the process. -/
def writeAll : List UInt32 → Option (List UInt8)
  | [] => some []
  | v :: vs => do
    let a ← multibyteWrite v
    let b ← writeAll vs
    pure (a ++ b)

/-- `n` successive `multibyte_read` calls. -/
def readMany : Nat → List UInt8 → List UInt32 × List UInt8
  | 0, s => ([], s)
  | n + 1, s =>
    let (v, s) := multibyteRead s
    let (vs, s) := readMany n s
    (v :: vs, s)

/-! ## UTF-16 -/

/-- `U16_IS_LEAD` of ICU `utf16.h`, `(c & 0xfffffc00) == 0xd800`. -/
def isLead (u : UInt16) : Bool := 0xD800 ≤ u && u ≤ 0xDBFF

/-- `U16_IS_TRAIL` of ICU `utf16.h`. -/
def isTrail (u : UInt16) : Bool := 0xDC00 ≤ u && u ≤ 0xDFFF

/-- `U16_GET_SUPPLEMENTARY` of ICU: `(lead << 10) + trail - ((0xd800 << 10) + 0xdc00 - 0x10000)`. -/
def supplementary (lead trail : UInt16) : UInt32 :=
  (lead.toUInt32 <<< 10) + trail.toUInt32 - 0x35FDC00

/-- `ustring_to_vec32` (ustring.cc:50-65), a loop of ICU's `U16_NEXT`: a lead surrogate directly
followed by a trail surrogate is one code point, any other unit is a code point by itself. The
`int32_t` elements are all non-negative and shown here as `UInt32`. -/
def vec32 : List UInt16 → List UInt32
  | [] => []
  | [u] => [u.toUInt32]
  | u :: v :: rest =>
    if isLead u && isTrail v then supplementary u v :: vec32 rest
    else u.toUInt32 :: vec32 (v :: rest)

/-- `operator+=(UString&, UChar32)` (ustring.h:80-88): the units appended. `UChar32` is a signed
`int32_t`, so the test of line 82 is a signed comparison and `>>` of line 85 an arithmetic shift;
values of 2^31 and above never reach this function through `string_read`, whose values are below 2^30. -/
def unitsOf (c : UInt32) : List UInt16 :=
  if c ≤ 0xFFFF ∨ 0x80000000 ≤ c then [c.toUInt16]
  else [((0xD800 : UInt32) + ((c - 0x10000) >>> 10)).toUInt16, ((0xDC00 : UInt32) + (c &&& 0x3FF)).toUInt16]

/-- `Compression::string_write` (compression.cc:257-267). `vec.size()` is converted to
`unsigned int`. -/
def stringWrite (s : List UInt16) : Option (List UInt8) :=
  let vec := vec32 s
  writeAll (UInt32.ofNat vec.length :: vec)

/-- `Compression::string_read` (compression.cc:269-281). -/
def stringRead (input : List UInt8) : List UInt16 × List UInt8 :=
  let (limit, input) := multibyteRead input
  let (cs, input) := readMany limit.toNat input
  (cs.flatMap unitsOf, input)

/-! ## Weights -/

/-- The two integer words of a weight as `long_multibyte_write` forms them. -/
structure Words where
  mantissa : UInt32
  exponent : UInt32
deriving Repr, DecidableEq

/-- One of the two halves of `long_multibyte_write` (compression.cc:302-314 for the mantissa,
316-328 for the exponent). -/
def longFieldWrite (m : UInt32) : Option (List UInt8) :=
  if m < 0x04000000 then
    multibyteWrite m
  else do
    let low := (m <<< 6) >>> 6
    let up := (m >>> 26) ||| 0x04000000
    let a ← multibyteWrite up
    let b ← multibyteWrite low
    pure (a ++ b)

/-- One of the two halves of `long_multibyte_read` (compression.cc:386-399 and 400-413). -/
def longFieldRead (input : List UInt8) : UInt32 × List UInt8 :=
  let (up, input) := multibyteRead input
  if up < 0x04000000 then
    (up, input)
  else
    let up := up &&& 0x03ffffff
    let aux := up <<< 26
    let (low, input) := multibyteRead input
    (low ||| aux, input)

/-- `long_multibyte_write` from the two words on (compression.cc:302-328). -/
def wordsWrite (w : Words) : Option (List UInt8) := do
  let a ← longFieldWrite w.mantissa
  let b ← longFieldWrite w.exponent
  pure (a ++ b)

/-- `long_multibyte_read` up to the two words (compression.cc:386-413). -/
def wordsRead (input : List UInt8) : Words × List UInt8 :=
  let (m, input) := longFieldRead input
  let (e, input) := longFieldRead input
  (⟨m, e⟩, input)

/-- A `double` that is not a NaN. `fin M e` is the number `M · 2^(e-53)`; in the normal form used by
`frexp` either `M = 0` and `e = 0` or `2^52 ≤ |M| < 2^53`, so that `frexp` returns the fraction
`M / 2^53` and the exponent `e` (the signed zero of C++ is not distinguished). -/
inductive Dbl where
  | fin (M : Int) (e : Int)
  | posInf
  | negInf
deriving Repr, DecidableEq

/-- The normal form of `frexp`: what a finite C++ `double` is represented by. The exponent range is that
of all `double`s, subnormals included. -/
def Dbl.Normal : Dbl → Prop
  | .fin M e => (M = 0 ∧ e = 0) ∨ (2 ^ 52 ≤ M.natAbs ∧ M.natAbs < 2 ^ 53 ∧ -1074 < e ∧ e ≤ 1024)
  | _ => True

/-- compression.cc:289-300: the words written for a weight. `0x40000000 * frexp(value)` is
`M / 2^23`, exactly representable, and the conversion to `int` truncates toward zero. -/
def wordsOf : Dbl → Words
  | .fin M e => ⟨UInt32.ofInt (M.tdiv (2 ^ 23)), UInt32.ofInt e⟩
  | .posInf => ⟨0xffffffff, 0xffffffff⟩
  | .negInf => ⟨0xffffffff, 0xfffffffe⟩

/-- The `int` with the same bits as an `unsigned int`. -/
def toInt32 (w : UInt32) : Int := if w.toNat < 2 ^ 31 then w.toNat else (w.toNat : Int) - 2 ^ 32

/-- compression.cc:415-426: the weight formed from the words: `ldexp((int)mantissa / 2^30, exponent)`,
that is `mantissa · 2^23 · 2^(exponent-53)`. The result is the exact value; for the words `wordsOf`
produces from doubles in normal range no rounding occurs in `ldexp` (subnormal results are outside). -/
def dblOf (w : Words) : Dbl :=
  if w.mantissa = 0xffffffff ∧ 0xfffffffe ≤ w.exponent then
    if w.exponent = 0xfffffffe then .negInf else .posInf
  else .fin (toInt32 w.mantissa * 2 ^ 23) (toInt32 w.exponent)

/-- `Compression::long_multibyte_write` (compression.cc:284-329, 331-376). -/
def longMultibyteWrite (d : Dbl) : Option (List UInt8) := wordsWrite (wordsOf d)

/-- `Compression::long_multibyte_read` (compression.cc:378-429). -/
def longMultibyteRead (input : List UInt8) : Dbl × List UInt8 :=
  let (w, input) := wordsRead input
  (dblOf w, input)

/-! ## Big-endian 64-bit words (compression.h) -/

/-- `write_u64_be` (compression.h:56-61): eight bytes, most significant first. -/
def writeU64be (v : UInt64) : List UInt8 :=
  [(v >>> 56).toUInt8, (v >>> 48).toUInt8, (v >>> 40).toUInt8, (v >>> 32).toUInt8,
   (v >>> 24).toUInt8, (v >>> 16).toUInt8, (v >>> 8).toUInt8, v.toUInt8]

/-- `read_u64_be(FILE*)` (compression.h:69-75 and 83-88): a short read throws. -/
def readU64be : List UInt8 → Res (UInt64 × List UInt8)
  | b0 :: b1 :: b2 :: b3 :: b4 :: b5 :: b6 :: b7 :: rest =>
    .ok ((b0.toUInt64 <<< 56) ||| (b1.toUInt64 <<< 48) ||| (b2.toUInt64 <<< 40) ||| (b3.toUInt64 <<< 32) |||
      (b4.toUInt64 <<< 24) ||| (b5.toUInt64 <<< 16) ||| (b6.toUInt64 <<< 8) ||| b7.toUInt64, rest)
  | _ => .exception

end Verif.Compression
