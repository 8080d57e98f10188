import Verif.Base
import Verif.Data.Assoc

/-!
# Model of `lttoolbox/serialiser.h` and `lttoolbox/deserialiser.h`

Streams are byte lists. An output stream that fails (full disk) is not modelled.
-/

namespace Verif.Serialiser

/-- The loop of `compressedSize` (serialiser.h:41-44): advance while `value >> 8*k > 255`. The fuel is the
number of bytes of the widest type; `fuel = 0` is never reached for 64-bit values (`sizeLoop_spec`). -/
def sizeLoop (v : Nat) : (fuel k : Nat) → Nat
  | 0, k => k
  | fuel + 1, k => if v >>> (8 * k) > 255 then sizeLoop v fuel (k + 1) else k

/-- `compressedSize` (serialiser.h:35-48). -/
def compressedSize (v : Nat) : Nat := sizeLoop v 8 0 + 1

/-- The bytes of `int_serialise` after the size byte (serialiser.h:167-170): `value >> 8*k` for
`k = size-1, ..., 0`. -/
def intBytes (v : Nat) : (size : Nat) → List UInt8
  | 0 => []
  | k + 1 => UInt8.ofNat (v >>> (8 * k)) :: intBytes v k

/-- `int_serialise` (serialiser.h:154-187) on the unsigned value it is given. -/
def intSerialise (v : Nat) : List UInt8 :=
  UInt8.ofNat (compressedSize v) :: intBytes v (compressedSize v)

/-- The loop of `int_deserialise` (deserialiser.h:134-141). `width` is the width of the type in which the
shift is done (64 for `uint64_t`; 32 for the promoted `uint8_t` and `uint16_t`): shifting by `width` or more
is undefined and happens before the stream is checked. `bits` is the width of the accumulator. -/
def intLoop (bits width : Nat) : (size acc : Nat) → List UInt8 → Res (Nat × List UInt8)
  | 0, acc, s => .ok (acc, s)
  | k + 1, acc, s =>
    if width ≤ 8 * k then .ub
    else match s with
      | [] => .exception
      | b :: s => intLoop bits width k ((acc + b.toNat * 2 ^ (8 * k)) % 2 ^ bits) s

/-- `int_deserialise` (deserialiser.h:125-149). -/
def intDeserialise (bits width : Nat) : List UInt8 → Res (Nat × List UInt8)
  | [] => .exception
  | size :: s => intLoop bits width size.toNat 0 s

/-- A serialiser/deserialiser pair for one type (the class templates `Serialiser<T>`/`Deserialiser<T>`). -/
structure Codec (α : Type) where
  enc : α → List UInt8
  dec : List UInt8 → Res (α × List UInt8)

/-- `Serialiser<uint64_t>` (serialiser.h:201-204), `Deserialiser<uint64_t>` (deserialiser.h:161-163). -/
def u64 : Codec UInt64 where
  enc v := intSerialise v.toNat
  dec s := do let (n, s) ← intDeserialise 64 64 s; pure (UInt64.ofNat n, s)

/-- `Serialiser<int64_t>` (serialiser.h:196-199), `Deserialiser<int64_t>` (deserialiser.h:157-159). -/
def i64 : Codec Int64 where
  enc v := intSerialise v.toUInt64.toNat
  dec s := do let (n, s) ← intDeserialise 64 64 s; pure ((UInt64.ofNat n).toInt64, s)

/-- `Serialiser<uint32_t>` (serialiser.h:211-214), `Deserialiser<uint32_t>` (deserialiser.h:169-171): the
64-bit result is truncated. -/
def u32 : Codec UInt32 where
  enc v := intSerialise v.toUInt64.toNat
  dec s := do let (n, s) ← intDeserialise 64 64 s; pure (UInt32.ofNat n, s)

/-- `Serialiser<int32_t>` (serialiser.h:206-209: the cast to `uint64_t` sign-extends),
`Deserialiser<int32_t>` (deserialiser.h:165-167: truncation). -/
def i32 : Codec Int32 where
  enc v := intSerialise v.toInt64.toUInt64.toNat
  dec s := do let (n, s) ← intDeserialise 64 64 s; pure ((UInt32.ofNat n).toInt32, s)

/-- `Serialiser<char>` (serialiser.h:216-219), `Deserialiser<char>` (deserialiser.h:173-175). -/
def chr : Codec Int8 where
  enc v := intSerialise v.toUInt8.toNat
  dec s := do let (n, s) ← intDeserialise 8 32 s; pure ((UInt8.ofNat n).toInt8, s)

/-- `Serialiser<UChar>` (serialiser.h:221-224) and `Deserialiser<UChar>` (deserialiser.h:177-179): the reader
is declared to return `char`, so the 16-bit value is cut to a signed 8-bit `char`, and `push_back`
(deserialiser.h:110) widens that `char` again to a `UChar`. -/
def uchar : Codec UInt16 where
  enc v := intSerialise v.toNat
  dec s := do
    let (n, s) ← intDeserialise 16 32 s
    let c : Int8 := (UInt8.ofNat n).toInt8
    pure (c.toInt16.toUInt16, s)

/-- `Serialiser<double>` (serialiser.h:226-234), `Deserialiser<double>` (deserialiser.h:181-188). A `double`
is represented by its 64-bit pattern. -/
def double : Codec UInt64 := u64

/-- `Serialiser<std::pair>` (serialiser.h:146-152), `Deserialiser<std::pair>` (deserialiser.h:116-123). -/
def pair {α β : Type} (a : Codec α) (b : Codec β) : Codec (α × β) where
  enc p := a.enc p.1 ++ b.enc p.2
  dec s := do
    let (x, s) ← a.dec s
    let (y, s) ← b.dec s
    pure ((x, y), s)

/-- The loop of the container readers (deserialiser.h:109-111 and 198-200). -/
def decMany {α : Type} (c : Codec α) : Nat → List UInt8 → Res (List α × List UInt8)
  | 0, s => .ok ([], s)
  | n + 1, s => do
    let (x, s) ← c.dec s
    let (xs, s) ← decMany c n s
    pure (x :: xs, s)

/-- `Serialiser<Container>` (serialiser.h:236-247, and 132-144 for strings): size, then the elements in
iteration order. -/
def encList {α : Type} (c : Codec α) (l : List α) : List UInt8 :=
  u64.enc (UInt64.ofNat l.length) ++ l.flatMap c.enc

/-- `Deserialiser<std::basic_string>` (deserialiser.h:102-114) and `Deserialiser<Container>` for vectors
(190-203, where `std::inserter` appends). -/
def vec {α : Type} (c : Codec α) : Codec (List α) where
  enc l := encList c l
  dec s := do
    let (n, s) ← u64.dec s
    decMany c n.toNat s

/-- `Deserialiser<Container>` for `std::map` (deserialiser.h:190-203). -/
def map {κ ν : Type} [LT κ] [DecidableLT κ] (ck : Codec κ) (cv : Codec ν) : Codec (List (κ × ν)) where
  enc l := encList (pair ck cv) l
  dec s := do
    let (n, s) ← u64.dec s
    let (l, s) ← decMany (pair ck cv) n.toNat s
    pure (l.foldl (fun m e => mapInsert e.1 e.2 m) [], s)

/-- `Deserialiser<Container>` for `std::multimap` (deserialiser.h:190-203). The hint of `std::inserter`
can change the relative order of equal keys only for input that is not sorted by key, which the writer never
produces; that case is simplified to plain insertion. -/
def multimap {κ ν : Type} [LT κ] [DecidableLT κ] (ck : Codec κ) (cv : Codec ν) : Codec (List (κ × ν)) where
  enc l := encList (pair ck cv) l
  dec s := do
    let (n, s) ← u64.dec s
    let (l, s) ← decMany (pair ck cv) n.toNat s
    pure (l.foldl (fun m e => mmInsert e.1 e.2 m) [], s)

/-- `Deserialiser<std::basic_string<UChar>>` (deserialiser.h:102-114): a `UString`. -/
def ustring : Codec (List UInt16) := vec uchar

end Verif.Serialiser
