import Verif.Compression.Model
import Verif.Serialiser.Model
import Verif.Data.Units

/-!
# Model of `lttoolbox/alphabet.cc` and `lttoolbox/symbol_iter.cc`

Symbols and codes (`int32_t`) are integers; the sizes of the tables are assumed to stay below 2^31, so the
conversions between `size_t` and `int32_t` lose nothing.
-/

namespace Verif

open Verif.Compression

/-- A pair of symbols, as in `spairinv` (alphabet.h:63). -/
abbrev Pair := Int × Int

/-- The data members of `class Alphabet` (alphabet.h:37-63). -/
structure Alphabet where
  /-- `slexic`: tag text to code -/
  slexic : List (UString × Int)
  /-- `slexicinv`: the tags in the order of inclusion -/
  slexicinv : List UString
  /-- `spair`: pair to code; `std::pair` compares lexicographically -/
  spair : List ((Int ×ₗ Int) × Int)
  /-- `spairinv`: the pairs in the order of inclusion -/
  spairinv : List Pair
  deriving DecidableEq

namespace Alphabet

/-- `Alphabet::Alphabet()` (alphabet.cc:32-36). -/
def empty : Alphabet where
  slexic := []
  slexicinv := []
  spair := [(toLex (0, 0), 0)]
  spairinv := [(0, 0)]

/-- `Alphabet::includeSymbol` (alphabet.cc:73-83). -/
def includeSymbol (a : Alphabet) (s : UString) : Alphabet :=
  match mapFind s a.slexic with
  | some _ => a
  | none => { a with
      slexic := mapSet s (-((a.slexic.length : Int) + 1)) a.slexic
      slexicinv := a.slexicinv ++ [s] }

/-- `Alphabet::operator()(c1, c2)` (alphabet.cc:85-97): the code and the alphabet afterwards. -/
def pairCode (a : Alphabet) (c1 c2 : Int) : Int × Alphabet :=
  match mapFind (toLex (c1, c2)) a.spair with
  | some c => (c, a)
  | none => (a.spair.length, { a with
      spair := mapSet (toLex (c1, c2)) (a.spair.length : Int) a.spair
      spairinv := a.spairinv ++ [(c1, c2)] })

/-- `Alphabet::operator()(s)`, not const (alphabet.cc:99-108). -/
def symCode (a : Alphabet) (s : UString) : Int := (mapFind s a.slexic).getD 0

/-- `Alphabet::operator()(s) const` (alphabet.cc:110-118). -/
def symCodeConst (a : Alphabet) (s : UString) : Int := (mapFind s a.slexic).getD (-1)

/-- `Alphabet::isSymbolDefined` (alphabet.cc:120-124). -/
def isSymbolDefined (a : Alphabet) (s : UString) : Bool := (mapFind s a.slexic).isSome

/-- `Alphabet::size` (alphabet.cc:126-130). -/
def size (a : Alphabet) : Nat := a.slexic.length

/-- `slexicinv[-symbol-1]`, read by `writeSymbol`, `getSymbol` and `sameSymbol` for a tag; an index outside
the vector is undefined. -/
def tagText (a : Alphabet) (sym : Int) : Res UString :=
  match a.slexicinv[(-sym - 1).toNat]? with
  | some s => .ok s
  | none => .ub

/-- `Alphabet::decode` (alphabet.cc:248-252). -/
def decode (a : Alphabet) (code : Int) : Res Pair :=
  if code < 0 then .ub
  else match a.spairinv[code.toNat]? with
    | some p => .ok p
    | none => .ub

/-- `Alphabet::getSymbol` (alphabet.cc:228-240) with `uppercase = false`: what is appended. `result +=`
of a `UChar32` is the operator of ustring.h:80-88, one or two units. -/
def getSymbol (a : Alphabet) (sym : Int) : Res UString :=
  if sym = 0 then .ok []
  else if sym < 0 then a.tagText sym
  else .ok (Compression.unitsOf (UInt32.ofNat sym.toNat))

/-- `Alphabet::symbolsWhereLeftIs` (alphabet.cc:254-263). -/
def symbolsWhereLeftIs (a : Alphabet) (l : Int) : List Int :=
  a.spair.foldl (fun acc e => if (ofLex e.1).1 = l then setInsert e.2 acc else acc) []

/-- `Alphabet::setSymbol` (alphabet.cc:265-268). -/
def setSymbol (a : Alphabet) (sym : Int) (s : UString) : Res Alphabet :=
  if sym < 0 then
    if (-sym - 1).toNat < a.slexicinv.length then
      .ok { a with slexicinv := a.slexicinv.set (-sym - 1).toNat s }
    else .ub
  else .ok a

/-! ## Binary format -/

/-- `multibyte_write` ends the process for values that are too large (compression.cc:61-65). -/
def mbw (v : UInt32) : Res (List UInt8) :=
  match multibyteWrite v with
  | some bs => .ok bs
  | none => .exit

/-- `string_write` through `multibyte_write`. -/
def sw (s : UString) : Res (List UInt8) :=
  match stringWrite s with
  | some bs => .ok bs
  | none => .exit

/-- `slexicinv[i].substr(1, slexicinv[i].size()-2)` (alphabet.cc:139): throws on an empty tag; for a tag of one
unit the count wraps round and the result is the empty rest. -/
def inner (s : UString) : Res UString :=
  if s.length < 1 then .exception else .ok ((s.drop 1).take (s.length - 2))

/-- The first loop of `Alphabet::write` (alphabet.cc:137-140). -/
def writeTags : List UString → Res (List UInt8)
  | [] => .ok []
  | s :: t => do
    let i ← inner s
    let b ← sw i
    let r ← writeTags t
    pure (b ++ r)

/-- A symbol plus bias, converted to `unsigned int` (alphabet.cc:148-149). -/
def biased (bias : Nat) (x : Int) : UInt32 := UInt32.ofNat ((x + bias) % 2 ^ 32).toNat

/-- The second loop of `Alphabet::write` (alphabet.cc:146-150). -/
def writePairs (bias : Nat) : List Pair → Res (List UInt8)
  | [] => .ok []
  | p :: t => do
    let b1 ← mbw (biased bias p.1)
    let b2 ← mbw (biased bias p.2)
    let r ← writePairs bias t
    pure (b1 ++ b2 ++ r)

/-- `Alphabet::write` (alphabet.cc:132-151). -/
def write (a : Alphabet) : Res (List UInt8) := do
  let n ← mbw (UInt32.ofNat a.slexicinv.length)
  let ts ← writeTags a.slexicinv
  let m ← mbw (UInt32.ofNat a.spairinv.length)
  let ps ← writePairs a.slexicinv.length a.spairinv
  pure (n ++ ts ++ m ++ ps)

/-- The first loop of `Alphabet::read` (alphabet.cc:162-171). `0x3c`/`0x3e` are the angle brackets. -/
def readTags : Nat → Alphabet → List UInt8 → Alphabet × List UInt8
  | 0, a, s => (a, s)
  | n + 1, a, s =>
    let (t, s) := stringRead s
    let tag := 0x3c :: t ++ [0x3e]
    let inv := a.slexicinv ++ [tag]
    readTags n { a with slexicinv := inv, slexic := mapSet tag (-(inv.length : Int)) a.slexic } s

/-- The second loop of `Alphabet::read` (alphabet.cc:176-185). -/
def readPairs (bias : Nat) : Nat → Alphabet → List UInt8 → Alphabet × List UInt8
  | 0, a, s => (a, s)
  | n + 1, a, s =>
    let (x, s) := multibyteRead s
    let (y, s) := multibyteRead s
    let p : Pair := ((x.toNat : Int) - bias, (y.toNat : Int) - bias)
    readPairs bias n { a with
      spair := mapSet (toLex p) (a.spair.length : Int) a.spair
      spairinv := a.spairinv ++ [p] } s

/-- `Alphabet::read` (alphabet.cc:153-188). `multibyte_read` yields values below 2^30, so the conversion of the
two counts to `int32_t` changes nothing. The end of file is not noticed (`readByte`). -/
def read (s : List UInt8) : Alphabet × List UInt8 :=
  let (n, s) := multibyteRead s
  let (a, s) := readTags n.toNat ⟨[], [], [], []⟩ s
  let (m, s) := multibyteRead s
  readPairs a.slexicinv.length m.toNat a s

/-! ## The serialiser format -/

/-- `Alphabet::serialise` (alphabet.cc:190-195). -/
def serialise (a : Alphabet) : List UInt8 :=
  (Serialiser.vec Serialiser.ustring).enc a.slexicinv ++
  (Serialiser.vec (Serialiser.pair Serialiser.i32 Serialiser.i32)).enc
    (a.spairinv.map fun p => (Int32.ofInt p.1, Int32.ofInt p.2))

/-- The first loop of `Alphabet::deserialise` (alphabet.cc:205-207), from index `i` on. -/
def indexTags : Nat → List UString → List (UString × Int) → List (UString × Int)
  | _, [], m => m
  | i, s :: t, m => indexTags (i + 1) t (mapSet s (-(i : Int) - 1) m)

/-- The second loop of `Alphabet::deserialise` (alphabet.cc:209-211): it runs over the indices of
*slexicinv* (`n` of them remain) but reads `spairinv`; reading past its end is undefined. -/
def indexPairs : (n i : Nat) → List Pair → List ((Int ×ₗ Int) × Int) → Res (List ((Int ×ₗ Int) × Int))
  | 0, _, _, m => .ok m
  | _ + 1, _, [], _ => .ub
  | n + 1, i, p :: t, m => indexPairs n (i + 1) t (mapSet (toLex p) (i : Int) m)

/-- `Alphabet::deserialise` (alphabet.cc:197-212). -/
def deserialise (s : List UInt8) : Res (Alphabet × List UInt8) := do
  let (tags, s) ← (Serialiser.vec Serialiser.ustring).dec s
  let (ps, s) ← (Serialiser.vec (Serialiser.pair Serialiser.i32 Serialiser.i32)).dec s
  let ps : List Pair := ps.map fun p => (p.1.toInt, p.2.toInt)
  let m ← indexPairs tags.length 0 ps []
  pure (⟨indexTags 0 tags [], tags, m, ps⟩, s)

/-! ## Loopback symbols -/

/-- `Alphabet::Side` (alphabet.h:183-187). -/
inductive Side where
  | left
  | right
  deriving DecidableEq

/-- The symbol of a pair that stands on a side (the two branches of alphabet.cc:279-298). -/
def Side.pick : Side → Pair → Int
  | .left, p => p.1
  | .right, p => p.2

/-- The first loop of `createLoopbackSymbols` (alphabet.cc:276-299): the alphabet, the symbols, the tags. -/
def loopPairs (sd : Side) (nonTagsToo : Bool) : List Pair → Alphabet × List Int × List Int →
    Alphabet × List Int × List Int
  | [], st => st
  | p :: ps, (a, symbols, tags) =>
    let x := sd.pick p
    if x < 0 then loopPairs sd nonTagsToo ps (a, symbols, setInsert x tags)
    else if nonTagsToo then
      let (c, a) := a.pairCode x x
      loopPairs sd nonTagsToo ps (a, setInsert c symbols, tags)
    else loopPairs sd nonTagsToo ps (a, symbols, tags)

/-- The second loop of `createLoopbackSymbols` (alphabet.cc:300-308), over `basis.slexic` in map order. -/
def loopTags (tags : List Int) : List (UString × Int) → Alphabet × List Int → Alphabet × List Int
  | [], st => st
  | (s, c) :: m, (a, symbols) =>
    if c ∈ tags then
      let a := a.includeSymbol s
      let (code, a) := a.pairCode (a.symCode s) (a.symCode s)
      loopTags tags m (a, setInsert code symbols)
    else loopTags tags m (a, symbols)

/-- `Alphabet::createLoopbackSymbols` (alphabet.cc:270-309). The basis is a different object. -/
def createLoopbackSymbols (a : Alphabet) (symbols : List Int) (basis : Alphabet) (sd : Side)
    (nonTagsToo : Bool) : Alphabet × List Int :=
  let (a, symbols, tags) := loopPairs sd nonTagsToo basis.spairinv (a, symbols, [])
  loopTags tags basis.slexic (a, symbols)

/-! ## Comparison -/

/-- `<ANY_CHAR>` -/
def anyChar : UString := [0x3c, 0x41, 0x4e, 0x59, 0x5f, 0x43, 0x48, 0x41, 0x52, 0x3e]
/-- `<ANY_TAG>` -/
def anyTag : UString := [0x3c, 0x41, 0x4e, 0x59, 0x5f, 0x54, 0x41, 0x47, 0x3e]

/-- `this->slexicinv[-sym-1] == s`, guarded by `sym < 0` and followed by `guard`, with the evaluation order of
`&&`: `sym < 0 && text == s && guard`. -/
def textIs (a : Alphabet) (sym : Int) (s : UString) (guard : Bool) : Res Bool :=
  if sym < 0 then do
    let t ← a.tagText sym
    pure (t == s && guard)
  else pure false

/-- `x || y` with short-circuit evaluation. -/
def orElse (x : Res Bool) (y : Res Bool) : Res Bool := do
  if ← x then pure true else y

/-- `Alphabet::sameSymbol` (alphabet.cc:322-340). -/
def sameSymbol (a : Alphabet) (tsym : Int) (o : Alphabet) (osym : Int) (allowAnys : Bool) : Res Bool := do
  if tsym ≥ 0 ∧ tsym = osym then return true
  if tsym < 0 ∧ osym < 0 then
    let t ← a.tagText tsym
    let u ← o.tagText osym
    if t == u then return true
  if allowAnys then
    orElse (textIs a tsym anyChar (osym > 0))
      (orElse (textIs a tsym anyTag (osym < 0))
        (orElse (textIs o osym anyChar (tsym > 0))
          (textIs o osym anyTag (tsym < 0))))
  else return false

/-! ## Splitting text -/

/-- `U16_NEXT` at the start of a non-empty text (unicode/utf16.h): how many units it consumes. -/
def nextLen : UString → Nat
  | [] => 0
  | [_] => 1
  | u :: v :: _ => if isLead u && isTrail v then 2 else 1

/-- The scan for `>` (symbol_iter.cc:26-28): the length up to and including the first `>`, if there is one.
`U16_NEXT` steps over whole code points; `>` is never part of a surrogate pair, so this is a scan by units. -/
def closeLen : UString → Option Nat
  | [] => none
  | u :: t => if u = 0x3e then some 1 else (closeLen t).map (· + 1)

/-- One `operator++` of `symbol_iter::iterator` (symbol_iter.cc:18-33) at a position where text is left: the
piece `*it` and the text after it. `none`: the text was a lone backslash, and the iterator is now equal to
`end()`. -/
def nextPiece (s : UString) : Option (UString × UString) :=
  match s with
  | [] => none
  | u :: t =>
    if u = 0x5c then
      match t with
      | [] => none
      | _ => some (t.take (nextLen t), t.drop (nextLen t))
    else if u = 0x3c then
      match closeLen t with
      | some n => some (u :: t.take n, t.drop n)
      | none => some ([u], t)
    else some (s.take (nextLen s), s.drop (nextLen s))

/-- The loop `for (auto sym : symbol_iter(str))` (symbol_iter.cc:45-57 and 18-43). When the last piece ends at
the end of the view, the next `operator++` still reads one unit, `past`, from behind the view (`U16_NEXT` does not
check its position before reading; the unit is 0 for a view of a whole `UString`). If that unit is a backslash,
`sloc` is moved one behind `str.size()`, the iterator differs from `end()`, and `*it` throws `out_of_range`.
`fuel` bounds the number of pieces by the length of the text (`pieces_fuel`). -/
def piecesLoop (past : UInt16) : (fuel : Nat) → UString → Res (List UString)
  | 0, _ => .ok []
  | fuel + 1, s =>
    match nextPiece s with
    | none => .ok []
    | some (p, rest) =>
      match rest with
      | [] => if past = 0x5c then .exception else .ok [p]
      | _ => do
        let ps ← piecesLoop past fuel rest
        pure (p :: ps)

/-- All pieces of a text. -/
def pieces (past : UInt16) (s : UString) : Res (List UString) := piecesLoop past s.length s

/-- `Alphabet::tokenize` (alphabet.cc:311-320). A piece is never empty, so `sym[0]` exists. -/
def tokenize (past : UInt16) (a : Alphabet) (s : UString) : Res (List Int) := do
  let ps ← pieces past s
  pure (ps.map fun p =>
    match p with
    | [u] => (u.toNat : Int)
    | _ => a.symCodeConst p)

end Alphabet

end Verif
