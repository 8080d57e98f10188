import Verif.Compression.Model
import Verif.Data.Units

/-!
# Model of `lttoolbox/string_utils.cc`

Strings are lists of 16-bit units. The functions that only pass their argument to ICU (`tolower`, `toupper`, `totitle`,
`caseequal`) or to `printf`/`scanf` (`itoa`, `ftoa`, `stoi`, `stod`) are not modelled. Loops that need not end have a
number of turns as argument and return `none` when it is used up.
-/

namespace Verif.Str

open Verif.Compression (isLead isTrail supplementary)

/-- The first place where `d` starts. -/
def findIn (d : UString) : UString → Option Nat
  | [] => if d.isPrefixOf [] then some 0 else none
  | u :: s => if d.isPrefixOf (u :: s) then some 0 else (findIn d s).map (· + 1)

/-- `std::basic_string_view::find` from a position. -/
def find (str d : UString) (pos : Nat) : Option Nat :=
  if pos > str.length then none else (findIn d (str.drop pos)).map (pos + ·)

/-- `basic_string_view::substr`: `out_of_range` is thrown when the position is beyond the end. -/
def substr (str : UString) (pos count : Nat) : Res UString :=
  if pos > str.length then .exception else .ok ((str.drop pos).take count)

/-- The loop of `StringUtils::split` (string_utils.cc:55-66). -/
def splitLoop (str delim : UString) : (turns pos : Nat) → Option (List UString)
  | turns, pos =>
    if pos < str.length then
      match turns with
      | 0 => none
      | turns + 1 =>
        let newPos := (find str delim pos).getD str.length
        let piece := if newPos > pos then [(str.drop pos).take (newPos - pos)] else []
        (splitLoop str delim turns (newPos + delim.length)).map (piece ++ ·)
    else some []

/-- `StringUtils::split` (string_utils.cc:49-68). With a delimiter that is not empty the position grows in every turn. -/
def split (str delim : UString) : Option (List UString) := splitLoop str delim str.length 0

/-- The loop of `StringUtils::split_escaped` (string_utils.cc:75-86): `i` and `start`; the pieces and the last `start`. -/
def splitEscapedLoop (str : UString) (delim : UInt16) : (turns i start : Nat) → List UString × Nat
  | 0, _, start => ([], start)
  | turns + 1, i, start =>
    match str[i]? with
    | none => ([], start)
    | some u =>
      if u = 0x5c then splitEscapedLoop str delim turns (i + 2) start
      else if u = delim then
        let piece := if i > start then [(str.drop start).take (i - start)] else []
        let (rest, start) := splitEscapedLoop str delim turns (i + 1) (i + 1)
        (piece ++ rest, start)
      else splitEscapedLoop str delim turns (i + 1) start

/-- `StringUtils::split_escaped` (string_utils.cc:70-91). `i` grows in every turn. -/
def splitEscaped (str : UString) (delim : UInt16) : List UString :=
  let (pieces, start) := splitEscapedLoop str delim (str.length + 1) 0 0
  if start < str.length then pieces ++ [str.drop start] else pieces

/-- `StringUtils::join` (string_utils.cc:93-104). -/
def join (vec : List UString) (delim : UString) : UString :=
  vec.foldl (fun s piece => (if s ≠ [] then s ++ delim else s) ++ piece) []

/-- The loop of `StringUtils::substitute` (string_utils.cc:110-115): `p` is where the last search began. -/
def substituteLoop (olds news : UString) : (turns : Nat) → (s : UString) → (p : Nat) → Option UString
  | turns, s, p =>
    match find s olds p with
    | none => some s
    | some p =>
      match turns with
      | 0 => none
      | turns + 1 => substituteLoop olds news turns (s.take p ++ news ++ s.drop (p + olds.length)) (p + news.length)

/-- `StringUtils::substitute` (string_utils.cc:106-117). What is still to be searched gets shorter in every turn if `olds`
is not empty. -/
def substitute (str olds news : UString) : Option UString := substituteLoop olds news str.length str 0

/-- `StringUtils::startswith` (string_utils.cc:283-288). -/
def startswith (str pre : UString) : Res Bool :=
  if pre.length ≤ str.length then do
    let s ← substr str 0 pre.length
    pure (s == pre)
  else .ok false

/-- `StringUtils::endswith` (string_utils.cc:290-295). -/
def endswith (str suffix : UString) : Res Bool :=
  if suffix.length ≤ str.length then do
    let s ← substr str (str.length - suffix.length) str.length
    pure (s == suffix)
  else .ok false

/-- `StringUtils::merge_wblanks` (string_utils.cc:297-306). `w1.size()-2` wraps below zero, and `substr` then takes
everything. -/
def mergeWblanks (w1 w2 : UString) : Res UString :=
  if w1 = [] then .ok w2
  else if w2 = [] then .ok w1
  else do
    let a ← substr w1 0 (if w1.length < 2 then w1.length else w1.length - 2)
    let b ← substr w2 2 w2.length
    pure (a ++ [0x3b, 0x20] ++ b)

/-! ## Code points -/

/-- `s[i]`; `none` is memory that is not known to exist. -/
def unit (s : UString) (i : Nat) : Res UInt16 :=
  match s[i]? with
  | some u => .ok u
  | none => .ub

/-- `U16_GET(s, start, i, length, c)` (unicode/utf16.h): the code point that the unit at `i` belongs to. -/
def u16get (s : UString) (start i length : Nat) : Res Nat := do
  let c ← unit s i
  if isLead c then
    if i + 1 ≠ length then do
      let c2 ← unit s (i + 1)
      pure (if isTrail c2 then (supplementary c c2).toNat else c.toNat)
    else pure c.toNat
  else if isTrail c then
    if i > start then do
      let c2 ← unit s (i - 1)
      pure (if isLead c2 then (supplementary c2 c).toNat else c.toNat)
    else pure c.toNat
  else pure c.toNat

/-- `U16_FWD_1(s, i, length)` (unicode/utf16.h). -/
def u16fwd (s : UString) (i length : Nat) : Res Nat := do
  let c ← unit s i
  if isLead c && i + 1 ≠ length then do
    let c2 ← unit s (i + 1)
    pure (if isTrail c2 then i + 2 else i + 1)
  else pure (i + 1)

/-- `U16_BACK_1(s, start, i)` (unicode/utf16.h). `i` must not be 0 (`--i` would wrap). -/
def u16back (s : UString) (start i : Nat) : Res Nat :=
  if i = 0 then .ub
  else do
    let c ← unit s (i - 1)
    if isTrail c && i - 1 > start then do
      let c2 ← unit s (i - 2)
      pure (if isLead c2 then i - 2 else i - 1)
    else pure (i - 1)

/-- The first loop of `StringUtils::trim` (string_utils.cc:19-27): `begin` afterwards. `mem` is the string and what lies
behind it in memory. The loop only ends at a code point that is not a space: `begin` stays 0 until then. -/
def trimFront (isSpace : Nat → Bool) (mem : UString) (size : Nat) : (turns i : Nat) → Res Nat
  | 0, _ => .ub
  | turns + 1, i => do
    let c ← u16get mem 0 i size
    if !isSpace c then pure i
    else do
      let i ← u16fwd mem i size
      trimFront isSpace mem size turns i

/-- The last loop of `StringUtils::trim` (string_utils.cc:38-45): `end` and `i`; `end` afterwards. -/
def trimBack (isSpace : Nat → Bool) (mem : UString) (size begin : Nat) : (turns e i : Nat) → Res Nat
  | 0, _, _ => .ub
  | turns + 1, e, i =>
    if e > begin then do
      let e := i
      let i ← u16back mem 0 i
      let c ← u16get mem 0 i size
      if !isSpace c then pure e else trimBack isSpace mem size begin turns e i
    else .ok e

/-- `StringUtils::trim` (string_utils.cc:9-47) of the view `str` with `after` behind it in memory.
`end-begin` wraps below zero, and `substr` then takes everything. -/
def trim (isSpace : Nat → Bool) (str after : UString) : Res UString :=
  if str = [] then .ok str
  else do
    let mem := str ++ after
    let size := str.length
    let begin ← trimFront isSpace mem size (mem.length + 1) 0
    let i ← u16back mem 0 size
    let c ← u16get mem 0 i size
    if !isSpace c then
      if begin = 0 then pure str else substr str begin size
    else do
      let e ← trimBack isSpace mem size begin (size + 1) size i
      substr str begin (if e < begin then size else e - begin)

/-- `StringUtils::getcase` (string_utils.cc:210-231). `U16_NEXT` at the start is `U16_GET` and `U16_FWD_1`. -/
def getcase (isUpper : Nat → Bool) (str : UString) : Res UString :=
  if str = [] then .ok [0x61, 0x61]
  else do
    let l := str.length
    let c ← u16get str 0 0 l
    let i ← u16fwd str 0 l
    if isUpper c then
      if i < l then do
        let l' ← u16back str i l
        let c ← u16get str 0 l' str.length
        pure (if isUpper c then [0x41, 0x41] else [0x41, 0x61])
      else pure [0x41, 0x61]
    else pure [0x61, 0x61]

end Verif.Str
