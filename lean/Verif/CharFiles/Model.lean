import Verif.Base
import Verif.Data.Assoc
import Mathlib.Data.Nat.Basic

/-!
# Model of the files of `lt-proc -i` and `lt-proc -r`

`parseICX` and `parseRCX` of `fst_processor.cc`. A file is the list of events that libxml2 gives before the end of the file or the first error in the XML, which the code does
not tell apart. The end of an element is an event with the name and the attributes of the element.
-/

namespace Verif.CharFiles

/-- The names that the code distinguishes (fst_processor.h:490-496). -/
inductive Name where
  | text | comment | ignoredChars | restoreChars | char | restoreChar | other
  deriving DecidableEq

/-- An event with its attribute `value`, if it has one. -/
structure Event where
  name : Name
  value : Option (List UInt16)
  deriving DecidableEq

/-- `none` is a file that cannot be opened. -/
abbrev File := Option (List Event)

/-- The data members (fst_processor.h:133-143, 201-211) after the constructor, which puts the soft hyphen among the ignored characters (fst_processor.cc:46-49, 140-144).
`current` is not initialised. -/
structure Chars where
  useIgnored : Bool := false
  useDefault : Bool := true
  ignored : List Nat := [173]
  useRestore : Bool := false
  current : Option Nat := none
  restore : List (Nat × List Nat) := []
  deriving DecidableEq

/-- `static_cast<int32_t>(XMLParseUtil::attrib(reader, XML_VALUE_ATTR)[0])`: without an attribute the string is empty (xml_parse_util.cc:34-49), and its element 0 is the
null character. -/
def unit (v : Option (List UInt16)) : Nat := ((v.getD []).headD 0).toNat

/-- `procNodeICX` (fst_processor.cc:112-138). -/
def icxNode (e : Event) (s : Chars) : Res Chars :=
  match e.name with
  | .text => .ok s
  | .ignoredChars => .ok s
  | .char => .ok { s with ignored := setInsert (unit e.value) s.ignored }
  | .comment => .ok s
  | _ => .exit

/-- The loop over the events of a file (fst_processor.cc:78-83). -/
def icxNodes : List Event → Chars → Res Chars
  | [], s => .ok s
  | e :: es, s => do icxNodes es (← icxNode e s)

/-- `parseICX` (fst_processor.cc:67-90). -/
def parseICX (f : File) (s : Chars) : Res Chars :=
  if s.useIgnored then
    match f with
    | none => .exit
    | some es => do
      let s ← icxNodes es s
      pure (if s.ignored = [] then { s with useIgnored := false } else s)
  else .ok s

/-- `procNodeRCX` (fst_processor.cc:146-176). -/
def rcxNode (e : Event) (s : Chars) : Res Chars :=
  match e.name with
  | .text => .ok s
  | .restoreChars => .ok s
  | .char => .ok { s with current := some (unit e.value) }
  | .restoreChar =>
    match s.current with
    | none => .ub
    | some c => .ok { s with restore := mapModify [] c (setInsert (unit e.value)) s.restore }
  | .comment => .ok s
  | _ => .exit

/-- The loop over the events of a file (fst_processor.cc:103-108). -/
def rcxNodes : List Event → Chars → Res Chars
  | [], s => .ok s
  | e :: es, s => do rcxNodes es (← rcxNode e s)

/-- `parseRCX` (fst_processor.cc:92-110). -/
def parseRCX (f : File) (s : Chars) : Res Chars :=
  if s.useRestore then
    match f with
    | none => .exit
    | some es => rcxNodes es s
  else .ok s

/-- A loop over files (lt_proc.cc:141-143, 148-150). -/
def each (parse : File → Chars → Res Chars) : List File → Chars → Res Chars
  | [], s => .ok s
  | f :: fs, s => do each parse fs (← parse f s)

/-- The options `-I`, `-i` and `-r` of lt-proc (lt_proc.cc:133, 138-151). -/
def configure (noDefault : Bool) (icx rcx : List File) : Res Chars :=
  (if icx = [] then .ok { useDefault := !noDefault } else each parseICX icx { useDefault := !noDefault, useIgnored := true }) >>= fun s =>
  if rcx = [] then .ok s else each parseRCX rcx { s with useRestore := true, useDefault := false }

/-- The condition of the loop in `readAnalysis` (fst_processor.cc:197). -/
def ignores (s : Chars) (c : Nat) : Bool := (s.useIgnored || s.useDefault) && s.ignored.contains c

/-- What a character is restored to (fst_processor.cc:888-891), for characters that are not upper case or with `-c`. -/
def restores (s : Chars) (c : Nat) : List Nat := if s.useRestore then (mapFind c s.restore).getD [] else []

end Verif.CharFiles
