import Verif.Stream.Model
import Verif.Str.Model

/-! # Model of escaping, `lt-merge` and its inverse in `lttoolbox/fst_processor.cc` -/

namespace Verif.Merge

open Verif.Stream Verif.Input

/-- `escaped_chars` (fst_processor.cc:34-44). -/
def escapedChars : List UInt16 := [0x5b, 0x5d, 0x7b, 0x7d, 0x5e, 0x24, 0x2f, 0x5c, 0x40, 0x3c, 0x3e]

/-- `FSTProcessor::appendEscaped` (fst_processor.h:476-483): the text that is appended. The text that
`FSTProcessor::writeEscaped` (fst_processor.cc:479-490) writes is the same. -/
def appendEscaped (dst : UString) : UString → UString
  | [] => dst
  | c :: src => appendEscaped ((if c ∈ escapedChars then dst ++ [0x5c] else dst) ++ [c]) src

/-- The loop over the last reading in `quoteUnmerge` (fst_processor.cc:2098-2111); the flag is `escaping`. -/
def unescapeLoop : Bool → UString → UString → UString
  | _, surface, [] => surface
  | true, surface, c :: s => unescapeLoop false (surface ++ [c]) s
  | false, surface, c :: s => if c = 0x5c then unescapeLoop true surface s else unescapeLoop false (surface ++ [c]) s

/-- `s.find(pat) != npos`. -/
def hasText (pat s : UString) : Bool := (Str.find s pat 0).isSome

def ascii (s : String) : UString := s.toList.map fun c => UInt16.ofNat c.toNat

def MERGE_BEG : UString := ascii "<MERGE_BEG>"
def MERGE_END : UString := ascii "<MERGE_END>"
def MERGED : UString := ascii "<MERGED>"

/-- A unit that is copied (fst_processor.cc:2042-2057 and 2113-2128). -/
def copyUnit (rs : List Reading) : UString :=
  if rs.length > 0 then [0x5e] ++ go false rs ++ [0x24] else []
where
  go : Bool → List Reading → UString
    | _, [] => []
    | seen, r :: rs => (if seen then [0x2f] else []) ++ (if r.mark ≠ 0 then utf16 r.mark else []) ++ r.content ++ go true rs

/-- The local variables of `quoteMerge`. -/
structure MSt where
  merging : Bool := false
  surface : UString := []

/-- One turn of the loop of `quoteMerge` (fst_processor.cc:2007-2072) after `next`: what is written, and the variables. -/
def mergeStep (o : Out) (s : MSt) : UString × MSt :=
  let merging := s.merging || o.readings.any fun r => hasText MERGE_BEG r.content
  let endMerging := o.readings.any fun r => hasText MERGE_END r.content
  let p : UString × UString :=
    if merging then
      let p : UString × UString :=
        if s.surface.length > 0 then
          let t := appendEscaped (s.surface ++ o.blank) o.wblank
          ([], if o.wblank ≠ [] then appendEscaped t [0x5e, 0x24] else t)
        else (o.blank ++ o.wblank, s.surface)
      match o.readings with
      | [] => p
      | r :: _ => (p.1, appendEscaped p.2 r.content)
    else (o.blank ++ o.wblank ++ copyUnit o.readings, s.surface)
  if endMerging || o.atNull then
    (p.1 ++ (if merging then [0x5e] ++ p.2 ++ [0x2f] ++ p.2 ++ MERGED ++ [0x24] else []) ++ (if o.atNull then [0] else []), ⟨false, []⟩)
  else (p.1, ⟨merging, p.2⟩)

/-- `FSTProcessor::quoteMerge` (fst_processor.cc:1998-2073). -/
def mergeLoop : (turns : Nat) → Reader → MSt → Res UString
  | turns, r, s =>
    if r.atEof then .ok []
    else match turns with
      | 0 => .ub
      | turns + 1 => do
        let r ← next r
        let t := mergeStep r.out s
        let rest ← mergeLoop turns r t.2
        .ok (t.1 ++ rest)

/-- One turn of the loop of `quoteUnmerge` (fst_processor.cc:2085-2134). -/
def unmergeStep (o : Out) : UString :=
  o.blank ++ o.wblank ++
    (if o.readings.any (fun r => hasText MERGED r.content) then
      (match o.readings.getLast? with
        | some r => unescapeLoop false [] r.content
        | none => [])
    else copyUnit o.readings) ++
    (if o.atNull then [0] else [])

/-- `FSTProcessor::quoteUnmerge` (fst_processor.cc:2076-2135). -/
def unmergeLoop : (turns : Nat) → Reader → Res UString
  | turns, r =>
    if r.atEof then .ok []
    else match turns with
      | 0 => .ub
      | turns + 1 => do
        let r ← next r
        let rest ← unmergeLoop turns r
        .ok (unmergeStep r.out ++ rest)

/-- The reader that both set up (fst_processor.cc:2000-2002). -/
def readerOf (a : Alphabet) (bytes : List UInt8) : Reader := { inp := opened bytes, alpha := some a, addUnknowns := true }

/-- Both programs on a file; every turn but the last reads something. -/
def merge (a : Alphabet) (bytes : List UInt8) : Res UString := mergeLoop (bytes.length + 1) (readerOf a bytes) {}
def unmerge (a : Alphabet) (bytes : List UInt8) : Res UString := unmergeLoop (bytes.length + 1) (readerOf a bytes)

end Verif.Merge
