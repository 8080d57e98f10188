import Verif.Gen.Model

/-!
# Model of the bilingual mode in `lttoolbox/fst_processor.cc`

See `Verif.Gen.Model` for the conventions. The reader adds unknown tags to the alphabet of the processor, so the alphabet changes
from unit to unit.
-/

namespace Verif.Bil

open Verif.Input Verif.State Verif.Stream Verif.Gen

variable {W : Type}

/-- The data members of `FSTProcessor` that matter here (fst_processor.h:76-260). `load` (fst_processor.cc:626-632) sets `any_char`. -/
structure Setting (W : Type) extends Gen.Setting W where
  anyChar : Int
  surfaceForms : Bool
  surfaceFormsKeep : Bool

/-- A step (fst_processor.cc:1786-1791). -/
def bilStep (σ : Setting W) (n : Nat) (sym : Int) (st : List (Rec W)) : Res (List (Rec W)) :=
  if σ.beCaseSensitive st then ended (stepOverride σ.graph n sym σ.anyChar sym st)
  else ended (stepOverrideAlt σ.graph n sym (σ.toLower sym) σ.anyChar sym st)

/-- A step of the second attempt (fst_processor.cc:1813-1819). -/
def lowStep (σ : Setting W) (n : Nat) (sym : Int) (st : List (Rec W)) : Res (List (Rec W)) :=
  if decide (sym < 0) || σ.beCaseSensitive st then ended (stepOverride σ.graph n sym σ.anyChar sym st)
  else ended (stepOverride σ.graph n (σ.toLower sym) σ.anyChar (σ.toLower sym) st)

/-- The loops over the symbols (fst_processor.cc:1782-1800, 1811-1827), from index `i` on: `queue_start` and `result`. The text `source` of the first
loop is not used. -/
def bilLoop [Zero W] [Add W] [LinearOrder W] (σ : Setting W) (a : Alphabet) (stepOf : Int → List (Rec W) → Res (List (Rec W))) (uppercase firstupper : Bool) :
    List Int → (i : Nat) → List (Rec W) → (queueStart : Nat) → (result : List UString) → Res (Nat × List UString)
  | [], _, _, queueStart, result => .ok (queueStart, result)
  | sym :: syms, i, st, queueStart, result => do
    let st ← stepOf sym st
    if isFinal σ.finals st then do
      let result ← results { σ.toSetting with alphabet := a } uppercase firstupper st
      bilLoop σ a stepOf uppercase firstupper syms (i + 1) st i result
    else bilLoop σ a stepOf uppercase firstupper syms (i + 1) st queueStart result

/-- The initial state, with a step for the mark `#` (fst_processor.cc:1772, 1781, 1808-1809). -/
def bilInit (σ : Setting W) (n : Nat) (mark : Nat) : Res (List (Rec W)) := do
  let st ← ended (State.init σ.graph n σ.root)
  if mark = '#'.toNat then ended (step σ.graph n '#'.toNat st) else .ok st

/-- Only complete matches count (fst_processor.cc:1801-1804, 1828-1831). -/
def onlyWhole (mode : Mode) (seenTags : Bool) (size queueStart : Nat) (result : List UString) : List UString :=
  if (!seenTags || mode = .all || mode = .bilgen) && decide (queueStart + 1 < size) then [] else result

/-- `firstupper` and `uppercase` (fst_processor.cc:1774-1776). -/
def bilFirst (σ : Setting W) (symbols : List Int) : Bool :=
  match symbols with
  | x :: _ => decide (x > 0) && σ.isUpper x
  | [] => false
def bilUpper (σ : Setting W) (symbols : List Int) : Bool :=
  bilFirst σ symbols && match symbols with
    | _ :: x :: _ => decide (x > 0) && σ.isUpper x
    | _ => false

/-- The two attempts (fst_processor.cc:1772-1832). -/
def bilFind [Zero W] [Add W] [LinearOrder W] (σ : Setting W) (a : Alphabet) (n : Nat) (mode : Mode) (mark : Nat) (symbols : List Int) : Res (Nat × List UString) := do
  let firstupper := bilFirst σ symbols
  let uppercase := bilUpper σ symbols
  let seenTags := symbols.any fun x => decide (x < 0)
  let st ← bilInit σ n mark
  let (queueStart, result) ← bilLoop σ a (bilStep σ n) uppercase firstupper symbols 0 st 0 []
  let result := onlyWhole mode seenTags symbols.length queueStart result
  if result.isEmpty && (mode = .bilgen || mode = .all) then do
    let (queueStart, result) ← bilLoop σ a (lowStep σ n) false false symbols 0 st queueStart result
    .ok (queueStart, onlyWhole mode seenTags symbols.length queueStart result)
  else .ok (queueStart, result)

/-- The text of the symbols, from index `i` on, and `queue_pos` (fst_processor.cc:1834-1844). -/
def sourceLoop (a : Alphabet) (queueStart : Nat) : List Int → (i : Nat) → (source : UString) → (queuePos : Nat) → Res (UString × Nat)
  | [], _, source, queuePos => .ok (source, queuePos)
  | sym :: syms, i, source, queuePos => do
    let source := if sym ∈ escapedCps ∨ (i = 0 ∧ sym = 0x2a) then source ++ [0x5c] else source
    let t ← symbolText id a sym false
    sourceLoop a queueStart syms (i + 1) (source ++ t) (if i = queueStart then (source ++ t).length else queuePos)

/-- `FSTProcessor::compose` (fst_processor.cc:1707-1723) without delimiters and mark. -/
def compose (lexforms : List UString) (queue : UString) : UString :=
  match lexforms with
  | [] => []
  | t :: ts => t ++ queue ++ ts.flatMap fun t => 0x2f :: t ++ queue

/-- A unit that is to be translated (fst_processor.cc:1764-1855). -/
def bilUnit [Zero W] [Add W] [LinearOrder W] (σ : Setting W) (a : Alphabet) (n : Nat) (mode : Mode) (rd : Reading) : Res UString :=
  if rd.symbols = [] then .ok [0x24]
  else do
    let (queueStart, result) ← bilFind σ a n mode rd.mark rd.symbols
    let (source, queuePos) ← sourceLoop a queueStart rd.symbols 0 (if rd.mark = '#'.toNat then [0x23] else []) (if rd.mark = '#'.toNat then 1 else 0)
    .ok (source ++ 0x2f :: (if !result.isEmpty then compose result (source.drop queuePos) else (if mode = .all then 0x23 else 0x40) :: source) ++ [0x24])

/-- A reading (fst_processor.cc:1753-1855). -/
def bilReading [Zero W] [Add W] [LinearOrder W] (σ : Setting W) (a : Alphabet) (n : Nat) (mode : Mode) (rd : Reading) : Res UString :=
  if rd.mark = '*'.toNat then .ok (0x2a :: rd.content ++ 0x2f :: (if mode ≠ .clean then [0x2a] else []) ++ rd.content ++ [0x24])
  else bilUnit σ a n mode rd

/-- The surface form (fst_processor.cc:1740-1744). -/
def kept (σ : Setting W) (readings : List Reading) : UString :=
  if σ.surfaceFormsKeep then match readings with
    | [] => []
    | rd :: rds => 0x5e :: rd.content ++ [if rds.isEmpty then 0x24 else 0x2f]
  else []

/-- The body of the loop (fst_processor.cc:1734-1861): what is written after a call of `next`. -/
def bilOut [Zero W] [Add W] [LinearOrder W] (σ : Setting W) (a : Alphabet) (n : Nat) (mode : Mode) (o : Out) : Res UString := do
  let index := if σ.surfaceForms || σ.surfaceFormsKeep then 1 else 0
  let t ← match o.readings[index]? with
    | none => .ok []
    | some rd => do
      let t ← bilReading σ a n mode rd
      .ok ((if σ.surfaceFormsKeep then [] else [0x5e]) ++ t)
  .ok (o.blank ++ o.wblank ++ kept σ o.readings ++ t ++ if o.atNull then [0] else [])

/-- The loop (fst_processor.cc:1734-1861). The alphabet is the one that the reader uses. -/
def bilUnits [Zero W] [Add W] [LinearOrder W] (σ : Setting W) (n : Nat) (mode : Mode) : (turns : Nat) → Reader → UString → Res UString
  | turns, r, out =>
    if r.atEof then .ok out
    else match turns with
      | 0 => .ub
      | turns + 1 => do
        let r ← next r
        let t ← bilOut σ (r.alpha.getD σ.alphabet) n mode r.out
        bilUnits σ n mode turns r (out ++ t)

/-- `FSTProcessor::bilingual` (fst_processor.cc:1725-1862). -/
def bilingual [Zero W] [Add W] [LinearOrder W] (σ : Setting W) (n : Nat) (mode : Mode) (file : List UInt8) : Res UString :=
  bilUnits σ n mode n { inp := opened file, alpha := some σ.alphabet, addUnknowns := true } []

end Verif.Bil
