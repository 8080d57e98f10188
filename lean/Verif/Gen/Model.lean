import Verif.Merge.Model
import Verif.State.Model

/-!
# Model of the generation mode in `lttoolbox/fst_processor.cc`

The input is a file of bytes, the output the UTF-16 units that are written to the `UFILE`. The transducers are a run-time graph with its
initial node `root` (to which `calcInitial`, fst_processor.cc:422-430, joins all sections) and the final nodes of all sections
(`initGeneration`, fst_processor.cc:656-665). ICU's tables, the printing of weights and the order in which `std::sort` leaves equal weights
are parameters. The argument `n` bounds the turns of loops that need not end; using them up gives `.ub`.
-/

namespace Verif.Gen

open Verif.Input Verif.State Verif.Stream Verif.Merge

variable {W : Type}

/-- The data members of `FSTProcessor` that do not change (fst_processor.h:76-260), and functions of ICU on code points. -/
structure Setting (W : Type) where
  isUpper : Int → Bool
  toLower : Int → Int
  toUpper : Int → Int
  graph : Graph W
  root : Nat
  /-- `all_finals` -/
  finals : List (Nat × W)
  alphabet : Alphabet
  caseSensitive : Bool
  dictionaryCase : Bool
  maxAnalyses : Int
  maxWeightClasses : Int
  showWeight : W → UString
  sort : List (UString × W) → List (UString × W)

/-- `GenerationMode` (fst_processor.h:42-51). -/
inductive Mode
  | clean | unknown | all | bilgen | tagged | taggedNm | carefulcase
  deriving DecidableEq, Repr

/-- `escaped_chars` (fst_processor.cc:34-44) as code points. -/
def escapedCps : List Int := [0x5b, 0x5d, 0x7b, 0x7d, 0x5e, 0x24, 0x2f, 0x5c, 0x40, 0x3c, 0x3e]

/-- `FSTProcessor::beCaseSensitive` (fst_processor.h:459-474). -/
def Setting.beCaseSensitive (σ : Setting W) (st : List (Rec W)) : Bool := σ.caseSensitive || !(st.length < 65536)

/-- A loop that does not end. -/
def ended {α : Type} : Option α → Res α
  | none => .ub
  | some x => .ok x

/-- The loop of `FSTProcessor::removeTags` (fst_processor.cc:2368-2380) and of `writeEscapedWithTags` (fst_processor.cc:513-530): the units
before the first `<` that is neither the first unit nor after a backslash, and the units from there on. The first argument is the unit before. -/
def cutTags : Option UInt16 → UString → UString × UString
  | _, [] => ([], [])
  | prev, u :: s =>
    if u = 0x3c ∧ prev.isSome ∧ prev ≠ some 0x5c then ([], u :: s)
    else
      let (a, b) := cutTags (some u) s
      (u :: a, b)

/-- `FSTProcessor::removeTags` (fst_processor.cc:2368-2380). -/
def removeTags (s : UString) : UString := (cutTags none s).1

/-- `FSTProcessor::writeEscapedWithTags` (fst_processor.cc:513-530): what is written. -/
def escapedWithTags (s : UString) : UString := appendEscaped [] (cutTags none s).1 ++ (cutTags none s).2

/-- `^`, the word without its tags, `/`, a mark and the word with its tags, `$` (fst_processor.cc:1284-1290 and others). -/
def taggedUnknown (mark : Nat) (content : UString) : UString :=
  0x5e :: appendEscaped [] (removeTags content) ++ 0x2f :: utf16 mark ++ escapedWithTags content ++ [0x24]

/-- The cases `*` and `%` (fst_processor.cc:1281-1295). -/
def genStar (mode : Mode) (mark : Nat) (content : UString) : UString :=
  if mode = .taggedNm then taggedUnknown mark content
  else (if mode ≠ .clean then utf16 mark else []) ++ appendEscaped [] content

/-- The case `@` (fst_processor.cc:1296-1321). -/
def genAt (mode : Mode) (mark : Nat) (content : UString) : UString :=
  match mode with
  | .all => utf16 mark ++ appendEscaped [] content
  | .unknown => utf16 mark ++ appendEscaped [] (removeTags content)
  | .tagged => utf16 mark ++ appendEscaped [] (removeTags content)
  | .bilgen => appendEscaped [] (removeTags content)
  | .clean => appendEscaped [] (removeTags content)
  | .taggedNm => taggedUnknown mark content
  | .carefulcase => []

/-- A form that is not known (fst_processor.cc:1357-1380). -/
def genUnknown (mode : Mode) (content : UString) : UString :=
  match mode with
  | .all => 0x23 :: appendEscaped [] content
  | .carefulcase => (if content ≠ [] then [0x23] else []) ++ appendEscaped [] (removeTags content)
  | .unknown => (if content ≠ [] then [0x23] else []) ++ appendEscaped [] (removeTags content)
  | .tagged => (if content ≠ [] then [0x23] else []) ++ appendEscaped [] (removeTags content)
  | .bilgen => appendEscaped [] (removeTags content)
  | .clean => appendEscaped [] (removeTags content)
  | .taggedNm => taggedUnknown 0x23 content

/-- One step (fst_processor.cc:1326-1335). `Alphabet::isTag` (alphabet.cc:242-246) holds of negative symbols. -/
def genStep (σ : Setting W) (n : Nat) (mode : Mode) (sym : Int) (st : List (Rec W)) : Res (List (Rec W)) :=
  if !decide (sym < 0) && σ.isUpper sym && !σ.beCaseSensitive st then
    if mode = .carefulcase then ended (stepCareful σ.graph n sym (σ.toLower sym) st)
    else ended (stepAlt σ.graph n sym (σ.toLower sym) st)
  else ended (step σ.graph n sym st)

/-- The loop over the symbols (fst_processor.cc:1325-1336). -/
def genSteps (σ : Setting W) (n : Nat) (mode : Mode) : List Int → List (Rec W) → Res (List (Rec W))
  | [], st => .ok st
  | sym :: syms, st => do
    let st ← genStep σ n mode sym st
    genSteps σ n mode syms st

/-- `State::filterFinalsArray` (state.cc:510-555) with the settings of the processor. -/
def results [Zero W] [Add W] [LinearOrder W] (σ : Setting W) (uppercase firstupper : Bool) (st : List (Rec W)) : Res (List UString) := do
  let resp ← responses σ.toUpper σ.finals σ.alphabet escapedCps uppercase firstupper 0 st
  .ok (dedup σ.showWeight [] (nFinalsLoop σ.maxAnalyses σ.maxWeightClasses (σ.sort resp)))

/-- `substr(1)` of what `State::filterFinals` (state.cc:557-578) gives. That of an empty text throws. -/
def substr1 : UString → Res UString
  | [] => .exception
  | _ :: s => .ok s

/-- `uppercase` and `firstupper` (fst_processor.cc:1338-1342): `content[0]` of an empty text is its terminating null. -/
def genUpper (σ : Setting W) (content : UString) : Bool :=
  !σ.dictionaryCase && match content with
    | _ :: u :: _ => σ.isUpper (u.toNat : Int)
    | _ => false
def genFirst (σ : Setting W) (content : UString) : Bool :=
  !σ.dictionaryCase && match content with
    | u :: _ => σ.isUpper (u.toNat : Int)
    | [] => σ.isUpper 0

/-- A form that is to be generated (fst_processor.cc:1323-1382). -/
def genForm [Zero W] [Add W] [LinearOrder W] (σ : Setting W) (n : Nat) (mode : Mode) (rd : Reading) : Res UString := do
  let st ← ended (State.init σ.graph n σ.root)
  let st ← genSteps σ n mode rd.symbols st
  if isFinal σ.finals st then do
    let rs ← results σ (genUpper σ rd.content) (genFirst σ rd.content) st
    let t ← substr1 (joinResults rs)
    if mode = .tagged ∨ mode = .taggedNm then .ok (0x5e :: t ++ 0x2f :: escapedWithTags rd.content ++ [0x24])
    else .ok t
  else .ok (genUnknown mode rd.content)

/-- What is written for a reading (fst_processor.cc:1274-1383). -/
def genReading [Zero W] [Add W] [LinearOrder W] (σ : Setting W) (n : Nat) (mode : Mode) (rd : Reading) : Res UString :=
  if rd.mark = '*'.toNat ∨ rd.mark = '%'.toNat then .ok (genStar mode rd.mark rd.content)
  else if rd.mark = '@'.toNat then .ok (genAt mode rd.mark rd.content)
  else do
    let t ← genForm σ n mode rd
    .ok ((if rd.mark = '='.toNat then [0x3d] else []) ++ t)

/-- The body of the loop in `FSTProcessor::generation` (fst_processor.cc:1271-1388): what is written after a call of `next`. -/
def genOut [Zero W] [Add W] [LinearOrder W] (σ : Setting W) (n : Nat) (mode : Mode) (o : Out) : Res UString := do
  let t ← match o.readings with
    | [] => .ok []
    | rd :: _ => genReading σ n mode rd
  .ok (o.blank ++ o.wblank ++ t ++ if o.atNull then [0] else [])

/-- A loop over the units of a stream that writes something for each (fst_processor.cc:1270-1389 and 1729-1857). -/
def eachUnit (f : Out → Res UString) : (turns : Nat) → Reader → UString → Res UString
  | turns, r, out =>
    if r.atEof then .ok out
    else match turns with
      | 0 => .ub
      | turns + 1 => do
        let r ← next r
        let t ← f r.out
        eachUnit f turns r (out ++ t)

/-- `FSTProcessor::generation` (fst_processor.cc:1263-1390). -/
def generation [Zero W] [Add W] [LinearOrder W] (σ : Setting W) (n : Nat) (mode : Mode) (file : List UInt8) : Res UString :=
  eachUnit (genOut σ n mode) n { inp := opened file, alpha := some σ.alphabet, addUnknowns := false } []

end Verif.Gen
