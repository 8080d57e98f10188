import Verif.Merge.Model
import Verif.Buffer.Model
import Verif.State.Model

/-!
# Model of the analysis mode in `lttoolbox/fst_processor.cc`

The input is a file of bytes, the output the UTF-16 units that are written to the `UFILE`. The transducers are a run-time graph with
its initial node `root` (to which `calcInitial`, fst_processor.cc:422-430, joins all sections) and the final nodes of the kinds of sections
(`classifyFinals`, fst_processor.cc:432-463). ICU's tables, `StringUtils::tolower`, which calls ICU, the printing of weights and the order
in which `std::sort` leaves equal weights are parameters. Warnings on the error stream are left out. The last argument `n` of the functions
bounds the turns of loops that need not end; using them up gives `.ub`.
-/

namespace Verif.Proc

open Verif.Input Verif.State Verif.Merge
open Verif.Buffer (Buffer)

variable {W : Type}

/-- Functions of ICU on code points, and `tolower` of the C library. -/
structure Chars where
  isAlnum : Int → Bool
  isSpace : Int → Bool
  isUpper : Int → Bool
  toLower : Int → Int
  toUpper : Int → Int
  cToLower : Int → Int
  lowerText : UString → UString

/-- The data members of `FSTProcessor` that do not change during analysis (fst_processor.h:76-260). -/
structure Setting (W : Type) where
  chars : Chars
  graph : Graph W
  root : Nat
  standard : List (Nat × W)
  inconditional : List (Nat × W)
  postblank : List (Nat × W)
  preblank : List (Nat × W)
  alphabet : Alphabet
  letters : List Int
  caseSensitive : Bool
  dictionaryCase : Bool
  maxAnalyses : Int
  maxWeightClasses : Int
  showWeight : W → UString
  sort : List (UString × W) → List (UString × W)
  /-- `useIgnoredChars || useDefaultIgnoredChars` -/
  useIgnored : Bool
  ignored : List Nat
  useRestore : Bool
  restore : List (Int × List Int)
  decompose : Bool
  onlyL : Int
  compoundR : Int
  maxElements : Int

/-- `all_finals` (fst_processor.cc:639-642): `insert` keeps entries that are there already. -/
def Setting.allFinals (σ : Setting W) : List (Nat × W) :=
  addNew (addNew (addNew σ.standard σ.inconditional) σ.postblank) σ.preblank
where
  addNew (m new : List (Nat × W)) : List (Nat × W) :=
    new.foldl (fun m e => mapInsert e.1 e.2 m) m

/-- `escaped_chars` (fst_processor.cc:34-44) as code points. -/
def escapedCps : List Int := [0x5b, 0x5d, 0x7b, 0x7d, 0x5e, 0x24, 0x2f, 0x5c, 0x40, 0x3c, 0x3e]

/-- `FSTProcessor::isAlphabetic` (fst_processor.cc:620-624). -/
def Setting.isAlphabetic (σ : Setting W) (c : Int) : Bool := σ.chars.isAlnum c || σ.letters.contains c

/-- `FSTProcessor::beCaseSensitive` (fst_processor.h:459-474). -/
def Setting.beCaseSensitive (σ : Setting W) (st : List (Rec W)) : Bool := σ.caseSensitive || !(st.length < 65536)

/-- A loop that does not end. -/
def ended {α : Type} : Option α → Res α
  | none => .ub
  | some x => .ok x

/-- The data members that change during analysis, and the output. -/
structure An where
  inp : InFile
  buf : Buffer Int
  blanks : List UString
  out : UString

/-- The loop over ignored characters (fst_processor.cc:197-200). -/
def skipIgnored (σ : Setting W) : (turns : Nat) → (c : Nat) → InFile → Res (Nat × InFile)
  | turns, c, f =>
    if σ.useIgnored && σ.ignored.contains c then
      match turns with
      | 0 => .ub
      | turns + 1 => do
        let (c, f) ← get f
        skipIgnored σ turns c f
    else .ok (c, f)

/-- `FSTProcessor::readAnalysis` (fst_processor.cc:179-242). -/
def readAnalysis (σ : Setting W) (a : An) : Res (Int × An) :=
  if !Buffer.isEmpty a.buf then do
    let (v, b) ← Buffer.next a.buf
    pure (v, { a with buf := b })
  else do
    let (c, f) ← get a.inp
    if f.eof then .ok (0, { a with inp := f, buf := Buffer.add 0 a.buf })
    else do
      let (c, f) ← skipIgnored σ (turnsOf f) (if c = uEOF then 0 else c) f
      if (c : Int) ∈ escapedCps then
        if c = '<'.toNat then do
          let (t, f) ← readBlock '<'.toNat '>'.toNat f
          let v := σ.alphabet.symCode t
          .ok (v, { a with inp := f, buf := Buffer.add v a.buf })
        else if c = '['.toNat then do
          let (c, f) ← get f
          let (t, f) ← if c = '['.toNat then finishWBlank f else do
            let f ← unget f c
            readBlock '['.toNat ']'.toNat f
          .ok (0x20, { a with inp := f, blanks := a.blanks ++ [t], buf := Buffer.add 0x20 a.buf })
        else if c = '\\'.toNat then do
          let (c, f) ← get f
          .ok ((c : Int), { a with inp := f, buf := Buffer.add (c : Int) a.buf })
        else .exception
      else
        .ok ((c : Int), { a with inp := f, blanks := if c = 0x20 then a.blanks ++ [[0x20]] else a.blanks, buf := Buffer.add (c : Int) a.buf })

/-- The case of the first letter (fst_processor.cc:468-470). That of an empty text is undefined. -/
def firstCase (σ : Setting W) (casefrom : UString) : Res Bool :=
  if σ.dictionaryCase then .ok false
  else match casefrom with
    | [] => .ub
    | u :: _ => .ok (σ.chars.isUpper (u.toNat : Int))

/-- The case of the word (fst_processor.cc:471-472). -/
def wholeCase (σ : Setting W) (firstupper : Bool) (casefrom : UString) : Bool :=
  !σ.dictionaryCase && (casefrom.length > 1 && firstupper && match casefrom.getLast? with
    | none => false
    | some u => σ.chars.isUpper (u.toNat : Int))

/-- `FSTProcessor::filterFinals` (fst_processor.cc:465-477) with `State::filterFinals` (state.cc:557-578). -/
def filterFinals [Zero W] [Add W] [LinearOrder W] (σ : Setting W) (st : List (Rec W)) (casefrom : UString) : Res UString := do
  let firstupper ← firstCase σ casefrom
  let uppercase := wholeCase σ firstupper casefrom
  let resp ← responses σ.chars.toUpper σ.allFinals σ.alphabet escapedCps uppercase firstupper 0 st
  .ok (joinResults (dedup σ.showWeight [] (nFinalsLoop σ.maxAnalyses σ.maxWeightClasses (σ.sort resp))))

/-- The writing in `FSTProcessor::writeEscapedPopBlanks` (fst_processor.cc:492-511): the number of blanks to be written afterwards, the text and the blanks
that are left. `front` of an empty queue is undefined. -/
def popBlanks : UString → (postpop : Nat) → (out : UString) → (blanks : List UString) → Res (Nat × UString × List UString)
  | [], postpop, out, blanks => .ok (postpop, out, blanks)
  | u :: s, postpop, out, blanks =>
    let out := (if u ∈ escapedChars then out ++ [0x5c] else out) ++ [u]
    if u = 0x20 then
      match blanks with
      | [] => .ub
      | b :: bs => if b = [0x20] then popBlanks s postpop out bs else popBlanks s (postpop + 1) out (b :: bs)
    else popBlanks s postpop out blanks

/-- `FSTProcessor::printWordPopBlank` (fst_processor.cc:543-554). -/
def printWordPopBlank (sf lf : UString) (a : An) : Res An := do
  let (postpop, out, blanks) ← popBlanks sf 0 (a.out ++ [0x5e]) a.blanks
  .ok { a with out := out ++ lf ++ [0x24] ++ (blanks.take postpop).flatten, blanks := blanks.drop postpop }

/-- `FSTProcessor::printWord` (fst_processor.cc:534-541). -/
def printWord (sf lf : UString) (a : An) : An :=
  { a with out := appendEscaped (a.out ++ [0x5e]) sf ++ lf ++ [0x24] }

/-- `FSTProcessor::printUnknownWord` (fst_processor.cc:556-565). -/
def printUnknownWord (sf : UString) (a : An) : An :=
  { a with out := appendEscaped (appendEscaped (a.out ++ [0x5e]) sf ++ [0x2f, 0x2a]) sf ++ [0x24] }

/-- `u_fputc` writes the units of a code point; a negative value is none. -/
def putc (val : Int) : UString := if val < 0 then [] else utf16 val.toNat

/-- `FSTProcessor::printChar` (fst_processor.cc:594-612). -/
def printChar (σ : Setting W) (val : Int) (a : An) : An :=
  if σ.chars.isSpace val then
    match a.blanks with
    | b :: bs => { a with out := a.out ++ b, blanks := bs }
    | [] => { a with out := a.out ++ putc val }
  else
    let out := if val ∈ escapedCps then a.out ++ [0x5c] else a.out
    { a with out := if val ≠ 0 then out ++ putc val else out }

/-- `FSTProcessor::lastBlank` (fst_processor.cc:567-579), from the end. -/
def lastBlankLoop (σ : Setting W) : List UInt16 → Nat
  | [] => 0
  | u :: us => if σ.letters.contains (u.toNat : Int) then lastBlankLoop σ us else us.length

/-- `FSTProcessor::lastBlank` (fst_processor.cc:567-579). -/
def lastBlank (σ : Setting W) (s : UString) : Nat := lastBlankLoop σ s.reverse

/-- `FSTProcessor::firstNotAlpha` (fst_processor.cc:2467-2485): the numbers of code points and of units. `next32PostInc` of ICU
joins pairs of surrogates and takes other units as they are. -/
def firstNotAlpha (σ : Setting W) : UString → Nat × Nat
  | [] => (0, 0)
  | [u] => if σ.isAlphabetic (u.toNat : Int) then (1, 1) else (0, 0)
  | u :: v :: s =>
    if 0xd800 ≤ u ∧ u < 0xdc00 ∧ 0xdc00 ≤ v ∧ v < 0xe000 then
      if σ.isAlphabetic (((u.toNat - 0xd800) * 1024 + (v.toNat - 0xdc00) + 0x10000 : Nat) : Int) then
        let r := firstNotAlpha σ s
        (r.1 + 1, r.2 + 2)
      else (0, 0)
    else if σ.isAlphabetic (u.toNat : Int) then
      let r := firstNotAlpha σ (v :: s)
      (r.1 + 1, r.2 + 1)
    else (0, 0)

section
variable [Zero W] [Add W] [LinearOrder W]

/-- `current_state.step_case(val, beCaseSensitive(current_state))` -/
def stepFolded (σ : Setting W) (n : Nat) (val : Int) (st : List (Rec W)) : Res (List (Rec W)) :=
  ended (stepCase σ.chars.isUpper σ.chars.toLower σ.graph n val (σ.beCaseSensitive st) st)

/-- The step of `analysis` (fst_processor.cc:888-912) with restored characters; note the calls of `tolower` of the C library. -/
def stepRestoring (σ : Setting W) (n : Nat) (val : Int) (st : List (Rec W)) : Res (List (Rec W)) :=
  match if σ.useRestore then mapFind val σ.restore else none with
  | none => stepFolded σ n val st
  | some set =>
    if !σ.chars.isUpper val || σ.beCaseSensitive st then ended (stepSet σ.graph n val set st)
    else if (mapFind (σ.chars.toLower val) σ.restore).isSome then
      match mapFind (σ.chars.cToLower val) σ.restore with
      | none => .ub
      | some more => ended (stepSet σ.graph n val (more.foldl (fun s x => setInsert x s) (setInsert (σ.chars.cToLower val) set)) st)
    else ended (stepSet σ.graph n val (setInsert (σ.chars.cToLower val) set) st)

/-- The loop of `compoundAnalysis` (fst_processor.cc:687-712): nothing if it is given up. -/
def compoundLoop (σ : Setting W) (n : Nat) (init : List (Rec W)) : UString → List (Rec W) → Res (Option (List (Rec W)))
  | [], st => .ok (some st)
  | u :: us, st => do
    let st ← stepFolded σ n (u.toNat : Int) st
    if st.length > 32767 then .ok none
    else do
      let st ← if us ≠ [] then ended (restartFinals σ.allFinals σ.onlyL init 0x2b n st) else .ok st
      if st.isEmpty then .ok none else compoundLoop σ n init us st

/-- `FSTProcessor::compoundAnalysis` (fst_processor.cc:680-716). -/
def compoundAnalysis (σ : Setting W) (n : Nat) (init : List (Rec W)) (word : UString) : Res UString := do
  match ← compoundLoop σ n init word init with
  | none => .ok []
  | some st => filterFinals σ (pruneCompounds σ.compoundR 0x2b σ.maxElements st) word

/-- The loop over the lower-cased word in `compoundAnalysisOrLowering` (fst_processor.cc:730-735). -/
def lowerLoop (σ : Setting W) (n : Nat) : UString → List (Rec W) → Res (List (Rec W))
  | [], st => .ok st
  | u :: us, st => do
    let st ← stepFolded σ n (u.toNat : Int) st
    if st.isEmpty then .ok st else lowerLoop σ n us st

/-- `pruneStatesWithForbiddenSymbol` where `analysis` calls it. -/
def pruned (σ : Setting W) (st : List (Rec W)) : List (Rec W) :=
  if σ.decompose && σ.onlyL ≠ 0 then pruneForbidden σ.onlyL st else st

/-- `FSTProcessor::compoundAnalysisOrLowering` (fst_processor.cc:718-753). -/
def compoundOrLower (σ : Setting W) (n : Nat) (init : List (Rec W)) (word : UString) : Res UString := do
  let compound ← if σ.decompose then compoundAnalysis σ n init word else .ok []
  if compound ≠ [] then .ok compound
  else do
    let lowered := σ.chars.lowerText word
    let st ← lowerLoop σ n lowered init
    let non ← filterFinals σ (pruned σ st) lowered
    if non ≠ [] then .ok non
    else if σ.decompose then compoundAnalysis σ n init lowered else .ok []

/-- The local variables of `analysis` (fst_processor.cc:803-814). -/
structure Loc (W : Type) where
  cur : List (Rec W)
  lf : UString := []
  sf : UString := []
  seenL : Bool := false
  lastStart : Nat := 0
  last : Nat := 0
  lastSize : Nat := 0
  incond : Bool := false
  post : Bool := false
  pre : Bool := false

/-- The test for final states (fst_processor.cc:820-886). -/
def note (σ : Setting W) (val : Int) (pos : Nat) (l : Loc W) : Res (Loc W) :=
  if isFinal σ.allFinals l.cur then
    if isFinal σ.inconditional l.cur then do
      let cur := pruned σ l.cur
      let lf ← filterFinals σ cur l.sf
      .ok { l with cur, lf, incond := true, last := pos, lastSize := l.sf.length }
    else if isFinal σ.postblank l.cur then do
      let cur := pruned σ l.cur
      let lf ← filterFinals σ cur l.sf
      .ok { l with cur, lf, post := true, last := pos, lastSize := l.sf.length }
    else if isFinal σ.preblank l.cur then do
      let cur := pruned σ l.cur
      let lf ← filterFinals σ cur l.sf
      .ok { l with cur, lf, pre := true, last := pos, lastSize := l.sf.length }
    else if !σ.isAlphabetic val then do
      let cur := pruned σ l.cur
      let lf ← filterFinals σ cur l.sf
      .ok { l with cur, lf, post := false, pre := false, incond := false, last := pos, lastSize := l.sf.length }
    else if σ.decompose && σ.onlyL ≠ 0 && hasSymbol σ.onlyL l.cur then .ok { l with seenL := true }
    else .ok l
  else if l.sf.isEmpty && σ.chars.isSpace val then
    .ok { l with lf := [0x2f, 0x2a] ++ l.sf, post := false, pre := false, incond := false, last := pos, lastSize := l.sf.length }
  else .ok l

/-- `do alphabet.getSymbol(sf, val); while ((val = readAnalysis(input)) && isAlphabetic(val))` (fst_processor.cc:932-934 and 984-988). -/
def readWord (σ : Setting W) : (turns : Nat) → (val : Int) → (sf : UString) → An → Res (Int × UString × An)
  | 0, _, _, _ => .ub
  | turns + 1, val, sf, a => do
    let t ← symbolText σ.chars.toUpper σ.alphabet val false
    let (val, a) ← readAnalysis σ a
    if val ≠ 0 ∧ σ.isAlphabetic val then readWord σ turns val (sf ++ t) a
    else .ok (val, sf ++ t, a)

/-- The word at the start of `sf` is not known (fst_processor.cc:990-1009 and 1013-1032). -/
def unknownStart (σ : Setting W) (n : Nat) (init : List (Rec W)) (lastStart : Nat) (sf : UString) (a : An) : Res An :=
  let limit := firstNotAlpha σ sf
  if limit.1 = 0 then .ok { a with buf := Buffer.setPos (1 + lastStart) a.buf, out := appendEscaped a.out (sf.take 1) }
  else do
    let a := { a with buf := Buffer.setPos (lastStart + limit.1) a.buf }
    let word := sf.take limit.2
    let lf ← compoundOrLower σ n init word
    .ok (if lf ≠ [] then printWord word lf a else printUnknownWord word a)

/-- `input_buffer.setPos(last); input_buffer.back(1);` -/
def rewind (last : Nat) (a : An) : An := { a with buf := Buffer.back 1 (Buffer.setPos last a.buf) }

/-- Compounds with a space inside (fst_processor.cc:925-946): the values of `val` and `sf`, and the analysis. -/
def spaceCompound (σ : Setting W) (n : Nat) (init : List (Rec W)) (val : Int) (l : Loc W) (a : An) : Res (Int × UString × UString × An) :=
  if l.seenL && σ.isAlphabetic val && !l.sf.isEmpty && l.lastSize ≤ lastBlank σ l.sf then do
    let (_, sf, a) ← readWord σ n val l.sf a
    let lf ← compoundAnalysis σ n init sf
    if lf = [] then .ok (val, l.sf, [], { a with buf := Buffer.back (sf.length - l.sf.length) a.buf })
    else do
      let b := Buffer.back 1 a.buf
      let v ← Buffer.peek b
      .ok (v, sf, lf, { a with buf := b })
  else .ok (val, l.sf, [], a)

/-- What is written when no state is left (fst_processor.cc:948-1040), and `val` afterwards. -/
def emit (σ : Setting W) (n : Nat) (init : List (Rec W)) (val : Int) (l : Loc W) (lfSpace : UString) (a : An) : Res (Int × An) :=
  if lfSpace ≠ [] then do
    let a ← printWordPopBlank l.sf lfSpace a
    .ok (val, a)
  else if !σ.isAlphabetic val && l.sf.isEmpty then .ok (val, printChar σ val a)
  else if l.post then do
    let a ← printWordPopBlank (l.sf.take l.lastSize) l.lf a
    .ok (val, rewind l.last { a with out := a.out ++ [0x20] })
  else if l.pre then do
    let a ← printWordPopBlank (l.sf.take l.lastSize) l.lf { a with out := a.out ++ [0x20] }
    .ok (val, rewind l.last a)
  else if l.incond then do
    let a ← printWordPopBlank (l.sf.take l.lastSize) l.lf a
    .ok (val, rewind l.last a)
  else if σ.isAlphabetic val && (l.lastSize > lastBlank σ l.sf || l.lf.isEmpty) then do
    let (val, sf, a) ← readWord σ n val l.sf a
    let a ← unknownStart σ n init l.lastStart sf a
    .ok (val, a)
  else if l.lf.isEmpty then do
    let a ← unknownStart σ n init l.lastStart l.sf a
    .ok (val, a)
  else do
    let a ← printWordPopBlank (l.sf.take l.lastSize) l.lf a
    .ok (val, rewind l.last a)

/-- One turn of the loop of `analysis` (fst_processor.cc:819-1054): `val` and the variables. -/
def turn (σ : Setting W) (n : Nat) (init : List (Rec W)) (a : An) (l : Loc W) : Res (Int × An × Loc W) := do
  let (val, a) ← readAnalysis σ a
  let l ← note σ val (Buffer.getPos a.buf) l
  let cur ← stepRestoring σ n val l.cur
  if !cur.isEmpty then do
    let t ← if val ≠ 0 then symbolText σ.chars.toUpper σ.alphabet val false else .ok []
    .ok (val, a, { l with cur, sf := l.sf ++ t })
  else do
    let (val, sf, lfSpace, a) ← spaceCompound σ n init val l a
    let (val, a) ← emit σ n init val { l with sf } lfSpace a
    let a := if val = 0 ∧ Buffer.isEmpty a.buf = false then { a with buf := Buffer.setPos (l.last + 1) a.buf } else a
    .ok (val, a, { cur := init, lastStart := Buffer.getPos a.buf, last := l.last, lastSize := l.lastSize })

/-- The loop of `analysis` (fst_processor.cc:817-1056). -/
def loop (σ : Setting W) (n : Nat) (init : List (Rec W)) : (turns : Nat) → An → Loc W → Res An
  | 0, _, _ => .ub
  | turns + 1, a, l => do
    let (val, a, l) ← turn σ n init a l
    if val = 0 then .ok a else loop σ n init turns a l

/-- `FSTProcessor::analysis` (fst_processor.cc:795-1060) without null flushing. -/
def analysisOnce (σ : Setting W) (n : Nat) (a : An) : Res An := do
  let init ← ended (State.init σ.graph n σ.root)
  let a ← loop σ n init n a { cur := init, lastStart := Buffer.getPos a.buf }
  .ok { a with out := a.out ++ a.blanks.flatten, blanks := [] }

/-- `while (!input_buffer.isEmpty()) input_buffer.next();` (fst_processor.cc:1074) -/
def drain : (turns : Nat) → Buffer Int → Res (Buffer Int)
  | turns, b =>
    if Buffer.isEmpty b then .ok b
    else match turns with
      | 0 => .ub
      | turns + 1 => do
        let (_, b) ← Buffer.next b
        drain turns b

/-- `FSTProcessor::analysis_wrapper_null_flush` (fst_processor.cc:1062-1076). -/
def nullFlush (σ : Setting W) (n : Nat) : (turns : Nat) → An → Res An
  | turns, a =>
    if a.inp.eof then .ok a
    else match turns with
      | 0 => .ub
      | turns + 1 => do
        let a ← analysisOnce σ n a
        let b ← drain n a.buf
        nullFlush σ n turns { a with buf := b, out := a.out ++ [0] }

/-- The processor before the first call; the buffer has the default size (buffer.h:72). -/
def start (bytes : List UInt8) : Res An := do
  let b ← Buffer.new Int 2048
  .ok { inp := opened bytes, buf := b, blanks := [], out := [] }

/-- What is written for a file. -/
def analysis (σ : Setting W) (n : Nat) (bytes : List UInt8) : Res UString := do
  let a ← start bytes
  let a ← analysisOnce σ n a
  .ok a.out

/-- What is written for a file with null flushing: after the wrapper, the code goes on with `analysis` itself. -/
def analysisFlushing (σ : Setting W) (n : Nat) (bytes : List UInt8) : Res UString := do
  let a ← start bytes
  let a ← nullFlush σ n n a
  let a ← analysisOnce σ n a
  .ok a.out

end

end Verif.Proc
