import Verif.Tmx.Output
import Verif.Load.Model

/-!
# Model of the translation-memory mode in `lttoolbox/fst_processor.cc` and of `lttoolbox/lt_tmxproc.cc`

The input is a file of bytes, the output the UTF-16 units that are written to the `UFILE`. The transducers are a run-time graph with its
initial node `root`, to which `calcInitial` joins all sections. ICU's tables are parameters. The argument `n` bounds the turns of loops that
need not end; using them up gives `.ub`.
-/

namespace Verif.TmProc

open Verif.Input Verif.State
open Verif.Buffer (Buffer)
open Verif.Proc (escapedCps putc ended)
open Verif.Compression (Dbl)

variable {W : Type}

/-- Functions of ICU on code points. -/
structure Chars where
  isSpace : Int → Bool
  isPunct : Int → Bool
  isDigit : Int → Bool
  isUpper : Int → Bool
  toLower : Int → Int

/-- The data members of `FSTProcessor` that do not change (fst_processor.h:76-260). -/
structure Setting (W : Type) where
  chars : Chars
  graph : Graph W
  root : Nat
  /-- `all_finals` -/
  finals : List (Nat × W)
  alphabet : Alphabet
  /-- `alphabetic_chars` -/
  letters : List Int
  /-- `tm_mode == tm_space` -/
  spaces : Bool

/-- The tables that `filterFinalsTM` uses. -/
def Setting.tables (τ : Setting W) : Tmx.Chars := ⟨τ.chars.isSpace, τ.chars.isDigit⟩

/-- The data members that change, and the output. -/
structure Tm where
  inp : InFile
  buf : Buffer Int
  /-- `blankqueue` -/
  blanks : List UString
  numbers : List UString
  /-- `isLastBlankTM` -/
  lastBlank : Bool
  out : UString

/-- `<n>` -/
def numberTag : UString := [0x3c, 0x6e, 0x3e]

/-- The loop over the digits of a number (fst_processor.cc:301-306). -/
def readDigits (ch : Chars) : (turns : Nat) → (c : Nat) → (ws : UString) → InFile → Res (UString × InFile)
  | turns, c, ws, f => do
    let (d, f) ← get f
    if ch.isDigit d then
      match turns with
      | 0 => .ub
      | turns + 1 => readDigits ch turns d (ws ++ utf16 c) f
    else do
      let f ← unget f d
      .ok (ws ++ utf16 c, f)

/-- `FSTProcessor::readTMAnalysis` (fst_processor.cc:244-321). -/
def readTM (τ : Setting W) (a : Tm) : Res (Int × Tm) :=
  if !Buffer.isEmpty a.buf then do
    let (v, b) ← Buffer.next a.buf
    pure (v, { a with buf := b, lastBlank := false })
  else do
    let (c, f) ← get a.inp
    if f.eof then .ok (0, { a with inp := f, lastBlank := false })
    else if (c : Int) ∈ escapedCps ∨ τ.chars.isDigit c = true then
      if c = '<'.toNat then do
        let (t, f) ← readBlock '<'.toNat '>'.toNat f
        let v := τ.alphabet.symCode t
        .ok (v, { a with inp := f, buf := Buffer.add v a.buf, lastBlank := false })
      else if c = '['.toNat then do
        let (c, f) ← get f
        let (t, f) ← if c = '['.toNat then finishWBlank f else do
          let f ← unget f c
          readBlock '['.toNat ']'.toNat f
        .ok (0x20, { a with inp := f, blanks := a.blanks ++ [t], buf := Buffer.add 0x20 a.buf, lastBlank := true })
      else if c = '\\'.toNat then do
        let (c, f) ← get f
        .ok ((c : Int), { a with inp := f, buf := Buffer.add (c : Int) a.buf, lastBlank := false })
      else if 0x30 ≤ c ∧ c ≤ 0x39 then do
        let (ws, f) ← readDigits τ.chars (turnsOf f) c [] f
        let v := τ.alphabet.symCode numberTag
        .ok (v, { a with inp := f, buf := Buffer.add v a.buf, numbers := a.numbers ++ [ws], lastBlank := false })
      else .exception
    else .ok ((c : Int), { a with inp := f, buf := Buffer.add (c : Int) a.buf, lastBlank := false })

/-- The local variables of `tm_analysis` (fst_processor.cc:1117-1120). -/
structure Loc (W : Type) where
  st : List (Rec W)
  lf : UString
  sf : UString
  last : Nat

/-- What is appended to `sf` (fst_processor.cc:1147-1158 and 1183-1194). The last of no numbers, and the back of an empty queue, are undefined. -/
def shown (τ : Setting W) (val : Int) (a : Tm) : Res UString :=
  if val = -1 then
    match a.numbers.getLast? with
    | none => .ub
    | some w => .ok w
  else if a.lastBlank && decide (val = 0x20) then
    match a.blanks.getLast? with
    | none => .ub
    | some b => .ok b
  else τ.alphabet.getSymbol val

/-- The sequences of the final states (state.cc:687-701). -/
def finalSeqs (finals : List (Nat × W)) (st : List (Rec W)) : List (List Int) :=
  (st.filter fun r => (mapFind r.node finals).isSome).map fun r => r.seq.map (·.1)

/-- A segment may end before this symbol (fst_processor.cc:1127). -/
def Setting.isStop (τ : Setting W) (val : Int) : Bool := τ.chars.isPunct val || (τ.spaces && τ.chars.isSpace val)

/-- The test for final states (fst_processor.cc:1124-1141). -/
def note (τ : Setting W) (val : Int) (a : Tm) (l : Loc W) : Res (Tm × Loc W) :=
  if isFinal τ.finals l.st then
    if τ.isStop val then do
      let (t, q) ← Tmx.filterFinalsTM τ.tables τ.alphabet (finalSeqs τ.finals l.st) a.blanks a.numbers
      let t ← Gen.substr1 t
      .ok ({ a with blanks := q, numbers := [] }, { l with lf := t, last := Buffer.getPos a.buf })
    else .ok (a, l)
  else if l.sf.isEmpty && τ.chars.isSpace val then .ok (a, { l with lf := l.lf ++ l.sf, last := Buffer.getPos a.buf })
  else .ok (a, l)

/-- The loop that reads the rest of a word (fst_processor.cc:1181-1196). -/
def readRest (τ : Setting W) : (turns : Nat) → (val : Int) → (sf : UString) → Tm → Res (Int × UString × Tm)
  | turns, val, sf, a => do
    let t ← shown τ val a
    let (v, a) ← readTM τ a
    if v ≠ 0 ∧ τ.chars.isSpace v = false ∧ τ.chars.isPunct v = false then
      match turns with
      | 0 => .ub
      | turns + 1 => readRest τ turns v (sf ++ t) a
    else .ok (v, sf ++ t, a)

/-- The loop that empties the queue of blanks but for a blank that was just read (fst_processor.cc:1207-1214 and 1234-1241). -/
def dropBlanks (a : Tm) : List UString := if a.lastBlank then a.blanks.drop (a.blanks.length - 1) else []

/-- `FSTProcessor::printSpace` (fst_processor.cc:581-592). -/
def printSpace (val : Int) (a : Tm) : Tm :=
  if a.blanks.isEmpty then { a with out := a.out ++ putc val } else { a with out := a.out ++ a.blanks.flatten, blanks := [] }

/-- `lastBlank` (fst_processor.cc:567-579), from the end. -/
def lastBlankLoop (letters : List Int) : List UInt16 → Nat
  | [] => 0
  | u :: us => if letters.contains (u.toNat : Int) then lastBlankLoop letters us else us.length

/-- Whether the rest of a word is read (fst_processor.cc:1176-1178): the difference is one of `size_t`. -/
def goesOn (τ : Setting W) (val : Int) (a : Tm) (l : Loc W) : Bool :=
  !τ.chars.isSpace val && !τ.chars.isPunct val &&
    (decide ((l.sf.length + 2 ^ 64 - Buffer.diffPrevPos l.last a.buf) % 2 ^ 64 > lastBlankLoop τ.letters l.sf.reverse) || l.lf.isEmpty)

/-- What is written when there is no state left (fst_processor.cc:1160-1248). The flag says that the function returns. -/
def emit (τ : Setting W) (n : Nat) (val : Int) (a : Tm) (l : Loc W) : Res (Bool × Tm) :=
  if (τ.chars.isSpace val || τ.chars.isPunct val) && l.sf.isEmpty then
    if τ.chars.isSpace val then .ok (false, printSpace val a)
    else .ok (false, { a with out := a.out ++ (if val ∈ escapedCps then [0x5c] else []) ++ putc val })
  else if goesOn τ val a l then do
    let (v, sf, a) ← readRest τ n val l.sf a
    if v = 0 then .ok (true, { a with out := a.out ++ sf })
    else .ok (false, { a with buf := Buffer.back 1 a.buf, out := a.out ++ sf, blanks := dropBlanks a })
  else if l.lf.isEmpty then .ok (false, { a with buf := Buffer.back 1 a.buf, out := a.out ++ l.sf, blanks := dropBlanks a })
  else .ok (false, { a with out := a.out ++ 0x5b :: l.lf.takeWhile (· ≠ 0) ++ [0x5d], buf := Buffer.back 1 (Buffer.setPos l.last a.buf) })

/-- `current_state.step_case(val, false)` -/
def stepTM (τ : Setting W) (n : Nat) (val : Int) (st : List (Rec W)) : Res (List (Rec W)) :=
  ended (stepCase τ.chars.isUpper τ.chars.toLower τ.graph n val false st)

/-- The loop of `tm_analysis` with what follows it (fst_processor.cc:1122-1258). -/
def loop (τ : Setting W) (n : Nat) (init : List (Rec W)) : (turns : Nat) → Tm → Loc W → Res Tm
  | 0, _, _ => .ub
  | turns + 1, a, l => do
    let (val, a) ← readTM τ a
    if val = 0 then .ok { a with out := a.out ++ a.blanks.flatten, blanks := [] }
    else do
      let (a, l) ← note τ val a l
      let st ← stepTM τ n val l.st
      if st.isEmpty then do
        let (done, a) ← emit τ n val a l
        if done then .ok a else loop τ n init turns { a with numbers := [] } { st := init, lf := [], sf := [], last := l.last }
      else do
        let t ← shown τ val a
        loop τ n init turns a { l with st := st, sf := l.sf ++ t }

/-- `FSTProcessor::tm_analysis` without null flushing (fst_processor.cc:1110-1260). -/
def once (τ : Setting W) (n : Nat) (a : Tm) : Res Tm := do
  let init ← ended (State.init τ.graph n τ.root)
  loop τ n init n a { st := init, lf := [], sf := [], last := 0 }

/-- `FSTProcessor::tm_wrapper_null_flush` (fst_processor.cc:1093-1107). -/
def flushing (τ : Setting W) (n : Nat) : (turns : Nat) → Tm → Res Tm
  | turns, a =>
    if a.inp.eof then .ok a
    else match turns with
      | 0 => .ub
      | turns + 1 => do
        let a ← once τ n a
        flushing τ n turns { a with out := a.out ++ [0] }

/-- The state before the first call; the buffer holds 2048 symbols (buffer.h:72). -/
def begin (bytes : List UInt8) : Res Tm := do
  let b ← Buffer.new Int 2048
  .ok { inp := opened bytes, buf := b, blanks := [], numbers := [], lastBlank := false, out := [] }

/-- `FSTProcessor::tm_analysis` with null flushing (fst_processor.cc:1110-1115): after the loop over the parts comes another turn. -/
def tmAnalysis (τ : Setting W) (n : Nat) (bytes : List UInt8) : Res UString := do
  let a ← begin bytes
  let a ← flushing τ n n a
  let a ← once τ n a
  .ok a.out

/-- `FSTProcessor::load` (fst_processor.cc:626-632) and `initTMAnalysis` (fst_processor.cc:645-654). -/
def loadTM (v : Dbl → W) (ch : Chars) (spaces : Bool) (file : List UInt8) : Res (Setting W) := do
  let ((ls, a, es), _) ← BinIO.exeSet file
  let ds ← Load.rootArcs v 1 es
  .ok {
    chars := ch
    graph := Load.joined v ds es
    root := 0
    finals := Load.allFinals v 1 es []
    alphabet := a.includeSymbol Load.ANY_CHAR
    letters := ls.map fun c => (c.toNat : Int)
    spaces := spaces }

/-- `lt-tmxproc` (lt_tmxproc.cc:22-57), with `-s` if `spaces`. -/
def ltTmxproc (v : Dbl → W) (ch : Chars) (spaces : Bool) (n : Nat) (file text : List UInt8) : Res UString := do
  let τ ← loadTM v ch spaces file
  if ← Load.valid τ.graph τ.root τ.finals n then tmAnalysis τ n text else .exit

end Verif.TmProc
