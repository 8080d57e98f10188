import Verif.Gen.Model
import Verif.Str.Model

/-!
# Model of postgeneration and transliteration in `lttoolbox/fst_processor.cc`

See `Verif.Gen.Model` for the conventions.
-/

namespace Verif.Post

open Verif.Input Verif.State Verif.Gen

variable {W : Type}

/-- The data members of `FSTProcessor` that matter here (fst_processor.h:76-260), and two functions of ICU. `dropTilde` is set by `postgeneration`
(fst_processor.cc:1393-1397), and not by `intergeneration` (fst_processor.cc:1400-1404) and `transliteration`. -/
structure Setting (W : Type) extends Gen.Setting W where
  isSpace : Int → Bool
  isAlnum : Int → Bool
  letters : List Int
  dropTilde : Bool

/-- `FSTProcessor::isAlphabetic` (fst_processor.cc:620-624). -/
def Setting.isAlphabetic (σ : Setting W) (c : Int) : Bool := σ.isAlnum c || σ.letters.contains c

/-- The input, `blankqueue`, `wblankqueue`, `transliteration_queue` and the output. -/
structure Tl where
  inp : InFile
  blanks : List UString := []
  wblanks : List UString := []
  queue : List (List Int) := []
  out : UString := []

/-! ## Reading -/

/-- The loop of `readTransliterationBlank` (fst_processor.cc:327-340). After `[[` only the first bracket has been consumed. -/
def blankLoop (σ : Setting W) : (turns : Nat) → UString → InFile → Res (UString × InFile)
  | turns, blank, f =>
    if f.eof then .ok (blank, f)
    else match turns with
      | 0 => .ub
      | turns + 1 => do
        let (c, f) ← get f
        if σ.isSpace c then blankLoop σ turns (blank ++ utf16 c) f
        else if c = '['.toNat then do
          let (p, f) ← peek f
          if p = '['.toNat then .ok (blank, f)
          else do
            let (t, f) ← readBlock '['.toNat ']'.toNat f
            blankLoop σ turns (blank ++ t) f
        else do
          let f ← unget f c
          .ok (blank, f)

/-- `FSTProcessor::readTransliterationBlank` (fst_processor.cc:323-345). -/
def readBlankT (σ : Setting W) (t : Tl) : Res (Bool × Tl) := do
  let (blank, f) ← blankLoop σ (turnsOf t.inp) [] t.inp
  .ok (blank ≠ [], { t with inp := f, blanks := if blank ≠ [] then t.blanks ++ [blank] else t.blanks })

/-- The loop for words after a word-bound blank (fst_processor.cc:363-383). -/
def boundLoop (σ : Setting W) : (turns : Nat) → List Int → Tl → Res (List Int × Tl)
  | turns, word, t =>
    if t.inp.eof then .ok (word, t)
    else match turns with
      | 0 => .ub
      | turns + 1 => do
        let (got, t) ← readBlankT σ t
        if got then do
          let (p, f) ← peek t.inp
          if p = '['.toNat then .ok (word ++ [0x20], { t with inp := f })
          else boundLoop σ turns (word ++ [0x20]) { t with inp := f }
        else do
          let (c, f) ← get t.inp
          if c = '['.toNat then do
            let f ← unget f c
            .ok (word, { t with inp := f })
          else if c = '\\'.toNat then do
            let (c, f) ← get f
            boundLoop σ turns (word ++ [(c : Int)]) { t with inp := f }
          else if c = '<'.toNat then do
            let (tag, f) ← readBlock '<'.toNat '>'.toNat f
            boundLoop σ turns (word ++ [σ.alphabet.symCode tag]) { t with inp := f }
          else if c = 0 then do
            let f ← unget f c
            .ok (word, { t with inp := f })
          else boundLoop σ turns (word ++ [(c : Int)]) { t with inp := f }

/-- The loop for other words (fst_processor.cc:389-401). -/
def plainLoop (σ : Setting W) : (turns : Nat) → List Int → InFile → Res (List Int × InFile)
  | turns, word, f =>
    if f.eof then .ok (word, f)
    else match turns with
      | 0 => .ub
      | turns + 1 => do
        let (c, f) ← get f
        if σ.isSpace c || c = '['.toNat || c = 0 then do
          let f ← unget f c
          .ok (word, f)
        else if c = '\\'.toNat then do
          let (c, f) ← get f
          plainLoop σ turns (word ++ [(c : Int)]) f
        else if c = '<'.toNat then do
          let (tag, f) ← readBlock '<'.toNat '>'.toNat f
          plainLoop σ turns (word ++ [σ.alphabet.symCode tag]) f
        else plainLoop σ turns (word ++ [(c : Int)]) f

/-- A word after `[[` (fst_processor.cc:361-387): the word and the blank. -/
def boundWord (σ : Setting W) (t : Tl) : Res (List Int × UString × Tl) := do
  let (_, f) ← get t.inp
  let (wblank, f) ← finishWBlank f
  let (word, t) ← boundLoop σ (turnsOf f) [] { t with inp := f }
  let (p, f) ← peek t.inp
  if p = '['.toNat then do
    let (_, f) ← get f
    let (_, f) ← finishWBlank f
    .ok (word, wblank, { t with inp := f })
  else .ok (word, wblank, { t with inp := f })

/-- Another word (fst_processor.cc:359, 389-401). -/
def plainWord (σ : Setting W) (t : Tl) : Res (List Int × UString × Tl) := do
  let (word, f) ← plainLoop σ (turnsOf t.inp) [] t.inp
  .ok (word, [], { t with inp := f })

/-- `FSTProcessor::readTransliterationWord` (fst_processor.cc:348-410) after the first test. -/
def readSome (σ : Setting W) (t : Tl) : Res (Bool × Tl) := do
  let (got, t) ← readBlankT σ t
  let (p, f) ← peek t.inp
  let t := { t with inp := f, blanks := if got then t.blanks else t.blanks ++ [[]] }
  let (word, wblank, t) ← if p = '['.toNat then boundWord σ t else plainWord σ t
  if word = [] then .ok (false, t)
  else .ok (true, { t with wblanks := t.wblanks ++ [wblank], queue := t.queue ++ [word] })

/-- `FSTProcessor::readTransliterationWord` (fst_processor.cc:347-410). -/
def readWord (σ : Setting W) (t : Tl) : Res (Bool × Tl) :=
  if t.inp.eof then .ok (false, t)
  else do
    let (p, f) ← peek t.inp
    if p = 0 then .ok (false, { t with inp := f }) else readSome σ { t with inp := f }

/-- `FSTProcessor::flushBlanks` (fst_processor.cc:412-420). -/
def flush (t : Tl) : Tl := { t with out := t.out ++ t.blanks.flatten, blanks := [] }

/-! ## Matching -/

/-- The local variables of `transliteration` (fst_processor.cc:1409-1420). -/
structure Loc (W : Type) where
  cur : List (Rec W)
  startPos : Nat := 0
  curWord : Nat := 0
  curPos : Nat := 0
  matchPos : Nat := 0
  last : UString := []
  diff : Int := 0
  firstupper : Bool := false
  uppercase : Bool := false
  haveFirst : Bool := false
  haveSecond : Bool := false

/-- The loop that joins words (fst_processor.cc:1444-1470): `cur_word`, `cur_pos`, `match_pos`, `last_match` and the queues. -/
def joinWords : (curWord : Nat) → (curPos matchPos : Nat) → (last : UString) → (queue : List (List Int)) → (wblanks : List UString) →
    Res (Nat × Nat × Nat × UString × List (List Int) × List UString)
  | 0, curPos, _, last, queue, wblanks => .ok (0, curPos, curPos, last, queue, wblanks)
  | k + 1, curPos, matchPos, last, queue, wblanks =>
    match queue, wblanks with
    | front :: second :: q, w1 :: w2 :: ws =>
      if k = 0 ∧ curPos = 0 ∧ last = [] then .ub
      else if k = 0 ∧ curPos = 0 ∧ last.getLast? = some 0x20 then .ok (1, curPos, front.length, last.dropLast, queue, wblanks)
      else do
        let w ← Str.mergeWblanks w1 w2
        joinWords k (if k = 0 then curPos + (front.length + 1) else curPos) matchPos last ((front ++ 0x20 :: second) :: q) (w :: ws)
    | _, _ => .ub

/-- The test for final states (fst_processor.cc:1439-1471). -/
def note [Zero W] [Add W] [LinearOrder W] (σ : Setting W) (t : Tl) (l : Loc W) : Res (Tl × Loc W) :=
  if isFinal σ.finals l.cur then do
    let rs ← results { σ.toSetting with maxAnalyses := 1 } l.uppercase l.firstupper l.cur
    let (curWord, curPos, matchPos, last, queue, wblanks) ← joinWords l.curWord l.curPos l.matchPos (joinResults rs) t.queue t.wblanks
    .ok ({ t with queue, wblanks }, { l with curWord, curPos, matchPos, last })
  else .ok (t, l)

/-- The next symbol (fst_processor.cc:1473-1487): `sym` and `is_end`. -/
def nextSym (σ : Setting W) (t : Tl) (l : Loc W) : Res (Int × Bool × Tl × Loc W) :=
  match t.queue[l.curWord]? with
  | none => .ub
  | some word =>
    match word[l.curPos]? with
    | some sym => .ok (sym, false, t, { l with curPos := l.curPos + 1 })
    | none =>
      if l.curWord + 1 = t.queue.length then do
        let (got, t) ← readWord σ t
        if got then .ok (0x20, false, t, { l with curWord := l.curWord + 1, curPos := 0 })
        else .ok (0, true, t, l)
      else .ok (0x20, false, t, { l with curWord := l.curWord + 1, curPos := 0 })

/-- The case of the letters read (fst_processor.cc:1489-1502). -/
def cases (σ : Setting W) (sym : Int) (l : Loc W) : Loc W :=
  if σ.isAlphabetic sym then
    if !l.haveFirst then
      if σ.isUpper sym then { l with haveFirst := true, firstupper := true }
      else { l with haveFirst := true, firstupper := false, haveSecond := true }
    else if !l.haveSecond then { l with haveSecond := true, uppercase := σ.isUpper sym }
    else l
  else l

/-! ## Rewriting -/

/-- The loop that compares from the end (fst_processor.cc:1514-1519), on the reversed texts. -/
def common : List Int → List Int → Nat
  | x :: xs, y :: ys => if x = y then common xs ys + 1 else 0
  | _, _ => 0

/-- `count(word, ' ')` (fst_processor.cc:1527-1532, 1549-1551). -/
def spaces (word : List Int) : Nat := word.count 0x20

/-- The replacement of a match (fst_processor.cc:1507-1539): `start_pos` and `space_diff`. Positions outside the word are undefined. -/
def replace (σ : Setting W) (t : Tl) (l : Loc W) : Res (Tl × Nat × Int) :=
  if l.last = [] then .ok (t, l.startPos + 1, l.diff)
  else match t.queue with
    | [] => .ub
    | word :: q => do
      let s ← substr1 l.last
      let m ← Alphabet.tokenize 0 σ.alphabet s
      if l.matchPos > word.length ∨ l.startPos > l.matchPos then .ub
      else do
        let i := common m.reverse ((word.take l.matchPos).drop l.startPos).reverse
        let new := word.take l.startPos ++ m ++ word.drop l.matchPos
        let start := l.matchPos - i
        .ok ({ t with queue := new :: q }, if start = l.startPos then start + 1 else start,
          l.diff + ((spaces new : Int) - (spaces word : Int)))

/-- The loop that writes a word (fst_processor.cc:1552-1571): the text and the blanks that are left. -/
def wordText (σ : Setting W) (diff : Int) (count : Nat) : List Int → (spaceOut : Nat) → (out : UString) → (blanks : List UString) → Res (UString × List UString)
  | [], _, out, blanks => .ok (out, blanks)
  | c :: cs, spaceOut, out, blanks =>
    if c = 0x20 then
      if (spaceOut : Int) + diff ≥ count then wordText σ diff count cs (spaceOut + 1) (out ++ [0x20]) blanks
      else match blanks with
        | [] => .ub
        | b :: bs => wordText σ diff count cs (spaceOut + 1) (out ++ b) bs
    else if σ.dropTilde = true ∧ c = 0x7e then wordText σ diff count cs spaceOut out blanks
    else do
      let s ← symbolText id σ.alphabet c false
      wordText σ diff count cs spaceOut (out ++ (if c > 0 ∧ c ∈ escapedCps then [0x5c] else []) ++ s) blanks

/-- The loop that writes surplus blanks (fst_processor.cc:1576-1582). -/
def surplus : (n : Nat) → (out : UString) → (blanks : List UString) → Res (UString × List UString)
  | 0, out, blanks => .ok (out, blanks)
  | _ + 1, _, [] => .ub
  | n + 1, out, b :: bs => surplus n (if b ≠ [0x20] then out ++ b else out) bs

/-- The writing of a word (fst_processor.cc:1541-1582). -/
def writeWord (σ : Setting W) (diff : Int) (t : Tl) : Res Tl :=
  match t.blanks, t.wblanks, t.queue with
  | b :: blanks, w :: wblanks, word :: queue => do
    let (s, blanks) ← wordText σ diff (spaces word) word 0 [] blanks
    let (out, blanks) ← surplus (-diff).toNat (t.out ++ b ++ w ++ s ++ if w ≠ [] then [0x5b, 0x5b, 0x2f, 0x5d, 0x5d] else []) blanks
    .ok { t with out, blanks, wblanks, queue }
  | _, _, _ => .ub

/-- What is done when no state is left or the text ends (fst_processor.cc:1507-1593). -/
def finish (σ : Setting W) (init : List (Rec W)) (t : Tl) (l : Loc W) : Res (Tl × Loc W) := do
  let (t, start, diff) ← replace σ t l
  match t.queue with
  | [] => .ub
  | word :: _ =>
    if start ≥ word.length then do
      let t ← writeWord σ diff t
      .ok (t, { cur := init })
    else .ok (t, { cur := init, startPos := start, curPos := start, diff })

/-- One turn of the loop (fst_processor.cc:1439-1594). -/
def turn [Zero W] [Add W] [LinearOrder W] (σ : Setting W) (n : Nat) (init : List (Rec W)) (t : Tl) (l : Loc W) : Res (Tl × Loc W) := do
  let (t, l) ← note σ t l
  let (sym, isEnd, t, l) ← nextSym σ t l
  let l := cases σ sym l
  let cur ← ended (stepCaseOverride σ.isUpper σ.toLower σ.graph n sym (σ.beCaseSensitive l.cur) l.cur)
  if cur.isEmpty || isEnd then finish σ init t l else .ok (t, { l with cur })

/-- What the test for an empty queue leads to (fst_processor.cc:1423-1437). -/
inductive Refill
  | stop (t : Tl)
  | again (t : Tl)
  | go (t : Tl)

/-- The test for an empty queue (fst_processor.cc:1423-1437). -/
def refill (σ : Setting W) (t : Tl) : Res Refill :=
  if t.queue = [] then do
    let (got, t) ← readWord σ (flush t)
    if got then .ok (.go t)
    else if t.inp.eof then .ok (.stop (flush t))
    else do
      let (c, f) ← get t.inp
      .ok (.again { flush t with inp := f, out := (flush t).out ++ utf16 c })
  else .ok (.go t)

/-- The loop of `transliteration` (fst_processor.cc:1422-1595). -/
def loop [Zero W] [Add W] [LinearOrder W] (σ : Setting W) (n : Nat) (init : List (Rec W)) : (turns : Nat) → Tl → Loc W → Res UString
  | 0, _, _ => .ub
  | turns + 1, t, l => do
    match ← refill σ t with
    | .stop t => .ok t.out
    | .again t => loop σ n init turns t l
    | .go t => do
      let (t, l) ← turn σ n init t l
      loop σ n init turns t l

/-- `FSTProcessor::transliteration` (fst_processor.cc:1406-1596). -/
def transliteration [Zero W] [Add W] [LinearOrder W] (σ : Setting W) (n : Nat) (file : List UInt8) : Res UString := do
  let init ← ended (State.init σ.graph n σ.root)
  loop σ n init n { inp := opened file } { cur := init }

end Verif.Post
