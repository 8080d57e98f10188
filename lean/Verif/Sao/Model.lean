import Verif.Proc.Model

/-!
# Model of the SAO mode in `lttoolbox/fst_processor.cc`

This is `lt-proc -s`. The input is a file of bytes, the output the UTF-16 units that are written to the `UFILE`. The transducers and ICU's
tables are those of `Proc.Setting`; compounds, ignored and restored characters play no part here. The argument `n` bounds the turns of loops
that need not end; using them up gives `.ub`.
-/

namespace Verif.Sao

open Verif.Input Verif.State Verif.Proc
open Verif.Buffer (Buffer)

variable {W : Type}

/-- `escaped_chars` in this mode (fst_processor.cc:2237-2240). -/
def escaped : List Int := [0x5c, 0x3c, 0x3e]

/-- `<![CDATA[` -/
def cdataStart : UString := [0x3c, 0x21, 0x5b, 0x43, 0x44, 0x41, 0x54, 0x41, 0x5b]

/-- `]]>` -/
def cdataEnd : UString := [0x5d, 0x5d, 0x3e]

/-- The loop that reads to the end of a CDATA section (fst_processor.cc:2182-2185). -/
def readCdata : (turns : Nat) → UString → InFile → Res (UString × InFile)
  | turns, str, f =>
    if cdataEnd.isSuffixOf str then .ok (str, f)
    else match turns with
      | 0 => .ub
      | turns + 1 => do
        let (t, f) ← readBlock '<'.toNat '>'.toNat f
        readCdata turns (str ++ t.drop 1) f

/-- `FSTProcessor::readSAO` (fst_processor.cc:2160-2212). -/
def readSAO (n : Nat) (a : An) : Res (Int × An) :=
  if !Buffer.isEmpty a.buf then do
    let (v, b) ← Buffer.next a.buf
    pure (v, { a with buf := b })
  else do
    let (c, f) ← get a.inp
    if f.eof then .ok (0, { a with inp := f })
    else if (c : Int) ∈ escaped then
      if c = '<'.toNat then do
        let (t, f) ← readBlock '<'.toNat '>'.toNat f
        if cdataStart.isPrefixOf t then do
          let (t, f) ← readCdata n t f
          .ok (0x20, { a with inp := f, blanks := a.blanks ++ [t], buf := Buffer.add 0x20 a.buf })
        else .exception
      else if c = '\\'.toNat then do
        let (c, f) ← get f
        if (c : Int) ∈ escaped then .ok ((c : Int), { a with inp := f, buf := Buffer.add (c : Int) a.buf })
        else .exception
      else .exception
    else .ok ((c : Int), { a with inp := f, buf := Buffer.add (c : Int) a.buf })

/-- `annot.substr(1,annot.length()-2)` (state.cc:653) -/
def inner (t : UString) : Res UString := if t = [] then .exception else .ok ((t.drop 1).take (t.length - 2))

/-- What is appended for a symbol (state.cc:644-659). -/
def symbolSAO (up : Int → Int) (a : Alphabet) (upper : Bool) (sym : Int) : Res UString := do
  let t ← if sym < 0 then do
      let t ← a.tagText sym
      let t ← inner t
      pure (0x26 :: t ++ [0x3b])
    else symbolText up a sym upper
  .ok ((if sym ∈ escaped then [0x5c] else []) ++ t)

/-- The loop over a sequence (state.cc:642-660). -/
def seqSAO (up : Int → Int) (a : Alphabet) (upper : Bool) : List (Int × W) → Res UString
  | [] => .ok []
  | x :: seq => do
    let t ← symbolSAO up a upper x.1
    let s ← seqSAO up a upper seq
    .ok (t ++ s)

/-- `State::filterFinalsSAO` (state.cc:627-677) with the default 0 for `firstchar`. -/
def filterFinalsSAO (up : Int → Int) (finals : List (Nat × W)) (a : Alphabet) (uppercase firstupper : Bool) : List (Rec W) → Res UString
  | [] => .ok []
  | r :: st =>
    if (mapFind r.node finals).isSome then do
      let t ← seqSAO up a uppercase r.seq
      let t ← if firstupper then upperFirst up 0 t else .ok t
      let s ← filterFinalsSAO up finals a uppercase firstupper st
      .ok (0x2f :: t ++ s)
    else filterFinalsSAO up finals a uppercase firstupper st

/-- `firstupper` and `uppercase` (fst_processor.cc:2249-2250): `sf[0]` of an empty text is the null at its end, the unit before it is undefined. -/
def cases (σ : Setting W) (sf : UString) : Res (Bool × Bool) :=
  match sf.head?, sf.getLast? with
  | some u, some v => .ok (σ.chars.isUpper (u.toNat : Int), σ.chars.isUpper (u.toNat : Int) && σ.chars.isUpper (v.toNat : Int))
  | _, _ => if σ.chars.isUpper 0 then .ub else .ok (false, false)

/-- The three calls of `filterFinalsSAO` (fst_processor.cc:2249-2254). -/
def filter (σ : Setting W) (st : List (Rec W)) (sf : UString) : Res UString := do
  let (first, whole) ← cases σ sf
  filterFinalsSAO σ.chars.toUpper σ.allFinals σ.alphabet whole first st

/-- The local variables of `SAO` (fst_processor.cc:2230-2235). -/
structure Loc (W : Type) where
  cur : List (Rec W)
  lf : UString := []
  sf : UString := []
  last : Nat := 0
  incond : Bool := false
  post : Bool := false

/-- The test for final states (fst_processor.cc:2245-2290). -/
def note (σ : Setting W) (val : Int) (pos : Nat) (l : Loc W) : Res (Loc W) :=
  if isFinal σ.allFinals l.cur then
    if isFinal σ.inconditional l.cur then do
      let lf ← filter σ l.cur l.sf
      .ok { l with lf, incond := true, last := pos }
    else if isFinal σ.postblank l.cur then do
      let lf ← filter σ l.cur l.sf
      .ok { l with lf, post := true, last := pos }
    else if !σ.isAlphabetic val then do
      let lf ← filter σ l.cur l.sf
      .ok { l with lf, post := false, incond := false, last := pos }
    else .ok l
  else if l.sf.isEmpty && σ.chars.isSpace val then
    .ok { l with lf := [0x2f, 0x2a] ++ l.sf, post := false, incond := false, last := pos }
  else .ok l

/-- `FSTProcessor::printSpace` (fst_processor.cc:581-592). -/
def printSpace (val : Int) (a : An) : An :=
  if a.blanks.isEmpty then { a with out := a.out ++ putc val } else { a with out := a.out ++ a.blanks.flatten, blanks := [] }

/-- A character that is no part of a word (fst_processor.cc:2300-2313). -/
def printOther (σ : Setting W) (val : Int) (a : An) : An :=
  if σ.chars.isSpace val then printSpace val a
  else { a with out := a.out ++ (if val ∈ escaped then [0x5c] else []) ++ putc val }

/-- `FSTProcessor::printSAOWord` (fst_processor.cc:2214-2225). For an empty text the loop runs beyond its end. -/
def printWordSAO (lf : UString) (a : An) : Res An :=
  match lf with
  | [] => .ub
  | _ :: t => .ok { a with out := a.out ++ t.takeWhile (· ≠ 0x2f) }

/-- `do alphabet.getSymbol(sf, val); while ((val = readSAO(input)) && isAlphabetic(val))` (fst_processor.cc:2331-2335). -/
def readWord (σ : Setting W) (n : Nat) : (turns : Nat) → (val : Int) → (sf : UString) → An → Res (UString × An)
  | 0, _, _, _ => .ub
  | turns + 1, val, sf, a => do
    let t ← symbolText σ.chars.toUpper σ.alphabet val false
    let (val, a) ← readSAO n a
    if val ≠ 0 ∧ σ.isAlphabetic val then readWord σ n turns val (sf ++ t) a
    else .ok (sf ++ t, a)

/-- `<d>` -/
def markStart : UString := [0x3c, 0x64, 0x3e]

/-- `</d>` -/
def markEnd : UString := [0x3c, 0x2f, 0x64, 0x3e]

/-- A word that is not known (fst_processor.cc:2337-2340 and 2344-2347); `%S` writes up to a null. -/
def unknown (σ : Setting W) (sf : UString) (a : An) : An :=
  { a with
    buf := Buffer.back (1 + (sf.length - (firstNotAlpha σ sf).2)) a.buf
    out := a.out ++ markStart ++ sf.takeWhile (· ≠ 0) ++ markEnd }

/-- Whether the rest of a word is read (fst_processor.cc:2327-2329): the difference is one of `size_t`. -/
def goesOn (σ : Setting W) (val : Int) (a : An) (l : Loc W) : Bool :=
  σ.isAlphabetic val &&
    (decide ((l.sf.length + 2 ^ 64 - Buffer.diffPrevPos l.last a.buf) % 2 ^ 64 > lastBlank σ l.sf) || l.lf.isEmpty)

/-- What is written when no state is left (fst_processor.cc:2298-2354). -/
def emit (σ : Setting W) (n : Nat) (val : Int) (l : Loc W) (a : An) : Res An :=
  if !σ.isAlphabetic val && l.sf.isEmpty then .ok (printOther σ val a)
  else if l.incond then do
    let a ← printWordSAO l.lf a
    .ok (rewind l.last a)
  else if l.post then do
    let a ← printWordSAO l.lf a
    .ok (rewind l.last { a with out := a.out ++ [0x20] })
  else if goesOn σ val a l then do
    let (sf, a) ← readWord σ n n val l.sf a
    .ok (unknown σ sf a)
  else if l.lf.isEmpty then .ok (unknown σ l.sf a)
  else do
    let a ← printWordSAO l.lf a
    .ok (rewind l.last a)

section
variable [Zero W] [Add W] [LinearOrder W]

/-- The loop of `SAO` with what follows it (fst_processor.cc:2242-2366). -/
def loop (σ : Setting W) (n : Nat) (init : List (Rec W)) : (turns : Nat) → An → Loc W → Res An
  | 0, _, _ => .ub
  | turns + 1, a, l => do
    let (val, a) ← readSAO n a
    if val = 0 then .ok { a with out := a.out ++ a.blanks.flatten, blanks := [] }
    else do
      let l ← note σ val (Buffer.getPos a.buf) l
      let cur ← stepFolded σ n val l.cur
      if !cur.isEmpty then do
        let t ← symbolText σ.chars.toUpper σ.alphabet val false
        loop σ n init turns a { l with cur, sf := l.sf ++ t }
      else do
        let a ← emit σ n val l a
        loop σ n init turns a { cur := init, last := l.last }

/-- `FSTProcessor::SAO` (fst_processor.cc:2227-2367): what is written for a file. -/
def sao (σ : Setting W) (n : Nat) (bytes : List UInt8) : Res UString := do
  let a ← start bytes
  let init ← ended (State.init σ.graph n σ.root)
  let a ← loop σ n init n a { cur := init }
  .ok a.out

end

end Verif.Sao
