import Verif.Pattern.Tags
import Verif.Alphabet.Model
import Verif.Match.Model

/-!
# Model of `lttoolbox/pattern_list.cc`: lists of patterns for words

`tagCount` and `tagAt` are in `Verif/Pattern/Tags.lean`, `MatchExe` in `Verif/Match/Model.lean`. A state -1, which `insertSingleTransduction` returns
where a symbol leads to too many states, is `none`.
-/

namespace Verif.Patterns

open Verif.Fst
open Verif.Pattern (tagCount tagAt)

variable {W : Type} [Zero W]

/-- `PatternList::ANY_CHAR` (pattern_list.h:56): `<ANY_CHAR>`. -/
def ANY_CHAR : UString := [0x3c, 0x41, 0x4e, 0x59, 0x5f, 0x43, 0x48, 0x41, 0x52, 0x3e]

/-- `PatternList::ANY_TAG` (pattern_list.h:61): `<ANY_TAG>`. -/
def ANY_TAG : UString := [0x3c, 0x41, 0x4e, 0x59, 0x5f, 0x54, 0x41, 0x47, 0x3e]

/-- `PatternList::QUEUE` (pattern_list.h:66): `<QUEUE>`. -/
def QUEUE : UString := [0x3c, 0x51, 0x55, 0x45, 0x55, 0x45, 0x3e]

/-- `PatternList` (pattern_list.h:33-42). `patterns` is a multimap: by number, equal numbers in the order of insertion. The weight is always 0. -/
structure PatternList (W : Type) where
  alphabet : Alphabet
  patterns : List (Int × List Int)
  sequence : Bool
  seqData : List (List Int)
  transducer : Transducer W
  finalType : List (Nat × Int)
  seqId : Int

/-- The constructor (pattern_list.cc:43-51). -/
def PatternList.new : PatternList W :=
  { alphabet := ((Alphabet.empty.includeSymbol ANY_TAG).includeSymbol ANY_CHAR).includeSymbol QUEUE
    patterns := [], sequence := false, seqData := [], transducer := empty, finalType := [], seqId := 0 }

/-- `std::multimap::insert`: after the elements with the same key. -/
def multiInsert (id : Int) (v : List Int) : List (Int × List Int) → List (Int × List Int)
  | [] => [(id, v)]
  | e :: m => if e.1 ≤ id then e :: multiInsert id v m else (id, v) :: e :: m

/-- `PatternList::beginSequence` (pattern_list.cc:74-84). -/
def beginSequence (l : PatternList W) : Res (PatternList W) :=
  if l.sequence then .exit else .ok { l with sequence := true, seqData := [] }

/-- `PatternList::endSequence` (pattern_list.cc:86-103). The elements of `sequence_data` stay there, with the queue. -/
def endSequence (l : PatternList W) : Res (PatternList W) :=
  if l.sequence then
    let q := l.alphabet.symCode QUEUE
    let data := l.seqData.map (· ++ [q])
    .ok { l with sequence := false, seqData := data, patterns := data.foldl (fun m v => multiInsert l.seqId v m) l.patterns }
  else .exit

/-- The loop over the lemma (pattern_list.cc:115-125). -/
def lemmaSymbols (a : Alphabet) (lemma_ : UString) : List Int := lemma_.map fun u => if u = 0x2a then a.symCode ANY_CHAR else (u.toNat : Int)

/-- The loop over the tags (pattern_list.cc:133-146), `limit - i` turns from `i` on. -/
def tagSymbols (tags : UString) : (turns : Nat) → (i : Int) → Alphabet → Res (Alphabet × List Int)
  | 0, _, a => .ok (a, [])
  | turns + 1, i, a => do
    let piece ← tagAt tags i
    let tag := [0x3c] ++ piece ++ [0x3e]
    let a' := if tag = [0x3c, 0x2a, 0x3e] then a else a.includeSymbol tag
    let x := if tag = [0x3c, 0x2a, 0x3e] then a.symCode ANY_TAG else a'.symCode tag
    let (a, xs) ← tagSymbols tags turns (i + 1) a'
    pure (a, x :: xs)

/-- `PatternList::insertOutOfSequence` (pattern_list.cc:105-148): what it appends to the vector. -/
def wordSymbols (lemma_ tags : UString) (a : Alphabet) : Res (Alphabet × List Int) := do
  let xs := if lemma_ = [] then [a.symCode ANY_CHAR] else lemmaSymbols a lemma_
  let (a, ys) ← if tags = [] then Res.ok (a, [a.symCode ANY_TAG]) else tagSymbols tags (tagCount tags).toNat 0 a
  pure (a, xs ++ ys)

/-- The loop of `insertIntoSequence` (pattern_list.cc:163-170). -/
def extendAll (lemma_ tags : UString) : List (List Int) → Alphabet → Res (Alphabet × List (List Int))
  | [], a => .ok (a, [])
  | v :: vs, a => do
    let (a, xs) ← wordSymbols lemma_ tags a
    let (a, ws) ← extendAll lemma_ tags vs a
    pure (a, (v ++ [0x2b] ++ xs) :: ws)

/-- `PatternList::insertIntoSequence` (pattern_list.cc:151-172). -/
def insertIntoSequence (id : Int) (lemma_ tags : UString) (l : PatternList W) : Res (PatternList W) :=
  if l.seqData = [] then do
    let (a, xs) ← wordSymbols lemma_ tags l.alphabet
    pure { l with alphabet := a, seqId := id, seqData := [xs] }
  else do
    let (a, vs) ← extendAll lemma_ tags l.seqData l.alphabet
    pure { l with alphabet := a, seqId := id, seqData := vs }

/-- `PatternList::insert(int, UStringView, UStringView)` (pattern_list.cc:174-188). -/
def insert (id : Int) (lemma_ tags : UString) (l : PatternList W) : Res (PatternList W) :=
  if l.sequence then insertIntoSequence id lemma_ tags l
  else do
    let (a, xs) ← wordSymbols lemma_ tags l.alphabet
    pure { l with alphabet := a, patterns := multiInsert id (xs ++ [a.symCode QUEUE]) l.patterns }

/-- `patterns.equal_range(id)`. -/
def ofId (id : Int) (m : List (Int × List Int)) : List (List Int) := (m.filter fun e => e.1 = id).map (·.2)

/-- `PatternList::insert(int, int)` (pattern_list.cc:190-231). -/
def insertLabel (id other : Int) (l : PatternList W) : Res (PatternList W) :=
  if l.sequence then
    let ps := ofId other l.patterns
    .ok { l with seqId := id, seqData := if l.seqData = [] then ps else l.seqData.flatMap fun v => ps.map fun p => v ++ [0x2b] ++ p }
  else .exit

/-! ## `buildTransducer` -/

/-- The numbers of the three marks in the alphabet. -/
structure Codes where
  char : Int
  tag : Int
  queue : Int
  deriving DecidableEq

/-- `alphabet(ANY_CHAR)` and so on. -/
def codesOf (a : Alphabet) : Codes := { char := a.symCode ANY_CHAR, tag := a.symCode ANY_TAG, queue := a.symCode QUEUE }

/-- The local variables `prevstate` and `state`, and the transducer. -/
structure Build (W : Type) where
  t : Transducer W
  state : Option Nat
  prev : Option Nat

/-- `transducer.insertSingleTransduction(val, state, default_weight)`: there is no state -1. -/
def insertAt (val : Int) (state : Option Nat) (t : Transducer W) : Option Nat × Transducer W :=
  match state with
  | some s => insertSingleTransduction val s 0 t
  | none => (none, t)

/-- `transducer.linkStates(a, b, val, default_weight)`. -/
def linkAt (a b : Option Nat) (val : Int) (t : Transducer W) : Res (Transducer W) :=
  match a, b with
  | some a, some b => linkStates a b val 0 t
  | _, _ => .exit

/-- `if(prevstate != -1) { transducer.linkStates(prevstate, state, val, default_weight); }` -/
def linkPrev (prev state : Option Nat) (val : Int) (t : Transducer W) : Res (Transducer W) :=
  if prev.isSome then linkAt prev state val t else .ok t

/-- The body of the loop over a pattern (pattern_list.cc:308-342). -/
def buildStep (c : Codes) (val : Int) (b : Build W) : Res (Build W) :=
  if c.char = val ∨ c.tag = val then do
    let (state, t) := insertAt val b.state b.t
    let t ← linkPrev b.prev state val t
    let t ← linkAt state state val t
    pure { t, state, prev := none }
  else if c.queue = val then
    if b.prev.isSome then .ok b
    else do
      let (state, t) := insertAt 0x5f b.state b.t
      let t ← linkAt b.state state 0x20 t
      let t ← linkAt b.state state 0x23 t
      let t ← linkAt state state c.char t
      pure { t, state, prev := b.state }
  else do
    let (state, t) := insertAt val b.state b.t
    let t ← linkPrev b.prev state val t
    pure { t, state, prev := none }

/-- The loop over a pattern (pattern_list.cc:306-343). -/
def buildLoop (c : Codes) : List Int → Build W → Res (Build W)
  | [], b => .ok b
  | x :: xs, b => do buildLoop c xs (← buildStep c x b)

/-- `if(!transducer.isFinal(s)) { ... }` (pattern_list.cc:346-350 and 352-356). -/
def finish (id : Int) (s : Nat) (x : Transducer W × List (Nat × Int)) : Transducer W × List (Nat × Int) :=
  if isFinal x.1 s then x else (setFinal s 0 true x.1, mapSet s id x.2)

/-- `if(prevstate != -1) { ... }` (pattern_list.cc:344-351). -/
def finishPrev (id : Int) (prev : Option Nat) (x : Transducer W × List (Nat × Int)) : Transducer W × List (Nat × Int) :=
  match prev with
  | some p => finish id p x
  | none => x

/-- One pattern (pattern_list.cc:304-356). A final state -1 has no representation here. -/
def buildOne (c : Codes) (id : Int) (v : List Int) (x : Transducer W × List (Nat × Int)) : Res (Transducer W × List (Nat × Int)) := do
  let b ← buildLoop c v { t := x.1, state := some x.1.initial, prev := none }
  let y := finishPrev id b.prev (b.t, x.2)
  match b.state with
  | some s => pure (finish id s y)
  | none => .ub

/-- The loop over the patterns (pattern_list.cc:301-357). -/
def buildAll (c : Codes) : List (Int × List Int) → Transducer W × List (Nat × Int) → Res (Transducer W × List (Nat × Int))
  | [], x => .ok x
  | (id, v) :: ps, x => do buildAll c ps (← buildOne c id v x)

/-- `PatternList::buildTransducer` (pattern_list.cc:298-358). -/
def buildTransducer (l : PatternList W) : Res (PatternList W) := do
  let (t, f) ← buildAll (codesOf l.alphabet) l.patterns (l.transducer, l.finalType)
  pure { l with transducer := t, finalType := f }

/-- `PatternList::newMatchExe` (pattern_list.cc:417-421). -/
def newMatchExe (l : PatternList W) : Res Match.MatchExe := Match.MatchExe.make l.transducer l.finalType

end Verif.Patterns
