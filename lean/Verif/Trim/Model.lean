import Verif.Product.Model
import Verif.Chain.Model
import Verif.Tools.Model

/-!
# Model of `lt-trim`

`lttoolbox/lt_trim.cc`, with `moveLemqsLast` and `copyWithTagsFirst` of `lttoolbox/transducer.cc`. The weights of the files are read as weights
of any kind (`v`) and written again (`g`), because addition of doubles is not that of a monoid. Messages are left out.
-/

namespace Verif.Trim

open Verif.Fst Verif.Product
open Verif.Compression (Dbl)

variable {W : Type}

/-- `Transducer::isEmpty` (transducer.cc:451-455). -/
def isEmpty (t : Transducer W) : Bool := t.finals.isEmpty && decide (t.transitions.length = 1)

/-! ## `moveLemqsLast` -/

/-- The local variables of `copyWithTagsFirst` (transducer.cc:880-895); `todo` with its last element first. -/
structure Copy (W : Type) where
  new : Transducer W
  lemq : Transducer W
  toNew : List (Nat × Nat)
  toLemq : List (Nat × Nat)
  todo : List Two
  seen : List Two
  last : List Two

/-- `if (m.find(q) == m.end()) { m.insert({q, t.newState()}); }` -/
def allotIn (q : Nat) (m : List (Nat × Nat)) (t : Transducer W) : List (Nat × Nat) × Transducer W :=
  if (mapFind q m).isSome then (m, t) else (mapInsert q (newState t).1 m, (newState t).2)

/-- The body of the loop over the arcs of `copyWithTagsFirst` (transducer.cc:905-963). `m[q]` makes an element 0 if there is none. -/
def copyArc [Zero W] (t : Transducer W) (a : Alphabet) (start src lemqlast : Nat) (label : Int) (trg : Nat) (wt : W) (s : Copy W) : Res (Copy W) := do
  let p ← a.decode label
  if p.1 < 0 ∨ src ≠ lemqlast then
    let (newSrc, s) :=
      if src = lemqlast then ((mapFind start s.toNew).getD 0, { s with lemq := { s.lemq with finals := mapInsert lemqlast 0 s.lemq.finals } })
      else
        let (m, u) := allotIn src s.toNew s.new
        ((mapFind src m).getD 0, { s with toNew := m, new := u })
    let (m, u) := allotIn trg s.toNew s.new
    let u ← linkStates newSrc ((mapFind trg m).getD 0) label wt u
    let s := { s with toNew := m, new := u }
    let s := if isFinal t src then { s with last := setInsert (two src lemqlast) s.last } else s
    pure (if two trg lemqlast ∈ s.seen then s else { s with todo := two trg lemqlast :: s.todo })
  else
    let m := mapInsert src 0 s.toLemq
    let lemqSrc := (mapFind src m).getD 0
    let (m, u) := allotIn trg m s.lemq
    let u ← linkStates lemqSrc ((mapFind trg m).getD 0) label wt u
    let s := { s with toLemq := m, lemq := u }
    pure (if two trg trg ∈ s.seen then s else { s with todo := two trg trg :: s.todo })

/-- The loop over the arcs of a state. -/
def copyArcs [Zero W] (t : Transducer W) (a : Alphabet) (start src lemqlast : Nat) : Row W → Copy W → Res (Copy W)
  | [], s => .ok s
  | (label, trg, wt) :: arcs, s => do copyArcs t a start src lemqlast arcs (← copyArc t a start src lemqlast label trg wt s)

/-- The loop over the stack (transducer.cc:897-965). -/
def copyLoop [Zero W] (t : Transducer W) (a : Alphabet) (start : Nat) : (turns : Nat) → Copy W → Res (Copy W)
  | turns, s =>
    match s.todo with
    | [] => .ok s
    | current :: todo =>
      match turns with
      | 0 => .ub
      | turns + 1 => do
        let src := (ofLex current).1
        copyLoop t a start turns (← copyArcs t a start src (ofLex current).2 (row t src) { s with todo, seen := setInsert current s.seen })

/-- The loop over `finally` (transducer.cc:967-982). -/
def copyEnds [LinearOrder W] [Zero W] (group ε : Int) : List Two → Copy W → Res (Copy W)
  | [], s => .ok s
  | e :: es, s => do
    let m := mapInsert (ofLex e).2 0 s.toLemq
    let lemq ← minimize 0 { s.lemq with finals := [((mapFind (ofLex e).2 m).getD 0, 0)] }
    let (groupStart, u) := newState s.new
    let k := mapInsert (ofLex e).1 0 s.toNew
    let u ← linkStates ((mapFind (ofLex e).1 k).getD 0) groupStart group 0 u
    let (f, u, _) ← insertTransducer groupStart lemq 0 u
    copyEnds group ε es { s with toNew := k, toLemq := m, new := { u with finals := mapInsert f 0 u.finals } }

/-- `Transducer::copyWithTagsFirst` (transducer.cc:874-985). The second insertion into `states_this_new` has no effect, the key is there. -/
def copyWithTagsFirst [LinearOrder W] [Zero W] (t : Transducer W) (start : Nat) (group : Int) (a : Alphabet) (ε : Int) : Res (Transducer W) := do
  let s ← copyLoop t a start (size t * size t * (numberOfTransitions t + 1) + 2)
    { new := empty, lemq := empty, toNew := [(start, (empty : Transducer W).initial)], toLemq := [], todo := [two start start], seen := [], last := [] }
  let s ← copyEnds group ε s.last s
  pure s.new

/-- `GROUP_SYMBOL` (transducer.h:95). -/
def GROUP : UString := [0x23]

/-- The body of the loop over the arcs of `moveLemqsLast` (transducer.cc:1006-1030). -/
def moveArc [LinearOrder W] [Zero W] (t : Transducer W) (a : Alphabet) (ε : Int) (src : Nat) (label : Int) (trg : Nat) (s : Search Nat W) : Res (Search Nat W) := do
  let p ← a.decode label
  let left ← a.getSymbol p.1
  let newSrc := idOf src s
  if left = GROUP then
    let u ← copyWithTagsFirst t trg label a ε
    let (f, r, _) ← insertTransducer newSrc u ε s.t
    pure { s with t := { r with finals := mapInsert f 0 r.finals } }
  else visit newSrc trg label 0 s

/-- The loop over the arcs of a state. -/
def moveArcs [LinearOrder W] [Zero W] (t : Transducer W) (a : Alphabet) (ε : Int) (src : Nat) : Row W → Search Nat W → Res (Search Nat W)
  | [], s => .ok s
  | (label, trg, _) :: arcs, s => do moveArcs t a ε src arcs (← moveArc t a ε src label trg s)

/-- The loop over the stack (transducer.cc:1000-1031). -/
def moveLoop [LinearOrder W] [Zero W] (t : Transducer W) (a : Alphabet) (ε : Int) : (turns : Nat) → Search Nat W → Res (Search Nat W)
  | turns, s =>
    match s.todo with
    | [] => .ok s
    | src :: todo =>
      match turns with
      | 0 => .ub
      | turns + 1 => do moveLoop t a ε turns (← moveArcs t a ε src (row t src) { s with todo, seen := setInsert src s.seen })

/-- The loop over the final states (transducer.cc:1033-1036). `states_this_new[it.first]` makes an element 0 for a state that was not reached. -/
def moveFinals : List (Nat × W) → Search Nat W → Transducer W
  | [], s => s.t
  | (q, w) :: fs, s =>
    let ids := mapInsert q 0 s.ids
    moveFinals fs { s with ids, t := { s.t with finals := mapInsert ((mapFind q ids).getD 0) w s.t.finals } }

/-- `Transducer::moveLemqsLast` (transducer.cc:987-1039). -/
def moveLemqsLast [LinearOrder W] [Zero W] (t : Transducer W) (a : Alphabet) (ε : Int) : Res (Transducer W) := do
  let s ← moveLoop t a ε (size t * (numberOfTransitions t + 1) + 2)
    { todo := [t.initial], seen := [], ids := [(t.initial, (empty : Transducer W).initial)], t := empty }
  pure (moveFinals t.finals s)

/-! ## `lt-trim` -/

variable [LinearOrder W] [Zero W]

/-- `it.second.appendDotStar(loopback_symbols).moveLemqsLast(alph_prefix)` (lt_trim.cc:48 and 62). -/
def prepare (loopback : List Int) (a : Alphabet) (t : Transducer W) : Res (Transducer W) := do
  let t ← appendDotStar loopback 0 t
  moveLemqsLast t a 0

/-- One more section in the union (lt_trim.cc:51-56, lt_compose.cc:41-45). -/
def unite (o u : Transducer W) : Res (Transducer W) :=
  if isEmpty u then .ok o
  else do
    let (u, _) ← unionWith o 0 u
    pure u

/-- The loop over the sections of the bilingual dictionary (lt_trim.cc:46-58): the sections to be matched by name, and the union of the others. -/
def sortSections (names : List UString) (loopback : List Int) (a : Alphabet) :
    List (UString × Transducer W) → List (UString × Transducer W) × Transducer W → Res (List (UString × Transducer W) × Transducer W)
  | [], x => .ok x
  | (k, t) :: ts, (moved, u) =>
    if k ∈ names then do
      let r ← prepare loopback a t
      sortSections names loopback a ts (mapSet k r moved, u)
    else do
      let u ← unite t u
      sortSections names loopback a ts (moved, u)

/-- The transducers to trim with, by the names of sections; the empty name has the union (lt_trim.cc:44-62). -/
def trimmers (names : List UString) (loopback : List Int) (a : Alphabet) (ts : List (UString × Transducer W)) : Res (List (UString × Transducer W)) := do
  let (moved, u) ← sortSections names loopback a ts ([], empty)
  let u ← minimize 0 u
  let r ← prepare loopback a u
  pure (mapSet [] r moved)

/-- `moved_bi_transducers[name]`, or that of the empty name (lt_trim.cc:75-77). -/
def chosen (moved : List (UString × Transducer W)) (k : UString) : Transducer W := (mapFind k moved).getD ((mapFind [] moved).getD empty)

/-- The loop over the sections of the analyser (lt_trim.cc:67-87). The names come in order, so the last one is the last one of `trans_trim`. -/
def trimSections (moved : List (UString × Transducer W)) (a b : Alphabet) : List (UString × Transducer W) → Res (List (UString × Transducer W))
  | [] => .ok []
  | (k, t) :: ts =>
    if numberOfTransitions t = 0 then trimSections moved a b ts
    else do
      let r ← trim t (chosen moved k) a b 0
      if r.finals.isEmpty then trimSections moved a b ts
      else do
        let r ← minimize 0 r
        let rs ← trimSections moved a b ts
        pure ((k, r) :: rs)

/-- The trimmed sections (lt_trim.cc:37-87). -/
def trimSets (names : List UString) (a : Alphabet) (ts : List (UString × Transducer W)) (b : Alphabet) (us : List (UString × Transducer W)) :
    Res (List (UString × Transducer W)) := do
  let (b, loopback) := b.createLoopbackSymbols [] a .right false
  let moved ← trimmers names loopback b us
  trimSections moved a b ts

/-- `lt-trim` (lt_trim.cc:23-100): the file it writes, from the analyser and the bilingual dictionary; `names` are the sections given with `-s`. -/
def ltTrim (v : Dbl → W) (g : W → Dbl) (names : List UString) (mono bi : List UInt8) : Res (List UInt8) := do
  let ((letters, a, ts), _) ← BinIO.readSet mono
  let ((_, b, us), _) ← BinIO.readSet bi
  let rs ← trimSets names a (Chain.storedAll v ts) b (Chain.storedAll v us)
  if rs.isEmpty then .exit else BinIO.writeSetL letters a (Chain.storedAll g rs)

end Verif.Trim
