import Verif.Base
import Verif.Data.Assoc
import Verif.SortedVec.Model
import Mathlib.Order.Defs.LinearOrder
import Mathlib.Order.Lattice.Nat
import Mathlib.Data.Prod.Lex

/-!
# Model of the construction half of `lttoolbox/transducer.cc`

States are `Nat` (C++ `int`; the code never creates negative ones), symbols (`tag`) are `Int`, weights are any
linear order `W` with a distinguished zero, `default_weight`: the functions modelled here only copy and compare
weights.
-/

namespace Verif.Fst

variable {W : Type}

/-- The transitions of one state: `std::multimap<int, std::pair<int, double>>`. -/
abbrev Row (W : Type) := List (Int × (Nat × W))

/-- Class `Transducer` (transducer.h:39-59). -/
structure Transducer (W : Type) where
  initial : Nat
  finals : List (Nat × W)
  transitions : List (Nat × Row W)
deriving Repr, DecidableEq

/-- The row of a state; empty when the state does not exist. -/
def row (t : Transducer W) (q : Nat) : Row W := (mapFind q t.transitions).getD []

/-- `transitions.find(q) != transitions.end()`. -/
def exists_ (t : Transducer W) (q : Nat) : Bool := (mapFind q t.transitions).isSome

/-- `Transducer::size` (transducer.cc:475-479). -/
def size (t : Transducer W) : Nat := t.transitions.length

/-- The search loop of `newState` (transducer.cc:35-38). Among `size`, ..., `2*size` one is free, so the fuel
suffices. -/
def freeFrom (m : List (Nat × Row W)) : (fuel nstate : Nat) → Nat
  | 0, n => n
  | fuel + 1, n => if (mapFind n m).isSome then freeFrom m fuel (n + 1) else n

/-- `Transducer::newState` (transducer.cc:30-42). -/
def newState (t : Transducer W) : Nat × Transducer W :=
  let nstate := freeFrom t.transitions t.transitions.length t.transitions.length
  (nstate, { t with transitions := mapSet nstate [] t.transitions })

/-- `Transducer::Transducer()` (transducer.cc:44-47). -/
def empty : Transducer W :=
  let (i, t) := newState { initial := 0, finals := [], transitions := [] }
  { t with initial := i }

/-- `transitions[source].insert({tag, {target, weight}})`. -/
def addArc (source : Nat) (tag : Int) (target : Nat) (weight : W) (t : Transducer W) : Transducer W :=
  { t with transitions := mapModify [] source (mmInsert tag (target, weight)) t.transitions }

/-- `equal_range(tag)` of a row, in order. -/
def equalRange (tag : Int) (r : Row W) : List (Nat × W) := (r.filter (fun e => e.1 = tag)).map (·.2)

/-- `Transducer::insertSingleTransduction` (transducer.cc:70-109); `none` is the return value -1. -/
def insertSingleTransduction (tag : Int) (source : Nat) (weight : W) (t : Transducer W) :
    Option Nat × Transducer W :=
  if exists_ t source then
    match equalRange tag (row t source) with
    | [(p, _)] => (some p, t)
    | [] =>
      let (state, t) := newState t
      (some state, addArc source tag state weight t)
    | [(p, _), (p', _)] =>
      if p ≠ source then (some p, t) else if p' ≠ source then (some p', t) else (none, t)
    | _ => (none, t)
  else (none, t)

/-- `Transducer::insertNewSingleTransduction` (transducer.cc:111-117). -/
def insertNewSingleTransduction (tag : Int) (source : Nat) (weight : W) (t : Transducer W) :
    Nat × Transducer W :=
  let (state, t) := newState t
  (state, addArc source tag state weight t)

/-- `Transducer::linkStates` (transducer.cc:150-176). -/
def linkStates (source target : Nat) (tag : Int) (weight : W) (t : Transducer W) : Res (Transducer W) :=
  if exists_ t source && exists_ t target then
    if (equalRange tag (row t source)).any (fun e => e.1 = target) then .ok t
    else .ok (addArc source tag target weight t)
  else .exit

/-- `Transducer::isFinal` (transducer.cc:178-182). -/
def isFinal (t : Transducer W) (q : Nat) : Bool := (mapFind q t.finals).isSome

/-- `Transducer::setFinal` (transducer.cc:184-202). -/
def setFinal (state : Nat) (weight : W) (value : Bool) (t : Transducer W) : Transducer W :=
  if value then { t with finals := mapInsert state weight t.finals }
  else { t with finals := mapErase state t.finals }

/-- The loop of `joinFinals` over the final states (transducer.cc:288-291). -/
def linkFinals (state : Nat) (ε : Int) : List (Nat × W) → Transducer W → Res (Transducer W)
  | [], t => .ok t
  | (q, w) :: fs, t => do
    let t ← linkStates q state ε w t
    linkFinals state ε fs t

section
variable [Zero W]

/-- `Transducer::joinFinals` (transducer.cc:281-301). -/
def joinFinals (ε : Int) (t : Transducer W) : Res (Transducer W) :=
  match t.finals with
  | [] => .exit
  | [_] => .ok t
  | fs => do
    let (state, t) := newState t
    let t ← linkFinals state ε fs t
    pure { t with finals := mapInsert state 0 [] }

/-- The common part of `optional` and `oneOrMore` (transducer.cc:409-417 and 424-432): join the final states, put
a new initial state in front and a new final state behind. Returns the new final state. `finals.begin()` is
the single final state left by `joinFinals`. -/
def wrap (ε : Int) (t : Transducer W) : Res (Nat × Transducer W) := do
  let t ← joinFinals ε t
  let (state, t) := newState t
  let t ← linkStates state t.initial ε 0 t
  let t := { t with initial := state }
  let (state, t) := newState t
  match t.finals with
  | [] => .ub
  | (f, w) :: _ =>
    let t ← linkStates f state ε w t
    pure (state, { t with finals := mapInsert state 0 [] })

/-- `Transducer::optional` (transducer.cc:406-419). -/
def optional (ε : Int) (t : Transducer W) : Res (Transducer W) := do
  let (state, t) ← wrap ε t
  linkStates t.initial state ε 0 t

/-- `Transducer::oneOrMore` (transducer.cc:421-434). -/
def oneOrMore (ε : Int) (t : Transducer W) : Res (Transducer W) := do
  let (state, t) ← wrap ε t
  linkStates state t.initial ε 0 t

/-- `Transducer::zeroOrMore` (transducer.cc:436-441). -/
def zeroOrMore (ε : Int) (t : Transducer W) : Res (Transducer W) := do
  let t ← oneOrMore ε t
  optional ε t

/-- The first loop of `insertTransducer` (transducer.cc:132-135): one new state for every state of the other
transducer; `relation` is a map. -/
def newStates : List Nat → List (Nat × Nat) → Transducer W → List (Nat × Nat) × Transducer W
  | [], rel, t => (rel, t)
  | k :: ks, rel, t =>
    let (n, t) := newState t
    newStates ks (mapSet k n rel) t

/-- `relation[k]`: a missing key would be created with value 0. -/
def relGet (rel : List (Nat × Nat)) (k : Nat) : Nat := (mapFind k rel).getD 0

/-- All arcs of a transition table, in iteration order. -/
def arcsOf (m : List (Nat × Row W)) : List (Nat × Int × Nat × W) :=
  m.flatMap (fun e => e.2.map (fun a => (e.1, a.1, a.2.1, a.2.2)))

/-- The second loop of `insertTransducer` (transducer.cc:137-143). -/
def copyArcs (rel : List (Nat × Nat)) (arcs : List (Nat × Int × Nat × W)) (t : Transducer W) : Transducer W :=
  arcs.foldl (fun t a => addArc (relGet rel a.1) a.2.1 (relGet rel a.2.2.1) a.2.2.2 t) t

/-- `Transducer::insertTransducer` (transducer.cc:119-148). The other transducer is changed too
(`joinFinals`); the result is the returned state, this transducer and the other one. -/
def insertTransducer (source : Nat) (o : Transducer W) (ε : Int) (t : Transducer W) :
    Res (Nat × Transducer W × Transducer W) :=
  if o.transitions.isEmpty then .ok (source, t, o)
  else do
    let o ← joinFinals ε o
    let (rel, t) := newStates (o.transitions.map (·.1)) [] t
    let t := copyArcs rel (arcsOf o.transitions) t
    let t := addArc source ε (relGet rel o.initial) 0 t
    match o.finals with
    | [] => .ub
    | (f, _) :: _ => pure (relGet rel f, t, o)

/-- `Transducer::unionWith` (transducer.cc:847-853). -/
def unionWith (o : Transducer W) (ε : Int) (t : Transducer W) : Res (Transducer W × Transducer W) := do
  let (f, t, o) ← insertTransducer t.initial o ε t
  pure ({ t with finals := mapInsert f 0 t.finals }, o)

/-- The loops of `appendDotStar` (transducer.cc:860-869). -/
def dotStarLoop (ε : Int) : List (Nat × W × Int) → Transducer W → Res (Transducer W)
  | [], t => .ok t
  | (f, w, s) :: rest, t =>
    if s ≠ ε then do
      let t ← linkStates f f s w t
      dotStarLoop ε rest t
    else dotStarLoop ε rest t

/-- `Transducer::appendDotStar` (transducer.cc:855-872). -/
def appendDotStar (loopback : List Int) (ε : Int) (t : Transducer W) : Res (Transducer W) :=
  dotStarLoop ε (t.finals.flatMap (fun e => loopback.map (fun s => (e.1, e.2, s)))) t

/-! ## Closures -/

/-- One turn of the loop of `closure` (transducer.cc:224-241): the successors by the given tags of the smallest
unvisited state are added. -/
def closureStep (t : Transducer W) (tags : List Int) (q : Nat) (nonvisited result : List Nat) :
    List Nat × List Nat :=
  let succs := tags.flatMap (fun tag => (equalRange tag (row t q)).map (·.1))
  succs.foldl (fun (nr : List Nat × List Nat) p =>
    if p ∈ nr.2 then nr else (setInsert p nr.1, setInsert p nr.2)) (nonvisited, result)

/-- The loop of `closure` (transducer.cc:224-241). -/
def closureLoop (t : Transducer W) (tags : List Int) : Nat → List Nat → List Nat → List Nat
  | 0, _, result => result
  | _ + 1, [], result => result
  | fuel + 1, q :: nonvisited, result =>
    let (nonvisited, result) := closureStep t tags q (q :: nonvisited) result
    closureLoop t tags fuel (nonvisited.filter (· ≠ q)) result

/-- Number of arcs, for the fuel below (`Transducer::numberOfTransitions`, transducer.cc:481-492). -/
def numberOfTransitions (t : Transducer W) : Nat := (t.transitions.map (fun e => e.2.length)).sum

/-- `Transducer::closure` (transducer.cc:210-244). Every turn removes one state from the unvisited ones and a
state enters them once, as the start or as a target of an arc. -/
def closure (t : Transducer W) (state : Nat) (tags : List Int) : List Nat :=
  closureLoop t tags (numberOfTransitions t + 2) [state] [state]

variable [DecidableEq W]

open Verif.SortedVec in
/-- First loop of `closure_all` (transducer.cc:254-265) for one state: the state and its direct weightless
epsilon successors. -/
def directClosure (t : Transducer W) (ε : Int) (i : Nat) : List Nat :=
  (equalRange ε (row t i)).foldl
    (fun c e => if e.2 ≠ 0 then c else (SortedVec.insert e.1 c).1) (SortedVec.insert i []).1

/-- `reversed[p]` of `closure_all` (transducer.cc:261) after its first loop. -/
def reversedOf (t : Transducer W) (ε : Int) (p : Nat) : List Nat :=
  (List.range t.transitions.length).flatMap (fun i =>
    (equalRange ε (row t i)).filterMap (fun e => if e.2 ≠ 0 then none else if e.1 = p then some i else none))

/-- Inner loop of `closure_all` (transducer.cc:270-272): insert into `ret[it]` the sets of all members of the
copy `temp`. `ret` may alias itself when `it2 = it`, which is harmless. -/
def absorb (it : Nat) : List Nat → List (List Nat) → List (List Nat)
  | [], ret => ret
  | it2 :: rest, ret =>
    absorb it rest (ret.set it (SortedVec.insertRange (ret.getD it2 []) (ret.getD it [])))

/-- One round of `closure_all` (transducer.cc:267-276): returns `ret` and `new_todo`. -/
def closureRound (t : Transducer W) (ε : Int) : List Nat → List (List Nat) → List Nat → List (List Nat) × List Nat
  | [], ret, newTodo => (ret, newTodo)
  | it :: todo, ret, newTodo =>
    let temp := ret.getD it []
    let ret := absorb it temp ret
    let newTodo := if (ret.getD it []).length > temp.length
      then SortedVec.insertRange (reversedOf t ε it) newTodo else newTodo
    closureRound t ε todo ret newTodo

/-- The `while` loop of `closure_all` (transducer.cc:266-277). -/
def closureRounds (t : Transducer W) (ε : Int) : Nat → List Nat → List (List Nat) → List (List Nat)
  | 0, _, ret => ret
  | _ + 1, [], ret => ret
  | fuel + 1, todo, ret =>
    let (ret, todo) := closureRound t ε todo ret []
    closureRounds t ε fuel todo ret

/-- Every arc ends in 0..n-1 where n is the number of states. -/
def targetsInRange (t : Transducer W) : Bool :=
  (arcsOf t.transitions).all (fun a => decide (a.2.2.1 < t.transitions.length))

/-- `Transducer::closure_all` (transducer.cc:246-279) for a transducer whose states are 0..n-1 (otherwise
`transitions.at(i)` throws). A target that is not a state is an access outside `reversed`; the model reports it
for every arc, the code only for weightless epsilon arcs. Every round but the last enlarges one of n sets of
at most n elements, so the fuel suffices. -/
def closureAll (t : Transducer W) (ε : Int) : Res (List (List Nat)) :=
  let n := t.transitions.length
  if (List.range n).all (exists_ t) then
    if targetsInRange t then
      let ret := (List.range n).map (directClosure t ε)
      let todo := (List.range n).foldl
        (fun td i => if (ret.getD i []).length > 1 then (SortedVec.insert i td).1 else td) []
      .ok (closureRounds t ε (n * n + 2) todo ret)
    else .ub
  else .exception

/-! ## Reversal -/

/-- The inner loop of `reverse` (transducer.cc:694-704): `aux` is the old row of `q`. -/
def reverseArcs (q : Nat) : Row W → List (Nat × Row W) → List (Nat × Row W) →
    List (Nat × Row W) × List (Nat × Row W)
  | [], rows, tmp => (rows, tmp)
  | (a, (p, w)) :: aux, rows, tmp =>
    if p ≥ q then reverseArcs q aux (mapModify [] p (mmInsert a (q, w)) rows) tmp
    else reverseArcs q aux rows (mapModify [] p (mmInsert a (q, w)) tmp)

/-- The outer loop of `reverse` (transducer.cc:690-710) over the states from last to first. The states are those
present at the start: no arc leads to a state that does not exist. -/
def reverseLoop : List Nat → List (Nat × Row W) → List (Nat × Row W) → List (Nat × Row W) × List (Nat × Row W)
  | [], rows, tmp => (rows, tmp)
  | q :: qs, rows, tmp =>
    let aux := (mapFind q rows).getD []
    let rows := mapModify [] q (fun _ => []) rows
    let (rows, tmp) := reverseArcs q aux rows tmp
    match mapFind q tmp with
    | none => reverseLoop qs rows tmp
    | some r =>
      let rows := mapModify [] q (fun row => r.foldl (fun row e => mmInsert e.1 e.2 row) row) rows
      reverseLoop qs rows (mapErase q tmp)

/-- The last loop of `reverse` (transducer.cc:712-720). -/
def reverseRest (tmp rows : List (Nat × Row W)) : List (Nat × Row W) :=
  tmp.reverse.foldl (fun rows e => e.2.foldl (fun rows a => mapModify [] e.1 (mmInsert a.1 a.2) rows) rows) rows

/-- `Transducer::reverse` (transducer.cc:683-726). -/
def reverse (ε : Int) (t : Transducer W) : Res (Transducer W) := do
  let t ← joinFinals ε t
  let (rows, tmp) := reverseLoop (t.transitions.map (·.1)).reverse t.transitions []
  let rows := reverseRest tmp rows
  match t.finals with
  | [] => .ub
  | (f, _) :: _ => pure { initial := f, finals := mapInsert t.initial 0 [], transitions := rows }

end

/-! ## Determinisation -/

section
variable [LinearOrder W] [Zero W]

/-- The working variables of `determinize`: `Q` is `Q_prime` (`Q_prime_inv` is its inverse and is not kept
separately), `tr` is `transitions_prime`, `fin` is `finals_prime`, `next` is `R[(t+1)%2]`. -/
structure Det (W : Type) where
  Q : List (List Nat)
  tr : List (Nat × Row W)
  fin : List (Nat × W)
  next : List Nat

/-- The map `mymap` of `determinize` (transducer.cc:350-362): labels of the subset `S` with the union of the
closures of their targets. Its keys, pairs of symbol and weight, are ordered lexicographically. -/
def moves (t : Transducer W) (ε : Int) (cl : List (List Nat)) (S : List Nat) : List ((Int ×ₗ W) × List Nat) :=
  (S.flatMap (row t)).foldl (fun m a =>
    if a.1 ≠ ε ∨ a.2.2 ≠ 0 then
      mapModify [] (toLex (a.1, a.2.2)) (SortedVec.insertRange (cl.getD a.2.1 [])) m
    else m) []

/-- "adding new states" of `determinize` (transducer.cc:366-381). -/
def detArcs (q : Nat) : List ((Int ×ₗ W) × List Nat) → Det W → Det W
  | [], s => s
  | (l, S) :: rest, s =>
    if S ∈ s.Q then
      detArcs q rest
        { s with tr := mapModify [] q (mmInsert (ofLex l).1 (s.Q.idxOf S, (ofLex l).2)) s.tr }
    else
      let tag := s.Q.length
      detArcs q rest
        { s with
          Q := s.Q ++ [S]
          next := (SortedVec.insert tag s.next).1
          tr := mapModify [] q (mmInsert (ofLex l).1 (tag, (ofLex l).2)) (mapSet tag [] s.tr) }

/-- The body of the loop of `determinize` over `R[t]` (transducer.cc:339-382). The final weight is looked up with
the index of the subset, as in the code. -/
def detState (t : Transducer W) (ε : Int) (cl : List (List Nat)) (finStates : List Nat) (s : Det W) (q : Nat) :
    Det W :=
  let S := s.Q.getD q []
  let s := if SortedVec.intersects S finStates
    then { s with fin := mapInsert q ((mapFind q t.finals).getD 0) s.fin } else s
  detArcs q (moves t ε cl S) { s with tr := mapModify [] q id s.tr }

/-- The `while` loop of `determinize` (transducer.cc:334-386). Every round but the last adds a subset, so
`2^n + 2` rounds suffice. -/
def detLoop (t : Transducer W) (ε : Int) (cl : List (List Nat)) (finStates : List Nat) :
    (fuel sizeQ : Nat) → (R : List Nat) → Det W → Det W
  | 0, _, _, s => s
  | fuel + 1, sizeQ, R, s =>
    if sizeQ = s.Q.length then s
    else
      let s' := R.foldl (detState t ε cl finStates) { s with next := [] }
      detLoop t ε cl finStates fuel s.Q.length s'.next s'

/-- `Transducer::determinize` (transducer.cc:303-393). An initial state that does not exist is an access outside
`all_closures`. -/
def determinize (ε : Int) (t : Transducer W) : Res (Transducer W) := do
  let cl ← closureAll t ε
  if t.initial < t.transitions.length then
    let fin := if isFinal t t.initial then [(0, 0)] else []
    let finStates := t.finals.foldl (fun fs e => (SortedVec.insert e.1 fs).1) []
    let s := detLoop t ε cl finStates (2 ^ t.transitions.length + 2) 0 [0]
      { Q := [cl.getD t.initial []], tr := [], fin := fin, next := [] }
    pure { initial := 0, finals := s.fin, transitions := s.tr }
  else .ub

/-- `Transducer::minimize` (transducer.cc:396-404). -/
def minimize (ε : Int) (t : Transducer W) : Res (Transducer W) :=
  if t.finals.isEmpty then .ok t
  else do
    let t ← reverse ε t
    let t ← determinize ε t
    let t ← reverse ε t
    determinize ε t

end

end Verif.Fst
