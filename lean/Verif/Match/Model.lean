import Verif.SortedVec.Model
import Verif.Transducer.Model

/-!
# Model of `lttoolbox/match_state.cc`, `match_exe.cc` and `match_node.cc`: matching patterns

A node is its number; its transitions are the sorted table of `Verif/SortedVec/Model.lean`. The alive nodes are in a
circular array of 1024 places; a place that was never written is `none`, reading it is `ub`. The copy constructor of
`MatchState`, which tests an uninitialised pointer, is not modelled.
-/

namespace Verif.Match

open Verif.Fst Verif.SortedVec

/-- `MatchState::BUF_LIMIT` (match_state.cc:23). -/
def bufLimit : Nat := 1024

/-- `MatchState` (match_state.h:34-38). -/
structure MatchState where
  state : List (Option Nat)
  first : Nat
  last : Nat
deriving DecidableEq

/-- The constructor (match_state.cc:25-29). -/
def MatchState.new : MatchState := { state := List.replicate bufLimit none, first := 0, last := 0 }

/-- `MatchState::size` (match_state.cc:76-80). -/
def MatchState.size (s : MatchState) : Nat := if s.last ≥ s.first then s.last - s.first else s.last + bufLimit - s.first

/-- `MatchState::init` (match_state.cc:82-88). -/
def MatchState.init (initial : Nat) (s : MatchState) : MatchState := { state := s.state.set 0 (some initial), first := 0, last := 1 }

/-- `MatchState::clear` (match_state.cc:149-153). -/
def MatchState.clear (s : MatchState) : MatchState := { s with first := 0, last := 0 }

/-- `MatchState::applySymbol` (match_state.cc:90-99). -/
def applySymbol (nodes : Nat → Table Nat) (pnode : Nat) (symbol : Int) (s : MatchState) : Res MatchState := do
  match ← search (nodes pnode) symbol with
  | some aux => pure { s with state := s.state.set s.last (some aux), last := (s.last + 1) % bufLimit }
  | none => pure s

/-- The body of the loop of `step`: `state[i]` is read for every symbol (match_state.cc:106, 118-119). -/
def applySymbols (nodes : Nat → Table Nat) (i : Nat) : List Int → MatchState → Res MatchState
  | [], s => .ok s
  | x :: xs, s =>
    match s.state[i]? with
    | some (some p) => do
      let s ← applySymbol nodes p x s
      applySymbols nodes i xs s
    | _ => .ub

/-- The loop of `step` (match_state.cc:104-107, 116-120). The fuel bounds the number of turns. -/
def stepLoop (nodes : Nat → Table Nat) (syms : List Int) (mylast : Nat) : (fuel i : Nat) → MatchState → Res MatchState
  | fuel, i, s =>
    if i = mylast then .ok s
    else match fuel with
      | 0 => .ub
      | fuel + 1 => do
        let s ← applySymbols nodes i syms s
        stepLoop nodes syms mylast fuel ((i + 1) % bufLimit) s

/-- `MatchState::step(int)` for `[input]` and `MatchState::step(int, int)` for `[input, alt]` (match_state.cc:101-122). -/
def stepWith (nodes : Nat → Table Nat) (syms : List Int) (s : MatchState) : Res MatchState := do
  let s' ← stepLoop nodes syms s.last bufLimit s.first s
  pure { s' with first := s.last }

/-- `MatchState::step(int)` (match_state.cc:101-110). -/
def step (nodes : Nat → Table Nat) (input : Int) (s : MatchState) : Res MatchState := stepWith nodes [input] s

/-- `MatchState::step(int, int)` (match_state.cc:112-122). -/
def stepAlt (nodes : Nat → Table Nat) (input alt : Int) (s : MatchState) : Res MatchState := stepWith nodes [input, alt] s

/-- `INT_MAX`. -/
def intMax : Int := 2147483647

/-- The loop of `classifyFinals` (match_state.cc:134-145). -/
def classifyLoop (finals : List (Nat × Int)) (banned : List Int) (s : MatchState) : (fuel i : Nat) → (result : Int) → Res Int
  | fuel, i, result =>
    if i = s.last then .ok result
    else match fuel with
      | 0 => .ub
      | fuel + 1 =>
        match s.state[i]? with
        | some (some p) =>
          let result := match mapFind p finals with
            | some r => if r < result ∧ r ∉ banned then r else result
            | none => result
          classifyLoop finals banned s fuel ((i + 1) % bufLimit) result
        | _ => .ub

/-- `MatchState::classifyFinals` (match_state.cc:124-147). -/
def classifyFinals (finals : List (Nat × Int)) (banned : List Int) (s : MatchState) : Res Int := do
  let result ← classifyLoop finals banned s bufLimit s.first intMax
  pure (if result < intMax then result else -1)

/-! ## `MatchExe` -/

/-- `MatchExe` (match_exe.h:33-49): nodes by number, rule numbers of the final nodes, initial node. -/
structure MatchExe where
  nodes : List (Table Nat)
  finals : List (Nat × Int)
  initial : Nat

variable {W : Type}

/-- One node: the row in order, each transition at the next position (match_exe.cc:60-69, match_node.cc:57-62). -/
def nodeOf (r : Row W) : Table Nat := r.map fun e => (e.1, e.2.1)

/-- Fills the nodes (match_exe.cc:60-70): `node_list[it->first]` must exist. -/
def fillNodes (n : Nat) : List (Nat × Row W) → List (Table Nat) → Res (List (Table Nat))
  | [], nodes => .ok nodes
  | (q, r) :: rest, nodes =>
    if q < n ∧ r.all (fun e => e.2.1 < n) then fillNodes n rest (nodes.set q (nodeOf r)) else .ub

/-- `MatchExe::MatchExe(Transducer, map)` (match_exe.cc:37-71). A number outside the list of nodes is `ub`. The tables
that are not filled have uninitialised contents; with the numbers `0, 1, …` for states all are filled, otherwise one is
out of range. -/
def MatchExe.make (t : Transducer W) (finalType : List (Nat × Int)) : Res MatchExe :=
  let n := t.transitions.length
  if finalType.all (fun f => f.1 < n) then do
    let nodes ← fillNodes n t.transitions (List.replicate n [])
    pure { nodes := nodes, finals := finalType, initial := t.initial }
  else .ub

/-- The table of a node. -/
def MatchExe.table (m : MatchExe) (q : Nat) : Table Nat := m.nodes.getD q []

end Verif.Match
