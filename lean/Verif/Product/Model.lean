import Verif.Alphabet.Model
import Verif.Transducer.Model
import Mathlib.Data.Prod.Lex

/-!
# Model of `Transducer::compose` and `Transducer::trim` (`lttoolbox/transducer.cc`)

Both walk over pairs of states of two transducers with a stack, a set of the pairs that were taken from the stack and a map from
pairs to states of the result. Using up the turns of the loop is shown as undefined; the theorems show that it does not happen.
-/

namespace Verif.Product

open Verif.Fst

/-- The local variables of the two functions: `todo` with its last element first, `seen`, the map from pairs to states
(`states_f_g_gf` or `states_this_trimmed`), and the result (`gf` or `trimmed`). -/
structure Search (S W : Type) where
  todo : List S
  seen : List S
  ids : List (S × Nat)
  t : Transducer W

section
variable {S W : Type} [LinearOrder S]

/-- `if (seen.find(next) == seen.end()) { todo.push_back(next); }` -/
def schedule (next : S) (s : Search S W) : Search S W := if next ∈ s.seen then s else { s with todo := next :: s.todo }

/-- `ids.insert({next, t.newState()})` -/
def newId (next : S) (s : Search S W) : Search S W :=
  { s with ids := mapInsert next (newState s.t).1 s.ids, t := (newState s.t).2 }

/-- `if (ids.find(next) == ids.end()) { ids.insert({next, t.newState()}); }` -/
def allot (next : S) (s : Search S W) : Search S W := if (mapFind next s.ids).isSome then s else newId next s

/-- `ids[next]`; the callers have made sure that the key is there. -/
def idOf (next : S) (s : Search S W) : Nat := (mapFind next s.ids).getD 0

/-- `t.linkStates(src, ids[next], label, w)` -/
def link (src : Nat) (next : S) (label : Int) (w : W) (s : Search S W) : Res (Search S W) := do
  let t ← linkStates src (idOf next s) label w s.t
  pure { s with t }

/-- The usual way to add an arc, as in transducer.cc:1449-1459, 1502-1514, 1519-1531 and 1535-1547, and 1134-1149. -/
def visit (src : Nat) (next : S) (label : Int) (w : W) (s : Search S W) : Res (Search S W) :=
  link src next label w (allot next (schedule next s))

end

/-! ## Composition -/

section
variable {W : Type}

/-- `Transducer::composeLabel` (transducer.h:454-471): the label and the changed alphabet. -/
def composeLabel (fa ga : Alphabet) (fInput gRight : Int) (inverted : Bool) : Res (Int × Alphabet) := do
  if gRight ≥ 0 then pure (if inverted then fa.pairCode gRight fInput else fa.pairCode fInput gRight)
  else
    let s ← ga.getSymbol gRight
    pure (if inverted then fa.pairCode (fa.symCode s) fInput else fa.pairCode fInput (fa.symCode s))

/-- `SearchState` of `compose` (transducer.cc:1417). -/
abbrev Two := Nat ×ₗ Nat

def two (f g : Nat) : Two := toLex (f, g)

/-- The loop over the arcs of `g` with empty input (transducer.cc:1441-1466). -/
def composeEps (ga : Alphabet) (inverted : Bool) (fSrc gfSrc : Nat) : Row W → Alphabet × Search Two W → Res (Alphabet × Search Two W)
  | [], x => .ok x
  | (gLabel, gTrg, gWt) :: arcs, (fa, s) => do
    let p ← ga.decode gLabel
    if p.1 = 0 then
      let (label, fa) ← composeLabel fa ga 0 p.2 inverted
      let s ← visit gfSrc (two fSrc gTrg) label gWt s
      composeEps ga inverted fSrc gfSrc arcs (fa, s)
    else composeEps ga inverted fSrc gfSrc arcs (fa, s)

/-- The loop over the other arcs of `g` (transducer.cc:1487-1516) for one arc of `f`. -/
def composeMatch [Add W] (ga : Alphabet) (inverted : Bool) (gfSrc : Nat) (fInput fOutput : Int) (fTrg : Nat) (fWt : W) :
    Row W → Alphabet × Search Two W → Res (Alphabet × Search Two W)
  | [], x => .ok x
  | (gLabel, gTrg, gWt) :: arcs, (fa, s) => do
    let p ← ga.decode gLabel
    let same ← if p.1 ≠ 0 then fa.sameSymbol fOutput ga p.1 true else pure false
    if same then
      let (label, fa) ← composeLabel fa ga fInput p.2 inverted
      let s ← visit gfSrc (two fTrg gTrg) label (fWt + gWt) s
      composeMatch ga inverted gfSrc fInput fOutput fTrg fWt arcs (fa, s)
    else composeMatch ga inverted gfSrc fInput fOutput fTrg fWt arcs (fa, s)

/-- The loop over the arcs of `f` (transducer.cc:1470-1549). -/
def composeArcs [Add W] (g : Transducer W) (ga : Alphabet) (inverted anywhere : Bool) (gSrc gfSrc : Nat) :
    Row W → Alphabet × Search Two W → Res (Alphabet × Search Two W)
  | [], x => .ok x
  | (fLabel, fTrg, fWt) :: arcs, (fa, s) => do
    let p ← fa.decode fLabel
    let fInput := if inverted then p.2 else p.1
    let fOutput := if inverted then p.1 else p.2
    let (fa, s) ← composeMatch ga inverted gfSrc fInput fOutput fTrg fWt (row g gSrc) (fa, s)
    let s ← if anywhere ∧ gSrc = g.initial then visit gfSrc (two fTrg gSrc) fLabel fWt s else pure s
    let s ← if fOutput = 0 then visit gfSrc (two fTrg gSrc) fLabel fWt s else pure s
    composeArcs g ga inverted anywhere gSrc gfSrc arcs (fa, s)

/-- One turn of the loop of `compose` (transducer.cc:1429-1549). -/
def composeTurn [Add W] (f g : Transducer W) (ga : Alphabet) (inverted anywhere : Bool) (current : Two) (fa : Alphabet) (s : Search Two W) :
    Res (Alphabet × Search Two W) :=
  let s := { s with seen := setInsert current s.seen }
  match mapFind current s.ids with
  | none => .exit
  | some gfSrc => do
    let x ← composeEps ga inverted (ofLex current).1 gfSrc (row g (ofLex current).2) (fa, s)
    composeArcs g ga inverted anywhere (ofLex current).2 gfSrc (row f (ofLex current).1) x

/-- The loop of `compose` (transducer.cc:1429-1550). -/
def composeLoop [Add W] (f g : Transducer W) (ga : Alphabet) (inverted anywhere : Bool) :
    (turns : Nat) → Alphabet → Search Two W → Res (Alphabet × Search Two W)
  | turns, fa, s =>
    match s.todo with
    | [] => .ok (fa, s)
    | current :: todo =>
      match turns with
      | 0 => .ub
      | turns + 1 => do
        let (fa, s) ← composeTurn f g ga inverted anywhere current fa { s with todo }
        composeLoop f g ga inverted anywhere turns fa s

/-- The loop that sets the final states (transducer.cc:1552-1565). -/
def composeFinals [Add W] [Zero W] (f g : Transducer W) (anywhere : Bool) : List (Two × Nat) → Transducer W → Transducer W
  | [], t => t
  | (n, i) :: ids, t =>
    composeFinals f g anywhere ids <|
      match mapFind (ofLex n).1 f.finals, mapFind (ofLex n).2 g.finals with
      | some w, some v => setFinal i (w + v) true t
      | some w, none => if anywhere ∧ g.initial = (ofLex n).2 then setFinal i (w + 0) true t else t
      | none, _ => t

/-- A bound on the number of turns. -/
def composeTurns (f g : Transducer W) : Nat :=
  let m := numberOfTransitions f; let n := numberOfTransitions g
  size f * size g * (n + m * (n + 2)) + 2

/-- `Transducer::compose` (transducer.cc:1374-1571): the alphabet `f_a` afterwards and the result. -/
def compose [Add W] [Zero W] (f g : Transducer W) (fa ga : Alphabet) (inverted anywhere : Bool) (ε : Int) : Res (Alphabet × Transducer W) := do
  let f ← joinFinals ε f
  let (fa, s) ← composeLoop f g ga inverted anywhere (composeTurns f g) fa
    { todo := [two f.initial g.initial], seen := [], ids := [(two f.initial g.initial, (empty : Transducer W).initial)], t := empty }
  pure (fa, composeFinals f g anywhere s.ids s.t)

end

/-! ## Trimming -/

section
variable {W : Type}

/-- `SearchState` of `trim` (transducer.cc:1056). -/
abbrev Three := Nat ×ₗ (Nat ×ₗ Nat)

def three (this trimmer preplus : Nat) : Three := toLex (this, toLex (trimmer, preplus))

/-- The texts of the tags with a meaning (transducer.h:99-104). -/
def LSX : UString := [0x3c, 0x24, 0x3e]
def LSX_SPACE : UString := [0x3c, 0x24, 0x5f, 0x3e]
def LSX_NO_SPACE : UString := [0x3c, 0x24, 0x2d, 0x3e]
def COMPOUND_ONLY_L : UString := [0x3c, 0x63, 0x6f, 0x6d, 0x70, 0x6f, 0x75, 0x6e, 0x64, 0x2d, 0x6f, 0x6e, 0x6c, 0x79, 0x2d, 0x4c, 0x3e]
def COMPOUND_R : UString := [0x3c, 0x63, 0x6f, 0x6d, 0x70, 0x6f, 0x75, 0x6e, 0x64, 0x2d, 0x52, 0x3e]

/-- The numbers of the tags among `texts` that are defined. -/
def definedTags (a : Alphabet) (texts : List UString) : List Int :=
  (texts.filter fun s => a.isSymbolDefined s).map fun s => a.symCodeConst s

/-- `sym_lsx`, `sym_wb` and `sym_cmp_or_eps` (transducer.cc:1074-1091) as lists; only membership matters. -/
def symLsx (a : Alphabet) : List Int := definedTags a [LSX, LSX_SPACE, LSX_NO_SPACE]
def symWb (a : Alphabet) : List Int := 0x2b :: symLsx a
def symCmpOrEps (a : Alphabet) : List Int := 0 :: definedTags a [COMPOUND_ONLY_L, COMPOUND_R]

/-- The loop over the arcs of the trimmer with empty left side (transducer.cc:1109-1136); it returns `trimmer_preplus_next`. A new
state is made whenever the target was not taken from the stack yet, also if there is a state for it already. -/
def trimEps (trimmerA : Alphabet) (ε : Int) (thisSrc trimmerSrc preplus trimmedSrc : Nat) :
    Row W → (next : Nat) → Search Three W → Res (Nat × Search Three W)
  | [], next, s => .ok (next, s)
  | (label, trg, wt) :: arcs, next, s => do
    let p ← trimmerA.decode label
    let next := if preplus = trimmerSrc then trg else next
    if p.1 = 0 then
      let n := three thisSrc trg next
      let s := if n ∈ s.seen then s else newId n { s with todo := n :: s.todo }
      let s ← link trimmedSrc n ε wt s
      trimEps trimmerA ε thisSrc trimmerSrc preplus trimmedSrc arcs next s
    else trimEps trimmerA ε thisSrc trimmerSrc preplus trimmedSrc arcs next s

/-- The loop over the other arcs of the trimmer (transducer.cc:1212-1242) for one arc of this transducer. -/
def trimMatch (thisA trimmerA : Alphabet) (trimmerSrc preplus trimmedSrc : Nat) (thisRight thisLabel : Int) (thisTrg : Nat) (thisWt : W) :
    Row W → (next : Nat) → Search Three W → Res (Nat × Search Three W)
  | [], next, s => .ok (next, s)
  | (label, trg, _) :: arcs, next, s => do
    let p ← trimmerA.decode label
    let next := if preplus = trimmerSrc then trg else next
    let same ← if p.1 ≠ 0 then thisA.sameSymbol thisRight trimmerA p.1 true else pure false
    if same then
      let s ← visit trimmedSrc (three thisTrg trg next) thisLabel thisWt s
      trimMatch thisA trimmerA trimmerSrc preplus trimmedSrc thisRight thisLabel thisTrg thisWt arcs next s
    else trimMatch thisA trimmerA trimmerSrc preplus trimmedSrc thisRight thisLabel thisTrg thisWt arcs next s

/-- What happens to symbols with a meaning: joins, groups, compounds and the empty symbol (transducer.cc:1146-1197). The first result
tells whether the other arcs of the trimmer are skipped, the second is `trimmer_preplus_next`. -/
def trimSpecial [Zero W] (t trimmer : Transducer W) (thisA : Alphabet) (preplus trimmedSrc trimmerSrc next : Nat) (right label : Int)
    (trg : Nat) (wt : W) (s : Search Three W) : Res (Bool × Nat × Search Three W) :=
  if right ∈ symWb thisA then do
    let next := if preplus = trimmerSrc then trimmerSrc else next
    let n := three trg trimmer.initial next
    let s ← visit trimmedSrc n label wt s
    let s := if right ∈ symLsx thisA ∧ isFinal t trg then { s with t := setFinal (idOf n s) 0 true s.t } else s
    pure (decide (right ≠ 0x2b), next, s)
  else if right ∈ symCmpOrEps thisA then do
    let next := if preplus = trimmerSrc then trimmerSrc else next
    let s ← visit trimmedSrc (three trg trimmerSrc next) label wt s
    pure (true, next, s)
  else pure (false, next, s)

/-- The loop over the arcs of this transducer (transducer.cc:1140-1243). `trimmer_src` and `trimmer_preplus_next` keep their values
from one arc to the next. -/
def trimArcs [Zero W] (t trimmer : Transducer W) (thisA trimmerA : Alphabet) (thisSrc preplus trimmedSrc : Nat) :
    Row W → (trimmerSrc next : Nat) → Search Three W → Res (Search Three W)
  | [], _, _, s => .ok s
  | (label, trg, wt) :: arcs, trimmerSrc, next, s => do
    let p ← thisA.decode label
    let right := p.2
    let (special, next, s) ← trimSpecial t trimmer thisA preplus trimmedSrc trimmerSrc next right label trg wt s
    if special then trimArcs t trimmer thisA trimmerA thisSrc preplus trimmedSrc arcs trimmerSrc next s
    else do
      let back : Bool := right = 0x23 ∧ preplus ≠ trimmerSrc
      let s := if back then { s with ids := mapInsert (three thisSrc preplus preplus) trimmedSrc s.ids } else s
      let trimmerSrc := if back then preplus else trimmerSrc
      if exists_ trimmer trimmerSrc then
        let (next, s) ← trimMatch thisA trimmerA trimmerSrc preplus trimmedSrc right label trg wt (row trimmer trimmerSrc) next s
        trimArcs t trimmer thisA trimmerA thisSrc preplus trimmedSrc arcs trimmerSrc next s
      else .exception

/-- One turn of the loop of `trim` (transducer.cc:1093-1243). -/
def trimTurn [Zero W] (t trimmer : Transducer W) (thisA trimmerA : Alphabet) (ε : Int) (current : Three) (s : Search Three W) :
    Res (Search Three W) :=
  let thisSrc := (ofLex current).1
  let trimmerSrc := (ofLex (ofLex current).2).1
  let preplus := (ofLex (ofLex current).2).2
  let s := { s with seen := setInsert current s.seen }
  match mapFind current s.ids with
  | none => .exit
  | some trimmedSrc => do
    let (next, s) ← trimEps trimmerA ε thisSrc trimmerSrc preplus trimmedSrc (row trimmer trimmerSrc) preplus s
    trimArcs t trimmer thisA trimmerA thisSrc preplus trimmedSrc (row t thisSrc) trimmerSrc next s

/-- The loop of `trim` (transducer.cc:1093-1244). -/
def trimLoop [Zero W] (t trimmer : Transducer W) (thisA trimmerA : Alphabet) (ε : Int) : (turns : Nat) → Search Three W → Res (Search Three W)
  | turns, s =>
    match s.todo with
    | [] => .ok s
    | current :: todo =>
      match turns with
      | 0 => .ub
      | turns + 1 => do trimLoop t trimmer thisA trimmerA ε turns (← trimTurn t trimmer thisA trimmerA ε current { s with todo })

/-- The loop that sets the final states (transducer.cc:1246-1255). -/
def trimFinals (t trimmer : Transducer W) : List (Three × Nat) → Transducer W → Transducer W
  | [], r => r
  | (n, i) :: ids, r =>
    trimFinals t trimmer ids <|
      match mapFind (ofLex n).1 t.finals with
      | some w => if isFinal trimmer (ofLex (ofLex n).2).1 then setFinal i w true r else r
      | none => r

/-- A bound on the number of turns. -/
def trimTurns (t trimmer : Transducer W) : Nat :=
  let m := numberOfTransitions t; let n := numberOfTransitions trimmer
  size t * size trimmer * size trimmer * (n + m * (n + 2)) + 2

/-- `Transducer::trim` (transducer.cc:1042-1260). -/
def trim [Zero W] (t trimmer : Transducer W) (thisA trimmerA : Alphabet) (ε : Int) : Res (Transducer W) := do
  let t ← joinFinals ε t
  let start := three t.initial trimmer.initial trimmer.initial
  let s ← trimLoop t trimmer thisA trimmerA ε (trimTurns t trimmer) { todo := [start], seen := [], ids := [(start, (empty : Transducer W).initial)], t := empty }
  pure (trimFinals t trimmer s.ids s.t)

end

end Verif.Product
