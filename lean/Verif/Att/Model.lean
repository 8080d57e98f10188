import Verif.Att.Number
import Verif.Alphabet.Model
import Verif.Transducer.Model

/-!
# Model of `class AttCompiler` (`lttoolbox/att_compiler.cc`)

Files are given as their UTF-16 text. Weights are any type `W`; `fast_stod` is a setting, because its values are rounded. The numbers
that name states are `int`: overflow is shown as undefined.
-/

namespace Verif.Att

open Verif.Fst

/-- ICU's character tables, as far as they are used. -/
structure Chars where
  isPunct : Nat → Bool
  isSpace : Nat → Bool
  isLower : Nat → Bool
  isUpper : Nat → Bool
  toUpper : Nat → Nat
  toLower : Nat → Nat

/-- What a run depends on: the argument `read_rl`, the members `hfstSymbols` and `splitting`, ICU's tables, and `fast_stod`
(att_compiler.cc:162-189), where `none` stands for the exception. -/
structure Setting (W : Type) where
  readRl : Bool
  hfstSymbols : Bool
  splitting : Bool
  chars : Chars
  stod : UString → Option W

/-- `struct Transduction` (att_compiler.h:114-126) without the two texts, which are never read. -/
structure Arc (W : Type) where
  dst : Int
  tag : Int
  weight : W
  type : Nat := 0
  deriving DecidableEq

/-- `std::map<int, AttNode*> graph`: the transductions of every node. -/
abbrev Graph (W : Type) := List (Int × List (Arc W))

/-- The data members of `class AttCompiler` (att_compiler.h:96-150) that a run changes. `phantom_count` does not overflow here. -/
structure Compiler (W : Type) where
  finals : List (Int × W) := []
  start : Int := 0
  phantoms : Nat := 0
  alphabet : Alphabet := .empty
  letters : List UInt16 := []
  graph : Graph W := []

section
variable {W : Type}

/-- The transductions of a node. -/
def arcsAt (g : Graph W) (q : Int) : List (Arc W) := (mapFind q g).getD []

/-- `get_node(id)` (att_compiler.h:159-173): a missing node is created. -/
def touch (q : Int) (x : Compiler W) : Compiler W := { x with graph := mapInsert q [] x.graph }

/-- `get_node(q)->transductions.push_back(t)` -/
def pushArc (q : Int) (t : Arc W) (x : Compiler W) : Compiler W := { x with graph := mapModify [] q (· ++ [t]) x.graph }

/-- The texts of the special symbols (transducer.h:90-94). -/
def HFST_EPSILON_SYMBOL_SHORT : UString := [0x40, 0x30, 0x40]
def HFST_EPSILON_SYMBOL_LONG : UString :=
  [0x40, 0x5f, 0x45, 0x50, 0x53, 0x49, 0x4c, 0x4f, 0x4e, 0x5f, 0x53, 0x59, 0x4d, 0x42, 0x4f, 0x4c, 0x5f, 0x40]
def LTTB_EPSILON_SYMBOL : UString := [0x3b5]
def HFST_SPACE_SYMBOL : UString := [0x40, 0x5f, 0x53, 0x50, 0x41, 0x43, 0x45, 0x5f, 0x40]
def HFST_TAB_SYMBOL : UString := [0x40, 0x5f, 0x54, 0x41, 0x42, 0x5f, 0x40]

/-- `AttCompiler::convert_hfst` (att_compiler.cc:55-67). -/
def convertHfst (hfst : Bool) (symbol : UString) : UString :=
  if symbol = HFST_EPSILON_SYMBOL_SHORT ∨ symbol = HFST_EPSILON_SYMBOL_LONG ∨ (hfst = false ∧ symbol = LTTB_EPSILON_SYMBOL) then []
  else if symbol = HFST_SPACE_SYMBOL then [0x20]
  else if symbol = HFST_TAB_SYMBOL then [0x09]
  else symbol

/-- `AttCompiler::is_word_punct` (att_compiler.cc:69-85). -/
def isWordPunct (c : Nat) : Bool :=
  (0x0300 ≤ c && c ≤ 0x036F) || (0x1AB0 ≤ c && c ≤ 0x1AFF) || (0x1DC0 ≤ c && c ≤ 0x1DFF) || (0x20D0 ≤ c && c ≤ 0x20FF) ||
    (0xFE20 ≤ c && c ≤ 0xFE2F)

/-- `AttCompiler::update_alphabet` (att_compiler.cc:87-98); `letters` is a set of `UChar`, so the code points are cut to 16 bits. -/
def updateAlphabet (ch : Chars) (c : Nat) (letters : List UInt16) : List UInt16 :=
  if isWordPunct c || !(ch.isPunct c || ch.isSpace c) then
    let letters := setInsert (UInt16.ofNat c) letters
    if ch.isLower c then setInsert (UInt16.ofNat (ch.toUpper c)) letters
    else if ch.isUpper c then setInsert (UInt16.ofNat (ch.toLower c)) letters
    else letters
  else letters

/-- Repeated `U16_NEXT`: pairs of surrogates are joined, other units are taken as they are. -/
def codePoints : UString → List Nat
  | [] => []
  | [u] => [u.toNat]
  | u :: v :: s =>
    if 0xd800 ≤ u ∧ u < 0xdc00 ∧ 0xdc00 ≤ v ∧ v < 0xe000 then
      ((u.toNat - 0xd800) * 1024 + (v.toNat - 0xdc00) + 0x10000) :: codePoints s
    else u.toNat :: codePoints (v :: s)

/-- `symbol.size() >= 2 && symbol[0] == '<' && symbol.back() == '>'` -/
def isTag (s : UString) : Bool := 2 ≤ s.length && s.head? = some 0x3c && s.getLast? = some 0x3e

/-- `AttCompiler::symbol_code` (att_compiler.cc:100-118): the codes. -/
def symbolCode (ch : Chars) (symbol : UString) (x : Compiler W) : List Int × Compiler W :=
  if symbol.isEmpty then ([0], x)
  else if isTag symbol then
    let a := x.alphabet.includeSymbol symbol
    ([a.symCode symbol], { x with alphabet := a })
  else ((codePoints symbol).map (fun (c : Nat) => (c : Int)), { x with letters := (codePoints symbol).foldl (fun l c => updateAlphabet ch c l) x.letters })

/-- `lsplit[i]` and `rsplit[i]`, where the shorter one is filled with the empty symbol. -/
def padded : List Int → List Int → List (Int × Int)
  | [], rs => rs.map fun r => (0, r)
  | l :: ls, [] => (l, 0) :: padded ls []
  | l :: ls, r :: rs => (l, r) :: padded ls rs

/-- `AttCompiler::classify_single_transition` (att_compiler.cc:445-457) for a transduction with this symbol on its left side. -/
def classifySingle (ch : Chars) (letters : List UInt16) (sym : Int) : Nat :=
  if sym > 0 then
    (if UInt16.ofNat sym.toNat ∈ letters then 1 else 0) ||| (if ch.isPunct sym.toNat then 2 else 0)
  else 0

/-- The loop of `add_transition` (att_compiler.cc:129-141). -/
def addPairs (ch : Chars) [Zero W] (src dst : Int) (weight : W) : List (Int × Int) → Compiler W → Compiler W
  | [], x => x
  | [(l, r)], x =>
    let c := x.alphabet.pairCode l r
    touch dst (pushArc src { dst := dst, tag := c.1, weight := weight, type := classifySingle ch x.letters l } { x with alphabet := c.2 })
  | (l, r) :: ps, x =>
    let dest : Int := -((x.phantoms : Int) + 1)
    let c := x.alphabet.pairCode l r
    addPairs ch dest dst weight ps <| touch dest <|
      pushArc src { dst := dest, tag := c.1, weight := 0, type := classifySingle ch x.letters l }
        { x with alphabet := c.2, phantoms := x.phantoms + 1 }

/-- `AttCompiler::add_transition` (att_compiler.cc:120-142). -/
def addTransition (ch : Chars) [Zero W] (src dst : Int) (upper lower : UString) (weight : W) (x : Compiler W) : Compiler W :=
  let l := symbolCode ch upper (touch src x)
  let r := symbolCode ch lower l.2
  addPairs ch src dst weight (padded l.1 r.1) r.2

/-- The local variables of `parse` with the object. -/
structure Parse (W : Type) where
  c : Compiler W
  first : Bool := true
  multiple : Bool := false
  offset : Int := 1
  largest : Int := 0

/-- `fast_stoi(token) + state_id_offset`; the exception ends the program. -/
def stateId (offset : Int) (token : UString) : Res Int :=
  match fastStoi token with
  | .ok n => int32 (n + offset)
  | .exception => .exit
  | .exit => .exit
  | .ub => .ub

/-- A weight column, or the default weight if there is none. -/
def weightOf (σ : Setting W) [Zero W] (token : Option UString) : Res W :=
  match token with
  | none => .ok 0
  | some s => match σ.stod s with
    | some w => .ok w
    | none => .exit

/-- att_compiler.cc:263-275: after the source state was read. -/
def beginLine [Zero W] (src : Int) (p : Parse W) : Parse W :=
  let c := touch src p.c
  let c := if p.first then pushArc c.start { dst := src, tag := 0, weight := (0 : W) } c else c
  { p with c, first := false, largest := max p.largest src }

/-- One turn of the loop of `parse` (att_compiler.cc:227-330), given the columns of the line. -/
def parseLine (σ : Setting W) [Zero W] (tokens : List UString) (p : Parse W) : Res (Parse W) :=
  match tokens with
  | [] => .ub
  | token :: columns =>
    if columns = [] ∧ token = [] then .ok p
    else if p.first ∧ columns = [] then .exit
    else if token.head? = some 0x2d then
      .ok { p with multiple := p.multiple || decide (p.offset = 1), offset := p.largest + 1, first := true }
    else match columns with
      | [] => do
        let src ← stateId p.offset token
        let p := beginLine src p
        let w ← weightOf σ none
        pure { p with c := { p.c with finals := mapInsert src w p.c.finals } }
      | [weight] => do
        let src ← stateId p.offset token
        let p := beginLine src p
        let w ← weightOf σ (some weight)
        pure { p with c := { p.c with finals := mapInsert src w p.c.finals } }
      | target :: c2 :: c3 :: rest =>
        if rest.length > 1 then .exit
        else do
          let src ← stateId p.offset token
          let p := beginLine src p
          let dst ← stateId p.offset target
          let p := { p with largest := max p.largest dst }
          let upper := convertHfst σ.hfstSymbols (if σ.readRl then c3 else c2)
          let lower := convertHfst σ.hfstSymbols (if σ.readRl then c2 else c3)
          let w ← weightOf σ rest.head?
          pure { p with c := addTransition σ.chars src dst upper lower w p.c }
      | _ => .exit

/-- The inner loop of `parse` (att_compiler.cc:210-221): the columns of every line. The line ends at a newline or at U+FFFF, which
`u_fgetc` also returns at the end of the file; the empty line after the last one is ignored by `parseLine`. -/
def splitLines : UString → List (List UString)
  | [] => [[[]]]
  | c :: s =>
    if c = 0x0a ∨ c = 0xffff then [[]] :: splitLines s
    else match splitLines s with
      | [] => []
      | l :: ls =>
        if c = 0x09 then ([] :: l) :: ls
        else match l with
          | [] => [] :: ls
          | t :: ts => ((c :: t) :: ts) :: ls

/-- The loop of `parse` (att_compiler.cc:207-331). -/
def parseLines (σ : Setting W) [Zero W] : List (List UString) → Parse W → Res (Parse W)
  | [], p => .ok p
  | l :: ls, p => do parseLines σ ls (← parseLine σ l p)

/-! ## Classification -/

/-- `t.type |= type` for all transductions of a node. -/
def orTypes (type : Nat) (q : Int) (g : Graph W) : Graph W :=
  match mapFind q g with
  | none => g
  | some arcs => mapSet q (arcs.map fun t => { t with type := t.type ||| type }) g

/-- The loop over the transductions of one node in `classify_forwards` (att_compiler.cc:473-481). The transductions are read again
at every turn, since a loop at the node changes them. -/
def forwardArcs (next : Int) (done : List Int) : (todoArcs : List Nat) → List Int × Graph W → List Int × Graph W
  | [], x => x
  | i :: is, (todo, g) =>
    match (arcsAt g next)[i]? with
    | none => forwardArcs next done is (todo, g)
    | some t1 => forwardArcs next done is (if t1.dst ∈ done then todo else t1.dst :: todo, orTypes t1.type t1.dst g)

/-- The loop of `classify_forwards` (att_compiler.cc:468-483). -/
def forwardLoop : (turns : Nat) → (todo done : List Int) → Graph W → Res (Graph W)
  | _, [], _, g => .ok g
  | 0, _ :: _, _, _ => .ub
  | turns + 1, next :: todo, done, g =>
    if next ∈ done then forwardLoop turns todo done g
    else
      let x := forwardArcs next done (List.range (arcsAt g next).length) (todo, g)
      forwardLoop turns x.1 (setInsert next done) x.2

/-- The number of transductions. -/
def arcCount (g : Graph W) : Nat := (g.map fun e => e.2.length).sum

/-- `AttCompiler::classify_forwards` (att_compiler.cc:462-484). -/
def classifyForwards (start : Int) (g : Graph W) : Res (Graph W) := forwardLoop (arcCount g + 1) [start] [] g

/-- `t1.type = type` for the transduction with this number. -/
def setType (q : Int) (i : Nat) (type : Nat) (g : Graph W) : Graph W :=
  match mapFind q g with
  | none => g
  | some arcs => mapSet q (arcs.modify i fun t => { t with type := type }) g

/-- The loop over the transductions of one node in `classify_backwards` (att_compiler.cc:501-513); `rec` is the recursive call. -/
def backwardArcs (rec : Int → List Int → Graph W → Res (Nat × Graph W)) (state : Int) (path : List Int) :
    (todoArcs : List Nat) → (type : Nat) → Graph W → Res (Nat × Graph W)
  | [], type, g => .ok (type, g)
  | i :: is, type, g =>
    match (arcsAt g state)[i]? with
    | none => backwardArcs rec state path is type g
    | some t1 =>
      if t1.type ≠ 0 then backwardArcs rec state path is (type ||| t1.type) g
      else if t1.dst ∈ path then .exit
      else do
        let (ty, g) ← rec t1.dst (setInsert t1.dst path) g
        backwardArcs rec state path is (type ||| ty) (setType state i ty g)

/-- `AttCompiler::classify_backwards` (att_compiler.cc:492-517); the argument is the number of calls that may be nested. -/
def classifyBackwards (finals : List (Int × W)) : (turns : Nat) → (state : Int) → (path : List Int) → Graph W → Res (Nat × Graph W)
  | 0, _, _, _ => .ub
  | turns + 1, state, path, g =>
    if (mapFind state finals).isSome then .exit
    else backwardArcs (classifyBackwards finals turns) state path (List.range (arcsAt g state).length) 0 g

/-- `AttCompiler::parse` (att_compiler.cc:191-348) on an object that may have been used before: `clear` only resets the graph and
the alphabet. -/
def parse (σ : Setting W) [Zero W] (text : UString) (x : Compiler W) : Res (Compiler W) := do
  let p ← parseLines σ (splitLines text) { c := { x with graph := [], alphabet := .empty } }
  let x := if p.multiple then p.c else { p.c with start := 1 }
  if σ.splitting then
    let g ← classifyForwards x.start x.graph
    let (_, g) ← classifyBackwards x.finals (x.graph.length + 2) x.start [] g
    pure { x with graph := g }
  else pure x

/-! ## Extraction -/

/-- The local variables of `extract_transducer`. -/
structure Extract (W : Type) where
  t : Transducer W
  corr : List (Int × Nat)
  visited : List Int

/-- The loop of `_extract_transducer` over the transductions of a node (att_compiler.cc:413-442); `corr` has an entry for every node
that the function is called for, so the case of a new source does not occur. -/
def extractArcs (rec : Int → Extract W → Res (Extract W)) (type : Nat) (src : Int) : List (Arc W) → Extract W → Res (Extract W)
  | [], s => .ok s
  | arc :: arcs, s =>
    if arc.type &&& type ≠ type then extractArcs rec type src arcs s
    else match mapFind src s.corr with
      | none => .ub
      | some f => match mapFind arc.dst s.corr with
        | some d => do
          let t ← linkStates f d arc.tag arc.weight s.t
          let s ← rec arc.dst { s with t }
          extractArcs rec type src arcs s
        | none => do
          let n := insertNewSingleTransduction arc.tag f arc.weight s.t
          let s ← rec arc.dst { s with t := n.2, corr := mapSet arc.dst n.1 s.corr }
          extractArcs rec type src arcs s

/-- `AttCompiler::_extract_transducer` (att_compiler.cc:393-443); the argument is the number of calls that may be nested. -/
def extractFrom (g : Graph W) (type : Nat) : (turns : Nat) → Int → Extract W → Res (Extract W)
  | turns, src, s =>
    if src ∈ s.visited then .ok s
    else match turns with
      | 0 => .ub
      | turns + 1 => extractArcs (extractFrom g type turns) type src (arcsAt g src) { s with visited := setInsert src s.visited }

/-- The loop of `extract_transducer` over the final states (att_compiler.cc:364-371). -/
def extractFinals (corr : List (Int × Nat)) : List (Int × W) → Transducer W → Transducer W
  | [], t => t
  | (q, w) :: fs, t => extractFinals corr fs (match mapFind q corr with
    | some p => setFinal p w true t
    | none => t)

/-- `AttCompiler::extract_transducer` (att_compiler.cc:350-387). -/
def extractTransducer (type : Nat) (x : Compiler W) : Res (Transducer W) := do
  let s ← extractFrom x.graph type (x.graph.length + 2) x.start
    { t := empty, corr := [(x.start, (empty : Transducer W).initial)], visited := [] }
  pure (extractFinals s.corr x.finals s.t)

/-- The sections written by `AttCompiler::write` (att_compiler.cc:520-536). -/
def sections (σ : Setting W) (x : Compiler W) : Res (Transducer W × Option (Transducer W)) :=
  if σ.splitting then do
    let words ← extractTransducer 1 x
    let puncts ← extractTransducer 2 x
    pure (words, if numberOfTransitions puncts > 0 then some puncts else none)
  else do
    let t ← extractTransducer 0 x
    pure (t, none)

/-- `lt-comp` on a file in this format (lt_comp.cc:131-134 and 171-175; `rl` at 150-153 differs in `parse` only): the alphabet and the sections that are written. -/
def compileText (σ : Setting W) [Zero W] (text : UString) : Res (Alphabet × Transducer W × Option (Transducer W)) := do
  let x ← parse σ text {}
  let s ← sections σ x
  pure (x.alphabet, s)

end

end Verif.Att
