import Verif.Transducer.Model
import Verif.Alphabet.Model

/-!
# Model of the operations of `lttoolbox/transducer.cc` that change the labels of arcs

New rows are built by `multimap::insert`. A new table gets the rows in the order of the states, so its list of
states is the old one.
-/

namespace Verif.Fst

variable {W : Type}

/-- The inner loop of `invert` (transducer.cc:1316-1321): the row still to do, the alphabet, the new row. -/
def invertRow : Row W → Alphabet → Row W → Res (Alphabet × Row W)
  | [], a, acc => .ok (a, acc)
  | (c, e) :: r, a, acc => do
    let pr ← a.decode c
    let (newSym, a) := a.pairCode pr.2 pr.1
    invertRow r a (mmInsert newSym e acc)

/-- The outer loop of `invert` (transducer.cc:1315-1324). -/
def invertRows : List (Nat × Row W) → Alphabet → Res (Alphabet × List (Nat × Row W))
  | [], a => .ok (a, [])
  | (q, r) :: m, a => do
    let (a, r') ← invertRow r a []
    let (a, m') ← invertRows m a
    pure (a, (q, r') :: m')

/-- `Transducer::invert` (transducer.cc:1312-1326). -/
def invert (a : Alphabet) (t : Transducer W) : Res (Alphabet × Transducer W) := do
  let (a, m) ← invertRows t.transitions a
  pure (a, { t with transitions := m })

/-- `Transducer::deleteSymbols` (transducer.cc:1328-1336); `multimap::erase(key)` removes all entries. -/
def deleteSymbols (syms : List Int) (t : Transducer W) : Transducer W :=
  { t with transitions := t.transitions.map fun e =>
      (e.1, syms.foldl (fun r sym => r.filter (fun a => a.1 ≠ sym)) e.2) }

/-- The body of the inner loop of `epsilonizeSymbols` (transducer.cc:1342-1346). With `sym = 0` every inserted
element lies before the end of the range that is being traversed, so a row with an arc 0 makes the loop run
until memory is exhausted; that outcome is reported as `ub`. -/
def epsilonizeOne (sym : Int) (r : Row W) : Res (Row W) :=
  if sym = 0 then
    if (equalRange 0 r).isEmpty then .ok r else .ub
  else
    .ok (((equalRange sym r).foldl (fun r e => mmInsert 0 e r) r).filter (fun a => a.1 ≠ sym))

/-- The loop of `epsilonizeSymbols` over the symbols (transducer.cc:1341-1347). -/
def epsilonizeRow : List Int → Row W → Res (Row W)
  | [], r => .ok r
  | sym :: syms, r => do
    let r ← epsilonizeOne sym r
    epsilonizeRow syms r

/-- The loop of `epsilonizeSymbols` over the states (transducer.cc:1340-1348). -/
def epsilonizeRows (syms : List Int) : List (Nat × Row W) → Res (List (Nat × Row W))
  | [] => .ok []
  | (q, r) :: m => do
    let r' ← epsilonizeRow syms r
    let m' ← epsilonizeRows syms m
    pure ((q, r') :: m')

/-- `Transducer::epsilonizeSymbols` (transducer.cc:1338-1350). -/
def epsilonizeSymbols (syms : List Int) (t : Transducer W) : Res (Transducer W) := do
  let m ← epsilonizeRows syms t.transitions
  pure { t with transitions := m }

/-- The innermost loop of `applyACX` (transducer.cc:1362-1364). -/
def acxSyms (y : Int) (e : Nat × W) : List Int → Alphabet → Row W → Alphabet × Row W
  | [], a, ins => (a, ins)
  | z :: zs, a, ins =>
    let (c, a) := a.pairCode z y
    acxSyms y e zs a (ins ++ [(c, e)])

/-- The first inner loop of `applyACX` (transducer.cc:1358-1366): fills `to_insert`. -/
def acxCollect (acx : List (Int × List Int)) : Row W → Alphabet → Row W → Res (Alphabet × Row W)
  | [], a, ins => .ok (a, ins)
  | (c, e) :: r, a, ins => do
    let pr ← a.decode c
    match mapFind pr.1 acx with
    | none => acxCollect acx r a ins
    | some zs =>
      let (a, ins) := acxSyms pr.2 e zs a ins
      acxCollect acx r a ins

/-- The loop of `applyACX` over the states (transducer.cc:1356-1370). -/
def acxRows (acx : List (Int × List Int)) : List (Nat × Row W) → Alphabet → Res (Alphabet × List (Nat × Row W))
  | [], a => .ok (a, [])
  | (q, r) :: m, a => do
    let (a, ins) ← acxCollect acx r a []
    let (a, m') ← acxRows acx m a
    pure (a, (q, ins.foldl (fun r e => mmInsert e.1 e.2 r) r) :: m')

/-- `Transducer::applyACX` (transducer.cc:1352-1371). -/
def applyACX (a : Alphabet) (acx : List (Int × List Int)) (t : Transducer W) : Res (Alphabet × Transducer W) := do
  let (a, m) ← acxRows acx t.transitions a
  pure (a, { t with transitions := m })

/-- `if (x < 0) symbols.insert(x)` (transducer.cc:1270-1275). -/
def insertTag (x : Int) (symbols : List Int) : List Int := if x < 0 then setInsert x symbols else symbols

/-- The first loops of `updateAlphabet` (transducer.cc:1261-1278) over all symbols on arcs: the sets
`symbol_pairs` and `symbols`. -/
def collect (old : Alphabet) (hasPairs : Bool) : List Int → List Int × List Int → Res (List Int × List Int)
  | [], st => .ok st
  | c :: cs, (pairs, symbols) =>
    if !hasPairs && decide (c < 0) then collect old hasPairs cs (pairs, setInsert c symbols)
    else do
      let pr ← old.decode c
      collect old hasPairs cs (setInsert c pairs, insertTag pr.2 (insertTag pr.1 symbols))

/-- The loop of `updateAlphabet` over the tags (transducer.cc:1279-1285): the new alphabet and
`symbol_update`. -/
def updateTags (old : Alphabet) : List Int → Alphabet → List (Int × Int) → Res (Alphabet × List (Int × Int))
  | [], b, m => .ok (b, m)
  | x :: xs, b, m => do
    let s ← old.getSymbol x
    let b := b.includeSymbol s
    updateTags old xs b (mapSet x (b.symCode s) m)

/-- `symbol_update[x]`: a missing key would be created with value 0. -/
def updGet (m : List (Int × Int)) (x : Int) : Int := (mapFind x m).getD 0

/-- The loop of `updateAlphabet` over the pairs (transducer.cc:1288-1294). -/
def updatePairs (old : Alphabet) (m : List (Int × Int)) : List Int → Alphabet → List (Int × Int) →
    Res (Alphabet × List (Int × Int))
  | [], b, pm => .ok (b, pm)
  | c :: cs, b, pm => do
    let pr ← old.decode c
    let l2 := if pr.1 < 0 then updGet m pr.1 else pr.1
    let r2 := if pr.2 < 0 then updGet m pr.2 else pr.2
    let (c', b) := b.pairCode l2 r2
    updatePairs old m cs b (mapSet c c' pm)

/-- The last loops of `updateAlphabet` (transducer.cc:1298-1308) for one row. -/
def relabelRow (f : Int → Int) (r : Row W) : Row W := r.foldl (fun acc e => mmInsert (f e.1) e.2 acc) []

/-- `Transducer::updateAlphabet` (transducer.cc:1257-1310): the new alphabet and the transducer. -/
def updateAlphabet (old new : Alphabet) (hasPairs : Bool) (t : Transducer W) : Res (Alphabet × Transducer W) := do
  let (pairs, symbols) ← collect old hasPairs ((arcsOf t.transitions).map (·.2.1)) ([], [])
  let (new, upd) ← updateTags old symbols new []
  let (new, upd) ← if hasPairs then updatePairs old upd pairs new [] else pure (new, upd)
  let f : Int → Int := fun s => (mapFind s upd).getD s
  pure (new, { t with transitions := t.transitions.map fun e => (e.1, relabelRow f e.2) })

end Verif.Fst
