import Verif.BinIO.Model
import Verif.Proc.Model
import Verif.Gen.Model
import Verif.Str.Model

/-!
# Model of the start of `lt-proc`

`FSTProcessor::load` and what `main` of `lt_proc.cc` calls before the text is read. Nodes are numbers instead of pointers: `root` is 0, and the nodes
of the transducers follow in the order of `transducers`. Addresses of nodes are only compared for being the same, except that the maps of final
nodes are ordered by them; the order is not used. Weights of the file are turned into those of the model by the argument `v`.
-/

namespace Verif.Load

open Verif.State
open Verif.BinIO (TransExe)
open Verif.Compression (Dbl)

variable {W : Type}

/-- The nodes of the transducers, beginning with the number `base`. -/
def graphFrom (v : Dbl → W) : (base : Nat) → List (UString × TransExe) → Graph W
  | _, [], _, _ => none
  | base, e :: es, q, i =>
    if q < base then none
    else if q < base + e.2.nodes.length then
      (mapFind i (e.2.nodes.getD (q - base) [])).map fun ds => ds.map fun d => (d.1, base + d.2.1, v d.2.2)
    else graphFrom v (base + e.2.nodes.length) es q i

/-- The loop of `FSTProcessor::calcInitial` (fst_processor.cc:424-427): the arcs of `root`. The initial node of a transducer must be in its vector
(trans_exe.cc:164-168). -/
def rootArcs (v : Dbl → W) : (base : Nat) → List (UString × TransExe) → Res (List (Int × Nat × W))
  | _, [] => .ok []
  | base, e :: es =>
    if e.2.initial < e.2.nodes.length then do
      let ds ← rootArcs v (base + e.2.nodes.length) es
      .ok ((0, base + e.2.initial, v 0) :: ds)
    else .ub

/-- All nodes, with the arcs of `root`. -/
def joined (v : Dbl → W) (ds : List (Int × Nat × W)) (es : List (UString × TransExe)) : Graph W := fun q i =>
  if q = 0 then if i = 0 ∧ ds ≠ [] then some ds else none
  else graphFrom v 1 es q i

/-- The final nodes of a transducer whose nodes begin with the number `base`. -/
def finalsAt (v : Dbl → W) (base : Nat) (te : TransExe) : List (Nat × W) := te.finals.map fun e => (base + e.1, v e.2)

/-- `insert` of a range into a map: entries that are there already are kept. -/
def insertAll (new m : List (Nat × W)) : List (Nat × W) := new.foldl (fun m e => mapInsert e.1 e.2 m) m

/-- The members for the kinds of sections. -/
structure Kinds (W : Type) where
  inconditional : List (Nat × W) := []
  standard : List (Nat × W) := []
  postblank : List (Nat × W) := []
  preblank : List (Nat × W) := []

/-- `@inconditional`, `@standard`, `@postblank` and `@preblank`. -/
def INCONDITIONAL : UString := [0x40, 0x69, 0x6e, 0x63, 0x6f, 0x6e, 0x64, 0x69, 0x74, 0x69, 0x6f, 0x6e, 0x61, 0x6c]
def STANDARD : UString := [0x40, 0x73, 0x74, 0x61, 0x6e, 0x64, 0x61, 0x72, 0x64]
def POSTBLANK : UString := [0x40, 0x70, 0x6f, 0x73, 0x74, 0x62, 0x6c, 0x61, 0x6e, 0x6b]
def PREBLANK : UString := [0x40, 0x70, 0x72, 0x65, 0x62, 0x6c, 0x61, 0x6e, 0x6b]

/-- One turn of the loop of `FSTProcessor::classifyFinals` (fst_processor.cc:435-461). -/
def classifyOne (name : UString) (new : List (Nat × W)) (k : Kinds W) : Res (Kinds W) := do
  if ← Str.endswith name INCONDITIONAL then .ok { k with inconditional := insertAll new k.inconditional }
  else if ← Str.endswith name STANDARD then .ok { k with standard := insertAll new k.standard }
  else if ← Str.endswith name POSTBLANK then .ok { k with postblank := insertAll new k.postblank }
  else if ← Str.endswith name PREBLANK then .ok { k with preblank := insertAll new k.preblank }
  else .exit

/-- `FSTProcessor::classifyFinals` (fst_processor.cc:432-463). -/
def classifyFinals (v : Dbl → W) : (base : Nat) → List (UString × TransExe) → Kinds W → Res (Kinds W)
  | _, [], k => .ok k
  | base, e :: es, k => do
    let k ← classifyOne e.1 (finalsAt v base e.2) k
    classifyFinals v (base + e.2.nodes.length) es k

/-- The loop of `initGeneration` (fst_processor.cc:661-664). -/
def allFinals (v : Dbl → W) : (base : Nat) → List (UString × TransExe) → List (Nat × W) → List (Nat × W)
  | _, [], m => m
  | base, e :: es, m => allFinals v (base + e.2.nodes.length) es (insertAll (finalsAt v base e.2) m)

/-- `<ANY_CHAR>` -/
def ANY_CHAR : UString := [0x3c, 0x41, 0x4e, 0x59, 0x5f, 0x43, 0x48, 0x41, 0x52, 0x3e]

/-- `FSTProcessor::load` (fst_processor.cc:626-632) and `initAnalysis` (fst_processor.cc:634-643), given the members that depend on the options. -/
def loadAnalysis (v : Dbl → W) (o : Proc.Setting W) (file : List UInt8) : Res (Proc.Setting W) := do
  let ((ls, a, es), _) ← BinIO.exeSet file
  let ds ← rootArcs v 1 es
  let k ← classifyFinals v 1 es {}
  .ok { o with
    graph := joined v ds es
    root := 0
    standard := k.standard
    inconditional := k.inconditional
    postblank := k.postblank
    preblank := k.preblank
    alphabet := a.includeSymbol ANY_CHAR
    letters := ls.map fun c => (c.toNat : Int) }

/-- `FSTProcessor::load` and `initGeneration` (fst_processor.cc:656-665), which is `initBiltrans` too. -/
def loadGeneration (v : Dbl → W) (o : Gen.Setting W) (file : List UInt8) : Res (Gen.Setting W) := do
  let ((_, a, es), _) ← BinIO.exeSet file
  let ds ← rootArcs v 1 es
  .ok { o with
    graph := joined v ds es
    root := 0
    finals := allFinals v 1 es []
    alphabet := a.includeSymbol ANY_CHAR }

/-- `FSTProcessor::valid` (fst_processor.cc:2138-2159). -/
def valid (g : Graph W) (root : Nat) (finals : List (Nat × W)) (n : Nat) : Res Bool := do
  let st ← Proc.ended (init g n root)
  if isFinal finals st then .ok false
  else do
    let st ← Proc.ended (step g n 0x20 st)
    .ok (st.length = 0)

/-- `lt-proc -a` (lt_proc.cc:177-232) without null flushing. -/
def ltProcAnalysis [Zero W] [Add W] [LinearOrder W] (v : Dbl → W) (o : Proc.Setting W) (n : Nat) (file text : List UInt8) : Res UString := do
  let σ ← loadAnalysis v o file
  if ← valid σ.graph σ.root σ.allFinals n then Proc.analysis σ n text else .exit

/-- `lt-proc -g` and the other options for generation (lt_proc.cc:177-195). -/
def ltProcGeneration [Zero W] [Add W] [LinearOrder W] (v : Dbl → W) (o : Gen.Setting W) (n : Nat) (mode : Gen.Mode) (file text : List UInt8) : Res UString := do
  let σ ← loadGeneration v o file
  if ← valid σ.graph σ.root σ.finals n then Gen.generation σ n mode text else .exit

end Verif.Load
