import Verif.Transducer.Model
import Verif.Alphabet.Model

/-!
# Model of the binary formats of transducers and transducer sets

`Transducer::write/read/serialise/deserialise` (transducer.cc), `TransExe::read` (trans_exe.cc), `Node` (node.cc)
and the sets of `file_utils.cc`. Files are seekable: `fgetpos` succeeds (on a pipe it fails, the header is then
not looked for and is read as data; not modelled). Weights of the binary format are `Dbl`, with `0.0000` being
`fin 0 0`; in the serialiser format they are the bit patterns of `double`s.
-/

namespace Verif.BinIO

open Verif.Compression Verif.Fst

instance : Zero Dbl := ⟨.fin 0 0⟩

/-- `multibyte_write` of an `int`: the argument is converted to `unsigned int`. -/
def mbi (i : Int) : Res (List UInt8) := Alphabet.mbw (UInt32.ofInt i)

/-- `long_multibyte_write`; a refusal of an inner `multibyte_write` ends the process. -/
def lmw (d : Dbl) : Res (List UInt8) :=
  match longMultibyteWrite d with
  | some bs => .ok bs
  | none => .exit

/-- `Transducer::weighted` (transducer.cc:511-525). -/
def weighted (t : Transducer Dbl) : Bool :=
  t.finals.any (fun e => e.2 ≠ 0) || t.transitions.any (fun e => e.2.any (fun a => a.2.2 ≠ 0))

/-- `HEADER_TRANSDUCER` (compression.h:36): `LTTD`. -/
def headerT : List UInt8 := [0x4c, 0x54, 0x54, 0x44]

/-- The optional weight (transducer.cc:550-553, 573-576). -/
def wField (ww : Bool) (d : Dbl) : Res (List UInt8) := if ww then lmw d else .ok []

/-- The loop of `Transducer::write` over the final states (transducer.cc:544-554). -/
def writeFinals (ww : Bool) : (base : Int) → List (Nat × Dbl) → Res (List UInt8)
  | _, [] => .ok []
  | base, (q, w) :: fs => do
    let a ← mbi (q - base)
    let b ← wField ww w
    let r ← writeFinals ww q fs
    pure (a ++ b ++ r)

/-- The inner loop of `Transducer::write` (transducer.cc:562-577): the arcs of state `q`; `base` is the number of
states. -/
def writeArcs (ww : Bool) (decalage : Int) (base q : Nat) : (tagbase : Int) → Row Dbl → Res (List UInt8)
  | _, [] => .ok []
  | tagbase, (c, (p, w)) :: r => do
    let a ← mbi (c - tagbase + decalage)
    let b ← mbi (if q ≤ p then p - q else p + base - q)
    let d ← wField ww w
    let rest ← writeArcs ww decalage base q c r
    pure (a ++ b ++ d ++ rest)

/-- The outer loop of `Transducer::write` (transducer.cc:558-578). -/
def writeRows (ww : Bool) (decalage : Int) (base : Nat) : List (Nat × Row Dbl) → Res (List UInt8)
  | [] => .ok []
  | (q, r) :: m => do
    let n ← mbi r.length
    let a ← writeArcs ww decalage base q 0 r
    let rest ← writeRows ww decalage base m
    pure (n ++ a ++ rest)

/-- `Transducer::write` (transducer.cc:527-579): the bytes written; `TDF_WEIGHTS` is 1. -/
def write (decalage : Int) (t : Transducer Dbl) : Res (List UInt8) := do
  let ww := weighted t
  let features : UInt64 := if ww then 1 else 0
  let i ← mbi t.initial
  let n ← mbi t.finals.length
  let fs ← writeFinals ww 0 t.finals
  let base := t.transitions.length
  let b ← mbi base
  let rows ← writeRows ww decalage base t.transitions
  pure (headerT ++ writeU64be features ++ i ++ n ++ fs ++ b ++ rows)

/-- The header of `Transducer::read` (transducer.cc:588-604) and of `TransExe::read` (trans_exe.cc:70-87): whether
weights follow. Fewer than four bytes are not a header. `TDF_UNKNOWN` is 2. -/
def readHeaderT (s : List UInt8) : Res (Bool × List UInt8) :=
  if s.take 4 = headerT then do
    let (features, s) ← readU64be (s.drop 4)
    if features ≥ 2 then .exception
    else pure (features &&& 1 ≠ 0, s)
  else .ok (false, s)

/-- The weight of an entry (transducer.cc:617-620): without weights it is the default 0. -/
def readW (rw : Bool) (s : List UInt8) : Dbl × List UInt8 :=
  if rw then longMultibyteRead s else (0, s)

/-- The loop over the final states (transducer.cc:612-622; trans_exe.cc:98-108). The sum is taken in `unsigned int`
and stored as `int`; where it reaches 2^31 the model keeps the unsigned value. Two-level use of
`std::map::insert`: an existing key keeps its weight. -/
def readFinals (rw : Bool) : (n : Nat) → (base : UInt32) → List (Nat × Dbl) → List UInt8 → List (Nat × Dbl) × List UInt8
  | 0, _, m, s => (m, s)
  | n + 1, base, m, s =>
    let (v, s) := multibyteRead s
    let base := base + v
    let (w, s) := readW rw s
    readFinals rw n base (mapInsert base.toNat w m) s

/-- The inner loop of `Transducer::read` (transducer.cc:634-647). The label is added up in `unsigned int` and stored as
`int`. `cur + value` is below 2^31, so the remainder is that of the numbers. -/
def readArcs (rw : Bool) (decalage : Int) (base cur : Nat) :
    (n : Nat) → (tagbase : Int) → List (Nat × Row Dbl) → List UInt8 → List (Nat × Row Dbl) × List UInt8
  | 0, _, m, s => (m, s)
  | n + 1, tagbase, m, s =>
    let (v, s) := multibyteRead s
    let tagbase := toInt32 (UInt32.ofInt tagbase + v - UInt32.ofInt decalage)
    let (v2, s) := multibyteRead s
    let state := (cur + v2.toNat) % base
    let (w, s) := readW rw s
    let m := mapModify [] state id m
    let m := mapModify [] cur (mmInsert tagbase (state, w)) m
    readArcs rw decalage base cur n tagbase m s

/-- The outer loop of `Transducer::read` (transducer.cc:627-650). -/
def readRows (rw : Bool) (decalage : Int) (base : Nat) :
    (n cur : Nat) → List (Nat × Row Dbl) → List UInt8 → List (Nat × Row Dbl) × List UInt8
  | 0, _, m, s => (m, s)
  | n + 1, cur, m, s =>
    let (k, s) := multibyteRead s
    let m := mapModify [] cur id m
    let (m, s) := readArcs rw decalage base cur k.toNat 0 m s
    readRows rw decalage base n (cur + 1) m s

/-- `Transducer::read` (transducer.cc:581-652). -/
def read (decalage : Int) (s : List UInt8) : Res (Transducer Dbl × List UInt8) := do
  let (rw, s) ← readHeaderT s
  let (i, s) := multibyteRead s
  let (n, s) := multibyteRead s
  let (fs, s) := readFinals rw n.toNat 0 [] s
  let (b, s) := multibyteRead s
  let (m, s) := readRows rw decalage b.toNat b.toNat 0 [] s
  pure ({ initial := i.toNat, finals := fs, transitions := m }, s)

/-! ## The run-time loader -/

/-- `Dest` (node.h:28-37): parallel arrays of output symbol, destination and weight. A destination is an index into
the node list instead of a pointer. -/
abbrev Dest := List (Int × Nat × Dbl)

/-- `Node` (node.h:109-119): the map from input symbols to destinations. -/
abbrev Node := List (Int × Dest)

/-- `Node::addTransition` (node.cc:57-89): appends to the destinations of the input symbol. -/
def addTransition (i o : Int) (d : Nat) (w : Dbl) (n : Node) : Node := mapModify [] i (· ++ [(o, d, w)]) n

/-- `TransExe` (trans_exe.h): initial node, nodes, final nodes. The final nodes are keyed by index; pointers into one
vector are ordered like the indices. -/
structure TransExe where
  initial : Nat
  nodes : List Node
  finals : List (Nat × Dbl)
deriving DecidableEq

/-- The inner loop of `TransExe::read` (trans_exe.cc:131-146). -/
def exeArcs (rw : Bool) (a : Alphabet) (base cur : Nat) :
    (n : Nat) → (tagbase : Int) → Node → List UInt8 → Res (Node × List UInt8)
  | 0, _, node, s => .ok (node, s)
  | n + 1, tagbase, node, s => do
    let (v, s) := multibyteRead s
    let tagbase := toInt32 (UInt32.ofInt tagbase + v)
    let (v2, s) := multibyteRead s
    let state := (cur + v2.toNat) % base
    let (w, s) := readW rw s
    let pr ← a.decode tagbase
    exeArcs rw a base cur n tagbase (addTransition pr.1 pr.2 state w node) s

/-- The outer loop of `TransExe::read` (trans_exe.cc:125-149), from node `cur` on. -/
def exeRows (rw : Bool) (a : Alphabet) (base : Nat) : (n cur : Nat) → List UInt8 → Res (List Node × List UInt8)
  | 0, _, s => .ok ([], s)
  | n + 1, cur, s => do
    let (k, s) := multibyteRead s
    let (node, s) ← exeArcs rw a base cur k.toNat 0 [] s
    let (nodes, s) ← exeRows rw a base n (cur + 1) s
    pure (node :: nodes, s)

/-- `TransExe::read` (trans_exe.cc:65-150) into a newly constructed object (reading into one that was used before
would keep its arcs; not modelled). Each node is built when its turn comes instead of in place. A final state
without a node is an access outside the vector (line 122). -/
def exeRead (a : Alphabet) (s : List UInt8) : Res (TransExe × List UInt8) := do
  let (rw, s) ← readHeaderT s
  let (i, s) := multibyteRead s
  let (n, s) := multibyteRead s
  let (fs, s) := readFinals rw n.toNat 0 [] s
  let (b, s) := multibyteRead s
  if fs.all (fun e => e.1 < b.toNat) then do
    let (nodes, s) ← exeRows rw a b.toNat b.toNat 0 s
    pure ({ initial := i.toNat, nodes := nodes, finals := fs }, s)
  else .ub

/-- `TransExe::unifyFinals` (trans_exe.cc:148-162): a new node; every final node gets an empty arc to it that carries
its weight. `room`: the vector of nodes has spare capacity. Without it `resize` copies the nodes elsewhere: the keys of
`finals` point to freed memory, and `Dest::copy` (node.h:40-47) leaves the arrays of the copied arcs uninitialised. The
latter is undefined only when the arcs are used; here it is undefined at once. -/
def unifyFinals (room : Bool) (t : TransExe) : Res TransExe :=
  if !room && (!t.finals.isEmpty || t.nodes.any fun n => !n.isEmpty) then .ub
  else
    let n := t.nodes.length
    .ok { t with
      nodes := t.finals.foldl (fun ns e => ns.modify e.1 (addTransition 0 0 n e.2)) (t.nodes ++ [[]])
      finals := [(n, 0)] }

/-! ## The serialiser format -/

/-- `Transducer::serialise` (transducer.cc:654-660). Weights are bit patterns. -/
def serialise (t : Transducer UInt64) : List UInt8 :=
  Serialiser.i32.enc (Int32.ofNat t.initial) ++
  (Serialiser.map Serialiser.i32 Serialiser.double).enc (t.finals.map fun e => (Int32.ofNat e.1, e.2)) ++
  (Serialiser.map Serialiser.i32
    (Serialiser.multimap Serialiser.i32 (Serialiser.pair Serialiser.i32 Serialiser.double))).enc
    (t.transitions.map fun e => (Int32.ofNat e.1, e.2.map fun a => (Int32.ofInt a.1, (Int32.ofNat a.2.1, a.2.2))))

/-- `Transducer::deserialise` (transducer.cc:662-668). Negative state numbers, which the writer never produces, are
shown as 0. -/
def deserialise (s : List UInt8) : Res (Transducer UInt64 × List UInt8) := do
  let (i, s) ← Serialiser.i32.dec s
  let (fs, s) ← (Serialiser.map Serialiser.i32 Serialiser.double).dec s
  let (m, s) ← (Serialiser.map Serialiser.i32
    (Serialiser.multimap Serialiser.i32 (Serialiser.pair Serialiser.i32 Serialiser.double))).dec s
  pure ({ initial := i.toInt.toNat
          finals := fs.map fun e => (e.1.toInt.toNat, e.2)
          transitions := m.map fun e =>
            (e.1.toInt.toNat, e.2.map fun a => (a.1.toInt, (a.2.1.toInt.toNat, a.2.2))) }, s)

/-! ## Sets of transducers -/

/-- `HEADER_LTTOOLBOX` (compression.h:29): `LTTB`. -/
def headerL : List UInt8 := [0x4c, 0x54, 0x54, 0x42]

/-- The loop of `writeTransducerSet` (file_utils.cc:80-85), without the statistics on standard output. -/
def writeSections : List (UString × Transducer Dbl) → Res (List UInt8)
  | [] => .ok []
  | (name, t) :: ts => do
    let a ← Alphabet.sw name
    let b ← write 0 t
    let r ← writeSections ts
    pure (a ++ b ++ r)

/-- `writeTransducerSet(FILE*, UStringView, ...)` (file_utils.cc:68-86). -/
def writeSet (letters : UString) (a : Alphabet) (ts : List (UString × Transducer Dbl)) : Res (List UInt8) := do
  let l ← Alphabet.sw letters
  let b ← a.write
  let n ← mbi ts.length
  let r ← writeSections ts
  pure (headerL ++ writeU64be 0 ++ l ++ b ++ n ++ r)

/-- `writeTransducerSet(FILE*, std::set<UChar32>, ...)` (file_utils.cc:88-94): `UString(begin, end)` converts each
code point to one 16-bit unit. -/
def writeSetL (letters : List UInt32) (a : Alphabet) (ts : List (UString × Transducer Dbl)) : Res (List UInt8) :=
  writeSet (letters.map (·.toUInt16)) a ts

/-- The letters of `readShared` (file_utils.cc:114-116). -/
def readLetters : Nat → List UInt32 → List UInt8 → List UInt32 × List UInt8
  | 0, ls, s => (ls, s)
  | n + 1, ls, s =>
    let (v, s) := multibyteRead s
    readLetters n (setInsert v ls) s

/-- `readShared` (file_utils.cc:96-119) into empty containers. `LTF_UNKNOWN` is 1. -/
def readShared (s : List UInt8) : Res (List UInt32 × Alphabet × List UInt8) := do
  let s ← if s.take 4 = headerL then do
      let (features, s) ← readU64be (s.drop 4)
      if features ≥ 1 then .exception else pure s
    else .ok s
  let (n, s) := multibyteRead s
  let (ls, s) := readLetters n.toNat [] s
  let (a, s) := Alphabet.read s
  pure (ls, a, s)

/-- The loop of `readTransducerSet` (file_utils.cc:128-131). -/
def readSections : Nat → List (UString × Transducer Dbl) → List UInt8 → Res (List (UString × Transducer Dbl) × List UInt8)
  | 0, ts, s => .ok (ts, s)
  | n + 1, ts, s => do
    let (name, s) := stringRead s
    let (t, s) ← read 0 s
    readSections n (mapSet name t ts) s

/-- `readTransducerSet` (file_utils.cc:121-132) into empty containers. -/
def readSet (s : List UInt8) : Res ((List UInt32 × Alphabet × List (UString × Transducer Dbl)) × List UInt8) := do
  let (ls, a, s) ← readShared s
  let (n, s) := multibyteRead s
  let (ts, s) ← readSections n.toNat [] s
  pure ((ls, a, ts), s)

/-- The loop of the run-time `readTransducerSet` (file_utils.cc:141-144), for sections with different names. -/
def exeSections (a : Alphabet) : Nat → List (UString × TransExe) → List UInt8 → Res (List (UString × TransExe) × List UInt8)
  | 0, ts, s => .ok (ts, s)
  | n + 1, ts, s => do
    let (name, s) := stringRead s
    let (t, s) ← exeRead a s
    exeSections a n (mapSet name t ts) s

/-- The run-time `readTransducerSet` (file_utils.cc:134-145). -/
def exeSet (s : List UInt8) : Res ((List UInt32 × Alphabet × List (UString × TransExe)) × List UInt8) := do
  let (ls, a, s) ← readShared s
  let (n, s) := multibyteRead s
  let (ts, s) ← exeSections a n.toNat [] s
  pure ((ls, a, ts), s)

end Verif.BinIO
