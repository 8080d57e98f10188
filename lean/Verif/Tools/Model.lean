import Verif.BinIO.Model
import Verif.Labels.Model
import Verif.Str.Model

/-!
# Model of the tools `lt-invert`, `lt-append` and `lt-restrict`

A tool is a function from the contents of its input files to the contents of its output file. The options are taken as they are after `cli.parse_args`;
the options that are strings are taken after `to_ustring`. Messages on the error stream are left out.
-/

namespace Verif.Tools

open Verif.Fst
open Verif.Compression (Dbl)

section
variable {W : Type}

/-- The loop `for (auto& it : trans)` of the tools (lt_invert.cc:40-42, lt_restrict.cc:103-112): the operation changes the transducers one after the other
and may change the alphabet. -/
def eachSection (op : Alphabet → Transducer W → Res (Alphabet × Transducer W)) :
    List (UString × Transducer W) → Alphabet → Res (Alphabet × List (UString × Transducer W))
  | [], a => .ok (a, [])
  | (k, t) :: ts, a => do
    let (a, t) ← op a t
    let (a, ts) ← eachSection op ts a
    pure (a, (k, t) :: ts)

end

/-- `main` of lt-invert (lt_invert.cc:35-45). -/
def ltInvert (input : List UInt8) : Res (List UInt8) := do
  let ((letters, a, ts), _) ← BinIO.readSet input
  let (a, ts) ← eachSection invert ts a
  BinIO.writeSetL letters a ts

/-- The loop of lt-append over the sections of the second file (lt_append.cc:54-64): the alphabet and the sections of the first file. -/
def appendLoop (keep pairs : Bool) (alpha2 : Alphabet) : List (UString × Transducer Dbl) → Alphabet × List (UString × Transducer Dbl) →
    Res (Alphabet × List (UString × Transducer Dbl))
  | [], st => .ok st
  | (k, t) :: ts, (alpha1, trans1) =>
    if (mapFind k trans1).isSome && keep then appendLoop keep pairs alpha2 ts (alpha1, trans1)
    else do
      let (alpha1, t) ← updateAlphabet alpha2 alpha1 pairs t
      appendLoop keep pairs alpha2 ts (alpha1, mapSet k t trans1)

/-- `main` of lt-append (lt_append.cc:42-66). The letters are a `std::set`, and `UString(begin, end)` takes 16 bits of each. -/
def ltAppend (keep single : Bool) (input1 input2 : List UInt8) : Res (List UInt8) := do
  let ((chars1, alpha1, trans1), _) ← BinIO.readSet input1
  let ((chars2, alpha2, trans2), _) ← BinIO.readSet input2
  let chars := chars2.foldl (fun cs c => setInsert c cs) chars1
  let (alpha1, trans1) ← appendLoop keep (!single) alpha2 trans2 (alpha1, trans1)
  BinIO.writeSetL chars alpha1 trans1

/-! ## `lt-restrict` -/

/-- The options of lt-restrict (lt_restrict.cc:41-53). `dir` is the first argument after `lr` and `rl` have become `LR` and `RL`. -/
structure Choice where
  dir : UString
  vars : List UString := []
  alts : List UString := []
  lefts : List UString := []
  rights : List UString := []
  deriving DecidableEq

/-- `LR` and `RL`. -/
def LR : UString := [0x4c, 0x52]
def RL : UString := [0x52, 0x4c]

/-- The prefixes `r`, `v`, `alt`, `vl` and `vr`. -/
def preR : UString := [0x72]
def preV : UString := [0x76]
def preAlt : UString := [0x61, 0x6c, 0x74]
def preVl : UString := [0x76, 0x6c]
def preVr : UString := [0x76, 0x72]

/-- The text of a mark (lt_restrict.cc:26-31). -/
def mark (pre s : UString) : UString := 0x3c :: pre ++ [0x3a] ++ s ++ [0x3e]

/-- `get_symbol` (lt_restrict.cc:23-35). A `sorted_vector` is kept as a sorted list without repetitions, as in `SortedVec`. -/
def markSymbol (pre s : UString) (st : Alphabet × List Int) : Alphabet × List Int :=
  if st.1.isSymbolDefined (mark pre s) then
    let c := st.1.symCode (mark pre s)
    ((st.1.pairCode c c).2, setInsert (st.1.pairCode c c).1 st.2)
  else st

/-- The calls of `get_symbol` (lt_restrict.cc:65-78): the alphabet and `keep`. -/
def chosenSymbols (ch : Choice) (a : Alphabet) : Alphabet × List Int :=
  let st := markSymbol preR ch.dir (a, [])
  let st := ch.vars.foldl (fun st s => markSymbol preV s st) st
  let st := ch.alts.foldl (fun st s => markSymbol preAlt s st) st
  let st := ch.lefts.foldl (fun st s => markSymbol preVl s st) st
  ch.rights.foldl (fun st s => markSymbol preVr s st) st

/-- `startswith(t, u"<" prefix ":")` of the conditions. -/
def beginsMark (pre t : UString) : Res Bool := Str.startswith t (0x3c :: pre ++ [0x3a])

/-- The condition of lt_restrict.cc:83-87. -/
def isMark (hasVar : Bool) (t : UString) : Res Bool := do
  let r ← beginsMark preR t
  let v ← beginsMark preV t
  let alt ← beginsMark preAlt t
  let vl ← beginsMark preVl t
  let vr ← beginsMark preVr t
  pure (r || (hasVar && v) || alt || vl || vr)

/-- The loop over the tags (lt_restrict.cc:80-95) from tag `i` on, `n` of them being left: the alphabet, `keep` and `drop`. -/
def sortMarks (hasVar : Bool) : (n i : Nat) → Alphabet × List Int × List Int → Res (Alphabet × List Int × List Int)
  | 0, _, st => .ok st
  | n + 1, i, (a, keep, drop) => do
    let t ← a.getSymbol (-(i : Int))
    if ← isMark hasVar t then
      let (s, a) := a.pairCode (-(i : Int)) (-(i : Int))
      if s ∈ keep then sortMarks hasVar n (i + 1) (a, keep, drop)
      else sortMarks hasVar n (i + 1) (a, keep, setInsert s drop)
    else if !hasVar && (← beginsMark preV t) then
      let (s, a) := a.pairCode (-(i : Int)) (-(i : Int))
      sortMarks hasVar n (i + 1) (a, setInsert s keep, drop)
    else sortMarks hasVar n (i + 1) (a, keep, drop)

section
variable {W : Type}

/-- One turn of the last loop (lt_restrict.cc:104-108) without `minimize`. -/
def restrictOne (rl : Bool) (keep drop : List Int) (a : Alphabet) (t : Transducer W) : Res (Alphabet × Transducer W) := do
  let t ← epsilonizeSymbols keep (deleteSymbols drop t)
  if rl then invert a t else pure (a, t)

/-- `main` of lt-restrict between reading and writing (lt_restrict.cc:62-112), without `-m`. -/
def restrictAll (ch : Choice) (a : Alphabet) (ts : List (UString × Transducer W)) : Res (Alphabet × List (UString × Transducer W)) := do
  let (a, keep) := chosenSymbols ch a
  let (a, keep, drop) ← sortMarks (!ch.vars.isEmpty) a.size 1 (a, keep, [])
  eachSection (restrictOne (ch.dir = RL) keep drop) ts a

end

/-- `main` of lt-restrict (lt_restrict.cc:51-119) without `-m` and with `LT_RELEASE` not set. -/
def ltRestrict (ch : Choice) (input : List UInt8) : Res (List UInt8) := do
  let ((letters, a, ts), _) ← BinIO.readSet input
  let (a, ts) ← restrictAll ch a ts
  BinIO.writeSetL letters a ts

end Verif.Tools
