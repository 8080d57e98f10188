import Verif.Tools.Model
import Verif.Compression.Model

/-!
# Model of `readACX` in `lttoolbox/acx.cc` and of the tool `lt-apply-acx`

The file is taken as the tree that libxml2 makes of it. Of an element there is its name, the value of its attribute `value` (the contents of the first node
below the attribute, after `to_ustring`) and the elements below it; other attributes and nodes that are not elements are passed over by the code
(xml_walk_util.cc:4-10, 20-30, 81-90).
-/

namespace Verif.Acx

open Verif.Fst
open Verif.Compression (vec32)

/-- An element below a `char` element. What is below it is not looked at. -/
structure Leaf where
  name : UString
  value : Option UString
  deriving DecidableEq

/-- An element below the root. -/
structure Node where
  name : UString
  value : Option UString
  below : List Leaf
  deriving DecidableEq

/-- `char` and `equiv-char` (acx.cc:20-21). -/
def charNode : UString := [0x63, 0x68, 0x61, 0x72]
def equivNode : UString := [0x65, 0x71, 0x75, 0x69, 0x76, 0x2d, 0x63, 0x68, 0x61, 0x72]

/-- `get_val` (acx.cc:24-36) with `getattr` (xml_walk_util.cc:81-90), which gives the empty string for an attribute that is not there. `error_and_die`
(xml_walk_util.cc:66-79) ends the program. -/
def getVal (value : Option UString) : Res Int :=
  let s := value.getD []
  if s = [] then .exit
  else if 1 < (vec32 s).length then .exit
  else match vec32 s with
    | [] => .ub
    | c :: _ => .ok c.toNat

/-- The loop over the elements below a `char` element (acx.cc:48-54). -/
def readEquivs : List Leaf → List Int → Res (List Int)
  | [], vec => .ok vec
  | e :: es, vec =>
    if e.name ≠ equivNode then .exit
    else do
      let z ← getVal e.value
      readEquivs es (setInsert z vec)

/-- `acx.insert({key, vec})` (acx.cc:56): `std::map::insert` leaves a key that is there as it is. -/
def tableInsert (key : Int) (vec : List Int) (acx : List (Int × List Int)) : List (Int × List Int) :=
  match mapFind key acx with
  | none => mapSet key vec acx
  | some _ => acx

/-- The loop over the elements below the root (acx.cc:42-58). -/
def readNodes : List Node → List (Int × List Int) → Res (List (Int × List Int))
  | [], acx => .ok acx
  | c :: cs, acx =>
    if c.name ≠ charNode then .exit
    else do
      let key ← getVal c.value
      let vec ← readEquivs c.below []
      readNodes cs (if vec = [] then acx else tableInsert key vec acx)

/-- `readACX` (acx.cc:38-61) of a file whose root has these elements below it. The name of the root is not looked at. -/
def readACX (root : List Node) : Res (List (Int × List Int)) := readNodes root []

/-- `main` of lt-apply-acx (lt_apply_acx.cc:35-46). -/
def ltApplyAcx (input : List UInt8) (root : List Node) : Res (List UInt8) := do
  let acx ← readACX root
  let ((letters, a, ts), _) ← BinIO.readSet input
  let (a, ts) ← Tools.eachSection (fun a t => applyACX a acx t) ts a
  BinIO.writeSetL letters a ts

end Verif.Acx
