import Verif.Base
import Verif.Data.Units
import Verif.Data.Assoc
import Verif.Dict.Spec
import Mathlib.Order.Defs.LinearOrder

/-!
# Model of `lttoolbox/expander.cc`

The model starts after libxml2 and `readString`: an entry is its attributes and the list of its parts, where `<p>`, `<i>`, `<ig>`
and `<re>` are pairs of texts and `<par>` is a name. Blank text and comments between the parts are not represented. Names are
any ordered type; the empty name, which the code uses for "outside a paradigm", is `none`.
-/

namespace Verif.Expander

open Verif.Dict (Dir Elem)

/-- `EntList` (expander.h:26). -/
abbrev EntList := List (UString × UString)

/-- The inner loop of `append` (expander.cc:605-609). -/
def appendInner (it : UString × UString) : EntList → EntList → EntList
  | [], temp => temp
  | it2 :: endings, temp => appendInner it endings (temp ++ [(it.1 ++ it2.1, it.2 ++ it2.2)])

/-- The outer loop of `append` (expander.cc:603-610). -/
def appendOuter (endings : EntList) : EntList → EntList → EntList
  | [], temp => temp
  | it :: result, temp => appendOuter endings result (appendInner it endings temp)

/-- `Expander::append(EntList &, EntList const &)` (expander.cc:597-613). -/
def append (result endings : EntList) : EntList := appendOuter endings result []

/-- `Expander::append(EntList &, std::pair<UString, UString> const &)` (expander.cc:625-634) and, with equal sides,
`Expander::append(EntList &, UStringView)` (expander.cc:615-623). -/
def appendPair (result : EntList) (p : UString × UString) : EntList := result.map fun it => (it.1 ++ p.1, it.2 ++ p.2)

/-- The attributes of an entry that matter (expander.cc:329-335). -/
structure Attrs where
  r : UString := []
  ignore : UString := []
  alt : UString := []
  v : UString := []
  vl : UString := []
  vr : UString := []
  deriving DecidableEq

/-- The settings of the object (expander.h:40-57). -/
structure Settings where
  alt : UString := []
  variant : UString := []
  left : UString := []
  right : UString := []
  deriving DecidableEq

def LR : UString := [0x4c, 0x52]
def RL : UString := [0x52, 0x4c]
def YES : UString := [0x79, 0x65, 0x73]

/-- The entry is passed over (expander.cc:338-343). -/
def skipped (s : Settings) (a : Attrs) : Bool :=
  a.ignore == YES
    || (a.alt != [] && a.alt != s.alt)
    || (a.v != [] && a.v != s.variant && a.r == RL)
    || ((a.vl != [] && a.vl != s.left) && (a.vr != [] && a.vr != s.right))
    || (a.vl != [] && a.vl != s.left && a.r == RL)
    || (a.vr != [] && a.vr != s.right && a.r == LR)

/-- The list that the entry starts in (expander.cc:361-375). -/
def startDir (s : Settings) (a : Attrs) : Dir :=
  if a.r == LR || (a.v != [] && a.v != s.variant && a.r != RL) || (a.vl != [] && a.vl != s.left) then .lr
  else if a.r == RL || (a.vr != [] && a.vr != s.right) then .rl
  else .both

/-- An entry of the file. -/
structure XEntry (N : Type) where
  attrs : Attrs
  elems : List (Elem N UInt16)
  deriving DecidableEq

/-- The three lists of an entry or paradigm: `items`, `items_lr`, `items_rl`. -/
structure Items where
  both : EntList := []
  lr : EntList := []
  rl : EntList := []
  deriving DecidableEq

section
variable {N : Type} [LinearOrder N]

/-- The data members that change (expander.h:62-82). `par n` is `paradigm[n]`, `paradigm_lr[n]` and `paradigm_rl[n]`; the three
maps get their keys at the same time (expander.cc:491-496), so they are one map here. Keys that `operator[]` creates while
reading are left out: they are read only after one of the maps was found to have the key. -/
structure Expander (N : Type) where
  current : Option N := none
  pars : List (N × Items) := []
  deriving DecidableEq

/-- The loop of `procEntry` (expander.cc:377-514). `none`: the entry was dropped because of an empty paradigm
(expander.cc:434-438 and 446-450), for which nothing but the end of the entry may follow. -/
def procElems (r : UString) (pars : List (N × Items)) : List (Elem N UInt16) → Items → Res (Option Items)
  | [], it => .ok (some it)
  | .text a b :: es, it =>
    procElems r pars es ⟨appendPair it.both (a, b), appendPair it.lr (a, b), appendPair it.rl (a, b)⟩
  | .par n :: es, it =>
    match mapFind n pars with
    | none => .exit
    | some p =>
      if r = LR then
        if p.both.length = 0 ∧ p.lr.length = 0 then (if es = [] then .ok none else .exit)
        else procElems r pars es { it with lr := append it.lr p.lr ++ append it.lr p.both }
      else if r = RL then
        if p.both.length = 0 ∧ p.rl.length = 0 then (if es = [] then .ok none else .exit)
        else procElems r pars es { it with rl := append it.rl p.rl ++ append it.rl p.both }
      else
        let lr := if p.lr.length > 0 then it.lr ++ it.both else it.lr
        let rl := if p.rl.length > 0 then it.rl ++ it.both else it.rl
        procElems r pars es ⟨append it.both p.both, append lr p.lr, append rl p.rl⟩

/-- The lists at the start of an entry (expander.cc:360-375). -/
def startItems : Dir → Items
  | .both => { both := [([], [])] }
  | .lr => { lr := [([], [])] }
  | .rl => { rl := [([], [])] }

/-- The lines that are printed for an entry of a section (expander.cc:474-488). -/
def printed (it : Items) : List (Dir × UString × UString) :=
  it.both.map (fun p => (.both, p)) ++ it.lr.map (fun p => (.lr, p)) ++ it.rl.map (fun p => (.rl, p))

/-- `Expander::procEntry` (expander.cc:326-515): the new state and the output. -/
def procEntry (s : Settings) (e : XEntry N) (x : Expander N) : Res (Expander N × List (Dir × UString × UString)) :=
  if skipped s e.attrs then .ok (x, [])
  else do
    match ← procElems e.attrs.r x.pars e.elems (startItems (startDir s e.attrs)) with
    | none => .ok (x, [])
    | some it =>
      match x.current with
      | none => .ok (x, printed it)
      | some n =>
        .ok ({ x with pars := mapModify {} n (fun p => ⟨p.both ++ it.both, p.lr ++ it.lr, p.rl ++ it.rl⟩) x.pars }, [])

/-- The events of `procNode` (expander.cc:517-570) that do something. -/
inductive Node (N : Type)
  | parOpen (n : N)
  | parClose
  | entry (e : XEntry N)

/-- `Expander::expand` (expander.cc:36-54) with `procNode` and `procParDef` (expander.cc:56-69). -/
def expand (s : Settings) : List (Node N) → Expander N → Res (Expander N × List (Dir × UString × UString))
  | [], x => .ok (x, [])
  | .parOpen n :: ns, x => expand s ns { x with current := some n }
  | .parClose :: ns, x => expand s ns { x with current := none }
  | .entry e :: ns, x => do
    let (x, o) ← procEntry s e x
    let (x, os) ← expand s ns x
    .ok (x, o ++ os)

end

end Verif.Expander
