import Verif.Compiler.Model
import Verif.Tools.Model
import Verif.Chain.Model

/-!
# Model of unified compilation (`lt-comp u`)

The branches of `lttoolbox/compiler.cc` for `unified_compilation`; the rest is in `Compiler`. Nothing is left out for its direction or its variants;
instead an entry with such attributes begins with control marks, which `lt-restrict` looks at later.
-/

namespace Verif.Unified

open Verif.Fst Verif.Compiler
open Verif.Expander (Attrs)
open Verif.Tools (mark preR preAlt preV preVl preVr)
open Verif.Compression (Dbl)

/-- The loop of `Compiler::symbolFilters` (compiler.cc:713-724). -/
def filterLoop (pre : UString) : List UString → Alphabet → Alphabet × List Int
  | [], a => (a, [])
  | it :: its, a =>
    if it = [] then filterLoop pre its a
    else
      let a := a.includeSymbol (mark pre it)
      let (b, syms) := filterLoop pre its a
      (b, a.symCode (mark pre it) :: syms)

/-- `Compiler::symbolFilters` (compiler.cc:709-726). -/
def symbolFilters (value pre : UString) (st : Alphabet × List (List Int)) : Alphabet × List (List Int) :=
  if value = [] then st
  else
    let (a, syms) := filterLoop pre ((Str.split value [0x20]).getD []) st.1
    if syms = [] then (a, st.2) else (a, st.2 ++ [syms])

/-- The calls of `symbolFilters` (compiler.cc:743-747). -/
def symbolsOf (at' : Attrs) (a : Alphabet) : Alphabet × List (List Int) :=
  let st := symbolFilters at'.r preR (a, [])
  let st := symbolFilters at'.alt preAlt st
  let st := symbolFilters at'.v preV st
  let st := symbolFilters at'.vl preVl st
  symbolFilters at'.vr preVr st

variable {N W : Type} [LinearOrder N] [Zero W] [DecidableEq W]

/-- The expression for several values (compiler.cc:769-778). -/
def classesOf (symbols : List (List Int)) : List Int :=
  symbols.flatMap fun it => if it.length = 1 then it else 0x5b :: it ++ [0x5d]

/-- The first element of the entry, if it has marks (compiler.cc:748-786). `parname` gives the name of the paradigm for several values, which is
made of the attributes; `j` is the weight in its token (see `CEntry.junk`). The expression has no weight; `setSingleTransduction` gives the weight 0. -/
def marks (parname : Attrs → N) (s : Settings) (j : W) (at' : Attrs) (symbols : List (List Int)) (c : Comp N W) :
    Res (List (W × Token N) × Comp N W) :=
  if symbols = [] then .ok ([], c)
  else if symbols.any (fun it => it.length > 1) then
    if (mapFind (parname at') c.pars).isNone then do
      let d ← insertEntryTokens s [(0, .re (classesOf symbols))] { c with current := some (parname at') }
      pure ([(j, .par (parname at'))], { d with current := c.current })
    else .ok ([(j, .par (parname at'))], c)
  else .ok ([(0, .text (symbols.map fun it => it.headD 0) (symbols.map fun it => it.headD 0))], c)

/-- `Compiler::procEntry` (compiler.cc:728-903) if `unified_compilation`. -/
def procEntry (parname : Attrs → N) (s : Settings) (e : CEntry N W) (c : Comp N W) : Res (Comp N W) :=
  if e.attrs.ignore = Expander.YES then .ok c
  else do
    let (a, symbols) := symbolsOf e.attrs c.alphabet
    let (pre, c) ← marks parname s e.junk e.attrs symbols { c with alphabet := a }
    match e.content with
    | none => .ok c
    | some es => if ← readTokens c es then insertEntryTokens s (pre ++ es.map (weigh e.weight e.junk)) c else pure c

end Verif.Unified

namespace Verif.Unified

open Verif.Fst Verif.Compiler
open Verif.Expander (Attrs)
open Verif.Compression (Dbl)

variable {N W : Type} [LinearOrder N] [Zero W] [LinearOrder W]

/-- `Compiler::procNode` (compiler.cc:905-992). -/
def procNode (parname : Attrs → N) (s : Settings) (n : Node N W) (c : Comp N W) : Res (Comp N W) :=
  match n with
  | .entry e => procEntry parname s e c
  | n => Compiler.procNode s n c

/-- The loop of `Compiler::parse` (compiler.cc:55-60). -/
def procNodes (parname : Attrs → N) (s : Settings) : List (Node N W) → Comp N W → Res (Comp N W)
  | [], c => .ok c
  | n :: ns, c => do procNodes parname s ns (← procNode parname s n c)

/-- `Compiler::parse` (compiler.cc:44-107) with the direction `u`: `direction` becomes `LR`. -/
def parse (parname : Attrs → N) (s : Settings) (ns : List (Node N W)) : Res (Alphabet × List (UString × Transducer W)) := do
  let c ← procNodes parname { s with rl := false } ns ({} : Comp N W)
  let secs ← minimizeAll c.secs
  if valid c.alphabet secs then pure (c.alphabet, secs) else .exit

/-- `lt-comp u` for a dictionary in XML (lt_comp.cc:135-174 without options; `Compiler::write`, compiler.cc:1011-1015), as `Chain.ltComp`. -/
def ltComp (g : W → Dbl) (isSpace : UInt16 → Bool) (parname : Attrs → N) (s : Settings) (text : UString) (ns : List (Node N W)) : Res (List UInt8) := do
  let (a, secs) ← parse parname s ns
  BinIO.writeSet (Chain.lettersOf isSpace text) a (Chain.storedAll g secs)

end Verif.Unified
