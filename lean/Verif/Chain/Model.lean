import Verif.Compiler.Model
import Verif.Load.Model

/-! # From a dictionary to a compiled file -/

namespace Verif.Chain

open Verif.Fst (Transducer)
open Verif.Compression (Dbl)

variable {N V : Type}

/-- A section with other weights. For writing, `g` gives the double for each weight of the model (`write`, transducer.cc:573-639). -/
def stored {D : Type} (g : V → D) (t : Transducer V) : Transducer D :=
  { initial := t.initial
    finals := t.finals.map fun e => (e.1, g e.2)
    transitions := t.transitions.map fun e => (e.1, e.2.map fun x => (x.1, x.2.1, g x.2.2)) }

/-- All sections with other weights. -/
def storedAll {D : Type} (g : V → D) (secs : List (UString × Transducer V)) : List (UString × Transducer D) := secs.map fun e => (e.1, stored g e.2)

/-- `Compiler::procAlphabet` (compiler.cc:143-173) for the text of the element `<alphabet>`: blank text counts as none. -/
def lettersOf (isSpace : UInt16 → Bool) (text : UString) : UString := if text.all isSpace then [] else text

/-- `lt-comp` for a dictionary in XML (lt_comp.cc:135-174 without options; `Compiler::write`, compiler.cc:1011-1015): `parse`, and what is
written to the file. The text of `<alphabet>` does not take part in `parse`. -/
def ltComp [LinearOrder N] [Zero V] [LinearOrder V] (g : V → Dbl) (isSpace : UInt16 → Bool) (s : Compiler.Settings) (text : UString)
    (ns : List (Compiler.Node N V)) : Res (List UInt8) := do
  let (a, secs) ← Compiler.parse s ns
  BinIO.writeSet (lettersOf isSpace text) a (storedAll g secs)

end Verif.Chain
