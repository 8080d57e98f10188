import Verif.Trans.Model

/-!
# Model of `FSTProcessor::lookup` in `lttoolbox/fst_processor.cc`

The conventions are those of `Verif.Trans.Model`: the word is the whole of a `UString`.
-/

namespace Verif.Trans

open Verif.State Verif.Gen

variable {W : Type}

/-- The loop over the symbols (fst_processor.cc:2493-2498). The step is that of `step_biltrans`, with the truth value as a symbol. -/
def lookupLoop (σ : Setting W) (n : Nat) : List UString → List (Rec W) → Res (List (Rec W))
  | [], st => .ok st
  | p :: ps, st => do
    let st ← stepIf (flagStep σ n) (valOf σ.alphabet p) st
    lookupLoop σ n ps st

/-- `FSTProcessor::lookup` (fst_processor.cc:2487-2505): what it puts in `result`. It returns whether that is not empty. -/
def lookup [Zero W] [Add W] [LinearOrder W] (σ : Setting W) (n : Nat) (w : UString) : Res (List UString) := do
  let st ← ended (State.init σ.graph n σ.root)
  let cs ← cases σ w 0
  let ps ← Alphabet.pieces 0 w
  let st ← lookupLoop σ n ps st
  results σ cs.2 cs.1 st

end Verif.Trans
