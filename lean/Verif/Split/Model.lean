import Verif.Compiler.Model

/-!
# Model of the splitting of sections in `lttoolbox/compiler.cc`

`Compiler.Model` has `max_section_entries` zero. Here it is any number `m`, and the member `n_section_entries` is kept beside the other members. It is a
`size_t` that no file can make overflow.
-/

namespace Verif.Split

open Verif.Fst Verif.Compiler

variable {W : Type} [LinearOrder W] [Zero W] {N : Type} [LinearOrder N]

/-- What `procNode` does before `procEntry` (compiler.cc:971-976). The name of the current section is longer by a `+` after every `m`-th entry. -/
def countEntry (m : Nat) (c : Comp N W) (n : Nat) : Comp N W × Nat :=
  match c.current with
  | some _ => (c, n)
  | none => if 0 < m ∧ (n + 1) % m = 0 then ({ c with sect := 0x2b :: c.sect }, n + 1) else (c, n + 1)

/-- `Compiler::procNode` (compiler.cc:919-992) with the counter. Both tags of a section set it to zero (compiler.cc:979-983). -/
def procNodeMax (s : Settings) (m : Nat) (nd : Node N W) (c : Comp N W) (n : Nat) : Res (Comp N W × Nat) :=
  match nd with
  | .entry e => do
    let (c, n) := countEntry m c n
    let c ← procEntry s e c
    pure (c, n)
  | .secOpen k => do
    let c ← procNode s (.secOpen k) c
    pure (c, 0)
  | .secClose => do
    let c ← procNode s .secClose c
    pure (c, 0)
  | nd => do
    let c ← procNode s nd c
    pure (c, n)

/-- The loop of `Compiler::parse` (compiler.cc:55-60). -/
def procNodesMax (s : Settings) (m : Nat) : List (Node N W) → Comp N W → Nat → Res (Comp N W × Nat)
  | [], c, n => .ok (c, n)
  | nd :: ns, c, n => do
    let (c, n) ← procNodeMax s m nd c n
    procNodesMax s m ns c n

/-- `Compiler::parse` (compiler.cc:44-107) after `setMaxSectionEntries(m)`. -/
def parseMax (s : Settings) (m : Nat) (ns : List (Node N W)) : Res (Alphabet × List (UString × Transducer W)) := do
  let (c, _) ← procNodesMax s m ns ({} : Comp N W) 0
  let secs ← minimizeAll c.secs
  if valid c.alphabet secs then pure (c.alphabet, secs) else .exit

/-- What lt-comp sets (lt_comp.cc:85-96): `jobs` is whether the option or the variable `LT_JOBS` asks for threads, `env` is the number in
`LT_MAX_SECTION_ENTRIES`, which is taken as `size_t`. -/
def maxEntries (jobs : Bool) (env : Option Int) : Nat :=
  match env with
  | some k => (k % 2 ^ 64).toNat
  | none => if jobs then 50000 else 0

end Verif.Split
