import Verif.State.Model

/-!
# Model of the sequences of `State`: memory and pool

In `Verif/State/Model.lean` a state owns its sequence. In the code it has a pointer to a vector, vectors that are not
needed are kept in `sequence_pool`, and `destroy` deletes them. Here memory is a list of cells; an address is an index;
a deleted cell is `none`. Reading, writing or deleting a cell that is not there is undefined.

Every `apply` of the code makes, for one alive state, a list of new states whose sequences are copied from it and
perhaps prolonged, and then releases its sequence. The list is a parameter here (`Spawn`); `Verif/State/PoolProps.lean`
has the lists of the functions of the model. `init` drops the pointers of earlier states without deleting the vectors
(state.cc:113-120); they stay allocated here as well. `step_optional`, `restartFinals` and `merge` of an object with
itself are not modelled here.
-/

namespace Verif.State

variable {W : Type}

/-- What a vector of `State` holds. -/
abbrev Sequence (W : Type) := List (Int × W)

/-- Memory. -/
abbrev Cells (W : Type) := List (Option (Sequence W))

/-- `State::TNodeState` with the address of its sequence (state.h:46-68). -/
structure HRec where
  node : Nat
  addr : Nat
  dirty : Bool
deriving DecidableEq

/-- The two vectors of `State` (state.h:70-72). -/
structure HState where
  recs : List HRec
  pool : List Nat
deriving DecidableEq

/-- Reads through a pointer. -/
def cellGet (c : Cells W) (a : Nat) : Res (Sequence W) :=
  match c[a]? with
  | some (some s) => .ok s
  | _ => .ub

/-- Writes through a pointer. -/
def cellSet (c : Cells W) (a : Nat) (s : Sequence W) : Res (Cells W) :=
  match c[a]? with
  | some (some _) => .ok (c.set a (some s))
  | _ => .ub

/-- `delete`. -/
def cellDelete (c : Cells W) (a : Nat) : Res (Cells W) :=
  match c[a]? with
  | some (some _) => .ok (c.set a none)
  | _ => .ub

/-- Deletes several. -/
def cellDeletes (c : Cells W) : List Nat → Res (Cells W)
  | [] => .ok c
  | a :: as => do
    let c ← cellDelete c a
    cellDeletes c as

/-- `State::new_sequence` (state.cc:70-78). -/
def newSequence (c : Cells W) (pool : List Nat) : Cells W × List Nat × Nat :=
  match pool.getLast? with
  | none => (c ++ [some []], [], c.length)
  | some a => (c, pool.dropLast, a)

/-- A new sequence with the contents of another, changed by `f` (for example state.cc:130-135, 296-301, 971-972). -/
def spawn (c : Cells W) (pool : List Nat) (src : Nat) (f : Sequence W → Sequence W) : Res (Cells W × List Nat × Nat) :=
  match newSequence c pool with
  | (c, pool, a) => do
    let s ← cellGet c src
    let c ← cellSet c a (f s)
    pure (c, pool, a)

/-- New states: node, what becomes of the sequence, mark. -/
abbrev Spawn (W : Type) := Nat × (Sequence W → Sequence W) × Bool

/-- The loop over the destinations (state.cc:128-137, 150-167, 294-303). -/
def spawnAll (src : Nat) : List (Spawn W) → Cells W → List Nat → Res (Cells W × List Nat × List HRec)
  | [], c, pool => .ok (c, pool, [])
  | (n, f, d) :: l, c, pool => do
    let (c, pool, a) ← spawn c pool src f
    let (c, pool, rs) ← spawnAll src l c pool
    pure (c, pool, { node := n, addr := a, dirty := d } :: rs)

/-- The loop of the `apply` functions (state.cc:181-189 and the like). -/
def hApplyLoop (succ : Nat → Bool → List (Spawn W)) : List HRec → Cells W → List Nat → Res (Cells W × List Nat × List HRec)
  | [], c, pool => .ok (c, pool, [])
  | r :: rs, c, pool => do
    let (c, pool, new) ← spawnAll r.addr (succ r.node r.dirty) c pool
    let (c, pool, more) ← hApplyLoop succ rs c (pool ++ [r.addr])
    pure (c, pool, new ++ more)

/-- The `apply` functions (state.cc:173-372). -/
def hApply (succ : Nat → Bool → List (Spawn W)) (c : Cells W) (s : HState) : Res (Cells W × HState) := do
  let (c, pool, rs) ← hApplyLoop succ s.recs c s.pool
  pure (c, { recs := rs, pool := pool })

/-- `State::epsilonClosure` (state.cc:287-307). -/
def hClosureLoop (succ : Nat → Bool → List (Spawn W)) : (fuel i : Nat) → Cells W → HState → Option (Res (Cells W × HState))
  | fuel, i, c, s =>
    match s.recs[i]? with
    | none => some (.ok (c, s))
    | some r =>
      match fuel with
      | 0 => none
      | fuel + 1 =>
        match spawnAll r.addr (succ r.node r.dirty) c s.pool with
        | .ok (c, pool, new) => hClosureLoop succ fuel (i + 1) c { recs := s.recs ++ new, pool := pool }
        | .exit => some .exit
        | .exception => some .exception
        | .ub => some .ub

/-- `State::destroy` (state.cc:54-68). -/
def hDestroy (c : Cells W) (s : HState) : Res (Cells W × HState) := do
  let c ← cellDeletes c (s.recs.map (·.addr))
  let c ← cellDeletes c s.pool
  pure (c, { recs := [], pool := [] })

/-- The last loop of `State::copy` (state.cc:98-104), and `State::merge` (state.cc:966-975): copies of the states of
another object. -/
def hCopies : List HRec → Cells W → List Nat → Res (Cells W × List Nat × List HRec)
  | [], c, pool => .ok (c, pool, [])
  | r :: rs, c, pool => do
    let (c, pool, a) ← spawn c pool r.addr id
    let (c, pool, more) ← hCopies rs c pool
    pure (c, pool, { r with addr := a } :: more)

/-- `State::copy` (state.cc:85-105). It deletes the vectors of the pool but leaves their addresses in it. -/
def hCopy (c : Cells W) (s other : HState) : Res (Cells W × HState) := do
  let c ← cellDeletes c (s.recs.map (·.addr))
  let c ← cellDeletes c s.pool
  let (c, pool, rs) ← hCopies other.recs c s.pool
  pure (c, { recs := rs, pool := pool })

/-- `State::operator=` (state.cc:42-51) for another object. -/
def hAssign (c : Cells W) (s other : HState) : Res (Cells W × HState) := do
  let (c, s) ← hDestroy c s
  hCopy c s other

/-- `State::merge` (state.cc:966-975) with another object. -/
def hMerge (c : Cells W) (s other : HState) : Res (Cells W × HState) := do
  let (c, pool, rs) ← hCopies other.recs c s.pool
  pure (c, { recs := s.recs ++ rs, pool := pool })

/-- The erasing loops of `pruneCompounds` and `pruneStatesWithForbiddenSymbol` (state.cc:813-827, 837-856): the choice
depends on the contents. -/
def hPrune (keep : Rec W → Bool) : List HRec → Cells W → List Nat → Res (List Nat × List HRec)
  | [], _, pool => .ok (pool, [])
  | r :: rs, c, pool => do
    let s ← cellGet c r.addr
    if keep { node := r.node, seq := s, dirty := r.dirty } then do
      let (pool, more) ← hPrune keep rs c pool
      pure (pool, r :: more)
    else hPrune keep rs c (pool ++ [r.addr])

/-- The beginning of `State::init` (state.cc:115-118). -/
def hInit (q : Nat) (c : Cells W) (s : HState) : Res (Cells W × HState) :=
  match newSequence c s.pool with
  | (c, pool, a) => do
    let c ← cellSet c a []
    pure (c, { recs := [{ node := q, addr := a, dirty := false }], pool := pool })

/-- What can be done to an object: a call, or the part of one that is between two loops. -/
inductive Action (W : Type) where
  | init (q : Nat)
  | apply (succ : Nat → Bool → List (Spawn W))
  | closure (succ : Nat → Bool → List (Spawn W)) (fuel : Nat)
  | prune (keep : Rec W → Bool)
  | merge
  | assign
  | destroy

/-- Performs an action on `s`, with `other` as the other object. A closure that does not end is not modelled further:
the result `none`. -/
def act (x : Action W) (c : Cells W) (s other : HState) : Option (Res (Cells W × HState)) :=
  match x with
  | .init q => some (hInit q c s)
  | .apply succ => some (hApply succ c s)
  | .closure succ fuel => hClosureLoop succ fuel 0 c s
  | .prune keep => some (do
      let (pool, rs) ← hPrune keep s.recs c s.pool
      pure (c, { recs := rs, pool := pool }))
  | .merge => some (hMerge c s other)
  | .assign => some (hAssign c s other)
  | .destroy => some (hDestroy c s)

/-- Actions on two objects in one memory. -/
def acts : List (Bool × Action W) → Cells W → HState → HState → Option (Res (Cells W × HState × HState))
  | [], c, s, t => some (.ok (c, s, t))
  | (first, x) :: xs, c, s, t =>
    match (if first then act x c s t else act x c t s) with
    | none => none
    | some (.ok (c, u)) => if first then acts xs c u t else acts xs c s u
    | some .exit => some .exit
    | some .exception => some .exception
    | some .ub => some .ub

end Verif.State
