import Verif.Alphabet.Model

/-!
# Model of threads that share an alphabet

With the variable `LT_JOBS`, lt-compose starts one thread for each section of the first file (lt_compose.cc:56-73), and all of them get a reference to the same
alphabet. `Transducer::compose` asks it for the codes of pairs (transducer.cc:1465, 1512), which may add pairs to it. Nothing locks the alphabet.

Two threads that write to a `std::map` at the same time are undefined behaviour in C++. This model is kinder: each statement of `Alphabet::operator()` is done as a
whole, and only the order of the statements of different threads is open. What goes wrong here goes wrong in the code. Of each thread, only the pairs that it asks
for are kept, in order; in the code this list does not depend on the codes that the other threads get as long as all codes are right. Symbols that `composeLabel`
adds are not modelled.
-/

namespace Verif.Shared

open Verif Alphabet Verif.Compression

/-- The statement of `Alphabet::operator()(c1, c2)` (alphabet.cc:85-97) that comes next. -/
inductive At where
  /-- the search, alphabet.cc:89 -/
  | search
  /-- `spair_size = spair.size()`, alphabet.cc:91 -/
  | size
  /-- `spair[tmp] = spair_size`, alphabet.cc:92, with the value of the local variable -/
  | store (n : Nat)
  /-- `spairinv.push_back(tmp)`, alphabet.cc:93 -/
  | push
  /-- `return spair[tmp]`, alphabet.cc:96 -/
  | answer
  deriving DecidableEq

/-- A thread of lt-compose (lt_compose.cc:57-69) as seen from the alphabet: the pairs whose codes it still needs, where it is in the call for the first of them, and
the codes that it has got. -/
structure Thread where
  todo : List Pair
  pc : At
  codes : List Int

/-- A thread at its beginning. -/
def Thread.start (ps : List Pair) : Thread := ⟨ps, .search, []⟩

/-- The next statement of a thread (alphabet.cc:85-97). `spair[tmp]` adds a zero if the pair is not there; here it is always there, and the model gives zero. -/
def step (a : Alphabet) (t : Thread) : Alphabet × Thread :=
  match t.todo with
  | [] => (a, t)
  | p :: ps => match t.pc with
    | .search => if (mapFind (toLex p) a.spair).isSome then (a, { t with pc := .answer }) else (a, { t with pc := .size })
    | .size => (a, { t with pc := .store a.spair.length })
    | .store n => ({ a with spair := mapSet (toLex p) (n : Int) a.spair }, { t with pc := .push })
    | .push => ({ a with spairinv := a.spairinv ++ [p] }, { t with pc := .answer })
    | .answer => (a, ⟨ps, .search, t.codes ++ [(mapFind (toLex p) a.spair).getD 0]⟩)

/-- The threads can take the alphabet from one state to another: at each moment any thread that is not finished does its next statement. -/
inductive Run : Alphabet → List Thread → Alphabet → List Thread → Prop
  | refl {a : Alphabet} {ts : List Thread} : Run a ts a ts
  | step {a b : Alphabet} {pre post us : List Thread} {t : Thread} (h : t.todo ≠ [])
      (hr : Run (step a t).1 (pre ++ (step a t).2 :: post) b us) : Run a (pre ++ t :: post) b us

/-- All threads have ended (lt_compose.cc:86-87 waits for this). -/
def Finished (ts : List Thread) : Prop := ∀ t ∈ ts, t.todo = []

end Verif.Shared
