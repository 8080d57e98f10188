import Verif.Patterns.Model
import Mathlib.Data.List.Infix
import Mathlib.Data.List.Induction

/-! # What the patterns of a list stand for -/

namespace Verif.Patterns

/-- The symbols that begin a queue: `_`, a space and `#`. -/
def Opener (x : Int) : Prop := x = 0x5f ∨ x = 0x20 ∨ x = 0x23

/-- Neither a mark for any characters, for any tags nor for a queue. -/
def Codes.Plain (c : Codes) (x : Int) : Prop := x ≠ c.char ∧ x ≠ c.tag ∧ x ≠ c.queue

/-- The strings of symbols that the pattern stands for. A mark for any characters or tags is repeated at least once; a queue may be absent, or begins
with `_`, a space or `#`, after which come any characters. -/
inductive Stands (c : Codes) : List Int → List Int → Prop where
  | nil : Stands c [] []
  | plain {x : Int} {v w : List Int} : c.Plain x → Stands c v w → Stands c (x :: v) (x :: w)
  | any {x : Int} {v w : List Int} (n : Nat) : x = c.char ∨ x = c.tag → Stands c v w → Stands c (x :: v) (List.replicate (n + 1) x ++ w)
  | absent {v w : List Int} : Stands c v w → Stands c (c.queue :: v) w
  | queue {x : Int} {v w : List Int} (n : Nat) : Opener x → Stands c v w → Stands c (c.queue :: v) (x :: (List.replicate n c.char ++ w))

/-- A mark right after the same mark is left out. -/
def push (c : Codes) (v : List Int) (x : Int) : List Int :=
  if (x = c.char ∨ x = c.tag ∨ x = c.queue) ∧ v.getLast? = some x then v else v ++ [x]

/-- The pattern without repeated marks. -/
def norm (c : Codes) (v : List Int) : List Int := v.foldl (push c) []

/-- The beginnings of the patterns, without repeated marks. -/
def Begins (c : Codes) (ps : List (Int × List Int)) (u : List Int) : Prop := ∃ e ∈ ps, ∃ v, v <+: e.2 ∧ u = norm c v

/-- The marks are three different negative numbers. -/
structure Codes.Ok (c : Codes) : Prop where
  char : c.char < 0
  tag : c.tag < 0
  queue : c.queue < 0
  one : c.char ≠ c.tag
  two : c.char ≠ c.queue
  three : c.tag ≠ c.queue

/-- After a queue comes a plain symbol which does not begin a queue; and where a pattern has a queue, no pattern has what comes after it, or the
beginning of a queue. -/
def Tidy (c : Codes) (ps : List (Int × List Int)) : Prop :=
  (∀ u y, Begins c ps (u ++ [c.queue, y]) → c.Plain y ∧ ¬ Opener y) ∧
  ∀ u y, Begins c ps (u ++ [c.queue]) → Begins c ps (u ++ [y]) → c.Plain y → ¬ Opener y ∧ ¬ Begins c ps (u ++ [c.queue, y])

/-- Patterns with different numbers are different, also without a queue at the end. -/
def Apart (c : Codes) (ps : List (Int × List Int)) : Prop :=
  ∀ e ∈ ps, ∀ f ∈ ps, norm c e.2 = norm c f.2 ∨ norm c e.2 = norm c f.2 ++ [c.queue] → e.1 = f.1

/-- A pattern with this number stands for one of the strings that are made by choosing a symbol from each set. -/
def Fitting (c : Codes) (ps : List (Int × List Int)) (ss : List (List Int)) (id : Int) : Prop :=
  ∃ v w, (id, v) ∈ ps ∧ Stands c (norm c v) w ∧ List.Forall₂ (· ∈ ·) w ss

/-- The least number with the property, or -1. -/
def LeastOf (P : Int → Prop) (r : Int) : Prop := (P r ∧ ∀ id, P id → r ≤ id) ∨ (r = -1 ∧ ∀ id, ¬ P id)

end Verif.Patterns
