/-!
# Results of modelled C++ functions

A modelled function returns `Res α`. `ok` is a normal return; the other constructors are the ways in
which the C++ function can fail to return, kept apart from each other.
-/

namespace Verif

/-- Outcome of a C++ call. `exit`: the process terminates with `exit(EXIT_FAILURE)` after a message;
`exception`: a C++ exception leaves the function; `ub`: the C++ text has undefined behaviour on this
input (out-of-bounds access, over-wide shift, read of an uninitialised variable, ...). -/
inductive Res (α : Type) where
  | ok (a : α)
  | exit
  | exception
  | ub
deriving Repr, DecidableEq

namespace Res

/-- Sequencing: the first failure wins. -/
def bind {α β : Type} (x : Res α) (f : α → Res β) : Res β :=
  match x with
  | .ok a => f a
  | .exit => .exit
  | .exception => .exception
  | .ub => .ub

instance : Monad Res where
  pure := Res.ok
  bind := Res.bind

@[simp] theorem pure_eq {α : Type} (a : α) : (pure a : Res α) = .ok a := rfl
@[simp] theorem bind_ok {α β : Type} (a : α) (f : α → Res β) : (Res.ok a >>= f) = f a := rfl
@[simp] theorem bind_exit {α β : Type} (f : α → Res β) : ((Res.exit : Res α) >>= f) = .exit := rfl
@[simp] theorem bind_exception {α β : Type} (f : α → Res β) :
    ((Res.exception : Res α) >>= f) = .exception := rfl
@[simp] theorem bind_ub {α β : Type} (f : α → Res β) : ((Res.ub : Res α) >>= f) = .ub := rfl

theorem bind_eq_ok {α β : Type} {x : Res α} {f : α → Res β} {b : β} :
    (x >>= f) = .ok b ↔ ∃ a, x = .ok a ∧ f a = .ok b := by
  cases x <;> simp

end Res

end Verif
