import Verif.Base

/-!
# Model of `lttoolbox/buffer.h`: the circular buffer

The array holds `none` where nothing has been written (`new T[size]` leaves it so). Reading such a place is `ub`.
Positions are `unsigned int`; the only operation that can go below zero is `back`, which wraps modulo 2^32.
-/

namespace Verif.Buffer

variable {T : Type}

/-- `Buffer` (buffer.h:28-51). -/
structure Buffer (T : Type) where
  size : Nat
  buf : List (Option T)
  currentpos : Nat
  lastpos : Nat
deriving DecidableEq

/-- The constructor (buffer.h:72-83). -/
def new (T : Type) (size : Nat) : Res (Buffer T) :=
  if size = 0 then .exit
  else .ok { size := size, buf := List.replicate size none, currentpos := 0, lastpos := 0 }

/-- Reading a place of the array. -/
def at_ (b : Buffer T) (i : Nat) : Res T :=
  match b.buf[i]? with
  | some (some v) => .ok v
  | _ => .ub

/-- `Buffer::add(T const &)` (buffer.h:127-136). -/
def add (v : T) (b : Buffer T) : Buffer T :=
  let lastpos := if b.lastpos = b.size then 0 else b.lastpos
  { b with buf := b.buf.set lastpos (some v), lastpos := lastpos + 1, currentpos := lastpos + 1 }

/-- `Buffer::add(void)` (buffer.h:144-152): the buffer and the index of the reference that is returned; index -1 is
`ub`. -/
def addVoid (b : Buffer T) : Res (Buffer T × Nat) :=
  let lastpos := if b.lastpos = b.size then 0 else b.lastpos
  if lastpos = 0 then .ub
  else .ok ({ b with lastpos := lastpos, currentpos := lastpos }, lastpos - 1)

/-- `Buffer::last` (buffer.h:201-211). -/
def last (b : Buffer T) : Res T := if b.lastpos ≠ 0 then at_ b (b.lastpos - 1) else at_ b (b.size - 1)

/-- `Buffer::next` (buffer.h:159-173). -/
def next (b : Buffer T) : Res (T × Buffer T) :=
  if b.currentpos ≠ b.lastpos then
    let currentpos := if b.currentpos = b.size then 0 else b.currentpos
    do
      let v ← at_ b currentpos
      pure (v, { b with currentpos := currentpos + 1 })
  else do
    let v ← last b
    pure (v, b)

/-- `Buffer::peek` (buffer.h:179-195). -/
def peek (b : Buffer T) : Res T :=
  if b.currentpos ≠ b.lastpos then
    if b.currentpos = b.size then at_ b 0 else at_ b b.currentpos
  else last b

/-- `Buffer::getPos` (buffer.h:218-221). -/
def getPos (b : Buffer T) : Nat := b.currentpos

/-- `Buffer::setPos` (buffer.h:227-230). -/
def setPos (newpos : Nat) (b : Buffer T) : Buffer T := { b with currentpos := newpos % b.size }

/-- `Buffer::diffPrevPos` (buffer.h:238-248). -/
def diffPrevPos (prevpos : Nat) (b : Buffer T) : Nat :=
  if prevpos ≤ b.currentpos then b.currentpos - prevpos else b.currentpos + b.size - prevpos

/-- `Buffer::diffPostPos` (buffer.h:256-266). -/
def diffPostPos (postpos : Nat) (b : Buffer T) : Nat :=
  if postpos ≥ b.currentpos then postpos - b.currentpos else postpos + b.size - b.currentpos

/-- `Buffer::isEmpty` (buffer.h:272-275). -/
def isEmpty (b : Buffer T) : Bool := b.currentpos = b.lastpos

/-- `Buffer::back` (buffer.h:281-291). -/
def back (posback : Nat) (b : Buffer T) : Buffer T :=
  if b.currentpos > posback then { b with currentpos := b.currentpos - posback }
  else { b with currentpos := (b.size + 2 ^ 32 - (posback - b.currentpos)) % 2 ^ 32 }

/-- `Buffer::copy` (buffer.h:52-59) for elements of `width` bytes: `memcpy(buf, b.buf, size)` copies `size` bytes, so the
places that lie wholly within them; the others are as `new T[size]` leaves them (a place that is copied in part is
counted among these). -/
def copy (width : Nat) (b : Buffer T) : Buffer T :=
  { b with buf := b.buf.take (b.size / width) ++ List.replicate (b.size - b.size / width) none }

end Verif.Buffer
