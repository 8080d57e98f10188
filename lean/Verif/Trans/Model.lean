import Verif.Bil.Model

/-!
# Model of `biltrans` and its variants in `lttoolbox/fst_processor.cc`

These functions of the library translate one lexical unit, which they get as a text. See `Verif.Gen.Model` for the conventions. The text
`w` is the whole of a `UString` of less than 2³² units, so behind its end there is a null; what is read behind that is undefined.
-/

namespace Verif.Trans

open Verif.State Verif.Gen

variable {W : Type}

/-- `view[i]`, which is not checked: the text goes on behind a view of a part of it. -/
def unitAt (w : UString) (i : Nat) : Res UInt16 :=
  match w[i]? with
  | some u => .ok u
  | none => if i = w.length then .ok 0 else .ub

/-- `view.substr(pos, n)`. -/
def substr (w : UString) (pos n : Nat) : Res UString := if w.length < pos then .exception else .ok ((w.drop pos).take n)

/-- `start_point` and `end_point` (fst_processor.cc:1628-1637, 1673-1682, 1870-1880, 1965-1973), as `unsigned int`. -/
def points (w : UString) (delim : Bool) : UInt32 × UInt32 :=
  if delim then (1, UInt32.ofNat w.length - 2) else (0, UInt32.ofNat w.length - 1)

/-- What is looked up. -/
structure Word where
  start : UInt32
  stop : UInt32
  mark : Bool
  /-- `word` -/
  text : UString
  /-- The unit behind it. -/
  past : UInt16
  firstupper : Bool
  uppercase : Bool

/-- `firstupper` and `uppercase` (fst_processor.cc:1602-1603, 1893-1894). The second unit is only read if the first is an upper-case letter. -/
def cases (σ : Setting W) (w : UString) (i : Nat) : Res (Bool × Bool) := do
  let u ← unitAt w i
  if σ.isUpper (u.toNat : Int) then do
    let v ← unitAt w (i + 1)
    .ok (true, σ.isUpper (v.toNat : Int))
  else .ok (false, false)

/-- The text to look up. -/
def wordFrom (σ : Setting W) (w : UString) (start stop : UInt32) (mark : Bool) : Res Word := do
  let text ← substr w start.toNat (stop - start).toNat
  let cs ← cases σ w start.toNat
  .ok ⟨start, stop, mark, text, (w[start.toNat + text.length]?).getD 0, cs.1, cs.2⟩

/-- The beginnings of the functions (fst_processor.cc:1626-1650, 1670-1695, 1866-1896, 1962-1986, 1602-1603): nothing for a unit with the
mark `*`. -/
def wordOf (σ : Setting W) (w : UString) (delim : Bool) : Res (Option Word) := do
  let u ← unitAt w (points w delim).1.toNat
  if u = 0x2a then .ok none
  else do
    let x ← if u = 0x3d then wordFrom σ w ((points w delim).1 + 1) (points w delim).2 true else wordFrom σ w (points w delim).1 (points w delim).2 false
    .ok (some x)

/-- The symbol of a piece of the text (fst_processor.cc:1605, 1898-1904). Pairs of surrogates are looked up as if they were tags. -/
def valOf (a : Alphabet) : UString → Int
  | [u] => (u.toNat : Int)
  | p => a.symCode p

/-- A step that is only done with a set of states that is not empty (fst_processor.cc:1606-1608, 1905-1908). -/
def stepIf (stepOf : Int → List (Rec W) → Res (List (Rec W))) (x : Int) (st : List (Rec W)) : Res (List (Rec W)) :=
  if st.length = 0 then .ok st else stepOf x st

/-- The translations so far (fst_processor.cc:1609-1615, 1909-1915). -/
def foundNow [Zero W] [Add W] [LinearOrder W] (σ : Setting W) (uppercase firstupper : Bool) (st : List (Rec W)) (result : List UString) : Res (List UString) :=
  if isFinal σ.finals st then results σ uppercase firstupper st else .ok result

/-- The loops over the symbols (fst_processor.cc:1604-1620, 1897-1936): nothing if they find that the word is not present. A piece is never
empty. -/
def transLoop [Zero W] [Add W] [LinearOrder W] (σ : Setting W) (stepOf : Int → List (Rec W) → Res (List (Rec W))) (uppercase firstupper : Bool) :
    List UString → List (Rec W) → (result : List UString) → (queue : UString) → Res (Option (List (Rec W) × List UString × UString))
  | [], st, result, queue => .ok (some (st, result, queue))
  | p :: ps, st, result, queue => do
    let st ← stepIf stepOf (valOf σ.alphabet p) st
    let result ← foundNow σ uppercase firstupper st result
    if st.length = 0 then
      if result.isEmpty then .ok none
      else transLoop σ stepOf uppercase firstupper ps st result (queue ++ p)
    else transLoop σ stepOf uppercase firstupper ps st result queue

/-- The step in `step_biltrans` (fst_processor.cc:1607). `State::step(int, bool)` does not exist: the truth value is taken for a symbol. -/
def flagStep (σ : Setting W) (n : Nat) (x : Int) (st : List (Rec W)) : Res (List (Rec W)) :=
  ended (stepAlt σ.graph n x (if σ.beCaseSensitive st then 1 else 0) st)

/-- The step in `biltransWithQueue` (fst_processor.cc:1907). -/
def caseStep (σ : Setting W) (n : Nat) (x : Int) (st : List (Rec W)) : Res (List (Rec W)) :=
  ended (stepCase σ.isUpper σ.toLower σ.graph n x (σ.beCaseSensitive st) st)

/-- What `step_biltrans` returns after the loop (fst_processor.cc:1621). -/
def outcome : Option (List (Rec W) × List UString × UString) → Option (List UString × UString)
  | some (_, result, queue) => if result.isEmpty then none else some (result, queue)
  | none => none

/-- `FSTProcessor::step_biltrans` (fst_processor.cc:1598-1622): the translations and the rest, or nothing. -/
def stepBiltrans [Zero W] [Add W] [LinearOrder W] (σ : Setting W) (n : Nat) (x : Word) : Res (Option (List UString × UString)) := do
  let st ← ended (State.init σ.graph n σ.root)
  let ps ← Alphabet.pieces x.past x.text
  let r ← transLoop σ (flagStep σ n) x.uppercase x.firstupper ps st [] []
  .ok (outcome r)

/-- A unit that is not present (fst_processor.cc:1653-1654, 1698-1699, 1926-1933, 1944-1951, 1990-1991). -/
def absent (w : UString) (delim : Bool) : UString := if delim then 0x5e :: 0x40 :: w.drop 1 else 0x40 :: w

/-- `FSTProcessor::compose` (fst_processor.cc:1707-1723). -/
def compose (rs : List UString) (queue : UString) (delim mark : Bool) : UString :=
  (if delim then [0x5e] else []) ++ (if mark then [0x3d] else []) ++ Bil.compose rs queue ++ (if delim then [0x24] else [])

/-- What is done with the translations. -/
def answer [Zero W] [Add W] [LinearOrder W] (σ : Setting W) (n : Nat) (w : UString) (delim : Bool) (f : Word → List UString → UString → UString) : Res UString := do
  let x ← wordOf σ w delim
  match x with
  | none => .ok w
  | some x => do
    let r ← stepBiltrans σ n x
    .ok (match r with
      | none => absent w delim
      | some r => f x r.1 r.2)

/-- `FSTProcessor::biltrans` (fst_processor.cc:1668-1705). -/
def biltrans [Zero W] [Add W] [LinearOrder W] (σ : Setting W) (n : Nat) (w : UString) (delim : Bool) : Res UString :=
  answer σ n w delim fun x rs queue => compose rs queue delim x.mark

/-- `FSTProcessor::biltransfull` (fst_processor.cc:1624-1664). -/
def biltransfull [Zero W] [Add W] [LinearOrder W] (σ : Setting W) (n : Nat) (w : UString) (delim : Bool) : Res UString :=
  answer σ n w delim fun x rs queue => if x.start < x.stop - 3 then [0x5e, 0x24] else compose rs queue delim x.mark

/-- `FSTProcessor::biltransWithoutQueue` (fst_processor.cc:1960-1995). -/
def biltransWithoutQueue [Zero W] [Add W] [LinearOrder W] (σ : Setting W) (n : Nat) (w : UString) (delim : Bool) : Res UString :=
  answer σ n w delim fun x rs queue => if queue.isEmpty then compose rs [] delim x.mark else absent w delim

/-- The end of `biltransWithQueue` (fst_processor.cc:1938-1957). `State::filterFinals` (state.cc:557-578) gives the translations as one text,
each after a slash. -/
def queueEnd [Zero W] [Add W] [LinearOrder W] (σ : Setting W) (w : UString) (delim : Bool) (x : Word) (seenTags : Bool) (st : List (Rec W))
    (result : List UString) (queue : UString) : Res (UString × Nat) :=
  if seenTags then .ok (compose result queue delim x.mark, queue.length)
  else do
    let rs ← results σ x.uppercase x.firstupper st
    .ok (if rs.isEmpty then (absent w delim, 0) else (compose result queue delim x.mark, queue.length))

/-- What `biltransWithQueue` does after the loop (fst_processor.cc:1917-1957). -/
def queueAnswer [Zero W] [Add W] [LinearOrder W] (σ : Setting W) (w : UString) (delim : Bool) (x : Word) (seenTags : Bool) :
    Option (List (Rec W) × List UString × UString) → Res (UString × Nat)
  | none => .ok (absent w delim, 0)
  | some (st, result, queue) => queueEnd σ w delim x seenTags st result queue

/-- `FSTProcessor::biltransWithQueue` (fst_processor.cc:1864-1958): the translation and the length of the rest. -/
def biltransWithQueue [Zero W] [Add W] [LinearOrder W] (σ : Setting W) (n : Nat) (w : UString) (delim : Bool) : Res (UString × Nat) := do
  let x ← wordOf σ w delim
  match x with
  | none => .ok (w, 0)
  | some x => do
    let st ← ended (State.init σ.graph n σ.root)
    let ps ← Alphabet.pieces x.past x.text
    let r ← transLoop σ (caseStep σ n) x.uppercase x.firstupper ps st [] []
    queueAnswer σ w delim x (ps.any fun p => decide (p.length ≠ 1)) r

end Verif.Trans
