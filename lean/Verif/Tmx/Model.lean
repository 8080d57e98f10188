import Verif.Trim.Model
import Mathlib.Data.Nat.Digits.Defs

/-! # Translation memories: `tmx_compiler.cc`

Positions and sizes are natural numbers. A text is the list of its code points, with -2 for each mark `<hi>` or `<ph>`, as `procTU` collects it;
reading the XML is left out. `u_isspace` and `u_isdigit` are parameters. -/

namespace Verif.Tmx

open Verif.Fst Verif.Alphabet
open Verif.Compression (Dbl)

/-- `u_isspace` and `u_isdigit`. -/
structure Chars where
  isSpace : Int → Bool
  isDigit : Int → Bool

variable (ch : Chars)

/-- `<n>` (tmx_compiler.h:169). -/
def numberText : UString := [0x3c, 0x6e, 0x3e]
/-- `<b>` (tmx_compiler.h:170). -/
def blankText : UString := [0x3c, 0x62, 0x3e]

/-- The alphabet of a new compiler (tmx_compiler.cc:33-34). -/
def start : Alphabet := (Alphabet.empty.includeSymbol numberText).includeSymbol blankText

/-- `number_tag` (tmx_compiler.cc:35). -/
def numberTag : Int := start.symCode numberText
/-- `blank_tag` (tmx_compiler.cc:36). -/
def blankTag : Int := start.symCode blankText

/-- `TMXCompiler::trim` (tmx_compiler.cc:438-465): the loop over the end, then that over the beginning. -/
def trim (v : List Int) : List Int := (v.reverse.dropWhile ch.isSpace).reverse.dropWhile ch.isSpace

/-- The loops that go back to a digit (tmx_compiler.cc:558-565 and 572-579); the argument is what lies between `position` and `i`, the last symbol
first. -/
def back : List Int → Nat
  | [] => 0
  | c :: seen => if ch.isDigit c then seen.length + 1 else back seen

/-- The loop over `i` of `TMXCompiler::numberLength` (tmx_compiler.cc:548-581); `seen` is what lies between `position` and `i`, the last symbol
first. The loop 558-565 always returns, for the first symbol is a digit. -/
def numberLoop (seen : List Int) : List Int → Nat
  | [] => back ch seen
  | c :: cs =>
    if !ch.isDigit c && (c ≠ 0x2e || seen.isEmpty) && (c ≠ 0x2c || seen.isEmpty) then
      if seen.isEmpty then 0 else back ch seen
    else numberLoop (c :: seen) cs

/-- `TMXCompiler::numberLength` (tmx_compiler.cc:545-582), of what lies behind `position`. -/
def numberLength (v : List Int) : Nat := numberLoop ch [] v

/-- `TMXCompiler::vectorcmp` (tmx_compiler.cc:584-599), of what lies behind the two positions. -/
def vectorcmp : List Int → List Int → Nat → Res Bool
  | _, _, 0 => .ok true
  | a :: as, b :: bs, n + 1 => if a ≠ b then .ok false else vectorcmp as bs n
  | _, _, _ + 1 => .ub

/-- The first loop of `TMXCompiler::align` (tmx_compiler.cc:474-489): `modified_origin`, and the starts and lengths of the numbers; `skip` symbols
are passed over (`i += nl-1`). -/
def alignOrigin : (i skip : Nat) → List Int → List Int × List (Nat × Nat)
  | _, _, [] => ([], [])
  | i, skip + 1, _ :: cs => alignOrigin (i + 1) skip cs
  | i, 0, c :: cs =>
    let nl := numberLength ch (c :: cs)
    if nl ≠ 0 then
      let (o, ns) := alignOrigin (i + 1) (nl - 1) cs
      (numberTag :: o, (i, nl) :: ns)
    else
      let (o, ns) := alignOrigin (i + 1) 0 cs
      (c :: o, ns)

/-- `u_snprintf(valor, 8, "%d", n)` (tmx_compiler.cc:507-512): the digits; beyond the array for more than eight. -/
def decimal (n : Nat) : Res (List Int) :=
  let ds := (Nat.digits 10 n).reverse.map fun d : Nat => 48 + (d : Int)
  if ds.length ≤ 8 then .ok ds else .ub

/-- The loop over the numbers of the origin (tmx_compiler.cc:498-519), from `j` on: the first with the same symbols. -/
def findNumber (origin target : List Int) (nl : Nat) : Nat → List (Nat × Nat) → Res (Option Nat)
  | _, [] => .ok none
  | j, (start, len) :: ns =>
    if nl = len then do
      if ← vectorcmp (origin.drop start) target nl then pure (some j) else findNumber origin target nl (j + 1) ns
    else findNumber origin target nl (j + 1) ns

/-- The second loop of `TMXCompiler::align` (tmx_compiler.cc:491-539): `modified_meta`, or `none` for the `return` in line 525. `skip` symbols are
passed over (`i += nl-1`, line 514), `copy` symbols are copied without being looked at (lines 528-532; the loop ends at `nl`, not at `i + nl`). -/
def alignMeta (origin : List Int) (nums : List (Nat × Nat)) : (i skip copy : Nat) → List Int → Res (Option (List Int))
  | _, _, _, [] => .ok (some [])
  | i, skip + 1, copy, _ :: cs => alignMeta origin nums (i + 1) skip copy cs
  | i, 0, copy + 1, c :: cs => do
    let r ← alignMeta origin nums (i + 1) 0 copy cs
    pure (r.map (c :: ·))
  | i, 0, 0, c :: cs =>
    let nl := numberLength ch (c :: cs)
    if nl ≠ 0 then do
      match ← findNumber origin (c :: cs) nl 0 nums with
      | some j =>
        let ds ← decimal (j + 1)
        let r ← alignMeta origin nums (i + 1) (nl - 1) 0 cs
        pure (r.map fun m => 0x40 :: 0x28 :: (ds ++ 0x29 :: m))
      | none =>
        if nl ≤ i then pure none
        else
          let r ← alignMeta origin nums (i + 1) 0 (nl - i - 1) cs
          pure (r.map (c :: ·))
    else do
      let r ← alignMeta origin nums (i + 1) 0 0 cs
      pure (r.map (c :: ·))

/-- `TMXCompiler::align` (tmx_compiler.cc:467-543). -/
def align (origin target : List Int) : Res (List Int × List Int) := do
  let (o, nums) := alignOrigin ch 0 0 origin
  match ← alignMeta ch origin nums 0 0 0 target with
  | some m => pure (o, m)
  | none => pure (origin, target)

/-- The loop of `TMXCompiler::split` (tmx_compiler.cc:217-231): `sv` without its last vector, and that, if there is one with index `j`. -/
def splitLoop (symbol : Int) (done : List (List Int)) (cur : Option (List Int)) : List Int → List (List Int)
  | [] => done ++ cur.toList
  | c :: cs =>
    let v := cur.getD []
    if c = symbol then splitLoop symbol (done ++ [v]) none cs else splitLoop symbol done (some (v ++ [c])) cs

/-- `TMXCompiler::split` (tmx_compiler.cc:212-232). -/
def split (v : List Int) (symbol : Int) : List (List Int) := splitLoop symbol [] none v

/-- `TMXCompiler::join` (tmx_compiler.cc:234-251). -/
def join (s : Int) : List (List Int) → List Int
  | [] => []
  | [v] => v
  | v :: w :: vs => v ++ s :: join s (w :: vs)

/-- The loop over `sm` (tmx_compiler.cc:266-284 and 294-302): all but the last get `(#`. -/
def opened : List (List Int) → List (List Int)
  | [] => []
  | [v] => [trim ch v]
  | v :: w :: vs => (trim ch v ++ [0x28, 0x23]) :: opened (w :: vs)

/-- `TMXCompiler::align_blanks` (tmx_compiler.cc:253-306). Its two branches do the same. -/
def alignBlanks (o m : List Int) : List Int × List Int :=
  (join 0x20 ((split o blankTag).map (trim ch)), join 0x29 (opened ch (split m blankTag)))

/-- The symbols that the loop of `insertTU` goes through when the origin is at its end (tmx_compiler.cc:191-205). -/
def targetPairs : List Int → List Pair
  | [] => []
  | b :: m => if b = 0 then [] else (0, b) :: targetPairs m

/-- The symbols that the loop of `insertTU` goes through (tmx_compiler.cc:191-205). -/
def unitPairs : List Int → List Int → List Pair
  | [], m => targetPairs m
  | a :: o, [] => if a = 0 then [] else (a, 0) :: unitPairs o []
  | a :: o, b :: m => if a = 0 ∧ b = 0 then [] else (a, b) :: unitPairs o m

variable {W : Type} [Zero W]

/-- The insertions of `insertTU` (tmx_compiler.cc:206-208). The code would go on with a state -1. -/
def insertPairs : List Pair → Nat → Alphabet × Transducer W → Res (Alphabet × Transducer W)
  | [], q, (a, t) => .ok (a, setFinal q 0 true t)
  | p :: ps, q, (a, t) =>
    let (c, a) := a.pairCode p.1 p.2
    match insertSingleTransduction c q 0 t with
    | (some q, t) => insertPairs ps q (a, t)
    | (none, _) => .ub

/-- `TMXCompiler::insertTU` (tmx_compiler.cc:175-210). -/
def insertTU (origin target : List Int) (st : Alphabet × Transducer W) : Res (Alphabet × Transducer W) :=
  if origin.length < 5 ∨ target.length < 5 then .ok st
  else if origin.head? = some blankTag ∨ target.head? = some blankTag then .ok st
  else insertPairs (unitPairs origin target) st.2.initial st

/-- A variant: its language and its text. -/
abbrev Tuv := UString × List Int

/-- What `procTU` collects for `meta` and for `origin` (tmx_compiler.cc:326-357). -/
def collect (lo lm : UString) : List Tuv → List Int × List Int
  | [] => ([], [])
  | (l, s) :: vs =>
    let (o, m) := collect lo lm vs
    if l = lm then (o, s ++ m) else if l = lo then (s ++ o, m) else (o, m)

/-- `TMXCompiler::procTU` (tmx_compiler.cc:308-370) on the variants of the unit. -/
def procTU (lo lm : UString) (vs : List Tuv) (st : Alphabet × Transducer W) : Res (Alphabet × Transducer W) := do
  let (o, m) := collect lo lm vs
  let (o, m) ← align ch (trim ch o) (trim ch m)
  let (o, m) := alignBlanks ch o m
  insertTU o m st

/-- The units one after the other. -/
def procAll (lo lm : UString) : List (List Tuv) → Alphabet × Transducer W → Res (Alphabet × Transducer W)
  | [], st => .ok st
  | u :: us, st => do procAll lo lm us (← procTU ch lo lm u st)

/-- `TMXCompiler::parse` (tmx_compiler.cc:43-72). -/
def parse (W : Type) [Zero W] [LinearOrder W] (lo lm : UString) (us : List (List Tuv)) : Res (Alphabet × Transducer W) := do
  let (a, t) ← procAll ch lo lm us (start, Fst.empty)
  pure (a, ← minimize 0 t)

/-- `lt-tmxcomp` (lt_tmxcomp.cc:105-122; `TMXCompiler::write`, tmx_compiler.cc:415-436): no letters, and one section without a name. -/
def ltTmxcomp {W : Type} [Zero W] [LinearOrder W] (g : W → Dbl) (lo lm : UString) (us : List (List Tuv)) : Res (List UInt8) := do
  let (a, t) ← parse ch W lo lm us
  BinIO.writeSetL [] a [([], Chain.stored g t)]

end Verif.Tmx
