import Verif.Transducer.Model
import Verif.Alphabet.Model

/-!
# Model of `lttoolbox/regexp_compiler.cc`

Tokens (`int32_t`) are integers. The members `input`, `index` and `token` are represented by the tokens that are
left: `token` is the first of them, or `FIN_FICHERO` when there is none. `default_weight` is 0
(regexp_compiler.h:77). The weights are any type with a zero.
-/

namespace Verif.Regex

open Verif.Fst

variable {W : Type}

/-- `FIN_FICHERO` (regexp_compiler.cc:23): `INT_MAX`. -/
def fin : Int := 2147483647

/-- The data members of `RegexpCompiler` (regexp_compiler.h:31-77). -/
structure St (W : Type) where
  /-- the tokens from `index` on -/
  input : List Int
  transducer : Transducer W
  state : Nat
  letter : Int
  /-- 0 or one of the characters `*`, `+`, `?` -/
  postop : Int
  brackets : List Int
  alphabet : Alphabet

/-- `token`. -/
def St.token (s : St W) : Int := s.input.headD fin

/-- `RegexpCompiler::isReserved` (regexp_compiler.cc:63-85): `( ) [ ] * ? + - ^ \ |` and the end. -/
def isReserved (t : Int) : Bool :=
  t = 40 || t = 41 || t = 91 || t = 93 || t = 42 || t = 63 || t = 43 || t = 45 || t = 94 || t = 92 || t = 124 || t = fin

/-- `RegexpCompiler::consume` (regexp_compiler.cc:101-120). At the end, `index` passes `input.size()` and the next
token is read from behind the vector. -/
def consume (t : Int) (s : St W) : Res (St W) :=
  if s.token = t then
    match s.input with
    | [] => .ub
    | _ :: r => .ok { s with input := r }
  else .exit

/-- The test at the start of `S`, `RExpr` and `RExprp` (regexp_compiler.cc:135, 149, 252). -/
def starts (t : Int) : Bool := t = 40 || t = 91 || !isReserved t || t = 92

/-- `!isReserved(token) || token == '\\'`, the test of `Term`, `Lista` and `Elem`. -/
def isLetter (t : Int) : Bool := !isReserved t || t = 92

/-- `RegexpCompiler::Reservado` (regexp_compiler.cc:397-408). -/
def reservado (s : St W) : Res (St W) := if isReserved s.token then consume s.token s else .exit

/-- `RegexpCompiler::Letra` (regexp_compiler.cc:267-285). -/
def letra (s : St W) : Res (St W) :=
  if !isReserved s.token then consume s.token { s with letter := s.token }
  else if s.token = 92 then do
    let s ← consume 92 s
    reservado { s with letter := s.token }
  else .exit

/-- `RegexpCompiler::Postop` (regexp_compiler.cc:287-314). -/
def postop (s : St W) : Res (St W) :=
  if s.token = 42 then do
    let s ← consume 42 s
    pure { s with postop := 42 }
  else if s.token = 63 then do
    let s ← consume 63 s
    pure { s with postop := 63 }
  else if s.token = 43 then do
    let s ← consume 43 s
    pure { s with postop := 43 }
  else if starts s.token || s.token = 124 || s.token = fin || s.token = 41 then .ok s
  else .exit

/-- `RegexpCompiler::ColaLetra` (regexp_compiler.cc:438-453). -/
def colaLetra (s : St W) : Res (St W) :=
  if s.token = 45 then do
    let s ← consume 45 s
    letra s
  else if isLetter s.token || s.token = 93 then .ok s
  else .exit

/-- `RegexpCompiler::Elem` (regexp_compiler.cc:410-436). Where the range ends in `INT_MAX`, the loop variable
overflows. -/
def elem (s : St W) : Res (St W) :=
  if isLetter s.token then do
    let s ← letra s
    let rango1 := s.letter
    let s ← colaLetra s
    let rango2 := s.letter
    if rango1 > rango2 then .exit
    else if rango2 = fin then .ub
    else pure { s with brackets :=
      (List.range (rango2 - rango1 + 1).toNat).foldl (fun (b : List Int) (i : Nat) => setInsert (rango1 + (i : Int)) b) s.brackets }
  else .exit

/-- `RegexpCompiler::Lista` (regexp_compiler.cc:380-395). -/
def lista : Nat → St W → Res (St W)
  | 0, _ => .ub
  | fuel + 1, s =>
    if isLetter s.token then do
      let s ← elem s
      lista fuel s
    else if s.token = 93 then .ok s
    else .exit

variable [Zero W]

/-- The effect of a postfix operator (regexp_compiler.cc:193-204, 219-230, 363-374). The alphabet contains the pair
(0, 0) since its construction (alphabet.cc:34-35), so asking for its code does not change it. -/
def applyPostop (op : Int) (a : Alphabet) (t : Transducer W) : Res (Transducer W) :=
  if op = 42 then zeroOrMore (a.pairCode 0 0).1 t
  else if op = 43 then oneOrMore (a.pairCode 0 0).1 t
  else if op = 63 then optional (a.pairCode 0 0).1 t
  else .ok t

/-- The loops of `Esp` over the members of a class (regexp_compiler.cc:326-334, 343-352). -/
def classLoop : List Int → Alphabet → Transducer W → Alphabet × Transducer W
  | [], a, t => (a, t)
  | i :: is, a, t =>
    let (e, a) := a.pairCode 0 0
    let (m, t) := insertNewSingleTransduction e t.initial 0 t
    let (c, a) := a.pairCode i i
    let (m, t) := insertNewSingleTransduction c m 0 t
    classLoop is a (setFinal m 0 true t)

/-- The end of `Esp` (regexp_compiler.cc:336, 354 and 363-377): the class is the list of its members. -/
def finishClass (members : List Int) (s : St W) : Res (St W) := do
  let (a, t) := classLoop members s.alphabet empty
  let (e, a) := a.pairCode 0 0
  let t ← joinFinals e t
  let t ← applyPostop s.postop a t
  let (st, t, _) ← insertTransducer s.state t e s.transducer
  pure { s with brackets := [], postop := 0, state := st, transducer := t, alphabet := a }

/-- `RegexpCompiler::Esp` (regexp_compiler.cc:316-378). -/
def esp (s : St W) : Res (St W) :=
  if isLetter s.token || s.token = 93 then do
    let s ← lista (s.input.length + 1) s
    let s ← consume 93 s
    let s ← postop s
    finishClass s.brackets s
  else if s.token = 94 then do
    let s ← consume 94 s
    let s ← lista (s.input.length + 1) s
    let s ← consume 93 s
    let s ← postop s
    finishClass (((List.range 256).map fun (i : Nat) => (i : Int)).filter (fun i => i ∉ s.brackets)) s
  else .exit

/-- The first branch of `Term` (regexp_compiler.cc:186-208). -/
def termLetter (s : St W) : Res (St W) := do
  let s ← letra s
  let (c, a) := s.alphabet.pairCode s.letter s.letter
  let (e, t) := insertNewSingleTransduction c (empty : Transducer W).initial 0 empty
  let t := setFinal e 0 true t
  let s ← postop s
  let t ← applyPostop s.postop a t
  let (e, a) := a.pairCode 0 0
  let (st, t, _) ← insertTransducer s.state t e s.transducer
  pure { s with postop := 0, state := st, transducer := t, alphabet := a }

/-- The end of the second branch of `Term` (regexp_compiler.cc:216-235): `t` and `e` are the outer transducer and
state. -/
def endGroup (t : Transducer W) (e : Nat) (s : St W) : Res (St W) := do
  let s ← consume 41 s
  let inner := setFinal s.state 0 true s.transducer
  let s ← postop s
  let inner ← applyPostop s.postop s.alphabet inner
  let (c, a) := s.alphabet.pairCode 0 0
  let (st, t, _) ← insertTransducer e inner c t
  pure { s with postop := 0, state := st, transducer := t, alphabet := a }

/-- The last lines of `Cola` (regexp_compiler.cc:174-175). -/
def endAlternative (e : Nat) (s : St W) : Res (St W) := do
  let (c, a) := s.alphabet.pairCode 0 0
  let (st, t) := insertNewSingleTransduction c s.state 0 s.transducer
  let t ← linkStates e st c 0 t
  pure { s with state := st, transducer := t, alphabet := a }

mutual
/-- `RegexpCompiler::S` (regexp_compiler.cc:133-145). The fuel is the depth of the calls; `C47_outcomes` shows that
it is never used up. -/
def S : Nat → St W → Res (St W)
  | 0, _ => .ub
  | fuel + 1, s =>
    if starts s.token then do
      let s ← rExpr fuel s
      cola fuel s
    else .exit

/-- `RegexpCompiler::RExpr` (regexp_compiler.cc:147-159). -/
def rExpr : Nat → St W → Res (St W)
  | 0, _ => .ub
  | fuel + 1, s =>
    if starts s.token then do
      let s ← term fuel s
      rExprp fuel s
    else .exit

/-- `RegexpCompiler::Cola` (regexp_compiler.cc:161-182). -/
def cola : Nat → St W → Res (St W)
  | 0, _ => .ub
  | fuel + 1, s =>
    if s.token = fin || s.token = 41 then .ok s
    else if s.token = 124 then do
      let e := s.state
      let s := { s with state := s.transducer.initial }
      let s ← consume 124 s
      let s ← rExpr fuel s
      let s ← cola fuel s
      endAlternative e s
    else .exit

/-- `RegexpCompiler::Term` (regexp_compiler.cc:184-248). -/
def term : Nat → St W → Res (St W)
  | 0, _ => .ub
  | fuel + 1, s =>
    if isLetter s.token then termLetter s
    else if s.token = 40 then do
      let t := s.transducer
      let e := s.state
      let s := { s with transducer := empty, state := (empty : Transducer W).initial }
      let s ← consume 40 s
      let s ← S fuel s
      endGroup t e s
    else if s.token = 91 then do
      let s ← consume 91 s
      esp s
    else .exit

/-- `RegexpCompiler::RExprp` (regexp_compiler.cc:250-265). -/
def rExprp : Nat → St W → Res (St W)
  | 0, _ => .ub
  | fuel + 1, s =>
    if starts s.token then do
      let s ← term fuel s
      rExprp fuel s
    else if s.token = 124 || s.token = fin || s.token = 41 then .ok s
    else .exit
end

/-- `RegexpCompiler::initialize` (regexp_compiler.cc:467-474) of a new object: `letter` and `state` have no value
yet and are not read before they get one. -/
def initialise (a : Alphabet) : St W :=
  { input := [], transducer := empty, state := 0, letter := 0, postop := 0, brackets := [], alphabet := a }

/-- `RegexpCompiler::compile` (regexp_compiler.cc:122-131). `input[0]` of an empty vector is undefined. -/
def compile (er : List Int) (s : St W) : Res (St W) :=
  match er with
  | [] => .ub
  | _ => do
    let s := { s with input := er, state := s.transducer.initial }
    let s ← S (4 * er.length + 4) s
    pure { s with transducer := setFinal s.state 0 true s.transducer }

end Verif.Regex
