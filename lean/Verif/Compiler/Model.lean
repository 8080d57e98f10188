import Verif.Alphabet.Model
import Verif.Transducer.Model
import Verif.Regex.Model
import Verif.Str.Model
import Verif.Expander.Model

/-!
# Model of `lttoolbox/compiler.cc`

The model starts after libxml2 and `readString`: an entry is its attributes and the list of its parts, where `<p>`, `<i>` and `<ig>`
are pairs of symbol sequences, `<re>` is an expression and `<par>` is a name. Blank text and comments between the parts are not
represented. The empty name of a paradigm, which the code uses for "outside a paradigm", is `none`. Unified compilation is in
`Unified`. Not modelled: entry debugging, dictionaries of the separable and sequential types, and `verbose` messages.
-/

namespace Verif.Compiler

open Verif.Fst

/-- `EntryToken` (entry_token.h:28-60) without its weight. -/
inductive Token (N : Type)
  | text (l r : List Int)
  | par (name : N)
  | re (er : List Int)
  deriving DecidableEq

/-- An entry of the file. `content = none` is `<e/>`. `junk` is the value found in the member `weight` of the token of a paradigm
at the end of the entry: neither the constructor (entry_token.cc:21-24) nor `setParadigm` (entry_token.cc:63-68) gives it one, and
`insertEntryTokens` reads it. Strictly this is undefined behaviour; the model takes any value. -/
structure CEntry (N W : Type) where
  attrs : Expander.Attrs := {}
  weight : W
  junk : W
  content : Option (List (Token N))
  deriving DecidableEq

/-- The settings of the object (compiler.h:52-110). `acx` is `acx_map`. -/
structure Settings where
  /-- `direction` is `RL` -/
  rl : Bool := false
  alt : UString := []
  variant : UString := []
  left : UString := []
  right : UString := []
  acx : List (Int × List Int) := []

/-- `sections[s]` with `prefix_paradigms[s]`, `suffix_paradigms[s]` and `postsuffix_paradigms[s]`; the last two get their keys at the
same time (compiler.cc:619-622), so they are one map here. -/
structure Sec (N W : Type) where
  t : Transducer W := empty
  pre : List (N × Nat) := []
  suf : List (N × (Nat × Nat)) := []
  deriving DecidableEq

/-- The data members that change. -/
structure Comp (N W : Type) where
  alphabet : Alphabet := .empty
  current : Option N := none
  sect : UString := []
  pars : List (N × Transducer W) := []
  secs : List (UString × Sec N W) := []

/-- `Transducer::isEmpty` (transducer.cc:451-455). -/
def isEmpty {W : Type} (t : Transducer W) : Bool := t.finals.length = 0 ∧ t.transitions.length = 1

section
variable {W : Type}

/-- The loop over the equivalent characters (compiler.cc:293-299). -/
def acxLoop (state new : Nat) (rsymbol : Int) (w : W) : List Int → Alphabet → Transducer W → Res (Alphabet × Transducer W)
  | [], a, t => .ok (a, t)
  | it :: its, a, t => do
    let t ← linkStates state new (a.pairCode it rsymbol).1 w t
    acxLoop state new rsymbol w its (a.pairCode it rsymbol).2 t

variable [Zero W]

/-- The end of one turn of the loop of `matchTransduction` (compiler.cc:263-300) for the pair of symbols `x`, `y`; `eqs` are the
equivalents of `x`. `insertSingleTransduction` returns -1 for more than two arcs with the tag; the code goes on with this state,
here it counts as undefined behaviour. -/
def matchStep (eqs : List Int) (w : W) (x y : Int) (a : Alphabet) (state : Nat) (t : Transducer W) :
    Res (Alphabet × Nat × Transducer W) :=
  let (tag, a) := a.pairCode x y
  match insertSingleTransduction tag state w t with
  | (none, _) => .ub
  | (some new, t) => do
    let (a, t) ← acxLoop state new y w eqs a t
    pure (a, new, t)

/-- `acx_map.find(x)->second`, or nothing. -/
def equivalents (acx : List (Int × List Int)) (x : Int) : List Int := (mapFind x acx).getD []

/-- The loop of `matchTransduction` (compiler.cc:234-301) when nothing is left on the left side. -/
def matchRight (w : W) : (right : List Int) → Alphabet → Nat → Transducer W → Res (Alphabet × Nat × Transducer W)
  | [], a, state, t => .ok (a, state, t)
  | y :: right, a, state, t => do
    let (a, state, t) ← matchStep [] (if right = [] then w else 0) 0 y a state t
    matchRight w right a state t

/-- The loop of `matchTransduction` (compiler.cc:234-301). The weight goes to the last pair. -/
def matchLoop (acx : List (Int × List Int)) (w : W) : (left right : List Int) → Alphabet → Nat → Transducer W →
    Res (Alphabet × Nat × Transducer W)
  | [], right, a, state, t => matchRight w right a state t
  | x :: left, [], a, state, t => do
    let (a, state, t) ← matchStep (equivalents acx x) (if left = [] then w else 0) x 0 a state t
    matchLoop acx w left [] a state t
  | x :: left, y :: right, a, state, t => do
    let (a, state, t) ← matchStep (equivalents acx x) (if left = [] ∧ right = [] then w else 0) x y a state t
    matchLoop acx w left right a state t

/-- `Compiler::matchTransduction` (compiler.cc:201-305). -/
def matchTransduction (s : Settings) (pi pd : List Int) (w : W) (a : Alphabet) (state : Nat) (t : Transducer W) :
    Res (Alphabet × Nat × Transducer W) :=
  let (left, right) := if s.rl then (pd, pi) else (pi, pd)
  match pi, pd with
  | [], [] =>
    let (tag, a) := a.pairCode 0 0
    let (state, t) := insertNewSingleTransduction tag state 0 t
    .ok (a, state, t)
  | _, _ => matchLoop s.acx w left right a state t

/-- A regular expression (compiler.cc:586-589 and 646-649). The changed transducer of the expression is thrown away. -/
def insertRegexp [DecidableEq W] (er : List Int) (a : Alphabet) (e : Nat) (t : Transducer W) : Res (Alphabet × Nat × Transducer W) := do
  let r ← Regex.compile (W := W) er (Regex.initialise a)
  let (eps, a) := r.alphabet.pairCode 0 0
  let (e, t, _) ← insertTransducer e r.transducer eps t
  pure (a, e, t)

variable {N : Type} [LinearOrder N] [DecidableEq W]

/-- `paradigms[n]`: created empty if missing. -/
def parOf (n : N) (pars : List (N × Transducer W)) : Transducer W := (mapFind n pars).getD empty

/-- `t.insertTransducer(e, paradigms[n])`, which also joins the final states of the paradigm. -/
def insertPar (n : N) (pars : List (N × Transducer W)) (e : Nat) (t : Transducer W) :
    Res (List (N × Transducer W) × Nat × Transducer W) := do
  let (e, t, o) ← insertTransducer e (parOf n pars) 0 t
  pure (mapSet n o pars, e, t)

/-- The loop of `insertEntryTokens` in a paradigm (compiler.cc:573-595), for elements with their weights. No element refers to this paradigm
(compiler.cc:551-554), so its transducer can be kept apart. -/
def parTokens (s : Settings) : List (W × Token N) → Alphabet → List (N × Transducer W) → Nat → Transducer W →
    Res (Alphabet × List (N × Transducer W) × Nat × Transducer W)
  | [], a, pars, e, t => .ok (a, pars, e, t)
  | (_, .par n) :: es, a, pars, e, t => do
    let (pars, e, t) ← insertPar n pars e t
    parTokens s es a pars e t
  | (w, .text l r) :: es, a, pars, e, t => do
    let (a, e, t) ← matchTransduction s l r w a e t
    parTokens s es a pars e t
  | (_, .re er) :: es, a, pars, e, t => do
    let (a, e, t) ← insertRegexp er a e t
    parTokens s es a pars e t

/-- A paradigm as last element (compiler.cc:609-624); `j` is the weight of its token. -/
def suffixPar (j : W) (n : N) (a : Alphabet) (pars : List (N × Transducer W)) (e : Nat) (x : Sec N W) :
    Res (Alphabet × List (N × Transducer W) × Nat × Sec N W) :=
  match mapFind n x.suf with
  | some (start, post) => do
    let t ← linkStates e start 0 j x.t
    pure (a, pars, post, { x with t })
  | none => do
    let (tag, a) := a.pairCode 0 0
    let (start, t) := insertNewSingleTransduction tag e j x.t
    let (pars, post, t) ← insertPar n pars start t
    pure (a, pars, post, { x with t, suf := mapSet n (start, post) x.suf })

/-- A paradigm as first, but not last, element (compiler.cc:625-637). -/
def prefixPar (n : N) (pars : List (N × Transducer W)) (e : Nat) (x : Sec N W) : Res (List (N × Transducer W) × Nat × Sec N W) :=
  match mapFind n x.pre with
  | some e => .ok (pars, e, x)
  | none => do
    let (pars, e, t) ← insertPar n pars e x.t
    pure (pars, e, { x with t, pre := mapSet n e x.pre })

/-- The loop of `insertEntryTokens` in a section (compiler.cc:605-655), for elements with their weights; `first` is `i == 0`. -/
def secTokens (s : Settings) : (first : Bool) → List (W × Token N) → Alphabet → List (N × Transducer W) → Nat → Sec N W →
    Res (Alphabet × List (N × Transducer W) × Nat × Sec N W)
  | _, [], a, pars, e, x => .ok (a, pars, e, x)
  | _, [(j, .par n)], a, pars, e, x => suffixPar j n a pars e x
  | true, (_, .par n) :: es, a, pars, e, x => do
    let (pars, e, x) ← prefixPar n pars e x
    secTokens s false es a pars e x
  | false, (_, .par n) :: es, a, pars, e, x => do
    let (pars, e, t) ← insertPar n pars e x.t
    secTokens s false es a pars e { x with t }
  | _, (w, .text l r) :: es, a, pars, e, x => do
    let (a, e, t) ← matchTransduction s l r w a e x.t
    secTokens s false es a pars e { x with t }
  | _, (_, .re er) :: es, a, pars, e, x => do
    let (a, e, t) ← insertRegexp er a e x.t
    secTokens s false es a pars e { x with t }

/-- `Compiler::insertEntryTokens` (compiler.cc:564-658). -/
def insertEntryTokens (s : Settings) (es : List (W × Token N)) (c : Comp N W) : Res (Comp N W) :=
  match c.current with
  | some n => do
    let (a, pars, e, t) ← parTokens s es c.alphabet c.pars (parOf n c.pars).initial (parOf n c.pars)
    pure { c with alphabet := a, pars := mapSet n (setFinal e 0 true t) pars }
  | none => do
    let x := (mapFind c.sect c.secs).getD {}
    let (a, pars, e, x) ← secTokens s true es c.alphabet c.pars x.t.initial x
    pure { c with alphabet := a, pars, secs := mapSet c.sect { x with t := setFinal e 0 true x.t } c.secs }

/-- The weights that the elements of an entry get (compiler.cc:863-882): `w` is that of the entry, `j` is what a paradigm has, see `CEntry.junk`. The
weight of an expression is not used. -/
def weigh (w j : W) : Token N → W × Token N
  | .par n => (j, .par n)
  | k => (w, k)

/-- `Compiler::filterEntry` (compiler.cc:697-707). -/
def filterEntry (value filter : UString) (keepOnEmpty : Bool) : Bool :=
  if value = [] then true
  else if keepOnEmpty && filter = [] then true
  else ((Str.split value [0x20]).getD []).any (· = filter)

/-- The entry is passed over (compiler.cc:801-806). -/
def skipped (s : Settings) (a : Expander.Attrs) : Bool :=
  (a.r ≠ [] && a.r ≠ (if s.rl then Expander.RL else Expander.LR))
    || a.ignore = Expander.YES
    || !filterEntry a.alt s.alt false
    || !filterEntry a.v s.variant true
    || (s.rl && !filterEntry a.vl s.left false)
    || (!s.rl && !filterEntry a.vr s.right false)

/-- What happens while the elements are read (compiler.cc:850-916 with `procPar`, 544-562): `false` if the entry is discarded
because of an empty paradigm. -/
def readTokens (c : Comp N W) : List (Token N) → Res Bool
  | [] => .ok true
  | .par n :: es =>
    if c.current = some n then .exit
    else match mapFind n c.pars with
      | none => .exit
      | some t => if isEmpty t then .ok false else readTokens c es
  | _ :: es => readTokens c es

/-- `Compiler::procEntry` (compiler.cc:728-917). A masked `<e/>` also skips what follows it in the file up to the next `<e>`; here it
does nothing. -/
def procEntry (s : Settings) (e : CEntry N W) (c : Comp N W) : Res (Comp N W) :=
  if skipped s e.attrs then .ok c
  else match e.content with
    | none => .ok c
    | some es => do
      if ← readTokens c es then insertEntryTokens s (es.map (weigh e.weight e.junk)) c else pure c

/-- The events of `procNode` (compiler.cc:919-992) that do something here. -/
inductive Node (N W : Type)
  | sdef (name : UString)
  | parOpen (n : N)
  | parClose
  | secOpen (name : UString)
  | secClose
  | entry (e : CEntry N W)

end

section
variable {W : Type} [LinearOrder W] [Zero W] {N : Type} [LinearOrder N]

/-- The second branch of `Compiler::procParDef` (compiler.cc:190-198). Outside a paradigm the key of the map is the empty name, for
which the map has no entry; that entry is not represented. -/
def closePar (c : Comp N W) : Res (Comp N W) :=
  match c.current with
  | none => .ok c
  | some n =>
    if isEmpty (parOf n c.pars) then .ok { c with pars := mapSet n (parOf n c.pars) c.pars }
    else do
      let t ← minimize 0 (parOf n c.pars)
      let t ← joinFinals 0 t
      pure { c with pars := mapSet n t c.pars, current := none }

/-- `Compiler::procNode` (compiler.cc:919-992), `procSDef` (175-179), `procParDef` (181-199) and `procSection` (675-694). -/
def procNode (s : Settings) (n : Node N W) (c : Comp N W) : Res (Comp N W) :=
  match n with
  | .sdef n => .ok { c with alphabet := c.alphabet.includeSymbol (0x3c :: n ++ [0x3e]) }
  | .parOpen n => .ok { c with current := some n }
  | .parClose => closePar c
  | .secOpen n => .ok { c with sect := n }
  | .secClose => .ok { c with sect := [] }
  | .entry e => procEntry s e c

/-- The loop of `Compiler::parse` (compiler.cc:55-60). -/
def procNodes (s : Settings) : List (Node N W) → Comp N W → Res (Comp N W)
  | [], c => .ok c
  | n :: ns, c => do procNodes s ns (← procNode s n c)

/-- The loop of `parse` over the sections (compiler.cc:74-87) without threads. -/
def minimizeAll : List (UString × Sec N W) → Res (List (UString × Transducer W))
  | [] => .ok []
  | (k, x) :: secs => do
    let t ← minimize 0 x.t
    let ts ← minimizeAll secs
    pure ((k, t) :: ts)

/-- `Compiler::valid` (compiler.cc:109-132). -/
def valid (a : Alphabet) (secs : List (UString × Transducer W)) : Bool :=
  secs.all fun x => (closure x.2 x.2.initial (a.symbolsWhereLeftIs 0)).all fun i =>
    !isFinal x.2 i && (closure x.2 i (a.symbolsWhereLeftIs 0x20)).length ≤ 1

/-- `Compiler::parse` (compiler.cc:44-107): the alphabet and the sections, as they are written. -/
def parse (s : Settings) (ns : List (Node N W)) : Res (Alphabet × List (UString × Transducer W)) := do
  let c ← procNodes s ns ({} : Comp N W)
  let secs ← minimizeAll c.secs
  if valid c.alphabet secs then pure (c.alphabet, secs) else .exit

end

end Verif.Compiler
