import Verif.Compiler.Model

/-!
# Model of separable dictionaries in `lttoolbox/compiler.cc`

What `Compiler.Model` has with `is_separable` false is repeated here for `is_separable` true. Only the insertion of texts and the end of `parse` differ;
the functions of `Compiler.Model` that do not look at the member are used as they are. The elements `t`, `w`, `d` and `f` (compiler.cc:375-397) are symbols of
the texts, as the reader leaves them.
-/

namespace Verif.Sep

open Verif.Fst Verif.Compiler

/-- The members that hold symbols (compiler.h:174-179). -/
structure Wild where
  anyTag : Int
  anyChar : Int
  boundary : Int
  boundaryS : Int
  boundaryNs : Int
  reading : Int
  deriving DecidableEq

/-- `ANY_TAG_SYMBOL` and the others (transducer.h:97-102). -/
def anyTagSymbol : UString := [0x3c, 0x41, 0x4e, 0x59, 0x5f, 0x54, 0x41, 0x47, 0x3e]
def anyCharSymbol : UString := [0x3c, 0x41, 0x4e, 0x59, 0x5f, 0x43, 0x48, 0x41, 0x52, 0x3e]
def boundarySymbol : UString := [0x3c, 0x24, 0x3e]
def boundarySpaceSymbol : UString := [0x3c, 0x24, 0x5f, 0x3e]
def boundaryNoSpaceSymbol : UString := [0x3c, 0x24, 0x2d, 0x3e]
def readingSymbol : UString := [0x3c, 0x2f, 0x3e]

/-- The alphabet after the element `dictionary` (compiler.cc:930-940). It is the root of the file, so the alphabet was empty. -/
def startAlphabet : Alphabet :=
  (((((Alphabet.empty.includeSymbol anyTagSymbol).includeSymbol anyCharSymbol).includeSymbol boundarySymbol).includeSymbol
    boundarySpaceSymbol).includeSymbol boundaryNoSpaceSymbol).includeSymbol readingSymbol

/-- The symbols (compiler.cc:941-946). -/
def wild : Wild where
  anyTag := startAlphabet.symCode anyTagSymbol
  anyChar := startAlphabet.symCode anyCharSymbol
  boundary := startAlphabet.symCode boundarySymbol
  boundaryS := startAlphabet.symCode boundarySpaceSymbol
  boundaryNs := startAlphabet.symCode boundaryNoSpaceSymbol
  reading := startAlphabet.symCode readingSymbol

/-- `tag == alphabet(…) || tag == alphabet(…) || …`: the pairs up to the one that is equal get into the alphabet. -/
def anyOf (tag : Int) : List Pair → Alphabet → Bool × Alphabet
  | [], a => (false, a)
  | p :: ps, a =>
    let (c, a) := a.pairCode p.1 p.2
    if tag = c then (true, a) else anyOf tag ps a

section
variable {W : Type} [Zero W]

/-- The loops of the wildcards (compiler.cc:278-291). -/
def loopBack (tag : Int) (new : Nat) (a : Alphabet) (t : Transducer W) : Res (Alphabet × Transducer W) :=
  match anyOf tag [(0, wild.anyTag), (0, wild.anyChar)] a with
  | (true, a) => .ok (a, t)
  | (false, a) =>
    match anyOf tag [(wild.anyTag, wild.anyTag), (wild.anyChar, wild.anyChar), (wild.anyTag, 0), (wild.anyChar, 0)] a with
    | (true, a) => do
      let t ← linkStates new new tag 0 t
      pure (a, t)
    | (false, a) => .ok (a, t)

/-- The end of one turn of the loop of `matchTransduction` (compiler.cc:276-300), see `Compiler.matchStep`. -/
def matchStep (eqs : List Int) (w : W) (x y : Int) (a : Alphabet) (state : Nat) (t : Transducer W) :
    Res (Alphabet × Nat × Transducer W) :=
  let (tag, a) := a.pairCode x y
  match insertSingleTransduction tag state w t with
  | (none, _) => .ub
  | (some new, t) => do
    let (a, t) ← loopBack tag new a t
    let (a, t) ← acxLoop state new y w eqs a t
    pure (a, new, t)

/-- The loop of `matchTransduction` (compiler.cc:234-301) when nothing is left on the left side. -/
def matchRight (w : W) : (right : List Int) → Alphabet → Nat → Transducer W → Res (Alphabet × Nat × Transducer W)
  | [], a, state, t => .ok (a, state, t)
  | y :: right, a, state, t => do
    let (a, state, t) ← matchStep [] (if right = [] then w else 0) 0 y a state t
    matchRight w right a state t

/-- The loop of `matchTransduction` (compiler.cc:234-301). -/
def matchLoop (acx : List (Int × List Int)) (w : W) : (left right : List Int) → Alphabet → Nat → Transducer W →
    Res (Alphabet × Nat × Transducer W)
  | [], right, a, state, t => matchRight w right a state t
  | x :: left, [], a, state, t => do
    let (a, state, t) ← matchStep (equivalents acx x) (if left = [] then w else 0) x 0 a state t
    matchLoop acx w left [] a state t
  | x :: left, y :: right, a, state, t => do
    let (a, state, t) ← matchStep (equivalents acx x) (if left = [] ∧ right = [] then w else 0) x y a state t
    matchLoop acx w left right a state t

/-- `Compiler::matchTransduction` (compiler.cc:201-305). -/
def matchTransduction (s : Settings) (pi pd : List Int) (w : W) (a : Alphabet) (state : Nat) (t : Transducer W) :
    Res (Alphabet × Nat × Transducer W) :=
  let (left, right) := if s.rl then (pd, pi) else (pi, pd)
  match pi, pd with
  | [], [] =>
    let (tag, a) := a.pairCode 0 0
    let (state, t) := insertNewSingleTransduction tag state 0 t
    .ok (a, state, t)
  | _, _ => matchLoop s.acx w left right a state t

variable {N : Type} [LinearOrder N] [DecidableEq W]

/-- The loop of `insertEntryTokens` in a paradigm (compiler.cc:573-595), as `Compiler.parTokens`. -/
def parTokens (s : Settings) : List (W × Token N) → Alphabet → List (N × Transducer W) → Nat → Transducer W →
    Res (Alphabet × List (N × Transducer W) × Nat × Transducer W)
  | [], a, pars, e, t => .ok (a, pars, e, t)
  | (_, .par n) :: es, a, pars, e, t => do
    let (pars, e, t) ← insertPar n pars e t
    parTokens s es a pars e t
  | (w, .text l r) :: es, a, pars, e, t => do
    let (a, e, t) ← matchTransduction s l r w a e t
    parTokens s es a pars e t
  | (_, .re er) :: es, a, pars, e, t => do
    let (a, e, t) ← insertRegexp er a e t
    parTokens s es a pars e t

/-- The loop of `insertEntryTokens` in a section (compiler.cc:605-655), as `Compiler.secTokens`. -/
def secTokens (s : Settings) : (first : Bool) → List (W × Token N) → Alphabet → List (N × Transducer W) → Nat → Sec N W →
    Res (Alphabet × List (N × Transducer W) × Nat × Sec N W)
  | _, [], a, pars, e, x => .ok (a, pars, e, x)
  | _, [(j, .par n)], a, pars, e, x => suffixPar j n a pars e x
  | true, (_, .par n) :: es, a, pars, e, x => do
    let (pars, e, x) ← prefixPar n pars e x
    secTokens s false es a pars e x
  | false, (_, .par n) :: es, a, pars, e, x => do
    let (pars, e, t) ← insertPar n pars e x.t
    secTokens s false es a pars e { x with t }
  | _, (w, .text l r) :: es, a, pars, e, x => do
    let (a, e, t) ← matchTransduction s l r w a e x.t
    secTokens s false es a pars e { x with t }
  | _, (_, .re er) :: es, a, pars, e, x => do
    let (a, e, t) ← insertRegexp er a e x.t
    secTokens s false es a pars e { x with t }

/-- `Compiler::insertEntryTokens` (compiler.cc:564-658). -/
def insertEntryTokens (s : Settings) (es : List (W × Token N)) (c : Comp N W) : Res (Comp N W) :=
  match c.current with
  | some n => do
    let (a, pars, e, t) ← parTokens s es c.alphabet c.pars (parOf n c.pars).initial (parOf n c.pars)
    pure { c with alphabet := a, pars := mapSet n (setFinal e 0 true t) pars }
  | none => do
    let x := (mapFind c.sect c.secs).getD {}
    let (a, pars, e, x) ← secTokens s true es c.alphabet c.pars x.t.initial x
    pure { c with alphabet := a, pars, secs := mapSet c.sect { x with t := setFinal e 0 true x.t } c.secs }

/-- `Compiler::procEntry` (compiler.cc:728-917), as `Compiler.procEntry`. -/
def procEntry (s : Settings) (e : CEntry N W) (c : Comp N W) : Res (Comp N W) :=
  if skipped s e.attrs then .ok c
  else match e.content with
    | none => .ok c
    | some es => do
      if ← readTokens c es then insertEntryTokens s (es.map (weigh e.weight e.junk)) c else pure c

end

section
variable {W : Type} [LinearOrder W] [Zero W] {N : Type} [LinearOrder N]

/-- `Compiler::procNode` (compiler.cc:919-992) after the element `dictionary`. -/
def procNode (s : Settings) (n : Node N W) (c : Comp N W) : Res (Comp N W) :=
  match n with
  | .entry e => procEntry s e c
  | n => Compiler.procNode s n c

/-- The loop of `Compiler::parse` (compiler.cc:55-60). -/
def procNodes (s : Settings) : List (Node N W) → Comp N W → Res (Comp N W)
  | [], c => .ok c
  | n :: ns, c => do procNodes s ns (← procNode s n c)

/-- The loop over the final states of a section (compiler.cc:97-100). `fins` is the copy that `getFinals` returns. `insertSingleTransduction` returns -1 for more
than two arcs with the tag, and the code makes this state final; here it counts as undefined behaviour. -/
def endArcs (tag : Int) : List (Nat × W) → Transducer W → Res (Transducer W)
  | [], t => .ok t
  | f :: fins, t =>
    match insertSingleTransduction tag f.1 0 t with
    | (none, _) => .ub
    | (some e, t) => endArcs tag fins (setFinal e 0 true t)

/-- The loop over the sections (compiler.cc:96-101). -/
def endAll (tag : Int) : List (UString × Transducer W) → Res (List (UString × Transducer W))
  | [] => .ok []
  | (k, t) :: ts => do
    let t ← endArcs tag t.finals t
    let ts ← endAll tag ts
    pure ((k, t) :: ts)

/-- `Compiler::parse` (compiler.cc:44-107) of a separable dictionary. -/
def parse (s : Settings) (ns : List (Node N W)) : Res (Alphabet × List (UString × Transducer W)) := do
  let c ← procNodes s ns ({ alphabet := startAlphabet } : Comp N W)
  let secs ← minimizeAll c.secs
  let (tag, a) := c.alphabet.pairCode wild.boundary wild.boundary
  let secs ← endAll tag secs
  if valid a secs then pure (a, secs) else .exit

end

end Verif.Sep
