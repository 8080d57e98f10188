import Verif.Product.Model
import Verif.Chain.Model
import Verif.Tools.Model
import Verif.Data.Utf16

/-!
# Model of `lt-paradigm`

`lttoolbox/lt_paradigm.cc`: the lines of the input are patterns, and for each of them the matching pairs of the dictionary are listed. The weights of
the file are read as weights of any kind (`v`), as in the model of `lt-trim`. The input is given by its characters, the output in UTF-16. Flushing
is left out.
-/

namespace Verif.Paradigm

open Verif.Fst
open Verif.Compression (Dbl)

variable {W : Type}

/-- `<*>`, the pattern for any tags (lt_paradigm.cc:82). -/
def ANY : UString := [0x3c, 0x2a, 0x3e]

/-- `split_tag` (lt_paradigm.cc:60-73). -/
def splitTag (sym : UString) (a : Alphabet) (pre : Nat) (sep : UInt16) : List Int :=
  ((Str.splitEscaped ((sym.drop (pre + 1)).take (sym.length - pre - 2)) sep).map fun tg => 0x3c :: tg ++ [0x3e]).foldl
    (fun ret tag => if a.isSymbolDefined tag then setInsert (a.symCode tag) ret else ret) []

/-- The alphabet and the variables `other` and `state` of `process` (lt_paradigm.cc:75-84). -/
structure Build (W : Type) where
  a : Alphabet
  t : Transducer W
  q : Nat

/-- `state = other.insertNewSingleTransduction(alpha(c, c), state)` (lt_paradigm.cc:116 and 122). -/
def chain [Zero W] (c : Int) (s : Build W) : Build W :=
  let (code, a) := s.a.pairCode c c
  let (q, t) := insertNewSingleTransduction code s.q 0 s.t
  { a, t, q }

/-- `other.linkStates(p, r, alpha(c, c))`. -/
def link [Zero W] (p r : Nat) (c : Int) (s : Build W) : Res (Build W) := do
  let (code, a) := s.a.pairCode c c
  let t ← linkStates p r code 0 s.t
  pure { s with a, t }

/-- A loop over symbols that links `p` with `r` for each of them. -/
def links [Zero W] (p r : Nat) : List Int → Build W → Res (Build W)
  | [], s => .ok s
  | c :: cs, s => do links p r cs (← link p r c s)

/-- A new state with arcs to itself (lt_paradigm.cc:88-91, 93-96, 99-102, 105-110). -/
def loops [Zero W] (cs : List Int) (s : Build W) : Res (Build W) :=
  let (q, t) := insertNewSingleTransduction 0 s.q 0 s.t
  links q q cs { s with t, q }

/-- The loop for one of several tags (lt_paradigm.cc:113-120). -/
def oneOf [Zero W] (old : Nat) : List Int → Build W → Res (Build W)
  | [], s => .ok s
  | c :: cs, s =>
    if old = s.q then oneOf old cs (chain c s)
    else do oneOf old cs (← link old s.q c s)

/-- The code of a piece of the pattern (lt_paradigm.cc:86). -/
def code (a : Alphabet) (sym : UString) : Int :=
  match sym with
  | [u] => u.toNat
  | _ => a.symCode sym

/-- The body of the loop over the pieces of the pattern (lt_paradigm.cc:85-124). `any_tag` is looked up once before the loop; `alpha` gets no tags in it. -/
def step [Zero W] (letters : List UInt32) (tags : List Int) (sym : UString) (s : Build W) : Res (Build W) :=
  let it := code s.a sym
  if it = 0x2a then loops (letters.map fun c => (c.toNat : Int)) s
  else if it = s.a.symCode ANY then loops tags s
  else if it = 0 ∧ [0x3c, 0x2a, 0x7c] <+: sym then loops (splitTag sym s.a 2 0x7c) s
  else if it = 0 ∧ [0x3c, 0x2a] <+: sym then loops (tags.filter (· ∉ splitTag sym s.a 1 0x2d)) s
  else if it = 0 ∧ [0x3c, 0x7c] <+: sym then oneOf s.q (splitTag sym s.a 1 0x7c) s
  else .ok (chain it s)

/-- The loop over the pieces of the pattern. -/
def steps [Zero W] (letters : List UInt32) (tags : List Int) : List UString → Build W → Res (Build W)
  | [], s => .ok s
  | sym :: syms, s => do steps letters tags syms (← step letters tags sym s)

/-! ## Listing -/

/-- The strings of a list of labels (lt_paradigm.cc:34-39): left, right. -/
def spell (a : Alphabet) : List Int → Res (UString × UString)
  | [] => .ok ([], [])
  | c :: cs => do
    let p ← a.decode c
    let x ← a.getSymbol p.1
    let y ← a.getSymbol p.2
    let (l, r) ← spell a cs
    pure (x ++ l, y ++ r)

/-- What `expand` lists in a state (lt_paradigm.cc:33-47): the right string and the left one. -/
def here (t : Transducer W) (a : Alphabet) (q : Nat) (syms : List Int) : Res (List (UString × UString)) :=
  if isFinal t q then do
    let (l, r) ← spell a syms
    pure (if l ≠ [] ∧ r ≠ [] then [(r, l)] else [])
  else .ok []

/-- The loop of `expand` over the arcs of a state (lt_paradigm.cc:50-57). -/
def expandArcs (next : Nat → List Int → Res (List (UString × UString))) (past : List Nat) (syms : List Int) : Row W → Res (List (UString × UString))
  | [] => .ok []
  | (c, p, _) :: arcs =>
    if p ∈ past then expandArcs next past syms arcs
    else do
      let x ← next p (syms ++ [c])
      let y ← expandArcs next past syms arcs
      pure (x ++ y)

/-- `expand` (lt_paradigm.cc:29-58): what it prints, or inserts into the set. A branch visits a state at most twice, so `depth` suffices. -/
def expand (t : Transducer W) (a : Alphabet) : (depth : Nat) → Nat → List Nat → List Int → Res (List (UString × UString))
  | 0, _, _, _ => .ub
  | depth + 1, q, past, syms => do
    let x ← here t a q syms
    let y ← expandArcs (fun p syms => expand t a depth p (setInsert q past) syms) past syms (row t q)
    pure (x ++ y)

variable [Zero W]

/-- The loop of `process` over the sections (lt_paradigm.cc:127-135): what is listed, and the sections afterwards, because `trim` joins the final
states of the section itself. -/
def listSections (a : Alphabet) (other : Transducer W) : List (UString × Transducer W) → Res (List (UString × Transducer W) × List (UString × UString))
  | [] => .ok ([], [])
  | (k, t) :: ts => do
    let t ← joinFinals 0 t
    let inter ← Product.trim t other a a 0
    let x ← if inter.finals.isEmpty then .ok [] else expand inter a (2 * size inter + 1) inter.initial [] []
    let (ts, y) ← listSections a other ts
    pure ((k, t) :: ts, x ++ y)

/-- `outset` (lt_paradigm.cc:126 and 136-140). -/
def sorted (es : List (UString × UString)) : List (UString × UString) :=
  (es.foldl (fun (s : List (UString ×ₗ UString)) e => setInsert (toLex e) s) []).map ofLex

/-- `process` (lt_paradigm.cc:75-141): the alphabet and the sections afterwards, and what is printed, the strings before and after the colon. -/
def process (sort : Bool) (letters : List UInt32) (tags : List Int) (pattern : UString) (a : Alphabet) (ts : List (UString × Transducer W)) :
    Res ((Alphabet × List (UString × Transducer W)) × List (UString × UString)) := do
  let ps ← Alphabet.pieces 0 pattern
  let s ← steps letters tags ps { a, t := empty, q := (empty : Transducer W).initial }
  let (ts, es) ← listSections s.a (setFinal s.q 0 true s.t) ts
  pure ((s.a, ts), if sort then sorted es else es)

/-- `u_fprintf(output, "%S:%S\n", ...)` (lt_paradigm.cc:42 and 138). -/
def shown (e : UString × UString) : UString := e.1 ++ [0x3a] ++ e.2 ++ [0x0a]

/-- The loop of `main` over the input (lt_paradigm.cc:195-208): the rest of the input and `cur`. `eof` is true when the end has been read. -/
def readLoop (sort : Bool) (letters : List UInt32) (tags : List Int) :
    List Nat → UString → Alphabet → List (UString × Transducer W) → Res UString
  | [], cur, a, ts => do
    let (_, es) ← process sort letters tags cur a ts
    pure (es.flatMap shown)
  | c :: cs, cur, a, ts =>
    if c = 0x0a ∨ c = 0 then do
      let ((a, ts), es) ← process sort letters tags cur a ts
      let rest ← readLoop sort letters tags cs [] a ts
      pure (es.flatMap shown ++ UInt16.ofNat c :: rest)
    else readLoop sort letters tags cs (cur ++ utf16 c) a ts

/-- The loop over the tags (lt_paradigm.cc:174-181). -/
def allowedLoop (exclude : List UString) (a : Alphabet) : List Nat → List Int → Res (List Int)
  | [], tags => .ok tags
  | i :: is, tags =>
    if exclude = [] then allowedLoop exclude a is (setInsert (-((i : Int) + 1)) tags)
    else do
      let s ← a.getSymbol (-((i : Int) + 1))
      allowedLoop exclude a is (if s ∈ exclude then tags else setInsert (-((i : Int) + 1)) tags)

/-- The tags that are not excluded (lt_paradigm.cc:173-181). -/
def allowed (exclude : List UString) (a : Alphabet) : Res (List Int) := allowedLoop exclude a (List.range a.size) []

/-- `main` of lt-paradigm (lt_paradigm.cc:143-212): `exclude` are the tags given with `-e`. -/
def ltParadigm (v : Dbl → W) (analyser sort : Bool) (exclude : List UString) (fst : List UInt8) (input : List Nat) : Res UString := do
  let ((letters, a, ts), _) ← BinIO.readSet fst
  let a := a.includeSymbol ANY
  let tags ← allowed exclude a
  let (a, ts) ← if analyser then .ok (a, ts) else Tools.eachSection invert ts a
  readLoop sort letters tags input [] a (Chain.storedAll v ts)

end Verif.Paradigm
