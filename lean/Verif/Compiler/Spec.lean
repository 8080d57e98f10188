import Verif.Compiler.Model
import Verif.Regex.Props
import Verif.Str.Props

/-!
# What a dictionary says

A dictionary as its author sees it: paradigms and sections, each a list of entries. Nothing here refers to transducers.
-/

namespace Verif.Compiler

/-- `w` is one of the words of `value`, which are separated by spaces. -/
def Word (w value : UString) : Prop :=
  w ≠ [] ∧ 0x20 ∉ w ∧ ∃ pre post, value = pre ++ w ++ post ∧ (pre = [] ∨ ∃ p, pre = p ++ [0x20]) ∧ (post = [] ∨ ∃ p, post = 0x20 :: p)

/-- An entry with these attributes takes part under these settings: it is not restricted to the other direction and not ignored;
the chosen `alt` is among its words if it has any; likewise `v` if a variant is chosen, and `vl` or `vr` depending on the direction. -/
structure Visible (s : Settings) (a : Expander.Attrs) : Prop where
  r : a.r = [] ∨ a.r = (if s.rl then Expander.RL else Expander.LR)
  ignore : a.ignore ≠ Expander.YES
  alt : a.alt = [] ∨ Word s.alt a.alt
  v : a.v = [] ∨ s.variant = [] ∨ Word s.variant a.v
  vl : s.rl = true → a.vl = [] ∨ Word s.left a.vl
  vr : s.rl = false → a.vr = [] ∨ Word s.right a.vr

variable {N W : Type}

/-- A dictionary: names of tags, paradigms in order, and sections in order, each with its entries. In texts `-(i + 1)` stands for tag
`i`, `<` and `>` being put around its name. -/
structure File (N W : Type) where
  tags : List UString := []
  pars : List (N × List (CEntry N W)) := []
  secs : List (UString × List (CEntry N W)) := []

/-- The events for one paradigm and for one section. -/
def parNodes (p : N × List (CEntry N W)) : List (Node N W) := .parOpen p.1 :: p.2.map .entry ++ [.parClose]
def secNodes (p : UString × List (CEntry N W)) : List (Node N W) := .secOpen p.1 :: p.2.map .entry ++ [.secClose]

/-- The events of the file. -/
def File.nodes (f : File N W) : List (Node N W) := f.tags.map .sdef ++ (f.pars.flatMap parNodes ++ f.secs.flatMap secNodes)

/-- `es` is the content of a visible entry of the list. -/
def Uses (s : Settings) (ents : List (CEntry N W)) (es : List (Token N)) : Prop := ∃ e ∈ ents, Visible s e.attrs ∧ e.content = some es

/-- A sequence of elements stands for a pair of symbol sequences: texts for themselves, a paradigm for any pair of one of its visible
entries, a regular expression for any text that it matches, on both sides. -/
inductive Gives (s : Settings) (f : File N W) : List (Token N) → List Int → List Int → Prop
  | nil : Gives s f [] [] []
  | text {l r : List Int} {es l' r'} (h : Gives s f es l' r') : Gives s f (.text l r :: es) (l ++ l') (r ++ r')
  | re {e : Regex.Alt} {u : List Int} {es l' r'} (hv : e.Valid) (hm : e.Means Regex.latinOthers u) (h : Gives s f es l' r') :
      Gives s f (.re e.print :: es) (u ++ l') (u ++ r')
  | par {n : N} {ents : List (CEntry N W)} {es' : List (Token N)} {l r : List Int} {es l' r'}
      (hp : (n, ents) ∈ f.pars) (hu : Uses s ents es') (h1 : Gives s f es' l r)
      (h2 : Gives s f es l' r') : Gives s f (.par n :: es) (l ++ l') (r ++ r')

/-- A section of this name has a visible entry that stands for the pair. -/
def SecGives (s : Settings) (f : File N W) (k : UString) (l r : List Int) : Prop :=
  ∃ ents, (k, ents) ∈ f.secs ∧ ∃ es, Uses s ents es ∧ Gives s f es l r

/-- Labels that stand for the left and right symbols. -/
def Reads (a : Alphabet) (zs : List (Int × W)) (l r : List Int) : Prop :=
  ∃ ps : List Pair, List.Forall₂ (fun z p => a.decode z.1 = .ok p) zs ps ∧ (ps.map (·.1)).filter (· ≠ 0) = l ∧ (ps.map (·.2)).filter (· ≠ 0) = r

/-! ## The files of which the theorems speak -/

/-- Which labels may be followed after an element. -/
inductive Fol
  | any
  | nonid
  | none
  deriving DecidableEq

/-- After a copied paradigm. -/
def folOf (closed : N → Bool) (n : N) : Fol := if closed n then .any else .none

/-- After these elements a pair of texts gets arcs of its own. -/
def FitsText : Fol → List Int → List Int → Prop
  | .any, _, _ => True
  | .nonid, l, r => l.head? ≠ r.head? ∨ (l = [] ∧ r = [])
  | .none, l, r => l = [] ∧ r = []

/-- No text is put behind a regular expression in such a way that they could get mixed up; texts do not contain the empty symbol;
expressions are well formed. `closed n` says that paradigm `n` has no regular expressions. -/
def Fits (closed : N → Bool) : Fol → List (Token N) → Prop
  | _, [] => True
  | f, .text l r :: es => 0 ∉ l ∧ 0 ∉ r ∧ FitsText f l r ∧ Fits closed .any es
  | _, .par n :: es => Fits closed (folOf closed n) es
  | _, .re er :: es => (∃ e : Regex.Alt, e.Valid ∧ er = e.print) ∧ Fits closed .nonid es

/-- The two sides in the order of the transducer. -/
def sides {α : Type} (s : Settings) (l r : α) : α × α := if s.rl then (r, l) else (l, r)

/-- No regular expressions, directly or in paradigms. -/
def Closed (closed : N → Bool) (es : List (Token N)) : Prop :=
  ∀ e ∈ es, match e with
    | .par n => closed n = true
    | .re _ => False
    | _ => True

/-- Conditions on a file. There are no equivalent characters; paradigms have names of their own and are used after their
definition only; no text comes where it gets mixed up with a regular expression; the last paradigm is not empty. -/
structure Regular (s : Settings) (f : File N W) (closed : N → Bool) : Prop where
  acx : s.acx = []
  names : (f.pars.map (·.1)).Nodup
  order : ∀ ps n ents qs, f.pars = ps ++ (n, ents) :: qs → ∀ es, Uses s ents es → ∀ m, .par m ∈ es → m ∈ ps.map (·.1)
  refs : ∀ k ents, (k, ents) ∈ f.secs → ∀ es, Uses s ents es → ∀ m, .par m ∈ es → m ∈ f.pars.map (·.1)
  parFits : ∀ n ents, (n, ents) ∈ f.pars → ∀ es, Uses s ents es → Fits closed .any es
  secFits : ∀ k ents, (k, ents) ∈ f.secs → ∀ es, Uses s ents es → Fits closed .any es
  parClosed : ∀ n ents, (n, ents) ∈ f.pars → closed n = true → ∀ es, Uses s ents es → Closed closed es
  last : ∀ ps n ents, f.pars = ps ++ [(n, ents)] → ∃ l r, Gives s f [.par n] l r

end Verif.Compiler
