import Verif.Unified.Model
import Verif.Compiler.Spec
import Verif.Tools.Spec
import Verif.Chain.Spec

/-!
# What `lt-comp u` followed by `lt-restrict` should give

The same as `lt-comp` with the settings given directly. Nothing here refers to the way marks are put into transducers.
-/

namespace Verif.Unified

open Verif.Compiler
open Verif.Expander (Attrs)
open Verif.Fst (Name)
open Verif.Tools (Choice mark preR preAlt preV preVl preVr Marked)

variable {N W : Type}

/-- An entry of the file. -/
def Entry (f : File N W) (e : CEntry N W) : Prop :=
  (∃ n ents, (n, ents) ∈ f.pars ∧ e ∈ ents) ∨ ∃ k ents, (k, ents) ∈ f.secs ∧ e ∈ ents

/-- The same entry and the same file without restrictions to directions and variants. -/
def bare (e : CEntry N W) : CEntry N W := { e with attrs := { ignore := e.attrs.ignore } }
def bareFile (f : File N W) : File N W :=
  { tags := f.tags, pars := f.pars.map fun p => (p.1, p.2.map bare), secs := f.secs.map fun p => (p.1, p.2.map bare) }

/-- Every attribute has at most one value. -/
def Single (a : Attrs) : Prop := 0x20 ∉ a.r ∧ 0x20 ∉ a.alt ∧ 0x20 ∉ a.v ∧ 0x20 ∉ a.vl ∧ 0x20 ∉ a.vr

/-- Nothing or one value. -/
def one (v : UString) : List UString := if v = [] then [] else [v]

/-- The options of `lt-restrict` that say the same as the settings of `lt-comp`. -/
structure Same (s : Settings) (ch : Choice) : Prop where
  dir : ch.dir = if s.rl then Tools.RL else Tools.LR
  vars : ch.vars = one s.variant
  alts : ch.alts = one s.alt
  lefts : s.rl = true → ch.lefts = one s.left
  rights : s.rl = false → ch.rights = one s.right

/-- A symbol of a text or of a word that an expression matches is a letter or a tag of the file. -/
def Own (f : File N W) : Token N → Prop
  | .text l r => (∀ c ∈ l, -(f.tags.length : Int) ≤ c) ∧ ∀ c ∈ r, -(f.tags.length : Int) ≤ c
  | .par _ => True
  | .re er => ∀ e : Regex.Alt, e.Valid → er = e.print → ∀ u, e.Means Regex.latinOthers u → ∀ c ∈ u, -(f.tags.length : Int) ≤ c

/-- The files of which the theorems speak. Tags are different and do not look like control marks; the attributes of entries that are not ignored
have single values; the variants of the side that the direction does not look at are among those that `lt-restrict` is told to keep. -/
structure Fit (s : Settings) (ch : Choice) (f : File N W) : Prop where
  tags : f.tags.Nodup
  unmarked : ∀ t ∈ f.tags, ∀ pre ∈ [preR, preAlt, preV, preVl, preVr], ¬ Marked pre (0x3c :: t ++ [0x3e])
  single : ∀ e, Entry f e → Single e.attrs
  lefts : s.rl = false → ∀ e, Entry f e → e.attrs.vl = [] ∨ e.attrs.vl ∈ ch.lefts
  rights : s.rl = true → ∀ e, Entry f e → e.attrs.vr = [] ∨ e.attrs.vr ∈ ch.rights
  own : ∀ e, Entry f e → ∀ es, e.content = some es → ∀ k ∈ es, Own f k

/-- What a symbol of the file stands for. -/
def nameOf (f : File N W) (c : Int) : Name := if c < 0 then .tag (Chain.tagName f c) else .letter c

/-- The compiled file has, in a section of this name, this pair of sequences. -/
def Pairs (bs : List UInt8) (k : UString) (x y : List Name) : Prop :=
  ∃ ls fw, Tools.Says bs k ls fw ∧ (ls.map (·.1.1)).filter (· ≠ .letter 0) = x ∧ (ls.map (·.1.2)).filter (· ≠ .letter 0) = y

/-- The dictionary says so: `x` is read and `y` is written. -/
def Meant (s : Settings) (f : File N W) (k : UString) (x y : List Name) : Prop :=
  ∃ u v, Chain.Says s f k u v ∧ x = u.map (nameOf f) ∧ y = v.map (nameOf f)

end Verif.Unified
