import Verif.Print.Model
import Verif.Att.Spec

/-! # What `lt-print` can write so that it can be read again -/

namespace Verif.Print

open Verif.Fst Verif.Att

variable {W : Type}

/-- A symbol that can be written: nothing, a letter, or a tag. A newline ends a line, and so does U+FFFF. A tab and the letter that stands for nothing can
only be written with the option for HFST. -/
def Writable (hfst : Bool) : Name → Prop
  | .letter c => c = 0 ∨ ∃ n : Nat, c = n ∧ Scalar n ∧ n ≠ 0x0a ∧ n ≠ 0xffff ∧ (hfst = false → n ≠ 0x09 ∧ n ≠ 0x3b5)
  | .tag s => TagText s ∧ Column s ∧ 0 ∉ s

/-- A weight that is the same when it is read again. -/
def Kept (σ : Setting W) (fmt : W → UString) (w : W) : Prop := σ.stod (fmt w) = some w ∧ Column (fmt w)

/-- A transducer with labels of the alphabet, at least one final state, and 0 as its initial state. -/
structure Printable (σ : Setting W) (fmt : W → UString) (a : Alphabet) (t : Transducer W) : Prop where
  wf : WF t
  coded : Coded a t
  names : ∀ q l p, PairEdge a t q l p → (∃ n, Named a l.1.1 n ∧ Writable σ.hfstSymbols n) ∧ ∃ n, Named a l.1.2 n ∧ Writable σ.hfstSymbols n
  finals : t.finals ≠ []
  initial : t.initial = 0
  arcWeight : ∀ q l p, Edge t q l p → Kept σ fmt l.2
  finalWeight : ∀ p w, Final t p w → Kept σ fmt w

/-- The first line is one of the initial state: an arc leaves it, or it is final and there are no arcs at all. -/
def Leads (t : Transducer W) : Prop := (∃ l p, Edge t 0 l p) ∨ ((∀ q l p, ¬ Edge t q l p) ∧ ∃ w, Final t 0 w)

/-- Arcs with the same names between the same states have the same weight. -/
def OneArc (a : Alphabet) (t : Transducer W) : Prop := ∀ q l w v p, NamedEdge a t q (l, w) p → NamedEdge a t q (l, v) p → w = v

end Verif.Print
