import Verif.Tools.Model
import Verif.Labels.Props
import Verif.BinIO.Props

/-! # What the files of the tools hold -/

namespace Verif.Tools

open Verif.Fst
open Verif.Compression (Dbl)

/-- A letter, or a tag of the alphabet. -/
def Symbol (a : Alphabet) (x : Int) : Prop := (0 ≤ x ∧ x < 2 ^ 29) ∨ (x < 0 ∧ ∃ s, a.tagText x = .ok s)

/-- A weight that the binary format keeps as it is. -/
def Kept (w : Dbl) : Prop := w.Normal ∧ BinIO.Exact w

/-- A transducer that the binary format keeps as it is. -/
structure Part (a : Alphabet) (t : Transducer Dbl) : Prop where
  wf : WF t
  coded : Coded a t
  size : Fst.size t < 2 ^ 30
  rows : ∀ e ∈ t.transitions, e.2.length < 2 ^ 30
  arcs : ∀ q l p, Edge t q l p → Kept l.2
  finals : ∀ q w, Final t q w → Kept w

/-- An alphabet whose pairs consist of letters and of its tags. -/
structure Sane (a : Alphabet) : Prop where
  ok : a.Ok
  tags : ∀ s ∈ a.slexicinv, Alphabet.Bracketed s ∧ s.length < 2 ^ 30
  symbols : ∀ p ∈ a.spairinv, Symbol a p.1 ∧ Symbol a p.2

/-- Letters in order, all in the Basic Multilingual Plane. -/
def Plain (letters : List UInt32) : Prop :=
  letters.Pairwise (· < ·) ∧ letters.length < 2 ^ 30 ∧ ∀ c ∈ letters, c.toNat < 0x10000 ∧ ¬ (0xd800 ≤ c.toNat ∧ c.toNat < 0xdc00)

/-- The file holds these letters, this alphabet and these sections. -/
def Stores (bs : List UInt8) (letters : List UInt32) (a : Alphabet) (ts : List (UString × Transducer Dbl)) : Prop :=
  ∃ rest, BinIO.readSet bs = .ok ((letters, a, ts), rest)

/-- A compiled dictionary. -/
structure Dictionary (bs : List UInt8) (letters : List UInt32) (a : Alphabet) (ts : List (UString × Transducer Dbl)) : Prop where
  stored : Stores bs letters a ts
  letters : Plain letters
  sane : Sane a
  sorted : ts.Pairwise (fun x y => x.1 < y.1)
  names : ∀ e ∈ ts, e.1.length < 2 ^ 30
  parts : ∀ e ∈ ts, Part a e.2
  ntags : a.slexicinv.length < 2 ^ 29
  npairs : a.spairinv.length < 2 ^ 30
  nsections : ts.length < 2 ^ 30

/-- In the file there is a section of name `k` with a path of these pairs of names. -/
def Says (bs : List UInt8) (k : UString) (ls : List ((Name × Name) × Dbl)) (fw : Dbl) : Prop :=
  ∃ letters a ts t, Stores bs letters a ts ∧ (k, t) ∈ ts ∧ SpellsNames a t ls fw

/-- In the file there is a section of name `k`. -/
def Has (bs : List UInt8) (k : UString) : Prop := ∃ letters a ts t, Stores bs letters a ts ∧ (k, t) ∈ ts

/-- The same path with the sides exchanged. -/
def turn (ls : List ((Name × Name) × Dbl)) : List ((Name × Name) × Dbl) := ls.map fun l => ((l.1.2, l.1.1), l.2)

/-! ## Restricting -/

/-- The tag is a control mark of this kind. -/
def Marked (pre t : UString) : Prop := ∃ r, t = 0x3c :: pre ++ [0x3a] ++ r

/-- The mark was asked for. -/
def Chosen (ch : Choice) (t : UString) : Prop :=
  t = mark preR ch.dir ∨ (∃ s ∈ ch.vars, t = mark preV s) ∨ (∃ s ∈ ch.alts, t = mark preAlt s) ∨
    (∃ s ∈ ch.lefts, t = mark preVl s) ∨ ∃ s ∈ ch.rights, t = mark preVr s

/-- Entries with this mark go. -/
def Dropped (ch : Choice) (t : UString) : Prop :=
  ¬ Chosen ch t ∧ (Marked preR t ∨ (ch.vars ≠ [] ∧ Marked preV t) ∨ Marked preAlt t ∨ Marked preVl t ∨ Marked preVr t)

/-- The mark goes, the entries with it stay. -/
def Erased (ch : Choice) (t : UString) : Prop := Chosen ch t ∨ (ch.vars = [] ∧ Marked preV t)

open Classical in
/-- A pair of names after the chosen marks were erased. -/
noncomputable def eraseMark (ch : Choice) (l : (Name × Name) × Dbl) : (Name × Name) × Dbl :=
  if ∃ t, l.1 = (.tag t, .tag t) ∧ Erased ch t then ((.letter 0, .letter 0), l.2) else l

end Verif.Tools
