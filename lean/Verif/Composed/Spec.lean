import Verif.Composed.Model
import Verif.Trim.Spec

/-! # What `lt-compose` is meant to make -/

namespace Verif.Composed

open Verif.Fst Verif.Alphabet
open Verif.Tools (Has Dictionary)
open Verif.Unified (Pairs)
open Verif.Trim (NameMeets)

/-- The section `k` of the file relates `X` to `Y`, where `X` is on the right side if `inverted`. -/
def Reads (inverted : Bool) (bs : List UInt8) (k : UString) (X Y : List Name) : Prop := if inverted then Pairs bs k Y X else Pairs bs k X Y

/-- Some section of the second file makes `Y` into `Z`; a mark for any letter or any tag stands for every one. -/
def Into (second : List UInt8) (Y Z : List Name) : Prop := ∃ Y' k', List.Forall₂ NameMeets Y Y' ∧ Pairs second k' Y' Z

/-- The same of an end of `Y` with `-a`, or nothing happens. -/
def Made (anywhere : Bool) (second : List UInt8) (Y Z : List Name) : Prop :=
  if anywhere then Z = Y ∨ ∃ K Y1 Z1, Y = K ++ Y1 ∧ Z = K ++ Z1 ∧ Into second Y1 Z1 else Into second Y Z

/-- What the section `k` of the first file makes of `X` the second file makes into `Z`. -/
def Through (inverted anywhere : Bool) (first second : List UInt8) (k : UString) (X Z : List Name) : Prop :=
  ∃ Y, Reads inverted first k X Y ∧ Made anywhere second Y Z

/-- No strings can be put before all pairs of the file, so that the results are pairs again. A file of finitely many pairs, and at least one,
is such. -/
def Closed (bs : List UInt8) : Prop :=
  ∀ U V, (∀ k Y Z, Pairs bs k Y Z → ∃ k', Pairs bs k' (U ++ Y) (V ++ Z)) → U = [] ∧ V = []

/-- Two dictionaries without weights at their final states, of which the first knows the tags that the second writes. -/
structure Joinable {W : Type} [Zero W] (v : Compression.Dbl → W) (first second : List UInt8) (La Lb : List UInt32) (a b : Alphabet)
    (ts us : List (UString × Transducer Compression.Dbl)) : Prop where
  one : Dictionary first La a ts
  two : Dictionary second Lb b us
  zeroOne : ∀ e ∈ ts, ∀ p w, Final e.2 p w → v w = 0
  zeroTwo : ∀ e ∈ us, ∀ p w, Final e.2 p w → v w = 0
  someOne : ∀ k, Has first k → ∃ X Y, Pairs first k X Y
  someTwo : ∀ k, Has second k → ∃ X Y, Pairs second k X Y
  /-- No arc leads back to the first state, as in every minimised transducer without such loops. -/
  noReturn : ∀ e ∈ us, ∀ q l, ¬ Edge e.2 q l e.2.initial
  shared : ∀ e ∈ us, ∀ q x z w r s, PairEdge b e.2 q ((x, z), w) r → Named b z (.tag s) → ∃ y, Named a y (.tag s)

/-- The results are not too large for the format. -/
def Fits {W : Type} (r : Res (Alphabet × List (UString × Transducer W))) : Prop :=
  ∀ a rs, r = .ok (a, rs) → a.spairinv.length < 2 ^ 30 ∧ ∀ e ∈ rs, Fst.size e.2 < 2 ^ 30 ∧ ∀ x ∈ e.2.transitions, x.2.length < 2 ^ 30

end Verif.Composed
