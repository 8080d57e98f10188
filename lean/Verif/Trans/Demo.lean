import Verif.Trans.Spec
import Verif.Gen.Demo

/-! # A small dictionary -/

namespace Verif.Trans

open Verif.State Verif.Walk
open Verif.Gen (Setting)
open Verif.Proc (graphOf arcsOf mem_arcsOf path_up)

/-- `ab` is translated as `xy`, `ab<n>` as `xy<n>`, `ab<n><m>` as `xy<n><m>`, `abcd` as `xyzz`, and `ce<n><m>` as `df<n><m>`. -/
def demoArcs : List ((Nat × Int) × List (Int × Nat × Nat)) :=
  [((0, 0x61), [(0x78, 1, 0)]), ((1, 0x62), [(0x79, 2, 0)]), ((2, -1), [(-1, 3, 0)]), ((3, -2), [(-2, 4, 0)]),
   ((0, 0x63), [(0x64, 5, 0)]), ((5, 0x65), [(0x66, 6, 0)]), ((6, -1), [(-1, 7, 0)]), ((7, -2), [(-2, 8, 0)]),
   ((2, 0x63), [(0x7a, 9, 0)]), ((9, 0x64), [(0x7a, 10, 0)])]

def demoAlphabet : Alphabet := (Alphabet.empty.includeSymbol [0x3c, 0x6e, 0x3e]).includeSymbol [0x3c, 0x6d, 0x3e]

theorem demoAlphabet_ok : demoAlphabet.Ok :=
  (Alphabet.includeSymbol_spec (Alphabet.includeSymbol_spec Alphabet.ok_empty _).1 _).1

def demo (caseSensitive : Bool) : Setting Nat where
  isUpper c := decide (0x41 ≤ c ∧ c ≤ 0x5a)
  toLower c := if 0x41 ≤ c ∧ c ≤ 0x5a then c + 32 else c
  toUpper c := if 0x61 ≤ c ∧ c ≤ 0x7a then c - 32 else c
  graph := graphOf demoArcs
  root := 0
  finals := [(2, 0), (3, 0), (4, 0), (8, 0), (10, 0)]
  alphabet := demoAlphabet
  caseSensitive := caseSensitive
  dictionaryCase := false
  maxAnalyses := 2147483647
  maxWeightClasses := 2147483647
  showWeight _ := []
  sort := List.insertionSort fun a b => a.2 ≤ b.2

def demoName (c : Int) : UString := if c = -1 then [0x3c, 0x6e, 0x3e] else if c = -2 then [0x3c, 0x6d, 0x3e] else []

theorem demo_up : ∀ a ∈ arcsOf demoArcs, a.1 < a.2.2 ∧ a.2.2 < 11 := by decide

theorem demo_fewer (y : Way) (c : Bool) : Fewer (demo c).graph (demo c).root y 65536 := Gen.fewer_listed demo_up (by decide +kernel) _

theorem demo_regular (b : Bool) : Regular (demo b) demoName where
  base := {
    alphabet := demoAlphabet_ok
    sortPerm l := List.perm_insertionSort _ l
    sortLe l := by
      have : Std.Total (fun a b : UString × Nat => a.2 ≤ b.2) := ⟨fun a b => Nat.le_total _ _⟩
      have : IsTrans (UString × Nat) (fun a b : UString × Nat => a.2 ≤ b.2) := ⟨fun a b c => Nat.le_trans⟩
      exact List.pairwise_insertionSort _ l
    manyAnalyses := by simp [demo]
    manyClasses := by simp [demo]
    zeroUpper := rfl
    lowerZero c h := by
      simp only [demo] at h
      split at h <;> omega
    upperZero := rfl
    upperRange c h := by
      simp only [demo]
      split <;> omega
    finals := by simp [demo]
    finite := ⟨11, fun q l p h => by have := demo_up _ (mem_arcsOf h); simp only at this; omega⟩
    noCycle q ls p _ ls' h := by
      obtain ⟨h1, -⟩ := path_up demo_up ls' h.1
      exact List.length_eq_zero_iff.1 (by omega)
    names q l p h := by
      have h1 : ∀ a ∈ arcsOf demoArcs, a.2.1.2.2.1 < 0x110000 ∧ (0 ≤ a.2.1.2.2.1 ∨ a.2.1.2.2.1 = -1 ∨ a.2.1.2.2.1 = -2) := by decide
      obtain ⟨g1, g2⟩ := h1 _ (mem_arcsOf h)
      refine ⟨g1, fun hl => ?_⟩
      simp only at g2
      rcases g2 with g2 | g2 | g2
      · omega
      all_goals rw [g2]; show demoAlphabet.tagText _ = _; decide }
  upperTag c h := by
    simp only [demo, decide_eq_false_iff_not]
    omega

end Verif.Trans
