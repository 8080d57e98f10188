import Verif.Bil.Spec
import Verif.Gen.Demo

/-! # A small bilingual dictionary -/

namespace Verif.Bil

open Verif.State Verif.Stream Verif.Walk
open Verif.Proc (graphOf arcsOf mem_arcsOf path_up)

/-- `ab<n>` is translated as `xy<n>` and, worse, `xy<m>`; `c` as `d`; and `q`, any symbol and `<n>` as `r`, that symbol and `<n>`. -/
def demoArcs : List ((Nat × Int) × List (Int × Nat × Nat)) :=
  [((0, 0x61), [(0x78, 1, 0)]), ((1, 0x62), [(0x79, 2, 0)]), ((2, -2), [(-3, 3, 2), (-2, 3, 0)]), ((0, 0x63), [(0x64, 4, 0)]),
   ((0, 0x71), [(0x72, 5, 0)]), ((5, -1), [(-1, 6, 0)]), ((6, -2), [(-2, 7, 0)])]

def demoAlphabet : Alphabet := ((Alphabet.empty.includeSymbol anyName).includeSymbol [0x3c, 0x6e, 0x3e]).includeSymbol [0x3c, 0x6d, 0x3e]

theorem demoAlphabet_ok : demoAlphabet.Ok :=
  (Alphabet.includeSymbol_spec (Alphabet.includeSymbol_spec (Alphabet.includeSymbol_spec Alphabet.ok_empty _).1 _).1 _).1

def demo : Setting Nat where
  isUpper c := decide (0x41 ≤ c ∧ c ≤ 0x5a)
  toLower c := if 0x41 ≤ c ∧ c ≤ 0x5a then c + 32 else c
  toUpper c := if 0x61 ≤ c ∧ c ≤ 0x7a then c - 32 else c
  graph := graphOf demoArcs
  root := 0
  finals := [(3, 0), (4, 0), (7, 0)]
  alphabet := demoAlphabet
  caseSensitive := false
  dictionaryCase := false
  maxAnalyses := 2147483647
  maxWeightClasses := 2147483647
  showWeight _ := []
  sort := List.insertionSort fun a b => a.2 ≤ b.2
  anyChar := -1
  surfaceForms := false
  surfaceFormsKeep := false

theorem demo_up : ∀ a ∈ arcsOf demoArcs, a.1 < a.2.2 ∧ a.2.2 < 8 := by decide

theorem demo_fewer : Fewer demo.graph demo.root (way demo true) 65536 := Gen.fewer_listed demo_up (by decide +kernel) _

theorem demo_regular : Regular demo where
  base := {
    alphabet := demoAlphabet_ok
    sortPerm l := List.perm_insertionSort _ l
    sortLe l := by
      have : Std.Total (fun a b : UString × Nat => a.2 ≤ b.2) := ⟨fun a b => Nat.le_total _ _⟩
      have : IsTrans (UString × Nat) (fun a b : UString × Nat => a.2 ≤ b.2) := ⟨fun a b c => Nat.le_trans⟩
      exact List.pairwise_insertionSort _ l
    manyAnalyses := by decide
    manyClasses := by decide
    zeroUpper := rfl
    lowerZero c h := by
      simp only [demo] at h
      split at h <;> omega
    upperZero := rfl
    upperRange c h := by
      simp only [demo]
      split <;> omega
    finals := by decide
    finite := ⟨8, fun q l p h => by have := demo_up _ (mem_arcsOf h); simp only at this; omega⟩
    noCycle q ls p _ ls' h := by
      obtain ⟨h1, -⟩ := path_up demo_up ls' h.1
      exact List.length_eq_zero_iff.1 (by omega)
    names q l p h := by
      have h1 : ∀ a ∈ arcsOf demoArcs, a.2.1.2.2.1 < 0x110000 ∧
          (0 ≤ a.2.1.2.2.1 ∨ a.2.1.2.2.1 = -1 ∨ a.2.1.2.2.1 = -2 ∨ a.2.1.2.2.1 = -3) := by decide
      obtain ⟨g1, g2⟩ := h1 _ (mem_arcsOf h)
      refine ⟨g1, fun hl => ?_⟩
      simp only at g2
      rcases g2 with g2 | g2 | g2 | g2
      · omega
      all_goals rw [g2]; decide }
  any := ⟨0, by decide, rfl⟩
  lowerTag c h := by
    simp only [demo]
    rw [if_neg (by omega)]
  lowerRange c h0 h := by
    simp only [demo]
    split <;> omega

end Verif.Bil
