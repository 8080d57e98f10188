import Verif.Gen.Spec
import Verif.Proc.Demo

/-! # A small dictionary for generation -/

namespace Verif.Gen

open Verif.State Verif.Stream Verif.Walk
open Verif.Proc (graphOf arcsOf mem_arcsOf path_up path_listed pathsFrom)

theorem walk_path {W : Type} {g : Graph W} {root : Nat} {y : Way} {xs : List Int} {ls : List (Label W)} {wr : List (Int × W)} {ch : Bool} {p : Nat}
    (h : Walk g root y xs ls wr ch p) : Fst.Path (Arc g) root ls p := by
  induction h with
  | start => exact .nil _
  | empty _ _ ha ih => exact ih.append (.cons ha (.nil _))
  | read _ _ _ ha ih => exact ih.append (.cons ha (.nil _))

/-- In a graph whose nodes are numbered along arcs there are no more paths than those that are listed. -/
theorem fewer_listed {arcs : List ((Nat × Int) × List (Int × Nat × Nat))} {m k : Nat} (h : ∀ a ∈ arcsOf arcs, a.1 < a.2.2 ∧ a.2.2 < m)
    (hk : (pathsFrom (arcsOf arcs) m 0).length < k) (y : Way) : Fewer (graphOf arcs) 0 y k := by
  intro xs L hn hL
  have hsub : L ⊆ (pathsFrom (arcsOf arcs) m 0).map (·.1) := by
    intro ls hls
    obtain ⟨wr, ch, p, hw⟩ := hL ls hls
    exact List.mem_map.2 ⟨(ls, p), path_listed h (walk_path hw), rfl⟩
  have := (hn.subperm hsub).length_le
  rw [List.length_map] at this
  omega

/-- `ab<n>` has the forms `ab` and, worse, `abc`; `A` has the form `x`, and `a` the form `a`; `<v>` is a tag of the alphabet. -/
def demoArcs : List ((Nat × Int) × List (Int × Nat × Nat)) :=
  [((0, 0x61), [(0x61, 1, 0)]), ((1, 0x62), [(0x62, 2, 0)]), ((2, -1), [(0x63, 3, 2), (0, 3, 0)]), ((0, 0x41), [(0x78, 4, 0)]), ((1, 0), [(0, 5, 0)])]

def demoName (s : Int) : UString := if s = -1 then [0x3c, 0x6e, 0x3e] else [0x3c, 0x76, 0x3e]

def demoAlphabet : Alphabet := (Alphabet.empty.includeSymbol [0x3c, 0x6e, 0x3e]).includeSymbol [0x3c, 0x76, 0x3e]

theorem demoAlphabet_ok : demoAlphabet.Ok := (Alphabet.includeSymbol_spec (Alphabet.includeSymbol_spec Alphabet.ok_empty _).1 _).1

def demo : Setting Nat where
  isUpper c := decide (0x41 ≤ c ∧ c ≤ 0x5a)
  toLower c := if 0x41 ≤ c ∧ c ≤ 0x5a then c + 32 else c
  toUpper c := if 0x61 ≤ c ∧ c ≤ 0x7a then c - 32 else c
  graph := graphOf demoArcs
  root := 0
  finals := [(3, 0), (4, 0), (5, 0)]
  alphabet := demoAlphabet
  caseSensitive := false
  dictionaryCase := false
  maxAnalyses := 2147483647
  maxWeightClasses := 2147483647
  showWeight _ := []
  sort := List.insertionSort fun a b => a.2 ≤ b.2

theorem demo_up : ∀ a ∈ arcsOf demoArcs, a.1 < a.2.2 ∧ a.2.2 < 6 := by decide

theorem demo_fewer (careful : Bool) : Fewer demo.graph demo.root (way demo careful) 65536 :=
  fewer_listed demo_up (by decide +kernel) _

theorem demo_regular : Regular demo demoName where
  alphabet := demoAlphabet_ok
  sortPerm l := List.perm_insertionSort _ l
  sortLe l := by
    have : Std.Total (fun a b : UString × Nat => a.2 ≤ b.2) := ⟨fun a b => Nat.le_total _ _⟩
    have : IsTrans (UString × Nat) (fun a b : UString × Nat => a.2 ≤ b.2) := ⟨fun a b c => Nat.le_trans⟩
    exact List.pairwise_insertionSort _ l
  manyAnalyses := by decide
  manyClasses := by decide
  zeroUpper := rfl
  lowerZero c h := by
    simp only [demo] at h
    split at h <;> omega
  upperZero := rfl
  upperRange c h := by
    simp only [demo]
    split <;> omega
  finals := by decide
  finite := ⟨6, fun q l p h => by have := demo_up _ (mem_arcsOf h); simp only at this; omega⟩
  noCycle q ls p _ ls' h := by
    obtain ⟨h1, -⟩ := path_up demo_up ls' h.1
    exact List.length_eq_zero_iff.1 (by omega)
  names q l p h := by
    have h1 : ∀ a ∈ arcsOf demoArcs, 0 ≤ a.2.1.2.2.1 ∧ a.2.1.2.2.1 < 0x110000 := by decide
    obtain ⟨g1, g2⟩ := h1 _ (mem_arcsOf h)
    exact ⟨g2, fun hl => by simp only at g1; omega⟩

end Verif.Gen
