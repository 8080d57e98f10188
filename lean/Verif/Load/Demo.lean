import Verif.Load.Lemmas
import Verif.Proc.Demo
import Verif.Gen.Demo

/-! # Examples for C77 -/

namespace Verif.Load

open Verif.State Verif.Fst Verif.BinIO
open Verif.Compression (Dbl)
open Verif.Alphabet (exAlpha)

/-- The sections `@standard` and `b@inconditional`, both with `a:a (a:<n> a:a)*` and tags before. -/
def demoSections : List (UString × Transducer Dbl) := [(STANDARD, exBin), (0x62 :: INCONDITIONAL, exBin)]

theorem demo_fits : Fits [] exAlpha demoSections where
  letters := by decide
  alphabet := Alphabet.exAlpha_reachable.ok
  writable := Alphabet.exAlpha_writable
  sections := by
    refine ⟨by decide, by decide, fun e he => ?_⟩
    simp only [demoSections, List.mem_cons, List.not_mem_nil, or_false] at he
    rcases he with rfl | rfl <;> exact ⟨by decide, exBin_wf, exBin_inRange⟩
  labels e he := by
    simp only [demoSections, List.mem_cons, List.not_mem_nil, or_false] at he
    rcases he with rfl | rfl <;> exact exBin_labels

theorem demo_kinds : ∀ e ∈ demoSections, ∃ κ, HasKind e.1 κ := by
  intro e he
  simp only [demoSections, List.mem_cons, List.not_mem_nil, or_false] at he
  rcases he with rfl | rfl
  · exact ⟨.standard, [], rfl⟩
  · exact ⟨.inconditional, [0x62], rfl⟩

theorem exBin_code {q : Nat} {c : Int} {w : Dbl} {p : Nat} (h : Edge exBin q (c, w) p) : c = 1 ∨ c = 2 ∨ c = 3 := by
  rw [edge_iff_arcs (by decide)] at h
  simp only [exBin, arcsOf, List.flatMap_cons, List.flatMap_nil, List.map_cons, List.map_nil, List.append_nil,
    List.cons_append, List.nil_append, List.mem_cons, Prod.mk.injEq, List.not_mem_nil, or_false] at h
  omega

theorem exBin_noLoop : NoLoop exAlpha (cut exBin) := by
  intro q ls h h0
  cases ls with
  | nil => rfl
  | cons l ls =>
    exfalso
    obtain ⟨m, ⟨c, hd, he⟩, -⟩ := path_cons_iff.1 h
    obtain ⟨w', he⟩ := cut_edge he
    have := h0 l List.mem_cons_self
    rcases exBin_code he with rfl | rfl | rfl
    · rw [show exAlpha.decode 1 = .ok (0x61, 0x61) from by decide, Res.ok.injEq] at hd
      rw [← hd] at this; exact absurd this (by decide)
    · rw [show exAlpha.decode 2 = .ok (0x61, -1) from by decide, Res.ok.injEq] at hd
      rw [← hd] at this; exact absurd this (by decide)
    · rw [show exAlpha.decode 3 = .ok (-2, 0x62) from by decide, Res.ok.injEq] at hd
      rw [← hd] at this; exact absurd this (by decide)

theorem demo_noLoop : ∀ e ∈ demoSections, NoLoop exAlpha (cut e.2) := by
  intro e he
  simp only [demoSections, List.mem_cons, List.not_mem_nil, or_false] at he
  rcases he with rfl | rfl <;> exact exBin_noLoop

theorem demo_named : Named exAlpha demoSections Proc.demoName := by
  intro e he q c w p h i o hd
  have hc : c = 1 ∨ c = 2 ∨ c = 3 := by
    simp only [demoSections, List.mem_cons, List.not_mem_nil, or_false] at he
    rcases he with rfl | rfl <;> exact exBin_code h
  rcases hc with rfl | rfl | rfl
  · rw [show exAlpha.decode 1 = .ok (0x61, 0x61) from by decide, Res.ok.injEq, Prod.mk.injEq] at hd
    rw [← hd.2]; decide
  · rw [show exAlpha.decode 2 = .ok (0x61, -1) from by decide, Res.ok.injEq, Prod.mk.injEq] at hd
    rw [← hd.2]; decide
  · rw [show exAlpha.decode 3 = .ok (-2, 0x62) from by decide, Res.ok.injEq, Prod.mk.injEq] at hd
    rw [← hd.2]; decide

theorem demo_bare : Proc.Regular (bare Proc.demo []) Proc.demoName :=
  { Proc.demo_regular with
    standard := .nil
    finite := ⟨0, fun q l p h => by obtain ⟨ds, h, -⟩ := h; cases h⟩
    noCycle := fun q ls p _ ls' h => by
      cases ls' with
      | nil => rfl
      | cons l ls' =>
        obtain ⟨m, ⟨ds, h, -⟩, -⟩ := path_cons_iff.1 h.1
        cases h
    names := fun q l p h => by obtain ⟨ds, h, -⟩ := h; cases h }

theorem demo_bareGen (name : Int → UString) : Gen.Regular (bareGen Gen.demo) name :=
  { sortPerm := Gen.demo_regular.sortPerm
    sortLe := Gen.demo_regular.sortLe
    manyAnalyses := Gen.demo_regular.manyAnalyses
    manyClasses := Gen.demo_regular.manyClasses
    zeroUpper := Gen.demo_regular.zeroUpper
    lowerZero := Gen.demo_regular.lowerZero
    upperZero := Gen.demo_regular.upperZero
    upperRange := Gen.demo_regular.upperRange
    alphabet := Alphabet.ok_empty
    finals := .nil
    finite := ⟨0, fun q l p h => by obtain ⟨ds, h, -⟩ := h; cases h⟩
    noCycle := fun q ls p _ ls' h => by
      cases ls' with
      | nil => rfl
      | cons l ls' =>
        obtain ⟨m, ⟨ds, h, -⟩, -⟩ := path_cons_iff.1 h.1
        cases h
    names := fun q l p h => by obtain ⟨ds, h, -⟩ := h; cases h }

end Verif.Load
