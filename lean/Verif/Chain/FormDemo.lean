import Verif.Chain.Forms
import Verif.Chain.Demo
import Verif.Gen.Demo

/-! # Examples for C79 -/

namespace Verif.Chain.Forms

open Verif.Fst Verif.Alphabet Verif.Compiler
open Verif.Compression (Dbl)
open Verif.Gen (Setting way)
open Verif.Stream

variable {N V W : Type}

theorem fewer_of_check {v : Dbl → W} {k : Nat} {bs : List UInt8} (h : fewCheck v k bs = true) {o σ : Setting W} (hσ : Load.loadGeneration v o bs = .ok σ) :
    Walk.Fewer σ.graph σ.root (way σ false) 65536 := by
  unfold fewCheck at h
  cases hx : BinIO.exeSet bs with
  | ok x =>
    obtain ⟨⟨ls, a, es⟩, rest⟩ := x
    rw [hx] at h
    simp only at h
    cases hd : Load.rootArcs v 1 es with
    | ok ds =>
      rw [hd] at h
      simp only [Bool.and_eq_true, decide_eq_true_eq, List.all_eq_true, bne_iff_ne] at h
      unfold Load.loadGeneration at hσ
      simp only [hx, hd, Res.bind_ok] at hσ
      cases hσ
      intro xs L hn hL
      have hsub : L ⊆ (walks (arcsAll v ds es) k 0).map (·.1) := by
        intro ls hls
        obtain ⟨wr, ch, p, hw⟩ := hL ls hls
        exact List.mem_map.2 ⟨(ls, p), mem_walks_all (fun q l p => mem_arcsAll) h.1 (Gen.walk_path hw), rfl⟩
      have h1 := (hn.subperm hsub).length_le
      rw [List.length_map] at h1
      omega
    | _ => rw [hd] at h; cases h
  | _ => rw [hx] at h; cases h

/-! ## The dictionary in the other direction -/

theorem demo_free : Free demoFile := by
  rintro e (⟨n, ents, h, he⟩ | ⟨n, ents, h, he⟩)
  · simp only [demoFile, List.mem_cons, List.not_mem_nil, or_false, Prod.mk.injEq] at h
    obtain ⟨-, rfl⟩ := h
    simp only [List.mem_cons, List.not_mem_nil, or_false] at he
    rcases he with rfl | rfl <;> exact ⟨rfl, rfl, rfl⟩
  · simp only [demoFile, List.mem_cons, List.not_mem_nil, or_false, Prod.mk.injEq] at h
    rcases h with ⟨-, rfl⟩ | ⟨-, rfl⟩ <;> rw [List.mem_singleton.1 he] <;> exact ⟨rfl, rfl, rfl⟩

def demoNames : List (List Nat) := [[0x6e], [0x76]]

theorem demo_names : Names demoFile demoNames := by
  refine ⟨by decide, ?_⟩
  intro n hn c hc
  simp only [demoNames, List.mem_cons, List.not_mem_nil, or_false] at hn
  rcases hn with rfl | rfl <;> rw [List.mem_singleton.1 hc] <;> exact ⟨.inl (by decide), by decide, by decide, by decide⟩

theorem demo_back_says {k : UString} {x y : List Int} (h : Says (back {}) demoFile k y x) : Says {} demoFile k x y := (says_back_iff demo_free).1 h

theorem demo_back_tame : Tame (back {}) demoFile where
  start k x y h := by
    rcases demo_says (demo_back_says h) with ⟨-, ⟨-, h⟩ | ⟨-, h⟩⟩ | ⟨-, -, h⟩ <;> cases h
  reads k x y h := by
    rcases demo_says (demo_back_says h) with ⟨-, ⟨-, rfl⟩ | ⟨-, rfl⟩⟩ | ⟨-, -, rfl⟩ <;> decide
  writes k x y h := by
    rcases demo_says (demo_back_says h) with ⟨-, ⟨rfl, -⟩ | ⟨rfl, -⟩⟩ | ⟨-, rfl, -⟩ <;> decide
  tags := by decide

/-- What `parse` gives. -/
def demoBackAlpha : Alphabet where
  slexic := [([0x3c, 0x6e, 0x3e], -1), ([0x3c, 0x76, 0x3e], -2)]
  slexicinv := [[0x3c, 0x6e, 0x3e], [0x3c, 0x76, 0x3e]]
  spair := [(toLex (-2, 0), 3), (toLex (-1, 0), 1), (toLex (-1, 0x73), 2), (toLex (0, 0), 0), (toLex (0x2e, 0x2e), 6), (toLex (0x61, 0x61), 4), (toLex (0x62, 0x62), 5)]
  spairinv := [(0, 0), (-1, 0), (-1, 0x73), (-2, 0), (0x61, 0x61), (0x62, 0x62), (0x2e, 0x2e)]

theorem demo_back_parse : parse (back {}) demoFile.nodes = .ok (demoBackAlpha, demoSecs) := by decide +kernel

theorem demo_back_small : Small (fun _ => 0) [] demoBackAlpha demoSecs where
  letters := by decide
  writable := by
    refine ⟨?_, by decide, by decide, by decide⟩
    intro s hs
    simp only [demoBackAlpha, List.mem_cons, List.not_mem_nil, or_false] at hs
    rcases hs with rfl | rfl
    · exact ⟨⟨[0x6e], rfl⟩, by decide⟩
    · exact ⟨⟨[0x76], rfl⟩, by decide⟩
  sections := by decide
  range := demo_range

/-- The file. -/
def demoBackBytes : List UInt8 :=
  match ltComp (fun _ => 0) (fun _ => false) (back {}) [] demoFile.nodes with
  | .ok bs => bs
  | _ => []

theorem demo_back_fewer {σ : Setting Nat} (h : Load.loadGeneration (fun _ => 0) Gen.demo demoBackBytes = .ok σ) : Walk.Fewer σ.graph σ.root (way σ false) 65536 :=
  fewer_of_check (k := 7) (by decide +kernel) h

/-- The analysis of `abs`. -/
theorem demo_nice : Nice demoFile [0x61, 0x62, -1, -2] where
  chars c hc h := by
    simp only [List.mem_cons, List.not_mem_nil, or_false] at hc
    rcases hc with rfl | rfl | rfl | rfl
    · exact ⟨.inl (by decide), by decide⟩
    · exact ⟨.inl (by decide), by decide⟩
    · exact absurd h (by decide)
    · exact absurd h (by decide)
  tags := by decide
  start c hc := by cases hc; decide
  before a b c := by
    left
    intro e
    have : (0x5c : Int) ∈ a ++ 0x5c :: c :: b := by simp
    rw [← e] at this
    revert this
    decide

end Verif.Chain.Forms
