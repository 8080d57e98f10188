import Verif.State.Props
import Verif.BinIO.Props
import Verif.Labels.Props

/-! # Running what was loaded from a file -/

namespace Verif.State

open Verif.Fst Verif.BinIO
open Verif.Compression (Dbl)

/-- The graph of a loaded transducer, as `State` sees it. -/
def graphOf (te : TransExe) : Graph Dbl := fun q i => mapFind i (te.nodes.getD q [])

theorem arc_graphOf {te : TransExe} {q : Nat} {l : Label Dbl} {p : Nat} (h : Arc (graphOf te) q l p) :
    (l.2.2.1, p, l.2.2.2) ∈ dests te q l.1 := by
  obtain ⟨ds, h1, h2⟩ := h
  unfold graphOf at h1
  unfold dests
  rw [h1]
  exact List.mem_of_getElem? h2

theorem arc_of_dests {te : TransExe} {q : Nat} {i o : Int} {w : Dbl} {p : Nat} (h : (o, p, w) ∈ dests te q i) :
    ∃ k, Arc (graphOf te) q (i, k, o, w) p := by
  unfold dests at h
  cases hm : mapFind i (te.nodes.getD q []) with
  | none => rw [hm] at h; simp at h
  | some ds =>
    rw [hm] at h
    obtain ⟨k, hk⟩ := List.mem_iff_getElem?.1 h
    exact ⟨k, ds, hm, hk⟩

theorem mem_outs {a : Alphabet} {t : Transducer Dbl} {q : Nat} {i o : Int} {w : Dbl} {p : Nat} :
    (o, p, w) ∈ outs a i (row t q) ↔ PairEdge a t q ((i, o), w) p := by
  unfold outs PairEdge Edge
  rw [List.mem_filterMap]
  constructor
  · rintro ⟨⟨c, p', w'⟩, hx, h⟩
    simp only at h
    cases hd : a.decode c with
    | ok pr =>
      rw [hd] at h
      simp only at h
      split at h
      · next e =>
        simp only [Option.some.injEq, Prod.mk.injEq] at h
        obtain ⟨h1, h2, h3⟩ := h
        refine ⟨c, ?_, by rw [← h2, ← h3]; exact hx⟩
        rw [hd, ← e, ← h1]
      · cases h
    | exit | exception | ub => rw [hd] at h; cases h
  · rintro ⟨c, hd, hx⟩
    refine ⟨(c, p, w), hx, ?_⟩
    simp only [hd, if_true]

/-- The pairs of a path of arcs. -/
def pairs (ls : List (Label Dbl)) : List (Pair × Dbl) := ls.map fun l => ((l.1, l.2.2.1), l.2.2.2)

theorem path_pairs {a : Alphabet} {t : Transducer Dbl} {te : TransExe} (h : SameGraph a t te) : ∀ {ls : List (Label Dbl)} {q p : Nat},
    Path (Arc (graphOf te)) q ls p → Path (PairEdge a t) q (pairs ls) p := by
  intro ls
  induction ls with
  | nil =>
    intro q p hp
    rw [path_nil_iff] at hp
    exact hp ▸ .nil _
  | cons l ls ih =>
    intro q p hp
    obtain ⟨m, h1, h2⟩ := path_cons_iff.1 hp
    exact .cons (mem_outs.1 ((h.arcs q l.1).mem_iff.1 (arc_graphOf h1))) (ih h2)

theorem pairs_path {a : Alphabet} {t : Transducer Dbl} {te : TransExe} (h : SameGraph a t te) : ∀ {ls : List (Pair × Dbl)} {q p : Nat},
    Path (PairEdge a t) q ls p → ∃ ls', Path (Arc (graphOf te)) q ls' p ∧ pairs ls' = ls := by
  intro ls
  induction ls with
  | nil =>
    intro q p hp
    rw [path_nil_iff] at hp
    exact ⟨[], hp ▸ .nil _, rfl⟩
  | cons l ls ih =>
    intro q p hp
    obtain ⟨m, h1, h2⟩ := path_cons_iff.1 hp
    obtain ⟨ls', h3, h4⟩ := ih h2
    obtain ⟨⟨i, o⟩, w⟩ := l
    obtain ⟨k, hk⟩ := arc_of_dests ((h.arcs q i).mem_iff.2 (mem_outs.2 h1))
    exact ⟨(i, k, o, w) :: ls', .cons hk h3, by rw [← h4]; rfl⟩

theorem inputs_pairs (ls : List (Label Dbl)) : inputs ls = ((pairs ls).map (·.1.1)).filter (· ≠ 0) := by
  unfold inputs pairs
  rw [List.map_map]
  rfl

theorem written_pairs (ls : List (Label Dbl)) : written ls = ((pairs ls).filter fun x => x.1 ≠ (0, 0)).map fun x => (x.1.2, x.2) := by
  unfold written pairs
  rw [List.filter_map, List.map_map]
  congr 1
  refine List.filter_congr fun l _ => ?_
  simp [Prod.ext_iff]

/-- **C39** The alive states after running a loaded transducer are those of the paths of the transducer that read the
input: outputs and weights of the arcs are those of the path, without its arcs for the empty pair. -/
theorem C39_loaded_states (a : Alphabet) (t : Transducer Dbl) (te : TransExe) (hs : SameGraph a t te) (fuel : Nat) (xs : List Int)
    (hx : ∀ x ∈ xs, x ≠ 0) (st : List (Rec Dbl)) (h : run (graphOf te) fuel te.initial xs = some st) (r : Rec Dbl) :
    r ∈ st ↔ r.dirty = false ∧ ∃ ls, Path (PairEdge a t) t.initial ls r.node ∧ (ls.map (·.1.1)).filter (· ≠ 0) = xs ∧
      r.seq = (ls.filter fun x => x.1 ≠ (0, 0)).map fun x => (x.1.2, x.2) := by
  rw [C39_states _ _ _ _ hx _ h]
  refine and_congr_right fun _ => ?_
  constructor
  · rintro ⟨ls, h1, h2, h3⟩
    exact ⟨pairs ls, hs.initial ▸ path_pairs hs h1, by rw [← inputs_pairs, h2], by rw [h3, written_pairs]⟩
  · rintro ⟨ls, h1, h2, h3⟩
    obtain ⟨ls', h4, rfl⟩ := pairs_path hs (hs.initial ▸ h1)
    exact ⟨ls', h4, by rw [inputs_pairs, h2], by rw [h3, written_pairs]⟩

/-- **C39** From the bytes of a file to the answers: where the run-time loader accepts the bytes, the library loader reads
a transducer from them, and running the loaded graph on `xs` ends in final nodes with exactly the outputs `ys` that
this transducer relates `xs` to. -/
theorem C39_from_bytes (a : Alphabet) (s rest : List UInt8) (te : TransExe) (hl : exeRead a s = .ok (te, rest)) :
    ∃ t, BinIO.read 0 s = .ok (t, rest) ∧ ∀ (fuel : Nat) (xs : List Int), (∀ x ∈ xs, x ≠ 0) → ∀ st, run (graphOf te) fuel te.initial xs = some st →
      ∀ ys, (∃ r ∈ st, (∃ w, (r.node, w) ∈ te.finals) ∧ (r.seq.map (·.1)).filter (· ≠ 0) = ys) ↔
        ∃ ls fw, Spells a t ls fw ∧ xs = (ls.map (·.1.1)).filter (· ≠ 0) ∧ ys = (ls.map (·.1.2)).filter (· ≠ 0) := by
  obtain ⟨t, ht, hs⟩ := (C38_loaders_agree a s).1 te rest hl
  refine ⟨t, ht, ?_⟩
  intro fuel xs hx st h ys
  have hout : ∀ ls : List (Pair × Dbl), ((((ls.filter fun x => x.1 ≠ (0, 0)).map fun x => (x.1.2, x.2)).map (·.1)).filter (· ≠ 0)) =
      (ls.map (·.1.2)).filter (· ≠ 0) := by
    intro ls
    induction ls with
    | nil => rfl
    | cons l ls ih =>
      by_cases hz : l.1 = (0, 0)
      · rw [List.filter_cons_of_neg (by simp [hz]), ih, List.map_cons, List.filter_cons_of_neg (by simp [hz])]
      · rw [List.filter_cons_of_pos (by simpa using hz), List.map_cons, List.map_cons, List.map_cons]
        by_cases ho : l.1.2 = 0
        · rw [List.filter_cons_of_neg (by simp [ho]), List.filter_cons_of_neg (by simp [ho]), ih]
        · rw [List.filter_cons_of_pos (by simpa using ho), List.filter_cons_of_pos (by simpa using ho), ih]
  constructor
  · rintro ⟨r, hr, ⟨w, hw⟩, rfl⟩
    obtain ⟨-, ls, h1, h2, h3⟩ := (C39_loaded_states a t te hs fuel xs hx st h r).1 hr
    refine ⟨ls, w, ⟨r.node, h1, ?_⟩, h2.symm, ?_⟩
    · unfold Final
      rw [← hs.finals]; exact hw
    · rw [h3, hout]
  · rintro ⟨ls, fw, ⟨p, h1, h2⟩, h3, rfl⟩
    refine ⟨⟨p, (ls.filter fun x => x.1 ≠ (0, 0)).map fun x => (x.1.2, x.2), false⟩,
      (C39_loaded_states a t te hs fuel xs hx st h _).2 ⟨rfl, ls, h1, h3.symm, rfl⟩, ⟨fw, ?_⟩, hout ls⟩
    unfold Final at h2
    rw [hs.finals]; exact h2

/-- The bytes of `exBin` of `Verif/BinIO/Props.lean`. -/
def exBytes : List UInt8 :=
  [76, 84, 84, 68, 0, 0, 0, 0, 0, 0, 0, 1, 0, 1, 1, 196, 0, 0, 12, 0, 0, 2, 3, 1, 1, 196, 0, 0, 10, 194, 170, 170, 170,
    196, 0, 0, 63, 195, 255, 255, 255, 0, 1, 0, 0, 2, 0, 0, 0, 1, 2, 1, 0, 0]

-- the loader accepts them, and running the graph on `a` ends in the final node with output `a`
example : ∃ te, exeRead Alphabet.exAlpha exBytes = .ok (te, []) ∧ ∃ st, run (graphOf te) 20 te.initial [0x61] = some st ∧
    ∃ r ∈ st, (mapFind r.node te.finals).isSome = true ∧ (r.seq.map (·.1)) = [0x61] :=
  ⟨_, rfl, _, rfl, _, List.mem_cons_self .., by decide +kernel, by decide +kernel⟩

/-- **C39** A loaded transducer is a finite graph, so every run of it ends unless there is a cycle of empty arcs. -/
theorem C39_loaded_ends (te : TransExe) (hc : ∀ q, NoEpsCycle (graphOf te) q) (xs : List Int) :
    ∃ fuel st, ∀ fuel' ≥ fuel, run (graphOf te) fuel' te.initial xs = some st := by
  refine C39_run_ends (graphOf te) (te.nodes.length + ((te.nodes.flatMap fun n => n.flatMap fun e => e.2.map (·.2.1)).sum) + 1) ?_ hc _ xs
  rintro q l p ⟨ds, h1, h2⟩
  unfold graphOf at h1
  have hm := mapFind_mem h1
  by_cases hq : q < te.nodes.length
  · refine ⟨by omega, ?_⟩
    rw [List.getD_eq_getElem?_getD, List.getElem?_eq_getElem hq] at hm
    have : p ∈ (te.nodes.flatMap fun n => n.flatMap fun e => e.2.map (·.2.1)) :=
      List.mem_flatMap.2 ⟨_, List.getElem_mem hq, List.mem_flatMap.2 ⟨_, hm, List.mem_map.2 ⟨_, List.mem_of_getElem? h2, rfl⟩⟩⟩
    have := List.single_le_sum (by simp) p this
    omega
  · rw [List.getD_eq_getElem?_getD, List.getElem?_eq_none (by omega)] at hm
    simp at hm

end Verif.State
