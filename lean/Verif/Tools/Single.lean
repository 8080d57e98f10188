import Verif.Tools.Files

/-!
# C80: `lt-append -s`
-/

namespace Verif.Tools

open Verif.Fst
open Verif.Compression (Dbl)

theorem collect_decodes {old : Alphabet} (cs : List Int) (st : List Int × List Int) {r : List Int × List Int} (h : collect old false cs st = .ok r) :
    ∀ c ∈ cs, 0 ≤ c → ∃ pr, old.decode c = .ok pr := by
  induction cs generalizing st with
  | nil => simp
  | cons c cs ih =>
    obtain ⟨ps, ss⟩ := st
    intro x hx h0
    simp only [collect, Bool.not_false, Bool.true_and, decide_eq_true_eq] at h
    split at h
    · rcases List.mem_cons.1 hx with rfl | hx
      · omega
      · exact ih _ h x hx h0
    · obtain ⟨pr, e, h⟩ := Res.bind_eq_ok.1 h
      rcases List.mem_cons.1 hx with rfl | hx
      · exact ⟨pr, e⟩
      · exact ih _ h x hx h0

theorem appendLoop_decodes {alpha2 : Alphabet} (ts : List (UString × Transducer Dbl)) (st : Alphabet × List (UString × Transducer Dbl))
    {r : Alphabet × List (UString × Transducer Dbl)} (h : appendLoop false false alpha2 ts st = .ok r) :
    ∀ e ∈ ts, ∀ x ∈ arcsOf e.2.transitions, 0 ≤ x.2.1 → ∃ pr, alpha2.decode x.2.1 = .ok pr := by
  induction ts generalizing st with
  | nil => simp
  | cons e ts ih =>
    obtain ⟨k, t⟩ := e
    obtain ⟨a1, us⟩ := st
    simp only [appendLoop, Bool.and_false, Bool.false_eq_true, if_false] at h
    obtain ⟨⟨a1', t'⟩, e1, h⟩ := Res.bind_eq_ok.1 h
    intro e he x hx h0
    rcases List.mem_cons.1 he with rfl | he
    · obtain ⟨⟨ps, ss⟩, e2, -⟩ := Res.bind_eq_ok.1 e1
      exact collect_decodes _ _ e2 _ (List.mem_map.2 ⟨x, hx, rfl⟩) h0
    · exact ih _ h e he x hx h0

/-- **C80** is false for `lt-append -s`, which is for files whose arcs have single symbols: whatever the first file is, nothing is written if some arc of the second
has a letter whose number is not below the number of pairs in the alphabet of that file; the code takes the letter for the code of a pair and reads outside the
table. Files with single symbols need no pairs. -/
theorem C80_single_false {bs1 bs2 : List UInt8} {L2 : List UInt32} {a2 : Alphabet} {ts2 : List (UString × Transducer Dbl)} {r2 : List UInt8}
    (h2 : BinIO.readSet bs2 = .ok ((L2, a2, ts2), r2)) {k : UString} {t : Transducer Dbl} (ht : (k, t) ∈ ts2) (hw : WF t) {q p : Nat} {c : Int} {w : Dbl}
    (he : Edge t q (c, w) p) (hc : (a2.spairinv.length : Int) ≤ c) : ∀ bs', ltAppend false true bs1 bs2 ≠ .ok bs' := by
  intro bs' h
  unfold ltAppend at h
  obtain ⟨⟨⟨L1, a1, ts1⟩, r1⟩, -, h⟩ := Res.bind_eq_ok.1 h
  rw [h2] at h
  simp only [Res.bind_ok, Bool.not_true] at h
  obtain ⟨r, e, -⟩ := Res.bind_eq_ok.1 h
  obtain ⟨pr, e⟩ := appendLoop_decodes _ _ e _ ht _ ((mem_arcsOf hw q c p w).2 he) (by simp only; omega)
  simp only [Alphabet.decode] at e
  rw [if_neg (by omega), List.getElem?_eq_none (by omega)] at e
  cases e

/-- A section with the single symbol `a`. -/
def oneLetter : Transducer Dbl := { initial := 0, finals := [(1, 0)], transitions := [(0, [(0x61, (1, 0))]), (1, [])] }

-- such a file exists
example : ∃ bs ls, BinIO.writeSet [0x61] Alphabet.empty [([0x6d], oneLetter)] = .ok bs ∧
    BinIO.readSet bs = .ok ((ls, Alphabet.empty, [([0x6d], oneLetter)]), []) ∧ WF oneLetter ∧ Edge oneLetter 0 (0x61, 0) 1 ∧
    (Alphabet.empty.spairinv.length : Int) ≤ 0x61 := by
  have hw : WF oneLetter := wf_of_check (by decide)
  have he : Edge oneLetter 0 (0x61, 0) 1 := by rw [edge_iff_arcs (by decide)]; decide
  obtain ⟨bs, ls, g1, -, -, g2, -⟩ := BinIO.set_roundtrip [0x61] Alphabet.empty [([0x6d], oneLetter)] (by decide) Alphabet.ok_empty
    ⟨fun s hs => by simp [Alphabet.empty] at hs, by decide, by decide, by decide⟩ (by
      have h0 : Dbl.Normal 0 := .inl ⟨rfl, rfl⟩
      refine ⟨by decide, by decide, fun e h => ?_⟩
      rw [List.mem_singleton.1 h]
      refine ⟨by decide, hw, by decide, by decide, by decide, fun q c w p h => ?_, fun q w h => ?_⟩
      · rw [edge_iff_arcs (by decide)] at h
        have : (q, c, p, w) = (0, 0x61, 1, 0) := by simpa [arcsOf, oneLetter] using h
        simp only [Prod.mk.injEq] at this
        obtain ⟨-, rfl, -, rfl⟩ := this
        exact ⟨by omega, by omega, h0⟩
      · have : q = 1 ∧ w = 0 := by simpa [Final, oneLetter] using h
        rw [this.2]; exact h0)
  refine ⟨bs, ls, g1, ?_, hw, he, by decide⟩
  have := g2 []
  rw [List.append_nil] at this
  rw [this]
  have e : BinIO.cut oneLetter = oneLetter := by decide
  simp only [List.map_cons, List.map_nil, e]

end Verif.Tools
