import Verif.Tools.Restrict
import Verif.Chain.Sections
import Verif.Transducer.Check

/-! # The files that the tools are used on -/

namespace Verif.Tools

open Verif.Fst
open Verif.Alphabet (HasPair HasTag Ext Ok decode_iff tagText_iff pairCode_spec includeSymbol_spec)
open Verif.Compression (Dbl cut30 vec32)

theorem kept_cut30 {w : Dbl} (h : w.Normal) : Kept (cut30 w) := by
  cases w with
  | fin M e =>
    refine ⟨?_, ⟨_, mul_comm _ _⟩⟩
    simp only [cut30, Compression.Dbl.Normal] at h ⊢
    rcases h with ⟨rfl, rfl⟩ | ⟨h1, h2, h3⟩
    · left; simp
    · right
      rw [Int.natAbs_mul, Int.natAbs_tdiv]
      have e : (2 ^ 23 : Int).natAbs = 2 ^ 23 := rfl
      have e2 : M.natAbs.div (2 ^ 23) = M.natAbs / 2 ^ 23 := rfl
      rw [e, e2]
      refine ⟨?_, ?_, h3⟩ <;> omega
  | posInf => exact ⟨trivial, trivial⟩
  | negInf => exact ⟨trivial, trivial⟩

theorem part_cut {a : Alphabet} {t : Transducer Dbl} (h : WF t) (hc : ∀ q c w p, Edge t q (c, w) p → ∃ pr, a.decode c = .ok pr) (hr : BinIO.InRange 0 t) :
    Part a (BinIO.cut t) := by
  have e : BinIO.cut t = Chain.stored cut30 t := rfl
  rw [e]
  obtain ⟨-, h1, h2, h3, h4⟩ := hr
  refine ⟨Chain.wf_stored _ h, fun q l p he => ?_, by unfold Fst.size at h1 ⊢; simpa [Chain.stored] using h1, fun e he => ?_, fun q l p he => ?_, fun q w hf => ?_⟩
  · obtain ⟨v, h5, -⟩ := (Chain.edge_stored _ _ _ _ _).1 he
    exact hc _ _ _ _ h5
  · obtain ⟨e', he', rfl⟩ := List.mem_map.1 he
    simpa using h2 e' he'
  · obtain ⟨v, h5, h6⟩ := (Chain.edge_stored _ _ _ _ _).1 he
    rw [h6]
    exact kept_cut30 (h3 _ _ _ _ h5).2.2
  · obtain ⟨v, h5, h6⟩ := (Chain.final_stored _ _ _ _).1 hf
    rw [h6]
    exact kept_cut30 (h4 _ _ h5)

/-- **C80** The files that `lt-comp` writes are compiled dictionaries in this sense, if their sizes are in range and all letters are in the Basic
Multilingual Plane. -/
theorem C80_compiled {letters : UString} {a : Alphabet} {ts : List (UString × Transducer Dbl)} {bs : List UInt8} (h : Load.Fits letters a ts)
    (hs : ∀ p ∈ a.spairinv, Symbol a p.1 ∧ Symbol a p.2) (hn : a.slexicinv.length < 2 ^ 29)
    (hl : ∀ c ∈ vec32 letters, c.toNat < 0x10000 ∧ ¬ (0xd800 ≤ c.toNat ∧ c.toNat < 0xdc00)) (hw : BinIO.writeSet letters a ts = .ok bs) :
    ∃ L, Dictionary bs L a (ts.map fun e => (e.1, BinIO.cut e.2)) ∧ ∀ c, c ∈ L ↔ c ∈ vec32 letters := by
  obtain ⟨bs', ls, g1, g2, g3, g4, -⟩ := BinIO.set_roundtrip letters a ts h.letters h.alphabet h.writable h.sections
  rw [hw] at g1
  cases g1
  have hlen : ls.length < 2 ^ 30 := by
    have h1 := length_le_of_subset (l' := vec32 letters) (g2.imp (fun h e => by subst e; exact lt_irrefl _ h)) (fun c hc => (g3 c).1 hc)
    have h2 := Compression.vec32_length_le letters
    have h3 := h.letters
    omega
  refine ⟨ls, ⟨⟨[], by simpa using g4 []⟩, ⟨g2, hlen, fun c hc => hl c ((g3 c).1 hc)⟩, ⟨h.alphabet, h.writable.1, hs⟩, ?_, ?_, ?_, hn, h.writable.2.2.1, by simpa using h.sections.2.1⟩, g3⟩
  · exact List.pairwise_map.2 h.sections.1
  · intro e he
    obtain ⟨e', he', rfl⟩ := List.mem_map.1 he
    exact (h.sections.2.2 e' he').1
  · intro e he
    obtain ⟨e', he', rfl⟩ := List.mem_map.1 he
    exact part_cut (h.sections.2.2 e' he').2.1 (h.labels e' he') (h.sections.2.2 e' he').2.2

/-- **C80** With letters outside the Basic Multilingual Plane the letters change: `lt-invert` turns the letter U+1F600 into U+F600. -/
theorem C80_letters_false : ∃ (bs bs' : List UInt8) (a a' : Alphabet) (ts ts' : List (UString × Transducer Dbl)),
    Stores bs [0x1f600] a ts ∧ ltInvert bs = .ok bs' ∧ Stores bs' [0xf600] a' ts' := by
  obtain ⟨bs, ls, g1, g2, g3, g4, -⟩ := BinIO.C59_roundtrip [0xd83d, 0xde00] Alphabet.exAlpha [] (by decide) Alphabet.exAlpha_reachable Alphabet.exAlpha_writable ⟨.nil, by decide, by simp⟩
  obtain ⟨bs', ls', j1, j2, j3, j4, -⟩ := BinIO.C59_roundtrip [0xf600] Alphabet.exAlpha [] (by decide) Alphabet.exAlpha_reachable Alphabet.exAlpha_writable ⟨.nil, by decide, by simp⟩
  have e1 : ls = [0x1f600] := BinIO.sorted_ext g2 (by decide) (fun c => (g3 c).trans (by rw [show vec32 [0xd83d, 0xde00] = [0x1f600] by decide]))
  have e2 : ls' = [0xf600] := BinIO.sorted_ext j2 (by decide) (fun c => (j3 c).trans (by rw [show vec32 [0xf600] = [0xf600] by decide]))
  subst e1 e2
  have h1 := g4 []
  rw [List.append_nil] at h1
  have h2 := j4 []
  rw [List.append_nil] at h2
  refine ⟨bs, bs', Alphabet.exAlpha, Alphabet.exAlpha, [], [], ⟨[], h1⟩, ?_, ⟨[], h2⟩⟩
  simp only [ltInvert, h1, Res.bind_ok, List.map_nil, eachSection, BinIO.writeSetL]
  exact j1

/-! ## A small file -/

/-- `<n>`, `<r:LR>`, `<r:RL>`, and pairs of them. -/
def demoAlpha : Alphabet :=
  (((((((Alphabet.empty.includeSymbol [0x3c, 0x6e, 0x3e]).includeSymbol (mark preR LR)).includeSymbol (mark preR RL)).pairCode (-2) (-2)).2.pairCode (-3) (-3)).2.pairCode 0x61 0x62).2.pairCode 0 (-1)).2

theorem demoAlpha_ok : Ok demoAlpha :=
  (pairCode_spec (pairCode_spec (pairCode_spec (pairCode_spec (includeSymbol_spec (includeSymbol_spec (includeSymbol_spec Alphabet.ok_empty _).1 _).1 _).1 _ _).1 _ _).1 _ _).1 _ _).1

theorem demoAlpha_pairs : demoAlpha.spairinv = [(0, 0), (-2, -2), (-3, -3), (0x61, 0x62), (0, -1)] := by decide
theorem demoAlpha_tags : demoAlpha.slexicinv = [[0x3c, 0x6e, 0x3e], mark preR LR, mark preR RL] := by decide

theorem demoAlpha_sane : Sane demoAlpha := by
  refine ⟨demoAlpha_ok, fun s hs => ?_, fun p hp => ?_⟩
  · rw [demoAlpha_tags] at hs
    simp only [List.mem_cons, List.not_mem_nil, or_false] at hs
    rcases hs with rfl | rfl | rfl
    · exact ⟨⟨[0x6e], rfl⟩, by decide⟩
    · exact ⟨⟨[0x72, 0x3a, 0x4c, 0x52], rfl⟩, by decide⟩
    · exact ⟨⟨[0x72, 0x3a, 0x52, 0x4c], rfl⟩, by decide⟩
  · have key : ∀ x, x = 0 ∨ x = -1 ∨ x = -2 ∨ x = -3 ∨ x = 0x61 ∨ x = 0x62 → Symbol demoAlpha x := by
      rintro x (rfl | rfl | rfl | rfl | rfl | rfl)
      · exact .inl (by omega)
      · exact .inr ⟨by omega, [0x3c, 0x6e, 0x3e], by decide⟩
      · exact .inr ⟨by omega, mark preR LR, by decide⟩
      · exact .inr ⟨by omega, mark preR RL, by decide⟩
      · exact .inl (by omega)
      · exact .inl (by omega)
    rw [demoAlpha_pairs] at hp
    simp only [List.mem_cons, List.not_mem_nil, or_false] at hp
    rcases hp with rfl | rfl | rfl | rfl | rfl <;> exact ⟨key _ (by decide), key _ (by decide)⟩

/-- `<r:LR> a:b :<n>` and, with the mark of the other direction, `<r:RL> a:b`. -/
def demoSection : Transducer Dbl :=
  { initial := 0
    finals := [(3, 0), (4, 0)]
    transitions := [(0, [(1, (1, 0)), (2, (2, 0))]), (1, [(3, (3, .fin (2 ^ 52) 1))]), (2, [(3, (4, 0))]), (3, [(4, (4, 0))]), (4, [])] }

theorem demoSection_part : Part demoAlpha demoSection := by
  have harcs : ∀ x ∈ arcsOf demoSection.transitions, (∃ pr, demoAlpha.decode x.2.1 = .ok pr) ∧ Kept x.2.2.2 := by
    intro x hx
    have h : x = (0, (1, (1, 0))) ∨ x = (0, (2, (2, 0))) ∨ x = (1, (3, (3, .fin (2 ^ 52) 1))) ∨ x = (2, (3, (4, 0))) ∨ x = (3, (4, (4, 0))) := by
      simpa [arcsOf, demoSection] using hx
    have h0 : Kept (0 : Dbl) := ⟨.inl ⟨rfl, rfl⟩, ⟨0, rfl⟩⟩
    rcases h with rfl | rfl | rfl | rfl | rfl
    · exact ⟨⟨(-2, -2), by decide⟩, h0⟩
    · exact ⟨⟨(-3, -3), by decide⟩, h0⟩
    · exact ⟨⟨(0x61, 0x62), by decide⟩, .inr ⟨by decide, by decide, by decide⟩, ⟨2 ^ 29, by norm_num⟩⟩
    · exact ⟨⟨(0x61, 0x62), by decide⟩, h0⟩
    · exact ⟨⟨(0, -1), by decide⟩, h0⟩
  refine ⟨wf_of_check (by decide), fun q l p he => ?_, by decide, by decide, fun q l p he => ?_, fun q w hf => ?_⟩
  · exact (harcs _ ((edge_iff_arcs (by decide) q l p).1 he)).1
  · exact (harcs _ ((edge_iff_arcs (by decide) q l p).1 he)).2
  · have h : (q = 3 ∧ w = 0) ∨ (q = 4 ∧ w = 0) := by simpa [Final, demoSection] using hf
    rcases h with ⟨-, rfl⟩ | ⟨-, rfl⟩ <;> exact ⟨.inl ⟨rfl, rfl⟩, ⟨0, rfl⟩⟩

/-- The file exists. -/
theorem demoFile : ∃ bs, BinIO.writeSetL [0x61, 0x62] demoAlpha [([0x6d], demoSection)] = .ok bs ∧ Dictionary bs [0x61, 0x62] demoAlpha [([0x6d], demoSection)] :=
  written ⟨by decide, by decide, by decide⟩ demoAlpha_sane (by decide) (by decide) (by simpa using demoSection_part) (by decide) (by decide) (by decide)

theorem demo_path (x : Int) (s : UString) (c : Int) (p1 : Nat) (w : Dbl) (hx : demoAlpha.decode c = .ok (x, x)) (hs : HasTag demoAlpha x s) (h1 : Edge demoSection 0 (c, 0) p1)
    (p2 : Nat) (h2 : Edge demoSection p1 (3, w) p2) : Path (NamedEdge demoAlpha demoSection) 0 [((.tag s, .tag s), 0), ((.letter 0x61, .letter 0x62), w)] p2 := by
  have hn : Named demoAlpha x (.tag s) := .inr ⟨hs.neg, s, (tagText_iff hs.neg).2 hs, rfl⟩
  refine .cons ⟨x, x, ⟨c, hx, h1⟩, hn, hn⟩ (.cons ⟨0x61, 0x62, ⟨3, (by decide : demoAlpha.decode 3 = .ok (0x61, 0x62)), h2⟩, .inl ⟨by decide, rfl⟩, .inl ⟨by decide, rfl⟩⟩ (.nil _))

-- the hypotheses of the theorems are met by a file with a path that `lt-restrict lr` keeps, erasing its mark, and one that it drops
example : ∃ bs, Dictionary bs [0x61, 0x62] demoAlpha [([0x6d], demoSection)] ∧
    2 * (demoAlpha.spairinv.length + demoAlpha.slexicinv.length) < 2 ^ 30 ∧
    Says bs [0x6d] [((.tag (mark preR RL), .tag (mark preR RL)), 0), ((.letter 0x61, .letter 0x62), 0)] 0 ∧ Dropped { dir := LR } (mark preR RL) ∧
    Says bs [0x6d] [((.tag (mark preR LR), .tag (mark preR LR)), 0), ((.letter 0x61, .letter 0x62), .fin (2 ^ 52) 1), ((.letter 0, .tag [0x3c, 0x6e, 0x3e]), 0)] 0 ∧
    Erased { dir := LR } (mark preR LR) ∧ ¬ Dropped { dir := LR } (mark preR LR) ∧ ¬ Dropped { dir := LR } [0x3c, 0x6e, 0x3e] := by
  obtain ⟨bs, -, h⟩ := demoFile
  refine ⟨bs, h, by decide, ?_, ?_, ?_, .inl (.inl rfl), fun h => h.1 (.inl rfl), ?_⟩
  · refine (says_iff h.stored _ _ _).2 ⟨demoSection, by simp, 4, demo_path (-3) _ 2 2 0 (by decide) ⟨2, by decide, rfl⟩ ?_ 4 ?_, by unfold Final; decide⟩
    all_goals (rw [edge_iff_arcs (by decide)]; decide)
  · refine ⟨?_, .inl ⟨[0x52, 0x4c, 0x3e], rfl⟩⟩
    unfold Chosen
    decide
  · refine (says_iff h.stored _ _ _).2 ⟨demoSection, by simp, 4,
      (demo_path (-2) _ 1 1 (.fin (2 ^ 52) 1) (by decide) ⟨1, by decide, rfl⟩ ?_ 3 ?_).append
        (.cons ⟨0, -1, ⟨4, by decide, ?_⟩, .inl ⟨by decide, rfl⟩, .inr ⟨by decide, _, by decide, rfl⟩⟩ (.nil 4)), by unfold Final; decide⟩
    all_goals (rw [edge_iff_arcs (by decide)]; decide)
  · rintro ⟨-, h⟩
    rcases h with ⟨r, e⟩ | ⟨-, r, e⟩ | ⟨r, e⟩ | ⟨r, e⟩ | ⟨r, e⟩ <;> simp [preR, preV, preAlt, preVl, preVr] at e

-- two files with the same section, and sizes in range for inverting and appending
example : ∃ bs, Dictionary bs [0x61, 0x62] demoAlpha [([0x6d], demoSection)] ∧ Has bs [0x6d] ∧ ¬ Has bs [0x6e] ∧ 4 * demoAlpha.spairinv.length < 2 ^ 30 ∧
    demoAlpha.slexicinv.length + demoAlpha.slexicinv.length < 2 ^ 29 := by
  obtain ⟨bs, -, h⟩ := demoFile
  exact ⟨bs, h, (has_iff h.stored _).2 (by decide), fun hk => absurd ((has_iff h.stored _).1 hk) (by decide), by decide, by decide⟩

end Verif.Tools
