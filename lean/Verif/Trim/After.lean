import Verif.Trim.Demo

/-! # C83: an entry that begins like another -/

namespace Verif.Trim

open Verif.Fst Verif.Alphabet Verif.Compiler
open Verif.Compression (Dbl)
open Verif.Chain (stored storedAll)
open Verif.Tools (Dictionary Has Kept Sane Part Symbol)
open Verif.Unified (Pairs)

/-- Pairs of letters only. -/
def biAlpha2 : Alphabet := ((Alphabet.empty.pairCode 0x61 0x78).2.pairCode 0x62 0x62).2

theorem biAlpha2_pairs : biAlpha2.spairinv = [(0, 0), (0x61, 0x78), (0x62, 0x62)] := by decide
theorem biAlpha2_tags : biAlpha2.slexicinv = [] := by decide

theorem biAlpha2_sane : Sane biAlpha2 := by
  refine ⟨(pairCode_spec (pairCode_spec Alphabet.ok_empty _ _).1 _ _).1, fun s hs => ?_, fun p hp => ?_⟩
  · rw [biAlpha2_tags] at hs
    cases hs
  · rw [biAlpha2_pairs] at hp
    simp only [List.mem_cons, List.not_mem_nil, or_false] at hp
    rcases hp with rfl | rfl | rfl <;> exact ⟨.inl (by decide), .inl (by decide)⟩

/-- `ab:a<n>b` -/
def monoSec2 : Transducer Dbl :=
  { initial := 0
    finals := [(3, 0)]
    transitions := [(0, [(1, (1, 0))]), (1, [(2, (2, 0))]), (2, [(4, (3, 0))]), (3, [])] }

/-- `a:x` and `ab:xb` -/
def biSec2 : Transducer Dbl :=
  { initial := 0
    finals := [(1, 0), (2, 0)]
    transitions := [(0, [(1, (1, 0))]), (1, [(2, (2, 0))]), (2, [])] }

theorem monoSec2_part : Part monoAlpha monoSec2 :=
  part_of_check (by decide) (by decide) (by simp [arcsOf, monoSec2]) (by simp [monoSec2]) (by decide) (by decide)
theorem biSec2_part : Part biAlpha2 biSec2 :=
  part_of_check (by decide) (by decide) (by simp [arcsOf, biSec2]) (by simp [biSec2]) (by decide) (by decide)

theorem bi2_edge {q : Nat} {l : Pair × Dbl} {p : Nat} (h : PairEdge biAlpha2 biSec2 q l p) : 0 < l.1.1 := by
  obtain ⟨c, h1, h2⟩ := h
  obtain ⟨i, h3, h4⟩ := decode_iff.1 h1
  have hm := List.mem_of_getElem? h3
  rw [biAlpha2_pairs] at hm
  rw [edge_iff_arcs (by decide)] at h2
  have hc : c = 1 ∨ c = 2 := by
    have := by simpa [arcsOf, biSec2] using h2
    rcases this with ⟨-, h, -⟩ | ⟨-, h, -⟩ <;> omega
  rcases hc with rfl | rfl
  · have e : biAlpha2.decode 1 = .ok (0x61, 0x78) := by decide
    rw [e] at h1
    rw [← Res.ok.inj h1]; norm_num
  · have e : biAlpha2.decode 2 = .ok (0x62, 0x62) := by decide
    rw [e] at h1
    rw [← Res.ok.inj h1]; norm_num

/-- The left sides of this bilingual dictionary have only letters. -/
theorem bi2_letters {bs : List UInt8} (h : Dictionary bs [0x61] biAlpha2 [(sec, biSec2)]) {k : UString} {X Y : List Name} (hp : Pairs bs k X Y) :
    ∀ n ∈ X, ∃ c, n = .letter c ∧ 0 < c := by
  obtain ⟨t, h1, x, y, ⟨ls, fw, ⟨p, h2, h3⟩, rfl, rfl⟩, h4, -⟩ := (pairs_iff h).1 hp
  have : k = sec ∧ t = biSec2 := by simpa using h1
  obtain ⟨rfl, rfl⟩ := this
  have hx : ∀ c ∈ (ls.map (·.1.1)).filter (· ≠ 0), 0 < c := by
    intro c hc
    obtain ⟨l, hl, rfl⟩ := List.mem_map.1 (List.mem_filter.1 hc).1
    obtain ⟨q, q', he⟩ := path_edge h2 hl
    exact bi2_edge he
  clear h2 h3 hp
  revert h4 hx
  generalize (ls.map (·.1.1)).filter (· ≠ 0) = xs
  intro h4 hx
  induction h4 with
  | nil => intro n hn; cases hn
  | @cons c m cs ms g _ ih =>
    intro n hn
    rcases List.mem_cons.1 hn with rfl | hn
    · have := hx c (List.mem_cons_self ..)
      exact ⟨c, named_letter (by omega) g, this⟩
    · exact ih (fun c hc => hx c (List.mem_cons_of_mem _ hc)) n hn

/-- **C83** In general `lt-trim` keeps more than it should: the bilingual dictionary has `a` and `ab`, and the analysis `a<n>b` is kept,
for tags are let through at every final state, and not only at the end. -/
theorem C83_after_false : ∃ mono bi bs k X Y, (∃ L a ts, Dictionary mono L a ts) ∧ (∃ L b us, Dictionary bi L b us) ∧
    ltTrim noWeight (fun _ => 0) [] mono bi = .ok bs ∧ Pairs bs k X Y ∧ ¬ JoinCovered [] bi k Y := by
  obtain ⟨mono, hw, hm⟩ := Tools.written (L := [0x61, 0x62]) (a := monoAlpha) (ts := [(sec, monoSec2)]) ⟨by decide, by decide, by decide⟩ monoAlpha_sane (by simp) (by decide)
    (by simpa using monoSec2_part) (by decide) (by decide) (by decide)
  obtain ⟨bi, -, hb⟩ := Tools.written (L := [0x61]) (a := biAlpha2) (ts := [(sec, biSec2)]) ⟨by decide, by decide, by decide⟩ biAlpha2_sane (by simp) (by decide)
    (by simpa using biSec2_part) (by decide) (by decide) (by decide)
  refine ⟨mono, bi, mono, sec, [.letter 0x61, .letter 0x62], [.letter 0x61, .tag tagN, .letter 0x62], ⟨_, _, _, hm⟩, ⟨_, _, _, hb⟩, ?_, ?_, ?_⟩
  · obtain ⟨r1, h1⟩ := hm.stored
    obtain ⟨r2, h2⟩ := hb.stored
    unfold ltTrim
    rw [h1]
    simp only [Res.bind_ok]
    rw [h2]
    simp only [Res.bind_ok]
    have : trimSets [] monoAlpha (storedAll noWeight [(sec, monoSec2)]) biAlpha2 (storedAll noWeight [(sec, biSec2)]) = .ok (storedAll noWeight [(sec, monoSec2)]) := by
      decide +kernel
    rw [this]
    exact hw
  · refine (pairs_iff hm).2 ⟨monoSec2, by simp, [0x61, 0x62], [0x61, -1, 0x62], ⟨[((0x61, 0x61), 0), ((0, -1), 0), ((0x62, 0x62), 0)], 0, ⟨3, ?_, by simp [Final, monoSec2]⟩,
      by decide, by decide⟩, ?_, ?_⟩
    · refine Path.cons (r := 1) ⟨1, by decide, (edge_iff_arcs (by decide) _ _ _).2 ?_⟩ (Path.cons (r := 2) ⟨2, by decide, (edge_iff_arcs (by decide) _ _ _).2 ?_⟩
        (Path.cons (r := 3) ⟨4, by decide, (edge_iff_arcs (by decide) _ _ _).2 ?_⟩ (.nil 3)))
      all_goals simp [arcsOf, monoSec2]
    · exact .cons (.inl ⟨by decide, rfl⟩) (.cons (.inl ⟨by decide, rfl⟩) .nil)
    · exact .cons (.inl ⟨by decide, rfl⟩) (.cons (.inr ⟨by decide, tagN, by decide, rfl⟩) (.cons (.inl ⟨by decide, rfl⟩) .nil))
  · rw [C83_plain (by decide) (by decide)]
    rintro ⟨Y1, Y2, X, Z, k', e, h1, -, h2, h3⟩
    have hX := bi2_letters hb h3
    -- the last letter is not a tag, so nothing is left out at the end
    have hY2 : Y2 = [] := by
      rcases List.eq_nil_or_concat Y2 with h | ⟨Y3, n, rfl⟩
      · exact h
      · obtain ⟨s, rfl⟩ := h1 n (by simp)
        rw [List.concat_eq_append, ← List.append_assoc] at e
        have := congrArg List.getLast? e
        simp at this
    subst hY2
    rw [List.append_nil] at e
    subst e
    cases h2 with
    | cons g1 g2 =>
      cases g2 with
      | @cons _ n _ ns g2 g3 =>
        obtain ⟨c, rfl, hc⟩ := hX n (by simp)
        rcases g2 with g | ⟨g, -⟩ | ⟨g, -⟩ | ⟨g, -⟩ | ⟨g, -⟩
        · cases g
        · revert g; decide
        · revert g; decide
        · cases g
        · cases g

end Verif.Trim
