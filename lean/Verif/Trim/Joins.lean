import Verif.Trim.Demo

/-! # C83: what comes before a join -/

namespace Verif.Trim

open Verif.Fst Verif.Alphabet Verif.Compiler
open Verif.Compression (Dbl)
open Verif.Chain (stored storedAll)
open Verif.Tools (Dictionary Has Kept Sane Part Symbol)
open Verif.Unified (Pairs)

/-- `<compound-R>` -/
def compoundR : UString := [0x3c, 0x63, 0x6f, 0x6d, 0x70, 0x6f, 0x75, 0x6e, 0x64, 0x2d, 0x52, 0x3e]

/-- The alphabet of an analyser with joins: `<n>` and `<compound-R>`, and pairs. -/
def joinAlpha : Alphabet :=
  (((((Alphabet.empty.includeSymbol tagN).includeSymbol compoundR).pairCode 0x61 0x61).2.pairCode 0 (-1)).2.pairCode 0 (-2)).2.pairCode 0 0x2b |>.2

theorem joinAlpha_pairs : joinAlpha.spairinv = [(0, 0), (0x61, 0x61), (0, -1), (0, -2), (0, 0x2b)] := by decide
theorem joinAlpha_tags : joinAlpha.slexicinv = [tagN, compoundR] := by decide

theorem joinAlpha_sane : Sane joinAlpha := by
  refine ⟨(pairCode_spec (pairCode_spec (pairCode_spec (pairCode_spec (includeSymbol_spec (includeSymbol_spec Alphabet.ok_empty _).1 _).1 _ _).1 _ _).1 _ _).1 _ _).1,
    fun s hs => ?_, fun p hp => ?_⟩
  · rw [joinAlpha_tags] at hs
    simp only [List.mem_cons, List.not_mem_nil, or_false] at hs
    rcases hs with rfl | rfl
    · exact ⟨⟨[0x6e], rfl⟩, by decide⟩
    · exact ⟨⟨(compoundR.drop 1).dropLast, by decide⟩, by decide⟩
  · have key : ∀ x, x = 0 ∨ x = -1 ∨ x = -2 ∨ x = 0x61 ∨ x = 0x2b → Symbol joinAlpha x := by
      rintro x (rfl | rfl | rfl | rfl | rfl)
      · exact .inl (by omega)
      · exact .inr ⟨by omega, tagN, by decide⟩
      · exact .inr ⟨by omega, compoundR, by decide⟩
      · exact .inl (by omega)
      · exact .inl (by omega)
    rw [joinAlpha_pairs] at hp
    simp only [List.mem_cons, List.not_mem_nil, or_false] at hp
    rcases hp with rfl | rfl | rfl | rfl | rfl <;> exact ⟨key _ (by decide), key _ (by decide)⟩

/-- `aa:a+a<n><compound-R>` -/
def joinSec : Transducer Dbl :=
  { initial := 0
    finals := [(5, 0)]
    transitions := [(0, [(1, (1, 0))]), (1, [(4, (2, 0))]), (2, [(1, (3, 0))]), (3, [(2, (4, 0))]), (4, [(3, (5, 0))]), (5, [])] }

theorem joinSec_part : Part joinAlpha joinSec :=
  part_of_check (by decide) (by decide) (by simp [arcsOf, joinSec]) (by simp [joinSec]) (by decide) (by decide)

theorem joinFile : ∃ bs, Dictionary bs [0x61] joinAlpha [(sec, joinSec)] := by
  obtain ⟨bs, -, h⟩ := Tools.written (L := [0x61]) (a := joinAlpha) (ts := [(sec, joinSec)]) ⟨by decide, by decide, by decide⟩ joinAlpha_sane (by simp) (by decide)
    (by simpa using joinSec_part) (by decide) (by decide) (by decide)
  exact ⟨bs, h⟩

/-- Its analysis. -/
def joinName : List Name := [.letter 0x61, .letter 0x2b, .letter 0x61, .tag tagN, .tag compoundR]

theorem join_has {bs : List UInt8} (h : Dictionary bs [0x61] joinAlpha [(sec, joinSec)]) : Pairs bs sec [.letter 0x61, .letter 0x61] joinName := by
  refine (pairs_iff h).2 ⟨joinSec, by simp, [0x61, 0x61], [0x61, 0x2b, 0x61, -1, -2],
    ⟨[((0x61, 0x61), 0), ((0, 0x2b), 0), ((0x61, 0x61), 0), ((0, -1), 0), ((0, -2), 0)], 0, ⟨5, ?_, by simp [Final, joinSec]⟩, by decide, by decide⟩, ?_, ?_⟩
  · refine Path.cons (r := 1) ⟨1, by decide, (edge_iff_arcs (by decide) _ _ _).2 ?_⟩ (Path.cons (r := 2) ⟨4, by decide, (edge_iff_arcs (by decide) _ _ _).2 ?_⟩
      (Path.cons (r := 3) ⟨1, by decide, (edge_iff_arcs (by decide) _ _ _).2 ?_⟩ (Path.cons (r := 4) ⟨2, by decide, (edge_iff_arcs (by decide) _ _ _).2 ?_⟩
      (Path.cons (r := 5) ⟨3, by decide, (edge_iff_arcs (by decide) _ _ _).2 ?_⟩ (.nil 5)))))
    all_goals simp [arcsOf, joinSec]
  · exact .cons (.inl ⟨by decide, rfl⟩) (.cons (.inl ⟨by decide, rfl⟩) .nil)
  · exact .cons (.inl ⟨by decide, rfl⟩) (.cons (.inl ⟨by decide, rfl⟩) (.cons (.inl ⟨by decide, rfl⟩)
      (.cons (.inr ⟨by decide, tagN, by decide, rfl⟩) (.cons (.inr ⟨by decide, compoundR, by decide, rfl⟩) .nil))))

theorem joining_mono {t : Transducer Dbl} : Product.Joining joinAlpha t := by
  rintro q x y w r ⟨c, h, -⟩
  obtain ⟨i, h2, -⟩ := decode_iff.1 h
  have hm := List.mem_of_getElem? h2
  rw [joinAlpha_pairs] at hm
  have hy : y = 0 ∨ y = 0x61 ∨ y = -1 ∨ y = -2 ∨ y = 0x2b := by
    have := by simpa using hm
    omega
  refine ⟨by omega, fun s hs hn => ?_⟩
  have : s = tagN ∨ s = compoundR := by
    obtain ⟨j, hj, -⟩ : HasTag joinAlpha y s := by
      rcases hn with ⟨-, h⟩ | ⟨h1, s', h2, h3⟩
      · cases h
      · cases h3; exact (tagText_iff h1).1 h2
    have := List.mem_of_getElem? hj
    rw [joinAlpha_tags] at this
    simpa using this
  rcases this with rfl | rfl <;> exact absurd hs (by decide)

theorem join_covered {bi : List UInt8} (hb : Dictionary bi [0x61] biAlpha [(sec, biSec)]) : JoinCovered [] bi sec joinName := by
  refine ⟨[[.letter 0x61]], [.letter 0x61, .tag tagN, .tag compoundR], rfl, ?_, ?_⟩
  · intro p hp
    have : p = [.letter 0x61] := by simpa using hp
    subst this
    exact .inr ⟨[.letter 0x61], [.tag tagN], _, sec, .inr ⟨by simp, by simp⟩, .cons (.inl rfl) .nil, bi_has hb⟩
  · exact ⟨[.letter 0x61, .tag tagN], [], _, _, sec, by decide, by simp, .inr ⟨by simp, by simp⟩, .cons (.inl rfl) (.cons (.inl rfl) .nil), bi_has hb⟩

theorem any_join : ∀ p ∈ joinAlpha.spairinv, ¬ Named joinAlpha p.2 (.tag anyChar) := by
  intro p hp hn
  obtain ⟨j, hj, -⟩ : HasTag joinAlpha p.2 anyChar := by
    rcases hn with ⟨-, h⟩ | ⟨h1, s', h2, h3⟩
    · cases h
    · cases h3; exact (tagText_iff h1).1 h2
  have := List.mem_of_getElem? hj
  rw [joinAlpha_tags] at this
  revert this
  decide

theorem bi_not_a {bi : List UInt8} (hb : Dictionary bi [0x61] biAlpha [(sec, biSec)]) : ¬ Covered [] bi sec [.letter 0x61] := by
  rintro ⟨Y1, Y2, X, Z, k', e, h1, -, h2, h3⟩
  obtain ⟨-, rfl⟩ := bi_pairs hb h3
  have := h2.length_eq
  have e := congrArg List.length e
  simp at this e
  omega

-- an analysis with a join and a mark of a compound is covered
example : ∃ mono bi, Plainly noWeight [] mono bi [0x61] [0x61] joinAlpha biAlpha [(sec, joinSec)] [(sec, biSec)] ∧
    Fits (trimSets [] joinAlpha (storedAll noWeight [(sec, joinSec)]) biAlpha (storedAll noWeight [(sec, biSec)])) ∧
    Pairs mono sec [.letter 0x61, .letter 0x61] joinName ∧ JoinCovered [] bi sec joinName := by
  obtain ⟨mono, hm⟩ := joinFile
  obtain ⟨bi, hb⟩ := biFile
  exact ⟨mono, bi, plainly_with hm hb joining_mono any_join ⟨_, _, join_has hm⟩ [] (by simp), fits_of_check (by decide +kernel), join_has hm, join_covered hb⟩

/-- **C83** The bilingual dictionary need not have what comes before a join: it has `a<n>` only, neither `a` nor any entry with a join,
and the analysis `a+a<n>` is kept, for after a join the trimmer goes back to the start from any state, final or not. -/
theorem C83_join_false : ∃ mono bi bs k X Y1 Y2, (∃ L L' a b ts us, Plainly noWeight [] mono bi L L' a b ts us) ∧
    ltTrim noWeight (fun _ => 0) [] mono bi = .ok bs ∧ Pairs bs k X (Y1 ++ .letter 0x2b :: Y2) ∧ .letter 0x2b ∉ Y1 ∧ .letter 0x2b ∉ Y2 ∧
    ¬ Covered [] bi k (unmarked Y1) ∧ ∀ k' X' Z, Pairs bi k' X' Z → .letter 0x2b ∉ X' := by
  obtain ⟨mono, hm⟩ := joinFile
  obtain ⟨bi, hb⟩ := biFile
  have hp := plainly_with hm hb joining_mono any_join ⟨_, _, join_has hm⟩ [] (by simp)
  obtain ⟨bs, rs, h1, h2, h3⟩ := C83_trim_partial (fun _ => 0) kept_demo hp (fits_of_check (by decide +kernel)) ⟨sec, _, _, .inl (by simp), join_has hm, join_covered hb⟩
  refine ⟨mono, bi, bs, sec, _, [.letter 0x61], [.letter 0x61, .tag tagN, .tag compoundR], ⟨_, _, _, _, _, _, hp⟩, h1,
    (h3 sec [.letter 0x61, .letter 0x61] _ (.inl (by simp))).2 ⟨join_has hm, join_covered hb⟩, by simp, by simp, ?_, ?_⟩
  · exact bi_not_a hb
  · intro k' X' Z h
    obtain ⟨-, rfl⟩ := bi_pairs hb h
    simp

end Verif.Trim
