import Verif.Trim.Props
import Verif.Tools.Files

/-! # C83: small files -/

namespace Verif.Trim

open Verif.Fst Verif.Alphabet Verif.Compiler
open Verif.Compression (Dbl)
open Verif.Chain (stored storedAll edge_stored final_stored wf_stored)
open Verif.Tools (Dictionary Has Kept Sane Part Symbol)
open Verif.Unified (Pairs)

/-- `<n>` -/
def tagN : UString := [0x3c, 0x6e, 0x3e]
/-- `<s>` -/
def tagS : UString := [0x3c, 0x73, 0x3e]

/-- The alphabet of the analyser: `<n>` and `<s>`, and pairs. -/
def monoAlpha : Alphabet :=
  ((((((Alphabet.empty.includeSymbol tagN).includeSymbol tagS).pairCode 0x61 0x61).2.pairCode 0 (-1)).2.pairCode 0 (-2)).2.pairCode 0x62 0x62).2

theorem monoAlpha_pairs : monoAlpha.spairinv = [(0, 0), (0x61, 0x61), (0, -1), (0, -2), (0x62, 0x62)] := by decide
theorem monoAlpha_tags : monoAlpha.slexicinv = [tagN, tagS] := by decide

/-- The alphabet of the bilingual dictionary. -/
def biAlpha : Alphabet := (((Alphabet.empty.includeSymbol tagN).pairCode 0x61 0x78).2.pairCode (-1) (-1)).2

theorem biAlpha_pairs : biAlpha.spairinv = [(0, 0), (0x61, 0x78), (-1, -1)] := by decide
theorem biAlpha_tags : biAlpha.slexicinv = [tagN] := by decide

theorem monoAlpha_sane : Sane monoAlpha := by
  refine ⟨(pairCode_spec (pairCode_spec (pairCode_spec (pairCode_spec (includeSymbol_spec (includeSymbol_spec Alphabet.ok_empty _).1 _).1 _ _).1 _ _).1 _ _).1 _ _).1,
    fun s hs => ?_, fun p hp => ?_⟩
  · rw [monoAlpha_tags] at hs
    simp only [List.mem_cons, List.not_mem_nil, or_false] at hs
    rcases hs with rfl | rfl
    · exact ⟨⟨[0x6e], rfl⟩, by decide⟩
    · exact ⟨⟨[0x73], rfl⟩, by decide⟩
  · have key : ∀ x, x = 0 ∨ x = -1 ∨ x = -2 ∨ x = 0x61 ∨ x = 0x62 → Symbol monoAlpha x := by
      rintro x (rfl | rfl | rfl | rfl | rfl)
      · exact .inl (by omega)
      · exact .inr ⟨by omega, tagN, by decide⟩
      · exact .inr ⟨by omega, tagS, by decide⟩
      · exact .inl (by omega)
      · exact .inl (by omega)
    rw [monoAlpha_pairs] at hp
    simp only [List.mem_cons, List.not_mem_nil, or_false] at hp
    rcases hp with rfl | rfl | rfl | rfl | rfl <;> exact ⟨key _ (by decide), key _ (by decide)⟩

theorem biAlpha_sane : Sane biAlpha := by
  refine ⟨(pairCode_spec (pairCode_spec (includeSymbol_spec Alphabet.ok_empty _).1 _ _).1 _ _).1, fun s hs => ?_, fun p hp => ?_⟩
  · rw [biAlpha_tags] at hs
    simp only [List.mem_cons, List.not_mem_nil, or_false] at hs
    subst hs
    exact ⟨⟨[0x6e], rfl⟩, by decide⟩
  · have key : ∀ x, x = 0 ∨ x = -1 ∨ x = 0x61 ∨ x = 0x78 → Symbol biAlpha x := by
      rintro x (rfl | rfl | rfl | rfl)
      · exact .inl (by omega)
      · exact .inr ⟨by omega, tagN, by decide⟩
      · exact .inl (by omega)
      · exact .inl (by omega)
    rw [biAlpha_pairs] at hp
    simp only [List.mem_cons, List.not_mem_nil, or_false] at hp
    rcases hp with rfl | rfl | rfl <;> exact ⟨key _ (by decide), key _ (by decide)⟩

/-- `a:a<n><s>` and `b:b<n>`. -/
def monoSec : Transducer Dbl :=
  { initial := 0
    finals := [(3, 0), (5, 0)]
    transitions := [(0, [(1, (1, 0)), (4, (4, 0))]), (1, [(2, (2, 0))]), (2, [(3, (3, 0))]), (3, []), (4, [(2, (5, 0))]), (5, [])] }

/-- `b:b<n>`. -/
def monoSec' : Transducer Dbl :=
  { initial := 0
    finals := [(2, 0)]
    transitions := [(0, [(4, (1, 0))]), (1, [(2, (2, 0))]), (2, [])] }

/-- `a<n>:x<n>`. -/
def biSec : Transducer Dbl :=
  { initial := 0
    finals := [(2, 0)]
    transitions := [(0, [(1, (1, 0))]), (1, [(2, (2, 0))]), (2, [])] }

theorem kept_zero : Kept (0 : Dbl) := ⟨.inl ⟨rfl, rfl⟩, ⟨0, rfl⟩⟩

/-- A check that a section has the weights 0 and codes of pairs. -/
def partCheck (a : Alphabet) (t : Transducer Dbl) : Bool :=
  (arcsOf t.transitions).all fun x => match a.decode x.2.1 with | .ok _ => true | _ => false

theorem part_of_check {a : Alphabet} {t : Transducer Dbl} (hk : checkWF t = true) (h : partCheck a t = true) (hz : ∀ x ∈ arcsOf t.transitions, x.2.2.2 = 0)
    (hf : ∀ e ∈ t.finals, e.2 = 0) (h1 : Fst.size t < 2 ^ 30) (h2 : ∀ e ∈ t.transitions, e.2.length < 2 ^ 30) : Part a t := by
  refine ⟨wf_of_check hk, fun q l p he => ?_, h1, h2, fun q l p he => ?_, fun q w hw => ?_⟩
  · have := (edge_iff_arcs hk q l p).1 he
    have := List.all_eq_true.1 h _ this
    simp only at this
    split at this
    · next h => exact ⟨_, h⟩
    · cases this
  · have := hz _ ((edge_iff_arcs hk q l p).1 he)
    simp only at this
    rw [this]; exact kept_zero
  · have := hf _ hw
    simp only at this
    rw [this]; exact kept_zero

theorem monoSec_part : Part monoAlpha monoSec :=
  part_of_check (by decide) (by decide) (by simp [arcsOf, monoSec]) (by simp [monoSec]) (by decide) (by decide)
theorem monoSec'_part : Part monoAlpha monoSec' :=
  part_of_check (by decide) (by decide) (by simp [arcsOf, monoSec']) (by simp [monoSec']) (by decide) (by decide)
theorem biSec_part : Part biAlpha biSec :=
  part_of_check (by decide) (by decide) (by simp [arcsOf, biSec]) (by simp [biSec]) (by decide) (by decide)

/-- The name of the section. -/
def sec : UString := [0x6d]

theorem monoFile : ∃ bs, Dictionary bs [0x61, 0x62] monoAlpha [(sec, monoSec)] := by
  obtain ⟨bs, -, h⟩ := Tools.written (L := [0x61, 0x62]) (a := monoAlpha) (ts := [(sec, monoSec)]) ⟨by decide, by decide, by decide⟩ monoAlpha_sane (by simp) (by decide)
    (by simpa using monoSec_part) (by decide) (by decide) (by decide)
  exact ⟨bs, h⟩
theorem monoFile' : ∃ bs, Dictionary bs [0x61, 0x62] monoAlpha [(sec, monoSec')] := by
  obtain ⟨bs, -, h⟩ := Tools.written (L := [0x61, 0x62]) (a := monoAlpha) (ts := [(sec, monoSec')]) ⟨by decide, by decide, by decide⟩ monoAlpha_sane (by simp) (by decide)
    (by simpa using monoSec'_part) (by decide) (by decide) (by decide)
  exact ⟨bs, h⟩
theorem biFile : ∃ bs, Dictionary bs [0x61] biAlpha [(sec, biSec)] := by
  obtain ⟨bs, -, h⟩ := Tools.written (L := [0x61]) (a := biAlpha) (ts := [(sec, biSec)]) ⟨by decide, by decide, by decide⟩ biAlpha_sane (by simp) (by decide)
    (by simpa using biSec_part) (by decide) (by decide) (by decide)
  exact ⟨bs, h⟩

/-! ## Their pairs -/

theorem bi_edge {q : Nat} {l : Pair × Dbl} {p : Nat} (h : PairEdge biAlpha biSec q l p) : (q = 0 ∧ p = 1 ∧ l.1 = (0x61, 0x78)) ∨ (q = 1 ∧ p = 2 ∧ l.1 = (-1, -1)) := by
  obtain ⟨c, h1, h2⟩ := h
  rw [edge_iff_arcs (by decide)] at h2
  have : (q = 0 ∧ c = 1 ∧ p = 1) ∨ (q = 1 ∧ c = 2 ∧ p = 2) := by
    have := by simpa [arcsOf, biSec] using h2
    rcases this with ⟨rfl, rfl, rfl, -⟩ | ⟨rfl, rfl, rfl, -⟩ <;> simp
  rcases this with ⟨rfl, rfl, rfl⟩ | ⟨rfl, rfl, rfl⟩
  · have e : biAlpha.decode 1 = .ok (0x61, 0x78) := by decide
    rw [e] at h1
    have := Res.ok.inj h1
    simp [← this]
  · have e : biAlpha.decode 2 = .ok (-1, -1) := by decide
    rw [e] at h1
    have := Res.ok.inj h1
    simp [← this]

theorem bi_final {p : Nat} {w : Dbl} (h : Final biSec p w) : p = 2 := by
  have : p = 2 ∧ w = 0 := by simpa [Final, biSec] using h
  exact this.1

theorem named_tagN {A : Alphabet} (h : A.tagText (-1) = .ok tagN) {n : Name} (hn : Named A (-1) n) : n = .tag tagN := by
  rcases hn with ⟨h0, -⟩ | ⟨-, s, h1, rfl⟩
  · omega
  · rw [h] at h1; cases h1; rfl

theorem named_letter {A : Alphabet} {x : Int} (h0 : 0 ≤ x) {n : Name} (hn : Named A x n) : n = .letter x := by
  rcases hn with ⟨-, h⟩ | ⟨h, -⟩
  · exact h
  · omega

/-- The only pair of the bilingual dictionary. -/
theorem bi_pairs {bs : List UInt8} (h : Dictionary bs [0x61] biAlpha [(sec, biSec)]) {k : UString} {X Y : List Name} (hp : Pairs bs k X Y) :
    k = sec ∧ X = [.letter 0x61, .tag tagN] := by
  obtain ⟨t, h1, x, y, ⟨ls, fw, ⟨p, h2, h3⟩, rfl, rfl⟩, h4, -⟩ := (pairs_iff h).1 hp
  have : k = sec ∧ t = biSec := by simpa using h1
  obtain ⟨rfl, rfl⟩ := this
  refine ⟨rfl, ?_⟩
  have hp := bi_final h3
  subst hp
  cases h2 with
  | @cons _ p1 _ l1 ls1 e1 t1 =>
    rcases bi_edge e1 with ⟨-, rfl, f1⟩ | ⟨h, -⟩
    · cases t1 with
      | @cons _ p2 _ l2 ls2 e2 t2 =>
        rcases bi_edge e2 with ⟨h, -⟩ | ⟨-, rfl, f2⟩
        · omega
        · cases t2 with
          | nil =>
            rw [List.map_cons, List.map_cons, List.map_nil, f1, f2] at h4
            simp only [ne_eq, decide_not, List.filter_cons, List.filter_nil] at h4
            norm_num at h4
            cases h4 with
            | cons g1 g2 =>
              cases g2 with
              | cons g2 g3 =>
                cases g3
                rw [named_letter (by norm_num) g1, named_tagN (by decide) g2]
          | cons e3 _ =>
            rcases bi_edge e3 with ⟨h, -⟩ | ⟨h, -⟩ <;> omega
    · cases h

theorem bi_has {bs : List UInt8} (h : Dictionary bs [0x61] biAlpha [(sec, biSec)]) : Pairs bs sec [.letter 0x61, .tag tagN] [.letter 0x78, .tag tagN] := by
  refine (pairs_iff h).2 ⟨biSec, by simp, [0x61, -1], [0x78, -1], ⟨[((0x61, 0x78), 0), ((-1, -1), 0)], 0, ⟨2, ?_, by simp [Final, biSec]⟩, by decide, by decide⟩, ?_, ?_⟩
  · refine Path.cons (r := 1) ⟨1, by decide, (edge_iff_arcs (by decide) _ _ _).2 ?_⟩ (Path.cons (r := 2) ⟨2, by decide, (edge_iff_arcs (by decide) _ _ _).2 ?_⟩ (.nil 2))
    · simp [arcsOf, biSec]
    · simp [arcsOf, biSec]
  · exact .cons (.inl ⟨by decide, rfl⟩) (.cons (.inr ⟨by decide, tagN, by decide, rfl⟩) .nil)
  · exact .cons (.inl ⟨by decide, rfl⟩) (.cons (.inr ⟨by decide, tagN, by decide, rfl⟩) .nil)

/-- `a` is analysed as `a<n><s>`. -/
theorem mono_has {bs : List UInt8} (h : Dictionary bs [0x61, 0x62] monoAlpha [(sec, monoSec)]) :
    Pairs bs sec [.letter 0x61] [.letter 0x61, .tag tagN, .tag tagS] := by
  refine (pairs_iff h).2 ⟨monoSec, by simp, [0x61], [0x61, -1, -2], ⟨[((0x61, 0x61), 0), ((0, -1), 0), ((0, -2), 0)], 0, ⟨3, ?_, by simp [Final, monoSec]⟩, by decide, by decide⟩, ?_, ?_⟩
  · refine Path.cons (r := 1) ⟨1, by decide, (edge_iff_arcs (by decide) _ _ _).2 ?_⟩ (Path.cons (r := 2) ⟨2, by decide, (edge_iff_arcs (by decide) _ _ _).2 ?_⟩
      (Path.cons (r := 3) ⟨3, by decide, (edge_iff_arcs (by decide) _ _ _).2 ?_⟩ (.nil 3)))
    all_goals simp [arcsOf, monoSec]
  · exact .cons (.inl ⟨by decide, rfl⟩) .nil
  · exact .cons (.inl ⟨by decide, rfl⟩) (.cons (.inr ⟨by decide, tagN, by decide, rfl⟩) (.cons (.inr ⟨by decide, tagS, by decide, rfl⟩) .nil))

/-- `b` is analysed as `b<n>`. -/
theorem mono_has_b {bs : List UInt8} (h : Dictionary bs [0x61, 0x62] monoAlpha [(sec, monoSec)]) : Pairs bs sec [.letter 0x62] [.letter 0x62, .tag tagN] := by
  refine (pairs_iff h).2 ⟨monoSec, by simp, [0x62], [0x62, -1], ⟨[((0x62, 0x62), 0), ((0, -1), 0)], 0, ⟨5, ?_, by simp [Final, monoSec]⟩, by decide, by decide⟩, ?_, ?_⟩
  · refine Path.cons (r := 4) ⟨4, by decide, (edge_iff_arcs (by decide) _ _ _).2 ?_⟩ (Path.cons (r := 5) ⟨2, by decide, (edge_iff_arcs (by decide) _ _ _).2 ?_⟩ (.nil 5))
    all_goals simp [arcsOf, monoSec]
  · exact .cons (.inl ⟨by decide, rfl⟩) .nil
  · exact .cons (.inl ⟨by decide, rfl⟩) (.cons (.inr ⟨by decide, tagN, by decide, rfl⟩) .nil)

theorem mono'_edge {q : Nat} {l : Pair × Dbl} {p : Nat} (h : PairEdge monoAlpha monoSec' q l p) : (q = 0 ∧ p = 1 ∧ l.1 = (0x62, 0x62)) ∨ (q = 1 ∧ p = 2 ∧ l.1 = (0, -1)) := by
  obtain ⟨c, h1, h2⟩ := h
  rw [edge_iff_arcs (by decide)] at h2
  have : (q = 0 ∧ c = 4 ∧ p = 1) ∨ (q = 1 ∧ c = 2 ∧ p = 2) := by
    have := by simpa [arcsOf, monoSec'] using h2
    rcases this with ⟨rfl, rfl, rfl, -⟩ | ⟨rfl, rfl, rfl, -⟩ <;> simp
  rcases this with ⟨rfl, rfl, rfl⟩ | ⟨rfl, rfl, rfl⟩
  · have e : monoAlpha.decode 4 = .ok (0x62, 0x62) := by decide
    rw [e] at h1
    have := Res.ok.inj h1
    simp [← this]
  · have e : monoAlpha.decode 2 = .ok (0, -1) := by decide
    rw [e] at h1
    have := Res.ok.inj h1
    simp [← this]

/-- The only analysis of the other analyser. -/
theorem mono'_pairs {bs : List UInt8} (h : Dictionary bs [0x61, 0x62] monoAlpha [(sec, monoSec')]) {k : UString} {X Y : List Name} (hp : Pairs bs k X Y) :
    Y = [.letter 0x62, .tag tagN] := by
  obtain ⟨t, h1, x, y, ⟨ls, fw, ⟨p, h2, h3⟩, rfl, rfl⟩, -, h4⟩ := (pairs_iff h).1 hp
  have : k = sec ∧ t = monoSec' := by simpa using h1
  obtain ⟨rfl, rfl⟩ := this
  have : p = 2 ∧ fw = 0 := by simpa [Final, monoSec'] using h3
  obtain ⟨rfl, rfl⟩ := this
  cases h2 with
  | @cons _ p1 _ l1 ls1 e1 t1 =>
    rcases mono'_edge e1 with ⟨-, rfl, f1⟩ | ⟨h, -⟩
    · cases t1 with
      | @cons _ p2 _ l2 ls2 e2 t2 =>
        rcases mono'_edge e2 with ⟨h, -⟩ | ⟨-, rfl, f2⟩
        · omega
        · cases t2 with
          | nil =>
            rw [List.map_cons, List.map_cons, List.map_nil, f1, f2] at h4
            simp only [ne_eq, decide_not, List.filter_cons, List.filter_nil] at h4
            norm_num at h4
            cases h4 with
            | cons g1 g2 =>
              cases g2 with
              | cons g2 g3 =>
                cases g3
                rw [named_letter (by norm_num) g1, named_tagN (by decide) g2]
          | cons e3 _ =>
            rcases mono'_edge e3 with ⟨h, -⟩ | ⟨h, -⟩ <;> omega
    · cases h

theorem mono'_has {bs : List UInt8} (h : Dictionary bs [0x61, 0x62] monoAlpha [(sec, monoSec')]) : Pairs bs sec [.letter 0x62] [.letter 0x62, .tag tagN] := by
  refine (pairs_iff h).2 ⟨monoSec', by simp, [0x62], [0x62, -1], ⟨[((0x62, 0x62), 0), ((0, -1), 0)], 0, ⟨2, ?_, by simp [Final, monoSec']⟩, by decide, by decide⟩, ?_, ?_⟩
  · refine Path.cons (r := 1) ⟨4, by decide, (edge_iff_arcs (by decide) _ _ _).2 ?_⟩ (Path.cons (r := 2) ⟨2, by decide, (edge_iff_arcs (by decide) _ _ _).2 ?_⟩ (.nil 2))
    all_goals simp [arcsOf, monoSec']
  · exact .cons (.inl ⟨by decide, rfl⟩) .nil
  · exact .cons (.inl ⟨by decide, rfl⟩) (.cons (.inr ⟨by decide, tagN, by decide, rfl⟩) .nil)

/-! ## The hypotheses are met -/

/-- All weights are forgotten. -/
def noWeight (_ : Dbl) : Nat := 0

theorem plain_mono {t : Transducer Dbl} : Product.Plain monoAlpha t := by
  rintro q x y w r ⟨c, h, -⟩
  obtain ⟨i, h2, -⟩ := decode_iff.1 h
  have hm := List.mem_of_getElem? h2
  rw [monoAlpha_pairs] at hm
  have hy : y = 0 ∨ y = 0x61 ∨ y = -1 ∨ y = -2 ∨ y = 0x62 := by
    have := by simpa using hm
    omega
  refine ⟨by omega, by omega, fun s hs hn => ?_⟩
  have : s = tagN ∨ s = tagS := by
    obtain ⟨j, hj, -⟩ : HasTag monoAlpha y s := by
      rcases hn with ⟨-, h⟩ | ⟨h1, s', h2, h3⟩
      · cases h
      · cases h3; exact (tagText_iff h1).1 h2
    have := List.mem_of_getElem? hj
    rw [monoAlpha_tags] at this
    simpa using this
  rcases this with rfl | rfl <;> exact absurd hs (by decide)

theorem any_mono : ∀ p ∈ monoAlpha.spairinv, ¬ Named monoAlpha p.2 (.tag anyChar) := by
  intro p hp hn
  obtain ⟨j, hj, -⟩ : HasTag monoAlpha p.2 anyChar := by
    rcases hn with ⟨-, h⟩ | ⟨h1, s', h2, h3⟩
    · cases h
    · cases h3; exact (tagText_iff h1).1 h2
  have := List.mem_of_getElem? hj
  rw [monoAlpha_tags] at this
  revert this
  decide

theorem bi_reached : ∀ p w, Final biSec p w → ∃ ls, Path (Edge biSec) biSec.initial ls p := by
  intro p w hf
  have := bi_final hf
  subst this
  refine ⟨[(1, 0), (2, 0)], Path.cons (r := 1) ((edge_iff_arcs (by decide) _ _ _).2 ?_) (.cons ((edge_iff_arcs (by decide) _ _ _).2 ?_) (.nil 2))⟩
  all_goals simp [arcsOf, biSec]

theorem bi_live : ∀ ls p, Path (Edge biSec) biSec.initial ls p → ∃ ms f w, Path (Edge biSec) p ms f ∧ Final biSec f w := by
  have e0 : Edge biSec 0 (1, 0) 1 := (edge_iff_arcs (by decide) _ _ _).2 (by simp [arcsOf, biSec])
  have e1 : Edge biSec 1 (2, 0) 2 := (edge_iff_arcs (by decide) _ _ _).2 (by simp [arcsOf, biSec])
  have f : Final biSec 2 0 := by simp [Final, biSec]
  have key : ∀ {q p : Nat} {ls : List (Int × Dbl)}, Path (Edge biSec) q ls p → q ≤ 2 → p ≤ 2 := by
    intro q p ls h
    induction h with
    | nil => exact id
    | cons he _ ih =>
      intro _
      refine ih ?_
      rw [edge_iff_arcs (by decide)] at he
      have := by simpa [arcsOf, biSec] using he
      omega
  intro ls p hp
  have hle := key hp (by decide)
  have : p = 0 ∨ p = 1 ∨ p = 2 := by omega
  rcases this with rfl | rfl | rfl
  · exact ⟨_, 2, 0, .cons e0 (.cons e1 (.nil 2)), f⟩
  · exact ⟨_, 2, 0, .cons e1 (.nil 2), f⟩
  · exact ⟨_, 2, 0, .nil 2, f⟩

theorem plainly_with {t : Transducer Dbl} {mono bi : List UInt8} {L : List UInt32} {a : Alphabet} (hm : Dictionary mono L a [(sec, t)])
    (hb : Dictionary bi [0x61] biAlpha [(sec, biSec)]) (hj : Product.Joining a t) (hany : ∀ p ∈ a.spairinv, ¬ Named a p.2 (.tag anyChar))
    (hs : ∃ X Y, Pairs mono sec X Y) (names : List UString) (hn : [] ∉ names) : Plainly noWeight names mono bi L [0x61] a biAlpha [(sec, t)] [(sec, biSec)] := by
  refine ⟨hm, hb, hn, fun _ _ _ _ _ => rfl, fun _ _ _ _ _ => rfl, ?_, ?_, (by simpa using hj), hany, ?_, ?_, ?_, ?_, ?_⟩
  · intro k hk
    have : k = sec := by simpa using (Tools.has_iff hm.stored k).1 hk
    subst this
    exact hs
  · intro k hk
    have : k = sec := by simpa using (Tools.has_iff hb.stored k).1 hk
    subst this
    exact ⟨_, _, bi_has hb⟩
  · intro e he q x y w p h
    have : e = (sec, biSec) := by simpa using he
    subst this
    rcases bi_edge h with ⟨-, -, h⟩ | ⟨-, -, h⟩ <;> cases h <;> decide
  · intro e he q l h
    have : e = (sec, biSec) := by simpa using he
    subst this
    rw [edge_iff_arcs (by decide)] at h
    simp [arcsOf, biSec] at h
  · intro e he _
    have : e = (sec, biSec) := by simpa using he
    subst this
    exact bi_reached
  · intro e he _
    have : e = (sec, biSec) := by simpa using he
    subst this
    exact bi_live
  · intro k k' X1 X2 Y1 Y2 _ h1 h2 n hn
    obtain ⟨-, e1⟩ := bi_pairs hb h1
    obtain ⟨-, e2⟩ := bi_pairs hb h2
    rw [e1] at e2
    have := congrArg List.length e2
    simp at this
    subst this
    cases hn

theorem plainly_of {t : Transducer Dbl} {mono bi : List UInt8} (hm : Dictionary mono [0x61, 0x62] monoAlpha [(sec, t)]) (hb : Dictionary bi [0x61] biAlpha [(sec, biSec)])
    (hs : ∃ X Y, Pairs mono sec X Y) (names : List UString) (hn : [] ∉ names) : Plainly noWeight names mono bi [0x61, 0x62] [0x61] monoAlpha biAlpha [(sec, t)] [(sec, biSec)] :=
  plainly_with hm hb plain_mono.joining any_mono hs names hn

theorem kept_demo : ∀ w : Nat, Kept ((fun _ : Nat => (0 : Dbl)) w) := fun _ => kept_zero

/-- Is the result small enough? -/
def fitsCheck {W : Type} (r : Res (List (UString × Transducer W))) : Bool :=
  match r with
  | .ok rs => rs.all fun e => decide (Fst.size e.2 < 2 ^ 30) && e.2.transitions.all fun x => decide (x.2.length < 2 ^ 30)
  | _ => true

theorem fits_of_check {W : Type} {r : Res (List (UString × Transducer W))} (h : fitsCheck r = true) : Fits r := by
  rintro rs rfl e he
  have := List.all_eq_true.1 h e he
  rw [Bool.and_eq_true, decide_eq_true_eq, List.all_eq_true] at this
  exact ⟨this.1, fun x hx => by simpa using this.2 x hx⟩

-- `a:a<n><s>` is kept, for the bilingual dictionary has `a<n>`; `b:b<n>` is not
example : ∃ mono bi, Plainly noWeight [] mono bi [0x61, 0x62] [0x61] monoAlpha biAlpha [(sec, monoSec)] [(sec, biSec)] ∧
    Fits (trimSets [] monoAlpha (storedAll noWeight [(sec, monoSec)]) biAlpha (storedAll noWeight [(sec, biSec)])) ∧
    Pairs mono sec [.letter 0x61] [.letter 0x61, .tag tagN, .tag tagS] ∧ JoinCovered [] bi sec [.letter 0x61, .tag tagN, .tag tagS] ∧
    Pairs mono sec [.letter 0x62] [.letter 0x62, .tag tagN] ∧ ¬ JoinCovered [] bi sec [.letter 0x62, .tag tagN] := by
  obtain ⟨mono, hm⟩ := monoFile
  obtain ⟨bi, hb⟩ := biFile
  refine ⟨mono, bi, plainly_of hm hb ⟨_, _, mono_has hm⟩ [] (by simp), fits_of_check (by decide +kernel), mono_has hm, ?_, mono_has_b hm, ?_⟩
  · rw [C83_plain (by decide) (by decide)]
    exact ⟨[.letter 0x61, .tag tagN], [.tag tagS], _, _, sec, rfl, by simp, .inr ⟨by simp, by simp⟩, .cons (.inl rfl) (.cons (.inl rfl) .nil), bi_has hb⟩
  · rw [C83_plain (by decide) (by decide)]
    rintro ⟨Y1, Y2, X, Z, k', e, h1, -, h2, h3⟩
    obtain ⟨-, rfl⟩ := bi_pairs hb h3
    cases h2 with
    | cons g1 g2 =>
      rw [List.cons_append] at e
      have e := (List.cons.inj e).1
      subst e
      rcases g1 with g | ⟨g, -⟩ | ⟨g, -⟩ | ⟨g, -⟩ | ⟨g, -⟩ <;> simp at g

-- with the other analyser nothing is left
example : ∃ mono bi, Plainly noWeight [sec] mono bi [0x61, 0x62] [0x61] monoAlpha biAlpha [(sec, monoSec')] [(sec, biSec)] ∧
    ∀ k X Y, Pairs mono k X Y → ¬ JoinCovered [sec] bi k Y := by
  obtain ⟨mono, hm⟩ := monoFile'
  obtain ⟨bi, hb⟩ := biFile
  refine ⟨mono, bi, plainly_of hm hb ⟨_, _, mono'_has hm⟩ [sec] (by decide), ?_⟩
  intro k X Y hp
  have := mono'_pairs hm hp
  subst this
  rw [C83_plain (by decide) (by decide)]
  rintro ⟨Y1, Y2, X', Z, k', e, h1, -, h2, h3⟩
  obtain ⟨-, rfl⟩ := bi_pairs hb h3
  cases h2 with
  | cons g1 g2 =>
    rw [List.cons_append] at e
    have e := (List.cons.inj e).1
    subst e
    rcases g1 with g | ⟨g, -⟩ | ⟨g, -⟩ | ⟨g, -⟩ | ⟨g, -⟩ <;> simp at g

end Verif.Trim
