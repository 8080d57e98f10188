import Verif.Trim.File

/-! # C83: `lt-trim` keeps the analyses that the bilingual dictionary has -/

namespace Verif.Trim

open Verif.Fst Verif.Alphabet Verif.Compiler
open Verif.Compression (Dbl)
open Verif.Chain (stored storedAll edge_stored final_stored wf_stored)
open Verif.Tools (Dictionary Has Kept)
open Verif.Unified (Pairs)

variable {W : Type} [AddCommMonoid W] [LinearOrder W] {v : Dbl → W} {names : List UString} {mono bi : List UInt8} {La Lb : List UInt32} {a b : Alphabet}
  {ts us : List (UString × Transducer Dbl)}

theorem Plainly.read (h : Plainly v names mono bi La Lb a b ts us) (g : W → Dbl) {rs : List (UString × Transducer W)}
    (hr : trimSets names a (storedAll v ts) b (storedAll v us) = .ok rs) :
    ltTrim v g names mono bi = if rs.isEmpty then .exit else BinIO.writeSetL La a (storedAll g rs) := by
  obtain ⟨r1, h1⟩ := h.analyser.stored
  obtain ⟨r2, h2⟩ := h.bilingual.stored
  unfold ltTrim
  rw [h1]
  simp only [Res.bind_ok]
  rw [h2]
  simp only [Res.bind_ok]
  rw [hr]
  simp only [Res.bind_ok]

/-- **C83** From an analyser and a bilingual dictionary without queues and groups `lt-trim` makes the analyser of the pairs, other than
that of two empty strings, whose analysis is covered: the bilingual dictionary has what comes after the last join, where that may
leave out tags at the end, and begins with what comes before each join; the marks of the parts of compounds do not matter.
With `-s` only the section of the same name counts. The letters and the alphabet stay the same.
Missing for the full statement: queues (`#`) and groups. -/
theorem C83_trim_partial (g : W → Dbl) (hg : ∀ w, Kept (g w)) (h : Plainly v names mono bi La Lb a b ts us)
    (hf : Fits (trimSets names a (storedAll v ts) b (storedAll v us))) (hs : ∃ k X Y, (X ≠ [] ∨ Y ≠ []) ∧ Pairs mono k X Y ∧ JoinCovered names bi k Y) :
    ∃ bs rs, ltTrim v g names mono bi = .ok bs ∧ Dictionary bs La a rs ∧
      ∀ k X Y, (X ≠ [] ∨ Y ≠ []) → (Pairs bs k X Y ↔ Pairs mono k X Y ∧ JoinCovered names bi k Y) := by
  obtain ⟨rs, h1, h2, h3, h4⟩ := h.run
  have hne : rs.isEmpty = false := by
    obtain ⟨k, X, Y, k1, k2, k3⟩ := hs
    obtain ⟨r, k4, -⟩ := h4 k X Y k1 k2 k3
    cases rs with
    | nil => cases k4
    | cons => rfl
  have hsort : (storedAll g rs).Pairwise (fun x y => x.1 < y.1) := by
    have : (ts.map (·.1)).Pairwise (· < ·) := by rw [List.pairwise_map]; exact h.analyser.sorted
    have := this.sublist h2
    rw [List.pairwise_map] at this
    unfold storedAll
    rw [List.pairwise_map]
    exact this
  obtain ⟨bs, g1, g2⟩ := Tools.written (L := La) (a := a) (ts := storedAll g rs) h.analyser.letters h.analyser.sane hsort
    (by
      intro e he
      obtain ⟨t, k1, -⟩ := mem_storedAll he
      have : e.1 ∈ rs.map (·.1) := List.mem_map.2 ⟨_, k1, rfl⟩
      obtain ⟨e', k2, k3⟩ := List.mem_map.1 (h2.subset this)
      rw [← k3]
      exact h.analyser.names _ k2)
    (by
      intro e he
      obtain ⟨t, k1, k2⟩ := mem_storedAll he
      rw [k2]
      obtain ⟨m1, m2⟩ := hf rs h1 _ k1
      have hP := (h3 _ k1).1
      have hcd := coded_known hP.known
      refine ⟨wf_stored g hP.wf, ?_, ?_, ?_, ?_, ?_⟩
      · intro q l p hl
        obtain ⟨w, hw, -⟩ := (edge_stored g t _ _ _).1 hl
        exact hcd _ _ _ hw
      · have : Fst.size (stored g t) = Fst.size t := by unfold Fst.size stored; simp
        rw [this]; exact m1
      · intro x hx
        unfold stored at hx
        obtain ⟨x', j1, rfl⟩ := List.mem_map.1 hx
        simpa using m2 x' j1
      · intro q l p hl
        obtain ⟨w, -, hw⟩ := (edge_stored g t _ _ _).1 hl
        rw [hw]; exact hg w
      · intro q w hl
        obtain ⟨u, -, rfl⟩ := (final_stored g t _ _).1 hl
        exact hg u) h.analyser.ntags h.analyser.npairs
    (by
      have := h2.length_le
      unfold storedAll
      rw [List.length_map] at this ⊢
      rw [List.length_map] at this
      exact lt_of_le_of_lt this h.analyser.nsections)
  refine ⟨bs, _, ?_, g2, ?_⟩
  · rw [h.read g h1, hne]; exact g1
  · intro k X Y hXY
    rw [pairs_iff g2]
    constructor
    · rintro ⟨t, k1, k2⟩
      obtain ⟨t', k3, k4⟩ := mem_storedAll k1
      simp only at k4 k3
      subst k4
      rw [nmaps_stored] at k2
      exact ((h3 _ k3).2 X Y).1 k2
    · rintro ⟨k1, k2⟩
      obtain ⟨r, k3, k4⟩ := h4 k X Y hXY k1 k2
      exact ⟨_, storedAll_mem g k3, (nmaps_stored g).2 k4⟩

/-- **C83** Without joins and marks of compounds the bilingual dictionary has to have the analysis itself. -/
theorem C83_plain {k : UString} {Y : List Name} (hj : Name.letter 0x2b ∉ Y) (hc : ∀ n ∈ Y, n ∉ Product.compoundTags.map Name.tag) :
    JoinCovered names bi k Y ↔ Covered names bi k Y := by
  have hu : unmarked Y = Y := List.filter_eq_self.2 fun n hn => by simpa using hc n hn
  constructor
  · rintro ⟨parts, last, e, -, h⟩
    cases parts with
    | nil =>
      have e : Y = last := by simpa using e
      rwa [← e, hu] at h
    | cons p parts => exact absurd (by rw [e]; simp) hj
  · intro h
    exact ⟨[], Y, by simp, by simp, by rwa [hu]⟩

/-- **C83** If the bilingual dictionary has none of the analyses, `lt-trim` ends without writing a file. -/
theorem C83_nothing_left (g : W → Dbl) (h : Plainly v names mono bi La Lb a b ts us) (hs : ∀ k X Y, Pairs mono k X Y → ¬ JoinCovered names bi k Y) :
    ltTrim v g names mono bi = .exit := by
  obtain ⟨rs, h1, h2, h3, h4⟩ := h.run
  have hne : rs.isEmpty = true := by
    cases rs with
    | nil => rfl
    | cons e rs =>
      obtain ⟨k1, k2⟩ := h3 e (List.mem_cons_self ..)
      exfalso
      obtain ⟨cs, p, fw, m1, m2⟩ := k1.acc
      have hm : ∃ x y, Spelled a e.2 x y := by
        have : ∀ {q p : Nat} {cs : List (Int × W)}, Path (Edge e.2) q cs p → ∃ ls, Path (PairEdge a e.2) q ls p := by
          intro q p cs hp
          induction hp with
          | nil q => exact ⟨[], .nil q⟩
          | cons he _ ih =>
            obtain ⟨ls, ih⟩ := ih
            obtain ⟨pr, hpr⟩ := k1.known _ _ _ he
            exact ⟨(pr, _) :: ls, .cons ⟨_, decode_iff.2 hpr, he⟩ ih⟩
        obtain ⟨ls, hl⟩ := this m1
        exact ⟨_, _, ls, fw, ⟨p, hl, m2⟩, rfl, rfl⟩
      obtain ⟨x, y, hxy⟩ := hm
      obtain ⟨X, Y, j1, j2⟩ := spelled_named (dictionary_tags h.analyser e.2) hxy
      obtain ⟨q1, q2⟩ := (k2 X Y).1 ⟨x, y, hxy, j1, j2⟩
      exact hs _ _ _ q1 q2
  rw [h.read g h1, hne]; rfl

end Verif.Trim
