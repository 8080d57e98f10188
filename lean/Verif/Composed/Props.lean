import Verif.Composed.Sections

/-! # C84: `lt-compose` makes the composition of two compiled dictionaries -/

namespace Verif.Composed

open Verif.Fst Verif.Alphabet Verif.Compiler
open Verif.Compression (Dbl)
open Verif.Chain (stored storedAll edge_stored final_stored wf_stored)
open Verif.Tools (Dictionary Has Kept)
open Verif.Unified (Pairs)
open Verif.Trim (NMaps NameMeets Piece pairs_iff nmaps_stored piece_stored mem_storedAll storedAll_mem storedAll_names spelled_named)

variable {W : Type} [AddCommMonoid W] [LinearOrder W] {v : Dbl → W} {first second : List UInt8} {La Lb : List UInt32} {a b : Alphabet}
  {ts us : List (UString × Transducer Dbl)}

theorem Joinable.run (h : Joinable v first second La Lb a b ts us) (inverted anywhere : Bool) (hc : anywhere = true → Closed second) :
    ∃ a' rs, composeSets inverted anywhere a (storedAll v ts) b (storedAll v us) = .ok (a', rs) ∧ Ext a a' ∧ Tools.Sane a' ∧ a'.slexicinv = a.slexicinv ∧
      (rs.map (·.1)).Sublist (ts.map (·.1)) ∧
      (∀ e ∈ rs, Piece a' e.2 ∧ ∀ X Z, NDir inverted a' e.2 X Z → Through inverted anywhere first second e.1 X Z) ∧
      ∀ k X Y Z, Reads inverted first k X Y → (X ≠ [] ∨ Y ≠ []) → Made anywhere second Y Z → ∃ r, (k, r) ∈ rs ∧ NDir inverted a' r X Z := by
  have hp1 := piece_stored h.one v h.zeroOne h.someOne
  have hp2 := piece_stored h.two v h.zeroTwo h.someTwo
  obtain ⟨u, u', h1, h2, h3, h4, h5⟩ := union_spec (a := a) h.two.sane.ok (storedAll v us) (by
    intro e he
    obtain ⟨t, k1, k2⟩ := mem_storedAll he
    rw [k2]
    refine ⟨hp2 _ k1, ?_, ?_⟩
    · intro q l hl
      obtain ⟨w, hw, -⟩ := (edge_stored v t _ _ _).1 hl
      exact h.noReturn _ k1 _ _ hw
    · rintro q x z w r s ⟨c, m1, m2⟩ hn
      obtain ⟨w', m2, -⟩ := (edge_stored v t _ _ _).1 m2
      exact h.shared _ k1 q x z w' r s ⟨c, m1, m2⟩ hn)
  have h5 : ∀ X Y, NMaps b u' X Y ↔ ∃ k, Pairs second k X Y := by
    intro X Y
    rw [h5]
    simp only [pairs_iff h.two]
    constructor
    · rintro ⟨e, he, hm⟩
      obtain ⟨t, k1, k2⟩ := mem_storedAll he
      rw [k2, nmaps_stored] at hm
      exact ⟨e.1, t, k1, hm⟩
    · rintro ⟨k, t, k1, k2⟩
      exact ⟨_, storedAll_mem v k1, (nmaps_stored v).2 k2⟩
  have hW : ∀ Y Z, Whole b u' Y Z ↔ Into second Y Z := by
    intro Y Z
    unfold Whole Into
    simp only [h5]
    constructor
    · rintro ⟨Y', m1, k, m2⟩; exact ⟨Y', k, m1, m2⟩
    · rintro ⟨Y', k, m1, m2⟩; exact ⟨Y', m1, k, m2⟩
  obtain ⟨a', rs, g1, g2, g3, g4, g5, g6, g7⟩ := composeSections_spec (b := b) (u := u') h.one.sane inverted anywhere (Made anywhere second) (by
    intro a1 t he hs1 hP
    cases anywhere
    · have := compose_section hs1 h.two.sane hP h3 (h4.ext he) inverted
      unfold Makes at this ⊢
      simp only [hW] at this
      exact this
    · have hl : NoLoops b u' := by
        intro U V hUV
        refine hc rfl U V fun k Y Z hp => ?_
        exact (h5 _ _).1 (hUV Y Z ((h5 _ _).2 ⟨k, hp⟩))
      have := compose_anywhere hs1 h.two.sane hP h3 (h4.ext he) hl inverted
      unfold Makes Ends at this
      unfold Makes Made
      simp only [hW] at this
      exact this) (storedAll v ts) (by
    intro e he
    obtain ⟨t, k1, k2⟩ := mem_storedAll he
    rw [k2]; exact hp1 _ k1) a (.refl a) h.one.sane
  have hN : ∀ (t : Transducer Dbl) X Y, NDir inverted a (stored v t) X Y ↔ if inverted then NMaps a t Y X else NMaps a t X Y := by
    intro t X Y
    unfold NDir
    simp only [nmaps_stored]
  have hR : ∀ k X Y, Reads inverted first k X Y ↔ ∃ t, (k, t) ∈ ts ∧ NDir inverted a (stored v t) X Y := by
    intro k X Y
    simp only [hN]
    unfold Reads
    cases inverted
    · exact pairs_iff h.one
    · exact pairs_iff h.one
  refine ⟨a', rs, ?_, g2, g3, g4, by rwa [storedAll_names] at g5, ?_, ?_⟩
  · unfold composeSets
    rw [h1]
    simp only [Res.bind_ok]
    rw [h2]
    exact g1
  · intro e he
    obtain ⟨t, k1, k2, -, k3⟩ := g6 e he
    refine ⟨k2, fun X Z hm => ?_⟩
    obtain ⟨Y, m1, m2⟩ := (k3 X Z).1 hm
    obtain ⟨t', j1, rfl⟩ := mem_storedAll k1
    exact ⟨Y, (hR _ _ _).2 ⟨t', j1, m1⟩, m2⟩
  · intro k X Y Z m1 hne m2
    obtain ⟨t, j1, m1⟩ := (hR _ _ _).1 m1
    refine g7 _ (storedAll_mem v j1) ?_ X Z ⟨Y, m1, m2⟩
    intro h0
    obtain ⟨rfl, rfl⟩ := no_arcs_names h0 m1
    simp at hne

theorem Joinable.read (h : Joinable v first second La Lb a b ts us) (inverted anywhere : Bool) (g : W → Dbl) {a' : Alphabet} {rs : List (UString × Transducer W)}
    (hr : composeSets inverted anywhere a (storedAll v ts) b (storedAll v us) = .ok (a', rs)) :
    ltCompose v g inverted anywhere first second = if rs.isEmpty then .exit else BinIO.writeSetL La a' (storedAll g rs) := by
  obtain ⟨r1, h1⟩ := h.one.stored
  obtain ⟨r2, h2⟩ := h.two.stored
  unfold ltCompose
  rw [h1]
  simp only [Res.bind_ok]
  rw [h2]
  simp only [Res.bind_ok]
  rw [hr]
  simp only [Res.bind_ok]

/-- **C84** From two dictionaries, of which the first knows the tags that the second writes, `lt-compose` makes a dictionary. Each of its
sections relates `X` to `Z` only if the section of that name in the first file relates `X` to some `Y` and some section of the second file
relates the same symbols (or marks for them) to `Z`; and it has all these pairs, except that the pair of two empty strings of the first
file may be lost. With `-i` the first file is read from right to left. With `-a` it is enough that the second file reads an end of `Y`, before
which everything stays as it is, or nothing of it; then the second file is asked to be closed (`Closed`). The letters and the tags are those
of the first file.
Missing for the full statement: the weights, and second files which are not closed for `-a`. -/
theorem C84_compose_partial (g : W → Dbl) (hg : ∀ w, Kept (g w)) (h : Joinable v first second La Lb a b ts us) (inverted anywhere : Bool)
    (hc : anywhere = true → Closed second) (hf : Fits (composeSets inverted anywhere a (storedAll v ts) b (storedAll v us)))
    (hs : ∃ k X Y Z, Reads inverted first k X Y ∧ (X ≠ [] ∨ Y ≠ []) ∧ Made anywhere second Y Z) :
    ∃ bs a' rs, ltCompose v g inverted anywhere first second = .ok bs ∧ Dictionary bs La a' rs ∧ a'.slexicinv = a.slexicinv ∧
      (∀ k X Z, Reads inverted bs k X Z → Through inverted anywhere first second k X Z) ∧
      ∀ k X Y Z, Reads inverted first k X Y → (X ≠ [] ∨ Y ≠ []) → Made anywhere second Y Z → Reads inverted bs k X Z := by
  obtain ⟨a', rs, h1, he, hsane, htags, h2, h3, h4⟩ := h.run inverted anywhere hc
  have hne : rs.isEmpty = false := by
    obtain ⟨k, X, Y, Z, k1, k2, k3⟩ := hs
    obtain ⟨r, k4, -⟩ := h4 k X Y Z k1 k2 k3
    cases rs with
    | nil => cases k4
    | cons => rfl
  have hsort : (storedAll g rs).Pairwise (fun x y => x.1 < y.1) := by
    have : (ts.map (·.1)).Pairwise (· < ·) := by rw [List.pairwise_map]; exact h.one.sorted
    have := this.sublist h2
    rw [List.pairwise_map] at this
    unfold storedAll
    rw [List.pairwise_map]
    exact this
  obtain ⟨hf1, hf2⟩ := hf a' rs h1
  obtain ⟨bs, g1, g2⟩ := Tools.written (L := La) (a := a') (ts := storedAll g rs) h.one.letters hsane hsort
    (by
      intro e he
      obtain ⟨t, k1, -⟩ := mem_storedAll he
      have : e.1 ∈ rs.map (·.1) := List.mem_map.2 ⟨_, k1, rfl⟩
      obtain ⟨e', k2, k3⟩ := List.mem_map.1 (h2.subset this)
      rw [← k3]
      exact h.one.names _ k2)
    (by
      intro e he
      obtain ⟨t, k1, k2⟩ := mem_storedAll he
      rw [k2]
      obtain ⟨m1, m2⟩ := hf2 _ k1
      have hP := (h3 _ k1).1
      have hcd := Trim.coded_known hP.known
      refine ⟨wf_stored g hP.wf, ?_, ?_, ?_, ?_, ?_⟩
      · intro q l p hl
        obtain ⟨w, hw, -⟩ := (edge_stored g t _ _ _).1 hl
        exact hcd _ _ _ hw
      · have : Fst.size (stored g t) = Fst.size t := by unfold Fst.size stored; simp
        rw [this]; exact m1
      · intro x hx
        unfold stored at hx
        obtain ⟨x', j1, rfl⟩ := List.mem_map.1 hx
        simpa using m2 x' j1
      · intro q l p hl
        obtain ⟨w, -, hw⟩ := (edge_stored g t _ _ _).1 hl
        rw [hw]; exact hg w
      · intro q w hl
        obtain ⟨u, -, rfl⟩ := (final_stored g t _ _).1 hl
        exact hg u) (by rw [htags]; exact h.one.ntags) hf1
    (by
      have := h2.length_le
      unfold storedAll
      rw [List.length_map] at this ⊢
      rw [List.length_map] at this
      exact lt_of_le_of_lt this h.one.nsections)
  have hR : ∀ k X Z, Reads inverted bs k X Z ↔ ∃ r, (k, r) ∈ rs ∧ NDir inverted a' r X Z := by
    have : ∀ k X Z, Pairs bs k X Z ↔ ∃ r, (k, r) ∈ rs ∧ NMaps a' r X Z := by
      intro k X Z
      rw [pairs_iff g2]
      constructor
      · rintro ⟨t, k1, k2⟩
        obtain ⟨t', k3, k4⟩ := mem_storedAll k1
        simp only at k4 k3
        subst k4
        exact ⟨t', k3, (nmaps_stored g).1 k2⟩
      · rintro ⟨r, k3, k4⟩
        exact ⟨_, storedAll_mem g k3, (nmaps_stored g).2 k4⟩
    intro k X Z
    unfold Reads NDir
    cases inverted
    · exact this k X Z
    · exact this k Z X
  refine ⟨bs, a', _, ?_, g2, htags, ?_, ?_⟩
  · rw [h.read inverted anywhere g h1, hne]; exact g1
  · intro k X Z hm
    obtain ⟨r, k1, k2⟩ := (hR _ _ _).1 hm
    exact (h3 _ k1).2 X Z k2
  · intro k X Y Z m1 m2 m3
    exact (hR _ _ _).2 (h4 k X Y Z m1 m2 m3)

/-- **C84** If nothing that the first file writes is read by the second, `lt-compose` ends without writing a file. -/
theorem C84_nothing_left (g : W → Dbl) (h : Joinable v first second La Lb a b ts us) (inverted : Bool)
    (hs : ∀ k X Z, ¬ Through inverted false first second k X Z) : ltCompose v g inverted false first second = .exit := by
  obtain ⟨a', rs, h1, -, hsane, -, h2, h3, h4⟩ := h.run inverted false (by simp)
  have hne : rs.isEmpty = true := by
    cases rs with
    | nil => rfl
    | cons e rs =>
      obtain ⟨k1, k2⟩ := h3 e (List.mem_cons_self ..)
      exfalso
      obtain ⟨cs, p, fw, m1, m2⟩ := k1.acc
      have hm : ∃ x y, Trim.Spelled a' e.2 x y := by
        have : ∀ {q p : Nat} {cs : List (Int × W)}, Path (Edge e.2) q cs p → ∃ ls, Path (PairEdge a' e.2) q ls p := by
          intro q p cs hp
          induction hp with
          | nil q => exact ⟨[], .nil q⟩
          | cons he _ ih =>
            obtain ⟨ls, ih⟩ := ih
            obtain ⟨pr, hpr⟩ := k1.known _ _ _ he
            exact ⟨(pr, _) :: ls, .cons ⟨_, decode_iff.2 hpr, he⟩ ih⟩
        obtain ⟨ls, hl⟩ := this m1
        exact ⟨_, _, ls, fw, ⟨p, hl, m2⟩, rfl, rfl⟩
      obtain ⟨x, y, hxy⟩ := hm
      obtain ⟨X, Y, j1, j2⟩ := spelled_named (sane_tags hsane e.2) hxy
      have hN : NMaps a' e.2 X Y := ⟨x, y, hxy, j1, j2⟩
      cases inverted
      · exact hs _ _ _ (k2 X Y hN)
      · exact hs _ _ _ (k2 Y X hN)
  rw [h.read inverted false g h1, hne]; rfl

end Verif.Composed
