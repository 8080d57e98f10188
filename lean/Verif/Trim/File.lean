import Verif.Trim.Whole

/-! # The files of `lt-trim` -/

namespace Verif.Trim

open Verif.Fst Verif.Alphabet Verif.Compiler
open Verif.Compression (Dbl)
open Verif.Chain (stored storedAll edge_stored final_stored wf_stored)
open Verif.Tools (Dictionary Has)
open Verif.Unified (Pairs)

set_option linter.unusedSectionVars false

variable {W D : Type} {a b : Alphabet}

theorem nmaps_stored (g : W → D) {t : Transducer W} {X Y : List Name} : NMaps a (stored g t) X Y ↔ NMaps a t X Y := by
  unfold NMaps
  simp only [spelled_stored]

theorem reached_stored (g : W → D) {t : Transducer W} (h : ∀ p w, Final t p w → ∃ ls, Path (Edge t) t.initial ls p) : Reached (stored g t) := by
  intro p w hf
  obtain ⟨v, hv, -⟩ := (final_stored g t _ _).1 hf
  obtain ⟨ls, hp⟩ := h p v hv
  have : ∀ {q p : Nat} {ls : List (Int × W)}, Path (Edge t) q ls p → Path (Edge (stored g t)) q (ls.map fun l => (l.1, g l.2)) p := by
    intro q p ls h
    induction h with
    | nil q => exact .nil q
    | cons he _ ih => exact .cons ((edge_stored g t _ _ _).2 ⟨_, he, rfl⟩) ih
  exact ⟨_, this hp⟩

theorem live_stored (g : W → D) {t : Transducer W}
    (h : ∀ ls p, Path (Edge t) t.initial ls p → ∃ ms f w, Path (Edge t) p ms f ∧ Final t f w) : Live (stored g t) := by
  have up : ∀ {q p : Nat} {ls : List (Int × W)}, Path (Edge t) q ls p → Path (Edge (stored g t)) q (ls.map fun l => (l.1, g l.2)) p := by
    intro q p ls h
    induction h with
    | nil q => exact .nil q
    | cons he _ ih => exact .cons ((edge_stored g t _ _ _).2 ⟨_, he, rfl⟩) ih
  have down : ∀ {q p : Nat} {ls : List (Int × D)}, Path (Edge (stored g t)) q ls p → ∃ ms, Path (Edge t) q ms p := by
    intro q p ls h
    induction h with
    | nil q => exact ⟨[], .nil q⟩
    | cons he _ ih =>
      obtain ⟨w, he, -⟩ := (edge_stored g t _ _ _).1 he
      obtain ⟨ms, ih⟩ := ih
      exact ⟨_, .cons he ih⟩
  intro ls p hp
  obtain ⟨ms, hp⟩ := down hp
  obtain ⟨ns, f, w, h1, h2⟩ := h _ _ hp
  exact ⟨_, f, g w, up h1, (final_stored g t _ _).2 ⟨w, h2, rfl⟩⟩

theorem acc_nmaps [AddCommMonoid W] {t : Transducer W} {X Y : List Name} (h : NMaps a t X Y) : ∃ ls, Acc t t.initial ls := by
  obtain ⟨x, y, ⟨ls, fw, ⟨p, h1, h2⟩, -⟩, -⟩ := h
  have : ∀ {q p : Nat} {ls : List (Pair × W)}, Path (PairEdge a t) q ls p → ∃ cs, Path (Edge t) q cs p := by
    intro q p ls h
    induction h with
    | nil q => exact ⟨[], .nil q⟩
    | cons he _ ih =>
      obtain ⟨c, -, he⟩ := he
      obtain ⟨cs, ih⟩ := ih
      exact ⟨_, .cons he ih⟩
  obtain ⟨cs, hc⟩ := this h1
  exact ⟨cs, p, fw, hc, h2⟩

theorem mem_storedAll {g : W → D} {ts : List (UString × Transducer W)} {e : UString × Transducer D} (h : e ∈ storedAll g ts) :
    ∃ t, (e.1, t) ∈ ts ∧ e.2 = stored g t := by
  unfold storedAll at h
  obtain ⟨⟨k, t⟩, h1, rfl⟩ := List.mem_map.1 h
  exact ⟨t, h1, rfl⟩

theorem storedAll_mem (g : W → D) {ts : List (UString × Transducer W)} {k : UString} {t : Transducer W} (h : (k, t) ∈ ts) : (k, stored g t) ∈ storedAll g ts :=
  List.mem_map.2 ⟨_, h, rfl⟩

theorem storedAll_names (g : W → D) (ts : List (UString × Transducer W)) : (storedAll g ts).map (·.1) = ts.map (·.1) := by
  unfold storedAll; simp [Function.comp_def]

section
variable [AddCommMonoid W] [LinearOrder W] {v : Dbl → W} {names : List UString} {mono bi : List UInt8} {La Lb : List UInt32}
  {ts us : List (UString × Transducer Dbl)}

theorem piece_stored {bs : List UInt8} {L : List UInt32} {ts : List (UString × Transducer Dbl)} (h : Dictionary bs L a ts) (v : Dbl → W)
    (hz : ∀ e ∈ ts, ∀ p w, Final e.2 p w → v w = 0) (hs : ∀ k, Has bs k → ∃ X Y, Pairs bs k X Y) : ∀ e ∈ ts, Piece a (stored v e.2) := by
  intro e he
  have hp := h.parts e he
  refine ⟨wf_stored v hp.wf, ?_, ?_, ?_⟩
  · intro p w hf
    obtain ⟨u, hu, rfl⟩ := (final_stored v e.2 _ _).1 hf
    exact hz e he p u hu
  · refine known_coded ?_
    intro q l p hl
    obtain ⟨w, hw, -⟩ := (edge_stored v e.2 _ _ _).1 hl
    exact hp.coded _ _ _ hw
  · obtain ⟨X, Y, hXY⟩ := hs e.1 ((Tools.has_iff h.stored e.1).2 (List.mem_map.2 ⟨e, he, rfl⟩))
    obtain ⟨t, h1, h2⟩ := (pairs_iff h).1 hXY
    have a1 := mapFind_of_mem (m := ts) h.sorted (k := e.1) (v := e.2) he
    have a2 := mapFind_of_mem (m := ts) h.sorted (k := e.1) (v := t) h1
    rw [a1] at a2
    rw [← Option.some.inj a2] at h2
    exact acc_nmaps ((nmaps_stored v).2 h2)

theorem units_queue {x : Int} (h0 : 0 < x) (hx : x ≠ 0x23) (hlt : x < 2 ^ 29) : Compression.unitsOf (UInt32.ofNat x.toNat) ≠ GROUP := by
  unfold Compression.unitsOf GROUP
  have e : (UInt32.ofNat x.toNat).toNat = x.toNat := by
    rw [UInt32.toNat_ofNat']; omega
  split
  · next h =>
    rw [UInt32.le_iff_toNat_le, UInt32.le_iff_toNat_le, e] at h
    have h' : x.toNat ≤ 0xffff := by
      rcases h with h | h
      · exact h
      · have : (2147483648 : UInt32).toNat = 2147483648 := rfl
        rw [this] at h; omega
    intro hc
    have hc := (List.cons.inj hc).1
    have := congrArg UInt16.toNat hc
    rw [UInt32.toNat_toUInt16, e] at this
    have t : (0x23 : UInt16).toNat = 0x23 := rfl
    rw [t] at this
    omega
  · intro h; simp at h

theorem Plainly.run (h : Plainly v names mono bi La Lb a b ts us) :
    ∃ rs, trimSets names a (storedAll v ts) b (storedAll v us) = .ok rs ∧ (rs.map (·.1)).Sublist (ts.map (·.1)) ∧
      (∀ e ∈ rs, Piece a e.2 ∧ ∀ X Y, NMaps a e.2 X Y ↔ Pairs mono e.1 X Y ∧ JoinCovered names bi e.1 Y) ∧
      ∀ k X Y, (X ≠ [] ∨ Y ≠ []) → Pairs mono k X Y → JoinCovered names bi k Y → ∃ r, (k, r) ∈ rs ∧ NMaps a r X Y := by
  have hpm := piece_stored h.analyser v h.zeroMono h.someMono
  have hpb := piece_stored h.bilingual v h.zeroBi h.someBi
  have hpair : ∀ {k : UString} {t : Transducer Dbl} {X Y}, (k, t) ∈ us → (NMaps b t X Y → Pairs bi k X Y) := fun hm hx => (pairs_iff h.bilingual).2 ⟨_, hm, hx⟩
  obtain ⟨rs, g1, g2, g3, g4⟩ := trimSets_names (a := a) (b := b) (ts := storedAll v ts) (us := storedAll v us) names h.noEmpty h.analyser.sane.ok h.bilingual.sane.ok
    (by
      intro e he
      obtain ⟨t, h1, h2⟩ := mem_storedAll he
      rw [h2]
      refine ⟨hpm _ h1, dictionary_tags h.analyser _, ?_⟩
      rintro q x y w r ⟨c, k1, k2⟩
      obtain ⟨u, k2, -⟩ := (edge_stored v t _ _ _).1 k2
      exact h.joining _ h1 q x y u r ⟨c, k1, k2⟩) h.any
    (by
      rintro s hs rfl
      obtain ⟨⟨u, hu⟩, -⟩ := h.analyser.sane.tags _ hs
      have := (List.cons.inj hu).1
      revert this; decide)
    (by
      intro e he
      obtain ⟨t, h1, h2⟩ := mem_storedAll he
      rw [h2]
      refine ⟨hpb _ h1, ?_, dictionary_tags h.bilingual _, ?_⟩
      · intro q l hl
        obtain ⟨w, hw, -⟩ := (edge_stored v t _ _ _).1 hl
        exact h.noReturn _ h1 _ _ hw
      · rintro q l p ⟨c, k1, k2⟩
        obtain ⟨u, k2, -⟩ := (edge_stored v t _ _ _).1 k2
        have hx := h.queues _ h1 q l.1.1 l.1.2 u p ⟨c, k1, k2⟩
        obtain ⟨i, k3, -⟩ := decode_iff.1 k1
        rcases (h.bilingual.sane.symbols l.1 (List.mem_of_getElem? k3)).1 with ⟨m1, m2⟩ | ⟨m1, s, m2⟩
        · unfold getSymbol
          split
          · exact ⟨[], rfl, by decide⟩
          · rw [if_neg (by omega)]
            exact ⟨_, rfl, units_queue (by omega) hx m2⟩
        · refine ⟨s, ?_, ?_⟩
          · unfold getSymbol
            rw [if_neg (by omega), if_pos m1, m2]
          · obtain ⟨j, hj, -⟩ := (tagText_iff m1).1 m2
            obtain ⟨⟨u, hu⟩, -⟩ := h.bilingual.sane.tags _ (List.mem_of_getElem? hj)
            rintro rfl
            have := (List.cons.inj hu).1
            revert this; decide)
    (by
      intro e he hn
      obtain ⟨t, h1, h2⟩ := mem_storedAll he
      rw [h2]
      exact reached_stored v (h.reached _ h1 hn))
    (by
      intro e he hn
      obtain ⟨t, h1, h2⟩ := mem_storedAll he
      rw [h2]
      exact live_stored v (h.live _ h1 hn))
    (by
      intro e he e' he' hm X1 X2 Y1 Y2 m1 m2
      obtain ⟨t, h1, h2⟩ := mem_storedAll he
      obtain ⟨t', h1', h2'⟩ := mem_storedAll he'
      rw [h2, nmaps_stored] at m1
      rw [h2', nmaps_stored] at m2
      exact h.after e.1 e'.1 X1 X2 Y1 Y2 hm (hpair h1 m1) (hpair h1' m2))
    (by
      have := h.bilingual.sorted
      unfold storedAll
      rw [List.pairwise_map]
      exact this)
  have hpart : ∀ k k', Partner names (storedAll v us) k k' ↔ TrimmedBy names bi k k' := by
    intro k k'
    unfold Partner TrimmedBy
    rw [storedAll_names, Tools.has_iff h.bilingual.stored]
  have hcov1 : ∀ k Y, Cov names b (storedAll v us) k Y ↔ Covered names bi k Y := by
    intro k Y
    constructor
    · rintro ⟨Y1, Y2, X, Z, k1, k2, k3, e, k4, k5, k6⟩
      obtain ⟨t, h1, h2⟩ := mem_storedAll k4
      rw [h2, nmaps_stored] at k6
      exact ⟨Y1, Y2, X, Z, e.1, k1, k2, (hpart _ _).1 k5, k3, hpair h1 k6⟩
    · rintro ⟨Y1, Y2, X, Z, k', k1, k2, k5, k3, k6⟩
      obtain ⟨t, h1, h2⟩ := (pairs_iff h.bilingual).1 k6
      exact ⟨Y1, Y2, X, Z, k1, k2, k3, _, storedAll_mem v h1, (hpart _ _).2 k5, (nmaps_stored v).2 h2⟩
  have hbeg : ∀ k Y, Beg names b (storedAll v us) k Y ↔ Begun names bi k Y := by
    intro k Y
    unfold Beg Begun
    rw [hcov1]
    refine or_congr Iff.rfl ?_
    constructor
    · rintro ⟨X, X', Z, k1, e, k4, k5, k6⟩
      obtain ⟨t, h1, h2⟩ := mem_storedAll k4
      rw [h2, nmaps_stored] at k6
      exact ⟨X, X', Z, e.1, (hpart _ _).1 k5, k1, hpair h1 k6⟩
    · rintro ⟨X, X', Z, k', k5, k1, k6⟩
      obtain ⟨t, h1, h2⟩ := (pairs_iff h.bilingual).1 k6
      exact ⟨X, X', Z, k1, _, storedAll_mem v h1, (hpart _ _).2 k5, (nmaps_stored v).2 h2⟩
  have hcov : ∀ k Y, JCov names b (storedAll v us) k Y ↔ JoinCovered names bi k Y := by
    intro k Y
    unfold JCov JoinCovered
    simp only [hbeg, hcov1]
  have hone : ∀ {k : UString} {t : Transducer Dbl} {X Y}, (k, t) ∈ ts → (Pairs mono k X Y ↔ NMaps a t X Y) := by
    intro k t X Y hm
    rw [pairs_iff h.analyser]
    constructor
    · rintro ⟨t', h1, h2⟩
      have a1 := mapFind_of_mem (m := ts) h.analyser.sorted (k := k) (v := t) hm
      have a2 := mapFind_of_mem (m := ts) h.analyser.sorted (k := k) (v := t') h1
      rw [a1] at a2
      rw [Option.some.inj a2]; exact h2
    · exact fun h => ⟨t, hm, h⟩
  refine ⟨rs, g1, by rwa [storedAll_names] at g2, ?_, ?_⟩
  · intro e he
    obtain ⟨t, k1, k2, k3⟩ := g3 e he
    refine ⟨k2, fun X Y => ?_⟩
    obtain ⟨t', h1, rfl⟩ := mem_storedAll k1
    rw [k3, hcov, nmaps_stored, hone h1]
  · intro k X Y hXY hp hc
    obtain ⟨t, h1, h2⟩ := (pairs_iff h.analyser).1 hp
    exact g4 _ (storedAll_mem v h1) X Y hXY ((nmaps_stored v).2 h2) ((hcov _ _).2 hc)

end

end Verif.Trim
