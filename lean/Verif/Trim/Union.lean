import Verif.Trim.Model
import Verif.Compiler.Close

/-! # The union of sections -/

namespace Verif.Trim

open Verif.Fst Verif.Alphabet Verif.Compiler

variable {W : Type} [AddMonoid W] [LinearOrder W] {A : Alphabet}

/-- A transducer that reads something, without weights at its final states, and with labels of the alphabet. -/
structure Piece (A : Alphabet) (t : Transducer W) : Prop where
  wf : WF t
  zero : ZeroFinals t
  known : ∀ q l p, Edge t q l p → KA A l.1
  acc : ∃ ls, Acc t t.initial ls

omit [LinearOrder W] in
theorem Piece.finals {t : Transducer W} (h : Piece A t) : t.finals ≠ [] := by
  obtain ⟨ls, p, fw, -, h2⟩ := h.acc
  intro e
  unfold Final at h2
  rw [e] at h2
  cases h2

omit [LinearOrder W] in
theorem Piece.notEmpty {t : Transducer W} (h : Piece A t) : isEmpty t = false := by
  unfold isEmpty
  have := h.finals
  cases hf : t.finals with
  | nil => exact absurd hf this
  | cons => simp

/-- No arc leads to the initial state. -/
def NoReturn (t : Transducer W) : Prop := ∀ q l, ¬ Edge t q l t.initial

omit [LinearOrder W] in
theorem joined_edges {t t' : Transducer W} (h : Piece A t) (hj : joinFinals 0 t = .ok t') : ∀ q l p, Edge t' q l p → Edge t q l p ∨ l.1 = 0 := by
  by_cases h2 : 2 ≤ t.finals.length
  · obtain ⟨t'', h1, -, -, -, -, hE⟩ := joinFinals_many h.wf 0 h2
    rw [hj] at h1
    cases h1
    intro q l p he
    rcases (hE _ _ _).1 he with he | ⟨-, he, -⟩
    · exact .inl he
    · exact .inr he
  · match hfs : t.finals with
    | [] => exact absurd hfs h.finals
    | [e] =>
      rw [joinFinals_single 0 hfs] at hj
      cases hj
      exact fun q l p he => .inl he
    | _ :: _ :: _ => rw [hfs] at h2; simp at h2

omit [LinearOrder W] in
theorem joined_known (hA : Ok A) {t t' : Transducer W} (h : Piece A t) (hj : joinFinals 0 t = .ok t') : ∀ q l p, Edge t' q l p → KA A l.1 := by
  intro q l p he
  rcases joined_edges h hj q l p he with he | he
  · exact h.known _ _ _ he
  · rw [he]; exact ka_zero hA

theorem acc_lang {t : Transducer W} : (∃ ls, Acc t t.initial ls) ↔ ∃ w, Lang 0 t w :=
  ⟨fun ⟨ls, p, fw, h1, h2⟩ => ⟨_, ls, p, fw, h1, h2, rfl⟩, fun ⟨_, ls, p, fw, h1, h2, _⟩ => ⟨ls, p, fw, h1, h2⟩⟩

theorem unionWith_piece (hA : Ok A) {o u : Transducer W} (ho : Piece A o) (hu : Piece A u) (hr : NoReturn u) :
    ∃ u' o', unionWith o 0 u = .ok (u', o') ∧ Piece A u' ∧ NoReturn u' ∧
      (∀ x y, AccRel A u' u'.initial x y ↔ AccRel A u u.initial x y ∨ AccRel A o o.initial x y) ∧
      ∀ q l p, Edge u' q l p → (∃ q' w' p', Edge u q' (l.1, w') p' ∨ Edge o q' (l.1, w') p') ∨ l.1 = 0 := by
  obtain ⟨u', o', h1, h2, h3, h4⟩ := C26_union_partial hu.wf ho.wf 0 ho.finals ho.zero.noLone hr
  obtain ⟨o'', f, k1, k2, k3, k4, k5, -⟩ := joinFinals_zero ho.wf 0 ho.finals ho.zero.noLone
  obtain ⟨t', g1, g2, g3, g4, g5, g6⟩ := insertTransducer_spec hu.wf ho.wf k2 0 hu.wf.initial_lt k1 k4
  have e : u' = { t' with finals := mapInsert (size u + f) 0 t'.finals } := by
    unfold unionWith at h1
    rw [g1] at h1
    simp only [Res.bind_ok, Res.pure_eq, Res.ok.injEq, Prod.mk.injEq] at h1
    exact h1.1.symm
  have hE : ∀ q l p, Edge u' q l p ↔ Edge t' q l p := by intro q l p; rw [e]; exact Iff.rfl
  refine ⟨u', o', h1, ⟨h2, ?_, ?_, ?_⟩, ?_, ?_, ?_⟩
  · intro p fw hf
    unfold Final at hf
    rw [e] at hf
    simp only at hf
    have hs : SortedKeys t'.finals := g2.finals_sorted
    rcases (mem_mapInsert hs (size u + f) (0 : W) (p, fw)).1 hf with ⟨hf, -⟩ | hf
    · cases hf; rfl
    · rw [g5] at hf
      exact hu.zero p fw hf
  · intro q l p he
    rcases (g6 _ _ _).1 ((hE _ _ _).1 he) with he | ⟨q0, p0, he, -, -⟩ | ⟨-, he, -⟩
    · exact hu.known _ _ _ he
    · exact joined_known hA ho k1 _ _ _ he
    · rw [he]; exact ka_zero hA
  · rw [acc_lang]
    obtain ⟨w, hw⟩ := acc_lang.1 hu.acc
    exact ⟨w, (h4 w).2 (.inl hw)⟩
  · intro q l he
    have hi : u'.initial = u.initial := by rw [e]; exact g4
    have := hu.wf.initial_lt
    rw [hi] at he
    rcases (g6 _ _ _).1 ((hE _ _ _).1 he) with he | ⟨q0, p0, he, -, he'⟩ | ⟨-, -, he'⟩
    · exact hr _ _ he
    · omega
    · omega
  · intro x y
    rw [lang_rel hA, lang_rel hA, lang_rel hA, rel_congr A h4 x y]
    unfold Rel
    constructor
    · rintro ⟨ls, h | h, h'⟩
      · exact .inl ⟨ls, h, h'⟩
      · exact .inr ⟨ls, h, h'⟩
    · rintro (⟨ls, h, h'⟩ | ⟨ls, h, h'⟩)
      · exact ⟨ls, .inl h, h'⟩
      · exact ⟨ls, .inr h, h'⟩
  · intro q l p he
    rcases (g6 _ _ _).1 ((hE _ _ _).1 he) with he | ⟨q0, p0, he, -, -⟩ | ⟨-, he, -⟩
    · exact .inl ⟨q, l.2, p, .inl he⟩
    · rcases joined_edges ho k1 _ _ _ he with he | he
      · exact .inl ⟨q0, l.2, p0, .inr he⟩
      · exact .inr he
    · exact .inr (by rw [he])

omit [LinearOrder W] in
theorem accRel_empty (q : Nat) (x y : List Int) : ¬ AccRel A (Fst.empty : Transducer W) q x y := by
  rintro ⟨ls, ⟨p, fw, -, h2⟩, -⟩
  cases h2

theorem unite_spec (hA : Ok A) {o u : Transducer W} (ho : Piece A o) (hor : NoReturn o) (hu : u = Fst.empty ∨ Piece A u ∧ NoReturn u) :
    ∃ u', unite o u = .ok u' ∧ Piece A u' ∧ NoReturn u' ∧
      (∀ x y, AccRel A u' u'.initial x y ↔ AccRel A u u.initial x y ∨ AccRel A o o.initial x y) ∧
      ∀ q l p, Edge u' q l p → (∃ q' w' p', Edge u q' (l.1, w') p' ∨ Edge o q' (l.1, w') p') ∨ l.1 = 0 := by
  unfold unite
  rcases hu with rfl | ⟨hu, hr⟩
  · refine ⟨o, rfl, ho, hor, fun x y => ?_, fun q l p he => .inl ⟨q, l.2, p, .inr he⟩⟩
    simp [accRel_empty]
  · rw [hu.notEmpty]
    obtain ⟨u', o', h1, h2, h3, h4, h5⟩ := unionWith_piece hA ho hu hr
    refine ⟨u', ?_, h2, h3, h4, h5⟩
    rw [h1]; rfl

/-- The final states can be reached. -/
def Reached (t : Transducer W) : Prop := ∀ p w, Final t p w → ∃ ls, Path (Edge t) t.initial ls p

/-- The union is minimised. -/
theorem minimize_piece (hA : Ok A) {t : Transducer W} (h : Piece A t) : ∃ t', minimize 0 t = .ok t' ∧ Piece A t' ∧ Reached t' ∧
    (∀ x y, AccRel A t' t'.initial x y ↔ AccRel A t t.initial x y) ∧ ∀ q l p, Edge t' q l p → (∃ q' p', Edge t q' l p') ∨ l.1 = 0 := by
  obtain ⟨t', h1, h2⟩ := minimize_tree hA h.wf h.zero h.known h.finals h.acc
  refine ⟨t', h1, ⟨h2.wf, ?_, h2.known, ?_⟩, ?_, h2.rel, ?_⟩
  · obtain ⟨t1, d1, j, r, d2, Q1, Q2, k1, c, -⟩ := minimize_chain h.wf 0 h.finals h.zero.noLone (acc_lang.1 h.acc)
    rw [h1] at k1
    cases k1
    exact c.det2.final_zero c.zero_r
  · rw [acc_lang]
    obtain ⟨w, hw⟩ := acc_lang.1 h.acc
    exact ⟨w, (h2.lang w).2 hw⟩
  · intro p w hf
    exact (h2.useful p (h2.wf.finals_lt _ _ hf)).1
  · intro q l p he
    by_cases hl0 : l.1 = 0
    · exact .inr hl0
    · obtain ⟨⟨us, h3⟩, -⟩ := h2.useful q (h2.wf.source_lt he)
      obtain ⟨-, w, vs, f, fw', h4, h5, -⟩ := h2.useful p (h2.wf.target_lt _ _ _ he)
      have hlang : Lang 0 t' (visible 0 ((us ++ l :: vs) ++ [(0, fw')])) := ⟨_, f, fw', h3.append (.cons he h4), h5, rfl⟩
      obtain ⟨ms, f', fw'', h6, h7, h8⟩ := (h2.lang _).1 hlang
      have hmem : l ∈ visible 0 ((us ++ l :: vs) ++ [(0, fw')]) := by
        unfold visible
        rw [List.mem_filter]
        refine ⟨by simp, ?_⟩
        simp only [ne_eq, decide_not, Bool.not_eq_eq_eq_not, Bool.not_true, decide_eq_false_iff_not]
        intro h; rw [h] at hl0; exact hl0 rfl
      rw [h8] at hmem
      have hmem' := (List.mem_filter.1 hmem).1
      rcases List.mem_append.1 hmem' with hm | hm
      · obtain ⟨q', p', he'⟩ := path_mem h6 hm
        exact .inl ⟨q', p', he'⟩
      · simp only [List.mem_singleton] at hm
        rw [hm] at hl0
        exact absurd rfl hl0

theorem minimize_live (hA : Ok A) {t t' : Transducer W} (h : Piece A t) (hm : minimize 0 t = .ok t') :
    ∀ ls p, Path (Edge t') t'.initial ls p → ∃ ms f w, Path (Edge t') p ms f ∧ Final t' f w := by
  obtain ⟨t1, h1, h2⟩ := minimize_tree hA h.wf h.zero h.known h.finals h.acc
  rw [hm] at h1
  cases h1
  intro ls p hp
  have hlt : p < Fst.size t' := by
    rcases List.eq_nil_or_concat' ls with rfl | ⟨ls', l, rfl⟩
    · cases hp; exact h2.wf.initial_lt
    · have : ∀ {q p : Nat} {ls : List (Int × W)}, Path (Edge t') q ls p → q < Fst.size t' → p < Fst.size t' := by
        intro q p ls h
        induction h with
        | nil q => exact id
        | cons he _ ih => exact fun _ => ih (h2.wf.target_lt _ _ _ he)
      exact this hp h2.wf.initial_lt
  obtain ⟨-, w, vs, f, fw, h4, h5, -⟩ := h2.useful p hlt
  exact ⟨vs, f, fw, h4, h5⟩

end Verif.Trim
