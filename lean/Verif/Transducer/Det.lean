import Verif.Transducer.Closure
import Verif.Transducer.Reverse
import Mathlib.Data.List.Sublists

/-! # determinize is the subset construction -/

namespace Verif.Fst

open SortedVec

variable {W : Type} [LinearOrder W] [Zero W]

/-! ## The map of moves -/

/-- The label of an arc of a row. -/
def lab (a : Int × (Nat × W)) : Int ×ₗ W := toLex (a.1, a.2.2)

theorem movesFold_spec (ε : Int) (cl : List (List Nat)) (arcs : Row W) (m0 : List ((Int ×ₗ W) × List Nat))
    (hs0 : SortedKeys m0) (hv0 : ∀ e ∈ m0, SSorted e.2) :
    let m := arcs.foldl (fun m a => if a.1 ≠ ε ∨ a.2.2 ≠ 0 then
      mapModify [] (toLex (a.1, a.2.2)) (insertRange (cl.getD a.2.1 [])) m else m) m0
    SortedKeys m ∧ (∀ e ∈ m, SSorted e.2) ∧
    (∀ l, l ∈ m.map (·.1) ↔ l ∈ m0.map (·.1) ∨ (l ≠ toLex (ε, 0) ∧ ∃ a ∈ arcs, lab a = l)) ∧
    (∀ l x, x ∈ (mapFind l m).getD [] ↔ x ∈ (mapFind l m0).getD [] ∨
      (l ≠ toLex (ε, 0) ∧ ∃ a ∈ arcs, lab a = l ∧ x ∈ cl.getD a.2.1 [])) := by
  induction arcs generalizing m0 with
  | nil => simp only [List.foldl_nil]; exact ⟨hs0, hv0, by simp, by simp⟩
  | cons a arcs ih =>
    simp only [List.foldl_cons]
    have hne : (a.1 ≠ ε ∨ a.2.2 ≠ 0) ↔ lab a ≠ toLex (ε, (0 : W)) := by
      rw [lab, ne_eq (toLex _), toLex_inj, Prod.mk.injEq]; tauto
    by_cases hc : a.1 ≠ ε ∨ a.2.2 ≠ 0
    · rw [if_pos hc]
      have hs1 : SortedKeys (mapModify [] (toLex (a.1, a.2.2)) (insertRange (cl.getD a.2.1 [])) m0) :=
        sorted_modify hs0 _ _ _
      have hv : ∀ l, SSorted ((mapFind l m0).getD []) := by
        intro l
        cases hl : mapFind l m0 with
        | none => exact SSorted.nil
        | some T => exact hv0 (l, T) (mapFind_mem hl)
      have hf := fun l => mapFind_modify hs0 [] (toLex (a.1, a.2.2)) (insertRange (cl.getD a.2.1 [])) l
      obtain ⟨h1, h2, h3, h4⟩ := ih _ hs1 (by
        rintro ⟨l, T⟩ he
        have := mapFind_of_mem hs1 he
        rw [hf] at this
        split at this
        · simp only [Option.some.injEq] at this
          rw [← this]; exact insertRange_sorted _ _ (hv _)
        · exact hv0 _ (mapFind_mem this))
      have hc' := hne.mp hc
      refine ⟨h1, h2, fun l => ?_, fun l x => ?_⟩
      · rw [h3, mem_keys_modify]
        constructor
        · rintro ((h | h) | ⟨h, b, hb, hl⟩)
          · exact .inr ⟨h ▸ hc', a, by simp, h.symm⟩
          · exact .inl h
          · exact .inr ⟨h, b, List.mem_cons_of_mem _ hb, hl⟩
        · rintro (h | ⟨h, b, hb, hl⟩)
          · exact .inl (.inr h)
          · rcases List.mem_cons.mp hb with rfl | hb
            · exact .inl (.inl hl.symm)
            · exact .inr ⟨h, b, hb, hl⟩
      · rw [h4, hf]
        constructor
        · rintro (h | ⟨h, b, hb, hl, hx⟩)
          · split at h
            · next hl =>
              rw [Option.getD_some, mem_insertRange _ _ (hv _)] at h
              rcases h with h | h
              · exact .inr ⟨hl ▸ hc', a, by simp, hl.symm, h⟩
              · exact .inl (hl ▸ h)
            · exact .inl h
          · exact .inr ⟨h, b, List.mem_cons_of_mem _ hb, hl, hx⟩
        · rintro (h | ⟨h, b, hb, hl, hx⟩)
          · left
            split
            · next hl => rw [Option.getD_some, mem_insertRange _ _ (hv _), ← hl]; exact .inr h
            · exact h
          · rcases List.mem_cons.mp hb with rfl | hb
            · left
              rw [if_pos (show l = toLex (b.1, b.2.2) from hl.symm), Option.getD_some, mem_insertRange _ _ (hv _)]
              exact .inl hx
            · exact .inr ⟨h, b, hb, hl, hx⟩
    · rw [if_neg hc]
      obtain ⟨h1, h2, h3, h4⟩ := ih m0 hs0 hv0
      have hc' : lab a = toLex (ε, 0) := by
        by_contra hx; exact hc (hne.mpr hx)
      refine ⟨h1, h2, fun l => ?_, fun l x => ?_⟩
      · rw [h3]
        constructor
        · rintro (h | ⟨h, b, hb, hl⟩)
          · exact .inl h
          · exact .inr ⟨h, b, List.mem_cons_of_mem _ hb, hl⟩
        · rintro (h | ⟨h, b, hb, hl⟩)
          · exact .inl h
          · rcases List.mem_cons.mp hb with rfl | hb
            · exact absurd (hl.symm.trans hc') h
            · exact .inr ⟨h, b, hb, hl⟩
      · rw [h4]
        constructor
        · rintro (h | ⟨h, b, hb, hl, hx⟩)
          · exact .inl h
          · exact .inr ⟨h, b, List.mem_cons_of_mem _ hb, hl, hx⟩
        · rintro (h | ⟨h, b, hb, hl, hx⟩)
          · exact .inl h
          · rcases List.mem_cons.mp hb with rfl | hb
            · exact absurd (hl.symm.trans hc') h
            · exact .inr ⟨h, b, hb, hl, hx⟩

/-- The map of moves: its keys are the labels other than `(ε, 0)` that leave the subset, each with the closure
of the targets. -/
theorem moves_spec {t : Transducer W} (h : WF t) (ε : Int) {cl : List (List Nat)}
    (hcl : ∀ i < size t, ∀ p, p ∈ cl.getD i [] ↔ EpsReach t ε i p) (S : List Nat) :
    SortedKeys (moves t ε cl S) ∧ (∀ e ∈ moves t ε cl S, SSorted e.2) ∧
    (∀ l, toLex l ∈ (moves t ε cl S).map (·.1) ↔ l ≠ (ε, 0) ∧ ∃ q ∈ S, ∃ p, Edge t q l p) ∧
    (∀ l T, (toLex l, T) ∈ moves t ε cl S →
      ∀ x, x ∈ T ↔ ∃ q ∈ S, ∃ p, Edge t q l p ∧ EpsReach t ε p x) := by
  obtain ⟨h1, h2, h3, h4⟩ := movesFold_spec ε cl (S.flatMap (row t)) [] List.Pairwise.nil (by simp)
  have hlab : ∀ l : Int × W, (∃ a ∈ S.flatMap (row t), lab a = toLex l) ↔ ∃ q ∈ S, ∃ p, Edge t q l p := by
    intro l
    constructor
    · rintro ⟨⟨b, p, v⟩, ha, hl⟩
      obtain ⟨q, hq, ha⟩ := List.mem_flatMap.mp ha
      have : (b, v) = l := by simpa [lab] using hl
      subst this
      exact ⟨q, hq, p, ha⟩
    · rintro ⟨q, hq, p, he⟩
      exact ⟨(l.1, (p, l.2)), List.mem_flatMap.mpr ⟨q, hq, he⟩, rfl⟩
  refine ⟨h1, h2, fun l => ?_, fun l T hT x => ?_⟩
  · have := h3 (toLex l)
    simp only [List.map_nil, List.not_mem_nil, false_or] at this
    rw [hlab, ne_eq (toLex l), toLex_inj] at this
    exact this
  · have hfind : mapFind (toLex l) (moves t ε cl S) = some T := mapFind_of_mem h1 hT
    have h4' := h4 (toLex l) x
    rw [show (S.flatMap (row t)).foldl (fun m a => if a.1 ≠ ε ∨ a.2.2 ≠ 0 then
      mapModify [] (toLex (a.1, a.2.2)) (insertRange (cl.getD a.2.1 [])) m else m) [] = moves t ε cl S from rfl,
      hfind, Option.getD_some] at h4'
    rw [h4']
    have hne : toLex l ≠ toLex (ε, (0 : W)) := by
      have := (h3 (toLex l)).mp (List.mem_map.mpr ⟨_, hT, rfl⟩)
      simp only [List.map_nil, List.not_mem_nil, false_or] at this
      exact this.1
    constructor
    · rintro (h | ⟨-, ⟨b, p, v⟩, ha, hl, hx⟩)
      · simp [mapFind] at h
      · obtain ⟨q, hq, ha⟩ := List.mem_flatMap.mp ha
        have hbv : (b, v) = l := by simpa [lab] using hl
        subst hbv
        have he : Edge t q (b, v) p := ha
        exact ⟨q, hq, p, he, (hcl p (h.target_lt _ _ _ he) x).mp hx⟩
    · rintro ⟨q, hq, p, he, hx⟩
      exact .inr ⟨hne, (l.1, (p, l.2)), List.mem_flatMap.mpr ⟨q, hq, he⟩, rfl, (hcl p (h.target_lt _ _ _ he) x).mpr hx⟩

/-! ## detArcs -/

theorem mmInsert_perm {κ ν : Type} [LinearOrder κ] (k : κ) (v : ν) (m : List (κ × ν)) :
    (mmInsert k v m).Perm ((k, v) :: m) := by
  induction m with
  | nil => exact List.Perm.refl _
  | cons e m ih =>
    obtain ⟨k', v'⟩ := e
    unfold mmInsert
    split
    · exact List.Perm.refl _
    · exact (List.Perm.cons _ ih).trans (List.Perm.swap _ _ _)

/-- The arc of the determinised transducer for a move, given the list of subsets. -/
def arcFor (Q : List (List Nat)) (e : (Int ×ₗ W) × List Nat) : Int × (Nat × W) :=
  ((ofLex e.1).1, (Q.idxOf e.2, (ofLex e.1).2))

omit [LinearOrder W] [Zero W] in
theorem detArcs_spec (q : Nat) (ms : List ((Int ×ₗ W) × List Nat)) (s : Det W) (hq : s.Q.Nodup)
    (hqk : q ∈ s.tr.map (·.1)) (hts : SortedKeys s.tr) (htl : ∀ k ∈ s.tr.map (·.1), k < s.Q.length)
    (hrs : ∀ i, SortedRow (getRow s.tr i)) (hn : SSorted s.next) :
    ∃ news, (detArcs q ms s).Q = s.Q ++ news ∧ (detArcs q ms s).Q.Nodup ∧ (∀ T ∈ news, ∃ e ∈ ms, e.2 = T) ∧
    (∀ e ∈ ms, e.2 ∈ (detArcs q ms s).Q) ∧ (detArcs q ms s).fin = s.fin ∧
    SortedKeys (detArcs q ms s).tr ∧ (∀ i, SortedRow (getRow (detArcs q ms s).tr i)) ∧
    (getRow (detArcs q ms s).tr q).Perm (getRow s.tr q ++ ms.map (arcFor (detArcs q ms s).Q)) ∧
    (∀ i, i ≠ q → getRow (detArcs q ms s).tr i = getRow s.tr i) ∧
    (∀ k, k ∈ (detArcs q ms s).tr.map (·.1) ↔ k ∈ s.tr.map (·.1) ∨
      (s.Q.length ≤ k ∧ k < (detArcs q ms s).Q.length)) ∧
    SSorted (detArcs q ms s).next ∧
    (∀ k, k ∈ (detArcs q ms s).next ↔ k ∈ s.next ∨ (s.Q.length ≤ k ∧ k < (detArcs q ms s).Q.length)) := by
  induction ms generalizing s with
  | nil =>
    refine ⟨[], by simp [detArcs], hq, by simp, by simp, rfl, hts, hrs, by simp [detArcs], fun _ _ => rfl, ?_, hn, ?_⟩
    · intro k; simp only [detArcs]; constructor
      · exact .inl
      · rintro (h | h)
        · exact h
        · omega
    · intro k; simp only [detArcs]; constructor
      · exact .inl
      · rintro (h | h)
        · exact h
        · omega
  | cons e ms ih =>
    obtain ⟨l, S⟩ := e
    by_cases hS : S ∈ s.Q
    · simp only [detArcs, hS, if_true]
      generalize hs1 : ({ s with tr := mapModify [] q (mmInsert (ofLex l).1 (s.Q.idxOf S, (ofLex l).2)) s.tr } : Det W)
        = s1
      have e1 : s1.Q = s.Q := by rw [← hs1]
      have e2 : s1.tr = mapModify [] q (mmInsert (ofLex l).1 (s.Q.idxOf S, (ofLex l).2)) s.tr := by rw [← hs1]
      have e3 : s1.fin = s.fin := by rw [← hs1]
      have e4 : s1.next = s.next := by rw [← hs1]
      have hk1 : s1.tr.map (·.1) = s.tr.map (·.1) := by rw [e2]; exact keys_modify_of_mem hts _ _ hqk
      have hg := getRow_modify hts q (mmInsert (ofLex l).1 (s.Q.idxOf S, (ofLex l).2))
      rw [← e2] at hg
      obtain ⟨news, i1, i2, i3, i4, i5, i6, i7, i8, i9, i10, i11, i12⟩ := ih s1 (by rw [e1]; exact hq)
        (by rw [hk1]; exact hqk) (by rw [e2]; exact sorted_modify hts _ _ _)
        (by rw [hk1, e1]; exact htl)
        (by
          intro i; rw [hg]; split
          · exact sorted_mmInsert (hrs q) _ _
          · exact hrs i)
        (by rw [e4]; exact hn)
      rw [e1] at i1 i10 i12
      rw [hk1] at i10
      rw [e4] at i12
      refine ⟨news, i1, i2, ?_, ?_, i5.trans e3, i6, i7, ?_, ?_, i10, i11, i12⟩
      · intro T hT; obtain ⟨e, he, h⟩ := i3 T hT; exact ⟨e, List.mem_cons_of_mem _ he, h⟩
      · intro e he
        rcases List.mem_cons.mp he with rfl | he
        · rw [i1]; exact List.mem_append_left _ hS
        · exact i4 e he
      · refine i8.trans ?_
        rw [hg, if_pos rfl]
        have hidx : (detArcs q ms s1).Q.idxOf S = s.Q.idxOf S := by rw [i1]; exact List.idxOf_append_of_mem hS
        simp only [List.map_cons, arcFor, hidx]
        refine (List.Perm.append_right _ (mmInsert_perm _ _ _)).trans ?_
        exact (List.perm_middle).symm
      · intro i hi; rw [i9 i hi, hg, if_neg hi]
    · simp only [detArcs, hS, if_false]
      have hql : q < s.Q.length := htl q hqk
      have hfresh : s.Q.length ∉ s.tr.map (·.1) := fun hx => absurd (htl _ hx) (by omega)
      have hset : SortedKeys (mapSet s.Q.length ([] : Row W) s.tr) := by
        rw [mapSet_eq_modify]; exact sorted_modify hts _ _ _
      have hgset : ∀ i, getRow (mapSet s.Q.length ([] : Row W) s.tr) i = getRow s.tr i := by
        intro i
        rw [mapSet_eq_modify, getRow_modify hts]
        split
        · next hi => rw [hi, getRow, (mapFind_eq_none_iff _ _).mpr hfresh]; rfl
        · rfl
      have hkset : ∀ k, k ∈ (mapSet s.Q.length ([] : Row W) s.tr).map (·.1) ↔ k = s.Q.length ∨ k ∈ s.tr.map (·.1) := by
        intro k; rw [mapSet_eq_modify, mem_keys_modify]
      generalize hs1 : ({ s with
          Q := s.Q ++ [S]
          next := (SortedVec.insert s.Q.length s.next).1
          tr := mapModify [] q (mmInsert (ofLex l).1 (s.Q.length, (ofLex l).2))
            (mapSet s.Q.length [] s.tr) } : Det W) = s1
      have e1 : s1.Q = s.Q ++ [S] := by rw [← hs1]
      have e2 : s1.tr = mapModify [] q (mmInsert (ofLex l).1 (s.Q.length, (ofLex l).2))
        (mapSet s.Q.length [] s.tr) := by rw [← hs1]
      have e3 : s1.fin = s.fin := by rw [← hs1]
      have e4 : s1.next = (SortedVec.insert s.Q.length s.next).1 := by rw [← hs1]
      have hk1 : ∀ k, k ∈ s1.tr.map (·.1) ↔ k = s.Q.length ∨ k ∈ s.tr.map (·.1) := by
        intro k; rw [e2, mem_keys_modify, hkset]
        constructor
        · rintro (rfl | h)
          · exact .inr hqk
          · exact h
        · exact .inr
      have hg := getRow_modify hset q (mmInsert (ofLex l).1 (s.Q.length, (ofLex l).2))
      rw [← e2] at hg
      obtain ⟨news, i1, i2, i3, i4, i5, i6, i7, i8, i9, i10, i11, i12⟩ := ih s1
        (by
          rw [e1, List.nodup_append]
          refine ⟨hq, by simp, ?_⟩
          intro a ha b hb
          simp only [List.mem_singleton] at hb
          rintro rfl; exact hS (hb ▸ ha))
        (by rw [hk1]; exact .inr hqk) (by rw [e2]; exact sorted_modify hset _ _ _)
        (by
          intro k hk; rw [hk1] at hk; rw [e1, List.length_append]
          simp only [List.length_cons, List.length_nil]
          rcases hk with rfl | hk
          · omega
          · have := htl k hk; omega)
        (by
          intro i; rw [hg, hgset, hgset]; split
          · exact sorted_mmInsert (hrs q) _ _
          · exact hrs i)
        (by rw [e4]; exact insert_sorted _ _ hn)
      have hlen : s1.Q.length = s.Q.length + 1 := by rw [e1]; simp
      have hlen2 : s.Q.length + 1 ≤ (detArcs q ms s1).Q.length := by rw [i1, List.length_append]; omega
      refine ⟨S :: news, ?_, i2, ?_, ?_, i5.trans e3, i6, i7, ?_, ?_, ?_, i11, ?_⟩
      · rw [i1, e1]; simp
      · intro T hT
        rcases List.mem_cons.mp hT with rfl | hT
        · exact ⟨(l, T), by simp, rfl⟩
        · obtain ⟨e, he, h⟩ := i3 T hT; exact ⟨e, List.mem_cons_of_mem _ he, h⟩
      · intro e he
        rcases List.mem_cons.mp he with rfl | he
        · rw [i1, e1]; simp
        · exact i4 e he
      · refine i8.trans ?_
        rw [hg, if_pos rfl, hgset]
        have hidx : (detArcs q ms s1).Q.idxOf S = s.Q.length := by
          rw [i1, e1, List.idxOf_append_of_mem (by simp), List.idxOf_append_of_notMem hS]; simp
        simp only [List.map_cons, arcFor, hidx]
        refine (List.Perm.append_right _ (mmInsert_perm _ _ _)).trans ?_
        exact (List.perm_middle).symm
      · intro i hi; rw [i9 i hi, hg, if_neg hi, hgset]
      · intro k; rw [i10, hk1, hlen]
        constructor
        · rintro ((h | h) | h)
          · right; omega
          · exact .inl h
          · right; omega
        · rintro (h | h)
          · exact .inl (.inr h)
          · by_cases hk : k = s.Q.length
            · exact .inl (.inl hk)
            · right; omega
      · intro k; rw [i12, e4, mem_insert _ _ hn, hlen]
        constructor
        · rintro ((h | h) | h)
          · right; omega
          · exact .inl h
          · right; omega
        · rintro (h | h)
          · exact .inl (.inr h)
          · by_cases hk : k = s.Q.length
            · exact .inl (.inl hk)
            · right; omega

/-! ## The loop -/

section loop
variable (t : Transducer W) (ε : Int) (cl : List (List Nat)) (finStates : List Nat)

/-- The weight the code gives to the subset with index `i` when it is final. -/
def finW (i : Nat) : W := if i = 0 ∧ isFinal t t.initial then 0 else (mapFind i t.finals).getD 0

/-- The invariant of the determinisation. `P` are the indices already processed, `R` the ones still to be
processed in this round. -/
structure DInv (C0 : List Nat) (P : Nat → Prop) (R : List Nat) (s : Det W) : Prop where
  q_nodup : s.Q.Nodup
  q_sorted : ∀ T ∈ s.Q, SSorted T
  q_zero : s.Q[0]? = some C0
  q_parent : ∀ i, 0 < i → i < s.Q.length → ∃ k < i, ∃ e ∈ moves t ε cl (s.Q.getD k []), s.Q.getD i [] = e.2
  tr_sorted : SortedKeys s.tr
  tr_lt : ∀ k ∈ s.tr.map (·.1), k < s.Q.length
  tr_has : ∀ i, P i → i ∈ s.tr.map (·.1)
  rows_sorted : ∀ i, SortedRow (getRow s.tr i)
  cover : ∀ i, i < s.Q.length ↔ P i ∨ i ∈ R ∨ i ∈ s.next
  disj_P : ∀ i, P i → i ∉ R ∧ i ∉ s.next
  disj_R : ∀ i ∈ R, i ∉ s.next
  next_sorted : SSorted s.next
  row_done : ∀ i, P i → (∀ e ∈ moves t ε cl (s.Q.getD i []), e.2 ∈ s.Q) ∧
    (getRow s.tr i).Perm ((moves t ε cl (s.Q.getD i [])).map (arcFor s.Q))
  row_todo : ∀ i, ¬ P i → getRow s.tr i = []
  fin_sorted : SortedKeys s.fin
  fin_iff : ∀ i w, (i, w) ∈ s.fin ↔ w = finW t i ∧
    ((P i ∧ SortedVec.intersects (s.Q.getD i []) finStates = true) ∨ (i = 0 ∧ isFinal t t.initial = true))

theorem getD_append_left {Q news : List (List Nat)} {i : Nat} (h : i < Q.length) :
    (Q ++ news).getD i [] = Q.getD i [] := by
  simp [List.getD_eq_getElem?_getD, List.getElem?_append_left h]

omit [LinearOrder W] [Zero W] in
theorem arcFor_append {Q news : List (List Nat)} {ms : List ((Int ×ₗ W) × List Nat)} (h : ∀ e ∈ ms, e.2 ∈ Q) :
    ms.map (arcFor (Q ++ news)) = ms.map (arcFor Q) := by
  apply List.map_congr_left
  intro e he
  simp only [arcFor, List.idxOf_append_of_mem (h e he)]

theorem detState_spec (hms : ∀ S, ∀ e ∈ moves t ε cl S, SSorted e.2) {C0 : List Nat} {P : Nat → Prop} {q : Nat}
    {R : List Nat} {s : Det W} (h : DInv t ε cl finStates C0 P (q :: R) s) (hR : (q :: R).Nodup) :
    DInv t ε cl finStates C0 (fun i => P i ∨ i = q) R (detState t ε cl finStates s q) ∧
    s.Q.length ≤ (detState t ε cl finStates s q).Q.length ∧
    (∀ k, k ∈ (detState t ε cl finStates s q).next ↔ k ∈ s.next ∨
      (s.Q.length ≤ k ∧ k < (detState t ε cl finStates s q).Q.length)) := by
  have hnP : ¬ P q := fun hp => (h.disj_P q hp).1 (by simp)
  have hql : q < s.Q.length := (h.cover q).mpr (.inr (.inl (by simp)))
  have hqnext : q ∉ s.next := h.disj_R q (by simp)
  have hqR : q ∉ R := (List.nodup_cons.mp hR).1
  -- the state after the final-state test and the creation of the row
  generalize hs1 : ({ (if SortedVec.intersects (s.Q.getD q []) finStates
    then { s with fin := mapInsert q ((mapFind q t.finals).getD 0) s.fin } else s) with
      tr := mapModify [] q id (if SortedVec.intersects (s.Q.getD q []) finStates
    then { s with fin := mapInsert q ((mapFind q t.finals).getD 0) s.fin } else s).tr } : Det W) = s1
  have hds : detState t ε cl finStates s q = detArcs q (moves t ε cl (s.Q.getD q [])) s1 := by
    rw [← hs1]; rfl
  have e1 : s1.Q = s.Q := by rw [← hs1]; split <;> rfl
  have e2 : s1.tr = mapModify [] q id s.tr := by rw [← hs1]; split <;> rfl
  have e3 : s1.next = s.next := by rw [← hs1]; split <;> rfl
  have e4 : s1.fin = if SortedVec.intersects (s.Q.getD q []) finStates
      then mapInsert q ((mapFind q t.finals).getD 0) s.fin else s.fin := by rw [← hs1]; split <;> rfl
  have hg : ∀ i, getRow s1.tr i = getRow s.tr i := by
    intro i; rw [e2, getRow_modify h.tr_sorted]; split
    · next hi => rw [hi]; rfl
    · rfl
  have hk1 : ∀ k, k ∈ s1.tr.map (·.1) ↔ k = q ∨ k ∈ s.tr.map (·.1) := by
    intro k; rw [e2, mem_keys_modify]
  have hts1 : SortedKeys s1.tr := by rw [e2]; exact sorted_modify h.tr_sorted _ _ _
  obtain ⟨news, i1, i2, i3, i4, i5, i6, i7, i8, i9, i10, i11, i12⟩ :=
    detArcs_spec q (moves t ε cl (s.Q.getD q [])) s1 (by rw [e1]; exact h.q_nodup)
      ((hk1 q).mpr (.inl rfl)) hts1
      (by
        intro k hk; rw [e1]
        rcases (hk1 k).mp hk with rfl | hk
        · exact hql
        · exact h.tr_lt k hk)
      (fun i => by rw [hg]; exact h.rows_sorted i) (by rw [e3]; exact h.next_sorted)
  rw [← hds] at i1 i2 i4 i5 i6 i7 i8 i9 i10 i11 i12
  rw [e1] at i1 i10 i12
  rw [e3] at i12
  have hlen : s.Q.length ≤ (detState t ε cl finStates s q).Q.length := by rw [i1, List.length_append]; omega
  have hget : ∀ i < s.Q.length, (detState t ε cl finStates s q).Q.getD i [] = s.Q.getD i [] := by
    intro i hi; rw [i1]; exact getD_append_left hi
  have hPl : ∀ i, P i → i < s.Q.length := fun i hi => (h.cover i).mpr (.inl hi)
  refine ⟨⟨i2, ?_, ?_, ?_, i6, ?_, ?_, i7, ?_, ?_, ?_, i11, ?_, ?_, ?_, ?_⟩, hlen, i12⟩
  · intro T hT
    rw [i1] at hT
    rcases List.mem_append.mp hT with hT | hT
    · exact h.q_sorted T hT
    · obtain ⟨e, he, rfl⟩ := i3 T hT
      exact hms _ e he
  · rw [i1]
    have := h.q_zero
    have h0 : 0 < s.Q.length := by
      by_contra hx
      rw [List.getElem?_eq_none (by omega)] at this; simp at this
    rw [List.getElem?_append_left h0]; exact this
  · intro i hi0 hi
    by_cases hil : i < s.Q.length
    · obtain ⟨k, hk, e, he, hie⟩ := h.q_parent i hi0 hil
      refine ⟨k, hk, e, ?_, ?_⟩
      · rw [hget k (by omega)]; exact he
      · rw [hget i hil]; exact hie
    · have hmem : (detState t ε cl finStates s q).Q.getD i [] ∈ news := by
        rw [i1, List.getD_eq_getElem?_getD, List.getElem?_append_right (by omega)]
        rw [i1, List.length_append] at hi
        have : i - s.Q.length < news.length := by omega
        simp [this]
      obtain ⟨e, he, hie⟩ := i3 _ hmem
      refine ⟨q, by omega, e, ?_, hie.symm⟩
      rw [hget q hql]; exact he
  · intro k hk
    rcases (i10 k).mp hk with hk | hk
    · rcases (hk1 k).mp hk with rfl | hk
      · omega
      · have := h.tr_lt k hk; omega
    · exact hk.2
  · rintro i (hi | rfl)
    · exact (i10 i).mpr (.inl ((hk1 i).mpr (.inr (h.tr_has i hi))))
    · exact (i10 i).mpr (.inl ((hk1 i).mpr (.inl rfl)))
  · intro i
    have hc := h.cover i
    rw [i12]
    simp only [List.mem_cons] at hc
    constructor
    · intro hi
      by_cases hil : i < s.Q.length
      · rcases hc.mp hil with hp | (rfl | hr) | hn
        · exact .inl (.inl hp)
        · exact .inl (.inr rfl)
        · exact .inr (.inl hr)
        · exact .inr (.inr (.inl hn))
      · exact .inr (.inr (.inr ⟨by omega, hi⟩))
    · rintro ((hp | rfl) | hr | hn | hn)
      · have := hPl i hp; omega
      · omega
      · have := hc.mpr (.inr (.inl (.inr hr))); omega
      · have := hc.mpr (.inr (.inr hn)); omega
      · exact hn.2
  · rintro i (hp | rfl)
    · have := h.disj_P i hp
      refine ⟨fun hr => this.1 (List.mem_cons_of_mem _ hr), ?_⟩
      rw [i12]
      rintro (hn | hn)
      · exact this.2 hn
      · have := hPl i hp; omega
    · refine ⟨hqR, ?_⟩
      rw [i12]
      rintro (hn | hn)
      · exact hqnext hn
      · omega
  · intro i hi
    rw [i12]
    rintro (hn | hn)
    · exact h.disj_R i (List.mem_cons_of_mem _ hi) hn
    · have := (h.cover i).mpr (.inr (.inl (List.mem_cons_of_mem _ hi))); omega
  · rintro i (hp | rfl)
    · have hiq : i ≠ q := fun hx => hnP (hx ▸ hp)
      obtain ⟨hm, hperm⟩ := h.row_done i hp
      rw [hget i (hPl i hp), i9 i hiq, hg, i1, arcFor_append hm]
      exact ⟨fun e he => List.mem_append_left _ (hm e he), hperm⟩
    · rw [hget i hql]
      refine ⟨i4, ?_⟩
      have : getRow s1.tr i = [] := by rw [hg]; exact h.row_todo i hnP
      rw [this, List.nil_append] at i8
      exact i8
  · intro i hi
    simp only [not_or] at hi
    rw [i9 i hi.2, hg]; exact h.row_todo i hi.1
  · rw [i5, e4]; split
    · exact sorted_mapInsert h.fin_sorted _ _
    · exact h.fin_sorted
  · intro i w
    rw [i5, e4]
    have hold := h.fin_iff
    have hQ : ∀ i, P i ∨ i = q → (detState t ε cl finStates s q).Q.getD i [] = s.Q.getD i [] := by
      rintro i (hp | rfl)
      · exact hget i (hPl i hp)
      · exact hget i hql
    have hset : ∀ b : Prop, (((P i ∨ i = q) ∧ SortedVec.intersects ((detState t ε cl finStates s q).Q.getD i [])
        finStates = true) ∨ b) ↔ (((P i ∨ i = q) ∧ SortedVec.intersects (s.Q.getD i []) finStates = true) ∨ b) := by
      intro b
      constructor
      · rintro (⟨h1, h2⟩ | h1)
        · rw [hQ i h1] at h2; exact .inl ⟨h1, h2⟩
        · exact .inr h1
      · rintro (⟨h1, h2⟩ | h1)
        · rw [← hQ i h1] at h2; exact .inl ⟨h1, h2⟩
        · exact .inr h1
    rw [hset]
    by_cases hint : SortedVec.intersects (s.Q.getD q []) finStates = true
    · rw [if_pos hint, mem_mapInsert h.fin_sorted, hold]
      have hkey : q ∉ s.fin.map (·.1) ↔ ¬ (q = 0 ∧ isFinal t t.initial = true) := by
        constructor
        · rintro hx ⟨hq0, hfi⟩
          apply hx
          exact List.mem_map.mpr ⟨(q, finW t q), (hold q _).mpr ⟨rfl, .inr ⟨hq0, hfi⟩⟩, rfl⟩
        · rintro hx hm0
          obtain ⟨⟨q', w'⟩, hm, rfl⟩ := List.mem_map.mp hm0
          rcases ((hold _ _).mp hm).2 with ⟨hp, -⟩ | hb
          · exact hnP hp
          · exact hx hb
      rw [hkey]
      constructor
      · rintro (⟨heq, hno⟩ | ⟨hw, ⟨hp, hi⟩ | hb⟩)
        · simp only [Prod.mk.injEq] at heq
          obtain ⟨rfl, rfl⟩ := heq
          refine ⟨?_, .inl ⟨.inr rfl, hint⟩⟩
          rw [finW, if_neg hno]
        · exact ⟨hw, .inl ⟨.inl hp, hi⟩⟩
        · exact ⟨hw, .inr hb⟩
      · rintro ⟨hw, ⟨hp | rfl, hi⟩ | hb⟩
        · exact .inr ⟨hw, .inl ⟨hp, hi⟩⟩
        · by_cases hb : i = 0 ∧ isFinal t t.initial = true
          · exact .inr ⟨hw, .inr hb⟩
          · left
            refine ⟨?_, hb⟩
            rw [hw, finW, if_neg hb]
        · exact .inr ⟨hw, .inr hb⟩
    · rw [if_neg hint, hold]
      constructor
      · rintro ⟨hw, ⟨hp, hi⟩ | hb⟩
        · exact ⟨hw, .inl ⟨.inl hp, hi⟩⟩
        · exact ⟨hw, .inr hb⟩
      · rintro ⟨hw, ⟨hp | rfl, hi⟩ | hb⟩
        · exact ⟨hw, .inl ⟨hp, hi⟩⟩
        · exact absurd hi hint
        · exact ⟨hw, .inr hb⟩

theorem detRound_spec (hms : ∀ S, ∀ e ∈ moves t ε cl S, SSorted e.2) {C0 : List Nat} (R : List Nat)
    {P : Nat → Prop} {s : Det W} (h : DInv t ε cl finStates C0 P R s) (hR : R.Nodup) :
    DInv t ε cl finStates C0 (fun i => P i ∨ i ∈ R) [] (R.foldl (detState t ε cl finStates) s) ∧
    s.Q.length ≤ (R.foldl (detState t ε cl finStates) s).Q.length ∧
    (∀ k, k ∈ (R.foldl (detState t ε cl finStates) s).next ↔ k ∈ s.next ∨
      (s.Q.length ≤ k ∧ k < (R.foldl (detState t ε cl finStates) s).Q.length)) := by
  induction R generalizing P s with
  | nil =>
    refine ⟨by simpa using h, le_refl _, fun k => ⟨.inl, ?_⟩⟩
    rintro (hk | hk)
    · exact hk
    · simp only [List.foldl_nil] at hk; omega
  | cons q R ih =>
    obtain ⟨h1, h2, h3⟩ := detState_spec t ε cl finStates hms h hR
    obtain ⟨i1, i2, i3⟩ := ih h1 (List.nodup_cons.mp hR).2
    rw [List.foldl_cons]
    refine ⟨?_, by omega, ?_⟩
    · have : (fun i => P i ∨ i ∈ q :: R) = (fun i => (P i ∨ i = q) ∨ i ∈ R) := by
        funext i; simp only [List.mem_cons]; exact propext or_assoc.symm
      rw [this]; exact i1
    · intro k
      rw [i3, h3]
      constructor
      · rintro ((hk | hk) | hk)
        · exact .inl hk
        · right; omega
        · right; omega
      · rintro (hk | hk)
        · exact .inl (.inl hk)
        · by_cases hkl : k < (detState t ε cl finStates s q).Q.length
          · exact .inl (.inr ⟨hk.1, hkl⟩)
          · right; omega

/-- There are at most `2^n` subsets. -/
theorem subsets_bound (n : Nat) (Q : List (List Nat)) (hn : Q.Nodup) (hs : ∀ T ∈ Q, SSorted T)
    (hlt : ∀ T ∈ Q, ∀ x ∈ T, x < n) : Q.length ≤ 2 ^ n := by
  have hsub : ∀ T ∈ Q, T ∈ (List.range n).sublists := by
    intro T hT
    rw [List.mem_sublists]
    have : T = (List.range n).filter (· ∈ T) := by
      apply SSorted.ext (hs T hT) (List.pairwise_lt_range.filter _)
      intro x
      simp only [List.mem_filter, List.mem_range, decide_eq_true_eq]
      exact ⟨fun hx => ⟨hlt T hT x hx, hx⟩, fun hx => hx.2⟩
    rw [this]; exact List.filter_sublist
  have := (List.subperm_of_subset hn hsub).length_le
  simpa using this

theorem detLoop_spec (hms : ∀ S, ∀ e ∈ moves t ε cl S, SSorted e.2) {C0 : List Nat} (n : Nat)
    (hlt : ∀ s P R, DInv t ε cl finStates C0 P R s → s.Q.length ≤ 2 ^ n) (fuel : Nat) (sizeQ : Nat) (R : List Nat)
    (s : Det W) (h : DInv t ε cl finStates C0 (fun i => i < sizeQ) R { s with next := [] })
    (hR : R.Nodup) (hle : sizeQ ≤ s.Q.length) (hfuel : 2 ^ n + 2 ≤ fuel + sizeQ) :
    DInv t ε cl finStates C0 (fun i => i < (detLoop t ε cl finStates fuel sizeQ R s).Q.length) []
      { (detLoop t ε cl finStates fuel sizeQ R s) with next := [] } := by
  induction fuel generalizing sizeQ R s with
  | zero => have := hlt _ _ _ h; simp only at this; omega
  | succ fuel ih =>
    unfold detLoop
    by_cases heq : sizeQ = s.Q.length
    · rw [if_pos heq]
      have hnil : R = [] := by
        cases R with
        | nil => rfl
        | cons q R =>
          have h1 := (h.cover q).mpr (.inr (.inl (by simp)))
          have h2 : q < sizeQ := by simp only at h1; omega
          exact absurd (by simp : q ∈ q :: R) (h.disj_P q h2).1
      subst hnil heq
      exact h
    · rw [if_neg heq]
      obtain ⟨h1, h2, h3⟩ := detRound_spec t ε cl finStates hms R h hR
      generalize hs' : R.foldl (detState t ε cl finStates) { s with next := [] } = s' at h1 h2 h3
      simp only at h2 h3
      have hP : ∀ i, (i < sizeQ ∨ i ∈ R) ↔ i < s.Q.length := by
        intro i
        have := h.cover i
        simp only [List.not_mem_nil, or_false] at this
        exact this.symm
      have hnext : ∀ k, k ∈ s'.next ↔ s.Q.length ≤ k ∧ k < s'.Q.length := by
        intro k; rw [h3]; simp
      refine ih s.Q.length s'.next s' ⟨h1.q_nodup, h1.q_sorted, h1.q_zero, h1.q_parent, h1.tr_sorted, h1.tr_lt, ?_,
        h1.rows_sorted, ?_, ?_, by simp, SSorted.nil, ?_, ?_, h1.fin_sorted, ?_⟩
        (h1.next_sorted.imp (fun h => Nat.ne_of_lt h)) h2 (by omega)
      · intro i hi; exact h1.tr_has i ((hP i).mpr hi)
      · intro i
        simp only [hnext, List.not_mem_nil, or_false]
        omega
      · intro i hi
        simp only [hnext, List.not_mem_nil, not_false_eq_true, and_true]
        omega
      · intro i hi; exact h1.row_done i ((hP i).mpr hi)
      · intro i hi; exact h1.row_todo i (fun hx => hi ((hP i).mp hx))
      · intro i w
        rw [h1.fin_iff]
        simp only [hP]

end loop

/-! ## The result -/

omit [LinearOrder W] [Zero W] in
theorem finStates_spec (fs : List (Nat × W)) (acc : List Nat) (hacc : SSorted acc) :
    let r := fs.foldl (fun fs e => (SortedVec.insert e.1 fs).1) acc
    SSorted r ∧ ∀ x, x ∈ r ↔ x ∈ acc ∨ ∃ w, (x, w) ∈ fs := by
  induction fs generalizing acc with
  | nil => simp [hacc]
  | cons e fs ih =>
    obtain ⟨q, w⟩ := e
    obtain ⟨h1, h2⟩ := ih _ (insert_sorted q acc hacc)
    refine ⟨h1, fun x => ?_⟩
    have := h2 x
    rw [mem_insert q acc hacc] at this
    rw [List.foldl_cons, this]
    simp only [List.mem_cons, Prod.mk.injEq]
    constructor
    · rintro ((h | h) | ⟨v, h⟩)
      · exact .inr ⟨w, .inl ⟨h, rfl⟩⟩
      · exact .inl h
      · exact .inr ⟨v, .inr h⟩
    · rintro (h | ⟨v, h | h⟩)
      · exact .inl (.inr h)
      · exact .inl (.inl h.1)
      · exact .inr ⟨v, h⟩

/-- What `determinize` returns, in terms of the subsets `Q` that its states stand for. -/
structure IsDet (t : Transducer W) (ε : Int) (t' : Transducer W) (Q : List (List Nat)) : Prop where
  wf : WF t'
  initial : t'.initial = 0
  size_eq : size t' = Q.length
  nodup : Q.Nodup
  sorted : ∀ T ∈ Q, SSorted T
  start : ∀ x, x ∈ Q.getD 0 [] ↔ EpsReach t ε t.initial x
  closed : ∀ i < Q.length, ∀ x ∈ Q.getD i [], ∀ y, EpsReach t ε x y → y ∈ Q.getD i []
  edge : ∀ i l j, Edge t' i l j ↔ i < Q.length ∧ j < Q.length ∧ l ≠ (ε, 0) ∧
    (∃ q ∈ Q.getD i [], ∃ p, Edge t q l p) ∧
    ∀ x, x ∈ Q.getD j [] ↔ ∃ q ∈ Q.getD i [], ∃ p, Edge t q l p ∧ EpsReach t ε p x
  total : ∀ i l, i < Q.length → l ≠ (ε, 0) → (∃ q ∈ Q.getD i [], ∃ p, Edge t q l p) → ∃ j, Edge t' i l j
  final : ∀ i w, Final t' i w ↔ i < Q.length ∧ w = finW t i ∧ ∃ q ∈ Q.getD i [], ∃ v, Final t q v
  labels : ∀ i, ((row t' i).map (fun e => (e.1, e.2.2))).Nodup
  reachable : ∀ i < Q.length, ∃ ls, Path (Edge t') 0 ls i

omit [LinearOrder W] [Zero W] in
theorem keys_eq_range {m : List (Nat × Row W)} (hs : SortedKeys m) {n : Nat} (h : ∀ k, k ∈ m.map (·.1) ↔ k < n) :
    m.map (·.1) = List.range n := by
  apply SSorted.ext (T := Nat)
  · exact List.pairwise_map.mpr hs
  · exact List.pairwise_lt_range
  · intro x; rw [h, List.mem_range]

theorem eq_of_getD {Q : List (List Nat)} (hn : Q.Nodup) {i j : Nat} (hi : i < Q.length) (hj : j < Q.length)
    (h : Q.getD i [] = Q.getD j []) : i = j := by
  have h1 : Q.getD i [] = Q[i] := by simp [List.getD_eq_getElem?_getD, hi]
  have h2 : Q.getD j [] = Q[j] := by simp [List.getD_eq_getElem?_getD, hj]
  rw [h1, h2] at h
  exact (hn.getElem_inj_iff).mp h

theorem getD_mem {Q : List (List Nat)} {i : Nat} (hi : i < Q.length) : Q.getD i [] ∈ Q := by
  have h1 : Q.getD i [] = Q[i] := by simp [List.getD_eq_getElem?_getD, hi]
  rw [h1]; exact List.getElem_mem hi

theorem getD_idxOf {Q : List (List Nat)} {T : List Nat} (h : T ∈ Q) : Q.getD (Q.idxOf T) [] = T := by
  have h1 : Q.idxOf T < Q.length := List.idxOf_lt_length_of_mem h
  simp [List.getD_eq_getElem?_getD, h1]

theorem determinize_spec {t : Transducer W} (h : WF t) (ε : Int) :
    ∃ t' Q, determinize ε t = .ok t' ∧ IsDet t ε t' Q := by
  obtain ⟨cl, hcl, hcll, hcls⟩ := closureAll_spec h ε
  have hreach : ∀ i < size t, ∀ p, p ∈ cl.getD i [] ↔ EpsReach t ε i p := fun i hi => (hcls i hi).2
  have hms : ∀ S, ∀ e ∈ moves t ε cl S, SSorted e.2 := fun S => (moves_spec h ε hreach S).2.1
  obtain ⟨f1, f2⟩ := finStates_spec t.finals [] SSorted.nil
  generalize hfs : t.finals.foldl (fun fs e => (SortedVec.insert e.1 fs).1) [] = finStates at f1 f2
  have hinit := h.initial_lt
  have hC0 := hcls t.initial hinit
  generalize hC : cl.getD t.initial [] = C0 at hC0
  generalize hfin0 : (if isFinal t t.initial then [(0, (0 : W))] else []) = fin0
  generalize hs0 : ({ Q := [C0], tr := [], fin := fin0, next := [] } : Det W) = s0
  -- facts about the loop
  have hbase : DInv t ε cl finStates C0 (fun i => i < 0) [0] { s0 with next := [] } := by
    rw [← hs0]
    refine ⟨by simp, by simpa using hC0.1, rfl, ?_, List.Pairwise.nil, by simp, by simp, ?_, by simp, by simp, by simp,
      SSorted.nil, by simp, ?_, ?_, ?_⟩
    · intro i h1 h2; simp only [List.length_cons, List.length_nil] at h2; omega
    · intro i; simp [getRow, mapFind, SortedRow]
    · intro i _; simp [getRow, mapFind]
    · simp only; rw [← hfin0]; split <;> simp [SortedKeys]
    · intro i w
      simp only [Nat.not_lt_zero, false_and, false_or]
      rw [← hfin0]
      by_cases hf : isFinal t t.initial = true
      · simp only [hf, if_true, List.mem_singleton, Prod.mk.injEq, and_true]
        constructor
        · rintro ⟨rfl, rfl⟩; exact ⟨by simp [finW, hf], rfl⟩
        · rintro ⟨hw, rfl⟩; exact ⟨rfl, by rw [hw]; simp [finW, hf]⟩
      · simp [hf]
  have helems : ∀ s P R, DInv t ε cl finStates C0 P R s → ∀ i < s.Q.length, ∀ x ∈ s.Q.getD i [], x < size t := by
    intro s P R hd i
    induction i using Nat.strong_induction_on with
    | _ i ih =>
      intro hi x hx
      by_cases hi0 : i = 0
      · subst hi0
        have hz : s.Q.getD 0 [] = C0 := by rw [List.getD_eq_getElem?_getD, hd.q_zero]; rfl
        rw [hz, hC0.2] at hx
        exact hx.lt h hinit
      · obtain ⟨k, hk, e, he, hie⟩ := hd.q_parent i (by omega) hi
        rw [hie] at hx
        obtain ⟨q, hq, p, hedge, hr⟩ := ((moves_spec h ε hreach (s.Q.getD k [])).2.2.2 (ofLex e.1) e.2 he x).mp hx
        exact hr.lt h (h.target_lt _ _ _ hedge)
  have hbound : ∀ s P R, DInv t ε cl finStates C0 P R s → s.Q.length ≤ 2 ^ size t := by
    intro s P R hd
    refine subsets_bound (size t) s.Q hd.q_nodup hd.q_sorted ?_
    intro T hT x hx
    have := helems s P R hd (s.Q.idxOf T) (List.idxOf_lt_length_of_mem hT) x
    rw [getD_idxOf hT] at this
    exact this hx
  have hloop := detLoop_spec t ε cl finStates hms (size t) hbound (2 ^ size t + 2) 0 [0] s0 hbase (by simp)
    (by omega) (by omega)
  generalize hs : detLoop t ε cl finStates (2 ^ size t + 2) 0 [0] s0 = s at hloop
  obtain ⟨Q, tr, fin, next⟩ := s
  simp only at hloop
  have hkeys : tr.map (·.1) = List.range Q.length :=
    keys_eq_range hloop.tr_sorted (fun k => ⟨fun hk => hloop.tr_lt k hk, fun hk => hloop.tr_has k hk⟩)
  have hlen : tr.length = Q.length := by have := congrArg List.length hkeys; simpa using this
  have hz : Q.getD 0 [] = C0 := by
    have := hloop.q_zero
    simp only at this
    rw [List.getD_eq_getElem?_getD, this]; rfl
  have h0 : 0 < Q.length := by
    have := hloop.q_zero
    by_contra hx
    simp only at this
    rw [List.getElem?_eq_none (by omega)] at this; simp at this
  have hmem := fun i (hi : i < Q.length) => moves_spec h ε hreach (Q.getD i [])
  have hrow : ∀ i < Q.length, ∀ a j w, (a, (j, w)) ∈ getRow tr i ↔
      ∃ T, (toLex (a, w), T) ∈ moves t ε cl (Q.getD i []) ∧ j = Q.idxOf T := by
    intro i hi a j w
    rw [(hloop.row_done i hi).2.mem_iff, List.mem_map]
    constructor
    · rintro ⟨⟨l, T⟩, he, harc⟩
      simp only [arcFor, Prod.mk.injEq] at harc
      obtain ⟨rfl, rfl, rfl⟩ := harc
      exact ⟨T, he, rfl⟩
    · rintro ⟨T, he, rfl⟩
      exact ⟨_, he, rfl⟩
  have hedge : ∀ i l j, (l.1, (j, l.2)) ∈ getRow tr i ↔ i < Q.length ∧ j < Q.length ∧ l ≠ (ε, 0) ∧
      (∃ q ∈ Q.getD i [], ∃ p, Edge t q l p) ∧
      ∀ x, x ∈ Q.getD j [] ↔ ∃ q ∈ Q.getD i [], ∃ p, Edge t q l p ∧ EpsReach t ε p x := by
    intro i l j
    by_cases hi : i < Q.length
    · obtain ⟨m1, m2, m3, m4⟩ := hmem i hi
      rw [hrow i hi]
      constructor
      · rintro ⟨T, he, rfl⟩
        have hTQ := (hloop.row_done i hi).1 _ he
        simp only at hTQ
        have hkey := (m3 l).mp (List.mem_map.mpr ⟨_, he, rfl⟩)
        refine ⟨hi, List.idxOf_lt_length_of_mem hTQ, hkey.1, hkey.2, fun x => ?_⟩
        rw [getD_idxOf hTQ]
        exact m4 l T he x
      · rintro ⟨-, hj, hne, hex, hx⟩
        obtain ⟨⟨l', T⟩, he, hl'⟩ := List.mem_map.mp ((m3 l).mpr ⟨hne, hex⟩)
        simp only at hl'
        rw [hl'] at he
        have hTQ := (hloop.row_done i hi).1 _ he
        simp only at hTQ
        refine ⟨T, he, ?_⟩
        have hTj : Q.getD j [] = T := by
          apply SSorted.ext (hloop.q_sorted _ (getD_mem hj)) (m2 _ he)
          intro x
          rw [hx, m4 l T he x]
        apply eq_of_getD hloop.q_nodup hj (List.idxOf_lt_length_of_mem hTQ)
        rw [hTj, getD_idxOf hTQ]
    · have : getRow tr i = [] := by
        rw [getRow, (mapFind_eq_none_iff _ _).mpr]; rfl
        rw [hkeys, List.mem_range]; exact hi
      rw [this]; simp [hi]
  have htotal : ∀ i l, i < Q.length → l ≠ (ε, 0) → (∃ q ∈ Q.getD i [], ∃ p, Edge t q l p) →
      ∃ j, (l.1, (j, l.2)) ∈ getRow tr i := by
    intro i l hi hne hex
    obtain ⟨⟨l', T⟩, he, hl'⟩ := List.mem_map.mp (((hmem i hi).2.2.1 l).mpr ⟨hne, hex⟩)
    simp only at hl'
    rw [hl'] at he
    exact ⟨Q.idxOf T, (hrow i hi _ _ _).mpr ⟨T, he, rfl⟩⟩
  have hclosed : ∀ i < Q.length, ∀ x ∈ Q.getD i [], ∀ y, EpsReach t ε x y → y ∈ Q.getD i [] := by
    intro i hi x hx y hxy
    by_cases hi0 : i = 0
    · subst hi0
      rw [hz, hC0.2] at hx ⊢
      exact hx.trans hxy
    · obtain ⟨k, hk, e, he, hie⟩ := hloop.q_parent i (by omega) hi
      simp only at hie he
      rw [hie] at hx ⊢
      have m4 := (hmem k (by omega)).2.2.2 (ofLex e.1) e.2 he
      obtain ⟨q, hq, p, hed, hr⟩ := (m4 x).mp hx
      exact (m4 y).mpr ⟨q, hq, p, hed, hr.trans hxy⟩
  have hreachable : ∀ i < Q.length, ∃ ls, Path (fun i (l : Int × W) j => (l.1, (j, l.2)) ∈ getRow tr i) 0 ls i := by
    intro i
    induction i using Nat.strong_induction_on with
    | _ i ih =>
      intro hi
      by_cases hi0 : i = 0
      · subst hi0; exact ⟨[], .nil _⟩
      · obtain ⟨k, hk, e, he, hie⟩ := hloop.q_parent i (by omega) hi
        simp only at hie he
        obtain ⟨ls, hp⟩ := ih k hk (by omega)
        refine ⟨ls ++ [ofLex e.1], hp.append (.single ?_)⟩
        rw [hrow k (by omega)]
        refine ⟨e.2, he, ?_⟩
        have hTQ := (hloop.row_done k (by omega)).1 _ he
        simp only at hTQ
        apply eq_of_getD hloop.q_nodup hi (List.idxOf_lt_length_of_mem hTQ)
        rw [hie, getD_idxOf hTQ]
  have hfinal : ∀ i w, (i, w) ∈ fin ↔ i < Q.length ∧ w = finW t i ∧ ∃ q ∈ Q.getD i [], ∃ v, Final t q v := by
    intro i w
    have hf := hloop.fin_iff i w
    simp only at hf
    have hint : i < Q.length → (SortedVec.intersects (Q.getD i []) finStates = true ↔
        ∃ q ∈ Q.getD i [], ∃ v, Final t q v) := by
      intro hi
      rw [SortedVec.intersects_iff _ _ (hloop.q_sorted _ (getD_mem hi)) f1]
      simp only [f2, List.not_mem_nil, false_or]
      rfl
    rw [hf]
    constructor
    · rintro ⟨hw, ⟨hi, hx⟩ | ⟨rfl, hx⟩⟩
      · exact ⟨hi, hw, (hint hi).mp hx⟩
      · refine ⟨h0, hw, t.initial, ?_, ?_⟩
        · rw [hz, hC0.2]; exact EpsReach.refl _ _ _
        · obtain ⟨v, hv⟩ := Option.isSome_iff_exists.mp hx
          exact ⟨v, mapFind_mem hv⟩
    · rintro ⟨hi, hw, hx⟩
      exact ⟨hw, .inl ⟨hi, (hint hi).mpr hx⟩⟩
  refine ⟨{ initial := 0, finals := fin, transitions := tr }, Q, ?_, ?_⟩
  · have hin : t.initial < t.transitions.length := hinit
    simp only [determinize, hcl, Res.bind_ok, if_pos hin, hfs, hC, hfin0, hs0]
    rw [show t.transitions.length = size t from rfl, hs]
    rfl
  · refine ⟨⟨?_, ?_, ?_, ?_, hloop.fin_sorted, ?_⟩, rfl, hlen, hloop.q_nodup, hloop.q_sorted, ?_, hclosed, hedge,
      htotal, hfinal, ?_, hreachable⟩
    · show tr.map (·.1) = List.range tr.length
      rw [hkeys, hlen]
    · intro e he
      have := hloop.rows_sorted e.1
      simp only at this
      rw [getRow, mapFind_of_mem hloop.tr_sorted (show (e.1, e.2) ∈ tr from he)] at this
      exact this
    · show 0 < tr.length
      omega
    · intro q l p he
      show p < tr.length
      rw [hlen]; exact ((hedge q l p).mp he).2.1
    · intro p w hp
      show p < tr.length
      rw [hlen]; exact ((hfinal p w).mp hp).1
    · intro x; rw [hz, hC0.2]
    · intro i
      show ((getRow tr i).map (fun e => (e.1, e.2.2))).Nodup
      by_cases hi : i < Q.length
      · have hp := ((hloop.row_done i hi).2.map (fun e : Int × (Nat × W) => (e.1, e.2.2)))
        simp only at hp
        rw [hp.nodup_iff, List.map_map]
        have hk : ((moves t ε cl (Q.getD i [])).map (·.1)).Nodup :=
          (List.pairwise_map.mpr (hmem i hi).1).imp (fun h => ne_of_lt h)
        exact hk
      · have : getRow tr i = [] := by
          rw [getRow, (mapFind_eq_none_iff _ _).mpr]; rfl
          rw [hkeys, List.mem_range]; exact hi
        rw [this]; simp

/-! ## Its language -/

theorem visible_of_epsPath {t : Transducer W} {ε : Int} {q p : Nat} {ls : List (Int × W)}
    (h : Path (EpsEdge t ε) q ls p) : visible ε ls = [] ∧ Path (Edge t) q ls p := by
  induction h with
  | nil q => exact ⟨rfl, .nil q⟩
  | cons he _ ih =>
    obtain ⟨he1, rfl⟩ := he
    exact ⟨by rw [visible_eps]; exact ih.1, .cons he1 ih.2⟩

theorem IsDet.complete {t t' : Transducer W} {ε : Int} {Q : List (List Nat)} (hd : IsDet t ε t' Q)
    {q x : Nat} {ls : List (Int × W)} (hp : Path (Edge t) q ls x) : ∀ i < Q.length, q ∈ Q.getD i [] →
    ∃ j, j < Q.length ∧ Path (Edge t') i (visible ε ls) j ∧ x ∈ Q.getD j [] := by
  induction hp with
  | nil q => intro i hi hq; exact ⟨i, hi, .nil i, hq⟩
  | @cons q r x l ls he hp ih =>
    intro i hi hq
    by_cases hl : l = (ε, 0)
    · subst hl
      rw [visible_eps]
      exact ih i hi (hd.closed i hi q hq r (EpsReach.step he))
    · -- the subset reached by `l`
      obtain ⟨k, hk⟩ := hd.total i l hi hl ⟨q, hq, r, he⟩
      obtain ⟨-, hkl, -, -, hx⟩ := (hd.edge i l k).mp hk
      obtain ⟨j, hj, hpj, hxj⟩ := ih k hkl ((hx r).mpr ⟨q, hq, r, he, EpsReach.refl _ _ _⟩)
      refine ⟨j, hj, ?_, hxj⟩
      rw [visible_cons, if_neg hl]
      exact .cons hk hpj

theorem IsDet.sound {t t' : Transducer W} {ε : Int} {Q : List (List Nat)} (hd : IsDet t ε t' Q)
    {i j : Nat} {ls : List (Int × W)} (hp : Path (Edge t') i ls j) : ∀ x ∈ Q.getD j [],
    ∃ q ∈ Q.getD i [], ∃ ls', Path (Edge t) q ls' x ∧ visible ε ls' = ls := by
  induction hp with
  | nil i => intro x hx; exact ⟨x, hx, [], .nil x, rfl⟩
  | @cons i k j l ls he hp ih =>
    intro x hx
    obtain ⟨r, hr, ls', hp', hv⟩ := ih x hx
    obtain ⟨-, -, hl, -, hk⟩ := (hd.edge i l k).mp he
    obtain ⟨q, hq, p, hep, es, hes⟩ := (hk r).mp hr
    obtain ⟨hev, hepath⟩ := visible_of_epsPath hes
    refine ⟨q, hq, l :: (es ++ ls'), .cons hep (hepath.append hp'), ?_⟩
    rw [visible_cons, if_neg hl, visible_append, hev, hv]; rfl

theorem IsDet.visible_path {t t' : Transducer W} {ε : Int} {Q : List (List Nat)} (hd : IsDet t ε t' Q)
    {i j : Nat} {ls : List (Int × W)} (hp : Path (Edge t') i ls j) : visible ε ls = ls := by
  induction hp with
  | nil => rfl
  | cons he _ ih =>
    rw [visible_cons, if_neg ((hd.edge _ _ _).mp he).2.2.1, ih]; rfl

end Verif.Fst
