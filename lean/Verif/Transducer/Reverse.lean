import Verif.Transducer.Ops

/-! # reverse turns every arc around -/

namespace Verif.Fst

variable {W : Type}

/-- The row of a state in a table. -/
def getRow (m : List (Nat × Row W)) (q : Nat) : Row W := (mapFind q m).getD []

theorem getRow_modify {m : List (Nat × Row W)} (hs : SortedKeys m) (k : Nat) (f : Row W → Row W) (q : Nat) :
    getRow (mapModify [] k f m) q = if q = k then f (getRow m k) else getRow m q := by
  simp only [getRow, mapFind_modify hs]
  by_cases h : q = k <;> simp [h]

theorem sortedKeys_of_range {m : List (Nat × Row W)} {n : Nat} (h : m.map (·.1) = List.range n) : SortedKeys m := by
  have h1 : (m.map (·.1)).Pairwise (· < ·) := by rw [h]; exact List.pairwise_lt_range
  exact List.pairwise_map.mp h1

theorem keys_modify_range {m : List (Nat × Row W)} {n : Nat} (h : m.map (·.1) = List.range n) {k : Nat} (hk : k < n)
    (f : Row W → Row W) : (mapModify [] k f m).map (·.1) = List.range n := by
  rw [keys_modify_of_mem (sortedKeys_of_range h) _ _ (by rw [h]; exact List.mem_range.mpr hk), h]

theorem reverseArcs_spec (n q : Nat) (aux : Row W) (rows tmp : List (Nat × Row W))
    (hk : rows.map (·.1) = List.range n) (hr : ∀ p, SortedRow (getRow rows p)) (ht : SortedKeys tmp)
    (htr : ∀ p, SortedRow (getRow tmp p)) (haux : ∀ a p w, (a, (p, w)) ∈ aux → p < n) :
    let r := reverseArcs q aux rows tmp
    r.1.map (·.1) = List.range n ∧ (∀ p, SortedRow (getRow r.1 p)) ∧ SortedKeys r.2 ∧
    (∀ p, SortedRow (getRow r.2 p)) ∧
    (∀ k, k ∈ r.2.map (·.1) → k ∈ tmp.map (·.1) ∨ k < q) ∧
    (∀ p < q, getRow r.1 p = getRow rows p) ∧
    (∀ p ≥ q, getRow r.2 p = getRow tmp p) ∧
    (∀ p ≥ q, ∀ a s w, (a, (s, w)) ∈ getRow r.1 p ↔
      (a, (s, w)) ∈ getRow rows p ∨ (s = q ∧ (a, (p, w)) ∈ aux)) ∧
    (∀ p < q, ∀ a s w, (a, (s, w)) ∈ getRow r.2 p ↔
      (a, (s, w)) ∈ getRow tmp p ∨ (s = q ∧ (a, (p, w)) ∈ aux)) := by
  induction aux generalizing rows tmp with
  | nil =>
    refine ⟨hk, hr, ht, htr, fun k h => .inl h, fun _ _ => rfl, fun _ _ => rfl, ?_, ?_⟩ <;> simp [reverseArcs]
  | cons e aux ih =>
    obtain ⟨b, p0, v⟩ := e
    have hp0 : p0 < n := haux b p0 v (by simp)
    have haux' : ∀ a p w, (a, (p, w)) ∈ aux → p < n := fun a p w h => haux a p w (List.mem_cons_of_mem _ h)
    have hsr := sortedKeys_of_range hk
    by_cases hpq : p0 ≥ q
    · simp only [reverseArcs, if_pos hpq]
      obtain ⟨i1, i2, i3, i4, i5, i6, i7, i8, i9⟩ := ih (mapModify [] p0 (mmInsert b (q, v)) rows) tmp
        (keys_modify_range hk hp0 _) (fun p => by
          rw [getRow_modify hsr]; split
          · exact sorted_mmInsert (hr p0) _ _
          · exact hr p) ht htr haux'
      refine ⟨i1, i2, i3, i4, i5, ?_, i7, ?_, ?_⟩
      · intro p hp; rw [i6 p hp, getRow_modify hsr, if_neg (by omega)]
      · intro p hp a s w
        rw [i8 p hp, getRow_modify hsr]
        by_cases hpp : p = p0
        · subst hpp
          simp only [if_true, mem_mmInsert, List.mem_cons, Prod.mk.injEq]; tauto
        · simp only [hpp, if_false, List.mem_cons, Prod.mk.injEq, false_and, and_false, false_or]
      · intro p hp a s w
        have hpp : p ≠ p0 := by omega
        rw [i9 p hp]
        simp only [List.mem_cons, Prod.mk.injEq, hpp, false_and, and_false, false_or]
    · simp only [reverseArcs, if_neg hpq]
      obtain ⟨i1, i2, i3, i4, i5, i6, i7, i8, i9⟩ := ih rows (mapModify [] p0 (mmInsert b (q, v)) tmp) hk hr
        (sorted_modify ht _ _ _) (fun p => by
          rw [getRow_modify ht]; split
          · exact sorted_mmInsert (htr p0) _ _
          · exact htr p) haux'
      refine ⟨i1, i2, i3, i4, ?_, i6, ?_, ?_, ?_⟩
      · intro k hk'
        rcases i5 k hk' with h | h
        · rw [mem_keys_modify] at h
          rcases h with rfl | h
          · right; omega
          · exact .inl h
        · exact .inr h
      · intro p hp; rw [i7 p hp, getRow_modify ht, if_neg (by omega)]
      · intro p hp a s w
        have hpp : p ≠ p0 := by omega
        rw [i8 p hp]
        simp only [List.mem_cons, Prod.mk.injEq, hpp, false_and, and_false, false_or]
      · intro p hp a s w
        rw [i9 p hp, getRow_modify ht]
        by_cases hpp : p = p0
        · subst hpp
          simp only [if_true, mem_mmInsert, List.mem_cons, Prod.mk.injEq]; tauto
        · simp only [hpp, if_false, List.mem_cons, Prod.mk.injEq, false_and, and_false, false_or]

theorem mem_foldl_mmInsert (r row : Row W) (e : Int × (Nat × W)) :
    e ∈ r.foldl (fun row e => mmInsert e.1 e.2 row) row ↔ e ∈ row ∨ e ∈ r := by
  induction r generalizing row with
  | nil => simp
  | cons x r ih =>
    simp only [List.foldl_cons, ih, mem_mmInsert, List.mem_cons]
    tauto

theorem sorted_foldl_mmInsert (r row : Row W) (h : SortedRow row) :
    SortedRow (r.foldl (fun row e => mmInsert e.1 e.2 row) row) := by
  induction r generalizing row with
  | nil => exact h
  | cons x r ih => exact ih _ (sorted_mmInsert h _ _)

/-- The invariant of the loop over the states: those from `k` on have been processed. -/
structure RevInv (n k : Nat) (rows0 rows tmp : List (Nat × Row W)) : Prop where
  keys : rows.map (·.1) = List.range n
  rows_sorted : ∀ p, SortedRow (getRow rows p)
  tmp_sorted : SortedKeys tmp
  tmp_rows : ∀ p, SortedRow (getRow tmp p)
  tmp_lt : ∀ p ∈ tmp.map (·.1), p < k
  old : ∀ p < k, getRow rows p = getRow rows0 p
  new : ∀ p ≥ k, ∀ a q w, (a, (q, w)) ∈ getRow rows p ↔ k ≤ q ∧ (a, (p, w)) ∈ getRow rows0 q
  pending : ∀ p < k, ∀ a q w, (a, (q, w)) ∈ getRow tmp p ↔ k ≤ q ∧ (a, (p, w)) ∈ getRow rows0 q

theorem reverseLoop_spec (n : Nat) (rows0 : List (Nat × Row W))
    (htgt : ∀ q a p w, (a, (p, w)) ∈ getRow rows0 q → p < n) (k : Nat) (hkn : k ≤ n)
    (rows tmp : List (Nat × Row W)) (h : RevInv n k rows0 rows tmp) :
    RevInv n 0 rows0 (reverseLoop (List.range k).reverse rows tmp).1 (reverseLoop (List.range k).reverse rows tmp).2 := by
  induction k generalizing rows tmp with
  | zero => simpa [reverseLoop] using h
  | succ q ih =>
    have hsr := sortedKeys_of_range h.keys
    have haux : getRow rows q = getRow rows0 q := h.old q (by omega)
    have hcl := getRow_modify hsr q (fun _ => ([] : Row W))
    have hsp := reverseArcs_spec n q (getRow rows q) (mapModify [] q (fun _ => []) rows) tmp
      (keys_modify_range h.keys (by omega) _) (fun p => by
        rw [hcl]; split
        · exact List.Pairwise.nil
        · exact h.rows_sorted p) h.tmp_sorted h.tmp_rows
      (fun a p w hp => htgt q a p w (by rw [← haux]; exact hp))
    simp only [List.range_succ, List.reverse_append, List.reverse_cons, List.reverse_nil, List.nil_append,
      List.cons_append, reverseLoop]
    have hg : (mapFind q rows).getD [] = getRow rows q := rfl
    rw [hg]
    generalize hra : reverseArcs q (getRow rows q) (mapModify [] q (fun _ => []) rows) tmp = ra at hsp
    obtain ⟨rows2, tmp2⟩ := ra
    obtain ⟨i1, i2, i3, i4, i5, i6, i7, i8, i9⟩ := hsp
    simp only at i1 i2 i3 i4 i5 i6 i7 i8 i9
    have hlt2 : ∀ p ∈ tmp2.map (·.1), p ≤ q := by
      intro p hp
      rcases i5 p hp with hp | hp
      · have := h.tmp_lt p hp; omega
      · omega
    have hrow2q : ∀ a s w, (a, (s, w)) ∈ getRow rows2 q ↔ s = q ∧ (a, (q, w)) ∈ getRow rows0 q := by
      intro a s w
      rw [i8 q (le_refl _), hcl, haux]; simp
    have hrow2gt : ∀ p > q, ∀ a s w, (a, (s, w)) ∈ getRow rows2 p ↔ q ≤ s ∧ (a, (p, w)) ∈ getRow rows0 s := by
      intro p hp a s w
      rw [i8 p (by omega), hcl, if_neg (by omega), h.new p (by omega), haux]
      constructor
      · rintro (⟨h1, h2⟩ | ⟨rfl, h2⟩)
        · exact ⟨by omega, h2⟩
        · exact ⟨le_refl _, h2⟩
      · rintro ⟨h1, h2⟩
        by_cases hs : s = q
        · subst hs; exact .inr ⟨rfl, h2⟩
        · exact .inl ⟨by omega, h2⟩
    have holdrow : ∀ p < q, getRow rows2 p = getRow rows0 p := by
      intro p hp; rw [i6 p hp, hcl, if_neg (by omega), h.old p (by omega)]
    have htmpq : ∀ a s w, (a, (s, w)) ∈ getRow tmp2 q ↔ q + 1 ≤ s ∧ (a, (q, w)) ∈ getRow rows0 s := by
      intro a s w; rw [i7 q (le_refl _), h.pending q (by omega)]
    have hpend : ∀ p < q, ∀ a s w, (a, (s, w)) ∈ getRow tmp2 p ↔ q ≤ s ∧ (a, (p, w)) ∈ getRow rows0 s := by
      intro p hp a s w
      rw [i9 p hp, h.pending p (by omega), haux]
      constructor
      · rintro (⟨h1, h2⟩ | ⟨rfl, h2⟩)
        · exact ⟨by omega, h2⟩
        · exact ⟨le_refl _, h2⟩
      · rintro ⟨h1, h2⟩
        by_cases hs : s = q
        · subst hs; exact .inr ⟨rfl, h2⟩
        · exact .inl ⟨by omega, h2⟩
    have split_q : ∀ a s w, (s = q ∧ (a, (q, w)) ∈ getRow rows0 q) ∨
        (q + 1 ≤ s ∧ (a, (q, w)) ∈ getRow rows0 s) ↔ q ≤ s ∧ (a, (q, w)) ∈ getRow rows0 s := by
      intro a s w
      constructor
      · rintro (⟨rfl, h⟩ | ⟨h1, h⟩)
        · exact ⟨le_refl _, h⟩
        · exact ⟨by omega, h⟩
      · rintro ⟨h1, h⟩
        by_cases hs : s = q
        · subst hs; exact .inl ⟨rfl, h⟩
        · exact .inr ⟨by omega, h⟩
    cases hf : mapFind q tmp2 with
    | none =>
      refine ih (by omega) rows2 tmp2 ⟨i1, i2, i3, i4, ?_, holdrow, ?_, hpend⟩
      · intro p hp
        have h1 := hlt2 p hp
        have h2 := (mapFind_eq_none_iff q tmp2).mp hf
        have : p ≠ q := fun hpq => h2 (hpq ▸ hp)
        omega
      · intro p hp a s w
        by_cases hpq : p = q
        · subst hpq
          have hempty : ∀ a s w, ¬ (p + 1 ≤ s ∧ (a, (p, w)) ∈ getRow rows0 s) := by
            intro a s w hx
            rw [← htmpq] at hx
            simp [getRow, hf] at hx
          rw [hrow2q, ← split_q]
          have := hempty a s w
          tauto
        · exact hrow2gt p (by omega) a s w
    | some r =>
      have hr2 := sortedKeys_of_range i1
      have hgr := getRow_modify hr2 q (fun row => r.foldl (fun row e => mmInsert e.1 e.2 row) row)
      have hger : ∀ p, getRow (mapErase q tmp2) p = if p = q then [] else getRow tmp2 p := by
        intro p
        have hse := sorted_mapErase i3 q
        by_cases hpq : p = q
        · subst hpq
          rw [if_pos rfl, getRow, (mapFind_eq_none_iff _ _).mpr]; rfl
          intro hx
          obtain ⟨e, he, hep⟩ := List.mem_map.mp hx
          exact ((mem_mapErase p tmp2 e).mp he).2 hep
        · rw [if_neg hpq, getRow, getRow]
          congr 1
          cases hfp : mapFind p tmp2 with
          | none =>
            rw [mapFind_eq_none_iff] at hfp ⊢
            intro hx
            obtain ⟨e, he, hep⟩ := List.mem_map.mp hx
            exact hfp (List.mem_map.mpr ⟨e, ((mem_mapErase q tmp2 e).mp he).1, hep⟩)
          | some v =>
            rw [mapFind_iff hse, mem_mapErase]
            exact ⟨mapFind_mem hfp, hpq⟩
      refine ih (by omega) _ (mapErase q tmp2) ⟨keys_modify_range i1 (by omega) _, ?_, sorted_mapErase i3 q, ?_, ?_,
        ?_, ?_, ?_⟩
      · intro p; rw [hgr]; split
        · exact sorted_foldl_mmInsert _ _ (i2 q)
        · exact i2 p
      · intro p; rw [hger]; split
        · exact List.Pairwise.nil
        · exact i4 p
      · intro p hp
        obtain ⟨e, he, hep⟩ := List.mem_map.mp hp
        rw [mem_mapErase] at he
        have h1 := hlt2 e.1 (List.mem_map_of_mem he.1)
        have h2 := he.2
        subst hep
        omega
      · intro p hp; rw [hgr, if_neg (by omega)]; exact holdrow p hp
      · intro p hp a s w
        rw [hgr]
        by_cases hpq : p = q
        · subst hpq
          have hrr : getRow tmp2 p = r := by simp [getRow, hf]
          rw [if_pos rfl, mem_foldl_mmInsert, hrow2q, ← hrr, htmpq, split_q]
        · rw [if_neg hpq]; exact hrow2gt p (by omega) a s w
      · intro p hp a s w
        rw [hger, if_neg (by omega)]; exact hpend p hp a s w

/-- The loops of `reverse` on a well-formed table. -/
theorem reverse_rows {t : Transducer W} (h : WF t) :
    ∃ rows, reverseLoop (t.transitions.map (·.1)).reverse t.transitions [] = (rows, []) ∧
      rows.map (·.1) = List.range (size t) ∧ (∀ p, SortedRow (getRow rows p)) ∧
      ∀ p a q w, (a, (q, w)) ∈ getRow rows p ↔ Edge t q (a, w) p := by
  have hinv : RevInv (size t) (size t) t.transitions t.transitions [] := by
    refine ⟨h.keys, fun p => row_sorted h p, List.Pairwise.nil, fun p => ?_, by simp, fun _ _ => rfl, ?_, ?_⟩
    · simp [getRow, mapFind, SortedRow]
    · intro p hp a q w
      constructor
      · intro hx
        have : row t p = [] := row_of_ge h (by omega)
        rw [show getRow t.transitions p = row t p from rfl, this] at hx
        simp at hx
      · rintro ⟨hq, hx⟩
        have : row t q = [] := row_of_ge h (by omega)
        rw [show getRow t.transitions q = row t q from rfl, this] at hx
        simp at hx
    · intro p hp a q w
      constructor
      · intro hx; simp [getRow, mapFind] at hx
      · rintro ⟨hq, hx⟩
        have : row t q = [] := row_of_ge h (by omega)
        rw [show getRow t.transitions q = row t q from rfl, this] at hx
        simp at hx
  have hsp := reverseLoop_spec (size t) t.transitions (fun q a p w hx => h.target_lt q (a, w) p hx) (size t)
    (le_refl _) t.transitions [] hinv
  rw [← h.keys] at hsp
  generalize reverseLoop (t.transitions.map (·.1)).reverse t.transitions [] = r at hsp
  obtain ⟨rows, tmp⟩ := r
  have htmp : tmp = [] := by
    cases tmp with
    | nil => rfl
    | cons e _ => have := hsp.tmp_lt e.1 (by simp); omega
  subst htmp
  refine ⟨rows, rfl, hsp.keys, hsp.rows_sorted, fun p a q w => ?_⟩
  have := hsp.new p (Nat.zero_le _) a q w
  simp only [Nat.zero_le, true_and] at this
  exact this

theorem Path.reverse {S L : Type} {E E' : S → L → S → Prop} (hE : ∀ q l p, E' p l q ↔ E q l p) {q p : S} {ls : List L}
    (h : Path E q ls p) : Path E' p ls.reverse q := by
  induction h with
  | nil q => exact .nil q
  | cons he _ ih =>
    rw [List.reverse_cons]
    exact ih.append (.single ((hE _ _ _).mpr he))

variable [Zero W]

theorem reverse_spec {t t1 : Transducer W} (h1 : WF t1) (ε : Int) (hj : joinFinals ε t = .ok t1) {f : Nat} {fw : W}
    (hf : t1.finals = [(f, fw)]) :
    ∃ t', reverse ε t = .ok t' ∧ WF t' ∧ size t' = size t1 ∧ t'.initial = f ∧ t'.finals = [(t1.initial, 0)] ∧
      ∀ q l p, Edge t' p l q ↔ Edge t1 q l p := by
  obtain ⟨rows, hr, hk, hs, hE⟩ := reverse_rows h1
  have hflt : f < size t1 := h1.finals_lt f fw (by simp [Final, hf])
  have hsz : rows.length = size t1 := by
    have := congrArg List.length hk; simpa using this
  refine ⟨{ initial := f, finals := [(t1.initial, 0)], transitions := rows }, ?_, ?_, hsz, rfl, rfl, ?_⟩
  · simp only [Fst.reverse, hj, Res.bind_ok, hr, hf, reverseRest, List.reverse_nil, List.foldl_nil]
    rfl
  · refine ⟨?_, ?_, ?_, ?_, ?_, ?_⟩
    · show rows.map (·.1) = List.range rows.length
      rw [hk, hsz]
    · intro e he
      have := hs e.1
      rw [getRow, mapFind_of_mem (sortedKeys_of_range hk) (show (e.1, e.2) ∈ rows from he)] at this
      exact this
    · show f < rows.length
      omega
    · intro q l p he
      have : Edge t1 p l q := (hE q l.1 p l.2).mp he
      show p < rows.length
      rw [hsz]; exact h1.source_lt this
    · simp [SortedKeys]
    · intro p w hp
      simp only [Final, List.mem_singleton, Prod.mk.injEq] at hp
      show p < rows.length
      rw [hsz, hp.1]; exact h1.initial_lt
  · intro q l p
    exact hE p l.1 q l.2

variable [DecidableEq W]

theorem visible_reverse (ε : Int) (ls : List (Int × W)) : visible ε ls.reverse = (visible ε ls).reverse := by
  simp [visible, List.filter_reverse]

/-- The language of the reversed transducer: the weight of the single final state is gone. -/
theorem reverse_lang {t1 t' : Transducer W} (ε : Int) {f : Nat}
    (hi : t'.initial = f) (hfi : t'.finals = [(t1.initial, 0)]) (hE : ∀ q l p, Edge t' p l q ↔ Edge t1 q l p)
    (w : List (Int × W)) :
    Lang ε t' w ↔ ∃ ls, Path (Edge t1) t1.initial ls f ∧ w.reverse = visible ε ls := by
  rw [Lang, langFrom_single hfi, hi]
  constructor
  · rintro ⟨ls, hp, rfl⟩
    refine ⟨ls.reverse, hp.reverse (fun q l p => (hE p l q).symm), ?_⟩
    rw [visible_append_eps, visible_reverse]
  · rintro ⟨ls, hp, hw⟩
    refine ⟨ls.reverse, hp.reverse hE, ?_⟩
    rw [visible_append_eps, visible_reverse, ← hw, List.reverse_reverse]

end Verif.Fst
