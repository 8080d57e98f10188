import Verif.State.Spec
import Verif.Transducer.Lemmas
import Mathlib.Data.Fintype.Pigeonhole
import Mathlib.Data.List.Nodup
import Mathlib.Algebra.BigOperators.Group.List.Basic

/-! # Lemmas on running a transducer -/

namespace Verif.State

open Verif.Fst (Path)

variable {W : Type} {α : Type}

/-! ## States with the paths they come from -/

/-- An origin, the arcs since then, the node reached. -/
abbrev PE (α W : Type) := α × List (Label W) × Nat

/-- The extensions of a path by one arc that reads `i`. -/
def ext (g : Graph W) (i : Int) (e : PE α W) : List (PE α W) :=
  ((g e.2.2 i).getD []).zipIdx.map fun d => (e.1, e.2.1 ++ [(i, d.2, d.1.1, d.1.2.2)], d.1.2.1)

/-- The state of a path. -/
def recOf (base : α → Rec W) (e : PE α W) : Rec W :=
  { node := e.2.2, seq := (base e.1).seq ++ written e.2.1, dirty := (base e.1).dirty }

theorem mem_ext {g : Graph W} {i : Int} {e e' : PE α W} :
    e' ∈ ext g i e ↔ ∃ l : Label W, l.1 = i ∧ Arc g e.2.2 l e'.2.2 ∧ e'.1 = e.1 ∧ e'.2.1 = e.2.1 ++ [l] := by
  obtain ⟨a, ls, p⟩ := e
  obtain ⟨a', ls', p'⟩ := e'
  simp only [ext, List.mem_map, Arc]
  constructor
  · rintro ⟨⟨⟨o, d, w⟩, j⟩, hd, he⟩
    simp only [Prod.mk.injEq] at he
    obtain ⟨rfl, rfl, rfl⟩ := he
    rw [List.mem_zipIdx_iff_getElem?] at hd
    simp only at hd
    cases hg : g p i with
    | none => rw [hg] at hd; simp at hd
    | some ds =>
      rw [hg] at hd
      exact ⟨(i, j, o, w), rfl, ⟨ds, hg, hd⟩, rfl, rfl⟩
  · rintro ⟨⟨i', j, o, w⟩, rfl, ⟨ds, hg, hd⟩, rfl, rfl⟩
    refine ⟨((o, p', w), j), ?_, rfl⟩
    rw [List.mem_zipIdx_iff_getElem?]
    simp only at hg hd ⊢
    rw [hg]
    exact hd

theorem nodup_ext (g : Graph W) (i : Int) (e : PE α W) : (ext g i e).Nodup := by
  unfold ext
  have h1 : ∀ (l : List (Int × Nat × W)) (k : Nat), (l.zipIdx k).Pairwise (fun a b => a.2 ≠ b.2) := by
    intro l
    induction l with
    | nil => intro k; simp
    | cons x l ih =>
      intro k
      rw [List.zipIdx_cons, List.pairwise_cons]
      refine ⟨?_, ih _⟩
      rintro ⟨y, j⟩ hy
      have := List.le_snd_of_mem_zipIdx hy
      simp only at this ⊢
      omega
  rw [List.Nodup, List.pairwise_map]
  refine (h1 _ 0).imp ?_
  intro a b hab he
  simp only [Prod.mk.injEq, List.append_cancel_left_eq, List.cons.injEq, and_true, true_and] at he
  exact hab he.1.1

theorem written_append (ls ls' : List (Label W)) : written (ls ++ ls') = written ls ++ written ls' := by
  simp [written]

theorem inputs_append (ls ls' : List (Label W)) : inputs (ls ++ ls') = inputs ls ++ inputs ls' := by
  simp [inputs]

theorem applyInto_ext (g : Graph W) {i : Int} (hi : i ≠ 0) (base : α → Rec W) (e : PE α W) :
    (applyInto g i (recOf base e) false).1 = (ext g i e).map (recOf base) := by
  unfold applyInto ext
  obtain ⟨a, ls, p⟩ := e
  simp only [recOf]
  cases hg : g p i with
  | none => simp
  | some ds =>
    simp only [Option.getD_some, List.map_map]
    rw [← List.zipIdx_map_fst 0 ds, List.map_map]
    simp only [List.zipIdx_map_fst]
    refine List.map_congr_left ?_
    rintro ⟨⟨o, d, w⟩, j⟩ _
    simp [recOf, written, hi]

theorem epsSuccs_ext (g : Graph W) (base : α → Rec W) (e : PE α W) :
    epsSuccs g (recOf base e) = (ext g 0 e).map (recOf base) := by
  unfold epsSuccs ext
  obtain ⟨a, ls, p⟩ := e
  simp only [recOf]
  cases hg : g p 0 with
  | none => simp
  | some ds =>
    simp only [Option.getD_some, List.map_map]
    rw [← List.zipIdx_map_fst 0 ds, List.map_map]
    simp only [List.zipIdx_map_fst]
    refine List.map_congr_left ?_
    rintro ⟨⟨o, d, w⟩, j⟩ _
    by_cases ho : o = 0
    · simp [recOf, written, ho]
    · simp [recOf, written, ho]

/-! ## The closure on paths -/

/-- The loop on paths instead of states. -/
def closureP (g : Graph W) : (fuel i : Nat) → List (PE α W) → Option (List (PE α W))
  | fuel, i, ps =>
    match ps[i]? with
    | none => some ps
    | some e =>
      match fuel with
      | 0 => none
      | fuel + 1 => closureP g fuel (i + 1) (ps ++ ext g 0 e)

theorem closureLoop_eq (g : Graph W) (base : α → Rec W) : ∀ (fuel i : Nat) (ps : List (PE α W)),
    closureLoop g fuel i (ps.map (recOf base)) = (closureP g fuel i ps).map (·.map (recOf base)) := by
  intro fuel
  induction fuel with
  | zero =>
    intro i ps
    unfold closureLoop closureP
    rw [List.getElem?_map]
    cases ps[i]? <;> rfl
  | succ fuel ih =>
    intro i ps
    unfold closureLoop closureP
    rw [List.getElem?_map]
    cases ps[i]? with
    | none => rfl
    | some e =>
      simp only [Option.map_some]
      rw [epsSuccs_ext, ← List.map_append, ih]

/-- The path is one of the graph, from the node of its origin. -/
def Real (g : Graph W) (root : α → Nat) (e : PE α W) : Prop := Path (Arc g) (root e.1) e.2.1 e.2.2

theorem arc_det {g : Graph W} {q p p' : Nat} {l : Label W} (h : Arc g q l p) (h' : Arc g q l p') : p = p' := by
  obtain ⟨ds, h1, h2⟩ := h
  obtain ⟨ds', h1', h2'⟩ := h'
  rw [h1] at h1'; cases h1'
  rw [h2] at h2'; cases h2'
  rfl

theorem path_det {g : Graph W} {q p p' : Nat} {ls : List (Label W)} (h : Path (Arc g) q ls p) (h' : Path (Arc g) q ls p') : p = p' := by
  induction h with
  | nil q => exact (Fst.path_nil_iff.1 h').symm ▸ rfl
  | cons he _ ih =>
    obtain ⟨r, h1, h2⟩ := Fst.path_cons_iff.1 h'
    have := arc_det he h1
    subst this
    exact ih h2

theorem real_unique {g : Graph W} {root : α → Nat} {e e' : PE α W} (h : Real g root e) (h' : Real g root e') (h1 : e.1 = e'.1)
    (h2 : e.2.1 = e'.2.1) : e = e' := by
  obtain ⟨a, ls, p⟩ := e
  obtain ⟨a', ls', p'⟩ := e'
  simp only at h1 h2
  subst h1; subst h2
  have := path_det (show Path (Arc g) (root a) ls p from h) h'
  simp only at this
  subst this
  rfl

theorem real_ext {g : Graph W} {root : α → Nat} {i : Int} {e e' : PE α W} (h : Real g root e) (h' : e' ∈ ext g i e) : Real g root e' := by
  obtain ⟨l, -, h1, h2, h3⟩ := mem_ext.1 h'
  unfold Real
  rw [h2, h3]
  exact h.append (Path.single h1)

/-- What the loop maintains, starting from the paths `P`. -/
structure Inv (g : Graph W) (root : α → Nat) (P : List (PE α W)) (i : Nat) (ps : List (PE α W)) : Prop where
  nodup : ps.Nodup
  real : ∀ e ∈ ps, Real g root e
  start : ∀ e ∈ P, e ∈ ps
  closed : ∀ k < i, ∀ e, ps[k]? = some e → ∀ e' ∈ ext g 0 e, ∃ k' : Nat, k < k' ∧ ps[k']? = some e'
  origin : ∀ e ∈ ps, e ∈ P ∨ ∃ k : Nat, k < i ∧ ∃ e0, ps[k]? = some e0 ∧ e ∈ ext g 0 e0

/-- No path of `P` ends with an arc that reads nothing. -/
def Fresh (P : List (PE α W)) : Prop := ∀ e ∈ P, ∀ ls (l : Label W), e.2.1 = ls ++ [l] → l.1 ≠ 0

theorem Inv.step {g : Graph W} {root : α → Nat} {P : List (PE α W)} (hP : Fresh P) {i : Nat} {ps : List (PE α W)} (h : Inv g root P i ps) {e : PE α W}
    (he : ps[i]? = some e) : Inv g root P (i + 1) (ps ++ ext g 0 e) := by
  obtain ⟨hi, hi'⟩ := List.getElem?_eq_some_iff.1 he
  have hmem : e ∈ ps := List.mem_of_getElem? he
  have hget : ∀ (k : Nat) x, ps[k]? = some x → (ps ++ ext g 0 e)[k]? = some x := by
    intro k x hx
    rw [List.getElem?_append_left (List.getElem?_eq_some_iff.1 hx).1]; exact hx
  refine ⟨?_, ?_, ?_, ?_, ?_⟩
  · rw [List.nodup_append]
    refine ⟨h.nodup, nodup_ext g 0 e, ?_⟩
    rintro x hx y hy rfl
    obtain ⟨l, l0, -, l1, l2⟩ := mem_ext.1 hy
    rcases h.origin x hx with hx | ⟨k, hk, e0, hk', hx⟩
    · exact hP x hx _ l l2 l0
    · obtain ⟨m, m0, ma, m1, m2⟩ := mem_ext.1 hx
      rw [l2] at m2
      have hm := List.append_inj' m2 rfl
      have heq : e = e0 := real_unique (h.real e hmem) (h.real e0 (List.mem_of_getElem? hk')) (l1.symm.trans m1) hm.1
      subst heq
      obtain ⟨hk1, hk2⟩ := List.getElem?_eq_some_iff.1 hk'
      have := (List.Nodup.getElem_inj_iff h.nodup (hi := hi) (hj := hk1)).1 (hi'.trans hk2.symm)
      omega
  · intro x hx
    rcases List.mem_append.1 hx with hx | hx
    · exact h.real x hx
    · exact real_ext (h.real e hmem) hx
  · intro x hx; exact List.mem_append_left _ (h.start x hx)
  · intro k hk x hx x' hx'
    by_cases hki : k < i
    · rw [List.getElem?_append_left (by omega)] at hx
      obtain ⟨k', h1, h2⟩ := h.closed k hki x hx x' hx'
      exact ⟨k', h1, hget _ _ h2⟩
    · obtain rfl : k = i := by omega
      rw [hget _ _ he] at hx
      cases hx
      obtain ⟨j, hj, hj'⟩ := List.mem_iff_getElem.1 hx'
      refine ⟨ps.length + j, by omega, ?_⟩
      rw [List.getElem?_append_right (by omega)]
      simp [hj, hj']
  · intro x hx
    rcases List.mem_append.1 hx with hx | hx
    · rcases h.origin x hx with hx | ⟨k, hk, e0, h1, h2⟩
      · exact .inl hx
      · exact .inr ⟨k, by omega, e0, hget _ _ h1, h2⟩
    · exact .inr ⟨i, by omega, e, hget _ _ he, hx⟩

theorem Inv.loop {g : Graph W} {root : α → Nat} {P : List (PE α W)} (hP : Fresh P) : ∀ (fuel i : Nat) (ps ps' : List (PE α W)),
    Inv g root P i ps → closureP g fuel i ps = some ps' → ∃ n, ps'.length ≤ n ∧ Inv g root P n ps' := by
  intro fuel
  induction fuel with
  | zero =>
    intro i ps ps' h hc
    unfold closureP at hc
    cases hi : ps[i]? with
    | none =>
      rw [hi] at hc
      simp only [Option.some.injEq] at hc
      subst hc
      exact ⟨i, List.getElem?_eq_none_iff.1 hi, h⟩
    | some e => rw [hi] at hc; simp at hc
  | succ fuel ih =>
    intro i ps ps' h hc
    unfold closureP at hc
    cases hi : ps[i]? with
    | none =>
      rw [hi] at hc
      simp only [Option.some.injEq] at hc
      subst hc
      exact ⟨i, List.getElem?_eq_none_iff.1 hi, h⟩
    | some e =>
      rw [hi] at hc
      exact ih _ _ _ (h.step hP hi) hc

/-- The result: all paths that prolong one of `P` by arcs that read nothing, each once. -/
theorem closureP_spec {g : Graph W} {root : α → Nat} {P : List (PE α W)} (hP : Fresh P) (hn : P.Nodup) (hr : ∀ e ∈ P, Real g root e)
    {fuel : Nat} {ps : List (PE α W)} (h : closureP g fuel 0 P = some ps) :
    ps.Nodup ∧ (∀ e ∈ ps, Real g root e) ∧
      ∀ e : PE α W, e ∈ ps ↔ ∃ e0 ∈ P, ∃ ls, EpsPath g e0.2.2 ls e.2.2 ∧ e.1 = e0.1 ∧ e.2.1 = e0.2.1 ++ ls := by
  obtain ⟨n, hn', hI⟩ := Inv.loop hP fuel 0 P ps
    ⟨hn, hr, fun _ h => h, fun _ hk => by omega, fun _ h => .inl h⟩ h
  refine ⟨hI.nodup, hI.real, ?_⟩
  intro e
  constructor
  · intro he
    have : ∀ (m : Nat) (e : PE α W), e.2.1.length ≤ m → e ∈ ps →
        ∃ e0 ∈ P, ∃ ls, EpsPath g e0.2.2 ls e.2.2 ∧ e.1 = e0.1 ∧ e.2.1 = e0.2.1 ++ ls := by
      intro m
      induction m with
      | zero =>
        intro e hm he
        rcases hI.origin e he with he | ⟨k, hk, e0, h1, h2⟩
        · exact ⟨e, he, [], ⟨.nil _, by simp⟩, rfl, by simp⟩
        · obtain ⟨l, -, -, -, h5⟩ := mem_ext.1 h2
          rw [h5] at hm; simp at hm
      | succ m ih =>
        intro e hm he
        rcases hI.origin e he with he | ⟨k, hk, e1, h1, h2⟩
        · exact ⟨e, he, [], ⟨.nil _, by simp⟩, rfl, by simp⟩
        · obtain ⟨l, h3, h4, h5, h6⟩ := mem_ext.1 h2
          obtain ⟨e0, k1, ls, k2, k3, k4⟩ := ih e1 (by rw [h6, List.length_append] at hm; simpa using hm) (List.mem_of_getElem? h1)
          refine ⟨e0, k1, ls ++ [l], ⟨k2.1.append (Path.single h4), ?_⟩, h5.trans k3, by rw [h6, k4, List.append_assoc]⟩
          intro x hx
          rcases List.mem_append.1 hx with hx | hx
          · exact k2.2 x hx
          · rw [List.mem_singleton.1 hx]; exact h3
    exact this _ e (le_refl _) he
  · rintro ⟨e0, h0, ls, ⟨h1, h1'⟩, h2, h3⟩
    have : ∀ (q : Nat) (ls : List (Label W)) (p : Nat), Path (Arc g) q ls p → (∀ l ∈ ls, l.1 = 0) → ∀ e0 ∈ ps, e0.2.2 = q →
        ((e0.1, e0.2.1 ++ ls, p) : PE α W) ∈ ps := by
      intro q ls p hp
      induction hp with
      | nil q => rintro - ⟨a, l, p⟩ h0 rfl; simpa using h0
      | @cons q r p l ls he _ ih =>
        intro hl e0 h0 hq
        obtain ⟨k, hk⟩ := List.mem_iff_getElem?.1 h0
        obtain ⟨k', -, hk'⟩ := hI.closed k (by have := (List.getElem?_eq_some_iff.1 hk).1; omega) e0 hk
          ((e0.1, e0.2.1 ++ [l], r) : PE α W) (mem_ext.2 ⟨l, hl l (by simp), by rw [hq]; exact he, rfl, rfl⟩)
        have := ih (fun x hx => hl x (by simp [hx])) _ (List.mem_of_getElem? hk') rfl
        simpa using this
    have := this _ ls _ h1 h1' e0 (hI.start e0 h0) rfl
    rw [← h2, ← h3] at this
    exact this

/-! ## When the closure ends -/

/-- All paths of arcs that read nothing from `q` have length at most `k`. -/
def Bounded (g : Graph W) (k q : Nat) : Prop := ∀ ls p, EpsPath g q ls p → ls.length ≤ k

/-- How many such paths there are, of length up to `k`. -/
def cost (g : Graph W) : Nat → Nat → Nat
  | 0, _ => 1
  | k + 1, q => 1 + (((g q 0).getD []).map fun d => cost g k d.2.1).sum

theorem bounded_succ {g : Graph W} {k q : Nat} (h : Bounded g (k + 1) q) {d : Int × Nat × W} (hd : d ∈ (g q 0).getD []) : Bounded g k d.2.1 := by
  intro ls p hp
  obtain ⟨j, hj⟩ := List.mem_iff_getElem?.1 hd
  cases hg : g q 0 with
  | none => rw [hg] at hd; simp at hd
  | some ds =>
    rw [hg] at hj
    have : EpsPath g q ((0, j, d.1, d.2.2) :: ls) p := by
      refine ⟨.cons ⟨ds, hg, hj⟩ hp.1, ?_⟩
      intro l hl
      rcases List.mem_cons.1 hl with rfl | hl
      · rfl
      · exact hp.2 l hl
    have := h _ _ this
    simpa using this

theorem bounded_zero {g : Graph W} {q : Nat} (h : Bounded g 0 q) : (g q 0).getD [] = [] := by
  rw [List.eq_nil_iff_forall_not_mem]
  intro d hd
  obtain ⟨j, hj⟩ := List.mem_iff_getElem?.1 hd
  cases hg : g q 0 with
  | none => rw [hg] at hd; simp at hd
  | some ds =>
    rw [hg] at hj
    have := h [(0, j, d.1, d.2.2)] d.2.1 ⟨.cons ⟨ds, hg, hj⟩ (.nil _), by simp⟩
    simp at this

theorem cost_stable {g : Graph W} : ∀ {k q : Nat}, Bounded g k q → cost g (k + 1) q = cost g k q := by
  intro k
  induction k with
  | zero =>
    intro q h
    simp [cost, bounded_zero h]
  | succ k ih =>
    intro q h
    rw [cost, cost]
    congr 2
    refine List.map_congr_left ?_
    intro d hd
    exact ih (bounded_succ h hd)

theorem cost_pos (g : Graph W) (k q : Nat) : 1 ≤ cost g k q := by
  cases k with
  | zero => exact le_refl _
  | succ k => simp only [cost]; omega

/-- The loop ends after as many rounds as there are paths. -/
theorem closureP_ends {g : Graph W} {k : Nat} : ∀ (fuel i : Nat) (ps : List (PE α W)), (∀ e ∈ ps.drop i, Bounded g k e.2.2) →
    ((ps.drop i).map fun e => cost g k e.2.2).sum ≤ fuel → ∃ ps', closureP g fuel i ps = some ps' := by
  intro fuel
  induction fuel with
  | zero =>
    intro i ps hb hf
    unfold closureP
    cases hi : ps[i]? with
    | none => exact ⟨ps, rfl⟩
    | some e =>
      obtain ⟨h1, h2⟩ := List.getElem?_eq_some_iff.1 hi
      rw [List.drop_eq_getElem_cons h1] at hf
      have := cost_pos g k ps[i].2.2
      simp only [List.map_cons, List.sum_cons] at hf
      omega
  | succ fuel ih =>
    intro i ps hb hf
    unfold closureP
    cases hi : ps[i]? with
    | none => exact ⟨ps, rfl⟩
    | some e =>
      obtain ⟨h1, h2⟩ := List.getElem?_eq_some_iff.1 hi
      simp only
      have hdrop : ps.drop i = e :: ps.drop (i + 1) := by rw [List.drop_eq_getElem_cons h1, h2]
      have hdrop' : (ps ++ ext g 0 e).drop (i + 1) = ps.drop (i + 1) ++ ext g 0 e := by
        rw [List.drop_append_of_le_length (by omega)]
      rw [hdrop] at hb hf
      have hbe := hb e (by simp)
      have hext : ∀ e' ∈ ext g 0 e, ∃ d ∈ (g e.2.2 0).getD [], e'.2.2 = d.2.1 := by
        intro e' he'
        simp only [ext, List.mem_map] at he'
        obtain ⟨⟨d, j⟩, hd, rfl⟩ := he'
        exact ⟨d, List.fst_mem_of_mem_zipIdx hd, rfl⟩
      have hsum : ((ext g 0 e).map fun e => cost g k e.2.2).sum = (((g e.2.2 0).getD []).map fun d => cost g k d.2.1).sum := by
        unfold ext
        rw [List.map_map]
        conv_rhs => rw [← List.zipIdx_map_fst 0 ((g e.2.2 0).getD []), List.map_map]
        rfl
      refine ih _ _ ?_ ?_
      · rw [hdrop']
        intro e' he'
        rcases List.mem_append.1 he' with he' | he'
        · exact hb e' (by simp [he'])
        · obtain ⟨d, hd, hd'⟩ := hext e' he'
          rw [hd']
          cases k with
          | zero => rw [bounded_zero hbe] at hd; simp at hd
          | succ k =>
            intro ls p hp
            have := bounded_succ hbe hd ls p hp
            omega
      · rw [hdrop', List.map_append, List.sum_append, hsum]
        simp only [List.map_cons, List.sum_cons] at hf
        cases k with
        | zero => rw [bounded_zero hbe]; simp only [cost] at hf ⊢; simp at hf ⊢; omega
        | succ k =>
          have e1 : (((g e.2.2 0).getD []).map fun d => cost g (k + 1) d.2.1) = (((g e.2.2 0).getD []).map fun d => cost g k d.2.1) := by
            refine List.map_congr_left ?_
            intro d hd
            exact cost_stable (bounded_succ hbe hd)
          rw [e1]
          have e2 : cost g (k + 1) e.2.2 = 1 + (((g e.2.2 0).getD []).map fun d => cost g k d.2.1).sum := rfl
          omega

/-- If it ends, the paths are bounded. -/
theorem closureP_bounded {g : Graph W} {root : α → Nat} {P : List (PE α W)} (hP : Fresh P) (hn : P.Nodup) (hr : ∀ e ∈ P, Real g root e)
    {fuel : Nat} {ps : List (PE α W)} (h : closureP g fuel 0 P = some ps) : ∀ e ∈ P, Bounded g ps.length e.2.2 := by
  obtain ⟨n, hn', hI⟩ := Inv.loop hP fuel 0 P ps
    ⟨hn, hr, fun _ h => h, fun _ hk => by omega, fun _ h => .inl h⟩ h
  intro e he ls p ⟨hp, hl⟩
  have key : ∀ (q : Nat) (ls : List (Label W)) (p : Nat), Path (Arc g) q ls p → (∀ l ∈ ls, l.1 = 0) → ∀ (k : Nat) e0, ps[k]? = some e0 → e0.2.2 = q →
      ∃ k' : Nat, k + ls.length ≤ k' ∧ k' < ps.length := by
    intro q ls p hp
    induction hp with
    | nil q => intro _ k e0 hk _; exact ⟨k, by simp, (List.getElem?_eq_some_iff.1 hk).1⟩
    | @cons q r p l ls he _ ih =>
      intro hl k e0 hk hq
      obtain ⟨k', h1, hk'⟩ := hI.closed k (by have := (List.getElem?_eq_some_iff.1 hk).1; omega) e0 hk
        ((e0.1, e0.2.1 ++ [l], r) : PE α W) (mem_ext.2 ⟨l, hl l (by simp), by rw [hq]; exact he, rfl, rfl⟩)
      obtain ⟨k2, h2, h3⟩ := ih (fun x hx => hl x (by simp [hx])) k' _ hk' rfl
      exact ⟨k2, by simp only [List.length_cons]; omega, h3⟩
  obtain ⟨k, hk⟩ := List.mem_iff_getElem?.1 (hI.start e he)
  obtain ⟨k', h1, h2⟩ := key _ ls p hp hl k e hk rfl
  omega

/-- A longer run gives the same. -/
theorem closureP_mono {g : Graph W} : ∀ (fuel fuel' i : Nat) (ps ps' : List (PE α W)), closureP g fuel i ps = some ps' → fuel ≤ fuel' →
    closureP g fuel' i ps = some ps' := by
  intro fuel
  induction fuel with
  | zero =>
    intro fuel' i ps ps' h _
    unfold closureP at h ⊢
    cases hi : ps[i]? with
    | none => rw [hi] at h; exact h
    | some e => rw [hi] at h; simp at h
  | succ fuel ih =>
    intro fuel' i ps ps' h hle
    obtain ⟨f, rfl⟩ : ∃ f, fuel' = f + 1 := ⟨fuel' - 1, by omega⟩
    unfold closureP at h ⊢
    cases hi : ps[i]? with
    | none => rw [hi] at h; exact h
    | some e => rw [hi] at h; exact ih _ _ _ _ h (by omega)

/-- In a finite graph, the paths are bounded if and only if there is no cycle. -/
theorem bounded_iff {g : Graph W} {n : Nat} (hf : Finite g n) (q : Nat) : NoEpsCycle g q ↔ ∃ k, Bounded g k q := by
  constructor
  · intro h
    refine ⟨n, ?_⟩
    intro ls p hp
    by_contra hlen
    -- the nodes after each of the first n+1 arcs
    have hsplit : ∀ i : Fin (n + 1), ∃ r, EpsPath g q (ls.take (i + 1)) r ∧ EpsPath g r (ls.drop (i + 1)) p ∧ r < n := by
      intro i
      obtain ⟨r, h1, h2⟩ := Path.split (xs := ls.take (i + 1)) (ys := ls.drop (i + 1)) (by rw [List.take_append_drop]; exact hp.1)
      refine ⟨r, ⟨h1, fun l hl => hp.2 l (List.mem_of_mem_take hl)⟩, ⟨h2, fun l hl => hp.2 l (List.mem_of_mem_drop hl)⟩, ?_⟩
      have hlt : (i : Nat) < ls.length := by omega
      rw [List.take_succ_eq_append_getElem hlt] at h1
      obtain ⟨r', -, h4⟩ := Path.split h1
      obtain ⟨r'', h5, h6⟩ := Fst.path_cons_iff.1 h4
      have := Fst.path_nil_iff.1 h6
      subst this
      exact (hf _ _ _ h5).2
    choose f hf1 hf2 hf3 using hsplit
    obtain ⟨i, j, hij, heq⟩ := Fintype.exists_ne_map_eq_of_card_lt (fun i : Fin (n + 1) => (⟨f i, hf3 i⟩ : Fin n)) (by simp)
    have heq' : f i = f j := by simpa using heq
    have main : ∀ i j : Fin (n + 1), i < j → f i = f j → False := by
      intro i j hlt he
      have hdrop : ls.drop (i + 1) = (ls.drop (i + 1)).take (j - i) ++ ls.drop (j + 1) := by
        conv_lhs => rw [← List.take_append_drop (j - i : Nat) (ls.drop (i + 1))]
        rw [List.drop_drop]
        congr 2
        have : (i : Nat) < j := hlt
        omega
      have h2 := hf2 i
      have htk : ls.take (j + 1) = ls.take (i + 1) ++ (ls.drop (i + 1)).take (j - i) := by
        have hl : (i : Nat) < j := hlt
        rw [show (j : Nat) + 1 = (i + 1) + (j - i) by omega, List.take_add]
      have h1 := (hf1 j).1
      rw [htk] at h1
      obtain ⟨r, k1, k2⟩ := Path.split h1
      have := path_det k1 (hf1 i).1
      subst this
      rw [← he] at k2
      have := h _ _ (hf1 i) _ ⟨k2, fun l hl => hp.2 l (List.mem_of_mem_drop (List.mem_of_mem_take hl))⟩
      have hlen' := congrArg List.length this
      simp only [List.length_take, List.length_drop, List.length_nil] at hlen'
      have hl : (i : Nat) < j := hlt
      have hj : (j : Nat) < n + 1 := j.2
      omega
    rcases lt_or_gt_of_ne hij with h' | h'
    · exact main i j h' heq'
    · exact main j i h' heq'.symm
  · rintro ⟨k, hk⟩ ls p hp ls' hp'
    by_contra hne
    have hpow : ∀ m : Nat, ∃ u, EpsPath g p u p ∧ m ≤ u.length := by
      intro m
      induction m with
      | zero => exact ⟨[], ⟨.nil _, by simp⟩, by simp⟩
      | succ m ih =>
        obtain ⟨u, h1, h2⟩ := ih
        refine ⟨ls' ++ u, ⟨hp'.1.append h1.1, ?_⟩, ?_⟩
        · intro l hl
          rcases List.mem_append.1 hl with hl | hl
          · exact hp'.2 l hl
          · exact h1.2 l hl
        · have : 1 ≤ ls'.length := List.length_pos_iff.2 hne
          simp only [List.length_append]; omega
    obtain ⟨u, h1, h2⟩ := hpow (k + 1)
    have := hk (ls ++ u) p ⟨hp.1.append h1.1, by
      intro l hl
      rcases List.mem_append.1 hl with hl | hl
      · exact hp.2 l hl
      · exact h1.2 l hl⟩
    simp only [List.length_append] at this
    omega

end Verif.State
