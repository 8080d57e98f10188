import Verif.Load.Spec
import Verif.Str.Props

/-! # Lemmas about the joined graph -/

namespace Verif.Load

open Verif.State Verif.Fst
open Verif.BinIO (TransExe)
open Verif.Compression (Dbl)

variable {W : Type} {v : Dbl → W}

/-! ## Places -/

theorem Placed.le {base : Nat} {es : List (UString × TransExe)} {b : Nat} {e : UString × TransExe} (h : Placed base es b e) : base ≤ b := by
  induction h with
  | here => exact Nat.le_refl _
  | there _ ih => omega

theorem Placed.mem {base : Nat} {es : List (UString × TransExe)} {b : Nat} {e : UString × TransExe} (h : Placed base es b e) : e ∈ es := by
  induction h with
  | here => exact List.mem_cons_self
  | there _ ih => exact List.mem_cons_of_mem _ ih

theorem placed_of_mem {es : List (UString × TransExe)} {e : UString × TransExe} (h : e ∈ es) (base : Nat) : ∃ b, Placed base es b e := by
  induction es generalizing base with
  | nil => cases h
  | cons e' es ih =>
    rcases List.mem_cons.1 h with rfl | h
    · exact ⟨base, .here⟩
    · obtain ⟨b, hb⟩ := ih h (base + e'.2.nodes.length)
      exact ⟨b, .there hb⟩

theorem Placed.unique {base : Nat} {es : List (UString × TransExe)} {b b' : Nat} {e e' : UString × TransExe} (h : Placed base es b e)
    (h' : Placed base es b' e') {q q' : Nat} (hq : q < e.2.nodes.length) (hq' : q' < e'.2.nodes.length) (he : b + q = b' + q') : b = b' ∧ e = e' ∧ q = q' := by
  induction h with
  | here =>
    cases h' with
    | here => exact ⟨rfl, rfl, by omega⟩
    | there h' => have := h'.le; omega
  | there h ih =>
    cases h' with
    | here => have := h.le; omega
    | there h' => exact ih h' hq he

theorem placed_cons {base : Nat} {e' : UString × TransExe} {es : List (UString × TransExe)} {b : Nat} {e : UString × TransExe} :
    Placed base (e' :: es) b e ↔ (b = base ∧ e = e') ∨ Placed (base + e'.2.nodes.length) es b e := by
  constructor
  · rintro (_ | h)
    · exact .inl ⟨rfl, rfl⟩
    · exact .inr h
  · rintro (⟨rfl, rfl⟩ | h)
    · exact .here
    · exact .there h

/-! ## Arcs -/

theorem graphFrom_placed {base : Nat} {es : List (UString × TransExe)} {b : Nat} {e : UString × TransExe} (h : Placed base es b e) {q : Nat}
    (hq : q < e.2.nodes.length) (i : Int) :
    graphFrom v base es (b + q) i = (graphOf e.2 q i).map fun ds => ds.map fun d => (d.1, b + d.2.1, v d.2.2) := by
  induction h with
  | here =>
    rw [graphFrom, if_neg (by omega), if_pos (by omega), Nat.add_sub_cancel_left]
    rfl
  | there h ih =>
    have := h.le
    rw [graphFrom, if_neg (by omega), if_neg (by omega), ih hq]

theorem graphFrom_some {base : Nat} {es : List (UString × TransExe)} {q : Nat} {i : Int} {ds : List (Int × Nat × W)} (h : graphFrom v base es q i = some ds) :
    ∃ b e q0, Placed base es b e ∧ q0 < e.2.nodes.length ∧ q = b + q0 := by
  induction es generalizing base with
  | nil => cases h
  | cons e es ih =>
    rw [graphFrom] at h
    split at h
    · cases h
    · split at h
      · exact ⟨base, e, q - base, .here, by omega, by omega⟩
      · obtain ⟨b, e', q0, h1, h2, h3⟩ := ih h
        exact ⟨b, e', q0, .there h1, h2, h3⟩

theorem arc_placed {base : Nat} {es : List (UString × TransExe)} {b : Nat} {e : UString × TransExe} (h : Placed base es b e) {q : Nat} (hq : q < e.2.nodes.length)
    {l : Label W} {p : Nat} : Arc (graphFrom v base es) (b + q) l p ↔ ∃ l0 p0, Arc (graphOf e.2) q l0 p0 ∧ l = lift v l0 ∧ p = b + p0 := by
  constructor
  · rintro ⟨ds, h1, h2⟩
    rw [graphFrom_placed h hq] at h1
    cases hg : graphOf e.2 q l.1 with
    | none => rw [hg] at h1; cases h1
    | some ds0 =>
      rw [hg, Option.map_some, Option.some.injEq] at h1
      subst h1
      rw [List.getElem?_map] at h2
      cases hd : ds0[l.2.1]? with
      | none => rw [hd] at h2; cases h2
      | some d =>
        rw [hd, Option.map_some, Option.some.injEq, Prod.mk.injEq, Prod.mk.injEq] at h2
        refine ⟨(l.1, l.2.1, d.1, d.2.2), d.2.1, ⟨ds0, hg, hd⟩, ?_, h2.2.1.symm⟩
        obtain ⟨l1, l2, l3, l4⟩ := l
        simp only at h2 ⊢
        rw [lift, ← h2.1, ← h2.2.2]
  · rintro ⟨l0, p0, ⟨ds, h1, h2⟩, rfl, rfl⟩
    refine ⟨ds.map fun d => (d.1, b + d.2.1, v d.2.2), ?_, ?_⟩
    · rw [graphFrom_placed h hq]
      simp only [lift, h1, Option.map_some]
    · simp only [lift, List.getElem?_map, h2, Option.map_some]

theorem arc_from {base : Nat} {es : List (UString × TransExe)} {q : Nat} {l : Label W} {p : Nat} (h : Arc (graphFrom v base es) q l p) :
    ∃ b e q0 l0 p0, Placed base es b e ∧ q0 < e.2.nodes.length ∧ Arc (graphOf e.2) q0 l0 p0 ∧ q = b + q0 ∧ l = lift v l0 ∧ p = b + p0 := by
  obtain ⟨ds, h1, -⟩ := id h
  obtain ⟨b, e, q0, h2, h3, rfl⟩ := graphFrom_some h1
  obtain ⟨l0, p0, h4, h5, h6⟩ := (arc_placed h2 h3).1 h
  exact ⟨b, e, q0, l0, p0, h2, h3, h4, rfl, h5, h6⟩

theorem path_placed {base : Nat} {es : List (UString × TransExe)} (hs : ∀ e ∈ es, Sound e.2) {b : Nat} {e : UString × TransExe} (h : Placed base es b e)
    {ls : List (Label W)} {q p : Nat} (hq : q < e.2.nodes.length) :
    Path (Arc (graphFrom v base es)) (b + q) ls p ↔
      ∃ ls0 p0, ls = ls0.map (lift v) ∧ p = b + p0 ∧ p0 < e.2.nodes.length ∧ Path (Arc (graphOf e.2)) q ls0 p0 := by
  induction ls generalizing q with
  | nil =>
    rw [path_nil_iff]
    constructor
    · rintro rfl
      exact ⟨[], q, rfl, rfl, hq, .nil q⟩
    · rintro ⟨ls0, p0, h1, rfl, -, h3⟩
      obtain rfl : ls0 = [] := by simpa using h1.symm
      rw [path_nil_iff] at h3
      rw [h3]
  | cons l ls ih =>
    rw [path_cons_iff]
    constructor
    · rintro ⟨m, h1, h2⟩
      obtain ⟨l0, m0, h3, rfl, rfl⟩ := (arc_placed h hq).1 h1
      obtain ⟨ls0, p0, rfl, h4, h5, h6⟩ := (ih ((hs e h.mem).target _ _ _ h3)).1 h2
      exact ⟨l0 :: ls0, p0, rfl, h4, h5, .cons h3 h6⟩
    · rintro ⟨ls0, p0, h1, h2, h3, h4⟩
      cases ls0 with
      | nil => cases h1
      | cons l0 ls0 =>
        rw [List.map_cons, List.cons.injEq] at h1
        obtain ⟨rfl, rfl⟩ := h1
        obtain ⟨m0, h5, h6⟩ := path_cons_iff.1 h4
        exact ⟨b + m0, (arc_placed h hq).2 ⟨l0, m0, h5, rfl, rfl⟩, (ih ((hs e h.mem).target _ _ _ h5)).2 ⟨ls0, p0, rfl, h2, h3, h6⟩⟩

/-! ## The root -/

theorem rootArcs_ok {es : List (UString × TransExe)} (hs : ∀ e ∈ es, Sound e.2) (base : Nat) :
    ∃ ds, rootArcs v base es = .ok ds ∧ ∀ d, d ∈ ds ↔ ∃ b e, Placed base es b e ∧ d = (0, b + e.2.initial, v 0) := by
  induction es generalizing base with
  | nil => exact ⟨[], rfl, fun d => ⟨fun h => (by cases h), by rintro ⟨b, e, h, -⟩; cases h⟩⟩
  | cons e es ih =>
    obtain ⟨ds, h1, h2⟩ := ih (fun e he => hs e (List.mem_cons_of_mem _ he)) (base + e.2.nodes.length)
    refine ⟨_, by rw [rootArcs, if_pos (hs e List.mem_cons_self).initial, h1]; rfl, fun d => ?_⟩
    rw [List.mem_cons, h2]
    constructor
    · rintro (rfl | ⟨b, e', h3, h4⟩)
      · exact ⟨base, e, .here, rfl⟩
      · exact ⟨b, e', .there h3, h4⟩
    · rintro ⟨b, e', h3, h4⟩
      rcases placed_cons.1 h3 with ⟨rfl, rfl⟩ | h3
      · exact .inl h4
      · exact .inr ⟨b, e', h3, h4⟩

section
variable {es : List (UString × TransExe)} {ds : List (Int × Nat × W)}

theorem joined_succ {q : Nat} (hq : q ≠ 0) (i : Int) : joined v ds es q i = graphFrom v 1 es q i := by rw [joined, if_neg hq]

theorem arc_joined {q : Nat} (hq : q ≠ 0) {l : Label W} {p : Nat} : Arc (joined v ds es) q l p ↔ Arc (graphFrom v 1 es) q l p := by
  unfold Arc
  simp only [joined_succ hq]

/-- No arc leads to the root. -/
theorem arc_target (hds : ∀ d ∈ ds, d.2.1 ≠ 0) {q : Nat} {l : Label W} {p : Nat} (h : Arc (joined v ds es) q l p) : p ≠ 0 := by
  by_cases hq : q = 0
  · subst hq
    obtain ⟨ds', h1, h2⟩ := h
    unfold joined at h1
    rw [if_pos rfl] at h1
    split at h1
    · cases h1
      exact hds _ (List.mem_of_getElem? h2)
    · cases h1
  · obtain ⟨b, e, q0, l0, p0, h1, -, -, -, -, rfl⟩ := arc_from ((arc_joined hq).1 h)
    have := h1.le
    omega

theorem path_joined {q : Nat} (hq : q ≠ 0) {ls : List (Label W)} {p : Nat} : Path (Arc (joined v ds es)) q ls p ↔ Path (Arc (graphFrom v 1 es)) q ls p := by
  induction ls generalizing q with
  | nil => rw [path_nil_iff, path_nil_iff]
  | cons l ls ih =>
    rw [path_cons_iff, path_cons_iff]
    refine exists_congr fun m => ?_
    rw [arc_joined hq]
    refine and_congr_right fun h => ih ?_
    obtain ⟨b, e, q0, l0, p0, h1, -, -, -, -, rfl⟩ := arc_from h
    have := h1.le
    omega

/-- The paths from the root are those of the transducers, after an empty arc. -/
theorem path_root (hs : ∀ e ∈ es, Sound e.2) (hds : ∀ d, d ∈ ds ↔ ∃ b e, Placed 1 es b e ∧ d = (0, b + e.2.initial, v 0)) {ls : List (Label W)} {p : Nat} :
    Path (Arc (joined v ds es)) 0 ls p ↔ (ls = [] ∧ p = 0) ∨ ∃ b e k ls0 p0, Placed 1 es b e ∧ ds[k]? = some (0, b + e.2.initial, v 0) ∧
      ls = (0, k, 0, v 0) :: ls0.map (lift v) ∧ p = b + p0 ∧ p0 < e.2.nodes.length ∧ Path (Arc (graphOf e.2)) e.2.initial ls0 p0 := by
  have harc : ∀ l m, Arc (joined v ds es) 0 l m ↔ ∃ b e k, Placed 1 es b e ∧ ds[k]? = some (0, b + e.2.initial, v 0) ∧ l = (0, k, 0, v 0) ∧ m = b + e.2.initial := by
    rintro ⟨l1, l2, l3, l4⟩ m
    constructor
    · rintro ⟨ds', h1, h2⟩
      unfold joined at h1
      rw [if_pos rfl] at h1
      split at h1
      · next hc =>
        cases h1
        obtain ⟨b, e, h3, h4⟩ := (hds _).1 (List.mem_of_getElem? h2)
        refine ⟨b, e, l2, h3, by rw [← h4]; exact h2, ?_, ?_⟩
        · simp only [Prod.mk.injEq] at h4 hc ⊢
          exact ⟨hc.1, trivial, h4.1, h4.2.2⟩
        · simp only [Prod.mk.injEq] at h4
          exact h4.2.1
      · cases h1
    · rintro ⟨b, e, k, h1, h2, h3, rfl⟩
      cases h3
      refine ⟨ds, ?_, h2⟩
      have hne : ds ≠ [] := by rintro rfl; simp at h2
      simp [joined, hne]
  cases ls with
  | nil =>
    rw [path_nil_iff]
    constructor
    · rintro rfl
      exact .inl ⟨rfl, rfl⟩
    · rintro (⟨-, rfl⟩ | ⟨b, e, k, ls0, p0, -, -, h, -⟩)
      · rfl
      · cases h
  | cons l ls =>
    rw [path_cons_iff]
    constructor
    · rintro ⟨m, h1, h2⟩
      obtain ⟨b, e, k, h3, h4, rfl, rfl⟩ := (harc _ _).1 h1
      have := h3.le
      have hi := (hs e h3.mem).initial
      obtain ⟨ls0, p0, rfl, h5, h6, h7⟩ := (path_placed hs h3 hi).1 ((path_joined (by omega)).1 h2)
      exact .inr ⟨b, e, k, ls0, p0, h3, h4, rfl, h5, h6, h7⟩
    · rintro (⟨h, -⟩ | ⟨b, e, k, ls0, p0, h3, h4, h5, h6, h7, h8⟩)
      · cases h
      · cases h5
        have := h3.le
        have hi := (hs e h3.mem).initial
        exact ⟨b + e.2.initial, (harc _ _).2 ⟨b, e, k, h3, h4, rfl, rfl⟩, (path_joined (by omega)).2 ((path_placed hs h3 hi).2 ⟨ls0, p0, rfl, h6, h7, h8⟩)⟩

/-- There are finitely many nodes. -/
theorem joined_finite (hs : ∀ e ∈ es, Sound e.2) (hds : ∀ d, d ∈ ds ↔ ∃ b e, Placed 1 es b e ∧ d = (0, b + e.2.initial, v 0)) : ∃ k, Finite (joined v ds es) k := by
  have hend : ∃ k, ∀ b e, Placed 1 es b e → b + e.2.nodes.length ≤ k := by
    clear hds hs
    have : ∀ (es : List (UString × TransExe)) base, ∃ k, ∀ b e, Placed base es b e → b + e.2.nodes.length ≤ k := by
      intro es
      induction es with
      | nil => exact fun base => ⟨0, fun b e h => by cases h⟩
      | cons e' es ih =>
        intro base
        obtain ⟨k, hk⟩ := ih (base + e'.2.nodes.length)
        refine ⟨max k (base + e'.2.nodes.length), fun b e h => ?_⟩
        rcases placed_cons.1 h with ⟨rfl, rfl⟩ | h
        · omega
        · have := hk b e h
          omega
    exact this es 1
  obtain ⟨k, hk⟩ := hend
  refine ⟨k + 1, fun q l p h => ?_⟩
  by_cases hq : q = 0
  · subst hq
    obtain hp | ⟨b, e, k', ls0, p0, h1, -, -, rfl, h2, -⟩ := (path_root hs hds (ls := [l]) (p := p)).1 (.cons h (.nil p))
    · cases hp.1
    · have := hk b e h1
      omega
  · obtain ⟨b, e, q0, l0, p0, h1, h2, h3, rfl, -, rfl⟩ := arc_from ((arc_joined hq).1 h)
    have := hk b e h1
    have := (hs e h1.mem).target _ _ _ h3
    omega

/-- There are no cycles that read nothing if the transducers have none. -/
theorem joined_noCycle (hs : ∀ e ∈ es, Sound e.2) (hds : ∀ d, d ∈ ds ↔ ∃ b e, Placed 1 es b e ∧ d = (0, b + e.2.initial, v 0))
    (hc : ∀ e ∈ es, ∀ q, NoEpsCycle (graphOf e.2) q) (q : Nat) : NoEpsCycle (joined v ds es) q := by
  intro ls p hp ls' hp'
  clear hp ls
  have h0 : ∀ d ∈ ds, d.2.1 ≠ 0 := by
    intro d hd
    obtain ⟨b, e, h, rfl⟩ := (hds d).1 hd
    have := h.le
    simp only [ne_eq]
    omega
  cases ls' with
  | nil => rfl
  | cons l ls' =>
    exfalso
    have hp0 : p ≠ 0 := by
      have hlast : ∀ {ls : List (Label W)} {q p}, Path (Arc (joined v ds es)) q ls p → ls ≠ [] → p ≠ 0 := by
        intro ls q p h
        induction h with
        | nil => exact fun h => absurd rfl h
        | @cons q m p l ls h1 h2 ih =>
          intro _
          cases ls with
          | nil =>
            rw [path_nil_iff] at h2
            subst h2
            exact arc_target h0 h1
          | cons => exact ih (by simp)
      exact hlast hp'.1 (by simp)
    obtain ⟨m, h1, -⟩ := path_cons_iff.1 hp'.1
    obtain ⟨b, e, q0, l0, p0, g1, g2, -, rfl, -⟩ := arc_from ((arc_joined hp0).1 h1)
    obtain ⟨ls0, p0', g3, g4, g5, g6⟩ := (path_placed hs g1 g2).1 ((path_joined hp0).1 hp'.1)
    obtain rfl : p0' = q0 := by omega
    have := hc e g1.mem p0' [] p0' ⟨.nil _, by simp⟩ ls0 ⟨g6, fun l hl => ?_⟩
    · rw [this] at g3
      cases g3
    · have := hp'.2 (lift v l) (by rw [g3]; exact List.mem_map_of_mem hl)
      exact this

end

/-! ## Final nodes -/

theorem insertAll_eq {new m : List (Nat × W)} (hn : SortedKeys new) (h : ∀ x ∈ m, ∀ y ∈ new, x.1 < y.1) : insertAll new m = m ++ new := by
  unfold insertAll
  induction new generalizing m with
  | nil => simp
  | cons e new ih =>
    have hlast : mapInsert e.1 e.2 m = m ++ [e] := by
      have h' : ∀ x ∈ m, x.1 < e.1 := fun x hx => h x hx e List.mem_cons_self
      clear h ih
      induction m with
      | nil => rfl
      | cons x m ih =>
        have := h' x List.mem_cons_self
        rw [mapInsert, if_neg (by omega), if_pos this, ih fun y hy => h' y (List.mem_cons_of_mem _ hy)]
        rfl
    obtain ⟨h1, h2⟩ := List.pairwise_cons.1 hn
    rw [List.foldl_cons, hlast, ih h2 ?_, List.append_assoc]
    · rfl
    · intro x hx y hy
      rcases List.mem_append.1 hx with hx | hx
      · exact h x hx y (List.mem_cons_of_mem _ hy)
      · rw [List.mem_singleton] at hx
        subst hx
        exact h1 y hy

/-- The final nodes of a transducer, in the joined graph. -/
def FinalAt (v : Dbl → W) (base : Nat) (es : List (UString × TransExe)) (P : UString → Prop) (x : Nat × W) : Prop :=
  ∃ b e p w, Placed base es b e ∧ P e.1 ∧ (p, w) ∈ e.2.finals ∧ x = (b + p, v w)

theorem finalsAt_sorted {te : TransExe} (h : Sound te) (base : Nat) : SortedKeys (finalsAt v base te) := by
  unfold SortedKeys finalsAt
  rw [List.pairwise_map]
  refine h.sorted.imp ?_
  intro a b hab
  simp only
  omega

theorem finalsAt_mem {te : TransExe} {base : Nat} {x : Nat × W} : x ∈ finalsAt v base te ↔ ∃ p w, (p, w) ∈ te.finals ∧ x = (base + p, v w) := by
  unfold finalsAt
  rw [List.mem_map]
  constructor
  · rintro ⟨⟨p, w⟩, h1, h2⟩; exact ⟨p, w, h1, h2.symm⟩
  · rintro ⟨p, w, h1, h2⟩; exact ⟨(p, w), h1, h2.symm⟩

theorem allFinals_ok {es : List (UString × TransExe)} (hs : ∀ e ∈ es, Sound e.2) (base : Nat) (m : List (Nat × W)) (hm : SortedKeys m) (hb : ∀ x ∈ m, x.1 < base) :
    SortedKeys (allFinals v base es m) ∧ ∀ x, x ∈ allFinals v base es m ↔ x ∈ m ∨ FinalAt v base es (fun _ => True) x := by
  induction es generalizing base m with
  | nil =>
    refine ⟨hm, fun x => ⟨.inl, ?_⟩⟩
    rintro (h | ⟨b, e, p, w, h, -⟩)
    · exact h
    · cases h
  | cons e es ih =>
    have he := hs e List.mem_cons_self
    have hlt : ∀ x ∈ m, ∀ y ∈ finalsAt v base e.2, x.1 < y.1 := by
      intro x hx y hy
      obtain ⟨p, w, -, rfl⟩ := finalsAt_mem.1 hy
      have := hb x hx
      simp only
      omega
    have e1 := insertAll_eq (finalsAt_sorted he base) hlt
    have hsort : SortedKeys (m ++ finalsAt v base e.2) := List.pairwise_append.2 ⟨hm, finalsAt_sorted he base, hlt⟩
    obtain ⟨h1, h2⟩ := ih (fun e he => hs e (List.mem_cons_of_mem _ he)) (base + e.2.nodes.length) (m ++ finalsAt v base e.2) hsort fun x hx => by
      rcases List.mem_append.1 hx with hx | hx
      · have := hb x hx; omega
      · obtain ⟨p, w, hp, rfl⟩ := finalsAt_mem.1 hx
        have := he.finals _ hp
        simp only at this ⊢
        omega
    rw [allFinals, e1]
    refine ⟨h1, fun x => ?_⟩
    rw [h2, List.mem_append, or_assoc]
    refine or_congr_right ?_
    constructor
    · rintro (h | ⟨b, e', p, w, h3, h4⟩)
      · obtain ⟨p, w, h3, rfl⟩ := finalsAt_mem.1 h
        exact ⟨base, e, p, w, .here, trivial, h3, rfl⟩
      · exact ⟨b, e', p, w, .there h3, h4⟩
    · rintro ⟨b, e', p, w, h3, -, h4, h5⟩
      rcases placed_cons.1 h3 with ⟨rfl, rfl⟩ | h3
      · exact .inl (finalsAt_mem.2 ⟨p, w, h4, h5⟩)
      · exact .inr ⟨b, e', p, w, h3, trivial, h4, h5⟩

/-! ## Kinds -/

theorem HasKind.unique {name : UString} {k k' : Kind} (h : HasKind name k) (h' : HasKind name k') : k = k' := by
  obtain ⟨r, hr⟩ := h
  obtain ⟨r', hr'⟩ := h'
  have h1 : k.ending <:+ name := ⟨r, hr.symm⟩
  have h2 : k'.ending <:+ name := ⟨r', hr'.symm⟩
  rcases List.suffix_or_suffix_of_suffix h1 h2 with h | h
  · revert h
    revert k k'
    intro k k' _ _ _ _
    cases k <;> cases k' <;> first | exact fun _ => rfl | exact fun h => absurd h (by decide)
  · revert h
    revert k k'
    intro k k' _ _ _ _
    cases k <;> cases k' <;> first | exact fun _ => rfl | exact fun h => absurd h (by decide)

def Kinds.get (k : Kinds W) : Kind → List (Nat × W)
  | .inconditional => k.inconditional
  | .standard => k.standard
  | .postblank => k.postblank
  | .preblank => k.preblank

theorem classifyOne_ok {name : UString} {κ : Kind} (h : HasKind name κ) (new : List (Nat × W)) (k : Kinds W) :
    ∃ k', classifyOne name new k = .ok k' ∧ k'.get κ = insertAll new (k.get κ) ∧ ∀ κ', κ' ≠ κ → k'.get κ' = k.get κ' := by
  have hk : ∀ κ', ∃ b, Str.endswith name κ'.ending = .ok b ∧ (b = true ↔ κ' = κ) := by
    intro κ'
    obtain ⟨b, h1, h2⟩ := Str.C52_endswith name κ'.ending
    refine ⟨b, h1, h2.trans ⟨fun h' => HasKind.unique h' h, ?_⟩⟩
    rintro rfl
    exact h
  obtain ⟨b1, e1, h1⟩ := hk .inconditional
  obtain ⟨b2, e2, h2⟩ := hk .standard
  obtain ⟨b3, e3, h3⟩ := hk .postblank
  obtain ⟨b4, e4, h4⟩ := hk .preblank
  simp only [Kind.ending] at e1 e2 e3 e4
  unfold classifyOne
  simp only [e1, e2, e3, e4, Res.bind_ok]
  cases κ <;> simp only [reduceCtorEq, iff_false, Bool.not_eq_true, iff_true] at h1 h2 h3 h4 <;> subst h1 h2 h3 h4 <;>
    refine ⟨_, rfl, rfl, fun κ' hκ => ?_⟩ <;> cases κ' <;> first | rfl | exact absurd rfl hκ

theorem classifyOne_exit {name : UString} (h : ∀ κ, ¬ HasKind name κ) (new : List (Nat × W)) (k : Kinds W) : classifyOne name new k = .exit := by
  have hk : ∀ κ' : Kind, Str.endswith name κ'.ending = .ok false := by
    intro κ'
    obtain ⟨b, h1, h2⟩ := Str.C52_endswith name κ'.ending
    rw [h1]
    cases b with
    | true => exact absurd (h2.1 rfl) (h κ')
    | false => rfl
  have e1 := hk .inconditional
  have e2 := hk .standard
  have e3 := hk .postblank
  have e4 := hk .preblank
  simp only [Kind.ending] at e1 e2 e3 e4
  unfold classifyOne
  simp only [e1, e2, e3, e4, Res.bind_ok, Bool.false_eq_true, if_false]

theorem classifyFinals_ok {es : List (UString × TransExe)} (hs : ∀ e ∈ es, Sound e.2) (hk : ∀ e ∈ es, ∃ κ, HasKind e.1 κ) (base : Nat) (k : Kinds W)
    (hm : ∀ κ, SortedKeys (k.get κ)) (hb : ∀ κ, ∀ x ∈ k.get κ, x.1 < base) :
    ∃ k', classifyFinals v base es k = .ok k' ∧
      ∀ κ, SortedKeys (k'.get κ) ∧ ∀ x, x ∈ k'.get κ ↔ x ∈ k.get κ ∨ FinalAt v base es (HasKind · κ) x := by
  induction es generalizing base k with
  | nil =>
    refine ⟨k, rfl, fun κ => ⟨hm κ, fun x => ⟨.inl, ?_⟩⟩⟩
    rintro (h | ⟨b, e, p, w, h, -⟩)
    · exact h
    · cases h
  | cons e es ih =>
    have he := hs e List.mem_cons_self
    obtain ⟨κ0, hκ0⟩ := hk e List.mem_cons_self
    obtain ⟨k1, c1, c2, c3⟩ := classifyOne_ok hκ0 (finalsAt v base e.2) k
    have hlt : ∀ x ∈ k.get κ0, ∀ y ∈ finalsAt v base e.2, x.1 < y.1 := by
      intro x hx y hy
      obtain ⟨p, w, -, rfl⟩ := finalsAt_mem.1 hy
      have := hb _ x hx
      simp only
      omega
    rw [insertAll_eq (finalsAt_sorted he base) hlt] at c2
    have hin : ∀ y ∈ finalsAt v base e.2, y.1 < base + e.2.nodes.length := by
      intro y hy
      obtain ⟨p, w, hp, rfl⟩ := finalsAt_mem.1 hy
      have := he.finals _ hp
      simp only at this ⊢
      omega
    obtain ⟨k', h1, h2⟩ := ih (fun e he => hs e (List.mem_cons_of_mem _ he)) (fun e he => hk e (List.mem_cons_of_mem _ he)) (base + e.2.nodes.length) k1
      (fun κ => by
        by_cases h : κ = κ0
        · rw [h, c2]
          exact List.pairwise_append.2 ⟨hm κ0, finalsAt_sorted he base, hlt⟩
        · rw [c3 κ h]; exact hm κ)
      (fun κ x hx => by
        by_cases h : κ = κ0
        · rw [h, c2] at hx
          rcases List.mem_append.1 hx with hx | hx
          · have := hb _ x hx; omega
          · exact hin x hx
        · rw [c3 κ h] at hx
          have := hb _ x hx
          omega)
    refine ⟨k', by rw [classifyFinals, c1, Res.bind_ok, h1], fun κ => ⟨(h2 κ).1, fun x => ?_⟩⟩
    rw [(h2 κ).2]
    have hmem : x ∈ k1.get κ ↔ x ∈ k.get κ ∨ (κ = κ0 ∧ x ∈ finalsAt v base e.2) := by
      by_cases h : κ = κ0
      · rw [h, c2, List.mem_append]; simp
      · rw [c3 κ h]; simp [h]
    rw [hmem, or_assoc]
    refine or_congr_right ?_
    constructor
    · rintro (⟨rfl, h⟩ | ⟨b, e', p, w, h3, h4⟩)
      · obtain ⟨p, w, h3, rfl⟩ := finalsAt_mem.1 h
        exact ⟨base, e, p, w, .here, hκ0, h3, rfl⟩
      · exact ⟨b, e', p, w, .there h3, h4⟩
    · rintro ⟨b, e', p, w, h3, hk', h4, h5⟩
      rcases placed_cons.1 h3 with ⟨rfl, rfl⟩ | h3
      · exact .inl ⟨hk'.unique hκ0, finalsAt_mem.2 ⟨p, w, h4, h5⟩⟩
      · exact .inr ⟨b, e', p, w, h3, hk', h4, h5⟩

theorem classifyFinals_exit {es : List (UString × TransExe)} (hk : ∃ e ∈ es, ∀ κ, ¬ HasKind e.1 κ) (base : Nat) (k : Kinds W) :
    classifyFinals v base es k = .exit := by
  induction es generalizing base k with
  | nil => obtain ⟨e, he, -⟩ := hk; cases he
  | cons e es ih =>
    rw [classifyFinals]
    by_cases h : ∃ κ, HasKind e.1 κ
    · obtain ⟨κ, hκ⟩ := h
      obtain ⟨k1, c1, -⟩ := classifyOne_ok hκ (finalsAt v base e.2) k
      rw [c1, Res.bind_ok]
      refine ih ?_ _ _
      obtain ⟨e', he', hn⟩ := hk
      rcases List.mem_cons.1 he' with rfl | he'
      · exact absurd hκ (hn κ)
      · exact ⟨e', he', hn⟩
    · rw [classifyOne_exit (fun κ hκ => h ⟨κ, hκ⟩)]
      rfl

end Verif.Load
