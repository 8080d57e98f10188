import Verif.Att.Whole

/-! # Classification only changes the types of arcs, and ends -/

namespace Verif.Att

open Verif.Fst

variable {W : Type}

/-- The graph without the types of its arcs. -/
def strip (g : Graph W) : List (Int × List (Int × Int × W)) := g.map fun e => (e.1, e.2.map fun t => (t.dst, t.tag, t.weight))

theorem mapFind_strip (g : Graph W) (q : Int) : mapFind q (strip g) = (mapFind q g).map fun l => l.map fun t => (t.dst, t.tag, t.weight) := by
  induction g with
  | nil => rfl
  | cons e g ih =>
    obtain ⟨k, l⟩ := e
    simp only [strip, List.map_cons, mapFind]
    split
    · rfl
    · exact ih

theorem arcsAt_strip (g : Graph W) (q : Int) : (arcsAt g q).map (fun t => (t.dst, t.tag, t.weight)) = (mapFind q (strip g)).getD [] := by
  rw [mapFind_strip, arcsAt]
  cases mapFind q g <;> rfl

theorem strip_keys (g : Graph W) : (strip g).map (·.1) = g.map (·.1) := by simp [strip, Function.comp_def]

theorem kept_of_strip {g g' : Graph W} (h : strip g' = strip g) {type : Nat} {q : Int} {l : Int × W} {p : Int} (hk : Kept g' type q l p) : Kept g 0 q l p := by
  obtain ⟨arc, ha, -, h1, h2, h3⟩ := hk
  have : (arc.dst, arc.tag, arc.weight) ∈ (arcsAt g q).map fun t => (t.dst, t.tag, t.weight) := by
    rw [arcsAt_strip, ← h, ← arcsAt_strip]
    exact List.mem_map_of_mem ha
  obtain ⟨arc', ha', e⟩ := List.mem_map.1 this
  simp only [Prod.mk.injEq] at e
  obtain ⟨e1, e2, e3⟩ := e
  exact ⟨arc', ha', by simp, e1.trans h1, e2.trans h2, e3.trans h3⟩

theorem mapSet_strip {g : Graph W} {q : Int} {l l' : List (Arc W)} (hs : SortedKeys g) (h : mapFind q g = some l)
    (he : l'.map (fun t => (t.dst, t.tag, t.weight)) = l.map fun t => (t.dst, t.tag, t.weight)) : strip (mapSet q l' g) = strip g := by
  induction g with
  | nil => cases h
  | cons e g ih =>
    obtain ⟨k, m⟩ := e
    simp only [mapFind] at h
    simp only [mapSet]
    by_cases hk : k = q
    · subst hk
      simp only [if_true, Option.some.injEq] at h
      subst h
      simp only [lt_irrefl, if_false]
      simp [strip, he]
    · rw [if_neg hk] at h
      have hlt : k < q := (List.pairwise_cons.1 hs).1 _ (mapFind_mem h)
      rw [if_neg (by omega), if_pos hlt]
      have := ih (List.pairwise_cons.1 hs).2 h
      simp only [strip, List.map_cons] at this ⊢
      rw [this]

theorem sorted_strip {g : Graph W} : SortedKeys (strip g) ↔ SortedKeys g := by
  unfold SortedKeys strip
  rw [List.pairwise_map]

theorem orTypes_strip {g : Graph W} (hs : SortedKeys g) (type : Nat) (q : Int) : strip (orTypes type q g) = strip g := by
  unfold orTypes
  cases h : mapFind q g with
  | none => rfl
  | some arcs => exact mapSet_strip hs h (by simp [Function.comp_def])

theorem setType_strip {g : Graph W} (hs : SortedKeys g) (q : Int) (i type : Nat) : strip (setType q i type g) = strip g := by
  unfold setType
  cases h : mapFind q g with
  | none => rfl
  | some arcs =>
    refine mapSet_strip hs h ?_
    apply List.ext_getElem?
    intro j
    simp only [List.getElem?_map, List.getElem?_modify]
    cases arcs[j]? with
    | none => rfl
    | some t => by_cases hj : i = j <;> simp [hj]

theorem arcsAt_length {g g' : Graph W} (h : strip g' = strip g) (q : Int) : (arcsAt g' q).length = (arcsAt g q).length := by
  have h1 := congrArg List.length (arcsAt_strip g' q)
  have h2 := congrArg List.length (arcsAt_strip g q)
  rw [h] at h1
  rw [List.length_map] at h1 h2
  omega

theorem arcCount_strip {g g' : Graph W} (h : strip g' = strip g) : arcCount g' = arcCount g := by
  have e : ∀ g : Graph W, arcCount g = ((strip g).map fun e => e.2.length).sum := by
    intro g
    simp [arcCount, strip, Function.comp_def]
  rw [e, e, h]

/-! ## Forwards -/

theorem forwardArcs_strip (next : Int) (done : List Int) : ∀ (is : List Nat) (todo : List Int) (g : Graph W), SortedKeys g →
    strip (forwardArcs next done is (todo, g)).2 = strip g ∧ (forwardArcs next done is (todo, g)).1.length ≤ todo.length + is.length := by
  intro is
  induction is with
  | nil => intro todo g _; exact ⟨rfl, by simp [forwardArcs]⟩
  | cons i is ih =>
    intro todo g hs
    rw [forwardArcs]
    cases h : (arcsAt g next)[i]? with
    | none =>
      obtain ⟨h1, h2⟩ := ih todo g hs
      exact ⟨h1, by simp only [List.length_cons]; omega⟩
    | some t =>
      have e := orTypes_strip hs t.type t.dst
      obtain ⟨h1, h2⟩ := ih (if t.dst ∈ done then todo else t.dst :: todo) (orTypes t.type t.dst g) (sorted_strip.1 (by rw [e]; exact sorted_strip.2 hs))
      refine ⟨h1.trans e, h2.trans ?_⟩
      split <;> simp only [List.length_cons] <;> omega

/-- The arcs of the nodes that are not done. -/
def leftArcs (done : List Int) (m : List (Int × List (Int × Int × W))) : Nat := (m.map fun e => if e.1 ∈ done then 0 else e.2.length).sum

theorem leftArcs_insert {done : List Int} {q : Int} (hq : q ∉ done) : ∀ {m : List (Int × List (Int × Int × W))}, SortedKeys m →
    leftArcs (setInsert q done) m + ((mapFind q m).getD []).length = leftArcs done m := by
  intro m
  induction m with
  | nil => intro _; rfl
  | cons e m ih =>
    intro hs
    obtain ⟨k, l⟩ := e
    obtain ⟨h1, h2⟩ := List.pairwise_cons.1 hs
    have := ih h2
    simp only [leftArcs, List.map_cons, List.sum_cons, mapFind] at this ⊢
    by_cases hk : k = q
    · subst hk
      have hn : mapFind k m = none := by
        cases hf : mapFind k m with
        | none => rfl
        | some v => exact absurd (h1 _ (mapFind_mem hf)) (lt_irrefl _)
      rw [hn] at this
      rw [if_pos ((mem_setInsert _ _ _).2 (.inl rfl)), if_neg hq, if_pos rfl]
      simp only [Option.getD_none, List.length_nil, Option.getD_some] at this ⊢
      omega
    · rw [if_neg hk]
      have hm : k ∈ setInsert q done ↔ k ∈ done := by rw [mem_setInsert]; exact or_iff_right hk
      simp only [hm]
      omega

theorem forwardLoop_ok : ∀ (turns : Nat) (todo done : List Int) (g : Graph W), SortedKeys g → todo.length + leftArcs done (strip g) ≤ turns →
    ∃ g', forwardLoop turns todo done g = .ok g' ∧ strip g' = strip g := by
  intro turns
  induction turns with
  | zero =>
    intro todo done g _ hb
    cases todo with
    | nil => exact ⟨g, by simp [forwardLoop], rfl⟩
    | cons a b => simp at hb
  | succ turns ih =>
    intro todo done g hs hb
    cases todo with
    | nil => exact ⟨g, by simp [forwardLoop], rfl⟩
    | cons next todo =>
      rw [forwardLoop]
      simp only [List.length_cons] at hb
      by_cases hd : next ∈ done
      · rw [if_pos hd]
        exact ih todo done g hs (by omega)
      · rw [if_neg hd]
        obtain ⟨h1, h2⟩ := forwardArcs_strip next done (List.range (arcsAt g next).length) todo g hs
        have h3 := leftArcs_insert hd (sorted_strip.2 hs)
        have h4 : (arcsAt g next).length = ((mapFind next (strip g)).getD []).length := by
          rw [← arcsAt_strip, List.length_map]
        rw [List.length_range] at h2
        obtain ⟨g', e, h5⟩ := ih (forwardArcs next done (List.range (arcsAt g next).length) (todo, g)).1 (setInsert next done) _
          (sorted_strip.1 (by rw [h1]; exact sorted_strip.2 hs)) (by rw [h1]; omega)
        exact ⟨g', e, h5.trans h1⟩

theorem classifyForwards_ok (start : Int) {g : Graph W} (hs : SortedKeys g) : ∃ g', classifyForwards start g = .ok g' ∧ strip g' = strip g := by
  refine forwardLoop_ok _ [start] [] g hs ?_
  have : leftArcs [] (strip g) = arcCount g := by simp [leftArcs, strip, arcCount, Function.comp_def]
  rw [this]
  simp
  omega

/-! ## Backwards -/

/-- Ends with a graph that has the same arcs, or with the message about an ε-loop or a final state. -/
def Ends (g : Graph W) (r : Res (Nat × Graph W)) : Prop := r = .exit ∨ ∃ ty g', r = .ok (ty, g') ∧ strip g' = strip g

theorem backwardArcs_ends {rec : Int → List Int → Graph W → Res (Nat × Graph W)} {g0 : Graph W} (hs : SortedKeys g0) {state : Int} {path : List Int}
    (hrec : ∀ dst g, strip g = strip g0 → dst ∉ path → Ends g (rec dst (setInsert dst path) g)) : ∀ (is : List Nat) (ty : Nat) (g : Graph W), strip g = strip g0 →
    Ends g (backwardArcs rec state path is ty g) := by
  intro is
  induction is with
  | nil => intro ty g _; exact .inr ⟨ty, g, rfl, rfl⟩
  | cons i is ih =>
    intro ty g hg
    rw [backwardArcs]
    cases h : (arcsAt g state)[i]? with
    | none => exact ih ty g hg
    | some t =>
      simp only
      by_cases h1 : t.type ≠ 0
      · rw [if_pos h1]; exact ih _ g hg
      · rw [if_neg h1]
        by_cases h2 : t.dst ∈ path
        · rw [if_pos h2]; exact .inl rfl
        · rw [if_neg h2]
          rcases hrec t.dst g hg h2 with e | ⟨ty', g', e, hg'⟩
          · rw [e]; exact .inl rfl
          · rw [e]
            have hsg : SortedKeys g' := sorted_strip.1 (by rw [hg', hg]; exact sorted_strip.2 hs)
            have e2 := setType_strip hsg state i ty'
            have e3 := ih (ty ||| ty') (setType state i ty' g') (by rw [e2, hg', hg])
            rcases e3 with e3 | ⟨a, b, e3, e4⟩
            · exact .inl e3
            · exact .inr ⟨a, b, e3, by rw [e4, e2, hg']⟩

theorem classifyBackwards_ends (finals : List (Int × W)) {g0 : Graph W} (hs : SortedKeys g0) : ∀ (turns : Nat) (state : Int) (path : List Int) (g : Graph W),
    strip g = strip g0 → 1 ≤ turns → (left g0 path + 2 ≤ turns ∨ state ∉ g0.map (·.1)) → Ends g (classifyBackwards finals turns state path g) := by
  intro turns
  induction turns with
  | zero => intro _ _ _ _ h; omega
  | succ turns ih =>
    intro state path g hg _ hb
    rw [classifyBackwards]
    split
    · exact .inl rfl
    · rcases hb with hb | hb
      · refine backwardArcs_ends hs ?_ _ _ _ hg
        intro dst g' hg' hn
        refine ih dst _ g' hg' (by omega) ?_
        by_cases hk : dst ∈ g0.map (·.1)
        · left
          have := left_lt (g := g0) (v := path) (v' := setInsert dst path) (fun x hx => (mem_setInsert _ _ _).2 (.inr hx)) hk hn ((mem_setInsert _ _ _).2 (.inl rfl))
          omega
        · exact .inr hk
      · have : arcsAt g state = [] := by
          cases ha : arcsAt g state with
          | nil => rfl
          | cons arc arcs =>
            have h1 := arcsAt_key (by rw [ha]; simp : arc ∈ arcsAt g state)
            rw [← strip_keys, hg, strip_keys] at h1
            exact absurd h1 hb
        rw [this]
        exact .inr ⟨0, g, rfl, rfl⟩

/-- The two passes never run out of turns, and leave the arcs as they are. -/
theorem classify_ends (start : Int) (finals : List (Int × W)) {g : Graph W} (hs : SortedKeys g) :
    ∃ g1, classifyForwards start g = .ok g1 ∧ Ends g (classifyBackwards finals (g.length + 2) start [] g1) := by
  obtain ⟨g1, e, h⟩ := classifyForwards_ok start hs
  refine ⟨g1, e, ?_⟩
  have := classifyBackwards_ends finals hs (g.length + 2) start [] g1 h (by omega) (.inl (by
    unfold left
    have := List.countP_le_length (p := fun q => !decide (q ∈ ([] : List Int))) (l := g.map (·.1))
    rw [List.length_map] at this
    omega))
  rcases this with h' | ⟨ty, g', e', h'⟩
  · exact .inl h'
  · exact .inr ⟨ty, g', e', h'.trans h⟩

end Verif.Att
