import Verif.Transducer.Spec

/-! # Basic facts about the elementary operations -/

namespace Verif.Fst

variable {W : Type}

theorem WF.sorted {t : Transducer W} (h : WF t) : SortedKeys t.transitions := by
  have h1 : (t.transitions.map (·.1)).Pairwise (· < ·) := by rw [h.keys]; exact List.pairwise_lt_range
  exact List.pairwise_map.mp h1

theorem mem_keys_iff {t : Transducer W} (h : WF t) (q : Nat) : q ∈ t.transitions.map (·.1) ↔ q < size t := by
  rw [h.keys, List.mem_range]

theorem exists_iff {t : Transducer W} (h : WF t) (q : Nat) : exists_ t q = true ↔ q < size t := by
  rw [exists_, mapFind_isSome_iff, mem_keys_iff h]

theorem row_mem {t : Transducer W} (h : WF t) {q : Nat} (hq : q < size t) : (q, row t q) ∈ t.transitions := by
  have := (exists_iff h q).mpr hq
  unfold exists_ at this
  obtain ⟨r, hr⟩ := Option.isSome_iff_exists.mp this
  simp only [row, hr, Option.getD_some]
  exact mapFind_mem hr

theorem row_of_ge {t : Transducer W} (h : WF t) {q : Nat} (hq : ¬ q < size t) : row t q = [] := by
  rw [row, (mapFind_eq_none_iff _ _).mpr]; rfl
  rwa [mem_keys_iff h]

theorem row_sorted {t : Transducer W} (h : WF t) (q : Nat) : SortedRow (row t q) := by
  by_cases hq : q < size t
  · exact h.rows _ (row_mem h hq)
  · rw [row_of_ge h hq]; exact List.Pairwise.nil

theorem WF.source_lt {t : Transducer W} (h : WF t) {q : Nat} {l : Int × W} {p : Nat} (he : Edge t q l p) :
    q < size t := by
  by_contra hq
  rw [Edge, row_of_ge h hq] at he
  simp at he

theorem mem_equalRange (a : Int) (r : Row W) (p : Nat) (w : W) : (p, w) ∈ equalRange a r ↔ (a, (p, w)) ∈ r := by
  simp [equalRange]

theorem length_eq_of_keys {m m' : List (Nat × Row W)} (h : m.map (·.1) = m'.map (·.1)) : m.length = m'.length := by
  have := congrArg List.length h
  simpa using this

/-! ## newState -/

theorem freeFrom_eq {t : Transducer W} (h : WF t) (fuel : Nat) : freeFrom t.transitions fuel (size t) = size t := by
  cases fuel with
  | zero => rfl
  | succ n =>
    rw [freeFrom, if_neg]
    rw [mapFind_isSome_iff, mem_keys_iff h]; omega

/-- The table after `newState`: one empty row more. -/
theorem newState_eq {t : Transducer W} (h : WF t) :
    newState t = (size t, { t with transitions := t.transitions ++ [(size t, [])] }) := by
  have h1 : freeFrom t.transitions t.transitions.length t.transitions.length = size t := freeFrom_eq h _
  have h2 : mapSet (size t) ([] : Row W) t.transitions = t.transitions ++ [(size t, [])] := by
    rw [mapSet_eq_modify]
    refine modify_append _ _ (fun e he => ?_)
    exact (mem_keys_iff h _).mp (List.mem_map_of_mem he)
  simp only [newState, h1, h2]

theorem newState_fst {t : Transducer W} (h : WF t) : (newState t).1 = size t := by rw [newState_eq h]

theorem newState_size {t : Transducer W} (h : WF t) : size (newState t).2 = size t + 1 := by
  rw [newState_eq h]; simp [size]

theorem newState_finals (t : Transducer W) : (newState t).2.finals = t.finals := rfl
theorem newState_initial (t : Transducer W) : (newState t).2.initial = t.initial := rfl

theorem mapFind_append (k : Nat) (m m' : List (Nat × Row W)) :
    mapFind k (m ++ m') = (mapFind k m).or (mapFind k m') := by
  induction m with
  | nil => simp [mapFind]
  | cons e m ih => obtain ⟨k', v'⟩ := e; by_cases hk : k' = k <;> simp [mapFind, hk, ih]

theorem newState_row {t : Transducer W} (h : WF t) (q : Nat) : row (newState t).2 q = row t q := by
  rw [newState_eq h]
  simp only [row, mapFind_append]
  cases hq : mapFind q t.transitions with
  | some r => simp
  | none => by_cases h2 : size t = q <;> simp [mapFind, h2]

theorem newState_edge {t : Transducer W} (h : WF t) (q : Nat) (l : Int × W) (p : Nat) :
    Edge (newState t).2 q l p ↔ Edge t q l p := by rw [Edge, newState_row h, Edge]

theorem newState_wf {t : Transducer W} (h : WF t) : WF (newState t).2 := by
  have hs := newState_size h
  refine ⟨?_, ?_, ?_, ?_, ?_, ?_⟩
  · rw [hs, newState_eq h]; simp [h.keys, List.range_succ]
  · rw [newState_eq h]
    intro e he
    rcases List.mem_append.mp he with he | he
    · exact h.rows e he
    · simp only [List.mem_singleton] at he; subst he; exact List.Pairwise.nil
  · rw [hs, newState_initial]; have := h.initial_lt; omega
  · intro q l p he
    rw [newState_edge h] at he
    rw [hs]; have := h.target_lt _ _ _ he; omega
  · exact h.finals_sorted
  · intro p w hp; rw [hs]; have := h.finals_lt p w hp; omega

/-! ## addArc -/

theorem addArc_row {t : Transducer W} (h : WF t) {s : Nat} (a : Int) (p : Nat) (w : W) (q : Nat) :
    row (addArc s a p w t) q = if q = s then mmInsert a (p, w) (row t s) else row t q := by
  simp only [row, addArc, mapFind_modify h.sorted]
  by_cases hq : q = s <;> simp [hq]

theorem addArc_edge {t : Transducer W} (h : WF t) (s : Nat) (a : Int) (p : Nat) (w : W) (q : Nat)
    (l : Int × W) (r : Nat) :
    Edge (addArc s a p w t) q l r ↔ Edge t q l r ∨ (q = s ∧ l = (a, w) ∧ r = p) := by
  obtain ⟨b, v⟩ := l
  rw [Edge, addArc_row h]
  by_cases hq : q = s
  · subst hq
    simp only [if_true, mem_mmInsert, Edge, Prod.mk.injEq]
    tauto
  · simp [hq, Edge]

theorem addArc_keys {t : Transducer W} (h : WF t) {s : Nat} (hs : s < size t) (a : Int) (p : Nat) (w : W) :
    (addArc s a p w t).transitions.map (·.1) = t.transitions.map (·.1) :=
  keys_modify_of_mem h.sorted _ _ ((mem_keys_iff h s).mpr hs)

theorem addArc_size {t : Transducer W} (h : WF t) {s : Nat} (hs : s < size t) (a : Int) (p : Nat) (w : W) :
    size (addArc s a p w t) = size t := length_eq_of_keys (addArc_keys h hs a p w)

theorem addArc_wf {t : Transducer W} (h : WF t) {s : Nat} (hs : s < size t) (a : Int) {p : Nat} (hp : p < size t)
    (w : W) : WF (addArc s a p w t) := by
  have hsz := addArc_size h hs a p w
  have hk := addArc_keys h hs a p w
  have hsk : SortedKeys (addArc s a p w t).transitions := sorted_modify h.sorted _ _ _
  refine ⟨?_, ?_, ?_, ?_, ?_, ?_⟩
  · rw [hsz, hk, h.keys]
  · intro e he
    obtain ⟨q, r⟩ := e
    have hr : row (addArc s a p w t) q = r := by rw [row, mapFind_of_mem hsk he]; rfl
    rw [addArc_row h] at hr
    show SortedRow r
    rw [← hr]
    split
    · exact sorted_mmInsert (row_sorted h s) _ _
    · exact row_sorted h q
  · rw [hsz]; exact h.initial_lt
  · intro q l r he
    rw [addArc_edge h] at he
    rw [hsz]
    rcases he with he | ⟨-, -, he⟩
    · exact h.target_lt _ _ _ he
    · omega
  · exact h.finals_sorted
  · intro q v hq; rw [hsz]; exact h.finals_lt q v hq

/-! ## linkStates -/

/-- What `linkStates` does: nothing when an arc with this symbol and target exists, otherwise add the arc. -/
theorem linkStates_eq {t : Transducer W} (h : WF t) {s p : Nat} (hs : s < size t) (hp : p < size t)
    (a : Int) (w : W) :
    linkStates s p a w t = .ok (if (equalRange a (row t s)).any (fun e => e.1 = p) then t else addArc s a p w t) := by
  rw [linkStates, (exists_iff h s).mpr hs, (exists_iff h p).mpr hp]
  simp only [Bool.and_self, if_true]
  split <;> rfl

theorem any_target (r : Row W) (a : Int) (p : Nat) :
    (equalRange a r).any (fun e => e.1 = p) = true ↔ ∃ w, (a, (p, w)) ∈ r := by
  rw [List.any_eq_true]
  constructor
  · rintro ⟨⟨p', w⟩, hm, he⟩
    simp only [decide_eq_true_eq] at he
    subst he
    exact ⟨w, (mem_equalRange a r p' w).mp hm⟩
  · rintro ⟨w, hw⟩
    exact ⟨(p, w), (mem_equalRange a r p w).mpr hw, by simp⟩

/-- `linkStates` between states without such an arc. -/
theorem linkStates_new {t : Transducer W} (h : WF t) {s p : Nat} (hs : s < size t) (hp : p < size t)
    (a : Int) (w : W) (hno : ∀ v, ¬ Edge t s (a, v) p) : linkStates s p a w t = .ok (addArc s a p w t) := by
  rw [linkStates_eq h hs hp, if_neg]
  rw [any_target]
  rintro ⟨v, hv⟩
  exact hno v hv

/-! ## Paths -/

theorem Path.append {S L : Type} {E : S → L → S → Prop} {q r p : S} {xs ys : List L} (h : Path E q xs r)
    (h' : Path E r ys p) : Path E q (xs ++ ys) p := by
  induction h with
  | nil _ => exact h'
  | cons he _ ih => exact .cons he (ih h')

theorem Path.single {S L : Type} {E : S → L → S → Prop} {q p : S} {l : L} (h : E q l p) : Path E q [l] p :=
  .cons h (.nil p)

theorem Path.split {S L : Type} {E : S → L → S → Prop} {q p : S} {xs ys : List L} (h : Path E q (xs ++ ys) p) :
    ∃ r, Path E q xs r ∧ Path E r ys p := by
  induction xs generalizing q with
  | nil => exact ⟨q, .nil q, h⟩
  | cons x xs ih =>
    cases h with
    | cons he hp =>
      obtain ⟨r, h1, h2⟩ := ih hp
      exact ⟨r, .cons he h1, h2⟩

theorem Path.mono {S L : Type} {E E' : S → L → S → Prop} (hE : ∀ q l p, E q l p → E' q l p) {q p : S} {ls : List L}
    (h : Path E q ls p) : Path E' q ls p := by
  induction h with
  | nil q => exact .nil q
  | cons he _ ih => exact .cons (hE _ _ _ he) ih

theorem Path.congr {S L : Type} {E E' : S → L → S → Prop} (hE : ∀ q l p, E q l p ↔ E' q l p) {q p : S} {ls : List L} :
    Path E q ls p ↔ Path E' q ls p :=
  ⟨Path.mono (fun _ _ _ => (hE _ _ _).mp), Path.mono (fun _ _ _ => (hE _ _ _).mpr)⟩

theorem path_nil_iff {S L : Type} {E : S → L → S → Prop} {q p : S} : Path E q [] p ↔ p = q :=
  ⟨fun h => by cases h; rfl, fun h => by subst h; exact .nil _⟩

theorem path_cons_iff {S L : Type} {E : S → L → S → Prop} {q p : S} {l : L} {ls : List L} :
    Path E q (l :: ls) p ↔ ∃ r, E q l r ∧ Path E r ls p :=
  ⟨fun h => by cases h with | cons a b => exact ⟨_, a, b⟩, fun ⟨_, a, b⟩ => .cons a b⟩

/-- A predicate on states that arcs preserve is kept along paths. -/
theorem Path.inv {S L : Type} {E : S → L → S → Prop} (P : S → Prop) (hP : ∀ q l p, E q l p → P q → P p)
    {q p : S} {ls : List L} (h : Path E q ls p) (hq : P q) : P p := by
  induction h with
  | nil => exact hq
  | cons he _ ih => exact ih (hP _ _ _ he hq)

section
variable [DecidableEq W] [Zero W]

theorem visible_append (ε : Int) (xs ys : List (Int × W)) :
    visible ε (xs ++ ys) = visible ε xs ++ visible ε ys := by simp [visible]

theorem visible_nil (ε : Int) : visible ε ([] : List (Int × W)) = [] := rfl

theorem visible_eps (ε : Int) (ls : List (Int × W)) : visible ε ((ε, 0) :: ls) = visible ε ls := by simp [visible]

theorem visible_append_eps (ε : Int) (ls : List (Int × W)) : visible ε (ls ++ [(ε, 0)]) = visible ε ls := by
  simp [visible]

theorem visible_cons (ε : Int) (l : Int × W) (ls : List (Int × W)) :
    visible ε (l :: ls) = (if l = (ε, 0) then [] else [l]) ++ visible ε ls := by
  by_cases h : l = (ε, 0) <;> simp [visible, h]

end

theorem WF.path_lt {t : Transducer W} (h : WF t) {q p : Nat} {ls : List (Int × W)} (hp : Path (Edge t) q ls p)
    (hq : q < size t) : p < size t :=
  hp.inv (fun q => q < size t) (fun _ _ _ he _ => h.target_lt _ _ _ he) hq

end Verif.Fst
