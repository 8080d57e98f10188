import Verif.State.Steps
import Mathlib.Algebra.Order.BigOperators.Group.List
import Mathlib.Data.List.Sort
import Mathlib.Tactic.Ring
import Mathlib.Tactic.Positivity

/-! # Properties of running a transducer -/

namespace Verif.State

open Verif.Fst (Path)

variable {W : Type}

/-! ## C39 -/

/-- A small graph: `a` leads from 0 to 1 writing `b` with weight 2 and to 2 writing nothing with weight 3; an empty arc
of weight 5 leads from 1 to 3 and one that writes `c` with weight 7 from 2 to 3. -/
def exG : Graph Nat := fun q i =>
  if q = 0 ∧ i = 97 then some [(98, 1, 2), (0, 2, 3)]
  else if q = 1 ∧ i = 0 then some [(0, 3, 5)]
  else if q = 2 ∧ i = 0 then some [(99, 3, 7)]
  else none

/-- **C39** After `init` and steps with the symbols `xs`, the alive states are exactly the paths that read `xs`: each
path once, at its last node, with the outputs of its arcs. -/
theorem C39_run (g : Graph W) (fuel q : Nat) (xs : List Int) (hx : ∀ x ∈ xs, x ≠ 0) (st : List (Rec W))
    (h : run g fuel q xs = some st) :
    ∃ ps : List (List (Label W) × Nat), ps.Nodup ∧ (∀ ls p, (ls, p) ∈ ps ↔ Path (Arc g) q ls p ∧ inputs ls = xs) ∧
      st = ps.map fun e => { node := e.2, seq := written e.1, dirty := false } := by
  obtain ⟨ps, h1, -, h3, h4⟩ := run_paths xs hx h
  refine ⟨ps.map (·.2), ?_, ?_, ?_⟩
  · refine List.Nodup.map ?_ h1
    rintro ⟨⟨⟩, a⟩ ⟨⟨⟩, b⟩ e
    simpa using e
  · intro ls p
    rw [List.mem_map]
    constructor
    · rintro ⟨e, he, e2⟩
      have := (h3 e).1 he
      rw [e2] at this
      exact this
    · intro hp
      exact ⟨((), ls, p), (h3 _).2 hp, rfl⟩
  · rw [h4, List.map_map]
    refine List.map_congr_left ?_
    intro e _
    simp [recOf, blank]

/-- **C39** The same for single states. -/
theorem C39_states (g : Graph W) (fuel q : Nat) (xs : List Int) (hx : ∀ x ∈ xs, x ≠ 0) (st : List (Rec W))
    (h : run g fuel q xs = some st) (r : Rec W) :
    r ∈ st ↔ r.dirty = false ∧ ∃ ls, Path (Arc g) q ls r.node ∧ inputs ls = xs ∧ r.seq = written ls := by
  obtain ⟨ps, -, h2, rfl⟩ := C39_run g fuel q xs hx st h
  rw [List.mem_map]
  constructor
  · rintro ⟨⟨ls, p⟩, he, rfl⟩
    exact ⟨rfl, ls, ((h2 ls p).1 he).1, ((h2 ls p).1 he).2, rfl⟩
  · rintro ⟨h3, ls, h4, h5, h6⟩
    refine ⟨(ls, r.node), (h2 _ _).2 ⟨h4, h5⟩, ?_⟩
    obtain ⟨n, s, d⟩ := r
    simp only at h3 h6 ⊢
    rw [h3, h6]

example : run exG 10 0 [97] = some [⟨1, [(98, 2)], false⟩, ⟨2, [(0, 3)], false⟩, ⟨3, [(98, 2)], false⟩, ⟨3, [(0, 3), (99, 7)], false⟩] := by
  decide +kernel

/-- **C39** `isFinal` tells whether a path that reads the input ends in a final node. -/
theorem C39_final (g : Graph W) (fuel q : Nat) (xs : List Int) (hx : ∀ x ∈ xs, x ≠ 0) (st : List (Rec W))
    (h : run g fuel q xs = some st) (finals : List (Nat × W)) :
    isFinal finals st = true ↔ ∃ ls p w, Path (Arc g) q ls p ∧ inputs ls = xs ∧ (p, w) ∈ finals := by
  unfold isFinal
  rw [List.any_eq_true]
  have hm : ∀ p, (mapFind p finals).isSome = true ↔ ∃ w, (p, w) ∈ finals := by
    intro p
    rw [mapFind_isSome_iff]
    simp
  constructor
  · rintro ⟨r, hr, hf⟩
    obtain ⟨-, ls, h1, h2, -⟩ := (C39_states g fuel q xs hx st h r).1 hr
    obtain ⟨w, hw⟩ := (hm _).1 hf
    exact ⟨ls, _, w, h1, h2, hw⟩
  · rintro ⟨ls, p, w, h1, h2, h3⟩
    exact ⟨⟨p, written ls, false⟩, (C39_states g fuel q xs hx st h _).2 ⟨rfl, ls, h1, h2, rfl⟩, (hm _).2 ⟨w, h3⟩⟩

example : isFinal [(3, 0)] [(⟨3, [(98, 2)], false⟩ : Rec Nat)] = true := by decide

/-- **C39** A step with the empty symbol leaves no alive state. -/
theorem C39_empty_symbol (g : Graph W) (fuel : Nat) (st : List (Rec W)) : step g fuel 0 st = some [] := by
  unfold step apply epsilonClosure
  rw [if_pos rfl]
  unfold closureLoop
  rfl

/-- **C40** The empty symbol as input or alternative leaves no alive state, in every variant that takes one. -/
theorem C40_empty_symbol (g : Graph W) (fuel : Nat) (x y z : Int) (alts : List Int) (st : List (Rec W)) :
    (x = 0 ∨ y = 0 → stepAlt g fuel x y st = some [] ∧ stepCareful g fuel x y st = some [] ∧ stepOverride g fuel x y z st = some []) ∧
    (x = 0 ∨ y = 0 ∨ z = 0 → stepAlts2 g fuel x y z st = some []) ∧
    (x = 0 ∨ 0 ∈ alts → stepSet g fuel x alts st = some []) := by
  have h0 : epsilonClosure g fuel ([] : List (Rec W)) = some [] := by
    unfold epsilonClosure closureLoop
    rfl
  refine ⟨fun h => ⟨?_, ?_, ?_⟩, fun h => ?_, fun h => ?_⟩
  · unfold stepAlt applyAlt
    rw [if_pos h, h0]
  · unfold stepCareful applyCareful
    rw [if_pos h, h0]
  · unfold stepOverride applyOverride
    rw [if_pos h, h0]
  · unfold stepAlts2 applyAlts2
    rw [if_pos h, h0]
  · unfold stepSet applySet
    rw [if_pos h, h0]

/-- **C39** In a finite graph `init` ends exactly if no cycle of empty arcs can be reached through empty arcs. -/
theorem C39_init_ends (g : Graph W) (n : Nat) (hf : Finite g n) (q : Nat) :
    (∃ fuel st, init g fuel q = some st) ↔ NoEpsCycle g q := by
  unfold init
  rw [closure_ends_iff hf]
  simp

/-- **C39** In a finite graph a step ends exactly if no cycle of empty arcs can be reached through empty arcs from the
nodes that the symbol leads to. -/
theorem C39_step_ends (g : Graph W) (n : Nat) (hf : Finite g n) (x : Int) (hx : x ≠ 0) (st : List (Rec W)) :
    (∃ fuel st', step g fuel x st = some st') ↔ ∀ r ∈ st, ∀ l p, l.1 = x → Arc g r.node l p → NoEpsCycle g p := by
  unfold step
  rw [closure_ends_iff hf]
  unfold apply
  rw [if_neg hx]
  constructor
  · intro h r hr l p h1 h2
    exact h ⟨p, r.seq ++ [(l.2.2.1, l.2.2.2)], r.dirty || false⟩ (List.mem_flatMap.2 ⟨r, hr, (mem_applyInto hx).2 ⟨l, h1, h2, rfl, rfl⟩⟩)
  · intro h r' hr'
    obtain ⟨r, hr, h1⟩ := List.mem_flatMap.1 hr'
    obtain ⟨l, h2, h3, -⟩ := (mem_applyInto hx).1 h1
    exact h r hr l _ h2 h3

/-- **C39** In a finite graph without cycles of empty arcs every run ends. -/
theorem C39_run_ends (g : Graph W) (n : Nat) (hf : Finite g n) (hc : ∀ q, NoEpsCycle g q) (q : Nat) (xs : List Int) :
    ∃ fuel st, ∀ fuel' ≥ fuel, run g fuel' q xs = some st := run_ends hf hc q xs

/-- The arcs of the example. -/
theorem exG_arc {q : Nat} {l : Label Nat} {p : Nat} (h : Arc exG q l p) :
    (q = 0 ∧ l.1 = 97 ∧ (p = 1 ∨ p = 2)) ∨ (q = 1 ∧ l.1 = 0 ∧ p = 3) ∨ (q = 2 ∧ l.1 = 0 ∧ p = 3) := by
  obtain ⟨ds, h1, h2⟩ := h
  unfold exG at h1
  have hp := List.mem_of_getElem? h2
  split at h1
  · cases h1
    simp only [List.mem_cons, Prod.mk.injEq, List.not_mem_nil, or_false] at hp
    omega
  · split at h1
    · cases h1
      simp only [List.mem_cons, Prod.mk.injEq, List.not_mem_nil, or_false] at hp
      omega
    · split at h1
      · cases h1
        simp only [List.mem_cons, Prod.mk.injEq, List.not_mem_nil, or_false] at hp
        omega
      · cases h1

example : Finite exG 4 ∧ ∀ q, NoEpsCycle exG q := by
  refine ⟨fun q l p h => by rcases exG_arc h with h | h | h <;> omega, ?_⟩
  intro q ls p _ ls' h
  have key : ∀ ls' a b, Path (Arc exG) a ls' b → ls' = [] ∨ a < b := by
    intro ls'
    induction ls' with
    | nil => intro a b _; exact .inl rfl
    | cons l ls' ih =>
      intro a b h
      obtain ⟨m, h1, h2⟩ := Fst.path_cons_iff.1 h
      right
      have : a < m := by rcases exG_arc h1 with h | h | h <;> omega
      rcases ih m b h2 with e | e
      · subst e
        rw [Fst.path_nil_iff] at h2
        omega
      · omega
  rcases key ls' p p h.1 with e | e
  · exact e
  · omega

/-- A node with an empty arc to itself. -/
def exLoop : Graph Nat := fun q i => if q = 0 ∧ i = 0 then some [(0, 0, 0)] else none

/-- **C39** With a cycle of empty arcs `init` does not end: the full claim, for all graphs, fails. -/
theorem C39_cycle_false : ∀ fuel, init exLoop fuel 0 = none := by
  have key : ∀ fuel i (st : List (Rec Nat)), i < st.length → (∀ r ∈ st, r.node = 0) → closureLoop exLoop fuel i st = none := by
    intro fuel
    induction fuel with
    | zero =>
      intro i st hi _
      unfold closureLoop
      rw [List.getElem?_eq_getElem hi]
    | succ fuel ih =>
      intro i st hi h0
      unfold closureLoop
      rw [List.getElem?_eq_getElem hi]
      simp only
      have hn := h0 _ (List.getElem_mem hi)
      have he : epsSuccs exLoop st[i] = [{ node := 0, seq := st[i].seq, dirty := st[i].dirty }] := by
        unfold epsSuccs
        rw [hn]
        rfl
      rw [he]
      refine ih _ _ (by simp; omega) ?_
      intro r hr
      rcases List.mem_append.1 hr with hr | hr
      · exact h0 r hr
      · rw [List.mem_singleton.1 hr]
  intro fuel
  exact key fuel 0 _ (by simp) (by simp)

/-- **C39** Where arcs that read and write nothing have no weight, the weights that are remembered add up to the weight
of the path. -/
theorem C39_weight_partial [AddMonoid W] (g : Graph W) (fuel q : Nat) (xs : List Int) (hx : ∀ x ∈ xs, x ≠ 0) (st : List (Rec W))
    (h : run g fuel q xs = some st) (hw : ∀ q l p, Arc g q l p → l.1 = 0 → l.2.2.1 = 0 → l.2.2.2 = 0) (p : Nat) (w : W) :
    (∃ r ∈ st, r.node = p ∧ (r.seq.map (·.2)).sum = w) ↔ ∃ ls, Path (Arc g) q ls p ∧ inputs ls = xs ∧ (ls.map (·.2.2.2)).sum = w := by
  have key : ∀ ls : List (Label W), (∀ l ∈ ls, l.1 = 0 → l.2.2.1 = 0 → l.2.2.2 = 0) → ((written ls).map (·.2)).sum = (ls.map (·.2.2.2)).sum := by
    intro ls
    induction ls with
    | nil => intro _; rfl
    | cons l ls ih =>
      intro hl
      have i := ih (fun x hx => hl x (by simp [hx]))
      by_cases hc : l.1 = 0 ∧ l.2.2.1 = 0
      · have : written (l :: ls) = written ls := by simp [written, hc]
        rw [this, i, List.map_cons, List.sum_cons, hl l (by simp) hc.1 hc.2, zero_add]
      · have : written (l :: ls) = l.2.2 :: written ls := by
          unfold written
          rw [List.filter_cons_of_pos (by rw [decide_eq_true_eq]; exact hc), List.map_cons]
        rw [this, List.map_cons, List.sum_cons, i, List.map_cons, List.sum_cons]
  have harcs : ∀ (ls : List (Label W)) a b, Path (Arc g) a ls b → ∀ l ∈ ls, l.1 = 0 → l.2.2.1 = 0 → l.2.2.2 = 0 := by
    intro ls
    induction ls with
    | nil => intro a b _ l hl; simp at hl
    | cons l ls ih =>
      intro a b h l' hl'
      obtain ⟨m, h1, h2⟩ := Fst.path_cons_iff.1 h
      rcases List.mem_cons.1 hl' with rfl | hl'
      · exact hw _ _ _ h1
      · exact ih _ _ h2 l' hl'
  constructor
  · rintro ⟨r, hr, rfl, rfl⟩
    obtain ⟨-, ls, h1, h2, h3⟩ := (C39_states g fuel q xs hx st h r).1 hr
    exact ⟨ls, h1, h2, by rw [h3, key ls (harcs _ _ _ h1)]⟩
  · rintro ⟨ls, h1, h2, rfl⟩
    exact ⟨⟨p, written ls, false⟩, (C39_states g fuel q xs hx st h _).2 ⟨rfl, ls, h1, h2, rfl⟩, rfl, key ls (harcs _ _ _ h1)⟩

/-- A graph as in `C39_weight_partial`. -/
def exG0 : Graph Nat := fun q i =>
  if q = 0 ∧ i = 97 then some [(0, 1, 2)] else if q = 1 ∧ i = 0 then some [(98, 2, 5), (0, 3, 0)] else none

example : (∀ q l p, Arc exG0 q l p → l.1 = 0 → l.2.2.1 = 0 → l.2.2.2 = 0) ∧
    run exG0 10 0 [97] = some [⟨1, [(0, 2)], false⟩, ⟨2, [(0, 2), (98, 5)], false⟩, ⟨3, [(0, 2)], false⟩] := by
  refine ⟨?_, by decide +kernel⟩
  rintro q ⟨i, k, o, w⟩ p ⟨ds, h1, h2⟩ hi ho
  simp only at hi ho h1 h2 ⊢
  subst hi ho
  unfold exG0 at h1
  rw [if_neg (by omega)] at h1
  split at h1
  · cases h1
    have := List.mem_of_getElem? h2
    simp only [List.mem_cons, Prod.mk.injEq, List.not_mem_nil, or_false] at this
    omega
  · cases h1

/-- **C39** Weights on arcs that read and write nothing are lost: the one path of this graph that reads `a` and ends in 3
through 1 has weight 7, but the alive state has weight 2. -/
theorem C39_weight_false : ∃ st, run exG 10 0 [97] = some st ∧
    (∃ ls, Path (Arc exG) 0 ls 3 ∧ inputs ls = [97] ∧ (ls.map (·.2.2.2)).sum = 7) ∧
    ¬ ∃ r ∈ st, r.node = 3 ∧ (r.seq.map (·.2)).sum = 7 := by
  refine ⟨_, (by decide +kernel : run exG 10 0 [97] = some [⟨1, [(98, 2)], false⟩, ⟨2, [(0, 3)], false⟩, ⟨3, [(98, 2)], false⟩,
    ⟨3, [(0, 3), (99, 7)], false⟩]), ⟨[(97, 0, 98, 2), (0, 0, 0, 5)], ?_, by decide, by decide⟩, by decide⟩
  exact .cons ⟨_, rfl, rfl⟩ (.cons ⟨_, rfl, rfl⟩ (.nil _))

/-! ## C40 -/

/-- **C40** A step with one symbol. -/
theorem C40_step (g : Graph W) (fuel : Nat) (x : Int) (hx : x ≠ 0) (st st' : List (Rec W)) (h : step g fuel x st = some st') (r' : Rec W) :
    r' ∈ st' ↔ ∃ r ∈ st, Took g r x false r' := by
  unfold step apply at h
  rw [if_neg hx] at h
  exact closure_hops h (fun r r1 => mem_applyInto hx) (fun r r' => closure_hop) r'

/-- **C40** A step with an alternative reaches exactly what either symbol reaches, and marks what the alternative, if
it is another symbol, reaches. -/
theorem C40_step_alternative (g : Graph W) (fuel : Nat) (x y : Int) (hx : x ≠ 0) (hy : y ≠ 0) (st st' : List (Rec W))
    (h : stepAlt g fuel x y st = some st') (r' : Rec W) :
    r' ∈ st' ↔ ∃ r ∈ st, Took g r x false r' ∨ (y ≠ x ∧ Took g r y true r') := by
  unfold stepAlt applyAlt at h
  rw [if_neg (by simp [hx, hy])] at h
  by_cases e : x = y
  · rw [if_pos e] at h
    rw [C40_step g fuel x hx st st' h]
    simp [e]
  · rw [if_neg e] at h
    refine closure_hops h (Q := fun r r1 => Hop id g r x false r1 ∨ Hop id g r y true r1) (T := fun r r' => Took g r x false r' ∨ (y ≠ x ∧ Took g r y true r')) ?_ ?_ r'
    · intro r r1
      rw [List.mem_append, mem_applyInto hx, mem_applyInto hy]
    · intro r r'
      simp only [or_and_right, exists_or, closure_hop, Took]
      simp [Ne.symm e]

/-- **C40** `step_careful`: the alternative is used exactly at the nodes that have no arcs for the symbol. -/
theorem C40_step_careful (g : Graph W) (fuel : Nat) (x y : Int) (hx : x ≠ 0) (hy : y ≠ 0) (st st' : List (Rec W))
    (h : stepCareful g fuel x y st = some st') (r' : Rec W) :
    r' ∈ st' ↔ ∃ r ∈ st, Took g r x false r' ∨ (g r.node x = none ∧ Took g r y true r') := by
  unfold stepCareful applyCareful at h
  rw [if_neg (by simp [hx, hy])] at h
  refine closure_hops h (Q := fun r r1 => Hop id g r x false r1 ∨ (g r.node x = none ∧ Hop id g r y true r1)) (T := fun r r' => Took g r x false r' ∨ (g r.node x = none ∧ Took g r y true r')) ?_ ?_ r'
  · intro r r1
    cases hg : g r.node x with
    | none =>
      have : ¬ (applyInto g x r false).2 = true := by rw [applyInto_snd]; simp [hg]
      rw [if_neg this, mem_applyInto hy]
      have hno : ¬ Hop id g r x false r1 := by
        rintro ⟨l, h1, ⟨ds, h2, -⟩, -⟩
        rw [h1, hg] at h2; cases h2
      simp [hno]
    | some ds =>
      have : (applyInto g x r false).2 = true := by rw [applyInto_snd]; simp [hg]
      rw [if_pos this, mem_applyInto hx]
      simp
  · intro r r'
    simp only [or_and_right, exists_or, closure_hop, Took, and_assoc, exists_and_left]

/-- **C40** A step with two alternatives. -/
theorem C40_step_two (g : Graph W) (fuel : Nat) (x y z : Int) (hx : x ≠ 0) (hy : y ≠ 0) (hz : z ≠ 0) (st st' : List (Rec W))
    (h : stepAlts2 g fuel x y z st = some st') (r' : Rec W) :
    r' ∈ st' ↔ ∃ r ∈ st, Took g r x false r' ∨ (y ≠ x ∧ Took g r y true r') ∨ (z ≠ x ∧ Took g r z true r') := by
  unfold stepAlts2 applyAlts2 at h
  rw [if_neg (by simp [hx, hy, hz])] at h
  by_cases e : x = y
  · rw [if_pos e] at h
    rw [C40_step_alternative g fuel x z hx hz st st' h]
    simp [e]
  · rw [if_neg e] at h
    by_cases e' : x = z
    · rw [if_pos e'] at h
      rw [C40_step_alternative g fuel x y hx hy st st' h]
      simp [e']
    · rw [if_neg e'] at h
      refine closure_hops h (Q := fun r r1 => Hop id g r x false r1 ∨ Hop id g r y true r1 ∨ Hop id g r z true r1) (T := fun r r' => Took g r x false r' ∨ (y ≠ x ∧ Took g r y true r') ∨ (z ≠ x ∧ Took g r z true r')) ?_ ?_ r'
      · intro r r1
        rw [List.mem_append, List.mem_append, mem_applyInto hx, mem_applyInto hy, mem_applyInto hz, or_assoc]
      · intro r r'
        simp only [or_and_right, exists_or, closure_hop, Took]
        simp [Ne.symm e, Ne.symm e']

/-- **C40** A step with a set of alternatives. -/
theorem C40_step_set (g : Graph W) (fuel : Nat) (x : Int) (ys : List Int) (hx : x ≠ 0) (hy : (0 : Int) ∉ ys) (st st' : List (Rec W))
    (h : stepSet g fuel x ys st = some st') (r' : Rec W) :
    r' ∈ st' ↔ ∃ r ∈ st, Took g r x false r' ∨ ∃ y ∈ ys, y ≠ x ∧ Took g r y true r' := by
  unfold stepSet applySet at h
  rw [if_neg (by simp [hx, hy])] at h
  refine closure_hops h (Q := fun r r1 => Hop id g r x false r1 ∨ ∃ y ∈ ys, y ≠ x ∧ Hop id g r y true r1) (T := fun r r' => Took g r x false r' ∨ ∃ y ∈ ys, y ≠ x ∧ Took g r y true r') ?_ ?_ r'
  · intro r r1
    rw [List.mem_append, mem_applyInto hx, List.mem_flatMap]
    refine or_congr Iff.rfl (exists_congr fun y => and_congr_right fun hys => ?_)
    by_cases e : y = x
    · simp [e]
    · rw [if_neg e, mem_applyInto (fun h0 => hy (h0 ▸ hys))]
      simp [e]
  · intro r r'
    simp only [or_and_right, exists_or, closure_hop, Took]
    refine or_congr Iff.rfl ?_
    constructor
    · rintro ⟨r1, ⟨y, h1, h2, h3⟩, h4⟩
      exact ⟨y, h1, h2, closure_hop.1 ⟨r1, h3, h4⟩⟩
    · rintro ⟨y, h1, h2, h3⟩
      obtain ⟨r1, h4, h5⟩ := closure_hop.2 h3
      exact ⟨r1, ⟨y, h1, h2, h4⟩, h5⟩

/-- **C40** `step_case`: an upper-case letter also reads the lower-case arcs, unless case matters. -/
theorem C40_step_case (isUpper : Int → Bool) (toLower : Int → Int) (g : Graph W) (fuel : Nat) (x : Int) (cs : Bool) (hx : x ≠ 0)
    (hl : toLower x ≠ 0) (st st' : List (Rec W)) (h : stepCase isUpper toLower g fuel x cs st = some st') (r' : Rec W) :
    r' ∈ st' ↔ ∃ r ∈ st, Took g r x false r' ∨
      (isUpper x = true ∧ cs = false ∧ toLower x ≠ x ∧ Took g r (toLower x) true r') := by
  unfold stepCase at h
  by_cases hc : (!isUpper x || cs) = true
  · rw [if_pos hc] at h
    rw [C40_step g fuel x hx st st' h]
    have : ¬ (isUpper x = true ∧ cs = false) := by
      rintro ⟨h1, h2⟩
      simp [h1, h2] at hc
    refine exists_congr fun r => and_congr_right fun _ => ?_
    constructor
    · exact .inl
    · rintro (h | ⟨h1, h2, -⟩)
      · exact h
      · exact absurd ⟨h1, h2⟩ this
  · rw [if_neg hc] at h
    rw [C40_step_alternative g fuel x (toLower x) hx hl st st' h]
    have : isUpper x = true ∧ cs = false := by simpa using hc
    simp [this.1, this.2]

/-- **C40** `step_case` with a second symbol. -/
theorem C40_step_case_two (isUpper : Int → Bool) (toLower : Int → Int) (g : Graph W) (fuel : Nat) (x y : Int) (cs : Bool) (hx : x ≠ 0)
    (hy : y ≠ 0) (hl : toLower x ≠ 0) (st st' : List (Rec W)) (h : stepCase2 isUpper toLower g fuel x y cs st = some st') (r' : Rec W) :
    r' ∈ st' ↔ ∃ r ∈ st, Took g r x false r' ∨
      (isUpper x = true ∧ cs = false ∧ toLower x ≠ x ∧ Took g r (toLower x) true r') ∨ (y ≠ x ∧ Took g r y true r') := by
  unfold stepCase2 at h
  by_cases hc : (!isUpper x || cs) = true
  · rw [if_pos hc] at h
    rw [C40_step_alternative g fuel x y hx hy st st' h]
    have : ¬ (isUpper x = true ∧ cs = false) := by
      rintro ⟨h1, h2⟩
      simp [h1, h2] at hc
    refine exists_congr fun r => and_congr_right fun _ => or_congr Iff.rfl ?_
    constructor
    · exact .inr
    · rintro (⟨h1, h2, -⟩ | h)
      · exact absurd ⟨h1, h2⟩ this
      · exact h
  · rw [if_neg hc] at h
    have : isUpper x = true ∧ cs = false := by simpa using hc
    by_cases he : x ≠ toLower x
    · rw [if_pos he] at h
      rw [C40_step_two g fuel x (toLower x) y hx hl hy st st' h]
      simp [this.1, this.2]
    · rw [if_neg he] at h
      rw [C40_step_alternative g fuel x y hx hy st st' h]
      push Not at he
      simp [← he]

/-- **C40** `step_optional`: the symbol may be read or left out. -/
theorem C40_step_optional (g : Graph W) (fuel : Nat) (x : Int) (hx : x ≠ 0) (st st' : List (Rec W))
    (h : stepOptional g fuel x st = some st') (r' : Rec W) : r' ∈ st' ↔ r' ∈ st ∨ ∃ r ∈ st, Took g r x false r' := by
  unfold stepOptional at h
  rw [if_neg hx, Option.map_eq_some_iff] at h
  obtain ⟨s1, h1, rfl⟩ := h
  rw [List.mem_append]
  exact or_congr Iff.rfl (closure_hops h1 (fun r r1 => mem_applyInto hx) (fun r r' => closure_hop) r')

/-- **C40** `step_override` with three symbols: `x` and `old` are read and `new` is written for `old`. -/
theorem C40_step_override (g : Graph W) (fuel : Nat) (x old new : Int) (hx : x ≠ 0) (ho : old ≠ 0) (st st' : List (Rec W))
    (h : stepOverride g fuel x old new st = some st') (r' : Rec W) :
    r' ∈ st' ↔ ∃ r ∈ st, TookWith (replaced old new) g r x false r' ∨ TookWith (replaced old new) g r old true r' := by
  unfold stepOverride applyOverride at h
  rw [if_neg (by simp [hx, ho])] at h
  refine closure_hops h (Q := fun r r1 => Hop (replaced old new) g r x false r1 ∨ Hop (replaced old new) g r old true r1) (T := fun r r' => TookWith (replaced old new) g r x false r' ∨ TookWith (replaced old new) g r old true r') ?_ ?_ r'
  · intro r r1
    rw [List.mem_append, mem_applyIntoOverride hx, mem_applyIntoOverride ho]
  · intro r r'
    simp only [or_and_right, exists_or, closure_hop]

/-- **C40** `step_case_override`: an upper-case letter also reads the lower-case arcs and writes the upper-case letter
where they write the lower-case one. -/
theorem C40_step_case_override (isUpper : Int → Bool) (toLower : Int → Int) (g : Graph W) (fuel : Nat) (x : Int) (hx : x ≠ 0)
    (hl : toLower x ≠ 0) (hu : isUpper x = true) (hne : toLower x ≠ x) (st st' : List (Rec W))
    (h : stepCaseOverride isUpper toLower g fuel x false st = some st') (r' : Rec W) :
    r' ∈ st' ↔ ∃ r ∈ st, TookWith (replaced (toLower x) x) g r x false r' ∨ TookWith (replaced (toLower x) x) g r (toLower x) true r' := by
  unfold stepCaseOverride at h
  rw [if_neg (by simp [hu])] at h
  unfold stepOverrideAlt applyOverrideAlt at h
  rw [if_neg (Ne.symm hne), if_neg (by simp [hx, hl])] at h
  refine closure_hops h (Q := fun r r1 => Hop (replaced (toLower x) x) g r x false r1 ∨ Hop (replaced (toLower x) x) g r (toLower x) true r1) (T := fun r r' => TookWith (replaced (toLower x) x) g r x false r' ∨ TookWith (replaced (toLower x) x) g r (toLower x) true r') ?_ ?_ r'
  · intro r r1
    rw [List.mem_append, List.mem_append, mem_applyIntoOverride hx, mem_applyIntoOverride hl]
    tauto
  · intro r r'
    simp only [or_and_right, exists_or, closure_hop]

/-- A node with an arc for `a` to itself. -/
def exSelf : Graph Nat := fun q i => if q = 0 ∧ i = 97 then some [(97, 0, 1)] else none

/-- Upper-case `A` only. -/
def exUpper (x : Int) : Bool := x = 65

/-- Lower case of `A` only. -/
def exLower (x : Int) : Int := if x = 65 then 97 else x

example : stepAlt exSelf 9 65 97 [⟨0, [], false⟩] = some [⟨0, [(97, 1)], true⟩] ∧
    stepCareful exSelf 9 65 97 [⟨0, [], false⟩] = some [⟨0, [(97, 1)], true⟩] ∧
    stepAlts2 exSelf 9 65 97 66 [⟨0, [], false⟩] = some [⟨0, [(97, 1)], true⟩] ∧
    stepSet exSelf 9 65 [66, 97] [⟨0, [], false⟩] = some [⟨0, [(97, 1)], true⟩] ∧
    stepCase exUpper exLower exSelf 9 65 false [⟨0, [], false⟩] = some [⟨0, [(97, 1)], true⟩] ∧
    stepCase2 exUpper exLower exSelf 9 65 66 false [⟨0, [], false⟩] = some [⟨0, [(97, 1)], true⟩] ∧
    stepOptional exSelf 9 97 [⟨0, [], false⟩] = some [⟨0, [], false⟩, ⟨0, [(97, 1)], false⟩] ∧
    stepOverride exSelf 9 65 97 66 [⟨0, [], false⟩] = some [⟨0, [(66, 1)], true⟩] := by
  decide +kernel

/-- `n` steps of `step_case_override`. -/
def overrideRun (g : Graph W) (isUpper : Int → Bool) (toLower : Int → Int) (fuel : Nat) (x : Int) : Nat → List (Rec W) → Option (List (Rec W))
  | 0, st => some st
  | n + 1, st => (stepCaseOverride isUpper toLower g fuel x false st).bind (overrideRun g isUpper toLower fuel x n)

/-- **C40** `step_case_override` follows every lower-case arc twice, because the lower-case letter is both the
alternative and the replaced symbol. So a path is not represented once: a word of `n` upper-case letters that has one
path leads to `2 ^ n` equal states. -/
theorem C40_override_twice_false (n : Nat) :
    ∃ st, overrideRun exSelf exUpper exLower (2 ^ n) 65 n [⟨0, [], false⟩] = some st ∧ st.length = 2 ^ n ∧
      ∀ r ∈ st, ∀ r' ∈ st, r = r' := by
  have hclo : ∀ fuel i (st : List (Rec Nat)), st.length - i ≤ fuel → closureLoop exSelf fuel i st = some st := by
    intro fuel
    induction fuel with
    | zero =>
      intro i st h
      unfold closureLoop
      rw [List.getElem?_eq_none (by omega)]
    | succ fuel ih =>
      intro i st h
      unfold closureLoop
      by_cases hi : i < st.length
      · rw [List.getElem?_eq_getElem hi]
        simp only
        have : epsSuccs exSelf st[i] = [] := by
          unfold epsSuccs exSelf
          rw [if_neg (by omega)]
        rw [this, List.append_nil]
        exact ih _ _ (by omega)
      · rw [List.getElem?_eq_none (by omega)]
  have hstep : ∀ fuel k s d, 2 * k ≤ fuel → stepCaseOverride exUpper exLower exSelf fuel 65 false (List.replicate k ⟨0, s, d⟩) =
      some (List.replicate (2 * k) ⟨0, s ++ [(65, 1)], true⟩) := by
    intro fuel k s d hk
    unfold stepCaseOverride
    rw [if_neg (by decide)]
    unfold stepOverrideAlt epsilonClosure
    have : applyOverrideAlt exSelf 65 (exLower 65) (exLower 65) 65 (List.replicate k (⟨0, s, d⟩ : Rec Nat)) = List.replicate (2 * k) ⟨0, s ++ [(65, 1)], true⟩ := by
      unfold applyOverrideAlt
      rw [if_neg (by decide), if_neg (by decide)]
      induction k with
      | zero => rfl
      | succ k ih =>
        rw [List.replicate_succ, List.flatMap_cons, ih (by omega)]
        have e : 2 * (k + 1) = 2 + 2 * k := by ring
        rw [e, List.replicate_add]
        congr 1
        simp [applyIntoOverride, exSelf, exLower, List.replicate]
    rw [this]
    exact hclo _ _ _ (by simp; omega)
  have key : ∀ n fuel k s d, 2 ^ n * k ≤ fuel → ∃ s' d', overrideRun exSelf exUpper exLower fuel 65 n (List.replicate k ⟨0, s, d⟩) =
      some (List.replicate (2 ^ n * k) ⟨0, s', d'⟩) := by
    intro n
    induction n with
    | zero => intro fuel k s d _; exact ⟨s, d, by simp [overrideRun]⟩
    | succ n ih =>
      intro fuel k s d h
      have e : 2 ^ (n + 1) * k = 2 ^ n * (2 * k) := by ring
      have h2 : 2 * k ≤ fuel := by
        refine le_trans ?_ (e ▸ h)
        exact Nat.le_mul_of_pos_left _ (by positivity)
      obtain ⟨s', d', hs⟩ := ih fuel (2 * k) (s ++ [(65, 1)]) true (e ▸ h)
      refine ⟨s', d', ?_⟩
      rw [overrideRun, hstep fuel k s d h2, e]
      exact hs
  obtain ⟨s', d', hs⟩ := key n (2 ^ n) 1 [] false (by omega)
  refine ⟨_, hs, by simp, ?_⟩
  intro r hr r' hr'
  rw [List.eq_of_mem_replicate hr, List.eq_of_mem_replicate hr']

end Verif.State
