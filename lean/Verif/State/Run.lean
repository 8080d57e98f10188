import Verif.State.Lemmas

/-! # Whole runs and single steps -/

namespace Verif.State

open Verif.Fst (Path)

variable {W : Type}

/-- `init` and then one `step` for each symbol. -/
def run (g : Graph W) (fuel q : Nat) (xs : List Int) : Option (List (Rec W)) :=
  xs.foldl (fun st x => st.bind (step g fuel x)) (init g fuel q)

theorem run_append (g : Graph W) (fuel q : Nat) (xs : List Int) (x : Int) :
    run g fuel q (xs ++ [x]) = (run g fuel q xs).bind (step g fuel x) := by
  simp [run, List.foldl_append]

/-! ## Closure -/

theorem closure_of_paths (g : Graph W) {α : Type} (base : α → Rec W) (fuel : Nat) (P : List (PE α W)) {st : List (Rec W)}
    (h : epsilonClosure g fuel (P.map (recOf base)) = some st) : ∃ ps, closureP g fuel 0 P = some ps ∧ st = ps.map (recOf base) := by
  unfold epsilonClosure at h
  rw [closureLoop_eq, Option.map_eq_some_iff] at h
  obtain ⟨ps, h1, h2⟩ := h
  exact ⟨ps, h1, h2.symm⟩

/-- The states as origins of paths. -/
def origins (st : List (Rec W)) : List (PE (Nat × Rec W) W) := st.zipIdx.map fun x => ((x.2, x.1), [], x.1.node)

theorem origins_map (st : List (Rec W)) : (origins st).map (recOf (fun x : Nat × Rec W => x.2)) = st := by
  unfold origins
  rw [List.map_map]
  conv_rhs => rw [← List.zipIdx_map_fst 0 st]
  refine List.map_congr_left ?_
  rintro ⟨r, j⟩ _
  simp [recOf, written]

theorem origins_fresh (st : List (Rec W)) : Fresh (origins st) := by
  intro e he ls l h
  simp only [origins, List.mem_map] at he
  obtain ⟨x, -, rfl⟩ := he
  simp at h

theorem origins_real (g : Graph W) (st : List (Rec W)) : ∀ e ∈ origins st, Real g (fun x : Nat × Rec W => x.2.node) e := by
  intro e he
  simp only [origins, List.mem_map] at he
  obtain ⟨x, -, rfl⟩ := he
  exact .nil _

theorem origins_nodup (st : List (Rec W)) : (origins st).Nodup := by
  unfold origins
  have h1 : ∀ (l : List (Rec W)) (k : Nat), (l.zipIdx k).Pairwise (fun a b => a.2 ≠ b.2) := by
    intro l
    induction l with
    | nil => intro k; simp
    | cons x l ih =>
      intro k
      rw [List.zipIdx_cons, List.pairwise_cons]
      refine ⟨?_, ih _⟩
      rintro ⟨y, j⟩ hy
      have := List.le_snd_of_mem_zipIdx hy
      simp only at this ⊢
      omega
  rw [List.Nodup, List.pairwise_map]
  refine (h1 _ 0).imp ?_
  intro a b hab he
  simp only [Prod.mk.injEq] at he
  exact hab he.1.1

theorem mem_origins {st : List (Rec W)} {r : Rec W} : r ∈ st ↔ ∃ k, (((k, r), [], r.node) : PE (Nat × Rec W) W) ∈ origins st := by
  unfold origins
  simp only [List.mem_map, Prod.mk.injEq, true_and]
  constructor
  · intro h
    obtain ⟨k, hk⟩ := List.mem_iff_getElem?.1 h
    exact ⟨k, (r, k), List.mem_zipIdx_iff_getElem?.2 hk, ⟨rfl, rfl⟩, rfl⟩
  · rintro ⟨k, ⟨x, j⟩, h1, ⟨rfl, rfl⟩, -⟩
    exact List.fst_mem_of_mem_zipIdx h1

/-- The closure contains exactly what is reached by arcs that read nothing. -/
theorem closure_mem {g : Graph W} {fuel : Nat} {st st' : List (Rec W)} (h : epsilonClosure g fuel st = some st') (r' : Rec W) :
    r' ∈ st' ↔ ∃ r ∈ st, ∃ ls, EpsPath g r.node ls r'.node ∧ r'.seq = r.seq ++ written ls ∧ r'.dirty = r.dirty := by
  rw [← origins_map st] at h
  obtain ⟨ps, h1, rfl⟩ := closure_of_paths g _ fuel _ h
  obtain ⟨-, -, h3⟩ := closureP_spec (origins_fresh st) (origins_nodup st) (origins_real g st) h1
  constructor
  · intro hr
    obtain ⟨e, he, rfl⟩ := List.mem_map.1 hr
    obtain ⟨e0, k1, ls, k2, k3, k4⟩ := (h3 e).1 he
    have : e0.2.1 = [] ∧ e0.2.2 = e0.1.2.node ∧ e0.1.2 ∈ st := by
      simp only [origins, List.mem_map] at k1
      obtain ⟨⟨x, j⟩, hx, rfl⟩ := k1
      exact ⟨rfl, rfl, List.fst_mem_of_mem_zipIdx hx⟩
    refine ⟨e0.1.2, this.2.2, ls, ?_, ?_, ?_⟩
    · rw [← this.2.1]; exact k2
    · simp only [recOf, k3, k4, this.1, List.nil_append]
    · simp only [recOf, k3]
  · rintro ⟨r, hr, ls, k1, k2, k3⟩
    obtain ⟨k, hk⟩ := mem_origins.1 hr
    refine List.mem_map.2 ⟨((k, r), ls, r'.node), (h3 _).2 ⟨_, hk, ls, k1, rfl, rfl⟩, ?_⟩
    obtain ⟨n, s, d⟩ := r'
    simp only at k2 k3
    subst k2; subst k3
    rfl

/-- When the closure ends. -/
theorem closure_ends_iff {g : Graph W} {n : Nat} (hf : Finite g n) (st : List (Rec W)) :
    (∃ fuel st', epsilonClosure g fuel st = some st') ↔ ∀ r ∈ st, NoEpsCycle g r.node := by
  constructor
  · rintro ⟨fuel, st', h⟩ r hr
    rw [← origins_map st] at h
    obtain ⟨ps, h1, rfl⟩ := closure_of_paths g _ fuel _ h
    obtain ⟨k, hk⟩ := mem_origins.1 hr
    rw [bounded_iff hf]
    exact ⟨_, closureP_bounded (origins_fresh st) (origins_nodup st) (origins_real g st) h1 _ hk⟩
  · intro h
    have : ∃ k, ∀ r ∈ st, Bounded g k r.node := by
      induction st with
      | nil => exact ⟨0, by simp⟩
      | cons r st ih =>
        obtain ⟨k, hk⟩ := ih (fun r hr => h r (by simp [hr]))
        obtain ⟨k', hk'⟩ := (bounded_iff hf r.node).1 (h r (by simp))
        refine ⟨max k k', ?_⟩
        intro x hx ls p hp
        rcases List.mem_cons.1 hx with rfl | hx
        · exact le_trans (hk' ls p hp) (le_max_right _ _)
        · exact le_trans (hk x hx ls p hp) (le_max_left _ _)
    obtain ⟨k, hk⟩ := this
    obtain ⟨ps, hps⟩ := closureP_ends (g := g) (k := k) (((origins st).map fun e => cost g k e.2.2).sum) 0 (origins st) (by
      intro e he
      simp only [List.drop_zero, origins, List.mem_map] at he
      obtain ⟨⟨x, j⟩, hx, rfl⟩ := he
      exact hk x (List.fst_mem_of_mem_zipIdx hx)) (by simp)
    refine ⟨((origins st).map fun e => cost g k e.2.2).sum, ps.map (recOf fun x => x.2), ?_⟩
    have : epsilonClosure g ((origins st).map fun e => cost g k e.2.2).sum ((origins st).map (recOf fun x => x.2)) =
        some (ps.map (recOf fun x => x.2)) := by
      unfold epsilonClosure
      rw [closureLoop_eq, hps]
      rfl
    rwa [origins_map] at this

theorem closure_mono {g : Graph W} {fuel fuel' : Nat} {st st' : List (Rec W)} (h : epsilonClosure g fuel st = some st') (hle : fuel ≤ fuel') :
    epsilonClosure g fuel' st = some st' := by
  rw [← origins_map st] at h ⊢
  obtain ⟨ps, h1, rfl⟩ := closure_of_paths g _ fuel _ h
  unfold epsilonClosure
  rw [closureLoop_eq, closureP_mono _ _ _ _ _ h1 hle]
  rfl

/-! ## Runs -/

theorem inputs_concat {xs : List Int} {x : Int} {ls : List (Label W)} (h : inputs ls = xs ++ [x]) :
    ∃ l1 l l2, ls = l1 ++ l :: l2 ∧ inputs l1 = xs ∧ l.1 = x ∧ ∀ y ∈ l2, y.1 = 0 := by
  induction ls generalizing xs with
  | nil => simp [inputs] at h
  | cons a ls ih =>
    by_cases ha : a.1 = 0
    · have : inputs (a :: ls) = inputs ls := by simp [inputs, ha]
      rw [this] at h
      obtain ⟨l1, l, l2, rfl, h2, h3, h4⟩ := ih h
      exact ⟨a :: l1, l, l2, rfl, by simpa [inputs, ha] using h2, h3, h4⟩
    · have e : inputs (a :: ls) = a.1 :: inputs ls := by simp [inputs, ha]
      rw [e] at h
      cases xs with
      | nil =>
        simp only [List.nil_append, List.cons.injEq] at h
        refine ⟨[], a, ls, rfl, rfl, h.1, ?_⟩
        intro y hy
        by_contra hy0
        have : y.1 ∈ inputs ls := by
          simp only [inputs, List.mem_filter, List.mem_map]
          exact ⟨⟨y, hy, rfl⟩, by simpa using hy0⟩
        rw [h.2] at this
        simp at this
      | cons z xs =>
        simp only [List.cons_append, List.cons.injEq] at h
        obtain ⟨l1, l, l2, rfl, h2, h3, h4⟩ := ih h.2
        refine ⟨a :: l1, l, l2, rfl, ?_, h3, h4⟩
        have : inputs (a :: l1) = a.1 :: inputs l1 := by simp [inputs, ha]
        rw [this, h2, h.1]

theorem inputs_eps {ls : List (Label W)} (h : ∀ l ∈ ls, l.1 = 0) : inputs ls = [] := by
  unfold inputs
  rw [List.filter_eq_nil_iff]
  intro x hx
  obtain ⟨l, hl, rfl⟩ := List.mem_map.1 hx
  simp [h l hl]

theorem inputs_nil {ls : List (Label W)} (h : inputs ls = []) : ∀ l ∈ ls, l.1 = 0 := by
  intro l hl
  unfold inputs at h
  rw [List.filter_eq_nil_iff] at h
  simpa using h l.1 (List.mem_map.2 ⟨l, hl, rfl⟩)

/-- The empty state. -/
def blank : Rec W := { node := 0, seq := [], dirty := false }

theorem run_paths {g : Graph W} {fuel q : Nat} (xs : List Int) (hx : ∀ x ∈ xs, x ≠ 0) : ∀ {st : List (Rec W)}, run g fuel q xs = some st →
    ∃ ps : List (PE Unit W), ps.Nodup ∧ (∀ e ∈ ps, Real g (fun _ => q) e) ∧ (∀ e : PE Unit W, e ∈ ps ↔ Path (Arc g) q e.2.1 e.2.2 ∧ inputs e.2.1 = xs) ∧
      st = ps.map (recOf fun _ => blank) := by
  induction xs using List.reverseRecOn with
  | nil =>
    intro st h
    have h' : epsilonClosure g fuel ([(((), [], q) : PE Unit W)].map (recOf fun _ => blank)) = some st := h
    obtain ⟨ps, h1, h2⟩ := closure_of_paths g _ fuel _ h'
    have hF : Fresh [(((), [], q) : PE Unit W)] := by
      intro e he ls l hl
      rw [List.mem_singleton.1 he] at hl
      simp at hl
    obtain ⟨k1, k2, k3⟩ := closureP_spec (root := fun _ => q) hF (by simp) (by
      intro e he
      rw [List.mem_singleton.1 he]
      exact .nil _) h1
    refine ⟨ps, k1, k2, ?_, h2⟩
    intro e
    rw [k3]
    constructor
    · rintro ⟨e0, h0, ls, h3, h4, h5⟩
      rw [List.mem_singleton.1 h0] at h3 h5
      simp only [List.nil_append] at h5
      rw [h5]
      exact ⟨h3.1, inputs_eps h3.2⟩
    · rintro ⟨h3, h4⟩
      exact ⟨_, List.mem_singleton.2 rfl, e.2.1, ⟨h3, inputs_nil h4⟩, rfl, rfl⟩
  | append_singleton xs x ih =>
    intro st h
    rw [run_append, Option.bind_eq_some_iff] at h
    obtain ⟨st1, h1, h2⟩ := h
    have hx0 : x ≠ 0 := hx x (by simp)
    obtain ⟨ps, k1, k2, k3, rfl⟩ := ih (fun y hy => hx y (by simp [hy])) h1
    have hap : apply g x (ps.map (recOf fun _ => blank)) = (ps.flatMap (ext g x)).map (recOf fun _ => blank) := by
      unfold apply
      rw [if_neg hx0, List.flatMap_map, List.map_flatMap]
      congr 1
      funext e
      exact applyInto_ext g hx0 _ e
    unfold step at h2
    rw [hap] at h2
    obtain ⟨ps', g1, g2⟩ := closure_of_paths g _ fuel _ h2
    have hF : Fresh (ps.flatMap (ext g x)) := by
      intro e he ls l hl
      obtain ⟨e0, -, he⟩ := List.mem_flatMap.1 he
      obtain ⟨l', m1, -, -, m4⟩ := mem_ext.1 he
      rw [m4] at hl
      have := (List.append_inj' hl rfl).2
      simp only [List.cons.injEq, and_true] at this
      rw [← this, m1]; exact hx0
    have hN : (ps.flatMap (ext g x)).Nodup := by
      rw [List.nodup_flatMap]
      refine ⟨fun e _ => nodup_ext g x e, ?_⟩
      have : ps.Pairwise (fun a b => a ∈ ps ∧ b ∈ ps ∧ a ≠ b) := by
        rw [List.Nodup] at k1
        exact (List.Pairwise.and_mem.1 k1).imp (fun ⟨a, b, c⟩ => ⟨a, b, c⟩)
      refine this.imp ?_
      rintro a b ⟨ha, hb, hab⟩ e hea heb
      obtain ⟨l, -, -, l1, l2⟩ := mem_ext.1 hea
      obtain ⟨m, -, -, m1, m2⟩ := mem_ext.1 heb
      rw [l2] at m2
      exact hab (real_unique (k2 a ha) (k2 b hb) (l1.symm.trans m1) (List.append_inj' m2 rfl).1)
    have hR : ∀ e ∈ ps.flatMap (ext g x), Real g (fun _ : Unit => q) e := by
      intro e he
      obtain ⟨e0, h0, he⟩ := List.mem_flatMap.1 he
      exact real_ext (k2 e0 h0) he
    obtain ⟨j1, j2, j3⟩ := closureP_spec (root := fun _ => q) hF hN hR g1
    refine ⟨ps', j1, j2, ?_, g2⟩
    intro e
    rw [j3]
    constructor
    · rintro ⟨e0, h0, ls, h3, h4, h5⟩
      obtain ⟨e1, h6, h7⟩ := List.mem_flatMap.1 h0
      obtain ⟨l, l0, l1, l2, l3⟩ := mem_ext.1 h7
      have hr1 := (k3 e1).1 h6
      rw [h5, l3, inputs_append, inputs_append, hr1.2, inputs_eps h3.2]
      refine ⟨(hr1.1.append (Path.single l1)).append h3.1, ?_⟩
      have : inputs [l] = [x] := by simp [inputs, l0, hx0]
      rw [this]; simp
    · rintro ⟨h3, h4⟩
      obtain ⟨l1, l, l2, m1, m2, m3, m4⟩ := inputs_concat h4
      rw [m1] at h3
      obtain ⟨r, n1, n2⟩ := Path.split h3
      obtain ⟨r', n3, n4⟩ := Fst.path_cons_iff.1 n2
      refine ⟨((), l1 ++ [l], r'), List.mem_flatMap.2 ⟨((), l1, r), (k3 _).2 ⟨n1, m2⟩, mem_ext.2 ⟨l, m3, n3, rfl, rfl⟩⟩, l2, ⟨n4, m4⟩, rfl, ?_⟩
      rw [m1]; simp

/-- Runs end where there are no cycles. -/
theorem run_ends {g : Graph W} {n : Nat} (hf : Finite g n) (hc : ∀ q, NoEpsCycle g q) (q : Nat) (xs : List Int) :
    ∃ fuel st, ∀ fuel' ≥ fuel, run g fuel' q xs = some st := by
  induction xs using List.reverseRecOn with
  | nil =>
    obtain ⟨fuel, st, h⟩ := (closure_ends_iff hf [({ node := q, seq := [], dirty := false } : Rec W)]).2 (fun r _ => hc _)
    exact ⟨fuel, st, fun fuel' hle => closure_mono h hle⟩
  | append_singleton xs x ih =>
    obtain ⟨f1, st1, h1⟩ := ih
    obtain ⟨f2, st2, h2⟩ := (closure_ends_iff hf (apply g x st1)).2 (fun r _ => hc _)
    refine ⟨max f1 f2, st2, ?_⟩
    intro fuel' hle
    rw [run_append, h1 fuel' (le_trans (le_max_left _ _) hle)]
    exact closure_mono h2 (le_trans (le_max_right _ _) hle)

end Verif.State
