import Verif.Product.Model
import Verif.Transducer.Ops

/-! # The search that `compose` and `trim` share -/

namespace Verif.Product

open Verif.Fst

section Loop
variable {S : Type} [DecidableEq S]

/-- `todo` after these targets have been looked at. -/
def pushes (seen : List S) (ts todo : List S) : List S := (ts.filter (· ∉ seen)).reverse ++ todo

theorem pushes_nil (seen todo : List S) : pushes seen [] todo = todo := rfl

theorem pushes_cons (seen : List S) (n : S) (ts todo : List S) :
    pushes seen (n :: ts) todo = pushes seen ts (if n ∈ seen then todo else n :: todo) := by
  unfold pushes
  by_cases h : n ∈ seen <;> simp [h]

theorem pushes_append (seen : List S) (xs ys todo : List S) : pushes seen (xs ++ ys) todo = pushes seen ys (pushes seen xs todo) := by
  unfold pushes; simp

theorem mem_pushes {seen ts todo : List S} {x : S} : x ∈ pushes seen ts todo ↔ (x ∈ ts ∧ x ∉ seen) ∨ x ∈ todo := by
  unfold pushes; simp

/-- What lies above an element that was taken before has all its targets, as far as they have not been taken. -/
def StackInv (targets : S → List S) (todo seen : List S) : Prop :=
  ∀ pre c post, todo = pre ++ c :: post → c ∈ seen → ∀ m ∈ targets c, m ∈ seen ∨ m ∈ pre

theorem StackInv.step {targets : S → List S} {c : S} {rest seen seen' : List S} (h : StackInv targets (c :: rest) seen)
    (hs : ∀ x, x ∈ seen' ↔ x = c ∨ x ∈ seen) : StackInv targets (pushes seen' (targets c) rest) seen' := by
  intro pre c' post he hc' m hm
  have hnew : ∀ x ∈ ((targets c).filter (· ∉ seen')).reverse, x ∉ seen' := by
    intro x hx; simp at hx; exact hx.2
  unfold pushes at he
  rcases List.append_eq_append_iff.1 he with ⟨as, h1, h2⟩ | ⟨bs, h1, h2⟩
  · -- the element is in `rest`
    rw [(hs c').symm.symm] at hc'
    rcases hc' with rfl | hc'
    · by_cases hms : m ∈ seen'
      · exact .inl hms
      · refine .inr ?_
        rw [h1, List.mem_append]
        exact .inl (by simp; exact ⟨hm, hms⟩)
    · rcases h (c :: as) c' post (by rw [h2]; rfl) hc' m hm with h3 | h3
      · exact .inl ((hs m).2 (.inr h3))
      · rcases List.mem_cons.1 h3 with rfl | h3
        · exact .inl ((hs m).2 (.inl rfl))
        · exact .inr (by rw [h1]; simp [h3])
  · cases bs with
    | nil =>
      simp only [List.append_nil, List.nil_append] at h1 h2
      rw [(hs c').symm.symm] at hc'
      rcases hc' with rfl | hc'
      · by_cases hms : m ∈ seen'
        · exact .inl hms
        · refine .inr ?_
          rw [← h1]
          simp; exact ⟨hm, hms⟩
      · rcases h [c] c' post (by rw [← h2]; rfl) hc' m hm with h3 | h3
        · exact .inl ((hs m).2 (.inr h3))
        · simp only [List.mem_singleton] at h3
          subst h3
          exact .inl ((hs m).2 (.inl rfl))
    | cons b bs =>
      simp only [List.cons_append, List.cons.injEq] at h2
      obtain ⟨rfl, h2⟩ := h2
      exact absurd hc' (hnew c' (by rw [h1]; simp))

/-- The number of elements that have not been taken. -/
def unseen (U seen : List S) : Nat := (U.filter (· ∉ seen)).length

theorem unseen_lt {U seen seen' : List S} {c : S} (hs : ∀ x, x ∈ seen' ↔ x = c ∨ x ∈ seen) (hc : c ∈ U) (hn : c ∉ seen) :
    unseen U seen' + 1 ≤ unseen U seen := by
  unfold unseen
  induction U with
  | nil => cases hc
  | cons u U ih =>
    have hle : (U.filter (· ∉ seen')).length ≤ (U.filter (· ∉ seen)).length := by
      refine List.Sublist.length_le ?_
      refine List.monotone_filter_right _ ?_
      intro x hx
      simp only [decide_eq_true_eq, hs, not_or] at hx ⊢
      exact hx.2
    rcases List.mem_cons.1 hc with rfl | hc
    · rw [List.filter_cons_of_neg (by simp [hs]), List.filter_cons_of_pos (by simpa using hn)]
      simp only [List.length_cons]; omega
    · have := ih hc
      by_cases hu : u ∈ seen'
      · rw [List.filter_cons_of_neg (by simpa using hu)]
        rw [List.filter_cons]
        split
        · simp only [List.length_cons]; omega
        · omega
      · have hu' : u ∉ seen := fun h => hu ((hs u).2 (.inr h))
        rw [List.filter_cons_of_pos (by simpa using hu), List.filter_cons_of_pos (by simpa using hu')]
        simp only [List.length_cons]; omega

theorem unseen_congr {U seen seen' : List S} (h : ∀ x, x ∈ seen' ↔ x ∈ seen) : unseen U seen' = unseen U seen := by
  unfold unseen; congr 2; funext x; simp [h]

theorem length_pushes (seen ts todo : List S) : (pushes seen ts todo).length ≤ ts.length + todo.length := by
  unfold pushes
  simp only [List.length_append, List.length_reverse]
  have := List.length_filter_le (fun x => decide (x ∉ seen)) ts
  omega

/-- The loop ends with an empty stack and keeps the invariant. -/
theorem loop_ok {σ : Type} (todo : σ → List S) (seen : σ → List S) (turn : S → List S → σ → Res σ) (loop : Nat → σ → Res σ)
    (hnil : ∀ k s, todo s = [] → loop k s = .ok s)
    (hcons : ∀ k s c rest s', todo s = c :: rest → turn c rest s = .ok s' → loop (k + 1) s = loop k s')
    (targets : S → List S) (U : List S) (B : Nat) (hU : ∀ n ∈ U, ∀ m ∈ targets n, m ∈ U) (hB : ∀ n ∈ U, (targets n).length ≤ B)
    (P : σ → Prop)
    (hturn : ∀ s c rest, P s → c ∈ U → todo s = c :: rest →
      ∃ s', turn c rest s = .ok s' ∧ P s' ∧ (∀ x, x ∈ seen s' ↔ x = c ∨ x ∈ seen s) ∧ todo s' = pushes (seen s') (targets c) rest) :
    ∀ k s, P s → (∀ x ∈ todo s, x ∈ U) → StackInv targets (todo s) (seen s) → unseen U (seen s) * B + (todo s).length ≤ k →
      ∃ s', loop k s = .ok s' ∧ P s' ∧ todo s' = [] := by
  intro k
  induction k with
  | zero =>
    intro s hP _ _ hk
    have : todo s = [] := List.length_eq_zero_iff.1 (by omega)
    exact ⟨s, hnil 0 s this, hP, this⟩
  | succ k ih =>
    intro s hP hT hI hk
    cases ht : todo s with
    | nil => exact ⟨s, hnil _ s ht, hP, ht⟩
    | cons c rest =>
      have hc : c ∈ U := hT c (by rw [ht]; exact List.mem_cons_self ..)
      obtain ⟨s', h1, h2, h3, h4⟩ := hturn s c rest hP hc ht
      rw [hcons k s c rest s' ht h1]
      rw [ht] at hI
      refine ih s' h2 ?_ ?_ ?_
      · intro x hx
        rw [h4, mem_pushes] at hx
        rcases hx with ⟨hx, -⟩ | hx
        · exact hU c hc x hx
        · exact hT x (by rw [ht]; exact List.mem_cons_of_mem _ hx)
      · rw [h4]; exact hI.step h3
      · rw [ht, List.length_cons] at hk
        by_cases hs : c ∈ seen s
        · have hseen : ∀ x, x ∈ seen s' ↔ x ∈ seen s := by
            intro x; rw [h3]
            exact ⟨fun h => h.elim (fun h => h ▸ hs) id, .inr⟩
          have : (targets c).filter (· ∉ seen s') = [] := by
            rw [List.filter_eq_nil_iff]
            intro m hm
            rcases hI [] c rest rfl hs m hm with h | h
            · simpa using (hseen m).2 h
            · cases h
          rw [unseen_congr hseen, h4]
          unfold pushes
          rw [this]
          simp only [List.reverse_nil, List.nil_append]
          omega
        · have h5 := unseen_lt h3 hc hs
          have h6 := length_pushes (seen s') (targets c) rest
          have h7 := hB c hc
          rw [← h4] at h6
          have h8 : unseen U (seen s') * B + B ≤ unseen U (seen s) * B := by
            have := Nat.mul_le_mul_right B h5
            rwa [Nat.add_mul, Nat.one_mul] at this
          omega

end Loop

section Inv
variable {S W Lab : Type} [LinearOrder S]

/-- The state of the search after the arcs `D` have been added: `D n l w m` is an arc from `n` to `m` with the label `l`, and `L` tells
which labels of the result stand for `l`. -/
structure Inv (L : Int → Lab → Prop) (start : S) (D : S → Lab → W → S → Prop) (s : Search S W) : Prop where
  wf : WF s.t
  finals : s.t.finals = []
  sorted : SortedKeys s.ids
  start : mapFind start s.ids = some s.t.initial
  lt : ∀ n i, mapFind n s.ids = some i → i < Fst.size s.t
  inj : ∀ n m i, mapFind n s.ids = some i → mapFind m s.ids = some i → n = m
  sound : ∀ i c w j, Edge s.t i (c, w) j → ∃ n l m, mapFind n s.ids = some i ∧ mapFind m s.ids = some j ∧ L c l ∧ D n l w m
  complete : ∀ n l w m, D n l w m → ∃ i j c w', mapFind n s.ids = some i ∧ mapFind m s.ids = some j ∧ L c l ∧ Edge s.t i (c, w') j

theorem Inv.mono {L L' : Int → Lab → Prop} (hL : ∀ c l, L c l → L' c l) {start : S} {D : S → Lab → W → S → Prop} {s : Search S W}
    (h : Inv L start D s) : Inv L' start D s :=
  { h with
    sound := fun i c w j he => by
      obtain ⟨n, l, m, h1, h2, h3, h4⟩ := h.sound i c w j he
      exact ⟨n, l, m, h1, h2, hL _ _ h3, h4⟩
    complete := fun n l w m hd => by
      obtain ⟨i, j, c, w', h1, h2, h3, h4⟩ := h.complete n l w m hd
      exact ⟨i, j, c, w', h1, h2, hL _ _ h3, h4⟩ }

theorem Inv.congr {L : Int → Lab → Prop} {start : S} {D D' : S → Lab → W → S → Prop} (hD : ∀ n l w m, D n l w m ↔ D' n l w m)
    {s : Search S W} (h : Inv L start D s) : Inv L start D' s := by
  have : D = D' := by funext n l w m; exact propext (hD n l w m)
  rwa [← this]

/-- Only the map and the result matter. -/
theorem Inv.of_eq {L : Int → Lab → Prop} {start : S} {D : S → Lab → W → S → Prop} {s s' : Search S W} (h : Inv L start D s)
    (hi : s'.ids = s.ids) (ht : s'.t = s.t) : Inv L start D s' := by
  constructor
  · rw [ht]; exact h.wf
  · rw [ht]; exact h.finals
  · rw [hi]; exact h.sorted
  · rw [hi, ht]; exact h.start
  · rw [hi, ht]; exact h.lt
  · rw [hi]; exact h.inj
  · rw [hi, ht]; exact h.sound
  · rw [hi, ht]; exact h.complete

/-- A new state, for a new element of the map or for none. -/
theorem Inv.newId {L : Int → Lab → Prop} {start : S} {D : S → Lab → W → S → Prop} {s : Search S W} (h : Inv L start D s) (n : S) :
    Inv L start D (newId n s) ∧ ∀ m, mapFind m (newId n s).ids = if m = n ∧ mapFind n s.ids = none then some (Fst.size s.t) else mapFind m s.ids := by
  have hids : ∀ m, mapFind m (Product.newId n s).ids = if m = n ∧ mapFind n s.ids = none then some (Fst.size s.t) else mapFind m s.ids := by
    intro m
    unfold Product.newId
    simp only [newState_fst h.wf]
    rw [mapInsert_eq_modify, mapFind_modify h.sorted]
    by_cases hm : m = n
    · subst hm
      cases hf : mapFind m s.ids <;> simp
    · simp [hm]
  have hold : ∀ m i, mapFind m s.ids = some i → mapFind m (Product.newId n s).ids = some i := by
    intro m i hm
    rw [hids, if_neg, hm]
    rintro ⟨rfl, h'⟩
    rw [h'] at hm; cases hm
  have hnew : ∀ m i, mapFind m (Product.newId n s).ids = some i → mapFind m s.ids = some i ∨ (m = n ∧ i = Fst.size s.t) := by
    intro m i hm
    rw [hids] at hm
    split at hm
    · next h' => exact .inr ⟨h'.1, (Option.some.inj hm).symm⟩
    · exact .inl hm
  have hsz : Fst.size (Product.newId n s).t = Fst.size s.t + 1 := newState_size h.wf
  have hE : ∀ q l p, Edge (Product.newId n s).t q l p ↔ Edge s.t q l p := newState_edge h.wf
  refine ⟨⟨newState_wf h.wf, h.finals, ?_, hold _ _ h.start, ?_, ?_, ?_, ?_⟩, hids⟩
  · exact sorted_mapInsert h.sorted _ _
  · intro m i hm
    rw [hsz]
    rcases hnew m i hm with hm | ⟨-, rfl⟩
    · have := h.lt m i hm; omega
    · omega
  · intro m m' i hm hm'
    rcases hnew m i hm with h1 | ⟨h1, h2⟩ <;> rcases hnew m' _ hm' with h3 | ⟨h3, h4⟩
    · exact h.inj _ _ _ h1 h3
    · have := h.lt _ _ h1; omega
    · have := h.lt _ _ h3; omega
    · rw [h1, h3]
  · intro i c w j he
    obtain ⟨n', l, m, h1, h2, h3, h4⟩ := h.sound i c w j ((hE _ _ _).1 he)
    exact ⟨n', l, m, hold _ _ h1, hold _ _ h2, h3, h4⟩
  · intro n' l w m hd
    obtain ⟨i, j, c, w', h1, h2, h3, h4⟩ := h.complete n' l w m hd
    exact ⟨i, j, c, w', hold _ _ h1, hold _ _ h2, h3, (hE _ _ _).2 h4⟩

/-- An arc between two elements of the map. -/
theorem Inv.link {L : Int → Lab → Prop} {start : S} {D : S → Lab → W → S → Prop} {s : Search S W} (h : Inv L start D s) {c m : S} {i j : Nat}
    (hc : mapFind c s.ids = some i) (hm : mapFind m s.ids = some j) {k : Int} {l : Lab} (hL : L k l) (w : W) :
    ∃ s', link i m k w s = .ok s' ∧ Inv L start (fun n l' w' m' => D n l' w' m' ∨ (n = c ∧ l' = l ∧ w' = w ∧ m' = m)) s' ∧
      s'.todo = s.todo ∧ s'.seen = s.seen ∧ s'.ids = s.ids := by
  have hid : idOf m s = j := by unfold idOf; rw [hm]; rfl
  have hi := h.lt _ _ hc
  have hj := h.lt _ _ hm
  unfold Product.link
  rw [hid, linkStates_eq h.wf hi hj]
  simp only [Res.bind_ok, Res.pure_eq]
  refine ⟨_, rfl, ?_, rfl, rfl, rfl⟩
  split
  · next hany =>
    obtain ⟨w0, hw0⟩ := (any_target _ _ _).1 hany
    refine ⟨h.wf, h.finals, h.sorted, h.start, h.lt, h.inj, ?_, ?_⟩
    · intro i' c' w' j' he
      obtain ⟨n, l', m', h1, h2, h3, h4⟩ := h.sound i' c' w' j' he
      exact ⟨n, l', m', h1, h2, h3, .inl h4⟩
    · rintro n l' w' m' (hd | ⟨rfl, rfl, rfl, rfl⟩)
      · exact h.complete n l' w' m' hd
      · exact ⟨i, j, k, w0, hc, hm, hL, hw0⟩
  · have hE := addArc_edge h.wf i k j w
    refine ⟨addArc_wf h.wf hi k hj w, h.finals, h.sorted, h.start, ?_, h.inj, ?_, ?_⟩
    · intro n i' hn
      rw [addArc_size h.wf hi]
      exact h.lt n i' hn
    · intro i' c' w' j' he
      rcases (hE i' (c', w') j').1 he with he | he
      · obtain ⟨n, l', m', h1, h2, h3, h4⟩ := h.sound i' c' w' j' he
        exact ⟨n, l', m', h1, h2, h3, .inl h4⟩
      · obtain ⟨rfl, h1, rfl⟩ := he
        cases h1
        exact ⟨c, l, m, hc, hm, hL, .inr ⟨rfl, rfl, rfl, rfl⟩⟩
    · rintro n l' w' m' (hd | ⟨rfl, rfl, rfl, rfl⟩)
      · obtain ⟨i', j', c', w'', h1, h2, h3, h4⟩ := h.complete n l' w' m' hd
        exact ⟨i', j', c', w'', h1, h2, h3, (hE _ _ _).2 (.inl h4)⟩
      · exact ⟨i, j, k, w', hc, hm, hL, (hE _ _ _).2 (.inr ⟨rfl, rfl, rfl⟩)⟩

/-- Adding an arc in the usual way. -/
theorem Inv.visit {L : Int → Lab → Prop} {start : S} {D : S → Lab → W → S → Prop} {s : Search S W} (h : Inv L start D s) {c : S} {i : Nat}
    (hc : mapFind c s.ids = some i) (m : S) {k : Int} {l : Lab} (hL : L k l) (w : W) :
    ∃ s', visit i m k w s = .ok s' ∧ Inv L start (fun n l' w' m' => D n l' w' m' ∨ (n = c ∧ l' = l ∧ w' = w ∧ m' = m)) s' ∧
      s'.todo = pushes s.seen [m] s.todo ∧ s'.seen = s.seen ∧ mapFind c s'.ids = some i ∧
      ∀ x, (mapFind x s'.ids).isSome ↔ (mapFind x s.ids).isSome ∨ x = m := by
  unfold Product.visit
  have h1 : Inv L start D (schedule m s) := by
    unfold schedule; split
    · exact h
    · exact h.of_eq rfl rfl
  have h2 : (schedule m s).todo = pushes s.seen [m] s.todo ∧ (schedule m s).seen = s.seen ∧ (schedule m s).ids = s.ids := by
    unfold schedule pushes
    by_cases hm : m ∈ s.seen <;> simp [hm]
  obtain ⟨h3, h4, j, h5, h6⟩ : Inv L start D (allot m (schedule m s)) ∧ ((allot m (schedule m s)).todo = pushes s.seen [m] s.todo ∧
      (allot m (schedule m s)).seen = s.seen) ∧ ∃ j, mapFind m (allot m (schedule m s)).ids = some j ∧
      ∀ x, mapFind x (allot m (schedule m s)).ids = if x = m then some j else mapFind x s.ids := by
    unfold allot
    split
    · next hs =>
      obtain ⟨j, hj⟩ := Option.isSome_iff_exists.1 hs
      refine ⟨h1, ⟨h2.1, h2.2.1⟩, j, hj, ?_⟩
      intro x
      rw [h2.2.2] at hj ⊢
      split
      · next hx => rw [hx, hj]
      · rfl
    · next hs =>
      have hn : mapFind m (schedule m s).ids = none := by simpa using hs
      obtain ⟨h3, h4⟩ := h1.newId m
      have e := h4 m
      rw [if_pos ⟨rfl, hn⟩] at e
      refine ⟨h3, ⟨h2.1, h2.2.1⟩, _, e, ?_⟩
      intro x
      rw [h4, h2.2.2]
      rw [h2.2.2] at hn
      by_cases hx : x = m <;> simp [hx, hn]
  have hc' : mapFind c (allot m (schedule m s)).ids = some i := by
    rw [h6]
    split
    · next e =>
      have := h6 m
      rw [if_pos rfl] at this
      subst e
      -- an element that was there keeps its state
      unfold allot at h5
      rw [if_pos (by rw [h2.2.2, hc]; rfl), h2.2.2, hc] at h5
      exact h5.symm
    · exact hc
  obtain ⟨s', k1, k2, k3, k4, k5⟩ := h3.link hc' h5 hL w
  refine ⟨s', k1, k2, by rw [k3, h4.1], by rw [k4, h4.2], by rw [k5, hc'], ?_⟩
  intro x
  rw [k5, h6]
  by_cases hx : x = m <;> simp [hx]

end Inv

end Verif.Product
