import Verif.Product.TrimSteps
import Verif.Product.Whole

/-! # The whole run of `trim` -/

namespace Verif.Product

open Verif.Fst Verif.Alphabet

variable {W : Type}

/-- The state of the transducer in a triple. -/
abbrev Three.this (n : Three) : Nat := (ofLex n).1
abbrev Three.other (n : Three) : Nat := (ofLex (ofLex n).2).1
abbrev Three.pre (n : Three) : Nat := (ofLex (ofLex n).2).2

/-- What an arc of the result may be: an arc of the transducer, or the arc for an empty symbol of the trimmer. -/
def Below (t trimmer : Transducer W) (trimmerA : Alphabet) (ε : Int) (p : Nat) (c : Int) (w : W) (p' : Nat) : Prop :=
  Edge t p (c, w) p' ∨ (c = ε ∧ p' = p ∧ ∃ q z q', PairEdge trimmerA trimmer q ((0, z), w) q')

/-- What holds of the search in any case: what lies above a state of the transducer is an image of it. -/
structure Over [Zero W] (t trimmer : Transducer W) (trimmerA : Alphabet) (ε : Int) (G : Prop) (start : Three) (s : Search Three W) : Prop where
  wf : WF s.t
  sorted : SortedKeys s.ids
  start : mapFind start s.ids = some s.t.initial
  lt : ∀ n i, mapFind n s.ids = some i → i < Fst.size s.t
  same : ∀ n m i, mapFind n s.ids = some i → mapFind m s.ids = some i → n.this = m.this
  sound : ∀ i c w j, Edge s.t i (c, w) j → ∃ n m, mapFind n s.ids = some i ∧ mapFind m s.ids = some j ∧ Below t trimmer trimmerA ε n.this c w m.this
  finals : ∀ i w, Final s.t i w → w = 0 ∧ ∃ n, mapFind n s.ids = some i ∧ (∃ w', Final t n.this w') ∧ G

section
variable [Zero W] {t trimmer : Transducer W} {trimmerA : Alphabet} {ε : Int} {G : Prop} {start : Three} {s : Search Three W}

theorem Over.of_eq {s' : Search Three W} (h : Over t trimmer trimmerA ε G start s) (hi : s'.ids = s.ids) (ht : s'.t = s.t) :
    Over t trimmer trimmerA ε G start s' := by
  constructor
  · rw [ht]; exact h.wf
  · rw [hi]; exact h.sorted
  · rw [hi, ht]; exact h.start
  · rw [hi, ht]; exact h.lt
  · rw [hi]; exact h.same
  · rw [hi, ht]; exact h.sound
  · rw [hi, ht]; exact h.finals

theorem Over.newId (h : Over t trimmer trimmerA ε G start s) (n : Three) : Over t trimmer trimmerA ε G start (newId n s) ∧
    (∀ m i, mapFind m s.ids = some i → mapFind m (newId n s).ids = some i) ∧ (mapFind n (newId n s).ids).isSome := by
  have hids : ∀ m, mapFind m (Product.newId n s).ids = if m = n ∧ mapFind n s.ids = none then some (Fst.size s.t) else mapFind m s.ids := by
    intro m
    unfold Product.newId
    simp only [newState_fst h.wf]
    rw [mapInsert_eq_modify, mapFind_modify h.sorted]
    by_cases hm : m = n
    · subst hm
      cases hf : mapFind m s.ids <;> simp
    · simp [hm]
  have hold : ∀ m i, mapFind m s.ids = some i → mapFind m (Product.newId n s).ids = some i := by
    intro m i hm
    rw [hids, if_neg, hm]
    rintro ⟨rfl, h'⟩
    rw [h'] at hm; cases hm
  have hnew : ∀ m i, mapFind m (Product.newId n s).ids = some i → mapFind m s.ids = some i ∨ (m = n ∧ i = Fst.size s.t) := by
    intro m i hm
    rw [hids] at hm
    split at hm
    · next h' => exact .inr ⟨h'.1, (Option.some.inj hm).symm⟩
    · exact .inl hm
  have hsz : Fst.size (Product.newId n s).t = Fst.size s.t + 1 := newState_size h.wf
  have hE : ∀ q l p, Edge (Product.newId n s).t q l p ↔ Edge s.t q l p := newState_edge h.wf
  refine ⟨⟨newState_wf h.wf, sorted_mapInsert h.sorted _ _, hold _ _ h.start, ?_, ?_, ?_, ?_⟩, hold, ?_⟩
  · intro m i hm
    rw [hsz]
    rcases hnew m i hm with hm | ⟨-, rfl⟩
    · have := h.lt m i hm; omega
    · omega
  · intro m m' i hm hm'
    rcases hnew m i hm with h1 | ⟨h1, h2⟩ <;> rcases hnew m' _ hm' with h3 | ⟨h3, h4⟩
    · exact h.same _ _ _ h1 h3
    · have := h.lt _ _ h1; omega
    · have := h.lt _ _ h3; omega
    · rw [h1, h3]
  · intro i c w j he
    obtain ⟨n', m, h1, h2, h3⟩ := h.sound i c w j ((hE _ _ _).1 he)
    exact ⟨n', m, hold _ _ h1, hold _ _ h2, h3⟩
  · intro i w hf
    obtain ⟨h1, m, h2, h3⟩ := h.finals i w hf
    exact ⟨h1, m, hold _ _ h2, h3⟩
  · rw [hids]
    by_cases hn : mapFind n s.ids = none
    · simp [hn]
    · simp [hn, Option.isSome_iff_ne_none]

theorem Over.link (h : Over t trimmer trimmerA ε G start s) {c m : Three} {i j : Nat} (hc : mapFind c s.ids = some i)
    (hm : mapFind m s.ids = some j) {k : Int} {w : W} (hb : Below t trimmer trimmerA ε c.this k w m.this) :
    ∃ s', link i m k w s = .ok s' ∧ Over t trimmer trimmerA ε G start s' ∧ s'.todo = s.todo ∧ s'.seen = s.seen ∧ s'.ids = s.ids := by
  have hid : idOf m s = j := by unfold idOf; rw [hm]; rfl
  have hi := h.lt _ _ hc
  have hj := h.lt _ _ hm
  unfold Product.link
  rw [hid, linkStates_eq h.wf hi hj]
  simp only [Res.bind_ok, Res.pure_eq]
  refine ⟨_, rfl, ?_, rfl, rfl, rfl⟩
  split
  · exact h.of_eq rfl rfl
  · have hE := addArc_edge h.wf i k j w
    refine ⟨addArc_wf h.wf hi k hj w, h.sorted, h.start, ?_, h.same, ?_, h.finals⟩
    · intro n i' hn
      rw [addArc_size h.wf hi]
      exact h.lt n i' hn
    · intro i' c' w' j' he
      rcases (hE i' (c', w') j').1 he with he | ⟨rfl, h1, rfl⟩
      · exact h.sound i' c' w' j' he
      · cases h1
        exact ⟨c, m, hc, hm, hb⟩

theorem Over.visit (h : Over t trimmer trimmerA ε G start s) {c : Three} {i : Nat} (hc : mapFind c s.ids = some i) (m : Three) {k : Int} {w : W}
    (hb : Below t trimmer trimmerA ε c.this k w m.this) :
    ∃ s', visit i m k w s = .ok s' ∧ Over t trimmer trimmerA ε G start s' ∧ s'.todo = pushes s.seen [m] s.todo ∧ s'.seen = s.seen ∧
      (∀ n j, mapFind n s.ids = some j → mapFind n s'.ids = some j) ∧ (mapFind m s'.ids).isSome := by
  unfold Product.visit
  have h1 : Over t trimmer trimmerA ε G start (schedule m s) := by
    unfold schedule; split
    · exact h
    · exact h.of_eq rfl rfl
  have h2 : (schedule m s).todo = pushes s.seen [m] s.todo ∧ (schedule m s).seen = s.seen ∧ (schedule m s).ids = s.ids := by
    unfold schedule pushes
    by_cases hm : m ∈ s.seen <;> simp [hm]
  obtain ⟨h3, h4, h5, h6, h7⟩ : Over t trimmer trimmerA ε G start (allot m (schedule m s)) ∧ (allot m (schedule m s)).todo = pushes s.seen [m] s.todo ∧
      (allot m (schedule m s)).seen = s.seen ∧ (∀ n j, mapFind n s.ids = some j → mapFind n (allot m (schedule m s)).ids = some j) ∧
      (mapFind m (allot m (schedule m s)).ids).isSome := by
    unfold allot
    split
    · next hs => exact ⟨h1, h2.1, h2.2.1, by rw [h2.2.2]; exact fun n j h => h, hs⟩
    · obtain ⟨g1, g2, g3⟩ := h1.newId m
      exact ⟨g1, h2.1, h2.2.1, by rw [h2.2.2] at g2; exact g2, g3⟩
  obtain ⟨j, hj⟩ := Option.isSome_iff_exists.1 h7
  obtain ⟨s', k1, k2, k3, k4, k5⟩ := h3.link (h6 _ _ hc) hj hb
  exact ⟨s', k1, k2, by rw [k3, h4], by rw [k4, h5], by rw [k5]; exact h6, by rw [k5]; exact h7⟩

/-- What the steps from `c` have to be. -/
def Step.Good (t trimmer : Transducer W) (trimmerA : Alphabet) (ε : Int) (G : Prop) (c : Three) : Step W → Prop
  | .eps n label w => Below t trimmer trimmerA ε c.this label w n.this
  | .visit n label w => Below t trimmer trimmerA ε c.this label w n.this
  | .fin n label w => Below t trimmer trimmerA ε c.this label w n.this ∧ (∃ w', Final t n.this w') ∧ G
  | .again n => n.this = c.this

theorem Over.exec {c : Three} {i : Nat} (xs : List (Step W)) (hg : ∀ x ∈ xs, x.Good t trimmer trimmerA ε G c) :
    ∀ s, Over t trimmer trimmerA ε G start s → mapFind c s.ids = some i → (∀ n ∈ s.seen, (mapFind n s.ids).isSome) →
    ∃ s', Product.exec i xs s = .ok s' ∧ Over t trimmer trimmerA ε G start s' ∧ s'.todo = pushes s.seen (xs.filterMap Step.target) s.todo ∧
      s'.seen = s.seen ∧ (∀ n j, mapFind n s.ids = some j → mapFind n s'.ids = some j) ∧
      ∀ n ∈ xs.filterMap Step.target, (mapFind n s'.ids).isSome := by
  induction xs with
  | nil => intro s h hc _; exact ⟨s, rfl, h, rfl, rfl, fun _ _ h => h, by simp⟩
  | cons x xs ih =>
    have ih := ih fun x hx => hg x (List.mem_cons_of_mem _ hx)
    intro s h hc hseen
    have hx := hg x (List.mem_cons_self ..)
    -- one step, then the rest
    suffices hs : ∀ m, x.target = some m → ∀ s1, Over t trimmer trimmerA ε G start s1 → s1.todo = pushes s.seen [m] s.todo → s1.seen = s.seen →
        (∀ n j, mapFind n s.ids = some j → mapFind n s1.ids = some j) → (mapFind m s1.ids).isSome → ∃ s', Product.exec i xs s1 = .ok s' ∧ Over t trimmer trimmerA ε G start s' ∧
          s'.todo = pushes s.seen ((x :: xs).filterMap Step.target) s.todo ∧
          s'.seen = s.seen ∧ (∀ n j, mapFind n s.ids = some j → mapFind n s'.ids = some j) ∧
          ∀ n ∈ (x :: xs).filterMap Step.target, (mapFind n s'.ids).isSome by
      cases x with
      | eps m label w =>
        rw [Product.exec]
        have h1 : Over t trimmer trimmerA ε G start (if m ∈ s.seen then s else Product.newId m { s with todo := m :: s.todo }) ∧
            (∀ n j, mapFind n s.ids = some j → mapFind n (if m ∈ s.seen then s else Product.newId m { s with todo := m :: s.todo }).ids = some j) ∧
            (mapFind m (if m ∈ s.seen then s else Product.newId m { s with todo := m :: s.todo }).ids).isSome ∧
            (if m ∈ s.seen then s else Product.newId m { s with todo := m :: s.todo }).todo = pushes s.seen [m] s.todo ∧
            (if m ∈ s.seen then s else Product.newId m { s with todo := m :: s.todo }).seen = s.seen := by
          by_cases hm : m ∈ s.seen
          · simp only [if_pos hm]
            exact ⟨h, fun _ _ h => h, hseen m hm, by simp [pushes, hm], trivial⟩
          · simp only [if_neg hm]
            obtain ⟨g1, g2, g3⟩ := Over.newId (s := { s with todo := m :: s.todo }) (h.of_eq rfl rfl) m
            exact ⟨g1, g2, g3, by simp [pushes, hm, Product.newId], rfl⟩
        generalize (if m ∈ s.seen then s else Product.newId m { s with todo := m :: s.todo }) = s0 at h1
        obtain ⟨g1, g2, g3, g4, g5⟩ := h1
        obtain ⟨j, hj⟩ := Option.isSome_iff_exists.1 g3
        obtain ⟨s1, k1, k2, k3, k4, k5⟩ := g1.link (g2 _ _ hc) hj hx
        rw [k1, Res.bind_ok]
        exact hs m rfl s1 k2 (by rw [k3, g4]) (by rw [k4, g5]) (by rw [k5]; exact g2) (by rw [k5]; exact g3)
      | visit m label w =>
        rw [Product.exec]
        obtain ⟨s1, k1, k2, k3, k4, k5, k6⟩ := h.visit hc m hx
        rw [k1, Res.bind_ok]
        exact hs m rfl s1 k2 k3 k4 k5 k6
      | fin m label w =>
        rw [Product.exec]
        obtain ⟨s1, k1, k2, k3, k4, k5, k6⟩ := h.visit hc m hx.1
        rw [k1, Res.bind_ok]
        refine hs m rfl _ ?_ k3 k4 k5 k6
        obtain ⟨j, hj⟩ := Option.isSome_iff_exists.1 k6
        have hid : idOf m s1 = j := by unfold idOf; rw [hj]; rfl
        rw [hid]
        refine ⟨?_, k2.sorted, k2.start, k2.lt, k2.same, k2.sound, ?_⟩
        · refine ⟨k2.wf.keys, k2.wf.rows, k2.wf.initial_lt, k2.wf.target_lt, sorted_mapInsert k2.wf.finals_sorted _ _, ?_⟩
          intro x v hx
          rcases (mem_mapInsert k2.wf.finals_sorted j 0 (x, v)).mp hx with ⟨hx, -⟩ | hx
          · cases hx; exact k2.lt _ _ hj
          · exact k2.wf.finals_lt _ _ hx
        · intro i' w' hf
          rcases (mem_mapInsert k2.wf.finals_sorted j 0 (i', w')).mp hf with ⟨hf, -⟩ | hf
          · cases hf; exact ⟨rfl, m, hj, hx.2⟩
          · exact k2.finals _ _ hf
      | again m =>
        rw [Product.exec]
        have hids : ∀ n, mapFind n (mapInsert m i s.ids) = if n = m ∧ mapFind m s.ids = none then some i else mapFind n s.ids := by
          intro n
          rw [mapInsert_eq_modify, mapFind_modify h.sorted]
          by_cases hm : n = m
          · subst hm
            cases hf : mapFind n s.ids <;> simp
          · simp [hm]
        have hold : ∀ n j, mapFind n s.ids = some j → mapFind n (mapInsert m i s.ids) = some j := by
          intro n j hn
          rw [hids, if_neg, hn]
          rintro ⟨rfl, h'⟩
          rw [h'] at hn; cases hn
        have hnew : ∀ n j, mapFind n (mapInsert m i s.ids) = some j → mapFind n s.ids = some j ∨ (n = m ∧ j = i) := by
          intro n j hn
          rw [hids] at hn
          split at hn
          · next h' => exact .inr ⟨h'.1, (Option.some.inj hn).symm⟩
          · exact .inl hn
        have hO : Over t trimmer trimmerA ε G start { s with ids := mapInsert m i s.ids } := by
          refine ⟨h.wf, sorted_mapInsert h.sorted _ _, hold _ _ h.start, ?_, ?_, ?_, ?_⟩
          · intro n j hn
            rcases hnew n j hn with hn | ⟨-, rfl⟩
            · exact h.lt _ _ hn
            · exact h.lt _ _ hc
          · intro n n' j hn hn'
            have a1 : ∀ n j, mapFind n (mapInsert m i s.ids) = some j → ∃ n0, n0.this = n.this ∧ mapFind n0 s.ids = some j := by
              intro n j hn
              rcases hnew n j hn with hn | ⟨rfl, rfl⟩
              · exact ⟨n, rfl, hn⟩
              · exact ⟨c, hx.symm, hc⟩
            obtain ⟨n0, e0, f0⟩ := a1 _ _ hn
            obtain ⟨n1, e1, f1⟩ := a1 _ _ hn'
            rw [← e0, ← e1]
            exact h.same _ _ _ f0 f1
          · intro i' c' w' j' he
            obtain ⟨n, m', h1, h2, h3⟩ := h.sound i' c' w' j' he
            exact ⟨n, m', hold _ _ h1, hold _ _ h2, h3⟩
          · intro i' w' hf
            obtain ⟨h1, m', h2, h3⟩ := h.finals i' w' hf
            exact ⟨h1, m', hold _ _ h2, h3⟩
        obtain ⟨s', k1, k2, k3, k4, k5, k6⟩ := ih _ hO (hold _ _ hc) (fun n hn => by
          obtain ⟨j, hj⟩ := Option.isSome_iff_exists.1 (hseen n hn)
          rw [hold _ _ hj]; rfl)
        exact ⟨s', k1, k2, k3, k4, fun n j hn => k5 _ _ (hold _ _ hn), k6⟩
    intro m hm s1 g1 g2 g3 g4 g5
    obtain ⟨s', k1, k2, k3, k4, k5, k6⟩ := ih s1 g1 (g4 _ _ hc) (by
      rw [g3]; intro n hn
      obtain ⟨j, hj⟩ := Option.isSome_iff_exists.1 (hseen n hn)
      rw [g4 _ _ hj]; rfl)
    refine ⟨s', k1, k2, ?_, by rw [k4, g3], fun n j hn => k5 _ _ (g4 _ _ hn), ?_⟩
    · rw [List.filterMap_cons_some hm, k3, g2, g3]
      rw [← pushes_append]; rfl
    · intro n hn
      rw [List.filterMap_cons_some hm] at hn
      rcases List.mem_cons.1 hn with rfl | hn
      · obtain ⟨j, hj⟩ := Option.isSome_iff_exists.1 g5
        rw [k5 _ _ hj]; rfl
      · exact k6 n hn

end

end Verif.Product
