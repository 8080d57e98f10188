import Verif.Patterns.Spec

/-! # Places in patterns, and the strings that lead to them -/

namespace Verif.Patterns

variable {c : Codes}

/-- What is needed of the set of places. -/
structure Clear (c : Codes) (S : List Int → Prop) : Prop where
  ok : c.Ok
  closed : ∀ u y, S (u ++ [y]) → S u
  once : ∀ u y, S (u ++ [y]) → ¬ c.Plain y → u.getLast? ≠ some y
  after : ∀ u y, S (u ++ [c.queue, y]) → c.Plain y ∧ ¬ Opener y
  unmixed : ∀ u y, S (u ++ [c.queue]) → S (u ++ [y]) → c.Plain y → ¬ Opener y ∧ ¬ S (u ++ [c.queue, y])

theorem Codes.Ok.opener (h : c.Ok) {x : Int} (hx : Opener x) : c.Plain x := by
  have := h.char; have := h.tag; have := h.queue
  unfold Opener at hx
  refine ⟨?_, ?_, ?_⟩ <;> omega

/-- From place to place with one symbol. -/
inductive Go (c : Codes) (S : List Int → Prop) : List Int → Int → List Int → Prop where
  | plain {u : List Int} {x : Int} : c.Plain x → S (u ++ [x]) → Go c S u x (u ++ [x])
  | any {u : List Int} {x : Int} : x = c.char ∨ x = c.tag → S (u ++ [x]) → Go c S u x (u ++ [x])
  | loop {u : List Int} {x : Int} : x = c.char ∨ x = c.tag → S (u ++ [x]) → Go c S (u ++ [x]) x (u ++ [x])
  | queue {u : List Int} {x : Int} : Opener x → S (u ++ [c.queue]) → Go c S u x (u ++ [c.queue])
  | more {u : List Int} : S (u ++ [c.queue]) → Go c S (u ++ [c.queue]) c.char (u ++ [c.queue])
  | skip {u : List Int} {x : Int} : c.Plain x → S (u ++ [c.queue, x]) → Go c S u x (u ++ [c.queue, x])

variable {S : List Int → Prop}

theorem snoc2 (u : List Int) (x y : Int) : u ++ [x, y] = (u ++ [x]) ++ [y] := by simp

theorem snoc_inj {u v : List Int} {x y : Int} (h : u ++ [x] = v ++ [y]) : u = v ∧ x = y := by
  have := List.append_inj' h rfl
  exact ⟨this.1, by simpa using this.2⟩

theorem last_snoc (u : List Int) (x : Int) : (u ++ [x]).getLast? = some x := by simp

theorem any_not_plain {x : Int} (h : x = c.char ∨ x = c.tag) : ¬ c.Plain x := by
  rintro ⟨h1, h2, -⟩; tauto

theorem Go.unique (hc : Clear c S) {u n n' : List Int} {x : Int} (h : Go c S u x n) (h' : Go c S u x n') : n = n' := by
  have hop := fun {x} => hc.ok.opener (x := x)
  cases h with
  | plain h1 h2 =>
    cases h' with
    | plain => rfl
    | any g => exact absurd h1 (any_not_plain g)
    | loop g => exact absurd h1 (any_not_plain g)
    | queue g1 g2 => exact absurd g1 (hc.unmixed _ _ g2 h2 h1).1
    | more => exact absurd rfl h1.1
    | skip g1 g2 =>
      rw [snoc2] at g2
      exact absurd (by rw [snoc2]; exact g2) (hc.unmixed _ _ (hc.closed _ _ g2) h2 h1).2
  | any h1 h2 =>
    cases h' with
    | plain g => exact absurd g (any_not_plain h1)
    | any => rfl
    | loop g1 g2 => exact absurd (last_snoc _ _) (hc.once _ _ h2 (any_not_plain h1))
    | queue g => exact absurd (hop g) (any_not_plain h1)
    | more g => exact absurd (hc.after _ _ (by rw [snoc2]; exact h2)).1.1 (by simp)
    | skip g => exact absurd g (any_not_plain h1)
  | @loop v y h1 h2 =>
    generalize hu : v ++ [x] = u at h'
    cases h' with
    | plain g => exact absurd g (any_not_plain h1)
    | any g1 g2 => subst hu; exact absurd (last_snoc _ _) (hc.once _ _ g2 (any_not_plain g1))
    | loop => rfl
    | queue g => exact absurd (hop g) (any_not_plain h1)
    | more => rfl
    | skip g => exact absurd g (any_not_plain h1)
  | queue h1 h2 =>
    cases h' with
    | plain g1 g2 => exact absurd h1 (hc.unmixed _ _ h2 g2 g1).1
    | any g => exact absurd (hop h1) (any_not_plain g)
    | loop g => exact absurd (hop h1) (any_not_plain g)
    | queue => rfl
    | more => exact absurd rfl (hop h1).1
    | skip g1 g2 => exact absurd h1 (hc.after _ _ g2).2
  | @more v h2 =>
    generalize hu : v ++ [c.queue] = u at h'
    cases h' with
    | plain g => exact absurd rfl g.1
    | any g1 g2 => subst hu; exact absurd (hc.after _ _ (by rw [snoc2]; exact g2)).1.1 (by simp)
    | loop => rfl
    | queue g => exact absurd rfl (hop g).1
    | more => rfl
    | skip g => exact absurd rfl g.1
  | skip h1 h2 =>
    cases h' with
    | plain g1 g2 =>
      rw [snoc2] at h2
      exact absurd (by rw [snoc2]; exact h2) (hc.unmixed _ _ (hc.closed _ _ h2) g2 g1).2
    | any g => exact absurd h1 (any_not_plain g)
    | loop g => exact absurd h1 (any_not_plain g)
    | queue g1 g2 => exact absurd g1 (hc.after _ _ h2).2
    | more => exact absurd rfl h1.1
    | skip => rfl

/-! ## Strings -/

theorem Stands.append {u v w w' : List Int} (h : Stands c u w) (h' : Stands c v w') : Stands c (u ++ v) (w ++ w') := by
  induction h with
  | nil => exact h'
  | plain h1 _ ih => exact .plain h1 ih
  | any n h1 _ ih => rw [List.append_assoc]; exact .any n h1 ih
  | absent _ ih => exact .absent ih
  | queue n h1 _ ih => rw [List.cons_append, List.cons_append, List.append_assoc]; exact .queue n h1 ih

theorem Stands.split {u v w : List Int} (h : Stands c (u ++ v) w) : ∃ w1 w2, w = w1 ++ w2 ∧ Stands c u w1 ∧ Stands c v w2 := by
  induction u generalizing w with
  | nil => exact ⟨[], w, rfl, .nil, h⟩
  | cons x u ih =>
    generalize hv : x :: u ++ v = z at h
    cases h with
    | nil => simp at hv
    | plain h1 h2 =>
      cases hv
      obtain ⟨w1, w2, rfl, g1, g2⟩ := ih h2
      exact ⟨_ :: w1, w2, rfl, .plain h1 g1, g2⟩
    | any n h1 h2 =>
      cases hv
      obtain ⟨w1, w2, rfl, g1, g2⟩ := ih h2
      exact ⟨_ ++ w1, w2, by rw [List.append_assoc], .any n h1 g1, g2⟩
    | absent h2 =>
      cases hv
      obtain ⟨w1, w2, rfl, g1, g2⟩ := ih h2
      exact ⟨w1, w2, rfl, .absent g1, g2⟩
    | @queue y _ _ n h1 h2 =>
      cases hv
      obtain ⟨w1, w2, rfl, g1, g2⟩ := ih h2
      exact ⟨y :: (List.replicate n c.char ++ w1), w2, by simp, .queue n h1 g1, g2⟩

theorem stands_nil {w : List Int} (h : Stands c [] w) : w = [] := by cases h; rfl

theorem stands_plain {x : Int} (hx : c.Plain x) {w : List Int} (h : Stands c [x] w) : w = [x] := by
  cases h with
  | plain _ h => rw [stands_nil h]
  | any n h => exact absurd hx (any_not_plain h)
  | absent => exact absurd rfl hx.2.2
  | queue => exact absurd rfl hx.2.2

theorem stands_any (hc : c.Ok) {x : Int} (hx : x = c.char ∨ x = c.tag) {w : List Int} (h : Stands c [x] w) : ∃ n, w = List.replicate (n + 1) x := by
  have := hc.two; have := hc.three
  cases h with
  | plain g => exact absurd g (any_not_plain hx)
  | any n _ h => rw [stands_nil h]; exact ⟨n, by simp⟩
  | absent => omega
  | queue => omega

theorem stands_queue (hc : c.Ok) {w : List Int} (h : Stands c [c.queue] w) : w = [] ∨ ∃ x n, Opener x ∧ w = x :: List.replicate n c.char := by
  have := hc.two; have := hc.three
  generalize hv : [c.queue] = v at h
  cases h with
  | nil => cases hv
  | plain g => cases hv; exact absurd rfl g.2.2
  | any n g => cases hv; omega
  | absent h => cases hv; exact .inl (stands_nil h)
  | queue n h1 h => cases hv; rw [stands_nil h]; exact .inr ⟨_, n, h1, by simp⟩

/-- The strings that lead to the place; if it is a queue, that is not absent. -/
def Leads (c : Codes) (u w : List Int) : Prop :=
  if u.getLast? = some c.queue then ∃ w' x n, w = w' ++ x :: List.replicate n c.char ∧ Stands c u.dropLast w' ∧ Opener x else Stands c u w

theorem leads_queue {u w : List Int} : Leads c (u ++ [c.queue]) w ↔ ∃ w' x n, w = w' ++ x :: List.replicate n c.char ∧ Stands c u w' ∧ Opener x := by
  unfold Leads
  rw [if_pos (last_snoc _ _), List.dropLast_concat]

theorem leads_other {u w : List Int} (h : u.getLast? ≠ some c.queue) : Leads c u w ↔ Stands c u w := by
  unfold Leads
  rw [if_neg h]

theorem last_ne {u : List Int} {x : Int} (h : x ≠ c.queue) : (u ++ [x]).getLast? ≠ some c.queue := by
  rw [last_snoc]; simpa using h

theorem leads_stands {u w : List Int} (h : Leads c u w) : Stands c u w := by
  unfold Leads at h
  split at h
  · next hl =>
    obtain ⟨w', x, n, rfl, h1, h2⟩ := h
    have : u = u.dropLast ++ [c.queue] := by
      rw [List.getLast?_eq_some_iff] at hl
      obtain ⟨ys, rfl⟩ := hl
      simp
    rw [this]
    have := h1.append (Stands.queue n h2 .nil)
    rwa [List.append_nil] at this
  · exact h

theorem replicate_snoc (n : Nat) (x : Int) : List.replicate n x ++ [x] = List.replicate (n + 1) x := by
  rw [List.replicate_succ']

theorem leads_go (hc : Clear c S) {u n : List Int} {x : Int} {w : List Int} (h : Leads c u w) (hg : Go c S u x n) : Leads c n (w ++ [x]) := by
  have h2 := hc.ok.two; have h3 := hc.ok.three
  cases hg with
  | plain g1 g2 =>
    rw [leads_other (last_ne g1.2.2)]
    exact (leads_stands h).append (.plain g1 .nil)
  | any g1 g2 =>
    rw [leads_other (last_ne (by omega))]
    have := (leads_stands h).append (Stands.any (c := c) 0 g1 .nil)
    simpa using this
  | @loop v y g1 g2 =>
    rw [leads_other (last_ne (by omega))]
    obtain ⟨w1, w2, rfl, k1, k2⟩ := (leads_stands h).split
    obtain ⟨n, rfl⟩ := stands_any hc.ok g1 k2
    have := k1.append (Stands.any (c := c) (n + 1) g1 .nil)
    rw [List.append_assoc, replicate_snoc]
    simpa using this
  | queue g1 g2 =>
    rw [leads_queue]
    exact ⟨w, x, 0, rfl, leads_stands h, g1⟩
  | @more v g =>
    rw [leads_queue] at h ⊢
    obtain ⟨w', y, n, rfl, k1, k2⟩ := h
    exact ⟨w', y, n + 1, by simp [← replicate_snoc], k1, k2⟩
  | skip g1 g2 =>
    rw [snoc2, leads_other (last_ne g1.2.2)]
    have := ((leads_stands h).append (Stands.absent (c := c) .nil)).append (.plain g1 .nil)
    simpa using this

/-- A walk from the beginning. -/
inductive Walk (c : Codes) (S : List Int → Prop) : List Int → List Int → Prop where
  | nil : Walk c S [] []
  | snoc {u n w : List Int} {x : Int} : Walk c S w u → Go c S u x n → Walk c S (w ++ [x]) n

theorem Walk.leads (hc : Clear c S) {w u : List Int} (h : Walk c S w u) : Leads c u w := by
  induction h with
  | nil => rw [leads_other (by simp)]; exact .nil
  | snoc _ hg ih => exact leads_go hc ih hg

theorem Walk.repeat {w u : List Int} {x : Int} (h : Walk c S w u) (hg : Go c S u x u) (n : Nat) : Walk c S (w ++ List.replicate n x) u := by
  induction n with
  | zero => simpa using h
  | succ n ih => rw [← replicate_snoc, ← List.append_assoc]; exact .snoc ih hg

theorem Leads.walk (hc : Clear c S) : ∀ (k : Nat) {u w : List Int}, u.length = k → S u ∨ u = [] → Leads c u w → Walk c S w u := by
  have hq2 := hc.ok.two; have hq3 := hc.ok.three
  intro k
  induction k using Nat.strong_induction_on with
  | _ k ih =>
    intro u w hk hS h
    rcases List.eq_nil_or_concat' u with rfl | ⟨v, y, rfl⟩
    · rw [leads_other (by simp)] at h
      rw [stands_nil h]; exact .nil
    · have hS : S (v ++ [y]) := by
        rcases hS with h | h
        · exact h
        · simp at h
      have hSv := hc.closed _ _ hS
      have hk' : v.length + 1 = k := by simpa using hk
      by_cases hy : y = c.queue
      · subst hy
        rw [leads_queue] at h
        obtain ⟨w', x, n, rfl, g1, g2⟩ := h
        have hv := hc.once _ _ hS (fun h => h.2.2 rfl)
        have := ih v.length (by omega) rfl (.inl hSv) ((leads_other hv).2 g1)
        have := (Walk.snoc this (.queue g2 hS)).repeat (.more hS) n
        simpa using this
      · rw [leads_other (last_ne hy)] at h
        obtain ⟨w1, w2, rfl, g1, g2⟩ := h.split
        by_cases hp : c.Plain y
        · rw [stands_plain hp g2]
          by_cases hl : v.getLast? = some c.queue
          · rw [List.getLast?_eq_some_iff] at hl
            obtain ⟨z, rfl⟩ := hl
            obtain ⟨w3, w4, rfl, g3, g4⟩ := g1.split
            rcases stands_queue hc.ok g4 with rfl | ⟨x, n, k1, rfl⟩
            · have hz := hc.once _ _ hSv (fun h => h.2.2 rfl)
              have := ih z.length (by simp at hk'; omega) rfl (.inl (hc.closed _ _ hSv)) ((leads_other hz).2 g3)
              rw [List.append_nil]
              have := Walk.snoc this (Go.skip hp (by rw [snoc2]; exact hS))
              rwa [snoc2] at this
            · exact .snoc (ih _ (by omega) rfl (.inl hSv) (leads_queue.2 ⟨w3, x, n, rfl, g3, k1⟩)) (.plain hp hS)
          · exact .snoc (ih _ (by omega) rfl (.inl hSv) ((leads_other hl).2 g1)) (.plain hp hS)
        · have hy : y = c.char ∨ y = c.tag := by
            unfold Codes.Plain at hp
            tauto
          obtain ⟨n, rfl⟩ := stands_any hc.ok hy g2
          have hl : v.getLast? ≠ some c.queue := by
            intro hl
            rw [List.getLast?_eq_some_iff] at hl
            obtain ⟨z, rfl⟩ := hl
            exact hp (hc.after _ _ (by rw [snoc2]; exact hS)).1
          have := ih _ (by omega) rfl (.inl hSv) ((leads_other hl).2 g1)
          have := (Walk.snoc this (.any hy hS)).repeat (.loop hy hS) n
          rw [List.append_assoc] at this
          rw [List.replicate_succ]
          exact this

/-- The two ends of a pattern. -/
theorem stands_leads (hc : c.Ok) {u w : List Int} : Stands c u w ↔ Leads c u w ∨ ∃ v, u = v ++ [c.queue] ∧ Stands c v w := by
  constructor
  · intro h
    by_cases hl : u.getLast? = some c.queue
    · rw [List.getLast?_eq_some_iff] at hl
      obtain ⟨v, rfl⟩ := hl
      obtain ⟨w1, w2, rfl, g1, g2⟩ := h.split
      rcases stands_queue hc g2 with rfl | ⟨x, n, k1, rfl⟩
      · exact .inr ⟨v, rfl, by simpa using g1⟩
      · exact .inl (leads_queue.2 ⟨w1, x, n, rfl, g1, k1⟩)
    · exact .inl ((leads_other hl).2 h)
  · rintro (h | ⟨v, rfl, h⟩)
    · exact leads_stands h
    · have := h.append (Stands.absent (c := c) .nil)
      simpa using this

end Verif.Patterns
