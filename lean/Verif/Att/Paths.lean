import Verif.Att.Build

/-! # Paths through the helper states -/

namespace Verif.Att

open Verif.Fst

variable {W : Type}

/-- A path through helper states, which have negative numbers, up to the first other state. -/
inductive Tail [Add W] (E : List (GE W)) : Int → List Lab → W → Int → Prop
  | last {q p : Int} {l : Lab} {w : W} : (q, (l, w), p) ∈ E → 0 ≤ p → Tail E q [l] w p
  | step {q r p : Int} {l : Lab} {v w : W} {ls : List Lab} : (q, (l, v), r) ∈ E → r < 0 → Tail E r ls w p → Tail E q (l :: ls) (v + w) p

theorem Tail.nonneg [Add W] {E : List (GE W)} {q : Int} {ls : List Lab} {w : W} {p : Int} (h : Tail E q ls w p) : 0 ≤ p := by
  induction h with
  | last _ h => exact h
  | step _ _ _ ih => exact ih

theorem Tail.mono [Add W] {E E' : List (GE W)} (hE : ∀ e ∈ E, e ∈ E') {q : Int} {ls : List Lab} {w : W} {p : Int} (h : Tail E q ls w p) : Tail E' q ls w p := by
  induction h with
  | last h1 h2 => exact .last (hE _ h1) h2
  | step h1 h2 _ ih => exact .step (hE _ h1) h2 ih

/-- The helper states that are in use have numbers from `-ph`. -/
def Above (ph : Nat) (E : List (GE W)) : Prop := ∀ e ∈ E, -(ph : Int) ≤ e.1 ∧ -(ph : Int) ≤ e.2.2

theorem chain_source [Zero W] (ls : List Lab) : ∀ (q dst : Int) (w : W) (ph : Nat), ∀ e ∈ chain q dst w ph ls, e.1 = q ∨ e.1 < -(ph : Int) := by
  induction ls with
  | nil => intro q dst w ph e he; cases he
  | cons l ls ih =>
    intro q dst w ph e he
    cases ls with
    | nil =>
      rw [chain, List.mem_singleton] at he
      subst he
      exact .inl rfl
    | cons l2 ls =>
      rw [chain, List.mem_cons] at he
      · rcases he with rfl | he
        · exact .inl rfl
        · rcases ih _ _ _ _ e he with h | h <;> right <;> push_cast at h ⊢ <;> omega
      · simp

theorem chain_above [Zero W] (ls : List Lab) : ∀ (q dst : Int) (w : W) (ph : Nat), 0 ≤ dst → -(ph : Int) ≤ q →
    Above (ph + (ls.length - 1)) (chain q dst w ph ls) := by
  induction ls with
  | nil => intro q dst w ph _ _ e he; cases he
  | cons l ls ih =>
    intro q dst w ph hd hq e he
    cases ls with
    | nil =>
      rw [chain, List.mem_singleton] at he
      subst he
      simp
      omega
    | cons l2 ls =>
      rw [chain, List.mem_cons] at he
      · rcases he with rfl | he
        · simp only [List.length_cons]
          push_cast
          omega
        · have := ih (-((ph : Int) + 1)) dst w (ph + 1) hd (by push_cast; omega) e he
          simp only [List.length_cons] at this ⊢
          push_cast at this ⊢
          omega
      · simp

/-- From a helper state in use one stays on the old arcs. -/
theorem tail_old [AddMonoid W] {E : List (GE W)} {ph : Nat} (hE : Above ph E) {q0 dst : Int} (h0 : 0 ≤ q0) (w0 : W) (labs : List Lab)
    {q : Int} {ls : List Lab} {w : W} {p : Int} (h : Tail (E ++ chain q0 dst w0 ph labs) q ls w p) (hq : q < 0) (hq2 : -(ph : Int) ≤ q) : Tail E q ls w p := by
  induction h with
  | last h1 h2 =>
    rcases List.mem_append.1 h1 with h1 | h1
    · exact .last h1 h2
    · rcases chain_source _ _ _ _ _ _ h1 with h | h <;> simp only at h <;> omega
  | step h1 h2 _ ih =>
    rcases List.mem_append.1 h1 with h1 | h1
    · exact .step h1 h2 (ih h2 (hE _ h1).2)
    · rcases chain_source _ _ _ _ _ _ h1 with h | h <;> simp only at h <;> omega

/-- From a new helper state there is one way only. -/
theorem tail_new [AddMonoid W] (labs : List Lab) : ∀ (ph : Nat) (E : List (GE W)) (dst : Int) (w0 : W) (q0 : Int), 0 ≤ dst → q0 < 0 → -(ph : Int) ≤ q0 →
    (∀ e ∈ E, e.1 ≠ q0 ∧ -(ph : Int) ≤ e.1) → ∀ (ls : List Lab) (w : W) (p : Int),
    Tail (E ++ chain q0 dst w0 ph labs) q0 ls w p ↔ labs ≠ [] ∧ ls = labs ∧ w = w0 ∧ p = dst := by
  induction labs with
  | nil =>
    intro ph E dst w0 q0 _ _ _ hE ls w p
    constructor
    · intro h
      rw [chain, List.append_nil] at h
      cases h with
      | last h _ => exact absurd rfl (hE _ h).1
      | step h _ _ => exact absurd rfl (hE _ h).1
    · rintro ⟨h, _⟩; exact absurd rfl h
  | cons l labs ih =>
    intro ph E dst w0 q0 hd hq hq2 hE ls w p
    cases labs with
    | nil =>
      rw [chain]
      constructor
      · intro h
        cases h with
        | last h _ =>
          rcases List.mem_append.1 h with h | h
          · exact absurd rfl (hE _ h).1
          · simp only [List.mem_singleton, Prod.mk.injEq, true_and] at h
            obtain ⟨⟨rfl, rfl⟩, rfl⟩ := h
            simp
        | step h h2 _ =>
          rcases List.mem_append.1 h with h | h
          · exact absurd rfl (hE _ h).1
          · simp only [List.mem_singleton, Prod.mk.injEq, true_and] at h
            omega
      · rintro ⟨-, rfl, rfl, rfl⟩
        exact .last (by simp) hd
    | cons l2 labs =>
      rw [chain.eq_3 _ _ _ _ _ _ (by simp)]
      have hih := ih (ph + 1) (E ++ [(q0, (l, 0), -((ph : Int) + 1))]) dst w0 (-((ph : Int) + 1)) hd (by omega) (by push_cast; omega) (by
        intro e he
        rcases List.mem_append.1 he with he | he
        · have := (hE e he).2
          push_cast
          omega
        · rw [List.mem_singleton] at he
          subst he
          push_cast
          omega)
      rw [List.append_assoc, List.singleton_append] at hih
      have hsrc : ∀ e ∈ chain (-((ph : Int) + 1)) dst w0 (ph + 1) (l2 :: labs), e.1 ≠ q0 := by
        intro e he
        rcases chain_source _ _ _ _ _ _ he with h | h <;> push_cast at h <;> omega
      constructor
      · intro h
        cases h with
        | last h h2 =>
          rcases List.mem_append.1 h with h | h
          · exact absurd rfl (hE _ h).1
          · rcases List.mem_cons.1 h with h | h
            · simp only [Prod.mk.injEq] at h
              omega
            · exact absurd rfl (hsrc _ h)
        | step h h2 ht =>
          rcases List.mem_append.1 h with h | h
          · exact absurd rfl (hE _ h).1
          · rcases List.mem_cons.1 h with h | h
            · simp only [Prod.mk.injEq, true_and] at h
              obtain ⟨⟨rfl, rfl⟩, rfl⟩ := h
              obtain ⟨_, rfl, rfl, rfl⟩ := (hih _ _ _).1 ht
              simp
            · exact absurd rfl (hsrc _ h)
      · rintro ⟨-, rfl, rfl, rfl⟩
        have := Tail.step (E := E ++ (q0, (l, 0), -((ph : Int) + 1)) :: chain (-((ph : Int) + 1)) p w (ph + 1) (l2 :: labs)) (q := q0) (l := l) (v := 0)
          (by simp) (by omega) ((hih _ _ _).2 ⟨by simp, rfl, rfl, rfl⟩)
        rwa [zero_add] at this

/-- The arcs of a line add one way from its source to its target. -/
theorem tail_chain [AddMonoid W] {E : List (GE W)} {ph : Nat} (hE : Above ph E) {q0 dst : Int} (h0 : 0 ≤ q0) (hd : 0 ≤ dst) (w0 : W) {labs : List Lab}
    (hl : labs ≠ []) {q : Int} (hq : 0 ≤ q) (ls : List Lab) (w : W) (p : Int) :
    Tail (E ++ chain q0 dst w0 ph labs) q ls w p ↔ Tail E q ls w p ∨ (q = q0 ∧ ls = labs ∧ w = w0 ∧ p = dst) := by
  cases labs with
  | nil => exact absurd rfl hl
  | cons l labs =>
  cases labs with
  | nil =>
    rw [chain]
    constructor
    · intro h
      cases h with
      | last h h2 =>
        rcases List.mem_append.1 h with h | h
        · exact .inl (.last h h2)
        · simp only [List.mem_singleton, Prod.mk.injEq] at h
          obtain ⟨rfl, ⟨rfl, rfl⟩, rfl⟩ := h
          exact .inr ⟨rfl, rfl, rfl, rfl⟩
      | step h h2 ht =>
        rcases List.mem_append.1 h with h | h
        · have := tail_old hE h0 (dst := dst) w0 [l] (by rw [chain]; exact ht) h2 (hE _ h).2
          exact .inl (.step h h2 this)
        · simp only [List.mem_singleton, Prod.mk.injEq] at h
          omega
    · rintro (h | ⟨rfl, rfl, rfl, rfl⟩)
      · exact h.mono (by simp +contextual)
      · exact .last (by simp) hd
  | cons l2 labs =>
    have hnew := tail_new (l2 :: labs) (ph + 1) (E ++ [(q0, (l, 0), -((ph : Int) + 1))]) dst w0 (-((ph : Int) + 1)) hd (by omega) (by push_cast; omega) (by
      intro e he
      rcases List.mem_append.1 he with he | he
      · have := (hE e he).1
        push_cast
        omega
      · rw [List.mem_singleton] at he
        subst he
        push_cast
        omega)
    rw [List.append_assoc, List.singleton_append] at hnew
    have hsrc : ∀ e ∈ chain (-((ph : Int) + 1)) dst w0 (ph + 1) (l2 :: labs), e.1 < 0 := by
      intro e he
      rcases chain_source _ _ _ _ _ _ he with h | h <;> push_cast at h <;> omega
    have ech : chain q0 dst w0 ph (l :: l2 :: labs) = (q0, (l, 0), -((ph : Int) + 1)) :: chain (-((ph : Int) + 1)) dst w0 (ph + 1) (l2 :: labs) :=
      chain.eq_3 _ _ _ _ _ _ (by simp)
    constructor
    · intro h
      cases h with
      | last h h2 =>
        rcases List.mem_append.1 h with h | h
        · exact .inl (.last h h2)
        · rw [ech] at h
          rcases List.mem_cons.1 h with h | h
          · simp only [Prod.mk.injEq] at h
            omega
          · have := hsrc _ h
            simp only at this
            omega
      | step h h2 ht =>
        rcases List.mem_append.1 h with h | h
        · exact .inl (.step h h2 (tail_old hE h0 w0 _ ht h2 (hE _ h).2))
        · rw [ech] at h ht
          rcases List.mem_cons.1 h with h | h
          · simp only [Prod.mk.injEq] at h
            obtain ⟨rfl, ⟨rfl, rfl⟩, rfl⟩ := h
            obtain ⟨_, rfl, rfl, rfl⟩ := (hnew _ _ _).1 ht
            exact .inr ⟨rfl, rfl, zero_add _, rfl⟩
          · have := hsrc _ h
            simp only at this
            omega
    · rintro (h | ⟨rfl, rfl, rfl, rfl⟩)
      · exact h.mono (by simp +contextual)
      · rw [ech]
        have := Tail.step (E := E ++ (q, (l, 0), -((ph : Int) + 1)) :: chain (-((ph : Int) + 1)) p w (ph + 1) (l2 :: labs)) (q := q) (l := l) (v := 0)
          (by simp) (by omega) ((hnew _ _ _).2 ⟨by simp, rfl, rfl, rfl⟩)
        rwa [zero_add] at this

/-- A path between other states is a sequence of ways through helper states. -/
theorem path_tails [AddMonoid W] {E : List (GE W)} {q p : Int} {ls : List (Lab × W)} (h : Path (fun q l p => (q, l, p) ∈ E) q ls p) (hp : 0 ≤ p) :
    ∃ ms : List (List Lab × W), (0 ≤ q → Path (fun q l p => Tail E q l.1 l.2 p) q ms p) ∧
      (q < 0 → ∃ m ms' r, ms = m :: ms' ∧ Tail E q m.1 m.2 r ∧ Path (fun q l p => Tail E q l.1 l.2 p) r ms' p) ∧
      ls.map (·.1) = (ms.map (·.1)).flatten ∧ (ls.map (·.2)).sum = (ms.map (·.2)).sum := by
  induction h with
  | nil q => exact ⟨[], fun _ => .nil q, fun h => by omega, rfl, rfl⟩
  | @cons q r p l ls he _ ih =>
    obtain ⟨ms, i1, i2, i3, i4⟩ := ih hp
    obtain ⟨l, v⟩ := l
    by_cases hr : 0 ≤ r
    · refine ⟨([l], v) :: ms, fun _ => .cons (Tail.last he hr) (i1 hr), fun _ => ⟨_, _, r, rfl, .last he hr, i1 hr⟩, ?_, ?_⟩
      · simp [i3]
      · simp [i4]
    · obtain ⟨m, ms', r', rfl, h1, h2⟩ := i2 (by omega)
      have ht : Tail E q (l :: m.1) (v + m.2) r' := .step he (by omega) h1
      refine ⟨(l :: m.1, v + m.2) :: ms', fun _ => .cons ht h2, fun _ => ⟨_, _, r', rfl, ht, h2⟩, ?_, ?_⟩
      · simp [i3]
      · simp [i4, add_assoc]

theorem Tail.path [AddMonoid W] {E : List (GE W)} {q p : Int} {l : List Lab} {w : W} (h : Tail E q l w p) :
    ∃ ls : List (Lab × W), Path (fun q l p => (q, l, p) ∈ E) q ls p ∧ ls.map (·.1) = l ∧ (ls.map (·.2)).sum = w := by
  induction h with
  | @last q p l w h _ => exact ⟨[(l, w)], .single h, rfl, by simp⟩
  | @step q r p l v w ls h _ _ ih =>
    obtain ⟨xs, h1, h2, h3⟩ := ih
    exact ⟨(l, v) :: xs, .cons h h1, by simp [h2], by simp [h3]⟩

theorem tails_path [AddMonoid W] {E : List (GE W)} {q p : Int} {ms : List (List Lab × W)} (h : Path (fun q l p => Tail E q l.1 l.2 p) q ms p) :
    ∃ ls : List (Lab × W), Path (fun q l p => (q, l, p) ∈ E) q ls p ∧ ls.map (·.1) = (ms.map (·.1)).flatten ∧ (ls.map (·.2)).sum = (ms.map (·.2)).sum := by
  induction h with
  | nil q => exact ⟨[], .nil q, rfl, rfl⟩
  | @cons q r p l ms he _ ih =>
    obtain ⟨xs, h1, h2, h3⟩ := he.path
    obtain ⟨ys, g1, g2, g3⟩ := ih
    exact ⟨xs ++ ys, h1.append g1, by simp [h2, g2], by simp [h3, g3]⟩

end Verif.Att
