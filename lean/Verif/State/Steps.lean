import Verif.State.Run

/-! # What one step reaches -/

namespace Verif.State

open Verif.Fst (Path)

variable {W : Type}

/-- `r'` continues `r` by one arc that reads `x` and any number of arcs that read nothing. The output of the first
arc is changed by `f`. -/
def TookWith (f : Int → Int) (g : Graph W) (r : Rec W) (x : Int) (altered : Bool) (r' : Rec W) : Prop :=
  ∃ l p ls, l.1 = x ∧ Arc g r.node l p ∧ EpsPath g p ls r'.node ∧
    r'.seq = r.seq ++ [(f l.2.2.1, l.2.2.2)] ++ written ls ∧ r'.dirty = (r.dirty || altered)

/-- `r'` continues `r` by one arc that reads `x` and any number of arcs that read nothing. -/
def Took (g : Graph W) (r : Rec W) (x : Int) (altered : Bool) (r' : Rec W) : Prop := TookWith id g r x altered r'

/-- One symbol is written instead of another. -/
def replaced (old new x : Int) : Int := if x = old then new else x

/-- A single arc, before the closure. -/
def Hop (f : Int → Int) (g : Graph W) (r : Rec W) (x : Int) (altered : Bool) (r' : Rec W) : Prop :=
  ∃ l, l.1 = x ∧ Arc g r.node l r'.node ∧ r'.seq = r.seq ++ [(f l.2.2.1, l.2.2.2)] ∧ r'.dirty = (r.dirty || altered)

theorem mem_applyInto {g : Graph W} {x : Int} (hx : x ≠ 0) {r r' : Rec W} {d : Bool} :
    r' ∈ (applyInto g x r d).1 ↔ Hop id g r x d r' := by
  unfold applyInto Hop
  cases hg : g r.node x with
  | none =>
    simp only [List.not_mem_nil, false_iff]
    rintro ⟨l, rfl, ⟨ds, h, -⟩, -⟩
    rw [hg] at h; cases h
  | some ds =>
    simp only [List.mem_map, if_pos hx]
    constructor
    · rintro ⟨d', hd, rfl⟩
      obtain ⟨k, hk⟩ := List.mem_iff_getElem?.1 hd
      exact ⟨(x, k, d'.1, d'.2.2), rfl, ⟨ds, hg, hk⟩, rfl, rfl⟩
    · rintro ⟨l, rfl, ⟨ds', h, hk⟩, h2, h3⟩
      rw [hg] at h
      cases h
      refine ⟨_, List.mem_of_getElem? hk, ?_⟩
      obtain ⟨n, s, dd⟩ := r'
      simp only at h2 h3 ⊢
      rw [h2, h3]; rfl

theorem mem_applyIntoOverride {g : Graph W} {x o n : Int} (hx : x ≠ 0) {r r' : Rec W} {d : Bool} :
    r' ∈ (applyIntoOverride g x o n r d).1 ↔ Hop (replaced o n) g r x d r' := by
  unfold applyIntoOverride Hop
  cases hg : g r.node x with
  | none =>
    simp only [List.not_mem_nil, false_iff]
    rintro ⟨l, rfl, ⟨ds, h, -⟩, -⟩
    rw [hg] at h; cases h
  | some ds =>
    simp only [List.mem_map, if_pos hx]
    constructor
    · rintro ⟨d', hd, rfl⟩
      obtain ⟨k, hk⟩ := List.mem_iff_getElem?.1 hd
      refine ⟨(x, k, d'.1, d'.2.2), rfl, ⟨ds, hg, hk⟩, ?_, rfl⟩
      simp only [replaced]
      split <;> rfl
    · rintro ⟨l, rfl, ⟨ds', h, hk⟩, h2, h3⟩
      rw [hg] at h
      cases h
      refine ⟨_, List.mem_of_getElem? hk, ?_⟩
      obtain ⟨n, s, dd⟩ := r'
      simp only [replaced] at h2 h3 ⊢
      rw [h2, h3]
      split <;> rfl

theorem applyInto_snd {g : Graph W} {x : Int} {r : Rec W} {d : Bool} : (applyInto g x r d).2 = true ↔ g r.node x ≠ none := by
  unfold applyInto
  cases g r.node x <;> simp

theorem closure_hop {f : Int → Int} {g : Graph W} {r r' : Rec W} {x : Int} {d : Bool} :
    (∃ r1, Hop f g r x d r1 ∧ ∃ ls, EpsPath g r1.node ls r'.node ∧ r'.seq = r1.seq ++ written ls ∧ r'.dirty = r1.dirty) ↔
      TookWith f g r x d r' := by
  constructor
  · rintro ⟨r1, ⟨l, h1, h2, h3, h4⟩, ls, h5, h6, h7⟩
    exact ⟨l, _, ls, h1, h2, h5, by rw [h6, h3], by rw [h7, h4]⟩
  · rintro ⟨l, p, ls, h1, h2, h3, h4, h5⟩
    exact ⟨⟨p, r.seq ++ [(f l.2.2.1, l.2.2.2)], r.dirty || d⟩, ⟨l, h1, h2, rfl, rfl⟩, ls, h3, h4, h5⟩

/-- Closure after a set of hops. -/
theorem closure_hops {g : Graph W} {fuel : Nat} {st st' : List (Rec W)} {ap : Rec W → List (Rec W)} {Q : Rec W → Rec W → Prop}
    {T : Rec W → Rec W → Prop} (h : epsilonClosure g fuel (st.flatMap ap) = some st') (hap : ∀ r r1, r1 ∈ ap r ↔ Q r r1)
    (hT : ∀ r r', (∃ r1, Q r r1 ∧ ∃ ls, EpsPath g r1.node ls r'.node ∧ r'.seq = r1.seq ++ written ls ∧ r'.dirty = r1.dirty) ↔ T r r')
    (r' : Rec W) : r' ∈ st' ↔ ∃ r ∈ st, T r r' := by
  rw [closure_mem h]
  constructor
  · rintro ⟨r1, h1, h2⟩
    obtain ⟨r, hr, h1⟩ := List.mem_flatMap.1 h1
    exact ⟨r, hr, (hT r r').1 ⟨r1, (hap r r1).1 h1, h2⟩⟩
  · rintro ⟨r, hr, h1⟩
    obtain ⟨r1, h2, h3⟩ := (hT r r').2 h1
    exact ⟨r1, List.mem_flatMap.2 ⟨r, hr, (hap r r1).2 h2⟩, h3⟩

end Verif.State
