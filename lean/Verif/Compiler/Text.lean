import Verif.Compiler.Tree

/-! # Putting a pair of symbol sequences into a transducer -/

namespace Verif.Compiler

open Verif.Fst Verif.Alphabet

set_option linter.unusedSectionVars false

variable {W : Type} [Zero W]

/-- The labels of an alphabet. -/
def KA (A : Alphabet) (c : Int) : Prop := ∃ p, HasPair A c p

theorem ka_zero {A : Alphabet} (h : Ok A) : KA A 0 := ⟨(0, 0), 0, h.zero, rfl⟩

theorem code_ne_zero {A : Alphabet} (h : Ok A) {c : Int} {p : Pair} (hc : HasPair A c p) (hp : p ≠ (0, 0)) : c ≠ 0 := by
  rintro rfl
  exact hp (HasPair.pair_unique hc ⟨0, h.zero, rfl⟩)

theorem dec_zero {A : Alphabet} (h : Ok A) : dec A 0 = (0, 0) := dec_eq ⟨0, h.zero, rfl⟩

@[simp] theorem lft_zero {A : Alphabet} (h : Ok A) (w : W) (ls : List (Int × W)) : lft A ((0, w) :: ls) = lft A ls := by
  simp [lft, dec_zero h]
@[simp] theorem rgt_zero {A : Alphabet} (h : Ok A) (w : W) (ls : List (Int × W)) : rgt A ((0, w) :: ls) = rgt A ls := by
  simp [rgt, dec_zero h]

theorem matchStep_eq {x y : Int} {a : Alphabet} {q e : Nat} {t t' : Transducer W} {w : W}
    (h : insertSingleTransduction (a.pairCode x y).1 q w t = (some e, t')) :
    matchStep [] w x y a q t = .ok ((a.pairCode x y).2, e, t') := by
  unfold matchStep
  simp only [h, acxLoop, Res.bind_ok]
  rfl

/-- The first pair that is read for two sequences. -/
def firstPair : List Int → List Int → Option Pair
  | [], [] => none
  | [], y :: _ => some (0, y)
  | x :: _, [] => some (x, 0)
  | x :: _, y :: _ => some (x, y)

/-- The pair without the empty symbol. -/
def sym (x : Int) : List Int := if x = 0 then [] else [x]

theorem lft_pair {A : Alphabet} {c x y : Int} (h : HasPair A c (x, y)) (w : W) (ls : List (Int × W)) :
    lft A ((c, w) :: ls) = sym x ++ lft A ls := by
  by_cases hx : x = 0 <;> simp [lft, dec_eq h, sym, hx]

theorem rgt_pair {A : Alphabet} {c x y : Int} (h : HasPair A c (x, y)) (w : W) (ls : List (Int × W)) :
    rgt A ((c, w) :: ls) = sym y ++ rgt A ls := by
  by_cases hx : y = 0 <;> simp [rgt, dec_eq h, sym, hx]

/-- What `matchLoop` does from a cursor, seen from the final alphabet. -/
def Matches (l r : List Int) (w : W) (a a' : Alphabet) (Dq : Alphabet → (Nat → Int → Prop) → Nat → Prop) : Prop :=
  Ok a' ∧ Ext a a' ∧ ∀ A, Ok A → Ext a' A → ∀ (B : (Int × W → Bool) → Prop) (t : Transducer W) C D q, Tree B (KA A) t C D → C q → Dq A D q →
    ∃ e t' C' D' zs, matchLoop [] w l r a q t = .ok (a', e, t') ∧ Moves B (KA A) t C D q (· = zs) (fun _ => True) t' C' D' e ∧
      lft A zs = l ∧ rgt A zs = r

/-- One turn and the rest. -/
theorem matches_step {a a' : Alphabet} (ha : Ok a) {x y : Int} {l r l' r' : List Int} {w w' : W} (hxy : (x, y) ≠ (0, 0))
    (hl : l = sym x ++ l') (hr : r = sym y ++ r')
    (hloop : ∀ q (t : Transducer W), matchLoop [] w l r a q t = (do
      let (a, q, t) ← matchStep [] w' x y a q t
      matchLoop [] w l' r' a q t))
    (h : Matches l' r' w (a.pairCode x y).2 a' fun _ D q => ∀ c, c ≠ 0 → D q c) :
    Matches l r w a a' fun A D q => ∀ c, HasPair A c (x, y) → D q c := by
  obtain ⟨h1, h2, h3⟩ := h
  obtain ⟨p1, p2, p3, -⟩ := pairCode_spec ha x y
  refine ⟨h1, p2.trans h2, fun A hA he B t C D q ht hq hD => ?_⟩
  have hp := (p3.mono h2).mono he
  obtain ⟨e, t1, C1, D1, v, i1, i2, -⟩ := ht.single (hD _ hp) ⟨_, hp⟩ w'
  obtain ⟨e', t', C', D', zs, j1, j2, j3, j4⟩ := h3 A hA he B t1 C1 D1 e i2.tree i2.cur fun c hc => i2.dn c trivial hc
  refine ⟨e', t', C', D', ((a.pairCode x y).1, v) :: zs, ?_, ?_, ?_, ?_⟩
  · rw [hloop, matchStep_eq i1]
    exact j1
  · have := i2.trans j2
    refine ⟨this.keeps, this.tree, this.acc, this.cur, this.dn, fun ls => (this.inn ls).trans ?_, this.finals⟩
    constructor
    · rintro ⟨xs, _, rfl, h5, _, _, rfl, rfl, rfl⟩; exact ⟨xs, _, rfl, h5, rfl⟩
    · rintro ⟨xs, _, rfl, h5, rfl⟩; exact ⟨xs, _, rfl, h5, _, _, rfl, rfl, rfl⟩
  · rw [lft_pair hp, j3, hl]
  · rw [rgt_pair hp, j4, hr]

theorem sym_pos {x : Int} (h : x ≠ 0) : sym x = [x] := if_neg h
theorem sym_zero : sym 0 = [] := rfl

theorem Matches.weaken {l r : List Int} {w : W} {a a' : Alphabet} {P Q : Alphabet → (Nat → Int → Prop) → Nat → Prop} (h : Matches l r w a a' P)
    (hpq : ∀ A D q, Ok A → Q A D q → P A D q) : Matches l r w a a' Q :=
  ⟨h.1, h.2.1, fun A hA he B t C D q ht hq hD => h.2.2 A hA he B t C D q ht hq (hpq A D q hA hD)⟩

theorem matches_all (w : W) (l r : List Int) (hl : 0 ∉ l) (hr : 0 ∉ r) (a : Alphabet) (ha : Ok a) :
    ∃ a', Matches l r w a a' fun _ D q => ∀ c, c ≠ 0 → D q c := by
  induction l generalizing r a with
  | nil =>
    induction r generalizing a with
    | nil =>
      refine ⟨a, ha, .refl a, fun A hA he B t C D q ht hq hD => ⟨q, t, C, D, [], rfl, ?_, rfl, rfl⟩⟩
      have := ht.stay hq
      exact ⟨this.keeps, this.tree, this.acc, this.cur, fun c _ hc => hD c hc, this.inn, rfl⟩
    | cons y r ih =>
      have hy : y ≠ 0 := fun h => hr (by simp [h])
      have hp : ((0 : Int), y) ≠ (0, 0) := by simp [hy]
      obtain ⟨a', h⟩ := ih (fun h => hr (List.mem_cons_of_mem _ h)) (a.pairCode 0 y).2 (pairCode_spec ha 0 y).1
      exact ⟨a', (matches_step ha (w' := if r = [] then w else 0) hp rfl (by rw [sym_pos hy]; rfl)
        (fun q t => rfl) h).weaken fun A D q hA hD c hc => hD c (code_ne_zero hA hc hp)⟩
  | cons x l ih =>
    have hx : x ≠ 0 := fun h => hl (by simp [h])
    cases r with
    | nil =>
      have hp : (x, (0 : Int)) ≠ (0, 0) := by simp [hx]
      obtain ⟨a', h⟩ := ih [] (fun h => hl (List.mem_cons_of_mem _ h)) (by simp) (a.pairCode x 0).2 (pairCode_spec ha x 0).1
      exact ⟨a', (matches_step ha (w' := if l = [] then w else 0) hp (by rw [sym_pos hx]; rfl) rfl
        (fun q t => rfl) h).weaken fun A D q hA hD c hc => hD c (code_ne_zero hA hc hp)⟩
    | cons y r =>
      have hy : y ≠ 0 := fun h => hr (by simp [h])
      have hp : (x, y) ≠ (0, 0) := by simp [hx]
      obtain ⟨a', h⟩ := ih r (fun h => hl (List.mem_cons_of_mem _ h)) (fun h => hr (List.mem_cons_of_mem _ h)) (a.pairCode x y).2
        (pairCode_spec ha x y).1
      exact ⟨a', (matches_step ha (w' := if l = [] ∧ r = [] then w else 0) hp (by rw [sym_pos hx]; rfl) (by rw [sym_pos hy]; rfl)
        (fun q t => rfl) h).weaken fun A D q hA hD c hc => hD c (code_ne_zero hA hc hp)⟩

/-- The loop from a cursor of which only the labels of the first pair are known to be parts of entries. -/
theorem matches_first (w : W) (l r : List Int) (hl : 0 ∉ l) (hr : 0 ∉ r) (a : Alphabet) (ha : Ok a) (p : Pair) (hp : firstPair l r = some p) :
    ∃ a', Matches l r w a a' fun A D q => ∀ c, HasPair A c p → D q c := by
  cases l with
  | nil =>
    cases r with
    | nil => cases hp
    | cons y r =>
      have hy : y ≠ 0 := fun h => hr (by simp [h])
      cases hp
      obtain ⟨a', h⟩ := matches_all w [] r (by simp) (fun h => hr (List.mem_cons_of_mem _ h)) (a.pairCode 0 y).2 (pairCode_spec ha 0 y).1
      exact ⟨a', matches_step ha (w' := if r = [] then w else 0) (by simp [hy]) rfl (by rw [sym_pos hy]; rfl) (fun q t => rfl) h⟩
  | cons x l =>
    have hx : x ≠ 0 := fun h => hl (by simp [h])
    cases r with
    | nil =>
      cases hp
      obtain ⟨a', h⟩ := matches_all w l [] (fun h => hl (List.mem_cons_of_mem _ h)) (by simp) (a.pairCode x 0).2 (pairCode_spec ha x 0).1
      exact ⟨a', matches_step ha (w' := if l = [] then w else 0) (by simp [hx]) (by rw [sym_pos hx]; rfl) rfl
        (fun q t => rfl) h⟩
    | cons y r =>
      have hy : y ≠ 0 := fun h => hr (by simp [h])
      cases hp
      obtain ⟨a', h⟩ := matches_all w l r (fun h => hl (List.mem_cons_of_mem _ h)) (fun h => hr (List.mem_cons_of_mem _ h)) (a.pairCode x y).2
        (pairCode_spec ha x y).1
      exact ⟨a', matches_step ha (w' := if l = [] ∧ r = [] then w else 0) (by simp [hx]) (by rw [sym_pos hx]; rfl) (by rw [sym_pos hy]; rfl)
        (fun q t => rfl) h⟩

end Verif.Compiler
