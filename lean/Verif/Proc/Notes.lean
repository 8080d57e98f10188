import Verif.Proc.Text

/-! # The best word so far -/

namespace Verif.Proc

open Verif.State Verif.Stream Verif.Input Verif.Merge

variable {W : Type}

theorem live_prefix {σ : Setting W} {xs ys : List Int} (h : Live σ (xs ++ ys)) : Live σ xs := by
  induction ys using List.reverseRecOn with
  | nil => simpa using h
  | append_singleton ys y ih =>
    apply ih
    rw [← List.append_assoc] at h
    obtain ⟨ls, p, h⟩ := h
    obtain ⟨l1, l, l2, q, q', -, h1, -⟩ := reads_concat h
    exact ⟨l1, q, h1⟩

theorem live_take {σ : Setting W} {xs : List Int} {i j : Nat} (hij : i ≤ j) (h : Live σ (xs.take j)) : Live σ (xs.take i) := by
  have : xs.take j = xs.take i ++ (xs.take j).drop i := by
    conv => lhs; rw [← List.take_append_drop i (xs.take j)]
    rw [List.take_take, Nat.min_eq_left hij]
  rw [this] at h
  exact live_prefix h

theorem live_of_entry {σ : Setting W} {xs : List Int} (h : Entry σ xs) : Live σ xs := by
  rcases h with ⟨ls, p, w, h, -⟩ | ⟨ls, p, w, h, -⟩ | ⟨ls, p, w, h, -⟩ | ⟨ls, p, w, h, -⟩ <;> exact ⟨ls, p, h⟩

/-- The word of the first `i` characters. -/
def Gd (σ : Setting W) (X : List Int) (i : Nat) : Prop :=
  0 < i ∧ ∃ v, X[i]? = some v ∧ Entry σ (X.take i) ∧ (Special σ (X.take i) ∨ σ.isAlphabetic v = false)

def Sd (σ : Setting W) (X : List Int) (i : Nat) : Prop := Gd σ X i ∧ ¬ Special σ (X.take i)

def Po (σ : Setting W) (X : List Int) (i : Nat) : Prop := In σ σ.postblank (X.take i) ∧ ¬ In σ σ.inconditional (X.take i)

def Pr (σ : Setting W) (X : List Int) (i : Nat) : Prop := In σ σ.preblank (X.take i) ∧ ¬ In σ σ.inconditional (X.take i) ∧ ¬ In σ σ.postblank (X.take i)

theorem take_of_append {X ys : List Int} {v : Int} {zs : List Int} (h : X = ys ++ v :: zs) : X.take ys.length = ys ∧ X[ys.length]? = some v := by
  subst h; simp

theorem split_at {X : List Int} {i : Nat} {v : Int} (h : X[i]? = some v) : X = X.take i ++ v :: X.drop (i + 1) := by
  obtain ⟨hi, e⟩ := List.getElem?_eq_some_iff.1 h
  subst e
  rw [List.getElem_cons_drop, List.take_append_drop]

theorem good_iff {σ : Setting W} {X ys : List Int} : Good σ X ys ↔ ys = X.take ys.length ∧ Gd σ X ys.length := by
  constructor
  · rintro ⟨h0, v, zs, e, h1, h2⟩
    obtain ⟨e1, e2⟩ := take_of_append e
    refine ⟨e1.symm, List.length_pos_iff.2 h0, v, e2, ?_⟩
    rw [e1]; exact ⟨h1, h2⟩
  · rintro ⟨e, h0, v, e2, h1, h2⟩
    rw [← e] at h1 h2
    refine ⟨List.length_pos_iff.1 h0, v, X.drop (ys.length + 1), ?_, h1, h2⟩
    conv => rhs; rw [e]
    exact (split_at e2).trans (by rw [List.length_take, Nat.min_eq_left (List.getElem?_eq_some_iff.1 e2).1.le])

theorem gd_lt {σ : Setting W} {X : List Int} {i : Nat} (h : Gd σ X i) : i < X.length := by
  obtain ⟨-, v, e, -⟩ := h
  exact (List.getElem?_eq_some_iff.1 e).1

theorem good_take {σ : Setting W} {X : List Int} {i : Nat} (h : Gd σ X i) : Good σ X (X.take i) ∧ (X.take i).length = i := by
  have hi := gd_lt h
  have hl : (X.take i).length = i := by rw [List.length_take]; omega
  exact ⟨good_iff.2 ⟨by rw [hl], by rw [hl]; exact h⟩, hl⟩

section
variable [AddMonoid W] [LinearOrder W] {σ : Setting W} {name : Int → UString}

/-- There is fuel enough for what the dictionary says of parts of the text. -/
def Ready (hr : Regular σ name) (n : Nat) (ps : List Piece) : Prop :=
  (∀ ys, ys <:+: ps → after σ n (vals ys) = .ok (states σ name hr (vals ys))) ∧
  ∀ ys, ys <:+: ps → ∀ zs, zs <+: loweredUnits σ ys → after σ n zs = .ok (states σ name hr zs)

omit [AddMonoid W] in
theorem ready_exists (hr : Regular σ name) (ps : List Piece) : ∃ N, ∀ n ≥ N, Ready hr n ps := by
  obtain ⟨N, h⟩ := states_all σ name hr ((ps.tails.flatMap List.inits).flatMap fun ys => vals ys :: (loweredUnits σ ys).inits)
  refine ⟨N, fun n hn => ?_⟩
  have key : ∀ ys, ys <:+: ps → ys ∈ ps.tails.flatMap List.inits := by
    rintro ys ⟨s, t, e⟩
    refine List.mem_flatMap.2 ⟨ys ++ t, (List.mem_tails _ _).2 ⟨s, by simpa using e⟩, (List.mem_inits _ _).2 ⟨t, rfl⟩⟩
  refine ⟨fun ys hy => h n hn _ (List.mem_flatMap.2 ⟨ys, key ys hy, by simp⟩),
    fun ys hy zs hz => h n hn _ (List.mem_flatMap.2 ⟨ys, key ys hy, List.mem_cons_of_mem _ ((List.mem_inits _ _).2 hz)⟩)⟩

omit [AddMonoid W] in
theorem Ready.infix {hr : Regular σ name} {n : Nat} {ps qs : List Piece} (h : Ready hr n ps) (hq : qs <:+: ps) : Ready hr n qs :=
  ⟨fun ys hy => h.1 ys (hy.trans hq), fun ys hy => h.2 ys (hy.trans hq)⟩

omit [AddMonoid W] in
theorem step_ready {hr : Regular σ name} {n : Nat} {xs : List Int} {x : Int} (h1 : after σ n xs = .ok (states σ name hr xs))
    (h2 : after σ n (xs ++ [x]) = .ok (states σ name hr (xs ++ [x]))) :
    stepFolded σ n x (states σ name hr xs) = .ok (states σ name hr (xs ++ [x])) := by
  rw [after_concat, h1] at h2
  exact h2

omit [AddMonoid W] in
theorem stepRestoring_eq (hr : Regular σ name) (n : Nat) (x : Int) (st : List (Rec W)) : stepRestoring σ n x st = stepFolded σ n x st := by
  unfold stepRestoring
  rw [hr.noRestore]
  rfl

omit [AddMonoid W] in
theorem pruned_eq (hr : Regular σ name) (st : List (Rec W)) : pruned σ st = st := by
  unfold pruned
  rw [hr.noCompounds]
  rfl

/-- What is known when the words of less than `k` characters have been looked at. -/
def Noted (hr : Regular σ name) (R : List Piece) (base k : Nat) (l : Loc W) : Prop :=
  ((∀ i < k, ¬ Gd σ (vals R) i) ∧ l.lf = [] ∧ l.post = false ∧ l.pre = false ∧ l.incond = false) ∨
  ∃ i < k, Gd σ (vals R) i ∧ (∀ j < k, Gd σ (vals R) j → j ≤ i) ∧ l.last ≡ base + i + 1 [MOD 2048] ∧ l.lastSize = (surface (R.take i)).length ∧
    filterFinals σ (states σ name hr (vals (R.take i))) (surface (R.take i)) = .ok l.lf ∧ l.lf ≠ [] ∧
    (l.post = true ↔ ∃ j < k, Gd σ (vals R) j ∧ Po σ (vals R) j ∧ ∀ m < k, Sd σ (vals R) m → m < j) ∧
    (l.pre = true ↔ ∃ j < k, Gd σ (vals R) j ∧ Pr σ (vals R) j ∧ ∀ m < k, Sd σ (vals R) m → m < j) ∧
    (l.post = true ∨ l.pre = true ∨ l.incond = true ∨ Sd σ (vals R) i)

omit [AddMonoid W] in
theorem lt_succ_split {k : Nat} {P : Nat → Prop} : (∀ i < k + 1, P i) ↔ (∀ i < k, P i) ∧ P k := by
  constructor
  · exact fun h => ⟨fun i hi => h i (by omega), h k (by omega)⟩
  · rintro ⟨h1, h2⟩ i hi
    rcases Nat.lt_succ_iff_lt_or_eq.1 hi with h | rfl
    · exact h1 i h
    · exact h2

theorem noted_bad {hr : Regular σ name} {R : List Piece} {base k : Nat} {l : Loc W} (h : Noted hr R base k l) (hb : ¬ Gd σ (vals R) k) : Noted hr R base (k + 1) l := by
  have e1 : ∀ {Q : Nat → Prop}, (∃ j < k + 1, Gd σ (vals R) j ∧ Q j) ↔ ∃ j < k, Gd σ (vals R) j ∧ Q j := by
    intro Q
    constructor
    · rintro ⟨j, h1, h2, h3⟩
      rcases Nat.lt_succ_iff_lt_or_eq.1 h1 with h | rfl
      · exact ⟨j, h, h2, h3⟩
      · exact absurd h2 hb
    · rintro ⟨j, h1, h2⟩
      exact ⟨j, by omega, h2⟩
  have e2 : ∀ j, (∀ m < k + 1, Sd σ (vals R) m → m < j) ↔ ∀ m < k, Sd σ (vals R) m → m < j := by
    intro j
    rw [lt_succ_split]
    exact ⟨fun h => h.1, fun h => ⟨h, fun h' => absurd h'.1 hb⟩⟩
  rcases h with ⟨h1, h2⟩ | ⟨i, hi, h1, h2, h3, h4, h5, h6, h7, h8, h9⟩
  · left
    exact ⟨lt_succ_split.2 ⟨h1, hb⟩, h2⟩
  · right
    refine ⟨i, by omega, h1, lt_succ_split.2 ⟨h2, fun h => absurd h hb⟩, h3, h4, h5, h6, ?_, ?_, h9⟩
    · rw [h7, e1]; simp only [e2]
    · rw [h8, e1]; simp only [e2]

theorem noted_flags {hr : Regular σ name} {R : List Piece} {base k : Nat} {l : Loc W} (h : Noted hr R base k l) :
    (l.post = true ↔ ∃ j < k, Gd σ (vals R) j ∧ Po σ (vals R) j ∧ ∀ m < k, Sd σ (vals R) m → m < j) ∧
    (l.pre = true ↔ ∃ j < k, Gd σ (vals R) j ∧ Pr σ (vals R) j ∧ ∀ m < k, Sd σ (vals R) m → m < j) := by
  rcases h with ⟨h1, -, h2, h3, -⟩ | ⟨i, hi, -, -, -, -, -, -, h7, h8, -⟩
  · rw [h2, h3]
    constructor <;> constructor
    · intro h; cases h
    · rintro ⟨j, hj, hg, -⟩; exact absurd hg (h1 j hj)
    · intro h; cases h
    · rintro ⟨j, hj, hg, -⟩; exact absurd hg (h1 j hj)
  · exact ⟨h7, h8⟩

/-- The word of `k` characters is the best so far. -/
theorem noted_good {hr : Regular σ name} {R : List Piece} {base k : Nat} {l l' : Loc W} (h : Noted hr R base k l) (hg : Gd σ (vals R) k)
    (hl : l'.last ≡ base + k + 1 [MOD 2048]) (hz : l'.lastSize = (surface (R.take k)).length)
    (hf : filterFinals σ (states σ name hr (vals (R.take k))) (surface (R.take k)) = .ok l'.lf) (hne : l'.lf ≠ [])
    (hcase : (Sd σ (vals R) k ∧ l'.post = false ∧ l'.pre = false ∧ l'.incond = false) ∨
      (¬ Sd σ (vals R) k ∧ (l'.post = true ↔ l.post = true ∨ Po σ (vals R) k) ∧ (l'.pre = true ↔ l.pre = true ∨ Pr σ (vals R) k) ∧
        (l'.post = true ∨ l'.pre = true ∨ l'.incond = true))) :
    Noted hr R base (k + 1) l' := by
  obtain ⟨f1, f2⟩ := noted_flags h
  right
  refine ⟨k, by omega, hg, fun j hj _ => by omega, hl, hz, hf, hne, ?_⟩
  rcases hcase with ⟨h1, h2, h3, h4⟩ | ⟨h1, h2, h3, h4⟩
  · rw [h2, h3]
    refine ⟨⟨fun h => (by cases h), ?_⟩, ⟨fun h => (by cases h), ?_⟩, .inr (.inr (.inr h1))⟩
    · rintro ⟨j, hj, -, -, hm⟩
      have := hm k (by omega) h1
      omega
    · rintro ⟨j, hj, -, -, hm⟩
      have := hm k (by omega) h1
      omega
  · have key : ∀ P : Nat → Prop, ((∃ j < k, Gd σ (vals R) j ∧ P j ∧ ∀ m < k, Sd σ (vals R) m → m < j) ∨ P k) ↔
        ∃ j < k + 1, Gd σ (vals R) j ∧ P j ∧ ∀ m < k + 1, Sd σ (vals R) m → m < j := by
      intro P
      constructor
      · rintro (⟨j, hj, g1, g2, g3⟩ | g)
        · exact ⟨j, by omega, g1, g2, lt_succ_split.2 ⟨g3, fun g => absurd g h1⟩⟩
        · exact ⟨k, by omega, hg, g, lt_succ_split.2 ⟨fun m hm _ => hm, fun g => absurd g h1⟩⟩
      · rintro ⟨j, hj, g1, g2, g3⟩
        rcases Nat.lt_succ_iff_lt_or_eq.1 hj with hj | rfl
        · exact .inl ⟨j, hj, g1, g2, (lt_succ_split.1 g3).1⟩
        · exact .inr g2
    refine ⟨?_, ?_, ?_⟩
    · rw [h2, f1]; exact key _
    · rw [h3, f2]; exact key _
    · rcases h4 with h | h | h
      · exact .inl h
      · exact .inr (.inl h)
      · exact .inr (.inr (.inl h))

theorem vals_take (R : List Piece) (i : Nat) : (vals R).take i = vals (R.take i) := by simp [vals, List.map_take]

omit [AddMonoid W] [LinearOrder W] in
theorem vals_ne {ps : List Piece} (hp : ∀ p ∈ ps, p.Ok σ) : ∀ x ∈ vals ps, x ≠ 0 := by
  intro x hx
  obtain ⟨p, hpp, rfl⟩ := List.mem_map.1 hx
  have := (piece_val (hp p hpp)).2
  omega

/-- The test for final states. -/
theorem note_ok (hr : Regular σ name) (hs : Small σ) (he : ¬ Entry σ []) {R xs : List Piece} {p : Piece} {qs : List Piece} (hR : R = xs ++ p :: qs)
    (hok : ∀ p ∈ R, p.Ok σ) {l : Loc W} {base pos : Nat} (hsf : l.sf = surface xs) (hc : l.cur = states σ name hr (vals xs))
    (hsp : xs = [] → σ.chars.isSpace (p.val : Int) = false) (hpos : pos ≡ base + xs.length + 1 [MOD 2048]) (h : Noted hr R base xs.length l) :
    ∃ l', note σ (p.val : Int) pos l = .ok l' ∧ Noted hr R base (xs.length + 1) l' ∧ l'.sf = l.sf ∧ l'.cur = l.cur ∧ l'.seenL = l.seenL ∧ l'.lastStart = l.lastStart := by
  have hxok : ∀ p ∈ xs, p.Ok σ := fun q hq => hok q (by rw [hR]; simp [hq])
  have hsound : Sound σ (vals xs) l.cur := by rw [hc]; exact states_sound hr hs (vals_ne hxok)
  have htake : R.take xs.length = xs := by rw [hR]; simp
  have hvt : (vals R).take xs.length = vals xs := by rw [vals_take, htake]
  have hget : (vals R)[xs.length]? = some (p.val : Int) := by rw [hR]; simp [vals]
  have hgd : Gd σ (vals R) xs.length ↔ 0 < xs.length ∧ Entry σ (vals xs) ∧ (Special σ (vals xs) ∨ σ.isAlphabetic (p.val : Int) = false) := by
    unfold Gd
    rw [hvt, hget]
    simp only [Option.some.injEq, exists_eq_left']
  have hE := sound_entry hr.standard hsound
  have hI := sound_final hsound σ.inconditional
  have hP := sound_final hsound σ.postblank
  have hQ := sound_final hsound σ.preblank
  unfold note
  by_cases e : Entry σ (vals xs)
  · have hx0 : xs ≠ [] := by rintro rfl; exact he e
    have hpos0 := List.length_pos_iff.2 hx0
    rw [if_pos (hE.2 e)]
    obtain ⟨lf, g1, g2, g3⟩ := filterFinals_ok hr hsound (by rw [hc]; exact states_length hr hs (vals_ne hxok)) (surface xs) (surface_ne_nil hx0)
    have hlf : lf ≠ [] := fun h => (g3.1 h) e
    have g1' : filterFinals σ (states σ name hr (vals (R.take xs.length))) (surface (R.take xs.length)) = .ok lf := by rw [htake, ← hc]; exact g1
    simp only [pruned_eq hr, hsf, g1, Res.bind_ok]
    have hz : (surface xs).length = (surface (R.take xs.length)).length := by rw [htake]
    by_cases i1 : In σ σ.inconditional (vals xs)
    · rw [if_pos (hI.2 i1)]
      refine ⟨_, rfl, noted_good h (hgd.2 ⟨hpos0, e, .inl (.inl i1)⟩) hpos hz g1' hlf (.inr ⟨?_, ?_, ?_, ?_⟩), rfl, rfl, rfl, rfl⟩
      · unfold Sd; rw [hvt]; exact fun h => h.2 (.inl i1)
      · simp only [Po, hvt]; exact ⟨.inl, fun h => h.elim id fun h => absurd i1 h.2⟩
      · simp only [Pr, hvt]; exact ⟨.inl, fun h => h.elim id fun h => absurd i1 h.2.1⟩
      · exact .inr (.inr rfl)
    · rw [if_neg (by rw [hI]; exact i1)]
      by_cases i2 : In σ σ.postblank (vals xs)
      · rw [if_pos (hP.2 i2)]
        refine ⟨_, rfl, noted_good h (hgd.2 ⟨hpos0, e, .inl (.inr (.inl i2))⟩) hpos hz g1' hlf (.inr ⟨?_, ?_, ?_, ?_⟩), rfl, rfl, rfl, rfl⟩
        · unfold Sd; rw [hvt]; exact fun h => h.2 (.inr (.inl i2))
        · simp only [Po, hvt]; exact ⟨fun _ => .inr ⟨i2, i1⟩, fun _ => trivial⟩
        · simp only [Pr, hvt]; exact ⟨.inl, fun h => h.elim id fun h => absurd i2 h.2.2⟩
        · exact .inl rfl
      · rw [if_neg (by rw [hP]; exact i2)]
        by_cases i3 : In σ σ.preblank (vals xs)
        · rw [if_pos (hQ.2 i3)]
          refine ⟨_, rfl, noted_good h (hgd.2 ⟨hpos0, e, .inl (.inr (.inr i3))⟩) hpos hz g1' hlf (.inr ⟨?_, ?_, ?_, ?_⟩), rfl, rfl, rfl, rfl⟩
          · unfold Sd; rw [hvt]; exact fun h => h.2 (.inr (.inr i3))
          · simp only [Po, hvt]; exact ⟨.inl, fun h => h.elim id fun h => absurd h.1 i2⟩
          · simp only [Pr, hvt]; exact ⟨fun _ => .inr ⟨i3, i1, i2⟩, fun _ => trivial⟩
          · exact .inr (.inl rfl)
        · have hns : ¬ Special σ (vals xs) := by rintro (h | h | h); exacts [i1 h, i2 h, i3 h]
          rw [if_neg (by rw [hQ]; exact i3)]
          by_cases ha : σ.isAlphabetic (p.val : Int) = true
          · rw [if_neg (by simp [ha]), hr.noCompounds]
            simp only [Bool.false_and, Bool.false_eq_true, if_false]
            refine ⟨l, rfl, noted_bad h ?_, hsf, rfl, rfl, rfl⟩
            rw [hgd]
            rintro ⟨-, -, h | h⟩
            · exact hns h
            · rw [ha] at h; cases h
          · rw [if_pos (by simp [ha])]
            have hg := hgd.2 ⟨hpos0, e, .inr (by simpa using ha)⟩
            refine ⟨_, rfl, noted_good h hg hpos hz g1' hlf (.inl ⟨⟨hg, by rw [hvt]; exact hns⟩, rfl, rfl, rfl⟩), rfl, rfl, rfl, rfl⟩
  · rw [if_neg (by rw [hE]; exact e), if_neg]
    · exact ⟨l, rfl, noted_bad h fun hg => e (hgd.1 hg).2.1, rfl, rfl, rfl, rfl⟩
    · rw [hsf]
      intro h
      simp only [Bool.and_eq_true, List.isEmpty_iff] at h
      by_cases hx : xs = []
      · rw [hsp hx] at h; exact absurd h.2 (by simp)
      · exact surface_ne_nil hx h.1

end

end Verif.Proc
