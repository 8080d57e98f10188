import Verif.Proc.Spec
import Verif.State.Props

/-! # Reading a word -/

namespace Verif.Proc

open Verif.State
open Verif.Fst (Path)

variable {W : Type}

/-- The states after reading `xs`. -/
def after (σ : Setting W) (n : Nat) (xs : List Int) : Res (List (Rec W)) :=
  xs.foldl (fun r x => r.bind (stepFolded σ n x)) (ended (State.init σ.graph n σ.root))

theorem after_nil (σ : Setting W) (n : Nat) : after σ n [] = ended (State.init σ.graph n σ.root) := rfl

theorem after_concat (σ : Setting W) (n : Nat) (xs : List Int) (x : Int) : after σ n (xs ++ [x]) = (after σ n xs).bind (stepFolded σ n x) := by
  simp [after, List.foldl_append]

/-- There are never so many states that case folding is turned off. -/
def Small (σ : Setting W) : Prop := ∀ n xs st, (∀ x ∈ xs, x ≠ 0) → after σ n xs = .ok st → st.length < 65536

theorem ended_ok {α : Type} {o : Option α} {x : α} : ended o = .ok x ↔ o = some x := by
  cases o <;> simp [ended]

theorem res_bind_ok {α β : Type} {r : Res α} {f : α → Res β} {y : β} : r.bind f = .ok y ↔ ∃ x, r = .ok x ∧ f x = .ok y := by
  cases r <;> simp [Res.bind]

/-- What is known of the states after reading `xs`. -/
def Sound (σ : Setting W) (xs : List Int) (st : List (Rec W)) : Prop :=
  ∀ r : Rec W, r ∈ st ↔ ∃ ls, Reads σ xs ls r.node ∧ r.seq = written ls ∧ r.dirty = decide (inputs ls ≠ xs)

theorem written_append (l1 l2 : List (Label W)) : written (l1 ++ l2) = written l1 ++ written l2 := by
  simp [written]

theorem inputs_append (l1 l2 : List (Label W)) : inputs (l1 ++ l2) = inputs l1 ++ inputs l2 := by
  simp [inputs]

theorem inputs_cons_ne {l : Label W} (h : l.1 ≠ 0) (ls : List (Label W)) : inputs (l :: ls) = l.1 :: inputs ls := by
  simp [inputs, h]

theorem written_cons_ne {l : Label W} (h : l.1 ≠ 0) (ls : List (Label W)) : written (l :: ls) = l.2.2 :: written ls := by
  simp [written, h]

theorem forall2_concat {α β : Type} {R : α → β → Prop} {xs : List α} {x : α} {ys : List β} (h : List.Forall₂ R (xs ++ [x]) ys) :
    ∃ ys' y, ys = ys' ++ [y] ∧ List.Forall₂ R xs ys' ∧ R x y := by
  induction xs generalizing ys with
  | nil =>
    cases h with
    | cons h1 h2 =>
      cases h2
      exact ⟨[], _, rfl, .nil, h1⟩
  | cons a xs ih =>
    cases h with
    | cons h1 h2 =>
      obtain ⟨ys', y, rfl, h3, h4⟩ := ih h2
      exact ⟨_ :: ys', y, rfl, .cons h1 h3, h4⟩

theorem forall2_snoc {α β : Type} {R : α → β → Prop} {xs : List α} {x : α} {ys : List β} {y : β} (h : List.Forall₂ R xs ys) (hy : R x y) :
    List.Forall₂ R (xs ++ [x]) (ys ++ [y]) := by
  induction h with
  | nil => exact .cons hy .nil
  | cons h1 h2 ih => exact .cons h1 ih

/-- A path that reads `xs ++ [x]` is one that reads `xs`, an arc that reads `x`, and arcs that read nothing. -/
theorem reads_concat {σ : Setting W} {xs : List Int} {x : Int} {ls : List (Label W)} {p : Nat} (h : Reads σ (xs ++ [x]) ls p) :
    ∃ l1 l l2 q q', ls = l1 ++ l :: l2 ∧ Reads σ xs l1 q ∧ Folds σ x l.1 ∧ l.1 ≠ 0 ∧ Arc σ.graph q l q' ∧ EpsPath σ.graph q' l2 p := by
  obtain ⟨h1, h2⟩ := h
  obtain ⟨ys, y, e, h3, h4⟩ := forall2_concat h2
  obtain ⟨l1, l, l2, rfl, h5, h6, h7⟩ := inputs_concat e
  obtain ⟨q, h8, h9⟩ := Fst.Path.split h1
  obtain ⟨q', h10, h11⟩ := (Fst.path_cons_iff).1 h9
  have hy : y ≠ 0 := by
    have : y ∈ inputs (l1 ++ l :: l2) := by rw [e]; simp
    unfold inputs at this
    simpa using (List.mem_filter.1 this).2
  exact ⟨l1, l, l2, q, q', rfl, ⟨h8, h5 ▸ h3⟩, h6 ▸ h4, h6 ▸ hy, h10, h11, h7⟩

theorem reads_snoc {σ : Setting W} {xs : List Int} {x : Int} {l1 l2 : List (Label W)} {l : Label W} {q q' p : Nat} (h1 : Reads σ xs l1 q)
    (h2 : Folds σ x l.1) (h0 : l.1 ≠ 0) (h3 : Arc σ.graph q l q') (h4 : EpsPath σ.graph q' l2 p) : Reads σ (xs ++ [x]) (l1 ++ l :: l2) p := by
  refine ⟨h1.1.append (.cons h3 h4.1), ?_⟩
  rw [inputs_append, inputs_cons_ne h0, inputs_eps h4.2]
  exact forall2_snoc h1.2 h2

theorem written_concat {l1 l2 : List (Label W)} {l : Label W} (h : l.1 ≠ 0) :
    written (l1 ++ l :: l2) = written l1 ++ [l.2.2] ++ written l2 := by
  rw [written_append, written_cons_ne h]; simp

theorem inputs_snoc {l1 l2 : List (Label W)} {l : Label W} (h : l.1 ≠ 0) (h2 : ∀ y ∈ l2, y.1 = 0) :
    inputs (l1 ++ l :: l2) = inputs l1 ++ [l.1] := by
  rw [inputs_append, inputs_cons_ne h, inputs_eps h2]

theorem sound_nil {σ : Setting W} {n : Nat} {st : List (Rec W)} (h : after σ n [] = .ok st) : Sound σ [] st := by
  rw [after_nil, ended_ok] at h
  intro r
  unfold State.init at h
  rw [closure_mem h]
  constructor
  · rintro ⟨r0, h0, ls, h1, h2, h3⟩
    rw [List.mem_singleton] at h0
    subst h0
    refine ⟨ls, ⟨h1.1, ?_⟩, by simpa using h2, ?_⟩
    · rw [inputs_eps h1.2]; exact .nil
    · simpa [inputs_eps h1.2] using h3
  · rintro ⟨ls, ⟨h1, h2⟩, h3, h4⟩
    have he : inputs ls = [] := by cases h2' : inputs ls with
      | nil => rfl
      | cons a b => rw [h2'] at h2; cases h2
    refine ⟨_, List.mem_singleton.2 rfl, ls, ⟨h1, inputs_nil he⟩, by simpa using h3, ?_⟩
    simpa [he] using h4

theorem sound_concat {σ : Setting W} {n : Nat} {xs : List Int} {x : Int} {st st' : List (Rec W)} (hx : x ≠ 0) (hl : σ.chars.toLower x ≠ 0)
    (hs : st.length < 65536) (h : Sound σ xs st) (he : stepFolded σ n x st = .ok st') : Sound σ (xs ++ [x]) st' := by
  unfold stepFolded at he
  rw [ended_ok] at he
  have hb : σ.beCaseSensitive st = σ.caseSensitive := by simp [Setting.beCaseSensitive, hs]
  rw [hb] at he
  intro r'
  rw [C40_step_case _ _ _ _ _ _ hx hl _ _ he]
  constructor
  · rintro ⟨r, hr, hk⟩
    obtain ⟨ls, h1, h2, h3⟩ := (h r).1 hr
    rcases hk with ⟨l, p, l2, k1, k2, k3, k4, k5⟩ | ⟨k0, k0', k0'', l, p, l2, k1, k2, k3, k4, k5⟩
    · have hl0 : l.1 ≠ 0 := k1 ▸ hx
      refine ⟨ls ++ l :: l2, reads_snoc h1 (.inl k1) hl0 k2 k3, ?_, ?_⟩
      · rw [k4, h2, written_concat hl0]; rfl
      · rw [k5, h3, inputs_snoc hl0 k3.2, k1]; simp
    · have hl0 : l.1 ≠ 0 := k1 ▸ hl
      refine ⟨ls ++ l :: l2, reads_snoc h1 (.inr ⟨k0, k0', k1⟩) hl0 k2 k3, ?_, ?_⟩
      · rw [k4, h2, written_concat hl0]; rfl
      · rw [k5, inputs_snoc hl0 k3.2, k1]
        simp [k0'']
  · rintro ⟨ls, h1, h2, h3⟩
    obtain ⟨l1, l, l2, q, q', rfl, k1, k2, k3, k4, k5⟩ := reads_concat h1
    rw [written_concat k3] at h2
    rw [inputs_snoc k3 k5.2] at h3
    refine ⟨⟨q, written l1, decide (inputs l1 ≠ xs)⟩, (h _).2 ⟨l1, k1, rfl, rfl⟩, ?_⟩
    by_cases e : l.1 = x
    · refine .inl ⟨l, q', l2, e, k4, k5, h2, ?_⟩
      rw [h3, e]; simp
    · rcases k2 with k2 | ⟨k2, k2', k2''⟩
      · exact absurd k2 e
      · refine .inr ⟨k2, k2', by rw [← k2'']; exact e, l, q', l2, k2'', k4, k5, h2, ?_⟩
        rw [h3]
        simp [e]

theorem after_sound {σ : Setting W} (hs : Small σ) (hl : ∀ c, σ.chars.toLower c = 0 → c = 0) {n : Nat} {xs : List Int} {st : List (Rec W)} (hx : ∀ x ∈ xs, x ≠ 0)
    (h : after σ n xs = .ok st) : Sound σ xs st := by
  induction xs using List.reverseRecOn generalizing st with
  | nil => exact sound_nil h
  | append_singleton xs x ih =>
    rw [after_concat, res_bind_ok] at h
    obtain ⟨st1, h1, h2⟩ := h
    exact sound_concat (hx x (by simp)) (fun h => hx x (by simp) (hl x h)) (hs _ _ _ (fun y hy => hx y (by simp [hy])) h1) (ih (fun y hy => hx y (by simp [hy])) h1) h2

theorem stepFolded_ends {σ : Setting W} {k : Nat} (hf : Finite σ.graph k) (hc : ∀ q, NoEpsCycle σ.graph q) (x : Int) (st : List (Rec W)) :
    ∃ N st', ∀ n ≥ N, stepFolded σ n x st = .ok st' := by
  have key : ∃ st1, ∀ n, stepFolded σ n x st = ended (epsilonClosure σ.graph n st1) := by
    unfold stepFolded stepCase
    split
    · exact ⟨apply σ.graph x st, fun n => rfl⟩
    · exact ⟨applyAlt σ.graph x (σ.chars.toLower x) st, fun n => rfl⟩
  obtain ⟨st1, h1⟩ := key
  obtain ⟨N, st', h2⟩ := (closure_ends_iff hf st1).2 fun r _ => hc _
  exact ⟨N, st', fun n hn => by rw [h1, closure_mono h2 hn]; rfl⟩

theorem after_ends {σ : Setting W} {k : Nat} (hf : Finite σ.graph k) (hc : ∀ q, NoEpsCycle σ.graph q) (xs : List Int) :
    ∃ N st, ∀ n ≥ N, after σ n xs = .ok st := by
  induction xs using List.reverseRecOn with
  | nil =>
    obtain ⟨N, st, h⟩ := (closure_ends_iff hf [({ node := σ.root, seq := [], dirty := false } : Rec W)]).2 fun r _ => hc _
    exact ⟨N, st, fun n hn => by rw [after_nil, State.init, closure_mono h hn]; rfl⟩
  | append_singleton xs x ih =>
    obtain ⟨N1, st1, h1⟩ := ih
    obtain ⟨N2, st2, h2⟩ := stepFolded_ends hf hc x st1
    refine ⟨max N1 N2, st2, fun n hn => ?_⟩
    rw [after_concat, h1 n (by omega)]
    exact h2 n (by omega)

/-- The states after reading `xs`, when there are turns enough. -/
noncomputable def states (σ : Setting W) (name : Int → UString) [LinearOrder W] (h : Regular σ name) (xs : List Int) : List (Rec W) :=
  (after_ends h.finite.choose_spec h.noCycle xs).choose_spec.choose

theorem states_spec (σ : Setting W) (name : Int → UString) [LinearOrder W] (h : Regular σ name) (xs : List Int) :
    ∃ N, ∀ n ≥ N, after σ n xs = .ok (states σ name h xs) :=
  ⟨_, (after_ends h.finite.choose_spec h.noCycle xs).choose_spec.choose_spec⟩

theorem states_all (σ : Setting W) (name : Int → UString) [LinearOrder W] (h : Regular σ name) (L : List (List Int)) :
    ∃ N, ∀ n ≥ N, ∀ xs ∈ L, after σ n xs = .ok (states σ name h xs) := by
  induction L with
  | nil => exact ⟨0, by simp⟩
  | cons xs L ih =>
    obtain ⟨N1, h1⟩ := ih
    obtain ⟨N2, h2⟩ := states_spec σ name h xs
    refine ⟨max N1 N2, fun n hn ys hy => ?_⟩
    rcases List.mem_cons.1 hy with rfl | hy
    · exact h2 n (by omega)
    · exact h1 n (by omega) ys hy

theorem states_sound {σ : Setting W} {name : Int → UString} [LinearOrder W] (h : Regular σ name) (hs : Small σ) {xs : List Int} (hx : ∀ x ∈ xs, x ≠ 0) :
    Sound σ xs (states σ name h xs) := by
  obtain ⟨N, h1⟩ := states_spec σ name h xs
  exact after_sound hs h.lowerZero hx (h1 N le_rfl)

theorem states_length {σ : Setting W} {name : Int → UString} [LinearOrder W] (h : Regular σ name) (hs : Small σ) {xs : List Int} (hx : ∀ x ∈ xs, x ≠ 0) :
    (states σ name h xs).length < 65536 := by
  obtain ⟨N, h1⟩ := states_spec σ name h xs
  exact hs _ _ _ hx (h1 N le_rfl)

theorem sound_empty {σ : Setting W} {xs : List Int} {st : List (Rec W)} (h : Sound σ xs st) : st.isEmpty = false ↔ Live σ xs := by
  constructor
  · intro e
    cases st with
    | nil => cases e
    | cons r st =>
      obtain ⟨ls, h1, -⟩ := (h r).1 (by simp)
      exact ⟨ls, _, h1⟩
  · rintro ⟨ls, p, h1⟩
    have := (h ⟨p, written ls, decide (inputs ls ≠ xs)⟩).2 ⟨ls, h1, rfl, rfl⟩
    cases st with
    | nil => cases this
    | cons r st => rfl

theorem sound_final {σ : Setting W} {xs : List Int} {st : List (Rec W)} (h : Sound σ xs st) (F : List (Nat × W)) :
    isFinal F st = true ↔ In σ F xs := by
  unfold isFinal In
  rw [List.any_eq_true]
  constructor
  · rintro ⟨r, h1, h2⟩
    obtain ⟨⟨p, w⟩, hw, rfl⟩ := List.mem_map.1 ((mapFind_isSome_iff _ _).1 h2)
    obtain ⟨ls, h3, -⟩ := (h r).1 h1
    exact ⟨ls, _, w, h3, hw⟩
  · rintro ⟨ls, p, w, h1, h2⟩
    exact ⟨⟨p, written ls, decide (inputs ls ≠ xs)⟩, (h _).2 ⟨ls, h1, rfl, rfl⟩, (mapFind_isSome_iff _ _).2 (List.mem_map.2 ⟨_, h2, rfl⟩)⟩

/-! ## Final nodes -/

theorem addNew_spec (new : List (Nat × W)) : ∀ m : List (Nat × W), SortedKeys m → SortedKeys (Setting.allFinals.addNew m new) ∧
    ∀ p, mapFind p (Setting.allFinals.addNew m new) = (mapFind p m).or (mapFind p new) := by
  induction new with
  | nil => intro m hm; exact ⟨hm, fun p => by simp [Setting.allFinals.addNew, mapFind]⟩
  | cons e new ih =>
    intro m hm
    obtain ⟨h1, h2⟩ := ih _ (sorted_mapInsert hm e.1 e.2)
    refine ⟨h1, fun p => ?_⟩
    have e1 : Setting.allFinals.addNew m (e :: new) = Setting.allFinals.addNew (mapInsert e.1 e.2 m) new := rfl
    rw [e1, h2, mapInsert_eq_modify, mapFind_modify hm]
    obtain ⟨k, v⟩ := e
    simp only [mapFind]
    by_cases hk : p = k
    · subst hk
      cases mapFind p m <;> simp
    · rw [if_neg hk, if_neg (fun h => hk h.symm)]

theorem find_allFinals {σ : Setting W} (h : SortedKeys σ.standard) (p : Nat) : mapFind p σ.allFinals = σ.weight p := by
  unfold Setting.allFinals Setting.weight
  obtain ⟨h1, e1⟩ := addNew_spec σ.inconditional _ h
  obtain ⟨h2, e2⟩ := addNew_spec σ.postblank _ h1
  obtain ⟨-, e3⟩ := addNew_spec σ.preblank _ h2
  rw [e3, e2, e1]
  simp [Option.or_assoc]

theorem weight_isSome {σ : Setting W} (p : Nat) : (σ.weight p).isSome = true ↔
    (∃ w, (p, w) ∈ σ.standard) ∨ (∃ w, (p, w) ∈ σ.inconditional) ∨ (∃ w, (p, w) ∈ σ.postblank) ∨ ∃ w, (p, w) ∈ σ.preblank := by
  unfold Setting.weight
  simp only [Option.isSome_or, Bool.or_eq_true, mapFind_isSome_iff, List.mem_map, Prod.exists, exists_and_right, exists_eq_right]

theorem sound_entry {σ : Setting W} (hk : SortedKeys σ.standard) {xs : List Int} {st : List (Rec W)} (h : Sound σ xs st) :
    isFinal σ.allFinals st = true ↔ Entry σ xs := by
  rw [show isFinal σ.allFinals st = st.any fun r => (σ.weight r.node).isSome by
    unfold isFinal; simp only [find_allFinals hk]]
  rw [List.any_eq_true]
  simp only [weight_isSome]
  constructor
  · rintro ⟨r, h1, h2⟩
    obtain ⟨ls, h3, -⟩ := (h r).1 h1
    rcases h2 with ⟨w, h2⟩ | ⟨w, h2⟩ | ⟨w, h2⟩ | ⟨w, h2⟩
    · exact .inl ⟨ls, _, w, h3, h2⟩
    · exact .inr (.inl ⟨ls, _, w, h3, h2⟩)
    · exact .inr (.inr (.inl ⟨ls, _, w, h3, h2⟩))
    · exact .inr (.inr (.inr ⟨ls, _, w, h3, h2⟩))
  · have mk : ∀ ls p, Reads σ xs ls p → ∃ r ∈ st, r.node = p := fun ls p h1 =>
      ⟨⟨p, written ls, decide (inputs ls ≠ xs)⟩, (h _).2 ⟨ls, h1, rfl, rfl⟩, rfl⟩
    rintro (⟨ls, p, w, h1, h2⟩ | ⟨ls, p, w, h1, h2⟩ | ⟨ls, p, w, h1, h2⟩ | ⟨ls, p, w, h1, h2⟩) <;>
      (obtain ⟨r, h3, rfl⟩ := mk ls p h1)
    · exact ⟨r, h3, .inl ⟨w, h2⟩⟩
    · exact ⟨r, h3, .inr (.inl ⟨w, h2⟩)⟩
    · exact ⟨r, h3, .inr (.inr (.inl ⟨w, h2⟩))⟩
    · exact ⟨r, h3, .inr (.inr (.inr ⟨w, h2⟩))⟩

/-! ## The list of analyses -/

theorem upperFirst_capital (up : Int → Int) (h0 : up 0 = 0) (t : UString) : upperFirst up 0 t = .ok (capital up t) := by
  unfold upperFirst
  rw [if_neg (by omega)]
  match t with
  | [] => simp [h0, capital]
  | [u] =>
    by_cases h : u = 0x7e
    · subst h; simp [capital, h0]
    · simp [capital, h]
  | u :: v :: t =>
    by_cases h : u = 0x7e
    · subst h; simp [capital]
    · simp [capital, h]

theorem responses_ok [AddMonoid W] (up : Int → Int) (h0 : up 0 = 0) (finals : List (Nat × W)) (a : Alphabet) (name : Int → UString)
    (escaped : List Int) (uppercase firstupper : Bool) (st : List (Rec W)) (hn : ∀ r ∈ st, ∀ x ∈ r.seq, x.1 < 0 → a.tagText x.1 = .ok (name x.1))
    (hup : ∀ c, c < 0x110000 → up c < 0x110000) (hl : ∀ r ∈ st, ∀ x ∈ r.seq, x.1 < 0x110000) :
    responses up finals a escaped uppercase firstupper 0 st = .ok (st.filterMap fun r => (mapFind r.node finals).map fun w =>
      (let t := mapText name (if r.dirty && uppercase then up else id) escaped r.seq
       if r.dirty && firstupper then capital up t else t, w + (r.seq.map (·.2)).sum)) := by
  induction st with
  | nil => rfl
  | cons r st ih =>
    have ih := ih (fun r hr => hn r (by simp [hr])) (fun r hr => hl r (by simp [hr]))
    rw [responses, List.filterMap_cons]
    cases hf : mapFind r.node finals with
    | none => simpa using ih
    | some w =>
      simp only [ih, Option.map_some]
      rw [seqText_map up a name escaped _ r.seq (hn r (by simp)) hup (hl r (by simp))]
      simp only [Res.bind_ok, List.nil_append]
      split
      · rw [upperFirst_capital up h0]; rfl
      · rfl

theorem nFinalsLoop_all [Zero W] [LinearOrder W] (ma mc : Int) (l : List (UString × W)) (h1 : (l.length : Int) ≤ ma) (h2 : (l.length : Int) ≤ mc) :
    nFinalsLoop ma mc l = l := by
  induction l generalizing ma mc with
  | nil => rfl
  | cons x l ih =>
    simp only [List.length_cons, Nat.cast_add, Nat.cast_one] at h1 h2
    unfold nFinalsLoop
    rw [if_pos (by omega), ih _ _ (by omega) (by split <;> omega)]

theorem written_mem {g : Graph W} {q : Nat} {ls : List (Label W)} {p : Nat} (h : Path (Arc g) q ls p) {x : Int × W} (hx : x ∈ written ls) :
    ∃ q l p, Arc g q l p ∧ l.2.2.1 = x.1 := by
  unfold written at hx
  obtain ⟨l, hf, rfl⟩ := List.mem_map.1 hx
  have hl := (List.mem_filter.1 hf).1
  clear hx hf
  induction h with
  | nil => cases hl
  | cons h1 _ ih =>
    rcases List.mem_cons.1 hl with rfl | hl
    · exact ⟨_, _, _, h1, rfl⟩
    · exact ih hl

theorem filter_flags (σ : Setting W) (sf : UString) (h : sf ≠ []) :
    firstCase σ sf = .ok (firstUpper σ sf) ∧ wholeCase σ (firstUpper σ sf) sf = allUpper σ sf := by
  unfold firstCase wholeCase
  cases hd : σ.dictionaryCase with
  | true => simp [firstUpper, allUpper, hd]
  | false =>
    cases sf with
    | nil => exact absurd rfl h
    | cons u t =>
      have e : firstUpper σ (u :: t) = σ.chars.isUpper (u.toNat : Int) := by
        simp only [firstUpper, hd, List.head?_cons, Option.map_some]
        cases σ.chars.isUpper (u.toNat : Int) <;> rfl
      refine ⟨by rw [e]; rfl, ?_⟩
      unfold allUpper
      rw [List.getLast?_eq_some_getLast (by simp)]
      simp only [Option.map_some]
      cases firstUpper σ (u :: t) <;> cases decide ((u :: t).length > 1) <;> cases σ.chars.isUpper (((u :: t).getLast (by simp)).toNat : Int) <;> rfl

theorem filterFinals_ok [AddMonoid W] [LinearOrder W] {σ : Setting W} {name : Int → UString} (hr : Regular σ name) {xs : List Int} {st : List (Rec W)}
    (h : Sound σ xs st) (hs : st.length < 65536) (sf : UString) (hf : sf ≠ []) :
    ∃ lf, filterFinals σ st sf = .ok lf ∧ Lists σ name xs sf lf ∧ (lf = [] ↔ ¬ Entry σ xs) := by
  obtain ⟨f1, f2⟩ := filter_flags σ sf hf
  have hresp := responses_ok σ.chars.toUpper hr.upperZero σ.allFinals σ.alphabet name escapedCps (allUpper σ sf) (firstUpper σ sf) st
    (by
      intro r hr' x hx hneg
      obtain ⟨ls, h1, h2, -⟩ := (h r).1 hr'
      rw [h2] at hx
      obtain ⟨q, l, p, h3, h4⟩ := written_mem h1.1 hx
      have := (hr.names _ _ _ h3).2
      rw [h4] at this
      exact this hneg)
    hr.upperRange
    (by
      intro r hr' x hx
      obtain ⟨ls, h1, h2, -⟩ := (h r).1 hr'
      rw [h2] at hx
      obtain ⟨q, l, p, h3, h4⟩ := written_mem h1.1 hx
      rw [← h4]
      exact (hr.names _ _ _ h3).1)
  simp only [find_allFinals hr.standard] at hresp
  generalize he : (st.filterMap fun r => (σ.weight r.node).map fun w =>
      (let t := mapText name (if r.dirty && allUpper σ sf then σ.chars.toUpper else id) escapedCps r.seq
       if r.dirty && firstUpper σ sf then capital σ.chars.toUpper t else t, w + (r.seq.map (·.2)).sum)) = resp at hresp
  have hmem : ∀ t w, (t, w) ∈ resp ↔ Analysis σ name xs sf t w := by
    intro t w
    rw [← he, List.mem_filterMap]
    constructor
    · rintro ⟨r, h1, h2⟩
      obtain ⟨w0, h3, h4⟩ := Option.map_eq_some_iff.1 h2
      obtain ⟨ls, h5, h6, h7⟩ := (h r).1 h1
      simp only [Prod.mk.injEq] at h4
      refine ⟨ls, _, w0, h5, h3, by rw [← h4.2, h6], ?_⟩
      rw [← h4.1, h6, h7]
      rfl
    · rintro ⟨ls, p, w0, h1, h2, h3, h4⟩
      refine ⟨⟨p, written ls, decide (inputs ls ≠ xs)⟩, (h _).2 ⟨ls, h1, rfl, rfl⟩, ?_⟩
      rw [h2, h3, h4]
      rfl
  have hlen : resp.length ≤ st.length := by rw [← he]; exact List.length_filterMap_le _ _
  have hp := hr.sortPerm resp
  have hall : nFinalsLoop σ.maxAnalyses σ.maxWeightClasses (σ.sort resp) = σ.sort resp := by
    have := hr.manyAnalyses
    have := hr.manyClasses
    refine nFinalsLoop_all _ _ _ ?_ ?_ <;> (rw [hp.length_eq]; omega)
  obtain ⟨d, d1, d2, d3, d4, d5⟩ := C41_no_duplicates σ.showWeight (σ.sort resp)
  refine ⟨joinResults (dedup σ.showWeight [] (σ.sort resp)), ?_, ⟨d, ?_, d2, (hr.sortLe resp).sublist d1, ?_⟩, ?_⟩
  · unfold filterFinals
    simp only
    rw [f1]
    simp only [Res.bind_ok]
    rw [f2, hresp]
    simp only [Res.bind_ok]
    rw [hall]
  · rw [d5]
    unfold joinResults
    rw [List.flatMap_map]
  · intro t w
    constructor
    · intro hd
      obtain ⟨pre, post, e1, e2⟩ := d4 _ hd
      have hm : (t, w) ∈ σ.sort resp := d1.subset hd
      refine ⟨(hmem t w).1 (hp.mem_iff.1 hm), fun w' hw' => ?_⟩
      have hm' : (t, w') ∈ σ.sort resp := hp.mem_iff.2 ((hmem t w').2 hw')
      rw [e1, List.mem_append, List.mem_cons] at hm'
      have hle := hr.sortLe resp
      rw [e1, List.pairwise_append, List.pairwise_cons] at hle
      rcases hm' with hm' | hm' | hm'
      · exact absurd (List.mem_map.2 ⟨_, hm', rfl⟩) e2
      · rw [Prod.mk.injEq] at hm'; rw [hm'.2]
      · exact hle.2.1.1 _ hm'
    · rintro ⟨h1, h2⟩
      have hm : (t, w) ∈ σ.sort resp := hp.mem_iff.2 ((hmem t w).2 h1)
      have ht : t ∈ d.map (·.1) := (d3 t).2 (List.mem_map.2 ⟨_, hm, rfl⟩)
      obtain ⟨⟨t', w'⟩, hd, rfl⟩ := List.mem_map.1 ht
      have hw' := (hmem t' w').1 (hp.mem_iff.1 (d1.subset hd))
      obtain ⟨pre, post, e1, e2⟩ := d4 _ hd
      have hle := hr.sortLe resp
      rw [e1, List.pairwise_append, List.pairwise_cons] at hle
      rw [e1, List.mem_append, List.mem_cons] at hm
      have : w' ≤ w := by
        rcases hm with hm | hm | hm
        · exact absurd (List.mem_map.2 ⟨_, hm, rfl⟩) e2
        · rw [Prod.mk.injEq] at hm; rw [hm.2]
        · exact hle.2.1.1 _ hm
      rw [le_antisymm (h2 w' hw') this]
      exact hd
  · rw [d5]
    constructor
    · intro e hE
      rw [← sound_entry hr.standard h] at hE
      unfold isFinal at hE
      rw [List.any_eq_true] at hE
      obtain ⟨r, h1, h2⟩ := hE
      rw [find_allFinals hr.standard] at h2
      obtain ⟨w0, hw0⟩ := Option.isSome_iff_exists.1 h2
      obtain ⟨ls, h5, h6, h7⟩ := (h r).1 h1
      have hA : Analysis σ name xs sf _ _ := ⟨ls, _, w0, h5, hw0, rfl, rfl⟩
      have hm := hp.mem_iff.2 ((hmem _ _).2 hA)
      have ht := (d3 _).2 (List.mem_map.2 ⟨_, hm, rfl⟩)
      obtain ⟨x, hx, -⟩ := List.mem_map.1 ht
      have : d ≠ [] := List.ne_nil_of_mem hx
      cases d with
      | nil => exact this rfl
      | cons y d => simp [joinResults] at e
    · intro hE
      have : d = [] := by
        rw [List.eq_nil_iff_forall_not_mem]
        rintro ⟨t, w⟩ hd
        obtain ⟨ls, p, w0, h1, h2, -⟩ := (hmem t w).1 (hp.mem_iff.1 (d1.subset hd))
        apply hE
        rw [← sound_entry hr.standard h]
        unfold isFinal
        rw [List.any_eq_true]
        refine ⟨⟨p, written ls, decide (inputs ls ≠ xs)⟩, (h _).2 ⟨ls, h1, rfl, rfl⟩, ?_⟩
        rw [find_allFinals hr.standard, h2]; rfl
      rw [this]; rfl

end Verif.Proc
