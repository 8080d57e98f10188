import Verif.Transducer.Trie
import Verif.Transducer.DotStar
import Verif.Transducer.Minimal
import Verif.Transducer.Closure

/-! # Properties of transducer construction (C18-C26, C31) -/

namespace Verif.Fst

/-! ## Examples used below

Weights are integers and `0` is the epsilon symbol, as in the alphabet. -/

/-- `1 (2 | 3)` with two final states, one of them weighted. -/
def exA : Transducer Int :=
  { initial := 0, finals := [(2, 0), (3, 7)], transitions := [(0, [(1, (1, 0))]), (1, [(2, (2, 0)), (3, (3, 4))]), (2, []), (3, [])] }

/-- `4` with an epsilon cycle behind it. -/
def exB : Transducer Int :=
  { initial := 0, finals := [(1, 0)], transitions := [(0, [(4, (1, 0))]), (1, [(0, (2, 0))]), (2, [(0, (1, 0))])] }

theorem exA_wf : WF exA := wf_of_check (by decide)
theorem exB_wf : WF exB := wf_of_check (by decide)

/-! ## C18 -/

section
variable {W : Type} [LinearOrder W] [Zero W]

/-- Transducers obtained from an empty one by building operations. State arguments must be states; an operation
that terminates the process yields nothing. -/
inductive Built (ε : Int) : Transducer W → Prop where
  | empty : Built ε empty
  | newState {t : Transducer W} : Built ε t → Built ε (newState t).2
  | insertSingle {t : Transducer W} (a : Int) (s : Nat) (w : W) : Built ε t →
      Built ε (insertSingleTransduction a s w t).2
  | insertNew {t : Transducer W} (a : Int) (s : Nat) (w : W) : Built ε t → s < size t →
      Built ε (insertNewSingleTransduction a s w t).2
  | link {t t' : Transducer W} (s p : Nat) (a : Int) (w : W) : Built ε t → linkStates s p a w t = .ok t' → Built ε t'
  | setFinal {t : Transducer W} (p : Nat) (w : W) (v : Bool) : Built ε t → p < size t → Built ε (setFinal p w v t)
  | join {t t' : Transducer W} : Built ε t → joinFinals ε t = .ok t' → Built ε t'
  | optional {t t' : Transducer W} : Built ε t → optional ε t = .ok t' → Built ε t'
  | oneOrMore {t t' : Transducer W} : Built ε t → oneOrMore ε t = .ok t' → Built ε t'
  | zeroOrMore {t t' : Transducer W} : Built ε t → zeroOrMore ε t = .ok t' → Built ε t'
  | insert {t o t' o' : Transducer W} {s r : Nat} : Built ε t → Built ε o → s < size t →
      insertTransducer s o ε t = .ok (r, t', o') → Built ε t'
  | inserted {t o t' o' : Transducer W} {s r : Nat} : Built ε t → Built ε o → s < size t →
      insertTransducer s o ε t = .ok (r, t', o') → Built ε o'
  | union {t o t' o' : Transducer W} : Built ε t → Built ε o → unionWith o ε t = .ok (t', o') → Built ε t'
  | dotStar {t t' : Transducer W} (loopback : List Int) : Built ε t → appendDotStar loopback ε t = .ok t' → Built ε t'
  | reverse {t t' : Transducer W} : Built ε t → reverse ε t = .ok t' → Built ε t'
  | determinize {t t' : Transducer W} : Built ε t → determinize ε t = .ok t' → Built ε t'
  | minimize {t t' : Transducer W} : Built ε t → minimize ε t = .ok t' → Built ε t'

/-- Auxiliary: `joinFinals` that returns leaves one final state. -/
theorem join_inv {t t' : Transducer W} (h : WF t) {ε : Int} (hj : joinFinals ε t = .ok t') :
    WF t' ∧ ∃ f fw, t'.finals = [(f, fw)] := by
  by_cases hf : t.finals = []
  · rw [joinFinals_none ε hf] at hj; cases hj
  · obtain ⟨t1, f, fw, h1, h2, -, h4, -⟩ := joinFinals_spec h ε hf
    rw [hj] at h1; cases h1
    exact ⟨h2, f, fw, h4⟩

theorem insert_inv {t o t' o' : Transducer W} (h : WF t) (ho : WF o) {ε : Int} {s r : Nat} (hs : s < size t)
    (hi : insertTransducer s o ε t = .ok (r, t', o')) : WF t' ∧ WF o' ∧ r < size t' ∧ t'.finals = t.finals := by
  have hj : ∃ o1, joinFinals ε o = .ok o1 := by
    rw [insertTransducer, transitions_ne_nil ho, if_neg (by simp)] at hi
    obtain ⟨o1, h1, -⟩ := Res.bind_eq_ok.mp hi
    exact ⟨o1, h1⟩
  obtain ⟨o1, hj⟩ := hj
  obtain ⟨h1, f, fw, h2⟩ := join_inv ho hj
  obtain ⟨t1, k1, k2, k3, k4, k5, -⟩ := insertTransducer_spec h ho h1 ε hs hj h2
  rw [hi] at k1
  cases k1
  have := h1.finals_lt f fw (by simp [Final, h2])
  exact ⟨k2, h1, by omega, k5⟩

theorem reverse_inv {t t' : Transducer W} (h : WF t) {ε : Int} (hr : reverse ε t = .ok t') : WF t' := by
  have hj : ∃ t1, joinFinals ε t = .ok t1 := by
    obtain ⟨o1, h1, -⟩ := Res.bind_eq_ok.mp hr
    exact ⟨o1, h1⟩
  obtain ⟨t1, hj⟩ := hj
  obtain ⟨h1, f, fw, h2⟩ := join_inv h hj
  obtain ⟨t2, k1, k2, -⟩ := reverse_spec h1 ε hj h2
  rw [hr] at k1; cases k1
  exact k2

theorem determinize_inv {t t' : Transducer W} (h : WF t) {ε : Int} (hr : determinize ε t = .ok t') : WF t' := by
  obtain ⟨t1, Q, k1, k2⟩ := determinize_spec h ε
  rw [hr] at k1; cases k1
  exact k2.wf

theorem wrap_inv {t t' : Transducer W} (h : WF t) {ε : Int} {n : Nat} (hr : wrap ε t = .ok (n, t')) :
    ∃ t1 f fw, joinFinals ε t = .ok t1 ∧ WF t1 ∧ t1.finals = [(f, fw)] ∧ wrap ε t = wrap ε t1 := by
  have hj : ∃ t1, joinFinals ε t = .ok t1 := by
    obtain ⟨o1, h1, -⟩ := Res.bind_eq_ok.mp hr
    exact ⟨o1, h1⟩
  obtain ⟨t1, hj⟩ := hj
  obtain ⟨h1, f, fw, h2⟩ := join_inv h hj
  exact ⟨t1, f, fw, hj, h1, h2, wrap_join ε hj h2⟩

theorem optional_inv {t t' : Transducer W} (h : WF t) {ε : Int} (hr : optional ε t = .ok t') : WF t' := by
  obtain ⟨⟨n, tw⟩, h1, -⟩ := Res.bind_eq_ok.mp hr
  obtain ⟨t1, f, fw, -, h3, h4, h5⟩ := wrap_inv h h1
  obtain ⟨t2, k1, k2, -⟩ := optional_spec h3 ε h4
  rw [optional, h5] at hr
  rw [optional, hr] at k1; cases k1
  exact k2

theorem oneOrMore_inv {t t' : Transducer W} (h : WF t) {ε : Int} (hr : oneOrMore ε t = .ok t') : WF t' := by
  obtain ⟨⟨n, tw⟩, h1, -⟩ := Res.bind_eq_ok.mp hr
  obtain ⟨t1, f, fw, -, h3, h4, h5⟩ := wrap_inv h h1
  obtain ⟨t2, k1, k2, -⟩ := oneOrMore_spec h3 ε h4
  rw [oneOrMore, h5] at hr
  rw [oneOrMore, hr] at k1; cases k1
  exact k2

/-- **C18** Whatever the history of building operations, the initial state, all final states and all arc targets
exist and the states are numbered without gaps. -/
theorem C18_well_formed (ε : Int) {t : Transducer W} (h : Built ε t) : WF t := by
  induction h with
  | empty => exact wf_of_check (by rfl)
  | newState _ ih => exact newState_wf ih
  | @insertSingle t a s w _ ih =>
    unfold insertSingleTransduction
    split
    · next he =>
      have hs := (exists_iff ih s).mp he
      split
      · exact ih
      · have s1 := newState_size ih
        have f1 := newState_fst ih
        have := addArc_wf (s := s) (p := (newState t).1) (newState_wf ih) (by omega) a (by omega) w
        exact this
      · split
        · exact ih
        · split <;> exact ih
      · exact ih
    · exact ih
  | @insertNew t a s w _ hs ih =>
    have s1 := newState_size ih
    have f1 := newState_fst ih
    have := addArc_wf (s := s) (p := (newState t).1) (newState_wf ih) (by omega) a (by omega) w
    exact this
  | @link t t' s p a w _ hl ih =>
    unfold linkStates at hl
    split at hl
    · next he =>
      rw [Bool.and_eq_true, exists_iff ih, exists_iff ih] at he
      split at hl
      · cases hl; exact ih
      · cases hl; exact addArc_wf ih he.1 a he.2 w
    · cases hl
  | @setFinal t p w v _ hp ih =>
    unfold Verif.Fst.setFinal
    split
    · refine ⟨ih.keys, ih.rows, ih.initial_lt, ih.target_lt, sorted_mapInsert ih.finals_sorted _ _, ?_⟩
      intro x v hx
      rcases (mem_mapInsert ih.finals_sorted p w (x, v)).mp hx with ⟨hx, -⟩ | hx
      · cases hx; exact hp
      · exact ih.finals_lt _ _ hx
    · refine ⟨ih.keys, ih.rows, ih.initial_lt, ih.target_lt, sorted_mapErase ih.finals_sorted _, ?_⟩
      intro x v hx
      exact ih.finals_lt _ _ ((mem_mapErase _ _ _).mp hx).1
  | join _ hj ih => exact (join_inv ih hj).1
  | optional _ hj ih => exact optional_inv ih hj
  | oneOrMore _ hj ih => exact oneOrMore_inv ih hj
  | zeroOrMore _ hj ih =>
    obtain ⟨t1, h1, h2⟩ := Res.bind_eq_ok.mp hj
    exact optional_inv (oneOrMore_inv ih h1) h2
  | insert _ _ hs hi ih1 ih2 => exact (insert_inv ih1 ih2 hs hi).1
  | inserted _ _ hs hi ih1 ih2 => exact (insert_inv ih1 ih2 hs hi).2.1
  | union _ _ hu ih1 ih2 =>
    obtain ⟨⟨f, t1, o1⟩, h1, h2⟩ := Res.bind_eq_ok.mp hu
    cases h2
    obtain ⟨k1, k2, k3, k4⟩ := insert_inv ih1 ih2 ih1.initial_lt h1
    refine ⟨k1.keys, k1.rows, k1.initial_lt, k1.target_lt, sorted_mapInsert k1.finals_sorted _ _, ?_⟩
    intro x v hx
    rcases (mem_mapInsert k1.finals_sorted f 0 (x, v)).mp hx with ⟨hx, -⟩ | hx
    · cases hx; exact k3
    · exact k1.finals_lt _ _ hx
  | dotStar lb _ hd ih =>
    obtain ⟨t1, k1, k2, -⟩ := appendDotStar_spec lb ε ih
    rw [hd] at k1; cases k1
    exact k2
  | reverse _ hr ih => exact reverse_inv ih hr
  | determinize _ hr ih => exact determinize_inv ih hr
  | minimize _ hm ih =>
    unfold Verif.Fst.minimize at hm
    split at hm
    · cases hm; exact ih
    · obtain ⟨t1, h1, hm⟩ := Res.bind_eq_ok.mp hm
      obtain ⟨t2, h2, hm⟩ := Res.bind_eq_ok.mp hm
      obtain ⟨t3, h3, hm⟩ := Res.bind_eq_ok.mp hm
      exact determinize_inv (reverse_inv (determinize_inv (reverse_inv ih h1) h2) h3) hm

/-- **C18** The states made by `newState`, `insertNewSingleTransduction` and (when it makes one)
`insertSingleTransduction` did not exist before and no arc led to them. -/
theorem C18_new_states_fresh (ε : Int) {t : Transducer W} (h : Built ε t) :
    (exists_ t (newState t).1 = false ∧ exists_ (newState t).2 (newState t).1 = true ∧
      ∀ q l, ¬ Edge t q l (newState t).1) ∧
    (∀ a s w, (insertNewSingleTransduction a s w t).1 = (newState t).1) ∧
    (∀ a s w p, (insertSingleTransduction a s w t).1 = some p → p = (newState t).1 ∨ ∃ v, Edge t s (a, v) p) := by
  have hw := C18_well_formed ε h
  have f1 := newState_fst hw
  have s1 := newState_size hw
  refine ⟨⟨?_, ?_, ?_⟩, fun _ _ _ => rfl, ?_⟩
  · rw [f1, ← Bool.not_eq_true, exists_iff hw]; omega
  · rw [exists_iff (newState_wf hw)]; omega
  · rw [f1]; exact fun q l => no_edge_in hw (le_refl _) q l
  · intro a s w p hp
    have key : ∀ e : Nat × W, e ∈ equalRange a (row t s) → ∃ v, Edge t s (a, v) e.1 :=
      fun e hx => ⟨e.2, (mem_equalRange _ _ _ _).mp hx⟩
    unfold insertSingleTransduction at hp
    split at hp
    · split at hp
      · next p' v' hr => obtain rfl := Option.some.inj hp; exact .inr (key (_, v') (by rw [hr]; simp))
      · cases hp; exact .inl rfl
      · next p1 v1 p2 v2 hr =>
        split at hp
        · obtain rfl := Option.some.inj hp; exact .inr (key (_, v1) (by rw [hr]; simp))
        · split at hp
          · obtain rfl := Option.some.inj hp; exact .inr (key (_, v2) (by rw [hr]; simp))
          · cases hp
      · cases hp
    · cases hp

end

/-- A history with most operations. -/
example : ∃ t : Transducer Int, Built 0 t ∧ size t = 11 := by
  have h1 : Built 0 (insertSingleTransduction 5 0 (0 : Int) empty).2 := .insertSingle 5 0 0 .empty
  have h2 := Built.setFinal 1 (0 : Int) true h1 (by decide)
  have h3 := Built.oneOrMore (t' := _) h2 rfl
  have h4 := Built.union (t' := _) (o' := _) h3 h2 rfl
  have h5 := Built.zeroOrMore (t' := _) h4 rfl
  exact ⟨_, h5, by decide⟩

/-! ## C19 -/

/-- **C19** A word list inserted into an empty transducer is accepted exactly: every listed word, nothing else,
each with weight 0. -/
theorem C19_word_list {W : Type} [Zero W] [DecidableEq W] (ε : Int) (ws : List (List Int))
    (hw : ∀ w ∈ ws, ∀ a ∈ w, a ≠ ε) (w : List (Int × W)) :
    Lang ε (ws.foldl (fun t w => insertWord w t) (empty : Transducer W)) w ↔
      ∃ u ∈ ws, w = u.map (fun a => (a, 0)) :=
  (Trie.words ws hw).lang w

/-- Words with shared prefixes, a repeated word, a prefix of another word and the empty word. -/
example : ∀ w ∈ [[1, 2, 3], [1, 2], [], [1, 2, 4], [1, 2]], ∀ a ∈ w, a ≠ (0 : Int) := by decide

/-! ## C20 -/

section
variable {W : Type}

/-- **C20** `linkStates` refuses exactly when a state is missing. -/
theorem C20_refuses_iff (t : Transducer W) (s p : Nat) (a : Int) (w : W) :
    linkStates s p a w t = .exit ↔ (exists_ t s = false ∨ exists_ t p = false) := by
  unfold linkStates
  cases h1 : exists_ t s <;> cases h2 : exists_ t p <;> simp
  split <;> simp

/-- **C20** Otherwise it adds exactly the requested arc, unless there is one with the same symbol and target, and
changes nothing else; doing it twice is the same as once. -/
theorem C20_adds_exactly {t : Transducer W} (h : WF t) {s p : Nat} (hs : s < size t) (hp : p < size t) (a : Int) (w : W) :
    ∃ t', linkStates s p a w t = .ok t' ∧ t'.initial = t.initial ∧ t'.finals = t.finals ∧ size t' = size t ∧
      (∀ q l r, Edge t' q l r ↔ Edge t q l r ∨ (q = s ∧ l = (a, w) ∧ r = p ∧ ¬ ∃ v, Edge t s (a, v) p)) ∧
      (∀ v, linkStates s p a v t' = .ok t') := by
  have hl := linkStates_eq h hs hp a w
  by_cases ha : (equalRange a (row t s)).any (fun e => e.1 = p) = true
  · rw [if_pos ha] at hl
    have hex := (any_target _ _ _).mp ha
    refine ⟨t, hl, rfl, rfl, rfl, ?_, ?_⟩
    · intro q l r
      refine ⟨.inl, ?_⟩
      rintro (he | ⟨-, -, -, hn⟩)
      · exact he
      · exact absurd hex hn
    · intro v
      rw [linkStates_eq h hs hp, if_pos ha]
  · rw [if_neg ha] at hl
    have hnex : ¬ ∃ v, Edge t s (a, v) p := fun hx => ha ((any_target _ _ _).mpr hx)
    have hz := addArc_size h hs a p w
    refine ⟨_, hl, rfl, rfl, hz, ?_, ?_⟩
    · intro q l r
      rw [addArc_edge h]
      constructor
      · rintro (he | ⟨h1, h2, h3⟩)
        · exact .inl he
        · exact .inr ⟨h1, h2, h3, hnex⟩
      · rintro (he | ⟨h1, h2, h3, -⟩)
        · exact .inl he
        · exact .inr ⟨h1, h2, h3⟩
    · intro v
      rw [linkStates_eq (addArc_wf h hs a hp w) (by omega) (by omega), if_pos]
      rw [any_target]
      exact ⟨w, (addArc_edge h s a p w s (a, w) p).mpr (.inr ⟨rfl, rfl, rfl⟩)⟩

end

example : WF exA ∧ 2 < size exA ∧ linkStates 2 0 9 5 exA ≠ .ok exA ∧ linkStates 0 1 1 8 exA = .ok exA ∧
    linkStates 0 4 1 8 exA = .exit := ⟨exA_wf, by decide, by decide, by decide, by decide⟩

/-! ## C21, C22 -/

/-- **C21** `closure(state, tags)` gives, in increasing order, exactly the states that can be reached along arcs
labelled with the tags. Termination is part of the statement: the model's loop counter never runs out. -/
theorem C21_closure {W : Type} (t : Transducer W) (state : Nat) (tags : List Int) :
    (closure t state tags).Pairwise (· < ·) ∧
    ∀ p, p ∈ closure t state tags ↔ ∃ ls, Path (fun q l r => Edge t q l r ∧ l.1 ∈ tags) state ls p :=
  closure_spec t state tags

example : closure exB 0 [4, 0] = [0, 1, 2] := by decide

/-- **C22** `closure_all` gives for every state, in increasing order, exactly the states that can be reached
along weightless epsilon arcs. -/
theorem C22_closure_all {W : Type} [DecidableEq W] [Zero W] {t : Transducer W} (h : WF t) (ε : Int) :
    ∃ ret, closureAll t ε = .ok ret ∧ ret.length = size t ∧
      ∀ i < size t, (ret.getD i []).Pairwise (· < ·) ∧
        ∀ p, p ∈ ret.getD i [] ↔ ∃ ls, Path (fun q l r => Edge t q l r ∧ l = (ε, 0)) i ls p :=
  closureAll_spec h ε

example : WF exB ∧ closureAll exB 0 = .ok [[0], [1, 2], [1, 2]] := ⟨exB_wf, by decide⟩

/-! ## C23 -/

section
variable {W : Type} [Zero W] [DecidableEq W]

/-- **C23** `joinFinals` leaves one final state and the same weighted language, or terminates the program when
there is no final state. -/
theorem C23_join_finals {t : Transducer W} (h : WF t) (ε : Int) :
    (joinFinals ε t = .exit ↔ t.finals = []) ∧
    (t.finals ≠ [] → ∃ t' f fw, joinFinals ε t = .ok t' ∧ WF t' ∧ t'.finals = [(f, fw)] ∧
      ∀ w, Lang ε t' w ↔ Lang ε t w) := by
  refine ⟨⟨fun hx => ?_, joinFinals_none ε⟩, fun hf => ?_⟩
  · by_contra hf
    obtain ⟨t', -, -, h1, -⟩ := joinFinals_spec h ε hf
    rw [hx] at h1; cases h1
  · obtain ⟨t', f, fw, h1, h2, h3, h4, -, -, -, h8⟩ := joinFinals_spec h ε hf
    refine ⟨t', f, fw, h1, h2, h4, fun w => ?_⟩
    rw [Lang, h3, h8 _ h.initial_lt, Lang]

/-- **C23** In terms of strings and total weights. -/
theorem C23_join_finals_accepts {W : Type} [AddMonoid W] [DecidableEq W] {t t' : Transducer W} (h : WF t) (ε : Int)
    (hj : joinFinals ε t = .ok t') (s : List Int) (x : W) : Accepts ε t' s x ↔ Accepts ε t s x := by
  have hf : t.finals ≠ [] := fun hx => by rw [joinFinals_none ε hx] at hj; cases hj
  obtain ⟨t1, -, -, h1, -, -, h4⟩ := (C23_join_finals h ε).2 hf
  rw [hj] at h1; cases h1
  exact accepts_congr h4 s x

example : WF exA ∧ exA.finals.length = 2 := ⟨exA_wf, rfl⟩

/-! ## C24 -/

/-- **C24** `optional` adds the empty word. -/
theorem C24_optional {t : Transducer W} (h : WF t) (ε : Int) (hf : t.finals ≠ []) :
    ∃ t', optional ε t = .ok t' ∧ WF t' ∧ ∀ w, Lang ε t' w ↔ w = [] ∨ Lang ε t w := by
  obtain ⟨t1, f, fw, h1, h2, h3, h4, -, -, -, h8⟩ := joinFinals_spec h ε hf
  obtain ⟨t', k1, k2, k3, k4, k5, k6⟩ := optional_spec h2 ε h4
  refine ⟨t', by rw [optional, wrap_join ε h1 h4]; exact k1, k2, fun w => ?_⟩
  rw [optional_lang h2 ε h4 k4 k5 k6, Lang, h3, h8 _ h.initial_lt, Lang]

/-- **C24** `oneOrMore` accepts the concatenations of one or more words. -/
theorem C24_one_or_more {t : Transducer W} (h : WF t) (ε : Int) (hf : t.finals ≠ []) :
    ∃ t', oneOrMore ε t = .ok t' ∧ WF t' ∧ t'.finals ≠ [] ∧ ∀ w, Lang ε t' w ↔
      ∃ ws : List (List (Int × W)), ws ≠ [] ∧ (∀ u ∈ ws, Lang ε t u) ∧ w = ws.flatten := by
  obtain ⟨t1, f, fw, h1, h2, h3, h4, -, -, -, h8⟩ := joinFinals_spec h ε hf
  obtain ⟨t', k1, k2, k3, k4, k5, k6⟩ := oneOrMore_spec h2 ε h4
  refine ⟨t', by rw [oneOrMore, wrap_join ε h1 h4]; exact k1, k2, by simp [k5], fun w => ?_⟩
  rw [oneOrMore_lang h2 ε h4 k4 k5 k6]
  simp only [Lang, h3, h8 _ h.initial_lt]

/-- **C24** `zeroOrMore` accepts the concatenations of zero or more words. -/
theorem C24_zero_or_more {t : Transducer W} (h : WF t) (ε : Int) (hf : t.finals ≠ []) :
    ∃ t', zeroOrMore ε t = .ok t' ∧ WF t' ∧ ∀ w, Lang ε t' w ↔
      ∃ ws : List (List (Int × W)), (∀ u ∈ ws, Lang ε t u) ∧ w = ws.flatten := by
  obtain ⟨t1, h1, h2, h3, h4⟩ := C24_one_or_more h ε hf
  obtain ⟨t', k1, k2, k3⟩ := C24_optional h2 ε h3
  refine ⟨t', by rw [zeroOrMore, h1]; exact k1, k2, fun w => ?_⟩
  rw [k3, h4]
  constructor
  · rintro (rfl | ⟨ws, -, h5, h6⟩)
    · exact ⟨[], by simp, rfl⟩
    · exact ⟨ws, h5, h6⟩
  · rintro ⟨ws, h5, h6⟩
    cases ws with
    | nil => exact .inl h6
    | cons u ws => exact .inr ⟨u :: ws, by simp, h5, h6⟩

end

example : WF exA ∧ exA.finals ≠ [] ∧ Lang 0 exA [(1, 0), (3, 4), (0, 7)] :=
  ⟨exA_wf, by decide, lang_of_check [(1, 0), (3, 4)] 7 (by decide) (by decide)⟩

/-! ## C25 -/

section
variable {W : Type} [Zero W] [DecidableEq W]

/-- **C25**, without the weight of a single final state of the inserted transducer (see `C25_insert_false`).
`insertTransducer(s, o)` returns a state `r`; from an old state, `r` is reached exactly by a path to `s` followed by
a word of `o`; between old states nothing changes; `r` is new and has arcs only to new states. -/
theorem C25_insert_partial {t o : Transducer W} (h : WF t) (ho : WF o) (ε : Int) {s : Nat} (hs : s < size t)
    (hf : o.finals ≠ []) (hw : NoLoneWeight o) :
    ∃ r t' o', insertTransducer s o ε t = .ok (r, t', o') ∧ WF t' ∧ size t ≤ r ∧ r < size t' ∧
      t'.initial = t.initial ∧ t'.finals = t.finals ∧ (∀ w, Lang ε o' w ↔ Lang ε o w) ∧
      (∀ q < size t, ∀ w, (∃ ls, Path (Edge t') q ls r ∧ w = visible ε ls) ↔
        ∃ ls u, Path (Edge t) q ls s ∧ Lang ε o u ∧ w = visible ε ls ++ u) ∧
      (∀ q p, q < size t → p < size t → ∀ ls, Path (Edge t') q ls p ↔ Path (Edge t) q ls p) ∧
      (∀ l p, Edge t' r l p → size t ≤ p) := by
  obtain ⟨o', f, h1, h2, h3, h4, h5, h6⟩ := joinFinals_zero ho ε hf hw
  obtain ⟨t', k1, k2, k3, k4, k5, k6⟩ := insertTransducer_spec h ho h2 ε hs h1 h4
  obtain ⟨p1, p2⟩ := insert_path h hs k6
  have hflt := h2.finals_lt f 0 (by simp [Final, h4])
  have hL : ∀ w, Lang ε o w ↔ ∃ ls, Path (Edge o') o'.initial ls f ∧ w = visible ε ls := by
    intro w
    rw [Lang, ← h6 _ ho.initial_lt, ← h3, langFrom_zero h4]
  refine ⟨size t + f, t', o', k1, k2, by omega, by omega, k4, k5, ?_, ?_, ?_, ?_⟩
  · intro w; rw [hL, Lang, langFrom_zero h4]
  · intro q hq w
    simp only [p2 q _ _ hq, hL]
    constructor
    · rintro ⟨ls, (⟨hx, -⟩ | ⟨xs, ys, p0, hp0, hx, hy, rfl⟩), rfl⟩
      · omega
      · have : p0 = f := by omega
        subst this
        exact ⟨xs, visible ε ys, hx, ⟨ys, hy, rfl⟩, by rw [visible_append, visible_eps]⟩
    · rintro ⟨xs, u, hx, ⟨ys, hy, rfl⟩, rfl⟩
      exact ⟨xs ++ (ε, 0) :: ys, .inr ⟨xs, ys, f, rfl, hx, hy, rfl⟩, by rw [visible_append, visible_eps]⟩
  · intro q p hq hp ls
    rw [p2 q ls p hq]
    constructor
    · rintro (⟨-, hx⟩ | ⟨xs, ys, p0, hp0, -⟩)
      · exact hx
      · omega
    · intro hx; exact .inl ⟨hp, hx⟩
  · intro l p he
    have := (p1 f [l] p).mp (Path.single he)
    obtain ⟨p0, rfl, -⟩ := this
    omega

end

example : WF exA ∧ WF exB ∧ 1 < size exA ∧ exB.finals ≠ [] ∧ NoLoneWeight exB :=
  ⟨exA_wf, exB_wf, by decide, by decide, by intro p w h; simp [exB] at h; exact h.2.symm⟩

/-- `4` with final weight 5. -/
def exLone : Transducer Int :=
  { initial := 0, finals := [(1, 5)], transitions := [(0, [(4, (1, 0))]), (1, [])] }

/-- **C25** The full claim is false: the weight of a single final state is lost. Inserting `exLone`, which accepts
`4` with weight 5 only, into an empty transducer makes the returned state reachable with `4` and weight 0. -/
theorem C25_insert_false :
    ∃ t o : Transducer Int, WF t ∧ WF o ∧ ∃ r t' o', insertTransducer t.initial o 0 t = .ok (r, t', o') ∧
      (∃ ls, Path (Edge t') t.initial ls r ∧ visible 0 ls = [(4, 0)]) ∧
      ¬ ∃ ls u, Path (Edge t) t.initial ls t.initial ∧ Lang 0 o u ∧ [(4, 0)] = visible 0 ls ++ u := by
  refine ⟨empty, exLone, wf_of_check (by decide), wf_of_check (by decide), _, _, _, rfl, ⟨[(0, 0), (4, 0)], ?_, by decide⟩, ?_⟩
  · refine .cons (r := 1) (by unfold Edge; decide) (.cons (r := 2) (by unfold Edge; decide) (.nil _))
  · rintro ⟨ls, u, -, hu, hw⟩
    have hs : u = [(4, 0), (0, 5)] := by
      have := langFrom_sub (t := exLone) (ε := 0) (q := 0)
        (fun q w => (q = 0 → w = [(4, 0), (0, 5)]) ∧ (q = 1 → w = [(0, 5)])) (by
          intro p fw hf
          simp only [Final, exLone, List.mem_singleton, Prod.mk.injEq] at hf
          obtain ⟨rfl, rfl⟩ := hf
          decide) (by
          intro q l p w he hA
          rw [edge_iff_arcs (by decide)] at he
          obtain ⟨a, v⟩ := l
          simp only [arcsOf, exLone, List.flatMap_cons, List.map_cons, List.map_nil, List.flatMap_nil, List.append_nil,
            List.mem_singleton, Prod.mk.injEq] at he
          obtain ⟨rfl, rfl, rfl, rfl⟩ := he
          obtain ⟨-, h1⟩ := hA
          rw [h1 rfl]
          decide) hu
      exact this.1 rfl
    subst hs
    have := congrArg List.length hw
    simp at this

/-! ## C26 -/

section
variable {W : Type} [Zero W] [DecidableEq W]

/-- What `unionWith` accepts in general: the words of the receiver, and words of the other transducer preceded by
anything the receiver reads from its initial state back to its initial state. -/
theorem C26_union_exact {t o : Transducer W} (h : WF t) (ho : WF o) (ε : Int) (hf : o.finals ≠ []) (hw : NoLoneWeight o) :
    ∃ t' o', unionWith o ε t = .ok (t', o') ∧ WF t' ∧ (∀ w, Lang ε o' w ↔ Lang ε o w) ∧
      ∀ w, Lang ε t' w ↔ Lang ε t w ∨
        ∃ ls u, Path (Edge t) t.initial ls t.initial ∧ Lang ε o u ∧ w = visible ε ls ++ u := by
  obtain ⟨r, t', o', h1, h2, h3, h4, h5, h6, h7, h8, h9, -⟩ := C25_insert_partial h ho ε h.initial_lt hf hw
  have hs : SortedKeys t'.finals := h2.finals_sorted
  have hm := mem_mapInsert hs r (0 : W)
  have hr : r ∉ t'.finals.map (·.1) := by
    intro hx
    obtain ⟨⟨p, v⟩, hp, rfl⟩ := List.mem_map.mp hx
    rw [h6] at hp
    have := h.finals_lt p v hp
    simp only at h3
    omega
  refine ⟨{ t' with finals := mapInsert r 0 t'.finals }, o', by rw [unionWith, h1]; rfl, ?_, h7, ?_⟩
  · refine ⟨h2.keys, h2.rows, h2.initial_lt, h2.target_lt, sorted_mapInsert hs _ _, ?_⟩
    intro x v hx
    rcases (hm (x, v)).mp hx with ⟨hx, -⟩ | hx
    · cases hx; exact h4
    · exact h2.finals_lt _ _ hx
  · intro w
    rw [← h8 _ h.initial_lt]
    constructor
    · rintro ⟨ls, p, fw, hp, hfin, rfl⟩
      change Path (Edge t') t'.initial ls p at hp
      rw [h5] at hp
      rcases (hm (p, fw)).mp hfin with ⟨hx, -⟩ | hx
      · cases hx; exact .inr ⟨ls, hp, visible_append_eps _ _⟩
      · rw [h6] at hx
        have hlt := h.finals_lt p fw hx
        exact .inl ⟨ls, p, fw, (h9 _ _ h.initial_lt hlt _).mp hp, hx, rfl⟩
    · rintro (⟨ls, p, fw, hp, hfin, rfl⟩ | ⟨ls, hp, rfl⟩)
      · refine ⟨ls, p, fw, ?_, (hm _).mpr (.inr (by rw [h6]; exact hfin)), rfl⟩
        change Path (Edge t') t'.initial ls p
        rw [h5]
        exact (h9 _ _ h.initial_lt (h.finals_lt _ _ hfin) _).mpr hp
      · refine ⟨ls, r, 0, ?_, (hm _).mpr (.inl ⟨rfl, hr⟩), (visible_append_eps _ _).symm⟩
        change Path (Edge t') t'.initial ls r
        rw [h5]; exact hp

/-- **C26**, for a receiver without arcs into its initial state (see `C26_union_false`) and an argument without a
lone weighted final state: `unionWith` accepts the union. -/
theorem C26_union_partial {t o : Transducer W} (h : WF t) (ho : WF o) (ε : Int) (hf : o.finals ≠ []) (hw : NoLoneWeight o)
    (hin : ∀ q l, ¬ Edge t q l t.initial) :
    ∃ t' o', unionWith o ε t = .ok (t', o') ∧ WF t' ∧ (∀ w, Lang ε o' w ↔ Lang ε o w) ∧
      ∀ w, Lang ε t' w ↔ Lang ε t w ∨ Lang ε o w := by
  obtain ⟨t', o', h1, h2, h3, h4⟩ := C26_union_exact h ho ε hf hw
  refine ⟨t', o', h1, h2, h3, fun w => ?_⟩
  rw [h4]
  refine or_congr Iff.rfl ⟨?_, ?_⟩
  · rintro ⟨ls, u, hp, hu, rfl⟩
    rcases nil_or_snoc ls with rfl | ⟨init, last, rfl⟩
    · exact hu
    · obtain ⟨y, -, hlast⟩ := hp.split
      obtain ⟨z, he, hz⟩ := path_cons_iff.mp hlast
      have := path_nil_iff.mp hz
      subst this
      exact absurd he (hin _ _)
  · intro hu
    exact ⟨[], w, .nil _, hu, rfl⟩

omit [DecidableEq W] in
/-- **C26** With nothing to add, `unionWith` terminates the program. -/
theorem C26_union_exit {t o : Transducer W} (ho : WF o) (ε : Int) (hf : o.finals = []) : unionWith o ε t = .exit := by
  rw [unionWith, insertTransducer, transitions_ne_nil ho, if_neg (by simp), joinFinals_none ε hf]
  rfl

end

example : WF exA ∧ WF exB ∧ exB.finals ≠ [] ∧ NoLoneWeight exB ∧ ∀ q l, ¬ Edge exA q l exA.initial := by
  refine ⟨exA_wf, exB_wf, by decide, by intro p w h; simp [exB] at h; exact h.2.symm, ?_⟩
  intro q l he
  rw [edge_iff_arcs (by decide)] at he
  simp [arcsOf, exA] at he

/-- `1*`. -/
def exStar : Transducer Int := { initial := 0, finals := [(0, 0)], transitions := [(0, [(1, (0, 0))])] }

/-- **C26** In general the claim is false: the union of `1*` with `4` also accepts `1 4`. -/
theorem C26_union_false :
    ∃ t o : Transducer Int, WF t ∧ WF o ∧ NoLoneWeight o ∧ ∃ t' o', unionWith o 0 t = .ok (t', o') ∧
      ∃ w, Lang 0 t' w ∧ ¬ Lang 0 t w ∧ ¬ Lang 0 o w := by
  have hB : NoLoneWeight exB := by intro p w h; simp [exB] at h; exact h.2.symm
  obtain ⟨t', o', h1, -, -, h4⟩ := C26_union_exact (t := exStar) (o := exB) (wf_of_check (by decide)) exB_wf 0 (by decide) hB
  refine ⟨exStar, exB, wf_of_check (by decide), exB_wf, hB, t', o', h1, [(1, 0), (4, 0)], ?_, ?_, ?_⟩
  · rw [h4]
    refine .inr ⟨[(1, 0)], [(4, 0)], .cons (r := 0) (by unfold Edge; decide) (.nil _), ?_, by decide⟩
    exact lang_of_check [(4, 0)] 0 (by decide) (by decide)
  · intro h
    have := langFrom_sub (t := exStar) (ε := 0) (q := 0) (fun _ w => ∀ l ∈ w, l = (1, 0)) (by
        intro p fw hf
        simp only [Final, exStar, List.mem_singleton, Prod.mk.injEq] at hf
        obtain ⟨rfl, rfl⟩ := hf
        decide) (by
        intro q l p w he hA
        rw [edge_iff_arcs (by decide)] at he
        obtain ⟨a, v⟩ := l
        simp only [arcsOf, exStar, List.flatMap_cons, List.map_cons, List.map_nil, List.flatMap_nil, List.append_nil,
            List.mem_singleton, Prod.mk.injEq] at he
        obtain ⟨rfl, rfl, rfl, rfl⟩ := he
        intro l hl
        simp only [visible, List.filter_cons, List.filter_nil, List.mem_append] at hl
        rcases hl with hl | hl
        · simpa using hl
        · exact hA l hl) h
    exact absurd (this (4, 0) (by simp)) (by decide)
  · intro h
    have := langFrom_sub (t := exB) (ε := 0) (q := 0) (fun _ w => ∀ l ∈ w, l = (4, 0)) (by
        intro p fw hf
        simp only [Final, exB, List.mem_singleton, Prod.mk.injEq] at hf
        obtain ⟨rfl, rfl⟩ := hf
        decide) (by
        intro q l p w he hA
        rw [edge_iff_arcs (by decide)] at he
        obtain ⟨a, v⟩ := l
        simp only [arcsOf, exB, List.flatMap_cons, List.map_cons, List.map_nil, List.flatMap_nil, List.append_nil,
            List.mem_cons, List.cons_append, List.nil_append, List.not_mem_nil, or_false, Prod.mk.injEq] at he
        intro l hl
        simp only [List.mem_append] at hl
        rcases hl with hl | hl
        · rcases he with ⟨rfl, rfl, rfl, rfl⟩ | ⟨rfl, rfl, rfl, rfl⟩ | ⟨rfl, rfl, rfl, rfl⟩ <;>
            simp_all [visible]
        · exact hA l hl) h
    exact absurd (this (1, 0) (by simp)) (by decide)

/-! ## C31 -/

section
variable {W : Type} [Zero W] [DecidableEq W]

/-- **C31**, when no arc leaves a final state (see `C31_dot_star_false`): `appendDotStar` accepts exactly the old
words followed by any sequence of the given symbols other than epsilon. Each appended symbol carries the weight of
the final state at which it is appended. -/
theorem C31_dot_star_partial (loopback : List Int) (ε : Int) {t : Transducer W} (h : WF t)
    (hout : ∀ p w l q, Final t p w → ¬ Edge t p l q) :
    ∃ t', appendDotStar loopback ε t = .ok t' ∧ WF t' ∧ ∀ w, Lang ε t' w ↔
      ∃ ls p fw, ∃ syms : List Int, Path (Edge t) t.initial ls p ∧ Final t p fw ∧
        (∀ s ∈ syms, s ∈ loopback ∧ s ≠ ε) ∧ w = visible ε (ls ++ syms.map (fun s => (s, fw)) ++ [(ε, fw)]) := by
  obtain ⟨t', h1, h2, -⟩ := appendDotStar_spec loopback ε h
  exact ⟨t', h1, h2, appendDotStar_lang loopback ε h hout h1⟩

/-- **C31** The weightless case, as used by the compilers: words of the language followed by weightless symbols. -/
theorem C31_dot_star_weightless_partial (loopback : List Int) (ε : Int) {t : Transducer W} (h : WF t)
    (hout : ∀ p w l q, Final t p w → ¬ Edge t p l q) (hz : ∀ p w, Final t p w → w = 0) :
    ∃ t', appendDotStar loopback ε t = .ok t' ∧ WF t' ∧ ∀ w, Lang ε t' w ↔
      ∃ u, ∃ syms : List Int, Lang ε t u ∧ (∀ s ∈ syms, s ∈ loopback ∧ s ≠ ε) ∧ w = u ++ syms.map (fun s => (s, 0)) := by
  obtain ⟨t', h1, h2, h3⟩ := C31_dot_star_partial loopback ε h hout
  refine ⟨t', h1, h2, fun w => ?_⟩
  have hvis : ∀ syms : List Int, (∀ s ∈ syms, s ∈ loopback ∧ s ≠ ε) →
      visible ε (syms.map (fun s => (s, (0 : W)))) = syms.map (fun s => (s, 0)) := by
    intro syms hs
    rw [visible, List.filter_eq_self]
    intro l hl
    obtain ⟨s, hs', rfl⟩ := List.mem_map.mp hl
    have := (hs s hs').2
    simpa using this
  rw [h3]
  constructor
  · rintro ⟨ls, p, fw, syms, hp, hf, hs, rfl⟩
    have := hz p fw hf
    subst this
    refine ⟨visible ε (ls ++ [(ε, 0)]), syms, ⟨ls, p, 0, hp, hf, rfl⟩, hs, ?_⟩
    rw [visible_append_eps, visible_append_eps, visible_append, hvis syms hs]
  · rintro ⟨u, syms, ⟨ls, p, fw, hp, hf, rfl⟩, hs, rfl⟩
    have := hz p fw hf
    subst this
    refine ⟨ls, p, 0, syms, hp, hf, hs, ?_⟩
    rw [visible_append_eps, visible_append_eps, visible_append, hvis syms hs]

end

example : WF exA ∧ ∀ p w l q, Final exA p w → ¬ Edge exA p l q := by
  refine ⟨exA_wf, ?_⟩
  intro p w l q hf he
  rw [edge_iff_arcs (by decide)] at he
  simp [arcsOf, exA, Final] at he hf
  omega

/-- `1` or `1 2`. -/
def exTwo : Transducer Int :=
  { initial := 0, finals := [(1, 0), (2, 0)], transitions := [(0, [(1, (1, 0))]), (1, [(2, (2, 0))]), (2, [])] }

/-- **C31** In general the claim is false: with the loop symbol 3, `1 | 1 2` becomes a transducer that accepts
`1 3 2`. -/
theorem C31_dot_star_false :
    ∃ t : Transducer Int, WF t ∧ ∃ t', appendDotStar [3] 0 t = .ok t' ∧ ∃ w, Lang 0 t' w ∧
      ¬ ∃ u, ∃ syms : List Int, Lang 0 t u ∧ (∀ s ∈ syms, s ∈ [3] ∧ s ≠ 0) ∧ w = u ++ syms.map (fun s => (s, 0)) := by
  refine ⟨exTwo, wf_of_check (by decide), _, rfl, [(1, 0), (3, 0), (2, 0)],
    lang_of_check [(1, 0), (3, 0), (2, 0)] 0 (by decide) (by decide), ?_⟩
  rintro ⟨u, syms, hu, hs, hw⟩
  have hno : ∀ l ∈ u, l.1 ≠ 3 := by
    refine langFrom_sub (t := exTwo) (ε := 0) (q := 0) (fun _ w => ∀ l ∈ w, l.1 ≠ 3) ?_ ?_ hu
    · intro p fw hf
      simp only [Final, exTwo, List.mem_cons, List.not_mem_nil, or_false, Prod.mk.injEq] at hf
      rcases hf with ⟨rfl, rfl⟩ | ⟨rfl, rfl⟩ <;> decide
    · intro q l p w he hA
      rw [edge_iff_arcs (by decide)] at he
      obtain ⟨a, v⟩ := l
      simp only [arcsOf, exTwo, List.flatMap_cons, List.map_cons, List.map_nil, List.flatMap_nil, List.append_nil,
          List.mem_cons, List.cons_append, List.nil_append, List.not_mem_nil, or_false, Prod.mk.injEq] at he
      intro l hl
      simp only [List.mem_append] at hl
      rcases hl with hl | hl
      · rcases he with ⟨rfl, rfl, rfl, rfl⟩ | ⟨rfl, rfl, rfl, rfl⟩ <;> simp [visible] at hl <;> rw [hl] <;> decide
      · exact hA l hl
  -- the last symbol is 2, so nothing was appended, but then 3 is in the word itself
  rcases nil_or_snoc syms with rfl | ⟨ss, s, rfl⟩
  · simp only [List.map_nil, List.append_nil] at hw
    exact hno (3, 0) (by rw [← hw]; simp) rfl
  · have h3 : s = 3 := by have := (hs s (by simp)).1; simpa using this
    subst h3
    rw [List.map_append, ← List.append_assoc] at hw
    have := congrArg List.getLast? hw
    simp at this

end Verif.Fst
