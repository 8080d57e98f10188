import Verif.Product.Relate

/-! # The whole of `compose` -/

namespace Verif.Product

open Verif.Fst Verif.Alphabet

variable {W : Type}

/-! ## Final states -/

/-- The final weight of a pair of states. -/
def finalOf [Add W] [Zero W] (f g : Transducer W) (anywhere : Bool) (n : Two) : Option W :=
  match mapFind (ofLex n).1 f.finals, mapFind (ofLex n).2 g.finals with
  | some w, some v => some (w + v)
  | some w, none => if anywhere ∧ g.initial = (ofLex n).2 then some (w + 0) else none
  | none, _ => none

/-- The states get their final weights one after the other. -/
def setAll {S : Type} (F : S → Option W) : List (S × Nat) → Transducer W → Transducer W
  | [], t => t
  | (n, i) :: ids, t => setAll F ids (match F n with
    | some w => setFinal i w true t
    | none => t)

theorem composeFinals_eq [Add W] [Zero W] (f g : Transducer W) (anywhere : Bool) (ids : List (Two × Nat)) (t : Transducer W) :
    composeFinals f g anywhere ids t = setAll (finalOf f g anywhere) ids t := by
  induction ids generalizing t with
  | nil => rfl
  | cons e ids ih =>
    obtain ⟨n, i⟩ := e
    rw [composeFinals, setAll, ih]
    congr 1
    unfold finalOf
    cases mapFind (ofLex n).1 f.finals with
    | none => rfl
    | some w =>
      cases mapFind (ofLex n).2 g.finals with
      | none => simp only []; split <;> rfl
      | some v => rfl

theorem setAll_spec {S : Type} (F : S → Option W) (ids : List (S × Nat)) (t : Transducer W) (ht : WF t) (hlt : ∀ e ∈ ids, e.2 < Fst.size t)
    (hnd : (ids.map (·.2)).Nodup) (hno : ∀ e ∈ ids, ∀ v, ¬ Final t e.2 v) :
    WF (setAll F ids t) ∧ (setAll F ids t).initial = t.initial ∧ (setAll F ids t).transitions = t.transitions ∧
      ∀ i v, Final (setAll F ids t) i v ↔ Final t i v ∨ ∃ n, (n, i) ∈ ids ∧ F n = some v := by
  induction ids generalizing t with
  | nil => exact ⟨ht, rfl, rfl, fun i v => by simp [setAll]⟩
  | cons e ids ih =>
    obtain ⟨n, i⟩ := e
    rw [setAll]
    rw [List.map_cons, List.nodup_cons] at hnd
    cases hF : F n with
    | none =>
      obtain ⟨h1, h2, h3, h4⟩ := ih t ht (fun e he => hlt e (List.mem_cons_of_mem _ he)) hnd.2 (fun e he => hno e (List.mem_cons_of_mem _ he))
      refine ⟨h1, h2, h3, fun j v => ?_⟩
      rw [h4]
      refine or_congr_right ?_
      constructor
      · rintro ⟨m, g1, g2⟩; exact ⟨m, List.mem_cons_of_mem _ g1, g2⟩
      · rintro ⟨m, g1, g2⟩
        rcases List.mem_cons.1 g1 with g1 | g1
        · cases g1; rw [hF] at g2; cases g2
        · exact ⟨m, g1, g2⟩
    | some w =>
      have hi : i < Fst.size t := hlt _ (List.mem_cons_self ..)
      have hwf : WF (setFinal i w true t) := by
        refine ⟨ht.keys, ht.rows, ht.initial_lt, ht.target_lt, sorted_mapInsert ht.finals_sorted _ _, ?_⟩
        intro x v hx
        rcases (mem_mapInsert ht.finals_sorted i w (x, v)).mp hx with ⟨hx, -⟩ | hx
        · cases hx; exact hi
        · exact ht.finals_lt _ _ hx
      have hfin : ∀ j v, Final (setFinal i w true t) j v ↔ (j = i ∧ v = w) ∨ Final t j v := by
        intro j v
        refine (mem_mapInsert ht.finals_sorted i w (j, v)).trans ?_
        refine or_congr_left ?_
        constructor
        · rintro ⟨h, -⟩; cases h; exact ⟨rfl, rfl⟩
        · rintro ⟨rfl, rfl⟩
          refine ⟨rfl, ?_⟩
          intro h
          obtain ⟨⟨x, v'⟩, h1, h2⟩ := List.mem_map.1 h
          simp only at h2
          subst h2
          exact hno _ (List.mem_cons_self ..) v' h1
      obtain ⟨h1, h2, h3, h4⟩ := ih (setFinal i w true t) hwf (fun e he => hlt e (List.mem_cons_of_mem _ he)) hnd.2 (fun e he v hv => by
        rcases (hfin _ _).1 hv with ⟨hv, -⟩ | hv
        · exact hnd.1 (List.mem_map.2 ⟨e, he, hv⟩)
        · exact hno e (List.mem_cons_of_mem _ he) v hv)
      refine ⟨h1, h2, h3, fun j v => ?_⟩
      simp only [h4, hfin]
      constructor
      · rintro ((⟨rfl, rfl⟩ | h) | ⟨m, g1, g2⟩)
        · exact .inr ⟨n, List.mem_cons_self .., hF⟩
        · exact .inl h
        · exact .inr ⟨m, List.mem_cons_of_mem _ g1, g2⟩
      · rintro (h | ⟨m, g1, g2⟩)
        · exact .inl (.inr h)
        · rcases List.mem_cons.1 g1 with g1 | g1
          · cases g1
            rw [hF] at g2; cases g2
            exact .inl (.inl ⟨rfl, rfl⟩)
          · exact .inr ⟨m, g1, g2⟩

theorem finalOf_iff [AddMonoid W] {f g : Transducer W} (hf : WF f) (hg : WF g) (anywhere : Bool) (n : Two) (v : W) :
    finalOf f g anywhere n = some v ↔ ∃ v1 v2, Final f (ofLex n).1 v1 ∧
      (Final g (ofLex n).2 v2 ∨ (anywhere = true ∧ (ofLex n).2 = g.initial ∧ (∀ u, ¬ Final g g.initial u) ∧ v2 = 0)) ∧ v = v1 + v2 := by
  unfold finalOf
  have F1 : ∀ w, Final f (ofLex n).1 w ↔ mapFind (ofLex n).1 f.finals = some w := fun w => (mapFind_iff hf.finals_sorted).symm
  have F2 : ∀ w, Final g (ofLex n).2 w ↔ mapFind (ofLex n).2 g.finals = some w := fun w => (mapFind_iff hg.finals_sorted).symm
  have F3 : ∀ w, Final g g.initial w ↔ mapFind g.initial g.finals = some w := fun w => (mapFind_iff hg.finals_sorted).symm
  simp only [F1, F2, F3]
  cases h1 : mapFind (ofLex n).1 f.finals with
  | none => simp
  | some w =>
    cases h2 : mapFind (ofLex n).2 g.finals with
    | none =>
      by_cases h3 : anywhere = true ∧ g.initial = (ofLex n).2
      · simp only []
        rw [if_pos h3]
        constructor
        · intro h; cases h
          exact ⟨w, 0, rfl, .inr ⟨h3.1, h3.2.symm, by rw [h3.2, h2]; simp, rfl⟩, rfl⟩
        · rintro ⟨v1, v2, h4, h5, rfl⟩
          cases h4
          rcases h5 with h5 | ⟨-, -, -, rfl⟩
          · cases h5
          · rfl
      · simp only []
        rw [if_neg h3]
        constructor
        · intro h; cases h
        · rintro ⟨v1, v2, h4, h5, rfl⟩
          rcases h5 with h5 | ⟨g1, g2, -⟩
          · cases h5
          · exact absurd ⟨g1, g2.symm⟩ h3
    | some u =>
      constructor
      · intro h; cases h
        exact ⟨w, u, rfl, .inl rfl, rfl⟩
      · rintro ⟨v1, v2, h4, h5, rfl⟩
        cases h4
        rcases h5 with h5 | ⟨g1, g2, g3, -⟩
        · cases h5; rfl
        · rw [g2] at h2; exact absurd h2 (g3 _)

/-! ## Paths of the result -/

section
variable [AddMonoid W] {S : Type} [LinearOrder S] {inverted : Bool} {a : Alphabet} {start : S} {s : Search S W}
  {A : S → Int → Int → W → S → Prop}

/-- What the search kept of the arcs `A`. -/
abbrev Kept (inverted : Bool) (a : Alphabet) (start : S) (A : S → Int → Int → W → S → Prop) (s : Search S W) : Prop :=
  Inv (HasPair a) start (fun n l w m => (mapFind n s.ids).isSome ∧ ∃ x y, l = mk inverted x y ∧ A n x y w m) s

theorem Kept.sound (h : Kept inverted a start A s) {i j : Nat} {x y : List Int} {w : W} (hr : Tr (dir inverted a s.t) i x y w j) :
    ∀ n, mapFind n s.ids = some i → ∃ m, mapFind m s.ids = some j ∧ Tr A n x y w m := by
  induction hr with
  | nil q => exact fun n hn => ⟨n, hn, .nil n⟩
  | @cons q r p x y w v xs ys he _ ih =>
    intro n hn
    obtain ⟨c, h1, h2⟩ := he
    obtain ⟨n', l, m, g1, g2, g3, g4, x', y', g5, g6⟩ := Inv.sound h q c w r h2
    obtain rfl := h.inj _ _ _ hn g1
    have e := (decode_iff.1 h1).pair_unique g3
    simp only at e
    rw [g5] at e
    obtain ⟨rfl, rfl⟩ := mk_inj e
    obtain ⟨k, h3, h4⟩ := ih m g2
    exact ⟨k, h3, .cons g6 h4⟩

theorem Kept.complete (h : Kept inverted a start A s) {n m : S} {x y : List Int} {w : W} (hr : Tr A n x y w m) :
    ∀ i, mapFind n s.ids = some i → ∃ j w', mapFind m s.ids = some j ∧ Tr (dir inverted a s.t) i x y w' j := by
  induction hr with
  | nil q => exact fun i hi => ⟨i, 0, hi, .nil i⟩
  | @cons q r p x y w v xs ys he _ ih =>
    intro i hi
    obtain ⟨i', j, c, w', g1, g2, g3, g4⟩ := Inv.complete h q (mk inverted x y) w r ⟨by rw [hi]; rfl, x, y, rfl, he⟩
    rw [hi] at g1
    cases g1
    obtain ⟨j', u, k1, k2⟩ := ih j g2
    exact ⟨j', w' + u, k1, .cons ⟨c, decode_iff.2 g3, g4⟩ k2⟩

/-- The weights are kept if there is only one for two states and a label. -/
theorem Kept.weights (h : Kept inverted a start A s) (hA : ∀ n x y w w' m, A n x y w m → A n x y w' m → w = w')
    {n m : S} {x y : List Int} {w : W} (hr : Tr A n x y w m) :
    ∀ i, mapFind n s.ids = some i → ∃ j, mapFind m s.ids = some j ∧ Tr (dir inverted a s.t) i x y w j := by
  induction hr with
  | nil q => exact fun i hi => ⟨i, hi, .nil i⟩
  | @cons q r p x y w v xs ys he _ ih =>
    intro i hi
    obtain ⟨i', j, c, w', g1, g2, g3, g4⟩ := Inv.complete h q (mk inverted x y) w r ⟨by rw [hi]; rfl, x, y, rfl, he⟩
    rw [hi] at g1
    cases g1
    obtain ⟨n', l, m', k1, k2, k3, k4, x', y', k5, k6⟩ := Inv.sound h _ _ _ _ g4
    obtain rfl := h.inj _ _ _ hi k1
    obtain rfl := h.inj _ _ _ g2 k2
    have e := g3.pair_unique k3
    rw [k5] at e
    obtain ⟨rfl, rfl⟩ := mk_inj e
    obtain rfl := hA _ _ _ _ _ _ he k6
    obtain ⟨j', k1, k2⟩ := ih j g2
    exact ⟨j', k1, .cons ⟨c, decode_iff.2 g3, g4⟩ k2⟩

end

/-! ## Composition -/

section
variable [AddCommMonoid W] {fa ga : Alphabet} {f g : Transducer W}

theorem arc_mk {inverted anywhere : Bool} {n : Two} {l : Pair} {w : W} {m : Two} :
    Arc fa ga inverted f g anywhere n l w m ↔ ∃ x y, l = mk inverted x y ∧ PE fa ga inverted f g anywhere n x y w m := by
  constructor
  · intro h
    have := mk_inp_out inverted (l, w)
    refine ⟨_, _, this.symm, ?_⟩
    unfold PE
    rw [this]; exact h
  · rintro ⟨x, y, rfl, h⟩; exact h

/-- What `compose` returns for transducers whose final states are joined. -/
theorem composed (K : Known fa ga f g) (hf : WF f) (hg : WF g) (inverted anywhere : Bool) :
    ∃ a gf s, (do
        let (a, s) ← composeLoop f g ga inverted anywhere (composeTurns f g) fa
          { todo := [two f.initial g.initial], seen := [], ids := [(two f.initial g.initial, (Fst.empty : Transducer W).initial)], t := Fst.empty }
        pure (a, composeFinals f g anywhere s.ids s.t)) = (.ok (a, gf) : Res _) ∧ WF gf ∧ Coded a gf ∧ Ext fa a ∧ Ok a ∧
      Kept inverted a (two f.initial g.initial) (PE fa ga inverted f g anywhere) s ∧
      (∀ x z w, RelatesDir inverted a gf x z w ↔ ∃ m j u v, Tr (dir inverted a s.t) s.t.initial x z u j ∧ mapFind m s.ids = some j ∧
        finalOf f g anywhere m = some v ∧ w = u + v) ∧
      (∀ i v, Final gf i v → (∃ m, finalOf f g anywhere m = some v) ∧ ∃ ls, Path (Edge gf) gf.initial ls i) ∧
      a.slexicinv = fa.slexicinv ∧ ∀ p ∈ a.spairinv, p ∈ fa.spairinv ∨ ∃ n w m, Arc fa ga inverted f g anywhere n p w m := by
  obtain ⟨a, s, h1, h2, h3, h4, hL, hT, hN⟩ := composeLoop_spec K inverted anywhere hf hg
  have hK : Kept inverted a (two f.initial g.initial) (PE fa ga inverted f g anywhere) s := h4.congr fun n l w m => by rw [arc_mk]
  have hids : ∀ n i, (n, i) ∈ s.ids ↔ mapFind n s.ids = some i := fun n i => (mapFind_iff h4.sorted).symm
  obtain ⟨k1, k2, k3, k4⟩ := setAll_spec (finalOf f g anywhere) s.ids s.t h4.wf (fun e he => h4.lt e.1 e.2 ((hids _ _).1 he))
    (by
      have hs := h4.sorted
      have hinj := h4.inj
      refine List.Nodup.map_on ?_ (hs.imp (fun {a b} h => ?_))
      · rintro ⟨n, i⟩ hn ⟨m, j⟩ hm rfl
        rw [hids] at hn hm
        rw [hinj _ _ _ hn hm]
      · rintro rfl; exact lt_irrefl _ h)
    (by
      intro e _ v hv
      unfold Final at hv
      rw [h4.finals] at hv; cases hv)
  have hedge : ∀ q l p, Edge (setAll (finalOf f g anywhere) s.ids s.t) q l p ↔ Edge s.t q l p := by
    intro q l p
    unfold Edge row
    rw [k3]
  have hpath : ∀ n, Linked (fun n x y w m => Arc fa ga inverted f g anywhere n (mk inverted x y) w m) (two f.initial g.initial) n →
      ∃ i ls, mapFind n s.ids = some i ∧ Path (Edge s.t) s.t.initial ls i := by
    intro n hn
    induction hn with
    | start => exact ⟨_, [], h4.start, .nil _⟩
    | @arc n m x y w _ hA ih =>
      obtain ⟨i, ls, e1, e2⟩ := ih
      obtain ⟨i', j, c, w', e3, e4, -, e5⟩ := Inv.complete h4 n (mk inverted x y) w m ⟨by rw [e1]; rfl, hA⟩
      rw [e1] at e3
      cases e3
      exact ⟨j, ls ++ [(c, w')], e4, e2.append (.cons e5 (.nil _))⟩
  refine ⟨a, composeFinals f g anywhere s.ids s.t, s, by rw [h1]; rfl, ?_, ?_, h2, h3, hK, ?_, ?_, hT, hN⟩
  rotate_right
  · intro i v hv
    rw [composeFinals_eq] at hv ⊢
    rcases (k4 _ _).1 hv with hv | ⟨m, g1, g2⟩
    · unfold Final at hv
      rw [h4.finals] at hv; cases hv
    · refine ⟨⟨m, g2⟩, ?_⟩
      have g1 := (hids _ _).1 g1
      obtain ⟨i', ls, g3, g4⟩ := hpath m (hL m (by rw [g1]; rfl))
      rw [g1] at g3
      cases g3
      refine ⟨ls, ?_⟩
      rw [k2]
      exact g4.mono fun q l p he => (hedge q l p).2 he
  · rw [composeFinals_eq]; exact k1
  · intro q l p he
    rw [composeFinals_eq, hedge] at he
    obtain ⟨n, pr, m, -, -, h, -⟩ := h4.sound q l.1 l.2 p he
    exact ⟨pr, decode_iff.2 h⟩
  · intro x z w
    rw [relates_tr, composeFinals_eq]
    have htr : ∀ q u p, Tr (dir inverted a (setAll (finalOf f g anywhere) s.ids s.t)) q x z u p ↔ Tr (dir inverted a s.t) q x z u p := by
      intro q u p
      constructor <;> refine Tr.mono ?_
      · rintro q x y w p ⟨c, h, he⟩; exact ⟨c, h, (hedge _ _ _).1 he⟩
      · rintro q x y w p ⟨c, h, he⟩; exact ⟨c, h, (hedge _ _ _).2 he⟩
    constructor
    · rintro ⟨p, u, v, g1, g2, g3⟩
      rw [htr, k2] at g1
      rcases (k4 _ _).1 g2 with g2 | ⟨m, g2, g4⟩
      · unfold Final at g2
        rw [h4.finals] at g2; cases g2
      · exact ⟨m, p, u, v, g1, (hids _ _).1 g2, g4, g3⟩
    · rintro ⟨m, j, u, v, g1, g2, g3, g4⟩
      exact ⟨j, u, v, by rw [htr, k2]; exact g1, (k4 _ _).2 (.inr ⟨m, (hids _ _).2 g2, g3⟩), g4⟩

/-- What `g` does with what `f` writes. -/
def GRel (fa ga : Alphabet) (g : Transducer W) (anywhere : Bool) (y z : List Int) (w : W) : Prop :=
  ∃ q u v, GSide fa ga g anywhere g.initial y z u q ∧
    (Final g q v ∨ (anywhere = true ∧ q = g.initial ∧ (∀ u, ¬ Final g g.initial u) ∧ v = 0)) ∧ w = u + v

theorem gRel_false (K : Known fa ga f g) {y z : List Int} {w : W} : GRel fa ga g false y z w ↔
    ∃ y' z', List.Forall₂ (Meets fa ga) y y' ∧ Relates ga g y' z' w ∧ List.Forall₂ (Same fa ga) z z' := by
  constructor
  · rintro ⟨q, u, v, h1, h2 | ⟨h2, -⟩, rfl⟩
    · obtain ⟨y', z', k1, k2, k3⟩ := h1.seg K
      exact ⟨y', z', k1, (relates_tr (inverted := false)).2 ⟨q, u, v, k2, h2, rfl⟩, k3⟩
    · cases h2
  · rintro ⟨y', z', k1, k2, k3⟩
    obtain ⟨q, u, v, g1, g2, rfl⟩ := (relates_tr (inverted := false)).1 k2
    exact ⟨q, u, v, Seg.gside K ⟨y', z', k1, g1, k3⟩ false, .inl g2, rfl⟩

theorem gRel_true (K : Known fa ga f g) {y z : List Int} {w : W} : GRel fa ga g true y z w ↔ Anywhere fa ga g y z w := by
  constructor
  · rintro ⟨q, u, v, h1, h2, rfl⟩
    exact h1.anywhere K (h2.imp id fun h => h.2)
  · intro h
    obtain ⟨p, w, v, h1, h2, rfl⟩ := h.gside K
    exact ⟨p, w, v, h1, h2.imp id fun h => ⟨rfl, h⟩, rfl⟩

/-- All of it, for `f` with joined final states. -/
theorem composed_relates (K : Known fa ga f g) (hf : WF f) (hg : WF g) (inverted anywhere : Bool) :
    ∃ a gf, (do
        let (a, s) ← composeLoop f g ga inverted anywhere (composeTurns f g) fa
          { todo := [two f.initial g.initial], seen := [], ids := [(two f.initial g.initial, (Fst.empty : Transducer W).initial)], t := Fst.empty }
        pure (a, composeFinals f g anywhere s.ids s.t)) = (.ok (a, gf) : Res _) ∧ WF gf ∧ Coded a gf ∧ Ext fa a ∧ Ok a ∧
      (∀ x z w, RelatesDir inverted a gf x z w → ∃ y w1 w2, RelatesDir inverted fa f x y w1 ∧ GRel fa ga g anywhere y z w2 ∧ w = w1 + w2) ∧
      (∀ x y z w1 w2, RelatesDir inverted fa f x y w1 → GRel fa ga g anywhere y z w2 → ∃ w, RelatesDir inverted a gf x z w) ∧
      ((∀ n x y w w' m, PE fa ga inverted f g anywhere n x y w m → PE fa ga inverted f g anywhere n x y w' m → w = w') →
        ∀ x y z w1 w2, RelatesDir inverted fa f x y w1 → GRel fa ga g anywhere y z w2 → RelatesDir inverted a gf x z (w1 + w2)) ∧
      (∀ i v, Final gf i v → (∃ m, finalOf f g anywhere m = some v) ∧ ∃ ls, Path (Edge gf) gf.initial ls i) ∧
      a.slexicinv = fa.slexicinv ∧ ∀ p ∈ a.spairinv, p ∈ fa.spairinv ∨ ∃ n w m, Arc fa ga inverted f g anywhere n p w m := by
  obtain ⟨a, gf, s, h1, h2, h3, h4, h5, h6, h7, h8⟩ := composed K hf hg inverted anywhere
  have hstart : mapFind (two f.initial g.initial) s.ids = some s.t.initial := h6.start
  have back : ∀ x y z w1 w2, RelatesDir inverted fa f x y w1 → GRel fa ga g anywhere y z w2 →
      ∃ m u v, Tr (PE fa ga inverted f g anywhere) (two f.initial g.initial) x z u m ∧ finalOf f g anywhere m = some v ∧ w1 + w2 = u + v := by
    rintro x y z w1 w2 k1 ⟨q, u2, v2, k2, k3, rfl⟩
    obtain ⟨p, u1, v1, k4, k5, rfl⟩ := relates_tr.1 k1
    refine ⟨two p q, u1 + u2, v1 + v2, product_complete k4 k2, (finalOf_iff hf hg anywhere _ _).2 ⟨v1, v2, k5, k3, rfl⟩, by abel⟩
  refine ⟨a, gf, h1, h2, h3, h4, h5, ?_, ?_, ?_, h8⟩
  · intro x z w h
    obtain ⟨m, j, u, v, g1, g2, g3, rfl⟩ := (h7 _ _ _).1 h
    obtain ⟨m', k1, k2⟩ := h6.sound g1 _ hstart
    obtain rfl := h6.inj _ _ _ g2 k1
    obtain ⟨y, w1, w2, k3, k4, rfl⟩ := product_sound k2
    obtain ⟨v1, v2, k5, k6, rfl⟩ := (finalOf_iff hf hg anywhere _ _).1 g3
    exact ⟨y, w1 + v1, w2 + v2, relates_tr.2 ⟨_, _, _, k3, k5, rfl⟩, ⟨_, _, _, k4, k6, rfl⟩, by abel⟩
  · intro x y z w1 w2 k1 k2
    obtain ⟨m, u, v, g1, g2, -⟩ := back x y z w1 w2 k1 k2
    obtain ⟨j, w', g3, g4⟩ := h6.complete g1 _ hstart
    exact ⟨_, (h7 _ _ _).2 ⟨m, j, w', v, g4, g3, g2, rfl⟩⟩
  · intro hA x y z w1 w2 k1 k2
    obtain ⟨m, u, v, g1, g2, g3⟩ := back x y z w1 w2 k1 k2
    obtain ⟨j, g4, g5⟩ := h6.weights hA g1 _ hstart
    exact (h7 _ _ _).2 ⟨m, j, u, v, g5, g4, g2, g3⟩

end

end Verif.Product
