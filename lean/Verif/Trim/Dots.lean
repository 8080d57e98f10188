import Verif.Trim.Move
import Verif.Transducer.DotStar

/-! # Tags after an entry -/

namespace Verif.Trim

open Verif.Fst Verif.Alphabet Verif.Product Verif.Compiler

set_option linter.unusedSectionVars false

variable {W : Type} [AddMonoid W] [LinearOrder W] {b : Alphabet} {t : Transducer W}

/-- The transducer relates these strings. -/
def Maps (b : Alphabet) (t : Transducer W) (x y : List Int) : Prop := ∃ w, Relates b t x y w

omit [LinearOrder W] in
theorem maps_tr {x y : List Int} : Maps b t x y ↔ ∃ p u v, Tr (dir false b t) t.initial x y u p ∧ Final t p v := by
  constructor
  · rintro ⟨w, hw⟩
    obtain ⟨p, u, v, h1, h2, -⟩ := (relates_tr (inverted := false)).1 hw
    exact ⟨p, u, v, h1, h2⟩
  · rintro ⟨p, u, v, h1, h2⟩
    exact ⟨_, (relates_tr (inverted := false)).2 ⟨p, u, v, h1, h2, rfl⟩⟩

omit [LinearOrder W] in
theorem coded_known (h : ∀ q l p, Edge t q l p → KA b l.1) : Coded b t := fun q l p he => by
  obtain ⟨pr, hp⟩ := h q l p he
  exact ⟨pr, decode_iff.2 hp⟩

omit [LinearOrder W] in
theorem known_coded (h : Coded b t) : ∀ q l p, Edge t q l p → KA b l.1 := fun q l p he => by
  obtain ⟨pr, hp⟩ := h q l p he
  exact ⟨pr, decode_iff.1 hp⟩

omit [LinearOrder W] in
theorem accRel_tr (hc : Coded b t) {q : Nat} {x y : List Int} : AccRel b t q x y ↔ ∃ p u v, Tr (dir false b t) q x y u p ∧ Final t p v := by
  constructor
  · rintro ⟨ls, ⟨p, fw, h1, h2⟩, rfl, rfl⟩
    refine ⟨p, (ls.map (·.2)).sum, fw, ?_, h2⟩
    induction h1 with
    | nil q => exact .nil q
    | @cons q r p l ls he _ ih =>
      obtain ⟨pr, hp⟩ := hc _ _ _ he
      have e : dec b l.1 = pr := by unfold dec; rw [hp]
      have e1 : lft b (l :: ls) = cons0 pr.1 (lft b ls) := by
        unfold lft; rw [filter_cons0, e]
      have e2 : rgt b (l :: ls) = cons0 pr.2 (rgt b ls) := by
        unfold rgt; rw [filter_cons0, e]
      rw [e1, e2, List.map_cons, List.sum_cons]
      exact .cons ⟨l.1, hp, he⟩ (ih h2)
  · rintro ⟨p, u, v, h1, h2⟩
    have : ∃ ls, Path (Edge t) q ls p ∧ lft b ls = x ∧ rgt b ls = y := by
      induction h1 with
      | nil q => exact ⟨[], .nil q, rfl, rfl⟩
      | @cons q r p x0 y0 w v xs ys he _ ih =>
        obtain ⟨ls, k1, rfl, rfl⟩ := ih h2
        obtain ⟨c, k2, k3⟩ := he
        have e : dec b c = (x0, y0) := by unfold dec; rw [k2]; rfl
        refine ⟨(c, w) :: ls, .cons k3 k1, ?_, ?_⟩
        · unfold lft; rw [filter_cons0, e]
        · unfold rgt; rw [filter_cons0, e]
    obtain ⟨ls, k1, k2, k3⟩ := this
    exact ⟨ls, ⟨p, v, k1, h2⟩, k2, k3⟩

omit [LinearOrder W] in
theorem accRel_maps (hc : Coded b t) {x y : List Int} : AccRel b t t.initial x y ↔ Maps b t x y := by rw [accRel_tr hc, maps_tr]

/-! ## Runs with loops at the final states -/

section
variable {E E' : Nat → Int → Int → W → Nat → Prop} {F : Nat → Prop} {G : Int → Prop}

/-- The runs without the loops. -/
theorem run_drop (hE' : ∀ q x y w p, E' q x y w p → E q x y w p ∨ (p = q ∧ F q ∧ G x)) {q p : Nat} {x y : List Int} {w : W} (h : Tr E' q x y w p) :
    ∃ x' y' w', Tr E q x' y' w' p := by
  induction h with
  | nil q => exact ⟨[], [], 0, .nil q⟩
  | cons he _ ih =>
    obtain ⟨x', y', w', h'⟩ := ih
    rcases hE' _ _ _ _ _ he with he | ⟨rfl, -, -⟩
    · exact ⟨_, _, _, .cons he h'⟩
    · exact ⟨_, _, _, h'⟩

theorem tr_ne_zero {E : Nat → Int → Int → W → Nat → Prop} {q p : Nat} {x y : List Int} {w : W} (h : Tr E q x y w p) : ∀ c ∈ x, c ≠ 0 := by
  induction h with
  | nil q => intro c hc; cases hc
  | cons _ _ ih =>
    intro c hc
    unfold cons0 at hc
    split at hc
    · exact ih c hc
    · next h0 =>
      rcases List.mem_cons.1 hc with rfl | hc
      · exact h0
      · exact ih c hc

theorem mem_cons0 {x c : Int} {xs : List Int} (h : c ∈ cons0 x xs) : c = x ∨ c ∈ xs := by
  unfold cons0 at h
  split at h
  · exact .inr h
  · exact List.mem_cons.1 h

/-- After a final state. -/
theorem run_after (hE' : ∀ q x y w p, E' q x y w p → E q x y w p ∨ (p = q ∧ F q ∧ G x))
    {i : Nat} (hG : ∀ f x y w p x1 y1 w1, Tr E i x1 y1 w1 f → F f → Tr E f x y w p → F p → ∀ c ∈ x, G c)
    {f q p : Nat} {x y x1 y1 x2 y2 : List Int} {w w1 w2 : W} (hi : Tr E i x1 y1 w1 f) (hf : F f) (h2 : Tr E f x2 y2 w2 q) (h : Tr E' q x y w p) (hp : F p) :
    ∀ c ∈ x, G c := by
  induction h generalizing x2 y2 w2 with
  | nil q => intro c hc; cases hc
  | @cons q r p x0 y0 w v xs ys he hrest ih =>
    intro c hc
    rcases hE' _ _ _ _ _ he with he | ⟨rfl, -, hx⟩
    · have h3 : Tr E f (x2 ++ cons0 x0 []) (y2 ++ cons0 y0 []) (w2 + (w + 0)) r := h2.append (.cons he (.nil r))
      rcases mem_cons0 hc with rfl | hc'
      · obtain ⟨x', y', w', h4⟩ := run_drop hE' hrest
        refine hG _ _ _ _ _ _ _ _ hi hf (h3.append h4) hp _ ?_
        rw [List.mem_append, List.mem_append]
        left; right
        unfold cons0 at hc ⊢
        split
        · next h0 =>
          -- then the symbol is one of those that follow
          rw [if_pos h0] at hc
          exact absurd h0 (tr_ne_zero hrest _ hc)
        · exact List.mem_singleton_self _
      · exact ih h3 hp c hc'
    · rcases mem_cons0 hc with rfl | hc'
      · exact hx
      · exact ih h2 hp c hc'

/-- A run up to the first loop, and the rest. -/
theorem run_split (hE' : ∀ q x y w p, E' q x y w p → E q x y w p ∨ (p = q ∧ F q ∧ G x))
    {i : Nat} (hG : ∀ f x y w p x1 y1 w1, Tr E i x1 y1 w1 f → F f → Tr E f x y w p → F p → ∀ c ∈ x, G c)
    {q p : Nat} {x y x1 y1 : List Int} {w w1 : W} (hi : Tr E i x1 y1 w1 q) (h : Tr E' q x y w p) (hp : F p) :
    ∃ xa xb ya wa f, x = xa ++ xb ∧ Tr E q xa ya wa f ∧ F f ∧ ∀ c ∈ xb, G c := by
  induction h generalizing x1 y1 w1 with
  | nil q => exact ⟨[], [], [], 0, q, rfl, .nil q, hp, fun c hc => by cases hc⟩
  | @cons q r p x0 y0 w v xs ys he hrest ih =>
    rcases hE' _ _ _ _ _ he with he | ⟨rfl, hf, hx⟩
    · obtain ⟨xa, xb, ya, wa, f, rfl, h1, h2, h3⟩ := ih (hi.append (.cons he (.nil r))) hp
      exact ⟨_, xb, _, _, f, (cons0_append _ _ _).symm, .cons he h1, h2, h3⟩
    · refine ⟨[], _, [], 0, r, rfl, .nil r, hf, fun c hc => ?_⟩
      rcases mem_cons0 hc with rfl | hc'
      · exact hx
      · exact run_after hE' hG hi hf (.nil r) hrest hp c hc'

/-- Going round. -/
theorem run_loops {f : Nat} {x : List Int} (h : ∀ c ∈ x, c ≠ 0 ∧ ∃ w, E' f c c w f) : ∃ y w, Tr E' f x y w f := by
  induction x with
  | nil => exact ⟨[], 0, .nil f⟩
  | cons c x ih =>
    obtain ⟨y, w, h1⟩ := ih fun d hd => h d (List.mem_cons_of_mem _ hd)
    obtain ⟨h0, w', h2⟩ := h c (List.mem_cons_self ..)
    refine ⟨cons0 c y, w' + w, ?_⟩
    rw [← cons0_ne h0]
    exact .cons h2 h1

end

/-- The entries of `t`, with tags after them: what `prepare` makes. -/
theorem prepare_spec (hb : Ok b) (ht : WF t) (hc : Coded b t) (hg : NoQueues b t) (hk : TagsKnown b t) (hr : Reached t) {S : List Int} {G : Int → Prop}
    (hS : ∀ c ∈ S, ∃ y s, HasPair b c (y, y) ∧ HasTag b y s ∧ s ≠ GROUP ∧ G y)
    (hG : ∀ x1 y1 x2 y2, Maps b t x1 y1 → Maps b t (x1 ++ x2) y2 → ∀ c ∈ x2, G c) :
    ∃ r, prepare S b t = .ok r ∧ WF r ∧ Coded b r ∧ TagsKnown b r ∧
      (∀ x z, Maps b r x z → ∃ x1 x2 z1, x = x1 ++ x2 ∧ Maps b t x1 z1 ∧ ∀ c ∈ x2, G c) ∧
      (∀ x1 x2 z1, Maps b t x1 z1 → (∀ y ∈ x2, ∃ c ∈ S, HasPair b c (y, y)) → ∃ z, Maps b r (x1 ++ x2) z) ∧ (Live t → Live r) := by
  obtain ⟨t', h1, h2, h3, h4, h5, h6, h7, h8⟩ := appendDotStar_spec S 0 ht
  have hc' : Coded b t' := by
    intro q l p he
    rcases h7 q l p he with he | ⟨-, -, he, -⟩
    · exact hc q l p he
    · obtain ⟨y, s, hy, -⟩ := hS _ he
      exact ⟨_, decode_iff.2 hy⟩
  have hpe : ∀ q x y w p, PairEdge b t' q ((x, y), w) p → PairEdge b t q ((x, y), w) p ∨ (p = q ∧ (∃ v, Final t q v) ∧ x = y ∧ ∃ c ∈ S, HasPair b c (x, x)) := by
    rintro q x y w p ⟨c, g1, g2⟩
    rcases h7 _ _ _ g2 with g2 | ⟨rfl, -, g3, g4⟩
    · exact .inl ⟨c, g1, g2⟩
    · obtain ⟨y', s, hy, -⟩ := hS _ g3
      have := hy.pair_unique (decode_iff.1 g1)
      simp only [Prod.mk.injEq] at this
      obtain ⟨rfl, rfl⟩ := this
      exact .inr ⟨rfl, ⟨_, g4⟩, rfl, c, g3, hy⟩
  have hin : ∀ y, (∃ c ∈ S, HasPair b c (y, y)) → ∃ s, HasTag b y s ∧ s ≠ GROUP ∧ G y := by
    rintro y ⟨c, g1, g2⟩
    obtain ⟨y', s, g3, g4, g5⟩ := hS c g1
    have := g2.pair_unique g3
    simp only [Prod.mk.injEq] at this
    obtain ⟨rfl, -⟩ := this
    exact ⟨s, g4, g5⟩
  have hg' : NoQueues b t' := by
    rintro q ⟨⟨x, y⟩, w⟩ p he
    rcases hpe _ _ _ _ _ he with he | ⟨-, -, -, he⟩
    · exact hg _ _ _ he
    · obtain ⟨s, g1, g2, -⟩ := hin x he
      refine ⟨s, ?_, g2⟩
      unfold getSymbol
      have := g1.neg
      simp only
      rw [if_neg (by omega), if_pos this]
      exact (tagText_iff this).2 g1
  have hk' : TagsKnown b t' := by
    rintro q ⟨⟨x, y⟩, w⟩ p he
    rcases hpe _ _ _ _ _ he with he | ⟨-, -, rfl, he'⟩
    · exact hk _ _ _ he
    · obtain ⟨s, g1, -⟩ := hin x he'
      have : Named b x (.tag s) := .inr ⟨g1.neg, s, (tagText_iff g1.neg).2 g1, rfl⟩
      exact ⟨⟨_, this⟩, _, this⟩
  have hr' : Reached t' := by
    intro p w hf
    unfold Final at hf
    rw [h5] at hf
    obtain ⟨ls, hp⟩ := hr p w hf
    rw [h4]
    exact ⟨ls, hp.mono h6⟩
  have hfin : ∀ p w, Final t' p w ↔ Final t p w := by intro p w; unfold Final; rw [h5]
  obtain ⟨r, k1, k2, k3, k4, k5, k6⟩ := moveLemqsLast_plain h2 hc' hg' hr'
  have k5' : ∀ x y, Maps b r x y ↔ Maps b t' x y := k5
  have hl' : Live t → Live t' := by
    intro hl ls p hp
    rw [h4] at hp
    have : ∃ ms, Path (Edge t) t.initial ms p := by
      clear h1 h4 h6
      generalize t.initial = i at hp ⊢
      induction hp with
      | nil q => exact ⟨[], .nil q⟩
      | cons he _ ih =>
        obtain ⟨ms, ih⟩ := ih
        rcases h7 _ _ _ he with he | ⟨he, -⟩
        · exact ⟨_, .cons he ih⟩
        · rw [← he]; exact ⟨_, ih⟩
    obtain ⟨ms, hp⟩ := this
    obtain ⟨ns, f, w, g1, g2⟩ := hl _ _ hp
    exact ⟨ns, f, w, g1.mono h6, (hfin _ _).2 g2⟩
  refine ⟨r, ?_, k2, k3, ?_, ?_, ?_, fun hl => k6 (hl' hl)⟩
  · unfold prepare
    rw [h1]
    exact k1
  · rintro q ⟨⟨x, y⟩, w⟩ p he
    obtain ⟨q', w', p', he'⟩ := k4 _ _ _ _ _ he
    exact hk' _ ((x, y), w') _ he'
  · intro x z hm
    obtain ⟨p, u, v, g1, g2⟩ := maps_tr.1 ((k5' _ _).1 hm)
    rw [h4] at g1
    rw [hfin] at g2
    obtain ⟨xa, xb, ya, wa, f, e, g3, ⟨v', g4⟩, g5⟩ := run_split (E := dir false b t) (E' := dir false b t') (F := fun p => ∃ v, Final t p v) (G := G)
      (fun q x y w p he => by
        rcases hpe q x y w p he with he | ⟨g1, g2, rfl, g3⟩
        · exact .inl he
        · obtain ⟨-, -, -, g4⟩ := hin x g3
          exact .inr ⟨g1, g2, g4⟩)
      (i := t.initial)
      (by
        rintro f x y w p x1 y1 w1 m1 ⟨vf, m2⟩ m3 ⟨vp, m4⟩
        exact hG x1 y1 x (y1 ++ y) (maps_tr.2 ⟨_, _, _, m1, m2⟩) (maps_tr.2 ⟨_, _, _, m1.append m3, m4⟩))
      (.nil t.initial) g1 ⟨v, g2⟩
    exact ⟨xa, xb, ya, e, maps_tr.2 ⟨f, wa, v', g3, g4⟩, g5⟩
  · intro x1 x2 z1 hm hx
    obtain ⟨p, u, v, g1, g2⟩ := maps_tr.1 hm
    have g1' : Tr (dir false b t') t'.initial x1 z1 u p := by
      rw [h4]
      refine g1.mono ?_
      rintro q x y w p ⟨c, m1, m2⟩
      exact ⟨c, m1, h6 _ _ _ m2⟩
    obtain ⟨y, w, g3⟩ := run_loops (E' := dir false b t') (f := p) (x := x2) (by
      intro c hc
      obtain ⟨k, m1, m2⟩ := hx c hc
      obtain ⟨s, m3, -⟩ := hin c ⟨k, m1, m2⟩
      have hneg := m3.neg
      refine ⟨by omega, ?_⟩
      obtain ⟨w, hw⟩ := h8 p v k g2 m1 (by
        rintro rfl
        have := m2.pair_unique ⟨0, hb.zero, rfl⟩
        simp only [Prod.mk.injEq] at this
        omega)
      exact ⟨w, k, decode_iff.2 m2, hw⟩)
    exact ⟨_, (k5' _ _).2 (maps_tr.2 ⟨p, _, v, g1'.append g3, (hfin _ _).2 g2⟩)⟩

end Verif.Trim
