import Verif.Product.TrimWhole

/-! # Trimming transducers without queues and groups -/

namespace Verif.Product

open Verif.Fst Verif.Alphabet

variable {W : Type}

/-! ## Running steps that only add arcs -/

theorem Inv.exec [Zero W] {a : Alphabet} {start c : Three} {i : Nat} (xs : List (Step W))
    (hx : ∀ x ∈ xs, ∃ m k w l, HasPair a k l ∧ (x = .eps m k w ∨ x = .visit m k w)) :
    ∀ (D : Three → Pair → W → Three → Prop) s, Inv (HasPair a) start D s → mapFind c s.ids = some i → (∀ n ∈ s.seen, (mapFind n s.ids).isSome) →
    ∃ s', Product.exec i xs s = .ok s' ∧
      Inv (HasPair a) start (fun n l w m => D n l w m ∨ (n = c ∧ ∃ k, HasPair a k l ∧ (.eps m k w ∈ xs ∨ .visit m k w ∈ xs))) s' ∧
      s'.todo = pushes s.seen (xs.filterMap Step.target) s.todo ∧ s'.seen = s.seen ∧
      ∀ n, (mapFind n s'.ids).isSome ↔ (mapFind n s.ids).isSome ∨ n ∈ xs.filterMap Step.target := by
  induction xs with
  | nil =>
    intro D s h hc _
    exact ⟨s, rfl, h.congr (by simp), rfl, rfl, by simp⟩
  | cons x xs ih =>
    have ih := ih fun x h => hx x (List.mem_cons_of_mem _ h)
    intro D s h hc hseen
    obtain ⟨m, k, w, l, hk, hxe⟩ := hx x (List.mem_cons_self ..)
    -- the first step
    obtain ⟨s1, e1, e2, e3, e4, e5, e6⟩ : ∃ s1, (∀ ys, Product.exec i (x :: ys) s = Product.exec i ys s1) ∧
        Inv (HasPair a) start (fun n l' w' m' => D n l' w' m' ∨ (n = c ∧ l' = l ∧ w' = w ∧ m' = m)) s1 ∧
        s1.todo = pushes s.seen [m] s.todo ∧ s1.seen = s.seen ∧ mapFind c s1.ids = some i ∧
        ∀ x, (mapFind x s1.ids).isSome ↔ (mapFind x s.ids).isSome ∨ x = m := by
      rcases hxe with rfl | rfl
      · have h1 : Inv (HasPair a) start D (if m ∈ s.seen then s else Product.newId m { s with todo := m :: s.todo }) ∧
            (mapFind c (if m ∈ s.seen then s else Product.newId m { s with todo := m :: s.todo }).ids = some i) ∧
            (∀ x, (mapFind x (if m ∈ s.seen then s else Product.newId m { s with todo := m :: s.todo }).ids).isSome ↔ (mapFind x s.ids).isSome ∨ x = m) ∧
            (if m ∈ s.seen then s else Product.newId m { s with todo := m :: s.todo }).todo = pushes s.seen [m] s.todo ∧
            (if m ∈ s.seen then s else Product.newId m { s with todo := m :: s.todo }).seen = s.seen := by
          by_cases hm : m ∈ s.seen
          · simp only [if_pos hm]
            refine ⟨h, hc, fun x => ?_, by simp [pushes, hm], trivial⟩
            constructor
            · exact .inl
            · rintro (g | rfl)
              · exact g
              · exact hseen _ hm
          · simp only [if_neg hm]
            obtain ⟨g1, g2⟩ := Inv.newId (s := { s with todo := m :: s.todo }) (h.of_eq rfl rfl) m
            refine ⟨g1, ?_, fun x => ?_, by simp [pushes, hm, Product.newId], rfl⟩
            · rw [g2, if_neg, hc]
              rintro ⟨rfl, g3⟩
              simp only at g3
              rw [hc] at g3; cases g3
            · rw [g2]
              by_cases hxm : x = m
              · subst hxm
                cases hf : mapFind x s.ids <;> simp
              · simp [hxm]
        simp only [Product.exec]
        generalize (if m ∈ s.seen then s else Product.newId m { s with todo := m :: s.todo }) = s0 at h1
        obtain ⟨g1, g2, g3, g4, g5⟩ := h1
        obtain ⟨j, hj⟩ := Option.isSome_iff_exists.1 ((g3 m).2 (.inr rfl))
        obtain ⟨s1, k1, k2, k3, k4, k5⟩ := g1.link g2 hj hk w
        refine ⟨s1, fun ys => by rw [k1, Res.bind_ok], k2, by rw [k3, g4], by rw [k4, g5], by rw [k5]; exact g2, by rw [k5]; exact g3⟩
      · simp only [Product.exec]
        obtain ⟨s1, k1, k2, k3, k4, k5, k6⟩ := h.visit hc m hk w
        exact ⟨s1, fun ys => by rw [k1, Res.bind_ok], k2, k3, k4, k5, k6⟩
    obtain ⟨s', k1, k2, k3, k4, k5⟩ := ih _ s1 e2 e5 (by
      rw [e4]; intro n hn
      exact (e6 n).2 (.inl (hseen n hn)))
    have ht : x.target = some m := by rcases hxe with rfl | rfl <;> rfl
    refine ⟨s', by rw [e1, k1], k2.congr ?_, ?_, by rw [k4, e4], ?_⟩
    · intro n l' w' m'
      constructor
      · rintro ((g | ⟨rfl, rfl, rfl, rfl⟩) | ⟨rfl, k', g1, g2⟩)
        · exact .inl g
        · refine .inr ⟨rfl, k, hk, ?_⟩
          rcases hxe with rfl | rfl
          · exact .inl (List.mem_cons_self ..)
          · exact .inr (List.mem_cons_self ..)
        · exact .inr ⟨rfl, k', g1, g2.imp (List.mem_cons_of_mem _) (List.mem_cons_of_mem _)⟩
      · rintro (g | ⟨rfl, k', g1, g2⟩)
        · exact .inl (.inl g)
        · by_cases hin : .eps m' k' w' ∈ xs ∨ .visit m' k' w' ∈ xs
          · exact .inr ⟨rfl, k', g1, hin⟩
          · have : x = .eps m' k' w' ∨ x = .visit m' k' w' := by
              rcases g2 with g2 | g2
              · rcases List.mem_cons.1 g2 with g2 | g2
                · exact .inl g2.symm
                · exact absurd (.inl g2) hin
              · rcases List.mem_cons.1 g2 with g2 | g2
                · exact .inr g2.symm
                · exact absurd (.inr g2) hin
            have : m' = m ∧ k' = k ∧ w' = w := by
              rcases this with rfl | rfl <;> rcases hxe with e | e <;> cases e <;> exact ⟨rfl, rfl, rfl⟩
            obtain ⟨rfl, rfl, rfl⟩ := this
            exact .inl (.inr ⟨rfl, g1.pair_unique hk, rfl, rfl⟩)
    · rw [List.filterMap_cons_some ht, k3, e3, e4, ← pushes_append]; rfl
    · intro n
      rw [k5, e6, List.filterMap_cons_some ht, List.mem_cons, or_assoc]

/-! ## The steps -/

section
variable {t trimmer : Transducer W} {a b : Alphabet}

/-- The symbols are neither queues nor group tags. -/
def PlainRow (a : Alphabet) (arcs : Row W) : Prop :=
  ∀ l p w u v, (l, p, w) ∈ arcs → a.decode l = .ok (u, v) → v ∉ symLsx a ∧ v ≠ 0x23

theorem plain_special {r q next : Nat} {v l : Int} {p' : Nat} {w : W} (h1 : v ∉ symLsx a) :
    specialSteps t trimmer a r q next v l p' w =
      if v = 0x2b then ([.visit (three p' trimmer.initial (if r = q then q else next)) l w], false, if r = q then q else next)
      else if v ∈ symCmpOrEps a then ([.visit (three p' q (if r = q then q else next)) l w], true, if r = q then q else next) else ([], false, next) := by
  unfold specialSteps symWb
  by_cases h : v = 0x2b
  · simp only [h, List.mem_cons, true_or, if_true]
    rw [if_neg (by rw [← h]; exact fun h' => h1 h'.1)]
    simp
  · simp only [List.mem_cons, h, h1, or_self, if_false]

/-- Where the trimmer may go with an arc that writes `v`. -/
def Goes (a b : Alphabet) (trimmer : Transducer W) (v : Int) (q q' : Nat) : Prop :=
  (v ∈ symCmpOrEps a ∧ q' = q) ∨ (v = 0x2b ∧ q' = trimmer.initial) ∨
    (v ∉ symCmpOrEps a ∧ ∃ y z w2, PairEdge b trimmer q ((y, z), w2) q' ∧ y ≠ 0 ∧ a.sameSymbol v b y true = .ok true)

theorem mem_plain {p r : Nat} (hgw : WF trimmer) (arcs : Row W) (h : ∀ e ∈ arcs, e ∈ row t p) (hc : Coded a t) (hpl : PlainRow a arcs) (hj : 0x2b ∉ symCmpOrEps a)
    {q next : Nat} (hq : q < Fst.size trimmer) (hn : next < Fst.size trimmer) {x : Step W} (hx : x ∈ arcSteps t trimmer a b p r arcs q next) :
    ∃ l u v w p' q' nx, (l, p', w) ∈ arcs ∧ a.decode l = .ok (u, v) ∧ x = .visit (three p' q' nx) l w ∧ Goes a b trimmer v q q' := by
  induction arcs generalizing next with
  | nil => cases hx
  | cons e arcs ih =>
    obtain ⟨l, trg, wt⟩ := e
    have he : Edge t p (l, wt) trg := h _ (List.mem_cons_self ..)
    have ih : ∀ next, next < Fst.size trimmer → x ∈ arcSteps t trimmer a b p r arcs q next →
        ∃ l' u v w p' q' nx, (l', p', w) ∈ (l, trg, wt) :: arcs ∧ a.decode l' = .ok (u, v) ∧ x = .visit (three p' q' nx) l' w ∧ Goes a b trimmer v q q' := by
      intro next hn hx
      obtain ⟨l, u, v, w, p', q', nx, g1, g2, g3⟩ := ih (fun e he => h e (List.mem_cons_of_mem _ he))
        (fun l p w u v hm => hpl l p w u v (List.mem_cons_of_mem _ hm)) hn hx
      exact ⟨l, u, v, w, p', q', nx, List.mem_cons_of_mem _ g1, g2, g3⟩
    obtain ⟨pr, hd⟩ := hc _ _ _ he
    obtain ⟨u, v⟩ := pr
    obtain ⟨h1, h2⟩ := hpl l trg wt u v (List.mem_cons_self ..) hd
    rw [arcSteps] at hx
    simp only [hd] at hx
    rw [plain_special h1] at hx
    have hn' : (if r = q then q else next) < Fst.size trimmer := by split <;> assumption
    have hrest : ∀ nx, nx < Fst.size trimmer → v ∉ symCmpOrEps a →
        x ∈ (matchSteps a b q r v l trg wt (row trimmer q) nx).1 ++ arcSteps t trimmer a b p r arcs q (matchSteps a b q r v l trg wt (row trimmer q) nx).2 →
        ∃ l' u v w p' q' nx, (l', p', w) ∈ (l, trg, wt) :: arcs ∧ a.decode l' = .ok (u, v) ∧ x = .visit (three p' q' nx) l' w ∧ Goes a b trimmer v q q' := by
      intro nx hnx hv hx
      rcases List.mem_append.1 hx with hx | hx
      · obtain ⟨y, z, w2, q', nx, g1, g2, g3, -, g4⟩ := mem_matchSteps hgw _ _ _ _ _ _ (fun _ h => h) _ hnx hx
        exact ⟨l, u, v, wt, trg, q', nx, List.mem_cons_self .., hd, g4, .inr (.inr ⟨hv, y, z, w2, g1, g2, g3⟩)⟩
      · exact ih _ (matchSteps_next (thisA := a) (trimmerA := b) hgw r v l trg wt _ (fun _ h => h) nx hnx) hx
    by_cases hp : v = 0x2b
    · simp only [if_pos hp, Bool.false_eq_true, if_false, h2, false_and, decide_false, List.nil_append] at hx
      rcases List.mem_append.1 hx with hx | hx
      · rw [List.mem_singleton] at hx
        exact ⟨l, u, v, wt, trg, _, _, List.mem_cons_self .., hd, hx, .inr (.inl ⟨hp, rfl⟩)⟩
      · exact hrest _ hn' (by rw [hp]; exact hj) hx
    · by_cases hv : v ∈ symCmpOrEps a
      · simp only [if_neg hp, if_pos hv, if_true] at hx
        rcases List.mem_append.1 hx with hx | hx
        · rw [List.mem_singleton] at hx
          exact ⟨l, u, v, wt, trg, q, _, List.mem_cons_self .., hd, hx, .inl ⟨hv, rfl⟩⟩
        · exact ih _ hn' hx
      · simp only [if_neg hp, if_neg hv, Bool.false_eq_true, if_false, h2, false_and, decide_false, List.nil_append] at hx
        exact hrest _ hn hv hx

theorem plain_mem {p r : Nat} (arcs : Row W) (h : ∀ e ∈ arcs, e ∈ row t p) (hc : Coded a t) (hpl : PlainRow a arcs) (hj : 0x2b ∉ symCmpOrEps a) {q : Nat} (next : Nat)
    {l u v : Int} {w : W} {p' q' : Nat} (hl : (l, p', w) ∈ arcs) (hld : a.decode l = .ok (u, v)) (hcase : Goes a b trimmer v q q') :
    ∃ nx, .visit (three p' q' nx) l w ∈ arcSteps t trimmer a b p r arcs q next := by
  induction arcs generalizing next with
  | nil => cases hl
  | cons e arcs ih =>
    obtain ⟨l0, trg, wt⟩ := e
    have he : Edge t p (l0, wt) trg := h _ (List.mem_cons_self ..)
    have ih := fun next hl => ih (fun e he => h e (List.mem_cons_of_mem _ he)) (fun l p w u v hm => hpl l p w u v (List.mem_cons_of_mem _ hm)) next hl
    obtain ⟨pr, hd⟩ := hc _ _ _ he
    obtain ⟨u0, v0⟩ := pr
    obtain ⟨h1, h2⟩ := hpl l0 trg wt u0 v0 (List.mem_cons_self ..) hd
    rw [arcSteps]
    simp only [hd]
    rw [plain_special h1]
    by_cases hp : v0 = 0x2b
    · simp only [if_pos hp, Bool.false_eq_true, if_false, h2, false_and, decide_false, List.nil_append]
      rcases List.mem_cons.1 hl with hl | hl
      · cases hl
        rw [hd] at hld
        cases hld
        rcases hcase with ⟨hv, -⟩ | ⟨-, rfl⟩ | ⟨-, y, z, w2, ⟨c, g1, g2⟩, g3, g4⟩
        · exact absurd (hp ▸ hv) hj
        · exact ⟨_, List.mem_append.2 (.inl (List.mem_singleton.2 rfl))⟩
        · obtain ⟨nx, hnx⟩ := matchSteps_mem (r := r) (q := q) (label := l) (p' := p') (w := w) (row trimmer q) (if r = q then q else next) (mem_row_edge.2 g2) g1 g3 g4
          exact ⟨nx, List.mem_append.2 (.inr (List.mem_append.2 (.inl hnx)))⟩
      · obtain ⟨nx, hnx⟩ := ih (matchSteps a b q r v0 l0 trg wt (row trimmer q) (if r = q then q else next)).2 hl
        exact ⟨nx, List.mem_append.2 (.inr (List.mem_append.2 (.inr hnx)))⟩
    · by_cases hv : v0 ∈ symCmpOrEps a
      · simp only [if_neg hp, if_pos hv, if_true]
        rcases List.mem_cons.1 hl with hl | hl
        · cases hl
          rw [hd] at hld
          cases hld
          rcases hcase with ⟨-, rfl⟩ | ⟨h0, -⟩ | ⟨hne, -⟩
          · exact ⟨_, List.mem_append.2 (.inl (List.mem_singleton.2 rfl))⟩
          · exact absurd h0 hp
          · exact absurd hv hne
        · obtain ⟨nx, hnx⟩ := ih (if r = q then q else next) hl
          exact ⟨nx, List.mem_append.2 (.inr hnx)⟩
      · simp only [if_neg hp, if_neg hv, Bool.false_eq_true, if_false, h2, false_and, decide_false, List.nil_append]
        rcases List.mem_cons.1 hl with hl | hl
        · cases hl
          rw [hd] at hld
          cases hld
          rcases hcase with ⟨h0, -⟩ | ⟨h0, -⟩ | ⟨-, y, z, w2, ⟨c, g1, g2⟩, g3, g4⟩
          · exact absurd h0 hv
          · exact absurd h0 hp
          · obtain ⟨nx, hnx⟩ := matchSteps_mem (r := r) (q := q) (label := l) (p' := p') (w := w) (row trimmer q) next (mem_row_edge.2 g2) g1 g3 g4
            exact ⟨nx, List.mem_append.2 (.inl hnx)⟩
        · obtain ⟨nx, hnx⟩ := ih (matchSteps a b q r v0 l0 trg wt (row trimmer q) next).2 hl
          exact ⟨nx, List.mem_append.2 (.inr hnx)⟩

end

/-! ## Paths -/

section
variable [AddCommMonoid W] {t trimmer : Transducer W} {a b : Alphabet}

/-- An arc of the result, without what is remembered about joins. -/
def PT (a b : Alphabet) (t trimmer : Transducer W) (n : Nat × Nat) (x y : Int) (w : W) (m : Nat × Nat) : Prop :=
  (x = 0 ∧ y = 0 ∧ m.1 = n.1 ∧ ∃ z, PairEdge b trimmer n.2 ((0, z), w) m.2) ∨
  (PairEdge a t n.1 ((x, y), w) m.1 ∧ ((y ∈ symCmpOrEps a ∧ m.2 = n.2) ∨
    (y = 0x2b ∧ m.2 = trimmer.initial) ∨ (y ∉ symCmpOrEps a ∧ ∃ y' z v, PairEdge b trimmer n.2 ((y', z), v) m.2 ∧ y' ≠ 0 ∧ Meets a b y y')))

/-- The trimmer reads `y` from the state `q` to `q'`: it may pass over some symbols and start again after a join. -/
inductive Reads (a b : Alphabet) (trimmer : Transducer W) : Nat → List Int → Nat → Prop
  | nil (q : Nat) : Reads a b trimmer q [] q
  | eps {q r q' : Nat} {z : Int} {w : W} {y : List Int} : PairEdge b trimmer q ((0, z), w) r → Reads a b trimmer r y q' → Reads a b trimmer q y q'
  | skip {q q' : Nat} {c : Int} {y : List Int} : c ≠ 0 → c ∈ symCmpOrEps a → Reads a b trimmer q y q' → Reads a b trimmer q (c :: y) q'
  | join {q q' : Nat} {y : List Int} : Reads a b trimmer trimmer.initial y q' → Reads a b trimmer q (0x2b :: y) q'
  | meet {q r q' : Nat} {c d z : Int} {w : W} {y : List Int} : c ∉ symCmpOrEps a → PairEdge b trimmer q ((d, z), w) r → d ≠ 0 → Meets a b c d →
      Reads a b trimmer r y q' → Reads a b trimmer q (c :: y) q'

theorem EmptyArcs.cons {u w : W} (h : EmptyArcs b trimmer u) {q z q'} (he : PairEdge b trimmer q ((0, z), w) q') : EmptyArcs b trimmer (w + u) := by
  obtain ⟨ws, rfl, hws⟩ := h
  refine ⟨w :: ws, by simp, ?_⟩
  intro w' hw'
  rcases List.mem_cons.1 hw' with rfl | hw'
  · exact ⟨_, _, _, he⟩
  · exact hws _ hw'

theorem EmptyArcs.zero : EmptyArcs b trimmer (0 : W) := ⟨[], rfl, by simp⟩

theorem plain_sound {n m : Nat × Nat} {x y : List Int} {w : W} (h : Tr (PT a b t trimmer) n x y w m) :
    ∃ v u, Tr (dir false a t) n.1 x y v m.1 ∧ EmptyArcs b trimmer u ∧ w = v + u ∧ Reads a b trimmer n.2 y m.2 := by
  induction h with
  | nil q => exact ⟨0, 0, .nil _, .zero, by simp, .nil _⟩
  | @cons q r p x y w v xs ys he _ ih =>
    obtain ⟨v', u, h1, h2, rfl, h4⟩ := ih
    rcases he with ⟨rfl, rfl, e1, z, e2⟩ | ⟨e1, ⟨e2, e3⟩ | ⟨rfl, e2⟩ | ⟨e5, c, z, v2, e2, e3, e4⟩⟩
    · refine ⟨v', w + u, ?_, h2.cons e2, add_left_comm _ _ _, ?_⟩
      · simp only [cons0_zero]; rw [← e1]; exact h1
      · exact .eps e2 h4
    · refine ⟨w + v', u, .cons e1 h1, h2, by rw [add_assoc], ?_⟩
      rw [e3] at h4
      by_cases hy : y = 0
      · rw [hy, cons0_zero]; exact h4
      · rw [cons0_ne hy]; exact .skip hy e2 h4
    · refine ⟨w + v', u, .cons e1 h1, h2, by rw [add_assoc], ?_⟩
      rw [e2] at h4
      exact .join h4
    · refine ⟨w + v', u, .cons e1 h1, h2, by rw [add_assoc], ?_⟩
      rw [cons0_ne (meets_ne_zero e4 e3)]
      exact .meet e5 e2 e3 e4 h4

theorem EmptyArcs.add {u v : W} (h : EmptyArcs b trimmer u) (h' : EmptyArcs b trimmer v) : EmptyArcs b trimmer (u + v) := by
  obtain ⟨ws, rfl, h1⟩ := h
  obtain ⟨vs, rfl, h2⟩ := h'
  exact ⟨ws ++ vs, by simp, fun w hw => (List.mem_append.1 hw).elim (h1 w) (h2 w)⟩

/-- The trimmer reads nothing more. -/
theorem plain_idle {q q' : Nat} {y : List Int} (h : Reads a b trimmer q y q') (hy : y = []) (p : Nat) :
    ∃ u, EmptyArcs b trimmer u ∧ Tr (PT a b t trimmer) (p, q) [] [] u (p, q') := by
  induction h with
  | nil q => exact ⟨0, .zero, .nil _⟩
  | @eps q r q' z w y he _ ih =>
    obtain ⟨u, h1, h2⟩ := ih hy
    refine ⟨w + u, h1.cons he, ?_⟩
    exact .cons (x := 0) (y := 0) (xs := []) (ys := []) (r := (p, r)) (.inl ⟨rfl, rfl, rfl, z, he⟩) h2
  | skip => cases hy
  | join => cases hy
  | meet => cases hy

/-- The trimmer reads its next symbol. -/
theorem plain_next {p p' : Nat} {x c : Int} {w : W} (he : PairEdge a t p ((x, c), w) p') (h0 : c ≠ 0) {q q' : Nat} {cs ys : List Int} (h : Reads a b trimmer q cs q') (hy : cs = c :: ys) :
    ∃ q1 q2 u, EmptyArcs b trimmer u ∧ Tr (PT a b t trimmer) (p, q) [] [] u (p, q1) ∧ PT a b t trimmer (p, q1) x c w (p', q2) ∧ Reads a b trimmer q2 ys q' := by
  induction h with
  | nil q => cases hy
  | @eps q r q' z w y he' _ ih =>
    obtain ⟨q1, q2, u, h1, h2, h3⟩ := ih hy
    exact ⟨q1, q2, w + u, h1.cons he', .cons (x := 0) (y := 0) (xs := []) (ys := []) (r := (p, r)) (.inl ⟨rfl, rfl, rfl, z, he'⟩) h2, h3⟩
  | @skip q q' d y h1 h2 h3 _ =>
    cases hy
    exact ⟨q, q, 0, .zero, .nil _, .inr ⟨he, .inl ⟨h2, rfl⟩⟩, h3⟩
  | @join q q' y h3 _ =>
    cases hy
    exact ⟨q, _, 0, .zero, .nil _, .inr ⟨he, .inr (.inl ⟨rfl, rfl⟩)⟩, h3⟩
  | @meet q r q' d1 d z w' y h1 h2 h3 h4 h5 _ =>
    cases hy
    exact ⟨q, r, 0, .zero, .nil _, .inr ⟨he, .inr (.inr ⟨h1, d, z, w', h2, h3, h4⟩)⟩, h5⟩

theorem plain_complete (hz : (0 : Int) ∈ symCmpOrEps a) {p p' : Nat} {x y : List Int} {v : W} (h : Tr (dir false a t) p x y v p') :
    ∀ {q q' : Nat}, Reads a b trimmer q y q' → ∃ u, EmptyArcs b trimmer u ∧ Tr (PT a b t trimmer) (p, q) x y (v + u) (p', q') := by
  induction h with
  | nil p =>
    intro q q' hm
    obtain ⟨u, h1, h2⟩ := plain_idle (t := t) hm rfl p
    exact ⟨u, h1, by rw [zero_add]; exact h2⟩
  | @cons p r p' x y w v xs ys he _ ih =>
    intro q q' hm
    by_cases hy : y = 0
    · subst hy
      rw [cons0_zero] at hm
      obtain ⟨u, h1, h2⟩ := ih hm
      refine ⟨u, h1, ?_⟩
      rw [add_assoc]
      exact .cons (y := 0) (r := (r, q)) (.inr ⟨he, .inl ⟨hz, rfl⟩⟩) h2
    · rw [cons0_ne hy] at hm
      obtain ⟨q1, q2, u, h1, h2, h3, h4⟩ := plain_next he hy hm rfl
      obtain ⟨u', k1, k2⟩ := ih h4
      refine ⟨u + u', h1.add k1, ?_⟩
      have := h2.append (.cons h3 k2)
      have e : w + v + (u + u') = u + (w + (v + u')) := by
        rw [add_assoc w v, ← add_assoc v u, add_comm v u, add_assoc u v, ← add_assoc w u, add_comm w u, add_assoc]
      rw [e]
      exact this

/-! ## The triples of the search -/

/-- The parts of the triple are states. -/
def Bounds (t trimmer : Transducer W) (n : Three) : Prop := n.this < Fst.size t ∧ n.other < Fst.size trimmer ∧ n.pre < Fst.size trimmer

/-- An arc that the search adds. -/
def AT (a b : Alphabet) (t trimmer : Transducer W) (n : Three) (x y : Int) (w : W) (m : Three) : Prop :=
  Bounds t trimmer n ∧ ∃ k, HasPair a k (x, y) ∧ (.eps m k w ∈ steps t trimmer a b 0 n ∨ .visit m k w ∈ steps t trimmer a b 0 n)

/-- What is known of the two transducers. -/
structure Ready (a b : Alphabet) (t trimmer : Transducer W) : Prop where
  ok : Ok a
  twf : WF t
  gwf : WF trimmer
  tcoded : Coded a t
  gcoded : Coded b trimmer
  ttags : TagsKnown a t
  gtags : TagsKnown b trimmer
  plain : ∀ p, PlainRow a (row t p)
  join : 0x2b ∉ symCmpOrEps a

omit [AddCommMonoid W] in
theorem Ready.same (R : Ready a b t trimmer) {p q : Nat} {x v y z : Int} {w g : W} {p' q' : Nat} (h1 : PairEdge a t p ((x, v), w) p')
    (h2 : PairEdge b trimmer q ((y, z), g) q') : a.sameSymbol v b y true = .ok true ↔ Meets a b v y := by
  obtain ⟨-, n, hn⟩ := R.ttags _ _ _ h1
  obtain ⟨⟨m, hm⟩, -⟩ := R.gtags _ _ _ h2
  obtain ⟨r, g1, g2⟩ := sameSymbol_meets hn hm
  simp only at g1 g2
  rw [g1, ← g2]
  constructor
  · exact Res.ok.inj
  · rintro rfl; rfl

omit [AddCommMonoid W] in
theorem Ready.steps (R : Ready a b t trimmer) {n : Three} (hB : Bounds t trimmer n) {s : Step W} (hs : s ∈ steps t trimmer a b 0 n) :
    ∃ m k w x y, HasPair a k (x, y) ∧ (s = .eps m k w ∨ s = .visit m k w) ∧ PT a b t trimmer (n.this, n.other) x y w (m.this, m.other) ∧ Bounds t trimmer m := by
  obtain ⟨hp, hq, hr⟩ := hB
  unfold Product.steps at hs
  rcases List.mem_append.1 hs with hs | hs
  · obtain ⟨z, w, q', nx, g1, g2, rfl⟩ := mem_epsSteps R.gwf _ _ _ (fun _ h => h) _ hr hs
    refine ⟨three n.this q' nx, 0, w, 0, 0, ⟨0, R.ok.zero, rfl⟩, .inl rfl, .inl ⟨rfl, rfl, rfl, z, g1⟩, hp, ?_, g2⟩
    obtain ⟨_, _, g1⟩ := g1
    exact R.gwf.target_lt _ _ _ g1
  · have hnx := epsSteps_next (trimmerA := b) (ε := 0) R.gwf n.this n.pre (row trimmer n.other) (fun _ h => h) _ hr
    obtain ⟨l, u, v, w, p', q', nx, g1, g2, rfl, g3⟩ := mem_plain R.gwf _ (fun _ h => h) R.tcoded (R.plain _) R.join hq hnx hs
    have he : PairEdge a t n.this ((u, v), w) p' := ⟨l, g2, g1⟩
    refine ⟨three p' q' nx, l, w, u, v, decode_iff.1 g2, .inr rfl, .inr ⟨he, ?_⟩, ?_⟩
    · rcases g3 with g3 | g3 | ⟨g6, y, z, w2, g3, g4, g5⟩
      · exact .inl g3
      · exact .inr (.inl g3)
      · exact .inr (.inr ⟨g6, y, z, w2, g3, g4, (R.same he g3).1 g5⟩)
    · rcases mem_arcSteps R.gwf _ (fun _ h => h) hq hr hnx hs with h | ⟨l', u', v', w', p'', q'', nx', -, e1, e2, e3, e4 | ⟨e4, -⟩⟩
      · cases h
      · cases e4
        exact ⟨R.twf.target_lt _ _ _ e1, e2, e3⟩
      · cases e4

omit [AddCommMonoid W] in
theorem Ready.lift (R : Ready a b t trimmer) {p q r p' q' : Nat} (hB : Bounds t trimmer (three p q r)) {x y : Int} {w : W} (h : PT a b t trimmer (p, q) x y w (p', q')) :
    ∃ r', AT a b t trimmer (three p q r) x y w (three p' q' r') := by
  rcases h with ⟨rfl, rfl, e, z, c, g1, g2⟩ | ⟨⟨l, g1, g2⟩, g3⟩
  · simp only at e
    subst e
    obtain ⟨nx, h⟩ := epsSteps_mem (ε := 0) (p := p') (r := r) (row trimmer q) r (mem_row_edge.2 g2) g1
    refine ⟨nx, hB, 0, ⟨0, R.ok.zero, rfl⟩, .inl ?_⟩
    unfold Product.steps
    exact List.mem_append.2 (.inl h)
  · have he : PairEdge a t p ((x, y), w) p' := ⟨l, g1, g2⟩
    obtain ⟨nx, h⟩ := plain_mem (b := b) (r := r) (q := q) (q' := q') (trimmer := trimmer) (row t p) (fun _ h => h) R.tcoded (R.plain _) R.join
      (epsSteps b 0 p q r (row trimmer q) r).2 (mem_row_edge.2 g2) g1 (by
        rcases g3 with g3 | g3 | ⟨g6, y', z, v, g3, g4, g5⟩
        · exact .inl g3
        · exact .inr (.inl g3)
        · exact .inr (.inr ⟨g6, y', z, v, g3, g4, (R.same he g3).2 g5⟩))
    refine ⟨nx, hB, l, decode_iff.1 g1, .inr ?_⟩
    unfold Product.steps
    exact List.mem_append.2 (.inr h)

omit [AddCommMonoid W] in
theorem Ready.project (R : Ready a b t trimmer) {n m : Three} {x y : Int} {w : W} (h : AT a b t trimmer n x y w m) :
    PT a b t trimmer (n.this, n.other) x y w (m.this, m.other) ∧ Bounds t trimmer m := by
  obtain ⟨hB, k, hk, hs⟩ := h
  obtain ⟨m', k', w', x', y', g1, g2, g3, g4⟩ : ∃ m' k' w' x' y', HasPair a k' (x', y') ∧ (m' = m ∧ k' = k ∧ w' = w) ∧
      PT a b t trimmer (n.this, n.other) x' y' w' (m'.this, m'.other) ∧ Bounds t trimmer m' := by
    rcases hs with hs | hs <;> obtain ⟨m', k', w', x', y', g1, g2 | g2, g3⟩ := R.steps hB hs <;> cases g2 <;>
      exact ⟨_, _, _, x', y', g1, ⟨rfl, rfl, rfl⟩, g3⟩
  obtain ⟨rfl, rfl, rfl⟩ := g2
  cases hk.pair_unique g1
  exact ⟨g3, g4⟩

theorem Ready.paths_down (R : Ready a b t trimmer) {n m : Three} {x y : List Int} {w : W} (h : Tr (AT a b t trimmer) n x y w m) :
    Tr (PT a b t trimmer) (n.this, n.other) x y w (m.this, m.other) := by
  induction h with
  | nil q => exact .nil _
  | cons he _ ih => exact .cons (R.project he).1 ih

theorem Ready.paths_up (R : Ready a b t trimmer) {n m : Nat × Nat} {x y : List Int} {w : W} (h : Tr (PT a b t trimmer) n x y w m) :
    ∀ r, Bounds t trimmer (three n.1 n.2 r) → ∃ r', Tr (AT a b t trimmer) (three n.1 n.2 r) x y w (three m.1 m.2 r') := by
  induction h with
  | nil q => exact fun r _ => ⟨r, .nil _⟩
  | cons he _ ih =>
    intro r hB
    obtain ⟨r1, h1⟩ := R.lift hB he
    obtain ⟨r2, h2⟩ := ih r1 (R.project h1).2
    exact ⟨r2, .cons h1 h2⟩

/-! ## The run -/

omit [AddCommMonoid W] in
theorem Ready.loop [Zero W] (R : Ready a b t trimmer) :
    ∃ s, trimLoop t trimmer a b 0 (trimTurns t trimmer) (trimStart t trimmer) = .ok s ∧
      Kept false a (three t.initial trimmer.initial trimmer.initial) (AT a b t trimmer) s ∧
      ∀ n, (mapFind n s.ids).isSome → Linked (AT a b t trimmer) (three t.initial trimmer.initial trimmer.initial) n := by
  obtain ⟨s, h1, ⟨h2, h3, h4, hL⟩, h5⟩ := trimLoop_ok (ε := 0) R.gcoded R.gtags R.tcoded R.ttags R.twf R.gwf
    (fun x n y m hx hy => by
      obtain ⟨r, h, -⟩ := sameSymbol_meets hx hy
      exact ⟨r, h⟩)
    (fun s => Inv (HasPair a) (three t.initial trimmer.initial trimmer.initial)
        (fun n l w m => n ∈ s.seen ∧ ∃ x y, l = Product.mk false x y ∧ AT a b t trimmer n x y w m) s ∧
      (∀ n, (mapFind n s.ids).isSome ↔ n ∈ s.seen ∨ n ∈ s.todo) ∧ (∀ n ∈ s.seen, Bounds t trimmer n) ∧
      ∀ n, (mapFind n s.ids).isSome → Linked (AT a b t trimmer) (three t.initial trimmer.initial trimmer.initial) n)
    ⟨⟨start_wf, rfl, by simp [SortedKeys, trimStart], by simp [mapFind, trimStart], by
        intro n i h
        simp [mapFind, trimStart] at h
        rw [← h.2]
        exact (start_wf (W := W)).initial_lt,
      by
        intro n m i h h'
        simp [mapFind, trimStart] at h h'
        rw [← h.1, ← h'.1], by
        intro i c w j h
        exact absurd h (start_edge _ _ _), by
        rintro n l w m ⟨h, -⟩
        cases h⟩, by
      intro n
      simp only [trimStart, mapFind, List.not_mem_nil, false_or, List.mem_singleton]
      by_cases h : three t.initial trimmer.initial trimmer.initial = n
      · simp [h]
      · simp [h, Ne.symm h], by simp [trimStart], by
      intro n hn
      simp only [trimStart, mapFind] at hn
      split at hn
      · next e => rw [← e]; exact .start
      · cases hn⟩
    (fun s h n hn => (h.2.1 n).2 (.inr hn))
    (by
      rintro s c rest i ⟨h1, h2, h3, hL⟩ hp hq hr htodo hi
      have hB : Bounds t trimmer c := ⟨hp, hq, hr⟩
      obtain ⟨s', k1, k2, k3, k4, k5⟩ := Inv.exec (a := a) (start := three t.initial trimmer.initial trimmer.initial) (c := c) (i := i)
        (Product.steps t trimmer a b 0 c) (by
          intro x hx
          obtain ⟨m, k, w, x', y', g1, g2, -⟩ := R.steps hB hx
          exact ⟨m, k, w, _, g1, g2⟩) _
        { todo := rest, seen := setInsert c s.seen, ids := s.ids, t := s.t } (h1.of_eq rfl rfl) hi (by
          intro n hn
          rcases (mem_setInsert _ _ _).1 hn with rfl | hn
          · rw [hi]; rfl
          · exact (h2 n).2 (.inl hn))
      simp only at k3 k4 k5
      refine ⟨s', k1, ⟨k2.congr ?_, ?_, ?_, ?_⟩, k4, k3⟩
      · intro n l w m
        simp only [k4, mem_setInsert]
        constructor
        · rintro (⟨g1, g2⟩ | ⟨rfl, k, g1, g2⟩)
          · exact ⟨.inr g1, g2⟩
          · exact ⟨.inl rfl, l.1, l.2, rfl, hB, k, g1, g2⟩
        · rintro ⟨rfl | g1, g2⟩
          · obtain ⟨x, y, rfl, -, k, g3, g4⟩ := g2
            exact .inr ⟨rfl, k, g3, g4⟩
          · exact .inl ⟨g1, g2⟩
      · intro n
        rw [k5, h2, htodo, k3, k4, mem_pushes, List.mem_cons, mem_setInsert]
        tauto
      · intro n hn
        rw [k4] at hn
        rcases (mem_setInsert _ _ _).1 hn with rfl | hn
        · exact hB
        · exact h3 n hn
      · intro n hn
        rcases (k5 n).1 hn with hn | hn
        · exact hL n hn
        · obtain ⟨x, hx, ht⟩ := List.mem_filterMap.1 hn
          obtain ⟨m, k, w, x', y', g1, g2, -⟩ := R.steps hB hx
          have e : n = m := by
            rcases g2 with rfl | rfl <;> exact (Option.some.inj ht).symm
          rw [e]
          refine .arc (x := x') (y := y') (w := w) (hL c (by rw [hi]; rfl)) ⟨hB, k, g1, ?_⟩
          rcases g2 with rfl | rfl
          · exact .inl hx
          · exact .inr hx)
  refine ⟨s, h1, h2.congr ?_, hL⟩
  intro n l w m
  rw [h3, h5]
  simp

/-- The trimmer reads `y` from its initial state to a final one. -/
def Passed (a b : Alphabet) (trimmer : Transducer W) (y : List Int) : Prop := ∃ q g, Reads a b trimmer trimmer.initial y q ∧ Final trimmer q g

theorem Ready.trimmed (R : Ready a b t trimmer) :
    ∃ s, trimLoop t trimmer a b 0 (trimTurns t trimmer) (trimStart t trimmer) = .ok s ∧
      (∀ x y w, RelatesDir false a (trimFinals t trimmer s.ids s.t) x y w → ∃ v u, RelatesDir false a t x y v ∧ EmptyArcs b trimmer u ∧ w = v + u ∧
        Passed a b trimmer y) ∧
      (∀ x y v, RelatesDir false a t x y v → Passed a b trimmer y →
        ∃ w, RelatesDir false a (trimFinals t trimmer s.ids s.t) x y w) ∧
      ((∀ n x y w w' m, AT a b t trimmer n x y w m → AT a b t trimmer n x y w' m → w = w') →
        ∀ x y v, RelatesDir false a t x y v → Passed a b trimmer y →
          ∃ u, EmptyArcs b trimmer u ∧ RelatesDir false a (trimFinals t trimmer s.ids s.t) x y (v + u)) ∧
      WF (trimFinals t trimmer s.ids s.t) ∧ Coded a (trimFinals t trimmer s.ids s.t) ∧
      ∀ p w, Final (trimFinals t trimmer s.ids s.t) p w → (∃ q, Final t q w) ∧
        ∃ ls, Path (Edge (trimFinals t trimmer s.ids s.t)) (trimFinals t trimmer s.ids s.t).initial ls p := by
  obtain ⟨s, h1, h2, hL⟩ := R.loop
  have hlt : ∀ e ∈ s.ids, e.2 < Fst.size s.t := fun e he => h2.lt e.1 e.2 ((mapFind_iff h2.sorted).2 he)
  have hnd : (s.ids.map (·.2)).Nodup := by
    have hs : s.ids.Pairwise (fun x y => x.1 < y.1) := by
      have := h2.sorted
      unfold SortedKeys at this
      exact this
    rw [List.nodup_iff_pairwise_ne, List.pairwise_map]
    refine hs.imp_of_mem ?_
    intro x y hx hy hxy he
    have := h2.inj x.1 y.1 x.2 ((mapFind_iff h2.sorted).2 hx) (by rw [he]; exact (mapFind_iff h2.sorted).2 hy)
    rw [this] at hxy
    exact lt_irrefl _ hxy
  obtain ⟨g1, g2, g3, g4⟩ := setAll_spec (trimFinal t trimmer) s.ids s.t h2.wf hlt hnd (fun e _ v hv => by
    unfold Final at hv; rw [h2.finals] at hv; cases hv)
  have hE : ∀ q l p, Edge (setAll (trimFinal t trimmer) s.ids s.t) q l p ↔ Edge s.t q l p := by
    intro q l p
    unfold Edge row; rw [g3]
  have hD : dir false a (setAll (trimFinal t trimmer) s.ids s.t) = dir false a s.t := by
    funext q x y w p
    unfold dir PairEdge
    simp only [hE]
  have hF : ∀ i v, Final (setAll (trimFinal t trimmer) s.ids s.t) i v ↔ ∃ n, mapFind n s.ids = some i ∧ Final t n.this v ∧ ∃ g, Final trimmer n.other g := by
    intro i v
    rw [g4]
    constructor
    · rintro (h | ⟨n, e1, e2⟩)
      · unfold Final at h; rw [h2.finals] at h; cases h
      · refine ⟨n, (mapFind_iff h2.sorted).2 e1, ?_⟩
        unfold trimFinal at e2
        split at e2
        · next w hw =>
          split at e2
          · next hf =>
            cases e2
            refine ⟨(mapFind_iff R.twf.finals_sorted).1 hw, ?_⟩
            unfold isFinal at hf
            obtain ⟨g, hg⟩ := Option.isSome_iff_exists.1 hf
            exact ⟨g, (mapFind_iff R.gwf.finals_sorted).1 hg⟩
          · cases e2
        · cases e2
    · rintro ⟨n, e1, e2, g, e3⟩
      refine .inr ⟨n, (mapFind_iff h2.sorted).1 e1, ?_⟩
      have e4 := (mapFind_iff R.twf.finals_sorted).2 e2
      have e5 := (mapFind_iff R.gwf.finals_sorted).2 e3
      unfold trimFinal isFinal
      rw [e4, e5]; rfl
  have hB0 : Bounds t trimmer (three t.initial trimmer.initial trimmer.initial) := ⟨R.twf.initial_lt, R.gwf.initial_lt, R.gwf.initial_lt⟩
  have rel : ∀ x y w, RelatesDir false a (trimFinals t trimmer s.ids s.t) x y w ↔
      ∃ p u v, Tr (dir false a s.t) s.t.initial x y u p ∧ (∃ n, mapFind n s.ids = some p ∧ Final t n.this v ∧ ∃ g, Final trimmer n.other g) ∧ w = u + v := by
    intro x y w
    rw [trimFinals_eq, relates_tr, hD, g2]
    simp only [hF]
  have split : ∀ x y v, RelatesDir false a t x y v → Passed a b trimmer y →
      ∃ m u v1 f, EmptyArcs b trimmer u ∧ Tr (AT a b t trimmer) (three t.initial trimmer.initial trimmer.initial) x y (v1 + u) m ∧ Final t m.this f ∧
        (∃ g, Final trimmer m.other g) ∧ v = v1 + f := by
    rintro x y v e1 ⟨q, g, k3, k4⟩
    obtain ⟨p, v1, f, k1, k2, rfl⟩ := relates_tr.1 e1
    obtain ⟨u, k5, k6⟩ := plain_complete (List.mem_cons_self ..) k1 k3
    obtain ⟨r', k7⟩ := R.paths_up k6 trimmer.initial hB0
    exact ⟨_, u, v1, f, k5, k7, k2, ⟨_, k4⟩, rfl⟩
  have hpath : ∀ n, Linked (AT a b t trimmer) (three t.initial trimmer.initial trimmer.initial) n → ∃ i ls, mapFind n s.ids = some i ∧ Path (Edge s.t) s.t.initial ls i := by
    intro n hn
    induction hn with
    | start => exact ⟨_, [], h2.start, .nil _⟩
    | @arc n m x y w _ hA ih =>
      obtain ⟨i, ls, e1, e2⟩ := ih
      obtain ⟨i', j, c, w', e3, e4, -, e5⟩ := Inv.complete h2 n (Product.mk false x y) w m ⟨by rw [e1]; rfl, x, y, rfl, hA⟩
      rw [e1] at e3
      cases e3
      exact ⟨j, ls ++ [(c, w')], e4, e2.append (.cons e5 (.nil _))⟩
  refine ⟨s, h1, ?_, ?_, ?_, by rw [trimFinals_eq]; exact g1, ?_, ?_⟩
  rotate_left 3
  · intro q l p he
    rw [trimFinals_eq, hE] at he
    obtain ⟨n, l', m, -, -, h3, -⟩ := Inv.sound h2 q l.1 l.2 p he
    exact ⟨l', decode_iff.2 h3⟩
  · intro p w hf
    rw [trimFinals_eq] at hf ⊢
    obtain ⟨n, e1, e2, -⟩ := (hF p w).1 hf
    obtain ⟨i, ls, e3, e4⟩ := hpath n (hL n (by rw [e1]; rfl))
    rw [e1] at e3
    cases e3
    refine ⟨⟨_, e2⟩, ls, ?_⟩
    rw [g2]
    exact e4.mono fun q l p he => (hE q l p).2 he
  · intro x y w hw
    obtain ⟨p, wu, wf, e1, ⟨n, e2, e3, g, e4⟩, rfl⟩ := (rel x y w).1 hw
    obtain ⟨m, k1, k2⟩ := h2.sound e1 _ h2.start
    obtain rfl := h2.inj _ _ _ e2 k1
    obtain ⟨v, u, k3, k4, rfl, k5⟩ := plain_sound (R.paths_down k2)
    exact ⟨v + wf, u, relates_tr.2 ⟨_, v, wf, k3, e3, rfl⟩, k4, add_right_comm _ _ _, _, g, k5, e4⟩
  · intro x y v e1 e2
    obtain ⟨m, u, v1, f, k1, k2, k3, k4, rfl⟩ := split x y v e1 e2
    obtain ⟨j, w', k5, k6⟩ := h2.complete k2 _ h2.start
    exact ⟨w' + f, (rel _ _ _).2 ⟨j, w', f, k6, ⟨m, k5, k3, k4⟩, rfl⟩⟩
  · intro hA x y v e1 e2
    obtain ⟨m, u, v1, f, k1, k2, k3, k4, rfl⟩ := split x y v e1 e2
    obtain ⟨j, k5, k6⟩ := h2.weights hA k2 _ h2.start
    exact ⟨u, k1, (rel _ _ _).2 ⟨j, v1 + u, f, k6, ⟨m, k5, k3, k4⟩, add_right_comm _ _ _⟩⟩

end

end Verif.Product
