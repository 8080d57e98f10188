import Verif.Product.Compose

/-! # The whole run of `compose` -/

namespace Verif.Product

open Verif.Fst Verif.Alphabet

variable {W : Type}

/-- The arcs lead from one to the other. -/
inductive Linked {S : Type} (A : S → Int → Int → W → S → Prop) (start : S) : S → Prop
  | start : Linked A start start
  | arc {n m : S} {x y : Int} {w : W} : Linked A start n → A n x y w m → Linked A start m

theorem mem_row_edge {t : Transducer W} {q : Nat} {e : Int × Nat × W} : e ∈ row t q ↔ Edge t q (e.1, e.2.2) e.2.1 := Iff.rfl

theorem le_sum_of_mem {x : Nat} {l : List Nat} (h : x ∈ l) : x ≤ l.sum := by
  induction l with
  | nil => cases h
  | cons y l ih =>
    rw [List.sum_cons]
    rcases List.mem_cons.1 h with rfl | h
    · omega
    · have := ih h; omega

theorem start_wf : WF (Fst.empty : Transducer W) := by
  have hrow : ∀ q, row (Fst.empty : Transducer W) q = [] := by
    intro q
    cases q <;> rfl
  refine ⟨rfl, ?_, Nat.zero_lt_one, ?_, List.Pairwise.nil, ?_⟩
  · intro e he
    have : (Fst.empty : Transducer W).transitions = [(0, [])] := rfl
    rw [this, List.mem_singleton] at he
    rw [he]; exact List.Pairwise.nil
  · intro q l p h
    unfold Edge at h
    rw [hrow] at h; cases h
  · intro p w h; cases h

theorem start_edge (q : Nat) (l : Int × W) (p : Nat) : ¬ Edge (Fst.empty : Transducer W) q l p := by
  intro h
  have hrow : row (Fst.empty : Transducer W) q = [] := by cases q <;> rfl
  unfold Edge at h
  rw [hrow] at h; cases h

theorem length_row_le (t : Transducer W) (q : Nat) : (row t q).length ≤ numberOfTransitions t := by
  unfold row numberOfTransitions
  cases h : mapFind q t.transitions with
  | none => simp
  | some r =>
    have := mapFind_mem h
    simp only [Option.getD_some]
    exact le_sum_of_mem (List.mem_map.2 ⟨_, this, rfl⟩)

section
variable {fa ga : Alphabet} {f g : Transducer W} (K : Known fa ga f g) (inverted : Bool)
include K

omit K in
theorem length_epsActs (p : Nat) (arcs : Row W) : (epsActs fa ga inverted p arcs).length ≤ arcs.length := by
  induction arcs with
  | nil => simp [epsActs]
  | cons e arcs ih =>
    obtain ⟨k, r, w⟩ := e
    rw [epsActs]
    simp only [List.length_append, List.length_cons]
    split
    · split <;> simp <;> omega
    · simp; omega

omit K in
theorem length_matchActs [Add W] (i o : Int) (p : Nat) (fw : W) (arcs : Row W) : (matchActs fa ga inverted i o p fw arcs).length ≤ arcs.length := by
  induction arcs with
  | nil => simp [matchActs]
  | cons e arcs ih =>
    obtain ⟨k, r, w⟩ := e
    rw [matchActs]
    simp only [List.length_append, List.length_cons]
    split
    · split <;> simp <;> omega
    · simp; omega

omit K in
theorem length_arcActs [Add W] (anywhere : Bool) (q : Nat) (arcs : Row W) :
    (arcActs fa ga inverted g anywhere q arcs).length ≤ arcs.length * ((row g q).length + 2) := by
  induction arcs with
  | nil => simp [arcActs]
  | cons e arcs ih =>
    obtain ⟨k, r, w⟩ := e
    rw [arcActs]
    simp only [List.length_append, List.length_cons]
    rw [Nat.add_mul, Nat.one_mul]
    split
    · next pr h =>
      have := length_matchActs (fa := fa) (ga := ga) inverted (if inverted then pr.2 else pr.1) (if inverted then pr.1 else pr.2) r w (row g q)
      simp only [List.length_append]
      have h1 : ∀ (c : Prop) [Decidable c] (x : Pair × W × Two), (if c then [x] else []).length ≤ 1 := by
        intro c _ x; split <;> simp
      have h2 := h1 (anywhere ∧ q = g.initial) (pr, w, two r q)
      have h3 := h1 ((if inverted then pr.1 else pr.2) = 0) (pr, w, two r q)
      omega
    · simp; omega

omit K in
theorem length_acts [Add W] (f g : Transducer W) (anywhere : Bool) (n : Two) :
    (acts fa ga inverted f g anywhere n).length ≤ numberOfTransitions g + numberOfTransitions f * (numberOfTransitions g + 2) := by
  unfold acts
  rw [List.length_append]
  refine Nat.add_le_add ((length_epsActs _ _ _).trans (length_row_le _ _)) ((length_arcActs _ _ _ _).trans ?_)
  exact Nat.mul_le_mul (length_row_le _ _) (Nat.add_le_add_right (length_row_le _ _) _)

theorem mem_epsActs (p q : Nat) (arcs : Row W) (h : ∀ e ∈ arcs, e ∈ row g q) (l : Pair) (w : W) (m : Two) :
    (l, w, m) ∈ epsActs fa ga inverted p arcs ↔
      ∃ c z r, (c, r, w) ∈ arcs ∧ ga.decode c = .ok (0, z) ∧ l = mk inverted 0 (tr fa ga z) ∧ m = two p r := by
  induction arcs with
  | nil => simp [epsActs]
  | cons e arcs ih =>
    obtain ⟨k, r, v⟩ := e
    have ih := ih fun e he => h e (List.mem_cons_of_mem _ he)
    have he : Edge g q (k, v) r := h _ (List.mem_cons_self ..)
    obtain ⟨⟨y, z⟩, hp⟩ := K.gcoded _ _ _ he
    rw [epsActs, List.mem_append, ih]
    simp only [hp]
    constructor
    · rintro (h | ⟨c, z, r, h1, h2⟩)
      · split at h
        · next h0 =>
          subst h0
          simp only [List.mem_singleton, Prod.mk.injEq] at h
          obtain ⟨rfl, rfl, rfl⟩ := h
          exact ⟨k, z, r, List.mem_cons_self .., hp, rfl, rfl⟩
        · simp at h
      · exact ⟨c, z, r, List.mem_cons_of_mem _ h1, h2⟩
    · rintro ⟨c, z', r', h1, h2, h3, h4⟩
      rcases List.mem_cons.1 h1 with h1 | h1
      · cases h1
        rw [hp] at h2
        cases h2
        left
        simp [h3, h4]
      · exact .inr ⟨c, z', r', h1, h2, h3, h4⟩

theorem mem_matchActs [Add W] {x o : Int} {n : Name} (ho : Named fa o n) (p q : Nat) (fw : W) (arcs : Row W) (h : ∀ e ∈ arcs, e ∈ row g q)
    (l : Pair) (w : W) (m : Two) :
    (l, w, m) ∈ matchActs fa ga inverted x o p fw arcs ↔
      ∃ c y z v r, (c, r, v) ∈ arcs ∧ ga.decode c = .ok (y, z) ∧ y ≠ 0 ∧ Meets fa ga o y ∧ l = mk inverted x (tr fa ga z) ∧ w = fw + v ∧ m = two p r := by
  induction arcs with
  | nil => simp [matchActs]
  | cons e arcs ih =>
    obtain ⟨k, r, v⟩ := e
    have ih := ih fun e he => h e (List.mem_cons_of_mem _ he)
    have he : Edge g q (k, v) r := h _ (List.mem_cons_self ..)
    obtain ⟨⟨y, z⟩, hp⟩ := K.gcoded _ _ _ he
    simp only [] at hp
    obtain ⟨⟨n1, hn1⟩, -⟩ := K.gtags q ((y, z), v) r ⟨k, hp, he⟩
    obtain ⟨b, hb, hb'⟩ := sameSymbol_meets ho hn1
    rw [matchActs, List.mem_append, ih]
    simp only [hp]
    constructor
    · rintro (h | ⟨c, z, r, h1, h2, h3⟩)
      · split at h
        · next h0 =>
          obtain ⟨h0, h0'⟩ := h0
          simp only [List.mem_singleton, Prod.mk.injEq] at h
          obtain ⟨rfl, rfl, rfl⟩ := h
          rw [hb] at h0'
          exact ⟨k, y, z, v, r, List.mem_cons_self .., hp, h0, hb'.1 (Res.ok.inj h0'), rfl, rfl, rfl⟩
        · simp at h
      · exact ⟨c, z, r, h1, h2, List.mem_cons_of_mem _ h3.1, h3.2⟩
    · rintro ⟨c, y', z', v', r', h1, h2, h3, h4, h5⟩
      rcases List.mem_cons.1 h1 with h1 | h1
      · cases h1
        rw [hp] at h2
        cases h2
        left
        rw [if_pos ⟨h3, by rw [hb, hb'.2 h4]⟩]
        simp [h5]
      · exact .inr ⟨c, y', z', v', r', h1, h2, h3, h4, h5⟩

theorem mem_arcActs [Add W] (anywhere : Bool) (p q : Nat) (arcs : Row W) (h : ∀ e ∈ arcs, e ∈ row f p)
    (l : Pair) (w : W) (m : Two) :
    (l, w, m) ∈ arcActs fa ga inverted g anywhere q arcs ↔
      ∃ c x o v r, (c, r, v) ∈ arcs ∧ fa.decode c = .ok (mk inverted x o) ∧
        ((∃ y z u r', PairEdge ga g q ((y, z), u) r' ∧ y ≠ 0 ∧ Meets fa ga o y ∧ l = mk inverted x (tr fa ga z) ∧ w = v + u ∧ m = two r r') ∨
         ((anywhere = true ∧ q = g.initial ∨ o = 0) ∧ l = mk inverted x o ∧ w = v ∧ m = two r q)) := by
  induction arcs with
  | nil => simp [arcActs]
  | cons e arcs ih =>
    obtain ⟨k, r, v⟩ := e
    have ih := ih fun e he => h e (List.mem_cons_of_mem _ he)
    have he : Edge f p (k, v) r := h _ (List.mem_cons_self ..)
    obtain ⟨pr, hp⟩ := K.fcoded _ _ _ he
    simp only [] at hp
    obtain ⟨⟨n1, hn1⟩, n2, hn2⟩ := K.ftags p (pr, v) r ⟨k, hp, he⟩
    obtain ⟨x, o, rfl⟩ : ∃ x o, pr = mk inverted x o := by
      cases inverted
      · exact ⟨pr.1, pr.2, rfl⟩
      · exact ⟨pr.2, pr.1, rfl⟩
    have e1 : (if inverted then (mk inverted x o).2 else (mk inverted x o).1) = x := by cases inverted <;> rfl
    have e2 : (if inverted then (mk inverted x o).1 else (mk inverted x o).2) = o := by cases inverted <;> rfl
    have ho : ∃ n, Named fa o n := by
      cases inverted
      · exact ⟨_, hn2⟩
      · exact ⟨_, hn1⟩
    obtain ⟨no, ho⟩ := ho
    have M := mem_matchActs K inverted (x := x) ho r q v (row g q) (fun _ h => h) l w m
    have hinj : ∀ x' o', mk inverted x o = mk inverted x' o' → x = x' ∧ o = o' := by
      intro x' o' h
      cases inverted <;> · simp [mk] at h; exact ⟨by tauto, by tauto⟩
    rw [arcActs, List.mem_append, ih]
    simp only [hp, e1, e2, List.mem_append, M]
    constructor
    · rintro ((h | h | h) | ⟨c, x', o', v', r', h1, h2⟩)
      · obtain ⟨c, y, z, u, r', h1, h2, h3⟩ := h
        exact ⟨k, x, o, v, r, List.mem_cons_self .., hp, .inl ⟨y, z, u, r', ⟨c, h2, h1⟩, h3⟩⟩
      · split at h
        · next h0 =>
          simp only [List.mem_singleton, Prod.mk.injEq] at h
          exact ⟨k, x, o, v, r, List.mem_cons_self .., hp, .inr ⟨.inl h0, h⟩⟩
        · simp at h
      · split at h
        · next h0 =>
          simp only [List.mem_singleton, Prod.mk.injEq] at h
          exact ⟨k, x, o, v, r, List.mem_cons_self .., hp, .inr ⟨.inr h0, h⟩⟩
        · simp at h
      · exact ⟨c, x', o', v', r', List.mem_cons_of_mem _ h1, h2⟩
    · rintro ⟨c, x', o', v', r', h1, h2, h3⟩
      rcases List.mem_cons.1 h1 with h1 | h1
      · cases h1
        rw [hp] at h2
        obtain ⟨rfl, rfl⟩ := hinj _ _ (Res.ok.inj h2)
        left
        rcases h3 with ⟨y, z, u, r', ⟨c', g1, g2⟩, h4⟩ | ⟨h4 | h4, h5, h6, h7⟩
        · exact .inl ⟨c', y, z, u, r', g2, g1, h4⟩
        · rw [if_pos h4]; simp [h5, h6, h7]
        · right; right; rw [if_pos h4]; simp [h5, h6, h7]
      · exact .inr ⟨c, x', o', v', r', h1, h2, h3⟩

/-- An arc of the product, without reference to the order in which the arcs are found. -/
def Arc [Add W] (fa ga : Alphabet) (inverted : Bool) (f g : Transducer W) (anywhere : Bool) (n : Two) (l : Pair) (w : W) (m : Two) : Prop :=
  (∃ z r, PairEdge ga g (ofLex n).2 ((0, z), w) r ∧ l = mk inverted 0 (tr fa ga z) ∧ m = two (ofLex n).1 r) ∨
  ∃ x o v r, PairEdge fa f (ofLex n).1 (mk inverted x o, v) r ∧
    ((∃ y z u r', PairEdge ga g (ofLex n).2 ((y, z), u) r' ∧ y ≠ 0 ∧ Meets fa ga o y ∧ l = mk inverted x (tr fa ga z) ∧ w = v + u ∧ m = two r r') ∨
     ((anywhere = true ∧ (ofLex n).2 = g.initial ∨ o = 0) ∧ l = mk inverted x o ∧ w = v ∧ m = two r (ofLex n).2))

theorem mem_acts [Add W] (anywhere : Bool) (n : Two) (l : Pair) (w : W) (m : Two) :
    (l, w, m) ∈ acts fa ga inverted f g anywhere n ↔ Arc fa ga inverted f g anywhere n l w m := by
  unfold acts Arc
  rw [List.mem_append, mem_epsActs K inverted _ _ _ (fun _ h => h), mem_arcActs K inverted anywhere _ _ _ (fun _ h => h)]
  refine or_congr ?_ ?_
  · constructor
    · rintro ⟨c, z, r, h1, h2, h3⟩; exact ⟨z, r, ⟨c, h2, h1⟩, h3⟩
    · rintro ⟨z, r, ⟨c, h2, h1⟩, h3⟩; exact ⟨c, z, r, h1, h2, h3⟩
  · constructor
    · rintro ⟨c, x, o, v, r, h1, h2, h3⟩; exact ⟨x, o, v, r, ⟨c, h2, h1⟩, h3⟩
    · rintro ⟨x, o, v, r, ⟨c, h2, h1⟩, h3⟩; exact ⟨c, x, o, v, r, h1, h2, h3⟩

theorem composeTurn_adds [Add W] (anywhere : Bool) {start c : Two} {i : Nat} (a : Alphabet) (s : Search Two W)
    (hc : mapFind c s.ids = some i) :
    ∃ m, composeTurn f g ga inverted anywhere c a s = m (a, { s with seen := setInsert c s.seen }) ∧
      Adds fa start c i (acts fa ga inverted f g anywhere c) m := by
  refine ⟨_, ?_, (composeEps_adds K inverted (ofLex c).1 (ofLex c).2 (row g (ofLex c).2) (fun _ h => h)).seq
    (composeArcs_adds K inverted anywhere (ofLex c).1 (ofLex c).2 (row f (ofLex c).1) (fun _ h => h))⟩
  unfold composeTurn
  simp only [hc]

omit K in
theorem mk_some (inverted : Bool) (l : Pair) : ∃ x y, l = mk inverted x y := by
  cases inverted
  · exact ⟨l.1, l.2, rfl⟩
  · exact ⟨l.2, l.1, rfl⟩

/-- The loop ends, and the result has exactly the reachable part of the product. -/
theorem composeLoop_spec [Add W] (anywhere : Bool) (hf : WF f) (hg : WF g) :
    ∃ a s, composeLoop f g ga inverted anywhere (composeTurns f g) fa
        { todo := [two f.initial g.initial], seen := [], ids := [(two f.initial g.initial, (Fst.empty : Transducer W).initial)], t := Fst.empty } = .ok (a, s) ∧
      Ext fa a ∧ Ok a ∧
      Inv (HasPair a) (two f.initial g.initial) (fun n l w m => (mapFind n s.ids).isSome ∧ Arc fa ga inverted f g anywhere n l w m) s ∧
      (∀ n, (mapFind n s.ids).isSome → Linked (fun n x y w m => Arc fa ga inverted f g anywhere n (mk inverted x y) w m) (two f.initial g.initial) n) ∧
      a.slexicinv = fa.slexicinv ∧ ∀ p ∈ a.spairinv, p ∈ fa.spairinv ∨ ∃ n w m, Arc fa ga inverted f g anywhere n p w m := by
  let start := two f.initial g.initial
  let targets : Two → List Two := fun n => (acts fa ga inverted f g anywhere n).map (·.2.2)
  let U : List Two := (List.range (Fst.size f)).flatMap fun p => (List.range (Fst.size g)).map fun q => two p q
  have memU : ∀ p q, two p q ∈ U ↔ p < Fst.size f ∧ q < Fst.size g := by
    intro p q
    simp only [U, List.mem_flatMap, List.mem_range, List.mem_map]
    constructor
    · rintro ⟨p', h1, q', h2, h3⟩; cases h3; exact ⟨h1, h2⟩
    · rintro ⟨h1, h2⟩; exact ⟨p, h1, q, h2, rfl⟩
  have memU' : ∀ n, n ∈ U ↔ (ofLex n).1 < Fst.size f ∧ (ofLex n).2 < Fst.size g := fun n => memU (ofLex n).1 (ofLex n).2
  have lenU : U.length = Fst.size f * Fst.size g := by
    simp [U, List.length_flatMap]
  let P : Alphabet × Search Two W → Prop := fun x => Ext fa x.1 ∧ Ok x.1 ∧
    Inv (HasPair x.1) start (fun n l w m => n ∈ x.2.seen ∧ (l, w, m) ∈ acts fa ga inverted f g anywhere n) x.2 ∧
    (∀ n, (mapFind n x.2.ids).isSome ↔ n ∈ x.2.seen ∨ n ∈ x.2.todo) ∧
    (∀ n, (mapFind n x.2.ids).isSome → Linked (fun n x y w m => Arc fa ga inverted f g anywhere n (mk inverted x y) w m) start n) ∧
    x.1.slexicinv = fa.slexicinv ∧ ∀ p ∈ x.1.spairinv, p ∈ fa.spairinv ∨ ∃ n w m, Arc fa ga inverted f g anywhere n p w m
  have pe_lt : ∀ (a : Alphabet) (t : Transducer W), WF t → ∀ q l p, PairEdge a t q l p → p < Fst.size t := by
    rintro a t h q l p ⟨c, -, he⟩
    exact h.target_lt _ _ _ he
  have key := loop_ok (σ := Alphabet × Search Two W) (fun x => x.2.todo) (fun x => x.2.seen)
    (fun c rest x => composeTurn f g ga inverted anywhere c x.1 { x.2 with todo := rest })
    (fun k x => composeLoop f g ga inverted anywhere k x.1 x.2)
    (by
      rintro k ⟨a, s⟩ h
      simp only at h
      rw [composeLoop]; simp only [h])
    (by
      rintro k ⟨a, s⟩ c rest ⟨a', s'⟩ h h'
      simp only at h h'
      rw [composeLoop]; simp only [h, h', Res.bind_ok])
    targets U (numberOfTransitions g + numberOfTransitions f * (numberOfTransitions g + 2))
    (by
      intro n hn m hm
      obtain ⟨⟨l, w, m'⟩, h1, rfl⟩ := List.mem_map.1 hm
      rw [mem_acts K] at h1
      rw [memU'] at hn
      rcases h1 with ⟨z, r, h1, -, rfl⟩ | ⟨x, o, v, r, h1, ⟨y, z, u, r', h2, -, -, -, -, rfl⟩ | ⟨-, -, -, rfl⟩⟩
      · exact (memU _ _).2 ⟨hn.1, pe_lt _ _ hg _ _ _ h1⟩
      · exact (memU _ _).2 ⟨pe_lt _ _ hf _ _ _ h1, pe_lt _ _ hg _ _ _ h2⟩
      · exact (memU _ _).2 ⟨pe_lt _ _ hf _ _ _ h1, hn.2⟩)
    (by
      intro n _
      rw [List.length_map]
      exact length_acts _ _ _ _ _)
    P
    (by
      rintro ⟨a, s⟩ c rest ⟨h1, h2, h3, h4, h5, h6, h7⟩ hc htodo
      simp only at h1 h2 h3 h4 h5 h6 h7 htodo ⊢
      obtain ⟨i, hi⟩ := Option.isSome_iff_exists.1 ((h4 c).2 (.inr (by rw [htodo]; exact List.mem_cons_self ..)))
      obtain ⟨m, hm, hadds⟩ := composeTurn_adds (start := start) K inverted anywhere a { s with todo := rest } hi
      obtain ⟨a', s', k1, k2, k3, k4, k5, k6, k7, k8, k9, k10⟩ := hadds a { s with todo := rest, seen := setInsert c s.seen } _ h1 h2 (h3.of_eq rfl rfl) hi
      simp only at k5 k6 k8 k9 k10
      refine ⟨(a', s'), by rw [hm, k1], ⟨h1.trans k2, k3, k4.congr ?_, ?_, ?_, k9.trans h6, ?_⟩, ?_, ?_⟩
      · intro n l w m'
        simp only [k6, mem_setInsert]
        constructor
        · rintro (⟨g1, g2⟩ | ⟨rfl, g2⟩)
          · exact ⟨.inr g1, g2⟩
          · exact ⟨.inl rfl, g2⟩
        · rintro ⟨rfl | g1, g2⟩
          · exact .inr ⟨rfl, g2⟩
          · exact .inl ⟨g1, g2⟩
      · intro n
        rw [k8, h4, htodo, k5, k6, mem_pushes, List.mem_cons, mem_setInsert]
        tauto
      · intro n hn
        rcases (k8 n).1 hn with hn | hn
        · exact h5 n hn
        · obtain ⟨⟨l, w, m'⟩, g1, rfl⟩ := List.mem_map.1 hn
          obtain ⟨x, y, rfl⟩ := mk_some inverted l
          exact .arc (h5 c (by rw [hi]; rfl)) ((mem_acts K inverted anywhere c _ _ _).1 g1)
      · intro p hp
        rcases k10 p hp with hp | hp
        · exact h7 p hp
        · obtain ⟨⟨l, w, m'⟩, g1, rfl⟩ := List.mem_map.1 hp
          exact .inr ⟨c, w, m', (mem_acts K inverted anywhere c _ _ _).1 g1⟩
      · intro x; simp only [k6, mem_setInsert]
      · simp only [k5, k6]; rfl)
  obtain ⟨⟨a, s⟩, k1, ⟨k2, k3, k4, k5, k7, k8, k9⟩, k6⟩ := key (composeTurns f g)
    (fa, { todo := [start], seen := [], ids := [(start, (Fst.empty : Transducer W).initial)], t := Fst.empty })
    ⟨.refl fa, K.fok, ⟨start_wf, rfl, by simp [SortedKeys], by simp [mapFind], by
        intro n i h
        simp [mapFind] at h
        rw [← h.2]
        exact (start_wf (W := W)).initial_lt,
      by
        intro n m i h h'
        simp [mapFind] at h h'
        rw [← h.1, ← h'.1], by
        intro i c w j h
        exact absurd h (start_edge _ _ _), by
        rintro n l w m ⟨h, -⟩
        cases h⟩, by
      intro n
      simp only [mapFind, List.not_mem_nil, false_or, List.mem_singleton]
      by_cases h : start = n
      · simp [h]
      · simp [h, Ne.symm h], by
      intro n hn
      simp only [mapFind] at hn
      split at hn
      · next e => rw [← e]; exact .start
      · exact absurd hn (by simp), rfl, fun p hp => .inl hp⟩
    (by
      intro x hx
      simp only [List.mem_singleton] at hx
      subst hx
      exact (memU _ _).2 ⟨hf.initial_lt, hg.initial_lt⟩)
    (by
      intro pre c post _ h
      cases h)
    (by
      have : unseen U [] = Fst.size f * Fst.size g := by rw [← lenU]; simp [unseen]
      simp only [this, composeTurns, List.length_singleton]
      omega)
  simp only at k1 k2 k3 k4 k5 k6 k7 k8 k9
  refine ⟨a, s, k1, k2, k3, k4.congr ?_, k7, k8, k9⟩
  intro n l w m
  rw [mem_acts K, k5, k6]
  simp

end

end Verif.Product
