import Verif.Product.Search
import Verif.Product.Spec

/-! # What one turn of `compose` does -/

namespace Verif.Product

open Verif.Fst Verif.Alphabet

variable {W : Type}

/-! ## Symbols in a growing alphabet -/

theorem named_valid {a : Alphabet} {x : Int} {n : Name} (h : Named a x n) : Valid a x := by
  unfold Valid
  rcases h with ⟨h, -⟩ | ⟨h, s, hs, -⟩
  · omega
  · rw [tagText_iff h] at hs
    obtain ⟨i, hi, rfl⟩ := hs
    have := (List.getElem?_eq_some_iff.1 hi).1
    simp only [tagNo]; omega

theorem named_tag {a : Alphabet} {x : Int} {s : UString} : Named a x (.tag s) ↔ IsTagNamed a x s := by
  unfold Named IsTagNamed tagText
  constructor
  · rintro (⟨-, h⟩ | ⟨h, s', hs, h'⟩)
    · cases h
    · cases h'
      refine ⟨h, ?_⟩
      split at hs
      · next e => rw [e]; exact congrArg some (Res.ok.inj hs)
      · cases hs
  · rintro ⟨h, hs⟩
    exact .inr ⟨h, s, by rw [hs], rfl⟩

theorem named_unique {a : Alphabet} {x : Int} {n m : Name} (h : Named a x n) (h' : Named a x m) : n = m := by
  rcases h with ⟨h, rfl⟩ | ⟨h, s, hs, rfl⟩ <;> rcases h' with ⟨h', rfl⟩ | ⟨h', s', hs', rfl⟩
  · rfl
  · omega
  · omega
  · rw [hs] at hs'; cases hs'; rfl

theorem named_mono {a b : Alphabet} (h : Ext a b) {x : Int} {n : Name} (hx : Named a x n) : Named b x n := by
  rcases hx with hx | ⟨hx, s, hs, rfl⟩
  · exact .inl hx
  · exact .inr ⟨hx, s, (tagText_iff hx).2 (((tagText_iff hx).1 hs).mono h), rfl⟩

theorem named_mono_iff {a b : Alphabet} (h : Ext a b) {x : Int} {m : Name} (hx : Named a x m) (n : Name) : Named a x n ↔ Named b x n := by
  constructor
  · exact named_mono h
  · intro hn
    rw [named_unique (named_mono h hx) hn] at hx
    exact hx

/-- `sameSymbol` decides `Meets`. -/
theorem sameSymbol_meets {a b : Alphabet} {x y : Int} {n m : Name} (hx : Named a x n) (hy : Named b y m) :
    ∃ r, a.sameSymbol x b y true = .ok r ∧ (r = true ↔ Meets a b x y) := by
  obtain ⟨r, h1, h2⟩ := C16_same_symbol a b x y (named_valid hx) (named_valid hy) true
  refine ⟨r, h1, h2.trans ?_⟩
  unfold Meets
  simp only [named_tag, true_and]
  constructor
  · rintro (⟨h, rfl⟩ | ⟨s, h, h'⟩ | h)
    · exact .inl ⟨.letter x, .inl ⟨h, rfl⟩, .inl ⟨h, rfl⟩⟩
    · exact .inl ⟨.tag s, named_tag.2 h, named_tag.2 h'⟩
    · exact .inr h
  · rintro (⟨k, h, h'⟩ | h)
    · cases k with
      | letter c =>
        rcases h with ⟨h, e⟩ | ⟨-, s, -, e⟩
        · rcases h' with ⟨h', e'⟩ | ⟨-, s, -, e'⟩
          · cases e; cases e'; exact .inl ⟨h, rfl⟩
          · cases e'
        · cases e
      | tag s => exact .inr (.inl ⟨s, named_tag.1 h, named_tag.1 h'⟩)
    · exact .inr (.inr h)

theorem Meets.mono_iff {a a' b : Alphabet} (h : Ext a a') {x y : Int} {m : Name} (hx : Named a x m) : Meets a b x y ↔ Meets a' b x y := by
  unfold Meets
  simp only [named_mono_iff h hx]

/-! ## The arcs of the product -/

/-- An output symbol of `g` in the alphabet of `f`. -/
def tr (fa ga : Alphabet) (z : Int) : Int := if z ≥ 0 then z else match ga.tagText z with
  | .ok s => fa.symCode s
  | _ => 0

section
variable (fa ga : Alphabet) (inverted : Bool)

def epsActs (p : Nat) : Row W → List (Pair × W × Two)
  | [] => []
  | (c, q, w) :: arcs =>
    (match ga.decode c with
      | .ok pr => if pr.1 = 0 then [(mk inverted 0 (tr fa ga pr.2), w, two p q)] else []
      | _ => []) ++ epsActs p arcs

def matchActs [Add W] (i o : Int) (p : Nat) (fw : W) : Row W → List (Pair × W × Two)
  | [] => []
  | (c, q, w) :: arcs =>
    (match ga.decode c with
      | .ok pr => if pr.1 ≠ 0 ∧ fa.sameSymbol o ga pr.1 true = .ok true then [(mk inverted i (tr fa ga pr.2), fw + w, two p q)] else []
      | _ => []) ++ matchActs i o p fw arcs

def arcActs [Add W] (g : Transducer W) (anywhere : Bool) (q : Nat) : Row W → List (Pair × W × Two)
  | [] => []
  | (c, p, w) :: arcs =>
    (match fa.decode c with
      | .ok pr =>
        matchActs fa ga inverted (if inverted then pr.2 else pr.1) (if inverted then pr.1 else pr.2) p w (row g q) ++
          ((if anywhere ∧ q = g.initial then [(pr, w, two p q)] else []) ++
            (if (if inverted then pr.1 else pr.2) = 0 then [(pr, w, two p q)] else []))
      | _ => []) ++ arcActs g anywhere q arcs

/-- The arcs that leave a pair of states, in the order in which they are added. -/
def acts [Add W] (f g : Transducer W) (anywhere : Bool) (n : Two) : List (Pair × W × Two) :=
  epsActs fa ga inverted (ofLex n).1 (row g (ofLex n).2) ++ arcActs fa ga inverted g anywhere (ofLex n).2 (row f (ofLex n).1)

end

/-! ## Execution -/

/-- What the symbols of the arcs are known by. -/
structure Known (fa ga : Alphabet) (f g : Transducer W) : Prop where
  fok : Ok fa
  fcoded : Coded fa f
  gcoded : Coded ga g
  ftags : TagsKnown fa f
  gtags : TagsKnown ga g
  /-- the output tags of `g` are known to `f` -/
  shared : ∀ q x z w r s, PairEdge ga g q ((x, z), w) r → Named ga z (.tag s) → ∃ y, Named fa y (.tag s)

/-- The program `m` adds the arcs `xs` from `c`, which has the state `i`. -/
def Adds (fa : Alphabet) (start c : Two) (i : Nat) (xs : List (Pair × W × Two)) (m : Alphabet × Search Two W → Res (Alphabet × Search Two W)) : Prop :=
  ∀ a s D, Ext fa a → Ok a → Inv (HasPair a) start D s → mapFind c s.ids = some i →
    ∃ a' s', m (a, s) = .ok (a', s') ∧ Ext a a' ∧ Ok a' ∧
      Inv (HasPair a') start (fun n l w k => D n l w k ∨ (n = c ∧ (l, w, k) ∈ xs)) s' ∧
      s'.todo = pushes s.seen (xs.map (·.2.2)) s.todo ∧ s'.seen = s.seen ∧ mapFind c s'.ids = some i ∧
      (∀ x, (mapFind x s'.ids).isSome ↔ (mapFind x s.ids).isSome ∨ x ∈ xs.map (·.2.2)) ∧
      a'.slexicinv = a.slexicinv ∧ ∀ p ∈ a'.spairinv, p ∈ a.spairinv ∨ p ∈ xs.map (·.1)

variable {fa ga : Alphabet} {start c : Two} {i : Nat}

theorem Adds.nil : Adds (W := W) fa start c i [] (fun x => .ok x) := by
  intro a s D hE hO hI hc
  exact ⟨a, s, rfl, .refl a, hO, hI.congr (by simp), rfl, rfl, hc, by simp, rfl, fun p hp => .inl hp⟩

theorem Adds.seq {xs ys : List (Pair × W × Two)} {m m' : Alphabet × Search Two W → Res (Alphabet × Search Two W)}
    (h : Adds fa start c i xs m) (h' : Adds fa start c i ys m') : Adds fa start c i (xs ++ ys) (fun x => m x >>= m') := by
  intro a s D hE hO hI hc
  obtain ⟨a1, s1, h1, h2, h3, h4, h5, h6, h7, h8, h9, h10⟩ := h a s D hE hO hI hc
  obtain ⟨a2, s2, k1, k2, k3, k4, k5, k6, k7, k8, k9, k10⟩ := h' a1 s1 _ (hE.trans h2) h3 h4 h7
  refine ⟨a2, s2, ?_, h2.trans k2, k3, k4.congr ?_, ?_, by rw [k6, h6], k7, ?_, k9.trans h9, ?_⟩
  · simp only [h1, Res.bind_ok, k1]
  · intro n l w k
    simp only [List.mem_append, and_or_left, or_assoc]
  · rw [k5, h6, h5, List.map_append, pushes_append]
  · intro x
    rw [k8, h8]
    simp only [List.map_append, List.mem_append, or_assoc]
  · intro p hp
    rw [List.map_append, List.mem_append]
    rcases k10 p hp with hp | hp
    · rcases h10 p hp with hp | hp
      · exact .inl hp
      · exact .inr (.inl hp)
    · exact .inr (.inr hp)

theorem Adds.congr {xs : List (Pair × W × Two)} {m m' : Alphabet × Search Two W → Res (Alphabet × Search Two W)}
    (h : Adds fa start c i xs m) (he : ∀ a s, Ext fa a → Ok a → m' (a, s) = m (a, s)) : Adds fa start c i xs m' := by
  intro a s D hE hO hI hc
  obtain ⟨a', s', h1, h2⟩ := h a s D hE hO hI hc
  exact ⟨a', s', by rw [he a s hE hO, h1], h2⟩

theorem pairCode_tags (a : Alphabet) (x y : Int) : (a.pairCode x y).2.slexicinv = a.slexicinv := by
  unfold pairCode
  split <;> rfl

theorem pairCode_pairs (a : Alphabet) (x y : Int) : ∀ p ∈ (a.pairCode x y).2.spairinv, p ∈ a.spairinv ∨ p = (x, y) := by
  intro p hp
  unfold pairCode at hp
  split at hp
  · exact .inl hp
  · simpa using hp

/-- One arc with a new label. -/
theorem Adds.one (l : Pair) (w : W) (n : Two) (m : Alphabet × Search Two W → Res (Alphabet × Search Two W))
    (hm : ∀ a s, Ext fa a → Ok a → m (a, s) = do
      let s ← visit i n (a.pairCode l.1 l.2).1 w s
      pure ((a.pairCode l.1 l.2).2, s)) : Adds fa start c i [(l, w, n)] m := by
  intro a s D hE hO hI hc
  obtain ⟨p1, p2, p3⟩ := pairCode_spec hO l.1 l.2
  have hI' : Inv (HasPair (a.pairCode l.1 l.2).2) start D s := hI.mono fun k p hk => hk.mono p2
  have hP : HasPair (a.pairCode l.1 l.2).2 (a.pairCode l.1 l.2).1 l := p3.1
  obtain ⟨s', h1, h2, h3, h4, h5, h6⟩ := hI'.visit hc n hP w
  refine ⟨_, s', ?_, p2, p1, h2.congr ?_, by rw [h3]; rfl, h4, h5, ?_, pairCode_tags a l.1 l.2, ?_⟩
  · rw [hm a s hE hO, h1]; rfl
  · intro n' l' w' k; simp
  · intro x; rw [h6]; simp
  · intro p hp
    rcases pairCode_pairs a l.1 l.2 p hp with hp | hp
    · exact .inl hp
    · exact .inr (by simp [hp])

/-- One arc with an old label. -/
theorem Adds.old {k : Int} {l : Pair} (hk : HasPair fa k l) (w : W) (n : Two) :
    Adds fa start c i [(l, w, n)] (fun x => do
      let s ← visit i n k w x.2
      pure (x.1, s)) := by
  intro a s D hE hO hI hc
  obtain ⟨s', h1, h2, h3, h4, h5, h6⟩ := hI.visit hc n (hk.mono hE) w
  refine ⟨a, s', by simp only [h1, Res.bind_ok, Res.pure_eq], .refl a, hO, h2.congr ?_, by rw [h3]; rfl, h4, h5, ?_, rfl, fun p hp => .inl hp⟩
  · intro n' l' w' k; simp
  · intro x; rw [h6]; simp

theorem composeLabel_eq {fa ga a : Alphabet} (hE : Ext fa a) (hO : Ok a) (hf : Ok fa) {z : Int} {n : Name} (hz : Named ga z n)
    (hs : ∀ s, Named ga z (.tag s) → ∃ y, Named fa y (.tag s)) (inverted : Bool) (i : Int) :
    composeLabel a ga i z inverted = .ok (a.pairCode (mk inverted i (tr fa ga z)).1 (mk inverted i (tr fa ga z)).2) := by
  unfold composeLabel mk tr
  by_cases h : z ≥ 0
  · rw [if_pos h, if_pos h]
    cases inverted <;> rfl
  · rw [if_neg h, if_neg h]
    rcases hz with ⟨h', -⟩ | ⟨h', s, hs', rfl⟩
    · exact absurd h' h
    · obtain ⟨y, hy⟩ := hs s (.inr ⟨h', s, hs', rfl⟩)
      rcases hy with ⟨-, hy⟩ | ⟨hy, s', hs'', e⟩
      · cases hy
      · cases e
        have t1 := (tagText_iff hy).1 hs''
        have e1 : fa.symCode s = y := symCode_of_hasTag hf t1
        have e2 : a.symCode s = y := symCode_of_hasTag hO (t1.mono hE)
        have hg : ga.getSymbol z = .ok s := by
          unfold getSymbol
          rw [if_neg (by omega), if_pos h', hs']
        simp only [hg, hs', Res.bind_ok, Res.pure_eq, e1, e2]
        cases inverted <;> rfl

section
variable {f g : Transducer W} (K : Known fa ga f g) (inverted : Bool)
include K

theorem composeEps_adds (p q : Nat) (arcs : Row W) (h : ∀ e ∈ arcs, e ∈ row g q) :
    Adds fa start c i (epsActs fa ga inverted p arcs) (composeEps ga inverted p i arcs) := by
  induction arcs with
  | nil => exact Adds.nil.congr fun a s _ _ => rfl
  | cons e arcs ih =>
    obtain ⟨k, r, w⟩ := e
    have he : Edge g q (k, w) r := h _ (List.mem_cons_self ..)
    obtain ⟨pr, hp⟩ := K.gcoded _ _ _ he
    have hpe : PairEdge ga g q (pr, w) r := ⟨k, hp, he⟩
    obtain ⟨-, n, hn⟩ := K.gtags _ _ _ hpe
    have ih := ih fun e he => h e (List.mem_cons_of_mem _ he)
    rw [epsActs, hp]
    simp only []
    by_cases h0 : pr.1 = 0
    · rw [if_pos h0]
      refine (Adds.seq (Adds.one (mk inverted 0 (tr fa ga pr.2)) w (two p r) (fun x => do
        let (label, a) ← composeLabel x.1 ga 0 pr.2 inverted
        let s ← visit i (two p r) label w x.2
        pure (a, s)) ?_) ih).congr ?_
      · intro a s hE hO
        simp only [composeLabel_eq hE hO K.fok hn (fun s hs => K.shared q pr.1 pr.2 w r s hpe hs), Res.bind_ok]
      · intro a s hE hO
        rw [composeEps]
        simp only [hp, Res.bind_ok, h0, if_true, composeLabel_eq hE hO K.fok hn (fun s hs => K.shared q pr.1 pr.2 w r s hpe hs)]
        cases visit i (two p r) _ w s <;> rfl
    · rw [if_neg h0]
      refine (Adds.seq Adds.nil ih).congr ?_
      intro a s hE hO
      rw [composeEps]
      simp only [hp, Res.bind_ok, h0, if_false]

theorem composeMatch_adds [Add W] {x o : Int} {n : Name} (hx : Named fa o n) (p q : Nat) (fw : W) (arcs : Row W) (h : ∀ e ∈ arcs, e ∈ row g q) :
    Adds fa start c i (matchActs fa ga inverted x o p fw arcs) (composeMatch ga inverted i x o p fw arcs) := by
  induction arcs with
  | nil => exact Adds.nil.congr fun a s _ _ => rfl
  | cons e arcs ih =>
    obtain ⟨k, r, w⟩ := e
    have he : Edge g q (k, w) r := h _ (List.mem_cons_self ..)
    obtain ⟨pr, hp⟩ := K.gcoded _ _ _ he
    have hpe : PairEdge ga g q (pr, w) r := ⟨k, hp, he⟩
    obtain ⟨⟨n1, hn1⟩, n2, hn2⟩ := K.gtags _ _ _ hpe
    have ih := ih fun e he => h e (List.mem_cons_of_mem _ he)
    have hsame : ∀ a, Ext fa a → a.sameSymbol o ga pr.1 true = fa.sameSymbol o ga pr.1 true := by
      intro a hE
      obtain ⟨r1, h1, h2⟩ := sameSymbol_meets hx hn1
      obtain ⟨r2, h3, h4⟩ := sameSymbol_meets (named_mono hE hx) hn1
      rw [h1, h3]
      congr 1
      rw [Bool.eq_iff_iff, h2, h4]
      exact (Meets.mono_iff hE hx).symm
    obtain ⟨b, hb, -⟩ := sameSymbol_meets hx hn1
    rw [matchActs, hp]
    simp only []
    by_cases h0 : pr.1 ≠ 0 ∧ b = true
    · obtain ⟨h0, rfl⟩ := h0
      rw [if_pos ⟨h0, hb⟩]
      refine (Adds.seq (Adds.one (mk inverted x (tr fa ga pr.2)) (fw + w) (two p r) (fun y => do
        let (label, a) ← composeLabel y.1 ga x pr.2 inverted
        let s ← visit i (two p r) label (fw + w) y.2
        pure (a, s)) ?_) ih).congr ?_
      · intro a s hE hO
        simp only [composeLabel_eq hE hO K.fok hn2 (fun s hs => K.shared q pr.1 pr.2 w r s hpe hs), Res.bind_ok]
      · intro a s hE hO
        rw [composeMatch]
        simp only [hp, Res.bind_ok, hsame a hE, hb, ne_eq, h0, not_false_eq_true, if_true,
          composeLabel_eq hE hO K.fok hn2 (fun s hs => K.shared q pr.1 pr.2 w r s hpe hs)]
        cases visit i (two p r) _ (fw + w) s <;> rfl
    · rw [if_neg (by rw [hb]; simpa using h0)]
      refine (Adds.seq Adds.nil ih).congr ?_
      intro a s hE hO
      rw [composeMatch]
      simp only [hp, Res.bind_ok, hsame a hE, hb]
      by_cases h1 : pr.1 = 0
      · simp [h1]
      · have : b = false := by simpa [h1] using h0
        simp [h1, this]

theorem composeArcs_adds [Add W] (anywhere : Bool) (p q : Nat) (arcs : Row W) (h : ∀ e ∈ arcs, e ∈ row f p) :
    Adds fa start c i (arcActs fa ga inverted g anywhere q arcs) (composeArcs g ga inverted anywhere q i arcs) := by
  induction arcs with
  | nil => exact Adds.nil.congr fun a s _ _ => rfl
  | cons e arcs ih =>
    obtain ⟨k, r, w⟩ := e
    have he : Edge f p (k, w) r := h _ (List.mem_cons_self ..)
    obtain ⟨pr, hp⟩ := K.fcoded _ _ _ he
    have hpe : PairEdge fa f p (pr, w) r := ⟨k, hp, he⟩
    obtain ⟨⟨n1, hn1⟩, n2, hn2⟩ := K.ftags _ _ _ hpe
    have ih := ih fun e he => h e (List.mem_cons_of_mem _ he)
    have hk : HasPair fa k pr := decode_iff.1 hp
    have hno : ∃ n, Named fa (if inverted then pr.1 else pr.2) n := by cases inverted <;> exact ⟨_, by assumption⟩
    obtain ⟨no, hno⟩ := hno
    rw [arcActs, hp]
    simp only []
    have A1 := composeMatch_adds (start := start) (c := c) (i := i) K inverted (x := if inverted then pr.2 else pr.1) hno r q w (row g q) fun e he => he
    have A2 : Adds fa start c i (if anywhere ∧ q = g.initial then [(pr, w, two r q)] else [])
        (fun x => if anywhere ∧ q = g.initial then (do let s ← visit i (two r q) k w x.2; pure (x.1, s)) else .ok x) := by
      split
      · exact Adds.old hk w _
      · exact Adds.nil
    have A3 : Adds fa start c i (if (if inverted then pr.1 else pr.2) = 0 then [(pr, w, two r q)] else [])
        (fun x => if (if inverted then pr.1 else pr.2) = 0 then (do let s ← visit i (two r q) k w x.2; pure (x.1, s)) else .ok x) := by
      by_cases h2 : (if inverted then pr.1 else pr.2) = 0
      · simp only [if_pos h2]; exact Adds.old hk w _
      · simp only [if_neg h2]; exact Adds.nil
    refine ((A1.seq (A2.seq A3)).seq ih).congr ?_
    intro a s hE hO
    rw [composeArcs]
    simp only [decode_iff.2 (hk.mono hE), Res.bind_ok]
    cases composeMatch ga inverted i (if inverted then pr.2 else pr.1) (if inverted then pr.1 else pr.2) r w (row g q) (a, s) with
    | ok x =>
      obtain ⟨a1, s1⟩ := x
      simp only [Res.bind_ok]
      by_cases h1 : anywhere = true ∧ q = g.initial
      · rw [if_pos h1, if_pos h1]
        cases hv : visit i (two r q) k w s1 with
        | ok s2 =>
          simp only [Res.bind_ok, Res.pure_eq]
          by_cases h2 : (if inverted then pr.1 else pr.2) = 0
          · rw [if_pos h2, if_pos h2]
            cases visit i (two r q) k w s2 <;> rfl
          · rw [if_neg h2, if_neg h2]; rfl
        | _ => rfl
      · rw [if_neg h1, if_neg h1]
        simp only [Res.bind_ok, Res.pure_eq]
        by_cases h2 : (if inverted then pr.1 else pr.2) = 0
        · rw [if_pos h2, if_pos h2]
          cases visit i (two r q) k w s1 <;> rfl
        · rw [if_neg h2, if_neg h2]; rfl
    | _ => rfl

end

end Verif.Product
