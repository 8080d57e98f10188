import Verif.Trim.Names
import Verif.Trim.Spec

/-! # The sections of `lt-trim`, by names of symbols -/

namespace Verif.Trim

open Verif.Fst Verif.Alphabet Verif.Compiler
open Verif.Product (Meets Joined Covers Begins IsCompound)

set_option linter.unusedSectionVars false

variable {W : Type} {a b b' : Alphabet}

theorem name_tag {x : Int} {s : UString} (h : Named a x (.tag s)) : x < 0 := by
  rcases h with ⟨-, h⟩ | ⟨h, -⟩
  · cases h
  · exact h

theorem meets_names {x y : Int} {n m : Name} (hx : Named a x n) (hy : Named b y m) : Meets a b x y ↔ NameMeets n m := by
  have ux : ∀ {n'}, Named a x n' ↔ n = n' := fun {n'} => ⟨fun h => Product.named_unique hx h, fun h => h ▸ hx⟩
  have uy : ∀ {n'}, Named b y n' ↔ m = n' := fun {n'} => ⟨fun h => Product.named_unique hy h, fun h => h ▸ hy⟩
  have pos : ∀ {A : Alphabet} {x : Int} {n : Name}, Named A x n → (0 < x ↔ ∃ c, 0 < c ∧ n = .letter c) := by
    rintro A x n (⟨h1, rfl⟩ | ⟨h1, s, -, rfl⟩)
    · constructor
      · intro h; exact ⟨x, h, rfl⟩
      · rintro ⟨c, h, e⟩; cases e; exact h
    · constructor
      · intro h; omega
      · rintro ⟨c, h, e⟩; cases e
  have neg : ∀ {A : Alphabet} {x : Int} {n : Name}, Named A x n → (x < 0 ↔ ∃ s, n = .tag s) := by
    rintro A x n (⟨h1, rfl⟩ | ⟨h1, s, -, rfl⟩)
    · constructor
      · intro h; omega
      · rintro ⟨c, e⟩; cases e
    · exact ⟨fun _ => ⟨s, rfl⟩, fun _ => h1⟩
  unfold Meets NameMeets
  rw [pos hy, pos hx, neg hx, neg hy]
  simp only [ux, uy]
  have h0 : (∃ n', n = n' ∧ m = n') ↔ n = m := ⟨by rintro ⟨_, rfl, rfl⟩; rfl, by rintro rfl; exact ⟨_, rfl, rfl⟩⟩
  rw [h0]

theorem split_left {α β : Type} {R : α → β → Prop} {x1 x2 : List α} {Y : List β} (h : List.Forall₂ R (x1 ++ x2) Y) :
    ∃ u v, List.Forall₂ R x1 u ∧ List.Forall₂ R x2 v ∧ Y = u ++ v := by
  induction x1 generalizing Y with
  | nil => exact ⟨[], Y, .nil, h, rfl⟩
  | cons x xs ih =>
    cases h with
    | cons g gs =>
      obtain ⟨u, v, h1, h2, rfl⟩ := ih gs
      exact ⟨_ :: u, v, .cons g h1, h2, rfl⟩

theorem split_right {α β : Type} {R : α → β → Prop} {y1 y2 : List β} {X : List α} (h : List.Forall₂ R X (y1 ++ y2)) :
    ∃ u v, List.Forall₂ R u y1 ∧ List.Forall₂ R v y2 ∧ X = u ++ v := by
  obtain ⟨u, v, h1, h2, rfl⟩ := split_left (R := fun y x => R x y) (List.Forall₂.flip h)
  exact ⟨u, v, h1.flip, h2.flip, rfl⟩

theorem spelled_named {t : Transducer W} (ht : TagsKnown a t) {x y : List Int} (h : Spelled a t x y) :
    ∃ X Y, List.Forall₂ (Named a) x X ∧ List.Forall₂ (Named a) y Y := by
  obtain ⟨ps, fw, ⟨p, h1, -⟩, rfl, rfl⟩ := h
  have ex : ∀ (xs : List Int), (∀ c ∈ xs, ∃ n, Named a c n) → ∃ X, List.Forall₂ (Named a) xs X := by
    intro xs
    induction xs with
    | nil => exact fun _ => ⟨[], .nil⟩
    | cons c xs ih =>
      intro h
      obtain ⟨n, hn⟩ := h c (List.mem_cons_self ..)
      obtain ⟨X, hX⟩ := ih fun c hc => h c (List.mem_cons_of_mem _ hc)
      exact ⟨n :: X, .cons hn hX⟩
  obtain ⟨X, hX⟩ := ex ((ps.map (·.1.1)).filter (· ≠ 0)) (by
    intro c hc
    obtain ⟨l, hl, rfl⟩ := List.mem_map.1 (List.mem_filter.1 hc).1
    obtain ⟨q, q', he⟩ := path_edge h1 hl
    exact (ht _ _ _ he).1)
  obtain ⟨Y, hY⟩ := ex ((ps.map (·.1.2)).filter (· ≠ 0)) (by
    intro c hc
    obtain ⟨l, hl, rfl⟩ := List.mem_map.1 (List.mem_filter.1 hc).1
    obtain ⟨q, q', he⟩ := path_edge h1 hl
    exact (ht _ _ _ he).2)
  exact ⟨X, Y, hX, hY⟩

/-- The right symbols are those of pairs of the alphabet. -/
theorem spelled_right {t : Transducer W} {x y : List Int} (h : Spelled a t x y) : ∀ c ∈ y, ∃ p ∈ a.spairinv, p.2 = c := by
  obtain ⟨ps, fw, ⟨p, h1, -⟩, rfl, rfl⟩ := h
  intro c hc
  obtain ⟨l, hl, rfl⟩ := List.mem_map.1 (List.mem_filter.1 hc).1
  obtain ⟨q, q', c, hd, -⟩ := path_edge h1 hl
  obtain ⟨i, h2, -⟩ := decode_iff.1 hd
  exact ⟨l.1, List.mem_of_getElem? h2, rfl⟩

theorem pairEdge_ext (he : Ext b b') {t : Transducer W} (hk : ∀ q l p, Edge t q l p → KA b l.1) {q : Nat} {l : Pair × W} {p : Nat} :
    PairEdge b' t q l p ↔ PairEdge b t q l p := by
  constructor
  · rintro ⟨c, h1, h2⟩
    obtain ⟨pr, hpr⟩ := hk _ _ _ h2
    have := (hpr.mono he).pair_unique (decode_iff.1 h1)
    exact ⟨c, decode_iff.2 (this ▸ hpr), h2⟩
  · rintro ⟨c, h1, h2⟩
    exact ⟨c, decode_iff.2 ((decode_iff.1 h1).mono he), h2⟩

theorem spelled_ext (he : Ext b b') {t : Transducer W} (hk : ∀ q l p, Edge t q l p → KA b l.1) {x y : List Int} : Spelled b' t x y ↔ Spelled b t x y := by
  have : PairEdge b' t = PairEdge b t := by
    funext q l p
    exact propext (pairEdge_ext he hk)
  unfold Spelled Spells
  rw [this]

theorem nmaps_ext (he : Ext b b') {t : Transducer W} (hk : ∀ q l p, Edge t q l p → KA b l.1) (ht : TagsKnown b t) {X Y : List Name} :
    NMaps b' t X Y ↔ NMaps b t X Y := by
  constructor
  · rintro ⟨x, y, h1, h2, h3⟩
    rw [spelled_ext he hk] at h1
    obtain ⟨X', Y', k1, k2⟩ := spelled_named ht h1
    have hu : ∀ x n n', Named b' x n → Named b' x n' → n = n' := fun _ _ _ h h' => Product.named_unique h h'
    have e1 := forall2_functional hu h2 (k1.imp fun _ _ h => Tools.named_mono he h)
    have e2 := forall2_functional hu h3 (k2.imp fun _ _ h => Tools.named_mono he h)
    subst e1 e2
    exact ⟨x, y, h1, k1, k2⟩
  · rintro ⟨x, y, h1, h2, h3⟩
    exact ⟨x, y, (spelled_ext he hk).2 h1, h2.imp fun _ _ h => Tools.named_mono he h, h3.imp fun _ _ h => Tools.named_mono he h⟩

theorem biSection_ext [AddCommMonoid W] [LinearOrder W] (he : Ext b b') {t : Transducer W} (h : BiSection b t) : BiSection b' t := by
  have hk := h.piece.known
  refine ⟨⟨h.piece.wf, h.piece.zero, fun q l p e => ?_, h.piece.acc⟩, h.noReturn, ?_, ?_⟩
  · obtain ⟨pr, hp⟩ := hk _ _ _ e
    exact ⟨pr, hp.mono he⟩
  · intro q l p e
    obtain ⟨⟨n, h1⟩, m, h2⟩ := h.tags _ _ _ ((pairEdge_ext he hk).1 e)
    exact ⟨⟨n, Tools.named_mono he h1⟩, m, Tools.named_mono he h2⟩
  · intro q l p e
    obtain ⟨s, h1, h2⟩ := h.queues _ _ _ ((pairEdge_ext he hk).1 e)
    refine ⟨s, ?_, h2⟩
    unfold getSymbol at h1 ⊢
    split
    · next h0 => rw [if_pos h0] at h1; exact h1
    · next h0 =>
      rw [if_neg h0] at h1
      split
      · next h3 =>
        rw [if_pos h3] at h1
        rcases Tools.named_mono he (.inr ⟨h3, s, h1, rfl⟩ : Named b l.1.1 (.tag s)) with ⟨-, h4⟩ | ⟨-, s', h4, h5⟩
        · cases h4
        · cases h5; exact h4
      · next h3 => rw [if_neg h3] at h1; exact h1

/-! ## All sections -/

section
variable [AddCommMonoid W] [LinearOrder W] (names : List UString)

/-- The bilingual sections have a beginning of the analysis, up to some of its tags. -/
def Cov (b : Alphabet) (us : List (UString × Transducer W)) (k : UString) (Y : List Name) : Prop :=
  ∃ Y1 Y2 X Z, Y = Y1 ++ Y2 ∧ (∀ n ∈ Y2, ∃ s, n = .tag s) ∧ List.Forall₂ NameMeets Y1 X ∧ ∃ e ∈ us, Partner names us k e.1 ∧ NMaps b e.2 X Z

theorem forall2_meets {ys xs : List Int} {Y X : List Name} (hy : List.Forall₂ (Named a) ys Y) (hx : List.Forall₂ (Named b) xs X) :
    List.Forall₂ (Meets a b) ys xs ↔ List.Forall₂ NameMeets Y X := by
  induction hy generalizing xs X with
  | nil => cases hx <;> simp
  | cons h _ ih =>
    cases hx with
    | nil => simp
    | cons g gs => rw [List.forall₂_cons, List.forall₂_cons, meets_names h g, ih gs]

/-- The bilingual sections have it, or have an entry that goes on after it. -/
def Beg (b : Alphabet) (us : List (UString × Transducer W)) (k : UString) (Y : List Name) : Prop :=
  Cov names b us k Y ∨ ∃ X X' Z, List.Forall₂ NameMeets Y X ∧ ∃ e ∈ us, Partner names us k e.1 ∧ NMaps b e.2 (X ++ X') Z

/-- The same, for parts with joins between them. -/
def JCov (b : Alphabet) (us : List (UString × Transducer W)) (k : UString) (Y : List Name) : Prop :=
  ∃ (parts : List (List Name)) (last : List Name), Y = (parts.map (· ++ [.letter 0x2b])).flatten ++ last ∧
    (∀ p ∈ parts, Beg names b us k (unmarked p)) ∧ Cov names b us k (unmarked last)

/-- Parts of related lists are related. -/
theorem parts_iff {α β : Type} {R : α → β → Prop} {p : α} {P : β} (hp : ∀ c n, R c n → (c = p ↔ n = P)) {A B : List α → Prop} {A' B' : List β → Prop}
    (hA : ∀ y Y, List.Forall₂ R y Y → (A y ↔ A' Y)) (hB : ∀ y Y, List.Forall₂ R y Y → (B y ↔ B' Y)) {y : List α} {Y : List β} (h : List.Forall₂ R y Y) :
    (∃ (parts : List (List α)) (last : List α), y = (parts.map (· ++ [p])).flatten ++ last ∧ (∀ q ∈ parts, A q) ∧ B last) ↔
      ∃ (parts : List (List β)) (last : List β), Y = (parts.map (· ++ [P])).flatten ++ last ∧ (∀ q ∈ parts, A' q) ∧ B' last := by
  constructor
  · rintro ⟨parts, last, rfl, k1, k2⟩
    induction parts generalizing Y with
    | nil => exact ⟨[], Y, rfl, by simp, (hB _ _ h).1 (by simpa using k2)⟩
    | cons q parts ih =>
      have e : ((q :: parts).map (· ++ [p])).flatten ++ last = q ++ (p :: ((parts.map (· ++ [p])).flatten ++ last)) := by simp
      rw [e] at h
      obtain ⟨u, v, h1, h2, rfl⟩ := split_left h
      cases h2 with
      | cons g gs =>
        obtain ⟨ps, l, rfl, m1, m2⟩ := ih gs (fun q hq => k1 q (List.mem_cons_of_mem _ hq))
        refine ⟨u :: ps, l, by simp [(hp _ _ g).1 rfl], ?_, m2⟩
        intro q' hq'
        rcases List.mem_cons.1 hq' with rfl | hq'
        · exact (hA _ _ h1).1 (k1 q (List.mem_cons_self ..))
        · exact m1 q' hq'
  · rintro ⟨parts, last, rfl, k1, k2⟩
    induction parts generalizing y with
    | nil => exact ⟨[], y, rfl, by simp, (hB _ _ h).2 (by simpa using k2)⟩
    | cons q parts ih =>
      have e : ((q :: parts).map (· ++ [P])).flatten ++ last = q ++ (P :: ((parts.map (· ++ [P])).flatten ++ last)) := by simp
      rw [e] at h
      obtain ⟨u, v, h1, h2, rfl⟩ := split_right h
      cases h2 with
      | cons g gs =>
        obtain ⟨ps, l, rfl, m1, m2⟩ := ih gs (fun q hq => k1 q (List.mem_cons_of_mem _ hq))
        refine ⟨u :: ps, l, by simp [(hp _ _ g).2 rfl], ?_, m2⟩
        intro q' hq'
        rcases List.mem_cons.1 hq' with rfl | hq'
        · exact (hA _ _ h1).2 (k1 q (List.mem_cons_self ..))
        · exact m1 q' hq'

/-- The marks of compounds are left out. -/
theorem covers_names {Q : Int → Prop} {y : List Int} {Y : List Name} (h : List.Forall₂ (fun c n => Named a c n ∧ Q c) y Y) :
    ∃ y0, List.Forall₂ (fun c n => Named a c n ∧ Q c) y0 (unmarked Y) ∧ ∀ y', Covers a b y y' ↔ List.Forall₂ (Meets a b) y0 y' := by
  induction h with
  | nil =>
    refine ⟨[], .nil, fun y' => ⟨fun h => ?_, fun h => ?_⟩⟩
    · cases h; exact .nil
    · cases h; exact .nil
  | @cons c n y Y hc _ ih =>
    obtain ⟨y0, h1, h2⟩ := ih
    have hm : IsCompound a c ↔ n ∈ Product.compoundTags.map Name.tag := by
      unfold IsCompound
      rw [List.mem_map]
      constructor
      · rintro ⟨s, g1, g2⟩
        exact ⟨s, g1, Product.named_unique g2 hc.1⟩
      · rintro ⟨s, g1, rfl⟩
        exact ⟨s, g1, hc.1⟩
    by_cases hn : n ∈ Product.compoundTags.map Name.tag
    · have hcc := hm.2 hn
      refine ⟨y0, ?_, fun y' => ?_⟩
      · unfold unmarked
        rw [List.filter_cons_of_neg (by simpa using hn)]
        exact h1
      · rw [← h2]
        constructor
        · intro h
          cases h with
          | skip _ h => exact h
          | meet g _ _ => exact absurd hcc g
        · exact .skip hcc
    · have hcc : ¬ IsCompound a c := fun h => hn (hm.1 h)
      refine ⟨c :: y0, ?_, fun y' => ?_⟩
      · unfold unmarked
        rw [List.filter_cons_of_pos (by simpa using hn)]
        exact .cons hc h1
      · constructor
        · intro h
          cases h with
          | skip g _ => exact absurd g hcc
          | meet _ g1 g2 => exact .cons g1 ((h2 _).1 g2)
        · intro h
          cases h with
          | cons g1 g2 => exact .meet hcc g1 ((h2 _).2 g2)

/-- A string that can be read is the beginning of one that is accepted. -/
theorem begins_maps {r : Transducer W} (hl : Live r) (hc : Coded b r) {y : List Int} (h : Begins b r y) : ∃ x z, Maps b r (y ++ x) z := by
  obtain ⟨z, g, q, h1⟩ := Product.begins_tr.1 h
  obtain ⟨ms, h2, -⟩ := Product.tr_path.1 h1
  obtain ⟨cs, h3⟩ := pairs_path h2
  obtain ⟨ns, f, w, h4, h5⟩ := hl _ _ h3
  obtain ⟨ds, h6⟩ := path_pairs hc h4
  have h7 : Product.Tr (Product.dir false b r) q _ _ _ f := Product.tr_path.2 ⟨ds, h6, rfl, rfl, rfl⟩
  exact ⟨_, _, maps_tr.2 ⟨f, _, w, h1.append h7, h5⟩⟩

theorem tr_begin {E : Nat → Int → Int → W → Nat → Prop} {q p : Nat} {xs z : List Int} {w : W} (h : Product.Tr E q xs z w p) :
    ∀ x x', xs = x ++ x' → ∃ z' w' p', Product.Tr E q x z' w' p' := by
  induction h with
  | nil q =>
    intro x x' e
    have : x = [] := by
      cases x with
      | nil => rfl
      | cons => cases e
    subst this
    exact ⟨[], 0, q, .nil q⟩
  | @cons q r p c d w v xs ys he _ ih =>
    intro x x' e
    by_cases hc : c = 0
    · subst hc
      obtain ⟨z', w', p', h⟩ := ih x x' (by simpa using e)
      exact ⟨_, _, p', .cons (x := 0) he h⟩
    · rw [Product.cons0_ne hc] at e
      cases x with
      | nil => exact ⟨[], 0, q, .nil q⟩
      | cons c' x =>
        rw [List.cons_append] at e
        obtain ⟨rfl, e'⟩ := List.cons.inj e
        obtain ⟨z', w', p', h⟩ := ih x x' e'
        have := Product.Tr.cons (E := E) he h
        rw [Product.cons0_ne hc] at this
        exact ⟨_, _, p', this⟩

theorem maps_begins {r : Transducer W} {y x z : List Int} (h : Maps b r (y ++ x) z) : Begins b r y := by
  obtain ⟨p, u, v, h1, -⟩ := maps_tr.1 h
  obtain ⟨z', w', p', h2⟩ := tr_begin h1 y x rfl
  exact Product.begins_tr.2 ⟨z', w', p', h2⟩

theorem trimSets_names (hn : [] ∉ names) (ha : Ok a) (hb : Ok b) {ts us : List (UString × Transducer W)} (hts : ∀ e ∈ ts, MonoSection a e.2)
    (hany : ∀ p ∈ a.spairinv, ¬ Named a p.2 (.tag anyChar)) (hgr : ∀ s ∈ a.slexicinv, s ≠ GROUP)
    (hus : ∀ e ∈ us, BiSection b e.2) (hr : ∀ e ∈ us, e.1 ∈ names → Reached e.2) (hlv : ∀ e ∈ us, e.1 ∈ names → Live e.2)
    (haft : ∀ e ∈ us, ∀ e' ∈ us, (e.1 = e'.1 ∧ e.1 ∈ names ∨ e.1 ∉ names ∧ e'.1 ∉ names) →
      ∀ X1 X2 Y1 Y2, NMaps b e.2 X1 Y1 → NMaps b e'.2 (X1 ++ X2) Y2 → ∀ n ∈ X2, IsTag n)
    (hd : us.Pairwise (fun x y => x.1 < y.1)) :
    ∃ rs, trimSets names a ts b us = .ok rs ∧ (rs.map (·.1)).Sublist (ts.map (·.1)) ∧
      (∀ e ∈ rs, ∃ t, (e.1, t) ∈ ts ∧ Piece a e.2 ∧ ∀ X Y, NMaps a e.2 X Y ↔ NMaps a t X Y ∧ JCov names b us e.1 Y) ∧
      ∀ e ∈ ts, ∀ X Y, (X ≠ [] ∨ Y ≠ []) → NMaps a e.2 X Y → JCov names b us e.1 Y → ∃ r, (e.1, r) ∈ rs ∧ NMaps a r X Y := by
  obtain ⟨hb', he, hS⟩ := createLoopbackSymbols_spec hb ha [] .right false
  have hloop := fun p hp s hs => loopback_has_tag hb ha [] .right false p hp s hs
  unfold trimSets
  revert hb' he hS hloop
  generalize hbS : createLoopbackSymbols b [] a .right false = r
  obtain ⟨b', S⟩ := r
  simp only [Side.pick]
  intro hb' he hS hloop
  have hS' : ∀ c, c ∈ S ↔ ∃ p ∈ a.spairinv, ∃ s y, HasTag a p.2 s ∧ HasTag b' y s ∧ HasPair b' c (y, y) := by
    intro c; rw [hS]; simp
  have htag : ∀ {A : Alphabet} {y : Int} {s : UString}, HasTag A y s ↔ Named A y (.tag s) := by
    intro A y s
    constructor
    · intro h; exact .inr ⟨h.neg, s, (tagText_iff h.neg).2 h, rfl⟩
    · rintro (⟨-, h⟩ | ⟨h1, s', h2, h3⟩)
      · cases h
      · cases h3; exact (tagText_iff h1).1 h2
  have hus' : ∀ e ∈ us, BiSection b' e.2 := fun e h => biSection_ext he (hus e h)
  have hM : ∀ e ∈ us, ∀ x, Lefts b' e.2 x → ∃ X Z, List.Forall₂ (Named b') x X ∧ NMaps b e.2 X Z := by
    rintro e h x ⟨z, hz⟩
    rw [maps_spelled] at hz
    obtain ⟨X, Z, k1, k2⟩ := spelled_named (hus' e h).tags hz
    exact ⟨X, Z, k1, (nmaps_ext he (hus e h).piece.known (hus e h).tags).1 ⟨x, z, hz, k1, k2⟩⟩
  obtain ⟨moved, h1, h2⟩ := trimmers_spec names S (fun c => ∃ n, Named b' c n ∧ IsTag n) hn hb' (by
    intro c hc
    obtain ⟨p, hp, s, y, g1, g2, g3⟩ := (hS' c).1 hc
    refine ⟨y, s, g3, g2, hgr s ?_, .tag s, htag.1 g2, s, rfl, ?_⟩
    · obtain ⟨i, hi, -⟩ := g1
      exact List.mem_of_getElem? hi
    · rintro rfl
      exact hany p hp (htag.1 g1)) us hus' hr hlv (by
    intro e h e' h' hm x1 x2 m1 m2 c hc
    obtain ⟨X1, Z1, k1, k2⟩ := hM e h _ m1
    obtain ⟨X, Z, k3, k4⟩ := hM e' h' _ m2
    obtain ⟨X1', X2, j1, j2, rfl⟩ := split_left k3
    have : X1 = X1' := forall2_functional (R := Named b') (fun _ _ _ h h' => Product.named_unique h h') k1 j1
    subst this
    have := haft e h e' h' hm _ _ _ _ k2 k4
    clear m1 m2 k3 k4
    induction j2 with
    | nil => cases hc
    | @cons x n xs ns g _ ih =>
      rcases List.mem_cons.1 hc with rfl | hc
      · exact ⟨n, g, this n (List.mem_cons_self ..)⟩
      · exact ih hc (fun n hn => this n (List.mem_cons_of_mem _ hn))) hd
  rw [h1]
  simp only [Res.bind_ok]
  obtain ⟨rs, g1, g2, g3, g4⟩ := trimSections_spec ha hb' moved (fun k => ⟨(h2 k).wf, (h2 k).coded, (h2 k).tags⟩) ts hts
  have hpass : ∀ k y Y, List.Forall₂ (Named a) y Y → (∀ c ∈ y, ∃ p ∈ a.spairinv, p.2 = c) →
      (((∃ y' z, List.Forall₂ (Meets a b') y y' ∧ Maps b' (chosen moved k) y' z) ↔ Cov names b us k Y) ∧
        ((∃ y' x z, List.Forall₂ (Meets a b') y y' ∧ Maps b' (chosen moved k) (y' ++ x) z) ↔ Beg names b us k Y)) := by
    intro k y Y hyY hy
    have htags : ∀ y' x1 x2, List.Forall₂ (Meets a b') y y' → y' = x1 ++ x2 → (∀ c ∈ x2, ∃ n, Named b' c n ∧ IsTag n) →
        (∃ e ∈ us, Partner names us k e.1 ∧ Lefts b' e.2 x1) → Cov names b us k Y := by
      rintro y' x1 x2 k1 rfl m4 ⟨e, m1, m2, m3⟩
      obtain ⟨X, Z, m5, m6⟩ := hM e m1 _ m3
      obtain ⟨y1, y2, j1, j2, rfl⟩ := split_right k1
      obtain ⟨Y1, Y2, j3, j4, rfl⟩ := split_left hyY
      refine ⟨Y1, Y2, X, Z, rfl, ?_, (forall2_meets j3 m5).1 j1, e, m1, m2, m6⟩
      clear hyY hy k1
      induction j4 generalizing x2 with
      | nil => intro n hn; cases hn
      | @cons c n cs ns q qs ih =>
        cases j2 with
        | @cons _ d _ ds w ws =>
          intro m hm
          rcases List.mem_cons.1 hm with rfl | hm
          · obtain ⟨n', p1, s, rfl, p2⟩ := m4 d (List.mem_cons_self ..)
            rcases (meets_names q p1).1 w with rfl | ⟨rfl, _⟩ | ⟨rfl, _⟩ | ⟨h, _⟩ | ⟨_, h⟩
            · exact ⟨_, rfl⟩
            · exact ⟨_, rfl⟩
            · exact ⟨_, rfl⟩
            · cases h; exact absurd rfl p2
            · exact h
          · exact ih ds (fun c hc => m4 c (List.mem_cons_of_mem _ hc)) ws m hm
    have hback : Cov names b us k Y → ∃ y' z, List.Forall₂ (Meets a b') y y' ∧ Maps b' (chosen moved k) y' z := by
      rintro ⟨Y1, Y2, X, Z, rfl, k1, k2, e, m1, m2, m3⟩
      obtain ⟨y1, y2, j1, j2, rfl⟩ := split_right hyY
      obtain ⟨x1, z1, m4, m5, -⟩ := (nmaps_ext he (hus e m1).piece.known (hus e m1).tags).2 m3
      obtain ⟨x2, m6, m7⟩ : ∃ x2, List.Forall₂ (Meets a b') y2 x2 ∧ ∀ y ∈ x2, ∃ c ∈ S, HasPair b' c (y, y) := by
        have hy : ∀ c ∈ y2, ∃ p ∈ a.spairinv, p.2 = c := fun c hc => hy c (List.mem_append_right _ hc)
        clear hyY htags
        induction j2 with
        | nil => exact ⟨[], .nil, by simp⟩
        | @cons c n cs ns q qs ih =>
          obtain ⟨x2, i1, i2⟩ := ih (fun n hn => k1 n (List.mem_cons_of_mem _ hn)) (fun c hc => by
            rename_i hy0
            rcases List.mem_append.1 hc with hc | hc
            · exact hy0 c (List.mem_append_left _ hc)
            · exact hy c (List.mem_cons_of_mem _ hc)) (fun c hc => hy c (List.mem_cons_of_mem _ hc))
          obtain ⟨s, rfl⟩ := k1 n (List.mem_cons_self ..)
          obtain ⟨p, hp, rfl⟩ := hy c (List.mem_cons_self ..)
          obtain ⟨c', y, l1, l2⟩ := hloop p hp s (htag.2 q)
          refine ⟨y :: x2, .cons (.inl ⟨_, q, htag.1 l1⟩) i1, ?_⟩
          intro y' hy'
          rcases List.mem_cons.1 hy' with rfl | hy'
          · exact ⟨c', (hS' c').2 ⟨p, hp, s, y', htag.2 q, l1, l2⟩, l2⟩
          · exact i2 y' hy'
      obtain ⟨z, hz⟩ := (h2 k).complete x1 x2 ⟨e, m1, m2, z1, maps_spelled.2 m4⟩ m7
      exact ⟨x1 ++ x2, z, List.rel_append ((forall2_meets j1 m5).2 k2) m6, hz⟩
    refine ⟨⟨?_, hback⟩, ?_, ?_⟩
    · rintro ⟨y', z, k1, k2⟩
      obtain ⟨x1, x2, rfl, m1, m4⟩ := (h2 k).sound _ _ k2
      exact htags _ x1 x2 k1 rfl m4 m1
    · rintro ⟨y', x, z, k1, k2⟩
      obtain ⟨x1, x2, e, m1, m4⟩ := (h2 k).sound _ _ k2
      rcases List.append_eq_append_iff.1 e with ⟨d, e1, e2⟩ | ⟨d, e1, e2⟩
      · obtain ⟨e, m1, m2, m3⟩ := m1
        rw [e1] at m3
        obtain ⟨X, Z, m5, m6⟩ := hM e m1 _ m3
        obtain ⟨X1, X2, j1, j2, rfl⟩ := split_left m5
        exact .inr ⟨X1, X2, Z, (forall2_meets hyY j1).1 k1, e, m1, m2, m6⟩
      · exact .inl (htags _ x1 d k1 e1 (fun c hc => m4 c (by rw [e2]; exact List.mem_append_left _ hc)) m1)
    · rintro (h | ⟨X, X', Z, k1, e, m1, m2, m3⟩)
      · obtain ⟨y', z, g1, g2⟩ := hback h
        exact ⟨y', [], z, g1, by rw [List.append_nil]; exact g2⟩
      · obtain ⟨x, z1, m4, m5, -⟩ := (nmaps_ext he (hus e m1).piece.known (hus e m1).tags).2 m3
        obtain ⟨x1, x2, j1, j2, rfl⟩ := split_right m5
        obtain ⟨z, hz⟩ := (h2 k).complete (x1 ++ x2) [] ⟨e, m1, m2, z1, maps_spelled.2 m4⟩ (by simp)
        rw [List.append_nil] at hz
        exact ⟨x1, x2, z, (forall2_meets hyY j1).2 k1, hz⟩
  have both : ∀ y Y, List.Forall₂ (Named a) y Y → (∀ c ∈ y, ∃ p ∈ a.spairinv, p.2 = c) → List.Forall₂ (fun c n => Named a c n ∧ ∃ p ∈ a.spairinv, p.2 = c) y Y := by
    intro y Y h hy
    induction h with
    | nil => exact .nil
    | cons h _ ih => exact .cons ⟨h, hy _ (List.mem_cons_self ..)⟩ (ih fun c hc => hy c (List.mem_cons_of_mem _ hc))
  have apart : ∀ y Y, List.Forall₂ (fun c n => Named a c n ∧ ∃ p ∈ a.spairinv, p.2 = c) y Y → List.Forall₂ (Named a) y Y ∧ ∀ c ∈ y, ∃ p ∈ a.spairinv, p.2 = c := by
    intro y Y h
    induction h with
    | nil => exact ⟨.nil, by simp⟩
    | cons h _ ih =>
      refine ⟨.cons h.1 ih.1, fun c hc => ?_⟩
      rcases List.mem_cons.1 hc with rfl | hc
      · exact h.2
      · exact ih.2 c hc
  have hjoin : ∀ k y Y, List.Forall₂ (Named a) y Y → (∀ c ∈ y, ∃ p ∈ a.spairinv, p.2 = c) → (Joined a b' (chosen moved k) y ↔ JCov names b us k Y) := by
    intro k y Y hyY hy
    have plus : ∀ c n, (Named a c n ∧ ∃ p ∈ a.spairinv, p.2 = c) → (c = 0x2b ↔ n = .letter 0x2b) := by
      rintro c n ⟨h, -⟩
      rcases h with ⟨h1, rfl⟩ | ⟨h1, s, -, rfl⟩
      · constructor
        · rintro rfl; rfl
        · intro e; cases e; rfl
      · constructor
        · rintro rfl; omega
        · intro e; cases e
    have hcov : ∀ y Y, List.Forall₂ (fun c n => Named a c n ∧ ∃ p ∈ a.spairinv, p.2 = c) y Y →
        ((∃ y' z g, Covers a b' y y' ∧ Relates b' (chosen moved k) y' z g) ↔ Cov names b us k (unmarked Y)) := by
      intro y Y h
      obtain ⟨y0, h1, h2⟩ := covers_names (b := b') h
      obtain ⟨h3, h4⟩ := apart _ _ h1
      rw [← (hpass k y0 _ h3 h4).1]
      constructor
      · rintro ⟨y', z, g, g1, g2⟩; exact ⟨y', z, (h2 y').1 g1, g, g2⟩
      · rintro ⟨y', z, g1, g, g2⟩; exact ⟨y', z, g, (h2 y').2 g1, g2⟩
    constructor
    · intro hJ
      have hl : Live (chosen moved k) := by
        obtain ⟨-, last, -, -, y', z, g, -, g2⟩ := hJ
        obtain ⟨x1, x2, -, m1, -⟩ := (h2 k).sound _ _ ⟨g, g2⟩
        exact (h2 k).live ⟨x1, m1⟩
      refine (parts_iff plus (fun y Y h => ?_) hcov (both _ _ hyY hy)).1 hJ
      obtain ⟨y0, h3, h4⟩ := covers_names (b := b') h
      obtain ⟨h5, h6⟩ := apart _ _ h3
      rw [← (hpass k y0 _ h5 h6).2]
      constructor
      · rintro ⟨y', g1, g2⟩
        obtain ⟨x, z, g3⟩ := begins_maps hl (h2 k).coded g2
        exact ⟨y', x, z, (h4 y').1 g1, g3⟩
      · rintro ⟨y', x, z, g1, g2⟩
        exact ⟨y', (h4 y').2 g1, maps_begins g2⟩
    · intro hJ
      have hl : Live (chosen moved k) := by
        obtain ⟨-, last, -, -, hJ⟩ := hJ
        obtain ⟨Y1, Y2, X, Z, -, -, -, e, m1, m2, m3⟩ := hJ
        obtain ⟨x, z1, m4, -⟩ := (nmaps_ext he (hus e m1).piece.known (hus e m1).tags).2 m3
        exact (h2 k).live ⟨x, e, m1, m2, z1, maps_spelled.2 m4⟩
      refine (parts_iff plus (fun y Y h => ?_) hcov (both _ _ hyY hy)).2 hJ
      obtain ⟨y0, h3, h4⟩ := covers_names (b := b') h
      obtain ⟨h5, h6⟩ := apart _ _ h3
      rw [← (hpass k y0 _ h5 h6).2]
      constructor
      · rintro ⟨y', g1, g2⟩
        obtain ⟨x, z, g3⟩ := begins_maps hl (h2 k).coded g2
        exact ⟨y', x, z, (h4 y').1 g1, g3⟩
      · rintro ⟨y', x, z, g1, g2⟩
        exact ⟨y', (h4 y').2 g1, maps_begins g2⟩
  refine ⟨rs, g1, g2, ?_, ?_⟩
  · intro e h
    obtain ⟨t, k1, k2, k3⟩ := g3 e h
    refine ⟨t, k1, k2, fun X Y => ?_⟩
    constructor
    · rintro ⟨x, y, m1, m2, m3⟩
      obtain ⟨m4, m5⟩ := (k3 x y).1 (maps_spelled.2 m1)
      rw [maps_spelled] at m4
      exact ⟨⟨x, y, m4, m2, m3⟩, (hjoin _ _ _ m3 (spelled_right m4)).1 m5⟩
    · rintro ⟨⟨x, y, m1, m2, m3⟩, m5⟩
      exact ⟨x, y, maps_spelled.1 ((k3 x y).2 ⟨maps_spelled.2 m1, (hjoin _ _ _ m3 (spelled_right m1)).2 m5⟩), m2, m3⟩
  · rintro e h X Y hXY ⟨x, y, m1, m2, m3⟩ m5
    have hxy : x ≠ [] ∨ y ≠ [] := by
      rcases hXY with h | h
      · left; rintro rfl; cases m2; exact h rfl
      · right; rintro rfl; cases m3; exact h rfl
    obtain ⟨r, q1, q2⟩ := g4 e h x y hxy (maps_spelled.2 m1) ((hjoin _ _ _ m3 (spelled_right m1)).2 m5)
    exact ⟨r, q1, x, y, maps_spelled.1 q2, m2, m3⟩

end

end Verif.Trim
