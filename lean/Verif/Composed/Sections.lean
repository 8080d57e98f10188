import Verif.Composed.Spec
import Verif.Trim.File
import Verif.Product.Props

/-! # The sections of `lt-compose` -/

namespace Verif.Composed

open Verif.Fst Verif.Alphabet Verif.Product Verif.Compiler
open Verif.Trim (Piece NoReturn Maps Spelled NMaps NameMeets unite unite_spec minimize_piece coded_known known_coded accRel_maps maps_spelled spelled_named
  forall2_functional forall2_meets path_edge no_arcs nmaps_ext spelled_ext)
open Verif.Tools (Sane Symbol)

set_option linter.unusedSectionVars false

variable {W : Type} {a b : Alphabet}

theorem sane_named (h : Sane a) {p : Pair} (hp : p ∈ a.spairinv) : (∃ n, Named a p.1 n) ∧ ∃ n, Named a p.2 n := by
  have := h.symbols p hp
  have hn : ∀ x, Symbol a x → ∃ n, Named a x n := by
    rintro x (⟨h, -⟩ | ⟨h, s, hs⟩)
    · exact ⟨_, .inl ⟨h, rfl⟩⟩
    · exact ⟨_, .inr ⟨h, s, hs, rfl⟩⟩
  exact ⟨hn _ this.1, hn _ this.2⟩

theorem sane_tags (h : Sane a) (t : Transducer W) : TagsKnown a t := by
  rintro q l p ⟨c, h1, -⟩
  obtain ⟨i, h2, -⟩ := decode_iff.1 h1
  exact sane_named h (List.mem_of_getElem? h2)

theorem symbol_ext {a' : Alphabet} (he : Ext a a') {x : Int} (h : Symbol a x) : Symbol a' x := by
  rcases h with h | ⟨h, s, hs⟩
  · exact .inl h
  · exact .inr ⟨h, s, (tagText_iff h).2 (((tagText_iff h).1 hs).mono he)⟩

/-- The tags that `u` writes are known in `a`. -/
def Shares (a b : Alphabet) (u : Transducer W) : Prop := ∀ q x z w r s, PairEdge b u q ((x, z), w) r → Named b z (.tag s) → ∃ y, Named a y (.tag s)

theorem Shares.ext {a' : Alphabet} (he : Ext a a') {u : Transducer W} (h : Shares a b u) : Shares a' b u := by
  intro q x z w r s h1 h2
  obtain ⟨y, hy⟩ := h q x z w r s h1 h2
  exact ⟨y, Tools.named_mono he hy⟩

theorem edge_symbols (h : Sane a) {t : Transducer W} {q : Nat} {l : Pair × W} {p : Nat} (he : PairEdge a t q l p) : Symbol a l.1.1 ∧ Symbol a l.1.2 := by
  obtain ⟨c, h1, -⟩ := he
  obtain ⟨i, h2, -⟩ := decode_iff.1 h1
  exact h.symbols _ (List.mem_of_getElem? h2)

theorem tr_symbol (ha : Sane a) (hb : Sane b) {u : Transducer W} (hs : Shares a b u) {q : Nat} {x z : Int} {w : W} {r : Nat} (he : PairEdge b u q ((x, z), w) r) :
    Symbol a (tr a b z) := by
  obtain ⟨-, h⟩ := edge_symbols hb he
  simp only at h
  unfold tr
  rcases h with ⟨h1, h2⟩ | ⟨h1, s, h2⟩
  · rw [if_pos h1]; exact .inl ⟨h1, h2⟩
  · rw [if_neg (by omega), h2]
    simp only
    obtain ⟨y, hy⟩ := hs q x z w r s he (.inr ⟨h1, s, h2, rfl⟩)
    rcases hy with ⟨-, hy⟩ | ⟨h3, s', h4, h5⟩
    · cases hy
    · cases h5
      rw [symCode_of_hasTag ha.ok ((tagText_iff h3).1 h4)]
      exact .inr ⟨h3, s, h4⟩

/-! ## One section -/

section
variable [AddCommMonoid W] [LinearOrder W]

/-- The second transducer. -/
structure Second (b : Alphabet) (u : Transducer W) : Prop where
  wf : WF u
  coded : Coded b u
  zero : ZeroFinals u

/-- `X` is on the right side if `inverted`. -/
def NDir (inverted : Bool) (a : Alphabet) (t : Transducer W) (X Y : List Name) : Prop := if inverted then NMaps a t Y X else NMaps a t X Y

def SDir (inverted : Bool) (a : Alphabet) (t : Transducer W) (x y : List Int) : Prop := if inverted then Spelled a t y x else Spelled a t x y

theorem relates_sdir {inverted : Bool} {t : Transducer W} {x y : List Int} : (∃ w, RelatesDir inverted a t x y w) ↔ SDir inverted a t x y := by
  unfold RelatesDir SDir
  cases inverted
  · exact maps_spelled
  · exact maps_spelled

theorem ndir_sdir {inverted : Bool} {t : Transducer W} {X Y : List Name} :
    NDir inverted a t X Y ↔ ∃ x y, SDir inverted a t x y ∧ List.Forall₂ (Named a) x X ∧ List.Forall₂ (Named a) y Y := by
  unfold NDir SDir
  cases inverted
  · exact Iff.rfl
  · constructor
    · rintro ⟨x, y, h1, h2, h3⟩; exact ⟨y, x, h1, h3, h2⟩
    · rintro ⟨x, y, h1, h2, h3⟩; exact ⟨y, x, h1, h3, h2⟩

theorem sdir_named {inverted : Bool} {t : Transducer W} (ht : TagsKnown a t) {x y : List Int} (h : SDir inverted a t x y) :
    ∃ X Y, List.Forall₂ (Named a) x X ∧ List.Forall₂ (Named a) y Y := by
  unfold SDir at h
  cases inverted
  · exact spelled_named ht h
  · obtain ⟨X, Y, h1, h2⟩ := spelled_named ht h
    exact ⟨Y, X, h2, h1⟩

theorem ndir_ext {a' : Alphabet} (he : Ext a a') {inverted : Bool} {t : Transducer W} (hk : ∀ q l p, Edge t q l p → KA a l.1) (ht : TagsKnown a t) {X Y : List Name} :
    NDir inverted a' t X Y ↔ NDir inverted a t X Y := by
  unfold NDir
  cases inverted
  · exact nmaps_ext he hk ht
  · exact nmaps_ext he hk ht

theorem same_back {u : Transducer W} (hs : Shares a b u) {y z' : List Int} (h : Spelled b u y z') {Z : List Name} (hZ : List.Forall₂ (Named b) z' Z) :
    ∃ z, List.Forall₂ (Same a b) z z' ∧ List.Forall₂ (Named a) z Z := by
  obtain ⟨ps, fw, ⟨p, h1, -⟩, rfl, rfl⟩ := h
  have hm : ∀ c ∈ (ps.map (·.1.2)).filter (· ≠ 0), ∀ s, Named b c (.tag s) → ∃ y, Named a y (.tag s) := by
    intro c hc s hn
    obtain ⟨l, hl, rfl⟩ := List.mem_map.1 (List.mem_filter.1 hc).1
    obtain ⟨q, q', he⟩ := path_edge h1 hl
    exact hs q l.1.1 l.1.2 l.2 q' s he hn
  revert hm
  generalize (ps.map (·.1.2)).filter (· ≠ 0) = zs at hZ
  intro hm
  induction hZ with
  | nil => exact ⟨[], .nil, .nil⟩
  | @cons c n cs ns hn _ ih =>
    obtain ⟨z, k1, k2⟩ := ih fun c hc => hm c (List.mem_cons_of_mem _ hc)
    have : ∃ y, Named a y n := by
      cases n with
      | letter m =>
        rcases hn with ⟨h3, h4⟩ | ⟨-, s, -, h4⟩
        · cases h4; exact ⟨_, .inl ⟨h3, rfl⟩⟩
        · cases h4
      | tag s => exact hm c (List.mem_cons_self ..) s hn
    obtain ⟨y, hy⟩ := this
    exact ⟨y :: z, .cons ⟨n, hy, hn⟩ k1, .cons hy k2⟩

theorem same_names {a' : Alphabet} (he : Ext a a') {z z' : List Int} {Z : List Name} (h : List.Forall₂ (Same a b) z z') (hz : List.Forall₂ (Named a') z Z) :
    List.Forall₂ (Named b) z' Z := by
  induction h generalizing Z with
  | nil => cases hz; exact .nil
  | cons h _ ih =>
    cases hz with
    | cons g gs =>
      obtain ⟨n, h1, h2⟩ := h
      rw [Product.named_unique g (Tools.named_mono he h1)]
      exact .cons h2 (ih gs)

theorem names_meet {y y' : List Int} {Y Y' : List Name} (h : List.Forall₂ (Named a) y Y) (h' : List.Forall₂ (Named b) y' Y') :
    List.Forall₂ (Meets a b) y y' ↔ List.Forall₂ NameMeets Y Y' := forall2_meets h h'

/-- What `compose` makes of a section. -/
theorem compose_any (ha : Sane a) (hb : Sane b) {t u : Transducer W} (ht : Piece a t) (hu : Second b u) (hs : Shares a b u) (inverted anywhere : Bool) :
    ∃ a' r t', compose t u a b inverted anywhere 0 = .ok (a', r) ∧ Ext a a' ∧ Sane a' ∧ a'.slexicinv = a.slexicinv ∧ (r.finals ≠ [] → Piece a' r) ∧
      Coded a' r ∧ Known a b t' u ∧ ∀ x z, SDir inverted a' r x z ↔ ∃ y w, SDir inverted a t x y ∧ GRel a b u anywhere y z w := by
  have hC : Composable a b t u := ⟨ha.ok, hb.ok, ht.wf, hu.wf, coded_known ht.known, hu.coded, sane_tags ha t, sane_tags hb u, ht.finals, hs⟩
  obtain ⟨t', h1, h2, K, h3, -⟩ := hC.joined
  obtain ⟨a', r, k1, k2, k3, k4, k5, k6, k7, -, k8, k9, k10⟩ := composed_relates K h2 hu.wf inverted anywhere
  have hsane : Sane a' := by
    refine ⟨k5, fun s hs => ha.tags s (by rw [← k9]; exact hs), ?_⟩
    intro p hp
    rcases k10 p hp with hp | ⟨n, w, m, hA⟩
    · exact ⟨symbol_ext k4 (ha.symbols p hp).1, symbol_ext k4 (ha.symbols p hp).2⟩
    · have h0 : Symbol a 0 := .inl ⟨le_refl _, by norm_num⟩
      have hmk : ∀ x y, Symbol a x → Symbol a y → Symbol a' (Product.mk inverted x y).1 ∧ Symbol a' (Product.mk inverted x y).2 := by
        intro x y hx hy
        unfold Product.mk
        cases inverted
        · exact ⟨symbol_ext k4 hx, symbol_ext k4 hy⟩
        · exact ⟨symbol_ext k4 hy, symbol_ext k4 hx⟩
      have hun : ∀ x y, Symbol a (Product.mk inverted x y).1 ∧ Symbol a (Product.mk inverted x y).2 → Symbol a x ∧ Symbol a y := by
        intro x y hxy
        unfold Product.mk at hxy
        cases inverted
        · exact hxy
        · exact hxy.symm
      rcases hA with ⟨z, q, g1, rfl, -⟩ | ⟨x, o, v, q, g1, ⟨y, z, u', q', g2, -, -, rfl, -⟩ | ⟨-, rfl, -⟩⟩
      · exact hmk _ _ h0 (tr_symbol ha hb hs g1)
      · exact hmk _ _ (hun x o (edge_symbols ha g1)).1 (tr_symbol ha hb hs g2)
      · have := hun x o (edge_symbols ha g1)
        exact hmk _ _ this.1 this.2
  refine ⟨a', r, t', ?_, k4, hsane, k9, ?_, k3, K, ?_⟩
  · unfold compose; rw [h1]; exact k1
  · intro hne
    refine ⟨k2, ?_, known_coded k3, ?_⟩
    · intro p w hf
      obtain ⟨⟨m, hm⟩, -⟩ := k8 p w hf
      obtain ⟨v1, v2, g1, g2, rfl⟩ := (finalOf_iff h2 hu.wf anywhere m w).1 hm
      obtain ⟨o, f, j1, -, -, j4, -⟩ := joinFinals_zero ht.wf 0 ht.finals ht.zero.noLone
      rw [h1] at j1
      cases j1
      unfold Final at g1
      rw [j4] at g1
      simp only [List.mem_singleton, Prod.mk.injEq] at g1
      rcases g2 with g2 | ⟨-, -, -, g2⟩
      · rw [g1.2, hu.zero _ _ g2, add_zero]
      · rw [g1.2, g2, add_zero]
    · obtain ⟨⟨p, w⟩, hp⟩ := List.exists_mem_of_ne_nil _ hne
      obtain ⟨-, ls, h⟩ := k8 p w hp
      exact ⟨ls, p, w, h, hp⟩
  · intro x z
    constructor
    · intro h
      obtain ⟨w, hw⟩ := relates_sdir.2 h
      obtain ⟨y, w1, w2, m1, m2, -⟩ := k6 x z w hw
      exact ⟨y, w2, relates_sdir.1 ⟨w1, (h3 _ _ _ _).1 m1⟩, m2⟩
    · rintro ⟨y, w2, m1, m2⟩
      obtain ⟨w1, m1⟩ := relates_sdir.2 m1
      obtain ⟨w, hw⟩ := k7 x y z w1 w2 ((h3 _ _ _ _).2 m1) m2
      exact relates_sdir.1 ⟨w, hw⟩

/-- What the section of the first file and the transducer `u` are to be made into. -/
def Makes (inverted anywhere : Bool) (a b : Alphabet) (t u : Transducer W) (G : List Name → List Name → Prop) : Prop :=
  ∃ a' r, compose t u a b inverted anywhere 0 = .ok (a', r) ∧ Ext a a' ∧ Sane a' ∧ a'.slexicinv = a.slexicinv ∧ (r.finals ≠ [] → Piece a' r) ∧
    ∀ X Z, NDir inverted a' r X Z ↔ ∃ Y, NDir inverted a t X Y ∧ G Y Z

/-- What `u` makes of `Y`. -/
def Whole (b : Alphabet) (u : Transducer W) (Y Z : List Name) : Prop := ∃ Y', List.Forall₂ NameMeets Y Y' ∧ NMaps b u Y' Z

/-- What `u` makes of an end of `Y`. -/
def Ends (b : Alphabet) (u : Transducer W) (Y Z : List Name) : Prop := Z = Y ∨ ∃ K Y1 Z1, Y = K ++ Y1 ∧ Z = K ++ Z1 ∧ Whole b u Y1 Z1

theorem whole_of (hb : Sane b) {u : Transducer W} {a' : Alphabet} (he : Ext a a') {y y' z z' : List Int} {Y Z : List Name} (hy : List.Forall₂ (Named a) y Y)
    (hz : List.Forall₂ (Named a') z Z) (h1 : List.Forall₂ (Meets a b) y y') (h2 : Maps b u y' z') (h3 : List.Forall₂ (Same a b) z z') : Whole b u Y Z := by
  have h2 := maps_spelled.1 h2
  obtain ⟨Y', Z', j3, -⟩ := spelled_named (sane_tags hb u) h2
  exact ⟨Y', (names_meet hy j3).1 h1, y', z', h2, j3, same_names he h3 hz⟩

theorem of_whole {u : Transducer W} (hs : Shares a b u) {y : List Int} {Y Z : List Name} (hy : List.Forall₂ (Named a) y Y) (h : Whole b u Y Z) :
    ∃ y' z z', List.Forall₂ (Named a) z Z ∧ List.Forall₂ (Meets a b) y y' ∧ Maps b u y' z' ∧ List.Forall₂ (Same a b) z z' := by
  obtain ⟨Y', g2, y', z', g3, g4, g5⟩ := h
  obtain ⟨z, m4, m5⟩ := same_back hs g3 g5
  exact ⟨y', z, z', m5, (names_meet hy g4).2 g2, maps_spelled.2 g3, m4⟩

theorem compose_section (ha : Sane a) (hb : Sane b) {t u : Transducer W} (ht : Piece a t) (hu : Second b u) (hs : Shares a b u) (inverted : Bool) :
    Makes inverted false a b t u (Whole b u) := by
  obtain ⟨a', r, t', h1, k4, h3, h4, h5, h6, K, h7⟩ := compose_any ha hb ht hu hs inverted false
  refine ⟨a', r, h1, k4, h3, h4, h5, ?_⟩
  intro X Z
  constructor
  · intro h
    obtain ⟨x, z, g1, g2, g3⟩ := ndir_sdir.1 h
    obtain ⟨y, w, m1, m2⟩ := (h7 x z).1 g1
    obtain ⟨y', z', m3, m4, m5⟩ := (gRel_false K).1 m2
    obtain ⟨X', Y, j1, j2⟩ := sdir_named (sane_tags ha t) m1
    have := forall2_functional (R := Named a') (fun _ _ _ h h' => Product.named_unique h h') g2 (j1.imp fun _ _ h => Tools.named_mono k4 h)
    subst this
    exact ⟨Y, ndir_sdir.2 ⟨x, y, m1, j1, j2⟩, whole_of hb k4 j2 g3 m3 ⟨w, m4⟩ m5⟩
  · rintro ⟨Y, g1, g2⟩
    obtain ⟨x, y, m1, m2, m3⟩ := ndir_sdir.1 g1
    obtain ⟨y', z, z', m4, m5, ⟨w, m6⟩, m7⟩ := of_whole hs m3 g2
    exact ndir_sdir.2 ⟨x, z, (h7 x z).2 ⟨y, w, m1, (gRel_false K).2 ⟨y', z', m5, m6, m7⟩⟩, m2.imp fun _ _ h => Tools.named_mono k4 h, m4.imp fun _ _ h => Tools.named_mono k4 h⟩

/-- Putting anything before the entries leads out of the transducer. -/
def NoLoops (b : Alphabet) (u : Transducer W) : Prop :=
  ∀ U V, (∀ Y Z, NMaps b u Y Z → NMaps b u (U ++ Y) (V ++ Z)) → U = [] ∧ V = []

theorem noLoops (hb : Sane b) {u : Transducer W} (h : NoLoops b u) {y z : List Int} {w : W} (hl : Loops b u y z w) : y = [] ∧ z = [] := by
  obtain ⟨ls, h1, rfl, rfl, -⟩ := hl
  have ex : ∀ (xs : List Int), (∀ c ∈ xs, ∃ n, Named b c n) → ∃ X, List.Forall₂ (Named b) xs X := by
    intro xs
    induction xs with
    | nil => exact fun _ => ⟨[], .nil⟩
    | cons c xs ih =>
      intro h
      obtain ⟨n, hn⟩ := h c (List.mem_cons_self ..)
      obtain ⟨X, hX⟩ := ih fun c hc => h c (List.mem_cons_of_mem _ hc)
      exact ⟨n :: X, .cons hn hX⟩
  obtain ⟨U, hU⟩ := ex ((ls.map (·.1.1)).filter (· ≠ 0)) (by
    intro c hc
    obtain ⟨l, hl, rfl⟩ := List.mem_map.1 (List.mem_filter.1 hc).1
    obtain ⟨q, q', he⟩ := path_edge h1 hl
    exact (sane_tags hb u _ _ _ he).1)
  obtain ⟨V, hV⟩ := ex ((ls.map (·.1.2)).filter (· ≠ 0)) (by
    intro c hc
    obtain ⟨l, hl, rfl⟩ := List.mem_map.1 (List.mem_filter.1 hc).1
    obtain ⟨q, q', he⟩ := path_edge h1 hl
    exact (sane_tags hb u _ _ _ he).2)
  obtain ⟨rfl, rfl⟩ := h U V (by
    rintro Y Z ⟨x, y, ⟨ps, fw, ⟨p, g1, g2⟩, rfl, rfl⟩, g3, g4⟩
    refine ⟨_, _, ⟨ls ++ ps, fw, ⟨p, h1.append g1, g2⟩, rfl, rfl⟩, ?_, ?_⟩
    · rw [List.map_append, List.filter_append]; exact List.rel_append hU g3
    · rw [List.map_append, List.filter_append]; exact List.rel_append hV g4)
  generalize (ls.map (·.1.1)).filter (· ≠ 0) = y at *
  generalize (ls.map (·.1.2)).filter (· ≠ 0) = z at *
  cases hU; cases hV
  exact ⟨rfl, rfl⟩

theorem anywhere_sound (hb : Sane b) {u : Transducer W} (hl : NoLoops b u) {y z : List Int} {w : W} (h : Anywhere a b u y z w) :
    z = y ∨ ∃ k y1 z1 y' z', y = k ++ y1 ∧ z = k ++ z1 ∧ List.Forall₂ (Meets a b) y1 y' ∧ Maps b u y' z' ∧ List.Forall₂ (Same a b) z1 z' := by
  induction h with
  | done => exact .inl rfl
  | last h1 h2 h3 => exact .inr ⟨[], _, _, _, _, rfl, rfl, h1, ⟨_, h2⟩, h3⟩
  | @keep c y z w _ _ ih =>
    rcases ih with rfl | ⟨k, y1, z1, y', z', rfl, rfl, h⟩
    · exact .inl rfl
    · exact .inr ⟨c :: k, y1, z1, y', z', rfl, rfl, h⟩
  | loop h1 h2 h3 _ ih =>
    obtain ⟨rfl, rfl⟩ := noLoops hb hl h2
    cases h1; cases h3
    exact ih

theorem anywhere_keep {u : Transducer W} {k y z : List Int} {w : W} (hk : ∀ c ∈ k, c ≠ 0) (h : Anywhere a b u y z w) : Anywhere a b u (k ++ y) (k ++ z) w := by
  induction k with
  | nil => exact h
  | cons c k ih => exact .keep (hk c (List.mem_cons_self ..)) (ih fun c hc => hk c (List.mem_cons_of_mem _ hc))

theorem anywhere_end (u : Transducer W) : ∃ w, Anywhere a b u [] [] w := by
  by_cases h : ∃ w, Final u u.initial w
  · obtain ⟨w, hw⟩ := h
    exact ⟨_, .last .nil ⟨[], w, ⟨_, .nil _, hw⟩, rfl, rfl, rfl⟩ .nil⟩
  · exact ⟨0, .done fun w hw => h ⟨w, hw⟩⟩

theorem sdir_nonzero {inverted : Bool} {t : Transducer W} {x y : List Int} (h : SDir inverted a t x y) : ∀ c ∈ y, c ≠ 0 := by
  have : ∀ {x y : List Int}, Spelled a t x y → (∀ c ∈ x, c ≠ 0) ∧ ∀ c ∈ y, c ≠ 0 := by
    rintro x y ⟨ps, fw, -, rfl, rfl⟩
    exact ⟨fun c hc => by simpa using (List.mem_filter.1 hc).2, fun c hc => by simpa using (List.mem_filter.1 hc).2⟩
  unfold SDir at h
  cases inverted
  · exact (this h).2
  · exact (this h).1

theorem compose_anywhere (ha : Sane a) (hb : Sane b) {t u : Transducer W} (ht : Piece a t) (hu : Second b u) (hs : Shares a b u) (hl : NoLoops b u) (inverted : Bool) :
    Makes inverted true a b t u (Ends b u) := by
  obtain ⟨a', r, t', h1, k4, h3, h4, h5, h6, K, h7⟩ := compose_any ha hb ht hu hs inverted true
  refine ⟨a', r, h1, k4, h3, h4, h5, ?_⟩
  intro X Z
  constructor
  · intro h
    obtain ⟨x, z, g1, g2, g3⟩ := ndir_sdir.1 h
    obtain ⟨y, w, m1, m2⟩ := (h7 x z).1 g1
    obtain ⟨X', Y, j1, j2⟩ := sdir_named (sane_tags ha t) m1
    have := forall2_functional (R := Named a') (fun _ _ _ h h' => Product.named_unique h h') g2 (j1.imp fun _ _ h => Tools.named_mono k4 h)
    subst this
    refine ⟨Y, ndir_sdir.2 ⟨x, y, m1, j1, j2⟩, ?_⟩
    rcases anywhere_sound hb hl ((gRel_true K).1 m2) with rfl | ⟨k, y1, z1, y', z', rfl, rfl, m3, m4, m5⟩
    · exact .inl (forall2_functional (R := Named a') (fun _ _ _ h h' => Product.named_unique h h') g3 (j2.imp fun _ _ h => Tools.named_mono k4 h))
    · obtain ⟨K1, Y1, q1, q2, rfl⟩ := Trim.split_left j2
      obtain ⟨K2, Z1, q3, q4, rfl⟩ := Trim.split_left g3
      have := forall2_functional (R := Named a') (fun _ _ _ h h' => Product.named_unique h h') q3 (q1.imp fun _ _ h => Tools.named_mono k4 h)
      subst this
      exact .inr ⟨K2, Y1, Z1, rfl, rfl, whole_of hb k4 q2 q4 m3 m4 m5⟩
  · rintro ⟨Y, g1, g2⟩
    obtain ⟨x, y, m1, m2, m3⟩ := ndir_sdir.1 g1
    have hnz := sdir_nonzero m1
    rcases g2 with rfl | ⟨K1, Y1, Z1, rfl, rfl, g2⟩
    · obtain ⟨w, hw⟩ := anywhere_end (a := a) (b := b) u
      have hw := anywhere_keep hnz hw
      rw [List.append_nil] at hw
      exact ndir_sdir.2 ⟨x, y, (h7 x y).2 ⟨y, w, m1, (gRel_true K).2 hw⟩, m2.imp fun _ _ h => Tools.named_mono k4 h, m3.imp fun _ _ h => Tools.named_mono k4 h⟩
    · obtain ⟨k, y1, q1, q2, rfl⟩ := Trim.split_right m3
      obtain ⟨y', z, z', m4, m5, ⟨w, m6⟩, m7⟩ := of_whole hs q2 g2
      have hw := anywhere_keep (k := k) (fun c hc => hnz c (List.mem_append_left _ hc)) (Anywhere.last m5 m6 m7)
      exact ndir_sdir.2 ⟨x, k ++ z, (h7 x _).2 ⟨_, w, m1, (gRel_true K).2 hw⟩, m2.imp fun _ _ h => Tools.named_mono k4 h,
        List.rel_append (q1.imp fun _ _ h => Tools.named_mono k4 h) (m4.imp fun _ _ h => Tools.named_mono k4 h)⟩

theorem no_arcs_names {t : Transducer W} (h : numberOfTransitions t = 0) {inverted : Bool} {X Y : List Name} (hm : NDir inverted a t X Y) : X = [] ∧ Y = [] := by
  obtain ⟨x, y, g1, g2, g3⟩ := ndir_sdir.1 hm
  have : x = [] ∧ y = [] := by
    unfold SDir at g1
    cases inverted
    · exact no_arcs (a := a) h (maps_spelled.2 g1)
    · exact (no_arcs (a := a) h (maps_spelled.2 g1)).symm
  obtain ⟨rfl, rfl⟩ := this
  cases g2; cases g3
  exact ⟨rfl, rfl⟩

theorem piece_ext {a' : Alphabet} (he : Ext a a') {t : Transducer W} (h : Piece a t) : Piece a' t :=
  ⟨h.wf, h.zero, fun q l p e => by
    obtain ⟨pr, hp⟩ := h.known _ _ _ e
    exact ⟨pr, hp.mono he⟩, h.acc⟩

/-! ## All sections -/

/-- The pairs of the composition of a section. -/
def Thru (inverted : Bool) (a : Alphabet) (t : Transducer W) (G : List Name → List Name → Prop) (X Z : List Name) : Prop := ∃ Y, NDir inverted a t X Y ∧ G Y Z

theorem composeSections_spec {fa : Alphabet} (hfa : Sane fa) {u : Transducer W} (inverted anywhere : Bool) (G : List Name → List Name → Prop)
    (hG : ∀ a t, Ext fa a → Sane a → Piece a t → Makes inverted anywhere a b t u G) (ts : List (UString × Transducer W)) (hts : ∀ e ∈ ts, Piece fa e.2) : ∀ a, Ext fa a → Sane a →
    ∃ a' rs, composeSections u b inverted anywhere ts a = .ok (a', rs) ∧ Ext a a' ∧ Sane a' ∧ a'.slexicinv = a.slexicinv ∧ (rs.map (·.1)).Sublist (ts.map (·.1)) ∧
      (∀ e ∈ rs, ∃ t, (e.1, t) ∈ ts ∧ Piece a' e.2 ∧ numberOfTransitions t ≠ 0 ∧ ∀ X Z, NDir inverted a' e.2 X Z ↔ Thru inverted fa t G X Z) ∧
      ∀ e ∈ ts, numberOfTransitions e.2 ≠ 0 → ∀ X Z, Thru inverted fa e.2 G X Z → ∃ r, (e.1, r) ∈ rs ∧ NDir inverted a' r X Z := by
  induction ts with
  | nil => exact fun a he ha => ⟨a, [], rfl, .refl a, ha, rfl, .slnil, by simp, by simp⟩
  | cons e ts ih =>
    obtain ⟨k, t⟩ := e
    have ih := ih fun e he => hts e (List.mem_cons_of_mem _ he)
    intro a he ha
    rw [composeSections]
    split
    · next hn =>
      obtain ⟨a', rs, h1, h2, h3, h4, h5, h6, h7⟩ := ih a he ha
      refine ⟨a', rs, h1, h2, h3, h4, h5.trans (List.sublist_cons_self ..), ?_, ?_⟩
      · intro e he
        obtain ⟨t', g1, g2⟩ := h6 e he
        exact ⟨t', List.mem_cons_of_mem _ g1, g2⟩
      · intro e he hne X Z hT
        rcases List.mem_cons.1 he with rfl | he
        · exact absurd hn hne
        · exact h7 e he hne X Z hT
    · next hn =>
      have hP := hts _ (List.mem_cons_self ..)
      simp only at hP
      obtain ⟨a1, r, g1, g2, g3, g4, g5, g7⟩ := hG a t he ha (piece_ext he hP)
      have g7 : ∀ X Z, NDir inverted a1 r X Z ↔ Thru inverted fa t G X Z := by
        intro X Z
        rw [g7]
        unfold Thru
        simp only [ndir_ext he hP.known (sane_tags hfa t)]
      rw [g1]
      simp only [Res.bind_ok]
      obtain ⟨a', rs, h1, h2, h3, h4, h5, h6, h7⟩ := ih a1 (he.trans g2) g3
      have h6' : ∀ e ∈ rs, ∃ t', (e.1, t') ∈ (k, t) :: ts ∧ Piece a' e.2 ∧ numberOfTransitions t' ≠ 0 ∧ ∀ X Z, NDir inverted a' e.2 X Z ↔ Thru inverted fa t' G X Z := fun e he => by
        obtain ⟨t', g1, g2⟩ := h6 e he
        exact ⟨t', List.mem_cons_of_mem _ g1, g2⟩
      by_cases hr : r.finals = []
      · rw [hr]
        simp only [List.isEmpty_nil, if_true]
        refine ⟨a', rs, h1, g2.trans h2, h3, h4.trans g4, h5.trans (List.sublist_cons_self ..), h6', ?_⟩
        intro e he hne X Z hT
        rcases List.mem_cons.1 he with rfl | he
        · obtain ⟨x, y, m1, -⟩ := ndir_sdir.1 ((g7 X Z).2 hT)
          exfalso
          have : ∀ x y, ¬ Spelled a1 r x y := by
            rintro x y ⟨ls, fw, ⟨p, -, hf⟩, -⟩
            unfold Final at hf
            rw [hr] at hf
            cases hf
          unfold SDir at m1
          cases inverted
          · exact this _ _ m1
          · exact this _ _ m1
        · exact h7 e he hne X Z hT
      · have hre : r.finals.isEmpty = false := by
          cases hf : r.finals with
          | nil => exact absurd hf hr
          | cons => rfl
        rw [hre]
        simp only [Bool.false_eq_true, if_false]
        have hP1 := g5 hr
        obtain ⟨r', j1, j2, -, j4, -⟩ := minimize_piece g3.ok hP1
        have hM : ∀ X Z, NDir inverted a' r' X Z ↔ Thru inverted fa t G X Z := by
          intro X Z
          rw [ndir_ext h2 j2.known (sane_tags g3 r'), ← g7]
          have : ∀ x y, Spelled a1 r' x y ↔ Spelled a1 r x y := by
            intro x y
            rw [← maps_spelled, ← maps_spelled, ← accRel_maps (coded_known j2.known), j4, accRel_maps (coded_known hP1.known)]
          unfold NDir NMaps
          simp only [this]
        refine ⟨a', (k, r') :: rs, ?_, g2.trans h2, h3, h4.trans g4, h5.cons_cons k, ?_, ?_⟩
        · rw [j1]
          simp only [Res.bind_ok]
          rw [h1]; rfl
        · intro e he
          rcases List.mem_cons.1 he with rfl | he
          · exact ⟨t, List.mem_cons_self .., piece_ext h2 j2, hn, hM⟩
          · exact h6' e he
        · intro e he hne X Z hT
          rcases List.mem_cons.1 he with rfl | he
          · exact ⟨r', List.mem_cons_self .., (hM X Z).2 hT⟩
          · obtain ⟨r'', q1, q2⟩ := h7 e he hne X Z hT
            exact ⟨r'', List.mem_cons_of_mem _ q1, q2⟩

/-! ## The union of the second file -/

theorem uniteAll_spec (hb : Ok b) (us : List (UString × Transducer W)) (hus : ∀ e ∈ us, Piece b e.2 ∧ NoReturn e.2 ∧ Shares a b e.2) :
    ∀ u, (u = Fst.empty ∨ Piece b u ∧ NoReturn u) → Shares a b u →
      ∃ u', uniteAll us u = .ok u' ∧ (u' = Fst.empty ∨ Piece b u' ∧ NoReturn u') ∧ Shares a b u' ∧
        ∀ x y, AccRel b u' u'.initial x y ↔ AccRel b u u.initial x y ∨ ∃ e ∈ us, AccRel b e.2 e.2.initial x y := by
  induction us with
  | nil => exact fun u h1 h2 => ⟨u, rfl, h1, h2, by simp⟩
  | cons e us ih =>
    obtain ⟨k, t⟩ := e
    have ih := ih fun e he => hus e (List.mem_cons_of_mem _ he)
    obtain ⟨hP, hN, hS⟩ := hus _ (List.mem_cons_self ..)
    intro u h1 h2
    obtain ⟨u1, g1, g2, g3, g4, g5⟩ := unite_spec hb hP hN h1
    have g6 : Shares a b u1 := by
      rintro q x z w r s ⟨c, m1, m2⟩ hn
      rcases g5 _ _ _ m2 with ⟨q', w', p', m3 | m3⟩ | m3
      · exact h2 q' x z w' p' s ⟨c, m1, m3⟩ hn
      · exact hS q' x z w' p' s ⟨c, m1, m3⟩ hn
      · simp only at m3
        rw [m3] at m1
        have := (decode_iff.1 m1).pair_unique ⟨0, hb.zero, rfl⟩
        simp only [Prod.mk.injEq] at this
        rw [this.2] at hn
        rcases hn with ⟨-, hn⟩ | ⟨hn, -⟩
        · cases hn
        · cases hn
    obtain ⟨u', j1, j2, j3, j4⟩ := ih u1 (.inr ⟨g2, g3⟩) g6
    refine ⟨u', ?_, j2, j3, ?_⟩
    · rw [uniteAll, g1]; exact j1
    · intro x y
      rw [j4, g4]
      simp only [List.mem_cons, exists_eq_or_imp, or_assoc]

theorem union_spec (hb : Ok b) (us : List (UString × Transducer W)) (hus : ∀ e ∈ us, Piece b e.2 ∧ NoReturn e.2 ∧ Shares a b e.2) :
    ∃ u u', uniteAll us Fst.empty = .ok u ∧ minimize 0 u = .ok u' ∧ Second b u' ∧ Shares a b u' ∧ ∀ X Y, NMaps b u' X Y ↔ ∃ e ∈ us, NMaps b e.2 X Y := by
  obtain ⟨u, h1, h2, h3, h4⟩ := uniteAll_spec (a := a) hb us hus Fst.empty (.inl rfl) (by rintro q x z w r s ⟨c, -, he⟩; exact absurd he (start_edge _ _ _))
  have hM : ∀ u' : Transducer W, (∀ x y, Spelled b u' x y ↔ ∃ e ∈ us, Spelled b e.2 x y) → ∀ X Y, NMaps b u' X Y ↔ ∃ e ∈ us, NMaps b e.2 X Y := by
    intro u' h X Y
    unfold NMaps
    simp only [h]
    constructor
    · rintro ⟨x, y, ⟨e, he, h1⟩, h2⟩; exact ⟨e, he, x, y, h1, h2⟩
    · rintro ⟨e, he, x, y, h1, h2⟩; exact ⟨x, y, ⟨e, he, h1⟩, h2⟩
  have hU : ∀ x y, AccRel b u u.initial x y ↔ ∃ e ∈ us, Spelled b e.2 x y := by
    intro x y
    rw [h4]
    simp only [Trim.accRel_empty, false_or]
    refine exists_congr fun e => ?_
    refine and_congr_right fun he => ?_
    rw [accRel_maps (coded_known (hus e he).1.known), maps_spelled]
  rcases h2 with rfl | ⟨h2, -⟩
  · have hc : Coded b (Fst.empty : Transducer W) := by intro q l p he; exact absurd he (start_edge _ _ _)
    refine ⟨_, Fst.empty, h1, rfl, ⟨start_wf, hc, by intro p w hf; cases hf⟩, h3, hM _ fun x y => ?_⟩
    rw [← hU, accRel_maps hc, maps_spelled]
  · obtain ⟨u', j1, j2, -, j4, j5⟩ := minimize_piece hb h2
    refine ⟨u, u', h1, j1, ⟨j2.wf, coded_known j2.known, j2.zero⟩, ?_, hM _ fun x y => ?_⟩
    · rintro q x z w r s ⟨c, m1, m2⟩ hn
      rcases j5 _ _ _ m2 with ⟨q', p', m3⟩ | m3
      · exact h3 q' x z w p' s ⟨c, m1, m3⟩ hn
      · simp only at m3
        rw [m3] at m1
        have := (decode_iff.1 m1).pair_unique ⟨0, hb.zero, rfl⟩
        simp only [Prod.mk.injEq] at this
        rw [this.2] at hn
        rcases hn with ⟨-, hn⟩ | ⟨hn, -⟩
        · cases hn
        · cases hn
    · rw [← hU, ← maps_spelled, ← accRel_maps (coded_known j2.known), j4]

end

end Verif.Composed
