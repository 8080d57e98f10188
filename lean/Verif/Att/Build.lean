import Verif.Att.Text
import Verif.Product.TrimWhole

/-! # The graph that is built from the lines -/

namespace Verif.Att

open Verif.Fst Verif.Alphabet Verif.Product

variable {W : Type}

/-- The names of the two symbols of a label. -/
abbrev Lab := Name × Name

/-- The empty symbol. -/
abbrev noName : Name := .letter 0

/-- An arc of the graph with the names of its symbols. -/
abbrev GE (W : Type) := Int × (Lab × W) × Int

/-- The tag is the code of a pair of symbols with these names. -/
def NamedTag (a : Alphabet) (tag : Int) (l : Lab) : Prop := ∃ x y, HasPair a tag (x, y) ∧ Named a x l.1 ∧ Named a y l.2

theorem NamedTag.mono {a b : Alphabet} (h : Ext a b) {tag : Int} {l : Lab} (ht : NamedTag a tag l) : NamedTag b tag l := by
  obtain ⟨x, y, h1, h2, h3⟩ := ht
  exact ⟨x, y, h1.mono h, named_mono h h2, named_mono h h3⟩

theorem NamedTag.unique {a : Alphabet} {tag : Int} {l l' : Lab} (h : NamedTag a tag l) (h' : NamedTag a tag l') : l = l' := by
  obtain ⟨x, y, h1, h2, h3⟩ := h
  obtain ⟨x', y', g1, g2, g3⟩ := h'
  have := h1.pair_unique g1
  cases this
  exact Prod.ext (named_unique h2 g2) (named_unique h3 g3)

theorem named_code_unique {a : Alphabet} (ha : Ok a) {x y : Int} {n : Name} (h : Named a x n) (h' : Named a y n) : x = y := by
  cases n with
  | letter c =>
    rcases h with ⟨_, e⟩ | ⟨_, s, _, e⟩
    · rcases h' with ⟨_, e'⟩ | ⟨_, s, _, e'⟩
      · injection e with e; injection e' with e'; omega
      · cases e'
    · cases e
  | tag s =>
    rw [named_tag, ← hasTag_named] at h h'
    exact h.code_unique ha h'

theorem NamedTag.tag_unique {a : Alphabet} (ha : Ok a) {tag tag' : Int} {l : Lab} (h : NamedTag a tag l) (h' : NamedTag a tag' l) : tag = tag' := by
  obtain ⟨x, y, h1, h2, h3⟩ := h
  obtain ⟨x', y', g1, g2, g3⟩ := h'
  obtain rfl := named_code_unique ha h2 g2
  obtain rfl := named_code_unique ha h3 g3
  exact h1.code_unique ha g1

theorem arcsAt_touch {g : Graph W} (hs : SortedKeys g) (q r : Int) : arcsAt (mapInsert q [] g) r = arcsAt g r := by
  unfold arcsAt
  rw [mapInsert_eq_modify, mapFind_modify hs]
  split
  · next h => subst h; cases mapFind r g <;> rfl
  · rfl

theorem arcsAt_push {g : Graph W} (hs : SortedKeys g) (q r : Int) (t : Arc W) :
    arcsAt (mapModify [] q (· ++ [t]) g) r = if r = q then arcsAt g r ++ [t] else arcsAt g r := by
  unfold arcsAt
  rw [mapFind_modify hs]
  split
  · next h => subst h; rfl
  · rfl

/-- The arcs of the graph are those of `E`. -/
structure Built (c : Compiler W) (E : List (GE W)) : Prop where
  alpha : Reachable c.alphabet
  sorted : SortedKeys c.graph
  coded : ∀ q, ∀ arc ∈ arcsAt c.graph q, ∃ l, NamedTag c.alphabet arc.tag l
  edges : ∀ q l w p, (∃ arc ∈ arcsAt c.graph q, arc.dst = p ∧ arc.weight = w ∧ NamedTag c.alphabet arc.tag l) ↔ (q, (l, w), p) ∈ E

theorem Built.touch {c : Compiler W} {E : List (GE W)} (h : Built c E) (q : Int) : Built (touch q c) E := by
  have e : ∀ r, arcsAt (Att.touch q c).graph r = arcsAt c.graph r := arcsAt_touch h.sorted q
  refine ⟨h.alpha, sorted_mapInsert h.sorted q _, ?_, ?_⟩
  · intro r arc ha
    rw [e] at ha
    exact h.coded r arc ha
  · intro r l w p
    rw [e]
    exact h.edges r l w p

theorem Built.extend {c c' : Compiler W} {E : List (GE W)} (h : Built c E) (hr : Reachable c'.alphabet) (hx : Ext c.alphabet c'.alphabet)
    (hg : c'.graph = c.graph) : Built c' E := by
  refine ⟨hr, by rw [hg]; exact h.sorted, ?_, ?_⟩
  · intro q arc ha
    rw [hg] at ha
    obtain ⟨l, hl⟩ := h.coded q arc ha
    exact ⟨l, hl.mono hx⟩
  · intro q l w p
    rw [hg, ← h.edges]
    constructor
    · rintro ⟨arc, ha, h1, h2, h3⟩
      obtain ⟨l', hl⟩ := h.coded q arc ha
      obtain rfl := h3.unique (hl.mono hx)
      exact ⟨arc, ha, h1, h2, hl⟩
    · rintro ⟨arc, ha, h1, h2, h3⟩
      exact ⟨arc, ha, h1, h2, h3.mono hx⟩

theorem Built.push {c : Compiler W} {E : List (GE W)} (h : Built c E) (q : Int) (t : Arc W) (l : Lab) (hl : NamedTag c.alphabet t.tag l) :
    Built (pushArc q t c) (E ++ [(q, (l, t.weight), t.dst)]) := by
  have e : ∀ r, arcsAt (pushArc q t c).graph r = if r = q then arcsAt c.graph r ++ [t] else arcsAt c.graph r := fun r => arcsAt_push h.sorted q r t
  refine ⟨h.alpha, sorted_modify h.sorted _ _ _, ?_, ?_⟩
  · intro r arc ha
    rw [e] at ha
    split at ha
    · rcases List.mem_append.1 ha with ha | ha
      · exact h.coded r arc ha
      · rw [List.mem_singleton] at ha
        subst ha
        exact ⟨l, hl⟩
    · exact h.coded r arc ha
  · intro r l' w p
    rw [e, List.mem_append, ← h.edges, List.mem_singleton]
    show _ ↔ (∃ arc ∈ arcsAt c.graph r, _) ∨ _
    by_cases hr : r = q
    · subst hr
      rw [if_pos rfl]
      constructor
      · rintro ⟨arc, ha, h1, h2, h3⟩
        rcases List.mem_append.1 ha with ha | ha
        · exact .inl ⟨arc, ha, h1, h2, h3⟩
        · rw [List.mem_singleton] at ha
          subst ha
          obtain rfl := hl.unique h3
          right
          rw [h1, h2]
      · rintro (⟨arc, ha, h1, h2, h3⟩ | he)
        · exact ⟨arc, by simp [ha], h1, h2, h3⟩
        · simp only [Prod.mk.injEq, true_and] at he
          obtain ⟨⟨rfl, rfl⟩, rfl⟩ := he
          exact ⟨t, by simp, rfl, rfl, hl⟩
    · rw [if_neg hr]
      constructor
      · exact .inl
      · rintro (he | he)
        · exact he
        · simp only [Prod.mk.injEq] at he
          exact absurd he.1 hr

/-! ## One line -/

/-- The labels of an arc that reads `X` and writes `Y`. -/
def padNames : List Name → List Name → List Lab
  | [], rs => rs.map fun r => (noName, r)
  | l :: ls, [] => (l, noName) :: padNames ls []
  | l :: ls, r :: rs => (l, r) :: padNames ls rs

def labs (X Y : List Name) : List Lab := padNames (cells X) (cells Y)

theorem padNames_left (X Y : List Name) : ((padNames X Y).map (·.1)).filter (· ≠ noName) = X.filter (· ≠ noName) := by
  induction X generalizing Y with
  | nil => simp [padNames, Function.comp_def]
  | cons x X ih =>
    cases Y with
    | nil => rw [padNames]; simp only [List.map_cons, List.filter_cons, ih]
    | cons y Y => rw [padNames]; simp only [List.map_cons, List.filter_cons, ih]

theorem padNames_right (X Y : List Name) : ((padNames X Y).map (·.2)).filter (· ≠ noName) = Y.filter (· ≠ noName) := by
  induction X generalizing Y with
  | nil => simp [padNames, Function.comp_def]
  | cons x X ih =>
    cases Y with
    | nil => rw [padNames]; simp only [List.map_cons, List.filter_cons, ih]; simp
    | cons y Y => rw [padNames]; simp only [List.map_cons, List.filter_cons, ih]

theorem cells_ne (X : List Name) : cells X ≠ [] := by
  unfold cells; split <;> simp_all

theorem labs_ne (X Y : List Name) : labs X Y ≠ [] := by
  unfold labs
  have := cells_ne X
  cases hX : cells X with
  | nil => exact absurd hX this
  | cons x xs => cases hY : cells Y <;> simp [padNames]

theorem labs_left {X : List Name} (hX : noName ∉ X) (Y : List Name) : ((labs X Y).map (·.1)).filter (· ≠ noName) = X := by
  rw [labs, padNames_left, filter_cells hX]

theorem labs_right (X : List Name) {Y : List Name} (hY : noName ∉ Y) : ((labs X Y).map (·.2)).filter (· ≠ noName) = Y := by
  rw [labs, padNames_right, filter_cells hY]

/-- The names of a pair of symbols. -/
def NamedPair (a : Alphabet) (p : Int × Int) (l : Lab) : Prop := Named a p.1 l.1 ∧ Named a p.2 l.2

theorem named_zero (a : Alphabet) : Named a 0 noName := .inl ⟨Int.le_refl 0, rfl⟩

theorem padded_named {a : Alphabet} {xs ys : List Int} {X Y : List Name} (hX : List.Forall₂ (Named a) xs X) (hY : List.Forall₂ (Named a) ys Y) :
    List.Forall₂ (NamedPair a) (padded xs ys) (padNames X Y) := by
  induction hX generalizing ys Y with
  | nil =>
    induction hY with
    | nil => simp [padded, padNames]
    | cons h _ ih => exact .cons ⟨named_zero a, h⟩ ih
  | cons h _ ih =>
    cases hY with
    | nil => rw [padded, padNames]; exact .cons ⟨h, named_zero a⟩ (ih .nil)
    | cons h' hY => rw [padded, padNames]; exact .cons ⟨h, h'⟩ (ih hY)

/-- The symbols of a column. -/
theorem symbolCode_spec {c : Compiler W} {E : List (GE W)} (h : Built c E) (ch : Chars) {hfst : Bool} {s : UString} {X : List Name} (hd : Denotes hfst s X) :
    Built (symbolCode ch (convertHfst hfst s) c).2 E ∧ Ext c.alphabet (symbolCode ch (convertHfst hfst s) c).2.alphabet ∧
      List.Forall₂ (Named (symbolCode ch (convertHfst hfst s) c).2.alphabet) (symbolCode ch (convertHfst hfst s) c).1 (cells X) ∧
      (symbolCode ch (convertHfst hfst s) c).2.finals = c.finals ∧ (symbolCode ch (convertHfst hfst s) c).2.start = c.start ∧
      (symbolCode ch (convertHfst hfst s) c).2.phantoms = c.phantoms := by
  rcases denotes_cases hd with ⟨h1, rfl⟩ | ⟨h1, rfl⟩ | ⟨cs, h1, h2, h3, h4, rfl⟩
  · have e : symbolCode ch (convertHfst hfst s) c = ([0], c) := by rw [h1]; rfl
    rw [e]
    exact ⟨h, .refl _, .cons (named_zero _) .nil, rfl, rfl, rfl⟩
  · have hne : (convertHfst hfst s).isEmpty = false := by
      obtain ⟨m, e⟩ := h1
      rw [e]; rfl
    obtain ⟨k1, k2, ⟨code, k3⟩, _⟩ := includeSymbol_spec h.alpha.ok (convertHfst hfst s)
    have e : symbolCode ch (convertHfst hfst s) c = ([(c.alphabet.includeSymbol (convertHfst hfst s)).symCode (convertHfst hfst s)],
        { c with alphabet := c.alphabet.includeSymbol (convertHfst hfst s) }) := by
      unfold symbolCode
      rw [if_neg (by simp [hne]), if_pos ((isTag_iff _).2 h1)]
    rw [e]
    refine ⟨h.extend (h.alpha.tail (.include _ _)) k2 rfl, k2, ?_, rfl, rfl, rfl⟩
    rw [symCode_of_hasTag k1 k3]
    exact .cons (named_tag.2 (hasTag_named.1 k3)) .nil
  · have hne : (convertHfst hfst s).isEmpty = false := by
      rw [h1]
      cases cs with
      | nil => exact absurd rfl h2
      | cons d cs =>
        have : utf16 d ≠ [] := by unfold utf16; split <;> simp
        simp [enc, this]
    have hcp : codePoints (convertHfst hfst s) = cs := by rw [h1]; exact codePoints_enc cs fun x hx => (h3 x hx).1
    have e : symbolCode ch (convertHfst hfst s) c = (cs.map (fun (x : Nat) => (x : Int)), { c with letters := cs.foldl (fun l x => updateAlphabet ch x l) c.letters }) := by
      unfold symbolCode
      rw [if_neg (by simp [hne]), if_neg (by rw [isTag_iff, h1]; exact h4), hcp]
    rw [e]
    refine ⟨h.extend h.alpha (.refl _) rfl, .refl _, ?_, rfl, rfl, rfl⟩
    have : cells (cs.map fun (x : Nat) => Name.letter (x : Int)) = cs.map fun (x : Nat) => Name.letter (x : Int) := by
      unfold cells; rw [if_neg (by simp [h2])]
    rw [this, List.forall₂_map_left_iff, List.forall₂_map_right_iff, List.forall₂_same]
    intro x _
    exact .inl ⟨Int.natCast_nonneg x, rfl⟩

/-- The arcs for the labels of one line. -/
def chain [Zero W] (q dst : Int) (w : W) (ph : Nat) : List Lab → List (GE W)
  | [] => []
  | [l] => [(q, (l, w), dst)]
  | l :: ls => (q, (l, 0), -((ph : Int) + 1)) :: chain (-((ph : Int) + 1)) dst w (ph + 1) ls

theorem addPairs_spec [Zero W] (ch : Chars) (dst : Int) (w : W) : ∀ (ls : List Lab) (ps : List (Int × Int)) (q : Int) (c : Compiler W) (E : List (GE W)),
    Built c E → List.Forall₂ (NamedPair c.alphabet) ps ls →
    Built (addPairs ch q dst w ps c) (E ++ chain q dst w c.phantoms ls) ∧ (addPairs ch q dst w ps c).finals = c.finals ∧
      (addPairs ch q dst w ps c).start = c.start ∧ (addPairs ch q dst w ps c).phantoms = c.phantoms + (ls.length - 1) := by
  intro ls
  induction ls with
  | nil =>
    intro ps q c E h hp
    cases hp
    exact ⟨by simpa [chain, addPairs] using h, rfl, rfl, rfl⟩
  | cons l ls ih =>
    intro ps q c E h hp
    cases hp with
    | @cons p _ ps _ hp hps =>
    obtain ⟨x, y⟩ := p
    obtain ⟨k1, k2, k3, _⟩ := pairCode_spec h.alpha.ok x y
    have hr : Reachable (c.alphabet.pairCode x y).2 := h.alpha.tail (.pair _ x y)
    have hl : NamedTag (c.alphabet.pairCode x y).2 (c.alphabet.pairCode x y).1 l := ⟨x, y, k3, named_mono k2 hp.1, named_mono k2 hp.2⟩
    cases hps with
    | nil =>
      have hb : Built { c with alphabet := (c.alphabet.pairCode x y).2 } E := h.extend hr k2 rfl
      exact ⟨((hb.push q { dst := dst, tag := (c.alphabet.pairCode x y).1, weight := w, type := classifySingle ch c.letters x } l hl).touch dst), rfl, rfl, rfl⟩
    | @cons p2 l2 ps ls hp2 hps =>
      have hb : Built { c with alphabet := (c.alphabet.pairCode x y).2, phantoms := c.phantoms + 1 } E := h.extend hr k2 rfl
      have hb2 := (hb.push q { dst := -((c.phantoms : Int) + 1), tag := (c.alphabet.pairCode x y).1, weight := 0, type := classifySingle ch c.letters x } l hl).touch
        (-((c.phantoms : Int) + 1))
      have hps' : List.Forall₂ (NamedPair (c.alphabet.pairCode x y).2) (p2 :: ps) (l2 :: ls) :=
        (List.Forall₂.cons hp2 hps).imp fun _ _ hh => ⟨named_mono k2 hh.1, named_mono k2 hh.2⟩
      obtain ⟨g1, g2, g3, g4⟩ := ih (p2 :: ps) (-((c.phantoms : Int) + 1)) _ _ hb2 hps'
      have e : addPairs ch q dst w ((x, y) :: p2 :: ps) c = addPairs ch (-((c.phantoms : Int) + 1)) dst w (p2 :: ps)
        (touch (-((c.phantoms : Int) + 1)) (pushArc q { dst := -((c.phantoms : Int) + 1), tag := (c.alphabet.pairCode x y).1, weight := 0, type := classifySingle ch c.letters x }
          { c with alphabet := (c.alphabet.pairCode x y).2, phantoms := c.phantoms + 1 })) := rfl
      rw [e]
      refine ⟨?_, g2, g3, ?_⟩
      · have e2 : chain q dst w c.phantoms (l :: l2 :: ls) = (q, (l, 0), -((c.phantoms : Int) + 1)) ::
            chain (-((c.phantoms : Int) + 1)) dst w (c.phantoms + 1) (l2 :: ls) := rfl
        rw [e2]
        rw [List.append_assoc] at g1
        exact g1
      · rw [g4]
        simp only [touch, pushArc, List.length_cons]
        omega

theorem addTransition_spec [Zero W] (ch : Chars) {hfst : Bool} {u v : UString} {X Y : List Name} (hu : Denotes hfst u X) (hv : Denotes hfst v Y) (q dst : Int) (w : W)
    (c : Compiler W) (E : List (GE W)) (h : Built c E) :
    Built (addTransition ch q dst (convertHfst hfst u) (convertHfst hfst v) w c) (E ++ chain q dst w c.phantoms (labs X Y)) ∧
      (addTransition ch q dst (convertHfst hfst u) (convertHfst hfst v) w c).finals = c.finals ∧
      (addTransition ch q dst (convertHfst hfst u) (convertHfst hfst v) w c).start = c.start ∧
      (addTransition ch q dst (convertHfst hfst u) (convertHfst hfst v) w c).phantoms = c.phantoms + ((labs X Y).length - 1) := by
  obtain ⟨a1, a2, a3, a4, a5, a6⟩ := symbolCode_spec (h.touch q) ch hu
  obtain ⟨b1, b2, b3, b4, b5, b6⟩ := symbolCode_spec a1 ch hv
  obtain ⟨c1, c2, c3, c4⟩ := addPairs_spec ch dst w (labs X Y) _ q _ E b1 (padded_named (a3.imp fun _ _ hh => named_mono b2 hh) b3)
  have ep : (symbolCode ch (convertHfst hfst v) (symbolCode ch (convertHfst hfst u) (touch q c)).2).2.phantoms = c.phantoms := b6.trans a6
  rw [ep] at c1 c4
  exact ⟨c1, c2.trans (b4.trans a4), c3.trans (b5.trans a5), c4⟩

end Verif.Att
