import Verif.Paradigm.Expand
import Verif.Product.TrimProps

/-! # The sections of a dictionary and a pattern -/

namespace Verif.Paradigm

open Verif.Fst Verif.Alphabet Verif.Compiler
open Verif.Tools (Sane Symbol)
open Verif.Product (Joined Covers Begins Meets)
open Verif.Trim (NMaps Spelled)

variable {W : Type}

/-! ## What patterns stand for -/

section
variable {letters : List UInt32} {exclude known : List UString}

theorem fits_append {is js : List Item} {Y : List Name} :
    Fits letters exclude (is ++ js) Y ↔ ∃ Y1 Y2, Y = Y1 ++ Y2 ∧ Fits letters exclude is Y1 ∧ Fits letters exclude js Y2 := by
  induction is generalizing Y with
  | nil =>
    constructor
    · intro h; exact ⟨[], Y, rfl, rfl, h⟩
    · rintro ⟨_, Y2, rfl, rfl, h⟩; exact h
  | cons i is ih =>
    constructor
    · rintro ⟨Y1, Y2, rfl, h1, h2⟩
      obtain ⟨Y3, Y4, rfl, h3, h4⟩ := ih.1 h2
      exact ⟨Y1 ++ Y3, Y4, by simp, ⟨Y1, Y3, rfl, h1, h3⟩, h4⟩
    · rintro ⟨_, Y4, rfl, ⟨Y1, Y3, rfl, h1, h3⟩, h4⟩
      exact ⟨Y1, Y3 ++ Y4, by simp, h1, ih.2 ⟨Y3, Y4, rfl, h3, h4⟩⟩

theorem fits_one {i : Item} {Y : List Name} : Fits letters exclude [i] Y ↔ i.Fits letters exclude Y := by
  constructor
  · rintro ⟨Y1, Y2, rfl, h1, rfl⟩; simpa using h1
  · intro h; exact ⟨Y, [], by simp, h, rfl⟩

/-- The names have codes, none of them zero. -/
def Cd (a : Alphabet) (Y : List Name) : Prop := ∃ y, List.Forall₂ (Named a) y Y ∧ ∀ c ∈ y, c ≠ 0

theorem cd_nil {a : Alphabet} : Cd a [] := ⟨[], .nil, by simp⟩

theorem cd_append {a : Alphabet} {Y Z : List Name} : Cd a (Y ++ Z) ↔ Cd a Y ∧ Cd a Z := by
  constructor
  · rintro ⟨y, h1, h2⟩
    obtain ⟨u, v, g1, g2, rfl⟩ := Trim.split_right h1
    exact ⟨⟨u, g1, fun c hc => h2 c (by simp [hc])⟩, v, g2, fun c hc => h2 c (by simp [hc])⟩
  · rintro ⟨⟨u, g1, k1⟩, v, g2, k2⟩
    refine ⟨u ++ v, List.rel_append g1 g2, ?_⟩
    intro c hc
    rcases List.mem_append.1 hc with hc | hc
    · exact k1 c hc
    · exact k2 c hc

theorem cd_tag {a : Alphabet} {s : UString} (h : s ∈ a.slexicinv) : Cd a [.tag s] := by
  obtain ⟨c, hc⟩ := hasTag_mem.2 h
  have := hasTag_neg hc
  exact ⟨[c], .cons (named_tag_iff.2 hc) .nil, by simp; omega⟩

theorem single_prefix {m : Name} {P P' : List Name} (h : P ++ P' = [m]) : P = [] ∨ (P = [m] ∧ P' = []) := by
  cases P with
  | nil => exact .inl rfl
  | cons n P =>
    right
    obtain ⟨rfl, h2⟩ := List.cons.inj h
    obtain ⟨rfl, rfl⟩ := List.append_eq_nil_iff.1 h2
    exact ⟨rfl, rfl⟩

/-- What a part stands for can begin with `P`; then it can go on with names that have codes. -/
theorem Item.begin {a : Alphabet} (hn : ∀ s ∈ known, s ∈ a.slexicinv) {i : Item} (hi : i.Proper known) {P P' : List Name} (h : i.Fits letters exclude (P ++ P')) :
    ∃ P'', i.Fits letters exclude (P ++ P'') ∧ Cd a P'' := by
  cases i with
  | letter u e =>
    have hc : Cd a [.letter u.toNat] := by
      obtain ⟨-, -, -, -, h5⟩ := hi
      refine ⟨[(u.toNat : Int)], .cons (named_letter_iff.2 ⟨by omega, rfl⟩) .nil, ?_⟩
      intro c hc
      rw [List.mem_singleton.1 hc]
      intro h0
      apply h5
      apply UInt16.toNat_inj.1
      have : (0 : UInt16).toNat = 0 := rfl
      omega
    rcases single_prefix h with rfl | ⟨rfl, rfl⟩
    · exact ⟨_, rfl, hc⟩
    · exact ⟨[], rfl, cd_nil⟩
  | tag n =>
    rcases single_prefix h with rfl | ⟨rfl, rfl⟩
    · exact ⟨_, rfl, cd_tag (hn _ hi.2.1)⟩
    · exact ⟨[], rfl, cd_nil⟩
  | star => exact ⟨[], fun m hm => h m (by simp at hm; simp [hm]), cd_nil⟩
  | one ns =>
    obtain ⟨n, g1, g2⟩ := h
    rcases single_prefix g2 with rfl | ⟨rfl, rfl⟩
    · obtain ⟨-, ⟨n0, k1, k2⟩, -⟩ := hi
      exact ⟨_, ⟨n0, k1, rfl⟩, cd_tag (hn _ k2)⟩
    · exact ⟨[], ⟨n, g1, rfl⟩, cd_nil⟩
  | some ns => exact ⟨[], fun m hm => h m (by simp at hm; simp [hm]), cd_nil⟩
  | but ns => exact ⟨[], fun m hm => h m (by simp at hm; simp [hm]), cd_nil⟩

theorem fits_some {a : Alphabet} (hn : ∀ s ∈ known, s ∈ a.slexicinv) {is : List Item} (hi : ∀ i ∈ is, i.Proper known) :
    ∃ P, Fits letters exclude is P ∧ Cd a P := by
  induction is with
  | nil => exact ⟨[], rfl, cd_nil⟩
  | cons i is ih =>
    obtain ⟨P2, h1, h2⟩ := ih fun i hi' => hi i (by simp [hi'])
    have hex : ∃ P', i.Fits letters exclude ([] ++ P') := by
      cases i with
      | letter u e => exact ⟨_, rfl⟩
      | tag n => exact ⟨_, rfl⟩
      | star => exact ⟨[], fun m hm => by simp at hm⟩
      | one ns =>
        obtain ⟨-, ⟨n0, k1, -⟩, -⟩ := hi (.one ns) (by simp)
        exact ⟨_, ⟨n0, k1, rfl⟩⟩
      | some ns => exact ⟨[], fun m hm => by simp at hm⟩
      | but ns => exact ⟨[], fun m hm => by simp at hm⟩
    obtain ⟨P', hP'⟩ := hex
    obtain ⟨P1, h3, h4⟩ := Item.begin hn (hi i (by simp)) hP'
    exact ⟨P1 ++ P2, ⟨P1, P2, rfl, by simpa using h3, h1⟩, cd_append.2 ⟨h4, h2⟩⟩

theorem fits_begin {a : Alphabet} (hn : ∀ s ∈ known, s ∈ a.slexicinv) {is : List Item} (hi : ∀ i ∈ is, i.Proper known) {P P' : List Name}
    (h : Fits letters exclude is (P ++ P')) : ∃ P'', Fits letters exclude is (P ++ P'') ∧ Cd a P'' := by
  induction is generalizing P P' with
  | nil => exact ⟨[], by
      obtain ⟨rfl, rfl⟩ := List.append_eq_nil_iff.1 h
      rfl, cd_nil⟩
  | cons i is ih =>
    obtain ⟨Y1, Y2, h1, h2, h3⟩ := h
    have hi' : ∀ j ∈ is, j.Proper known := fun j hj => hi j (by simp [hj])
    rcases List.append_eq_append_iff.1 h1 with ⟨Q, rfl, -⟩ | ⟨Q, rfl, rfl⟩
    · -- the beginning is within the first part
      obtain ⟨Q1, g1, g2⟩ := Item.begin hn (hi i (by simp)) h2
      obtain ⟨Q2, g3, g4⟩ := fits_some (letters := letters) (exclude := exclude) hn hi'
      exact ⟨Q1 ++ Q2, ⟨P ++ Q1, Q2, by simp, g1, g3⟩, cd_append.2 ⟨g2, g4⟩⟩
    · obtain ⟨P'', g1, g2⟩ := ih hi' h3
      exact ⟨P'', ⟨Y1, Q ++ P'', by simp, h2, g1⟩, g2⟩

end

/-! ## The transducer of a pattern -/

/-- The transducer that `process` makes of the pattern `is`. -/
structure Other [Zero W] (letters : List UInt32) (exclude : List UString) (a : Alphabet) (is : List Item) (s : Build W) : Prop where
  sane : Sane s.a
  ext : Ext a s.a
  tags : s.a.slexicinv = a.slexicinv
  wf : WF s.t
  finals : s.t.finals = []
  q : s.q < Fst.size s.t
  known : ∀ q l r, Edge s.t q l r → KA s.a l.1
  live : ∀ q < Fst.size s.t, ∃ ls, Path (PairEdge s.a s.t) q ls s.q
  reads : ∀ x, Rd s.a s.t s.t.initial x s.q ↔ (∀ c ∈ x, c ≠ 0) ∧ ∃ Y, Fits letters exclude is Y ∧ List.Forall₂ (Named a) x Y

section
variable [Zero W] {letters : List UInt32} {exclude known : List UString} {a : Alphabet}

theorem other_nil (hs : Sane a) : Other letters exclude a [] { a, t := (empty : Transducer W), q := (empty : Transducer W).initial } := by
  have hno : ∀ q l p, ¬ PairEdge a (Fst.empty : Transducer W) q l p := by
    rintro q l p ⟨c, -, h⟩; exact Product.start_edge _ _ _ h
  refine ⟨hs, Ext.refl a, rfl, Product.start_wf, rfl, Nat.zero_lt_one, fun q l r h => absurd h (Product.start_edge _ _ _), ?_, ?_⟩
  · intro q hq
    have hq : q < 1 := hq
    have : q = 0 := by omega
    subst this
    exact ⟨[], .nil _⟩
  · intro x
    constructor
    · rintro ⟨ls, h1, rfl⟩
      cases h1 with
      | nil => exact ⟨by simp, [], rfl, .nil⟩
      | cons h _ => exact absurd h (hno _ _ _)
    · rintro ⟨-, Y, rfl, h⟩
      cases h
      exact ⟨[], .nil _, rfl⟩

theorem steps_other {tags : List Int} (hn : ∀ s, s ∈ a.slexicinv ↔ s ∈ known ∨ s = ANY) (hL : ∀ c ∈ letters, c.toNat < 0x10000)
    (ht : Allowed a exclude tags) (is : List Item) (hi : ∀ i ∈ is, i.Proper known) :
    ∀ (done : List Item) (s : Build W), Other letters exclude a done s →
      ∃ s', steps letters tags (is.map Item.piece) s = .ok s' ∧ Other letters exclude a (done ++ is) s' := by
  induction is with
  | nil => intro done s h; exact ⟨s, rfl, by simpa using h⟩
  | cons i is ih =>
    intro done s h
    have htag : ∀ {x : Int} {n : UString}, HasTag s.a x n ↔ HasTag a x n := by
      intro x n
      rw [← named_tag_iff, ← named_tag_iff, named_congr h.tags]
    obtain ⟨s1, A, B, h1, h2, h3, h4⟩ := step_added (L := letters) (known := known) (exclude := exclude) (tags := tags) h.sane h.wf h.q h.known
      (by rw [h.tags]; exact hn) hL (fun c => by simp only [htag]; exact ht c) (hi i (by simp))
    have hO : Other letters exclude a (done ++ [i]) s1 := by
      refine ⟨h2.sane, h.ext.trans h2.ext, h2.tags.trans h.tags, h2.wf, h2.finals.trans h.finals, by rw [h2.q, h2.size]; omega, h2.known,
        h2.live h3 h.live, ?_⟩
      intro x
      rw [h2.reads h.wf h.q]
      constructor
      · rintro ⟨x1, c, x2, g1, g2, g3, rfl⟩
        obtain ⟨k1, Y1, k2, k3⟩ := (h.reads _).1 g1
        have hnz : ∀ d ∈ [c].filter (· ≠ 0) ++ x2.filter (· ≠ 0), d ≠ 0 := by
          intro d hd
          rw [← List.filter_append] at hd
          simpa using (List.mem_filter.1 hd).2
        obtain ⟨Y2, k4, k5⟩ := (h4 _ hnz).1 ⟨c, x2, g2, g3, rfl⟩
        rw [List.append_assoc]
        refine ⟨?_, Y1 ++ Y2, fits_append.2 ⟨Y1, Y2, rfl, k2, fits_one.2 k4⟩, List.rel_append k3 (k5.imp fun _ _ g => (named_congr h.tags).1 g)⟩
        intro d hd
        rcases List.mem_append.1 hd with hd | hd
        · exact k1 d hd
        · exact hnz d hd
      · rintro ⟨k1, Y, k2, k3⟩
        obtain ⟨Y1, Y2, rfl, k4, k5⟩ := fits_append.1 k2
        obtain ⟨x1, x2, k6, k7, rfl⟩ := Trim.split_right k3
        obtain ⟨c, y2, g1, g2, rfl⟩ := (h4 x2 (fun d hd => k1 d (by simp [hd]))).2 ⟨Y2, fits_one.1 k5, k7.imp fun _ _ g => (named_congr h.tags).2 g⟩
        exact ⟨x1, c, y2, (h.reads _).2 ⟨fun d hd => k1 d (by simp only [List.mem_append]; exact .inl hd), Y1, k4, k6⟩, g1, g2, by simp⟩
    obtain ⟨s', k1, k2⟩ := ih (fun i hi' => hi i (by simp [hi'])) (done ++ [i]) s1 hO
    refine ⟨s', ?_, by simpa using k2⟩
    rw [List.map_cons]
    unfold steps
    have e : ({ a := s.a, t := s.t, q := s.q } : Build W) = s := rfl
    rw [e] at h1
    rw [h1]; exact k1

end

/-! ## The trimmer -/

section
variable [AddCommMonoid W] {letters : List UInt32} {exclude known : List UString} {a : Alphabet} {is : List Item} {s : Build W}

/-- The transducer of the pattern with its final state. -/
def trimmer (s : Build W) : Transducer W := setFinal s.q 0 true s.t

theorem trimmer_edge {b : Alphabet} {q : Nat} {l : Pair × W} {p : Nat} : PairEdge b (trimmer s) q l p ↔ PairEdge b s.t q l p := Iff.rfl

theorem Other.final (h : Other letters exclude a is s) {p : Nat} {w : W} : Final (trimmer s) p w ↔ p = s.q ∧ w = 0 := by
  unfold trimmer setFinal Final
  rw [if_pos rfl, h.finals]
  simp [mapInsert]

theorem Other.trimmer_wf (h : Other letters exclude a is s) : WF (trimmer s) := by
  refine ⟨h.wf.keys, h.wf.rows, h.wf.initial_lt, h.wf.target_lt, ?_, ?_⟩
  · unfold trimmer setFinal
    rw [if_pos rfl, h.finals]
    simp [mapInsert, SortedKeys]
  · intro p w hf
    rw [(h.final.1 hf).1]; exact h.q

theorem Other.accepts (h : Other letters exclude a is s) {y : List Int} : (∃ z g, Relates s.a (trimmer s) y z g) ↔ Rd s.a s.t s.t.initial y s.q := by
  constructor
  · rintro ⟨z, g, ls, fw, ⟨p, h1, h2⟩, rfl, -, -⟩
    obtain ⟨rfl, -⟩ := h.final.1 h2
    exact ⟨ls, h1, rfl⟩
  · rintro ⟨ls, h1, rfl⟩
    exact ⟨_, _, ls, 0, ⟨s.q, h1, h.final.2 ⟨rfl, rfl⟩⟩, rfl, rfl, rfl⟩

theorem path_begin {E : Nat → Pair × W → Nat → Prop} {q p : Nat} {ls : List (Pair × W)} (h : Path E q ls p) :
    ∀ y x : List Int, (ls.map (·.1.1)).filter (· ≠ 0) = y ++ x → ∃ ms p', Path E q ms p' ∧ y = (ms.map (·.1.1)).filter (· ≠ 0) := by
  induction h with
  | nil q =>
    intro y x e
    have : y = [] := (List.append_eq_nil_iff.1 e.symm).1
    exact ⟨[], q, .nil _, by simp [this]⟩
  | @cons q q1 p l ls h1 _ ih =>
    intro y x e
    rw [List.map_cons] at e
    by_cases h0 : l.1.1 = 0
    · rw [List.filter_cons_of_neg (by simpa using h0)] at e
      obtain ⟨ms, p', g1, g2⟩ := ih y x e
      exact ⟨l :: ms, p', .cons h1 g1, by rw [List.map_cons, List.filter_cons_of_neg (by simpa using h0)]; exact g2⟩
    · rw [List.filter_cons_of_pos (by simpa using h0)] at e
      cases y with
      | nil => exact ⟨[], q, .nil _, rfl⟩
      | cons c y =>
        obtain ⟨rfl, e2⟩ := List.cons.inj e
        obtain ⟨ms, p', g1, g2⟩ := ih y x e2
        exact ⟨l :: ms, p', .cons h1 g1, by rw [List.map_cons, List.filter_cons_of_pos (by simpa using h0), ← g2]⟩

theorem Other.begins (h : Other letters exclude a is s) {y : List Int} : Begins s.a (trimmer s) y ↔ ∃ x, Rd s.a s.t s.t.initial (y ++ x) s.q := by
  constructor
  · rintro ⟨ls, p, h1, rfl⟩
    have hp : p < Fst.size s.t := by
      have : ∀ {q ls p}, Path (PairEdge s.a (trimmer s)) q ls p → q < Fst.size s.t → p < Fst.size s.t := by
        intro q ls p hh
        induction hh with
        | nil => exact id
        | cons h1 _ ih =>
          obtain ⟨c, -, he⟩ := h1
          exact fun _ => ih (h.wf.target_lt _ _ _ he)
      exact this h1 h.wf.initial_lt
    obtain ⟨ms, h2⟩ := h.live p hp
    exact ⟨(ms.map (·.1.1)).filter (· ≠ 0), ls ++ ms, Path.append h1 h2, by simp⟩
  · rintro ⟨x, ls, h1, h2⟩
    obtain ⟨ms, p', g1, g2⟩ := path_begin h1 y x h2.symm
    exact ⟨ms, p', g1, g2⟩

/-- Without wildcards symbols meet only themselves. -/
theorem meets_self {b : Alphabet} (hb : Ok b) (hw : anyChar ∉ b.slexicinv ∧ anyTag ∉ b.slexicinv) {x y : Int} {n : Name} (hx : Named b x n) : Meets b b x y ↔ x = y := by
  have no : ∀ {x : Int}, ¬ Named b x (.tag anyChar) := fun h => hw.1 (hasTag_mem.1 ⟨_, named_tag_iff.1 h⟩)
  have no' : ∀ {x : Int}, ¬ Named b x (.tag anyTag) := fun h => hw.2 (hasTag_mem.1 ⟨_, named_tag_iff.1 h⟩)
  unfold Meets
  simp only [no, no', false_and, or_false]
  constructor
  · rintro ⟨m, h1, h2⟩
    cases m with
    | letter c => rw [(named_letter_iff.1 h1).2, (named_letter_iff.1 h2).2]
    | tag s => exact hasTag_code hb (named_tag_iff.1 h1) (named_tag_iff.1 h2)
  · rintro rfl; exact ⟨n, hx, hx⟩

/-- What remains of the parts: the trimmer reads the analysis if and only if it matches the pattern. -/
theorem Other.joined (h : Other letters exclude a is s) (hi : ∀ i ∈ is, i.Proper known) (hn : ∀ s, s ∈ a.slexicinv ↔ s ∈ known ∨ s = ANY)
    (hw : anyChar ∉ a.slexicinv ∧ anyTag ∉ a.slexicinv) {y : List Int} {Y : List Name} (hy : List.Forall₂ (Named s.a) y Y) (h0 : ∀ c ∈ y, c ≠ 0) :
    Joined s.a s.a (trimmer s) y ↔ Matches letters exclude is Y := by
  have hw' : anyChar ∉ s.a.slexicinv ∧ anyTag ∉ s.a.slexicinv := by rw [h.tags]; exact hw
  have hR : List.Forall₂ (fun c n => Named s.a c n ∧ c ≠ 0) y Y := by
    clear hi
    induction hy with
    | nil => exact .nil
    | cons g _ ih => exact .cons ⟨g, h0 _ (by simp)⟩ (ih fun c hc => h0 c (by simp [hc]))
  -- what covers a part
  have hcov : ∀ (p : List Int) (P : List Name), List.Forall₂ (fun c n => Named s.a c n ∧ c ≠ 0) p P →
      ∃ p0, List.Forall₂ (fun c n => Named s.a c n ∧ c ≠ 0) p0 (Trim.unmarked P) ∧ ∀ p', Covers s.a s.a p p' ↔ p' = p0 := by
    intro p P hp
    obtain ⟨p0, g1, g2⟩ := Trim.covers_names (b := s.a) hp
    refine ⟨p0, g1, fun p' => ?_⟩
    rw [g2]
    clear g2
    generalize Trim.unmarked P = P0 at g1
    induction g1 generalizing p' with
    | nil =>
      constructor
      · intro h; cases h; rfl
      · rintro rfl; exact .nil
    | cons k _ ih =>
      constructor
      · intro hh
        cases hh with
        | cons k1 k2 => rw [(meets_self h.sane.ok hw' k.1).1 k1, (ih _).1 k2]
      · rintro rfl
        exact .cons ((meets_self h.sane.ok hw' k.1).2 rfl) ((ih _).2 rfl)
  have split : ∀ {p0 : List Int} {P0 : List Name}, List.Forall₂ (fun c n => Named s.a c n ∧ c ≠ 0) p0 P0 → List.Forall₂ (Named a) p0 P0 ∧ ∀ c ∈ p0, c ≠ 0 := by
    intro p0 P0 hp
    induction hp with
    | nil => exact ⟨.nil, by simp⟩
    | cons g _ ih =>
      refine ⟨.cons ((named_congr h.tags).1 g.1) ih.1, ?_⟩
      intro c hc
      rcases List.mem_cons.1 hc with rfl | hc
      · exact g.2
      · exact ih.2 c hc
  have huniq : ∀ x n n', Named a x n → Named a x n' → n = n' := fun _ _ _ g g' => Product.named_unique g g'
  unfold Joined Matches
  refine Trim.parts_iff (R := fun c n => Named s.a c n ∧ c ≠ 0) ?_ ?_ ?_ hR
  · rintro c n ⟨hc, -⟩
    constructor
    · rintro rfl; exact Product.named_unique hc (named_letter_iff.2 ⟨by decide, rfl⟩)
    · rintro rfl; exact (named_letter_iff.1 hc).2
  · intro p P hp
    obtain ⟨p0, g1, g2⟩ := hcov p P hp
    obtain ⟨g3, g4⟩ := split g1
    constructor
    · rintro ⟨p', k1, k2⟩
      rw [(g2 p').1 k1] at k2
      obtain ⟨x, k3⟩ := h.begins.1 k2
      obtain ⟨-, Z, k4, k5⟩ := (h.reads _).1 k3
      obtain ⟨u, v, k6, -, rfl⟩ := Trim.split_left k5
      rw [Trim.forall2_functional huniq k6 g3] at k4
      exact ⟨v, k4⟩
    · rintro ⟨P', k1⟩
      obtain ⟨P'', k2, x, k3, k4⟩ := fits_begin (a := a) (fun s hs => (hn s).2 (.inl hs)) hi k1
      refine ⟨p0, (g2 p0).2 rfl, h.begins.2 ⟨x, (h.reads _).2 ⟨?_, _, k2, List.rel_append g3 k3⟩⟩⟩
      intro c hc
      rcases List.mem_append.1 hc with hc | hc
      · exact g4 c hc
      · exact k4 c hc
  · intro p P hp
    obtain ⟨p0, g1, g2⟩ := hcov p P hp
    obtain ⟨g3, g4⟩ := split g1
    constructor
    · rintro ⟨y', z, g, k1, k2⟩
      rw [(g2 y').1 k1] at k2
      obtain ⟨-, Z, k4, k5⟩ := (h.reads _).1 (h.accepts.1 ⟨z, g, k2⟩)
      rw [Trim.forall2_functional huniq k5 g3] at k4
      exact k4
    · intro k1
      obtain ⟨z, g, k2⟩ := h.accepts.2 ((h.reads p0).2 ⟨g4, _, k1, g3⟩)
      exact ⟨p0, z, g, (g2 p0).2 rfl, k2⟩

end

/-! ## Sections -/

/-- A section of the dictionary, with the pairs of names that it relates. -/
structure Sect (b : Alphabet) (t : Transducer W) (P : List Name → List Name → Prop) : Prop where
  wf : WF t
  coded : Coded b t
  joining : Product.Joining b t
  nonempty : ∃ X Y, P X Y
  rel : ∀ X Y, NMaps b t X Y ↔ P X Y

theorem Sect.finals {b : Alphabet} {t : Transducer W} {P : List Name → List Name → Prop} (h : Sect b t P) : t.finals ≠ [] := by
  obtain ⟨X, Y, hp⟩ := h.nonempty
  obtain ⟨x, y, ⟨ls, fw, ⟨p, -, hf⟩, -, -⟩, -, -⟩ := (h.rel X Y).2 hp
  exact List.ne_nil_of_mem hf

theorem known_of {b : Alphabet} {t : Transducer W} (h : Coded b t) : ∀ q l p, Edge t q l p → KA b l.1 := by
  intro q l p he
  obtain ⟨pr, hp⟩ := h _ _ _ he
  exact ⟨pr, decode_iff.1 hp⟩

theorem Sect.extend {b b' : Alphabet} {t : Transducer W} {P : List Name → List Name → Prop} (h : Sect b t P) (hs : Sane b) (he : Ext b b')
    (ht : b'.slexicinv = b.slexicinv) : Sect b' t P := by
  have hk := known_of h.coded
  refine ⟨h.wf, Tools.coded_mono he h.coded, ?_, h.nonempty, fun X Y => ?_⟩
  · intro q x y w r hh
    obtain ⟨h1, h2⟩ := h.joining q x y w r ((Trim.pairEdge_ext he hk).1 hh)
    exact ⟨h1, fun s hs' hn => h2 s hs' ((named_congr ht).1 hn)⟩
  · rw [Trim.nmaps_ext he hk (Tools.tagsKnown hs.symbols t), h.rel]

section
variable [AddCommMonoid W] {b : Alphabet} {t : Transducer W} {P : List Name → List Name → Prop}

theorem nmaps_iff {t : Transducer W} {X Y : List Name} : NMaps b t X Y ↔ ∃ x y, (∃ w, Relates b t x y w) ∧ List.Forall₂ (Named b) x X ∧ List.Forall₂ (Named b) y Y := by
  unfold NMaps
  simp only [← Trim.maps_spelled, Trim.Maps]

omit [AddCommMonoid W] in
theorem Sect.trimmable (h : Sect b t P) (hs : Sane b) {u : Transducer W} (hu : WF u) (hc : Coded b u) : Product.Trimmable b b t u :=
  ⟨hs.ok, hs.ok, h.wf, hu, h.coded, hc, Tools.tagsKnown hs.symbols t, Tools.tagsKnown hs.symbols u, h.finals⟩

theorem Sect.join (h : Sect b t P) (hs : Sane b) : ∃ t', joinFinals 0 t = .ok t' ∧ Sect b t' P := by
  obtain ⟨t', h1, h2, h3, -, h5, h6, -⟩ := (h.trimmable hs h.wf h.coded).joined
  refine ⟨t', h1, h2, h3, ?_, h.nonempty, ?_⟩
  · intro q x y w r hh
    rcases h6 _ _ _ hh with g | ⟨-, g, -⟩
    · exact h.joining q x y w r g
    · cases g
      refine ⟨by decide, fun s _ hn => ?_⟩
      have := hasTag_neg (named_tag_iff.1 hn)
      omega
  · intro X Y
    rw [← h.rel, nmaps_iff, nmaps_iff]
    have := h5 false
    simp only [Product.RelatesDir, Bool.false_eq_true, if_false] at this
    simp only [this]

omit [AddCommMonoid W] in
theorem path_pe {t : Transducer W} {q p : Nat} {ls : List Pair} : Path (PE b t) q ls p ↔ ∃ ms : List (Pair × W), Path (PairEdge b t) q ms p ∧ ms.map (·.1) = ls := by
  constructor
  · intro h
    induction h with
    | nil q => exact ⟨[], .nil _, rfl⟩
    | cons h _ ih =>
      obtain ⟨w, h⟩ := h
      obtain ⟨ms, g1, g2⟩ := ih
      exact ⟨_ :: ms, .cons h g1, by simp [g2]⟩
  · rintro ⟨ms, h, rfl⟩
    induction h with
    | nil q => exact .nil _
    | cons h _ ih => exact .cons ⟨_, h⟩ ih

theorem relates_pe {t : Transducer W} {x y : List Int} : (∃ w, Relates b t x y w) ↔ ∃ ls p w, Path (PE b t) t.initial ls p ∧ Final t p w ∧ x = lefts ls ∧ y = rights ls := by
  constructor
  · rintro ⟨w, ls, fw, ⟨p, h1, h2⟩, rfl, rfl, -⟩
    exact ⟨ls.map (·.1), p, fw, path_pe.2 ⟨ls, h1, rfl⟩, h2, by simp [lefts, Function.comp_def], by simp [rights, Function.comp_def]⟩
  · rintro ⟨ls, p, w, h1, h2, rfl, rfl⟩
    obtain ⟨ms, g1, rfl⟩ := path_pe.1 h1
    exact ⟨_, ms, w, ⟨p, g1, h2⟩, by simp [lefts, Function.comp_def], by simp [rights, Function.comp_def], rfl⟩

omit [AddCommMonoid W] in
theorem path_symbols {t : Transducer W} (hs : Sane b) {q p : Nat} {ls : List Pair} (h : Path (PE b t) q ls p) : ∀ l ∈ ls, Symbol b l.1 ∧ Symbol b l.2 := by
  induction h with
  | nil => simp
  | cons h _ ih =>
    obtain ⟨w, c, h1, -⟩ := h
    obtain ⟨i, h2, -⟩ := decode_iff.1 h1
    intro l hl
    rcases List.mem_cons.1 hl with rfl | hl
    · exact hs.symbols _ (List.mem_of_getElem? h2)
    · exact ih l hl

/-- What is listed of a section. -/
def Wanted (letters : List UInt32) (exclude : List UString) (is : List Item) (P : List Name → List Name → Prop) (e : UString × UString) : Prop :=
  ∃ X Y, P X Y ∧ Matches letters exclude is Y ∧ X ≠ [] ∧ Y ≠ [] ∧ e = (textOf Y, textOf X)

/-- The lengths are bounded. -/
def Bounded (P : List Name → List Name → Prop) : Prop := ∃ N, ∀ X Y, P X Y → X.length + Y.length ≤ N

theorem Sect.listed {letters : List UInt32} {exclude known : List UString} {a : Alphabet} {is : List Item} {s : Build W} (h : Sect s.a t P)
    (hO : Other letters exclude a is s) (hi : ∀ i ∈ is, i.Proper known) (hn : ∀ s, s ∈ a.slexicinv ↔ s ∈ known ∨ s = ANY)
    (hw : anyChar ∉ a.slexicinv ∧ anyTag ∉ a.slexicinv) :
    ∃ inter es, Product.trim t (trimmer s) s.a s.a 0 = .ok inter ∧
      (if inter.finals.isEmpty then .ok [] else expand inter s.a (2 * Fst.size inter + 1) inter.initial [] []) = .ok es ∧
      (∀ e ∈ es, Wanted letters exclude is P e) ∧ (Bounded P → ∀ e, Wanted letters exclude is P e → e ∈ es) := by
  have hT := h.trimmable hO.sane hO.trimmer_wf (Trim.coded_known hO.known)
  obtain ⟨r, h1, h2, h3, -⟩ := Product.C50_only_removes s.a s.a t (trimmer s) hT
  obtain ⟨r', k1, -, k2⟩ := Product.C50_joins s.a s.a t (trimmer s) hT h.joining
  rw [h1] at k1
  cases k1
  -- names
  have hsound : ∀ ls p w, Path (PE s.a r) r.initial ls p → Final r p w → ∃ X Y, P X Y ∧ Matches letters exclude is Y ∧
      List.Forall₂ (Named s.a) (lefts ls) X ∧ List.Forall₂ (Named s.a) (rights ls) Y := by
    intro ls p w hp hf
    obtain ⟨⟨v, g1⟩, g2⟩ := (k2 _ _).1 (relates_pe.2 ⟨ls, p, w, hp, hf, rfl, rfl⟩)
    obtain ⟨X, Y, g3, g4⟩ := Trim.spelled_named (Tools.tagsKnown hO.sane.symbols t) (Trim.maps_spelled.1 ⟨v, g1⟩)
    refine ⟨X, Y, (h.rel X Y).1 (nmaps_iff.2 ⟨_, _, ⟨v, g1⟩, g3, g4⟩), (hO.joined hi hn hw g4 ?_).1 g2, g3, g4⟩
    intro c hc
    simpa using (List.mem_filter.1 hc).2
  have hout : ∀ ls p e X Y, Path (PE s.a r) r.initial ls p → List.Forall₂ (Named s.a) (lefts ls) X → List.Forall₂ (Named s.a) (rights ls) Y →
      (Out s.a ls e ↔ X ≠ [] ∧ Y ≠ [] ∧ e = (textOf Y, textOf X)) := by
    intro ls p e X Y hp hX hY
    unfold Out
    rw [texts_named (path_symbols hO.sane hp) hX hY]
    simp only [ne_eq, textOf_nil hO.sane hX, textOf_nil hO.sane hY]
  obtain ⟨es, g1, g2⟩ := expand_ok hO.sane h2 h3 (2 * Fst.size r + 1) r.initial [] [] [] h2.initial_lt (by
    have : left (Fst.size r) [] ≤ Fst.size r := by
      unfold left
      exact (List.length_filter_le _ _).trans (by simp)
    simp only [List.not_mem_nil, if_false]
    omega) .nil
  have hS : ∀ e, (∃ ms p w, Simple s.a r [] r.initial ms p ∧ Final r p w ∧ Out s.a ms e) → Wanted letters exclude is P e := by
    rintro e ⟨ms, p, w, j1, j2, j3⟩
    obtain ⟨X, Y, j4, j5, j6, j7⟩ := hsound ms p w j1.path j2
    obtain ⟨j8, j9, j10⟩ := (hout ms p e X Y j1.path j6 j7).1 j3
    exact ⟨X, Y, j4, j5, j8, j9, j10⟩
  have hC : Bounded P → ∀ e, Wanted letters exclude is P e → ∃ ms p w, Simple s.a r [] r.initial ms p ∧ Final r p w ∧ Out s.a ms e := by
    rintro ⟨N, hN⟩ e ⟨X, Y, j1, j2, j3, j4, j5⟩
    obtain ⟨x, y, ⟨w, j6⟩, j7, j8⟩ := nmaps_iff.1 ((h.rel X Y).2 j1)
    have hy0 : ∀ c ∈ y, c ≠ 0 := by
      obtain ⟨ls, fw, -, -, rfl, -⟩ := j6
      intro c hc
      simpa using (List.mem_filter.1 hc).2
    obtain ⟨ls, p, w', j9, j10, rfl, rfl⟩ := relates_pe.1 ((k2 x y).2 ⟨⟨w, j6⟩, (hO.joined hi hn hw j8 hy0).2 j2⟩)
    obtain ⟨ms, i1, i2, i3⟩ := simple_of_bounded (a := s.a) (t := r) (N := N) (by
      intro ls p w hp hf
      obtain ⟨X, Y, i1, -, i2, i3⟩ := hsound ls p w hp hf
      rw [i2.length_eq, i3.length_eq]
      exact hN X Y i1) ls.length ls p w' le_rfl j9 j10
    refine ⟨ms, p, w', i1, j10, (hout ms p e X Y i1.path ?_ ?_).2 ⟨j3, j4, j5⟩⟩
    · rw [i2]; exact j7
    · rw [i3]; exact j8
  by_cases he : r.finals.isEmpty = true
  · refine ⟨r, [], h1, by rw [if_pos he], by simp, ?_⟩
    intro hb e hw'
    obtain ⟨ms, p, w, -, hf, -⟩ := hC hb e hw'
    have : r.finals = [] := List.isEmpty_iff.1 he
    unfold Final at hf
    rw [this] at hf; cases hf
  · refine ⟨r, es, h1, by rw [if_neg he]; exact g1, ?_, ?_⟩
    · intro e hm
      exact hS e ((g2 e).1 hm)
    · intro hb e hw'
      exact (g2 e).2 (hC hb e hw')

/-- The sections, each with what it relates. -/
abbrev Sects (b : Alphabet) (ts : List (UString × Transducer W)) (Ps : List (List Name → List Name → Prop)) : Prop :=
  List.Forall₂ (fun e P => Sect b e.2 P) ts Ps

theorem listSections_ok {letters : List UInt32} {exclude known : List UString} {a : Alphabet} {is : List Item} {s : Build W}
    (hO : Other letters exclude a is s) (hi : ∀ i ∈ is, i.Proper known) (hn : ∀ s, s ∈ a.slexicinv ↔ s ∈ known ∨ s = ANY)
    (hw : anyChar ∉ a.slexicinv ∧ anyTag ∉ a.slexicinv) {ts : List (UString × Transducer W)} {Ps : List (List Name → List Name → Prop)} (h : Sects s.a ts Ps) :
    ∃ ts' es, listSections s.a (trimmer s) ts = .ok (ts', es) ∧ Sects s.a ts' Ps ∧
      (∀ e ∈ es, ∃ P ∈ Ps, Wanted letters exclude is P e) ∧ ((∀ P ∈ Ps, Bounded P) → ∀ e, (∃ P ∈ Ps, Wanted letters exclude is P e) → e ∈ es) := by
  induction h with
  | nil => exact ⟨[], [], rfl, .nil, by simp, by simp⟩
  | @cons e P ts Ps h _ ih =>
    obtain ⟨k, t⟩ := e
    obtain ⟨t', h1, h2⟩ := h.join hO.sane
    obtain ⟨inter, x, h3, h4, h5, h6⟩ := h2.listed hO hi hn hw
    obtain ⟨ts', es, g1, g2, g3, g4⟩ := ih
    refine ⟨(k, t') :: ts', x ++ es, ?_, .cons h2 g2, ?_, ?_⟩
    · unfold listSections
      rw [h1, Res.bind_ok, h3, Res.bind_ok, g1]
      by_cases he : inter.finals.isEmpty = true
      · rw [if_pos he] at h4
        cases h4
        simp only [if_pos he]
        rfl
      · rw [if_neg he] at h4
        simp only [if_neg he, h4]
        rfl
    · intro e he
      rcases List.mem_append.1 he with he | he
      · exact ⟨P, by simp, h5 e he⟩
      · obtain ⟨Q, k1, k2⟩ := g3 e he
        exact ⟨Q, by simp [k1], k2⟩
    · rintro hb e ⟨Q, k1, k2⟩
      rcases List.mem_cons.1 k1 with rfl | k1
      · exact List.mem_append_left _ (h6 (hb _ (by simp)) e k2)
      · exact List.mem_append_right _ (g4 (fun P hP => hb P (by simp [hP])) e ⟨Q, k1, k2⟩)

/-! ## Lines -/

theorem mem_sorted (es : List (UString × UString)) : (∀ e, e ∈ sorted es ↔ e ∈ es) ∧ ((sorted es).map toLex).Pairwise (· < ·) := by
  have key : ∀ (es : List (UString × UString)) (s : List (UString ×ₗ UString)), s.Pairwise (· < ·) →
      (∀ e, e ∈ es.foldl (fun (s : List (UString ×ₗ UString)) e => setInsert (toLex e) s) s ↔ e ∈ s ∨ ofLex e ∈ es) ∧
      (es.foldl (fun (s : List (UString ×ₗ UString)) e => setInsert (toLex e) s) s).Pairwise (· < ·) := by
    intro es
    induction es with
    | nil => intro s hs; exact ⟨by simp, hs⟩
    | cons e es ih =>
      intro s hs
      obtain ⟨h1, h2⟩ := ih (setInsert (toLex e) s) (sorted_setInsert hs _)
      refine ⟨fun x => ?_, h2⟩
      rw [List.foldl_cons, h1, mem_setInsert, List.mem_cons]
      have : x = toLex e ↔ ofLex x = e := ⟨fun h => by rw [h]; rfl, fun h => by rw [← h]; rfl⟩
      rw [this]
      constructor
      · rintro ((h | h) | h)
        · exact .inr (.inl h)
        · exact .inl h
        · exact .inr (.inr h)
      · rintro (h | h | h)
        · exact .inl (.inr h)
        · exact .inl (.inl h)
        · exact .inr h
  obtain ⟨h1, h2⟩ := key es [] .nil
  constructor
  · intro e
    unfold sorted
    rw [List.mem_map]
    constructor
    · rintro ⟨x, hx, rfl⟩
      simpa using (h1 x).1 hx
    · intro he
      exact ⟨toLex e, (h1 _).2 (.inr he), rfl⟩
  · unfold sorted
    rw [List.map_map]
    have : (toLex ∘ ofLex : UString ×ₗ UString → UString ×ₗ UString) = id := rfl
    rw [this, List.map_id]
    exact h2

/-- The listing of a pattern. -/
structure Listing (sort : Bool) (letters : List UInt32) (exclude : List UString) (Ps : List (List Name → List Name → Prop)) (is : List Item)
    (es : List (UString × UString)) : Prop where
  sound : ∀ e ∈ es, ∃ P ∈ Ps, Wanted letters exclude is P e
  complete : (∀ P ∈ Ps, Bounded P) → ∀ e, (∃ P ∈ Ps, Wanted letters exclude is P e) → e ∈ es
  sorted : sort = true → (es.map toLex).Pairwise (· < ·)

theorem process_ok {sort : Bool} {letters : List UInt32} {exclude known : List UString} {a : Alphabet} (hs : Sane a) {tags : List Int}
    (hn : ∀ s, s ∈ a.slexicinv ↔ s ∈ known ∨ s = ANY) (hL : ∀ c ∈ letters, c.toNat < 0x10000) (ht : Allowed a exclude tags)
    (hw : anyChar ∉ a.slexicinv ∧ anyTag ∉ a.slexicinv) {is : List Item} (hi : ∀ i ∈ is, i.Proper known)
    {ts : List (UString × Transducer W)} {Ps : List (List Name → List Name → Prop)} (h : Sects a ts Ps) :
    ∃ a' ts' es, process sort letters tags (is.flatMap Item.text) a ts = .ok ((a', ts'), es) ∧ Sane a' ∧ a'.slexicinv = a.slexicinv ∧ Sects a' ts' Ps ∧
      Listing sort letters exclude Ps is es := by
  obtain ⟨s, h1, h2⟩ := steps_other (known := known) hn hL ht is hi [] _ (other_nil (W := W) hs)
  rw [List.nil_append] at h2
  have hS : Sects s.a ts Ps := h.imp fun e P hP => hP.extend hs h2.ext h2.tags
  obtain ⟨ts', es, g1, g2, g3, g4⟩ := listSections_ok h2 hi hn hw hS
  refine ⟨s.a, ts', if sort then sorted es else es, ?_, h2.sane, h2.tags, g2, ?_⟩
  · unfold process
    rw [pieces_items hi, Res.bind_ok, h1, Res.bind_ok]
    unfold trimmer at g1
    rw [g1]; rfl
  · cases sort with
    | false => exact ⟨g3, g4, fun h => by cases h⟩
    | true =>
      obtain ⟨m1, m2⟩ := mem_sorted es
      refine ⟨fun e he => g3 e ((m1 e).1 he), fun hb e he => (m1 e).2 (g4 hb e he), fun _ => m2⟩

theorem readLoop_line {sort : Bool} {letters : List UInt32} {tags : List Int} (cs : List Nat) (hc : ∀ c ∈ cs, c ≠ 0x0a ∧ c ≠ 0) :
    ∀ (rest : List Nat) (cur : UString) (a : Alphabet) (ts : List (UString × Transducer W)),
      readLoop sort letters tags (cs ++ rest) cur a ts = readLoop sort letters tags rest (cur ++ enc cs) a ts := by
  induction cs with
  | nil => intro rest cur a ts; simp [enc]
  | cons c cs ih =>
    intro rest cur a ts
    obtain ⟨h1, h2⟩ := hc c (by simp)
    rw [List.cons_append, readLoop, if_neg (by rintro (h | h); exact h1 h; exact h2 h), ih (fun c hc' => hc c (by simp [hc']))]
    simp [enc]

theorem readLoop_ok {sort : Bool} {letters : List UInt32} {exclude known : List UString} {tags : List Int} (hL : ∀ c ∈ letters, c.toNat < 0x10000)
    {Ps : List (List Name → List Name → Prop)} (rest : List ((Nat × List Nat) × List Item)) (hr : ∀ r ∈ rest, (r.1.1 = 0x0a ∨ r.1.1 = 0) ∧ Line known r.1.2 r.2) :
    ∀ (cs : List Nat) (is : List Item) (a : Alphabet) (ts : List (UString × Transducer W)), Line known cs is → Sane a →
      (∀ s, s ∈ a.slexicinv ↔ s ∈ known ∨ s = ANY) → Allowed a exclude tags → (anyChar ∉ a.slexicinv ∧ anyTag ∉ a.slexicinv) → Sects a ts Ps →
      ∃ e es, readLoop sort letters tags (inputOf cs (rest.map (·.1))) [] a ts = .ok (outputOf e es) ∧ Listing sort letters exclude Ps is e ∧
        List.Forall₂ (fun r x => x.1 = r.1.1 ∧ Listing sort letters exclude Ps r.2 x.2) rest es := by
  induction rest with
  | nil =>
    intro cs is a ts hl hs hn ht hw hS
    obtain ⟨a', ts', es, h1, -, -, -, h5⟩ := process_ok (sort := sort) hs hn hL ht hw hl.2.2 hS
    refine ⟨es, [], ?_, h5, .nil⟩
    unfold inputOf
    rw [readLoop_line cs hl.1, List.nil_append, hl.2.1]
    simp only [List.map_nil, List.flatMap_nil]
    unfold readLoop
    rw [h1, Res.bind_ok]
    unfold outputOf
    simp only [List.flatMap_nil, List.append_nil]
    rfl
  | cons r rest ih =>
    intro cs is a ts hl hs hn ht hw hS
    obtain ⟨a', ts', e0, h1, h2, h3, h4, h5⟩ := process_ok (sort := sort) hs hn hL ht hw hl.2.2 hS
    obtain ⟨hsep, hline⟩ := hr r (by simp)
    have ht' : Allowed a' exclude tags := by
      intro c
      rw [ht c]
      simp only [← named_tag_iff, named_congr h3]
    obtain ⟨e, es, g1, g2, g3⟩ := ih (fun r hr' => hr r (by simp [hr'])) r.1.2 r.2 a' ts' hline h2 (by rw [h3]; exact hn) ht' (by rw [h3]; exact hw) h4
    refine ⟨e0, (r.1.1, e) :: es, ?_, h5, .cons ⟨rfl, g2⟩ g3⟩
    have ei : inputOf cs ((r :: rest).map (·.1)) = cs ++ r.1.1 :: inputOf r.1.2 (rest.map (·.1)) := by simp [inputOf]
    rw [ei, readLoop_line cs hl.1, List.nil_append, hl.2.1, readLoop, if_pos hsep, h1, Res.bind_ok]
    simp only
    rw [g1]
    simp only [Res.bind_ok, Res.pure_eq]
    unfold outputOf printed shown
    simp

end

end Verif.Paradigm
