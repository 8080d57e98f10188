import Verif.Labels.Model
import Verif.Alphabet.Lemmas
import Verif.Transducer.Lemmas

/-! # Lemmas about operations on labels -/

namespace Verif

open Alphabet

section Rows

variable {ν : Type}

theorem mem_foldl_mmInsert {κ κ' : Type} [LinearOrder κ'] (f : κ → κ') (r : List (κ × ν)) (acc : List (κ' × ν))
    (x : κ' × ν) :
    x ∈ r.foldl (fun acc e => mmInsert (f e.1) e.2 acc) acc ↔ x ∈ acc ∨ ∃ e ∈ r, x = (f e.1, e.2) := by
  induction r generalizing acc with
  | nil => simp
  | cons e r ih =>
    rw [List.foldl_cons, ih, mem_mmInsert]
    constructor
    · rintro ((h | h) | ⟨d, hd, h⟩)
      · exact .inr ⟨e, List.mem_cons_self, h⟩
      · exact .inl h
      · exact .inr ⟨d, List.mem_cons_of_mem _ hd, h⟩
    · rintro (h | ⟨d, hd, h⟩)
      · exact .inl (.inr h)
      · rcases List.mem_cons.1 hd with rfl | hd
        · exact .inl (.inl h)
        · exact .inr ⟨d, hd, h⟩

theorem sorted_foldl_mmInsert {κ κ' : Type} [LinearOrder κ'] (f : κ → κ') (r : List (κ × ν)) (acc : List (κ' × ν))
    (h : SortedRow acc) : SortedRow (r.foldl (fun acc e => mmInsert (f e.1) e.2 acc) acc) := by
  induction r generalizing acc with
  | nil => exact h
  | cons e r ih => exact ih _ (sorted_mmInsert h _ _)

theorem filter_mmInsert {κ : Type} [LinearOrder κ] {r : List (κ × ν)} (h : SortedRow r) (k : κ) (v : ν) (c : κ) :
    (mmInsert k v r).filter (fun e => e.1 = c) =
      r.filter (fun e => e.1 = c) ++ (if k = c then [(k, v)] else []) := by
  induction r with
  | nil => by_cases hk : k = c <;> simp [mmInsert, hk]
  | cons e r ih =>
    obtain ⟨k', v'⟩ := e
    have h' := List.pairwise_cons.1 h
    simp only [mmInsert]
    split
    · rename_i hlt
      by_cases hk : k = c
      · subst hk
        have : ((k', v') :: r).filter (fun e => e.1 = k) = [] := by
          rw [List.filter_eq_nil_iff]
          intro e he
          simp only [decide_eq_true_eq]
          rcases List.mem_cons.1 he with rfl | he
          · exact ne_of_gt hlt
          · exact ne_of_gt (lt_of_lt_of_le hlt (h'.1 e he))
        rw [this]
        simp [this]
      · simp [hk]
    · rw [List.filter_cons, List.filter_cons, ih h'.2]
      split <;> simp

theorem sortedRow_ext {κ : Type} [LinearOrder κ] {r r' : List (κ × ν)} (h : SortedRow r) (h' : SortedRow r')
    (e : ∀ c, r.filter (fun e => e.1 = c) = r'.filter (fun e => e.1 = c)) : r = r' := by
  induction r generalizing r' with
  | nil =>
    cases r' with
    | nil => rfl
    | cons x r' => have := e x.1; simp at this
  | cons x r ih =>
    cases r' with
    | nil => have := e x.1; simp at this
    | cons y r' =>
      have p := List.pairwise_cons.1 h
      have p' := List.pairwise_cons.1 h'
      have hx : x ∈ y :: r' := by
        have : x ∈ (y :: r').filter (fun e => e.1 = x.1) := by rw [← e]; simp
        exact (List.mem_filter.1 this).1
      have hy : y ∈ x :: r := by
        have : y ∈ (x :: r).filter (fun e => e.1 = y.1) := by rw [e]; simp
        exact (List.mem_filter.1 this).1
      have h1 : y.1 ≤ x.1 := by
        rcases List.mem_cons.1 hx with hx | hx
        · rw [hx]
        · exact p'.1 x hx
      have h2 : x.1 ≤ y.1 := by
        rcases List.mem_cons.1 hy with hy | hy
        · rw [hy]
        · exact p.1 y hy
      have hk : x.1 = y.1 := le_antisymm h2 h1
      have hxy : x = y := by
        have := e x.1
        rw [List.filter_cons_of_pos (by simp), List.filter_cons_of_pos (by simp [hk])] at this
        exact (List.cons.inj this).1
      subst hxy
      congr 1
      refine ih p.2 p'.2 (fun c => ?_)
      have := e c
      by_cases hc : x.1 = c
      · rw [List.filter_cons_of_pos (by simp [hc]), List.filter_cons_of_pos (by simp [hc])] at this
        exact (List.cons.inj this).2
      · rwa [List.filter_cons_of_neg (by simp [hc]), List.filter_cons_of_neg (by simp [hc])] at this

end Rows

namespace Fst

variable {W : Type}

theorem mem_relabelRow (f : Int → Int) (r : Row W) (x : Int × (Nat × W)) :
    x ∈ relabelRow f r ↔ ∃ e ∈ r, x = (f e.1, e.2) := by
  rw [relabelRow, mem_foldl_mmInsert]; simp

theorem sorted_relabelRow (f : Int → Int) (r : Row W) : SortedRow (relabelRow f r) :=
  sorted_foldl_mmInsert f r [] List.Pairwise.nil

theorem filter_relabelRow (f : Int → Int) (r : Row W) (c : Int) :
    (relabelRow f r).filter (fun e => e.1 = c) = (r.filter (fun e => f e.1 = c)).map (fun e => (f e.1, e.2)) := by
  have key : ∀ acc : Row W, SortedRow acc →
      (r.foldl (fun acc e => mmInsert (f e.1) e.2 acc) acc).filter (fun e => e.1 = c) =
        acc.filter (fun e => e.1 = c) ++ (r.filter (fun e => f e.1 = c)).map (fun e => (f e.1, e.2)) := by
    induction r with
    | nil => simp
    | cons e r ih =>
      intro acc hacc
      rw [List.foldl_cons, ih _ (sorted_mmInsert hacc _ _), filter_mmInsert hacc]
      by_cases h : f e.1 = c <;> simp [h]
  simpa [relabelRow] using key [] List.Pairwise.nil

/-- Undoing an injective change of labels restores the row, including the order of its entries. -/
theorem relabelRow_relabelRow (f g : Int → Int) {r : Row W} (hs : SortedRow r) (hg : ∀ e ∈ r, g (f e.1) = e.1) :
    relabelRow g (relabelRow f r) = r := by
  refine sortedRow_ext (sorted_relabelRow _ _) hs (fun c => ?_)
  rw [filter_relabelRow]
  have h1 : (relabelRow f r).filter (fun e => g e.1 = c) = (relabelRow f r).filter (fun e => e.1 = f c ∧ g (f c) = c) := by
    refine List.filter_congr fun e he => ?_
    obtain ⟨d, hd, rfl⟩ := (mem_relabelRow f r e).1 he
    have := hg d hd
    simp only [this, decide_eq_decide]
    constructor
    · rintro rfl; exact ⟨rfl, this⟩
    · rintro ⟨h2, h3⟩; rw [← this, h2, h3]
  rw [h1]
  by_cases hc : g (f c) = c
  · simp only [hc, and_true]
    rw [filter_relabelRow, List.map_map]
    have h2 : r.filter (fun e => f e.1 = f c) = r.filter (fun e => e.1 = c) := by
      refine List.filter_congr fun e he => ?_
      rw [decide_eq_decide]
      constructor
      · intro h; have := hg e he; rw [h, hc] at this; exact this.symm
      · rintro rfl; rfl
    rw [h2]
    conv_rhs => rw [← List.map_id (r.filter (fun e => e.1 = c))]
    refine List.map_congr_left fun e he => ?_
    have := hg e (List.mem_of_mem_filter he)
    simp [Function.comp, this]
  · simp only [hc, and_false, decide_false]
    have h2 : r.filter (fun e => e.1 = c) = [] := by
      rw [List.filter_eq_nil_iff]
      intro e he h
      simp only [decide_eq_true_eq] at h
      exact hc (h ▸ hg e he)
    rw [h2]
    have : (relabelRow f r).filter (fun _ => false) = [] := by rw [List.filter_eq_nil_iff]; simp
    rw [this]; rfl

/-! ## Transition tables, row by row -/

/-- Rows correspond by `P`, with the same states. -/
def RowsRel (P : Row W → Row W → Prop) (m m' : List (Nat × Row W)) : Prop :=
  List.Forall₂ (fun e e' => e.1 = e'.1 ∧ P e.2 e'.2) m m'

theorem RowsRel.keys {P : Row W → Row W → Prop} {m m' : List (Nat × Row W)} (h : RowsRel P m m') :
    m'.map (·.1) = m.map (·.1) := by
  induction h with
  | nil => rfl
  | cons h _ ih => simp [ih, h.1]

theorem RowsRel.find {P : Row W → Row W → Prop} {m m' : List (Nat × Row W)} (h : RowsRel P m m') (q : Nat) :
    (mapFind q m = none ∧ mapFind q m' = none) ∨ ∃ r r', mapFind q m = some r ∧ mapFind q m' = some r' ∧ P r r' := by
  induction h with
  | nil => exact .inl ⟨rfl, rfl⟩
  | @cons e e' m m' h _ ih =>
    obtain ⟨k, r⟩ := e
    obtain ⟨k', r'⟩ := e'
    obtain ⟨h1, h2⟩ := h
    simp only at h1 h2
    subst h1
    by_cases hk : k = q
    · exact .inr ⟨r, r', by simp [mapFind, hk], by simp [mapFind, hk], h2⟩
    · simp only [mapFind, hk, if_false]; exact ih

theorem RowsRel.row {P : Row W → Row W → Prop} {t t' : Transducer W} (h : RowsRel P t.transitions t'.transitions)
    (h0 : P [] []) (q : Nat) : P (row t q) (row t' q) := by
  unfold Fst.row
  rcases h.find q with ⟨h1, h2⟩ | ⟨r, r', h1, h2, h3⟩
  · rw [h1, h2]; exact h0
  · rw [h1, h2]; exact h3

theorem RowsRel.mono {P Q : Row W → Row W → Prop} {m m' : List (Nat × Row W)} (h : RowsRel P m m')
    (hPQ : ∀ r r', P r r' → Q r r') : RowsRel Q m m' :=
  List.Forall₂.imp (fun _ _ hh => ⟨hh.1, hPQ _ _ hh.2⟩) h

theorem RowsRel.map (g : Row W → Row W) (m : List (Nat × Row W)) :
    RowsRel (fun r r' => r' = g r) m (m.map fun e => (e.1, g e.2)) := by
  induction m with
  | nil => exact .nil
  | cons e m ih => exact .cons ⟨rfl, rfl⟩ ih

theorem RowsRel.eq_map {g : Row W → Row W} {m m' : List (Nat × Row W)} (h : RowsRel (fun r r' => r' = g r) m m') :
    m' = m.map fun e => (e.1, g e.2) := by
  induction h with
  | nil => rfl
  | cons h _ ih => simp [ih, h.1, ← h.2]

theorem RowsRel.wf {P : Row W → Row W → Prop} {t t' : Transducer W} (h : RowsRel P t.transitions t'.transitions)
    (h0 : P [] []) (hi : t'.initial = t.initial) (hf : t'.finals = t.finals) (hw : WF t)
    (hs : ∀ r r', P r r' → SortedRow r → SortedRow r')
    (ht : ∀ r r', P r r' → ∀ e ∈ r', ∃ d ∈ r, d.2.1 = e.2.1) : WF t' := by
  have hk := h.keys
  have hsz : size t' = size t := by
    have := congrArg List.length hk
    simpa [size] using this
  refine ⟨by rw [hk, hsz]; exact hw.keys, ?_, by rw [hi, hsz]; exact hw.initial_lt, ?_, by rw [hf]; exact hw.finals_sorted, ?_⟩
  · have h' := h
    have hr := hw.rows
    clear hk hsz hw
    generalize t.transitions = m at *
    generalize t'.transitions = m' at *
    induction h' with
    | nil => simp
    | @cons e e' m m' hh hrest ih =>
      intro x hx
      rcases List.mem_cons.1 hx with rfl | hx
      · exact hs _ _ hh.2 (hr e List.mem_cons_self)
      · exact ih (fun y hy => hr y (List.mem_cons_of_mem _ hy)) hrest x hx
  · intro q l p he
    obtain ⟨d, hd, e⟩ := ht _ _ (h.row h0 q) _ he
    rw [hsz]
    have := hw.target_lt q (d.1, d.2.2) d.2.1 hd
    simp only at e
    rw [← e]; exact this
  · intro p w hp
    rw [hsz]; unfold Final at hp; rw [hf] at hp; exact hw.finals_lt p w hp

/-! ## Paths under a change of labels -/

theorem Path.rel {S L L' : Type} {E : S → L → S → Prop} {E' : S → L' → S → Prop} {R : L → L' → Prop}
    (h : ∀ q l' p, E' q l' p ↔ ∃ l, E q l p ∧ R l l') {q p : S} {ls' : List L'} :
    Path E' q ls' p ↔ ∃ ls, Path E q ls p ∧ List.Forall₂ R ls ls' := by
  constructor
  · intro hp
    induction hp with
    | nil q => exact ⟨[], .nil q, .nil⟩
    | cons he _ ih =>
      obtain ⟨ls, h1, h2⟩ := ih
      obtain ⟨l, hl, hr⟩ := (h _ _ _).1 he
      exact ⟨l :: ls, .cons hl h1, .cons hr h2⟩
  · rintro ⟨ls, hp, hf⟩
    induction hf generalizing q with
    | nil => rw [path_nil_iff] at hp ⊢; exact hp
    | cons hr _ ih =>
      rw [path_cons_iff] at hp ⊢
      obtain ⟨r, he, hp⟩ := hp
      exact ⟨r, (h _ _ _).2 ⟨_, he, hr⟩, ih hp⟩

theorem forall₂_eq_map {L L' : Type} (f : L → L') (ls : List L) (ls' : List L') :
    List.Forall₂ (fun l l' => l' = f l) ls ls' ↔ ls' = ls.map f := by
  induction ls generalizing ls' with
  | nil => simp
  | cons l ls ih =>
    cases ls' with
    | nil => simp
    | cons x xs => simp [ih]

/-! ## Inversion -/

/-- The code of a pair. -/
def codeOf (a : Alphabet) (p : Pair) : Int := (mapFind (toLex p) a.spair).getD 0

/-- The pair of a code. -/
def pairOf (a : Alphabet) (c : Int) : Pair := a.spairinv.getD c.toNat (0, 0)

theorem codeOf_eq {a : Alphabet} (h : Ok a) {c : Int} {p : Pair} (hp : HasPair a c p) : codeOf a p = c := by
  rw [← hasPair_find h] at hp; simp [codeOf, hp]

theorem pairOf_eq {a : Alphabet} {c : Int} {p : Pair} (hp : HasPair a c p) : pairOf a c = p := by
  obtain ⟨i, hi, rfl⟩ := hp
  simp [pairOf, List.getD, hi]

/-- The label of an arc after inversion, in terms of a finished alphabet. -/
def swapCode (a : Alphabet) (c : Int) : Int := codeOf a ((pairOf a c).2, (pairOf a c).1)

theorem invertRow_spec (r : Row W) (a : Alphabet) (acc : Row W) (h : Ok a) (hc : ∀ e ∈ r, ∃ p, HasPair a e.1 p) :
    ∃ a' r', invertRow r a acc = .ok (a', r') ∧ Ok a' ∧ Ext a a' ∧ a'.slexicinv = a.slexicinv ∧
      (∀ e ∈ r, ∃ c', HasPair a' c' ((pairOf a e.1).2, (pairOf a e.1).1)) ∧
      (∀ b, Ok b → Ext a' b → r' = r.foldl (fun acc e => mmInsert (swapCode b e.1) e.2 acc) acc) := by
  induction r generalizing a acc with
  | nil => exact ⟨a, acc, rfl, h, Ext.refl _, rfl, by simp, fun _ _ _ => rfl⟩
  | cons e r ih =>
    obtain ⟨c, e⟩ := e
    obtain ⟨p, hp⟩ := hc (c, e) List.mem_cons_self
    obtain ⟨g1, g2, g3, g4, _, _⟩ := pairCode_spec h p.2 p.1
    obtain ⟨a', r', k1, k2, k3, k4, k5, k6⟩ := ih (a.pairCode p.2 p.1).2 (mmInsert (a.pairCode p.2 p.1).1 e acc) g1
      (fun d hd => by
        obtain ⟨x, hx⟩ := hc d (List.mem_cons_of_mem _ hd)
        exact ⟨x, hx.mono g2⟩)
    refine ⟨a', r', ?_, k2, g2.trans k3, k4.trans g4, ?_, ?_⟩
    · simp only [invertRow, decode_iff.2 hp, Res.bind_ok]
      exact k1
    · intro d hd
      rcases List.mem_cons.1 hd with rfl | hd
      · simp only at hp; rw [pairOf_eq hp]; exact ⟨_, g3.mono k3⟩
      · obtain ⟨x, hx⟩ := hc d (List.mem_cons_of_mem _ hd)
        obtain ⟨y, hy⟩ := k5 d hd
        rw [pairOf_eq (hx.mono g2)] at hy
        rw [pairOf_eq hx]; exact ⟨y, hy⟩
    · intro b hb hext
      rw [k6 b hb hext, List.foldl_cons]
      have : swapCode b c = (a.pairCode p.2 p.1).1 := by
        unfold swapCode
        rw [pairOf_eq ((hp.mono g2).mono (k3.trans hext))]
        exact codeOf_eq hb (g3.mono (k3.trans hext))
      rw [this]

theorem invertRows_spec (m : List (Nat × Row W)) (a : Alphabet) (h : Ok a)
    (hc : ∀ e ∈ m, ∀ d ∈ e.2, ∃ p, HasPair a d.1 p) :
    ∃ a' m', invertRows m a = .ok (a', m') ∧ Ok a' ∧ Ext a a' ∧ a'.slexicinv = a.slexicinv ∧
      (∀ e ∈ m, ∀ d ∈ e.2, ∃ c', HasPair a' c' ((pairOf a d.1).2, (pairOf a d.1).1)) ∧
      (∀ b, Ok b → Ext a' b → m' = m.map fun e => (e.1, relabelRow (swapCode b) e.2)) := by
  induction m generalizing a with
  | nil => exact ⟨a, [], rfl, h, Ext.refl _, rfl, by simp, fun _ _ _ => rfl⟩
  | cons e m ih =>
    obtain ⟨q, r⟩ := e
    obtain ⟨a1, r', k1, k2, k3, k4, k5, k6⟩ := invertRow_spec r a [] h (fun d hd => hc (q, r) List.mem_cons_self d hd)
    obtain ⟨a2, m', l1, l2, l3, l4, l5, l6⟩ := ih a1 k2 (fun d hd x hx => by
      obtain ⟨p, hp⟩ := hc d (List.mem_cons_of_mem _ hd) x hx
      exact ⟨p, hp.mono k3⟩)
    refine ⟨a2, (q, r') :: m', ?_, l2, k3.trans l3, l4.trans k4, ?_, ?_⟩
    · simp only [invertRows, k1, l1, Res.bind_ok, Res.pure_eq]
    · intro d hd x hx
      rcases List.mem_cons.1 hd with rfl | hd
      · obtain ⟨c', hc'⟩ := k5 x hx
        exact ⟨c', hc'.mono l3⟩
      · obtain ⟨p, hp⟩ := hc d (List.mem_cons_of_mem _ hd) x hx
        obtain ⟨c', hc'⟩ := l5 d hd x hx
        rw [pairOf_eq (hp.mono k3)] at hc'
        rw [pairOf_eq hp]; exact ⟨c', hc'⟩
    · intro b hb hext
      rw [List.map_cons, ← l6 b hb hext]
      congr 2
      exact k6 b hb (l3.trans hext)

/-! ## Epsilonising -/

/-- The label after `epsilonizeSymbols`. -/
def eraseSym (syms : List Int) (c : Int) : Int := if c ∈ syms then 0 else c

theorem mem_foldl_eps (es : List (Nat × W)) (r : Row W) (x : Int × (Nat × W)) :
    x ∈ es.foldl (fun r e => mmInsert 0 e r) r ↔ x ∈ r ∨ ∃ e ∈ es, x = (0, e) := by
  have := mem_foldl_mmInsert (fun _ : Nat => (0 : Int)) (es.map fun e => (0, e)) r x
  rw [List.foldl_map] at this
  rw [this]
  simp

theorem sorted_foldl_eps (es : List (Nat × W)) (r : Row W) (h : SortedRow r) :
    SortedRow (es.foldl (fun r e => mmInsert 0 e r) r) := by
  induction es generalizing r with
  | nil => exact h
  | cons e es ih => exact ih _ (sorted_mmInsert h _ _)

theorem epsilonizeOne_spec {sym : Int} (h0 : sym ≠ 0) (r : Row W) :
    ∃ r', epsilonizeOne sym r = .ok r' ∧ (SortedRow r → SortedRow r') ∧
      ∀ x, x ∈ r' ↔ ∃ c, (c, x.2) ∈ r ∧ x.1 = (if c = sym then 0 else c) := by
  refine ⟨((equalRange sym r).foldl (fun r e => mmInsert 0 e r) r).filter (fun a => a.1 ≠ sym),
    by simp only [epsilonizeOne, if_neg h0], fun h => (sorted_foldl_eps _ _ h).filter _, fun x => ?_⟩
  obtain ⟨k, v⟩ := x
  rw [List.mem_filter, mem_foldl_eps]
  have he : ∀ c (e : Nat × W), e ∈ equalRange c r ↔ (c, e) ∈ r := fun c e => mem_equalRange c r e.1 e.2
  simp only [he, decide_eq_true_eq]
  constructor
  · rintro ⟨h1 | ⟨e, he, h2⟩, h3⟩
    · exact ⟨k, h1, by rw [if_neg h3]⟩
    · cases h2; exact ⟨sym, he, by simp⟩
  · rintro ⟨c, hc, h⟩
    by_cases hcs : c = sym
    · subst hcs
      rw [if_pos rfl] at h
      subst h
      exact ⟨.inr ⟨v, hc, rfl⟩, fun h => h0 h.symm⟩
    · rw [if_neg hcs] at h
      subst h
      exact ⟨.inl hc, hcs⟩

theorem epsilonizeRow_spec (syms : List Int) (h0 : (0 : Int) ∉ syms) (r : Row W) :
    ∃ r', epsilonizeRow syms r = .ok r' ∧ (SortedRow r → SortedRow r') ∧
      ∀ x, x ∈ r' ↔ ∃ c, (c, x.2) ∈ r ∧ x.1 = eraseSym syms c := by
  induction syms generalizing r with
  | nil => exact ⟨r, rfl, id, fun x => by simp [eraseSym]⟩
  | cons s syms ih =>
    simp only [List.mem_cons, not_or] at h0
    obtain ⟨r1, k1, k2, k3⟩ := epsilonizeOne_spec (Ne.symm h0.1) r
    obtain ⟨r2, l1, l2, l3⟩ := ih h0.2 r1
    refine ⟨r2, by simp only [epsilonizeRow, k1, Res.bind_ok, l1], l2 ∘ k2, fun x => ?_⟩
    rw [l3]
    simp only [k3, eraseSym, List.mem_cons]
    constructor
    · rintro ⟨c, ⟨d, hd, rfl⟩, h⟩
      refine ⟨d, hd, ?_⟩
      rw [h]
      by_cases hds : d = s
      · simp [hds, h0.2]
      · simp [hds]
    · rintro ⟨d, hd, h⟩
      refine ⟨_, ⟨d, hd, rfl⟩, ?_⟩
      rw [h]
      by_cases hds : d = s
      · simp [hds, h0.2]
      · simp [hds]

theorem epsilonizeRows_spec (syms : List Int) (h0 : (0 : Int) ∉ syms) (m : List (Nat × Row W)) :
    ∃ m', epsilonizeRows syms m = .ok m' ∧ RowsRel (fun r r' => (SortedRow r → SortedRow r') ∧
      ∀ x, x ∈ r' ↔ ∃ c, (c, x.2) ∈ r ∧ x.1 = eraseSym syms c) m m' := by
  induction m with
  | nil => exact ⟨[], rfl, .nil⟩
  | cons e m ih =>
    obtain ⟨q, r⟩ := e
    obtain ⟨r', k1, k2⟩ := epsilonizeRow_spec syms h0 r
    obtain ⟨m', l1, l2⟩ := ih
    exact ⟨(q, r') :: m', by simp only [epsilonizeRows, k1, l1, Res.bind_ok, Res.pure_eq], .cons ⟨rfl, k2⟩ l2⟩

theorem foldl_filter_ne (syms : List Int) (r : Row W) :
    syms.foldl (fun r sym => r.filter (fun a => a.1 ≠ sym)) r = r.filter (fun a => a.1 ∉ syms) := by
  induction syms generalizing r with
  | nil => simp
  | cons s syms ih =>
    rw [List.foldl_cons, ih, List.filter_filter]
    refine List.filter_congr fun a _ => ?_
    rw [← Bool.decide_and, decide_eq_decide]
    simp only [List.mem_cons, not_or]
    tauto

/-! ## Character equivalences -/

/-- `z` is a declared equivalent of `x`. -/
def Equiv' (acx : List (Int × List Int)) (x z : Int) : Prop := ∃ zs, mapFind x acx = some zs ∧ z ∈ zs

theorem acxSyms_spec (y : Int) (e : Nat × W) (zs : List Int) (a : Alphabet) (ins : Row W) (h : Ok a) :
    ∃ a' ins', acxSyms y e zs a ins = (a', ins') ∧ Ok a' ∧ Ext a a' ∧ (∀ z ∈ zs, ∃ c, HasPair a' c (z, y)) ∧
      ∀ b, Ok b → Ext a' b → ∀ x, x ∈ ins' ↔ x ∈ ins ∨ ∃ z ∈ zs, HasPair b x.1 (z, y) ∧ x.2 = e := by
  induction zs generalizing a ins with
  | nil => exact ⟨a, ins, rfl, h, Ext.refl _, by simp, by simp⟩
  | cons z zs ih =>
    obtain ⟨g1, g2, g3, _, _, _⟩ := pairCode_spec h z y
    obtain ⟨a', ins', k1, k2, k3, k5, k4⟩ := ih (a.pairCode z y).2 (ins ++ [((a.pairCode z y).1, e)]) g1
    refine ⟨a', ins', k1, k2, g2.trans k3, fun z' hz => ?_, fun b hb hext x => ?_⟩
    · rcases List.mem_cons.1 hz with rfl | hz
      · exact ⟨_, g3.mono k3⟩
      · exact k5 z' hz
    have g3' := g3.mono (k3.trans hext)
    rw [k4 b hb hext, List.mem_append, List.mem_singleton]
    constructor
    · rintro ((h1 | rfl) | ⟨z', hz, h1⟩)
      · exact .inl h1
      · exact .inr ⟨z, List.mem_cons_self, g3', rfl⟩
      · exact .inr ⟨z', List.mem_cons_of_mem _ hz, h1⟩
    · rintro (h1 | ⟨z', hz, h1, h2⟩)
      · exact .inl (.inl h1)
      · rcases List.mem_cons.1 hz with rfl | hz
        · have := h1.code_unique hb g3'
          exact .inl (.inr (Prod.ext this h2))
        · exact .inr ⟨z', hz, h1, h2⟩

theorem acxCollect_spec (acx : List (Int × List Int)) (r : Row W) (a : Alphabet) (ins : Row W) (h : Ok a)
    (hc : ∀ e ∈ r, ∃ p, HasPair a e.1 p) :
    ∃ a' ins', acxCollect acx r a ins = .ok (a', ins') ∧ Ok a' ∧ Ext a a' ∧
      (∀ e ∈ r, ∀ p z, HasPair a e.1 p → Equiv' acx p.1 z → ∃ c, HasPair a' c (z, p.2)) ∧
      ∀ b, Ok b → Ext a' b → ∀ x, x ∈ ins' ↔ x ∈ ins ∨ ∃ e ∈ r, ∃ p z, HasPair b e.1 p ∧ Equiv' acx p.1 z ∧
        HasPair b x.1 (z, p.2) ∧ x.2 = e.2 := by
  induction r generalizing a ins with
  | nil => exact ⟨a, ins, rfl, h, Ext.refl _, by simp, by simp⟩
  | cons e r ih =>
    obtain ⟨c, e⟩ := e
    obtain ⟨p, hp⟩ := hc (c, e) List.mem_cons_self
    simp only [acxCollect, decode_iff.2 hp, Res.bind_ok]
    have hc' : ∀ d ∈ r, ∃ p, HasPair a d.1 p := fun d hd => hc d (List.mem_cons_of_mem _ hd)
    split
    · rename_i hn
      obtain ⟨a', ins', k1, k2, k3, k5, k4⟩ := ih a ins h hc'
      refine ⟨a', ins', k1, k2, k3, fun d hd p' z h1 h2 => ?_, fun b hb hext x => ?_⟩
      · rcases List.mem_cons.1 hd with rfl | hd
        · obtain ⟨zs, h2, _⟩ := h2
          rw [h1.pair_unique hp, hn] at h2; cases h2
        · exact k5 d hd p' z h1 h2
      rw [k4 b hb hext]
      constructor
      · rintro (h1 | ⟨d, hd, h1⟩)
        · exact .inl h1
        · exact .inr ⟨d, List.mem_cons_of_mem _ hd, h1⟩
      · rintro (h1 | ⟨d, hd, p', z, h1, ⟨zs, h2, _⟩, h3⟩)
        · exact .inl h1
        · rcases List.mem_cons.1 hd with rfl | hd
          · rw [h1.pair_unique (hp.mono (k3.trans hext)), hn] at h2; cases h2
          · exact .inr ⟨d, hd, p', z, h1, ⟨zs, h2, by assumption⟩, h3⟩
    · rename_i zs hzs
      obtain ⟨a1, ins1, j1, j2, j3, j5, j4⟩ := acxSyms_spec p.2 e zs a ins h
      rw [j1]
      obtain ⟨a', ins', k1, k2, k3, k5, k4⟩ := ih a1 ins1 j2 (fun d hd => by
        obtain ⟨x, hx⟩ := hc' d hd
        exact ⟨x, hx.mono j3⟩)
      refine ⟨a', ins', k1, k2, j3.trans k3, fun d hd p' z h1 h2 => ?_, fun b hb hext x => ?_⟩
      · rcases List.mem_cons.1 hd with rfl | hd
        · obtain ⟨zs', h2, h3⟩ := h2
          obtain rfl := h1.pair_unique hp
          rw [hzs] at h2
          cases h2
          obtain ⟨c', hc'⟩ := j5 z h3
          exact ⟨c', hc'.mono k3⟩
        · exact k5 d hd p' z (h1.mono j3) h2
      rw [k4 b hb hext, j4 b hb (k3.trans hext)]
      constructor
      · rintro ((h1 | ⟨z, hz, h1, h2⟩) | ⟨d, hd, h1⟩)
        · exact .inl h1
        · exact .inr ⟨_, List.mem_cons_self, p, z, hp.mono ((j3.trans k3).trans hext), ⟨zs, hzs, hz⟩, h1, h2⟩
        · exact .inr ⟨d, List.mem_cons_of_mem _ hd, h1⟩
      · rintro (h1 | ⟨d, hd, p', z, h1, ⟨zs', h2, h2'⟩, h3, h4⟩)
        · exact .inl (.inl h1)
        · rcases List.mem_cons.1 hd with rfl | hd
          · obtain rfl := h1.pair_unique (hp.mono ((j3.trans k3).trans hext))
            rw [hzs] at h2
            cases h2
            exact .inl (.inr ⟨z, h2', h3, h4⟩)
          · exact .inr ⟨d, hd, p', z, h1, ⟨zs', h2, h2'⟩, h3, h4⟩

theorem foldl_insert_pairs (ins r : Row W) :
    (∀ x, x ∈ ins.foldl (fun r e => mmInsert e.1 e.2 r) r ↔ x ∈ r ∨ x ∈ ins) ∧
      (SortedRow r → SortedRow (ins.foldl (fun r e => mmInsert e.1 e.2 r) r)) := by
  constructor
  · intro x
    have := mem_foldl_mmInsert (fun k : Int => k) ins r x
    rw [this]; simp
  · exact sorted_foldl_mmInsert (fun k : Int => k) ins r

theorem acxRows_spec (acx : List (Int × List Int)) (m : List (Nat × Row W)) (a : Alphabet) (h : Ok a)
    (hc : ∀ e ∈ m, ∀ d ∈ e.2, ∃ p, HasPair a d.1 p) :
    ∃ a' m', acxRows acx m a = .ok (a', m') ∧ Ok a' ∧ Ext a a' ∧
      (∀ x ∈ m, ∀ e ∈ x.2, ∀ p z, HasPair a e.1 p → Equiv' acx p.1 z → ∃ c, HasPair a' c (z, p.2)) ∧
      ∀ b, Ok b → Ext a' b → RowsRel (fun r r' => (SortedRow r → SortedRow r') ∧
        ∀ x, x ∈ r' ↔ x ∈ r ∨ ∃ e ∈ r, ∃ p z, HasPair b e.1 p ∧ Equiv' acx p.1 z ∧
        HasPair b x.1 (z, p.2) ∧ x.2 = e.2) m m' := by
  induction m generalizing a with
  | nil => exact ⟨a, [], rfl, h, Ext.refl _, by simp, fun _ _ _ => .nil⟩
  | cons e m ih =>
    obtain ⟨q, r⟩ := e
    obtain ⟨a1, ins, k1, k2, k3, k5, k4⟩ := acxCollect_spec acx r a [] h (fun d hd => hc (q, r) List.mem_cons_self d hd)
    obtain ⟨a2, m', l1, l2, l3, l5, l4⟩ := ih a1 k2 (fun d hd x hx => by
      obtain ⟨p, hp⟩ := hc d (List.mem_cons_of_mem _ hd) x hx
      exact ⟨p, hp.mono k3⟩)
    refine ⟨a2, (q, ins.foldl (fun r e => mmInsert e.1 e.2 r) r) :: m', by simp only [acxRows, k1, l1, Res.bind_ok, Res.pure_eq], l2, k3.trans l3,
      fun x hx e he p z h1 h2 => ?_, fun b hb hext => ?_⟩
    · rcases List.mem_cons.1 hx with rfl | hx
      · obtain ⟨c', hc'⟩ := k5 e he p z h1 h2
        exact ⟨c', hc'.mono l3⟩
      · exact l5 x hx e he p z (h1.mono k3) h2
    refine .cons ⟨rfl, (foldl_insert_pairs ins r).2, fun x => ?_⟩ (l4 b hb hext)
    rw [(foldl_insert_pairs ins r).1, k4 b hb (l3.trans hext)]
    simp

/-! ## Changing the alphabet -/

theorem mem_insertTag (x : Int) (S : List Int) (y : Int) : y ∈ insertTag x S ↔ (x < 0 ∧ y = x) ∨ y ∈ S := by
  unfold insertTag
  split
  · rename_i h; rw [mem_setInsert]; simp [h]
  · rename_i h; simp [h]

/-- The tags that an arc symbol contributes. -/
def tagsOf (old : Alphabet) (hasPairs : Bool) (c x : Int) : Prop :=
  x < 0 ∧ ((hasPairs = false ∧ c < 0 ∧ x = c) ∨
    (¬ (hasPairs = false ∧ c < 0) ∧ ∃ p, HasPair old c p ∧ (x = p.1 ∨ x = p.2)))

theorem collect_spec (old : Alphabet) (hasPairs : Bool) (cs : List Int) (pairs symbols : List Int)
    (hc : ∀ c ∈ cs, ¬ (hasPairs = false ∧ c < 0) → ∃ p, HasPair old c p) :
    ∃ ps ss, collect old hasPairs cs (pairs, symbols) = .ok (ps, ss) ∧
      (∀ c, c ∈ ps ↔ c ∈ pairs ∨ (c ∈ cs ∧ ¬ (hasPairs = false ∧ c < 0))) ∧
      (∀ x, x ∈ ss ↔ x ∈ symbols ∨ ∃ c ∈ cs, tagsOf old hasPairs c x) := by
  induction cs generalizing pairs symbols with
  | nil => exact ⟨pairs, symbols, rfl, by simp, by simp⟩
  | cons c cs ih =>
    simp only [collect]
    have hc' : ∀ c ∈ cs, ¬ (hasPairs = false ∧ c < 0) → ∃ p, HasPair old c p :=
      fun d hd => hc d (List.mem_cons_of_mem _ hd)
    by_cases hcond : hasPairs = false ∧ c < 0
    · have hb : (!hasPairs && decide (c < 0)) = true := by simp [hcond.1, hcond.2]
      rw [if_pos hb]
      obtain ⟨ps, ss, k1, k2, k3⟩ := ih pairs (setInsert c symbols) hc'
      refine ⟨ps, ss, k1, fun d => ?_, fun x => ?_⟩
      · rw [k2, List.mem_cons]
        constructor
        · rintro (h | h)
          · exact .inl h
          · exact .inr ⟨.inr h.1, h.2⟩
        · rintro (h | ⟨rfl | h, h'⟩)
          · exact .inl h
          · exact absurd hcond h'
          · exact .inr ⟨h, h'⟩
      · rw [k3, mem_setInsert]
        constructor
        · rintro ((rfl | h) | ⟨d, hd, h⟩)
          · exact .inr ⟨x, List.mem_cons_self, hcond.2, .inl ⟨hcond.1, hcond.2, rfl⟩⟩
          · exact .inl h
          · exact .inr ⟨d, List.mem_cons_of_mem _ hd, h⟩
        · rintro (h | ⟨d, hd, h⟩)
          · exact .inl (.inr h)
          · rcases List.mem_cons.1 hd with rfl | hd
            · rcases h.2 with h | h
              · exact .inl (.inl h.2.2)
              · exact absurd hcond h.1
            · exact .inr ⟨d, hd, h⟩
    · have hb : ¬ (!hasPairs && decide (c < 0)) = true := by
        intro h; apply hcond; simpa using h
      rw [if_neg hb]
      obtain ⟨p, hp⟩ := hc c List.mem_cons_self hcond
      rw [decode_iff.2 hp, Res.bind_ok]
      obtain ⟨ps, ss, k1, k2, k3⟩ := ih (setInsert c pairs) (insertTag p.2 (insertTag p.1 symbols)) hc'
      refine ⟨ps, ss, k1, fun d => ?_, fun x => ?_⟩
      · rw [k2, mem_setInsert, List.mem_cons]
        constructor
        · rintro ((rfl | h) | h)
          · exact .inr ⟨.inl rfl, hcond⟩
          · exact .inl h
          · exact .inr ⟨.inr h.1, h.2⟩
        · rintro (h | ⟨rfl | h, h'⟩)
          · exact .inl (.inr h)
          · exact .inl (.inl rfl)
          · exact .inr ⟨h, h'⟩
      · rw [k3, mem_insertTag, mem_insertTag]
        constructor
        · rintro ((⟨h, rfl⟩ | ⟨h, rfl⟩ | h) | ⟨d, hd, h⟩)
          · exact .inr ⟨c, List.mem_cons_self, h, .inr ⟨hcond, p, hp, .inr rfl⟩⟩
          · exact .inr ⟨c, List.mem_cons_self, h, .inr ⟨hcond, p, hp, .inl rfl⟩⟩
          · exact .inl h
          · exact .inr ⟨d, List.mem_cons_of_mem _ hd, h⟩
        · rintro (h | ⟨d, hd, h⟩)
          · exact .inl (.inr (.inr h))
          · rcases List.mem_cons.1 hd with rfl | hd
            · obtain ⟨hneg, h | ⟨_, p', hp', h⟩⟩ := h
              · exact absurd ⟨h.1, h.2.1⟩ hcond
              · obtain rfl := hp'.pair_unique hp
                rcases h with rfl | rfl
                · exact .inl (.inr (.inl ⟨hneg, rfl⟩))
                · exact .inl (.inl ⟨hneg, rfl⟩)
            · exact .inr ⟨d, hd, h⟩

theorem updateTags_spec (old : Alphabet) (xs : List Int) (b : Alphabet) (m : List (Int × Int)) (h : Ok b)
    (hm : SortedKeys m) (hx : ∀ x ∈ xs, ∃ s, HasTag old x s) :
    ∃ b' m', updateTags old xs b m = .ok (b', m') ∧ Ok b' ∧ Ext b b' ∧ SortedKeys m' ∧ b'.spairinv = b.spairinv ∧
      (∀ x, x ∉ xs → mapFind x m' = mapFind x m) ∧
      (∀ x ∈ xs, ∃ y s, mapFind x m' = some y ∧ HasTag old x s ∧ HasTag b' y s) := by
  induction xs generalizing b m with
  | nil => exact ⟨b, m, rfl, h, Ext.refl _, hm, rfl, by simp, by simp⟩
  | cons x xs ih =>
    obtain ⟨s, hs⟩ := hx x List.mem_cons_self
    have hg : old.getSymbol x = .ok s := by
      have := hs.neg
      rw [getSymbol, if_neg (by omega), if_pos this]; exact (tagText_iff this).2 hs
    obtain ⟨g1, g2, ⟨y, g3⟩, g4, _⟩ := includeSymbol_spec h s
    have hy := symCode_of_hasTag g1 g3
    simp only [updateTags, hg, Res.bind_ok, hy]
    have hm' : SortedKeys (mapSet x y m) := by rw [mapSet_eq_modify]; exact sorted_modify hm _ _ _
    obtain ⟨b', m', k1, k2, k3, k4, k4', k5, k6⟩ := ih (b.includeSymbol s) (mapSet x y m) g1 hm'
      (fun z hz => hx z (List.mem_cons_of_mem _ hz))
    have hset : ∀ z, mapFind z (mapSet x y m) = if z = x then some y else mapFind z m := by
      intro z; rw [mapSet_eq_modify, mapFind_modify hm]
    refine ⟨b', m', k1, k2, g2.trans k3, k4, k4'.trans g4, fun z hz => ?_, fun z hz => ?_⟩
    · simp only [List.mem_cons, not_or] at hz
      rw [k5 z hz.2, hset, if_neg hz.1]
    · by_cases hzx : z ∈ xs
      · exact k6 z hzx
      · rcases List.mem_cons.1 hz with rfl | hz
        · exact ⟨y, s, by rw [k5 z hzx, hset, if_pos rfl], hs, g3.mono k3⟩
        · exact absurd hz hzx

theorem updatePairs_spec (old : Alphabet) (m : List (Int × Int)) (cs : List Int) (b : Alphabet) (pm : List (Int × Int))
    (h : Ok b) (hm : SortedKeys pm) (hc : ∀ c ∈ cs, ∃ p, HasPair old c p) :
    let g := fun x : Int => if x < 0 then updGet m x else x
    ∃ b' pm', updatePairs old m cs b pm = .ok (b', pm') ∧ Ok b' ∧ Ext b b' ∧ SortedKeys pm' ∧
      b'.slexicinv = b.slexicinv ∧
      (∀ c, c ∉ cs → mapFind c pm' = mapFind c pm) ∧
      (∀ c ∈ cs, ∃ c' p, mapFind c pm' = some c' ∧ HasPair old c p ∧ HasPair b' c' (g p.1, g p.2)) := by
  intro g
  induction cs generalizing b pm with
  | nil => exact ⟨b, pm, rfl, h, Ext.refl _, hm, rfl, by simp, by simp⟩
  | cons c cs ih =>
    obtain ⟨p, hp⟩ := hc c List.mem_cons_self
    obtain ⟨g1, g2, g3, g4, _, _⟩ := pairCode_spec h (g p.1) (g p.2)
    simp only [updatePairs, decode_iff.2 hp, Res.bind_ok]
    have hm' : SortedKeys (mapSet c (b.pairCode (g p.1) (g p.2)).1 pm) := by
      rw [mapSet_eq_modify]; exact sorted_modify hm _ _ _
    obtain ⟨b', m', k1, k2, k3, k4, k4', k5, k6⟩ := ih (b.pairCode (g p.1) (g p.2)).2
      (mapSet c (b.pairCode (g p.1) (g p.2)).1 pm) g1 hm' (fun z hz => hc z (List.mem_cons_of_mem _ hz))
    have hset : ∀ z, mapFind z (mapSet c (b.pairCode (g p.1) (g p.2)).1 pm) =
        if z = c then some (b.pairCode (g p.1) (g p.2)).1 else mapFind z pm := by
      intro z; rw [mapSet_eq_modify, mapFind_modify hm]
    refine ⟨b', m', k1, k2, g2.trans k3, k4, k4'.trans g4, fun z hz => ?_, fun z hz => ?_⟩
    · simp only [List.mem_cons, not_or] at hz
      rw [k5 z hz.2, hset, if_neg hz.1]
    · by_cases hzx : z ∈ cs
      · exact k6 z hzx
      · rcases List.mem_cons.1 hz with rfl | hz
        · exact ⟨_, p, by rw [k5 z hzx, hset, if_pos rfl], hp, g3.mono k3⟩
        · exact absurd hz hzx

/-- Where the pairs of the alphabet come from. -/
theorem updatePairs_pairs (old : Alphabet) (m : List (Int × Int)) (cs : List Int) (b b' : Alphabet) (pm pm' : List (Int × Int)) (h : Ok b)
    (he : updatePairs old m cs b pm = .ok (b', pm')) :
    ∀ p ∈ b'.spairinv, p ∈ b.spairinv ∨ ∃ c ∈ cs, ∃ pr, HasPair old c pr ∧
      p = ((if pr.1 < 0 then updGet m pr.1 else pr.1), (if pr.2 < 0 then updGet m pr.2 else pr.2)) := by
  induction cs generalizing b pm with
  | nil => simp only [updatePairs, Res.ok.injEq, Prod.mk.injEq] at he; rw [he.1]; exact fun p hp => .inl hp
  | cons c cs ih =>
    simp only [updatePairs] at he
    obtain ⟨pr, h1, h2⟩ := Res.bind_eq_ok.1 he
    obtain ⟨g1, -, -, -, -, g6⟩ := pairCode_spec h (if pr.1 < 0 then updGet m pr.1 else pr.1) (if pr.2 < 0 then updGet m pr.2 else pr.2)
    intro p hp
    rcases ih _ _ g1 h2 p hp with h3 | ⟨c', hc', h3⟩
    · rw [g6] at h3
      by_cases hm : ((if pr.1 < 0 then updGet m pr.1 else pr.1), (if pr.2 < 0 then updGet m pr.2 else pr.2)) ∈ b.spairinv
      · rw [if_pos hm] at h3; exact .inl h3
      · rw [if_neg hm] at h3
        rcases List.mem_append.1 h3 with h3 | h3
        · exact .inl h3
        · exact .inr ⟨c, List.mem_cons_self, pr, decode_iff.1 h1, List.mem_singleton.1 h3⟩
    · exact .inr ⟨c', List.mem_cons_of_mem _ hc', h3⟩

/-- Where the tags of the alphabet come from. -/
theorem updateTags_tags (old : Alphabet) (xs : List Int) (b b' : Alphabet) (m m' : List (Int × Int)) (h : Ok b)
    (he : updateTags old xs b m = .ok (b', m')) : ∀ s ∈ b'.slexicinv, s ∈ b.slexicinv ∨ ∃ x ∈ xs, old.getSymbol x = .ok s := by
  induction xs generalizing b m with
  | nil => simp only [updateTags, Res.ok.injEq, Prod.mk.injEq] at he; rw [he.1]; exact fun p hp => .inl hp
  | cons x xs ih =>
    simp only [updateTags] at he
    obtain ⟨s, h1, h2⟩ := Res.bind_eq_ok.1 he
    obtain ⟨g1, -, -, -, g5⟩ := includeSymbol_spec h s
    intro p hp
    rcases ih _ _ g1 h2 p hp with h3 | ⟨c', hc', h3⟩
    · rw [g5] at h3
      split at h3
      · exact .inl h3
      · rcases List.mem_append.1 h3 with h3 | h3
        · exact .inl h3
        · rw [List.mem_singleton.1 h3]
          exact .inr ⟨x, List.mem_cons_self, h1⟩
    · exact .inr ⟨c', List.mem_cons_of_mem _ hc', h3⟩

theorem invertRow_pairs (r : Row W) (a a' : Alphabet) (acc r' : Row W) (h : Ok a) (he : invertRow r a acc = .ok (a', r')) :
    ∀ p ∈ a'.spairinv, p ∈ a.spairinv ∨ (p.2, p.1) ∈ a.spairinv := by
  induction r generalizing a acc with
  | nil => simp only [invertRow, Res.ok.injEq, Prod.mk.injEq] at he; rw [he.1]; exact fun p hp => .inl hp
  | cons e r ih =>
    obtain ⟨c, e⟩ := e
    simp only [invertRow] at he
    obtain ⟨pr, h1, h2⟩ := Res.bind_eq_ok.1 he
    obtain ⟨g1, -, -, -, -, g6⟩ := pairCode_spec h pr.2 pr.1
    have hpr : pr ∈ a.spairinv := by
      obtain ⟨i, hi, -⟩ := decode_iff.1 h1
      exact List.mem_of_getElem? hi
    have key : ∀ p ∈ (a.pairCode pr.2 pr.1).2.spairinv, p ∈ a.spairinv ∨ (p.2, p.1) ∈ a.spairinv := by
      intro p hp
      rw [g6] at hp
      split at hp
      · exact .inl hp
      · rcases List.mem_append.1 hp with hp | hp
        · exact .inl hp
        · rw [List.mem_singleton.1 hp]; exact .inr hpr
    intro p hp
    rcases ih _ _ g1 h2 p hp with h3 | h3
    · exact key p h3
    · rcases key _ h3 with h4 | h4
      · exact .inr h4
      · exact .inl h4

theorem invertRows_pairs (m : List (Nat × Row W)) (a a' : Alphabet) (m' : List (Nat × Row W)) (h : Ok a)
    (hc : ∀ e ∈ m, ∀ d ∈ e.2, ∃ p, HasPair a d.1 p) (he : invertRows m a = .ok (a', m')) :
    ∀ p ∈ a'.spairinv, p ∈ a.spairinv ∨ (p.2, p.1) ∈ a.spairinv := by
  induction m generalizing a m' with
  | nil => simp only [invertRows, Res.ok.injEq, Prod.mk.injEq] at he; rw [he.1]; exact fun p hp => .inl hp
  | cons e m ih =>
    obtain ⟨q, r⟩ := e
    obtain ⟨a1, r', k1, k2, k3, -⟩ := invertRow_spec r a [] h (fun d hd => hc (q, r) List.mem_cons_self d hd)
    simp only [invertRows, k1, Res.bind_ok] at he
    obtain ⟨⟨a2, m2⟩, h1, h2⟩ := Res.bind_eq_ok.1 he
    simp only [Res.pure_eq, Res.ok.injEq, Prod.mk.injEq] at h2
    obtain ⟨rfl, -⟩ := h2
    have key := invertRow_pairs r a a1 [] r' h k1
    intro p hp
    rcases ih a1 m2 k2 (fun d hd x hx => by
      obtain ⟨p, hp⟩ := hc d (List.mem_cons_of_mem _ hd) x hx
      exact ⟨p, hp.mono k3⟩) h1 p hp with h3 | h3
    · exact key p h3
    · rcases key _ h3 with h4 | h4
      · exact .inr h4
      · exact .inl h4

end Fst

end Verif
