import Verif.Tools.Spec
import Mathlib.Data.List.Forall2
import Mathlib.Data.List.Nodup
import Mathlib.Data.List.Perm.Subperm

/-! # Lemmas about files and about the operations on them -/

namespace Verif.Tools

open Verif.Fst
open Verif.Alphabet (HasPair HasTag Ext Ok decode_iff tagText_iff pairCode_spec)
open Verif.Compression (Dbl)

/-! ## Transducers with the same states -/

section
variable {W : Type}

/-- `t'` has the rows of `t` with other labels, perhaps with fewer arcs. -/
def Made (t t' : Transducer W) : Prop :=
  t'.initial = t.initial ∧ t'.finals = t.finals ∧
    RowsRel (fun r r' => r'.length ≤ r.length ∧ ∀ e ∈ r', ∃ d ∈ r, d.2 = e.2) t.transitions t'.transitions

theorem length_mmInsert {κ ν : Type} [LinearOrder κ] (k : κ) (v : ν) (m : List (κ × ν)) : (mmInsert k v m).length = m.length + 1 := by
  induction m with
  | nil => rfl
  | cons e m ih =>
    simp only [mmInsert]
    split
    · rfl
    · simp [ih]

theorem length_foldl_mmInsert {κ ν α : Type} [LinearOrder κ] (f : α → κ) (g : α → ν) (xs : List α) (m : List (κ × ν)) :
    (xs.foldl (fun acc x => mmInsert (f x) (g x) acc) m).length = m.length + xs.length := by
  induction xs generalizing m with
  | nil => rfl
  | cons x xs ih => rw [List.foldl_cons, ih, length_mmInsert, List.length_cons]; omega

theorem length_relabelRow (f : Int → Int) (r : Row W) : (relabelRow f r).length = r.length := by
  have := length_foldl_mmInsert (fun e : Int × (Nat × W) => f e.1) (fun e => e.2) r []
  simpa [relabelRow] using this

theorem made_relabel (f : Int → Int) (t : Transducer W) : Made t (relabel f t) := by
  refine ⟨rfl, rfl, ?_⟩
  refine (RowsRel.map (relabelRow f) t.transitions).mono fun r r' h => ?_
  subst h
  refine ⟨(length_relabelRow f r).le, fun e he => ?_⟩
  obtain ⟨d, hd, rfl⟩ := (mem_relabelRow f r e).1 he
  exact ⟨d, hd, rfl⟩

theorem made_delete (syms : List Int) (t : Transducer W) : Made t (deleteSymbols syms t) := by
  refine ⟨rfl, rfl, ?_⟩
  refine (RowsRel.map (fun r : Row W => syms.foldl (fun r sym => r.filter (fun a => a.1 ≠ sym)) r) t.transitions).mono fun r r' h => ?_
  subst h
  rw [foldl_filter_ne]
  exact ⟨List.length_filter_le _ _, fun e he => ⟨e, List.mem_of_mem_filter he, rfl⟩⟩

theorem epsilonizeOne_length {sym : Int} (h0 : sym ≠ 0) (r r' : Row W) (h : epsilonizeOne sym r = .ok r') : r'.length ≤ r.length := by
  simp only [epsilonizeOne, if_neg h0, Res.ok.injEq] at h
  subst h
  have h1 : ∀ (xs : List (Nat × W)) (m : Row W), ((xs.foldl (fun r e => mmInsert 0 e r) m).filter (fun a => a.1 = sym)).length =
      (m.filter (fun a => a.1 = sym)).length := by
    intro xs
    induction xs with
    | nil => intro m; rfl
    | cons x xs ih =>
      intro m
      rw [List.foldl_cons, ih]
      clear ih
      induction m with
      | nil => simp [mmInsert, Ne.symm h0]
      | cons e m ih =>
        simp only [mmInsert]
        split
        · simp [List.filter_cons, Ne.symm h0]
        · simp only [List.filter_cons]
          split <;> simp [ih]
  have h2 := length_foldl_mmInsert (fun _ : Nat × W => (0 : Int)) (fun e => e) (equalRange sym r) r
  have h3 := h1 (equalRange sym r) r
  have h4 : (equalRange sym r).length = (r.filter (fun a => a.1 = sym)).length := by
    simp [equalRange]
  have h5 := List.length_eq_length_filter_add (l := (equalRange sym r).foldl (fun r e => mmInsert 0 e r) r) (fun a => decide (a.1 = sym))
  have h6 : ((equalRange sym r).foldl (fun r e => mmInsert 0 e r) r).filter (fun a => a.1 ≠ sym) =
      ((equalRange sym r).foldl (fun r e => mmInsert 0 e r) r).filter (fun a => !decide (a.1 = sym)) :=
    List.filter_congr fun a _ => by simp
  rw [h6]
  have h7 : (r.filter (fun a => decide (a.1 = sym))).length ≤ r.length := List.length_filter_le _ _
  omega

theorem epsilonizeRow_length (syms : List Int) (h0 : (0 : Int) ∉ syms) (r r' : Row W) (h : epsilonizeRow syms r = .ok r') : r'.length ≤ r.length := by
  induction syms generalizing r with
  | nil => simp only [epsilonizeRow, Res.ok.injEq] at h; rw [h]
  | cons s syms ih =>
    simp only [epsilonizeRow] at h
    obtain ⟨r1, h1, h2⟩ := Res.bind_eq_ok.1 h
    simp only [List.mem_cons, not_or] at h0
    exact (ih h0.2 r1 h2).trans (epsilonizeOne_length (Ne.symm h0.1) r r1 h1)

theorem epsilonizeRows_made (syms : List Int) (h0 : (0 : Int) ∉ syms) (m m' : List (Nat × Row W)) (h : epsilonizeRows syms m = .ok m') :
    RowsRel (fun r r' => r'.length ≤ r.length ∧ ∀ e ∈ r', ∃ d ∈ r, d.2 = e.2) m m' := by
  induction m generalizing m' with
  | nil => simp only [epsilonizeRows, Res.ok.injEq] at h; subst h; exact .nil
  | cons e m ih =>
    obtain ⟨q, r⟩ := e
    simp only [epsilonizeRows] at h
    obtain ⟨r1, h1, h2⟩ := Res.bind_eq_ok.1 h
    obtain ⟨m1, h3, h4⟩ := Res.bind_eq_ok.1 h2
    simp only [Res.pure_eq, Res.ok.injEq] at h4
    subst h4
    refine .cons ⟨rfl, epsilonizeRow_length syms h0 r r1 h1, fun e he => ?_⟩ (ih m1 h3)
    obtain ⟨r2, g1, -, g3⟩ := epsilonizeRow_spec syms h0 r
    rw [h1] at g1
    cases g1
    obtain ⟨c, hc, -⟩ := (g3 e).1 he
    exact ⟨_, hc, rfl⟩

theorem made_epsilonize (syms : List Int) (h0 : (0 : Int) ∉ syms) (t t' : Transducer W) (h : epsilonizeSymbols syms t = .ok t') : Made t t' := by
  simp only [epsilonizeSymbols] at h
  obtain ⟨m, h1, h2⟩ := Res.bind_eq_ok.1 h
  simp only [Res.pure_eq, Res.ok.injEq] at h2
  subst h2
  exact ⟨rfl, rfl, epsilonizeRows_made syms h0 _ _ h1⟩

theorem Made.size {t t' : Transducer W} (h : Made t t') : Fst.size t' = Fst.size t := by
  have := congrArg List.length h.2.2.keys
  simpa [Fst.size] using this

theorem Made.edge {t t' : Transducer W} (h : Made t t') {q : Nat} {l : Int × W} {p : Nat} (he : Edge t' q l p) : ∃ c, Edge t q (c, l.2) p := by
  have := (RowsRel.row (t := t) (t' := t') h.2.2 (by simp) q).2 _ he
  obtain ⟨d, hd, e⟩ := this
  refine ⟨d.1, ?_⟩
  unfold Edge
  simp only at e
  rw [← e]
  exact hd

theorem Made.final {t t' : Transducer W} (h : Made t t') {q : Nat} {w : W} : Final t' q w ↔ Final t q w := by
  unfold Final; rw [h.2.1]

theorem Made.rows {t t' : Transducer W} (h : Made t t') {n : Nat} (hn : ∀ e ∈ t.transitions, e.2.length < n) : ∀ e ∈ t'.transitions, e.2.length < n := by
  obtain ⟨-, -, h⟩ := h
  generalize t.transitions = m at h hn
  generalize t'.transitions = m' at h
  induction h with
  | nil => simp
  | @cons e e' m m' h _ ih =>
    intro x hx
    rcases List.mem_cons.1 hx with rfl | hx
    · have h1 := hn e List.mem_cons_self
      have h2 := h.2.1
      omega
    · exact ih (fun y hy => hn y (List.mem_cons_of_mem _ hy)) x hx

end

theorem Part.made {a a' : Alphabet} {t t' : Transducer Dbl} (h : Part a t) (hm : Made t t') (hw : WF t') (hc : Coded a' t') : Part a' t' where
  wf := hw
  coded := hc
  size := by rw [hm.size]; exact h.size
  rows := hm.rows h.rows
  arcs := fun q l p he => by obtain ⟨c, hc⟩ := hm.edge he; exact h.arcs q (c, l.2) p hc
  finals := fun q w hf => h.finals q w (hm.final.1 hf)

theorem coded_mono {W : Type} {a b : Alphabet} {t : Transducer W} (h : Ext a b) (hc : Coded a t) : Coded b t := by
  intro q l p he
  obtain ⟨pr, hp⟩ := hc q l p he
  exact ⟨pr, decode_iff.2 ((decode_iff.1 hp).mono h)⟩

theorem Part.mono {a b : Alphabet} {t : Transducer Dbl} (h : Ext a b) (hp : Part a t) : Part b t where
  wf := hp.wf
  coded := coded_mono h hp.coded
  size := hp.size
  rows := hp.rows
  arcs := hp.arcs
  finals := hp.finals

/-! ## Names -/

theorem symbol_named {a : Alphabet} {x : Int} (h : Symbol a x) : ∃ n, Named a x n := by
  rcases h with h | ⟨h, s, hs⟩
  · exact ⟨_, .inl ⟨h.1, rfl⟩⟩
  · exact ⟨_, .inr ⟨h, s, hs, rfl⟩⟩

theorem Symbol.mono {a b : Alphabet} (h : Ext a b) {x : Int} (hx : Symbol a x) : Symbol b x := by
  rcases hx with hx | ⟨hx, s, hs⟩
  · exact .inl hx
  · exact .inr ⟨hx, s, (tagText_iff hx).2 (((tagText_iff hx).1 hs).mono h)⟩

theorem named_mono {a b : Alphabet} (h : Ext a b) {x : Int} {n : Name} (hx : Named a x n) : Named b x n := by
  rcases hx with hx | ⟨hx, s, hs, hn⟩
  · exact .inl hx
  · exact .inr ⟨hx, s, (tagText_iff hx).2 (((tagText_iff hx).1 hs).mono h), hn⟩

theorem named_unique {a : Alphabet} {x : Int} {n n' : Name} (h : Named a x n) (h' : Named a x n') : n = n' := by
  rcases h with ⟨h, rfl⟩ | ⟨h, s, hs, rfl⟩ <;> rcases h' with ⟨h', rfl⟩ | ⟨h', s', hs', rfl⟩
  · rfl
  · omega
  · omega
  · rw [hs] at hs'; cases hs'; rfl

theorem named_inj {a : Alphabet} (ha : Ok a) {x y : Int} {n : Name} (h : Named a x n) (h' : Named a y n) : x = y := by
  rcases h with ⟨h, rfl⟩ | ⟨h, s, hs, rfl⟩ <;> rcases h' with ⟨h', e⟩ | ⟨h', s', hs', e⟩
  · cases e; rfl
  · cases e
  · cases e
  · cases e; exact ((tagText_iff h).1 hs).code_unique ha ((tagText_iff h').1 hs')

theorem mem_of_hasPair {a : Alphabet} {c : Int} {p : Pair} (h : HasPair a c p) : p ∈ a.spairinv := by
  obtain ⟨i, hi, -⟩ := h; exact List.mem_of_getElem? hi

theorem hasPair_of_mem {a : Alphabet} {p : Pair} (h : p ∈ a.spairinv) : ∃ c, HasPair a c p := by
  obtain ⟨i, hi⟩ := List.mem_iff_getElem?.1 h
  exact ⟨i, i, hi, rfl⟩

theorem tagsKnown {W : Type} {a : Alphabet} (h : ∀ p ∈ a.spairinv, Symbol a p.1 ∧ Symbol a p.2) (t : Transducer W) : TagsKnown a t := by
  rintro q l p ⟨c, hc, -⟩
  obtain ⟨h1, h2⟩ := h _ (mem_of_hasPair (decode_iff.1 hc))
  exact ⟨symbol_named h1, symbol_named h2⟩

/-- The names of a pair with its weight. -/
def NamedPair {W : Type} (a : Alphabet) (p : Pair × W) (l : (Name × Name) × W) : Prop := Named a p.1.1 l.1.1 ∧ Named a p.1.2 l.1.2 ∧ l.2 = p.2

theorem spellsNames_iff {W : Type} {a : Alphabet} {t : Transducer W} {ls : List ((Name × Name) × W)} {fw : W} :
    SpellsNames a t ls fw ↔ ∃ ps, Spells a t ps fw ∧ List.Forall₂ (NamedPair a) ps ls := by
  unfold SpellsNames Spells
  have h : ∀ q l p, NamedEdge a t q l p ↔ ∃ l', PairEdge a t q l' p ∧ NamedPair a l' l := by
    intro q l p
    constructor
    · rintro ⟨x, y, h1, h2, h3⟩
      exact ⟨_, h1, h2, h3, rfl⟩
    · rintro ⟨⟨⟨x, y⟩, w⟩, h1, h2, h3, h4⟩
      exact ⟨x, y, by rw [h4]; exact h1, h2, h3⟩
  constructor
  · rintro ⟨p, h1, h2⟩
    obtain ⟨ps, h3, h4⟩ := (Path.rel h).1 h1
    exact ⟨ps, ⟨p, h3, h2⟩, h4⟩
  · rintro ⟨ps, ⟨p, h3, h2⟩, h4⟩
    exact ⟨p, (Path.rel h).2 ⟨ps, h3, h4⟩, h2⟩

theorem pairEdge_ext {W : Type} {a b : Alphabet} (h : Ext a b) {t : Transducer W} (hc : Coded a t) (q : Nat) (l : Pair × W) (p : Nat) :
    PairEdge b t q l p ↔ PairEdge a t q l p := by
  constructor
  · rintro ⟨c, h1, h2⟩
    obtain ⟨pr, hp⟩ := hc _ _ _ h2
    obtain rfl := (decode_iff.1 h1).pair_unique ((decode_iff.1 hp).mono h)
    exact ⟨c, hp, h2⟩
  · rintro ⟨c, h1, h2⟩
    exact ⟨c, decode_iff.2 ((decode_iff.1 h1).mono h), h2⟩

theorem spellsNames_ext {W : Type} {a b : Alphabet} (h : Ext a b) {t : Transducer W} (hc : Coded a t) (hk : TagsKnown a t)
    (ls : List ((Name × Name) × W)) (fw : W) : SpellsNames b t ls fw ↔ SpellsNames a t ls fw := by
  unfold SpellsNames
  refine exists_congr fun p => and_congr (Path.congr fun q l p => ?_) Iff.rfl
  unfold NamedEdge
  refine exists_congr fun x => exists_congr fun y => ?_
  rw [pairEdge_ext h hc]
  constructor
  · rintro ⟨h1, h2, h3⟩
    obtain ⟨⟨n, hn⟩, m, hm⟩ := hk _ _ _ h1
    rw [named_unique h2 (named_mono h hn), named_unique h3 (named_mono h hm)]
    exact ⟨h1, hn, hm⟩
  · rintro ⟨h1, h2, h3⟩
    exact ⟨h1, named_mono h h2, named_mono h h3⟩

/-! ## Alphabets -/

theorem nodup_of_table {κ : Type} [LinearOrder κ] {f : Nat → Int} (hf : ∀ i j, f i = f j → i = j) {m : List (κ × Int)} {inv : List κ}
    (h : Table f m inv) : inv.Nodup := by
  rw [List.nodup_iff_getElem?_ne_getElem?]
  intro i j hij hj e
  obtain ⟨k, hk⟩ : ∃ k, inv[j]? = some k := ⟨_, List.getElem?_eq_getElem hj⟩
  have h1 := (h.find k (f i)).2 ⟨i, by rw [e]; exact hk, rfl⟩
  have h2 := (h.find k (f j)).2 ⟨j, hk, rfl⟩
  rw [h1] at h2
  have := hf _ _ (Option.some.inj h2)
  omega

theorem nodup_pairs {a : Alphabet} (h : Ok a) : a.spairinv.Nodup :=
  List.Nodup.of_map _ (nodup_of_table (fun i j e => by simp only [Alphabet.pairNo] at e; omega) h.pairs)

theorem nodup_tags {a : Alphabet} (h : Ok a) : a.slexicinv.Nodup := nodup_of_table (fun _ _ e => Alphabet.tagNo_inj e) h.tags

theorem length_le_of_subset {α : Type} {l l' : List α} (h : l.Nodup) (hs : ∀ x ∈ l, x ∈ l') : l.length ≤ l'.length :=
  (h.subperm hs).length_le

theorem Sane.writable {a : Alphabet} (h : Sane a) (h1 : a.slexicinv.length < 2 ^ 29) (h2 : a.spairinv.length < 2 ^ 30) : a.Writable := by
  have key : ∀ x, Symbol a x → 0 ≤ x + (a.slexicinv.length : Int) ∧ x + (a.slexicinv.length : Int) < 2 ^ 30 := by
    rintro x (h | ⟨h, s, hs⟩)
    · omega
    · obtain ⟨i, hi, e⟩ := (tagText_iff h).1 hs
      have := (List.getElem?_eq_some_iff.1 hi).1
      simp only [Alphabet.tagNo] at e
      omega
  exact ⟨h.tags, by omega, h2, fun p hp => ⟨key _ (h.symbols p hp).1, key _ (h.symbols p hp).2⟩⟩

/-! ## Files -/

theorem cut_of_kept {t : Transducer Dbl} (h : WF t) (hx : ∀ q l p, Edge t q l p → BinIO.Exact l.2) (hf : ∀ q w, Final t q w → BinIO.Exact w) :
    BinIO.cut t = t := by
  have hm : ∀ e ∈ t.transitions, ∀ x ∈ e.2, Edge t e.1 (x.1, x.2.2) x.2.1 := fun e he x hx => BinIO.mem_row h he hx
  obtain ⟨i, fs, m⟩ := t
  unfold BinIO.cut
  simp only [Transducer.mk.injEq, true_and]
  constructor
  · refine (List.map_congr_left fun e he => ?_).trans (List.map_id _)
    simp only [BinIO.cut30_exact (hf e.1 e.2 he)]; rfl
  · refine (List.map_congr_left fun e he => ?_).trans (List.map_id _)
    have : BinIO.cutRow e.2 = e.2 := by
      refine (List.map_congr_left fun x hx' => ?_).trans (List.map_id _)
      simp only [BinIO.cut30_exact (hx _ _ _ (hm e he x hx'))]; rfl
    rw [this]; rfl

theorem Part.inRange {a : Alphabet} {t : Transducer Dbl} (h : Part a t) (hn : a.spairinv.length < 2 ^ 30) : BinIO.InRange 0 t := by
  refine ⟨le_refl _, h.size, h.rows, fun q c w p he => ?_, fun q w hf => (h.finals q w hf).1⟩
  obtain ⟨pr, hp⟩ := h.coded _ _ _ he
  obtain ⟨i, hi, e⟩ := decode_iff.1 hp
  have := (List.getElem?_eq_some_iff.1 hi).1
  simp only at e
  exact ⟨by omega, by omega, (h.arcs _ _ _ he).1⟩

theorem stores_unique {bs : List UInt8} {L L' : List UInt32} {a a' : Alphabet} {ts ts' : List (UString × Transducer Dbl)}
    (h : Stores bs L a ts) (h' : Stores bs L' a' ts') : L' = L ∧ a' = a ∧ ts' = ts := by
  obtain ⟨r, h⟩ := h
  obtain ⟨r', h'⟩ := h'
  rw [h] at h'
  simp only [Res.ok.injEq, Prod.mk.injEq] at h'
  exact ⟨h'.1.1.symm, h'.1.2.1.symm, h'.1.2.2.symm⟩

theorem says_iff {bs : List UInt8} {L : List UInt32} {a : Alphabet} {ts : List (UString × Transducer Dbl)} (h : Stores bs L a ts) (k : UString)
    (ls : List ((Name × Name) × Dbl)) (fw : Dbl) : Says bs k ls fw ↔ ∃ t, (k, t) ∈ ts ∧ SpellsNames a t ls fw := by
  constructor
  · rintro ⟨L', a', ts', t, h1, h2, h3⟩
    obtain ⟨-, rfl, rfl⟩ := stores_unique h h1
    exact ⟨t, h2, h3⟩
  · rintro ⟨t, h2, h3⟩
    exact ⟨L, a, ts, t, h, h2, h3⟩

theorem has_iff {bs : List UInt8} {L : List UInt32} {a : Alphabet} {ts : List (UString × Transducer Dbl)} (h : Stores bs L a ts) (k : UString) :
    Has bs k ↔ k ∈ ts.map (·.1) := by
  constructor
  · rintro ⟨L', a', ts', t, h1, h2⟩
    obtain ⟨-, rfl, rfl⟩ := stores_unique h h1
    exact List.mem_map.2 ⟨_, h2, rfl⟩
  · intro hk
    obtain ⟨⟨k', t⟩, h2, rfl⟩ := List.mem_map.1 hk
    exact ⟨L, a, ts, t, h, h2⟩

theorem written {L : List UInt32} {a : Alphabet} {ts : List (UString × Transducer Dbl)} (hL : Plain L) (ha : Sane a)
    (hs : ts.Pairwise (fun x y => x.1 < y.1)) (hn : ∀ e ∈ ts, e.1.length < 2 ^ 30) (hp : ∀ e ∈ ts, Part a e.2)
    (h1 : a.slexicinv.length < 2 ^ 29) (h2 : a.spairinv.length < 2 ^ 30) (h3 : ts.length < 2 ^ 30) :
    ∃ bs, BinIO.writeSetL L a ts = .ok bs ∧ Dictionary bs L a ts := by
  obtain ⟨bs, ls, g1, g2, g3, g4, -⟩ := BinIO.set_roundtrip (L.map (·.toUInt16)) a ts (by simpa using hL.2.1) ha.ok (ha.writable h1 h2)
    ⟨hs, h3, fun e he => ⟨hn e he, (hp e he).wf, (hp e he).inRange h2⟩⟩
  rw [BinIO.vec32_bmp L hL.2.2] at g3
  have e1 := BinIO.sorted_ext g2 hL.1 g3
  have e2 : ts.map (fun e => (e.1, BinIO.cut e.2)) = ts := by
    refine (List.map_congr_left fun e he => ?_).trans (List.map_id _)
    rw [cut_of_kept (hp e he).wf (fun q l p h => ((hp e he).arcs q l p h).2) (fun q w h => ((hp e he).finals q w h).2)]
    rfl
  rw [e1, e2] at g4
  refine ⟨bs, g1, ⟨⟨[], by simpa using g4 []⟩, hL, ha, hs, hn, hp, h1, h2, h3⟩⟩

/-! ## The loop over the sections -/

theorem eachSection_spec {W : Type} {op : Alphabet → Transducer W → Res (Alphabet × Transducer W)} (P : Alphabet → Prop)
    (Q : Alphabet → Transducer W → Prop) (R : Alphabet → Transducer W → Alphabet → Transducer W → Prop)
    (hop : ∀ a t, P a → Q a t → ∃ a' t', op a t = .ok (a', t') ∧ P a' ∧ Ext a a' ∧ R a t a' t')
    (hQ : ∀ a b t, Ext a b → Q a t → Q b t) (h1 : ∀ a b t c t', P a → Ext a b → Q a t → R b t c t' → R a t c t')
    (h2 : ∀ a t b t' c, P b → Ext b c → R a t b t' → R a t c t') (ts : List (UString × Transducer W)) (a : Alphabet) (ha : P a)
    (ht : ∀ e ∈ ts, Q a e.2) :
    ∃ a' ts', eachSection op ts a = .ok (a', ts') ∧ P a' ∧ Ext a a' ∧ List.Forall₂ (fun e e' => e'.1 = e.1 ∧ R a e.2 a' e'.2) ts ts' := by
  induction ts generalizing a with
  | nil => exact ⟨a, [], rfl, ha, Ext.refl a, .nil⟩
  | cons e ts ih =>
    obtain ⟨k, t⟩ := e
    obtain ⟨b, t', g1, g2, g3, g4⟩ := hop a t ha (ht (k, t) List.mem_cons_self)
    obtain ⟨c, ts', j1, j2, j3, j4⟩ := ih b g2 (fun e he => hQ a b e.2 g3 (ht e (List.mem_cons_of_mem _ he)))
    refine ⟨c, (k, t') :: ts', by simp only [eachSection, g1, j1, Res.bind_ok, Res.pure_eq], j2, g3.trans j3,
      .cons ⟨rfl, h2 a t b t' c g2 j3 g4⟩ ?_⟩
    have key : ∀ xs ys : List (UString × Transducer W), List.Forall₂ (fun e e' => e'.1 = e.1 ∧ R b e.2 c e'.2) xs ys → (∀ e ∈ xs, Q a e.2) →
        List.Forall₂ (fun e e' => e'.1 = e.1 ∧ R a e.2 c e'.2) xs ys := by
      intro xs ys h hq
      induction h with
      | nil => exact .nil
      | @cons x y xs ys hxy _ ih => exact .cons ⟨hxy.1, h1 a b x.2 c y.2 ha g3 (hq x List.mem_cons_self) hxy.2⟩ (ih fun e he => hq e (List.mem_cons_of_mem _ he))
    exact key _ _ j4 fun e he => ht e (List.mem_cons_of_mem _ he)

end Verif.Tools
