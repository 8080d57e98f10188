import Verif.Tools.Props
import Verif.Str.Props

/-! # Properties of `lt-restrict` -/

namespace Verif.Tools

open Verif.Fst
open Verif.Alphabet (HasPair HasTag Ext Ok decode_iff tagText_iff pairCode_spec hasTag_find symCode_of_hasTag)
open Verif.Compression (Dbl)

/-- The alphabet `b` is `a` with more pairs. -/
structure Over (a b : Alphabet) : Prop where
  sane : Sane b
  ext : Ext a b
  tags : b.slexicinv = a.slexicinv

/-- The new pairs are those of a tag with itself. -/
structure Paired (a b : Alphabet) : Prop extends Over a b where
  pairs : ∀ p ∈ b.spairinv, p ∈ a.spairinv ∨ ∃ x s, HasTag a x s ∧ p = (x, x)

theorem Paired.refl {a : Alphabet} (h : Sane a) : Paired a a := ⟨⟨h, Ext.refl a, rfl⟩, fun _ hp => .inl hp⟩

/-- The list consists of the codes of the tags with property `S`, each paired with itself. -/
def Codes (a b : Alphabet) (S : UString → Prop) (l : List Int) : Prop :=
  (∀ c ∈ l, ∃ s x, S s ∧ HasTag a x s ∧ HasPair b c (x, x)) ∧ ∀ s x, S s → HasTag a x s → ∃ c ∈ l, HasPair b c (x, x)

theorem Codes.mono {a b c : Alphabet} {S : UString → Prop} {l : List Int} (h : Codes a b S l) (hc : Ext b c) : Codes a c S l := by
  refine ⟨fun x hx => ?_, fun s x h1 h2 => ?_⟩
  · obtain ⟨s, y, h1, h2, h3⟩ := h.1 x hx
    exact ⟨s, y, h1, h2, h3.mono hc⟩
  · obtain ⟨d, h3, h4⟩ := h.2 s x h1 h2
    exact ⟨d, h3, h4.mono hc⟩

theorem Codes.congr {a b : Alphabet} {S T : UString → Prop} {l : List Int} (h : Codes a b S l) (hST : ∀ s x, HasTag a x s → (S s ↔ T s)) : Codes a b T l := by
  refine ⟨fun x hx => ?_, fun s x h1 h2 => h.2 s x ((hST s x h2).2 h1) h2⟩
  obtain ⟨s, y, h1, h2, h3⟩ := h.1 x hx
  exact ⟨s, y, (hST s y h2).1 h1, h2, h3⟩

theorem Codes.mem_iff {a b : Alphabet} (hb : Ok b) {S : UString → Prop} {l : List Int} (h : Codes a b S l) {x : Int} {s : UString}
    (hx : HasTag a x s) {c : Int} (hc : HasPair b c (x, x)) : c ∈ l ↔ S s := by
  constructor
  · intro hm
    obtain ⟨s', x', h1, h2, h3⟩ := h.1 c hm
    have := hc.pair_unique h3
    simp only [Prod.mk.injEq, and_self] at this
    subst this
    rwa [hx.tag_unique h2]
  · intro hs
    obtain ⟨d, h1, h2⟩ := h.2 s x hs hx
    rwa [hc.code_unique hb h2]

/-- A tag is paired with itself. -/
theorem pair_step {a b : Alphabet} (h : Paired a b) {x : Int} {s : UString} (hx : HasTag a x s) :
    Paired a (b.pairCode x x).2 ∧ Ext b (b.pairCode x x).2 ∧ HasPair (b.pairCode x x).2 (b.pairCode x x).1 (x, x) := by
  obtain ⟨g1, g2, g3, g4, -, g6⟩ := pairCode_spec h.sane.ok x x
  have hm : ∀ p ∈ (b.pairCode x x).2.spairinv, p ∈ b.spairinv ∨ p = (x, x) := by
    intro p hp
    rw [g6] at hp
    split at hp
    · exact .inl hp
    · rcases List.mem_append.1 hp with hp | hp
      · exact .inl hp
      · exact .inr (List.mem_singleton.1 hp)
  have hsx : Symbol (b.pairCode x x).2 x := .inr ⟨hx.neg, s, (tagText_iff hx.neg).2 ((hx.mono h.ext).mono g2)⟩
  refine ⟨⟨⟨⟨g1, by rw [g4]; exact h.sane.tags, fun p hp => ?_⟩, h.ext.trans g2, g4.trans h.tags⟩, fun p hp => ?_⟩, g2, g3⟩
  · rcases hm p hp with hp | rfl
    · exact ⟨(h.sane.symbols p hp).1.mono g2, (h.sane.symbols p hp).2.mono g2⟩
    · exact ⟨hsx, hsx⟩
  · rcases hm p hp with hp | rfl
    · exact h.pairs p hp
    · exact .inr ⟨x, s, hx, rfl⟩

theorem codes_insert {a b : Alphabet} (h : Paired a b) {S T : UString → Prop} {l : List Int} (hl : Codes a b S l) {x : Int} {s : UString} (hx : HasTag a x s)
    (hT : ∀ u y, HasTag a y u → (T u ↔ S u ∨ u = s)) : Codes a (b.pairCode x x).2 T (setInsert (b.pairCode x x).1 l) := by
  obtain ⟨g1, g2, g3⟩ := pair_step h hx
  have h1 := hl.mono g2
  refine ⟨fun c hc => ?_, fun u y hu hy => ?_⟩
  · rcases (mem_setInsert _ _ _).1 hc with rfl | hc
    · exact ⟨s, x, (hT s x hx).2 (.inr rfl), hx, g3⟩
    · obtain ⟨u, y, h2, h3, h4⟩ := h1.1 c hc
      exact ⟨u, y, (hT u y h3).2 (.inl h2), h3, h4⟩
  · rcases (hT u y hy).1 hu with hu | rfl
    · obtain ⟨c, h2, h3⟩ := h1.2 u y hu hy
      exact ⟨c, (mem_setInsert _ _ _).2 (.inr h2), h3⟩
    · have ha : Ok b := h.sane.ok
      have := (hy.mono h.ext).code_unique ha (hx.mono h.ext)
      subst this
      exact ⟨_, (mem_setInsert _ _ _).2 (.inl rfl), g3⟩

theorem hasTag_of_ext {a b : Alphabet} (h : Over a b) {x : Int} {s : UString} (hx : HasTag b x s) : HasTag a x s := by
  obtain ⟨i, hi, e⟩ := hx
  rw [h.tags] at hi
  exact ⟨i, hi, e⟩

theorem markSymbol_spec {a b : Alphabet} (h : Paired a b) {S : UString → Prop} {l : List Int} (hl : Codes a b S l) (pre s : UString) :
    Paired a (markSymbol pre s (b, l)).1 ∧ Codes a (markSymbol pre s (b, l)).1 (fun u => S u ∨ u = mark pre s) (markSymbol pre s (b, l)).2 := by
  unfold markSymbol
  split
  · rename_i hdef
    simp only [Alphabet.isSymbolDefined] at hdef
    obtain ⟨c, hc⟩ := Option.isSome_iff_exists.1 hdef
    have ht := (hasTag_find h.sane.ok).1 hc
    have ht' := hasTag_of_ext h.toOver ht
    simp only [symCode_of_hasTag h.sane.ok ht]
    exact ⟨(pair_step h ht').1, codes_insert h hl ht' fun u y _ => Iff.rfl⟩
  · rename_i hdef
    refine ⟨h, hl.congr fun u x hx => ⟨.inl, ?_⟩⟩
    rintro (hu | rfl)
    · exact hu
    · exfalso
      refine hdef ?_
      simp only [Alphabet.isSymbolDefined, (hasTag_find h.sane.ok).2 (hx.mono h.ext), Option.isSome_some]

theorem markSymbols_spec {a : Alphabet} (pre : UString) (ss : List UString) (st : Alphabet × List Int) {S : UString → Prop} (h : Paired a st.1) (hl : Codes a st.1 S st.2) :
    Paired a (ss.foldl (fun st s => markSymbol pre s st) st).1 ∧
      Codes a (ss.foldl (fun st s => markSymbol pre s st) st).1 (fun u => S u ∨ ∃ s ∈ ss, u = mark pre s) (ss.foldl (fun st s => markSymbol pre s st) st).2 := by
  induction ss generalizing st S with
  | nil => exact ⟨h, by simpa using hl⟩
  | cons s ss ih =>
    obtain ⟨b, l⟩ := st
    obtain ⟨g1, g2⟩ := markSymbol_spec h hl pre s
    obtain ⟨j1, j2⟩ := ih _ g1 g2
    refine ⟨j1, j2.congr fun u x _ => ?_⟩
    simp only [List.mem_cons, exists_eq_or_imp, or_assoc]

theorem chosenSymbols_spec (ch : Choice) {a : Alphabet} (h : Sane a) :
    Paired a (chosenSymbols ch a).1 ∧ Codes a (chosenSymbols ch a).1 (Chosen ch) (chosenSymbols ch a).2 := by
  have h0 : Codes a a (fun _ => False) [] := ⟨by simp, by simp⟩
  obtain ⟨p1, c1⟩ := markSymbol_spec (Paired.refl h) h0 preR ch.dir
  obtain ⟨p2, c2⟩ := markSymbols_spec preV ch.vars _ p1 c1
  obtain ⟨p3, c3⟩ := markSymbols_spec preAlt ch.alts _ p2 c2
  obtain ⟨p4, c4⟩ := markSymbols_spec preVl ch.lefts _ p3 c3
  obtain ⟨p5, c5⟩ := markSymbols_spec preVr ch.rights _ p4 c4
  refine ⟨p5, Codes.congr c5 fun u x _ => ?_⟩
  unfold Chosen
  simp only [false_or, or_assoc]

theorem beginsMark_spec (pre t : UString) : ∃ b, beginsMark pre t = .ok b ∧ (b = true ↔ Marked pre t) := by
  obtain ⟨b, h1, h2⟩ := Str.C52_startswith t (0x3c :: pre ++ [0x3a])
  exact ⟨b, h1, h2⟩

theorem isMark_spec (hv : Bool) (t : UString) : ∃ b, isMark hv t = .ok b ∧
    (b = true ↔ Marked preR t ∨ (hv = true ∧ Marked preV t) ∨ Marked preAlt t ∨ Marked preVl t ∨ Marked preVr t) := by
  obtain ⟨r, r1, r2⟩ := beginsMark_spec preR t
  obtain ⟨v, v1, v2⟩ := beginsMark_spec preV t
  obtain ⟨al, al1, al2⟩ := beginsMark_spec preAlt t
  obtain ⟨vl, vl1, vl2⟩ := beginsMark_spec preVl t
  obtain ⟨vr, vr1, vr2⟩ := beginsMark_spec preVr t
  refine ⟨(r || hv && v || al || vl || vr), by simp only [isMark, r1, v1, al1, vl1, vr1, Res.bind_ok, Res.pure_eq], ?_⟩
  simp only [Bool.or_eq_true, Bool.and_eq_true, r2, v2, al2, vl2, vr2, or_assoc]

theorem marked_v {t : UString} (h : Marked preV t) : ¬ Marked preR t ∧ ¬ Marked preAlt t ∧ ¬ Marked preVl t ∧ ¬ Marked preVr t := by
  obtain ⟨r, rfl⟩ := h
  refine ⟨?_, ?_, ?_, ?_⟩ <;> rintro ⟨r', e⟩ <;> simp [preR, preV, preAlt, preVl, preVr] at e

/-- The marks among the tags before tag `i`. -/
def Seen (a : Alphabet) (i : Nat) (s : UString) : Prop := ∃ j, j + 1 < i ∧ a.slexicinv[j]? = some s

theorem sortMarks_spec (ch : Choice) {a : Alphabet} (n i : Nat) (hi : 1 ≤ i) (hn : i + n = a.slexicinv.length + 1) (ha : Sane a) (b : Alphabet) (keep drop : List Int)
    (h : Paired a b) (hk : Codes a b (fun s => Chosen ch s ∨ (Seen a i s ∧ ch.vars = [] ∧ Marked preV s)) keep)
    (hd : Codes a b (fun s => Seen a i s ∧ Dropped ch s) drop) :
    ∃ b' keep' drop', sortMarks (!ch.vars.isEmpty) n i (b, keep, drop) = .ok (b', keep', drop') ∧ Paired a b' ∧
      Codes a b' (Erased ch) keep' ∧ Codes a b' (Dropped ch) drop' := by
  induction n generalizing i b keep drop with
  | zero =>
    have hall : ∀ s x, HasTag a x s → Seen a i s := by
      rintro s x ⟨j, hj, -⟩
      have := (List.getElem?_eq_some_iff.1 hj).1
      exact ⟨j, by omega, hj⟩
    refine ⟨b, keep, drop, rfl, h, hk.congr fun s x hx => ?_, hd.congr fun s x hx => ?_⟩
    · simp only [hall s x hx, true_and]; rfl
    · simp only [hall s x hx, true_and]
  | succ n ih =>
    obtain ⟨t, ht⟩ : ∃ t, a.slexicinv[i - 1]? = some t := ⟨_, List.getElem?_eq_getElem (by omega)⟩
    have htag : HasTag a (-(i : Int)) t := ⟨i - 1, ht, by simp only [Alphabet.tagNo]; omega⟩
    have hget : b.getSymbol (-(i : Int)) = .ok t := by
      rw [Alphabet.getSymbol, if_neg (by omega), if_pos (by omega), (tagText_iff (by omega)).2 (htag.mono h.ext)]
    have hseen : ∀ s, Seen a (i + 1) s ↔ Seen a i s ∨ s = t := by
      intro s
      constructor
      · rintro ⟨j, hj, e⟩
        by_cases hji : j = i - 1
        · subst hji; rw [ht] at e; exact .inr (Option.some.inj e).symm
        · exact .inl ⟨j, by omega, e⟩
      · rintro (⟨j, hj, e⟩ | rfl)
        · exact ⟨j, by omega, e⟩
        · exact ⟨i - 1, by omega, ht⟩
    have hnot : ¬ Seen a i t := by
      rintro ⟨j, hj, e⟩
      have := htag.code_unique ha.ok ⟨j, e, rfl⟩
      simp only [Alphabet.tagNo] at this
      omega
    obtain ⟨m, hm1, hm2⟩ := isMark_spec (!ch.vars.isEmpty) t
    have hv : (!ch.vars.isEmpty) = true ↔ ch.vars ≠ [] := by simp
    obtain ⟨v, hv1, hv2⟩ := beginsMark_spec preV t
    have step := fun b keep drop => ih (i + 1) (by omega) (by omega) b keep drop
    obtain ⟨p1, p2, p3⟩ := pair_step h htag
    cases m with
    | true =>
      have hmark := hm2.1 rfl
      rw [hv] at hmark
      have hnv : ¬ (ch.vars = [] ∧ Marked preV t) := by
        rintro ⟨h1, h2⟩
        obtain ⟨m1, m2, m3, m4⟩ := marked_v h2
        rcases hmark with h | ⟨h, -⟩ | h | h | h
        · exact m1 h
        · exact h h1
        · exact m2 h
        · exact m3 h
        · exact m4 h
      have hkt := (hk.mono p2).mem_iff p1.sane.ok htag p3
      have hk' : Codes a (b.pairCode (-(i : Int)) (-(i : Int))).2 (fun s => Chosen ch s ∨ (Seen a (i + 1) s ∧ ch.vars = [] ∧ Marked preV s)) keep :=
        (hk.mono p2).congr fun s x hx => by
          rw [hseen]
          constructor
          · rintro (h | ⟨h1, h2⟩)
            · exact .inl h
            · exact .inr ⟨.inl h1, h2⟩
          · rintro (h | ⟨h1 | rfl, h2⟩)
            · exact .inl h
            · exact .inr ⟨h1, h2⟩
            · exact absurd h2 hnv
      simp only [sortMarks, hget, hm1, Res.bind_ok, if_true]
      by_cases hin : (b.pairCode (-(i : Int)) (-(i : Int))).1 ∈ keep
      · rw [if_pos hin]
        have hch : Chosen ch t := by
          rcases hkt.1 hin with h | ⟨h, -⟩
          · exact h
          · exact absurd h hnot
        refine step _ _ _ p1 hk' ((hd.mono p2).congr fun s x hx => ?_)
        rw [hseen]
        constructor
        · rintro ⟨h1, h2⟩; exact ⟨.inl h1, h2⟩
        · rintro ⟨h1 | rfl, h2⟩
          · exact ⟨h1, h2⟩
          · exact absurd hch h2.1
      · rw [if_neg hin]
        have hch : ¬ Chosen ch t := fun h => hin (hkt.2 (.inl h))
        refine step _ _ _ p1 hk' (codes_insert h hd htag fun s x hx => ?_)
        rw [hseen]
        constructor
        · rintro ⟨h1 | rfl, h2⟩
          · exact .inl ⟨h1, h2⟩
          · exact .inr rfl
        · rintro (⟨h1, h2⟩ | rfl)
          · exact ⟨.inl h1, h2⟩
          · exact ⟨.inr rfl, hch, hmark⟩
    | false =>
      have hmark : ¬ (Marked preR t ∨ (ch.vars ≠ [] ∧ Marked preV t) ∨ Marked preAlt t ∨ Marked preVl t ∨ Marked preVr t) := fun h => by
        rw [← hv] at h
        exact absurd (hm2.2 h) (by simp)
      have hd' : ∀ c, Ext b c → Codes a c (fun s => Seen a (i + 1) s ∧ Dropped ch s) drop := fun c hc => (hd.mono hc).congr fun s x hx => by
        rw [hseen]
        constructor
        · rintro ⟨h1, h2⟩; exact ⟨.inl h1, h2⟩
        · rintro ⟨h1 | rfl, h2⟩
          · exact ⟨h1, h2⟩
          · exact absurd h2.2 hmark
      simp only [sortMarks, hget, hm1, hv1, Res.bind_ok, Bool.false_eq_true, if_false]
      by_cases hc : (!(!ch.vars.isEmpty) && v) = true
      · rw [if_pos hc]
        have hc' : ch.vars = [] ∧ Marked preV t := by
          rw [Bool.and_eq_true] at hc
          exact ⟨by simpa using hc.1, hv2.1 hc.2⟩
        refine step _ _ _ p1 (codes_insert h hk htag fun s x hx => ?_) (hd' _ p2)
        rw [hseen]
        constructor
        · rintro (h | ⟨h1 | rfl, h2⟩)
          · exact .inl (.inl h)
          · exact .inl (.inr ⟨h1, h2⟩)
          · exact .inr rfl
        · rintro ((h | ⟨h1, h2⟩) | rfl)
          · exact .inl h
          · exact .inr ⟨.inl h1, h2⟩
          · exact .inr ⟨.inr rfl, hc'⟩
      · rw [if_neg hc]
        have hc' : ¬ (ch.vars = [] ∧ Marked preV t) := by
          rintro ⟨h1, h2⟩
          refine hc ?_
          rw [hv2.2 h2, h1]
          rfl
        refine step _ _ _ h (hk.congr fun s x hx => ?_) (hd' _ (Ext.refl b))
        rw [hseen]
        constructor
        · rintro (h | ⟨h1, h2⟩)
          · exact .inl h
          · exact .inr ⟨.inl h1, h2⟩
        · rintro (h | ⟨h1 | rfl, h2⟩)
          · exact .inl h
          · exact .inr ⟨h1, h2⟩
          · exact absurd h2 hc'

/-! ## One section -/

/-- The names of the pair of a code, with its weight. -/
def NamedCode (b : Alphabet) (c : Int × Dbl) (l : (Name × Name) × Dbl) : Prop :=
  ∃ pr, HasPair b c.1 pr ∧ Named b pr.1 l.1.1 ∧ Named b pr.2 l.1.2 ∧ l.2 = c.2

theorem spellsNames_reads {b : Alphabet} {t : Transducer Dbl} {ls : List ((Name × Name) × Dbl)} {fw : Dbl} :
    SpellsNames b t ls fw ↔ ∃ cs, Reads t cs fw ∧ List.Forall₂ (NamedCode b) cs ls := by
  have h : ∀ q l p, NamedEdge b t q l p ↔ ∃ c, Edge t q c p ∧ NamedCode b c l := by
    intro q l p
    constructor
    · rintro ⟨x, y, ⟨c, h1, h2⟩, h3, h4⟩
      exact ⟨_, h2, (x, y), decode_iff.1 h1, h3, h4, rfl⟩
    · rintro ⟨⟨c, w⟩, h1, ⟨x, y⟩, h2, h3, h4, h5⟩
      exact ⟨x, y, ⟨c, decode_iff.2 h2, by rw [h5]; exact h1⟩, h3, h4⟩
  constructor
  · rintro ⟨p, h1, h2⟩
    obtain ⟨ps, h3, h4⟩ := (Path.rel h).1 h1
    exact ⟨ps, ⟨p, h3, h2⟩, h4⟩
  · rintro ⟨ps, ⟨p, h3, h2⟩, h4⟩
    exact ⟨p, (Path.rel h).2 ⟨ps, h3, h4⟩, h2⟩

theorem path_edges {W : Type} {t : Transducer W} {q p : Nat} {ls : List (Int × W)} (h : Path (Edge t) q ls p) : ∀ l ∈ ls, ∃ q p, Edge t q l p := by
  induction h with
  | nil => simp
  | cons he _ ih =>
    intro l hl
    rcases List.mem_cons.1 hl with rfl | hl
    · exact ⟨_, _, he⟩
    · exact ih l hl

theorem named_all {b : Alphabet} (hb : Sane b) {t : Transducer Dbl} (ht : Coded b t) {cs : List (Int × Dbl)} {fw : Dbl} (h : Reads t cs fw) :
    ∃ ls, List.Forall₂ (NamedCode b) cs ls := by
  replace h : ∀ l ∈ cs, ∃ q p, Edge t q l p := by
    obtain ⟨p, h, -⟩ := h
    exact path_edges h
  induction cs with
  | nil => exact ⟨[], .nil⟩
  | cons c cs ih =>
    obtain ⟨ls, hls⟩ := ih fun l hl => h l (List.mem_cons_of_mem _ hl)
    obtain ⟨q, p, he⟩ := h c List.mem_cons_self
    obtain ⟨pr, hpr⟩ := ht _ _ _ he
    have hpr := decode_iff.1 hpr
    obtain ⟨s1, s2⟩ := hb.symbols pr (mem_of_hasPair hpr)
    obtain ⟨n, hn⟩ := symbol_named s1
    obtain ⟨m, hm⟩ := symbol_named s2
    exact ⟨((n, m), c.2) :: ls, .cons ⟨pr, hpr, hn, hm, rfl⟩ hls⟩

theorem namedCode_unique {b : Alphabet} {c : Int × Dbl} {l l' : (Name × Name) × Dbl} (h : NamedCode b c l) (h' : NamedCode b c l') : l = l' := by
  obtain ⟨pr, h1, h2, h3, h4⟩ := h
  obtain ⟨pr', g1, g2, g3, g4⟩ := h'
  obtain rfl := h1.pair_unique g1
  exact Prod.ext (Prod.ext (named_unique h2 g2) (named_unique h3 g3)) (h4.trans g4.symm)

/-- A code is in the list exactly if its name is a mark of the kind, paired with itself. -/
theorem code_mem_iff {a b : Alphabet} (h : Over a b) {S : UString → Prop} {l : List Int} (hl : Codes a b S l) {c : Int × Dbl} {x : (Name × Name) × Dbl}
    (hc : NamedCode b c x) : c.1 ∈ l ↔ ∃ s, x.1 = (.tag s, .tag s) ∧ S s := by
  obtain ⟨pr, h1, h2, h3, -⟩ := hc
  constructor
  · intro hm
    obtain ⟨s, y, g1, g2, g3⟩ := hl.1 _ hm
    obtain rfl := h1.pair_unique g3
    have hn : Named b y (.tag s) := .inr ⟨g2.neg, s, (tagText_iff g2.neg).2 (g2.mono h.ext), rfl⟩
    exact ⟨s, Prod.ext (named_unique h2 hn) (named_unique h3 hn), g1⟩
  · rintro ⟨s, e, hs⟩
    rw [e] at h2 h3
    simp only at h2 h3
    have e2 := named_inj h.sane.ok h2 h3
    rcases h2 with ⟨_, e3⟩ | ⟨hneg, s', hs', e3⟩
    · cases e3
    · cases e3
      have ht := hasTag_of_ext h ((tagText_iff hneg).1 hs')
      obtain ⟨x1, x2⟩ := pr
      simp only at e2 ht
      subst e2
      exact (hl.mem_iff h.sane.ok ht h1).2 hs

theorem erase_named {a b : Alphabet} (h : Over a b) {ch : Choice} {keep : List Int} (hk : Codes a b (Erased ch) keep) {c : Int × Dbl} {x : (Name × Name) × Dbl}
    (hc : NamedCode b c x) : NamedCode b (if c.1 ∈ keep then 0 else c.1, c.2) (eraseMark ch x) := by
  have hm := code_mem_iff h hk hc
  unfold eraseMark
  by_cases hin : c.1 ∈ keep
  · rw [if_pos hin, if_pos (hm.1 hin)]
    obtain ⟨pr, -, -, -, h4⟩ := hc
    exact ⟨(0, 0), ⟨0, h.sane.ok.zero, rfl⟩, .inl ⟨le_refl _, rfl⟩, .inl ⟨le_refl _, rfl⟩, h4⟩
  · rw [if_neg hin, if_neg (fun h => hin (hm.2 h))]
    exact hc

/-- What is left of the paths. -/
def Restricted (ch : Choice) (X : List ((Name × Name) × Dbl) → Dbl → Prop) (ls : List ((Name × Name) × Dbl)) (fw : Dbl) : Prop :=
  ∃ ls', X ls' fw ∧ (∀ l ∈ ls', ∀ s, l.1 = (.tag s, .tag s) → ¬ Dropped ch s) ∧ ls = ls'.map (eraseMark ch)

theorem zero_not_mem {a b : Alphabet} (h : Over a b) {S : UString → Prop} {l : List Int} (hl : Codes a b S l) : (0 : Int) ∉ l := by
  intro h0
  obtain ⟨s, x, -, h2, h3⟩ := hl.1 0 h0
  have hz : HasPair b 0 (0, 0) := ⟨0, h.sane.ok.zero, rfl⟩
  have := h3.pair_unique hz
  simp only [Prod.mk.injEq, and_self] at this
  have := h2.neg
  omega

theorem restrict_paths {a b : Alphabet} (h : Over a b) {ch : Choice} {keep drop : List Int} (hk : Codes a b (Erased ch) keep) (hd : Codes a b (Dropped ch) drop)
    {t : Transducer Dbl} (ht : Part b t) :
    ∃ t', epsilonizeSymbols keep (deleteSymbols drop t) = .ok t' ∧ Part b t' ∧ ∀ ls fw, SpellsNames b t' ls fw ↔ Restricted ch (SpellsNames b t) ls fw := by
  have h0 := zero_not_mem h hk
  obtain ⟨d1, d2⟩ := C33_deleteSymbols drop t ht.wf
  obtain ⟨t', e1, e2, e3⟩ := C33_epsilonizeSymbols keep h0 (deleteSymbols drop t) d1
  have hcd : Coded b (deleteSymbols drop t) := by
    intro q l p he
    have hrel : RowsRel (fun r r' => r' = r.filter (fun a => a.1 ∉ drop)) t.transitions (deleteSymbols drop t).transitions := by
      have := RowsRel.map (fun r : Row Dbl => drop.foldl (fun r sym => r.filter (fun a => a.1 ≠ sym)) r) t.transitions
      exact this.mono fun r r' h => by rw [h, foldl_filter_ne]
    unfold Edge at he
    rw [hrel.row (by simp) q] at he
    exact ht.coded q l p (List.mem_of_mem_filter he)
  have hce : Coded b t' := by
    have he1 := e1
    simp only [epsilonizeSymbols] at he1
    obtain ⟨m, g1, g2⟩ := Res.bind_eq_ok.1 he1
    simp only [Res.pure_eq, Res.ok.injEq] at g2
    subst g2
    obtain ⟨m', j1, hrel⟩ := epsilonizeRows_spec keep h0 (deleteSymbols drop t).transitions
    rw [g1] at j1
    cases j1
    intro q l p he
    unfold Edge at he
    have := RowsRel.row (t := deleteSymbols drop t) (t' := { deleteSymbols drop t with transitions := m }) hrel (by simp) q
    obtain ⟨c, hc, e⟩ := (this.2 _).1 he
    obtain ⟨pr, hpr⟩ := hcd q (c, l.2) p hc
    rw [show l.1 = eraseSym keep c from e]
    unfold eraseSym
    split
    · exact ⟨(0, 0), decode_iff.2 ⟨0, h.sane.ok.zero, rfl⟩⟩
    · exact ⟨pr, hpr⟩
  refine ⟨t', e1, (ht.made (made_delete drop t) d1 hcd).made (made_epsilonize keep h0 _ _ e1) e2 hce, fun ls fw => ?_⟩
  rw [spellsNames_reads]
  constructor
  · rintro ⟨cs, h1, h2⟩
    obtain ⟨cs', h3, rfl⟩ := (e3 cs fw).1 h1
    obtain ⟨h4, h5⟩ := (d2 cs' fw).1 h3
    obtain ⟨ls', h6⟩ := named_all h.sane ht.coded h4
    refine ⟨ls', spellsNames_reads.2 ⟨cs', h4, h6⟩, fun l hl s hs hdr => ?_, ?_⟩
    · obtain ⟨c, hc, hcl⟩ := forall₂_mem_right h6 hl
      exact h5 c hc ((code_mem_iff h hd hcl).2 ⟨s, hs, hdr⟩)
    · clear h1 h3 h4 h5
      induction h6 generalizing ls with
      | nil => cases h2; rfl
      | cons hc _ ih =>
        obtain ⟨x, xs, g1, g2, rfl⟩ := List.forall₂_cons_left_iff.1 h2
        rw [List.map_cons, ih xs g2, namedCode_unique g1 (erase_named h hk hc)]
  · rintro ⟨ls', h1, h2, rfl⟩
    obtain ⟨cs, h3, h4⟩ := spellsNames_reads.1 h1
    refine ⟨_, (e3 _ fw).2 ⟨cs, (d2 cs fw).2 ⟨h3, fun c hc hin => ?_⟩, rfl⟩, ?_⟩
    · obtain ⟨l, hl, hcl⟩ := forall₂_mem_left h4 hc
      obtain ⟨s, hs, hdr⟩ := (code_mem_iff h hd hcl).1 hin
      exact h2 l hl s hs hdr
    · rw [List.forall₂_map_left_iff, List.forall₂_map_right_iff]
      exact h4.imp fun c l hcl => erase_named h hk hcl

/-! ## The tool -/

open Classical in
/-- The paths of the result: those left, with the sides exchanged for `rl`. -/
noncomputable def Result (ch : Choice) (X : List ((Name × Name) × Dbl) → Dbl → Prop) (ls : List ((Name × Name) × Dbl)) (fw : Dbl) : Prop :=
  Restricted ch X (if ch.dir = RL then turn ls else ls) fw

theorem Result.congr (ch : Choice) {X Y : List ((Name × Name) × Dbl) → Dbl → Prop} (h : ∀ ls fw, X ls fw ↔ Y ls fw) (ls : List ((Name × Name) × Dbl)) (fw : Dbl) :
    Result ch X ls fw ↔ Result ch Y ls fw := by
  unfold Result Restricted
  simp only [h]

theorem Paired.npairs {a b : Alphabet} (h : Paired a b) : b.spairinv.length ≤ a.spairinv.length + a.slexicinv.length := by
  have := length_le_of_subset (l' := a.spairinv ++ (List.range a.slexicinv.length).map fun i => (Alphabet.tagNo i, Alphabet.tagNo i)) (nodup_pairs h.sane.ok)
    (fun p hp => by
      rcases h.pairs p hp with hp | ⟨x, s, ⟨i, hi, rfl⟩, rfl⟩
      · exact List.mem_append_left _ hp
      · exact List.mem_append_right _ (List.mem_map.2 ⟨i, List.mem_range.2 (List.getElem?_eq_some_iff.1 hi).1, rfl⟩))
  simpa using this

theorem restrict_part {a b : Alphabet} (h : Over a b) {ch : Choice} {keep drop : List Int} (hk : Codes a b (Erased ch) keep) (hd : Codes a b (Dropped ch) drop)
    {t : Transducer Dbl} (ht : Part b t) :
    ∃ b' t', restrictOne (ch.dir = RL) keep drop b t = .ok (b', t') ∧ Over a b' ∧ (∀ p ∈ b'.spairinv, p ∈ b.spairinv ∨ (p.2, p.1) ∈ b.spairinv) ∧ Ext b b' ∧
      Part b' t' ∧ ∀ ls fw, SpellsNames b' t' ls fw ↔ Result ch (SpellsNames b t) ls fw := by
  obtain ⟨t', e1, e2, e3⟩ := restrict_paths h hk hd ht
  by_cases hrl : ch.dir = RL
  · obtain ⟨b', t2, g1, g2, g3, g4, g5, g6, g7⟩ := invert_part h.sane e2
    refine ⟨b', t2, by simp only [restrictOne, e1, Res.bind_ok, hrl, decide_true, if_true, g1], ⟨g2, h.ext.trans g5, g3.trans h.tags⟩, g4, g5, g6, fun ls fw => ?_⟩
    rw [g7, e3, Result, if_pos hrl]
  · refine ⟨b, t', by simp only [restrictOne, e1, Res.bind_ok, hrl, decide_false, Bool.false_eq_true, if_false, Res.pure_eq], h, fun p hp => .inl hp, Ext.refl b, e2, fun ls fw => ?_⟩
    rw [e3, Result, if_neg hrl]

theorem restrict_all (ch : Choice) {a : Alphabet} {ts : List (UString × Transducer Dbl)} (ha : Sane a) (ht : ∀ e ∈ ts, Part a e.2) :
    ∃ a' ts', restrictAll ch a ts = .ok (a', ts') ∧ Sane a' ∧ a'.slexicinv = a.slexicinv ∧
      a'.spairinv.length ≤ 2 * (a.spairinv.length + a.slexicinv.length) ∧
      List.Forall₂ (fun e e' => e'.1 = e.1 ∧ Part a' e'.2 ∧ ∀ ls fw, SpellsNames a' e'.2 ls fw ↔ Result ch (SpellsNames a e.2) ls fw) ts ts' := by
  obtain ⟨p1, c1⟩ := chosenSymbols_spec ch ha
  obtain ⟨b0, keep, drop, g1, g2, g3, g4⟩ := sortMarks_spec ch (a := a) a.slexicinv.length 1 (le_refl _) (by omega) ha (chosenSymbols ch a).1 (chosenSymbols ch a).2 [] p1
    (c1.congr fun s x _ => ⟨.inl, fun h => h.elim id (by rintro ⟨⟨j, hj, -⟩, -⟩; omega)⟩)
    ⟨by simp, by rintro s x ⟨⟨j, hj, -⟩, -⟩; omega⟩
  have hsz : (chosenSymbols ch a).1.size = a.slexicinv.length := by
    rw [Alphabet.size, p1.sane.ok.tags.len, p1.tags]
  obtain ⟨a', ts', j1, j2, j3, j4⟩ := eachSection_spec (op := restrictOne (ch.dir = RL) keep drop)
    (fun c => Over a c ∧ Ext b0 c ∧ ∀ p ∈ c.spairinv, p ∈ b0.spairinv ∨ (p.2, p.1) ∈ b0.spairinv) Part
    (fun b t c t' => Part c t' ∧ ∀ ls fw, SpellsNames c t' ls fw ↔ Result ch (SpellsNames b t) ls fw)
    (fun c t hc hq => by
      obtain ⟨c', t', k1, k2, k3, k4, k5, k6⟩ := restrict_part hc.1 (g3.mono hc.2.1) (g4.mono hc.2.1) hq
      refine ⟨c', t', k1, ⟨k2, hc.2.1.trans k4, fun p hp => ?_⟩, k4, k5, k6⟩
      rcases k3 p hp with h | h
      · exact hc.2.2 p h
      · exact (hc.2.2 _ h).symm)
    (fun b c t h hq => hq.mono h)
    (fun b c t d t' hb hc hq hr => ⟨hr.1, fun ls fw => by
      rw [hr.2]
      exact Result.congr ch (spellsNames_ext hc hq.coded (tagsKnown hb.1.sane.symbols t)) ls fw⟩)
    (fun b t c t' d hc hd hr => ⟨hr.1.mono hd, fun ls fw => by rw [spellsNames_ext hd hr.1.coded (tagsKnown hc.1.sane.symbols t'), hr.2]⟩)
    ts b0 ⟨g2.toOver, Ext.refl b0, fun p hp => .inl hp⟩ (fun e he => (ht e he).mono g2.ext)
  have hb := g2.npairs
  have hb' := swap_bound (nodup_pairs j2.1.sane.ok) j2.2.2
  refine ⟨a', ts', ?_, j2.1.sane, j2.1.tags, by omega, ?_⟩
  · unfold restrictAll
    simp only [hsz, g1, Res.bind_ok, j1]
  · have key : ∀ xs ys : List (UString × Transducer Dbl), List.Forall₂ (fun e e' => e'.1 = e.1 ∧ Part a' e'.2 ∧ ∀ ls fw, SpellsNames a' e'.2 ls fw ↔ Result ch (SpellsNames b0 e.2) ls fw) xs ys →
        (∀ e ∈ xs, Part a e.2) →
        List.Forall₂ (fun e e' => e'.1 = e.1 ∧ Part a' e'.2 ∧ ∀ ls fw, SpellsNames a' e'.2 ls fw ↔ Result ch (SpellsNames a e.2) ls fw) xs ys := by
      intro xs ys h hq
      induction h with
      | nil => exact .nil
      | @cons x y xs ys hxy _ ih =>
        refine .cons ⟨hxy.1, hxy.2.1, fun ls fw => ?_⟩ (ih fun e he => hq e (List.mem_cons_of_mem _ he))
        rw [hxy.2.2]
        exact Result.congr ch (spellsNames_ext g2.ext (hq x List.mem_cons_self).coded (tagsKnown ha.symbols x.2)) ls fw
    exact key _ _ j4 ht

/-- **C81** `lt-restrict` turns a compiled dictionary into a compiled dictionary with the same letters, tags and sections. A path stays exactly if none
of its arcs pairs a dropped control mark with itself; on the paths that stay the chosen marks are replaced by nothing, weights and all other
symbols are kept, and for `rl` the sides are exchanged. -/
theorem C81_restrict (ch : Choice) {bs : List UInt8} {L : List UInt32} {a : Alphabet} {ts : List (UString × Transducer Dbl)} (hd : Dictionary bs L a ts)
    (hn : 2 * (a.spairinv.length + a.slexicinv.length) < 2 ^ 30) :
    ∃ bs' a' ts', ltRestrict ch bs = .ok bs' ∧ Dictionary bs' L a' ts' ∧ a'.slexicinv = a.slexicinv ∧ (∀ k, Has bs' k ↔ Has bs k) ∧
      ∀ k ls fw, Says bs' k ls fw ↔ ∃ ls', Says bs k ls' fw ∧ (∀ l ∈ ls', ∀ s, l.1 = (.tag s, .tag s) → ¬ Dropped ch s) ∧
        (if ch.dir = RL then turn ls else ls) = ls'.map (eraseMark ch) := by
  obtain ⟨a', ts', g1, g2, g3, g4, g5⟩ := restrict_all ch hd.sane hd.parts
  obtain ⟨bs', j1, j2, j3, j4⟩ := rewritten (C := Result ch) hd g2 (fun X Y h => Result.congr ch h) (fun X h ls fw => by rintro ⟨ls', h1, -⟩; exact h _ _ h1) g5
    (by rw [g3]; exact hd.ntags) (by omega)
  obtain ⟨rest, hr⟩ := hd.stored
  exact ⟨bs', a', ts', by simp only [ltRestrict, hr, Res.bind_ok, g1, j1], j2, g3, j3, j4⟩

end Verif.Tools
