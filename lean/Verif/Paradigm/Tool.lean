import Verif.Paradigm.Sections
import Verif.Tools.Props
import Verif.Trim.File

/-! # The whole of `lt-paradigm` -/

namespace Verif.Paradigm

open Verif.Fst Verif.Alphabet Verif.Compiler
open Verif.Tools (Sane Symbol Part Dictionary Has)
open Verif.Trim (NMaps Spelled)
open Verif.Unified (Pairs)
open Verif.Chain (stored storedAll)
open Verif.Compression (Dbl)

variable {W : Type}

/-! ## The tags that are allowed -/

theorem allowedLoop_ok {a : Alphabet} {exclude : List UString} (is : List Nat) (hi : ∀ i ∈ is, i < a.slexicinv.length) : ∀ tags : List Int,
    ∃ tags', allowedLoop exclude a is tags = .ok tags' ∧
      ∀ c, c ∈ tags' ↔ c ∈ tags ∨ ∃ i ∈ is, ∃ s, a.slexicinv[i]? = some s ∧ s ∉ exclude ∧ c = -((i : Int) + 1) := by
  induction is with
  | nil => intro tags; exact ⟨tags, rfl, by simp⟩
  | cons i is ih =>
    intro tags
    have ih' := ih fun j hj => hi j (by simp [hj])
    obtain ⟨s, hs⟩ : ∃ s, a.slexicinv[i]? = some s := ⟨_, List.getElem?_eq_getElem (hi i (by simp))⟩
    have hget : a.getSymbol (-((i : Int) + 1)) = .ok s := by
      have ht : HasTag a (-((i : Int) + 1)) s := ⟨i, hs, by unfold tagNo; omega⟩
      unfold Alphabet.getSymbol
      rw [if_neg (by omega), if_pos (by omega), (tagText_iff (hasTag_neg ht)).2 ht]
    have key : ∀ tags1 : List Int, (∀ c, c ∈ tags1 ↔ c ∈ tags ∨ (s ∉ exclude ∧ c = -((i : Int) + 1))) → ∀ tags' : List Int,
        (∀ c, c ∈ tags' ↔ c ∈ tags1 ∨ ∃ i ∈ is, ∃ s, a.slexicinv[i]? = some s ∧ s ∉ exclude ∧ c = -((i : Int) + 1)) →
        ∀ c, c ∈ tags' ↔ c ∈ tags ∨ ∃ j ∈ i :: is, ∃ s, a.slexicinv[j]? = some s ∧ s ∉ exclude ∧ c = -((j : Int) + 1) := by
      intro tags1 h1 tags' h2 c
      rw [h2, h1]
      constructor
      · rintro ((h | ⟨h3, h4⟩) | ⟨j, h3, h4⟩)
        · exact .inl h
        · exact .inr ⟨i, by simp, s, hs, h3, h4⟩
        · exact .inr ⟨j, by simp [h3], h4⟩
      · rintro (h | ⟨j, h3, s', h4, h5⟩)
        · exact .inl (.inl h)
        · rcases List.mem_cons.1 h3 with rfl | h3
          · rw [hs] at h4; cases h4
            exact .inl (.inr h5)
          · exact .inr ⟨j, h3, s', h4, h5⟩
    unfold allowedLoop
    by_cases he : exclude = []
    · rw [if_pos he]
      obtain ⟨tags', g1, g2⟩ := ih' (setInsert (-((i : Int) + 1)) tags)
      refine ⟨tags', g1, key _ (fun c => ?_) tags' g2⟩
      rw [mem_setInsert, he]
      simp [or_comm]
    · rw [if_neg he, hget, Res.bind_ok]
      by_cases hm : s ∈ exclude
      · rw [if_pos hm]
        obtain ⟨tags', g1, g2⟩ := ih' tags
        refine ⟨tags', g1, key _ (fun c => ?_) tags' g2⟩
        simp [hm]
      · rw [if_neg hm]
        obtain ⟨tags', g1, g2⟩ := ih' (setInsert (-((i : Int) + 1)) tags)
        refine ⟨tags', g1, key _ (fun c => ?_) tags' g2⟩
        rw [mem_setInsert]
        simp [hm, or_comm]

theorem allowed_ok {a : Alphabet} (ha : Ok a) (exclude : List UString) : ∃ tags, allowed exclude a = .ok tags ∧ Allowed a exclude tags := by
  obtain ⟨tags, h1, h2⟩ := allowedLoop_ok (a := a) (exclude := exclude) (List.range a.size) (by
    intro i hi
    rw [← ha.tags.len]
    exact List.mem_range.1 hi) []
  refine ⟨tags, h1, fun c => ?_⟩
  rw [h2]
  constructor
  · rintro (h | ⟨i, -, s, h3, h4, rfl⟩)
    · cases h
    · exact ⟨s, ⟨i, h3, by unfold tagNo; omega⟩, h4⟩
  · rintro ⟨s, ⟨i, h3, rfl⟩, h4⟩
    refine .inr ⟨i, ?_, s, h3, h4, by unfold tagNo; omega⟩
    rw [List.mem_range]
    have : a.size = a.slexicinv.length := ha.tags.len
    rw [this]
    exact (List.getElem?_eq_some_iff.1 h3).1

/-! ## Exchanging the sides -/

/-- Arcs after `invert` come from arcs with the sides exchanged. -/
theorem invert_edge {a a' : Alphabet} {t t' : Transducer W} (ha : Ok a) (ht : WF t) (hc : Coded a t) (h : invert a t = .ok (a', t')) {q r : Nat} {l : Pair × W}
    (he : PairEdge a' t' q l r) : PairEdge a t q ((l.1.2, l.1.1), l.2) r := by
  obtain ⟨b, u, h1, h2, -, -, -, -, -, -, -, ⟨f, h3⟩, -⟩ := invert_spec a t ha ht hc
  rw [h] at h1
  cases h1
  have hsz : Fst.size t' = Fst.size t := by rw [h3]; unfold relabel Fst.size; simp
  obtain ⟨c, he1, he2⟩ := he
  have hq := h2.source_lt he2
  have hr := h2.target_lt _ _ _ he2
  rw [hsz] at hq hr
  -- the same transducer with other ends
  have hwf : WF ({ t with initial := q, finals := [(r, l.2)] } : Transducer W) := by
    refine ⟨ht.keys, ht.rows, hq, ht.target_lt, List.pairwise_singleton _ _, ?_⟩
    intro p w hf
    have : (p, w) = (r, l.2) := List.mem_singleton.1 hf
    cases this; exact hr
  obtain ⟨b', u', g1, -, -, g4, -⟩ := invert_spec a { t with initial := q, finals := [(r, l.2)] } ha hwf hc
  have hinv : invert a ({ t with initial := q, finals := [(r, l.2)] } : Transducer W) = .ok (a', { t' with initial := q, finals := [(r, l.2)] }) := by
    unfold invert at h ⊢
    obtain ⟨⟨x, m⟩, k1, k2⟩ := Res.bind_eq_ok.1 h
    simp only at k1 ⊢
    rw [k1]
    cases k2
    rfl
  rw [hinv] at g1
  cases g1
  obtain ⟨p, k1, k2⟩ := (g4 [l] l.2).1 ⟨r, .cons ⟨c, he1, he2⟩ (.nil _), List.mem_singleton.2 rfl⟩
  have hp : (p, l.2) = (r, l.2) := List.mem_singleton.1 k2
  cases hp
  cases k1 with
  | cons k3 k4 => cases k4; exact k3

theorem invert_nmaps {a a' : Alphabet} {t t' : Transducer W} (ht : a'.slexicinv = a.slexicinv)
    (h : ∀ ls fw, Spells a' t' ls fw ↔ Spells a t (ls.map fun l => ((l.1.2, l.1.1), l.2)) fw) {X Y : List Name} : NMaps a' t' X Y ↔ NMaps a t Y X := by
  have hn : ∀ {x : List Int} {X : List Name}, List.Forall₂ (Named a') x X ↔ List.Forall₂ (Named a) x X := by
    intro x X
    constructor
    · exact fun g => g.imp fun _ _ k => (named_congr ht).1 k
    · exact fun g => g.imp fun _ _ k => (named_congr ht).2 k
  unfold NMaps Spelled
  constructor
  · rintro ⟨x, y, ⟨ls, fw, h1, rfl, rfl⟩, h2, h3⟩
    exact ⟨_, _, ⟨_, fw, (h ls fw).1 h1, rfl, rfl⟩, by simpa [Function.comp_def] using hn.1 h3, by simpa [Function.comp_def] using hn.1 h2⟩
  · rintro ⟨x, y, ⟨ls, fw, h1, rfl, rfl⟩, h2, h3⟩
    refine ⟨_, _, ⟨ls.map fun l => ((l.1.2, l.1.1), l.2), fw, (h _ fw).2 (by simpa [Function.comp_def] using h1), rfl, rfl⟩, ?_, ?_⟩
    · simpa [Function.comp_def] using hn.2 h3
    · simpa [Function.comp_def] using hn.2 h2

/-- The sections after exchanging the sides. -/
theorem invert_sections {a : Alphabet} {ts : List (UString × Transducer Dbl)} (ha : Sane a) (ht : ∀ e ∈ ts, Part a e.2) :
    ∃ a' ts', Tools.eachSection invert ts a = .ok (a', ts') ∧ Sane a' ∧ a'.slexicinv = a.slexicinv ∧
      List.Forall₂ (fun e e' => Part a' e'.2 ∧ (∀ X Y, NMaps a' e'.2 X Y ↔ NMaps a e.2 Y X) ∧
        ∀ q x y w r, PairEdge a' e'.2 q ((x, y), w) r → PairEdge a e.2 q ((y, x), w) r) ts ts' := by
  obtain ⟨a', ts', g1, g2, -, g4⟩ := Tools.eachSection_spec (op := invert)
    (fun b => Sane b ∧ b.slexicinv = a.slexicinv) (fun b t => Part b t)
    (fun b t c t' => Part c t' ∧ (∀ X Y, NMaps c t' X Y ↔ NMaps b t Y X) ∧ ∀ q x y w r, PairEdge c t' q ((x, y), w) r → PairEdge b t q ((y, x), w) r)
    (fun b t hb hq => by
      obtain ⟨b', t', k1, k2, k3, -, k5, k6, -⟩ := Tools.invert_part hb.1 hq
      obtain ⟨b'', t'', j1, -, -, j4, -⟩ := invert_spec b t hb.1.ok hq.wf hq.coded
      rw [k1] at j1
      cases j1
      exact ⟨b', t', k1, ⟨k2, k3.trans hb.2⟩, k5, k6, fun X Y => invert_nmaps k3 j4, fun q x y w r he => invert_edge hb.1.ok hq.wf hq.coded k1 he⟩)
    (fun b c t h hq => hq.mono h)
    (fun b c t d t' hb hc hq hr => ⟨hr.1, fun X Y => by
      rw [hr.2.1, Trim.nmaps_ext hc (known_of hq.coded) (Tools.tagsKnown hb.1.symbols t)], fun q x y w r he => (Trim.pairEdge_ext hc (known_of hq.coded)).1 (hr.2.2 _ _ _ _ _ he)⟩)
    (fun b t c t' d hc hd hr => ⟨hr.1.mono hd, fun X Y => by
      rw [Trim.nmaps_ext hd (known_of hr.1.coded) (Tools.tagsKnown hc.1.symbols t'), hr.2.1], fun q x y w r he => hr.2.2 _ _ _ _ _ ((Trim.pairEdge_ext hd (known_of hr.1.coded)).1 he)⟩)
    ts a ⟨ha, rfl⟩ ht
  exact ⟨a', ts', g1, g2.1, g2.2, g4.imp fun _ _ h => h.2⟩

/-! ## The sections as they are used -/

/-- What a section relates, form first. -/
def Relation (analyser : Bool) (a : Alphabet) (t : Transducer Dbl) (X Y : List Name) : Prop := if analyser then NMaps a t X Y else NMaps a t Y X

theorem sect_stored (v : Dbl → W) {b : Alphabet} {t : Transducer Dbl} {P : List Name → List Name → Prop} (h : Sect b t P) : Sect b (stored v t) P := by
  refine ⟨Chain.wf_stored v h.wf, ?_, ?_, h.nonempty, fun X Y => by rw [Trim.nmaps_stored, h.rel]⟩
  · intro q l p he
    obtain ⟨w, h1, -⟩ := (Chain.edge_stored v t q l p).1 he
    exact h.coded _ _ _ h1
  · rintro q x y w r ⟨c, h1, h2⟩
    obtain ⟨w', h3, -⟩ := (Chain.edge_stored v t q _ r).1 h2
    exact h.joining q x y w' r ⟨c, h1, h3⟩

/-- A symbol of an alphabet keeps its name. -/
theorem named_back {a b : Alphabet} (he : Ext a b) {x : Int} {n : Name} (hx : Symbol a x) (h : Named b x n) : Named a x n := by
  have : ∃ m, Named a x m := by
    rcases hx with ⟨h1, -⟩ | ⟨h1, s, h2⟩
    · exact ⟨.letter x, .inl ⟨h1, rfl⟩⟩
    · exact ⟨.tag s, .inr ⟨h1, s, h2, rfl⟩⟩
  obtain ⟨m, hm⟩ := this
  rw [Product.named_unique h (Tools.named_mono he hm)]
  exact hm

/-- The alphabet with `<*>`. -/
theorem sane_any {a : Alphabet} (ha : Sane a) :
    Sane (a.includeSymbol ANY) ∧ Ext a (a.includeSymbol ANY) ∧ ∀ s, s ∈ (a.includeSymbol ANY).slexicinv ↔ s ∈ a.slexicinv ∨ s = ANY := by
  obtain ⟨h1, h2, -, h4, h5⟩ := includeSymbol_spec ha.ok ANY
  have hn : ∀ s, s ∈ (a.includeSymbol ANY).slexicinv ↔ s ∈ a.slexicinv ∨ s = ANY := by
    intro s
    rw [h5]
    split
    · rename_i h
      constructor
      · exact .inl
      · rintro (h' | rfl)
        · exact h'
        · exact h
    · simp
  refine ⟨⟨h1, ?_, ?_⟩, h2, hn⟩
  · intro s hs
    rcases (hn s).1 hs with h | rfl
    · exact ha.tags s h
    · exact ⟨⟨[0x2a], rfl⟩, by decide⟩
  · rw [h4]
    intro p hp
    exact ⟨(ha.symbols p hp).1.mono h2, (ha.symbols p hp).2.mono h2⟩

theorem sections_ok (v : Dbl → W) {analyser : Bool} {bs : List UInt8} {L : List UInt32} {a : Alphabet} {ts : List (UString × Transducer Dbl)}
    (h : Listable analyser bs L a ts) :
    ∃ a' ts', (if analyser then .ok (a.includeSymbol ANY, ts) else Tools.eachSection invert ts (a.includeSymbol ANY)) = .ok (a', ts') ∧ Sane a' ∧
      a'.slexicinv = (a.includeSymbol ANY).slexicinv ∧ Sects a' (storedAll v ts') (ts.map fun e => Relation analyser a e.2) := by
  obtain ⟨h1, h2, h3⟩ := sane_any h.dict.sane
  have hk : ∀ e ∈ ts, ∀ q l p, Edge e.2 q l p → KA a l.1 := fun e he => known_of (h.dict.parts e he).coded
  have hnm : ∀ e ∈ ts, ∀ X Y, NMaps (a.includeSymbol ANY) e.2 X Y ↔ NMaps a e.2 X Y :=
    fun e he X Y => Trim.nmaps_ext h2 (hk e he) (Tools.tagsKnown h.dict.sane.symbols e.2)
  have hne : ∀ e ∈ ts, ∃ X Y, Relation analyser a e.2 X Y := by
    intro e he
    obtain ⟨X, Y, g⟩ := h.entries e.1 ((Tools.has_iff h.dict.stored e.1).2 (List.mem_map.2 ⟨e, he, rfl⟩))
    obtain ⟨t, g1, g2⟩ := (Trim.pairs_iff h.dict).1 g
    have : t = e.2 := by
      have g3 := mapFind_of_mem h.dict.sorted g1
      have g4 := mapFind_of_mem h.dict.sorted (show (e.1, e.2) ∈ ts from he)
      rw [g3] at g4; cases g4; rfl
    subst this
    unfold Relation
    cases analyser
    · exact ⟨Y, X, by simpa using g2⟩
    · exact ⟨X, Y, by simpa using g2⟩
  have hjoin : ∀ e ∈ ts, ∀ q x y w r, PairEdge (a.includeSymbol ANY) e.2 q ((x, y), w) r →
      (if analyser then y else x) ≠ 0x23 ∧ ∀ s ∈ Product.groupTags, ¬ Named (a.includeSymbol ANY) (if analyser then y else x) (.tag s) := by
    intro e he q x y w r hh
    have hh' := (Trim.pairEdge_ext h2 (hk e he)).1 hh
    obtain ⟨g1, g2⟩ := h.joining e he q x y w r hh'
    refine ⟨g1, fun s hs hn => g2 s hs (named_back h2 ?_ hn)⟩
    obtain ⟨c, k1, -⟩ := hh'
    obtain ⟨i, k2, -⟩ := decode_iff.1 k1
    have := h.dict.sane.symbols _ (List.mem_of_getElem? k2)
    cases analyser
    · exact this.1
    · exact this.2
  have hpart : ∀ e ∈ ts, Part (a.includeSymbol ANY) e.2 := fun e he => (h.dict.parts e he).mono h2
  cases hb : analyser with
  | true =>
    subst hb
    refine ⟨_, ts, by rw [if_pos rfl], h1, rfl, ?_⟩
    unfold storedAll Sects
    rw [List.forall₂_map_left_iff, List.forall₂_map_right_iff, List.forall₂_same]
    intro e he
    exact sect_stored v ⟨(hpart e he).wf, (hpart e he).coded, fun q x y w r hh => by simpa using hjoin e he q x y w r hh, hne e he,
      fun X Y => by rw [hnm e he]; simp [Relation]⟩
  | false =>
    subst hb
    obtain ⟨a', ts', g1, g2, g3, g4⟩ := invert_sections h1 hpart
    refine ⟨a', ts', by rw [if_neg (by decide)]; exact g1, g2, g3, ?_⟩
    unfold storedAll Sects
    rw [List.forall₂_map_left_iff, List.forall₂_map_right_iff]
    have key : ∀ (xs ys : List (UString × Transducer Dbl)), (∀ e ∈ xs, e ∈ ts) →
        List.Forall₂ (fun e e' => Part a' e'.2 ∧ (∀ X Y, NMaps a' e'.2 X Y ↔ NMaps (a.includeSymbol ANY) e.2 Y X) ∧
          ∀ q x y w r, PairEdge a' e'.2 q ((x, y), w) r → PairEdge (a.includeSymbol ANY) e.2 q ((y, x), w) r) xs ys →
        List.Forall₂ (fun e' e => Sect a' (stored v e'.2) (Relation false a e.2)) ys xs := by
      intro xs ys hm hf
      induction hf with
      | nil => exact .nil
      | @cons e e' xs ys hh _ ih =>
        have he := hm e (by simp)
        refine .cons (sect_stored v ⟨hh.1.wf, hh.1.coded, ?_, hne e he, fun X Y => by rw [hh.2.1, hnm e he]; simp [Relation]⟩) (ih fun e he => hm e (by simp [he]))
        intro q x y w r k
        obtain ⟨j1, j2⟩ := hjoin e he q y x w r (hh.2.2 _ _ _ _ _ k)
        refine ⟨by simpa using j1, fun s hs hn => j2 s hs ?_⟩
        simpa using (named_congr g3).1 hn
    exact key ts ts' (fun e he => he) g4

theorem wanted_belongs {analyser : Bool} {bs : List UInt8} {L : List UInt32} {a : Alphabet} {ts : List (UString × Transducer Dbl)} (h : Dictionary bs L a ts)
    {exclude : List UString} {is : List Item} {e : UString × UString} :
    (∃ P ∈ ts.map fun e => Relation analyser a e.2, Wanted L exclude is P e) ↔ Belongs analyser bs L exclude is e := by
  have hE : ∀ k X Y, Entry analyser bs k X Y ↔ ∃ t, (k, t) ∈ ts ∧ Relation analyser a t X Y := by
    intro k X Y
    unfold Entry Relation
    cases analyser
    · simpa using Trim.pairs_iff h
    · simpa using Trim.pairs_iff h
  unfold Belongs Wanted
  constructor
  · rintro ⟨P, h1, X, Y, h2, h3⟩
    obtain ⟨⟨k, t⟩, h4, rfl⟩ := List.mem_map.1 h1
    exact ⟨k, X, Y, (hE k X Y).2 ⟨t, h4, h2⟩, h3⟩
  · rintro ⟨k, X, Y, h1, h3⟩
    obtain ⟨t, h4, h2⟩ := (hE k X Y).1 h1
    exact ⟨_, List.mem_map.2 ⟨(k, t), h4, rfl⟩, X, Y, h2, h3⟩

theorem listing_lists {analyser sort : Bool} {bs : List UInt8} {L : List UInt32} {a : Alphabet} {ts : List (UString × Transducer Dbl)} (h : Dictionary bs L a ts)
    {exclude : List UString} {is : List Item} {es : List (UString × UString)} (hl : Listing sort L exclude (ts.map fun e => Relation analyser a e.2) is es) :
    Lists analyser sort bs L exclude is es := by
  refine ⟨fun e he => (wanted_belongs h).1 (hl.sound e he), ?_, hl.sorted⟩
  rintro ⟨n, hn⟩ e he
  refine hl.complete ?_ e ((wanted_belongs h).2 he)
  intro P hP
  obtain ⟨⟨k, t⟩, h1, rfl⟩ := List.mem_map.1 hP
  refine ⟨2 * n, fun X Y hr => ?_⟩
  unfold Relation at hr
  cases analyser
  · have := hn k Y X ((Trim.pairs_iff h).2 ⟨t, h1, by simpa using hr⟩)
    omega
  · have := hn k X Y ((Trim.pairs_iff h).2 ⟨t, h1, by simpa using hr⟩)
    omega

end Verif.Paradigm
