import Verif.Alphabet.Model
import Verif.Data.AssocLemmas
import Verif.Compression.Props
import Verif.Serialiser.Props
import Mathlib.Data.List.Sort

/-! # Lemmas about alphabets -/

namespace Verif

section Table

variable {κ : Type} [LinearOrder κ]

theorem sortedKeys_ext {m m' : List (κ × Int)} (h : SortedKeys m) (h' : SortedKeys m')
    (e : ∀ k c, mapFind k m = some c ↔ mapFind k m' = some c) : m = m' := by
  have nd : ∀ {m : List (κ × Int)}, SortedKeys m → m.Nodup := fun h =>
    List.Pairwise.imp (fun {a b} hab heq => by subst heq; exact lt_irrefl _ hab) h
  have hp : m.Perm m' := (List.perm_ext_iff_of_nodup (nd h) (nd h')).2 (by
    rintro ⟨k, c⟩
    rw [← mapFind_iff h, ← mapFind_iff h']; exact e k c)
  refine hp.eq_of_pairwise (le := fun (a b : κ × Int) => a.1 < b.1) ?_ h h'
  intro a b _ _ hab hba
  exact absurd (lt_trans hab hba) (lt_irrefl _)

/-- A map `m` that numbers the entries of `inv`: entry `i` has number `f i`. -/
structure Table (f : Nat → Int) (m : List (κ × Int)) (inv : List κ) : Prop where
  sorted : SortedKeys m
  find : ∀ k c, mapFind k m = some c ↔ ∃ i, inv[i]? = some k ∧ c = f i
  len : m.length = inv.length

variable {f : Nat → Int} {m m' : List (κ × Int)} {inv : List κ}

theorem Table.nil : Table f ([] : List (κ × Int)) [] :=
  ⟨List.Pairwise.nil, by simp [mapFind], rfl⟩

theorem length_mapSet_new {k : κ} {v : Int} (h : mapFind k m = none) : (mapSet k v m).length = m.length + 1 := by
  induction m with
  | nil => rfl
  | cons e m ih =>
    obtain ⟨k', v'⟩ := e
    have hk : k' ≠ k := by rintro rfl; simp [mapFind] at h
    simp only [mapFind, hk, if_false] at h
    simp only [mapSet]
    split
    · rfl
    · split
      · simp [ih h]
      · rename_i h1 h2; exact absurd (le_antisymm (not_lt.1 h1) (not_lt.1 h2)) hk

theorem Table.mem (h : Table f m inv) (k : κ) : mapFind k m = none ↔ k ∉ inv := by
  rw [← not_iff_not, not_not, ← ne_eq, Option.ne_none_iff_exists']
  constructor
  · rintro ⟨c, hc⟩
    obtain ⟨i, hi, _⟩ := (h.find k c).1 hc
    exact List.mem_of_getElem? hi
  · intro hk
    obtain ⟨i, hi⟩ := List.mem_iff_getElem?.1 hk
    exact ⟨f i, (h.find k _).2 ⟨i, hi, rfl⟩⟩

theorem Table.snoc (h : Table f m inv) {k : κ} (hk : k ∉ inv) :
    Table f (mapSet k (f inv.length) m) (inv ++ [k]) := by
  have hn := (h.mem k).2 hk
  refine ⟨?_, ?_, ?_⟩
  · rw [mapSet_eq_modify]; exact sorted_modify h.sorted _ _ _
  · intro k' c
    rw [mapSet_eq_modify, mapFind_modify h.sorted]
    by_cases hkk : k' = k
    · subst hkk
      simp only [if_true, Option.some.injEq]
      constructor
      · rintro rfl
        exact ⟨inv.length, by simp, rfl⟩
      · rintro ⟨i, hi, rfl⟩
        rcases Nat.lt_or_ge i inv.length with hlt | hge
        · rw [List.getElem?_append_left hlt] at hi
          exact absurd (List.mem_of_getElem? hi) hk
        · rw [List.getElem?_append_right hge] at hi
          have : i - inv.length = 0 := by
            rcases Nat.eq_zero_or_pos (i - inv.length) with h0 | h0
            · exact h0
            · rw [List.getElem?_eq_none (by simp; omega)] at hi; cases hi
          congr 1; omega
    · simp only [hkk, if_false]
      rw [h.find k' c]
      constructor
      · rintro ⟨i, hi, rfl⟩
        refine ⟨i, ?_, rfl⟩
        have := (List.getElem?_eq_some_iff.1 hi).1
        rw [List.getElem?_append_left this]; exact hi
      · rintro ⟨i, hi, rfl⟩
        refine ⟨i, ?_, rfl⟩
        rcases Nat.lt_or_ge i inv.length with hlt | hge
        · rwa [List.getElem?_append_left hlt] at hi
        · rw [List.getElem?_append_right hge] at hi
          have := List.mem_of_getElem? hi
          simp at this; exact absurd this hkk
  · rw [length_mapSet_new hn, h.len]; simp

theorem Table.inj (h : Table f m inv) (hf : Function.Injective f) {i j : Nat} {k : κ} (hi : inv[i]? = some k)
    (hj : inv[j]? = some k) : i = j := by
  have h1 := (h.find k (f i)).2 ⟨i, hi, rfl⟩
  have h2 := (h.find k (f j)).2 ⟨j, hj, rfl⟩
  rw [h1] at h2
  exact hf (Option.some.inj h2)

theorem Table.ext (h : Table f m inv) (h' : Table f m' inv) : m = m' :=
  sortedKeys_ext h.sorted h'.sorted (fun k c => by rw [h.find, h'.find])

theorem Table.nodup (h : Table f m inv) (hf : Function.Injective f) : inv.Nodup := by
  rw [List.nodup_iff_injective_getElem]
  intro i j hij
  have h1 : inv[i.1]? = some (inv[i.1]) := List.getElem?_eq_getElem i.2
  have h2 : inv[j.1]? = some (inv[i.1]) := by rw [List.getElem?_eq_getElem j.2]; exact congrArg some hij.symm
  exact Fin.ext (h.inj hf h1 h2)

end Table

namespace Alphabet

/-- The code of the `i`-th tag. -/
def tagNo (i : Nat) : Int := -((i : Int) + 1)
/-- The code of the `i`-th pair. -/
def pairNo (i : Nat) : Int := i

theorem tagNo_inj : Function.Injective tagNo := by intro i j h; simp only [tagNo] at h; omega
theorem pairNo_inj : Function.Injective pairNo := by intro i j h; simp only [pairNo] at h; omega

/-- The invariant of alphabets: both maps number their vectors, and the first pair is the empty one. -/
structure Ok (a : Alphabet) : Prop where
  tags : Table tagNo a.slexic a.slexicinv
  pairs : Table pairNo a.spair (a.spairinv.map toLex)
  zero : a.spairinv[0]? = some (0, 0)

/-- Everything that was in `a` is in `b`, at the same place. -/
def Ext (a b : Alphabet) : Prop := a.slexicinv <+: b.slexicinv ∧ a.spairinv <+: b.spairinv

theorem Ext.refl (a : Alphabet) : Ext a a := ⟨List.prefix_rfl, List.prefix_rfl⟩
theorem Ext.trans {a b c : Alphabet} (h : Ext a b) (h' : Ext b c) : Ext a c := ⟨h.1.trans h'.1, h.2.trans h'.2⟩

theorem getElem?_of_prefix {α : Type} {l l' : List α} (h : l <+: l') {i : Nat} {x : α} (hi : l[i]? = some x) :
    l'[i]? = some x := by
  obtain ⟨t, rfl⟩ := h
  rw [List.getElem?_append_left (List.getElem?_eq_some_iff.1 hi).1]; exact hi

/-- Code `c` stands for pair `p`. -/
def HasPair (a : Alphabet) (c : Int) (p : Pair) : Prop := ∃ i : Nat, a.spairinv[i]? = some p ∧ c = i
/-- Code `c` stands for the tag `s`. -/
def HasTag (a : Alphabet) (c : Int) (s : UString) : Prop := ∃ i : Nat, a.slexicinv[i]? = some s ∧ c = tagNo i

theorem HasPair.mono {a b : Alphabet} (h : Ext a b) {c : Int} {p : Pair} (hp : HasPair a c p) : HasPair b c p := by
  obtain ⟨i, hi, rfl⟩ := hp; exact ⟨i, getElem?_of_prefix h.2 hi, rfl⟩
theorem HasTag.mono {a b : Alphabet} (h : Ext a b) {c : Int} {s : UString} (hp : HasTag a c s) : HasTag b c s := by
  obtain ⟨i, hi, rfl⟩ := hp; exact ⟨i, getElem?_of_prefix h.1 hi, rfl⟩

theorem hasPair_find {a : Alphabet} (h : Ok a) {c : Int} {p : Pair} :
    mapFind (toLex p) a.spair = some c ↔ HasPair a c p := by
  rw [h.pairs.find]
  simp only [HasPair, List.getElem?_map, Option.map_eq_some_iff, pairNo]
  constructor
  · rintro ⟨i, ⟨q, hq, e⟩, rfl⟩; cases e; exact ⟨i, hq, rfl⟩
  · rintro ⟨i, hq, rfl⟩; exact ⟨i, ⟨p, hq, rfl⟩, rfl⟩

theorem hasTag_find {a : Alphabet} (h : Ok a) {c : Int} {s : UString} :
    mapFind s a.slexic = some c ↔ HasTag a c s := h.tags.find s c

theorem HasPair.code_unique {a : Alphabet} (h : Ok a) {c c' : Int} {p : Pair} (h1 : HasPair a c p)
    (h2 : HasPair a c' p) : c = c' := by
  rw [← hasPair_find h] at h1 h2; rw [h1] at h2; exact Option.some.inj h2

theorem HasPair.pair_unique {a : Alphabet} {c : Int} {p q : Pair} (h1 : HasPair a c p)
    (h2 : HasPair a c q) : p = q := by
  obtain ⟨i, hi, rfl⟩ := h1
  obtain ⟨j, hj, e⟩ := h2
  obtain rfl : i = j := by omega
  rw [hi] at hj; exact Option.some.inj hj

theorem HasTag.code_unique {a : Alphabet} (h : Ok a) {c c' : Int} {p : UString} (h1 : HasTag a c p)
    (h2 : HasTag a c' p) : c = c' := by
  rw [← hasTag_find h] at h1 h2; rw [h1] at h2; exact Option.some.inj h2

theorem HasTag.tag_unique {a : Alphabet} {c : Int} {p q : UString} (h1 : HasTag a c p)
    (h2 : HasTag a c q) : p = q := by
  obtain ⟨i, hi, rfl⟩ := h1
  obtain ⟨j, hj, e⟩ := h2
  obtain rfl := tagNo_inj e
  rw [hi] at hj; exact Option.some.inj hj

theorem HasTag.neg {a : Alphabet} {c : Int} {p : UString} (h : HasTag a c p) : c < 0 := by
  obtain ⟨i, hi, rfl⟩ := h; simp only [tagNo]; omega

theorem decode_iff {a : Alphabet} {c : Int} {p : Pair} : a.decode c = .ok p ↔ HasPair a c p := by
  unfold decode HasPair
  constructor
  · intro h
    split at h
    · cases h
    · split at h
      · cases h; exact ⟨c.toNat, by assumption, by omega⟩
      · cases h
  · rintro ⟨i, hi, rfl⟩
    rw [if_neg (by omega), Int.toNat_natCast, hi]

theorem tagText_iff {a : Alphabet} {c : Int} (hc : c < 0) {s : UString} : a.tagText c = .ok s ↔ HasTag a c s := by
  unfold tagText HasTag tagNo
  constructor
  · intro h
    split at h
    · cases h; exact ⟨(-c - 1).toNat, by assumption, by omega⟩
    · cases h
  · rintro ⟨i, hi, rfl⟩
    rw [show (- -((i : Int) + 1) - 1).toNat = i by omega, hi]

theorem ok_empty : Ok empty := by
  refine ⟨Table.nil, ?_, rfl⟩
  exact (Table.nil (f := pairNo)).snoc (k := toLex ((0 : Int), (0 : Int))) (by simp)

theorem includeSymbol_spec {a : Alphabet} (h : Ok a) (s : UString) :
    Ok (a.includeSymbol s) ∧ Ext a (a.includeSymbol s) ∧ (∃ c, HasTag (a.includeSymbol s) c s) ∧
      (a.includeSymbol s).spairinv = a.spairinv ∧
      (a.includeSymbol s).slexicinv = (if s ∈ a.slexicinv then a.slexicinv else a.slexicinv ++ [s]) := by
  unfold includeSymbol
  have hm := h.tags.mem s
  split
  · rename_i c hc
    have hin : s ∈ a.slexicinv := by by_contra hn; rw [hm.2 hn] at hc; cases hc
    exact ⟨h, Ext.refl _, ⟨c, (hasTag_find h).1 hc⟩, rfl, by rw [if_pos hin]⟩
  · rename_i hc
    have hin := hm.1 hc
    refine ⟨⟨?_, h.pairs, h.zero⟩, ⟨List.prefix_append _ _, List.prefix_rfl⟩, ⟨_, a.slexicinv.length, ?_, rfl⟩, rfl,
      by rw [if_neg hin]⟩
    · have := h.tags.snoc hin
      rw [h.tags.len]; exact this
    · simp

theorem pairCode_spec {a : Alphabet} (h : Ok a) (x y : Int) :
    Ok (a.pairCode x y).2 ∧ Ext a (a.pairCode x y).2 ∧ HasPair (a.pairCode x y).2 (a.pairCode x y).1 (x, y) ∧
      (a.pairCode x y).2.slexicinv = a.slexicinv ∧ (a.pairCode x y).2.slexic = a.slexic ∧
      (a.pairCode x y).2.spairinv = (if (x, y) ∈ a.spairinv then a.spairinv else a.spairinv ++ [(x, y)]) := by
  unfold pairCode
  have hm := h.pairs.mem (toLex (x, y))
  have hmem : toLex (x, y) ∈ a.spairinv.map toLex ↔ (x, y) ∈ a.spairinv := by
    rw [List.mem_map]
    constructor
    · rintro ⟨q, hq, e⟩; cases e; exact hq
    · intro hq; exact ⟨_, hq, rfl⟩
  split
  · rename_i c hc
    have hin : (x, y) ∈ a.spairinv := by
      by_contra hn; rw [← hmem] at hn; rw [hm.2 hn] at hc; cases hc
    exact ⟨h, Ext.refl _, (hasPair_find h).1 hc, rfl, rfl, by rw [if_pos hin]⟩
  · rename_i hc
    have hin := hm.1 hc
    have hlen := h.pairs.len
    rw [List.length_map] at hlen
    refine ⟨⟨h.tags, ?_, ?_⟩, ⟨List.prefix_rfl, List.prefix_append _ _⟩, ⟨a.spairinv.length, by simp, by simp [hlen]⟩,
      rfl, rfl, by rw [if_neg (by rwa [← hmem])]⟩
    · have := h.pairs.snoc hin
      rw [List.length_map] at this
      simp only [hlen, List.map_append, List.map_cons, List.map_nil]
      exact this
    · exact getElem?_of_prefix (List.prefix_append _ _) h.zero

theorem symCode_of_hasTag {a : Alphabet} (h : Ok a) {c : Int} {s : UString} (hs : HasTag a c s) : a.symCode s = c := by
  rw [← hasTag_find h] at hs; simp [symCode, hs]

theorem symCodeConst_of_hasTag {a : Alphabet} (h : Ok a) {c : Int} {s : UString} (hs : HasTag a c s) :
    a.symCodeConst s = c := by
  rw [← hasTag_find h] at hs; simp [symCodeConst, hs]

/-! ## Loopback symbols -/

theorem loopPairs_spec (sd : Side) (nt : Bool) (ps : List Pair) (a : Alphabet) (S T : List Int) (h : Ok a) :
    let r := loopPairs sd nt ps (a, S, T)
    Ok r.1 ∧ Ext a r.1 ∧ r.1.slexicinv = a.slexicinv ∧
    (∀ c, c ∈ r.2.1 ↔ c ∈ S ∨ ∃ p ∈ ps, 0 ≤ sd.pick p ∧ nt = true ∧ HasPair r.1 c (sd.pick p, sd.pick p)) ∧
    (∀ x, x ∈ r.2.2 ↔ x ∈ T ∨ ∃ p ∈ ps, sd.pick p = x ∧ x < 0) := by
  induction ps generalizing a S T with
  | nil => simp [loopPairs, h, Ext.refl]
  | cons p ps ih =>
    simp only [loopPairs]
    split
    · rename_i hx
      obtain ⟨h1, h2, h3, h4, h5⟩ := ih a S (setInsert (sd.pick p) T) h
      refine ⟨h1, h2, h3, fun c => ?_, fun x => ?_⟩
      · rw [h4]
        constructor
        · rintro (hc | ⟨q, hq, r⟩)
          · exact .inl hc
          · exact .inr ⟨q, List.mem_cons_of_mem _ hq, r⟩
        · rintro (hc | ⟨q, hq, r⟩)
          · exact .inl hc
          · rcases List.mem_cons.1 hq with rfl | hq
            · exact absurd r.1 (by omega)
            · exact .inr ⟨q, hq, r⟩
      · rw [h5, mem_setInsert]
        constructor
        · rintro ((rfl | hc) | ⟨q, hq, r⟩)
          · exact .inr ⟨p, List.mem_cons_self, rfl, hx⟩
          · exact .inl hc
          · exact .inr ⟨q, List.mem_cons_of_mem _ hq, r⟩
        · rintro (hc | ⟨q, hq, r⟩)
          · exact .inl (.inr hc)
          · rcases List.mem_cons.1 hq with rfl | hq
            · exact .inl (.inl r.1.symm)
            · exact .inr ⟨q, hq, r⟩
    · rename_i hx
      split
      · rename_i hnt
        obtain ⟨g1, g2, g3, g4, _, _⟩ := pairCode_spec h (sd.pick p) (sd.pick p)
        obtain ⟨h1, h2, h3, h4, h5⟩ := ih (a.pairCode (sd.pick p) (sd.pick p)).2
          (setInsert (a.pairCode (sd.pick p) (sd.pick p)).1 S) T g1
        refine ⟨h1, g2.trans h2, h3.trans g4, fun c => ?_, fun x => ?_⟩
        · rw [h4, mem_setInsert]
          have g3' := g3.mono h2
          constructor
          · rintro ((rfl | hc) | ⟨q, hq, r⟩)
            · exact .inr ⟨p, List.mem_cons_self, by omega, hnt, g3'⟩
            · exact .inl hc
            · exact .inr ⟨q, List.mem_cons_of_mem _ hq, r⟩
          · rintro (hc | ⟨q, hq, r⟩)
            · exact .inl (.inr hc)
            · rcases List.mem_cons.1 hq with rfl | hq
              · exact .inl (.inl (r.2.2.code_unique h1 g3'))
              · exact .inr ⟨q, hq, r⟩
        · rw [h5]
          constructor
          · rintro (hc | ⟨q, hq, r⟩)
            · exact .inl hc
            · exact .inr ⟨q, List.mem_cons_of_mem _ hq, r⟩
          · rintro (hc | ⟨q, hq, r⟩)
            · exact .inl hc
            · rcases List.mem_cons.1 hq with rfl | hq
              · exact absurd r.2 (by omega)
              · exact .inr ⟨q, hq, r⟩
      · rename_i hnt
        obtain ⟨h1, h2, h3, h4, h5⟩ := ih a S T h
        refine ⟨h1, h2, h3, fun c => ?_, fun x => ?_⟩
        · rw [h4]
          constructor
          · rintro (hc | ⟨q, hq, r⟩)
            · exact .inl hc
            · exact .inr ⟨q, List.mem_cons_of_mem _ hq, r⟩
          · rintro (hc | ⟨q, hq, r⟩)
            · exact .inl hc
            · rcases List.mem_cons.1 hq with rfl | hq
              · exact absurd r.2.1 hnt
              · exact .inr ⟨q, hq, r⟩
        · rw [h5]
          constructor
          · rintro (hc | ⟨q, hq, r⟩)
            · exact .inl hc
            · exact .inr ⟨q, List.mem_cons_of_mem _ hq, r⟩
          · rintro (hc | ⟨q, hq, r⟩)
            · exact .inl hc
            · rcases List.mem_cons.1 hq with rfl | hq
              · exact absurd r.2 (by omega)
              · exact .inr ⟨q, hq, r⟩

theorem loopPairs_has (sd : Side) (ps : List Pair) (a : Alphabet) (S T : List Int) (h : Ok a) (p : Pair) (hp : p ∈ ps)
    (e1 : 0 ≤ sd.pick p) : ∃ c, HasPair (loopPairs sd true ps (a, S, T)).1 c (sd.pick p, sd.pick p) := by
  induction ps generalizing a S T with
  | nil => simp at hp
  | cons q ps ih =>
    simp only [loopPairs]
    obtain ⟨g1, g2, g3, g4, _, _⟩ := pairCode_spec h (sd.pick q) (sd.pick q)
    rcases List.mem_cons.1 hp with rfl | hp
    · rw [if_neg (by omega)]
      simp only [if_true]
      exact ⟨_, g3.mono (loopPairs_spec sd true ps _ _ _ g1).2.1⟩
    · split
      · exact ih a S (setInsert (sd.pick q) T) h hp
      · exact ih _ (setInsert (a.pairCode (sd.pick q) (sd.pick q)).1 S) T g1 hp

theorem loopTags_spec (T : List Int) (m : List (UString × Int)) (a : Alphabet) (S : List Int) (h : Ok a) :
    let r := loopTags T m (a, S)
    Ok r.1 ∧ Ext a r.1 ∧
    (∀ c, c ∈ r.2 ↔ c ∈ S ∨ ∃ e ∈ m, e.2 ∈ T ∧ ∃ y, HasTag r.1 y e.1 ∧ HasPair r.1 c (y, y)) := by
  induction m generalizing a S with
  | nil => simp [loopTags, h, Ext.refl]
  | cons e m ih =>
    obtain ⟨s, t⟩ := e
    simp only [loopTags]
    split
    · rename_i ht
      obtain ⟨g1, g2, ⟨y, g3⟩, _, _⟩ := includeSymbol_spec h s
      rw [symCode_of_hasTag g1 g3]
      obtain ⟨k1, k2, k3, _, _, _⟩ := pairCode_spec g1 y y
      obtain ⟨h1, h2, h3⟩ := ih
        ((a.includeSymbol s).pairCode y y).2
        (setInsert ((a.includeSymbol s).pairCode y y).1 S) k1
      refine ⟨h1, (g2.trans k2).trans h2, fun c => ?_⟩
      have g3' := g3.mono (k2.trans h2)
      have k3' := k3.mono h2
      rw [h3, mem_setInsert]
      constructor
      · rintro ((rfl | hc) | ⟨q, hq, r⟩)
        · exact .inr ⟨_, List.mem_cons_self, ht, y, g3', k3'⟩
        · exact .inl hc
        · exact .inr ⟨q, List.mem_cons_of_mem _ hq, r⟩
      · rintro (hc | ⟨q, hq, hqT, z, hz, hp⟩)
        · exact .inl (.inr hc)
        · rcases List.mem_cons.1 hq with rfl | hq
          · obtain rfl := hz.code_unique h1 g3'
            exact .inl (.inl (hp.code_unique h1 k3'))
          · exact .inr ⟨q, hq, hqT, z, hz, hp⟩
    · rename_i ht
      obtain ⟨h1, h2, h3⟩ := ih a S h
      refine ⟨h1, h2, fun c => ?_⟩
      rw [h3]
      constructor
      · rintro (hc | ⟨q, hq, r⟩)
        · exact .inl hc
        · exact .inr ⟨q, List.mem_cons_of_mem _ hq, r⟩
      · rintro (hc | ⟨q, hq, r⟩)
        · exact .inl hc
        · rcases List.mem_cons.1 hq with rfl | hq
          · exact absurd r.1 ht
          · exact .inr ⟨q, hq, r⟩

theorem loopTags_has (T : List Int) (m : List (UString × Int)) (a : Alphabet) (S : List Int) (h : Ok a)
    (e : UString × Int) (he : e ∈ m) (hT : e.2 ∈ T) :
    ∃ c y, HasTag (loopTags T m (a, S)).1 y e.1 ∧ HasPair (loopTags T m (a, S)).1 c (y, y) := by
  induction m generalizing a S with
  | nil => simp at he
  | cons d m ih =>
    obtain ⟨s, t⟩ := d
    simp only [loopTags]
    obtain ⟨g1, g2, ⟨y, g3⟩, _, _⟩ := includeSymbol_spec h s
    rw [symCode_of_hasTag g1 g3]
    obtain ⟨k1, k2, k3, _, _, _⟩ := pairCode_spec g1 y y
    rcases List.mem_cons.1 he with rfl | he
    · rw [if_pos hT]
      have h2 := (loopTags_spec T m _ (setInsert ((a.includeSymbol s).pairCode y y).1 S) k1).2.1
      exact ⟨_, y, g3.mono (k2.trans h2), k3.mono h2⟩
    · split
      · exact ih _ _ k1 he
      · exact ih _ _ h he

theorem createLoopbackSymbols_spec {a basis : Alphabet} (h : Ok a) (hb : Ok basis) (S : List Int) (sd : Side)
    (nt : Bool) :
    let r := createLoopbackSymbols a S basis sd nt
    Ok r.1 ∧ Ext a r.1 ∧
    (∀ c, c ∈ r.2 ↔ c ∈ S ∨ ∃ p ∈ basis.spairinv,
      (0 ≤ sd.pick p ∧ nt = true ∧ HasPair r.1 c (sd.pick p, sd.pick p)) ∨
      (∃ s y, HasTag basis (sd.pick p) s ∧ HasTag r.1 y s ∧ HasPair r.1 c (y, y))) := by
  simp only [createLoopbackSymbols]
  obtain ⟨h1, h2, h3, h4, h5⟩ := loopPairs_spec sd nt basis.spairinv a S [] h
  obtain ⟨k1, k2, k3⟩ := loopTags_spec (loopPairs sd nt basis.spairinv (a, S, [])).2.2 basis.slexic
    (loopPairs sd nt basis.spairinv (a, S, [])).1 (loopPairs sd nt basis.spairinv (a, S, [])).2.1 h1
  refine ⟨k1, h2.trans k2, fun c => ?_⟩
  rw [k3, h4]
  constructor
  · rintro ((hc | ⟨p, hp, e1, e2, e3⟩) | ⟨⟨s, x⟩, he, hx, y, hy, hc⟩)
    · exact .inl hc
    · exact .inr ⟨p, hp, .inl ⟨e1, e2, e3.mono k2⟩⟩
    · simp only [h5, List.not_mem_nil, false_or] at hx
      obtain ⟨p, hp, rfl, hlt⟩ := hx
      exact .inr ⟨p, hp, .inr ⟨s, y, (hasTag_find hb).1 (mapFind_of_mem hb.tags.sorted he), hy, hc⟩⟩
  · rintro (hc | ⟨p, hp, ⟨e1, e2, e3⟩ | ⟨s, y, hs, hy, hc⟩⟩)
    · exact .inl (.inl hc)
    · refine .inl (.inr ⟨p, hp, e1, e2, ?_⟩)
      obtain ⟨c', hc'⟩ := loopPairs_has sd basis.spairinv a S [] h p hp e1
      rw [← e2] at hc'
      obtain rfl := e3.code_unique k1 (hc'.mono k2)
      exact hc'
    · refine .inr ⟨(s, sd.pick p), mapFind_mem ((hasTag_find hb).2 hs), ?_, y, hy, hc⟩
      rw [h5]
      exact .inr ⟨p, hp, rfl, hs.neg⟩

theorem loopback_has_letter {a basis : Alphabet} (h : Ok a) (S : List Int) (sd : Side) (nt : Bool)
    (p : Pair) (hp : p ∈ basis.spairinv) (e1 : 0 ≤ sd.pick p) (e2 : nt = true) :
    ∃ c, HasPair (createLoopbackSymbols a S basis sd nt).1 c (sd.pick p, sd.pick p) := by
  subst e2
  obtain ⟨c, hc⟩ := loopPairs_has sd basis.spairinv a S [] h p hp e1
  simp only [createLoopbackSymbols]
  exact ⟨c, hc.mono (loopTags_spec _ _ _ _ (loopPairs_spec sd true basis.spairinv a S [] h).1).2.1⟩

theorem loopback_has_tag {a basis : Alphabet} (h : Ok a) (hb : Ok basis) (S : List Int) (sd : Side) (nt : Bool)
    (p : Pair) (hp : p ∈ basis.spairinv) (s : UString) (hs : HasTag basis (sd.pick p) s) :
    ∃ c y, HasTag (createLoopbackSymbols a S basis sd nt).1 y s ∧
      HasPair (createLoopbackSymbols a S basis sd nt).1 c (y, y) := by
  obtain ⟨h1, h2, h3, h4, h5⟩ := loopPairs_spec sd nt basis.spairinv a S [] h
  simp only [createLoopbackSymbols]
  exact loopTags_has _ basis.slexic _ _ h1 (s, sd.pick p) (mapFind_mem ((hasTag_find hb).2 hs))
    ((h5 _).2 (.inr ⟨p, hp, rfl, hs.neg⟩))

end Alphabet

end Verif
