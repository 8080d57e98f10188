import Verif.Alphabet.Format
import Verif.Data.Utf16
import Mathlib.Logic.Relation

/-! # Properties of alphabets (C11-C17) -/

namespace Verif.Alphabet

open Verif.Compression

/-- One operation that can change an alphabet. `setSymbol`, which the run-time processor uses to hide two compound
tags, is left out: it is meant to give a code another text. -/
inductive Step : Alphabet → Alphabet → Prop
  | include (a : Alphabet) (s : UString) : Step a (a.includeSymbol s)
  | pair (a : Alphabet) (x y : Int) : Step a (a.pairCode x y).2
  | loopback (a b : Alphabet) (S : List Int) (sd : Side) (nt : Bool) (hb : Ok b) :
      Step a (a.createLoopbackSymbols S b sd nt).1

/-- `b` is `a` after some history of operations. -/
def Later (a b : Alphabet) : Prop := Relation.ReflTransGen Step a b

/-- The alphabets a program can get by operations on a new alphabet. -/
def Reachable (a : Alphabet) : Prop := Later empty a

theorem step_spec {a b : Alphabet} (h : Step a b) (ha : Ok a) : Ok b ∧ Ext a b := by
  cases h with
  | «include» s => exact ⟨(includeSymbol_spec ha s).1, (includeSymbol_spec ha s).2.1⟩
  | pair x y => exact ⟨(pairCode_spec ha x y).1, (pairCode_spec ha x y).2.1⟩
  | loopback b S sd nt hb =>
    exact ⟨(createLoopbackSymbols_spec ha hb S sd nt).1, (createLoopbackSymbols_spec ha hb S sd nt).2.1⟩

theorem later_spec {a b : Alphabet} (h : Later a b) (ha : Ok a) : Ok b ∧ Ext a b := by
  induction h with
  | refl => exact ⟨ha, Ext.refl _⟩
  | tail _ hs ih =>
    obtain ⟨h1, h2⟩ := step_spec hs ih.1
    exact ⟨h1, ih.2.trans h2⟩

theorem Reachable.ok {a : Alphabet} (h : Reachable a) : Ok a := (later_spec h ok_empty).1

theorem Reachable.later {a b : Alphabet} (h : Reachable a) (hl : Later a b) : Reachable b := h.trans hl

/-! Concrete alphabets for the examples. -/

/-- `<n>` -/
def tagN : UString := [0x3c, 0x6e, 0x3e]
/-- `<v>` -/
def tagV : UString := [0x3c, 0x76, 0x3e]
/-- An alphabet with `<n>`, `<v>`, `a:a`, `a:<n>`, `<v>:b`. -/
def exAlpha : Alphabet :=
  ((((((empty.includeSymbol tagN).includeSymbol tagV).pairCode 0x61 0x61).2.pairCode 0x61 (-1)).2).pairCode (-2) 0x62).2

theorem exAlpha_reachable : Reachable exAlpha :=
  ((((Relation.ReflTransGen.refl.tail (.include _ tagN)).tail (.include _ tagV)).tail (.pair _ 0x61 0x61)).tail
    (.pair _ 0x61 (-1))).tail (.pair _ (-2) 0x62)

/-- **C12** Whatever is done to an alphabet, the codes it has handed out stay: the lookup of a tag and of a pair
that had a code returns that code, asking again does not change the alphabet, and decoding and naming agree. -/
theorem C12_codes_stay (a b : Alphabet) (ha : Reachable a) (hl : Later a b) :
    (∀ s, a.isSymbolDefined s = true → b.isSymbolDefined s = true ∧ b.symCode s = a.symCode s ∧
      b.includeSymbol s = b ∧ b.tagText (a.symCode s) = .ok s) ∧
    (∀ x y, a.pairCode x y = ((a.pairCode x y).1, a) →
      b.pairCode x y = ((a.pairCode x y).1, b) ∧ b.decode (a.pairCode x y).1 = .ok (x, y)) := by
  have ha' := ha.ok
  obtain ⟨hb, he⟩ := later_spec hl ha'
  constructor
  · intro s hs
    obtain ⟨c, hc⟩ := Option.isSome_iff_exists.1 hs
    have hc' := ((hasTag_find ha').1 hc).mono he
    have hf := (hasTag_find hb).2 hc'
    have e1 := symCode_of_hasTag ha' ((hasTag_find ha').1 hc)
    have e2 := symCode_of_hasTag hb hc'
    refine ⟨by simp [isSymbolDefined, hf], by rw [e1, e2], by simp [includeSymbol, hf], ?_⟩
    rw [e1]; exact (tagText_iff hc'.neg).2 hc'
  · intro x y hxy
    have hp := (pairCode_spec ha' x y).2.2.1
    have e : (a.pairCode x y).2 = a := by rw [hxy]
    rw [e] at hp
    have hp' := hp.mono he
    refine ⟨?_, decode_iff.2 hp'⟩
    have hf := (hasPair_find hb).2 hp'
    generalize (a.pairCode x y).1 = c at hf ⊢
    simp [pairCode, hf]

/-- Every code that was ever returned by a request is covered by `C12_codes_stay`: after the request the
alphabet satisfies the hypothesis. -/
theorem C12_after_request (a : Alphabet) (ha : Reachable a) (s : UString) (x y : Int) :
    (a.includeSymbol s).isSymbolDefined s = true ∧
    (a.pairCode x y).2.pairCode x y = ((a.pairCode x y).1, (a.pairCode x y).2) := by
  have ha' := ha.ok
  obtain ⟨h1, _, ⟨c, h3⟩, _, _⟩ := includeSymbol_spec ha' s
  obtain ⟨g1, _, g3, _, _⟩ := pairCode_spec ha' x y
  refine ⟨by simp [isSymbolDefined, (hasTag_find h1).2 h3], ?_⟩
  have hf := (hasPair_find g1).2 g3
  generalize (a.pairCode x y).2 = b at *
  generalize (a.pairCode x y).1 = c at *
  simp [pairCode, hf]

example : Reachable exAlpha ∧ exAlpha.symCode tagV = -2 ∧ exAlpha.isSymbolDefined tagV = true ∧
    exAlpha.pairCode 0x61 (-1) = (2, exAlpha) ∧ Later exAlpha (exAlpha.includeSymbol [0x3c, 0x78, 0x3e]) :=
  ⟨exAlpha_reachable, by decide, by decide, by decide, Relation.ReflTransGen.single (.include _ _)⟩

/-- **C13** In a reachable alphabet with `n` tags and `m` pairs: the codes of tags are exactly `-1..-n`, each with
one text, and looking up that text gives the code; the codes of pairs are exactly `0..m-1`, each decoding to one
pair, and looking up that pair gives the code; distinct tags and distinct pairs have distinct codes; the empty
pair has code 0. -/
theorem C13_codes_unambiguous (a : Alphabet) (ha : Reachable a) :
    (∀ c : Int, -(a.size : Int) ≤ c ∧ c < 0 ↔ ∃ s, a.isSymbolDefined s = true ∧ a.symCode s = c) ∧
    (∀ s, a.isSymbolDefined s = true → a.tagText (a.symCode s) = .ok s) ∧
    (∀ s t, a.isSymbolDefined s = true → a.isSymbolDefined t = true → a.symCode s = a.symCode t → s = t) ∧
    (∀ c : Int, 0 ≤ c ∧ c < a.spairinv.length ↔ ∃ x y, a.pairCode x y = (c, a)) ∧
    (∀ x y c, a.pairCode x y = (c, a) → a.decode c = .ok (x, y)) ∧
    (∀ x y x' y' c, a.pairCode x y = (c, a) → a.pairCode x' y' = (c, a) → x = x' ∧ y = y') ∧
    a.pairCode 0 0 = (0, a) := by
  have h := ha.ok
  have key : ∀ x y c, a.pairCode x y = (c, a) ↔ HasPair a c (x, y) := by
    intro x y c
    constructor
    · intro e
      have := (pairCode_spec h x y).2.2.1
      rw [e] at this; exact this
    · intro hp
      have hf := (hasPair_find h).2 hp
      simp [pairCode, hf]
  have tagkey : ∀ s c, (a.isSymbolDefined s = true ∧ a.symCode s = c) ↔ HasTag a c s := by
    intro s c
    constructor
    · rintro ⟨h1, h2⟩
      obtain ⟨c', hc'⟩ := Option.isSome_iff_exists.1 h1
      rw [← h2, symCode_of_hasTag h ((hasTag_find h).1 hc')]
      exact (hasTag_find h).1 hc'
    · intro ht
      exact ⟨by simp [isSymbolDefined, (hasTag_find h).2 ht], symCode_of_hasTag h ht⟩
  have hsz : a.size = a.slexicinv.length := h.tags.len
  refine ⟨fun c => ?_, fun s hs => ?_, fun s t hs ht e => ?_, fun c => ?_, fun x y c hc => ?_, fun x y x' y' c hc hc' => ?_, ?_⟩
  · simp only [tagkey]
    constructor
    · rintro ⟨h1, h2⟩
      have hlt : (-c - 1).toNat < a.slexicinv.length := by omega
      exact ⟨_, (-c - 1).toNat, List.getElem?_eq_getElem hlt, by simp only [tagNo]; omega⟩
    · rintro ⟨s, i, hi, rfl⟩
      have := (List.getElem?_eq_some_iff.1 hi).1
      simp only [tagNo]; omega
  · have := (tagkey s _).1 ⟨hs, rfl⟩
    exact (tagText_iff this.neg).2 this
  · exact ((tagkey s _).1 ⟨hs, rfl⟩).tag_unique ((tagkey t _).1 ⟨ht, e.symm⟩)
  · simp only [key]
    constructor
    · rintro ⟨h1, h2⟩
      have hlt : c.toNat < a.spairinv.length := by omega
      exact ⟨_, _, c.toNat, List.getElem?_eq_getElem hlt, by omega⟩
    · rintro ⟨x, y, i, hi, rfl⟩
      have := (List.getElem?_eq_some_iff.1 hi).1
      omega
  · exact decode_iff.2 ((key x y c).1 hc)
  · have := ((key x y c).1 hc).pair_unique ((key x' y' c).1 hc')
    exact ⟨congrArg Prod.fst this, congrArg Prod.snd this⟩
  · exact (key 0 0 0).2 ⟨0, h.zero, rfl⟩

example : exAlpha.size = 2 ∧ exAlpha.spairinv = [(0, 0), (0x61, 0x61), (0x61, -1), (-2, 0x62)] ∧
    exAlpha.decode 3 = .ok (-2, 0x62) ∧ exAlpha.tagText (-2) = .ok tagV := by decide

/-- **C13** What a code is printed as: nothing for 0, the letter (in UTF-16, one or two units) for the code of a letter, and
the text that was included for the code of a tag. -/
theorem C13_get_symbol (a : Alphabet) (ha : Reachable a) (s : UString) (n : Nat) (hn : n < 0x110000) :
    a.getSymbol n = .ok (if n = 0 then [] else utf16 n) ∧
    (a.includeSymbol s).getSymbol ((a.includeSymbol s).symCode s) = .ok s := by
  constructor
  · unfold getSymbol
    by_cases h0 : n = 0
    · subst h0; rfl
    · rw [if_neg (by omega), if_neg (by omega), if_neg h0, Int.toNat_natCast, unitsOf_utf16 n (by omega)]
  · obtain ⟨h1, _, ⟨c, h3⟩, _, _⟩ := includeSymbol_spec ha.ok s
    rw [symCode_of_hasTag h1 h3, getSymbol, if_neg (by have := h3.neg; omega), if_pos h3.neg]
    exact (tagText_iff h3.neg).2 h3

example : Reachable exAlpha ∧ exAlpha.getSymbol (-2) = .ok tagV ∧ exAlpha.getSymbol 0x1f600 = .ok [0xd83d, 0xde00] :=
  ⟨exAlpha_reachable, by decide, by decide⟩

/-- What the binary format can hold: tags in brackets, sizes and biased symbols below 2^30, and only symbols that
the alphabet knows. -/
def Writable (a : Alphabet) : Prop :=
  (∀ s ∈ a.slexicinv, Bracketed s ∧ s.length < 2 ^ 30) ∧ a.slexicinv.length < 2 ^ 30 ∧ a.spairinv.length < 2 ^ 30 ∧
  ∀ p ∈ a.spairinv, (0 ≤ p.1 + a.slexicinv.length ∧ p.1 + a.slexicinv.length < 2 ^ 30) ∧
    (0 ≤ p.2 + a.slexicinv.length ∧ p.2 + a.slexicinv.length < 2 ^ 30)

theorem binary_roundtrip {a : Alphabet} (h : Ok a) (hw : Writable a) : ∃ bs, a.write = .ok bs ∧ ∀ rest, read (bs ++ rest) = (a, rest) := by
  obtain ⟨w1, w2, w3, w4⟩ := hw
  obtain ⟨b1, hb1, hr1⟩ := mbw_ok (UInt32.ofNat a.slexicinv.length) (by rw [ofNat32 w2]; exact w2)
  obtain ⟨b2, hb2, hr2⟩ := tags_roundtrip a.slexicinv w1
  obtain ⟨b3, hb3, hr3⟩ := mbw_ok (UInt32.ofNat a.spairinv.length) (by rw [ofNat32 w3]; exact w3)
  obtain ⟨b4, hb4, hr4⟩ := pairs_roundtrip a.slexicinv.length a.spairinv w4
  refine ⟨b1 ++ b2 ++ b3 ++ b4, by simp [write, hb1, hb2, hb3, hb4], fun rest => ?_⟩
  obtain ⟨m1, e1, t1⟩ := hr2 ⟨[], [], [], []⟩ (b3 ++ (b4 ++ rest)) Table.nil
    (by simpa using h.tags.nodup tagNo_inj)
  have hnd : a.spairinv.Nodup := by
    have := h.pairs.nodup pairNo_inj
    exact List.Nodup.of_map _ this
  obtain ⟨m2, e2, t2⟩ := hr4 ⟨m1, a.slexicinv, [], []⟩ rest Table.nil (by simpa using hnd)
  simp only [List.nil_append] at e1 e2 t1 t2
  obtain rfl := t1.ext h.tags
  obtain rfl := t2.ext h.pairs
  simp only [read, List.append_assoc, hr1, hr3, ofNat32 w2, ofNat32 w3, e1, e2]

/-- **C14** A writable alphabet is written without an error, and reading it back in any context restores it
completely: the same tags and pairs with the same codes. -/
theorem C14_binary_roundtrip (a : Alphabet) (ha : Reachable a) (hw : Writable a) :
    ∃ bs, a.write = .ok bs ∧ ∀ rest, read (bs ++ rest) = (a, rest) := binary_roundtrip ha.ok hw

theorem exAlpha_writable : Writable exAlpha := by
  have e1 : exAlpha.slexicinv = [tagN, tagV] := by decide
  have e2 : exAlpha.spairinv = [(0, 0), (0x61, 0x61), (0x61, -1), (-2, 0x62)] := by decide
  refine ⟨?_, ?_, ?_, ?_⟩
  · rw [e1]
    intro s hs
    simp only [List.mem_cons, List.not_mem_nil, or_false] at hs
    rcases hs with rfl | rfl
    · exact ⟨⟨[0x6e], rfl⟩, by decide⟩
    · exact ⟨⟨[0x76], rfl⟩, by decide⟩
  · rw [e1]; decide
  · rw [e2]; decide
  · rw [e1, e2]; decide

example : exAlpha.write = .ok [2, 1, 0x40, 0x6e, 1, 0x40, 0x76, 4, 2, 2, 0x40, 0x63, 0x40, 0x63, 0x40, 0x63, 1, 0,
    0x40, 0x64] := by decide

/-- **C14** The format depends on the brackets: a tag without them is written, but another tag is read back. -/
theorem C14_needs_brackets : ∃ a bs b rest, Reachable a ∧ a.write = .ok bs ∧ read bs = (b, rest) ∧
    b.slexicinv ≠ a.slexicinv :=
  ⟨empty.includeSymbol [0x61, 0x62, 0x63], _, _, _, Relation.ReflTransGen.single (.include _ _), rfl, rfl, by decide⟩

/-- **C11** The property as stated is false, even for ASCII tags: the pairs `0:0`, `a:a`, `b:b` and the tag `<n>` are
serialised, deserialised without an error, and then `b:b` has another code than before. -/
theorem C11_serialise_false : ¬ ∀ a, Reachable a → (∀ s ∈ a.slexicinv, ∀ u ∈ s, u.toNat < 0x80) →
    ∀ b rest, deserialise a.serialise = .ok (b, rest) → ∀ x y c, a.pairCode x y = (c, a) → (b.pairCode x y).1 = c := by
  intro h
  have := h (((empty.includeSymbol tagN).pairCode 0x61 0x61).2.pairCode 0x62 0x62).2
    (((Relation.ReflTransGen.refl.tail (.include _ tagN)).tail (.pair _ 0x61 0x61)).tail (.pair _ 0x62 0x62))
    (by decide) ⟨[(tagN, -1)], [tagN], [(toLex (0, 0), 0)], [(0, 0), (0x61, 0x61), (0x62, 0x62)]⟩ [] (by decide)
    0x62 0x62 2 (by decide)
  revert this
  decide

/-- **C11** Which alphabets cannot be deserialised at all: with more tags than pairs the reader runs past the end
of the table of pairs. -/
theorem C11_more_tags_than_pairs_ub (a : Alphabet)
    (hs : a.slexicinv.length < 2 ^ 64 ∧ a.spairinv.length < 2 ^ 64)
    (ht : ∀ s ∈ a.slexicinv, s.length < 2 ^ 64 ∧ ∀ u ∈ s, u.toNat < 0x80) (rest : List UInt8) :
    deserialise (a.serialise ++ rest) = .ub ↔ a.spairinv.length < a.slexicinv.length := by
  have h1 := (Serialiser.vec_laws _ _ (Serialiser.vec_laws _ _ Serialiser.uchar_laws)).1 a.slexicinv
    ⟨hs.1, ht⟩
  have h2 := (Serialiser.vec_laws _ _ (Serialiser.pair_laws _ _ _ _ Serialiser.i32_laws Serialiser.i32_laws)).1
    (a.spairinv.map fun p => (Int32.ofInt p.1, Int32.ofInt p.2)) ⟨by simpa using hs.2, fun _ _ => ⟨trivial, trivial⟩⟩
  simp only [deserialise, serialise, List.append_assoc]
  rw [show Serialiser.ustring = Serialiser.vec Serialiser.uchar from rfl, h1, Res.bind_ok]
  simp only [h2, Res.bind_ok]
  have := indexPairs_ub a.slexicinv.length 0 ((a.spairinv.map fun p => (Int32.ofInt p.1, Int32.ofInt p.2)).map
    fun p => (p.1.toInt, p.2.toInt)) []
  simp only [List.length_map] at this
  rw [← this]
  generalize indexPairs a.slexicinv.length 0 _ _ = r
  cases r <;> simp

example : deserialise (((empty.includeSymbol tagN).includeSymbol tagV).serialise) = .ub := by decide

/-- **C11, partial** What does survive. For ASCII tags and symbols in the 32-bit range, an alphabet with at least as
many pairs as tags is deserialised; tags, their codes and the decoding of pair codes are restored; looking up a
pair works for the first pairs only, as many as there are tags; when the numbers of tags and pairs are equal the
whole alphabet is restored. Missing: tags with units of 0x80 or above (C10), and the remaining pairs. -/
theorem C11_serialise_partial (a : Alphabet) (ha : Reachable a)
    (hs : a.slexicinv.length < 2 ^ 64 ∧ a.spairinv.length < 2 ^ 64)
    (ht : ∀ s ∈ a.slexicinv, s.length < 2 ^ 64 ∧ ∀ u ∈ s, u.toNat < 0x80)
    (hp : ∀ p ∈ a.spairinv, (-2 ^ 31 ≤ p.1 ∧ p.1 < 2 ^ 31) ∧ (-2 ^ 31 ≤ p.2 ∧ p.2 < 2 ^ 31))
    (hle : a.slexicinv.length ≤ a.spairinv.length) :
    ∃ b, (∀ rest, deserialise (a.serialise ++ rest) = .ok (b, rest)) ∧
      b.slexic = a.slexic ∧ b.slexicinv = a.slexicinv ∧ b.spairinv = a.spairinv ∧
      (∀ x y c, a.pairCode x y = (c, a) → c < a.slexicinv.length → b.pairCode x y = (c, b)) ∧
      (a.slexicinv.length = a.spairinv.length → b = a) := by
  have h := ha.ok
  have h1 := (Serialiser.vec_laws _ _ (Serialiser.vec_laws _ _ Serialiser.uchar_laws)).1 a.slexicinv
    ⟨hs.1, ht⟩
  have h2 := (Serialiser.vec_laws _ _ (Serialiser.pair_laws _ _ _ _ Serialiser.i32_laws Serialiser.i32_laws)).1
    (a.spairinv.map fun p => (Int32.ofInt p.1, Int32.ofInt p.2)) ⟨by simpa using hs.2, fun _ _ => ⟨trivial, trivial⟩⟩
  have hid : (a.spairinv.map fun p => (Int32.ofInt p.1, Int32.ofInt p.2)).map (fun p => (p.1.toInt, p.2.toInt)) =
      a.spairinv := by
    rw [List.map_map]
    conv_rhs => rw [← List.map_id a.spairinv]
    refine List.map_congr_left fun p hmem => ?_
    obtain ⟨⟨q1, q2⟩, q3, q4⟩ := hp p hmem
    simp only [Function.comp, int32_back q1 q2, int32_back q3 q4, id]
  have hnd : a.spairinv.Nodup := List.Nodup.of_map _ (h.pairs.nodup pairNo_inj)
  obtain ⟨m, hm, tm⟩ := indexPairs_table a.spairinv [] [] a.slexicinv.length Table.nil (by simpa using hnd) hle
  have tt := indexTags_table a.slexicinv [] [] Table.nil (by simpa using h.tags.nodup tagNo_inj)
  simp only [List.nil_append, List.length_nil] at hm tm tt
  have et := tt.ext h.tags
  refine ⟨⟨a.slexic, a.slexicinv, m, a.spairinv⟩, fun rest => ?_, rfl, rfl, rfl, fun x y c hc hlt => ?_, fun he => ?_⟩
  · simp only [deserialise, serialise, List.append_assoc]
    rw [show Serialiser.ustring = Serialiser.vec Serialiser.uchar from rfl, h1, Res.bind_ok]
    simp only [h2, Res.bind_ok, hid, hm, et, Res.pure_eq]
  · have hp := (pairCode_spec h x y).2.2.1
    rw [hc] at hp
    obtain ⟨i, hi, rfl⟩ := hp
    have : mapFind (toLex (x, y)) m = some (i : Int) := by
      rw [tm.find]
      refine ⟨i, ?_, rfl⟩
      rw [List.getElem?_map, List.getElem?_take_of_lt (by omega), hi]
      rfl
    simp [pairCode, this]
  · rw [he, List.take_length] at tm
    rw [tm.ext h.pairs]

example : (∃ b, deserialise exAlpha.serialise = .ok (b, []) ∧ b ≠ exAlpha) ∧
    deserialise (((empty.includeSymbol tagN).serialise)) = .ok (empty.includeSymbol tagN, []) := by
  refine ⟨⟨_, rfl, by decide⟩, by decide⟩

/-- **C15** After `createLoopbackSymbols` the set contains, besides what was in it, exactly the codes that decode to
`x:x` where `x` is by name a symbol on the requested side of a pair of the basis: a letter (or the empty symbol)
if non-tags are wanted too, or the tag with the same text. Every such symbol has its code, and codes handed out
before are unchanged. -/
theorem C15_loopback (a basis : Alphabet) (ha : Reachable a) (hb : Reachable basis) (S : List Int) (sd : Side)
    (nt : Bool) (a' : Alphabet) (S' : List Int) (h : a.createLoopbackSymbols S basis sd nt = (a', S')) :
    (∀ c, c ∈ S' ↔ c ∈ S ∨ ∃ p ∈ basis.spairinv,
      (0 ≤ sd.pick p ∧ nt = true ∧ a'.decode c = .ok (sd.pick p, sd.pick p)) ∨
      (sd.pick p < 0 ∧ ∃ s y, basis.tagText (sd.pick p) = .ok s ∧ y < 0 ∧ a'.tagText y = .ok s ∧
        a'.decode c = .ok (y, y))) ∧
    (∀ p ∈ basis.spairinv,
      (0 ≤ sd.pick p ∧ nt = true → ∃ c ∈ S', a'.decode c = .ok (sd.pick p, sd.pick p)) ∧
      (∀ s, sd.pick p < 0 → basis.tagText (sd.pick p) = .ok s →
        ∃ c ∈ S', ∃ y < 0, a'.tagText y = .ok s ∧ a'.decode c = .ok (y, y))) ∧
    (∀ c p, a.decode c = .ok p → a'.decode c = .ok p) ∧
    (∀ c s, c < 0 → a.tagText c = .ok s → a'.tagText c = .ok s) := by
  have hA := ha.ok
  have hB := hb.ok
  obtain ⟨h1, h2, h3⟩ := createLoopbackSymbols_spec hA hB S sd nt
  have h4 : ∀ p ∈ basis.spairinv,
      (0 ≤ sd.pick p ∧ nt = true → ∃ c, HasPair (a.createLoopbackSymbols S basis sd nt).1 c (sd.pick p, sd.pick p)) ∧
      (∀ s, HasTag basis (sd.pick p) s → ∃ c y, HasTag (a.createLoopbackSymbols S basis sd nt).1 y s ∧
        HasPair (a.createLoopbackSymbols S basis sd nt).1 c (y, y)) := by
    intro p hp
    refine ⟨fun ⟨q1, q2⟩ => loopback_has_letter hA S sd nt p hp q1 q2, fun s hs => loopback_has_tag hA hB S sd nt p hp s hs⟩
  rw [h] at h1 h2 h3 h4
  refine ⟨fun c => ?_, fun p hp => ⟨fun hq => ?_, fun s hneg hs => ?_⟩, fun c p hc => ?_, fun c s hneg hs => ?_⟩
  · rw [h3]
    refine or_congr_right (exists_congr fun p => and_congr_right fun _ => or_congr ?_ ?_)
    · rw [decode_iff]
    · constructor
      · rintro ⟨s, y, q1, q2, q3⟩
        exact ⟨q1.neg, s, y, (tagText_iff q1.neg).2 q1, q2.neg, (tagText_iff q2.neg).2 q2, decode_iff.2 q3⟩
      · rintro ⟨q0, s, y, q1, q2, q3, q4⟩
        exact ⟨s, y, (tagText_iff q0).1 q1, (tagText_iff q2).1 q3, decode_iff.1 q4⟩
  · obtain ⟨c, hc⟩ := (h4 p hp).1 hq
    exact ⟨c, (h3 c).2 (.inr ⟨p, hp, .inl ⟨hq.1, hq.2, hc⟩⟩), decode_iff.2 hc⟩
  · have hs' := (tagText_iff hneg).1 hs
    obtain ⟨c, y, q1, q2⟩ := (h4 p hp).2 s hs'
    exact ⟨c, (h3 c).2 (.inr ⟨p, hp, .inr ⟨s, y, hs', q1, q2⟩⟩), y, q1.neg, (tagText_iff q1.neg).2 q1, decode_iff.2 q2⟩
  · exact decode_iff.2 ((decode_iff.1 hc).mono h2)
  · exact (tagText_iff hneg).2 (((tagText_iff hneg).1 hs).mono h2)

-- the basis has `<n>` and `<v>`; on the right side `<n>` and the letters a, b (and the empty symbol) occur
example : (createLoopbackSymbols (empty.includeSymbol tagV) [] exAlpha .right true).2 = [0, 1, 2, 3] ∧
    (createLoopbackSymbols (empty.includeSymbol tagV) [] exAlpha .right true).1.spairinv =
      [(0, 0), (0x61, 0x61), (0x62, 0x62), (-2, -2)] ∧
    (createLoopbackSymbols (empty.includeSymbol tagV) [] exAlpha .right true).1.slexicinv = [tagV, tagN] ∧
    (createLoopbackSymbols (empty.includeSymbol tagV) [] exAlpha .left false).2 = [1] := by decide

/-- The symbol is a tag with the text `s`. -/
def IsTagNamed (a : Alphabet) (x : Int) (s : UString) : Prop := x < 0 ∧ a.slexicinv[(-x - 1).toNat]? = some s

/-- A symbol that may be looked up: a letter, the empty symbol, or a tag of the alphabet. -/
def Valid (a : Alphabet) (x : Int) : Prop := -(a.slexicinv.length : Int) ≤ x

/-- **C16** Comparison across alphabets compares letters by value and tags by text; with wildcards a tag
`<ANY_CHAR>` on one side also matches any letter on the other, and `<ANY_TAG>` any tag. -/
theorem C16_same_symbol (a b : Alphabet) (x y : Int) (hx : Valid a x) (hy : Valid b y) (anys : Bool) :
    ∃ r, a.sameSymbol x b y anys = .ok r ∧ (r = true ↔
      (0 ≤ x ∧ x = y) ∨ (∃ s, IsTagNamed a x s ∧ IsTagNamed b y s) ∨
      (anys = true ∧ ((IsTagNamed a x anyChar ∧ 0 < y) ∨ (IsTagNamed a x anyTag ∧ y < 0) ∨
        (IsTagNamed b y anyChar ∧ 0 < x) ∨ (IsTagNamed b y anyTag ∧ x < 0)))) := by
  have look : ∀ (c : Alphabet) (z : Int), Valid c z → z < 0 → ∃ t, c.tagText z = .ok t ∧
      c.slexicinv[(-z - 1).toNat]? = some t := by
    intro c z hz hneg
    have hlt : (-z - 1).toNat < c.slexicinv.length := by unfold Valid at hz; omega
    exact ⟨_, by rw [tagText, List.getElem?_eq_getElem hlt], List.getElem?_eq_getElem hlt⟩
  unfold sameSymbol textIs orElse IsTagNamed
  rcases lt_or_ge x 0 with hx0 | hx0 <;> rcases lt_or_ge y 0 with hy0 | hy0
  · obtain ⟨t, ht, ht'⟩ := look a x hx hx0
    obtain ⟨u, hu, hu'⟩ := look b y hy hy0
    have n1 : ¬ (0 : Int) ≤ x := by omega
    have n2 : ¬ (0 : Int) < x := by omega
    have n3 : ¬ (0 : Int) < y := by omega
    simp only [ht, hu, ht', hu', hx0, hy0, n1, n2, n3, false_and, and_self, if_true, if_false, Res.bind_ok,
      Res.pure_eq, decide_false, Bool.and_false, decide_true, Bool.and_true, true_and, and_true, and_false,
      Option.some.injEq, false_or]
    have e : (∃ s, t = s ∧ u = s) ↔ t = u := ⟨fun ⟨s, h1, h2⟩ => h1.trans h2.symm, fun h => ⟨u, h, rfl⟩⟩
    rw [e]
    by_cases htu : t = u
    · subst htu
      simp
    · cases anys <;> by_cases h1 : t = anyTag <;> by_cases h2 : u = anyTag <;> simp [htu, h1, h2]
      exact (em _).symm
  · obtain ⟨t, ht, ht'⟩ := look a x hx hx0
    have n1 : ¬ (0 : Int) ≤ x := by omega
    have n2 : ¬ (0 : Int) < x := by omega
    have n3 : ¬ y < 0 := by omega
    simp only [ht, ht', hx0, n1, n2, n3, false_and, and_self, if_true, if_false, Res.bind_ok,
      Res.pure_eq, decide_false, Bool.and_false, true_and, and_true, and_false,
      Option.some.injEq, false_or, or_false, exists_false]
    cases anys <;> by_cases h1 : t = anyChar <;> by_cases h2 : 0 < y <;> simp [h1, h2]
  · obtain ⟨u, hu, hu'⟩ := look b y hy hy0
    have n1 : ¬ (0 : Int) < y := by omega
    have n2 : ¬ x < 0 := by omega
    have n3 : ¬ x = y := by omega
    simp only [hu, hu', hy0, n1, n2, n3, false_and, and_self, if_true, if_false, Res.bind_ok,
      Res.pure_eq, decide_false, Bool.and_false, true_and, and_true, and_false,
      Option.some.injEq, false_or, or_false, exists_false]
    cases anys <;> by_cases h1 : u = anyChar <;> by_cases h2 : 0 < x <;> simp [h1, h2]
  · have n1 : ¬ x < 0 := by omega
    have n2 : ¬ y < 0 := by omega
    simp only [n1, n2, hx0, false_and, and_self, if_false, Res.bind_ok, Res.pure_eq, true_and, and_false,
      or_false, exists_false]
    cases anys <;> by_cases h1 : x = y <;> simp [h1]

/-- **C16** Within one alphabet and without wildcards, comparison of valid symbols is equality. -/
theorem C16_same_alphabet (a : Alphabet) (ha : Reachable a) (x y : Int) (hx : Valid a x) (hy : Valid a y) :
    a.sameSymbol x a y false = .ok (decide (x = y)) := by
  obtain ⟨r, h1, h2⟩ := C16_same_symbol a a x y hx hy false
  rw [h1]
  congr 1
  rw [Bool.eq_iff_iff, h2, decide_eq_true_iff]
  simp only [Bool.false_eq_true, false_and, or_false]
  constructor
  · rintro (⟨_, rfl⟩ | ⟨s, ⟨n1, e1⟩, n2, e2⟩)
    · rfl
    · have := ha.ok.tags.inj tagNo_inj e1 e2; omega
  · rintro rfl
    rcases lt_or_ge x 0 with h | h
    · have hlt : (-x - 1).toNat < a.slexicinv.length := by unfold Valid at hx; omega
      exact .inr ⟨_, ⟨h, List.getElem?_eq_getElem hlt⟩, h, List.getElem?_eq_getElem hlt⟩
    · exact .inl ⟨h, rfl⟩

example : Valid exAlpha (-2) ∧ Valid ((empty.includeSymbol tagV).includeSymbol anyChar) (-1) ∧
    exAlpha.sameSymbol (-2) ((empty.includeSymbol tagV).includeSymbol anyChar) (-1) false = .ok true ∧
    exAlpha.sameSymbol (-1) ((empty.includeSymbol tagV).includeSymbol anyChar) (-1) false = .ok false ∧
    exAlpha.sameSymbol 0x61 ((empty.includeSymbol tagV).includeSymbol anyChar) (-2) true = .ok true ∧
    exAlpha.sameSymbol 0 ((empty.includeSymbol tagV).includeSymbol anyChar) (-2) true = .ok false := by
  unfold Valid; decide

/-- **C17** Splitting a text whose following unit is not a backslash always succeeds, and no piece is empty; putting
a backslash back before some of the pieces, and one more at the end if the text ends in a lone backslash, gives
the text. -/
theorem C17_split_loses_nothing (past : UInt16) (hp : past ≠ 0x5c) (s : UString) :
    ∃ ps, pieces past s = .ok ps ∧ (∀ p ∈ ps, p ≠ []) ∧ ∃ es : List (Bool × UString), es.map (·.2) = ps ∧
      let text := es.flatMap (fun e => if e.1 then 0x5c :: e.2 else e.2)
      s = text ∨ s = text ++ [0x5c] := by
  obtain ⟨h1, h2⟩ := piecesLoop_spec past s.length s (Nat.le_refl _)
  obtain ⟨ps, hps⟩ := h1 hp
  exact ⟨ps, hps, h2 ps hps⟩

example : pieces 0 [0x5c, 0x3c, 0x61, 0x3c, 0x6e, 0x3e, 0x3c, 0x62, 0xd83d, 0xde00, 0x5c] =
    .ok [[0x3c], [0x61], [0x3c, 0x6e, 0x3e], [0x3c], [0x62], [0xd83d, 0xde00]] := by decide

/-- **C17** The condition on the following unit is needed: a view that is followed by a backslash in its buffer,
like the `a` in `a\n`, makes the loop throw. -/
theorem C17_view_before_backslash (u : UInt16) (h1 : u ≠ 0x5c) (h2 : u ≠ 0x3c) :
    pieces 0x5c [u] = .exception := by
  simp [pieces, piecesLoop, nextPiece, h1, h2, nextLen]

/-- What `tokenize` should return for a symbol. -/
def Sym.code (a : Alphabet) : Sym → Int
  | .letter u _ => u.toNat
  | .tag t => a.symCode t

/-- **C17, partial** Tokenising the escaped text of a sequence of letters of the basic plane and tags of the alphabet
gives back the sequence. Missing: letters beyond the basic plane (see below). -/
theorem C17_tokenize_partial (a : Alphabet) (ha : Reachable a) (past : UInt16) (hp : past ≠ 0x5c) (xs : List Sym)
    (h : ∀ x ∈ xs, x.Writable) (ht : ∀ t, .tag t ∈ xs → a.isSymbolDefined t = true) :
    tokenize past a (xs.flatMap Sym.text) = .ok (xs.map (Sym.code a)) := by
  have hps := pieces_syms past hp xs h _ (Nat.le_refl _)
  simp only [tokenize, pieces, hps, Res.bind_ok, Res.pure_eq, Res.ok.injEq, List.map_map]
  refine List.map_congr_left fun x hx => ?_
  cases x with
  | letter u e => rfl
  | tag t =>
    obtain ⟨i, hi, _⟩ := h _ hx
    obtain ⟨c, hc⟩ := Option.isSome_iff_exists.1 (ht t hx)
    have hc' := (hasTag_find ha.ok).1 hc
    simp only [Function.comp, Sym.piece, Sym.code]
    rw [symCode_of_hasTag ha.ok hc', ← symCodeConst_of_hasTag ha.ok hc', hi]
    cases i <;> rfl

example : tokenize 0 exAlpha ([Sym.letter 0x3c true, .tag tagV, .letter 0x61 false, .letter 0x5c true, .tag tagN,
    .letter 0x3e false].flatMap Sym.text) = .ok [0x3c, -2, 0x61, 0x5c, -1, 0x3e] := by decide

/-- **C17** For letters beyond the basic plane the property is false: a surrogate pair is a piece of two units, so it
is looked up as a tag and tokenised to -1 in every alphabet that does not happen to have it as a tag; -1 is the
code of the first tag. -/
theorem C17_tokenize_false (a : Alphabet) (u v : UInt16) (hu : isLead u = true) (hv : isTrail v = true)
    (hn : a.isSymbolDefined [u, v] = false) : tokenize 0 a [u, v] = .ok [-1] := by
  have h1 : u ≠ 0x5c := by rintro rfl; revert hu; decide
  have h2 : u ≠ 0x3c := by rintro rfl; revert hu; decide
  have h3 : mapFind [u, v] a.slexic = none := by simpa [isSymbolDefined] using hn
  simp [tokenize, pieces, piecesLoop, nextPiece, h1, h2, nextLen, hu, hv, symCodeConst, h3]

/-- **C17** Likewise an unknown tag is tokenised to the code of the first tag. -/
theorem C17_unknown_tag (a : Alphabet) (i : UString) (hi : (0x3e : UInt16) ∉ i)
    (hn : a.isSymbolDefined (0x3c :: i ++ [0x3e]) = false) : tokenize 0 a (0x3c :: i ++ [0x3e]) = .ok [-1] := by
  have hps := pieces_syms 0 (by decide) [.tag (0x3c :: i ++ [0x3e])] (by
    intro x hx
    simp only [List.mem_singleton] at hx
    subst hx
    exact ⟨i, rfl, hi⟩) _ (Nat.le_refl _)
  simp only [List.flatMap_cons, List.flatMap_nil, Sym.text, List.append_nil] at hps
  have h3 : mapFind (0x3c :: i ++ [0x3e]) a.slexic = none := by simpa [isSymbolDefined] using hn
  simp only [tokenize, pieces, hps, Res.bind_ok, Res.pure_eq, List.map_cons, List.map_nil, Sym.piece]
  cases i with
  | nil => simp only [List.cons_append, List.nil_append, symCodeConst] at h3 ⊢; rw [h3]; rfl
  | cons w i => simp only [List.cons_append, symCodeConst] at h3 ⊢; rw [h3]; rfl

example : isLead 0xd83d = true ∧ isTrail 0xde00 = true ∧ exAlpha.isSymbolDefined [0xd83d, 0xde00] = false ∧
    exAlpha.tagText (-1) = .ok tagN := by decide

/-! ## C61 -/

theorem mem_leftFold (l : Int) (ps : List (Lex Pair × Int)) (acc : List Int) (x : Int) :
    x ∈ ps.foldl (fun acc e => if (ofLex e.1).1 = l then setInsert e.2 acc else acc) acc ↔
      x ∈ acc ∨ ∃ e ∈ ps, (ofLex e.1).1 = l ∧ x = e.2 := by
  induction ps generalizing acc with
  | nil => simp
  | cons e ps ih =>
    rw [List.foldl_cons, ih]
    by_cases h : (ofLex e.1).1 = l
    · rw [if_pos h, mem_setInsert]
      constructor
      · rintro ((rfl | h1) | ⟨e', h1, h2⟩)
        · exact .inr ⟨e, by simp, h, rfl⟩
        · exact .inl h1
        · exact .inr ⟨e', by simp [h1], h2⟩
      · rintro (h1 | ⟨e', h1, h2⟩)
        · exact .inl (.inr h1)
        · rcases List.mem_cons.1 h1 with rfl | h1
          · exact .inl (.inl h2.2)
          · exact .inr ⟨e', h1, h2⟩
    · rw [if_neg h]
      constructor
      · rintro (h1 | ⟨e', h1, h2⟩)
        · exact .inl h1
        · exact .inr ⟨e', by simp [h1], h2⟩
      · rintro (h1 | ⟨e', h1, h2⟩)
        · exact .inl h1
        · rcases List.mem_cons.1 h1 with rfl | h1
          · exact absurd h2.1 h
          · exact .inr ⟨e', h1, h2⟩

theorem mem_symbolsWhereLeftIs {a : Alphabet} (ha : Ok a) (l x : Int) : x ∈ a.symbolsWhereLeftIs l ↔ ∃ r, a.decode x = .ok (l, r) := by
  unfold symbolsWhereLeftIs
  rw [mem_leftFold]
  simp only [List.not_mem_nil, false_or, decode_iff]
  constructor
  · rintro ⟨e, h1, h2, rfl⟩
    refine ⟨(ofLex e.1).2, ?_⟩
    rw [← hasPair_find ha]
    have he : toLex (l, (ofLex e.1).2) = e.1 := by rw [← h2]; rfl
    rw [he]
    exact mapFind_of_mem ha.pairs.sorted h1
  · rintro ⟨r, h⟩
    rw [← hasPair_find ha] at h
    exact ⟨_, mapFind_mem h, rfl, rfl⟩

/-- **C61** `symbolsWhereLeftIs` lists exactly the codes that decode to a pair with the given left side, each once
and in increasing order. -/
theorem C61_symbols_where_left_is (a : Alphabet) (ha : Reachable a) (l : Int) :
    (∀ x, x ∈ a.symbolsWhereLeftIs l ↔ ∃ r, a.decode x = .ok (l, r)) ∧ (a.symbolsWhereLeftIs l).Pairwise (· < ·) := by
  constructor
  · exact mem_symbolsWhereLeftIs ha.ok l
  · unfold symbolsWhereLeftIs
    have : ∀ (ps : List (Lex Pair × Int)) (acc : List Int), acc.Pairwise (· < ·) →
        (ps.foldl (fun acc e => if (ofLex e.1).1 = l then setInsert e.2 acc else acc) acc).Pairwise (· < ·) := by
      intro ps
      induction ps with
      | nil => intro acc h; exact h
      | cons e ps ih =>
        intro acc h
        rw [List.foldl_cons]
        refine ih _ ?_
        split
        · exact sorted_setInsert h _
        · exact h
    exact this _ _ List.Pairwise.nil

/-- Two of the pairs of the example have `a` on their left. -/
example : Reachable exAlpha ∧ exAlpha.symbolsWhereLeftIs 0x61 = [1, 2] ∧ exAlpha.symbolsWhereLeftIs 0x7a = [] :=
  ⟨exAlpha_reachable, by decide, by decide⟩

end Verif.Alphabet
