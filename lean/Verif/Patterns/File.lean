import Verif.Patterns.Labels
import Verif.BinIO.Props
import Mathlib.Order.Interval.Finset.Basic
import Mathlib.Data.Int.Interval

/-! # Lists of patterns in files -/

namespace Verif.Patterns

open Verif.Fst
open Verif.Compression
open Verif.BinIO (mbi)

/-! ## Model -/

/-- `u"tagger"` (pattern_list.cc:364). -/
def tagger : UString := [0x74, 0x61, 0x67, 0x67, 0x65, 0x72]

/-- The loop over `final_type` (pattern_list.cc:372-377). -/
def writeTypes : List (Nat × Int) → Res (List UInt8)
  | [] => .ok []
  | (q, r) :: fs => do
    let a ← mbi q
    let b ← mbi r
    let c ← writeTypes fs
    pure (a ++ b ++ c)

/-- `PatternList::write` (pattern_list.cc:360-378). -/
def write (l : PatternList Dbl) : Res (List UInt8) := do
  let a ← l.alphabet.write
  let one ← mbi 1
  let name ← Alphabet.sw tagger
  let t ← BinIO.write l.alphabet.size l.transducer
  let n ← mbi l.finalType.length
  let fs ← writeTypes l.finalType
  pure (a ++ one ++ name ++ t ++ n ++ fs)

/-- The loop for `final_type` (pattern_list.cc:393-397). A number read is below 2^30, so that it is the same as `int`. -/
def readTypes : Nat → List (Nat × Int) → List UInt8 → List (Nat × Int) × List UInt8
  | 0, fs, s => (fs, s)
  | n + 1, fs, s =>
    let (q, s) := multibyteRead s
    let (r, s) := multibyteRead s
    readTypes n (mapSet q.toNat (r.toNat : Int) fs) s

/-- `PatternList::read` (pattern_list.cc:380-399). The name is not compared, the patterns of the list stay. -/
def read (l : PatternList Dbl) (s : List UInt8) : Res (PatternList Dbl × List UInt8) := do
  let (a, s) := Alphabet.read s
  let (one, s) := multibyteRead s
  if one = 1 then
    let (_, s) := stringRead s
    let (t, s) ← BinIO.read a.size s
    let (n, s) := multibyteRead s
    let (fs, s) := readTypes n.toNat [] s
    pure ({ l with sequence := false, alphabet := a, transducer := t, finalType := fs }, s)
  else pure ({ l with sequence := false, alphabet := a, finalType := [] }, s)

/-! ## Round trip -/

theorem ofInt_small {i : Int} (h0 : 0 ≤ i) (h : i < 2 ^ 30) : ((UInt32.ofInt i).toNat : Int) = i := by
  obtain ⟨n, rfl⟩ := Int.eq_ofNat_of_zero_le h0
  have : UInt32.ofInt (n : Int) = UInt32.ofNat n := by
    simp only [UInt32.ofInt]
    congr 1
    omega
  rw [this, UInt32.toNat_ofNat']
  have : n < 2 ^ 30 := by omega
  omega

theorem types_roundtrip : ∀ (fs : List (Nat × Int)), (∀ e ∈ fs, e.1 < 2 ^ 30 ∧ 0 ≤ e.2 ∧ e.2 < 2 ^ 30) → SortedKeys fs →
    ∃ bs, writeTypes fs = .ok bs ∧ ∀ done rest, (∀ e ∈ done, ∀ f ∈ fs, e.1 < f.1) → readTypes fs.length done (bs ++ rest) = (done ++ fs, rest)
  | [], _, _ => ⟨[], rfl, fun done rest _ => by simp [readTypes]⟩
  | (q, r) :: fs, h, hs => by
    have hs' := List.pairwise_cons.1 hs
    obtain ⟨c, g1, g2⟩ := types_roundtrip fs (fun e he => h e (List.mem_cons_of_mem _ he)) hs'.2
    obtain ⟨h1, h2, h3⟩ := h (q, r) (List.mem_cons_self ..)
    simp only at h1 h2 h3
    obtain ⟨a, k1, k2⟩ := BinIO.mbi_ok (q : Int) (by omega) (by omega)
    obtain ⟨b, j1, j2⟩ := BinIO.mbi_ok r h2 h3
    refine ⟨a ++ b ++ c, by rw [writeTypes, k1, j1, g1]; rfl, ?_⟩
    intro done rest hd
    have hq : (UInt32.ofInt (q : Int)).toNat = q := by
      have := ofInt_small (i := (q : Int)) (by omega) (by omega)
      omega
    simp only [List.length_cons, readTypes, List.append_assoc, k2, j2]
    rw [hq, ofInt_small h2 h3]
    have hset : mapSet q r done = done ++ [(q, r)] := by
      have hd' : ∀ e ∈ done, e.1 < q := fun e he => hd e he (q, r) (List.mem_cons_self ..)
      clear hd
      induction done with
      | nil => rfl
      | cons e done ih =>
        obtain ⟨k, v⟩ := e
        have hk := hd' (k, v) (List.mem_cons_self ..)
        simp only at hk
        rw [mapSet, if_neg (by omega), if_pos hk, ih (fun e he => hd' e (List.mem_cons_of_mem _ he))]
        rfl
    rw [hset, g2]
    · simp
    · intro e he f hf
      rcases List.mem_append.1 he with he | he
      · exact hd e he f (List.mem_cons_of_mem _ hf)
      · rw [List.mem_singleton.1 he]; exact hs'.1 f hf

/-- **C87** A list of patterns that is in the range of the format is written, and read back, in any context and into any list, with the same alphabet, the same
transducer and the same numbers of its states; and so the same automaton is made of it. -/
theorem C87_roundtrip (l : PatternList Dbl) (ha : l.alphabet.Ok) (hw : l.alphabet.Writable) (ht : WF l.transducer) (hr : BinIO.InRange l.alphabet.size l.transducer)
    (hx : ∀ q c w p, Edge l.transducer q (c, w) p → BinIO.Exact w) (hf : ∀ q w, Final l.transducer q w → BinIO.Exact w)
    (hs : SortedKeys l.finalType) (hn : l.finalType.length < 2 ^ 30) (ht2 : ∀ e ∈ l.finalType, e.1 < 2 ^ 30 ∧ 0 ≤ e.2 ∧ e.2 < 2 ^ 30) :
    ∃ bs, write l = .ok bs ∧ ∀ (l0 : PatternList Dbl) rest, ∃ l', read l0 (bs ++ rest) = .ok (l', rest) ∧
      l'.alphabet = l.alphabet ∧ l'.transducer = l.transducer ∧ l'.finalType = l.finalType ∧ l'.sequence = false ∧ l'.patterns = l0.patterns ∧
      newMatchExe l' = newMatchExe l := by
  obtain ⟨a, a1, a2⟩ := Alphabet.binary_roundtrip ha hw
  obtain ⟨b, b1, b2⟩ := BinIO.mbi_ok 1 (by decide) (by decide)
  obtain ⟨c, c1, c2⟩ := C04_string_roundtrip_units tagger (by decide)
  obtain ⟨d, d1, d2⟩ := BinIO.C36_exact l.alphabet.size l.transducer ht hr hx hf
  obtain ⟨e, e1, e2⟩ := BinIO.mbi_ok (l.finalType.length : Int) (by omega) (by omega)
  obtain ⟨f, f1, f2⟩ := types_roundtrip l.finalType ht2 hs
  have c1' : Alphabet.sw tagger = .ok c := by unfold Alphabet.sw; rw [c1]
  refine ⟨a ++ b ++ c ++ d ++ e ++ f, ?_, ?_⟩
  · unfold write
    rw [a1, b1, c1', d1, e1, f1]
    rfl
  · intro l0 rest
    refine ⟨{ l0 with sequence := false, alphabet := l.alphabet, transducer := l.transducer, finalType := l.finalType }, ?_, rfl, rfl, rfl, rfl, rfl, rfl⟩
    have hlen : (UInt32.ofInt (l.finalType.length : Int)).toNat = l.finalType.length := by
      have := ofInt_small (i := (l.finalType.length : Int)) (by omega) (by omega)
      omega
    unfold read
    simp only [List.append_assoc, a2, b2]
    rw [if_pos (by decide)]
    simp only [c2]
    rw [d2]
    simp only [Res.bind_ok, e2, hlen]
    rw [f2 [] rest (by simp)]
    rfl

/-! ## Lists made by a user -/

section
variable {W : Type}

/-- All tags are in brackets, and there are no pairs but the first. -/
def Plainly (a : Alphabet) : Prop := (∀ s ∈ a.slexicinv, Alphabet.Bracketed s) ∧ a.spairinv = [(0, 0)]

theorem plainly_include {a : Alphabet} (h : Plainly a) (t : UString) : Plainly (a.includeSymbol ([0x3c] ++ t ++ [0x3e])) := by
  unfold Alphabet.includeSymbol
  split
  · exact h
  · refine ⟨fun s hs => ?_, h.2⟩
    simp only [List.mem_append, List.mem_singleton] at hs
    rcases hs with hs | rfl
    · exact h.1 s hs
    · exact ⟨t, rfl⟩

theorem tagSymbols_plainly {tags : UString} : ∀ (n : Nat) (i : Int) (a a' : Alphabet) (xs : List Int), tagSymbols tags n i a = .ok (a', xs) → Plainly a → Plainly a'
  | 0, i, a, a', xs, h, ha => by cases h; exact ha
  | n + 1, i, a, a', xs, h, ha => by
    rw [tagSymbols] at h
    obtain ⟨p, -, h⟩ := Res.bind_eq_ok.1 h
    simp only at h
    obtain ⟨⟨b, ys⟩, h1, h2⟩ := Res.bind_eq_ok.1 h
    cases h2
    refine tagSymbols_plainly n _ _ _ _ h1 ?_
    split
    · exact ha
    · exact plainly_include ha p

theorem wordSymbols_plainly {lemma_ tags : UString} {a a' : Alphabet} {xs : List Int} (h : wordSymbols lemma_ tags a = .ok (a', xs)) (ha : Plainly a) : Plainly a' := by
  unfold wordSymbols at h
  simp only at h
  split at h
  · cases h; exact ha
  · obtain ⟨⟨b, ys⟩, h1, h2⟩ := Res.bind_eq_ok.1 h
    cases h2
    exact tagSymbols_plainly _ _ _ _ _ h1 ha

theorem extendAll_plainly {lemma_ tags : UString} : ∀ (vs : List (List Int)) (a a' : Alphabet) (ws : List (List Int)), extendAll lemma_ tags vs a = .ok (a', ws) → Plainly a → Plainly a'
  | [], a, a', ws, h, ha => by cases h; exact ha
  | v :: vs, a, a', ws, h, ha => by
    rw [extendAll] at h
    obtain ⟨⟨b, ys⟩, h1, h2⟩ := Res.bind_eq_ok.1 h
    obtain ⟨⟨b', ys'⟩, h3, h4⟩ := Res.bind_eq_ok.1 h2
    cases h4
    exact extendAll_plainly vs _ _ _ h3 (wordSymbols_plainly h1 ha)

theorem insert_plainly {id : Int} {lemma_ tags : UString} {l l' : PatternList W} (h : insert id lemma_ tags l = .ok l') (ha : Plainly l.alphabet) : Plainly l'.alphabet := by
  unfold insert insertIntoSequence at h
  split at h
  · split at h
    · obtain ⟨⟨b, ys⟩, h1, h2⟩ := Res.bind_eq_ok.1 h
      cases h2
      exact wordSymbols_plainly h1 ha
    · obtain ⟨⟨b, ys⟩, h1, h2⟩ := Res.bind_eq_ok.1 h
      cases h2
      exact extendAll_plainly _ _ _ _ h1 ha
  · obtain ⟨⟨b, ys⟩, h1, h2⟩ := Res.bind_eq_ok.1 h
    cases h2
    exact wordSymbols_plainly h1 ha

theorem insertItems_plainly {id : Int} : ∀ (its : List Item) (l l' : PatternList W), insertItems id its l = .ok l' → Plainly l.alphabet → Plainly l'.alphabet
  | [], l, l', h, ha => by cases h; exact ha
  | it :: its, l, l', h, ha => by
    obtain ⟨l1, h1, h2⟩ := Res.bind_eq_ok.1 h
    exact insertItems_plainly its l1 l' h2 (insert_plainly h1 ha)

theorem perform_plainly {o : Op} {l l' : PatternList W} (h : o.perform l = .ok l') (ha : Plainly l.alphabet) : Plainly l'.alphabet := by
  cases o with
  | word id it => exact insert_plainly h ha
  | sequence id its =>
    obtain ⟨l1, h1, h2⟩ := Res.bind_eq_ok.1 h
    obtain ⟨l2, h3, h4⟩ := Res.bind_eq_ok.1 h2
    unfold beginSequence at h1
    split at h1
    · cases h1
    · cases h1
      have := insertItems_plainly its _ _ h3 ha
      unfold endSequence at h4
      split at h4
      · cases h4; exact this
      · cases h4

theorem performAll_plainly : ∀ (os : List Op) (l l' : PatternList W), performAll os l = .ok l' → Plainly l.alphabet → Plainly l'.alphabet
  | [], l, l', h, ha => by cases h; exact ha
  | o :: os, l, l', h, ha => by
    obtain ⟨l1, h1, h2⟩ := Res.bind_eq_ok.1 h
    exact performAll_plainly os l1 l' h2 (perform_plainly h1 ha)

theorem plainly_new [Zero W] : Plainly (PatternList.new : PatternList W).alphabet := by
  have h0 : Plainly Alphabet.empty := ⟨fun s hs => (by cases hs), rfl⟩
  have h1 := plainly_include h0 [0x41, 0x4e, 0x59, 0x5f, 0x54, 0x41, 0x47]
  have h2 := plainly_include h1 [0x41, 0x4e, 0x59, 0x5f, 0x43, 0x48, 0x41, 0x52]
  exact plainly_include h2 [0x51, 0x55, 0x45, 0x55, 0x45]

/-- The symbols that a pattern may have: codes of tags, and characters. -/
def Symbol (a : Alphabet) (x : Int) : Prop := -(a.size : Int) ≤ x ∧ x < 65536

theorem symbol_tag {a : Alphabet} (ha : a.Ok) {x : Int} {s : UString} (h : a.HasTag x s) : Symbol a x := by
  obtain ⟨i, hi, rfl⟩ := h
  have : i < a.slexicinv.length := (List.getElem?_eq_some_iff.1 hi).1
  have hl : a.size = a.slexicinv.length := ha.tags.len
  unfold Symbol Alphabet.tagNo
  rw [hl]
  omega

theorem symbol_item {a : Alphabet} {c : Codes} (ha : a.Ok) (hm : Marks a c) {it : Item} (hk : Known a it) : ∀ x ∈ itemSyms a it, Symbol a x := by
  obtain ⟨m1, m2, -⟩ := hm.codes ha
  intro x hx
  unfold itemSyms at hx
  rw [m1, m2] at hx
  rcases List.mem_append.1 hx with hx | hx
  · split at hx
    · rw [List.mem_singleton.1 hx]; exact symbol_tag ha hm.char
    · obtain ⟨u, -, rfl⟩ := List.mem_map.1 hx
      split
      · exact symbol_tag ha hm.char
      · have := u.toNat_lt
        unfold Symbol
        omega
  · split at hx
    · rw [List.mem_singleton.1 hx]; exact symbol_tag ha hm.tag
    · obtain ⟨t, ht, rfl⟩ := List.mem_map.1 hx
      unfold tagSym
      split
      · rw [m2]; exact symbol_tag ha hm.tag
      · next hn =>
        obtain ⟨k, hk⟩ := hk t ht hn
        rw [Alphabet.symCode_of_hasTag ha hk]
        exact symbol_tag ha hk

theorem mem_joined : ∀ (xs : List (List Int)) (y : Int), y ∈ joined xs → y = 0x2b ∨ ∃ x ∈ xs, y ∈ x
  | [], y, h => by cases h
  | [x], y, h => .inr ⟨x, by simp, h⟩
  | x :: z :: xs, y, h => by
    have e : joined (x :: z :: xs) = x ++ 0x2b :: joined (z :: xs) := rfl
    rw [e] at h
    rcases List.mem_append.1 h with h | h
    · exact .inr ⟨x, by simp, h⟩
    · rcases List.mem_cons.1 h with h | h
      · exact .inl h
      · rcases mem_joined (z :: xs) y h with h | ⟨v, hv, h⟩
        · exact .inl h
        · exact .inr ⟨v, List.mem_cons_of_mem _ hv, h⟩

theorem symbol_vector {a : Alphabet} {c : Codes} (ha : a.Ok) (hm : Marks a c) {its : List Item} (hk : ∀ it ∈ its, Known a it) : ∀ x ∈ vector a its, Symbol a x := by
  intro x hx
  unfold vector at hx
  rcases List.mem_append.1 hx with hx | hx
  · rcases mem_joined _ _ hx with rfl | ⟨v, hv, h⟩
    · unfold Symbol; omega
    · obtain ⟨it, hit, rfl⟩ := List.mem_map.1 hv
      exact symbol_item ha hm (hk it hit) x h
  · rw [List.mem_singleton.1 hx, (hm.codes ha).2.2]
    exact symbol_tag ha hm.queue

theorem mem_norm {c : Codes} {v : List Int} {x : Int} (h : x ∈ norm c v) : x ∈ v := by
  induction v using List.reverseRecOn with
  | nil => cases h
  | append_singleton v y ih =>
    rw [norm_snoc] at h
    unfold push at h
    split at h
    · exact List.mem_append.2 (.inl (ih h))
    · rcases List.mem_append.1 h with h | h
      · exact List.mem_append.2 (.inl (ih h))
      · exact List.mem_append.2 (.inr h)

theorem go_symbol {a : Alphabet} {c : Codes} (ha : a.Ok) (hm : Marks a c) {ps : List (Int × List Int)} (hp : ∀ e ∈ ps, ∀ x ∈ e.2, Symbol a x) {u n : List Int} {x : Int}
    (h : Go c (Begins c ps) u x n) : Symbol a x := by
  have hb : ∀ u, Begins c ps u → ∀ x ∈ u, Symbol a x := by
    rintro u ⟨e, he, v, hv, rfl⟩ x hx
    exact hp e he x (hv.subset (mem_norm hx))
  cases h with
  | plain _ h => exact hb _ h x (by simp)
  | any _ h => exact hb _ h x (by simp)
  | loop _ h => exact hb _ h x (by simp)
  | queue h _ => unfold Opener at h; unfold Symbol; omega
  | more h => exact symbol_tag ha hm.char
  | skip _ h => exact hb _ h x (by simp)

theorem row_length {a : Alphabet} {r : Row W} (hs : r.Pairwise fun a b => a.1 < b.1) (h : ∀ x ∈ r, Symbol a x.1) : r.length ≤ a.size + 65536 := by
  have hnd : (r.map (·.1)).Nodup := by
    rw [List.nodup_iff_pairwise_ne, List.pairwise_map]
    exact hs.imp fun h => ne_of_lt h
  have hsub : (r.map (·.1)).toFinset ⊆ Finset.Icc (-(a.size : Int)) 65535 := by
    intro x hx
    rw [List.mem_toFinset] at hx
    obtain ⟨e, he, rfl⟩ := List.mem_map.1 hx
    have := h e he
    unfold Symbol at this
    rw [Finset.mem_Icc]
    omega
  have := Finset.card_le_card hsub
  rw [List.toFinset_card_of_nodup hnd, List.length_map, Int.card_Icc] at this
  omega

end

/-- **C87** The lists that a user makes, with fewer than 2^28 tags and 2^30 states, numbers from 0 to 2^30 - 1 and tags of fewer than 2^30 units: they are written after
`buildTransducer`, and the list that is read makes the same automaton. -/
theorem C87_user (os : List Op) (hf : ∀ o ∈ os, (∀ it ∈ o.entry.2, it.Fine) ∧ o.entry.2 ≠ []) (hid : ∀ o ∈ os, 0 ≤ o.entry.1 ∧ o.entry.1 < 2 ^ 30) :
    ∃ l l', performAll os (PatternList.new : PatternList Dbl) = .ok l ∧ buildTransducer l = .ok l' ∧
      (size l'.transducer < 2 ^ 30 → l'.alphabet.size < 2 ^ 28 → (∀ s ∈ l'.alphabet.slexicinv, s.length < 2 ^ 30) →
        ∃ bs, write l' = .ok bs ∧ ∀ (l0 : PatternList Dbl) rest, ∃ l1, read l0 (bs ++ rest) = .ok (l1, rest) ∧ l1.alphabet = l'.alphabet ∧
          ∃ m, newMatchExe l' = .ok m ∧ newMatchExe l1 = .ok m) := by
  obtain ⟨c, h0⟩ := holds_new (W := Dbl)
  obtain ⟨l, h1, h2⟩ := performAll_ok os _ _ h0 hf
  rw [List.nil_append] at h2
  have hpl := performAll_plainly os _ _ h1 plainly_new
  have hcodes := h2.marks.codesOf h2.ok
  have hmem : ∀ e ∈ os.map Op.entry, ∃ o ∈ os, o.entry = e := fun e he => List.mem_map.1 he
  have hids : ∀ e ∈ l.patterns, 0 ≤ e.1 ∧ e.1 < 2 ^ 30 := by
    rintro ⟨id, v⟩ he
    obtain ⟨its, k1, -⟩ := (h2.mem id v).1 he
    obtain ⟨o, ho, hoe⟩ := hmem _ k1
    have := hid o ho
    rw [hoe] at this
    exact this
  have htidy : Tidy c l.patterns := h2.tidy (by
    intro e he
    obtain ⟨o, ho, rfl⟩ := hmem _ he
    exact hf o ho)
  have hC := htidy.clear h2.marks.ok
  obtain ⟨⟨t, f⟩, name, g1, g2⟩ := buildAll_ok hC l.patterns _ _ [] (start c (Begins c l.patterns) (W := Dbl)) (by simpa using h2.sorted) (fun e he z hz => ⟨e, he, z, hz, rfl⟩)
  rw [List.nil_append] at g2
  obtain ⟨t', f', k1, m, k2, -⟩ := C85_build (W := Dbl) h2.marks.ok l.patterns h2.sorted (fun e he => by have := hids e he; omega) htidy
  rw [g1] at k1
  cases k1
  have hI := g2.base.inv
  simp only at hI
  refine ⟨l, { l with transducer := t, finalType := f }, h1, ?_, ?_⟩
  · unfold buildTransducer
    rw [hcodes, h2.fresh.1, h2.fresh.2, g1]
    rfl
  simp only
  intro hsz hal htags
  have hsym : ∀ q x w p, Edge t q (x, w) p → w = 0 ∧ Symbol l.alphabet x := by
    intro q x w p he
    obtain ⟨j1, j2⟩ := hI.arcs _ _ _ he
    refine ⟨j1, go_symbol h2.ok h2.marks ?_ j2⟩
    rintro ⟨id, v⟩ hv x hx
    obtain ⟨its, i1, rfl⟩ := (h2.mem id v).1 hv
    exact symbol_vector h2.ok h2.marks (h2.known _ i1) x hx
  have hfin : ∀ q w, Final t q w → w = 0 := by
    intro q w hw
    exact g2.base.zero q w hw
  have hlen : l.alphabet.size = l.alphabet.slexicinv.length := h2.ok.tags.len
  have p1 : l.alphabet.Writable := by
    refine ⟨fun s hs => ⟨hpl.1 s hs, htags s hs⟩, by omega, by rw [hpl.2]; decide, ?_⟩
    rw [hpl.2]
    intro p hp
    rw [List.mem_singleton.1 hp]
    simp only
    omega
  have p2 : BinIO.InRange l.alphabet.size t := by
    refine ⟨by omega, hsz, ?_, ?_, ?_⟩
    · intro e he
      have : e.2.length ≤ l.alphabet.size + 65536 := by
        have hrow : row t e.1 = e.2 := by
          have hsk : SortedKeys t.transitions := by
            have : (t.transitions.map (·.1)).Pairwise (· < ·) := by rw [hI.wf.keys]; exact List.pairwise_lt_range
            exact List.pairwise_map.1 this
          unfold row
          rw [mapFind_of_mem hsk (show (e.1, e.2) ∈ t.transitions from he)]
          rfl
        refine row_length (by rw [← hrow]; exact strict_row hI.wf hI.det e.1) (fun x hx => (hsym e.1 x.1 x.2.2 x.2.1 ?_).2)
        unfold Edge
        rw [hrow]
        exact hx
      omega
    · intro q x w p he
      obtain ⟨j1, j2⟩ := hsym q x w p he
      subst j1
      unfold Symbol at j2
      exact ⟨j2.1, by omega, (.inl ⟨rfl, rfl⟩)⟩
    · intro q w hw
      rw [hfin q w hw]
      exact (.inl ⟨rfl, rfl⟩)
  have p3 : ∀ q c w p, Edge t q (c, w) p → BinIO.Exact w := by
    intro q x w p he
    rw [(hsym q x w p he).1]
    exact ⟨0, rfl⟩
  have p4 : ∀ q w, Final t q w → BinIO.Exact w := by
    intro q w hw
    rw [hfin q w hw]
    exact ⟨0, rfl⟩
  have p5 : f.length < 2 ^ 30 := by
    have := BinIO.length_le_of_lt f g2.base.sorted (size t) (fun e he => g2.base.lt e he)
    omega
  have p6 : ∀ e ∈ f, e.1 < 2 ^ 30 ∧ 0 ≤ e.2 ∧ e.2 < 2 ^ 30 := by
    intro e he
    have j1 : e.1 < size t := g2.base.lt e he
    obtain ⟨v, j2, -⟩ := g2.sound e.1 e.2 (mapFind_of_mem g2.base.sorted he)
    have := hids _ j2
    exact ⟨by omega, this⟩
  obtain ⟨bs, e1, e2⟩ := C87_roundtrip { l with transducer := t, finalType := f } h2.ok p1 hI.wf p2 p3 p4 g2.base.sorted p5 p6
  refine ⟨bs, e1, fun l0 rest => ?_⟩
  obtain ⟨l1, i1, i2, i3, i4, i5, i6, i7⟩ := e2 l0 rest
  exact ⟨l1, i1, i2, m, k2, by rw [i7]; exact k2⟩

/-- `cat` with any tags as 7, any noun followed by `'s` as 3. -/
def demoOps : List Op := [.word 7 ([0x63, 0x61, 0x74], []), .sequence 3 [([], [[0x6e], [0x2a]]), ([0x27, 0x73], [])]]

/-- The bounds hold of the list made by `demoOps`. -/
def inBounds (r : Res (PatternList Dbl)) : Bool :=
  match r with
  | .ok l => decide (size l.transducer = 14) && decide (l.alphabet.size = 4) && decide (l.finalType.map (·.2) = [3, 3, 7, 7])
  | _ => false

example : inBounds (performAll demoOps (PatternList.new : PatternList Dbl) >>= buildTransducer) = true := by decide +kernel

example : (∀ o ∈ demoOps, (∀ it ∈ o.entry.2, it.Fine) ∧ o.entry.2 ≠ []) ∧ ∀ o ∈ demoOps, 0 ≤ o.entry.1 ∧ o.entry.1 < 2 ^ 30 := by
  unfold demoOps Item.Fine
  decide

end Verif.Patterns
