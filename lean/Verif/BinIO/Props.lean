import Verif.BinIO.Lemmas
import Verif.Alphabet.Props
import Verif.Serialiser.Props
import Verif.Transducer.Check

/-! # Properties of the binary formats of transducers (C06, C36-C38, C59) -/

namespace Verif.BinIO

open Verif.Compression Verif.Fst

/-! ## C06 -/

theorem header_known (ww : Bool) (s : List UInt8) :
    readHeaderT (headerT ++ writeU64be (if ww then 1 else 0) ++ s) = .ok (ww, s) := by
  have e1 : (headerT ++ writeU64be (if ww then 1 else 0) ++ s).take 4 = headerT := by simp [headerT]
  have e2 : (headerT ++ writeU64be (if ww then 1 else 0) ++ s).drop 4 = writeU64be (if ww then 1 else 0) ++ s := by
    simp [headerT]
  unfold readHeaderT
  rw [if_pos e1, e2, readU64be_write]
  cases ww <;> rfl

/-- **C06** A transducer stream whose feature word has a bit that this version does not know is refused by both
loaders, whatever follows; a stream whose features are known is always accepted by the library loader, and the words
without an unknown bit are 0 and 1. -/
theorem C06_transducer_features (v : UInt64) (rest : List UInt8) (d : Int) (a : Alphabet) :
    ((∃ k : Nat, 1 ≤ k ∧ v.toNat.testBit k = true) ↔ read d (headerT ++ writeU64be v ++ rest) = .exception) ∧
    ((∃ k : Nat, 1 ≤ k ∧ v.toNat.testBit k = true) ↔ exeRead a (headerT ++ writeU64be v ++ rest) = .exception) ∧
    ((∀ k : Nat, 1 ≤ k → v.toNat.testBit k = false) ↔ ∃ t s, read d (headerT ++ writeU64be v ++ rest) = .ok (t, s)) := by
  have hbits : (∃ k : Nat, 1 ≤ k ∧ v.toNat.testBit k = true) ↔ 2 ≤ v.toNat := by
    constructor
    · rintro ⟨k, hk, hb⟩
      have := Nat.ge_two_pow_of_testBit hb
      have : 2 ^ 1 ≤ 2 ^ k := Nat.pow_le_pow_right (by omega) hk
      omega
    · intro h
      by_contra hn
      have : v.toNat < 2 ^ 1 := by
        refine Nat.lt_pow_two_of_testBit _ fun i hi => ?_
        by_contra hb
        exact hn ⟨i, hi, by simpa using hb⟩
      omega
  have hv : v ≥ 2 ↔ 2 ≤ v.toNat := by rw [ge_iff_le, UInt64.le_iff_toNat_le]; rfl
  have e1 : (headerT ++ writeU64be v ++ rest).take 4 = headerT := by simp [headerT]
  have e2 : (headerT ++ writeU64be v ++ rest).drop 4 = writeU64be v ++ rest := by simp [headerT]
  have hh : readHeaderT (headerT ++ writeU64be v ++ rest) =
      if 2 ≤ v.toNat then .exception else .ok (v &&& 1 ≠ 0, rest) := by
    unfold readHeaderT
    rw [if_pos e1, e2, readU64be_write]
    simp only [Res.bind_ok, hv, Res.pure_eq]
  have hneg : (∀ k : Nat, 1 ≤ k → v.toNat.testBit k = false) ↔ ¬ 2 ≤ v.toNat := by
    rw [← hbits]; simp only [not_exists, not_and, Bool.not_eq_true]
  refine ⟨?_, ?_, ?_⟩
  · rw [hbits]
    unfold read
    rw [hh]
    by_cases h : 2 ≤ v.toNat
    · simp [h]
    · simp [h]
  · rw [hbits]
    unfold exeRead
    rw [hh]
    by_cases h : 2 ≤ v.toNat
    · simp [h]
    · simp only [h, if_false, Res.bind_ok, false_iff]
      split
      · intro hx
        rcases exeRows_fail (decide (v &&& 1 ≠ 0)) a
          (multibyteRead (readFinals (decide (v &&& 1 ≠ 0)) (multibyteRead (multibyteRead rest).2).1.toNat 0 []
            (multibyteRead (multibyteRead rest).2).2).2).1.toNat
          (multibyteRead (readFinals (decide (v &&& 1 ≠ 0)) (multibyteRead (multibyteRead rest).2).1.toNat 0 []
            (multibyteRead (multibyteRead rest).2).2).2).1.toNat 0
          (multibyteRead (readFinals (decide (v &&& 1 ≠ 0)) (multibyteRead (multibyteRead rest).2).1.toNat 0 []
            (multibyteRead (multibyteRead rest).2).2).2).2 with h | h
        · rw [exeRows_ok _ _ _ _ _ _ h] at hx
          cases hx
        · rw [h] at hx; cases hx
      · simp
  · rw [hneg]
    have := read_ok_iff d (headerT ++ writeU64be v ++ rest)
    rw [hh] at this
    by_cases h : 2 ≤ v.toNat
    · simp only [h, if_true] at this
      simp only [h, not_true, false_iff]
      rintro ⟨t, s, e⟩
      have := this.1 ⟨_, e⟩
      simp at this
    · simp only [h, if_false] at this
      simp only [h, not_false_iff, true_iff]
      obtain ⟨⟨t, s⟩, e⟩ := this.2 ⟨_, rfl⟩
      exact ⟨t, s, e⟩

example : read 0 (headerT ++ writeU64be 0x8000000000000001 ++ [1, 2, 3]) = .exception ∧
    (0x8000000000000001 : UInt64).toNat.testBit 63 = true := by decide

/-- **C06** A transducer stream that ends inside the feature word is refused by both loaders. -/
theorem C06_transducer_truncated (v : UInt64) (p q : List UInt8) (h : writeU64be v = p ++ q) (hq : q ≠ []) (d : Int)
    (a : Alphabet) : read d (headerT ++ p) = .exception ∧ exeRead a (headerT ++ p) = .exception := by
  have e1 : (headerT ++ p).take 4 = headerT := by simp [headerT]
  have e2 : (headerT ++ p).drop 4 = p := by simp [headerT]
  have hh : readHeaderT (headerT ++ p) = .exception := by
    unfold readHeaderT
    rw [if_pos e1, e2, C06_feature_word_truncated v p q h hq]
    rfl
  exact ⟨by unfold read; rw [hh]; rfl, by unfold exeRead; rw [hh]; rfl⟩

/-- **C06** For transducer sets no feature is known: every word but 0 is refused by both loaders, whatever follows, and so
is a stream that ends inside the word. -/
theorem C06_set_features (v : UInt64) (rest : List UInt8) :
    (v ≠ 0 → readSet (headerL ++ writeU64be v ++ rest) = .exception ∧
      exeSet (headerL ++ writeU64be v ++ rest) = .exception) ∧
    (∀ p q, writeU64be v = p ++ q → q ≠ [] → readSet (headerL ++ p) = .exception ∧ exeSet (headerL ++ p) = .exception) := by
  constructor
  · intro hv
    have hv' : v ≥ 1 := by
      rw [ge_iff_le, UInt64.le_iff_toNat_le]
      have : v.toNat ≠ 0 := fun h => hv (UInt64.toNat_inj.1 h)
      show 1 ≤ v.toNat
      omega
    have e1 : (headerL ++ writeU64be v ++ rest).take 4 = headerL := by simp [headerL]
    have e2 : (headerL ++ writeU64be v ++ rest).drop 4 = writeU64be v ++ rest := by simp [headerL]
    have hh : readShared (headerL ++ writeU64be v ++ rest) = .exception := by
      unfold readShared
      rw [if_pos e1, e2, readU64be_write]
      simp only [Res.bind_ok, hv', if_true]
      rfl
    exact ⟨by unfold readSet; rw [hh]; rfl, by unfold exeSet; rw [hh]; rfl⟩
  · intro p q h hq
    have e1 : (headerL ++ p).take 4 = headerL := by simp [headerL]
    have e2 : (headerL ++ p).drop 4 = p := by simp [headerL]
    have hh : readShared (headerL ++ p) = .exception := by
      unfold readShared
      rw [if_pos e1, e2, C06_feature_word_truncated v p q h hq]
      rfl
    exact ⟨by unfold readSet; rw [hh]; rfl, by unfold exeSet; rw [hh]; rfl⟩

example : writeU64be 1 = [0, 0, 0] ++ [0, 0, 0, 0, 1] ∧ readSet (headerL ++ writeU64be 1 ++ [0]) = .exception :=
  ⟨by decide, rfl⟩

/-! ## C36 -/

/-- What 32-bit C++ integers and `double`s can hold. -/
def Fits (t : Transducer Dbl) : Prop :=
  size t ≤ 2 ^ 31 ∧ (∀ e ∈ t.transitions, e.2.length < 2 ^ 32) ∧
  (∀ q c w p, Edge t q (c, w) p → -2 ^ 31 ≤ c ∧ c < 2 ^ 31 ∧ w.Normal) ∧ ∀ q w, Final t q w → w.Normal

/-- The range of the format: fewer than 2^30 states and arcs per state, labels from `-d` to `2^30 - 2d`. -/
def InRange (d : Int) (t : Transducer Dbl) : Prop :=
  0 ≤ d ∧ size t < 2 ^ 30 ∧ (∀ e ∈ t.transitions, e.2.length < 2 ^ 30) ∧
  (∀ q c w p, Edge t q (c, w) p → -d ≤ c ∧ c + 2 * d < 2 ^ 30 ∧ w.Normal) ∧ ∀ q w, Final t q w → w.Normal

theorem InRange.fits {d : Int} {t : Transducer Dbl} (h : InRange d t) : Fits t := by
  obtain ⟨h0, h1, h2, h3, h4⟩ := h
  refine ⟨by omega, fun e he => by have := h2 e he; omega, fun q c w p he => ?_, h4⟩
  obtain ⟨a, b, c⟩ := h3 q c w p he
  exact ⟨by omega, by omega, c⟩

/-- Specification: the same transducer with every weight cut to the 30 most significant bits of its significand. -/
def cut (t : Transducer Dbl) : Transducer Dbl :=
  { initial := t.initial
    finals := t.finals.map fun e => (e.1, cut30 e.2)
    transitions := t.transitions.map fun e => (e.1, cutRow e.2) }

theorem mem_row {t : Transducer Dbl} (h : WF t) {e : Nat × Row Dbl} (he : e ∈ t.transitions) {x : Int × (Nat × Dbl)}
    (hx : x ∈ e.2) : Edge t e.1 (x.1, x.2.2) x.2.1 := by
  unfold Edge row
  rw [mapFind_of_mem h.sorted he]
  exact hx

theorem not_weighted {t : Transducer Dbl} (h : weighted t = false) :
    (∀ e ∈ t.finals, e.2 = 0) ∧ ∀ e ∈ t.transitions, ∀ x ∈ e.2, x.2.2 = 0 := by
  simp only [weighted, Bool.or_eq_false_iff, List.any_eq_false, List.any_eq_true, decide_eq_true_eq, not_exists, not_and,
    ne_eq, not_not] at h
  exact h

theorem rowFits {t : Transducer Dbl} (h : WF t) (hf : Fits t) :
    ∀ e ∈ t.transitions, RowFits (weighted t) t.transitions.length e.2 := by
  obtain ⟨f1, f2, f3, f4⟩ := hf
  intro e he
  refine ⟨f2 e he, fun x hx => ?_, fun x hx => ?_⟩
  · have hx' := mem_row h he hx
    have := f3 _ _ _ _ hx'
    exact ⟨h.target_lt _ _ _ hx', this.1, this.2.1⟩
  · exact ⟨(f3 _ _ _ _ (mem_row h he hx)).2.2, fun hw => (not_weighted hw).2 e he x hx⟩

theorem finalsFit {t : Transducer Dbl} (hf : Fits t) :
    ∀ e ∈ t.finals, e.2.Normal ∧ (weighted t = false → e.2 = 0) :=
  fun e he => ⟨hf.2.2.2 e.1 e.2 he, fun hw => (not_weighted hw).1 e he⟩

/-- The bytes of a transducer after the header, in the order of the file. -/
theorem write_parse (d : Int) (t : Transducer Dbl) (h : WF t) (hf : Fits t) (bs : List UInt8) (hw : write d t = .ok bs)
    (rest : List UInt8) : ∃ s0, readHeaderT (bs ++ rest) = .ok (weighted t, s0) ∧
      (multibyteRead s0).1.toNat = t.initial ∧
      let s1 := (multibyteRead s0).2
      let f := readFinals (weighted t) (multibyteRead s1).1.toNat 0 [] (multibyteRead s1).2
      f.1 = t.finals.map (fun e => (e.1, cut30 e.2)) ∧ (multibyteRead f.2).1.toNat = size t ∧
      parseRows (weighted t) d (size t) (size t) 0 (multibyteRead f.2).2 = (t.transitions.map (fun e => cutRow e.2), rest) := by
  unfold write at hw
  obtain ⟨b1, e1, hw⟩ := Res.bind_eq_ok.1 hw
  obtain ⟨b2, e2, hw⟩ := Res.bind_eq_ok.1 hw
  obtain ⟨b3, e3, hw⟩ := Res.bind_eq_ok.1 hw
  obtain ⟨b4, e4, hw⟩ := Res.bind_eq_ok.1 hw
  obtain ⟨b5, e5, hw⟩ := Res.bind_eq_ok.1 hw
  cases hw
  have hsz := hf.1
  have hfl : t.finals.length ≤ size t := length_le_of_lt _ h.finals_sorted _ (fun e he => h.finals_lt e.1 e.2 he)
  obtain ⟨n1, r1⟩ := mbi_read_nat (n := t.initial) (by have := h.initial_lt; omega) e1
  obtain ⟨n2, r2⟩ := mbi_read_nat (n := t.finals.length) (by omega) e2
  obtain ⟨n4, r4⟩ := mbi_read_nat (n := t.transitions.length) (by unfold size at hsz; omega) e4
  have r3 := finals_roundtrip (weighted t) t.finals 0 (size t) hsz h.finals_sorted
    (fun e he => ⟨Nat.zero_le _, h.finals_lt e.1 e.2 he⟩) (finalsFit hf) b3 e3 [] (b4 ++ (b5 ++ rest)) (by simp)
  have r5 := rows_roundtrip (weighted t) d (size t) hsz t.transitions 0
    (by rw [h.keys, List.range_eq_range']; rfl) (by simp [size]) (rowFits h hf) b5 e5 rest
  refine ⟨b1 ++ (b2 ++ (b3 ++ (b4 ++ (b5 ++ rest)))), ?_, ?_, ?_⟩
  · have := header_known (weighted t) (b1 ++ (b2 ++ (b3 ++ (b4 ++ (b5 ++ rest)))))
    simpa only [List.append_assoc] using this
  · rw [r1]; exact n1
  · have z : (UInt32.ofNat 0) = 0 := rfl
    rw [z] at r3
    simp only [r1, r2, n2, r3, r4, n4, List.nil_append]
    exact ⟨trivial, rfl, r5⟩

theorem read_of_parse (d : Int) (s s0 : List UInt8) (rw : Bool) (t : Transducer Dbl) (rest : List UInt8)
    (hh : readHeaderT s = .ok (rw, s0)) (h1 : (multibyteRead s0).1.toNat = t.initial)
    (h2 : let s1 := (multibyteRead s0).2
      let f := readFinals rw (multibyteRead s1).1.toNat 0 [] (multibyteRead s1).2
      f.1 = t.finals ∧ (multibyteRead f.2).1.toNat = size t ∧
      parseRows rw d (size t) (size t) 0 (multibyteRead f.2).2 = (t.transitions.map (·.2), rest))
    (hk : t.transitions.map (·.1) = List.range (size t)) (hr : ∀ e ∈ t.transitions, SortedRow e.2) :
    read d s = .ok (t, rest) := by
  obtain ⟨⟨t', rest'⟩, e⟩ := (read_ok_iff d s).2 ⟨_, hh⟩
  obtain ⟨rw', s0', g1, g2, g3, g4, g5, g6, g7⟩ := read_spec d s t' rest' e
  rw [hh] at g1
  cases g1
  obtain ⟨i1, i2, i3⟩ := h2
  rw [i2, i3] at g7 g4
  rw [i2] at g6
  rw [i1] at g3
  simp only at g7 g4
  have hs : SortedKeys t.transitions := by
    have : (t.transitions.map (·.1)).Pairwise (· < ·) := by rw [hk]; exact List.pairwise_lt_range
    rw [List.pairwise_map] at this; exact this
  have hm : t'.transitions = t.transitions := by
    refine mapExt g5 hs fun k => ?_
    by_cases hlt : k < size t
    · have hge : k < t.transitions.length := hlt
      have hkk : (t.transitions[k]).1 = k := by
        have : (t.transitions.map (·.1))[k]'(by simpa using hge) = k := by simp [hk]
        simpa using this
      have hmem : t.transitions[k] ∈ t.transitions := List.getElem_mem hge
      have hf : mapFind k t.transitions = some (t.transitions[k]).2 := by
        have := mapFind_of_mem hs (k := (t.transitions[k]).1) (v := (t.transitions[k]).2) hmem
        rwa [hkk] at this
      rw [hf, g7 k (t.transitions[k]).2 (by simp [hge]), buildRow_sorted _ (hr _ hmem)]
    · have none_of : ∀ {m : List (Nat × Row Dbl)}, m.map (·.1) = List.range (size t) → mapFind k m = none := by
        intro m hm
        cases hc : mapFind k m with
        | none => rfl
        | some v =>
          have : k ∈ m.map (·.1) := (mapFind_isSome_iff _ _).1 (by rw [hc]; rfl)
          rw [hm, List.mem_range] at this
          exact absurd this hlt
      rw [none_of g6, none_of hk]
  rw [e, ← g4]
  congr 2
  cases t' ; cases t
  simp only at g2 g3 hm h1
  rw [g2, g3, hm, h1]

theorem cutRow_sorted {r : Row Dbl} (h : SortedRow r) : SortedRow (cutRow r) := by
  unfold SortedRow cutRow
  rw [List.pairwise_map]; exact h

/-- **C36** What was written is read back: for every well-formed transducer that fits the C++ types, if writing it
succeeds, then reading in any context restores initial state, final states and arcs, with the weights cut to 30
significant bits, and consumes exactly the bytes written. The only other outcome of writing is that the process ends. -/
theorem C36_write_read (d : Int) (t : Transducer Dbl) (h : WF t) (hf : Fits t) :
    (∃ bs, write d t = .ok bs ∧ ∀ rest, read d (bs ++ rest) = .ok (cut t, rest)) ∨ write d t = .exit := by
  have hcase : (∃ bs, write d t = .ok bs) ∨ write d t = .exit := by
    unfold write
    rcases mbi_cases (t.initial : Int) with ⟨b1, e1⟩ | e1 <;> simp only [e1, Res.bind_ok, Res.bind_exit]
    · rcases mbi_cases (t.finals.length : Int) with ⟨b2, e2⟩ | e2 <;> simp only [e2, Res.bind_ok, Res.bind_exit]
      · rcases finals_exit (weighted t) t.finals 0 (finalsFit hf) with ⟨b3, e3⟩ | e3 <;>
          simp only [e3, Res.bind_ok, Res.bind_exit]
        · rcases mbi_cases (t.transitions.length : Int) with ⟨b4, e4⟩ | e4 <;> simp only [e4, Res.bind_ok, Res.bind_exit]
          · rcases rows_exit (weighted t) d t.transitions.length t.transitions (rowFits h hf) with ⟨b5, e5⟩ | e5 <;>
              simp only [e5, Res.bind_ok, Res.bind_exit]
            · exact .inl ⟨_, rfl⟩
            · exact .inr trivial
          · exact .inr trivial
        · exact .inr trivial
      · exact .inr trivial
    · exact .inr trivial
  rcases hcase with ⟨bs, hb⟩ | he
  · refine .inl ⟨bs, hb, fun rest => ?_⟩
    obtain ⟨s0, g1, g2, g3, g4, g5⟩ := write_parse d t h hf bs hb rest
    have hsz : size (cut t) = size t := by simp [size, cut]
    refine read_of_parse d (bs ++ rest) s0 (weighted t) (cut t) rest g1 g2 ⟨g3, ?_, ?_⟩ ?_ ?_
    · rw [hsz]; exact g4
    · rw [hsz, g5]; simp [cut, Function.comp_def]
    · rw [hsz, ← h.keys]; simp [cut]
    · intro e he
      simp only [cut, List.mem_map] at he
      obtain ⟨e', he', rfl⟩ := he
      exact cutRow_sorted (h.rows e' he')
  · exact .inr he

/-- **C36** In the range of the format writing succeeds, so the transducer comes back. -/
theorem C36_roundtrip (d : Int) (t : Transducer Dbl) (h : WF t) (hr : InRange d t) :
    ∃ bs, write d t = .ok bs ∧ ∀ rest, read d (bs ++ rest) = .ok (cut t, rest) := by
  have hf := hr.fits
  obtain ⟨h0, h1, h2, h3, h4⟩ := hr
  rcases C36_write_read d t h hf with h' | h'
  · exact h'
  exfalso
  have hfl : t.finals.length ≤ size t := length_le_of_lt _ h.finals_sorted _ (fun e he => h.finals_lt e.1 e.2 he)
  obtain ⟨b1, e1, -⟩ := mbi_ok (t.initial : Int) (by omega) (by have := h.initial_lt; omega)
  obtain ⟨b2, e2, -⟩ := mbi_ok (t.finals.length : Int) (by omega) (by omega)
  obtain ⟨b3, e3⟩ := finals_written (weighted t) t.finals 0 (size t) h1 h.finals_sorted
    (fun e he => ⟨Nat.zero_le _, h.finals_lt e.1 e.2 he⟩) (finalsFit hf)
  obtain ⟨b4, e4, -⟩ := mbi_ok (t.transitions.length : Int) (by omega) (by unfold size at h1; omega)
  obtain ⟨b5, e5⟩ := rows_written (weighted t) d (size t) h1 t.transitions (by
    intro e he
    refine ⟨?_, h2 e he, ?_, rowFits h hf e he⟩
    · have : e.1 ∈ t.transitions.map (·.1) := List.mem_map_of_mem he
      rw [h.keys] at this
      exact List.mem_range.1 this
    · refine gaps_of_sorted d h0 e.2 (h.rows e he) (fun x hx => ?_) 0 (.inr rfl)
      have := h3 _ _ _ _ (mem_row h he hx)
      exact ⟨this.1, this.2.1⟩)
  have e3' : writeFinals (weighted t) 0 t.finals = .ok b3 := e3
  have e5' : writeRows (weighted t) d t.transitions.length t.transitions = .ok b5 := e5
  simp [write, e1, e2, e3', e4, e5'] at h'

/-- A weight that the format holds exactly. -/
def Exact : Dbl → Prop
  | .fin M _ => (2 ^ 23 : Int) ∣ M
  | _ => True

theorem cut30_exact {w : Dbl} (h : Exact w) : cut30 w = w := by
  cases w with
  | fin M e => simp only [cut30, Int.tdiv_mul_cancel (show (2 ^ 23 : Int) ∣ M from h)]
  | _ => rfl

/-- **C36** With weights of at most 30 significant bits, in particular without weights, the transducer comes back
exactly. -/
theorem C36_exact (d : Int) (t : Transducer Dbl) (h : WF t) (hr : InRange d t)
    (hx : ∀ q c w p, Edge t q (c, w) p → Exact w) (hf : ∀ q w, Final t q w → Exact w) :
    ∃ bs, write d t = .ok bs ∧ ∀ rest, read d (bs ++ rest) = .ok (t, rest) := by
  have e : cut t = t := by
    obtain ⟨i, fs, m⟩ := t
    unfold cut
    simp only [Transducer.mk.injEq, true_and]
    constructor
    · refine (List.map_congr_left fun e he => ?_).trans (List.map_id _)
      simp only [cut30_exact (hf e.1 e.2 he)]; rfl
    · refine (List.map_congr_left fun e he => ?_).trans (List.map_id _)
      have : cutRow e.2 = e.2 := by
        refine (List.map_congr_left fun x hx' => ?_).trans (List.map_id _)
        simp only [cut30_exact (hx _ _ _ _ (mem_row h he hx'))]; rfl
      rw [this]; rfl
  have := C36_roundtrip d t h hr
  rwa [e] at this

/-- Two states, a loop, a backward arc and weights 3/4 and 1/3. -/
def exBin : Transducer Dbl :=
  { initial := 0
    finals := [(1, .fin (3 * 2 ^ 51) 0)]
    transitions := [(0, [(1, (1, .fin 6004799503160661 (-1))), (1, (1, 0)), (3, (0, 0))]), (1, [(2, (0, 0))])] }

theorem exBin_wf : WF exBin := wf_of_check (by decide)

theorem exBin_inRange : InRange 0 exBin := by
  refine ⟨by decide, by decide, by decide, ?_, ?_⟩
  · intro q c w p h
    rw [edge_iff_arcs (by decide)] at h
    simp only [exBin, arcsOf, List.flatMap_cons, List.flatMap_nil, List.map_cons, List.map_nil, List.append_nil,
      List.cons_append, List.nil_append, List.mem_cons, Prod.mk.injEq, List.not_mem_nil, or_false] at h
    rcases h with ⟨rfl, rfl, rfl, rfl⟩ | ⟨rfl, rfl, rfl, rfl⟩ | ⟨rfl, rfl, rfl, rfl⟩ | ⟨rfl, rfl, rfl, rfl⟩ <;>
      refine ⟨by decide, by decide, ?_⟩
    all_goals first | exact Or.inl ⟨rfl, rfl⟩ | simp [Dbl.Normal]
  · intro q w h
    simp only [Final, exBin, List.mem_cons, Prod.mk.injEq, List.not_mem_nil, or_false] at h
    obtain ⟨rfl, rfl⟩ := h
    simp [Dbl.Normal]

-- the hypotheses are met, and the weight 1/3 is the only thing that changes
example : WF exBin ∧ InRange 0 exBin ∧ Fits exBin ∧ cut exBin ≠ exBin := ⟨exBin_wf, exBin_inRange, exBin_inRange.fits, by decide⟩

/-- **C36** Out of range: with a negative label (a tag that is not coded as a pair) and no shift, nothing is written. -/
theorem C36_negative_label (t : Transducer Dbl) (h : WF t) (hf : Fits t) (q : Nat) (c : Int) (w : Dbl) (p : Nat)
    (he : Edge t q (c, w) p) (hc : c < 0) : write 0 t = .exit := by
  rcases C36_write_read 0 t h hf with ⟨bs, hb, -⟩ | h'
  · exfalso
    unfold write at hb
    obtain ⟨b1, e1, hb⟩ := Res.bind_eq_ok.1 hb
    obtain ⟨b2, e2, hb⟩ := Res.bind_eq_ok.1 hb
    obtain ⟨b3, e3, hb⟩ := Res.bind_eq_ok.1 hb
    obtain ⟨b4, e4, hb⟩ := Res.bind_eq_ok.1 hb
    obtain ⟨b5, e5, hb⟩ := Res.bind_eq_ok.1 hb
    have neg : ∀ i : Int, -2 ^ 31 ≤ i → i < 0 → mbi i = .exit := by
      intro i h1 h2
      rcases mbi_cases i with ⟨bs, h⟩ | h
      · have := (mbi_read h).1
        have ht := toInt32_ofInt i h1 (by omega)
        unfold toInt32 at ht
        split at ht <;> omega
      · exact h
    have rowNeg : ∀ (r : Row Dbl) (ww : Bool) (base q : Nat) (bs : List UInt8), SortedRow r →
        (∀ x ∈ r, -2 ^ 31 ≤ x.1) → writeArcs ww 0 base q 0 r = .ok bs → ∀ x ∈ r, 0 ≤ x.1 := by
      intro r ww base q bs hs hr hw x hx
      cases r with
      | nil => cases hx
      | cons y r =>
        by_contra hn
        have hy : y.1 ≤ x.1 := by
          rcases List.mem_cons.1 hx with rfl | hx
          · exact le_refl _
          · exact (List.pairwise_cons.1 hs).1 x hx
        have := neg (y.1 - 0 + 0) (by have := hr y List.mem_cons_self; omega) (by omega)
        obtain ⟨y1, y2, y3⟩ := y
        simp only at this
        simp only [writeArcs, this, Res.bind_exit] at hw
        cases hw
    have all : ∀ (m : List (Nat × Row Dbl)) (ww : Bool) (base : Nat) (bs : List UInt8),
        (∀ e ∈ m, SortedRow e.2 ∧ ∀ x ∈ e.2, -2 ^ 31 ≤ x.1) → writeRows ww 0 base m = .ok bs →
        ∀ e ∈ m, ∀ x ∈ e.2, 0 ≤ x.1 := by
      intro m
      induction m with
      | nil => intro _ _ _ _ _ e he; cases he
      | cons e m ih =>
        obtain ⟨q, r⟩ := e
        intro ww base bs hm hw e he
        simp only [writeRows] at hw
        obtain ⟨c1, k1, hw⟩ := Res.bind_eq_ok.1 hw
        obtain ⟨c2, k2, hw⟩ := Res.bind_eq_ok.1 hw
        obtain ⟨c3, k3, hw⟩ := Res.bind_eq_ok.1 hw
        rcases List.mem_cons.1 he with rfl | he
        · exact rowNeg r ww base q c2 (hm (q, r) List.mem_cons_self).1 (hm (q, r) List.mem_cons_self).2 k2
        · exact ih ww base c3 (fun e he => hm e (List.mem_cons_of_mem _ he)) k3 e he
    unfold Edge row at he
    cases hq : mapFind q t.transitions with
    | none => simp [hq] at he
    | some r =>
      rw [hq] at he
      have := all t.transitions (weighted t) t.transitions.length b5 (fun e he => ⟨h.rows e he, fun x hx =>
        (hf.2.2.1 _ _ _ _ (mem_row h he hx)).1⟩) e5 (q, r) (mapFind_mem hq) (c, (p, w)) he
      simp only at this
      omega
  · exact h'

/-! ## C38 -/

/-- Specification: what the arcs of a state say about the input symbol `i`: output symbol, destination and weight of the
arcs whose label stands for a pair with left side `i`. -/
def outs (a : Alphabet) (i : Int) (r : Row Dbl) : List (Int × Nat × Dbl) :=
  r.filterMap fun x => match a.decode x.1 with
    | .ok pr => if pr.1 = i then some (pr.2, x.2.1, x.2.2) else none
    | _ => none

/-- The destinations stored in a loaded transducer. -/
def dests (te : TransExe) (q : Nat) (i : Int) : List (Int × Nat × Dbl) :=
  (mapFind i (te.nodes.getD q [])).getD []

/-- The loaded transducer is the same graph, up to the order of the arcs of a state. -/
structure SameGraph (a : Alphabet) (t : Transducer Dbl) (te : TransExe) : Prop where
  initial : te.initial = t.initial
  finals : te.finals = t.finals
  size : te.nodes.length = Fst.size t
  labels : ∀ q c w p, Edge t q (c, w) p → ∃ pr, a.decode c = .ok pr
  arcs : ∀ q i, (dests te q i).Perm (outs a i (row t q))

theorem outs_eq (a : Alphabet) (i : Int) (r : Row Dbl) (h : ∀ x ∈ r, ∃ pr, Alphabet.HasPair a x.1 pr) :
    outs a i r = r.filterMap (destOf a i) := by
  refine List.filterMap_congr fun x hx => ?_
  obtain ⟨pr, hp⟩ := h x hx
  simp only [Alphabet.decode_iff.2 hp, destOf, pairOf_eq hp]

theorem exe_of_parse (a : Alphabet) (s s0 : List UInt8) (rw : Bool) (hh : readHeaderT s = .ok (rw, s0)) :
    let s1 := (multibyteRead s0).2
    let f := readFinals rw (multibyteRead s1).1.toNat 0 [] (multibyteRead s1).2
    let b := (multibyteRead f.2).1.toNat
    let p := parseRows rw 0 b b 0 (multibyteRead f.2).2
    let good := (∀ e ∈ f.1, e.1 < b) ∧ ∀ r ∈ p.1, ∀ x ∈ r, ∃ pr, Alphabet.HasPair a x.1 pr
    (good → exeRead a s = .ok ({ initial := (multibyteRead s0).1.toNat
                                 nodes := p.1.map (fun r => r.foldl (putNode a) [])
                                 finals := f.1 }, p.2)) ∧
    (¬ good → exeRead a s = .ub) := by
  intro s1 f b p good
  unfold exeRead
  rw [hh]
  simp only [Res.bind_ok]
  constructor
  · rintro ⟨g1, g2⟩
    rw [if_pos (by rw [List.all_eq_true]; exact fun e he => decide_eq_true (g1 e he))]
    rw [exeRows_ok rw a b b 0 (multibyteRead f.2).2 g2]
    rfl
  · intro hg
    by_cases hf : (∀ e ∈ f.1, e.1 < b)
    · rw [if_pos (by rw [List.all_eq_true]; exact fun e he => decide_eq_true (hf e he))]
      rcases exeRows_fail rw a b b 0 (multibyteRead f.2).2 with h | h
      · exact absurd ⟨hf, h⟩ hg
      · rw [h]; rfl
    · rw [if_neg (by
        rw [List.all_eq_true]
        intro h
        exact hf fun e he => of_decide_eq_true (h e he))]

theorem buildRow_mem {r : Row Dbl} {x : Int × (Nat × Dbl)} : x ∈ buildRow r [] ↔ x ∈ r := by
  have := (buildRow_perm r []).mem_iff (a := x)
  simpa using this

/-- Both loaders on one stream. -/
theorem loaders (a : Alphabet) (s : List UInt8) (t : Transducer Dbl) (rest : List UInt8) (h : read 0 s = .ok (t, rest)) :
    let good := (∀ q c w p, Edge t q (c, w) p → ∃ pr, a.decode c = .ok pr) ∧ ∀ p w, Final t p w → p < Fst.size t
    (good → ∃ te, exeRead a s = .ok (te, rest) ∧ SameGraph a t te) ∧ (¬ good → exeRead a s = .ub) := by
  intro good
  obtain ⟨rw, s0, g1, g2, g3, g4, g5, g6, g7⟩ := read_spec 0 s t rest h
  obtain ⟨k1, k2⟩ := exe_of_parse a s s0 rw g1
  set s1 := (multibyteRead s0).2
  set f := readFinals rw (multibyteRead s1).1.toNat 0 [] (multibyteRead s1).2
  set b := (multibyteRead f.2).1.toNat
  set p := parseRows rw 0 b b 0 (multibyteRead f.2).2
  have hlen : p.1.length = b := parseRows_length _ _ _ _ _ _
  have hsz : Fst.size t = b := by
    have := congrArg List.length g6
    simpa [Fst.size] using this
  have hrow : ∀ q r, p.1[q]? = some r → row t q = buildRow r [] := by
    intro q r hq
    unfold row
    rw [g7 q r hq]; rfl
  have hnone : ∀ q, p.1[q]? = none → row t q = [] := by
    intro q hq
    unfold row
    have : mapFind q t.transitions = none := by
      cases hc : mapFind q t.transitions with
      | none => rfl
      | some v =>
        have hm : q ∈ t.transitions.map (·.1) := (mapFind_isSome_iff _ _).1 (by rw [hc]; rfl)
        rw [g6, List.mem_range] at hm
        have := List.getElem?_eq_none_iff.1 hq
        rw [hlen] at this
        exact absurd hm (Nat.not_lt.2 this)
    rw [this]; rfl
  have hlab : (∀ r ∈ p.1, ∀ x ∈ r, ∃ pr, Alphabet.HasPair a x.1 pr) ↔
      ∀ q c w p, Edge t q (c, w) p → ∃ pr, a.decode c = .ok pr := by
    constructor
    · intro hp q c w d he
      unfold Edge at he
      cases hq : p.1[q]? with
      | none => rw [hnone q hq] at he; cases he
      | some r =>
        rw [hrow q r hq] at he
        obtain ⟨pr, hpr⟩ := hp r (List.mem_of_getElem? hq) _ (buildRow_mem.1 he)
        exact ⟨pr, Alphabet.decode_iff.2 hpr⟩
    · intro hp r hr x hx
      obtain ⟨q, hq⟩ := List.getElem?_of_mem hr
      obtain ⟨pr, hpr⟩ := hp q x.1 x.2.2 x.2.1 (by unfold Edge; rw [hrow q r hq]; exact buildRow_mem.2 hx)
      exact ⟨pr, Alphabet.decode_iff.1 hpr⟩
  have hfin : (∀ e ∈ f.1, e.1 < b) ↔ ∀ p w, Final t p w → p < Fst.size t := by
    rw [hsz]
    unfold Final
    rw [g3]
    exact ⟨fun h p w hm => h (p, w) hm, fun h e he => h e.1 e.2 he⟩
  constructor
  · rintro ⟨h1, h2⟩
    refine ⟨_, by rw [k1 ⟨hfin.2 h2, hlab.2 h1⟩, g4], g2.symm, g3.symm, ?_, h1, ?_⟩
    · simp only [List.length_map, hlen, hsz]
    · intro q i
      unfold dests
      cases hq : p.1[q]? with
      | none =>
        rw [hnone q hq]
        have : (p.1.map (fun r => r.foldl (putNode a) [])).getD q [] = [] := by
          simp [List.getD, hq]
        rw [this]
        exact List.Perm.refl _
      | some r =>
        rw [hrow q r hq]
        have : (p.1.map (fun r => r.foldl (putNode a) [])).getD q [] = r.foldl (putNode a) [] := by
          simp [List.getD, hq]
        rw [this, (putNodes_spec a r [] List.Pairwise.nil).2 i]
        simp only [mapFind, Option.getD_none, List.nil_append]
        have hr : ∀ x ∈ r, ∃ pr, Alphabet.HasPair a x.1 pr := hlab.2 h1 r (List.mem_of_getElem? hq)
        rw [outs_eq a i (buildRow r []) (fun x hx => hr x (buildRow_mem.1 hx))]
        have := buildRow_perm r []
        rw [List.append_nil] at this
        exact this.symm.filterMap _
  · intro hg
    refine k2 fun hg' => hg ⟨hlab.1 hg'.2, hfin.1 hg'.1⟩

/-- **C38** On every stream of bytes the two loaders agree. What the run-time loader accepts, the library loader accepts
with the same rest and the same graph. What the library loader accepts, the run-time loader accepts exactly if all
labels are in the alphabet and all final states are states (otherwise it has undefined behaviour). They throw on
the same streams. -/
theorem C38_loaders_agree (a : Alphabet) (s : List UInt8) :
    (∀ te rest, exeRead a s = .ok (te, rest) → ∃ t, read 0 s = .ok (t, rest) ∧ SameGraph a t te) ∧
    (∀ t rest, read 0 s = .ok (t, rest) →
      ((∀ q c w p, Edge t q (c, w) p → ∃ pr, a.decode c = .ok pr) ∧ (∀ p w, Final t p w → p < Fst.size t) ↔
        ∃ te, exeRead a s = .ok (te, rest))) ∧
    (read 0 s = .exception ↔ exeRead a s = .exception) := by
  have hh : (∃ t rest, read 0 s = .ok (t, rest)) ∨ (read 0 s = .exception ∧ exeRead a s = .exception) := by
    cases hd : readHeaderT s with
    | ok x =>
      obtain ⟨⟨t, r⟩, e⟩ := (read_ok_iff 0 s).2 ⟨x, hd⟩
      exact .inl ⟨t, r, e⟩
    | exception => exact .inr ⟨by unfold read; rw [hd]; rfl, by unfold exeRead; rw [hd]; rfl⟩
    | exit | ub =>
      exfalso
      unfold readHeaderT at hd
      split at hd
      · unfold readU64be at hd
        repeat' split at hd
        all_goals simp at hd
        all_goals (split at hd <;> simp at hd)
      · cases hd
  rcases hh with ⟨t, rest, ht⟩ | ⟨e1, e2⟩
  · obtain ⟨k1, k2⟩ := loaders a s t rest ht
    refine ⟨?_, ?_, ?_⟩
    · intro te rest' he
      by_cases hg : (∀ q c w p, Edge t q (c, w) p → ∃ pr, a.decode c = .ok pr) ∧ ∀ p w, Final t p w → p < Fst.size t
      · obtain ⟨te', h1, h2⟩ := k1 hg
        rw [he] at h1; cases h1
        exact ⟨t, ht, h2⟩
      · rw [k2 hg] at he; cases he
    · intro t' rest' ht'
      rw [ht] at ht'; cases ht'
      constructor
      · intro hg
        obtain ⟨te, h1, -⟩ := k1 hg
        exact ⟨te, h1⟩
      · rintro ⟨te, he⟩
        by_contra hg
        rw [k2 hg] at he; cases he
    · rw [ht]
      constructor
      · intro h; cases h
      · intro h
        by_cases hg : (∀ q c w p, Edge t q (c, w) p → ∃ pr, a.decode c = .ok pr) ∧ ∀ p w, Final t p w → p < Fst.size t
        · obtain ⟨te, h1, -⟩ := k1 hg
          rw [h] at h1; cases h1
        · rw [k2 hg] at h; cases h
  · rw [e1, e2]
    refine ⟨fun _ _ h => (by cases h), fun _ _ h => (by cases h), by simp⟩

/-- The loaded transducer is the same graph, with the arcs of a state in the same order. -/
def Loaded (a : Alphabet) (t : Transducer Dbl) (te : TransExe) : Prop :=
  te.initial = t.initial ∧ te.finals = t.finals ∧ te.nodes.length = Fst.size t ∧
  ∀ q i, dests te q i = outs a i (row t q)

/-- **C38** A transducer that was written is loaded with its arcs in the same order. -/
theorem C38_written (a : Alphabet) (t : Transducer Dbl) (h : WF t) (hr : InRange 0 t)
    (hl : ∀ q c w p, Edge t q (c, w) p → ∃ pr, a.decode c = .ok pr) :
    ∃ bs, write 0 t = .ok bs ∧ ∃ te, Loaded a (cut t) te ∧ ∀ rest, exeRead a (bs ++ rest) = .ok (te, rest) := by
  obtain ⟨bs, hb, -⟩ := C36_roundtrip 0 t h hr
  refine ⟨bs, hb, { initial := t.initial, nodes := (t.transitions.map (fun e => cutRow e.2)).map (fun r => r.foldl (putNode a) []),
                    finals := (cut t).finals }, ⟨rfl, rfl, by simp [Fst.size, cut], ?_⟩, ?_⟩
  · have hpair : ∀ e ∈ t.transitions, ∀ x ∈ cutRow e.2, ∃ pr, Alphabet.HasPair a x.1 pr := by
      intro e he x hx
      simp only [cutRow, List.mem_map] at hx
      obtain ⟨y, hy, rfl⟩ := hx
      obtain ⟨pr, hp⟩ := hl _ _ _ _ (mem_row h he hy)
      exact ⟨pr, Alphabet.decode_iff.1 hp⟩
    intro q i
    unfold dests
    have hnode : ((t.transitions.map (fun e => cutRow e.2)).map (fun r => r.foldl (putNode a) [])).getD q [] =
        (row (cut t) q).foldl (putNode a) [] := by
      simp only [List.getD, List.getElem?_map, Option.map_map]
      unfold row cut
      simp only
      cases hq : t.transitions[q]? with
      | none =>
        have hge : Fst.size t ≤ q := List.getElem?_eq_none_iff.1 hq
        have : mapFind q (t.transitions.map fun e => (e.1, cutRow e.2)) = none := by
          cases hc : mapFind q (t.transitions.map fun e => (e.1, cutRow e.2)) with
          | none => rfl
          | some v =>
            have hm : q ∈ (t.transitions.map fun e => (e.1, cutRow e.2)).map (·.1) :=
              (mapFind_isSome_iff _ _).1 (by rw [hc]; rfl)
            rw [List.map_map] at hm
            have hk := h.keys
            have e : ((fun x : Nat × Row Dbl => x.1) ∘ fun e : Nat × Row Dbl => (e.1, cutRow e.2)) = fun x => x.1 := rfl
            rw [e, hk, List.mem_range] at hm
            omega
        rw [this]; rfl
      | some e =>
        have hlt : q < t.transitions.length := (List.getElem?_eq_some_iff.1 hq).1
        have he1 : e.1 = q := by
          have h1 : (t.transitions.map (·.1))[q]? = some e.1 := by simp [hq]
          rw [h.keys] at h1
          simpa [List.getElem?_range, hlt, Fst.size] using h1.symm
        have hmem : (q, cutRow e.2) ∈ t.transitions.map fun e => (e.1, cutRow e.2) :=
          List.mem_map.2 ⟨e, List.mem_of_getElem? hq, by rw [he1]⟩
        have hs : SortedKeys (t.transitions.map fun e => (e.1, cutRow e.2)) := by
          unfold SortedKeys; rw [List.pairwise_map]; exact h.sorted
        rw [mapFind_of_mem hs hmem]; rfl
    rw [hnode, (putNodes_spec a _ [] List.Pairwise.nil).2 i, outs_eq a i]
    · simp [mapFind]
    · intro x hx
      unfold row cut at hx
      simp only at hx
      cases hc : mapFind q (t.transitions.map fun e => (e.1, cutRow e.2)) with
      | none => rw [hc] at hx; cases hx
      | some r =>
        rw [hc] at hx
        obtain ⟨e, he, e2⟩ := List.mem_map.1 (mapFind_mem hc)
        cases e2
        exact hpair e he x hx
  · intro rest
    obtain ⟨s0, g1, g2, g3, g4, g5⟩ := write_parse 0 t h hr.fits bs hb rest
    obtain ⟨k1, -⟩ := exe_of_parse a (bs ++ rest) s0 (weighted t) g1
    rw [g4, g5, g3, g2] at k1
    refine k1 ⟨?_, ?_⟩
    · intro e he
      obtain ⟨e', he', rfl⟩ := List.mem_map.1 he
      exact h.finals_lt e'.1 e'.2 he'
    · intro r hr' x hx
      obtain ⟨e, he, rfl⟩ := List.mem_map.1 hr'
      simp only [cutRow, List.mem_map] at hx
      obtain ⟨y, hy, rfl⟩ := hx
      obtain ⟨pr, hp⟩ := hl _ _ _ _ (mem_row h he hy)
      exact ⟨pr, Alphabet.decode_iff.1 hp⟩

-- the labels 1 to 3 are in the example alphabet
theorem exBin_labels : ∀ q c w p, Edge exBin q (c, w) p → ∃ pr, Alphabet.exAlpha.decode c = .ok pr := by
  intro q c w p h
  have : c = 1 ∨ c = 2 ∨ c = 3 := by
    rw [edge_iff_arcs (by decide)] at h
    simp only [exBin, arcsOf, List.flatMap_cons, List.flatMap_nil, List.map_cons, List.map_nil, List.append_nil,
      List.cons_append, List.nil_append, List.mem_cons, Prod.mk.injEq, List.not_mem_nil, or_false] at h
    omega
  rcases this with rfl | rfl | rfl
  · exact ⟨(0x61, 0x61), by decide⟩
  · exact ⟨(0x61, -1), by decide⟩
  · exact ⟨(-2, 0x62), by decide⟩

example : WF exBin ∧ InRange 0 exBin ∧ outs Alphabet.exAlpha 0x61 (row (cut exBin) 0) ≠ [] ∧
    outs Alphabet.exAlpha (-2) (row (cut exBin) 0) = [(0x62, 0, 0)] :=
  ⟨exBin_wf, exBin_inRange, by decide, by decide⟩

/-! ## C37 -/

/-- What the C++ integer types hold. -/
def Fits32 (t : Transducer UInt64) : Prop :=
  Fst.size t ≤ 2 ^ 31 ∧ (∀ e ∈ t.transitions, e.2.length < 2 ^ 64) ∧
  ∀ q c w p, Edge t q (c, w) p → -2 ^ 31 ≤ c ∧ c < 2 ^ 31

theorem i32_nat {n : Nat} (h : n < 2 ^ 31) : (Int32.ofNat n).toInt = n := by
  have : Int32.ofNat n = Int32.ofInt (n : Int) := Int32.ofInt_eq_ofNat.symm
  rw [this]; exact Alphabet.int32_back (by omega) (by omega)

theorem i32_asymm (a b : Int32) (h : a < b) : ¬ b < a := by
  rw [Int32.lt_iff_toInt_lt] at h ⊢; omega

/-- **C37** A well-formed transducer that fits the C++ integers is restored exactly from its serialised form in any
context, weights as bit patterns included; every cut inside it is detected. -/
theorem C37_serialise (t : Transducer UInt64) (h : WF t) (hf : Fits32 t) :
    (∀ rest, deserialise (serialise t ++ rest) = .ok (t, rest)) ∧
    ∀ p q, serialise t = p ++ q → q ≠ [] → deserialise p = .exception := by
  obtain ⟨f1, f2, f3⟩ := hf
  have hedge : ∀ e ∈ t.transitions, ∀ x ∈ e.2, Edge t e.1 (x.1, x.2.2) x.2.1 := by
    intro e he x hx
    unfold Edge row
    rw [mapFind_of_mem h.sorted he]; exact hx
  have hq : ∀ e ∈ t.transitions, e.1 < 2 ^ 31 := by
    intro e he
    have : e.1 ∈ t.transitions.map (·.1) := List.mem_map_of_mem he
    rw [h.keys, List.mem_range] at this; omega
  have hfl : ∀ e ∈ t.finals, e.1 < 2 ^ 31 := fun e he => by have := h.finals_lt e.1 e.2 he; omega
  have hlt : ∀ {m n : Nat}, m < 2 ^ 31 → n < 2 ^ 31 → (Int32.ofNat m < Int32.ofNat n ↔ m < n) := by
    intro m n hm hn
    rw [Int32.lt_iff_toInt_lt, i32_nat hm, i32_nat hn]; omega
  set i' := Int32.ofNat t.initial
  set fs' := t.finals.map fun e => (Int32.ofNat e.1, e.2)
  set m' := t.transitions.map fun e =>
    (Int32.ofNat e.1, e.2.map fun a => (Int32.ofInt a.1, (Int32.ofNat a.2.1, a.2.2)))
  have cf := Serialiser.C09_map i32_asymm Serialiser.i32 Serialiser.double _ _ Serialiser.i32_laws Serialiser.u64_laws
  have cm := Serialiser.C09_map i32_asymm Serialiser.i32 _ _ _ Serialiser.i32_laws
    (Serialiser.C09_multimap Serialiser.i32 _ _ _ Serialiser.i32_laws
      (Serialiser.C09_pair Serialiser.i32 Serialiser.double _ _ Serialiser.i32_laws Serialiser.u64_laws))
  have pf : fs'.length < 2 ^ 64 ∧ Serialiser.KeysIncreasing fs' ∧ ∀ x ∈ fs', True ∧ True := by
    refine ⟨?_, ?_, fun _ _ => ⟨trivial, trivial⟩⟩
    · have : t.finals.length ≤ Fst.size t := length_le_of_lt _ h.finals_sorted _ (fun e he => h.finals_lt e.1 e.2 he)
      simp only [fs', List.length_map]; omega
    · simp only [fs', Serialiser.KeysIncreasing]
      rw [List.pairwise_map]
      exact List.Pairwise.imp_of_mem (fun {x y} hx hy hxy => (hlt (hfl x hx) (hfl y hy)).2 hxy) h.finals_sorted
  have pm : m'.length < 2 ^ 64 ∧ Serialiser.KeysIncreasing m' ∧ ∀ x ∈ m', True ∧
      (x.2.length < 2 ^ 64 ∧ Serialiser.KeysSorted x.2 ∧ ∀ y ∈ x.2, True ∧ True ∧ True) := by
    refine ⟨?_, ?_, ?_⟩
    · simp only [m', List.length_map]; unfold Fst.size at f1; omega
    · simp only [m', Serialiser.KeysIncreasing]
      rw [List.pairwise_map]
      exact List.Pairwise.imp_of_mem (fun {x y} hx hy hxy => (hlt (hq x hx) (hq y hy)).2 hxy) h.sorted
    · intro x hx
      obtain ⟨e, he, rfl⟩ := List.mem_map.1 hx
      refine ⟨trivial, by simpa using f2 e he, ?_, fun _ _ => ⟨trivial, trivial, trivial⟩⟩
      simp only [Serialiser.KeysSorted]
      rw [List.pairwise_map]
      refine List.Pairwise.imp_of_mem (fun {x y} hx hy hxy => ?_) (h.rows e he)
      have a1 := f3 _ _ _ _ (hedge e he x hx)
      have a2 := f3 _ _ _ _ (hedge e he y hy)
      rw [Int32.lt_iff_toInt_lt, Alphabet.int32_back a1.1 a1.2, Alphabet.int32_back a2.1 a2.2]
      omega
  have di := Serialiser.i32_laws
  constructor
  · intro rest
    unfold deserialise serialise
    rw [List.append_assoc, List.append_assoc, di.1 i' trivial, Res.bind_ok]
    simp only
    rw [cf.1 fs' pf, Res.bind_ok]
    simp only
    rw [cm.1 m' pm, Res.bind_ok]
    simp only [Res.pure_eq, Res.ok.injEq, Prod.mk.injEq, and_true]
    obtain ⟨i, fs, m⟩ := t
    simp only [Transducer.mk.injEq]
    refine ⟨?_, ?_, ?_⟩
    · have := h.initial_lt
      simp only [i'] at this ⊢
      rw [i32_nat (by omega)]; rfl
    · simp only [fs', List.map_map]
      refine (List.map_congr_left fun e he => ?_).trans (List.map_id _)
      simp only [Function.comp, i32_nat (hfl e he)]; rfl
    · simp only [m', List.map_map]
      refine (List.map_congr_left fun e he => ?_).trans (List.map_id _)
      simp only [Function.comp, i32_nat (hq e he)]
      have : (e.2.map fun a => (Int32.ofInt a.1, (Int32.ofNat a.2.1, a.2.2))).map
          (fun a => (a.1.toInt, (a.2.1.toInt.toNat, a.2.2))) = e.2 := by
        rw [List.map_map]
        refine (List.map_congr_left fun x hx => ?_).trans (List.map_id _)
        have a1 := f3 _ _ _ _ (hedge e he x hx)
        have a2 := h.target_lt _ _ _ (hedge e he x hx)
        simp only [Function.comp, Alphabet.int32_back a1.1 a1.2]
        rw [i32_nat (by omega)]; rfl
      rw [this]; rfl
  · intro p q hpq hne
    unfold deserialise
    unfold serialise at hpq
    rw [List.append_assoc] at hpq
    rcases List.append_eq_append_iff.1 hpq with ⟨p1, e1, e2⟩ | ⟨p1, e1, e2⟩
    · -- the cut is after the first field
      rw [e1, di.1 i' trivial, Res.bind_ok]
      simp only
      rcases List.append_eq_append_iff.1 e2 with ⟨p2, e3, e4⟩ | ⟨p2, e3, e4⟩
      · rw [e3, cf.1 fs' pf, Res.bind_ok]
        simp only
        rw [cm.2 m' pm p2 q e4 hne]; rfl
      · by_cases hp2 : p2 = []
        · subst hp2
          rw [List.append_nil] at e3
          simp only [List.nil_append] at e4
          rw [← e3]
          have := cf.1 fs' pf []
          rw [List.append_nil] at this
          rw [this, Res.bind_ok]
          simp only
          rw [cm.2 m' pm [] q (by rw [e4]; rfl) hne]; rfl
        · rw [cf.2 fs' pf p1 p2 e3 hp2]; rfl
    · by_cases hp1 : p1 = []
      · subst hp1
        rw [List.append_nil] at e1
        simp only [List.nil_append] at e2
        rw [← e1]
        have := di.1 i' trivial []
        rw [List.append_nil] at this
        rw [this, Res.bind_ok]
        simp only
        have hcut := cf.2 fs' pf [] _ rfl (by
          intro hh
          have := (List.append_eq_nil_iff.1 (show Serialiser.u64.enc _ ++ _ = [] from hh)).1
          cases this)
        rw [hcut]; rfl
      · rw [di.2 i' trivial p p1 e1 hp1]; rfl

/-- A transducer with two arcs of equal label. -/
def exSer : Transducer UInt64 :=
  { initial := 1, finals := [(0, 5), (1, 0)], transitions := [(0, []), (1, [(-1, (0, 7)), (300, (1, 0)), (300, (0, 0))])] }

example : WF exSer ∧ Fits32 exSer ∧ deserialise ((serialise exSer).take 7) = .exception := by
  refine ⟨wf_of_check (by decide), ⟨by decide, by decide, ?_⟩, by rfl⟩
  intro q c w p h
  rw [edge_iff_arcs (by decide)] at h
  simp only [exSer, arcsOf, List.flatMap_cons, List.flatMap_nil, List.map_cons, List.map_nil, List.append_nil,
    List.nil_append, List.mem_cons, Prod.mk.injEq, List.not_mem_nil, or_false] at h
  omega

/-! ## C59 -/

theorem readLetters_eq (n : Nat) (ls : List UInt32) (s : List UInt8) :
    readLetters n ls s = ((readMany n s).1.foldl (fun acc v => setInsert v acc) ls, (readMany n s).2) := by
  induction n generalizing ls s with
  | zero => rfl
  | succ n ih => simp only [readLetters, readMany, ih, List.foldl_cons]

theorem mem_foldl_setInsert (vs ls : List UInt32) (c : UInt32) :
    c ∈ vs.foldl (fun acc v => setInsert v acc) ls ↔ c ∈ vs ∨ c ∈ ls := by
  induction vs generalizing ls with
  | nil => simp
  | cons v vs ih =>
    rw [List.foldl_cons, ih, mem_setInsert]
    simp only [List.mem_cons]
    constructor
    · rintro (h | h | h)
      · exact .inl (.inr h)
      · exact .inl (.inl h)
      · exact .inr h
    · rintro ((h | h) | h)
      · exact .inr (.inl h)
      · exact .inl h
      · exact .inr (.inr h)

theorem sorted_foldl_setInsert (vs ls : List UInt32) (h : ls.Pairwise (· < ·)) :
    (vs.foldl (fun acc v => setInsert v acc) ls).Pairwise (· < ·) := by
  induction vs generalizing ls with
  | nil => exact h
  | cons v vs ih => exact ih _ (sorted_setInsert h v)

/-- The set of code points of a string, as `readShared` builds it. -/
def letterSet (letters : UString) : List UInt32 := (vec32 letters).foldl (fun acc v => setInsert v acc) []

theorem letters_roundtrip (letters : UString) (h : letters.length < 2 ^ 30) :
    ∃ bs, Alphabet.sw letters = .ok bs ∧ ∀ rest, readLetters (multibyteRead (bs ++ rest)).1.toNat []
      (multibyteRead (bs ++ rest)).2 = (letterSet letters, rest) := by
  have hlen : (vec32 letters).length < 2 ^ 30 := Nat.lt_of_le_of_lt (vec32_length_le letters) h
  obtain ⟨bs, hb⟩ := (writeAll_isSome (UInt32.ofNat (vec32 letters).length :: vec32 letters)).2 (by
    intro c hc
    rcases List.mem_cons.1 hc with rfl | hc
    · rw [Alphabet.ofNat32 hlen]; exact hlen
    · have := vec32_lt letters c hc; omega)
  refine ⟨bs, by simp [Alphabet.sw, stringWrite, hb], fun rest => ?_⟩
  have := readMany_writeAll _ bs hb rest
  simp only [List.length_cons, readMany, Prod.mk.injEq] at this
  obtain ⟨h1, h2⟩ := this
  rw [List.cons.injEq] at h1
  rw [h1.1, Alphabet.ofNat32 hlen, readLetters_eq]
  rw [h1.2, h2]
  rfl

/-- A set of named transducers in range: the iteration order of a `std::map`. -/
def SetInRange (ts : List (UString × Transducer Dbl)) : Prop :=
  ts.Pairwise (fun x y => x.1 < y.1) ∧ ts.length < 2 ^ 30 ∧ ∀ e ∈ ts, e.1.length < 2 ^ 30 ∧ WF e.2 ∧ InRange 0 e.2

theorem mapSet_last {ν : Type} (k : UString) (v : ν) (m : List (UString × ν)) (h : ∀ x ∈ m, x.1 < k) :
    mapSet k v m = m ++ [(k, v)] := by
  induction m with
  | nil => rfl
  | cons e m ih =>
    have he := h e List.mem_cons_self
    simp only [mapSet]
    rw [if_neg (lt_asymm he), if_pos he, ih (fun x hx => h x (List.mem_cons_of_mem _ hx))]
    rfl

theorem sections_roundtrip (ts : List (UString × Transducer Dbl)) (hs : ts.Pairwise (fun x y => x.1 < y.1))
    (h : ∀ e ∈ ts, e.1.length < 2 ^ 30 ∧ WF e.2 ∧ InRange 0 e.2) :
    ∃ bs, writeSections ts = .ok bs ∧ (∀ done rest, (∀ x ∈ done, ∀ e ∈ ts, x.1 < e.1) →
      readSections ts.length done (bs ++ rest) = .ok (done ++ ts.map (fun e => (e.1, cut e.2)), rest)) ∧
    ∀ a, (∀ e ∈ ts, ∀ q c w p, Edge e.2 q (c, w) p → ∃ pr, Alphabet.decode a c = .ok pr) →
      ∃ tes, List.Forall₂ (fun e te => te.1 = e.1 ∧ Loaded a (cut e.2) te.2) ts tes ∧
        ∀ done rest, (∀ x ∈ done, ∀ e ∈ ts, x.1 < e.1) →
          exeSections a ts.length done (bs ++ rest) = .ok (done ++ tes, rest) := by
  induction ts with
  | nil => exact ⟨[], rfl, by simp [readSections], fun a _ => ⟨[], .nil, by simp [exeSections]⟩⟩
  | cons e ts ih =>
    obtain ⟨name, t⟩ := e
    obtain ⟨hs1, hs2⟩ := List.pairwise_cons.1 hs
    obtain ⟨h1, h2, h3⟩ := h (name, t) List.mem_cons_self
    simp only at h1 h2 h3
    obtain ⟨bs, e3, r3, x3⟩ := ih hs2 (fun e he => h e (List.mem_cons_of_mem _ he))
    obtain ⟨b1, e1, r1⟩ := Alphabet.sw_ok name h1
    obtain ⟨b2, e2, r2⟩ := C36_roundtrip 0 t h2 h3
    have hlast : ∀ {ν : Type} (done : List (UString × ν)) (v : ν), (∀ x ∈ done, ∀ e ∈ (name, t) :: ts, x.1 < e.1) →
        mapSet name v done = done ++ [(name, v)] ∧ ∀ x ∈ done ++ [(name, v)], ∀ e ∈ ts, x.1 < e.1 := by
      intro ν done v hd
      refine ⟨mapSet_last name v done fun x hx => hd x hx (name, t) List.mem_cons_self, fun x hx e he => ?_⟩
      rcases List.mem_append.1 hx with hx | hx
      · exact hd x hx e (List.mem_cons_of_mem _ he)
      · simp only [List.mem_singleton] at hx; subst hx; exact hs1 e he
    refine ⟨b1 ++ b2 ++ bs, by simp only [writeSections, e1, e2, e3, Res.bind_ok, Res.pure_eq], ?_, ?_⟩
    · intro done rest hd
      obtain ⟨k1, k2⟩ := hlast done (cut t) hd
      simp only [List.length_cons, readSections, List.append_assoc, r1, r2, Res.bind_ok, k1, r3 _ rest k2]
      simp
    · intro a ha
      obtain ⟨tes, t1, t2⟩ := x3 a (fun e he => ha e (List.mem_cons_of_mem _ he))
      obtain ⟨b2', e2', te, l1, l2⟩ := C38_written a t h2 h3 (ha (name, t) List.mem_cons_self)
      rw [e2] at e2'; cases e2'
      refine ⟨(name, te) :: tes, .cons ⟨rfl, l1⟩ t1, fun done rest hd => ?_⟩
      obtain ⟨k1, k2⟩ := hlast done te hd
      simp only [List.length_cons, exeSections, List.append_assoc, r1, l2, Res.bind_ok, k1, t2 _ rest k2]
      simp

theorem set_roundtrip (letters : UString) (a : Alphabet) (ts : List (UString × Transducer Dbl))
    (hl : letters.length < 2 ^ 30) (ha : Alphabet.Ok a) (hw : Alphabet.Writable a) (ht : SetInRange ts) :
    ∃ bs ls, writeSet letters a ts = .ok bs ∧ ls.Pairwise (· < ·) ∧ (∀ c, c ∈ ls ↔ c ∈ vec32 letters) ∧
      (∀ rest, readSet (bs ++ rest) = .ok ((ls, a, ts.map (fun e => (e.1, cut e.2))), rest)) ∧
      ((∀ e ∈ ts, ∀ q c w p, Edge e.2 q (c, w) p → ∃ pr, a.decode c = .ok pr) →
        ∃ tes, List.Forall₂ (fun e te => te.1 = e.1 ∧ Loaded a (cut e.2) te.2) ts tes ∧
          ∀ rest, exeSet (bs ++ rest) = .ok ((ls, a, tes), rest)) := by
  obtain ⟨t1, t2, t3⟩ := ht
  obtain ⟨b1, e1, r1⟩ := letters_roundtrip letters hl
  obtain ⟨b2, e2, r2⟩ := Alphabet.binary_roundtrip ha hw
  obtain ⟨b3, e3, r3⟩ := mbi_ok (ts.length : Int) (by omega) (by omega)
  obtain ⟨b4, e4, r4, x4⟩ := sections_roundtrip ts t1 t3
  have hsh : ∀ rest, readShared (headerL ++ writeU64be 0 ++ b1 ++ b2 ++ b3 ++ b4 ++ rest) =
      .ok (letterSet letters, a, b3 ++ (b4 ++ rest)) := by
    intro rest
    have ea : headerL ++ writeU64be 0 ++ b1 ++ b2 ++ b3 ++ b4 ++ rest =
        headerL ++ (writeU64be 0 ++ (b1 ++ (b2 ++ (b3 ++ (b4 ++ rest))))) := by simp only [List.append_assoc]
    have c1 : (headerL ++ (writeU64be 0 ++ (b1 ++ (b2 ++ (b3 ++ (b4 ++ rest)))))).take 4 = headerL := by simp [headerL]
    have c2 : (headerL ++ (writeU64be 0 ++ (b1 ++ (b2 ++ (b3 ++ (b4 ++ rest)))))).drop 4 =
        writeU64be 0 ++ (b1 ++ (b2 ++ (b3 ++ (b4 ++ rest)))) := by simp [headerL]
    have c3 : ¬ (0 : UInt64) ≥ 1 := by decide
    unfold readShared
    rw [ea, if_pos c1, c2, readU64be_write]
    simp only [Res.bind_ok, if_neg c3, Res.pure_eq, r1, r2]
  refine ⟨headerL ++ writeU64be 0 ++ b1 ++ b2 ++ b3 ++ b4, letterSet letters, ?_, ?_, ?_, ?_, ?_⟩
  · simp only [writeSet, e1, e2, e3, e4, Res.bind_ok, Res.pure_eq]
  · exact sorted_foldl_setInsert _ _ List.Pairwise.nil
  · intro c
    unfold letterSet
    rw [mem_foldl_setInsert]; simp
  · intro rest
    unfold readSet
    rw [hsh rest]
    simp only [Res.bind_ok, r3, ofInt_toNat t2, r4 [] rest (by simp), List.nil_append, Res.pure_eq]
  · intro hlab
    obtain ⟨tes, x1, x2⟩ := x4 a hlab
    refine ⟨tes, x1, fun rest => ?_⟩
    unfold exeSet
    rw [hsh rest]
    simp only [Res.bind_ok, r3, ofInt_toNat t2, x2 [] rest (by simp), List.nil_append, Res.pure_eq]

/-- **C59** A set of transducers in range is written without an error. Reading it back in any context restores the set of
letters (the code points of the letter string), the alphabet and every named transducer, with weights cut to 30 significant
bits. If the alphabet has the labels, the run-time loader restores the same letters, alphabet, names and graphs. -/
theorem C59_roundtrip (letters : UString) (a : Alphabet) (ts : List (UString × Transducer Dbl))
    (hl : letters.length < 2 ^ 30) (ha : Alphabet.Reachable a) (hw : Alphabet.Writable a) (ht : SetInRange ts) :
    ∃ bs ls, writeSet letters a ts = .ok bs ∧ ls.Pairwise (· < ·) ∧ (∀ c, c ∈ ls ↔ c ∈ vec32 letters) ∧
      (∀ rest, readSet (bs ++ rest) = .ok ((ls, a, ts.map (fun e => (e.1, cut e.2))), rest)) ∧
      ((∀ e ∈ ts, ∀ q c w p, Edge e.2 q (c, w) p → ∃ pr, a.decode c = .ok pr) →
        ∃ tes, List.Forall₂ (fun e te => te.1 = e.1 ∧ Loaded a (cut e.2) te.2) ts tes ∧
          ∀ rest, exeSet (bs ++ rest) = .ok ((ls, a, tes), rest)) := set_roundtrip letters a ts hl ha.ok hw ht

theorem exSet_inRange : SetInRange [([0x6d, 0x61], exBin), ([0x73], exBin)] := by
  refine ⟨by decide, by decide, ?_⟩
  intro e he
  simp only [List.mem_cons, List.not_mem_nil, or_false] at he
  rcases he with rfl | rfl <;> exact ⟨by decide, exBin_wf, exBin_inRange⟩

-- letters "ab" and one astral letter, two sections "ma" and "s"
example : Alphabet.Reachable Alphabet.exAlpha ∧ Alphabet.Writable Alphabet.exAlpha ∧
    SetInRange [([0x6d, 0x61], exBin), ([0x73], exBin)] ∧ vec32 [0x61, 0x62, 0xd83d, 0xde00] = [0x61, 0x62, 0x1f600] :=
  ⟨Alphabet.exAlpha_reachable, Alphabet.exAlpha_writable, exSet_inRange, by decide⟩

/-- **C59** For the overload that takes the letters as a set of code points the property is false: letters outside the
Basic Multilingual Plane are cut to 16 bits when written. The set {U+1F600} is read back as {U+F600}. -/
theorem C59_letter_set_false : ¬ ∀ (letters : List UInt32) (a : Alphabet) (ts : List (UString × Transducer Dbl)),
    letters.Pairwise (· < ·) → letters.length < 2 ^ 30 → (∀ c ∈ letters, c.toNat < 0x110000) → Alphabet.Reachable a →
    Alphabet.Writable a → SetInRange ts → ∃ bs, writeSetL letters a ts = .ok bs ∧
      ∀ rest, readSet (bs ++ rest) = .ok ((letters, a, ts.map (fun e => (e.1, cut e.2))), rest) := by
  intro h
  obtain ⟨bs, h1, h2⟩ := h [0x1f600] Alphabet.exAlpha [] (by decide) (by decide) (by decide) Alphabet.exAlpha_reachable
    Alphabet.exAlpha_writable ⟨.nil, by decide, by simp⟩
  obtain ⟨bs', ls, g1, -, g3, g4, -⟩ := C59_roundtrip [0xf600] Alphabet.exAlpha [] (by decide) Alphabet.exAlpha_reachable
    Alphabet.exAlpha_writable ⟨.nil, by decide, by simp⟩
  have e : writeSetL [0x1f600] Alphabet.exAlpha [] = writeSet [0xf600] Alphabet.exAlpha [] := rfl
  rw [e, g1] at h1
  cases h1
  have := (g4 []).symm.trans (h2 [])
  simp only [Res.ok.injEq, Prod.mk.injEq] at this
  have h3 := (g3 0x1f600).1 (by rw [this.1.1]; exact List.mem_cons_self)
  revert h3
  decide

theorem vec32_bmp (letters : List UInt32) (h : ∀ c ∈ letters, c.toNat < 0x10000 ∧ ¬ (0xd800 ≤ c.toNat ∧ c.toNat < 0xdc00)) :
    vec32 (letters.map (·.toUInt16)) = letters := by
  induction letters with
  | nil => rfl
  | cons c ls ih =>
    have hc := h c List.mem_cons_self
    have ih := ih (fun x hx => h x (List.mem_cons_of_mem _ hx))
    have hback : c.toUInt16.toUInt32 = c := by
      apply UInt32.toNat_inj.1
      simp; omega
    have hlead : isLead c.toUInt16 = false := by
      cases hl : isLead c.toUInt16 with
      | false => rfl
      | true =>
        rw [isLead_iff] at hl
        simp only [UInt32.toNat_toUInt16] at hl
        omega
    cases ls with
    | nil => simp [vec32, hback]
    | cons d ls =>
      simp only [List.map_cons] at ih ⊢
      rw [vec32]
      simp only [hlead, Bool.false_and, Bool.false_eq_true, if_false, hback, ih]

theorem sorted_ext {l l' : List UInt32} (h : l.Pairwise (· < ·)) (h' : l'.Pairwise (· < ·)) (e : ∀ c, c ∈ l ↔ c ∈ l') :
    l = l' := by
  have hp : l.Perm l' := (List.perm_ext_iff_of_nodup (h.imp fun h => ne_of_lt h) (h'.imp fun h => ne_of_lt h)).2 e
  refine hp.eq_of_pairwise (le := fun x y => x < y) ?_ h h'
  intro a b _ _ hab hba
  exact absurd hab (lt_asymm hba)

/-- **C59, partial** The overload for sets of code points, for letters below U+10000 that are not lead surrogates. Missing:
letters from U+10000 on, which are changed (see above). -/
theorem C59_letter_set_partial (letters : List UInt32) (a : Alphabet) (ts : List (UString × Transducer Dbl))
    (hs : letters.Pairwise (· < ·)) (hl : letters.length < 2 ^ 30)
    (hb : ∀ c ∈ letters, c.toNat < 0x10000 ∧ ¬ (0xd800 ≤ c.toNat ∧ c.toNat < 0xdc00)) (ha : Alphabet.Reachable a)
    (hw : Alphabet.Writable a) (ht : SetInRange ts) : ∃ bs, writeSetL letters a ts = .ok bs ∧
      ∀ rest, readSet (bs ++ rest) = .ok ((letters, a, ts.map (fun e => (e.1, cut e.2))), rest) := by
  obtain ⟨bs, ls, g1, g2, g3, g4, -⟩ := C59_roundtrip (letters.map (·.toUInt16)) a ts (by simpa using hl) ha hw ht
  rw [vec32_bmp letters hb] at g3
  have := sorted_ext g2 hs g3
  rw [this] at g4
  exact ⟨bs, g1, g4⟩

example : ([0x61, 0x62, 0xe9] : List UInt32).Pairwise (· < ·) ∧
    ∀ c ∈ ([0x61, 0x62, 0xe9] : List UInt32), c.toNat < 0x10000 ∧ ¬ (0xd800 ≤ c.toNat ∧ c.toNat < 0xdc00) := by decide

end Verif.BinIO
