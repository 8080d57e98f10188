import Verif.Compression.Lemmas

/-! # Properties of the compressed binary formats (C01-C05 and the feature word of C06) -/

namespace Verif.Compression

/-- **C01** Every value below 2^30 is written, and reading it back in front of any further bytes gives
the value and leaves exactly those further bytes; this holds for the `FILE` reader and for the stream
reader. -/
theorem C01_multibyte_roundtrip (v : UInt32) (h : v.toNat < 2 ^ 30) :
    ∃ bs, multibyteWrite v = some bs ∧
      ∀ rest, multibyteRead (bs ++ rest) = (v, rest) ∧ multibyteReadS (bs ++ rest) = .ok (v, rest) := by
  obtain ⟨bs, hb⟩ := (multibyteWrite_isSome v).2 h
  exact ⟨bs, hb, fun s => ⟨multibyteRead_write v bs hb s, multibyteReadS_write v bs hb s⟩⟩

example : ((0x3fffffff : UInt32).toNat < 2 ^ 30) ∧
    multibyteRead ([0xff, 0xff, 0xff, 0xff] ++ [7]) = (0x3fffffff, [7]) := by decide

/-- **C02** Refusal happens exactly from 2^30 on. -/
theorem C02_multibyte_refusal (v : UInt32) : multibyteWrite v = none ↔ 2 ^ 30 ≤ v.toNat := by
  have := multibyteWrite_isSome v
  cases h : multibyteWrite v with
  | none => simp [h] at this; simp; omega
  | some bs => simp [h] at this; simp; omega

example : multibyteWrite 0x40000000 = none ∧ multibyteWrite 0x3fffffff ≠ none := by decide

/-- **C02** The number of bytes written is determined by the range of the value. -/
theorem C02_multibyte_length (v : UInt32) (bs : List UInt8) (h : multibyteWrite v = some bs) :
    bs.length = if v.toNat < 2 ^ 6 then 1 else if v.toNat < 2 ^ 14 then 2
      else if v.toNat < 2 ^ 22 then 3 else 4 := by
  rcases multibyteWrite_cases v with ⟨_, b0, e, h0⟩ | ⟨_, _, b0, b1, e, h0, h1⟩ |
    ⟨_, _, b0, b1, b2, e, h0, h1, h2⟩ | ⟨_, _, b0, b1, b2, b3, e, h0, h1, h2, h3⟩ | ⟨_, e⟩ <;>
    rw [e] at h <;> simp only [Option.some.injEq, reduceCtorEq] at h <;> subst h <;>
    simp only [List.length_cons, List.length_nil] <;> (repeat' split) <;> omega

example : multibyteWrite 0x4000 = some [0x80, 0x40, 0x00] := by decide

/-- **C03** No encoding is a proper prefix of another one. -/
theorem C03_prefix_free (v w : UInt32) (a r : List UInt8) (hv : multibyteWrite v = some a)
    (hw : multibyteWrite w = some (a ++ r)) : r = [] ∧ v = w := by
  have h1 := multibyteRead_write v a hv r
  have h2 := multibyteRead_write w (a ++ r) hw []
  rw [List.append_nil, h1] at h2
  simp only [Prod.mk.injEq] at h2
  exact ⟨h2.2, h2.1⟩

example : multibyteWrite 300 = some [0x41, 0x2c] ∧ multibyteWrite 0x41 = some [0x40, 0x41] := by decide

/-- **C03** Sequences of encodable values are uniquely decodable. -/
theorem C03_unique_decoding (xs ys : List UInt32) (bs : List UInt8) (hx : writeAll xs = some bs)
    (hy : writeAll ys = some bs) : xs = ys := by
  induction xs generalizing ys bs with
  | nil =>
    cases ys with
    | nil => rfl
    | cons y ys =>
      simp only [writeAll, Option.some.injEq, Option.pure_def, Option.bind_eq_bind,
        Option.bind_eq_some_iff] at hx hy
      obtain ⟨a, ha, b, _, e⟩ := hy
      have := multibyteWrite_ne_nil y a ha
      rw [← hx] at e
      simp at e; exact absurd e.1 this
  | cons x xs ih =>
    cases ys with
    | nil =>
      simp only [writeAll, Option.some.injEq, Option.pure_def, Option.bind_eq_bind,
        Option.bind_eq_some_iff] at hx hy
      obtain ⟨a, ha, b, _, e⟩ := hx
      have := multibyteWrite_ne_nil x a ha
      rw [← hy] at e
      simp at e; exact absurd e.1 this
    | cons y ys =>
      simp only [writeAll, Option.pure_def, Option.bind_eq_bind, Option.bind_eq_some_iff,
        Option.some.injEq] at hx hy
      obtain ⟨a, ha, b, hb, e⟩ := hx
      obtain ⟨c, hc, d, hd, e'⟩ := hy
      have h1 := multibyteRead_write x a ha b
      have h2 := multibyteRead_write y c hc d
      rw [e] at h1; rw [e', h1] at h2
      simp only [Prod.mk.injEq] at h2
      obtain ⟨rfl, rfl⟩ := h2
      rw [ih ys b hb hd]

example : writeAll [300, 5] = some [0x41, 0x2c, 0x05] := by decide

/-- **C04** Every UTF-16 string whose number of code points is below 2^30 is written, and read back
unit for unit in front of any further bytes. -/
theorem C04_string_roundtrip (s : List UInt16) (h : (vec32 s).length < 2 ^ 30) :
    ∃ bs, stringWrite s = some bs ∧ ∀ rest, stringRead (bs ++ rest) = (s, rest) := by
  have hn : (UInt32.ofNat (vec32 s).length).toNat = (vec32 s).length := by
    rw [UInt32.toNat_ofNat']; exact Nat.mod_eq_of_lt (by omega)
  obtain ⟨bs, hb⟩ := (writeAll_isSome (UInt32.ofNat (vec32 s).length :: vec32 s)).2 (by
    intro v hv
    rcases List.mem_cons.1 hv with rfl | hv
    · omega
    · have := vec32_lt s v hv; omega)
  refine ⟨bs, hb, fun rest => ?_⟩
  have := readMany_writeAll _ bs hb rest
  simp only [List.length_cons, readMany, Prod.mk.injEq] at this
  obtain ⟨h1, h2⟩ := this
  rw [List.cons.injEq] at h1
  simp only [stringRead, h1.1, hn, h1.2, h2, unitsOf_vec32]

/-- A sufficient condition on the number of units (every code point has at least one). -/
theorem C04_string_roundtrip_units (s : List UInt16) (h : s.length < 2 ^ 30) :
    ∃ bs, stringWrite s = some bs ∧ ∀ rest, stringRead (bs ++ rest) = (s, rest) :=
  C04_string_roundtrip s (Nat.lt_of_le_of_lt (vec32_length_le s) h)

-- a letter, an unpaired trail surrogate, a surrogate pair, an unpaired lead surrogate
example : stringWrite [0x61, 0xDC00, 0xD83D, 0xDE00, 0xD800] =
      some [4, 0x40, 0x61, 0x80, 0xDC, 0x00, 0x81, 0xF6, 0x00, 0x80, 0xD8, 0x00] := by decide

/-- **C05** The word format keeps every pair of 32-bit words, in any context. -/
theorem C05_weight_words_roundtrip (w : Words) : ∃ bs, wordsWrite w = some bs ∧
    ∀ rest, wordsRead (bs ++ rest) = (w, rest) := wordsRead_write w

/-- Specification: the weight that keeps the 30 most significant of the 53 bits of the significand. -/
def cut30 : Dbl → Dbl
  | .fin M e => .fin (M.tdiv (2 ^ 23) * 2 ^ 23) e
  | .posInf => .posInf
  | .negInf => .negInf

/-- **C05** What happens to a weight: it is always written; infinities come back; a finite weight comes back
with its 53-bit significand cut to its 30 most significant bits, same exponent. -/
theorem C05_weight_roundtrip (d : Dbl) (hd : d.Normal) : ∃ bs, longMultibyteWrite d = some bs ∧
    ∀ rest, longMultibyteRead (bs ++ rest) = (cut30 d, rest) := by
  obtain ⟨bs, hb, hr⟩ := wordsRead_write (wordsOf d)
  refine ⟨bs, hb, fun rest => ?_⟩
  simp only [longMultibyteRead, hr rest, Prod.mk.injEq, and_true]
  cases d with
  | posInf => rfl
  | negInf => rfl
  | fin M e =>
    have hM : -2 ^ 30 < M.tdiv (2 ^ 23) ∧ M.tdiv (2 ^ 23) < 2 ^ 30 ∧ -2 ^ 30 < e ∧ e < 2 ^ 30 ∧
        M.tdiv (2 ^ 23) ≠ -1 := by
      simp only [Dbl.Normal] at hd
      have e1 : M.tdiv (2 ^ 23) = if 0 ≤ M then ((M.natAbs / 2 ^ 23 : Nat) : Int)
          else -((M.natAbs / 2 ^ 23 : Nat) : Int) := by
        rcases Int.natAbs_eq M with h | h
        · rw [if_pos (by omega)]; rw [h]; norm_cast
        · by_cases h0 : M = 0
          · subst h0; rfl
          · rw [if_neg (by omega)]; rw [h]; rw [Int.neg_tdiv]; norm_cast; simp
      rw [e1]
      split <;> omega
    obtain ⟨h1, h2, h3, h4, h5⟩ := hM
    have t1 := toInt32_ofInt (M.tdiv (2 ^ 23)) (by omega) (by omega)
    have t2 := toInt32_ofInt e (by omega) (by omega)
    have hne : ¬ ((wordsOf (.fin M e)).mantissa = 0xffffffff ∧ 0xfffffffe ≤ (wordsOf (.fin M e)).exponent) := by
      rintro ⟨h, -⟩
      simp only [wordsOf] at h
      rw [h] at t1
      have : toInt32 0xffffffff = -1 := by decide
      omega
    simp only [dblOf, hne, if_false, cut30]
    simp only [wordsOf, t1, t2]

/-- **C05** A finite weight survives exactly when its significand has at most 30 significant bits. -/
theorem C05_weight_exact_iff (M e : Int) (hd : (Dbl.fin M e).Normal) :
    (∃ bs, longMultibyteWrite (.fin M e) = some bs ∧ ∀ rest, longMultibyteRead (bs ++ rest) = (.fin M e, rest))
      ↔ (2 ^ 23 : Int) ∣ M := by
  obtain ⟨bs, hb, hr⟩ := C05_weight_roundtrip _ hd
  constructor
  · rintro ⟨bs', hb', hr'⟩
    rw [hb] at hb'; cases hb'
    have := hr' []
    rw [hr []] at this
    simp only [cut30, Prod.mk.injEq, Dbl.fin.injEq, and_true] at this
    exact ⟨M.tdiv (2 ^ 23), by rw [Int.mul_comm]; exact this.symm⟩
  · intro h
    refine ⟨bs, hb, fun rest => ?_⟩
    rw [hr rest]
    simp only [cut30, Int.tdiv_mul_cancel h]

/-- **C05** Otherwise the loss is bounded: the weight read back never exceeds the original in size, has its
sign, and the relative error is below 2^-29. -/
theorem C05_weight_error (M : Int) (hM : 2 ^ 52 ≤ M.natAbs) :
    let M' := M.tdiv (2 ^ 23) * 2 ^ 23
    (M - M').natAbs * 2 ^ 29 < M.natAbs ∧ M'.natAbs ≤ M.natAbs ∧ (0 < M ↔ 0 < M') := by
  intro M'
  have e1 : M.tdiv (2 ^ 23) = if 0 ≤ M then M / 2 ^ 23 else -(-M / 2 ^ 23) := by
    split
    · rw [Int.tdiv_eq_ediv_of_nonneg (by omega)]
    · rw [← Int.tdiv_eq_ediv_of_nonneg (a := -M) (by omega), Int.neg_tdiv]; omega
  simp only [M', e1]
  split <;> omega

/-- **C05** Exactness of every weight is false of the format: 1 + 2^-52 is read back as 1. -/
theorem C05_exact_all_false : ¬ ∀ d : Dbl, d.Normal → ∃ bs, longMultibyteWrite d = some bs ∧
    ∀ rest, longMultibyteRead (bs ++ rest) = (d, rest) := by
  intro h
  have hn : (Dbl.fin (2 ^ 52 + 1) 1).Normal := by simp [Dbl.Normal]
  have := (C05_weight_exact_iff (2 ^ 52 + 1) 1 hn).1 (h _ hn)
  omega

-- the hypotheses are met by 0.75, 1/3 (rounded) and by minus the smallest subnormal
example : (Dbl.fin (3 * 2 ^ 51) 0).Normal ∧ (Dbl.fin 6004799503160661 (-1)).Normal ∧
    (Dbl.fin (-2 ^ 52) (-1073)).Normal ∧ (2 ^ 23 : Int) ∣ 3 * 2 ^ 51 ∧ ¬ (2 ^ 23 : Int) ∣ 6004799503160661 := by
  simp [Dbl.Normal]

/-- **C06** The feature word round-trips. -/
theorem C06_feature_word_roundtrip (v : UInt64) (rest : List UInt8) :
    readU64be (writeU64be v ++ rest) = .ok (v, rest) := readU64be_write v rest

/-- **C06** A stream cut inside the feature word throws. -/
theorem C06_feature_word_truncated (v : UInt64) (p q : List UInt8) (h : writeU64be v = p ++ q) (hq : q ≠ []) :
    readU64be p = .exception := by
  have hl : (writeU64be v).length = 8 := rfl
  rw [h] at hl
  have : 0 < q.length := List.length_pos_iff.2 hq
  simp only [List.length_append] at hl
  match p, hl with
  | [], _ => rfl
  | [_], _ => rfl
  | [_, _], _ => rfl
  | [_, _, _], _ => rfl
  | [_, _, _, _], _ => rfl
  | [_, _, _, _, _], _ => rfl
  | [_, _, _, _, _, _], _ => rfl
  | [_, _, _, _, _, _, _], _ => rfl
  | _ :: _ :: _ :: _ :: _ :: _ :: _ :: _ :: t, hl => simp at hl; omega

example : writeU64be 0x0102030405060708 = [1, 2, 3, 4, 5, 6, 7] ++ [8] ∧ ([8] : List UInt8) ≠ [] := by decide

end Verif.Compression
