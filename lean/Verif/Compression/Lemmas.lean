import Verif.Compression.Model

/-! Auxiliary lemmas for the compressed number formats. -/

namespace Verif.Compression

theorem or_shift (a b i : Nat) (h : b < 2 ^ i) : b ||| a * 2 ^ i = a * 2 ^ i + b := by
  rw [Nat.or_comm, Nat.mul_comm, Nat.two_pow_add_eq_or_of_lt h]

theorem byte_or_40 (a : UInt8) (h : a.toNat < 64) : (a ||| 0x40).toNat = a.toNat + 64 := by
  have := or_shift 1 a.toNat 6 (by omega)
  simp only [UInt8.toNat_or]; simp at this ⊢; omega

theorem byte_or_80 (a : UInt8) (h : a.toNat < 64) : (a ||| 0x80).toNat = a.toNat + 128 := by
  have := or_shift 2 a.toNat 6 (by omega)
  simp only [UInt8.toNat_or]; simp at this ⊢; omega

theorem byte_or_c0 (a : UInt8) (h : a.toNat < 64) : (a ||| 0xc0).toNat = a.toNat + 192 := by
  have := or_shift 3 a.toNat 6 (by omega)
  simp only [UInt8.toNat_or]; simp at this ⊢; omega

theorem byte_and_3f (a : UInt8) : (a &&& 0x3f).toNat = a.toNat % 64 := by
  simp only [UInt8.toNat_and]
  exact Nat.and_two_pow_sub_one_eq_mod a.toNat 6

theorem or_shift8 (r : UInt32) (b : UInt8) (h : r.toNat < 2 ^ 24) :
    (b.toUInt32 ||| (r <<< 8)).toNat = r.toNat * 256 + b.toNat := by
  have hb := b.toNat_lt
  have := or_shift r.toNat b.toNat 8 (by omega)
  simp only [UInt32.toNat_or, UInt32.toNat_shiftLeft, UInt8.toNat_toUInt32]
  simp only [Nat.shiftLeft_eq] at *
  simp at *
  rw [Nat.mod_eq_of_lt (by omega), this]

theorem multibyteRead_eq1 (b0 : UInt8) (s : List UInt8) (h : b0.toNat < 64) :
    multibyteRead (b0 :: s) = (UInt32.ofNat b0.toNat, s) := by
  have : b0 < 0x40 := by rw [UInt8.lt_iff_toNat_lt]; exact h
  have hb := b0.toNat_lt
  simp only [multibyteRead, readByte, this, if_true, Prod.mk.injEq, and_true]
  rw [← UInt32.toNat_inj]; simp

theorem multibyteRead_eq2 (b0 b1 : UInt8) (s : List UInt8) (h : b0.toNat / 64 = 1) :
    multibyteRead (b0 :: b1 :: s) = (UInt32.ofNat (b0.toNat % 64 * 256 + b1.toNat), s) := by
  have hb := b0.toNat_lt
  have hb1 := b1.toNat_lt
  have h1 : ¬ b0 < 0x40 := by rw [UInt8.lt_iff_toNat_lt]; simp; omega
  have h2 : b0 < 0x80 := by rw [UInt8.lt_iff_toNat_lt]; simp; omega
  simp only [multibyteRead, readByte, h1, h2, if_true, if_false, Prod.mk.injEq, and_true]
  rw [← UInt32.toNat_inj, or_shift8, UInt8.toNat_toUInt32, byte_and_3f]
  · simp; omega
  · rw [UInt8.toNat_toUInt32, byte_and_3f]; omega

theorem multibyteRead_eq3 (b0 b1 b2 : UInt8) (s : List UInt8) (h : b0.toNat / 64 = 2) :
    multibyteRead (b0 :: b1 :: b2 :: s) =
      (UInt32.ofNat ((b0.toNat % 64 * 256 + b1.toNat) * 256 + b2.toNat), s) := by
  have hb := b0.toNat_lt
  have hb1 := b1.toNat_lt
  have hb2 := b2.toNat_lt
  have h1 : ¬ b0 < 0x40 := by rw [UInt8.lt_iff_toNat_lt]; simp; omega
  have h2 : ¬ b0 < 0x80 := by rw [UInt8.lt_iff_toNat_lt]; simp; omega
  have h3 : b0 < 0xc0 := by rw [UInt8.lt_iff_toNat_lt]; simp; omega
  simp only [multibyteRead, readByte, h1, h2, h3, if_true, if_false, Prod.mk.injEq, and_true]
  have e0 : ((b0 &&& 0x3f).toUInt32).toNat = b0.toNat % 64 := by
    rw [UInt8.toNat_toUInt32, byte_and_3f]
  have e1 := or_shift8 _ b1 (by rw [e0]; omega)
  have e2 := or_shift8 _ b2 (by rw [e1]; omega)
  rw [← UInt32.toNat_inj, e2, e1, e0]
  simp; omega

theorem multibyteRead_eq4 (b0 b1 b2 b3 : UInt8) (s : List UInt8) (h : b0.toNat / 64 = 3) :
    multibyteRead (b0 :: b1 :: b2 :: b3 :: s) =
      (UInt32.ofNat (((b0.toNat % 64 * 256 + b1.toNat) * 256 + b2.toNat) * 256 + b3.toNat), s) := by
  have hb := b0.toNat_lt
  have hb1 := b1.toNat_lt
  have hb2 := b2.toNat_lt
  have hb3 := b3.toNat_lt
  have h1 : ¬ b0 < 0x40 := by rw [UInt8.lt_iff_toNat_lt]; simp; omega
  have h2 : ¬ b0 < 0x80 := by rw [UInt8.lt_iff_toNat_lt]; simp; omega
  have h3 : ¬ b0 < 0xc0 := by rw [UInt8.lt_iff_toNat_lt]; simp; omega
  simp only [multibyteRead, readByte, h1, h2, h3, if_false, Prod.mk.injEq, and_true]
  have e0 : ((b0 &&& 0x3f).toUInt32).toNat = b0.toNat % 64 := by
    rw [UInt8.toNat_toUInt32, byte_and_3f]
  have e1 := or_shift8 _ b1 (by rw [e0]; omega)
  have e2 := or_shift8 _ b2 (by rw [e1]; omega)
  have e3 := or_shift8 _ b3 (by rw [e2]; omega)
  rw [← UInt32.toNat_inj, e3, e2, e1, e0]
  simp; omega

/-- The writer in arithmetic form. -/
theorem multibyteWrite_cases (v : UInt32) :
    (v.toNat < 2 ^ 6 ∧ ∃ b0, multibyteWrite v = some [b0] ∧ b0.toNat = v.toNat) ∨
    (2 ^ 6 ≤ v.toNat ∧ v.toNat < 2 ^ 14 ∧ ∃ b0 b1, multibyteWrite v = some [b0, b1] ∧
      b0.toNat = 64 + v.toNat / 256 ∧ b1.toNat = v.toNat % 256) ∨
    (2 ^ 14 ≤ v.toNat ∧ v.toNat < 2 ^ 22 ∧ ∃ b0 b1 b2, multibyteWrite v = some [b0, b1, b2] ∧
      b0.toNat = 128 + v.toNat / 65536 ∧ b1.toNat = v.toNat / 256 % 256 ∧ b2.toNat = v.toNat % 256) ∨
    (2 ^ 22 ≤ v.toNat ∧ v.toNat < 2 ^ 30 ∧ ∃ b0 b1 b2 b3, multibyteWrite v = some [b0, b1, b2, b3] ∧
      b0.toNat = 192 + v.toNat / 16777216 ∧ b1.toNat = v.toNat / 65536 % 256 ∧
      b2.toNat = v.toNat / 256 % 256 ∧ b3.toNat = v.toNat % 256) ∨
    (2 ^ 30 ≤ v.toNat ∧ multibyteWrite v = none) := by
  have hl : ∀ k : UInt32, (v < k) = (v.toNat < k.toNat) := fun k => by
    rw [UInt32.lt_iff_toNat_lt]
  have s8 : ((v >>> 8).toUInt8).toNat = v.toNat / 256 % 256 := by
    simp [Nat.shiftRight_eq_div_pow]
  have s16 : ((v >>> 16).toUInt8).toNat = v.toNat / 65536 % 256 := by
    simp [Nat.shiftRight_eq_div_pow]
  have s24 : ((v >>> 24).toUInt8).toNat = v.toNat / 16777216 % 256 := by
    simp [Nat.shiftRight_eq_div_pow]
  have s0 : (v.toUInt8).toNat = v.toNat % 256 := by simp
  by_cases c1 : v.toNat < 64
  · refine Or.inl ⟨by omega, _, by simp [multibyteWrite, hl, c1]; rfl, by omega⟩
  by_cases c2 : v.toNat < 16384
  · refine Or.inr (Or.inl ⟨by omega, by omega, _, _, by simp [multibyteWrite, hl, c1, c2]; exact ⟨rfl, rfl⟩, ?_, by omega⟩)
    rw [byte_or_40 _ (by omega)]; omega
  by_cases c3 : v.toNat < 4194304
  · refine Or.inr (Or.inr (Or.inl ⟨by omega, by omega, _, _, _, by simp [multibyteWrite, hl, c1, c2, c3]; exact ⟨rfl, rfl, rfl⟩, ?_, by omega, by omega⟩))
    rw [byte_or_80 _ (by omega)]; omega
  by_cases c4 : v.toNat < 1073741824
  · refine Or.inr (Or.inr (Or.inr (Or.inl ⟨by omega, by omega, _, _, _, _, by simp [multibyteWrite, hl, c1, c2, c3, c4]; exact ⟨rfl, rfl, rfl, rfl⟩, ?_, by omega, by omega, by omega⟩)))
    rw [byte_or_c0 _ (by omega)]; omega
  · exact Or.inr (Or.inr (Or.inr (Or.inr ⟨by omega, by simp [multibyteWrite, hl, c1, c2, c3, c4]⟩)))

theorem ofNat_toNat_eq (v : UInt32) (n : Nat) (h : n = v.toNat) : UInt32.ofNat n = v := by
  subst h; simp

/-- Reading what was written, in any context. -/
theorem multibyteRead_write (v : UInt32) (bs : List UInt8) (h : multibyteWrite v = some bs)
    (s : List UInt8) : multibyteRead (bs ++ s) = (v, s) := by
  have hv := v.toNat_lt
  rcases multibyteWrite_cases v with ⟨_, b0, e, h0⟩ | ⟨_, _, b0, b1, e, h0, h1⟩ |
    ⟨_, _, b0, b1, b2, e, h0, h1, h2⟩ | ⟨_, _, b0, b1, b2, b3, e, h0, h1, h2, h3⟩ | ⟨_, e⟩ <;>
    rw [e] at h <;> simp only [Option.some.injEq, reduceCtorEq] at h <;> subst h <;>
    simp only [List.cons_append, List.nil_append]
  · rw [multibyteRead_eq1 _ _ (by omega), ofNat_toNat_eq v _ (by omega)]
  · rw [multibyteRead_eq2 _ _ _ (by omega), ofNat_toNat_eq v _ (by omega)]
  · rw [multibyteRead_eq3 _ _ _ _ (by omega), ofNat_toNat_eq v _ (by omega)]
  · rw [multibyteRead_eq4 _ _ _ _ _ (by omega), ofNat_toNat_eq v _ (by omega)]

theorem multibyteWrite_isSome (v : UInt32) : (∃ bs, multibyteWrite v = some bs) ↔ v.toNat < 2 ^ 30 := by
  rcases multibyteWrite_cases v with ⟨_, b0, e, h0⟩ | ⟨_, _, b0, b1, e, h0, h1⟩ |
    ⟨_, _, b0, b1, b2, e, h0, h1, h2⟩ | ⟨_, _, b0, b1, b2, b3, e, h0, h1, h2, h3⟩ | ⟨_, e⟩ <;>
    rw [e] <;> simp <;> omega

theorem multibyteWrite_ne_nil (v : UInt32) (bs : List UInt8) (h : multibyteWrite v = some bs) :
    bs ≠ [] := by
  rcases multibyteWrite_cases v with ⟨_, b0, e, h0⟩ | ⟨_, _, b0, b1, e, h0, h1⟩ |
    ⟨_, _, b0, b1, b2, e, h0, h1, h2⟩ | ⟨_, _, b0, b1, b2, b3, e, h0, h1, h2, h3⟩ | ⟨_, e⟩ <;>
    rw [e] at h <;> simp at h <;> subst h <;> simp

/-- The stream overload agrees with the `FILE` overload whenever it does not read past the end. -/
theorem multibyteReadS_write (v : UInt32) (bs : List UInt8) (h : multibyteWrite v = some bs)
    (s : List UInt8) : multibyteReadS (bs ++ s) = .ok (v, s) := by
  have key := multibyteRead_write v bs h s
  rcases multibyteWrite_cases v with ⟨_, b0, e, h0⟩ | ⟨_, _, b0, b1, e, h0, h1⟩ |
    ⟨_, _, b0, b1, b2, e, h0, h1, h2⟩ | ⟨_, _, b0, b1, b2, b3, e, h0, h1, h2, h3⟩ | ⟨_, e⟩ <;>
    rw [e] at h <;> simp only [Option.some.injEq, reduceCtorEq] at h <;> subst h <;>
    simp only [List.cons_append, List.nil_append] at key ⊢
  · have c1 : b0 < 0x40 := by rw [UInt8.lt_iff_toNat_lt]; simp; omega
    simp only [multibyteRead, readByte, c1, if_true] at key
    simp only [multibyteReadS, readByteS, Res.bind_ok, c1, if_true, key, Res.pure_eq]
  · have c1 : ¬ b0 < 0x40 := by rw [UInt8.lt_iff_toNat_lt]; simp; omega
    have c2 : b0 < 0x80 := by rw [UInt8.lt_iff_toNat_lt]; simp; omega
    simp only [multibyteRead, readByte, c1, c2, if_true, if_false] at key
    simp only [multibyteReadS, readByteS, Res.bind_ok, c1, c2, if_true, if_false, key, Res.pure_eq]
  · have c1 : ¬ b0 < 0x40 := by rw [UInt8.lt_iff_toNat_lt]; simp; omega
    have c2 : ¬ b0 < 0x80 := by rw [UInt8.lt_iff_toNat_lt]; simp; omega
    have c3 : b0 < 0xc0 := by rw [UInt8.lt_iff_toNat_lt]; simp; omega
    simp only [multibyteRead, readByte, c1, c2, c3, if_true, if_false] at key
    simp only [multibyteReadS, readByteS, Res.bind_ok, c1, c2, c3, if_true, if_false, key, Res.pure_eq]
  · have c1 : ¬ b0 < 0x40 := by rw [UInt8.lt_iff_toNat_lt]; simp; omega
    have c2 : ¬ b0 < 0x80 := by rw [UInt8.lt_iff_toNat_lt]; simp; omega
    have c3 : ¬ b0 < 0xc0 := by rw [UInt8.lt_iff_toNat_lt]; simp; omega
    simp only [multibyteRead, readByte, c1, c2, c3, if_false] at key
    simp only [multibyteReadS, readByteS, Res.bind_ok, c1, c2, c3, if_false, key, Res.pure_eq]

theorem readMany_writeAll (vs : List UInt32) (bs : List UInt8) (h : writeAll vs = some bs)
    (s : List UInt8) : readMany vs.length (bs ++ s) = (vs, s) := by
  induction vs generalizing bs with
  | nil => simp [writeAll] at h; subst h; rfl
  | cons v vs ih =>
    simp only [writeAll, Option.pure_def, Option.bind_eq_bind, Option.bind_eq_some_iff] at h
    obtain ⟨a, ha, b, hb, hab⟩ := h
    simp only [Option.some.injEq] at hab; subst hab
    simp only [List.length_cons, readMany, List.append_assoc, multibyteRead_write v a ha, ih b hb]

theorem writeAll_isSome (vs : List UInt32) :
    (∃ bs, writeAll vs = some bs) ↔ ∀ v ∈ vs, v.toNat < 2 ^ 30 := by
  induction vs with
  | nil => simp [writeAll]
  | cons v vs ih =>
    constructor
    · rintro ⟨bs, h⟩
      simp only [writeAll, Option.pure_def, Option.bind_eq_bind, Option.bind_eq_some_iff] at h
      obtain ⟨a, ha, b, hb, _⟩ := h
      intro x hx
      rcases List.mem_cons.1 hx with rfl | hx
      · exact (multibyteWrite_isSome _).1 ⟨a, ha⟩
      · exact ih.1 ⟨b, hb⟩ x hx
    · intro h
      obtain ⟨a, ha⟩ := (multibyteWrite_isSome v).2 (h v (by simp))
      obtain ⟨b, hb⟩ := ih.2 (fun x hx => h x (by simp [hx]))
      exact ⟨a ++ b, by simp [writeAll, ha, hb]⟩

/-! ## UTF-16 -/

theorem isLead_iff (u : UInt16) : isLead u = true ↔ 0xD800 ≤ u.toNat ∧ u.toNat ≤ 0xDBFF := by
  simp [isLead, UInt16.le_iff_toNat_le]

theorem isTrail_iff (u : UInt16) : isTrail u = true ↔ 0xDC00 ≤ u.toNat ∧ u.toNat ≤ 0xDFFF := by
  simp [isTrail, UInt16.le_iff_toNat_le]

theorem supplementary_toNat (u v : UInt16) (hu : isLead u = true) (hv : isTrail v = true) :
    (supplementary u v).toNat = (u.toNat - 0xD800) * 1024 + (v.toNat - 0xDC00) + 0x10000 := by
  rw [isLead_iff] at hu; rw [isTrail_iff] at hv
  simp only [supplementary, UInt32.toNat_sub, UInt32.toNat_add, UInt32.toNat_shiftLeft,
    UInt16.toNat_toUInt32, Nat.shiftLeft_eq]
  simp
  omega

theorem unitsOf_unit (u : UInt16) : unitsOf u.toUInt32 = [u] := by
  have : u.toUInt32 ≤ 0xFFFF := by
    rw [UInt32.le_iff_toNat_le]; have := u.toNat_lt; simp; omega
  simp [unitsOf, this]

theorem unitsOf_supplementary (u v : UInt16) (hu : isLead u = true) (hv : isTrail v = true) :
    unitsOf (supplementary u v) = [u, v] := by
  have e := supplementary_toNat u v hu hv
  rw [isLead_iff] at hu; rw [isTrail_iff] at hv
  generalize hc : supplementary u v = c at *
  have h1 : ¬ (c ≤ 0xFFFF ∨ 0x80000000 ≤ c) := by
    simp only [UInt32.le_iff_toNat_le]; simp; omega
  have hand : c.toNat &&& 1023 = c.toNat % 1024 := Nat.and_two_pow_sub_one_eq_mod c.toNat 10
  simp only [unitsOf, h1, if_false, List.cons.injEq, and_true]
  constructor
  · rw [← UInt16.toNat_inj]
    simp only [UInt32.toNat_toUInt16, UInt32.toNat_add, UInt32.toNat_shiftRight,
      UInt32.toNat_sub, Nat.shiftRight_eq_div_pow]
    simp
    omega
  · rw [← UInt16.toNat_inj]
    simp only [UInt32.toNat_toUInt16, UInt32.toNat_add, UInt32.toNat_and]
    simp [hand]
    omega

theorem unitsOf_vec32 (s : List UInt16) : (vec32 s).flatMap unitsOf = s := by
  fun_induction vec32 s with
  | case1 => rfl
  | case2 u => simp [unitsOf_unit]
  | case3 u v rest h ih =>
    simp only [Bool.and_eq_true] at h
    simp [unitsOf_supplementary u v h.1 h.2, ih]
  | case4 u v rest h ih => simp [unitsOf_unit, ih]

theorem vec32_lt (s : List UInt16) : ∀ c ∈ vec32 s, c.toNat < 0x110000 := by
  fun_induction vec32 s with
  | case1 => simp
  | case2 u => have := u.toNat_lt; simp; omega
  | case3 u v rest h ih =>
    simp only [Bool.and_eq_true] at h
    have e := supplementary_toNat u v h.1 h.2
    have h1 := (isLead_iff u).1 h.1
    have h2 := (isTrail_iff v).1 h.2
    simp only [List.mem_cons]
    rintro c (rfl | hc)
    · omega
    · exact ih c hc
  | case4 u v rest h ih =>
    simp only [List.mem_cons]
    rintro c (rfl | hc)
    · have := u.toNat_lt; simp; omega
    · exact ih c hc

theorem vec32_length_le (s : List UInt16) : (vec32 s).length ≤ s.length := by
  fun_induction vec32 s <;> simp_all <;> omega

/-! ## Weights -/

theorem longFieldRead_write (m : UInt32) : ∃ bs, longFieldWrite m = some bs ∧
    ∀ s, longFieldRead (bs ++ s) = (m, s) := by
  have hm := m.toNat_lt
  by_cases h : m.toNat < 2 ^ 26
  · obtain ⟨bs, hb⟩ := (multibyteWrite_isSome m).2 (by omega)
    have h' : m < 0x04000000 := by rw [UInt32.lt_iff_toNat_lt]; simp; omega
    refine ⟨bs, by simp [longFieldWrite, h', hb], fun s => ?_⟩
    simp [longFieldRead, multibyteRead_write m bs hb, h']
  · have h' : ¬ m < 0x04000000 := by rw [UInt32.lt_iff_toNat_lt]; simp; omega
    have e1 : ((m <<< 6) >>> 6).toNat = m.toNat % 2 ^ 26 := by
      simp only [UInt32.toNat_shiftRight, UInt32.toNat_shiftLeft, Nat.shiftRight_eq_div_pow, Nat.shiftLeft_eq]
      simp; omega
    have e2 : ((m >>> 26) ||| 0x04000000).toNat = m.toNat / 2 ^ 26 + 2 ^ 26 := by
      have := or_shift 1 (m.toNat / 2 ^ 26) 26 (by omega)
      simp only [UInt32.toNat_or, UInt32.toNat_shiftRight, Nat.shiftRight_eq_div_pow]
      simp at this ⊢; omega
    obtain ⟨a, ha⟩ := (multibyteWrite_isSome ((m >>> 26) ||| 0x04000000)).2 (by omega)
    obtain ⟨b, hb⟩ := (multibyteWrite_isSome ((m <<< 6) >>> 6)).2 (by omega)
    refine ⟨a ++ b, by simp [longFieldWrite, h', ha, hb], fun s => ?_⟩
    have h'' : ¬ ((m >>> 26) ||| 0x04000000) < (0x04000000 : UInt32) := by
      rw [UInt32.lt_iff_toNat_lt, e2]; simp
    simp only [longFieldRead, List.append_assoc, multibyteRead_write _ a ha, h'', if_false,
      multibyteRead_write _ b hb, Prod.mk.injEq, and_true]
    rw [← UInt32.toNat_inj]
    have e3 : (((m >>> 26) ||| 0x04000000) &&& (0x03ffffff : UInt32)).toNat = m.toNat / 2 ^ 26 := by
      rw [UInt32.toNat_and, e2]
      have := Nat.and_two_pow_sub_one_eq_mod (m.toNat / 2 ^ 26 + 2 ^ 26) 26
      simp at this ⊢; rw [this]; omega
    have := or_shift (m.toNat / 2 ^ 26) (m.toNat % 2 ^ 26) 26 (by omega)
    rw [UInt32.toNat_or, e1, UInt32.toNat_shiftLeft, e3, Nat.shiftLeft_eq]
    simp only [UInt32.toNat_ofNat]
    simp at this ⊢
    rw [Nat.mod_eq_of_lt (a := m.toNat / 67108864 * 67108864) (by omega), this]; omega

theorem wordsRead_write (w : Words) : ∃ bs, wordsWrite w = some bs ∧
    ∀ s, wordsRead (bs ++ s) = (w, s) := by
  obtain ⟨a, ha, ra⟩ := longFieldRead_write w.mantissa
  obtain ⟨b, hb, rb⟩ := longFieldRead_write w.exponent
  exact ⟨a ++ b, by simp [wordsWrite, ha, hb], fun s => by simp [wordsRead, ra, rb]⟩

theorem toInt32_ofInt (i : Int) (h1 : -2 ^ 31 ≤ i) (h2 : i < 2 ^ 31) : toInt32 (UInt32.ofInt i) = i := by
  have : (UInt32.ofInt i).toNat = (i % 2 ^ 32).toNat := by
    simp [UInt32.ofInt]; omega
  unfold toInt32; rw [this]; split <;> omega

/-! ## Big-endian words -/

theorem or_bytes (n : Nat) (h : n < 2 ^ 64) :
    n / 2 ^ 56 % 256 * 2 ^ 56 ||| n / 2 ^ 48 % 256 * 2 ^ 48 ||| n / 2 ^ 40 % 256 * 2 ^ 40 |||
      n / 2 ^ 32 % 256 * 2 ^ 32 ||| n / 2 ^ 24 % 256 * 2 ^ 24 ||| n / 2 ^ 16 % 256 * 2 ^ 16 |||
      n / 2 ^ 8 % 256 * 2 ^ 8 ||| n % 256 = n := by
  have d : ∀ (b k j : Nat), j = k + 8 → b = n % 2 ^ k → n / 2 ^ k % 256 * 2 ^ k ||| b = n % 2 ^ j := by
    intro b k j hj hb
    subst hj; subst hb
    have hk := Nat.two_pow_pos k
    rw [Nat.mul_comm, ← Nat.two_pow_add_eq_or_of_lt (Nat.mod_lt _ hk), Nat.pow_add, Nat.mod_mul]
    exact Nat.add_comm _ _
  simp only [Nat.or_assoc]
  rw [d (n % 256) 8 16 rfl rfl, d _ 16 24 rfl rfl, d _ 24 32 rfl rfl, d _ 32 40 rfl rfl, d _ 40 48 rfl rfl,
    d _ 48 56 rfl rfl, d _ 56 64 rfl rfl]
  exact Nat.mod_eq_of_lt h

theorem shift_back (v : UInt64) (k : Nat) (hk : k ≤ 56) :
    (((v >>> UInt64.ofNat k).toUInt8.toUInt64) <<< UInt64.ofNat k).toNat = v.toNat / 2 ^ k % 256 * 2 ^ k := by
  have e : (UInt64.ofNat k).toNat = k := by
    rw [UInt64.toNat_ofNat']; exact Nat.mod_eq_of_lt (by omega)
  simp only [UInt64.toNat_shiftLeft, UInt8.toNat_toUInt64, UInt64.toNat_toUInt8, UInt64.toNat_shiftRight,
    Nat.shiftRight_eq_div_pow, Nat.shiftLeft_eq, e, Nat.mod_eq_of_lt (show k < 64 by omega)]
  apply Nat.mod_eq_of_lt
  have : v.toNat / 2 ^ k % 256 < 2 ^ 8 := Nat.mod_lt _ (by decide)
  calc _ < 2 ^ 8 * 2 ^ k := Nat.mul_lt_mul_of_pos_right this (Nat.two_pow_pos k)
    _ = 2 ^ (8 + k) := by rw [Nat.pow_add]
    _ ≤ 2 ^ 64 := Nat.pow_le_pow_right (by omega) (by omega)

theorem readU64be_write (v : UInt64) (s : List UInt8) : readU64be (writeU64be v ++ s) = .ok (v, s) := by
  simp only [writeU64be, List.cons_append, List.nil_append, readU64be, Res.ok.injEq, Prod.mk.injEq, and_true]
  have hv := v.toNat_lt
  have e0 : v.toUInt8.toUInt64.toNat = v.toNat % 256 := by
    simp only [UInt8.toNat_toUInt64, UInt64.toNat_toUInt8]
  rw [← UInt64.toNat_inj]
  simp only [UInt64.toNat_or, e0]
  have h := fun k hk => shift_back v k hk
  refine Eq.trans ?_ (or_bytes v.toNat hv)
  rw [← h 56 (by omega), ← h 48 (by omega), ← h 40 (by omega), ← h 32 (by omega), ← h 24 (by omega),
    ← h 16 (by omega), ← h 8 (by omega)]
  rfl

end Verif.Compression
