import Verif.Serialiser.Lemmas

/-! # Properties of the serialised format (C07-C10) -/

namespace Verif.Serialiser

/-- **C07** Integers of every type round-trip in any context. -/
theorem C07_integers_roundtrip :
    RoundTrips u64 (fun _ => True) ∧ RoundTrips i64 (fun _ => True) ∧ RoundTrips u32 (fun _ => True) ∧
    RoundTrips i32 (fun _ => True) ∧ RoundTrips chr (fun _ => True) ∧ RoundTrips double (fun _ => True) :=
  ⟨u64_laws.1, i64_laws.1, u32_laws.1, i32_laws.1, chr_laws.1, u64_laws.1⟩

example : i32.enc (-2) = [8, 255, 255, 255, 255, 255, 255, 255, 254] ∧ i32.enc 300 = [2, 1, 44] ∧
    i32.dec ([8, 255, 255, 255, 255, 255, 255, 255, 254] ++ [9]) = .ok (-2, [9]) := by decide

/-- **C08** A cut anywhere inside a serialised integer is detected. -/
theorem C08_integers_truncation :
    DetectsTruncation u64 (fun _ => True) ∧ DetectsTruncation i64 (fun _ => True) ∧
    DetectsTruncation u32 (fun _ => True) ∧ DetectsTruncation i32 (fun _ => True) ∧
    DetectsTruncation chr (fun _ => True) ∧ DetectsTruncation double (fun _ => True) :=
  ⟨u64_laws.2, i64_laws.2, u32_laws.2, i32_laws.2, chr_laws.2, u64_laws.2⟩

example : i32.enc 300 = [2, 1] ++ [44] ∧ i32.dec [2, 1] = .exception := by decide

/-- **C08, C09** Pairs of well-behaved components. -/
theorem C09_pair {α β : Type} (a : Codec α) (b : Codec β) (P : α → Prop) (Q : β → Prop)
    (ha : RoundTrips a P ∧ DetectsTruncation a P) (hb : RoundTrips b Q ∧ DetectsTruncation b Q) :
    RoundTrips (pair a b) (fun x => P x.1 ∧ Q x.2) ∧ DetectsTruncation (pair a b) (fun x => P x.1 ∧ Q x.2) :=
  pair_laws a b P Q ha hb

/-- **C08, C09** Vectors of well-behaved elements. -/
theorem C09_vector {α : Type} (c : Codec α) (P : α → Prop) (hc : RoundTrips c P ∧ DetectsTruncation c P) :
    RoundTrips (vec c) (fun l => l.length < 2 ^ 64 ∧ ∀ x ∈ l, P x) ∧
    DetectsTruncation (vec c) (fun l => l.length < 2 ^ 64 ∧ ∀ x ∈ l, P x) := vec_laws c P hc

/-- **C08, C09** Maps: a list with strictly increasing keys is what a `std::map` iterates over. -/
theorem C09_map {κ ν : Type} [LT κ] [DecidableLT κ] (hasymm : ∀ a b : κ, a < b → ¬ b < a)
    (ck : Codec κ) (cv : Codec ν) (P : κ → Prop) (Q : ν → Prop)
    (hk : RoundTrips ck P ∧ DetectsTruncation ck P) (hv : RoundTrips cv Q ∧ DetectsTruncation cv Q) :
    let R := fun l : List (κ × ν) => l.length < 2 ^ 64 ∧ KeysIncreasing l ∧ ∀ x ∈ l, P x.1 ∧ Q x.2
    RoundTrips (map ck cv) R ∧ DetectsTruncation (map ck cv) R := map_laws hasymm ck cv P Q hk hv

/-- **C08, C09** Multimaps: keys in order, equal keys allowed. -/
theorem C09_multimap {κ ν : Type} [LT κ] [DecidableLT κ]
    (ck : Codec κ) (cv : Codec ν) (P : κ → Prop) (Q : ν → Prop)
    (hk : RoundTrips ck P ∧ DetectsTruncation ck P) (hv : RoundTrips cv Q ∧ DetectsTruncation cv Q) :
    let R := fun l : List (κ × ν) => l.length < 2 ^ 64 ∧ KeysSorted l ∧ ∀ x ∈ l, P x.1 ∧ Q x.2
    RoundTrips (multimap ck cv) R ∧ DetectsTruncation (multimap ck cv) R := multimap_laws ck cv P Q hk hv

/-- The composition theorems apply at any nesting; an instance: vectors of multimaps from 32-bit integers
to pairs of a 32-bit integer and a double. -/
theorem C09_nested :
    let R := fun l : List (List (Int32 × (Int32 × UInt64))) => l.length < 2 ^ 64 ∧
      ∀ m ∈ l, m.length < 2 ^ 64 ∧ KeysSorted m
    RoundTrips (vec (multimap i32 (pair i32 double))) R ∧
    DetectsTruncation (vec (multimap i32 (pair i32 double))) R := by
  intro R
  have h := C09_vector _ _ (C09_multimap i32 (pair i32 double) _ _ i32_laws (C09_pair i32 double _ _ i32_laws u64_laws))
  have hR : ∀ l, R l → l.length < 2 ^ 64 ∧ ∀ x ∈ l, x.length < 2 ^ 64 ∧ KeysSorted x ∧
      ∀ y ∈ x, True ∧ True ∧ True :=
    fun l hl => ⟨hl.1, fun x hx => ⟨(hl.2 x hx).1, (hl.2 x hx).2, fun _ _ => ⟨trivial, trivial, trivial⟩⟩⟩
  exact ⟨fun a ha => h.1 a (hR a ha), fun a ha => h.2 a (hR a ha)⟩

example : KeysSorted ([(-1, (2, 0)), (3, (1, 5)), (3, (0, 5))] : List (Int32 × (Int32 × UInt64))) ∧
    KeysIncreasing ([(-1, 7), (3, 8)] : List (Int32 × Int32)) ∧
    (vec (multimap i32 (pair i32 double))).enc [[(3, (1, 5)), (3, (0, 5))]] =
      [1, 1, 1, 2, 1, 3, 1, 1, 1, 5, 1, 3, 1, 0, 1, 5] := by
  refine ⟨?_, ?_, by decide⟩ <;> simp [KeysSorted, KeysIncreasing] <;> decide

/-- **C10** One UTF-16 unit survives serialisation exactly when it is below 0x80 or at least 0xFF80. -/
theorem C10_unit_survives_iff (u : UInt16) :
    uchar.dec (uchar.enc u) = .ok (u, []) ↔ u.toNat < 0x80 ∨ 0xFF80 ≤ u.toNat := by
  have hu := u.toNat_lt
  have h : uchar.dec (uchar.enc u) = .ok (((UInt8.ofNat u.toNat).toInt8).toInt16.toUInt16, []) := by
    have := intDeserialise_serialise 16 32 u.toNat hu (by omega) (by omega) ⟨2, rfl⟩ (by omega) []
    simp only [List.append_nil] at this
    simp only [uchar, this, Res.bind_ok, Res.pure_eq]
  rw [h]
  simp only [Res.ok.injEq, Prod.mk.injEq, and_true]
  rw [← UInt16.toNat_inj, narrow_toNat]
  split <;> omega

/-- **C10** The property as stated is false: the one-letter string "é" (0xE9) comes back different. -/
theorem C10_string_roundtrip_false : ¬ RoundTrips ustring (fun s => s.length < 2 ^ 64) := by
  intro h
  have := h [0xE9] (by decide) []
  revert this
  decide

/-- **C10, partial** ASCII strings round-trip and truncation is detected. Missing: all strings with a unit
of 0x80 or above (they are changed, see the two theorems above). -/
theorem C10_string_roundtrip_partial :
    RoundTrips ustring (fun s => s.length < 2 ^ 64 ∧ ∀ u ∈ s, u.toNat < 0x80) ∧
    DetectsTruncation ustring (fun s => s.length < 2 ^ 64 ∧ ∀ u ∈ s, u.toNat < 0x80) :=
  vec_laws uchar _ uchar_laws

example : ustring.enc [0x61, 0x62] = [1, 2, 1, 0x61, 1, 0x62] := by decide

/-- **C08** What is not detected as truncation but rejected otherwise: a size byte above 8 makes the reader
shift by 64 or more, which is undefined. This is the only way `int_deserialise<uint64_t>` can have undefined
behaviour. -/
theorem C08_oversized_is_ub (s : List UInt8) : intDeserialise 64 64 s = .ub ↔
    ∃ b t, s = b :: t ∧ 8 < b.toNat := by
  have aux : ∀ n acc s, n ≤ 8 → intLoop 64 64 n acc s ≠ .ub := by
    intro n
    induction n with
    | zero => intro acc s _; simp [intLoop]
    | succ n ih =>
      intro acc s h
      simp only [intLoop]
      rw [if_neg (by omega)]
      cases s with
      | nil => simp
      | cons b s => exact ih _ _ (by omega)
  cases s with
  | nil => simp [intDeserialise]
  | cons b t =>
    simp only [intDeserialise]
    constructor
    · intro h
      refine ⟨b, t, rfl, ?_⟩
      rcases Nat.lt_or_ge 8 b.toNat with h' | h'
      · exact h'
      · exact absurd h (aux _ _ _ h')
    · rintro ⟨b', t', e, h⟩
      cases e
      obtain ⟨n, hn⟩ : ∃ n, b.toNat = n + 1 := ⟨b.toNat - 1, by omega⟩
      rw [hn]
      simp only [intLoop]
      rw [if_pos (by omega)]

example : intDeserialise 64 64 [9, 0] = .ub ∧ intDeserialise 64 64 [8, 0] = .exception := by decide

end Verif.Serialiser
