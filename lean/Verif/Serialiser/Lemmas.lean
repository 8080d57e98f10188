import Verif.Serialiser.Spec

namespace Verif.Serialiser

theorem sizeLoop_spec (v : Nat) : ∀ fuel k, v < 2 ^ (8 * (k + fuel + 1)) →
    v < 2 ^ (8 * (sizeLoop v fuel k + 1)) ∧ sizeLoop v fuel k ≤ k + fuel := by
  intro fuel
  induction fuel with
  | zero => intro k h; exact ⟨by simpa [sizeLoop] using h, by simp [sizeLoop]⟩
  | succ n ih =>
    intro k h
    unfold sizeLoop
    split
    · have := ih (k + 1) (by rw [show k + 1 + n + 1 = k + (n + 1) + 1 by omega]; exact h)
      exact ⟨this.1, by omega⟩
    · rename_i hc
      refine ⟨?_, by omega⟩
      rw [Nat.shiftRight_eq_div_pow] at hc
      have h1 : v / 2 ^ (8 * k) < 2 ^ 8 := by omega
      rw [Nat.div_lt_iff_lt_mul (Nat.two_pow_pos _), ← Nat.pow_add] at h1
      rw [show 8 * (k + 1) = 8 + 8 * k by omega]; exact h1

/-- For values of a type of `b` bytes the size is between 1 and `b`. -/
theorem sizeLoop_le (v : Nat) (b : Nat) (hb : v < 2 ^ (8 * (b + 1))) : ∀ fuel k, k ≤ b →
    sizeLoop v fuel k ≤ b := by
  intro fuel
  induction fuel with
  | zero => intro k h; exact h
  | succ n ih =>
    intro k h
    unfold sizeLoop
    split
    · rename_i hc
      apply ih
      rcases Nat.lt_or_eq_of_le h with h' | h'
      · exact h'
      · exfalso
        subst h'
        rw [Nat.shiftRight_eq_div_pow] at hc
        have : v / 2 ^ (8 * k) < 2 ^ 8 := by
          rw [Nat.div_lt_iff_lt_mul (Nat.two_pow_pos _), ← Nat.pow_add]
          rw [show 8 + 8 * k = 8 * (k + 1) by omega]; exact hb
        omega
    · exact h

theorem compressedSize_spec (v : Nat) (h : v < 2 ^ 64) : v < 2 ^ (8 * compressedSize v) := by
  have := (sizeLoop_spec v 8 0 (Nat.lt_of_lt_of_le h (Nat.pow_le_pow_right (by omega) (by omega)))).1
  exact this

theorem compressedSize_le (v b : Nat) (h : v < 2 ^ (8 * (b + 1))) : compressedSize v ≤ b + 1 := by
  have := sizeLoop_le v b h 8 0 (by omega)
  unfold compressedSize; omega

theorem intBytes_length (v n : Nat) : (intBytes v n).length = n := by
  induction n with
  | zero => rfl
  | succ n ih => simp [intBytes, ih]

theorem intLoop_bytes (bits width v : Nat) : ∀ n acc s, 8 * n ≤ width + 7 → acc + v % 2 ^ (8 * n) < 2 ^ bits →
    intLoop bits width n acc (intBytes v n ++ s) = .ok (acc + v % 2 ^ (8 * n), s) := by
  intro n
  induction n with
  | zero => intro acc s _ h; simp [intLoop, intBytes, Nat.mod_one]
  | succ n ih =>
    intro acc s hw h
    have e : v % 2 ^ (8 * (n + 1)) = v % 2 ^ (8 * n) + v / 2 ^ (8 * n) % 256 * 2 ^ (8 * n) := by
      rw [show 8 * (n + 1) = 8 * n + 8 by omega, Nat.pow_add, Nat.mod_mul, Nat.mul_comm (2 ^ (8 * n))]
    have eb : (UInt8.ofNat (v >>> (8 * n))).toNat = v / 2 ^ (8 * n) % 256 := by
      rw [UInt8.toNat_ofNat', Nat.shiftRight_eq_div_pow]
    rw [e] at h
    have hm : (acc + v / 2 ^ (8 * n) % 256 * 2 ^ (8 * n)) % 2 ^ bits =
        acc + v / 2 ^ (8 * n) % 256 * 2 ^ (8 * n) := Nat.mod_eq_of_lt (by omega)
    have := ih (acc + v / 2 ^ (8 * n) % 256 * 2 ^ (8 * n)) s (by omega) (by omega)
    rw [e]
    simp only [intBytes, List.cons_append, intLoop]
    rw [if_neg (by omega), eb, hm, this]
    congr 2; omega

theorem intLoop_short (bits width : Nat) : ∀ n acc s, 8 * n ≤ width + 7 → s.length < n →
    intLoop bits width n acc s = .exception := by
  intro n
  induction n with
  | zero => intro acc s _ h; simp at h
  | succ n ih =>
    intro acc s hw h
    simp only [intLoop]
    rw [if_neg (by omega)]
    cases s with
    | nil => rfl
    | cons b s => exact ih _ s (by omega) (by simpa using h)

theorem intDeserialise_serialise (bits width v : Nat) (hv : v < 2 ^ bits) (hb : bits ≤ 64) (hw : bits ≤ width)
    (h8 : 8 ∣ bits) (hb0 : 0 < bits)
    (s : List UInt8) : intDeserialise bits width (intSerialise v ++ s) = .ok (v, s) := by
  obtain ⟨k, rfl⟩ := h8
  have hk : compressedSize v ≤ k := by
    have := compressedSize_le v (k - 1) (by rw [show k - 1 + 1 = k by omega]; exact hv)
    omega
  have h64 : v < 2 ^ 64 := Nat.lt_of_lt_of_le hv (Nat.pow_le_pow_right (by omega) hb)
  have hs := compressedSize_spec v h64
  have e : (UInt8.ofNat (compressedSize v)).toNat = compressedSize v := by
    rw [UInt8.toNat_ofNat']; exact Nat.mod_eq_of_lt (by omega)
  simp only [intSerialise, List.cons_append, intDeserialise, e]
  rw [intLoop_bytes _ _ _ _ _ _ (by omega) (by rw [Nat.mod_eq_of_lt hs]; omega), Nat.mod_eq_of_lt hs]
  simp

theorem intDeserialise_short (bits width v : Nat) (hv : v < 2 ^ bits) (hb : bits ≤ 64) (hw : bits ≤ width)
    (h8 : 8 ∣ bits) (hb0 : 0 < bits) (p q : List UInt8) (h : intSerialise v = p ++ q) (hq : q ≠ []) :
    intDeserialise bits width p = .exception := by
  obtain ⟨k, rfl⟩ := h8
  have hk : compressedSize v ≤ k := by
    have := compressedSize_le v (k - 1) (by rw [show k - 1 + 1 = k by omega]; exact hv)
    omega
  have e : (UInt8.ofNat (compressedSize v)).toNat = compressedSize v := by
    rw [UInt8.toNat_ofNat']; exact Nat.mod_eq_of_lt (by omega)
  cases p with
  | nil => rfl
  | cons b p =>
    simp only [intSerialise, List.cons_append, List.cons.injEq] at h
    obtain ⟨rfl, h⟩ := h
    simp only [intDeserialise, e]
    apply intLoop_short
    · omega
    · have := congrArg List.length h
      rw [intBytes_length, List.length_append] at this
      have := List.length_pos_iff.2 hq
      omega

/-- Laws of a codec built from the integer format through an embedding into the unsigned values. -/
theorem laws_of_int {α : Type} (c : Codec α) (bits width : Nat) (f : α → Nat) (g : Nat → α)
    (hb : bits ≤ 64) (hw : bits ≤ width) (h8 : 8 ∣ bits) (hb0 : 0 < bits)
    (hf : ∀ a, f a < 2 ^ bits) (P : α → Prop) (hg : ∀ a, P a → g (f a) = a)
    (he : ∀ a, c.enc a = intSerialise (f a))
    (hd : ∀ s, c.dec s = (do let (n, s) ← intDeserialise bits width s; pure (g n, s))) :
    RoundTrips c P ∧ DetectsTruncation c P := by
  constructor
  · intro a hP rest
    rw [he, hd, intDeserialise_serialise bits width _ (hf a) hb hw h8 hb0]
    simp [hg a hP]
  · intro a hP p q hpq hq
    rw [he] at hpq
    rw [hd, intDeserialise_short bits width _ (hf a) hb hw h8 hb0 p q hpq hq]
    rfl

theorem append_split {α : Type} {a b p q : List α} (h : a ++ b = p ++ q) :
    (∃ r, p = a ++ r ∧ b = r ++ q) ∨ (∃ r, r ≠ [] ∧ a = p ++ r ∧ q = r ++ b) := by
  rw [List.append_eq_append_iff] at h
  rcases h with ⟨r, h1, h2⟩ | ⟨r, h1, h2⟩
  · exact Or.inl ⟨r, h1, h2⟩
  · by_cases hr : r = []
    · subst hr
      exact Or.inl ⟨[], by simp [h1], by simp [h2]⟩
    · exact Or.inr ⟨r, hr, h1, h2⟩

theorem pair_laws {α β : Type} (a : Codec α) (b : Codec β) (P : α → Prop) (Q : β → Prop)
    (ha : RoundTrips a P ∧ DetectsTruncation a P) (hb : RoundTrips b Q ∧ DetectsTruncation b Q) :
    RoundTrips (pair a b) (fun x => P x.1 ∧ Q x.2) ∧ DetectsTruncation (pair a b) (fun x => P x.1 ∧ Q x.2) := by
  constructor
  · rintro ⟨x, y⟩ ⟨hx, hy⟩ rest
    simp [pair, ha.1 x hx, hb.1 y hy]
  · rintro ⟨x, y⟩ ⟨hx, hy⟩ p q h hq
    simp only [pair] at h ⊢
    rcases append_split h with ⟨r, h1, h2⟩ | ⟨r, hr, h1, h2⟩
    · subst h1
      rw [ha.1 x hx]
      simp [hb.2 y hy r q h2 hq]
    · rw [ha.2 x hx p r h1 hr]; rfl

theorem decMany_enc {α : Type} (c : Codec α) (P : α → Prop) (hc : RoundTrips c P) (l : List α)
    (hl : ∀ x ∈ l, P x) (rest : List UInt8) :
    decMany c l.length (l.flatMap c.enc ++ rest) = .ok (l, rest) := by
  induction l with
  | nil => rfl
  | cons x l ih =>
    have h1 := hc x (hl x (by simp))
    have h2 := ih (fun y hy => hl y (by simp [hy]))
    simp [decMany, h1, h2]

theorem decMany_short {α : Type} (c : Codec α) (P : α → Prop)
    (hc : RoundTrips c P ∧ DetectsTruncation c P) (l : List α)
    (hl : ∀ x ∈ l, P x) (p q : List UInt8) (h : l.flatMap c.enc = p ++ q) (hq : q ≠ []) :
    decMany c l.length p = .exception := by
  induction l generalizing p with
  | nil => simp at h; exact absurd h.2 hq
  | cons x l ih =>
    simp only [List.flatMap_cons] at h
    rcases append_split h with ⟨r, h1, h2⟩ | ⟨r, hr, h1, h2⟩
    · subst h1
      have h1 := hc.1 x (hl x (by simp))
      simp [decMany, h1, ih (fun y hy => hl y (by simp [hy])) r h2]
    · simp [decMany, hc.2 x (hl x (by simp)) p r h1 hr]

theorem u64_laws : RoundTrips u64 (fun _ => True) ∧ DetectsTruncation u64 (fun _ => True) :=
  laws_of_int u64 64 64 UInt64.toNat UInt64.ofNat (by omega) (by omega) ⟨8, rfl⟩ (by omega)
    (fun a => a.toNat_lt) _ (fun a _ => by simp) (fun _ => rfl) (fun _ => rfl)

theorem ofNat_len {α : Type} (l : List α) (h : l.length < 2 ^ 64) : (UInt64.ofNat l.length).toNat = l.length := by
  rw [UInt64.toNat_ofNat']; exact Nat.mod_eq_of_lt h

/-- Reader of a container as size, elements, then a function on the list of elements. -/
theorem container_laws {α β : Type} (c : Codec α) (P : α → Prop)
    (hc : RoundTrips c P ∧ DetectsTruncation c P) (d : Codec β) (toList : β → List α) (f : List α → β)
    (Q : β → Prop) (hlen : ∀ b, Q b → (toList b).length < 2 ^ 64) (hall : ∀ b, Q b → ∀ x ∈ toList b, P x)
    (hf : ∀ b, Q b → f (toList b) = b)
    (he : ∀ b, d.enc b = encList c (toList b))
    (hd : ∀ s, d.dec s = (do
      let (n, s) ← u64.dec s
      let (l, s) ← decMany c n.toNat s
      pure (f l, s))) :
    RoundTrips d Q ∧ DetectsTruncation d Q := by
  constructor
  · intro b hb rest
    rw [he, hd, encList, List.append_assoc, u64_laws.1 _ trivial]
    simp only [Res.bind_ok, ofNat_len _ (hlen b hb), decMany_enc c P hc.1 _ (hall b hb), hf b hb, Res.pure_eq]
  · intro b hb p q h hq
    rw [he, encList] at h
    rw [hd]
    rcases append_split h with ⟨r, h1, h2⟩ | ⟨r, hr, h1, h2⟩
    · subst h1
      rw [u64_laws.1 _ trivial]
      simp only [Res.bind_ok, ofNat_len _ (hlen b hb), decMany_short c P hc _ (hall b hb) r q h2 hq,
        Res.bind_exception]
    · rw [u64_laws.2 _ trivial p r h1 hr]; rfl

theorem vec_laws {α : Type} (c : Codec α) (P : α → Prop) (hc : RoundTrips c P ∧ DetectsTruncation c P) :
    RoundTrips (vec c) (fun l => l.length < 2 ^ 64 ∧ ∀ x ∈ l, P x) ∧
    DetectsTruncation (vec c) (fun l => l.length < 2 ^ 64 ∧ ∀ x ∈ l, P x) :=
  container_laws c P hc (vec c) id id _ (fun _ h => h.1) (fun _ h => h.2) (fun _ _ => rfl) (fun _ => rfl)
    (fun s => by
      simp only [vec, id]
      cases u64.dec s with
      | ok x =>
        simp only [Res.bind_ok]
        cases decMany c x.1.toNat x.2 <;> rfl
      | _ => rfl)

section maps
variable {κ ν : Type} [LT κ] [DecidableLT κ]

theorem mapInsert_last (hasymm : ∀ a b : κ, a < b → ¬ b < a) (k : κ) (v : ν) (l : List (κ × ν))
    (h : ∀ e ∈ l, e.1 < k) : mapInsert k v l = l ++ [(k, v)] := by
  induction l with
  | nil => rfl
  | cons e l ih =>
    obtain ⟨k', v'⟩ := e
    have h1 : k' < k := h (k', v') (by simp)
    simp [mapInsert, h1, hasymm _ _ h1, ih (fun e he => h e (by simp [he]))]

theorem mmInsert_last (k : κ) (v : ν) (l : List (κ × ν))
    (h : ∀ e ∈ l, ¬ k < e.1) : mmInsert k v l = l ++ [(k, v)] := by
  induction l with
  | nil => rfl
  | cons e l ih =>
    obtain ⟨k', v'⟩ := e
    have h1 : ¬ k < k' := h (k', v') (by simp)
    simp [mmInsert, h1, ih (fun e he => h e (by simp [he]))]

theorem foldl_mapInsert (hasymm : ∀ a b : κ, a < b → ¬ b < a) (l acc : List (κ × ν))
    (h : KeysIncreasing (acc ++ l)) : l.foldl (fun m e => mapInsert e.1 e.2 m) acc = acc ++ l := by
  induction l generalizing acc with
  | nil => simp
  | cons e l ih =>
    have h1 : ∀ x ∈ acc, x.1 < e.1 := by
      have := (List.pairwise_append.1 h).2.2
      exact fun x hx => this x hx e (by simp)
    simp only [List.foldl_cons, mapInsert_last hasymm e.1 e.2 acc h1]
    rw [ih]
    · simp
    · simpa using h

theorem foldl_mmInsert (l acc : List (κ × ν))
    (h : KeysSorted (acc ++ l)) : l.foldl (fun m e => mmInsert e.1 e.2 m) acc = acc ++ l := by
  induction l generalizing acc with
  | nil => simp
  | cons e l ih =>
    have h1 : ∀ x ∈ acc, ¬ e.1 < x.1 := by
      have := (List.pairwise_append.1 h).2.2
      exact fun x hx => this x hx e (by simp)
    simp only [List.foldl_cons, mmInsert_last e.1 e.2 acc h1]
    rw [ih]
    · simp
    · simpa using h

theorem map_laws (hasymm : ∀ a b : κ, a < b → ¬ b < a) (ck : Codec κ) (cv : Codec ν) (P : κ → Prop)
    (Q : ν → Prop) (hk : RoundTrips ck P ∧ DetectsTruncation ck P) (hv : RoundTrips cv Q ∧ DetectsTruncation cv Q) :
    let R := fun l : List (κ × ν) => l.length < 2 ^ 64 ∧ KeysIncreasing l ∧ ∀ x ∈ l, P x.1 ∧ Q x.2
    RoundTrips (map ck cv) R ∧ DetectsTruncation (map ck cv) R :=
  container_laws (pair ck cv) _ (pair_laws ck cv P Q hk hv) (map ck cv) id
    (fun l => l.foldl (fun m e => mapInsert e.1 e.2 m) []) _
    (fun _ h => h.1) (fun _ h => h.2.2) (fun b h => foldl_mapInsert hasymm b [] h.2.1) (fun _ => rfl) (fun _ => rfl)

theorem multimap_laws (ck : Codec κ) (cv : Codec ν) (P : κ → Prop)
    (Q : ν → Prop) (hk : RoundTrips ck P ∧ DetectsTruncation ck P) (hv : RoundTrips cv Q ∧ DetectsTruncation cv Q) :
    let R := fun l : List (κ × ν) => l.length < 2 ^ 64 ∧ KeysSorted l ∧ ∀ x ∈ l, P x.1 ∧ Q x.2
    RoundTrips (multimap ck cv) R ∧ DetectsTruncation (multimap ck cv) R :=
  container_laws (pair ck cv) _ (pair_laws ck cv P Q hk hv) (multimap ck cv) id
    (fun l => l.foldl (fun m e => mmInsert e.1 e.2 m) []) _
    (fun _ h => h.1) (fun _ h => h.2.2) (fun b h => foldl_mmInsert b [] h.2.1) (fun _ => rfl) (fun _ => rfl)

end maps

theorem i64_laws : RoundTrips i64 (fun _ => True) ∧ DetectsTruncation i64 (fun _ => True) :=
  laws_of_int i64 64 64 (fun v => v.toUInt64.toNat) (fun n => (UInt64.ofNat n).toInt64)
    (by omega) (by omega) ⟨8, rfl⟩ (by omega)
    (fun a => a.toUInt64.toNat_lt) _ (fun a _ => by simp) (fun _ => rfl) (fun _ => rfl)

theorem u32_laws : RoundTrips u32 (fun _ => True) ∧ DetectsTruncation u32 (fun _ => True) :=
  laws_of_int u32 64 64 (fun v => v.toUInt64.toNat) UInt32.ofNat
    (by omega) (by omega) ⟨8, rfl⟩ (by omega)
    (fun a => a.toUInt64.toNat_lt) _ (fun a _ => by simp) (fun _ => rfl) (fun _ => rfl)

theorem i32_back (a : Int32) : (UInt32.ofNat a.toInt64.toUInt64.toNat).toInt32 = a := by
  apply Int32.toBitVec_inj.1
  show BitVec.ofNat 32 (a.toBitVec.signExtend 64).toNat = a.toBitVec
  apply BitVec.eq_of_toNat_eq
  rw [BitVec.toNat_ofNat, BitVec.toNat_signExtend]
  have := a.toBitVec.isLt
  simp only [BitVec.toNat_setWidth]
  split <;> omega

set_option maxRecDepth 4000 in
theorem narrow_fin : ∀ n : Fin 256, (((UInt8.ofNat n.val).toInt8).toInt16.toUInt16).toNat =
    if n.val < 128 then n.val else 0xFF00 + n.val := by decide

theorem narrow_toNat (n : Nat) : (((UInt8.ofNat n).toInt8).toInt16.toUInt16).toNat =
    if n % 256 < 128 then n % 256 else 0xFF00 + n % 256 := by
  have h := narrow_fin ⟨n % 256, by omega⟩
  have e : UInt8.ofNat n = UInt8.ofNat (n % 256) := by
    rw [← UInt8.toNat_inj]; simp
  rw [e]; exact h

theorem i32_laws : RoundTrips i32 (fun _ => True) ∧ DetectsTruncation i32 (fun _ => True) :=
  laws_of_int i32 64 64 (fun v => v.toInt64.toUInt64.toNat) (fun n => (UInt32.ofNat n).toInt32)
    (by omega) (by omega) ⟨8, rfl⟩ (by omega)
    (fun a => a.toInt64.toUInt64.toNat_lt) _ (fun a _ => i32_back a) (fun _ => rfl) (fun _ => rfl)

theorem chr_laws : RoundTrips chr (fun _ => True) ∧ DetectsTruncation chr (fun _ => True) :=
  laws_of_int chr 8 32 (fun v => v.toUInt8.toNat) (fun n => (UInt8.ofNat n).toInt8)
    (by omega) (by omega) ⟨1, rfl⟩ (by omega)
    (fun a => a.toUInt8.toNat_lt) _ (fun a _ => by simp) (fun _ => rfl) (fun _ => rfl)

theorem uchar_laws : RoundTrips uchar (fun u => u.toNat < 0x80) ∧ DetectsTruncation uchar (fun u => u.toNat < 0x80) :=
  laws_of_int uchar 16 32 (fun v => v.toNat) (fun n => ((UInt8.ofNat n).toInt8).toInt16.toUInt16)
    (by omega) (by omega) ⟨2, rfl⟩ (by omega)
    (fun a => a.toNat_lt) _ (fun a h => by
      rw [← UInt16.toNat_inj, narrow_toNat]; split <;> omega) (fun _ => rfl) (fun _ => rfl)

end Verif.Serialiser
