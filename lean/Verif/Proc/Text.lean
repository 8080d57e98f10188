import Verif.Proc.Reading

/-! # Units and characters -/

namespace Verif.Proc

open Verif.State Verif.Stream Verif.Input Verif.Merge

variable {W : Type}

theorem enc_append (xs ys : List Nat) : enc (xs ++ ys) = enc xs ++ enc ys := by simp [enc]

theorem surface_append (ps qs : List Piece) : surface (ps ++ qs) = surface ps ++ surface qs := by simp [surface, enc_append]

theorem surface_cons (p : Piece) (qs : List Piece) : surface (p :: qs) = utf16 p.val ++ surface qs := by simp [surface, enc]

theorem utf16_ne_nil (c : Nat) : utf16 c ≠ [] := by
  unfold utf16; split <;> simp

theorem surface_ne_nil {ps : List Piece} (h : ps ≠ []) : surface ps ≠ [] := by
  cases ps with
  | nil => exact absurd rfl h
  | cons p ps =>
    rw [surface_cons]
    simp [utf16_ne_nil]

theorem piece_val {σ : Setting W} {p : Piece} (h : p.Ok σ) : Scalar p.val ∧ p.val ≠ 0 := by
  obtain ⟨sk, core⟩ := p
  obtain ⟨-, h⟩ := h
  cases core with
  | ch c => exact ⟨h.1, h.2.1⟩
  | esc c => exact ⟨h.1, h.2.1⟩
  | super ts => exact ⟨Or.inl (show 0x20 < 0xd800 by decide), show 0x20 ≠ 0 by decide⟩
  | wb ts => exact ⟨Or.inl (show 0x20 < 0xd800 by decide), show 0x20 ≠ 0 by decide⟩

theorem piece_blank {σ : Setting W} {p : Piece} (h : p.Ok σ) : (p.val = 0x20 ∧ ∃ b, p.core.blank = [b]) ∨ (p.val ≠ 0x20 ∧ p.core.blank = []) := by
  obtain ⟨sk, core⟩ := p
  obtain ⟨-, h⟩ := h
  cases core with
  | ch c =>
    by_cases hc : c = 0x20
    · left; subst hc; exact ⟨rfl, _, rfl⟩
    · right; exact ⟨hc, by simp [Core.blank, hc]⟩
  | esc c => right; exact ⟨h.2.2.1, rfl⟩
  | super ts => left; exact ⟨rfl, _, rfl⟩
  | wb ts => left; exact ⟨rfl, _, rfl⟩

theorem symbolText_val (up : Int → Int) (a : Alphabet) (c : Nat) (h : Scalar c) (h0 : c ≠ 0) : symbolText up a (c : Int) false = .ok (utf16 c) := by
  have : c < 0x110000 := by rcases h with h | h <;> omega
  unfold symbolText
  rw [if_neg (by omega), if_neg (by omega), if_neg (by simp), Int.toNat_natCast, Compression.unitsOf_utf16 _ (by omega)]

theorem utf16_bmp {c : Nat} (h : c < 0x10000) : utf16 c = [UInt16.ofNat c] := by
  unfold utf16; rw [if_pos h]

theorem ofNat_toNat {c : Nat} (h : c < 0x10000) : (UInt16.ofNat c).toNat = c := by
  rw [UInt16.toNat_ofNat']; omega

/-- The units of a character outside the first plane. -/
theorem utf16_pair {c : Nat} (h : 0x10000 ≤ c) (h2 : c < 0x110000) : ∃ u v : UInt16, utf16 c = [u, v] ∧ 0xd800 ≤ u.toNat ∧ u.toNat < 0xdc00 ∧
    0xdc00 ≤ v.toNat ∧ v.toNat < 0xe000 ∧ (u.toNat - 0xd800) * 1024 + (v.toNat - 0xdc00) + 0x10000 = c := by
  unfold utf16
  rw [if_neg (by omega)]
  refine ⟨_, _, rfl, ?_⟩
  rw [ofNat_toNat (by omega), ofNat_toNat (by omega)]
  omega

theorem mem_utf16 {c : Nat} (hc : Scalar c) {u : UInt16} (hu : u ∈ utf16 c) : u.toNat = c ∨ (0xd800 ≤ u.toNat ∧ u.toNat < 0xe000 ∧ 0x10000 ≤ c) := by
  rcases Nat.lt_or_ge c 0x10000 with h | h
  · rw [utf16_bmp h, List.mem_singleton] at hu
    left; rw [hu, ofNat_toNat h]
  · obtain ⟨u', v', e, h1, h2, h3, h4, -⟩ := utf16_pair h (by rcases hc with hc | hc <;> omega)
    rw [e] at hu
    right
    simp only [List.mem_cons, List.not_mem_nil, or_false] at hu
    rcases hu with rfl | rfl <;> omega

/-! ## Escaping -/

theorem appendEscaped_eq (dst s : UString) : appendEscaped dst s = dst ++ Token.escape s := by
  induction s generalizing dst with
  | nil => simp [appendEscaped, Token.escape]
  | cons u s ih =>
    rw [appendEscaped, ih]
    simp only [Token.escape, List.flatMap_cons]
    split <;> simp

theorem escape_append (s t : UString) : Token.escape (s ++ t) = Token.escape s ++ Token.escape t := by simp [Token.escape]

theorem mem_escaped_iff (c : Nat) (h : c < 0x10000) : UInt16.ofNat c ∈ escapedChars ↔ (c : Int) ∈ escapedCps := by
  unfold escapedChars escapedCps
  simp only [List.mem_cons, List.not_mem_nil, or_false, ← UInt16.toNat_inj, ofNat_toNat h]
  simp only [UInt16.reduceToNat]
  omega

theorem escape_utf16 {c : Nat} (hc : Scalar c) : Token.escape (utf16 c) = (if (c : Int) ∈ escapedCps then [0x5c] else []) ++ utf16 c := by
  rcases Nat.lt_or_ge c 0x10000 with h | h
  · rw [utf16_bmp h]
    simp only [Token.escape, List.flatMap_cons, List.flatMap_nil, List.append_nil, mem_escaped_iff c h]
    split <;> rfl
  · have hn : (c : Int) ∉ escapedCps := by
      unfold escapedCps
      simp only [List.mem_cons, List.not_mem_nil, or_false]
      omega
    rw [if_neg hn, List.nil_append]
    unfold Token.escape
    have : ∀ u ∈ utf16 c, u ∉ escapedChars := by
      intro u hu he
      have := mem_utf16 hc hu
      unfold escapedChars at he
      simp only [List.mem_cons, List.not_mem_nil, or_false, ← UInt16.toNat_inj, UInt16.reduceToNat] at he
      omega
    generalize utf16 c = s at this
    induction s with
    | nil => rfl
    | cons u s ih =>
      rw [List.flatMap_cons, ih (fun v hv => this v (by simp [hv])), if_neg (this u (by simp))]
      rfl

/-! ## Blanks inside words -/

theorem popBlanks_unit (u : UInt16) (s : UString) (k : Nat) (out : UString) (bs : List UString) (h : u ≠ 0x20) :
    popBlanks (u :: s) k out bs = popBlanks s k (out ++ Token.escape [u]) bs := by
  conv => lhs; unfold popBlanks
  simp only [if_neg h, Token.escape, List.flatMap_cons, List.flatMap_nil, List.append_nil]
  split <;> simp

theorem popBlanks_units (t s : UString) (k : Nat) (out : UString) (bs : List UString) (h : ∀ u ∈ t, u ≠ 0x20) :
    popBlanks (t ++ s) k out bs = popBlanks s k (out ++ Token.escape t) bs := by
  induction t generalizing out with
  | nil => simp [Token.escape]
  | cons u t ih =>
    rw [List.cons_append, popBlanks_unit _ _ _ _ _ (h u (by simp)), ih _ (fun v hv => h v (by simp [hv]))]
    rw [show u :: t = [u] ++ t from rfl, escape_append]
    simp

theorem surface_zero {σ : Setting W} {ps : List Piece} (h : ∀ p ∈ ps, p.Ok σ) : 0 ∉ surface ps := by
  intro h0
  obtain ⟨c, hc, hu⟩ := List.mem_flatMap.1 h0
  obtain ⟨p, hp, rfl⟩ := List.mem_map.1 hc
  obtain ⟨h1, h2⟩ := piece_val (h p hp)
  rcases mem_utf16 h1 hu with e | e
  · exact h2 e.symm
  · have := e.1
    simp at this

theorem utf16_no_space {c : Nat} (hc : Scalar c) (h : c ≠ 0x20) : ∀ u ∈ utf16 c, u ≠ 0x20 := by
  intro u hu e
  have := mem_utf16 hc hu
  rw [e] at this
  simp only [UInt16.reduceToNat] at this
  omega

theorem popBlanks_space (s : UString) (k : Nat) (out b : UString) (bs : List UString) :
    popBlanks (0x20 :: s) k out (b :: bs) = if b = [0x20] then popBlanks s k (out ++ [0x20]) bs else popBlanks s (k + 1) (out ++ [0x20]) (b :: bs) := by
  conv => lhs; unfold popBlanks
  rw [if_pos rfl]
  rfl

theorem popBlanks_late {σ : Setting W} (ps : List Piece) (hp : ∀ p ∈ ps, p.Ok σ) (b : UString) (bs : List UString) (hb : b ≠ [0x20]) (k : Nat) (out : UString) :
    popBlanks (surface ps) k out (b :: bs) = .ok (k + (blanksOf ps).length, out ++ Token.escape (surface ps), b :: bs) := by
  induction ps generalizing k out with
  | nil => simp [surface, enc, popBlanks, blanksOf, Token.escape]
  | cons p ps ih =>
    have ih := fun k out => ih (fun q hq => hp q (by simp [hq])) k out
    rw [surface_cons, escape_append]
    rcases piece_blank (hp p (by simp)) with ⟨h1, b', h2⟩ | ⟨h1, h2⟩
    · rw [h1, show utf16 0x20 = [0x20] from rfl, List.singleton_append, popBlanks_space, if_neg hb]
      rw [ih]
      simp [blanksOf, h2, Token.escape, escapedChars]
      omega
    · rw [popBlanks_units _ _ _ _ _ (utf16_no_space (piece_val (hp p (by simp))).1 h1), ih]
      simp [blanksOf, h2]

theorem popBlanks_ok {σ : Setting W} (ps : List Piece) (hp : ∀ p ∈ ps, p.Ok σ) (more : List UString) (out : UString) :
    popBlanks (surface ps) 0 out (blanksOf ps ++ more) = .ok (((blanksOf ps).dropWhile (· = [0x20])).length, out ++ Token.escape (surface ps),
      (blanksOf ps).dropWhile (· = [0x20]) ++ more) := by
  induction ps generalizing out with
  | nil => simp [surface, enc, popBlanks, blanksOf, Token.escape]
  | cons p ps ih =>
    have hps : ∀ q ∈ ps, q.Ok σ := fun q hq => hp q (by simp [hq])
    have ih := fun out => ih hps out
    rw [surface_cons, escape_append]
    rcases piece_blank (hp p (by simp)) with ⟨h1, b, h2⟩ | ⟨h1, h2⟩
    · have e : blanksOf (p :: ps) = b :: blanksOf ps := by simp [blanksOf, h2]
      rw [h1, show utf16 0x20 = [0x20] from rfl, List.singleton_append, e, List.cons_append, popBlanks_space]
      by_cases hb : b = [0x20]
      · rw [if_pos hb]
        rw [ih]
        simp [Token.escape, escapedChars, hb]
      · rw [if_neg hb]
        rw [popBlanks_late ps hps b _ hb]
        simp [Token.escape, escapedChars, hb]
        omega
    · have e : blanksOf (p :: ps) = blanksOf ps := by simp [blanksOf, h2]
      rw [popBlanks_units _ _ _ _ _ (utf16_no_space (piece_val (hp p (by simp))).1 h1), e, ih]
      simp

theorem printWordPopBlank_ok {σ : Setting W} (ps : List Piece) (hp : ∀ p ∈ ps, p.Ok σ) (more : List UString) (lf : UString) (a : An) (hb : a.blanks = blanksOf ps ++ more) :
    printWordPopBlank (surface ps) lf a = .ok { a with
      out := a.out ++ 0x5e :: Token.escape (surface ps) ++ lf ++ 0x24 :: ((blanksOf ps).dropWhile (· = [0x20])).flatten
      blanks := more } := by
  unfold printWordPopBlank
  rw [hb, popBlanks_ok ps hp]
  simp

/-! ## Letters -/

theorem firstNotAlpha_surface {σ : Setting W} (ps : List Piece) (hp : ∀ p ∈ ps, p.Ok σ) :
    firstNotAlpha σ (surface ps) = ((ps.takeWhile fun p => σ.isAlphabetic (p.val : Int)).length, (surface (ps.takeWhile fun p => σ.isAlphabetic (p.val : Int))).length) := by
  induction ps with
  | nil => rfl
  | cons p ps ih =>
    have ih := ih fun q hq => hp q (by simp [hq])
    obtain ⟨hs, h0⟩ := piece_val (hp p (by simp))
    rw [surface_cons]
    rcases Nat.lt_or_ge p.val 0x10000 with h | h
    · rw [utf16_bmp h, List.singleton_append]
      have key : firstNotAlpha σ (UInt16.ofNat p.val :: surface ps) =
          if σ.isAlphabetic (p.val : Int) then ((firstNotAlpha σ (surface ps)).1 + 1, (firstNotAlpha σ (surface ps)).2 + 1) else (0, 0) := by
        cases hsf : surface ps with
        | nil => simp [firstNotAlpha, ofNat_toNat h]
        | cons v s =>
          rw [firstNotAlpha]
          rw [if_neg (by
            rintro ⟨k1, k2, -⟩
            rw [UInt16.le_iff_toNat_le, ofNat_toNat h] at k1
            rw [UInt16.lt_iff_toNat_lt, ofNat_toNat h] at k2
            simp only [UInt16.reduceToNat] at k1 k2
            rcases hs with hs | hs <;> omega)]
          simp only [ofNat_toNat h]
      rw [key, ih, List.takeWhile_cons]
      split
      · rw [surface_cons, utf16_bmp h]; simp
      · simp [surface, enc]
    · obtain ⟨u, v, e, h1, h2, h3, h4, h5⟩ := utf16_pair h (by rcases hs with hs | hs <;> omega)
      rw [e, List.cons_append, List.singleton_append, firstNotAlpha]
      rw [if_pos (by
        simp only [UInt16.le_iff_toNat_le, UInt16.lt_iff_toNat_lt, UInt16.reduceToNat]
        exact ⟨h1, h2, h3, h4⟩), h5, ih, List.takeWhile_cons]
      split
      · rw [surface_cons, e]; simp
      · simp [surface, enc]

theorem surface_take {ps qs : List Piece} : (surface (ps ++ qs)).take (surface ps).length = surface ps := by
  rw [surface_append, List.take_left]

/-- If everything from some unit on is a letter, `lastBlank` is before it. -/
theorem lastBlank_lt {σ : Setting W} (s : UString) (k : Nat) (h : lastBlank σ s < k) : ∀ u ∈ s.drop k, σ.letters.contains (u.toNat : Int) = true := by
  unfold lastBlank at h
  have key : ∀ (r : List UInt16) (k : Nat), lastBlankLoop σ r < k → ∀ u ∈ r.take (r.length - k), σ.letters.contains (u.toNat : Int) = true := by
    intro r
    induction r with
    | nil => simp
    | cons v r ih =>
      intro k hk u hu
      rw [lastBlankLoop] at hk
      split at hk
      · rename_i hv
        by_cases hl : k ≤ r.length
        · rw [List.length_cons, show r.length + 1 - k = (r.length - k) + 1 by omega, List.take_succ_cons, List.mem_cons] at hu
          rcases hu with rfl | hu
          · exact hv
          · exact ih k hk u hu
        · rw [List.length_cons, show r.length + 1 - k = 0 by omega] at hu
          simp at hu
      · rw [List.length_cons, show r.length + 1 - k = 0 by omega] at hu
        simp at hu
  intro u hu
  refine key s.reverse k h u ?_
  rw [List.length_reverse, List.take_reverse, List.mem_reverse]
  rcases Nat.le_total k s.length with hl | hl
  · rwa [show s.length - (s.length - k) = k by omega]
  · rw [List.drop_eq_nil_of_le hl] at hu
    cases hu

/-- The first character after the units up to `lastBlank` is a letter. -/
theorem letter_of_lastBlank [LinearOrder W] {σ : Setting W} {name : Int → UString} (hr : Regular σ name) {ys zs : List Piece} {p : Piece} (hp : p.Ok σ)
    (h : lastBlank σ (surface (ys ++ p :: zs)) < (surface ys).length) : σ.isAlphabetic (p.val : Int) = true := by
  have key := lastBlank_lt _ _ h
  rw [surface_append, List.drop_left, surface_cons] at key
  obtain ⟨hs, h0⟩ := piece_val hp
  rcases Nat.lt_or_ge p.val 0x10000 with h1 | h1
  · have := key (UInt16.ofNat p.val) (by rw [utf16_bmp h1]; simp)
    rw [ofNat_toNat h1] at this
    unfold Setting.isAlphabetic
    rw [this, Bool.or_true]
  · obtain ⟨u, v, e, k1, k2, k3, k4, k5⟩ := utf16_pair h1 (by rcases hs with hs | hs <;> omega)
    have := key u (by rw [e]; simp)
    rw [List.contains_iff_mem] at this
    have := hr.letters _ this
    omega

end Verif.Proc
