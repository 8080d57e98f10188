import Verif.Input.Lemmas

/-! # Properties of reading files (C55) -/

namespace Verif.Input

/-- The bytes of a text. -/
def bytes (cs : List Nat) : List UInt8 := cs.flatMap utf8

theorem get_utf8 {c : Nat} (hc : Scalar c) (r : List UInt8) : get ⟨utf8 c ++ r, false, []⟩ = .ok (c, ⟨r, false, []⟩) := by
  unfold get; rw [internalRead_utf8 hc]; rfl

theorem getMany_text (cs : List Nat) (hs : ∀ c ∈ cs, Scalar c) (n : Nat) (r : List UInt8) :
    getMany (cs.length + n) ⟨bytes cs ++ r, false, []⟩ = (do
      let (ds, f) ← getMany n ⟨r, false, []⟩
      .ok (cs ++ ds, f)) := by
  induction cs with
  | nil =>
    rw [List.length_nil, Nat.zero_add, show bytes [] ++ r = r from rfl]
    cases getMany n ⟨r, false, []⟩ <;> simp
  | cons c cs ih =>
    rw [List.length_cons, show cs.length + 1 + n = (cs.length + n) + 1 by omega, getMany,
      show bytes (c :: cs) ++ r = utf8 c ++ (bytes cs ++ r) by simp [bytes], get_utf8 (hs c (by simp))]
    simp only [Res.bind_ok]
    rw [ih fun d hd => hs d (by simp [hd])]
    cases getMany n ⟨r, false, []⟩ <;> simp

theorem getMany_eof (n : Nat) (f : InFile) (h : f = ⟨[], false, []⟩ ∨ f = ⟨[], true, []⟩) :
    getMany n f = .ok (List.replicate n uEOF, ⟨[], f.eof || 0 < n, []⟩) := by
  induction n generalizing f with
  | zero => rcases h with rfl | rfl <;> rfl
  | succ n ih =>
    have e : get f = .ok (uEOF, ⟨[], true, []⟩) := by rcases h with rfl | rfl <;> rfl
    rw [getMany, e]
    simp only [Res.bind_ok]
    rw [ih _ (.inr rfl)]
    simp [List.replicate_succ]

/-- **C55** A file that is the UTF-8 of a text gives exactly the characters of the text and then, as often as it is asked,
the end of the file; the end-of-file flag is set by the first read after the last character, not before. -/
theorem C55_file (cs : List Nat) (hs : ∀ c ∈ cs, Scalar c) (n : Nat) :
    getMany (cs.length + n) (opened (bytes cs)) = .ok (cs ++ List.replicate n 0xFFFF, ⟨[], 0 < n, []⟩) := by
  have := getMany_text cs hs n []
  rw [List.append_nil] at this
  unfold opened
  rw [this, getMany_eof n _ (.inl rfl)]
  simp [uEOF]

example : (∀ c ∈ [0x61, 0, 0xe9, 0x20ac, 0x1f600], Scalar c) ∧
    bytes [0x61, 0, 0xe9, 0x20ac, 0x1f600] = [0x61, 0, 0xc3, 0xa9, 0xe2, 0x82, 0xac, 0xf0, 0x9f, 0x98, 0x80] :=
  ⟨by unfold Scalar; decide, by decide⟩

/-- **C55** A value that is returned is either the end of the file or a character whose whole encoding was in the file at
that place: no other bytes are accepted. -/
theorem C55_valid_only (f g : InFile) (c : Nat) (hb : f.buf = []) (he : f.eof = false) (h : get f = .ok (c, g)) :
    (f.rest = [] ∧ c = 0xFFFF ∧ g = ⟨[], true, []⟩) ∨ (Scalar c ∧ f.rest = utf8 c ++ g.rest ∧ g = ⟨g.rest, false, []⟩) := by
  unfold get at h
  rcases internalRead_inv f with e | ⟨h1, _⟩ | ⟨_, h2, e⟩ | ⟨d, r, _, _, hs, hr, e⟩
  · rw [e] at h; cases h
  · exact absurd hb h1
  · rw [e] at h
    rcases h2 with h2 | h2
    · rw [he] at h2; cases h2
    · obtain ⟨rfl, rfl⟩ := Prod.mk.inj (Res.ok.inj h)
      exact .inl ⟨h2, rfl, by rw [h2]⟩
  · rw [e] at h
    obtain ⟨rfl, rfl⟩ := Prod.mk.inj (Res.ok.inj h)
    exact .inr ⟨hs, hr, rfl⟩

example : get (opened [0xc3, 0xa9, 0x62]) = .ok (0xe9, ⟨[0x62], false, []⟩) := by decide

/-- **C55** Bytes that do not start with the encoding of a character make `get` throw. -/
theorem C55_invalid_throws (bs : List UInt8) (hne : bs ≠ []) (h : ∀ c, Scalar c → ¬ utf8 c <+: bs) :
    get (opened bs) = .exception := by
  unfold get
  rcases internalRead_inv (opened bs) with e | ⟨h1, _⟩ | ⟨_, h2, _⟩ | ⟨d, r, _, _, hs, hr, _⟩
  · rw [e]; rfl
  · exact absurd rfl h1
  · rcases h2 with h2 | h2
    · cases h2
    · exact absurd h2 hne
  · exact absurd ⟨r, hr.symm⟩ (h d hs)

/-- **C55** A file that is cut inside a character throws when the reader comes to that character, wherever the cut is. -/
theorem C55_truncated (cs : List Nat) (hs : ∀ c ∈ cs, Scalar c) (c : Nat) (hc : Scalar c) (p q : List UInt8)
    (hcut : utf8 c = p ++ q) (hp : p ≠ []) (hq : q ≠ []) (n : Nat) :
    getMany (cs.length + (n + 1)) (opened (bytes cs ++ p)) = .exception := by
  unfold opened
  rw [getMany_text cs hs (n + 1) p, getMany]
  suffices get ⟨p, false, []⟩ = .exception by rw [this]; rfl
  apply C55_invalid_throws p hp
  rintro d hd ⟨r, rfl⟩
  obtain ⟨b, bs, e1, f1, _⟩ := utf8_first hd
  obtain ⟨b', bs', e2, f2, _⟩ := utf8_first hc
  rw [e1, e2] at hcut
  simp only [List.cons_append] at hcut
  obtain ⟨rfl, hcut'⟩ := List.cons.inj hcut
  have := congrArg List.length hcut'
  simp only [List.length_append] at this
  have : 0 < q.length := List.length_pos_iff.2 hq
  omega

example : utf8 0x20ac = [0xe2, 0x82] ++ [0xac] ∧ getMany 2 (opened (bytes [0x61] ++ [0xe2, 0x82])) = .exception := by decide

/-- **C55** The value for the end of the file is also the character U+FFFF: a caller that compares with it stops too early. -/
theorem C55_eof_value_false : ¬ ∀ (bs : List UInt8) (g : InFile), get (opened bs) = .ok (uEOF, g) → bs = [] := by
  intro h
  have := h [0xef, 0xbf, 0xbf, 0x61] ⟨[0x61], false, []⟩ (by decide)
  cases this

end Verif.Input
