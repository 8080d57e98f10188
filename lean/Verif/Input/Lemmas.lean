import Verif.Input.Model
import Mathlib.Tactic.SplitIfs

/-! # Lemmas on reading UTF-8 -/

namespace Verif.Input

/-- UTF-8 (RFC 3629): the bytes of a code point. -/
def utf8 (c : Nat) : List UInt8 :=
  if c < 0x80 then [UInt8.ofNat c]
  else if c < 0x800 then [UInt8.ofNat (0xc0 + c / 64), UInt8.ofNat (0x80 + c % 64)]
  else if c < 0x10000 then [UInt8.ofNat (0xe0 + c / 4096), UInt8.ofNat (0x80 + c / 64 % 64), UInt8.ofNat (0x80 + c % 64)]
  else [UInt8.ofNat (0xf0 + c / 262144), UInt8.ofNat (0x80 + c / 4096 % 64), UInt8.ofNat (0x80 + c / 64 % 64),
    UInt8.ofNat (0x80 + c % 64)]

theorem byte_toNat {n : Nat} (h : n < 256) : (UInt8.ofNat n).toNat = n := by rw [UInt8.toNat_ofNat']; omega

theorem trail_ok {n : Nat} (h : n < 64) : trail (UInt8.ofNat (0x80 + n)) = .ok n := by
  unfold trail
  rw [byte_toNat (by omega), if_pos (by omega)]
  congr 1; omega

theorem checkCp_iff {c len : Nat} : checkCp c len = true ↔ Scalar c ∧
    (if c < 0x80 then len = 1 else if c < 0x800 then len = 2 else if c < 0x10000 then len = 3 else True) := by
  unfold checkCp Scalar
  split
  · simp; omega
  · split
    · simp; omega
    · split <;> simp <;> omega

theorem seqLen1 {n : Nat} (h : n < 0x80) : seqLen n = 1 := if_pos h
theorem seqLen2 {n : Nat} (h : n / 32 = 6) : seqLen n = 2 := by
  unfold seqLen; rw [if_neg (by omega), if_pos h]
theorem seqLen3 {n : Nat} (h : n / 16 = 14) : seqLen n = 3 := by
  unfold seqLen; rw [if_neg (by omega), if_neg (by omega), if_pos h]
theorem seqLen4 {n : Nat} (h : n / 8 = 30) : seqLen n = 4 := by
  unfold seqLen; rw [if_neg (by omega), if_neg (by omega), if_neg (by omega), if_pos h]

theorem checked_ok {c : Nat} {len : Nat} (hc : Scalar c) (r : List UInt8)
    (h : if c < 0x80 then len = 1 else if c < 0x800 then len = 2 else if c < 0x10000 then len = 3 else True) :
    checked c len r = .ok (c, r) := if_pos (checkCp_iff.2 ⟨hc, h⟩)

theorem utf8next_utf8 {c : Nat} (hc : Scalar c) (r : List UInt8) : utf8next (utf8 c ++ r) = .ok (c, r) := by
  have hlt : c < 0x110000 := by unfold Scalar at hc; omega
  unfold utf8
  by_cases h1 : c < 0x80
  · have e : (UInt8.ofNat c).toNat = c := byte_toNat (by omega)
    rw [if_pos h1, List.cons_append, utf8next, e, seqLen1 h1, if_pos rfl, checked_ok hc _ (by rw [if_pos h1])]; rfl
  by_cases h2 : c < 0x800
  · have e : (UInt8.ofNat (0xc0 + c / 64)).toNat = 0xc0 + c / 64 := byte_toNat (by omega)
    rw [if_neg h1, if_pos h2, List.cons_append, utf8next, e, seqLen2 (by omega), if_neg (by omega), if_pos rfl,
      List.cons_append, next2, trail_ok (by omega), Res.bind_ok, show cp2 (0xc0 + c / 64) (c % 64) = c by unfold cp2; omega,
      checked_ok hc _ (by rw [if_neg h1, if_pos h2])]
    rfl
  by_cases h3 : c < 0x10000
  · have e : (UInt8.ofNat (0xe0 + c / 4096)).toNat = 0xe0 + c / 4096 := byte_toNat (by omega)
    rw [if_neg h1, if_neg h2, if_pos h3, List.cons_append, utf8next, e, seqLen3 (by omega), if_neg (by omega),
      if_neg (by omega), if_pos rfl, List.cons_append, List.cons_append, next3, trail_ok (by omega), Res.bind_ok,
      trail_ok (by omega), Res.bind_ok, show cp3 (0xe0 + c / 4096) (c / 64 % 64) (c % 64) = c by unfold cp3; omega,
      checked_ok hc _ (by rw [if_neg h1, if_neg h2, if_pos h3])]
    rfl
  · have e : (UInt8.ofNat (0xf0 + c / 262144)).toNat = 0xf0 + c / 262144 := byte_toNat (by omega)
    rw [if_neg h1, if_neg h2, if_neg h3, List.cons_append, utf8next, e, seqLen4 (by omega), if_neg (by omega),
      if_neg (by omega), if_neg (by omega), if_pos rfl, List.cons_append, List.cons_append, List.cons_append, next4,
      trail_ok (by omega), Res.bind_ok, trail_ok (by omega), Res.bind_ok, trail_ok (by omega), Res.bind_ok,
      show cp4 (0xf0 + c / 262144) (c / 4096 % 64) (c / 64 % 64) (c % 64) = c by unfold cp4; omega,
      checked_ok hc _ (by rw [if_neg h1, if_neg h2, if_neg h3]; trivial)]
    rfl

theorem trail_inv {b : UInt8} {x : Nat} (h : trail b = .ok x) : x < 64 ∧ b = UInt8.ofNat (0x80 + x) := by
  unfold trail at h
  split at h
  · have := Res.ok.inj h
    have hb : b.toNat < 256 := b.toNat_lt
    refine ⟨by omega, ?_⟩
    apply UInt8.toNat_inj.1
    rw [byte_toNat (by omega)]; omega
  · cases h

theorem eq_ofNat {b : UInt8} {n : Nat} (h : b.toNat = n) : b = UInt8.ofNat n := by
  subst h; apply UInt8.toNat_inj.1; rw [byte_toNat b.toNat_lt]

theorem checked_inv {c d len : Nat} {r r' : List UInt8} (h : checked c len r = .ok (d, r')) :
    d = c ∧ r' = r ∧ Scalar c ∧
      (if c < 0x80 then len = 1 else if c < 0x800 then len = 2 else if c < 0x10000 then len = 3 else True) := by
  unfold checked at h
  split at h
  · have := Prod.mk.inj (Res.ok.inj h)
    exact ⟨this.1.symm, this.2.symm, checkCp_iff.1 (by assumption)⟩
  · cases h

/-- What `utf8::next` accepts starts with the encoding of a scalar value. -/
theorem utf8next_inv {bs r : List UInt8} {c : Nat} (h : utf8next bs = .ok (c, r)) : Scalar c ∧ bs = utf8 c ++ r := by
  cases bs with
  | nil => cases h
  | cons b bs =>
    have hb : b.toNat < 256 := b.toNat_lt
    have hlen : (seqLen b.toNat = 1 → b.toNat < 128) ∧ (seqLen b.toNat = 2 → b.toNat / 32 = 6) ∧
        (seqLen b.toNat = 3 → b.toNat / 16 = 14) ∧ (seqLen b.toNat = 4 → b.toNat / 8 = 30) := by
      unfold seqLen; refine ⟨?_, ?_, ?_, ?_⟩ <;> intro h <;> split_ifs at h <;> first | assumption | omega
    rw [utf8next] at h
    split at h
    · obtain ⟨rfl, rfl, hs, _⟩ := checked_inv h
      have hr := hlen.1 (by assumption)
      refine ⟨hs, ?_⟩
      unfold utf8; rw [if_pos hr, ← eq_ofNat rfl]; rfl
    split at h
    · have hr := hlen.2.1 (by assumption)
      rcases bs with _ | ⟨t1, bs⟩
      · cases h
      · obtain ⟨x1, e1, h1⟩ := Res.bind_eq_ok.1 h
        obtain ⟨l1, rfl⟩ := trail_inv e1
        obtain ⟨rfl, rfl, hs, hov⟩ := checked_inv h1
        refine ⟨hs, ?_⟩
        clear h h1 hlen
        generalize hc : cp2 b.toNat x1 = c at *
        unfold cp2 at hc
        have h1 : ¬ (c < 0x80) := by intro hh; rw [if_pos hh] at hov; omega
        unfold utf8
        rw [if_neg h1, if_pos (by omega)]
        rw [eq_ofNat (b := b) (n := 0xc0 + c / 64) (by omega), show c % 64 = x1 by omega]
        rfl
    split at h
    · have hr := hlen.2.2.1 (by assumption)
      rcases bs with _ | ⟨t1, _ | ⟨t2, bs⟩⟩
      · cases h
      · cases h
      · obtain ⟨x1, e1, h1⟩ := Res.bind_eq_ok.1 h
        obtain ⟨x2, e2, h2⟩ := Res.bind_eq_ok.1 h1
        obtain ⟨l1, rfl⟩ := trail_inv e1
        obtain ⟨l2, rfl⟩ := trail_inv e2
        obtain ⟨rfl, rfl, hs, hov⟩ := checked_inv h2
        refine ⟨hs, ?_⟩
        clear h h1 h2 hlen
        generalize hc : cp3 b.toNat x1 x2 = c at *
        unfold cp3 at hc
        have h1 : ¬ (c < 0x80) := by intro hh; rw [if_pos hh] at hov; omega
        have h2 : ¬ (c < 0x800) := by intro hh; rw [if_neg h1, if_pos hh] at hov; omega
        unfold utf8
        rw [if_neg h1, if_neg h2, if_pos (by omega)]
        rw [eq_ofNat (b := b) (n := 0xe0 + c / 4096) (by omega), show c % 64 = x2 by omega, show c / 64 % 64 = x1 by omega]
        rfl
    split at h
    · have hr := hlen.2.2.2 (by assumption)
      rcases bs with _ | ⟨t1, _ | ⟨t2, _ | ⟨t3, bs⟩⟩⟩
      · cases h
      · cases h
      · cases h
      · obtain ⟨x1, e1, h1⟩ := Res.bind_eq_ok.1 h
        obtain ⟨x2, e2, h2⟩ := Res.bind_eq_ok.1 h1
        obtain ⟨x3, e3, h3⟩ := Res.bind_eq_ok.1 h2
        obtain ⟨l1, rfl⟩ := trail_inv e1
        obtain ⟨l2, rfl⟩ := trail_inv e2
        obtain ⟨l3, rfl⟩ := trail_inv e3
        obtain ⟨rfl, rfl, hs, hov⟩ := checked_inv h3
        refine ⟨hs, ?_⟩
        clear h h1 h2 h3 hlen
        generalize hc : cp4 b.toNat x1 x2 x3 = c at *
        unfold cp4 at hc
        have h1 : ¬ (c < 0x80) := by intro hh; rw [if_pos hh] at hov; omega
        have h2 : ¬ (c < 0x800) := by intro hh; rw [if_neg h1, if_pos hh] at hov; omega
        have h3 : ¬ (c < 0x10000) := by intro hh; rw [if_neg h1, if_neg h2, if_pos hh] at hov; omega
        unfold utf8
        rw [if_neg h1, if_neg h2, if_neg h3]
        rw [eq_ofNat (b := b) (n := 0xf0 + c / 262144) (by omega), show c % 64 = x3 by omega, show c / 64 % 64 = x2 by omega,
          show c / 4096 % 64 = x1 by omega]
        rfl
    · cases h

theorem utf8_ne_nil (c : Nat) : utf8 c ≠ [] := by unfold utf8; split_ifs <;> simp

/-- How the first byte of a code point fixes the number of bytes read. -/
theorem utf8_first {c : Nat} (hc : Scalar c) : ∃ b bs, utf8 c = b :: bs ∧ following b.toNat = bs.length ∧ (b = 0 → c = 0) := by
  have hlt : c < 0x110000 := by unfold Scalar at hc; omega
  have key : ∀ n, n < 256 → UInt8.ofNat n = 0 → n = 0 := by
    intro n hn h
    have := congrArg UInt8.toNat h
    rw [byte_toNat hn] at this; exact this
  unfold utf8 following
  split_ifs with h1 h2 h3
  · exact ⟨_, _, rfl, by rw [byte_toNat (by omega), if_neg (by omega), if_neg (by omega), if_neg (by omega)]; rfl,
      fun h => key _ (by omega) h⟩
  · exact ⟨_, _, rfl, by rw [byte_toNat (by omega), if_neg (by omega), if_neg (by omega), if_pos (by omega)]; rfl,
      fun h => by have := key _ (by omega) h; omega⟩
  · exact ⟨_, _, rfl, by rw [byte_toNat (by omega)]; simp; omega, fun h => by have := key _ (by omega) h; omega⟩
  · exact ⟨_, _, rfl, by rw [byte_toNat (by omega)]; simp, fun h => by have := key _ (by omega) h; omega⟩

/-- Reading a code point that is in the file. -/
theorem internalRead_utf8 {c : Nat} (hc : Scalar c) (r : List UInt8) :
    internalRead ⟨utf8 c ++ r, false, []⟩ = .ok ⟨r, false, [c]⟩ := by
  obtain ⟨b, bs, e, hl, h0⟩ := utf8_first hc
  have hn := utf8next_utf8 hc []
  unfold internalRead
  rw [if_neg (by simp), if_neg (by simp)]
  simp only [e, List.cons_append]
  by_cases hb : b = 0
  · have := h0 hb
    subst this
    rw [if_pos hb]
    have : utf8 0 = [0] := by decide
    rw [this] at e
    obtain ⟨rfl, rfl⟩ := List.cons.inj e
    rfl
  · rw [if_neg hb, hl, if_neg (by simp), List.take_left, List.drop_left]
    rw [e, List.append_nil] at hn
    simp only [utf8to32, hn, Res.bind_ok]
    simp

/-- The result is a value or an exception. -/
def OkOrExc {α : Type} (r : Res α) : Prop := r = .exception ∨ ∃ a, r = .ok a

theorem OkOrExc.bind {α β : Type} {r : Res α} {f : α → Res β} (h : OkOrExc r) (hf : ∀ a, OkOrExc (f a)) : OkOrExc (r >>= f) := by
  rcases h with e | ⟨a, e⟩
  · rw [e]; exact .inl rfl
  · rw [e]; exact hf a

theorem trail_cases (b : UInt8) : OkOrExc (trail b) := by
  unfold trail; split
  · exact .inr ⟨_, rfl⟩
  · exact .inl rfl

theorem checked_cases (c l : Nat) (r : List UInt8) : OkOrExc (checked c l r) := by
  unfold checked; split
  · exact .inr ⟨_, rfl⟩
  · exact .inl rfl

theorem utf8next_cases (bs : List UInt8) : OkOrExc (utf8next bs) := by
  cases bs with
  | nil => exact .inl rfl
  | cons b bs =>
    rw [utf8next]
    split
    · exact checked_cases _ _ _
    split
    · rcases bs with _ | ⟨t1, bs⟩
      · exact .inl rfl
      · exact (trail_cases _).bind fun _ => checked_cases _ _ _
    split
    · rcases bs with _ | ⟨t1, _ | ⟨t2, bs⟩⟩
      · exact .inl rfl
      · exact .inl rfl
      · exact (trail_cases _).bind fun _ => (trail_cases _).bind fun _ => checked_cases _ _ _
    split
    · rcases bs with _ | ⟨t1, _ | ⟨t2, _ | ⟨t3, bs⟩⟩⟩
      · exact .inl rfl
      · exact .inl rfl
      · exact .inl rfl
      · exact (trail_cases _).bind fun _ => (trail_cases _).bind fun _ => (trail_cases _).bind fun _ => checked_cases _ _ _
    · exact .inl rfl

theorem utf8to32_noub : ∀ (n : Nat) (bs : List UInt8), bs.length ≤ n → utf8to32 n bs ≠ .ub ∧ utf8to32 n bs ≠ .exit ∧
    ∀ cs, utf8to32 n bs = .ok cs → bs ≠ [] → ∃ c rest', utf8next bs = .ok (c, rest') ∧ cs = c :: cs.tail := by
  intro n
  induction n with
  | zero =>
    intro bs h
    cases bs with
    | nil => simp [utf8to32]
    | cons b bs => simp at h
  | succ n ih =>
    intro bs h
    cases bs with
    | nil => simp [utf8to32]
    | cons b bs =>
      simp only [utf8to32]
      rcases utf8next_cases (b :: bs) with e | ⟨⟨c, r⟩, e⟩
      · rw [e]; simp
      · rw [e]
        have hl := (utf8next_inv e).2
        have hp : 0 < (utf8 c).length := List.length_pos_iff.2 (utf8_ne_nil c)
        have hle : r.length ≤ n := by
          have := congrArg List.length hl
          rw [List.length_append] at this
          simp only [List.length_cons] at this h; omega
        obtain ⟨i1, i2, i3⟩ := ih r hle
        simp only [Res.bind_ok]
        cases e2 : utf8to32 n r with
        | ok cs =>
          simp only [Res.bind_ok]
          refine ⟨by simp, by simp, ?_⟩
          intro cs' hcs _
          exact ⟨c, r, rfl, by rw [← Res.ok.inj hcs]; rfl⟩
        | ub => exact absurd e2 i1
        | exit => exact absurd e2 i2
        | exception => simp

theorem utf8to32_one {n : Nat} {b : UInt8} {bs : List UInt8} (hl : bs.length ≤ n) {cs : List Nat}
    (h : utf8to32 (n + 1) (b :: bs) = .ok cs) (hf : following b.toNat = bs.length) :
    ∃ c, cs = [c] ∧ Scalar c ∧ b :: bs = utf8 c := by
  simp only [utf8to32] at h
  obtain ⟨⟨c, r⟩, e1, h1⟩ := Res.bind_eq_ok.1 h
  obtain ⟨cs', e2, h2⟩ := Res.bind_eq_ok.1 h1
  obtain ⟨hs, he⟩ := utf8next_inv e1
  obtain ⟨b', bs', e3, hf', _⟩ := utf8_first hs
  rw [e3, List.cons_append] at he
  obtain ⟨rfl, he'⟩ := List.cons.inj he
  have : r = [] := by
    have := congrArg List.length he'
    rw [List.length_append] at this
    exact List.length_eq_zero_iff.1 (by omega)
  subst this
  simp only [utf8to32] at e2
  obtain rfl := (Res.ok.inj e2).symm
  exact ⟨c, (Res.ok.inj h2).symm, hs, by rw [e3, he', List.append_nil]⟩

/-- All that `internal_read` can do. -/
theorem internalRead_inv (f : InFile) :
    internalRead f = .exception ∨
    (f.buf ≠ [] ∧ internalRead f = .ok f) ∨
    (f.buf = [] ∧ (f.eof = true ∨ f.rest = []) ∧ internalRead f = .ok ⟨f.rest, true, [uEOF]⟩) ∨
    (∃ c r, f.buf = [] ∧ f.eof = false ∧ Scalar c ∧ f.rest = utf8 c ++ r ∧ internalRead f = .ok ⟨r, false, [c]⟩) := by
  obtain ⟨rest, eof, buf⟩ := f
  cases buf with
  | cons c b => exact .inr (.inl ⟨by simp, by unfold internalRead; rw [if_pos (by simp)]⟩)
  | nil =>
    cases eof with
    | true => exact .inr (.inr (.inl ⟨rfl, .inl rfl, by unfold internalRead; rw [if_neg (by simp), if_pos rfl]⟩))
    | false =>
      cases rest with
      | nil => exact .inr (.inr (.inl ⟨rfl, .inr rfl, by unfold internalRead; rw [if_neg (by simp), if_neg (by simp)]⟩))
      | cons b bs =>
        by_cases hb : b = 0
        · subst hb
          refine .inr (.inr (.inr ⟨0, bs, rfl, rfl, .inl (by omega), by rw [show utf8 0 = [0] by decide]; rfl, ?_⟩))
          unfold internalRead; rw [if_neg (by simp), if_neg (by simp)]; simp
        · by_cases hl : bs.length < following b.toNat
          · left; unfold internalRead; rw [if_neg (by simp), if_neg (by simp)]; simp [hb, hl]
          · have hlen : (bs.take (following b.toNat)).length = following b.toNat := by rw [List.length_take]; omega
            have e : internalRead ⟨b :: bs, false, []⟩ = (do
                let cs ← utf8to32 (following b.toNat + 1) (b :: bs.take (following b.toNat))
                if cs.length > 3 then .ub
                else .ok ⟨bs.drop (following b.toNat), false, [cs.headD 0]⟩) := by
              unfold internalRead; rw [if_neg (by simp), if_neg (by simp)]; simp only [if_neg hb, if_neg hl]
            rw [e]
            obtain ⟨n1, n2, -⟩ := utf8to32_noub (following b.toNat + 1) (b :: bs.take (following b.toNat))
              (by rw [List.length_cons]; omega)
            cases h32 : utf8to32 (following b.toNat + 1) (b :: bs.take (following b.toNat)) with
            | ub => exact absurd h32 n1
            | exit => exact absurd h32 n2
            | exception => exact .inl rfl
            | ok cs =>
              obtain ⟨c, rfl, hs, he⟩ := utf8to32_one (by omega) h32 hlen.symm
              refine .inr (.inr (.inr ⟨c, bs.drop (following b.toNat), rfl, rfl, hs, ?_, rfl⟩))
              show b :: bs = _
              rw [← he, List.cons_append, List.take_append_drop]

end Verif.Input
