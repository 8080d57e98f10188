import Verif.Tmx.Output
import Verif.Tmx.Props

/-! # Putting numbers and blanks into what is found -/

namespace Verif.Tmx

open Verif.Proc (escapedCps)

variable (ch : Chars)

/-- The digits of a number. -/
def digitText (k : Nat) : UString := (Nat.digits 10 k).reverse.map fun d : Nat => UInt16.ofNat (48 + d)

/-- What ends at a closing parenthesis. -/
inductive Slot where
  | num (k : Nat)
  | blank
  | paren

/-- What ends at a closing parenthesis, as it is stored (and escaped). -/
def Slot.text : Slot → UString
  | .num k => [0x5c, 0x40, 0x28] ++ digitText k ++ [0x29]
  | .blank => [0x28, 0x23, 0x29]
  | .paren => [0x29]

/-- Text before a closing parenthesis that would be taken for something else together with it. -/
def Opens (s : UString) : Prop :=
  [0x28, 0x23] <:+ s ∨ ∃ r ds, s = r ++ [0x5c, 0x40, 0x28] ++ ds ∧ ds ≠ [] ∧ ∀ c ∈ ds, ch.isDigit c.toNat = true

/-- After `\@(` there are never more than five digits (more could be too large for an `int`). -/
def Short (s : UString) : Prop :=
  ∀ r ds e, s = r ++ [0x5c, 0x40, 0x28] ++ ds ++ e → (∀ c ∈ ds, ch.isDigit c.toNat = true) → ds.length ≤ 5

/-- What is written for segments, each with a slot behind it, and the rest, with these numbers and blanks; and the blanks that are left. -/
inductive Filled (numbers : List UString) : List (UString × Slot) → UString → List UString → UString → List UString → Prop where
  | last {s : UString} {q : List UString} : 0x29 ∉ s → Filled numbers [] s q s q
  | num {s n r out : UString} {k : Nat} {ss : List (UString × Slot)} {q q' : List UString} : 0x29 ∉ s → numbers[k]? = some n → k + 1 < 2 ^ 31 →
      Filled numbers ss r q out q' → Filled numbers ((s, .num (k + 1)) :: ss) r q (s ++ n ++ out) q'
  | space {s r out : UString} {ss : List (UString × Slot)} {q' : List UString} : 0x29 ∉ s → Filled numbers ss r [] out q' →
      Filled numbers ((s, .blank) :: ss) r [] (s ++ [0x20] ++ out) q'
  | blank {s r out b : UString} {x y : UInt16} {ss : List (UString × Slot)} {q q' : List UString} : 0x29 ∉ s → Filled numbers ss r q out q' →
      Filled numbers ((s, .blank) :: ss) r ((x :: b ++ [y]) :: q) (s ++ b ++ out) q'
  | paren {s r out : UString} {ss : List (UString × Slot)} {q q' : List UString} : 0x29 ∉ s → ¬ Opens ch s → Short ch s → Filled numbers ss r q out q' →
      Filled numbers ((s, .paren) :: ss) r q (s ++ [0x29] ++ out) q'

/-- The text with its slots. -/
def slotted (ss : List (UString × Slot)) (r : UString) : UString := ss.flatMap (fun s => s.1 ++ s.2.text) ++ r

variable {ch}

theorem fragments_cons (s : UString) (h : 0x29 ∉ s) (r : UString) : fragments (s ++ 0x29 :: r) = (s, (fragments r).1 :: (fragments r).2) := by
  induction s with
  | nil => simp [fragments]
  | cons c s ih =>
    have hc : c ≠ 0x29 := fun e => h (by simp [e])
    rw [List.cons_append, fragments, ih fun e => h (List.mem_cons_of_mem _ e)]
    simp [hc]

theorem fragments_last (s : UString) (h : 0x29 ∉ s) : fragments s = (s, []) := by
  induction s with
  | nil => rfl
  | cons c s ih =>
    have hc : c ≠ 0x29 := fun e => h (by simp [e])
    rw [fragments, ih fun e => h (List.mem_cons_of_mem _ e)]
    simp [hc]

/-- The digits of ASCII are digits. -/
def Ascii (ch : Chars) : Prop := ∀ d : Nat, d < 10 → ch.isDigit (48 + d : Nat) = true

theorem digitText_mem {k : Nat} {c : UInt16} (h : c ∈ digitText k) : ∃ d, d < 10 ∧ c = UInt16.ofNat (48 + d) := by
  unfold digitText at h
  obtain ⟨d, hd, rfl⟩ := List.mem_map.1 h
  exact ⟨d, Nat.digits_lt_base (by decide) (List.mem_reverse.1 hd), rfl⟩

theorem unit_digit {d : Nat} (h : d < 10) : (UInt16.ofNat (48 + d)).toNat = 48 + d := by
  simp; omega

theorem digitText_ne {k : Nat} {c : UInt16} (h : c ∈ digitText k) (x : UInt16) (hx : x.toNat < 48 ∨ 57 < x.toNat) : c ≠ x := by
  obtain ⟨d, hd, rfl⟩ := digitText_mem h
  rintro rfl
  rw [unit_digit hd] at hx
  omega

theorem digitText_nil {k : Nat} : digitText (k + 1) ≠ [] := by
  unfold digitText
  simp

/-- The value of digits. -/
theorem refNumber_digits (ha : Ascii ch) (ds : List Nat) (hd : ∀ d ∈ ds, d < 10) (num : Nat)
    (hb : Nat.ofDigits 10 (ds.reverse ++ Nat.digits 10 num) < 2 ^ 31) :
    refNumber ch (num : Int) (ds.map fun d => UInt16.ofNat (48 + d)) = .ok (some ((Nat.ofDigits 10 (ds.reverse ++ Nat.digits 10 num) : Nat) : Int)) := by
  induction ds generalizing num with
  | nil =>
    simp only [List.map_nil, refNumber, List.reverse_nil, List.nil_append, Nat.ofDigits_digits]
  | cons d ds ih =>
    have h10 := hd d (List.mem_cons_self ..)
    have key : Nat.ofDigits 10 ((d :: ds).reverse ++ Nat.digits 10 num) = Nat.ofDigits 10 (ds.reverse ++ Nat.digits 10 (num * 10 + d)) := by
      simp only [List.reverse_cons, List.append_assoc, List.singleton_append, Nat.ofDigits_append, Nat.ofDigits_cons, Nat.ofDigits_digits]
      ring
    rw [key] at hb ⊢
    have hle : num * 10 + d < 2 ^ 31 := by
      refine lt_of_le_of_lt ?_ hb
      rw [Nat.ofDigits_append, Nat.ofDigits_digits]
      have : 1 ≤ 10 ^ ds.reverse.length := Nat.one_le_pow _ _ (by decide)
      have := Nat.mul_le_mul_right (num * 10 + d) this
      omega
    simp only [List.map_cons, refNumber, unit_digit h10, ha d h10, if_true]
    have e : (num : Int) * 10 + (((48 + d : Nat) : Int) - 48) = ((num * 10 + d : Nat) : Int) := by push_cast; ring
    rw [e, if_pos (by exact_mod_cast hle)]
    exact ih (fun x hx => hd x (List.mem_cons_of_mem _ hx)) _ hb

theorem refNumber_text (ha : Ascii ch) {k : Nat} (hk : k < 2 ^ 31) : refNumber ch 0 (digitText k) = .ok (some (k : Int)) := by
  have := refNumber_digits ha (Nat.digits 10 k).reverse (fun d hd => Nat.digits_lt_base (by decide) (List.mem_reverse.1 hd)) 0
    (by simpa [Nat.ofDigits_digits] using hk)
  rw [List.reverse_reverse, Nat.digits_zero, List.append_nil, Nat.ofDigits_digits] at this
  exact this

/-- Nothing is found from a place where no backslash is left. -/
theorem findRef_skip {numbers : List UString} (s t : UString) (h : 0x5c ∉ t) : ∀ n ≤ t.length, findRef ch numbers (s ++ t) (s.length + n) = findRef ch numbers (s ++ t) s.length := by
  intro n hn
  induction n with
  | zero => rfl
  | succ n ih =>
    rw [← Nat.add_assoc, findRef, List.drop_append, List.drop_eq_nil_of_le (by omega), List.nil_append]
    have e : s.length + n - s.length = n := by omega
    rw [e]
    split
    · next d ds hd =>
      exact absurd (List.drop_subset n t (by rw [hd]; simp)) h
    · exact ih (by omega)

theorem findRef_num (ha : Ascii ch) {numbers : List UString} (s : UString) {k : Nat} {n : UString} (hk : k + 1 < 2 ^ 31) (hn : numbers[k]? = some n) :
    findRef ch numbers (s ++ [0x5c, 0x40, 0x28] ++ digitText (k + 1)) (s ++ [0x5c, 0x40, 0x28] ++ digitText (k + 1)).length = .ok (some (s ++ n)) := by
  have h5 : (0x5c : UInt16) ∉ [0x40, 0x28] ++ digitText (k + 1) := by
    simp only [List.mem_append, List.mem_cons, List.not_mem_nil, or_false]
    rintro (h | h)
    · exact absurd h (by decide)
    · exact digitText_ne h 0x5c (by decide) rfl
  have e : s ++ [0x5c, 0x40, 0x28] ++ digitText (k + 1) = (s ++ [0x5c]) ++ ([0x40, 0x28] ++ digitText (k + 1)) := by simp
  rw [e, List.length_append, findRef_skip _ _ h5 _ le_rfl, List.length_append, List.length_singleton, findRef]
  have hd : (s ++ [0x5c] ++ ([0x40, 0x28] ++ digitText (k + 1))).drop s.length = 0x5c :: 0x40 :: 0x28 :: digitText (k + 1) := by
    simp
  obtain ⟨d, ds, hds⟩ := List.exists_cons_of_ne_nil (digitText_nil (k := k))
  have hr := refNumber_text ha hk
  rw [hds] at hd hr ⊢
  rw [hd]
  simp only [hr, Res.bind_ok]
  have e2 : (((k + 1 : Nat) : Int) - 1).toNat = k := by omega
  rw [if_pos (by omega), e2, hn]
  simp [Res.pure_eq]

theorem refNumber_none {s : UString} (n : Nat) (num : Int) (h : ¬ ∀ c ∈ s, ch.isDigit c.toNat = true)
    (hs : ∀ ds e, s = ds ++ e → (∀ c ∈ ds, ch.isDigit c.toNat = true) → ds.length ≤ n) (hb : (num + 7282) * 10 ^ n < 2 ^ 31) :
    refNumber ch num s = .ok none := by
  induction s generalizing num n with
  | nil => simp at h
  | cons c s ih =>
    rw [refNumber]
    by_cases hc : ch.isDigit c.toNat = true
    · simp only [hc, if_true]
      obtain ⟨n, rfl⟩ : ∃ m, n = m + 1 := by
        have := hs [c] s rfl (by simpa using hc)
        exact ⟨n - 1, by simp at this; omega⟩
      have hlt : (c.toNat : Int) ≤ 65535 := by
        have := c.toNat_lt
        omega
      have hstep : num * 10 + ((c.toNat : Int) - 48) + 7282 ≤ (num + 7282) * 10 := by omega
      have hp : (1 : Int) ≤ 10 ^ n := one_le_pow₀ (by norm_num)
      have hb' : (num * 10 + ((c.toNat : Int) - 48) + 7282) * 10 ^ n < 2 ^ 31 := by
        refine lt_of_le_of_lt (mul_le_mul_of_nonneg_right hstep (by positivity)) ?_
        rw [pow_succ] at hb
        calc (num + 7282) * 10 * 10 ^ n = (num + 7282) * (10 ^ n * 10) := by ring
          _ < 2 ^ 31 := hb
      rw [if_pos]
      · refine ih n _ (fun h' => h (by simpa [hc] using h')) ?_ hb'
        intro ds e he hd
        have := hs (c :: ds) e (by rw [he]; rfl) (by simpa [hc] using hd)
        simpa using this
      · by_contra hge
        have hge : (2 : Int) ^ 31 ≤ num * 10 + ((c.toNat : Int) - 48) := not_lt.1 hge
        have : num * 10 + ((c.toNat : Int) - 48) + 7282 ≤ (num * 10 + ((c.toNat : Int) - 48) + 7282) * 10 ^ n := le_mul_of_one_le_right (by omega) hp
        omega
    · simp [hc]

theorem findRef_none {numbers : List UString} (s : UString) (h : ¬ Opens ch s) (hs : Short ch s) (n : Nat) : findRef ch numbers s n = .ok none := by
  induction n with
  | zero => rfl
  | succ n ih =>
    rw [findRef]
    split
    · next d ds hd =>
      have e : s = s.take n ++ [0x5c, 0x40, 0x28] ++ (d :: ds) := by
        conv_lhs => rw [← List.take_append_drop n s, hd]
        simp
      rw [refNumber_none 5 0 (fun h' => h (.inr ⟨_, _, e, by simp, h'⟩)) (fun ds' e' he hd' => hs (s.take n) ds' e' (by
        conv_lhs => rw [e, he]
        simp) hd') (by norm_num)]
      simp only [Res.bind_ok]
      exact ih
    · exact ih

theorem not_suffix {s t : UString} (ht : t ≠ []) (h : ∀ c ∈ t, c ≠ 0x23) : ¬ [0x28, 0x23] <:+ s ++ t := by
  rintro ⟨r, hr⟩
  have h1 := congrArg List.getLast? hr
  obtain ⟨t', c, rfl⟩ := List.eq_nil_or_concat' t |>.resolve_left ht
  have h1 := congrArg List.getLast? hr
  simp [← List.append_assoc] at h1
  exact h c (by simp) h1.symm

/-- Filling the fragments. -/
theorem fill_spec (ha : Ascii ch) {numbers : List UString} {ss : List (UString × Slot)} {r : UString} {q : List UString} {out : UString} {q' : List UString}
    (h : Filled ch numbers ss r q out q') : fill ch numbers (fragments (slotted ss r)).1 (fragments (slotted ss r)).2 q = .ok (out, q') := by
  induction h with
  | last hs =>
    rw [slotted, List.flatMap_nil, List.nil_append, fragments_last _ hs]
    rfl
  | @num s n r out k ss q q' hs hn hk _ ih =>
    have e : slotted ((s, .num (k + 1)) :: ss) r = (s ++ [0x5c, 0x40, 0x28] ++ digitText (k + 1)) ++ 0x29 :: slotted ss r := by
      simp [slotted, Slot.text]
    have h29 : (0x29 : UInt16) ∉ s ++ [0x5c, 0x40, 0x28] ++ digitText (k + 1) := by
      simp only [List.mem_append, not_or]
      exact ⟨⟨hs, by decide⟩, fun h => digitText_ne h 0x29 (by decide) rfl⟩
    rw [e, fragments_cons _ h29]
    simp only [fill]
    rw [if_neg (not_suffix digitText_nil fun c hc => digitText_ne hc 0x23 (by decide)), findRef_num ha s hk hn]
    simp only [Res.bind_ok]
    rw [ih]
    rfl
  | @space s r out ss q' hs _ ih =>
    have e : slotted ((s, .blank) :: ss) r = (s ++ [0x28, 0x23]) ++ 0x29 :: slotted ss r := by
      simp [slotted, Slot.text]
    have h29 : (0x29 : UInt16) ∉ s ++ [0x28, 0x23] := by
      simp only [List.mem_append, not_or]
      exact ⟨hs, by decide⟩
    rw [e, fragments_cons _ h29]
    simp only [fill]
    rw [if_pos (List.suffix_append ..)]
    simp only [nextBlank, Res.bind_ok]
    rw [ih]
    have : (s ++ [0x28, 0x23]).dropLast.dropLast = s := by
      rw [show s ++ [0x28, 0x23] = (s ++ [0x28]) ++ [0x23] by simp, List.dropLast_concat, List.dropLast_concat]
    rw [this]
    rfl
  | @blank s r out b x y ss q q' hs _ ih =>
    have e : slotted ((s, .blank) :: ss) r = (s ++ [0x28, 0x23]) ++ 0x29 :: slotted ss r := by
      simp [slotted, Slot.text]
    have h29 : (0x29 : UInt16) ∉ s ++ [0x28, 0x23] := by
      simp only [List.mem_append, not_or]
      exact ⟨hs, by decide⟩
    rw [e, fragments_cons _ h29]
    simp only [fill]
    rw [if_pos (List.suffix_append ..)]
    have hb : nextBlank ((x :: b ++ [y]) :: q) = .ok (b, q) := by
      simp [nextBlank]
    rw [hb]
    simp only [Res.bind_ok]
    rw [ih]
    have : (s ++ [0x28, 0x23]).dropLast.dropLast = s := by
      rw [show s ++ [0x28, 0x23] = (s ++ [0x28]) ++ [0x23] by simp, List.dropLast_concat, List.dropLast_concat]
    rw [this]
    rfl
  | @paren s r out ss q q' hs ho hsh _ ih =>
    have e : slotted ((s, .paren) :: ss) r = s ++ 0x29 :: slotted ss r := by
      simp [slotted, Slot.text]
    rw [e, fragments_cons _ hs]
    simp only [fill]
    rw [if_neg fun h => ho (.inl h), findRef_none s ho hsh]
    simp only [Res.bind_ok]
    rw [ih]
    rfl

end Verif.Tmx
