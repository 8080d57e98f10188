import Verif.Tmx.Fill
import Verif.Data.Utf16

/-! # C90: what is written for a unit of the memory -/

namespace Verif.Tmx

open Verif.Proc (escapedCps)

variable {ch : Chars}

/-- The text of a symbol in the output. -/
def charText (c : Int) : UString := (if c ∈ escapedCps then [0x5c] else []) ++ utf16 c.toNat

/-- The text of symbols in the output. -/
def said (v : List Int) : UString := v.flatMap charText

/-- The text of the pieces of a target, with these numbers for its references. -/
inductive Spoken (numbers : List UString) : List Piece → UString → Prop where
  | nil : Spoken numbers [] []
  | sym {c : Int} {ps : List Piece} {t : UString} : Spoken numbers ps t → Spoken numbers (.sym c :: ps) (charText c ++ t)
  | ref {k : Nat} {n : UString} {ps : List Piece} {t : UString} : numbers[k]? = some n → Spoken numbers ps t → Spoken numbers (.ref (k + 1) :: ps) (n ++ t)

/-- A character of Unicode other than the closing parenthesis. -/
def Open (c : Int) : Prop := 0 < c ∧ c < 0x110000 ∧ c ≠ 0x29

theorem units_open {c : Int} (h : Open c) : (0x29 : UInt16) ∉ charText c := by
  obtain ⟨h1, h2, h3⟩ := h
  have e : (0x29 : UInt16).toNat = 0x29 := rfl
  have key : ∀ n : Nat, n < 65536 → n ≠ 0x29 → (0x29 : UInt16) ≠ UInt16.ofNat n := by
    intro n hn hne he
    have := congrArg UInt16.toNat he
    rw [UInt16.toNat_ofNat', e] at this
    omega
  unfold charText utf16
  simp only [List.mem_append, not_or]
  refine ⟨by split <;> decide, ?_⟩
  split
  · rw [List.mem_singleton]
    exact key _ (by omega) (by omega)
  · simp only [List.mem_cons, List.not_mem_nil, or_false, not_or]
    exact ⟨key _ (by omega) (by omega), key _ (by omega) (by omega)⟩

theorem sequence_cons {a : Alphabet} {c : Int} (h : 0 < c) (hlt : c < 0x110000) {v : List Int} {t : UString} (hv : sequenceText a v = .ok t) :
    sequenceText a (c :: v) = .ok (charText c ++ t) := by
  rw [sequenceText, hv]
  unfold Alphabet.getSymbol charText
  rw [if_neg (by omega), if_neg (by omega), Compression.unitsOf_utf16 _ (by omega)]
  rfl

theorem sequence_digits {a : Alphabet} {ds : List Nat} (hd : ∀ d ∈ ds, d < 10) {v : List Int} {t : UString} (hv : sequenceText a v = .ok t) :
    sequenceText a (ds.map (fun d : Nat => 48 + (d : Int)) ++ v) = .ok (ds.map (fun d : Nat => UInt16.ofNat (48 + d)) ++ t) := by
  induction ds with
  | nil => exact hv
  | cons d ds ih =>
    rw [List.map_cons, List.cons_append, sequence_cons (by omega) (by have := hd d (List.mem_cons_self ..); omega) (ih fun x hx => hd x (List.mem_cons_of_mem _ hx))]
    have h10 := hd d (List.mem_cons_self ..)
    have : charText (48 + (d : Int)) = [UInt16.ofNat (48 + d)] := by
      have : d = 0 ∨ d = 1 ∨ d = 2 ∨ d = 3 ∨ d = 4 ∨ d = 5 ∨ d = 6 ∨ d = 7 ∨ d = 8 ∨ d = 9 := by omega
      rcases this with rfl | rfl | rfl | rfl | rfl | rfl | rfl | rfl | rfl | rfl <;> decide
    rw [this]
    rfl

theorem sequence_reference {a : Alphabet} (k : Nat) {v : List Int} {t : UString} (hv : sequenceText a v = .ok t) :
    sequenceText a (reference k ++ v) = .ok ((Slot.num k).text ++ t) := by
  have h1 := sequence_cons (a := a) (c := 0x29) (by decide) (by decide) hv
  have h2 := sequence_digits (a := a) (ds := (Nat.digits 10 k).reverse) (fun d hd => Nat.digits_lt_base (by decide) (List.mem_reverse.1 hd)) h1
  have h3 := sequence_cons (a := a) (c := 0x40) (by decide) (by decide) (sequence_cons (c := 0x28) (by decide) (by decide) h2)
  have e : reference k ++ v = 0x40 :: 0x28 :: ((Nat.digits 10 k).reverse.map (fun d : Nat => 48 + (d : Int)) ++ 0x29 :: v) := by
    simp [reference]
  rw [e, h3]
  have c1 : charText 0x40 = [0x5c, 0x40] := by decide
  have c2 : charText 0x28 = [0x28] := by decide
  have c3 : charText 0x29 = [0x29] := by decide
  rw [c1, c2, c3]
  simp [Slot.text, digitText]

/-- The text of the pieces, and what is written for it with the rest. -/
theorem pieces_fill {a : Alphabet} {numbers : List UString} {ps : List Piece} {txt : UString} (h : Spoken numbers ps txt)
    (hc : ∀ c, Piece.sym c ∈ ps → Open c) (hk : numbers.length < 2 ^ 31 - 1) {q q' : List UString} {tail out : UString}
    (ht : ∀ s, 0x29 ∉ s → ∃ ss r, s ++ tail = slotted ss r ∧ Filled ch numbers ss r q (s ++ out) q') :
    ∃ t, sequenceText a (render ps) = .ok t ∧ ∀ s, 0x29 ∉ s → ∃ ss r, s ++ (t ++ tail) = slotted ss r ∧ Filled ch numbers ss r q (s ++ (txt ++ out)) q' := by
  induction h with
  | nil => exact ⟨[], rfl, ht⟩
  | @sym c ps t _ ih =>
    obtain ⟨t', h1, h2⟩ := ih fun c hx => hc c (List.mem_cons_of_mem _ hx)
    have ho := hc c (List.mem_cons_self ..)
    refine ⟨charText c ++ t', sequence_cons ho.1 ho.2.1 h1, fun s hs => ?_⟩
    obtain ⟨ss, r, k1, k2⟩ := h2 (s ++ charText c) (by
      rw [List.mem_append, not_or]
      exact ⟨hs, units_open ho⟩)
    refine ⟨ss, r, ?_, ?_⟩
    · rw [← k1]; simp
    · simpa using k2
  | @ref k n ps t hn _ ih =>
    obtain ⟨t', h1, h2⟩ := ih fun c hx => hc c (List.mem_cons_of_mem _ hx)
    refine ⟨(Slot.num (k + 1)).text ++ t', sequence_reference (k + 1) h1, fun s hs => ?_⟩
    obtain ⟨ss, r, k1, k2⟩ := h2 [] (by simp)
    have hlt : k < numbers.length := (List.getElem?_eq_some_iff.1 hn).1
    refine ⟨(s, .num (k + 1)) :: ss, r, ?_, ?_⟩
    · have : slotted ((s, Slot.num (k + 1)) :: ss) r = s ++ ((Slot.num (k + 1)).text ++ slotted ss r) := by simp [slotted]
      rw [this, ← k1]
      simp
    · have := Filled.num (ch := ch) hs hn (by omega) k2
      simpa using this

/-- All sequences. -/
theorem finals_fill {a : Alphabet} {numbers : List UString} (hk : numbers.length < 2 ^ 31 - 1) (q : List UString) (us : List (List Piece × UString))
    (h : ∀ u ∈ us, Spoken numbers u.1 u.2 ∧ ∀ c, Piece.sym c ∈ u.1 → Open c) :
    ∃ t, finalsText a (us.map fun u => render u.1) = .ok t ∧ ∀ s, 0x29 ∉ s → ∃ ss r, s ++ t = slotted ss r ∧
      Filled ch numbers ss r q (s ++ us.flatMap fun u => 0x2f :: u.2) q := by
  induction us with
  | nil => exact ⟨[], rfl, fun s hs => ⟨[], s, by simp [slotted], by simpa using Filled.last hs⟩⟩
  | cons u us ih =>
    obtain ⟨t, h1, h2⟩ := ih fun u hu => h u (List.mem_cons_of_mem _ hu)
    obtain ⟨g1, g2⟩ := h u (List.mem_cons_self ..)
    obtain ⟨t', k1, k2⟩ := pieces_fill (ch := ch) (a := a) g1 g2 hk h2
    refine ⟨0x2f :: t' ++ t, ?_, fun s hs => ?_⟩
    · rw [List.map_cons, finalsText, k1, Res.bind_ok, h1]
      rfl
    · obtain ⟨ss, r, j1, j2⟩ := k2 (s ++ [0x2f]) (by simpa using hs)
      refine ⟨ss, r, ?_, ?_⟩
      · rw [← j1]; simp
      · simpa using j2

/-! ## Units -/

theorem spoken_exists {ns : List (List Int)} {numbers : List UString} (hl : ns.length ≤ numbers.length) {ps : List Piece} {m : List Int} (h : Expands ns ps m) :
    ∃ txt, Spoken numbers ps txt := by
  induction h with
  | nil => exact ⟨_, .nil⟩
  | sym _ ih =>
    obtain ⟨t, ih⟩ := ih
    exact ⟨_, .sym ih⟩
  | @ref k d ps v hn _ ih =>
    obtain ⟨t, ih⟩ := ih
    have hk : k < ns.length := (List.getElem?_eq_some_iff.1 hn).1
    exact ⟨_, .ref (List.getElem?_eq_getElem (by omega)) ih⟩

theorem expands_sym {ns : List (List Int)} {ps : List Piece} {m : List Int} (h : Expands ns ps m) {c : Int} (hc : Piece.sym c ∈ ps) : c ∈ m := by
  induction h with
  | nil => cases hc
  | sym _ ih =>
    rcases List.mem_cons.1 hc with e | hc
    · cases e; exact List.mem_cons_self ..
    · exact List.mem_cons_of_mem _ (ih hc)
  | ref _ _ ih =>
    rcases List.mem_cons.1 hc with e | hc
    · cases e
    · exact List.mem_append_right _ (ih hc)

theorem expands_syms (ns : List (List Int)) (m : List Int) : Expands ns (m.map .sym) m := by
  induction m with
  | nil => exact .nil
  | cons c m ih => exact .sym ih

theorem render_syms (m : List Int) : render (m.map .sym) = m := by
  induction m with
  | nil => rfl
  | cons c m ih =>
    have : render ((c :: m).map .sym) = c :: render (m.map .sym) := rfl
    rw [this, ih]

theorem spoken_said {ns : List (List Int)} {ps : List Piece} {m : List Int} (h : Expands ns ps m) {txt : UString} (ht : Spoken (ns.map said) ps txt) : txt = said m := by
  induction h generalizing txt with
  | nil => cases ht; rfl
  | sym _ ih =>
    cases ht with
    | sym ht =>
      rw [ih ht]
      rfl
  | ref hn _ ih =>
    cases ht with
    | ref hn' ht =>
      rw [List.getElem?_map, hn] at hn'
      cases hn'
      rw [ih ht]
      simp [said]

/-- **C90** What is written for the target of a unit, when its source was found with some numbers: the target with the number that stands at the same
place instead of each number that became a reference. -/
theorem C90_unit (ha : Ascii ch) (a : Alphabet) {o m m' : List Int} {its : List Item} (hf : Few ch o) (hi : Items ch o its) (h : align ch o m = .ok (tagged its, m'))
    (hm : ∀ c ∈ m, Open c) {numbers : List UString} (hl : (numbers.length : Nat) = (Tmx.numbers its).length) (q : List UString) :
    ∃ ps txt, m' = render ps ∧ Expands (Tmx.numbers its) ps m ∧ Spoken numbers ps txt ∧ filterFinalsTM ch a [m'] q numbers = .ok (0x2f :: txt, q) := by
  have hlen := hf its hi
  have key : ∃ ps, m' = render ps ∧ Expands (Tmx.numbers its) ps m := by
    rcases C88_restored hf h with ⟨-, rfl⟩ | ⟨its', ps, h1, -, h3, h4⟩
    · exact ⟨_, (render_syms _).symm, expands_syms _ _⟩
    · obtain rfl := items_unique h1 hi
      exact ⟨ps, h3, h4⟩
  obtain ⟨ps, rfl, hx⟩ := key
  obtain ⟨txt, ht⟩ := spoken_exists hl.ge hx
  refine ⟨ps, txt, rfl, hx, ht, ?_⟩
  obtain ⟨t, k1, k2⟩ := finals_fill (ch := ch) (a := a) (numbers := numbers) (by omega) q [(ps, txt)] (by
    intro u hu
    rw [List.mem_singleton] at hu
    subst hu
    exact ⟨ht, fun c hc => hm c (expands_sym hx hc)⟩)
  obtain ⟨ss, r, k3, k4⟩ := k2 [] (by simp)
  unfold filterFinalsTM
  have k1 : finalsText a [render ps] = .ok t := k1
  rw [k1, Res.bind_ok]
  have e : t = slotted ss r := by simpa using k3
  rw [e, fill_spec ha k4]
  simp

/-- **C90** With the numbers of the unit itself, its target is written. -/
theorem C90_same_numbers (ha : Ascii ch) (a : Alphabet) {o m m' : List Int} {its : List Item} (hf : Few ch o) (hi : Items ch o its)
    (h : align ch o m = .ok (tagged its, m')) (hm : ∀ c ∈ m, Open c) (q : List UString) :
    filterFinalsTM ch a [m'] q ((numbers its).map said) = .ok (0x2f :: said m, q) := by
  obtain ⟨ps, txt, -, h2, h3, h4⟩ := C90_unit ha a hf hi h hm (numbers := (numbers its).map said) (by simp) q
  rw [h4, spoken_said h2 h3]

/-- **C90** In general: for any text with references, marks of blanks and other closing parentheses, each reference is replaced by the number with that
place, each mark by the inside of the next blank (by a space when there is none), and the rest stays. -/
theorem C90_slots (ha : Ascii ch) (a : Alphabet) {seqs : List (List Int)} {numbers : List UString} {ss : List (UString × Slot)} {r out : UString}
    {q q' : List UString} (ht : finalsText a seqs = .ok (slotted ss r)) (h : Filled ch numbers ss r q out q') :
    filterFinalsTM ch a seqs q numbers = .ok (out, q') := by
  unfold filterFinalsTM
  rw [ht, Res.bind_ok]
  exact fill_spec ha h

/-- **C90** Several targets that are found together are written one after the other, each with the same numbers. -/
theorem C90_several (ha : Ascii ch) (a : Alphabet) {numbers : List UString} (hk : numbers.length < 2 ^ 31 - 1) (q : List UString) (us : List (List Piece × UString))
    (h : ∀ u ∈ us, Spoken numbers u.1 u.2 ∧ ∀ c, Piece.sym c ∈ u.1 → Open c) :
    filterFinalsTM ch a (us.map fun u => render u.1) q numbers = .ok (us.flatMap fun u => 0x2f :: u.2, q) := by
  obtain ⟨t, k1, k2⟩ := finals_fill (ch := ch) (a := a) hk q us h
  obtain ⟨ss, r, k3, k4⟩ := k2 [] (by simp)
  unfold filterFinalsTM
  rw [k1, Res.bind_ok]
  have e : t = slotted ss r := by simpa using k3
  rw [e, fill_spec ha k4]
  simp

/-- **C90**, refuted for targets with closing parentheses: a target with `@(5)` in it, whose source has no numbers, is stored as it is, and when its source
is found, `filterFinalsTM` reads beyond the end of the numbers of the input. -/
theorem C90_literal_false : align ascii [0x61, 0x62, 0x63, 0x64, 0x65] [0x61, 0x62, 0x40, 0x28, 0x35, 0x29] =
      .ok ([0x61, 0x62, 0x63, 0x64, 0x65], [0x61, 0x62, 0x40, 0x28, 0x35, 0x29]) ∧
    filterFinalsTM ascii .empty [[0x61, 0x62, 0x40, 0x28, 0x35, 0x29]] [] [] = .ub := by
  decide +kernel

/-- **C90**, refuted for targets with closing parentheses: `(#)` in a target becomes a space. -/
theorem C90_mark_false : align ascii [0x61, 0x62, 0x63, 0x64, 0x65] [0x61, 0x28, 0x23, 0x29, 0x62] =
      .ok ([0x61, 0x62, 0x63, 0x64, 0x65], [0x61, 0x28, 0x23, 0x29, 0x62]) ∧
    filterFinalsTM ascii .empty [[0x61, 0x28, 0x23, 0x29, 0x62]] [] [] = .ok ([0x2f, 0x61, 0x20, 0x62], []) := by
  decide +kernel

end Verif.Tmx
