import Verif.Alphabet.Lemmas

/-! # Lemmas about the formats of alphabets and about splitting text -/

namespace Verif

open Verif.Compression

namespace Alphabet

theorem mbw_ok (v : UInt32) (h : v.toNat < 2 ^ 30) :
    ∃ bs, mbw v = .ok bs ∧ ∀ rest, multibyteRead (bs ++ rest) = (v, rest) := by
  obtain ⟨bs, hb, hr⟩ := C01_multibyte_roundtrip v h
  exact ⟨bs, by simp [mbw, hb], fun r => (hr r).1⟩

theorem sw_ok (s : UString) (h : s.length < 2 ^ 30) :
    ∃ bs, sw s = .ok bs ∧ ∀ rest, stringRead (bs ++ rest) = (s, rest) := by
  obtain ⟨bs, hb, hr⟩ := C04_string_roundtrip_units s h
  exact ⟨bs, by simp [sw, hb], hr⟩

theorem ofNat32 {n : Nat} (h : n < 2 ^ 30) : (UInt32.ofNat n).toNat = n := by
  rw [UInt32.toNat_ofNat']; exact Nat.mod_eq_of_lt (by omega)

/-- A tag in angle brackets. -/
def Bracketed (s : UString) : Prop := ∃ t, s = 0x3c :: t ++ [0x3e]

theorem inner_bracketed (t : UString) : inner (0x3c :: t ++ [0x3e]) = .ok t := by
  simp [inner]

theorem tags_roundtrip (inv : List UString) (h : ∀ s ∈ inv, Bracketed s ∧ s.length < 2 ^ 30) :
    ∃ bs, writeTags inv = .ok bs ∧ ∀ (a : Alphabet) rest, Table tagNo a.slexic a.slexicinv →
      (a.slexicinv ++ inv).Nodup → ∃ m, readTags inv.length a (bs ++ rest) =
        ({ a with slexic := m, slexicinv := a.slexicinv ++ inv }, rest) ∧ Table tagNo m (a.slexicinv ++ inv) := by
  induction inv with
  | nil => exact ⟨[], rfl, fun a rest ht _ => ⟨a.slexic, by simp [readTags], by simpa using ht⟩⟩
  | cons s inv ih =>
    obtain ⟨bs, hb, hr⟩ := ih (fun s hs => h s (List.mem_cons_of_mem _ hs))
    obtain ⟨⟨t, rfl⟩, hl⟩ := h s List.mem_cons_self
    obtain ⟨b1, hb1, hr1⟩ := sw_ok t (by simp at hl; omega)
    refine ⟨b1 ++ bs, by simp only [writeTags, inner_bracketed, Res.bind_ok, hb1, hb, Res.pure_eq], fun a rest ht hn => ?_⟩
    have hnot : (0x3c :: t ++ [0x3e]) ∉ a.slexicinv := by
      intro hmem
      exact (List.nodup_append.1 hn).2.2 _ hmem _ List.mem_cons_self rfl
    have e : a.slexicinv ++ (0x3c :: t ++ [0x3e]) :: inv = (a.slexicinv ++ [0x3c :: t ++ [0x3e]]) ++ inv := by simp
    obtain ⟨m, h1, h2⟩ := hr { a with
        slexic := mapSet (0x3c :: t ++ [0x3e]) (tagNo a.slexicinv.length) a.slexic
        slexicinv := a.slexicinv ++ [0x3c :: t ++ [0x3e]] } rest (ht.snoc hnot) (by rw [e] at hn; exact hn)
    refine ⟨m, ?_, by rw [e]; exact h2⟩
    rw [e]
    simp only [List.length_cons, readTags, List.append_assoc, hr1]
    have e2 : -(((a.slexicinv ++ [0x3c :: t ++ [0x3e]]).length : Nat) : Int) = tagNo a.slexicinv.length := by
      simp only [List.length_append, List.length_singleton, tagNo]; omega
    simp only [e2]
    simpa using h1

theorem biased_toNat (bias : Nat) (x : Int) (h0 : 0 ≤ x + bias) (h1 : x + bias < 2 ^ 30) :
    ((biased bias x).toNat : Int) = x + bias := by
  have e : (x + bias) % 2 ^ 32 = x + bias := Int.emod_eq_of_lt h0 (by omega)
  unfold biased
  rw [e, UInt32.toNat_ofNat', Nat.mod_eq_of_lt (by omega)]
  omega

theorem pairs_roundtrip (bias : Nat) (inv : List Pair)
    (h : ∀ p ∈ inv, (0 ≤ p.1 + bias ∧ p.1 + bias < 2 ^ 30) ∧ (0 ≤ p.2 + bias ∧ p.2 + bias < 2 ^ 30)) :
    ∃ bs, writePairs bias inv = .ok bs ∧ ∀ (a : Alphabet) rest, Table pairNo a.spair (a.spairinv.map toLex) →
      (a.spairinv ++ inv).Nodup → ∃ m, readPairs bias inv.length a (bs ++ rest) =
        ({ a with spair := m, spairinv := a.spairinv ++ inv }, rest) ∧
          Table pairNo m ((a.spairinv ++ inv).map toLex) := by
  induction inv with
  | nil => exact ⟨[], rfl, fun a rest ht _ => ⟨a.spair, by simp [readPairs], by simpa using ht⟩⟩
  | cons p inv ih =>
    obtain ⟨bs, hb, hr⟩ := ih (fun s hs => h s (List.mem_cons_of_mem _ hs))
    obtain ⟨⟨h10, h11⟩, h20, h21⟩ := h p List.mem_cons_self
    have n1 := biased_toNat bias p.1 h10 h11
    have n2 := biased_toNat bias p.2 h20 h21
    obtain ⟨b1, hb1, hr1⟩ := mbw_ok (biased bias p.1) (by omega)
    obtain ⟨b2, hb2, hr2⟩ := mbw_ok (biased bias p.2) (by omega)
    refine ⟨b1 ++ b2 ++ bs, by simp [writePairs, hb1, hb2, hb], fun a rest ht hn => ?_⟩
    have hnot : toLex p ∉ a.spairinv.map toLex := by
      intro hmem
      obtain ⟨q, hq, e⟩ := List.mem_map.1 hmem
      cases e
      exact (List.nodup_append.1 hn).2.2 _ hq _ List.mem_cons_self rfl
    have e : a.spairinv ++ p :: inv = (a.spairinv ++ [p]) ++ inv := by simp
    have hlen : a.spair.length = a.spairinv.length := by have := ht.len; simpa using this
    have hts := ht.snoc hnot
    rw [List.length_map] at hts
    obtain ⟨m, h1, h2⟩ := hr { a with
        spair := mapSet (toLex p) (pairNo a.spairinv.length) a.spair
        spairinv := a.spairinv ++ [p] } rest (by simpa using hts) (by rw [e] at hn; exact hn)
    refine ⟨m, ?_, by rw [e]; exact h2⟩
    rw [e]
    simp only [List.length_cons, readPairs, List.append_assoc, hr1, hr2, n1, n2, Int.add_sub_cancel, hlen]
    simpa [pairNo] using h1

/-! ## Serialiser format -/

theorem indexTags_table (inv done : List UString) (m : List (UString × Int)) (ht : Table tagNo m done)
    (hn : (done ++ inv).Nodup) : Table tagNo (indexTags done.length inv m) (done ++ inv) := by
  induction inv generalizing done m with
  | nil => simpa [indexTags] using ht
  | cons s inv ih =>
    have hnot : s ∉ done := fun hmem => (List.nodup_append.1 hn).2.2 _ hmem _ List.mem_cons_self rfl
    have := ih (done ++ [s]) _ (ht.snoc hnot) (by simpa using hn)
    simp only [indexTags]
    rw [show (-(done.length : Int) - 1) = tagNo done.length by simp [tagNo]; omega]
    simpa using this

theorem indexPairs_ub (n i : Nat) (ps : List Pair) (m : List ((Int ×ₗ Int) × Int)) :
    indexPairs n i ps m = .ub ↔ ps.length < n := by
  induction n generalizing i ps m with
  | zero => simp [indexPairs]
  | succ n ih =>
    cases ps with
    | nil => simp [indexPairs]
    | cons p ps => simp [indexPairs, ih]

theorem indexPairs_ok {n i : Nat} {ps : List Pair} (h : n ≤ ps.length) (m : List ((Int ×ₗ Int) × Int)) :
    ∃ m', indexPairs n i ps m = .ok m' := by
  induction n generalizing i ps m with
  | zero => exact ⟨m, rfl⟩
  | succ n ih =>
    cases ps with
    | nil => simp at h
    | cons p ps => exact ih (by simpa using h) _

theorem indexPairs_table (inv done : List Pair) (m : List ((Int ×ₗ Int) × Int)) (n : Nat)
    (ht : Table pairNo m (done.map toLex)) (hn : (done ++ inv).Nodup) (hle : n ≤ inv.length) :
    ∃ m', indexPairs n done.length inv m = .ok m' ∧ Table pairNo m' ((done ++ inv.take n).map toLex) := by
  induction n generalizing inv done m with
  | zero => exact ⟨m, by simp [indexPairs], by simpa using ht⟩
  | succ n ih =>
    cases inv with
    | nil => simp at hle
    | cons p inv =>
      have hnot : toLex p ∉ done.map toLex := by
        intro hmem
        obtain ⟨q, hq, e⟩ := List.mem_map.1 hmem
        cases e
        exact (List.nodup_append.1 hn).2.2 _ hq _ List.mem_cons_self rfl
      have hts := ht.snoc hnot
      rw [List.length_map] at hts
      obtain ⟨m', h1, h2⟩ := ih inv (done ++ [p]) _ (by simpa using hts) (by simpa using hn) (by simpa using hle)
      refine ⟨m', ?_, by simpa using h2⟩
      simpa [indexPairs, pairNo] using h1

theorem int32_back {x : Int} (h1 : -2 ^ 31 ≤ x) (h2 : x < 2 ^ 31) : (Int32.ofInt x).toInt = x :=
  Int32.toInt_ofInt_of_le (by simpa using h1) (by simpa using h2)

/-! ## Splitting -/

theorem nextLen_pos {s : UString} (h : s ≠ []) : 0 < nextLen s ∧ nextLen s ≤ s.length := by
  match s, h with
  | [_], _ => simp [nextLen]
  | u :: v :: t, _ => simp only [nextLen]; split <;> simp

theorem closeLen_spec {t : UString} {n : Nat} (h : closeLen t = some n) :
    0 < n ∧ n ≤ t.length ∧ (t.take (n - 1)).all (· ≠ 0x3e) ∧ t[n - 1]? = some 0x3e := by
  induction t generalizing n with
  | nil => simp [closeLen] at h
  | cons u t ih =>
    simp only [closeLen] at h
    split at h
    · cases h; rename_i hu; simp [hu]
    · rename_i hu
      simp only [Option.map_eq_some_iff] at h
      obtain ⟨k, hk, rfl⟩ := h
      obtain ⟨h1, h2, h3, h4⟩ := ih hk
      obtain ⟨k, rfl⟩ : ∃ j, k = j + 1 := ⟨k - 1, by omega⟩
      simp only [Nat.add_sub_cancel] at h3 h4
      refine ⟨by omega, by simp; omega, ?_, ?_⟩
      · simp only [Nat.add_sub_cancel, List.take_succ_cons, List.all_cons, h3, Bool.and_true, decide_eq_true_eq]
        exact hu
      · simpa using h4

theorem closeLen_append {t r : UString} (h : (0x3e : UInt16) ∉ t) : closeLen (t ++ 0x3e :: r) = some (t.length + 1) := by
  induction t with
  | nil => simp [closeLen]
  | cons u t ih =>
    simp only [List.mem_cons, not_or] at h
    simp only [List.cons_append, closeLen, if_neg (Ne.symm h.1), ih h.2, Option.map_some, List.length_cons]

/-- The text of a piece, with or without a backslash in front. -/
def withEsc (e : Bool × UString) : UString := if e.1 then 0x5c :: e.2 else e.2

theorem nextPiece_some {s p rest : UString} (h : nextPiece s = some (p, rest)) :
    p ≠ [] ∧ ∃ e : Bool, s = withEsc (e, p) ++ rest := by
  unfold nextPiece at h
  split at h
  · cases h
  · rename_i u t
    split at h
    · rename_i hu
      split at h
      · cases h
      · rename_i hne
        cases h
        have := nextLen_pos (s := t) (by rintro rfl; exact hne rfl)
        refine ⟨fun hnil => ?_, true, by simp [withEsc, hu]⟩
        rw [List.take_eq_nil_iff] at hnil
        rcases hnil with h | h
        · omega
        · exact hne h
    · split at h
      · split at h
        · cases h
          exact ⟨by simp, false, by simp [withEsc]⟩
        · cases h
          exact ⟨by simp, false, by simp [withEsc]⟩
      · cases h
        have := nextLen_pos (s := u :: t) (by simp)
        refine ⟨fun hnil => ?_, false, by simp [withEsc]⟩
        rw [List.take_eq_nil_iff] at hnil
        rcases hnil with h | h
        · omega
        · cases h

theorem nextPiece_none {s : UString} (h : nextPiece s = none) : s = [] ∨ s = [0x5c] := by
  unfold nextPiece at h
  split at h
  · exact .inl rfl
  · rename_i u t
    split at h
    · rename_i hu
      split at h
      · exact .inr (by rw [hu])
      · cases h
    · split at h
      · split at h <;> cases h
      · cases h

theorem withEsc_length (e : Bool × UString) (h : e.2 ≠ []) : 0 < (withEsc e).length := by
  obtain ⟨b, p⟩ := e
  have := List.length_pos_iff.2 h
  simp only [withEsc]; split
  · simp
  · exact this

theorem piecesLoop_spec (past : UInt16) (fuel : Nat) (s : UString) (hf : s.length ≤ fuel) :
    (past ≠ 0x5c → ∃ ps, piecesLoop past fuel s = .ok ps) ∧
    ∀ ps, piecesLoop past fuel s = .ok ps → (∀ p ∈ ps, p ≠ []) ∧ ∃ es : List (Bool × UString), es.map (·.2) = ps ∧
      (s = es.flatMap withEsc ∨ s = es.flatMap withEsc ++ [0x5c]) := by
  induction fuel generalizing s with
  | zero =>
    obtain rfl : s = [] := List.length_eq_zero_iff.1 (by omega)
    refine ⟨fun _ => ⟨[], rfl⟩, fun ps h => ?_⟩
    cases h
    exact ⟨by simp, [], rfl, .inl rfl⟩
  | succ fuel ih =>
    simp only [piecesLoop]
    split
    · rename_i hn
      refine ⟨fun _ => ⟨[], rfl⟩, fun ps h => ?_⟩
      cases h
      refine ⟨by simp, [], rfl, ?_⟩
      simpa using nextPiece_none hn
    · rename_i p rest hn
      obtain ⟨hp, e, hs⟩ := nextPiece_some hn
      have hlt := withEsc_length (e, p) hp
      split
      · refine ⟨fun hpast => ⟨[p], by rw [if_neg hpast]⟩, fun ps h => ?_⟩
        split at h
        · cases h
        · cases h
          exact ⟨by simpa using hp, [(e, p)], rfl, .inl (by simpa using hs)⟩
      · obtain ⟨ih1, ih2⟩ := ih rest (by rw [hs] at hf; simp only [List.length_append] at hf; omega)
        refine ⟨fun hpast => ?_, fun ps h => ?_⟩
        · obtain ⟨ps, hps⟩ := ih1 hpast
          exact ⟨p :: ps, by rw [hps]; rfl⟩
        · rw [Res.bind_eq_ok] at h
          obtain ⟨qs, hq, h⟩ := h
          cases h
          obtain ⟨h1, es, h2, h3⟩ := ih2 qs hq
          refine ⟨?_, (e, p) :: es, by simp [h2], ?_⟩
          · intro q hq
            rcases List.mem_cons.1 hq with rfl | hq
            · exact hp
            · exact h1 q hq
          · rcases h3 with h3 | h3
            · exact .inl (by rw [hs, List.flatMap_cons, ← h3])
            · refine .inr ?_
              rw [hs, List.flatMap_cons, List.append_assoc, ← h3]

/-- A symbol as it is written in text. -/
inductive Sym where
  | letter (u : UInt16) (escaped : Bool)
  | tag (t : UString)
  deriving DecidableEq

/-- How a symbol is written: a letter with or without a backslash, a tag as it is. -/
def Sym.text : Sym → UString
  | .letter u e => if e then [0x5c, u] else [u]
  | .tag t => t

/-- Symbols that can be written so that they are read back: letters that are not surrogates, with a backslash
before a backslash or `<`; tags in brackets without an inner `>`. -/
def Sym.Writable : Sym → Prop
  | .letter u e => isLead u = false ∧ isTrail u = false ∧ ((u = 0x5c ∨ u = 0x3c) → e = true)
  | .tag t => ∃ i : UString, t = 0x3c :: i ++ [0x3e] ∧ (0x3e : UInt16) ∉ i

/-- The piece that belongs to a symbol. -/
def Sym.piece : Sym → UString
  | .letter u _ => [u]
  | .tag t => t

theorem nextLen_of_not_lead {u : UInt16} (h : isLead u = false) (t : UString) : nextLen (u :: t) = 1 := by
  cases t <;> simp [nextLen, h]

theorem nextPiece_sym (x : Sym) (h : x.Writable) (rest : UString) :
    nextPiece (x.text ++ rest) = some (x.piece, rest) := by
  cases x with
  | letter u e =>
    obtain ⟨h1, h2, h3⟩ := h
    cases e with
    | true =>
      simp only [Sym.text, Sym.piece, if_true, List.cons_append, List.nil_append, nextPiece]
      simp [nextLen_of_not_lead h1]
    | false =>
      have hb : u ≠ 0x5c := fun hu => by simpa using h3 (.inl hu)
      have hl : u ≠ 0x3c := fun hu => by simpa using h3 (.inr hu)
      simp [Sym.text, Sym.piece, nextPiece, hb, hl, nextLen_of_not_lead h1]
  | tag t =>
    obtain ⟨i, rfl, hi⟩ := h
    have hc := closeLen_append (r := rest) hi
    simp only [Sym.text, Sym.piece, List.cons_append, List.append_assoc, List.nil_append, nextPiece, hc]
    rw [if_neg (by decide), if_pos trivial]
    have e : i ++ 0x3e :: rest = (i ++ [0x3e]) ++ rest := by simp
    rw [e, List.take_append_of_le_length (by simp), List.drop_append_of_le_length (by simp)]
    simp
    exact List.take_of_length_le (by simp)

theorem pieces_syms (past : UInt16) (hp : past ≠ 0x5c) (xs : List Sym) (h : ∀ x ∈ xs, x.Writable) (fuel : Nat)
    (hf : (xs.flatMap Sym.text).length ≤ fuel) :
    piecesLoop past fuel (xs.flatMap Sym.text) = .ok (xs.map Sym.piece) := by
  induction xs generalizing fuel with
  | nil => cases fuel <;> simp [piecesLoop, nextPiece]
  | cons x xs ih =>
    have hx := nextPiece_sym x (h x List.mem_cons_self) (xs.flatMap Sym.text)
    obtain ⟨h1, e, h2⟩ := nextPiece_some hx
    have hlt := withEsc_length (e, x.piece) h1
    have hlen : (x.text).length = (withEsc (e, x.piece)).length := by
      have := congrArg List.length h2; simp only [List.length_append] at this; omega
    rw [List.flatMap_cons, List.length_append] at hf
    obtain ⟨fuel, rfl⟩ : ∃ f, fuel = f + 1 := ⟨fuel - 1, by omega⟩
    simp only [piecesLoop, List.flatMap_cons, hx]
    have ih' := ih (fun y hy => h y (List.mem_cons_of_mem _ hy)) fuel (by omega)
    split
    · rename_i hnil
      rw [if_neg hp]
      cases xs with
      | nil => rfl
      | cons y ys =>
        have hy := nextPiece_sym y (h y (by simp)) (ys.flatMap Sym.text)
        rw [List.flatMap_cons] at hnil
        rw [hnil] at hy
        simp [nextPiece] at hy
    · rw [ih']; rfl

end Alphabet

end Verif
