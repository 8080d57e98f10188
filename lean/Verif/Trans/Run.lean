import Verif.Trans.Lemmas

/-! # What the functions that translate one unit do with a unit -/

namespace Verif.Trans

open Verif.State Verif.Walk
open Verif.Gen (Setting Form slashed ended results)
open Verif.Alphabet (Sym pieces)

variable {W : Type}

/-! ## The text to look up -/

/-- The letters and tags of a unit, as a text. -/
def LexUnit.body (s : LexUnit) : UString := s.syms.flatMap Sym.text

/-- What is looked at for cases: the letters and tags, and the delimiter after them. -/
def LexUnit.shown (s : LexUnit) (delim : Bool) : UString := s.body ++ if delim then [0x24] else []

/-- What is before the letters and tags. -/
def LexUnit.front (s : LexUnit) (delim : Bool) : UString := (if delim then [0x5e] else []) ++ if s.mark then [0x3d] else []

theorem text_eq (s : LexUnit) (delim : Bool) : s.text delim = s.front delim ++ s.shown delim := by
  cases delim <;> cases hm : s.mark <;> simp [LexUnit.text, LexUnit.front, LexUnit.shown, LexUnit.inner, LexUnit.body, hm]

theorem body_ne {s : LexUnit} (h : s.WF) : s.body ≠ [] := by
  intro e
  obtain ⟨x, xs, hx⟩ := List.exists_cons_of_ne_nil h.nonempty
  unfold LexUnit.body at e
  rw [hx, List.flatMap_cons, List.append_eq_nil_iff] at e
  exact text_ne (h.writable x (by simp [hx])) e.1

theorem unitAt_front (a b : UString) (i : Nat) (h : i ≤ b.length) : unitAt (a ++ b) (a.length + i) = .ok ((b[i]?).getD 0) := by
  unfold unitAt
  rw [List.getElem?_append_right (by omega), Nat.add_sub_cancel_left]
  rcases Nat.lt_or_ge i b.length with h1 | h1
  · rw [List.getElem?_eq_getElem h1]; rfl
  · rw [List.getElem?_eq_none h1]
    simp only [List.length_append]
    rw [if_pos (by omega)]; rfl

theorem cases_ok (σ : Setting W) (a b : UString) (hb : b ≠ []) :
    cases σ (a ++ b) a.length = .ok (upperAt σ b 0, upperAt σ b 0 && upperAt σ b 1) := by
  have hl := List.length_pos_iff.2 hb
  have h0 := unitAt_front a b 0 (by omega)
  have h1 := unitAt_front a b 1 hl
  rw [Nat.add_zero] at h0
  unfold cases upperAt
  rw [h0, h1]
  simp only [Res.bind_ok]
  split
  · rename_i h; rw [h]; simp
  · rename_i h; simp only [Bool.not_eq_true] at h; rw [h]; simp

/-- The first unit of the letters and tags. -/
theorem body_first {s : LexUnit} (h : s.WF) (u : UInt16) (hu : u ≠ 0x5c ∧ u ≠ 0x3c) (hh : s.body[0]? = some u) : s.syms.head? = some (.letter u false) := by
  obtain ⟨x, xs, hx⟩ := List.exists_cons_of_ne_nil h.nonempty
  have hw := h.writable x (by simp [hx])
  rw [LexUnit.body, hx] at hh
  rw [hx, List.head?_cons]
  cases x with
  | letter v e =>
    cases e with
    | false => simp [Sym.text] at hh; rw [hh]
    | true => simp [Sym.text] at hh; exact absurd hh.symm hu.1
  | tag t =>
    obtain ⟨i, rfl, -⟩ := hw
    simp [Sym.text] at hh; exact absurd hh.symm hu.2

/-- The text to look up. -/
structure Looked (σ : Setting W) (s : LexUnit) (delim : Bool) (x : Word) : Prop where
  start : x.start.toNat = (s.front delim).length
  stop : x.stop.toNat + 1 = (s.front delim).length + s.body.length
  mark : x.mark = s.mark
  text : x.text = s.body.dropLast
  past : x.past = (s.body.getLast?).getD 0
  firstupper : x.firstupper = upperAt σ (s.shown delim) 0
  uppercase : x.uppercase = (upperAt σ (s.shown delim) 0 && upperAt σ (s.shown delim) 1)

theorem front_length (s : LexUnit) (delim : Bool) : (s.front delim).length = (if delim then 1 else 0) + if s.mark then 1 else 0 := by
  unfold LexUnit.front
  cases delim <;> cases s.mark <;> rfl

theorem wordFrom_ok (σ : Setting W) {s : LexUnit} (h : s.WF) (delim : Bool) {start stop : UInt32} (h1 : start.toNat = (s.front delim).length)
    (h2 : stop.toNat + 1 = (s.front delim).length + s.body.length) : ∃ x, wordFrom σ (s.text delim) start stop s.mark = .ok x ∧ Looked σ s delim x := by
  have hb := List.length_pos_iff.2 (body_ne h)
  have hle : start ≤ stop := by rw [UInt32.le_iff_toNat_le]; omega
  have hd : (stop - start).toNat = s.body.length - 1 := by rw [UInt32.toNat_sub_of_le _ _ hle]; omega
  have hsub : substr (s.text delim) start.toNat (stop - start).toNat = .ok s.body.dropLast := by
    unfold substr
    rw [h1, hd, text_eq, if_neg (by simp), List.drop_left, List.dropLast_eq_take, LexUnit.shown, List.take_append_of_le_length (by omega)]
  have hs : s.shown delim ≠ [] := by unfold LexUnit.shown; simp [body_ne h]
  have hcs := cases_ok σ (s.front delim) (s.shown delim) hs
  rw [← text_eq, ← h1] at hcs
  refine ⟨⟨start, stop, s.mark, s.body.dropLast, (s.body.getLast?).getD 0, upperAt σ (s.shown delim) 0, upperAt σ (s.shown delim) 0 && upperAt σ (s.shown delim) 1⟩, ?_, h1, h2, rfl, rfl, rfl, rfl, rfl⟩
  · unfold wordFrom
    rw [hsub]
    simp only [Res.bind_ok, hcs]
    congr 3
    rw [h1, text_eq, List.getElem?_append_right (by omega), Nat.add_sub_cancel_left, List.length_dropLast, LexUnit.shown,
      List.getElem?_append_left (by omega), List.getLast?_eq_getElem?]

theorem wordOf_ok (σ : Setting W) {s : LexUnit} (h : s.WF) (delim : Bool) : ∃ x, wordOf σ (s.text delim) delim = .ok (some x) ∧ Looked σ s delim x := by
  have hb := List.length_pos_iff.2 (body_ne h)
  have hsh := h.short
  have hin : s.inner.length = (if s.mark then 1 else 0) + s.body.length := by unfold LexUnit.inner LexUnit.body; cases s.mark <;> simp [Nat.add_comm]
  have hlen : (s.text delim).length = (if delim then 2 else 0) + (if s.mark then 1 else 0) + s.body.length := by
    rw [text_eq, List.length_append, front_length, LexUnit.shown]
    cases delim <;> simp <;> omega
  have hfl := front_length s delim
  have hp1 : (points (s.text delim) delim).1.toNat = if delim then 1 else 0 := by cases delim <;> rfl
  have hp2 : (points (s.text delim) delim).2.toNat + 1 = (s.front delim).length + s.body.length := by
    have hk : (UInt32.ofNat (s.text delim).length).toNat = (s.text delim).length := by
      rw [UInt32.toNat_ofNat']
      refine Nat.mod_eq_of_lt ?_
      cases delim <;> cases s.mark <;> simp_all <;> omega
    unfold points
    cases delim with
    | true =>
      simp only [if_true] at *
      rw [UInt32.toNat_sub_of_le _ _ (by rw [UInt32.le_iff_toNat_le, hk]; show 2 ≤ _; omega), hk]
      show _ - 2 + 1 = _
      omega
    | false =>
      simp only [Bool.false_eq_true, if_false] at *
      rw [UInt32.toNat_sub_of_le _ _ (by rw [UInt32.le_iff_toNat_le, hk]; show 1 ≤ _; omega), hk]
      show _ - 1 + 1 = _
      omega
  have hu : unitAt (s.text delim) (points (s.text delim) delim).1.toNat = .ok (if s.mark then 0x3d else (s.body[0]?).getD 0) := by
    have e : s.text delim = (if delim then [0x5e] else []) ++ ((if s.mark then [0x3d] else []) ++ s.shown delim) := by
      rw [text_eq, LexUnit.front, List.append_assoc]
    have := unitAt_front (if delim then [0x5e] else []) ((if s.mark then [0x3d] else []) ++ s.shown delim) 0 (by omega)
    rw [← e] at this
    rw [hp1]
    rw [show ((if delim then [0x5e] else [] : UString).length + 0) = if delim then 1 else 0 by cases delim <;> rfl] at this
    rw [this]
    congr 1
    cases s.mark with
    | true => rfl
    | false =>
      simp only [Bool.false_eq_true, if_false, List.nil_append, LexUnit.shown]
      rw [List.getElem?_append_left (by omega)]
  unfold wordOf
  rw [hu]
  simp only [Res.bind_ok]
  cases hm : s.mark with
  | true =>
    simp only [if_true]
    rw [if_neg (by decide)]
    obtain ⟨x, h1, h2⟩ := wordFrom_ok σ h delim (start := (points (s.text delim) delim).1 + 1) (stop := (points (s.text delim) delim).2)
      (by rw [UInt32.toNat_add, hp1, hfl, hm]; cases delim <;> rfl) hp2
    rw [hm] at h1
    exact ⟨x, by rw [h1]; rfl, h2⟩
  | false =>
    simp only [Bool.false_eq_true, if_false]
    obtain ⟨u, hu'⟩ : ∃ u, s.body[0]? = some u := ⟨_, List.getElem?_eq_getElem hb⟩
    rw [hu', Option.getD_some]
    have hstar : u ≠ 0x2a := by
      rintro rfl
      rcases h.star with h1 | h1
      · exact h1 (body_first h _ (by decide) hu')
      · rw [hm] at h1; cases h1
    have heq : u ≠ 0x3d := by
      rintro rfl
      rcases h.equals with h1 | h1
      · exact h1 (body_first h _ (by decide) hu')
      · rw [hm] at h1; cases h1
    rw [if_neg hstar, if_neg heq]
    obtain ⟨x, h1, h2⟩ := wordFrom_ok σ h delim (start := (points (s.text delim) delim).1) (stop := (points (s.text delim) delim).2)
      (by rw [hp1, hfl, hm]; cases delim <;> rfl) hp2
    rw [hm] at h1
    exact ⟨x, by rw [h1]; rfl, h2⟩

/-! ## Looking up -/

variable [AddMonoid W] [LinearOrder W] {σ : Setting W} {name : Int → UString}

theorem mem_shorn {ss : List Sym} {t : UString} (h : Sym.tag t ∈ shorn ss) : Sym.tag t ∈ ss := by
  unfold shorn at h
  rcases List.mem_append.1 h with h | h
  · exact List.mem_of_mem_dropLast h
  · cases hl : ss.getLast? with
    | none => simp [hl] at h
    | some x =>
      rw [hl] at h
      cases x with
      | letter u e => simp [shornLast] at h
      | tag t' =>
        obtain ⟨u, -, hu⟩ := List.mem_map.1 (show Sym.tag t ∈ t'.dropLast.map fun u => Sym.letter u false from h)
        cases hu

theorem val_shorn (a : Alphabet) {ss : List Sym} (h : ∀ x ∈ ss, x.Writable) : ((shorn ss).map Sym.piece).map (valOf a) = (shorn ss).map (symOf a) := by
  rw [List.map_map]
  refine List.map_congr_left fun x hx => ?_
  cases x with
  | letter u e => rfl
  | tag t =>
    obtain ⟨i, rfl, -⟩ := h _ (mem_shorn hx)
    cases i <;> rfl

/-- What the loops give, in terms of the unit. -/
theorem found_ok (hr : Gen.Regular σ name) {y : Way} {stepOf : Nat → Int → List (Rec W) → Res (List (Rec W))} (hy : Fits σ y stepOf) {s : LexUnit} (hw : s.WF) (t : UString) :
    let xs := (shorn s.syms).map (symOf σ.alphabet)
    ∃ st, (∃ N, ∀ n ≥ N, State.init σ.graph n σ.root = some st) ∧ ∃ r,
      (∃ N, ∀ n ≥ N, transLoop σ (stepOf n) (upperAt σ t 0 && upperAt σ t 1) (upperAt σ t 0) ((shorn s.syms).map Sym.piece) st [] [] = .ok r) ∧
      match r with
      | none => Lacks σ name y t (shorn s.syms) ∧ ¬ Read σ y xs
      | some (st', res, q) => Walk.Sound σ.graph σ.root y xs st' ∧
        ((res ≠ [] ∧ Finds σ name y t (shorn s.syms) res q) ∨ (res = [] ∧ q = [] ∧ Lacks σ name y t (shorn s.syms) ∧ Read σ y xs)) := by
  intro xs
  obtain ⟨st, h1, N0, h2⟩ := Gen.init_ok hr y
  refine ⟨st, ⟨N0, h2⟩, ?_⟩
  obtain ⟨r, h3, h4⟩ := loop_ok hr hy (upperAt σ t 0 && upperAt σ t 1) (upperAt σ t 0) ((shorn s.syms).map Sym.piece) [] st [] [] h1
  refine ⟨r, h3, ?_⟩
  simp only [val_shorn σ.alphabet hw.writable, List.nil_append, List.length_map] at h4
  have hlen : xs.length = (shorn s.syms).length := by simp [xs]
  have htk : xs.take (shorn s.syms).length = xs := List.take_of_length_le (by omega)
  have hr0 : Read σ y [] := ⟨_, _, _, _, .start⟩
  match r, h4 with
  | none, ⟨g1, _, j, g3, g4, g5⟩ =>
    refine ⟨?_, ?_⟩
    · rintro ⟨k, k1, k2, ⟨o, w, k3⟩, -⟩
      exact g1 k k1 (by rw [List.length_map] at k2; exact k2) o w k3
    · have := g5 _ g4 (Nat.le_refl _)
      rwa [htk] at this
  | some (st', res, q), ⟨g1, g2, g3, d, g4, g5, g6, g7⟩ =>
    have g1' : Walk.Sound σ.graph σ.root y xs st' := by rw [htk] at g1; exact g1
    refine ⟨g1', ?_⟩
    have hreach : Reach σ y xs d := by
      refine ⟨by omega, ?_, fun j h1 h2 => g5 j h1 (by omega)⟩
      rcases Nat.eq_zero_or_pos d with rfl | h
      · simpa using hr0
      · exact g6 h
    have hq : q = rest (shorn s.syms) d := by
      rw [g7, rest, List.flatMap_def, List.map_drop]
    rcases g2 with ⟨j, k1, k2, k3, k4, bs, k5, k6, k7⟩ | ⟨k1, k2⟩
    · refine .inl ⟨fun e => ?_, j, d, bs, ⟨k1, by rw [List.length_map]; exact k2, k3, fun i h1 h2 => k4 i h1 (by rw [List.length_map] at h2; exact h2)⟩, k5, k6, k7, hreach, hq⟩
      rw [k7, List.map_eq_nil_iff] at e
      exact k6 e
    · have hl : Lacks σ name y t (shorn s.syms) := by
        rintro ⟨k, m1, m2, ⟨o, w, m3⟩, -⟩
        exact k1 k m1 (by rw [List.length_map] at m2; exact m2) o w m3
      have hrd : Read σ y xs := by
        by_cases he : shorn s.syms = []
        · simp only [xs, he, List.map_nil]; exact hr0
        · have := g3 (by simpa using he) k2
          rwa [htk] at this
      have hd : d = (shorn s.syms).length := by
        rcases Nat.lt_or_ge d (shorn s.syms).length with h | h
        · have := g5 _ h (Nat.le_refl _)
          rw [htk] at this
          exact absurd hrd this
        · omega
      refine .inr ⟨k2, ?_, hl, hrd⟩
      rw [hq, hd, rest, List.drop_length]; rfl

/-- What `step_biltrans` gives. -/
theorem stepBiltrans_ok (hr : Gen.Regular σ name) (hf : Fewer σ.graph σ.root (flagWay σ) 65536) {s : LexUnit} (hw : s.WF) {delim : Bool} {x : Word} (hx : Looked σ s delim x) :
    ∃ r, (∃ N, ∀ n ≥ N, stepBiltrans σ n x = .ok r) ∧
      match r with
      | none => Lacks σ name (flagWay σ) (s.shown delim) (shorn s.syms)
      | some (ts, q) => ts ≠ [] ∧ Finds σ name (flagWay σ) (s.shown delim) (shorn s.syms) ts q := by
  obtain ⟨st, ⟨N0, h1⟩, r, ⟨N1, h2⟩, h3⟩ := found_ok hr (fits_flag hf) hw (s.shown delim)
  have hp : pieces x.past x.text = .ok ((shorn s.syms).map Sym.piece) := by
    rw [hx.past, hx.text]
    exact pieces_shorn hw.nonempty hw.writable hw.last
  have run : ∀ n ≥ max N0 N1, stepBiltrans σ n x = .ok (outcome r) := by
    intro n hn
    unfold stepBiltrans
    rw [h1 n (by omega), hp, hx.firstupper, hx.uppercase]
    simp only [ended, Res.bind_ok]
    rw [h2 n (by omega)]
    rfl
  refine ⟨_, ⟨_, run⟩, ?_⟩
  match r, h3 with
  | none, h3 => exact h3.1
  | some (st', res, q), h3 =>
    obtain ⟨-, h3⟩ := h3
    rcases h3 with ⟨g1, g2⟩ | ⟨rfl, -, g3, -⟩
    · have : res.isEmpty = false := by simpa using g1
      simp only [outcome, this, Bool.false_eq_true, if_false]
      exact ⟨g1, g2⟩
    · exact g3

omit [AddMonoid W] [LinearOrder W] in
theorem compose_eq {ts : List UString} (q : UString) (delim mark : Bool) : compose ts q delim mark = framed delim mark (ts.map (· ++ q)) := by
  unfold compose framed
  by_cases h : ts = []
  · subst h; rfl
  · rw [Bil.compose_eq ts h q]

theorem absent_eq (s : LexUnit) (delim : Bool) : absent (s.text delim) delim = unknown s delim := by
  unfold absent unknown LexUnit.text
  cases delim <;> simp

theorem answer_ok (hr : Gen.Regular σ name) (hf : Fewer σ.graph σ.root (flagWay σ) 65536) {s : LexUnit} (hw : s.WF) (delim : Bool) (f : Word → List UString → UString → UString) :
    ∃ x, Looked σ s delim x ∧ ∃ out, (∃ N, ∀ n ≥ N, answer σ n (s.text delim) delim f = .ok out) ∧
      ((Lacks σ name (flagWay σ) (s.shown delim) (shorn s.syms) ∧ out = unknown s delim) ∨
        ∃ ts q, Finds σ name (flagWay σ) (s.shown delim) (shorn s.syms) ts q ∧ out = f x ts q) := by
  obtain ⟨x, h1, h2⟩ := wordOf_ok σ hw delim
  refine ⟨x, h2, ?_⟩
  obtain ⟨r, ⟨N, h3⟩, h4⟩ := stepBiltrans_ok hr hf hw h2
  match r, h3, h4 with
  | none, h3, h4 =>
    refine ⟨unknown s delim, ⟨N, fun n hn => ?_⟩, .inl ⟨h4, rfl⟩⟩
    unfold answer
    rw [h1]
    simp only [Res.bind_ok, h3 n hn, absent_eq]
  | some (ts, q), h3, h4 =>
    refine ⟨f x ts q, ⟨N, fun n hn => ?_⟩, .inr ⟨ts, q, h4.2, rfl⟩⟩
    unfold answer
    rw [h1]
    simp only [Res.bind_ok, h3 n hn]

end Verif.Trans
