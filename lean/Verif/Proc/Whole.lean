import Verif.Proc.Loop

/-! # The whole text -/

namespace Verif.Proc

open Verif.State Verif.Stream Verif.Input Verif.Merge

variable {W : Type}

section
variable [AddMonoid W] [LinearOrder W] {σ : Setting W} {name : Int → UString}

omit [AddMonoid W] [LinearOrder W] in
theorem live_nil : Live σ [] := ⟨[], σ.root, .nil _, .nil⟩

/-- From anywhere in a token to its end. -/
theorem token_ok (hr : Regular σ name) (hs : Small σ) (hpl : Plain σ) {n : Nat} {ps R : List Piece} (hrd : Ready hr n ps) (hi : R <:+: ps)
    (hok : ∀ p ∈ R, p.Ok σ) (hen : Ends σ R) (hsh : Short σ R) (hn : R.length ≤ n) (hne : R ≠ []) {tail : List Nat} {old : List Int} {o : UString} (qs : List Piece) :
    ∀ (xs : List Piece) (a : An) (l : Loc W) (pend rest : List Piece), R = xs ++ (pend ++ rest) → pend ++ rest = qs → Open σ tail a old xs pend rest o →
      Live σ (vals xs) → Within hr R old.length xs l →
      ∃ k tok a' l' pend' rest', k ≤ qs.length ∧ (∀ t, loop σ n (states σ name hr []) (t + k) a l = loop σ n (states σ name hr []) t a' l') ∧
        tok.pieces ++ (pend' ++ rest') = R ∧ tok.pieces ≠ [] ∧ NextIs hr tok (pend' ++ rest') ∧
        Open σ tail a' (old ++ vals tok.pieces) [] pend' rest' (o ++ tok.render) ∧ Fresh hr (old ++ vals tok.pieces).length l' := by
  induction qs with
  | nil =>
    intro xs a l pend rest hR hq ho hlive hw
    exfalso
    rw [hq, List.append_nil] at hR
    subst hR
    rcases List.eq_nil_or_concat R with e | ⟨qs, q, e⟩
    · exact hne e
    · rw [List.concat_eq_append] at e
      exact (hen qs q e).2 _ hlive (by rw [e]; simp [vals])
  | cons p qs ih =>
    intro xs a l pend rest hR hq ho hlive hw
    rcases turn_ok hr hs hpl hrd hi hok hen hsh hn hR hq ho hlive hw with
      ⟨a1, l1, pend1, rest1, e1, h1, h2, h3, h4⟩ | ⟨v, a1, l1, tok, pend1, rest1, hv, e1, h1, h2, h3, h4, h5⟩
    · obtain ⟨k, tok, a', l', pend', rest', g1, g2, g3⟩ := ih (xs ++ [p]) a1 l1 pend1 rest1 (by rw [hR, hq, h1]; simp) h1 h2 h3 h4
      have hp0 : p.val ≠ 0 := (piece_val (hok p (by rw [hR, hq]; simp))).2
      refine ⟨k + 1, tok, a', l', pend', rest', by simpa using g1, fun t => ?_, g3⟩
      rw [← Nat.add_assoc, loop, e1, Res.bind_ok]
      simp only
      rw [if_neg (by omega), g2]
    · refine ⟨1, tok, a1, l1, pend1, rest1, by simp, fun t => ?_, h1, h2, h3, h4, h5⟩
      rw [loop, e1, Res.bind_ok]
      simp only
      rw [if_neg (by omega)]

/-- `Tokens` with the analyses that are computed. -/
inductive TokensAre (hr : Regular σ name) : List Piece → List Token → Prop
  | nil : TokensAre hr [] []
  | cons {tok : Token} {rest : List Piece} {toks : List Token} (h : NextIs hr tok rest) (hs : TokensAre hr rest toks) :
    TokensAre hr (tok.pieces ++ rest) (tok :: toks)

omit [AddMonoid W] [LinearOrder W] in
theorem ends_suffix {ps qs : List Piece} (h : Ends σ (ps ++ qs)) : Ends σ qs := fun xs p e => h (ps ++ xs) p (by rw [e]; simp)

omit [AddMonoid W] [LinearOrder W] in
theorem short_suffix {ps qs : List Piece} (h : Short σ (ps ++ qs)) : Short σ qs :=
  fun us ys zs q ws e => h (ps ++ us) ys zs q ws (by rw [e]; simp)

theorem tokens_ok (hr : Regular σ name) (hs : Small σ) (hpl : Plain σ) {n : Nat} {ps : List Piece} (hrd : Ready hr n ps) {tail : List Nat} (m : Nat) :
    ∀ (R : List Piece) (old : List Int) (o : UString) (a : An) (l : Loc W) (pend rest : List Piece), R.length ≤ m → R <:+: ps → (∀ p ∈ R, p.Ok σ) → Ends σ R → Short σ R →
      R.length ≤ n → R = pend ++ rest → Open σ tail a old [] pend rest o → Fresh hr old.length l →
      ∃ k toks a' l', k ≤ m * m ∧ (∀ t, loop σ n (states σ name hr []) (t + k) a l = loop σ n (states σ name hr []) t a' l') ∧ TokensAre hr R toks ∧
        Open σ tail a' (old ++ vals R) [] [] [] (o ++ toks.flatMap Token.render) ∧ Fresh hr (old ++ vals R).length l' := by
  induction m with
  | zero =>
    intro R old o a l pend rest hm _ _ _ _ _ hR ho hf
    obtain rfl : R = [] := List.length_eq_zero_iff.1 (by omega)
    obtain ⟨rfl, rfl⟩ := List.append_eq_nil_iff.1 hR.symm
    exact ⟨0, [], a, l, by simp, fun t => rfl, .nil, by simpa [vals] using ho, by simpa [vals] using hf⟩
  | succ m ih =>
    intro R old o a l pend rest hm hi hok hen hsh hn hR ho hf
    by_cases hne : R = []
    · subst hne
      obtain ⟨rfl, rfl⟩ := List.append_eq_nil_iff.1 hR.symm
      exact ⟨0, [], a, l, by simp, fun t => rfl, .nil, by simpa [vals] using ho, by simpa [vals] using hf⟩
    · obtain ⟨k, tok, a1, l1, pend1, rest1, g1, g2, g3, g4, g5, g6, g7⟩ := token_ok hr hs hpl hrd hi hok hen hsh hn hne R [] a l pend rest (by simpa using hR) hR.symm ho live_nil (hf.within R)
      have hlt : (pend1 ++ rest1).length < R.length := by
        rw [← g3, List.length_append (as := tok.pieces)]
        have := List.length_pos_iff.2 g4
        omega
      rw [← g3] at hi hok hen hsh
      obtain ⟨k2, toks, a2, l2, k1', k2', k3', k4', k5'⟩ := ih (pend1 ++ rest1) (old ++ vals tok.pieces) (o ++ tok.render) a1 l1 pend1 rest1 (by omega)
        (List.IsInfix.trans ⟨tok.pieces, [], by simp⟩ hi) (fun p hp => hok p (List.mem_append.2 (.inr hp))) (ends_suffix hen) (short_suffix hsh) (by omega) rfl g6 g7
      refine ⟨k2 + k, tok :: toks, a2, l2, ?_, fun t => ?_, ?_, ?_, ?_⟩
      · have : R.length ≤ m + 1 := hm
        have h2 : (m + 1) * (m + 1) = m * m + m + m + 1 := by ring
        omega
      · rw [← Nat.add_assoc, g2, k2']
      · rw [← g3]; exact .cons g5 k3'
      · rw [← g3]
        simpa [vals_append] using k4'
      · rw [← g3]
        simpa [vals_append] using k5'

/-! ## Uniqueness -/

/-- `Next` without the analyses. -/
def Shape (σ : Setting W) (tok : Token) (rest : List Piece) : Prop :=
  let xs := vals (tok.pieces ++ rest)
  match tok with
  | .word before after ps _ => Good σ xs (vals ps) ∧ (∀ zs, Good σ xs zs → zs.length ≤ ps.length) ∧ (after = true ↔ After σ xs) ∧ (before = true ↔ Before σ xs)
  | .lowered ps _ => (∀ zs, ¬ Good σ xs zs) ∧ LongestRun σ ps rest ∧ Entry σ (loweredUnits σ ps)
  | .unknown ps => (∀ zs, ¬ Good σ xs zs) ∧ LongestRun σ ps rest ∧ ¬ Entry σ (loweredUnits σ ps)
  | .char p => (∀ zs, ¬ Good σ xs zs) ∧ σ.isAlphabetic (p.val : Int) = false

omit [AddMonoid W] [LinearOrder W] in
theorem run_unique {ps1 ps2 r1 r2 : List Piece} (h1 : LongestRun σ ps1 r1) (h2 : LongestRun σ ps2 r2) (e : ps1 ++ r1 = ps2 ++ r2) : ps1 = ps2 ∧ r1 = r2 := by
  have key : ∀ {ps1 ps2 r1 r2 : List Piece}, LongestRun σ ps1 r1 → LongestRun σ ps2 r2 → ps1 ++ r1 = ps2 ++ r2 → ps2.length ≤ ps1.length := by
    intro ps1 ps2 r1 r2 h1 h2 e
    obtain ⟨-, -, p, ps', e1, ha⟩ := h1
    by_contra hc
    have hx : (ps1 ++ r1)[ps1.length]? = some p := by rw [e1]; simp
    rw [e, List.getElem?_append_left (by omega)] at hx
    have := h2.2.1 (p.val : Int) (List.mem_map.2 ⟨p, List.mem_of_getElem? hx, rfl⟩)
    rw [ha] at this; cases this
  exact List.append_inj e (Nat.le_antisymm (key h2 h1 e.symm) (key h1 h2 e))

omit [AddMonoid W] [LinearOrder W] in
theorem run_char {ps r r' : List Piece} {p : Piece} (h1 : LongestRun σ ps r) (ha : σ.isAlphabetic (p.val : Int) = false) (e : ps ++ r = [p] ++ r') : False := by
  obtain ⟨h0, h2, -⟩ := h1
  cases ps with
  | nil => exact h0 rfl
  | cons q ps =>
    simp only [List.cons_append, List.nil_append, List.cons.injEq] at e
    have := h2 (q.val : Int) (by simp [vals])
    rw [e.1, ha] at this; cases this

omit [AddMonoid W] [LinearOrder W] in
theorem shape_unique {t1 t2 : Token} {r1 r2 : List Piece} (h1 : Shape σ t1 r1) (h2 : Shape σ t2 r2) (e : t1.pieces ++ r1 = t2.pieces ++ r2) :
    t1.bare = t2.bare ∧ r1 = r2 := by
  unfold Shape at h1 h2
  simp only [← e] at h2
  cases t1 with
  | word b1 a1 p1 l1 =>
    obtain ⟨g1, m1, f1, k1⟩ := h1
    cases t2 with
    | word b2 a2 p2 l2 =>
      obtain ⟨g2, m2, f2, k2⟩ := h2
      have n1 := m1 _ g2
      have n2 := m2 _ g1
      rw [vals_length] at n1 n2
      obtain ⟨rfl, rfl⟩ := List.append_inj e (show p1.length = p2.length by omega)
      have ea : a1 = a2 := by rw [Bool.eq_iff_iff, f1, f2]
      have eb : b1 = b2 := by rw [Bool.eq_iff_iff, k1, k2]
      subst ea eb
      exact ⟨rfl, rfl⟩
    | lowered p2 l2 => exact absurd g1 (h2.1 _)
    | unknown p2 => exact absurd g1 (h2.1 _)
    | char p2 => exact absurd g1 (h2.1 _)
  | lowered p1 l1 =>
    cases t2 with
    | word b2 a2 p2 l2 => exact absurd h2.1 (h1.1 _)
    | lowered p2 l2 =>
      obtain ⟨rfl, rfl⟩ := run_unique h1.2.1 h2.2.1 e
      exact ⟨rfl, rfl⟩
    | unknown p2 =>
      obtain ⟨rfl, rfl⟩ := run_unique h1.2.1 h2.2.1 e
      exact absurd h1.2.2 h2.2.2
    | char p2 => exact (run_char h1.2.1 h2.2 e).elim
  | unknown p1 =>
    cases t2 with
    | word b2 a2 p2 l2 => exact absurd h2.1 (h1.1 _)
    | lowered p2 l2 =>
      obtain ⟨rfl, rfl⟩ := run_unique h1.2.1 h2.2.1 e
      exact absurd h2.2.2 h1.2.2
    | unknown p2 =>
      obtain ⟨rfl, rfl⟩ := run_unique h1.2.1 h2.2.1 e
      exact ⟨rfl, rfl⟩
    | char p2 => exact (run_char h1.2.1 h2.2 e).elim
  | char p1 =>
    cases t2 with
    | word b2 a2 p2 l2 => exact absurd h2.1 (h1.1 _)
    | lowered p2 l2 => exact (run_char h2.2.1 h1.2 e.symm).elim
    | unknown p2 => exact (run_char h2.2.1 h1.2 e.symm).elim
    | char p2 =>
      simp only [Token.pieces, List.cons_append, List.nil_append, List.cons.injEq] at e
      obtain ⟨rfl, rfl⟩ := e
      exact ⟨rfl, rfl⟩

theorem shape_of_is {hr : Regular σ name} {t : Token} {r : List Piece} (h : NextIs hr t r) : Shape σ t r := by
  unfold NextIs at h
  unfold Shape
  cases t with
  | word b a p l => exact ⟨h.1, h.2.1, h.2.2.1, h.2.2.2.1⟩
  | lowered p l => exact ⟨h.1, h.2.1, h.2.2.1⟩
  | unknown p => exact h
  | char p => exact h

theorem shape_of_next {t : Token} {r : List Piece} (h : Next σ name t r) : Shape σ t r := by
  unfold Next at h
  unfold Shape
  cases t with
  | word b a p l => exact ⟨h.1, h.2.1, h.2.2.1, h.2.2.2.1⟩
  | lowered p l => exact ⟨h.1, h.2.1, h.2.2.1⟩
  | unknown p => exact h
  | char p => exact h

theorem next_unique {hr : Regular σ name} {t1 t2 : Token} {r1 r2 : List Piece} (h1 : NextIs hr t1 r1) (h2 : NextIs hr t2 r2)
    (e : t1.pieces ++ r1 = t2.pieces ++ r2) : t1 = t2 ∧ r1 = r2 := by
  obtain ⟨hb, rfl⟩ := shape_unique (shape_of_is h1) (shape_of_is h2) e
  refine ⟨?_, rfl⟩
  unfold NextIs at h1 h2
  cases t1 <;> cases t2 <;> simp only [Token.bare, Token.word.injEq, Token.lowered.injEq, Token.unknown.injEq, Token.char.injEq, reduceCtorEq, and_true] at hb
  · obtain ⟨rfl, rfl, rfl⟩ := hb
    have := h1.2.2.2.2.symm.trans h2.2.2.2.2
    rw [Res.ok.injEq] at this
    rw [this]
  · subst hb
    have := h1.2.2.2.symm.trans h2.2.2.2
    rw [Res.ok.injEq] at this
    rw [this]
  · rw [hb]
  · rw [hb]

theorem pieces_ne {hr : Regular σ name} {t : Token} {r : List Piece} (h : NextIs hr t r) : t.pieces ≠ [] := by
  unfold NextIs at h
  cases t with
  | word b a p l =>
    intro e
    have : p = [] := e
    subst this
    exact h.1.1 rfl
  | lowered p l => exact h.2.1.1
  | unknown p => exact h.2.1.1
  | char p => simp [Token.pieces]

theorem tokens_unique {hr : Regular σ name} {ps : List Piece} {ts1 ts2 : List Token} (h1 : TokensAre hr ps ts1) (h2 : TokensAre hr ps ts2) : ts1 = ts2 := by
  induction h1 generalizing ts2 with
  | nil =>
    generalize he : ([] : List Piece) = qs at h2
    cases h2 with
    | nil => rfl
    | cons h _ => exact absurd (List.append_eq_nil_iff.1 he.symm).1 (pieces_ne h)
  | cons h hs ih =>
    rename_i tok rest toks
    generalize he : tok.pieces ++ rest = qs at h2
    cases h2 with
    | nil => exact absurd (List.append_eq_nil_iff.1 he).1 (pieces_ne h)
    | cons h' hs' =>
      obtain ⟨rfl, rfl⟩ := next_unique h h' he
      rw [ih hs']

theorem next_of_is (hr : Regular σ name) (hs : Small σ) {t : Token} {r : List Piece} (hok : ∀ p ∈ t.pieces, p.Ok σ) (h : NextIs hr t r) : Next σ name t r := by
  have hne := pieces_ne h
  unfold NextIs at h
  unfold Next
  cases t with
  | word b a p l =>
    refine ⟨h.1, h.2.1, h.2.2.1, h.2.2.2.1, ?_⟩
    obtain ⟨lf, g1, g2, -⟩ := filterFinals_ok hr (states_sound hr hs (vals_ne hok)) (states_length hr hs (vals_ne hok)) (surface p) (surface_ne_nil hne)
    have := h.2.2.2.2.symm.trans g1
    rw [Res.ok.injEq] at this
    rw [this]; exact g2
  | lowered p l =>
    refine ⟨h.1, h.2.1, h.2.2.1, ?_⟩
    obtain ⟨hl1, hl2⟩ := hr.lowerText (surface p) (surface_ne_nil hne) (surface_zero hok)
    have hnz : ∀ x ∈ loweredUnits σ p, x ≠ 0 := by
      intro x hx
      obtain ⟨u, hu, rfl⟩ := List.mem_map.1 hx
      intro h0
      exact hl2 ((UInt16.toNat_inj.1 (show u.toNat = (0 : UInt16).toNat by simpa using h0)) ▸ hu)
    obtain ⟨lf, g1, g2, -⟩ := filterFinals_ok hr (states_sound hr hs hnz) (states_length hr hs hnz) _ hl1
    have := h.2.2.2.symm.trans g1
    rw [Res.ok.injEq] at this
    rw [this]; exact g2
  | unknown p => exact h
  | char p => exact h

theorem tokens_of_are (hr : Regular σ name) (hs : Small σ) {ps : List Piece} {ts : List Token} (hok : ∀ p ∈ ps, p.Ok σ) (h : TokensAre hr ps ts) : Tokens σ name ps ts := by
  induction h with
  | nil => exact .nil
  | cons h _ ih =>
    exact .cons (next_of_is hr hs (fun p hp => hok p (List.mem_append.2 (.inl hp))) h) (ih fun p hp => hok p (List.mem_append.2 (.inr hp)))

/-! ## The end of the text -/

theorem stepFolded_zero (hr : Regular σ name) (n : Nat) (st : List (Rec W)) : stepFolded σ n 0 st = .ok [] := by
  unfold stepFolded stepCase
  rw [hr.zeroUpper]
  have := C39_empty_symbol σ.graph n st
  simp only [Bool.not_false, Bool.true_or, if_true, this]
  rfl

/-- Where the text ends nothing is written. -/
theorem stop_ok (hr : Regular σ name) (hs : Small σ) (hpl : Plain σ) {n : Nat} {a a' : An} {l : Loc W} {base : Nat} (hf : Fresh hr base l)
    (h1 : readAnalysis σ a = .ok (0, a')) (h2 : Buffer.isEmpty a'.buf = true) (t : Nat) : loop σ n (states σ name hr []) (t + 1) a l = .ok a' := by
  have hz : note σ 0 (Buffer.getPos a'.buf) l = .ok l := by
    unfold note
    rw [if_neg (by
      rw [hf.cur, sound_entry hr.standard (states_sound hr hs (by simp))]
      exact hpl.noEmpty), hr.zeroSpace]
    simp
  have hsc : spaceCompound σ n (states σ name hr []) 0 l a' = .ok (0, l.sf, [], a') := by
    unfold spaceCompound
    rw [hf.seenL]
    simp
  have hem : emit σ n (states σ name hr []) 0 l [] a' = .ok (0, a') := by
    unfold emit
    rw [if_neg (by simp), if_pos (by rw [hf.sf, hr.zeroAlpha]; rfl)]
    unfold printChar
    rw [hr.zeroSpace]
    simp [escapedCps]
  rw [loop]
  unfold turn
  simp only [h1, Res.bind_ok, hz, stepRestoring_eq hr, stepFolded_zero hr, List.isEmpty_nil, Bool.not_true, Bool.false_eq_true, if_false, hsc]
  rw [show ({ l with sf := l.sf } : Loc W) = l from rfl, hem]
  simp [h2]

end

end Verif.Proc
