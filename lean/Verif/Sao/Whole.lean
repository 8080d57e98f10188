import Verif.Sao.Loop
import Verif.Proc.Whole

/-! # The whole text -/

namespace Verif.Sao

open Verif.State Verif.Stream Verif.Input Verif.Proc Verif.Merge
open Verif.Buffer (Buffer Rep)

variable {W : Type}

section
variable [AddMonoid W] [LinearOrder W] {σ : Setting W} {name : Int → UString}

/-- From anywhere in a token to its end. -/
theorem token_ok (hr : Regular σ name) (hs : Small σ) (hpl : Plain σ name) {n : Nat} {ps R : List Piece} (hrd : Ready hr n ps) (hi : R <:+: ps)
    (hok : ∀ p ∈ R, p.Ok) (hen : Ends σ R) (hsh : Short σ R) (hti : Tidy σ R) (hcl : Clear σ R) (hn : R.length ≤ n) (hne : R ≠ []) {old : List Int} {o : UString} (qs : List Piece) :
    ∀ (xs : List Piece) (a : An) (l : Loc W) (pend rest : List Piece), R = xs ++ (pend ++ rest) → pend ++ rest = qs → Open σ a old xs pend rest o →
      Live σ (vals xs) → Within hr R old.length xs l →
      ∃ k tok a' l' pend' rest', k ≤ qs.length ∧ (∀ t, loop σ n (states σ name hr []) (t + k) a l = loop σ n (states σ name hr []) t a' l') ∧
        tok.pieces ++ (pend' ++ rest') = R ∧ tok.pieces ≠ [] ∧ NextIs hr tok (pend' ++ rest') ∧
        Open σ a' (old ++ vals tok.pieces) [] pend' rest' (o ++ tok.render) ∧ Fresh hr l' := by
  induction qs with
  | nil =>
    intro xs a l pend rest hR hq ho hlive hw
    exfalso
    rw [hq, List.append_nil] at hR
    subst hR
    rcases List.eq_nil_or_concat R with e | ⟨qs, q, e⟩
    · exact hne e
    · rw [List.concat_eq_append] at e
      exact (hen qs q e).2 _ hlive (by rw [e]; simp [vals])
  | cons p qs ih =>
    intro xs a l pend rest hR hq ho hlive hw
    rcases turn_ok hr hs hpl hrd hi hok (fun _ => hen) hsh (fun _ => hti) hcl hn hR hq ho hlive hw with
      ⟨a1, l1, pend1, rest1, e1, h1, h2, h3, h4⟩ | ⟨a1, l1, tok, pend1, rest1, -, e1, h1, h2, h3, h4, h5⟩
    · obtain ⟨k, tok, a', l', pend', rest', g1, g2, g3⟩ := ih (xs ++ [p]) a1 l1 pend1 rest1 (by rw [hR, hq, h1]; simp) h1 h2 h3 h4
      refine ⟨k + 1, tok, a', l', pend', rest', by simpa using g1, fun t => ?_, g3⟩
      rw [← Nat.add_assoc, e1, g2]
    · exact ⟨1, tok, a1, l1, pend1, rest1, by simp, fun t => e1 t, h1, h2, h3, h4, h5⟩

/-- `Tokens` with the analyses that are computed. -/
inductive TokensAre (hr : Regular σ name) : List Piece → List Token → Prop
  | nil : TokensAre hr [] []
  | cons {tok : Token} {rest : List Piece} {toks : List Token} (h : NextIs hr tok rest) (hs : TokensAre hr rest toks) :
    TokensAre hr (tok.pieces ++ rest) (tok :: toks)

omit [AddMonoid W] [LinearOrder W] in
theorem ends_suffix {ps qs : List Piece} (h : Ends σ (ps ++ qs)) : Ends σ qs := fun xs p e => h (ps ++ xs) p (by rw [e]; simp)

omit [AddMonoid W] [LinearOrder W] in
theorem short_suffix {ps qs : List Piece} (h : Short σ (ps ++ qs)) : Short σ qs :=
  fun us ys zs q ws e => h (ps ++ us) ys zs q ws (by rw [e]; simp)

omit [AddMonoid W] [LinearOrder W] in
theorem tidy_suffix {ps qs : List Piece} (h : Tidy σ (ps ++ qs)) : Tidy σ qs :=
  fun us ys ws e => h (ps ++ us) ys ws (by rw [e]; simp)

omit [AddMonoid W] [LinearOrder W] in
theorem clear_suffix {ps qs : List Piece} (h : Clear σ (ps ++ qs)) : Clear σ qs :=
  fun us ys cs ws e => h (ps ++ us) ys cs ws (by rw [e]; simp)

theorem tokens_ok (hr : Regular σ name) (hs : Small σ) (hpl : Plain σ name) {n : Nat} {ps : List Piece} (hrd : Ready hr n ps) (m : Nat) :
    ∀ (R : List Piece) (old : List Int) (o : UString) (a : An) (l : Loc W) (pend rest : List Piece), R.length ≤ m → R <:+: ps → Fit σ R →
      R.length ≤ n → R = pend ++ rest → Open σ a old [] pend rest o → Fresh hr l →
      ∃ k toks a' l', k ≤ m * m ∧ (∀ t, loop σ n (states σ name hr []) (t + k) a l = loop σ n (states σ name hr []) t a' l') ∧ TokensAre hr R toks ∧
        Open σ a' (old ++ vals R) [] [] [] (o ++ toks.flatMap Token.render) ∧ Fresh hr l' := by
  induction m with
  | zero =>
    intro R old o a l pend rest hm _ _ _ hR ho hf
    obtain rfl : R = [] := List.length_eq_zero_iff.1 (by omega)
    obtain ⟨rfl, rfl⟩ := List.append_eq_nil_iff.1 hR.symm
    exact ⟨0, [], a, l, by simp, fun t => rfl, .nil, by simpa [vals] using ho, hf⟩
  | succ m ih =>
    intro R old o a l pend rest hm hi hfit hn hR ho hf
    by_cases hne : R = []
    · subst hne
      obtain ⟨rfl, rfl⟩ := List.append_eq_nil_iff.1 hR.symm
      exact ⟨0, [], a, l, by simp, fun t => rfl, .nil, by simpa [vals] using ho, hf⟩
    · obtain ⟨k, tok, a1, l1, pend1, rest1, g1, g2, g3, g4, g5, g6, g7⟩ := token_ok hr hs hpl hrd hi hfit.ok hfit.ends hfit.short hfit.tidy hfit.clear hn hne R [] a l
        pend rest (by simpa using hR) hR.symm ho live_nil (hf.within R)
      have hlt : (pend1 ++ rest1).length < R.length := by
        rw [← g3, List.length_append (as := tok.pieces)]
        have := List.length_pos_iff.2 g4
        omega
      rw [← g3] at hi hfit
      obtain ⟨k2, toks, a2, l2, k1', k2', k3', k4', k5'⟩ := ih (pend1 ++ rest1) (old ++ vals tok.pieces) (o ++ tok.render) a1 l1 pend1 rest1 (by omega)
        (List.IsInfix.trans ⟨tok.pieces, [], by simp⟩ hi)
        ⟨fun p hp => hfit.ok p (List.mem_append.2 (.inr hp)), ends_suffix hfit.ends, short_suffix hfit.short, tidy_suffix hfit.tidy, clear_suffix hfit.clear⟩ (by omega) rfl g6 g7
      refine ⟨k2 + k, tok :: toks, a2, l2, ?_, fun t => ?_, ?_, ?_, k5'⟩
      · have : R.length ≤ m + 1 := hm
        have h2 : (m + 1) * (m + 1) = m * m + m + m + 1 := by ring
        omega
      · rw [← Nat.add_assoc, g2, k2']
      · rw [← g3]; exact .cons g5 k3'
      · rw [← g3]
        simpa [vals_append] using k4'

/-! ## Uniqueness -/

omit [AddMonoid W] [LinearOrder W] in
theorem run_unique {ps1 ps2 r1 r2 : List Piece} (h1 : LongestRun σ ps1 r1) (h2 : LongestRun σ ps2 r2) (e : ps1 ++ r1 = ps2 ++ r2) : ps1 = ps2 ∧ r1 = r2 := by
  have key : ∀ {ps1 ps2 r1 r2 : List Piece}, LongestRun σ ps1 r1 → LongestRun σ ps2 r2 → ps1 ++ r1 = ps2 ++ r2 → ps2.length ≤ ps1.length := by
    intro ps1 ps2 r1 r2 h1 h2 e
    obtain ⟨-, -, p, ps', e1, ha⟩ := h1
    by_contra hc
    have hx : (ps1 ++ r1)[ps1.length]? = some p := by rw [e1]; simp
    rw [e, List.getElem?_append_left (by omega)] at hx
    have := h2.2.1 (p.val : Int) (List.mem_map.2 ⟨p, List.mem_of_getElem? hx, rfl⟩)
    rw [ha] at this; cases this
  exact List.append_inj e (Nat.le_antisymm (key h2 h1 e.symm) (key h1 h2 e))

omit [AddMonoid W] [LinearOrder W] in
theorem run_char {ps r r' : List Piece} {p : Piece} (h1 : LongestRun σ ps r) (ha : σ.isAlphabetic (p.val : Int) = false) (e : ps ++ r = [p] ++ r') : False := by
  obtain ⟨h0, h2, -⟩ := h1
  cases ps with
  | nil => exact h0 rfl
  | cons q ps =>
    simp only [List.cons_append, List.nil_append, List.cons.injEq] at e
    have := h2 (q.val : Int) (by simp [vals])
    rw [e.1, ha] at this; cases this

theorem next_unique {hr : Regular σ name} {t1 t2 : Token} {r1 r2 : List Piece} (h1 : NextIs hr t1 r1) (h2 : NextIs hr t2 r2)
    (e : t1.pieces ++ r1 = t2.pieces ++ r2) : t1 = t2 ∧ r1 = r2 := by
  unfold NextIs at h1 h2
  simp only [← e] at h2
  cases t1 with
  | word a1 p1 l1 =>
    obtain ⟨g1, m1, f1, s1, e1, rfl⟩ := h1
    cases t2 with
    | word a2 p2 l2 =>
      obtain ⟨g2, m2, f2, s2, e2, rfl⟩ := h2
      have n1 := m1 _ g2
      have n2 := m2 _ g1
      rw [vals_length] at n1 n2
      obtain ⟨rfl, rfl⟩ := List.append_inj e (show p1.length = p2.length by omega)
      have ea : a1 = a2 := by rw [Bool.eq_iff_iff, f1, f2]
      have e2' : filter σ (states σ name hr (vals p1)) (surface p1) = .ok (0x2f :: s2) := e2
      rw [e1, Res.ok.injEq, List.cons.injEq] at e2'
      rw [ea, e2'.2]
      exact ⟨rfl, rfl⟩
    | unknown p2 => exact absurd g1 (h2.1 _)
    | char p2 => exact absurd g1 (h2.1 _)
  | unknown p1 =>
    cases t2 with
    | word a2 p2 l2 => exact absurd h2.1 (h1.1 _)
    | unknown p2 =>
      obtain ⟨rfl, rfl⟩ := run_unique h1.2 h2.2 e
      exact ⟨rfl, rfl⟩
    | char p2 => exact (run_char h1.2 h2.2 e).elim
  | char p1 =>
    cases t2 with
    | word a2 p2 l2 => exact absurd h2.1 (h1.1 _)
    | unknown p2 => exact (run_char h2.2 h1.2 e.symm).elim
    | char p2 =>
      simp only [Token.pieces, List.cons_append, List.nil_append, List.cons.injEq] at e
      obtain ⟨rfl, rfl⟩ := e
      exact ⟨rfl, rfl⟩

theorem pieces_ne {hr : Regular σ name} {t : Token} {r : List Piece} (h : NextIs hr t r) : t.pieces ≠ [] := by
  unfold NextIs at h
  cases t with
  | word a p l =>
    intro e
    have : p = [] := e
    subst this
    exact h.1.1 rfl
  | unknown p => exact h.2.1
  | char p => simp [Token.pieces]

theorem tokens_unique {hr : Regular σ name} {ps : List Piece} {ts1 ts2 : List Token} (h1 : TokensAre hr ps ts1) (h2 : TokensAre hr ps ts2) : ts1 = ts2 := by
  induction h1 generalizing ts2 with
  | nil =>
    generalize he : ([] : List Piece) = qs at h2
    cases h2 with
    | nil => rfl
    | cons h _ => exact absurd (List.append_eq_nil_iff.1 he.symm).1 (pieces_ne h)
  | cons h hs ih =>
    rename_i tok rest toks
    generalize he : tok.pieces ++ rest = qs at h2
    cases h2 with
    | nil => exact absurd (List.append_eq_nil_iff.1 he).1 (pieces_ne h)
    | cons h' hs' =>
      obtain ⟨rfl, rfl⟩ := next_unique h h' he
      rw [ih hs']

theorem next_of_is (hr : Regular σ name) (hs : Small σ) (hpl : Plain σ name) {t : Token} {r : List Piece} (hok : ∀ p ∈ t.pieces, p.Ok) (h : NextIs hr t r) : Next σ name t r := by
  have hne := pieces_ne h
  unfold NextIs at h
  unfold Next
  cases t with
  | word a p l =>
    obtain ⟨g1, g2, g3, s, e, rfl⟩ := h
    refine ⟨g1, g2, g3, ?_⟩
    obtain ⟨-, v, zs, -, he, -⟩ := g1
    have hok' : ∀ q ∈ p, q.Ok := hok
    obtain ⟨s', e', h'⟩ := filter_ok hr hpl (states_sound hr hs (vals_ne hok')) (surface p) (surface_ne_nil hne) he
    rw [e, Res.ok.injEq, List.cons.injEq] at e'
    rw [e'.2]; exact h'
  | unknown p => exact h
  | char p => exact h

theorem tokens_of_are (hr : Regular σ name) (hs : Small σ) (hpl : Plain σ name) {ps : List Piece} {ts : List Token} (hok : ∀ p ∈ ps, p.Ok) (h : TokensAre hr ps ts) :
    Tokens σ name ps ts := by
  induction h with
  | nil => exact .nil
  | cons h _ ih =>
    exact .cons (next_of_is hr hs hpl (fun p hp => hok p (List.mem_append.2 (.inl hp))) h) (ih fun p hp => hok p (List.mem_append.2 (.inr hp)))

/-! ## Files -/

/-- The fuel for a text. -/
def Enough (hr : Regular σ name) (n : Nat) (ps : List Piece) : Prop := Ready hr n ps ∧ ps.length ≤ n ∧ ps.length * ps.length + 1 ≤ n

omit [AddMonoid W] in
theorem enough_exists (hr : Regular σ name) (ps : List Piece) : ∃ N, ∀ n ≥ N, Enough hr n ps := by
  obtain ⟨N, h⟩ := ready_exists hr ps
  exact ⟨max N (max ps.length (ps.length * ps.length + 1)), fun n hn => ⟨h n (by omega), by omega, by omega⟩⟩

omit [AddMonoid W] [LinearOrder W] in
theorem start_ok (ps : List Piece) (hsc : ∀ c ∈ ps.flatMap Piece.text, Scalar c) :
    ∃ a, start (bytes (ps.flatMap Piece.text)) = .ok a ∧ Open σ a [] [] [] ps [] := by
  refine ⟨_, rfl, ⟨⟨?_, rfl, ⟨rfl, by simp [opened], ⟨ps.flatMap Piece.text, rfl, rfl⟩, hsc⟩, rfl⟩, ?_, by simp, rfl⟩⟩
  · exact rep_new 2048 (by decide) (by decide)
  · intro u cs v e
    simp at e

theorem whole_ok (hr : Regular σ name) (hs : Small σ) (hpl : Plain σ name) {n : Nat} {ps : List Piece} (he : Enough hr n ps) (hfit : Fit σ ps) :
    ∃ toks, TokensAre hr ps toks ∧ sao σ n (bytes (ps.flatMap Piece.text)) = .ok (toks.flatMap Token.render) := by
  obtain ⟨hrd, hn1, hn2⟩ := he
  have hinit : ended (State.init σ.graph n σ.root) = .ok (states σ name hr []) := by
    have := hrd.1 [] ⟨[], ps, by simp⟩
    simpa [vals, after_nil] using this
  obtain ⟨a, e, ho⟩ := start_ok (σ := σ) ps (text_scalar hfit.ok)
  obtain ⟨k, toks, a', l', h1, h2, h3, h4, -⟩ := tokens_ok hr hs hpl hrd ps.length ps [] [] a { cur := states σ name hr [] } [] ps le_rfl
    (List.infix_refl _) hfit hn1 rfl ho ⟨rfl, rfl, rfl, rfl, rfl⟩
  refine ⟨toks, h3, ?_⟩
  obtain ⟨t, rfl⟩ : ∃ t, n = t + 1 + k := ⟨n - 1 - k, by omega⟩
  have hem : Buffer.isEmpty a'.buf = true := by rw [isEmpty_pend h4.here]; rfl
  have hin : a'.inp = ⟨[], false, []⟩ := h4.here.inp.nil
  unfold sao
  rw [e, Res.bind_ok, hinit, Res.bind_ok, h2, loop]
  unfold readSAO
  rw [hem, hin]
  simp only [Bool.not_true, Bool.false_eq_true, if_false, get_end, Res.bind_ok, if_true]
  rw [h4.here.blanks, h4.out]
  simp [blanksOf]

end

end Verif.Sao
