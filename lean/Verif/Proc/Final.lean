import Verif.Proc.Whole
import Verif.Stream.Props

/-! # Files -/

namespace Verif.Proc

open Verif.State Verif.Stream Verif.Input Verif.Merge
open Verif.Buffer (Buffer Rep)

variable {W : Type}

section
variable [AddMonoid W] [LinearOrder W] {σ : Setting W} {name : Int → UString}

/-- The fuel for a text. -/
def Enough (hr : Regular σ name) (n : Nat) (ps : List Piece) : Prop := Ready hr n ps ∧ ps.length ≤ n ∧ ps.length * ps.length + 1 ≤ n

omit [AddMonoid W] in
theorem enough_exists (hr : Regular σ name) (ps : List Piece) : ∃ N, ∀ n ≥ N, Enough hr n ps := by
  obtain ⟨N, h⟩ := ready_exists hr ps
  exact ⟨max N (max ps.length (ps.length * ps.length + 1)), fun n hn => ⟨h n (by omega), by omega, by omega⟩⟩

theorem once_ok (hr : Regular σ name) (hs : Small σ) (hpl : Plain σ) {n : Nat} {ps : List Piece} (he : Enough hr n ps) (hfit : Fit σ ps)
    {tail : List Nat} {a : An} {old : List Int} {o : UString} (ho : Open σ tail a old [] [] ps o) :
    ∃ toks a', TokensAre hr ps toks ∧ Open σ tail a' (old ++ vals ps) [] [] [] (o ++ toks.flatMap Token.render) ∧
      ∀ a'', readAnalysis σ a' = .ok (0, a'') → Buffer.isEmpty a''.buf = true → a''.blanks = [] → analysisOnce σ n a = .ok a'' := by
  obtain ⟨hrd, hn1, hn2⟩ := he
  have hinit : ended (State.init σ.graph n σ.root) = .ok (states σ name hr []) := by
    have := hrd.1 [] ⟨[], ps, by simp⟩
    simpa [vals, after_nil] using this
  have hst : Buffer.getPos a.buf ≡ old.length [MOD 2048] := by
    have := ho.here.rep.curMod
    rw [ho.here.size] at this
    simpa [Buffer.getPos] using this
  obtain ⟨k, toks, a', l', h1, h2, h3, h4, h5⟩ := tokens_ok hr hs hpl hrd ps.length ps old o a { cur := states σ name hr [], lastStart := Buffer.getPos a.buf } [] ps le_rfl
    (List.infix_refl _) hfit.ok hfit.ends hfit.short hn1 rfl ho ⟨rfl, rfl, rfl, rfl, hst, rfl, rfl, rfl⟩
  refine ⟨toks, a', h3, h4, fun a'' g1 g2 g3 => ?_⟩
  obtain ⟨t, rfl⟩ : ∃ t, n = t + 1 + k := ⟨n - 1 - k, by omega⟩
  unfold analysisOnce
  rw [hinit, Res.bind_ok, h2, stop_ok hr hs hpl h5 g1 g2, Res.bind_ok]
  obtain ⟨i, b, bl, out⟩ := a''
  simp only at g3
  subst g3
  simp

/-- The file has been read to its end. -/
structure Spent (a : An) (old : List Int) (o : UString) : Prop where
  rep : Rep a.buf ⟨old, old.length, []⟩ []
  size : a.buf.size = 2048
  inp : a.inp = ⟨[], true, []⟩
  blanks : a.blanks = []
  out : a.out = o

theorem get_end (e : Bool) : Input.get ⟨[], e, []⟩ = .ok (uEOF, ⟨[], true, []⟩) := by
  cases e <;> rfl

omit [AddMonoid W] [LinearOrder W] in
theorem read_end {a : An} {old : List Int} {e : Bool} (hr : Rep a.buf ⟨old, old.length, []⟩ []) (hz : a.buf.size = 2048) (hi : a.inp = ⟨[], e, []⟩) (hb : a.blanks = []) :
    ∃ a', readAnalysis σ a = .ok (0, a') ∧ Spent a' (old ++ [0]) a.out ∧ Buffer.isEmpty a'.buf = true := by
  obtain ⟨h1, h2⟩ := rep_add hr (0 : Int)
  refine ⟨{ a with inp := ⟨[], true, []⟩, buf := Buffer.add 0 a.buf }, ?_, ⟨by simpa using h1, h2.trans hz, rfl, hb, rfl⟩, ?_⟩
  · unfold readAnalysis
    rw [rep_isEmpty hr, hi]
    simp [get_end]
  · simp only [rep_isEmpty h1]
    simp

omit [AddMonoid W] [LinearOrder W] in
theorem read_nul (h0 : σ.useIgnored = true → 0 ∉ σ.ignored) {more : List Nat} {a : An} {old : List Int} {o : UString} (ho : Open σ (0 :: more) a old [] [] [] o) :
    ∃ a', readAnalysis σ a = .ok (0, a') ∧ Buffer.isEmpty a'.buf = true ∧ a'.blanks = [] ∧ a'.inp.eof = false ∧
      ∀ qs tail, more = qs.flatMap Piece.text ++ tail → Open σ tail a' (old ++ [0]) [] [] qs o := by
  have hrep := ho.here.rep
  simp only [List.append_nil, vals, List.map_nil, List.length_nil, Nat.add_zero] at hrep
  obtain ⟨h1, h2⟩ := rep_add hrep (0 : Int)
  have hin := ho.here.inp
  simp only [List.flatMap_nil, List.nil_append] at hin
  obtain ⟨g, e1, e2, -⟩ := hin.get
  have hb := ho.here.blanks
  simp only [List.append_nil, blanksOf, List.flatMap_nil] at hb
  refine ⟨{ a with inp := g, buf := Buffer.add 0 a.buf }, ?_, ?_, hb, e2.eof, ?_⟩
  · unfold readAnalysis
    rw [rep_isEmpty hrep]
    simp only [decide_true, Bool.not_true, Bool.false_eq_true, if_false, e1, Res.bind_ok, e2.eof]
    rw [if_neg (by decide), skipIgnored_stop σ _ 0 g h0, Res.bind_ok]
    simp only
    rw [if_neg (by decide)]
    simp
  · simp only [rep_isEmpty h1]
    simp
  · intro qs tail e
    refine ⟨⟨?_, h2.trans ho.here.size, by rw [← e]; exact e2, hb⟩, ?_, by simp, ho.out⟩
    · simpa [vals] using h1
    · intro u p v e
      simp at e

theorem rep_new (size : Nat) (h : 0 < size) (h2 : size < 2 ^ 32) :
    Rep (T := Int) { size := size, buf := List.replicate size none, currentpos := 0, lastpos := 0 } ⟨[], 0, []⟩ [] := by
  constructor <;> simp [h, h2, Nat.ModEq] <;> assumption

omit [AddMonoid W] [LinearOrder W] in
theorem start_ok (tail : List Nat) (ps : List Piece) (hsc : ∀ c ∈ ps.flatMap Piece.text ++ tail, Scalar c) :
    ∃ a, start (bytes (ps.flatMap Piece.text ++ tail)) = .ok a ∧ Open σ tail a [] [] [] ps [] := by
  refine ⟨_, rfl, ⟨⟨?_, rfl, ⟨rfl, by simp [opened], ⟨ps.flatMap Piece.text ++ tail, rfl, rfl⟩, hsc⟩, rfl⟩, ?_, by simp, rfl⟩⟩
  · exact rep_new 2048 (by decide) (by decide)
  · intro u p v e
    simp at e

omit [AddMonoid W] [LinearOrder W] in
theorem text_scalar {ps : List Piece} (h : ∀ p ∈ ps, p.Ok σ) : ∀ c ∈ ps.flatMap Piece.text, Scalar c := by
  intro c hc
  obtain ⟨p, hp, hc⟩ := List.mem_flatMap.1 hc
  obtain ⟨hsk, hcore⟩ := h p hp
  rcases List.mem_append.1 hc with hc | hc
  · exact (hsk c hc).1
  · obtain ⟨sk, core⟩ := p
    cases core with
    | ch d => rw [List.mem_singleton.1 hc]; exact hcore.1
    | esc d =>
      simp only [Core.text, List.mem_cons, List.not_mem_nil, or_false] at hc
      rcases hc with rfl | rfl
      · exact scalar_ascii (by decide)
      · exact hcore.1
    | super ts => exact scalar_block (scalar_ascii (by decide)) (scalar_ascii (by decide)) hcore.1 c hc
    | wb ts => exact scalar_wblank hcore.1 c hc

theorem tokens_exist (hr : Regular σ name) (hs : Small σ) (hpl : Plain σ) {ps : List Piece} (hfit : Fit σ ps) : ∃ toks, TokensAre hr ps toks := by
  obtain ⟨N, hN⟩ := enough_exists hr ps
  obtain ⟨a, -, ho⟩ := start_ok (σ := σ) [] ps (by simpa using text_scalar hfit.ok)
  obtain ⟨toks, -, h, -⟩ := once_ok hr hs hpl (hN N le_rfl) hfit ho
  exact ⟨toks, h⟩

/-- A text at the end of the file. -/
theorem once_end (hr : Regular σ name) (hs : Small σ) (hpl : Plain σ) {n : Nat} {ps : List Piece} (he : Enough hr n ps) (hfit : Fit σ ps) {toks : List Token}
    (ht : TokensAre hr ps toks) {a : An} {old : List Int} {o : UString} (ho : Open σ [] a old [] [] ps o) :
    ∃ a' old', analysisOnce σ n a = .ok a' ∧ Spent a' old' (o ++ toks.flatMap Token.render) ∧ Buffer.isEmpty a'.buf = true := by
  obtain ⟨toks', a1, h1, h2, h3⟩ := once_ok hr hs hpl he hfit ho
  obtain rfl := tokens_unique ht h1
  have hrep := h2.here.rep
  simp only [List.append_nil, vals, List.map_nil, List.length_nil, Nat.add_zero] at hrep
  obtain ⟨a2, g1, g2, g3⟩ := read_end (σ := σ) hrep h2.here.size (h2.here.inp.nil) h2.here.blanks
  rw [h2.out] at g2
  exact ⟨a2, _, h3 a2 g1 g3 g2.blanks, g2, g3⟩

/-- Nothing is left. -/
theorem once_spent (hr : Regular σ name) (hs : Small σ) (hpl : Plain σ) {n : Nat} (he : Enough hr n []) {a : An} {old : List Int} {o : UString} (h : Spent a old o) :
    ∃ a', analysisOnce σ n a = .ok a' ∧ a'.out = o := by
  obtain ⟨hrd, -, hn⟩ := he
  have hinit : ended (State.init σ.graph n σ.root) = .ok (states σ name hr []) := by
    have := hrd.1 [] (List.infix_refl _)
    simpa [vals, after_nil] using this
  obtain ⟨a2, g1, g2, g3⟩ := read_end (σ := σ) h.rep h.size h.inp h.blanks
  have hst : Buffer.getPos a.buf ≡ old.length [MOD 2048] := by
    have := h.rep.curMod
    rw [h.size] at this
    simpa [Buffer.getPos] using this
  obtain ⟨t, rfl⟩ : ∃ t, n = t + 1 := ⟨n - 1, by omega⟩
  refine ⟨{ a2 with out := a2.out ++ a2.blanks.flatten, blanks := [] }, ?_, ?_⟩
  · unfold analysisOnce
    rw [hinit, Res.bind_ok, stop_ok hr hs hpl (base := old.length) ⟨rfl, rfl, rfl, rfl, hst, rfl, rfl, rfl⟩ g1 g3, Res.bind_ok]
  · simp only [g2.blanks, g2.out, h.out]
    simp

/-- A text before a NUL. -/
theorem once_nul (hr : Regular σ name) (hs : Small σ) (hpl : Plain σ) (h0 : σ.useIgnored = true → 0 ∉ σ.ignored) {n : Nat} {ps : List Piece} (he : Enough hr n ps)
    (hfit : Fit σ ps) {toks : List Token} (ht : TokensAre hr ps toks) {more : List Nat} {a : An} {old : List Int} {o : UString} (ho : Open σ (0 :: more) a old [] [] ps o) :
    ∃ a' old', analysisOnce σ n a = .ok a' ∧ Buffer.isEmpty a'.buf = true ∧ a'.inp.eof = false ∧
      ∀ qs tail, more = qs.flatMap Piece.text ++ tail → Open σ tail a' old' [] [] qs (o ++ toks.flatMap Token.render) := by
  obtain ⟨toks', a1, h1, h2, h3⟩ := once_ok hr hs hpl he hfit ho
  obtain rfl := tokens_unique ht h1
  obtain ⟨a2, g1, g2, g3, g4, g5⟩ := read_nul h0 h2
  exact ⟨a2, _, h3 a2 g1 g2 g3, g2, g4, g5⟩

theorem drain_empty (n : Nat) (b : Buffer Int) (h : Buffer.isEmpty b = true) : drain n b = .ok b := by
  unfold drain
  rw [if_pos h]

theorem Open.more {σ : Setting W} {tail : List Nat} {a : An} {old : List Int} {cur pend rest : List Piece} {o : UString} (h : Open σ tail a old cur pend rest o) (x : UString) :
    Open σ tail { a with out := a.out ++ x } old cur pend rest (o ++ x) :=
  ⟨⟨h.here.rep, h.here.size, h.here.inp, h.here.blanks⟩, h.calm, h.len, by simp [h.out]⟩

theorem flush_ok (hr : Regular σ name) (hs : Small σ) (hpl : Plain σ) (h0 : σ.useIgnored = true → 0 ∉ σ.ignored) {n : Nat} (segs : List (List Piece)) (last : List Piece) :
    ∀ (tss : List (List Token)) (ts : List Token) (turns : Nat) (a : An) (old : List Int) (o : UString) (first : List Piece) (tail : List Nat),
      (segs ++ [last]).length ≤ turns → (∀ ps ∈ segs ++ [last], Enough hr n ps ∧ Fit σ ps) → List.Forall₂ (TokensAre hr) segs tss → TokensAre hr last ts →
      first.flatMap Piece.text ++ tail = segs.flatMap (fun ps => ps.flatMap Piece.text ++ [0]) ++ last.flatMap Piece.text →
      first = (segs ++ [last]).head (by simp) → Open σ tail a old [] [] first o →
      ∃ a' old', nullFlush σ n turns a = .ok a' ∧ Spent a' old' (o ++ (tss ++ [ts]).flatMap fun ts => ts.flatMap Token.render ++ [0]) := by
  induction segs with
  | nil =>
    intro tss ts turns a old o first tail ht he h1 h2 e ef ho
    cases h1
    simp only [List.nil_append, List.head_cons] at ef
    subst ef
    obtain rfl : tail = [] := by simpa using e
    obtain ⟨t, rfl⟩ : ∃ t, turns = t + 1 := ⟨turns - 1, by simp at ht; omega⟩
    obtain ⟨hen, hfit⟩ := he first (by simp)
    obtain ⟨a', old', g1, g2, g3⟩ := once_end hr hs hpl hen hfit h2 ho
    refine ⟨{ a' with out := a'.out ++ [0] }, old', ?_, ⟨g2.rep, g2.size, g2.inp, g2.blanks, ?_⟩⟩
    · rw [nullFlush, ho.here.inp.eof]
      simp only [Bool.false_eq_true, if_false, g1, Res.bind_ok, drain_empty n _ g3]
      unfold nullFlush
      simp [g2.inp]
    · simp [g2.out]
  | cons seg segs ih =>
    intro tss ts turns a old o first tail ht he h1 h2 e ef ho
    cases h1 with
    | cons hseg hsegs =>
      rename_i tk tss
      simp only [List.cons_append, List.head_cons] at ef
      subst ef
      obtain ⟨t, rfl⟩ : ∃ t, turns = t + 1 := ⟨turns - 1, by simp at ht; omega⟩
      obtain ⟨hen, hfit⟩ := he first (by simp)
      have e2 : tail = 0 :: (segs.flatMap (fun ps => ps.flatMap Piece.text ++ [0]) ++ last.flatMap Piece.text) := by
        simpa using e
      subst e2
      obtain ⟨a', old', g1, g2, g3, g4⟩ := once_nul hr hs hpl h0 hen hfit hseg ho
      obtain ⟨next, tail', e3, e4⟩ : ∃ next tail', next = (segs ++ [last]).head (by simp) ∧
          segs.flatMap (fun ps => ps.flatMap Piece.text ++ [0]) ++ last.flatMap Piece.text = next.flatMap Piece.text ++ tail' := by
        cases segs with
        | nil => exact ⟨last, [], rfl, by simp⟩
        | cons s segs => exact ⟨s, 0 :: (segs.flatMap (fun ps => ps.flatMap Piece.text ++ [0]) ++ last.flatMap Piece.text), rfl, by simp⟩
      obtain ⟨a2, old2, k1, k2⟩ := ih tss ts t { a' with out := a'.out ++ [0] } old' _ next tail' (by simp at ht ⊢; omega)
        (fun ps hp => he ps (List.mem_cons_of_mem _ hp)) hsegs h2 e4.symm e3 ((g4 next tail' e4).more [0])
      refine ⟨a2, old2, ?_, by simpa using k2⟩
      rw [nullFlush, ho.here.inp.eof]
      simp only [Bool.false_eq_true, if_false, g1, Res.bind_ok, drain_empty n _ g2]
      exact k1

end

end Verif.Proc
