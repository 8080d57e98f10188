import Verif.TmProc.Chunks

/-! # Whole texts -/

namespace Verif.TmProc

open Verif.State Verif.Stream Verif.Input
open Verif.Buffer (Buffer Rep)
open Verif.Proc (rep_isEmpty)

variable {W : Type} {τ : Setting W}

/-- A text up to its end. -/
theorem says_ok (hr : Regular τ) (hs : Simple τ) (ha : Tmx.Ascii τ.tables) {ps : List Token} {out : UString} (h : Says τ ps out) :
    ∃ k, ∀ n zs, ps.length ≤ n → Ready hr n zs → vals ps <:+: zs → ∀ tail, Ending tail → ∀ (a : Tm) (l : Loc W) (old : List Int) (pend rest : List Token),
      Mid hr tail a l old [] pend rest → pend ++ rest = ps → Good τ ps → ∀ j, ∃ a', loop τ n (states hr []) (j + k) a l = .ok a' ∧ Ended tail a' ∧ a'.out = a.out ++ out := by
  induction h with
  | nil =>
    refine ⟨1, fun n zs _ _ _ tail htl a l old pend rest h e _ j => ?_⟩
    obtain ⟨rfl, rfl⟩ := List.append_eq_nil_iff.1 e
    obtain ⟨a', e1, o1, b1, b2, hd⟩ := At.last hr htl h.at'
    have hbl : a'.blanks = [] := by rw [b1, h.blanks]; rfl
    refine ⟨{ a' with out := a'.out ++ a'.blanks.flatten, blanks := [] }, ?_, hd _ rfl rfl rfl (by rw [b2, h.numbers]; rfl), by simp [hbl, o1]⟩
    rw [loop, e1, Res.bind_ok]
    rfl
  | @gap t rest out hb hl _ ih =>
    obtain ⟨k, ih⟩ := ih
    refine ⟨k + 1, fun n zs hn hz hi tail htl a l old pend rest' h e hg j => ?_⟩
    have hi' : vals [t] ++ vals rest <:+: zs := by rw [← vals_append]; exact hi
    obtain ⟨a1, last, e1, h1, o1⟩ := gap_ok hs h e hg hz (infix_left hi') hb hl (j + k)
    obtain ⟨a2, e2, h2, o2⟩ := ih n zs (by simp at hn; omega) hz ((List.suffix_append _ _).isInfix.trans hi') tail htl a1 _ _ _ _ h1 rfl hg.tail j
    exact ⟨a2, by rw [← Nat.add_assoc, e1, e2], h2, by rw [o2, o1, List.append_assoc]⟩
  | @segment cs rest t txt out hne hseg hstop hl hw htx h0 _ ih =>
    obtain ⟨k, ih⟩ := ih
    refine ⟨k + (cs.length + 1), fun n zs hn hz hi tail htl a l old pend rest' h e hg j => ?_⟩
    have hi1 : vals (cs ++ [t]) ++ vals rest <:+: zs := by rw [← vals_append]; simpa using hi
    have hi2 : vals cs ++ vals (t :: rest) <:+: zs := by rw [← vals_append]; exact hi
    obtain ⟨a1, last, e1, h1, o1⟩ := segment_ok hs ha h e hg hz (infix_left hi1) hne hseg hstop hl hw htx h0 (j + k)
    obtain ⟨a2, e2, h2, o2⟩ := ih n zs (by simp at hn ⊢; omega) hz ((List.suffix_append _ _).isInfix.trans hi2) tail htl a1 _ _ _ _ h1 rfl hg.suffix j
    exact ⟨a2, by rw [← Nat.add_assoc, e1, e2], h2, by rw [o2, o1, List.append_assoc]⟩
  | @part cs rest t out hne hlv hnot hb hl _ ih =>
    obtain ⟨k, ih⟩ := ih
    refine ⟨k + (cs.length + 1), fun n zs hn hz hi tail htl a l old pend rest' h e hg j => ?_⟩
    have hi1 : vals (cs ++ [t]) ++ vals rest <:+: zs := by rw [← vals_append]; simpa using hi
    have hi2 : vals cs ++ vals (t :: rest) <:+: zs := by rw [← vals_append]; exact hi
    obtain ⟨a1, last, e1, h1, o1⟩ := part_ok hs h e hg hz (infix_left hi1) hne hlv hnot hb hl (j + k)
    obtain ⟨a2, e2, h2, o2⟩ := ih n zs (by simp at hn ⊢; omega) hz ((List.suffix_append _ _).isInfix.trans hi2) tail htl a1 _ _ _ _ h1 rfl hg.suffix j
    exact ⟨a2, by rw [← Nat.add_assoc, e1, e2], h2, by rw [o2, o1, List.append_assoc]⟩
  | @word pre ws rest w t out hlv hl hw hb _ ih =>
    obtain ⟨k, ih⟩ := ih
    refine ⟨k + (pre.length + 1), fun n zs hn hz hi tail htl a l old pend rest' h e hg j => ?_⟩
    have hi1 : vals (pre ++ [w]) ++ vals (ws ++ t :: rest) <:+: zs := by rw [← vals_append]; simpa using hi
    have hi2 : vals (pre ++ w :: ws) ++ vals (t :: rest) <:+: zs := by rw [← vals_append]; exact hi
    obtain ⟨a1, last, e1, h1, o1⟩ := word_ok hs h e hg hz (infix_left hi1) hlv hl hw hb (by simp at hn; omega) (j + k)
    obtain ⟨a2, e2, h2, o2⟩ := ih n zs (by simp at hn ⊢; omega) hz ((List.suffix_append _ _).isInfix.trans hi2) tail htl a1 _ _ _ _ h1 rfl hg.suffix j
    exact ⟨a2, by rw [← Nat.add_assoc, e1, e2], h2, by rw [o2, o1, List.append_assoc]⟩
  | @final pre ws w hlv hl hw hn hbl =>
    refine ⟨pre.length + 1, fun n zs hle hz hi tail htl a l old pend rest' h e hg j => ?_⟩
    have hi1 : vals (pre ++ [w]) ++ vals ws <:+: zs := by rw [← vals_append]; simpa using hi
    exact final_ok hs htl h e hg hz (infix_left hi1) hlv hl hw hn hbl (by simp at hle; omega) j

/-- The text of parts with NULs between them. -/
def parted (ps : List (List Token)) : List Nat := [0].intercalate (ps.map textOf)

theorem parted_cons (p q : List Token) (ps : List (List Token)) : parted (p :: q :: ps) = textOf p ++ 0 :: parted (q :: ps) := by
  simp [parted, List.intercalate, List.intersperse]

theorem parted_one (p : List Token) : parted [p] = textOf p := by
  simp [parted, List.intercalate, List.intersperse]

/-- Before a part. -/
structure Before (a : Tm) (cs : List Nat) : Prop where
  buf : ∃ old : List Int, Rep a.buf ⟨old, old.length, []⟩ []
  size : a.buf.size = 2048
  blanks : a.blanks = []
  numbers : a.numbers = []
  inp : Holds a.inp cs

theorem Before.mid (hr : Regular τ) {a : Tm} {ps : List Token} {tail : List Nat} (h : Before a (textOf ps ++ tail)) (last : Nat) : ∃ old, Mid hr tail a (fresh hr last) old [] [] ps := by
  obtain ⟨old, ho⟩ := h.buf
  exact ⟨old, ⟨⟨by simpa [vals] using ho, h.size, h.inp⟩, h.blanks, h.numbers, rfl, rfl, rfl, .inl rfl⟩⟩

/-- A part. -/
theorem once_ok (hr : Regular τ) (hs : Simple τ) (ha : Tmx.Ascii τ.tables) {ps : List Token} {out : UString} (h : Says τ ps out) (hg : Good τ ps) :
    ∃ N, ∀ n ≥ N, ∀ tail, Ending tail → ∀ a, Before a (textOf ps ++ tail) → ∃ a', once τ n a = .ok a' ∧ Ended tail a' ∧ a'.out = a.out ++ out := by
  obtain ⟨k, hk⟩ := says_ok hr hs ha h
  obtain ⟨N, hN⟩ := ready_exists hr (vals ps)
  refine ⟨N + ps.length + k, fun n hn tail htl a hb => ?_⟩
  obtain ⟨old, hm⟩ := hb.mid hr 0
  have hz := hN n (by omega)
  obtain ⟨a', e, h1, h2⟩ := hk n (vals ps) (by omega) hz (List.infix_refl _) tail htl a _ old [] ps hm rfl hg (n - k)
  rw [Nat.sub_add_cancel (by omega)] at e
  refine ⟨a', ?_, h1, h2⟩
  unfold once
  rw [hz.init, Res.bind_ok]
  exact e

/-- All parts. -/
theorem flushing_ok (hr : Regular τ) (hs : Simple τ) (ha : Tmx.Ascii τ.tables) {ps : List (List Token)} {outs : List UString} (h : List.Forall₂ (Says τ) ps outs) :
    ps ≠ [] → (∀ p ∈ ps, Good τ p) →
    ∃ N, ∀ n ≥ N, ∀ turns ≥ ps.length, ∀ a, Before a (parted ps) → ∃ a', flushing τ n turns a = .ok a' ∧ Ended [] a' ∧ a'.out = a.out ++ outs.flatMap (· ++ [0]) := by
  induction h with
  | nil => intro h; exact absurd rfl h
  | @cons p out ps outs h hrest ih =>
    intro _ hg
    obtain ⟨N1, h1⟩ := once_ok hr hs ha h (hg p (by simp))
    cases ps with
    | nil =>
      cases hrest
      refine ⟨N1, fun n hn turns ht a hb => ?_⟩
      rw [parted_one, ← List.append_nil (textOf p)] at hb
      obtain ⟨a1, e1, d1, o1⟩ := h1 n hn [] (.inl rfl) a hb
      have hi := d1.eof rfl
      refine ⟨{ a1 with out := a1.out ++ [0] }, ?_, ⟨d1.buf, d1.size, d1.blanks, d1.numbers, d1.eof, d1.more⟩, by simp [o1]⟩
      cases turns with
      | zero => simp at ht
      | succ turns =>
        unfold flushing
        rw [hb.inp.eof]
        simp only [Bool.false_eq_true, if_false, e1, Res.bind_ok]
        unfold flushing
        simp only [hi, if_true]
    | cons q ps =>
      obtain ⟨N2, h2⟩ := ih (by simp) (fun x hx => hg x (by simp [hx]))
      refine ⟨max N1 N2, fun n hn turns ht a hb => ?_⟩
      rw [parted_cons] at hb
      obtain ⟨a1, e1, d1, o1⟩ := h1 n (by omega) (0 :: parted (q :: ps)) (.inr ⟨_, rfl⟩) a hb
      cases turns with
      | zero => simp at ht
      | succ turns =>
        obtain ⟨a2, e2, d2, o2⟩ := h2 n (by omega) turns (by simp at ht ⊢; omega) { a1 with out := a1.out ++ [0] }
          ⟨d1.buf, d1.size, d1.blanks, d1.numbers, d1.more _ rfl⟩
        refine ⟨a2, ?_, d2, by rw [o2]; simp [o1]⟩
        unfold flushing
        rw [hb.inp.eof]
        simp only [Bool.false_eq_true, if_false, e1, Res.bind_ok, e2]

theorem scalar_text {t : Token} (h : t.Ok τ) : ∀ c ∈ t.text, Scalar c := by
  cases t with
  | ch c => intro x hx; rw [List.mem_singleton.1 hx]; exact h.1
  | esc c =>
    intro x hx
    simp only [Token.text, List.mem_cons, List.not_mem_nil, or_false] at hx
    rcases hx with rfl | rfl
    · exact scalar_ascii (by decide)
    · exact h.1
  | num ds => intro x hx; exact (h.2 x hx).1
  | super ts => exact scalar_block (scalar_ascii (by decide)) (scalar_ascii (by decide)) h.1
  | wb ts => exact scalar_wblank h

theorem scalar_parted {ps : List (List Token)} (h : ∀ p ∈ ps, Good τ p) : ∀ c ∈ parted ps, Scalar c := by
  have one : ∀ p, Good τ p → ∀ c ∈ textOf p, Scalar c := by
    intro p hp c hc
    obtain ⟨t, ht, hc⟩ := List.mem_flatMap.1 hc
    exact scalar_text (hp.ok t ht) c hc
  induction ps with
  | nil => intro c hc; simp [parted, List.intercalate] at hc
  | cons p ps ih =>
    cases ps with
    | nil => rw [parted_one]; exact one p (h p (by simp))
    | cons q ps =>
      rw [parted_cons]
      intro c hc
      rcases List.mem_append.1 hc with hc | hc
      · exact one p (h p (by simp)) c hc
      · rcases List.mem_cons.1 hc with rfl | hc
        · exact scalar_ascii (by decide)
        · exact ih (fun x hx => h x (by simp [hx])) c hc

/-- A whole input. -/
theorem tmAnalysis_ok (hr : Regular τ) (hs : Simple τ) (ha : Tmx.Ascii τ.tables) {ps : List (List Token)} {outs : List UString} (h : List.Forall₂ (Says τ) ps outs)
    (hne : ps ≠ []) (hg : ∀ p ∈ ps, Good τ p) : ∃ N, ∀ n ≥ N, tmAnalysis τ n (bytes (parted ps)) = .ok (outs.flatMap (· ++ [0])) := by
  obtain ⟨N1, h1⟩ := flushing_ok hr hs ha h hne hg
  obtain ⟨N2, h2⟩ := ready_exists hr []
  refine ⟨N1 + N2 + ps.length + 1, fun n hn => ?_⟩
  have hb : Before { inp := opened (bytes (parted ps)), buf := { size := 2048, buf := List.replicate 2048 none, currentpos := 0, lastpos := 0 }, blanks := [], numbers := [], lastBlank := false, out := [] }
      (parted ps) := ⟨⟨[], Proc.rep_new 2048 (by decide) (by decide)⟩, rfl, rfl, rfl, ⟨rfl, by simp [opened], ⟨parted ps, rfl, rfl⟩, scalar_parted hg⟩⟩
  obtain ⟨a1, e1, d1, o1⟩ := h1 n (by omega) n (by omega) _ hb
  obtain ⟨old, ho⟩ := d1.buf
  have hrd := read_end (τ := τ) (a := a1) (by rw [rep_isEmpty ho]; simp) true (d1.eof rfl)
  have e2 : once τ n a1 = .ok { a1 with inp := ⟨[], true, []⟩, lastBlank := false } := by
    unfold once
    rw [(h2 n (by omega)).init, Res.bind_ok]
    obtain ⟨m, rfl⟩ : ∃ m, n = m + 1 := ⟨n - 1, by omega⟩
    rw [loop, hrd, Res.bind_ok]
    simp [d1.blanks]
  unfold tmAnalysis
  have e0 : begin (bytes (parted ps)) = .ok { inp := opened (bytes (parted ps)), buf := { size := 2048, buf := List.replicate 2048 none, currentpos := 0, lastpos := 0 }, blanks := [], numbers := [], lastBlank := false, out := [] } := rfl
  rw [e0, Res.bind_ok, e1, Res.bind_ok, e2, Res.bind_ok]
  simp [o1]

end Verif.TmProc
