import Verif.Stream.Safe
import Verif.Stream.Spec
import Verif.Input.Props

/-! # Reading a text that is in the stream format -/

namespace Verif.Stream

open Verif.Input

/-- The characters that the file will give. -/
structure Holds (f : InFile) (cs : List Nat) : Prop where
  eof : f.eof = false
  buf : f.buf.length ≤ 2
  text : ∃ tail, cs = f.buf ++ tail ∧ f.rest = bytes tail
  scalar : ∀ c ∈ cs, Scalar c

theorem Holds.get {f : InFile} {c : Nat} {cs : List Nat} (h : Holds f (c :: cs)) :
    ∃ g, Input.get f = .ok (c, g) ∧ Holds g cs ∧ g.buf.length = f.buf.length - 1 := by
  obtain ⟨rest, eof, buf⟩ := f
  obtain ⟨h1, h2, ⟨tail, h3, h4⟩, h5⟩ := h
  simp only at h1 h2 h3 h4
  subst h1 h4
  cases buf with
  | nil =>
    rw [List.nil_append] at h3
    subst h3
    refine ⟨⟨bytes cs, false, []⟩, ?_, ⟨rfl, by simp, ⟨cs, rfl, rfl⟩, fun d hd => h5 d (by simp [hd])⟩, rfl⟩
    have := get_utf8 (h5 c (by simp)) (bytes cs)
    simpa [bytes] using this
  | cons b buf =>
    rw [List.cons_append] at h3
    obtain ⟨rfl, h3'⟩ := List.cons.inj h3
    refine ⟨⟨bytes tail, false, buf⟩, rfl, ⟨rfl, by simp at h2 ⊢; omega, ⟨tail, h3', rfl⟩, fun d hd => h5 d (by simp [hd])⟩, by simp⟩

theorem Holds.peek {f : InFile} {c : Nat} {cs : List Nat} (h : Holds f (c :: cs)) :
    ∃ g, Input.peek f = .ok (c, g) ∧ Holds g (c :: cs) := by
  obtain ⟨rest, eof, buf⟩ := f
  obtain ⟨h1, h2, ⟨tail, h3, h4⟩, h5⟩ := h
  simp only at h1 h2 h3 h4
  subst h1 h4
  cases buf with
  | nil =>
    rw [List.nil_append] at h3
    subst h3
    refine ⟨⟨bytes cs, false, [c]⟩, ?_, ⟨rfl, by simp, ⟨cs, rfl, rfl⟩, h5⟩⟩
    have := internalRead_utf8 (h5 c (by simp)) (bytes cs)
    unfold Input.peek
    rw [show bytes (c :: cs) = utf8 c ++ bytes cs by simp [bytes], this]; rfl
  | cons b buf =>
    rw [List.cons_append] at h3
    obtain ⟨rfl, h3'⟩ := List.cons.inj h3
    exact ⟨⟨bytes tail, false, c :: buf⟩, rfl, ⟨rfl, h2, ⟨tail, h3, rfl⟩, h5⟩⟩

theorem Holds.unget {f : InFile} {c : Nat} {cs : List Nat} (h : Holds f cs) (hc : Scalar c) (hb : f.buf.length ≤ 1) :
    ∃ g, Input.unget f c = .ok g ∧ Holds g (c :: cs) ∧ g.buf.length = f.buf.length + 1 := by
  obtain ⟨h1, h2, ⟨tail, h3, h4⟩, h5⟩ := h
  refine ⟨{ f with buf := c :: f.buf }, ?_, ⟨h1, by simp; omega, ⟨tail, by rw [h3]; rfl, h4⟩, ?_⟩, by simp⟩
  · unfold Input.unget; rw [if_neg (by omega)]
  · intro d hd
    rcases List.mem_cons.1 hd with rfl | hd
    · exact hc
    · exact h5 d hd

theorem bytes_nil {cs : List Nat} (h : bytes cs = []) : cs = [] := by
  cases cs with
  | nil => rfl
  | cons c cs =>
    exfalso
    simp only [bytes, List.flatMap_cons, List.append_eq_nil_iff] at h
    exact utf8_ne_nil c h.1

theorem Holds.nil {f : InFile} (h : Holds f []) : f = ⟨[], false, []⟩ := by
  obtain ⟨rest, eof, buf⟩ := f
  obtain ⟨h1, h2, ⟨tail, h3, h4⟩, h5⟩ := h
  simp only at h1 h3 h4
  obtain ⟨rfl, rfl⟩ := List.append_eq_nil_iff.1 h3.symm
  subst h1 h4; rfl

theorem length_bytes (cs : List Nat) : cs.length ≤ (bytes cs).length := by
  induction cs with
  | nil => simp
  | cons c cs ih =>
    have := utf8_pos c
    simp only [bytes, List.flatMap_cons, List.length_append, List.length_cons] at ih ⊢; omega

theorem Holds.turns {f : InFile} {cs : List Nat} (h : Holds f cs) : cs.length + 2 ≤ turnsOf f := by
  obtain ⟨h1, h2, ⟨tail, h3, h4⟩, h5⟩ := h
  unfold turnsOf
  rw [h3, h4, List.length_append]
  have := length_bytes tail
  omega

theorem length_toksText (ts : List Tok) : ts.length ≤ (toksText ts).length := by
  induction ts with
  | nil => simp
  | cons t ts ih =>
    simp only [toksText, List.flatMap_cons, List.length_append, List.length_cons] at ih ⊢
    cases t <;> simp [Tok.text] at ih ⊢ <;> omega

theorem toksText_cons (t : Tok) (ts : List Tok) : toksText (t :: ts) = t.text ++ toksText ts := by simp [toksText]

theorem readBlockLoop_ok (stop : Nat) (hstop : stop ≠ '\\'.toNat) (hs0 : stop ≠ 0) (cs : List Nat) : ∀ (ts : List Tok) (turns c0 : Nat) (ret : UString)
    (f : InFile), (∀ t ∈ ts, t.Inside stop) → Holds f (toksText ts ++ stop :: cs) → c0 ≠ stop → ts.length + 1 ≤ turns →
    ∃ g, readBlockLoop stop turns c0 ret f = .ok (ret ++ enc (toksText ts ++ [stop]), g) ∧ Holds g cs := by
  intro ts
  induction ts with
  | nil =>
    intro turns c0 ret f _ hf hc ht
    obtain ⟨turns, rfl⟩ : ∃ k, turns = k + 1 := ⟨turns - 1, by omega⟩
    obtain ⟨g, e, hg, -⟩ := Holds.get (c := stop) (cs := cs) hf
    refine ⟨g, ?_, hg⟩
    unfold readBlockLoop
    rw [if_pos ⟨hc, hf.eof⟩]
    simp only [e, Res.bind_ok]
    rw [if_neg hs0, if_neg hstop]
    unfold readBlockLoop
    rw [if_neg (by simp)]
    simp [toksText, enc]
  | cons t ts ih =>
    intro turns c0 ret f hin hf hc ht
    rw [List.length_cons] at ht
    obtain ⟨turns, rfl⟩ : ∃ k, turns = k + 1 := ⟨turns - 1, by omega⟩
    have hin' : ∀ u ∈ ts, u.Inside stop := fun u hu => hin u (by simp [hu])
    have ht' := hin t (by simp)
    rw [toksText_cons, List.append_assoc] at hf
    cases t with
    | raw c =>
      obtain ⟨g, e, hg, -⟩ := Holds.get (c := c) hf
      obtain ⟨-, h1, h2, h3⟩ := ht'
      obtain ⟨g', e', hg'⟩ := ih turns c (ret ++ utf16 c) g hin' hg h1 (by omega)
      refine ⟨g', ?_, hg'⟩
      unfold readBlockLoop
      rw [if_pos ⟨hc, hf.eof⟩]
      simp only [e, Res.bind_ok]
      rw [if_neg h3, if_neg h2, e']
      simp [toksText, enc, Tok.text]
    | esc c =>
      obtain ⟨g, e, hg, -⟩ := Holds.get (c := '\\'.toNat) hf
      obtain ⟨g2, e2, hg2, -⟩ := Holds.get (c := c) hg
      obtain ⟨g', e', hg'⟩ := ih turns '\\'.toNat (ret ++ utf16 '\\'.toNat ++ utf16 c) g2 hin' hg2 hstop.symm (by omega)
      refine ⟨g', ?_, hg'⟩
      unfold readBlockLoop
      rw [if_pos ⟨hc, hf.eof⟩]
      simp only [e, Res.bind_ok]
      rw [if_neg (by decide), if_pos trivial]
      simp only [e2, Res.bind_ok]
      rw [e']
      simp [toksText, enc, Tok.text]

theorem readBlock_ok (start stop : Nat) (hstop : stop ≠ '\\'.toNat) (hs0 : stop ≠ 0) (cs : List Nat) (ts : List Tok) (f : InFile)
    (hin : ∀ t ∈ ts, t.Inside stop) (hf : Holds f (toksText ts ++ stop :: cs)) :
    ∃ g, readBlock start stop f = .ok (enc (blockText start stop ts), g) ∧ Holds g cs := by
  have ht := hf.turns
  simp only [List.length_append, List.length_cons] at ht
  have := length_toksText ts
  obtain ⟨g, e, hg⟩ := readBlockLoop_ok stop hstop hs0 cs ts (turnsOf f) 0 (utf16 start) f hin hf hs0.symm (by omega)
  refine ⟨g, ?_, hg⟩
  unfold readBlock
  rw [e]
  simp [blockText, enc]

theorem finishWBlankLoop_ok (cs : List Nat) : ∀ (ts : List Tok) (turns : Nat) (ret : UString) (f : InFile), WBody ts →
    Holds f (toksText ts ++ ']'.toNat :: ']'.toNat :: cs) → ts.length + 1 ≤ turns →
    ∃ g, finishWBlankLoop turns ret f = .ok (ret ++ enc (toksText ts ++ [']'.toNat, ']'.toNat]), g) ∧ Holds g cs := by
  intro ts
  induction ts with
  | nil =>
    intro turns ret f _ hf ht
    obtain ⟨turns, rfl⟩ : ∃ k, turns = k + 1 := ⟨turns - 1, by omega⟩
    obtain ⟨g, e, hg, -⟩ := Holds.get (c := ']'.toNat) hf
    obtain ⟨g1, e1, hg1⟩ := hg.peek
    obtain ⟨g2, e2, hg2, -⟩ := hg1.get
    refine ⟨g2, ?_, hg2⟩
    unfold finishWBlankLoop
    rw [if_pos hf.eof]
    simp only [e, Res.bind_ok]
    rw [if_neg (by decide), if_neg (by decide), if_pos trivial]
    simp only [e1, Res.bind_ok]
    rw [if_pos trivial]
    simp only [e2, Res.bind_ok]
    simp [toksText, enc]
  | cons t ts ih =>
    intro turns ret f hin hf ht
    rw [List.length_cons] at ht
    obtain ⟨turns, rfl⟩ : ∃ k, turns = k + 1 := ⟨turns - 1, by omega⟩
    rw [toksText_cons, List.append_assoc] at hf
    obtain ⟨ht', hin'⟩ := hin
    cases t with
    | raw c =>
      obtain ⟨g, e, hg, -⟩ := Holds.get (c := c) hf
      obtain ⟨hsc, h1, h2, h3⟩ := ht'
      unfold finishWBlankLoop
      rw [if_pos hf.eof]
      simp only [e, Res.bind_ok]
      rw [if_neg h2, if_neg h1]
      by_cases hbr : c = ']'.toNat
      · obtain ⟨u, us, rfl, hu⟩ := h3 hbr
        rw [if_pos hbr]
        have hne : ∃ d rest, toksText (u :: us) ++ ']'.toNat :: ']'.toNat :: cs = d :: rest ∧ d ≠ ']'.toNat := by
          rw [toksText_cons]
          cases u with
          | raw d => exact ⟨d, _, rfl, fun h => hu (by rw [h])⟩
          | esc d => exact ⟨'\\'.toNat, _, rfl, by decide⟩
        obtain ⟨d, rest, ed, hd⟩ := hne
        have hgd := hg
        rw [ed] at hgd
        obtain ⟨g1, e1, hg1⟩ := hgd.peek
        rw [← ed] at hg1
        obtain ⟨g', e', hg'⟩ := ih turns (ret ++ utf16 c) g1 hin' hg1 (by omega)
        refine ⟨g', ?_, hg'⟩
        simp only [e1, Res.bind_ok]
        rw [if_neg hd, e']
        simp [toksText, enc, Tok.text]
      · obtain ⟨g', e', hg'⟩ := ih turns (ret ++ utf16 c) g hin' hg (by omega)
        refine ⟨g', ?_, hg'⟩
        rw [if_neg hbr, e']
        simp [toksText, enc, Tok.text]
    | esc c =>
      obtain ⟨g, e, hg, -⟩ := Holds.get (c := '\\'.toNat) hf
      obtain ⟨g2, e2, hg2, -⟩ := Holds.get (c := c) hg
      obtain ⟨g', e', hg'⟩ := ih turns (ret ++ utf16 '\\'.toNat ++ utf16 c) g2 hin' hg2 (by omega)
      refine ⟨g', ?_, hg'⟩
      unfold finishWBlankLoop
      rw [if_pos hf.eof]
      simp only [e, Res.bind_ok]
      rw [if_neg (by decide), if_pos trivial]
      simp only [e2, Res.bind_ok]
      rw [e']
      simp [toksText, enc, Tok.text]

theorem finishWBlank_ok (cs : List Nat) (ts : List Tok) (f : InFile) (hin : WBody ts)
    (hf : Holds f (toksText ts ++ ']'.toNat :: ']'.toNat :: cs)) :
    ∃ g, finishWBlank f = .ok (enc (wblankText ts), g) ∧ Holds g cs := by
  have ht := hf.turns
  simp only [List.length_append, List.length_cons] at ht
  have := length_toksText ts
  obtain ⟨g, e, hg⟩ := finishWBlankLoop_ok cs ts (turnsOf f) (utf16 '['.toNat ++ utf16 '['.toNat) f hin hf (by omega)
  refine ⟨g, ?_, hg⟩
  unfold finishWBlank
  rw [e]
  simp [wblankText, enc]

/-- Where a blank without word-bound blanks ends. -/
inductive Stops : List Nat → Prop
  | caret (cs) : Stops ('^'.toNat :: cs)
  | nul (cs) : Stops (0 :: cs)
  | wblank (cs) : Stops ('['.toNat :: '['.toNat :: cs)

theorem scalar_lt {c : Nat} (h : c < 0xd800) : Scalar c := .inl h

theorem blankText_cons (b : BTok) (bs : List BTok) : blankText (b :: bs) = b.text ++ blankText bs := by simp [blankText]

theorem BTok.length_text (b : BTok) : 1 ≤ b.text.length := by
  rcases b with (c | c) | ts | ts <;> simp [BTok.text, Tok.text, blockText, wblankText]

theorem length_blankText (bs : List BTok) : bs.length ≤ (blankText bs).length := by
  induction bs with
  | nil => simp
  | cons b bs ih =>
    have := b.length_text
    rw [blankText_cons, List.length_append, List.length_cons]; omega

/-- The end of the file after a blank. -/
def ended : InFile := ⟨[], true, [uEOF]⟩

theorem readBlankLoop_ok (cs : List Nat) : ∀ (bs : List BTok) (turns : Nat) (ret : UString) (f : InFile), (∀ b ∈ bs, b.WF ∧ b.isWb = false) →
    Holds f (blankText bs ++ cs) → bs.length + 1 ≤ turns →
    (Stops cs → ∃ g, readBlankLoop false turns ret f = .ok (ret ++ enc (blankText bs), g) ∧ Holds g cs) ∧
    (cs = [] → readBlankLoop false turns ret f = .ok (ret ++ enc (blankText bs), ended)) := by
  intro bs
  induction bs with
  | nil =>
    intro turns ret f _ hf ht
    obtain ⟨turns, rfl⟩ : ∃ k, turns = k + 1 := ⟨turns - 1, by omega⟩
    unfold readBlankLoop
    rw [if_pos hf.eof]
    constructor
    · intro hst
      cases hst with
      | caret cs =>
        obtain ⟨g, e, hg, hb⟩ := Holds.get (c := '^'.toNat) hf
        have := hf.buf
        obtain ⟨g1, e1, hg1, -⟩ := hg.unget (c := '^'.toNat) (scalar_lt (by decide)) (by omega)
        refine ⟨g1, ?_, hg1⟩
        simp only [e, Res.bind_ok]
        rw [if_pos (by decide)]
        simp only [e1, Res.bind_ok]
        simp [blankText, enc]
      | nul cs =>
        obtain ⟨g, e, hg, hb⟩ := Holds.get (c := 0) hf
        have := hf.buf
        obtain ⟨g1, e1, hg1, -⟩ := hg.unget (c := 0) (scalar_lt (by decide)) (by omega)
        refine ⟨g1, ?_, hg1⟩
        simp only [e, Res.bind_ok]
        rw [if_pos (by decide)]
        simp only [e1, Res.bind_ok]
        simp [blankText, enc]
      | wblank cs =>
        obtain ⟨g, e, hg, hb⟩ := Holds.get (c := '['.toNat) hf
        obtain ⟨g1, e1, hg1, hb1⟩ := hg.get
        have := hf.buf
        obtain ⟨g2, e2, hg2, hb2⟩ := hg1.unget (c := '['.toNat) (scalar_lt (by decide)) (by omega)
        obtain ⟨g3, e3, hg3, hb3⟩ := hg2.unget (c := '['.toNat) (scalar_lt (by decide)) (by omega)
        refine ⟨g3, ?_, hg3⟩
        simp only [e, Res.bind_ok]
        rw [if_neg (by decide), if_pos trivial]
        simp only [e1, Res.bind_ok]
        rw [if_pos trivial]
        simp only [e2, e3, Res.bind_ok]
        simp [blankText, enc]
    · rintro rfl
      obtain rfl := Holds.nil hf
      simp only [show Input.get ⟨[], false, []⟩ = .ok (uEOF, ⟨[], true, []⟩) from rfl, Res.bind_ok]
      rw [if_pos (by decide)]
      simp [Input.unget, ended, blankText, enc]
  | cons b bs ih =>
    intro turns ret f hin hf ht
    rw [List.length_cons] at ht
    obtain ⟨turns, rfl⟩ : ∃ k, turns = k + 1 := ⟨turns - 1, by omega⟩
    obtain ⟨hb, hnw⟩ := hin b (by simp)
    have hin' : ∀ u ∈ bs, u.WF ∧ u.isWb = false := fun u hu => hin u (by simp [hu])
    rw [blankText_cons, List.append_assoc] at hf
    rcases b with (c | c) | ts | ts
    · obtain ⟨h1, h2, h3, h4, h5, h6⟩ := hb
      obtain ⟨g, e, hg, -⟩ := Holds.get (c := c) hf
      have := ih turns (ret ++ utf16 c) g hin' hg (by omega)
      unfold readBlankLoop
      rw [if_pos hf.eof]
      simp only [e, Res.bind_ok]
      rw [if_neg (by simp only [not_or]; exact ⟨h2, h5, h6⟩), if_neg h3, if_neg h4]
      rw [show enc (blankText (.tok (.raw c) :: bs)) = utf16 c ++ enc (blankText bs) by
        simp [blankText, enc, BTok.text, Tok.text], ← List.append_assoc]
      exact this
    · obtain ⟨h1, h2⟩ := hb
      obtain ⟨g, e, hg, -⟩ := Holds.get (c := '\\'.toNat) hf
      obtain ⟨g1, e1, hg1⟩ := Holds.peek (c := c) hg
      obtain ⟨g2, e2, hg2, -⟩ := hg1.get
      have := ih turns (ret ++ utf16 '\\'.toNat ++ utf16 c) g2 hin' hg2 (by omega)
      unfold readBlankLoop
      rw [if_pos hf.eof]
      simp only [e, Res.bind_ok]
      rw [if_neg (by decide), if_neg (by decide), if_pos trivial, if_neg (by simp [hg.eof])]
      simp only [e1, Res.bind_ok]
      rw [if_neg h2]
      simp only [e2, Res.bind_ok]
      rw [show ret ++ enc (blankText (.tok (.esc c) :: bs)) = ret ++ utf16 '\\'.toNat ++ utf16 c ++ enc (blankText bs) by
        simp [blankText, enc, BTok.text, Tok.text]]
      exact this
    · obtain ⟨h1, h2⟩ := hb
      have hf0 := hf
      simp only [BTok.text, blockText, List.cons_append] at hf
      obtain ⟨g, e, hg, hb1⟩ := hf.get
      have hd : ∃ d rest, toksText ts ++ [']'.toNat] ++ (blankText bs ++ cs) = d :: rest ∧ d ≠ '['.toNat := by
        rcases ts with _ | ⟨(d | d), ts⟩
        · exact ⟨']'.toNat, _, rfl, by decide⟩
        · exact ⟨d, _, rfl, fun h => h2 (by rw [h]; rfl)⟩
        · exact ⟨'\\'.toNat, _, rfl, by decide⟩
      obtain ⟨d, rest, ed, hd⟩ := hd
      rw [ed] at hg
      obtain ⟨g1, e1, hg1, hb2⟩ := hg.get
      have := hf.buf
      obtain ⟨g2, e2, hg2, hb3⟩ := hg1.unget (hg.scalar d (by simp)) (by omega)
      rw [← ed, List.append_assoc] at hg2
      obtain ⟨g3, e3, hg3⟩ := readBlock_ok '['.toNat ']'.toNat (by decide) (by decide) (blankText bs ++ cs) ts g2 h1 hg2
      have := ih turns (ret ++ enc (BTok.text (.super ts))) g3 hin' hg3 (by omega)
      unfold readBlankLoop
      rw [if_pos hf0.eof]
      simp only [e, Res.bind_ok]
      rw [if_neg (by decide), if_pos trivial]
      simp only [e1, Res.bind_ok]
      rw [if_neg hd]
      simp only [e2, e3, Res.bind_ok]
      rw [show ret ++ enc (blankText (.super ts :: bs)) = ret ++ enc (BTok.text (.super ts)) ++ enc (blankText bs) by
        simp [blankText, enc]]
      exact this
    · cases hnw

end Verif.Stream
