import Verif.Sao.Odd
import Verif.Sao.Demo
import Verif.Proc.Few

/-! # Properties of the SAO mode -/

namespace Verif.Sao

open Verif.State Verif.Stream Verif.Input Verif.Proc

variable {W : Type}

section
variable [AddMonoid W] [LinearOrder W]
variable {σ : Setting W} {name : Int → UString}

/-- **C95** (partial: the text must end with something that is no letter and in no entry, and may have neither a beginning of an entry with other
characters than letters where no word is known, nor a space before a section in what starts like an entry) The text is divided into tokens by
longest match; for a known word its first analysis is written, unknown words are marked, and everything else is written as it is. -/
theorem C95_sao_partial (hr : Regular σ name) (hf : Few σ) (hpl : Plain σ name) {ps : List Piece} (hfit : Fit σ ps) :
    ∃ toks, Tokens σ name ps toks ∧ ∃ N, ∀ n ≥ N, sao σ n (bytes (ps.flatMap Piece.text)) = .ok (toks.flatMap Token.render) := by
  have hs := small_of_few hf hr.lowerZero
  obtain ⟨N, hN⟩ := enough_exists hr ps
  obtain ⟨toks, ht, -⟩ := whole_ok hr hs hpl (hN N le_rfl) hfit
  refine ⟨toks, tokens_of_are hr hs hpl hfit.ok ht, N, fun n hn => ?_⟩
  obtain ⟨toks', ht', e⟩ := whole_ok hr hs hpl (hN n hn) hfit
  rw [tokens_unique ht ht']
  exact e

example : Regular demo demoName ∧ Few demo ∧ Plain demo demoName ∧ Fit demo demoText := ⟨demo_regular, demo_few, plain, demo_fit⟩

/-- The output for the text of the example. -/
example : writes demo 100 (demoText.flatMap Piece.text) (units "Ab&n; <d>xyz</d> a c&n;. <![CDATA[q>w]]>ab&n;\\<AB&n; a cd <d>x</d>\n") = true := by
  decide +kernel

/-- **C95** Nothing is written for a text at the end of which an entry may go on: the last word of a file without a newline is lost. -/
theorem C95_last_word_lost (hr : Regular σ name) (hf : Few σ) (hpl : Plain σ name) {ps : List Piece} (hok : ∀ p ∈ ps, p.Ok) (hnc : ∀ cs, Piece.cdata cs ∉ ps)
    (hl : ps.length < 2047) (hlive : Live σ (vals ps)) : ∃ N, ∀ n ≥ N, sao σ n (bytes (ps.flatMap Piece.text)) = .ok [] :=
  lost hr (small_of_few hf hr.lowerZero) hpl hok hnc hl hlive

/-- The phrase `a c` of the dictionary. -/
example : (∀ p ∈ [Piece.ch 0x61, .ch 0x20, .ch 0x63], p.Ok) ∧ (∀ cs, Piece.cdata cs ∉ [Piece.ch 0x61, .ch 0x20, .ch 0x63]) ∧
    Live demo (vals [Piece.ch 0x61, .ch 0x20, .ch 0x63]) ∧ Entry demo (vals [Piece.ch 0x61, .ch 0x20, .ch 0x63]) := by
  refine ⟨?_, by simp, live_of_entry demo_phrase, demo_phrase⟩
  intro p hp
  simp only [List.mem_cons, List.not_mem_nil, or_false] at hp
  rcases hp with rfl | rfl | rfl <;> exact ⟨.inl (by decide), by decide, by decide⟩

/-- **C95** If a file consists of a letter that starts no entry, without a newline, the program does not end. -/
theorem C95_last_unknown_endless (hr : Regular σ name) (hf : Few σ) (hpl : Plain σ name) {p : Piece} (hok : p.Ok) (ha : σ.isAlphabetic (p.val : Int) = true)
    (hdead : ¬ Live σ [(p.val : Int)]) : ∃ N, ∀ n ≥ N, sao σ n (bytes p.text) = .ub :=
  endless hr (small_of_few hf hr.lowerZero) hpl hok ha hdead

/-- The letter `x`. -/
example : (Piece.ch 0x78).Ok ∧ demo.isAlphabetic ((Piece.ch 0x78).val : Int) = true ∧ ¬ Live demo [((Piece.ch 0x78).val : Int)] := by
  refine ⟨⟨.inl (by decide), by decide, by decide⟩, by decide, fun h => ?_⟩
  have := demo_start h
  simp [Piece.val] at this

/-- **C95** Whatever the dictionary is, the program does not end if a section is not closed. -/
theorem C95_open_section_endless (σ : Setting W) (n : Nat) : ∀ o, sao σ n (bytes (cps "<![CDATA[q")) ≠ .ok o := by
  intro o h
  have hstart : ∀ bs : List UInt8, ∃ a, start bs = .ok a ∧ a.inp = opened bs ∧ Buffer.isEmpty a.buf = true := fun bs => ⟨_, rfl, rfl, rfl⟩
  have hblock : ∃ t f, readBlock '<'.toNat '>'.toNat ⟨bytes (cps "![CDATA[q"), false, []⟩ = .ok (t, f) ∧ cdataStart.isPrefixOf t = true ∧ f.eof = true ∧
      cdataEnd.isSuffixOf t = false := by
    refine ⟨[0x3c, 0x21, 0x5b, 0x43, 0x44, 0x41, 0x54, 0x41, 0x5b, 0x71] ++ utf16 uEOF, ⟨[], true, []⟩, ?_, ?_, rfl, ?_⟩ <;> decide +kernel
  have hget : get (opened (bytes (cps "<![CDATA[q"))) = .ok (0x3c, ⟨bytes (cps "![CDATA[q"), false, []⟩) := by decide +kernel
  obtain ⟨t, f, h1, h2, h3, h4⟩ := hblock
  obtain ⟨a, ha, hin, hem⟩ := hstart (bytes (cps "<![CDATA[q"))
  have hread : readSAO n a = .ub := by
    unfold readSAO
    rw [hem, hin, hget]
    simp only [Bool.not_true, Bool.false_eq_true, if_false, Res.bind_ok]
    rw [if_pos (by decide), if_pos (by decide), h1, Res.bind_ok]
    simp only
    rw [if_pos h2, readCdata_eof t f h3 h4]
    rfl
  unfold sao at h
  rw [ha, Res.bind_ok, Res.bind_eq_ok] at h
  obtain ⟨init, -, h⟩ := h
  rw [Res.bind_eq_ok] at h
  obtain ⟨a', h, -⟩ := h
  cases n with
  | zero => cases h
  | succ k =>
    rw [loop, hread] at h
    cases h

/-- **C95** is false where something that is no word starts like an entry and has other characters than letters: `xy` is written twice. -/
theorem C95_written_twice_false : writes demo 60 (cps "a xy\n") (units "<d>a xy</d> <d>xy</d>\n") = true := by decide +kernel

/-- **C95** is false where there is a space before a section in what starts like an entry: they change places. -/
theorem C95_section_moved_false : writes demo 60 (cps "a <![CDATA[q>w]]>x\n") (units "<d>a </d><![CDATA[q>w]]> <d>x</d>\n") = true := by decide +kernel

/-- **C95** is false where an entry goes on behind a section: the section is written where the next space is, which is lost. -/
theorem C95_space_lost_false : writes demo 60 (cps "a<![CDATA[q>w]]>c \n") (units "a c&n;<![CDATA[q>w]]>\n") = true := by decide +kernel

end

end Verif.Sao
