import Verif.Proc.Final
import Verif.Proc.Few
import Verif.Proc.Demo

/-! # Properties of the analysis mode -/

namespace Verif.Proc

open Verif.State Verif.Stream Verif.Input

variable {W : Type}

section
variable [AddMonoid W] [LinearOrder W]
variable {σ : Setting W} {name : Int → UString}

/-- **C71** The analyser divides a text into tokens by longest match, and writes them one after the other, with all the analyses of each. -/
theorem C71_analysis (hr : Regular σ name) (hf : Few σ) (hpl : Plain σ) {ps : List Piece} (hfit : Fit σ ps) :
    ∃ toks, Tokens σ name ps toks ∧ ∃ N, ∀ n ≥ N, analysis σ n (bytes (ps.flatMap Piece.text)) = .ok (toks.flatMap Token.render) := by
  have hs := small_of_few hf hr.lowerZero
  obtain ⟨toks, ht⟩ := tokens_exist hr hs hpl hfit
  refine ⟨toks, tokens_of_are hr hs hfit.ok ht, ?_⟩
  obtain ⟨N, hN⟩ := enough_exists hr ps
  refine ⟨N, fun n hn => ?_⟩
  obtain ⟨a, e, ho⟩ := start_ok (σ := σ) [] ps (by simpa using text_scalar hfit.ok)
  rw [List.append_nil] at e
  obtain ⟨a', old', h1, h2, -⟩ := once_end hr hs hpl (hN n hn) hfit ht ho
  unfold analysis
  rw [e]
  simp only [Res.bind_ok, h1, h2.out, List.nil_append]

example : Regular demo demoName ∧ Few demo ∧ Plain demo ∧ Fit demo demoText := ⟨demo_regular, demo_few, demo_plain, demo_fit⟩

/-- The output is `^xy/*xy$ ^Ab/Ab<n>/Ac<v>$ ^a c/a c<n>$[b\\]]\\$[[t]]^a cd/a cd$  ^ABC/*ABC$` and a newline. -/
example : writes demo 500 (demoText.flatMap Piece.text)
    ("^xy/*xy$ ^Ab/Ab<n>/Ac<v>$ ^a c/a c<n>$[b\\]]\\$[[t]]^a cd/a cd$  ^ABC/*ABC$\n".toList.map fun c => UInt16.ofNat c.toNat) = true := by
  decide +kernel

/-- **C71** With null flushing, each of the texts between NULs is analysed as if it were alone, and a NUL is written after it. -/
theorem C71_flushing (hr : Regular σ name) (hf : Few σ) (hpl : Plain σ) (h0 : σ.useIgnored = true → 0 ∉ σ.ignored) (segs : List (List Piece)) (last : List Piece)
    (hfit : ∀ ps ∈ segs ++ [last], Fit σ ps) :
    ∃ tss, List.Forall₂ (Tokens σ name) (segs ++ [last]) tss ∧
      (∀ ps ts, (ps, ts) ∈ (segs ++ [last]).zip tss → ∃ N, ∀ n ≥ N, analysis σ n (bytes (ps.flatMap Piece.text)) = .ok (ts.flatMap Token.render)) ∧
      ∃ N, ∀ n ≥ N, analysisFlushing σ n (bytes (segs.flatMap (fun ps => ps.flatMap Piece.text ++ [0]) ++ last.flatMap Piece.text)) =
        .ok (tss.flatMap fun ts => ts.flatMap Token.render ++ [0]) := by
  have hs := small_of_few hf hr.lowerZero
  have hall : ∀ L : List (List Piece), (∀ ps ∈ L, Fit σ ps) → ∃ tss, List.Forall₂ (TokensAre hr) L tss := by
    intro L
    induction L with
    | nil => exact fun _ => ⟨[], .nil⟩
    | cons ps L ih =>
      intro h
      obtain ⟨ts, h1⟩ := tokens_exist hr hs hpl (h ps (by simp))
      obtain ⟨tss, h2⟩ := ih fun q hq => h q (by simp [hq])
      exact ⟨ts :: tss, .cons h1 h2⟩
  have hen : ∀ L : List (List Piece), ∃ N, ∀ n ≥ N, ∀ ps ∈ L, Enough hr n ps := by
    intro L
    induction L with
    | nil => exact ⟨0, by simp⟩
    | cons ps L ih =>
      obtain ⟨N1, h1⟩ := enough_exists hr ps
      obtain ⟨N2, h2⟩ := ih
      refine ⟨max N1 N2, fun n hn q hq => ?_⟩
      rcases List.mem_cons.1 hq with rfl | hq
      · exact h1 n (by omega)
      · exact h2 n (by omega) q hq
  obtain ⟨tss, h1⟩ := hall segs fun ps h => hfit ps (by simp [h])
  obtain ⟨ts, h2⟩ := tokens_exist hr hs hpl (hfit last (by simp))
  have h12 : List.Forall₂ (TokensAre hr) (segs ++ [last]) (tss ++ [ts]) := List.rel_append h1 (.cons h2 .nil)
  have hmem : ∀ p ∈ (segs ++ [last]).zip (tss ++ [ts]), p.1 ∈ segs ++ [last] ∧ TokensAre hr p.1 p.2 := by
    intro p hp
    obtain ⟨ps, ts'⟩ := p
    exact ⟨(List.of_mem_zip hp).1, (List.forall₂_iff_zip.1 h12).2 hp⟩
  refine ⟨tss ++ [ts], ?_, ?_, ?_⟩
  · rw [List.forall₂_iff_zip]
    refine ⟨h12.length_eq, fun {ps ts'} hp => ?_⟩
    obtain ⟨g1, g2⟩ := hmem _ hp
    exact tokens_of_are hr hs (hfit _ g1).ok g2
  · intro ps ts' hp
    obtain ⟨g1, g2⟩ := hmem _ hp
    have hfit' := hfit _ g1
    obtain ⟨N, hN⟩ := enough_exists hr ps
    refine ⟨N, fun n hn => ?_⟩
    obtain ⟨a, e, ho⟩ := start_ok (σ := σ) [] ps (by simpa using text_scalar hfit'.ok)
    rw [List.append_nil] at e
    obtain ⟨a', old', k1, k2, -⟩ := once_end hr hs hpl (hN n hn) hfit' g2 ho
    unfold analysis
    rw [e]
    simp only [Res.bind_ok, k1, k2.out, List.nil_append]
  · obtain ⟨N, hN⟩ := hen ([] :: (segs ++ [last]))
    refine ⟨max N (segs ++ [last]).length, fun n hn => ?_⟩
    have hN' := hN n (by omega)
    obtain ⟨first, tail, e3, e4⟩ : ∃ first tail, first = (segs ++ [last]).head (by simp) ∧
        segs.flatMap (fun ps => ps.flatMap Piece.text ++ [0]) ++ last.flatMap Piece.text = first.flatMap Piece.text ++ tail := by
      cases segs with
      | nil => exact ⟨last, [], rfl, by simp⟩
      | cons s segs => exact ⟨s, 0 :: (segs.flatMap (fun ps => ps.flatMap Piece.text ++ [0]) ++ last.flatMap Piece.text), rfl, by simp⟩
    have hsc : ∀ c ∈ segs.flatMap (fun ps => ps.flatMap Piece.text ++ [0]) ++ last.flatMap Piece.text, Scalar c := by
      intro c hc
      rcases List.mem_append.1 hc with hc | hc
      · obtain ⟨ps, hps, hc⟩ := List.mem_flatMap.1 hc
        rcases List.mem_append.1 hc with hc | hc
        · exact text_scalar (hfit ps (by simp [hps])).ok c hc
        · rw [List.mem_singleton.1 hc]
          exact .inl (by omega)
      · exact text_scalar (hfit last (by simp)).ok c hc
    rw [e4] at hsc ⊢
    obtain ⟨a, e, ho⟩ := start_ok (σ := σ) tail first hsc
    obtain ⟨a1, old1, k1, k2⟩ := flush_ok hr hs hpl h0 segs last tss ts n a [] [] first tail (by omega)
      (fun ps hp => ⟨hN' ps (List.mem_cons_of_mem _ hp), hfit ps hp⟩) h1 h2 e4.symm e3 ho
    obtain ⟨a2, g1, g2⟩ := once_spent hr hs hpl (hN' [] (by simp)) k2
    unfold analysisFlushing
    rw [e]
    simp only [Res.bind_ok, k1, g1, g2, List.nil_append]

example : ∀ ps ∈ [demoText, []] ++ [demoText], Fit demo ps := by
  intro ps h
  simp only [List.cons_append, List.nil_append, List.mem_cons, List.not_mem_nil, or_false] at h
  rcases h with rfl | rfl | rfl
  · exact demo_fit
  · exact ⟨by simp, fun qs p e => by simp at e, fun us ys zs q ws e => by simp at e⟩
  · exact demo_fit

example : (demo.useIgnored = true → 0 ∉ demo.ignored) := by decide

/-- **C71** There is only one way to divide a text into tokens, and nothing of the text is left out. -/
theorem C71_unique {ps : List Piece} {ts1 ts2 : List Token} (h1 : Tokens σ name ps ts1) (h2 : Tokens σ name ps ts2) :
    ts1.map Token.bare = ts2.map Token.bare ∧ ts1.flatMap Token.pieces = ps := by
  have hne : ∀ {t : Token} {r : List Piece}, Next σ name t r → t.pieces ≠ [] := by
    intro t r h
    unfold Next at h
    cases t with
    | word b a p l =>
      intro e
      have : p = [] := e
      subst this
      exact h.1.1 rfl
    | lowered p l => exact h.2.1.1
    | unknown p => exact h.2.1.1
    | char p => exact List.cons_ne_nil _ _
  induction h1 generalizing ts2 with
  | nil =>
    generalize he : ([] : List Piece) = qs at h2
    cases h2 with
    | nil => exact ⟨rfl, rfl⟩
    | cons h _ => exact absurd (List.append_eq_nil_iff.1 he.symm).1 (hne h)
  | cons h hs ih =>
    rename_i tok rest toks
    generalize he : tok.pieces ++ rest = qs at h2
    cases h2 with
    | nil => exact absurd (List.append_eq_nil_iff.1 he).1 (hne h)
    | cons h' hs' =>
      obtain ⟨e1, rfl⟩ := shape_unique (shape_of_next h) (shape_of_next h') he
      obtain ⟨e2, e3⟩ := ih hs'
      exact ⟨by simp [e1, e2], by simp [e3, he]⟩

example : ∃ toks, Tokens demo demoName demoText toks :=
  let ⟨toks, h, _⟩ := C71_analysis demo_regular demo_few demo_plain demo_fit
  ⟨toks, h⟩

end

/-! ## What goes wrong outside these conditions -/

/-- **C71** Without the condition on the end of the text, a part of the text may be lost: for `a ca`, nothing is written for `ca`, whatever the letters. -/
theorem C71_end_false : writes demo 300 [0x61, 0x20, 0x63, 0x61] [0x5e, 0x61, 0x2f, 0x2a, 0x61, 0x24, 0x20] = true ∧
    writes demo 300 [0x61, 0x20, 0x63, 0x7a, 0x7a] [0x5e, 0x61, 0x2f, 0x2a, 0x61, 0x24, 0x20] = true := by
  decide +kernel

/-- **C71** A tag that the dictionary does not know ends the analysis: after `<x>`, nothing is written for the word `ab`. -/
theorem C71_tag_false : writes demo 300 [0x3c, 0x78, 0x3e, 0x61, 0x62, 0x0a] [] = true ∧
    writes demo 300 [0x61, 0x62, 0x0a] ("^ab/ab<n>/ac<v>$\n".toList.map fun c => UInt16.ofNat c.toNat) = true := by
  decide +kernel

/-- **C71** An ignored character at the end of the file makes U+FFFF appear in the output. -/
theorem C71_ignored_false : writes demo 300 [0x2c, 0xad] [0x2c, 0xffff] = true := by decide +kernel

/-- **C71** If entries have other spaces inside, a space may be replaced by another one: U+00A0 by a space. -/
theorem C71_space_false : writes demoOdd 300 [0x61, 0xa0, 0x20, 0x2c, 0x0a] [0x5e, 0x61, 0x2f, 0x2a, 0x61, 0x24, 0x20, 0x20, 0x2c, 0x0a] = true := by
  decide +kernel

/-- **C71** If an entry starts with a character outside the first plane that is no letter, half of a surrogate pair may be written: U+1F600 is D83D DE00. -/
theorem C71_pair_false : writes demoOdd 300 [0x1f600, 0x2c, 0x0a] [0xd83d, 0x2c, 0x0a] = true := by decide +kernel

end Verif.Proc
