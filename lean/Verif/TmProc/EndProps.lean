import Verif.TmProc.End
import Verif.TmProc.Props
import Verif.Tmx.Demo

/-! # C93: a translation memory from its units to the translated text -/

namespace Verif.TmProc

open Verif.Fst Verif.State Verif.Stream Verif.Walk
open Verif.Input (bytes)
open Verif.Tmx (Remembers Tuv reference)
open Verif.Compression (Dbl)
open Verif.Tools (Kept)

variable {W V : Type} [AddCommMonoid W] [LinearOrder W] [AddCommMonoid V] [LinearOrder V]

/-- **C93** A memory that `lt-tmxcomp` has written and `lt-tmxproc` applies to a text: sources of units are replaced by the targets of the units with the numbers and
blanks of the text, and all else is copied. Not covered are memories in which a source begins with a space or goes on after another source (see `C93_refused`
and `C92_longer_false`), sources with more than one target, and texts that end within a source (see `C92_end_false`). -/
theorem C93_text_partial {tc : Tmx.Chars} (g : V → Dbl) (hg : ∀ w, Kept (g w)) {lo lm : UString} (hl : lo ≠ lm) (us : List (List Tuv))
    (hu : ∀ vs ∈ us, Tmx.Proper tc lo lm vs) (hf : Tmx.Fits (Tmx.parse tc V lo lm us)) (v : Dbl → W) {ch : Chars} {sp : Bool} (ht : Tables ch)
    (hn : Neat ch sp (Remembers tc lo lm us)) (ha : Tmx.Ascii ⟨ch.isSpace, ch.isDigit⟩) :
    ∃ bs, Tmx.ltTmxcomp tc g lo lm us = .ok bs ∧ ∀ (ps : List (List Token)) (outs : List UString), ps ≠ [] → (∀ p ∈ ps, ∀ t ∈ p, t.Ok (bare ch sp)) → (∀ p ∈ ps, Apart p) →
      List.Forall₂ (Tells ch sp (Remembers tc lo lm us)) ps outs →
      ∃ N, ∀ n ≥ N, ltTmxproc v ch sp n bs (bytes ([0].intercalate (ps.map textOf))) = .ok (outs.flatMap (· ++ [0])) := by
  obtain ⟨bs, Q, h1, hq, h2⟩ := memory_loaded (W := W) g hg hl us hu hf
  refine ⟨bs, h1, ?_⟩
  intro ps outs hne hok hap hps
  obtain ⟨τ, k1, k2, k3, k4, k5, k6, k7⟩ := h2 v ch sp
  obtain ⟨b, N, j1, j2⟩ := valid_memory k7 hq k5 k6 remembers_long
  have hb : b = true := j2.2 fun o m h => by
    have := hn.start _ _ _ h
    rw [ht.space] at this
    cases this
  have hr : Regular τ := by
    subst k2
    exact ⟨k4, ht.digits, ht.notDigit, ht.nul, ht.space, ht.tag, ht.lowerZero, k5, k6⟩
  have hs := simple_neat k7 hq k2 k3 ht hn remembers_long
  have hok' : ∀ p ∈ ps, ∀ t ∈ p, t.Ok τ := by
    intro p hp t ht
    have := hok p hp t ht
    subst k2
    cases t <;> exact this
  obtain ⟨M, i1⟩ := C92_text_partial hr hs (by subst k2; exact ha) hne hok' hap (hps.imp fun p o h => tells_says k7 hq k2 k3 remembers_long h)
  refine ⟨max N M, fun n hn => ?_⟩
  unfold ltTmxproc
  rw [k1, Res.bind_ok, j1 n (by omega), Res.bind_ok, hb, if_pos rfl]
  exact i1 n (by omega)

/-- **C93** `lt-tmxproc` refuses a memory if and only if one of its sources begins with a space: one such unit makes all of the memory unusable. -/
theorem C93_refused {tc : Tmx.Chars} (g : V → Dbl) (hg : ∀ w, Kept (g w)) {lo lm : UString} (hl : lo ≠ lm) (us : List (List Tuv))
    (hu : ∀ vs ∈ us, Tmx.Proper tc lo lm vs) (hf : Tmx.Fits (Tmx.parse tc V lo lm us)) (v : Dbl → W) (ch : Chars) (sp : Bool) :
    ∃ bs τ N, Tmx.ltTmxcomp tc g lo lm us = .ok bs ∧ loadTM v ch sp bs = .ok τ ∧ ∀ n ≥ N, ∀ text,
      (((∃ o m, Remembers tc lo lm us (0x20 :: o) m) → ltTmxproc v ch sp n bs text = .exit) ∧
        ((¬ ∃ o m, Remembers tc lo lm us (0x20 :: o) m) → ltTmxproc v ch sp n bs text = tmAnalysis τ n text)) := by
  obtain ⟨bs, Q, h1, hq, h2⟩ := memory_loaded (W := W) g hg hl us hu hf
  obtain ⟨τ, k1, k2, k3, k4, k5, k6, k7⟩ := h2 v ch sp
  obtain ⟨b, N, j1, j2⟩ := valid_memory k7 hq k5 k6 remembers_long
  refine ⟨bs, τ, N, h1, k1, fun n hn text => ⟨?_, ?_⟩⟩
  · rintro ⟨o, m, hm⟩
    have hb : b = false := by
      cases b with
      | false => rfl
      | true => exact absurd hm (j2.1 rfl o m)
    unfold ltTmxproc
    rw [k1, Res.bind_ok, j1 n hn, Res.bind_ok, hb, if_neg (by simp)]
  · intro hno
    have hb : b = true := j2.2 fun o m h => hno ⟨o, m, h⟩
    unfold ltTmxproc
    rw [k1, Res.bind_ok, j1 n hn, Res.bind_ok, hb, if_pos rfl]

/-! ## An example -/

/-- `ab <n>c` -/
def unitSource : List Int := [0x61, 0x62, 0x20, -1, 0x63]
/-- `@(1) x,@(1)` -/
def unitTarget : List Int := reference 1 ++ [0x20, 0x78, 0x2c] ++ reference 1

theorem memory_units (o m : List Int) : Remembers Tmx.ascii Tmx.en Tmx.es Tmx.memory o m ↔ o = unitSource ∧ m = unitTarget := by
  constructor
  · rintro ⟨vs, h1, h2, h3, h4⟩
    rw [Tmx.normal_iff ((Tmx.memory_proper vs h1).2.2 _ (Tmx.trimmed_iff.2 rfl))] at h2
    obtain ⟨o2, m2, h5, h6⟩ := h2
    simp only [Tmx.memory, List.mem_cons, List.not_mem_nil, or_false] at h1
    rcases h1 with rfl | rfl
    · have : Tmx.align Tmx.ascii (Tmx.trim Tmx.ascii (Tmx.texts Tmx.en [(Tmx.en, [0x20, 0x61, 0x62, -2]), (Tmx.es, Tmx.tgt), (Tmx.en, [0x20, 0x31, 0x32, 0x63])]))
          (Tmx.trim Tmx.ascii (Tmx.texts Tmx.es [(Tmx.en, [0x20, 0x61, 0x62, -2]), (Tmx.es, Tmx.tgt), (Tmx.en, [0x20, 0x31, 0x32, 0x63])])) =
          .ok ([0x61, 0x62, -2, 0x20, -1, 0x63], unitTarget) := by decide +kernel
      rw [this] at h5
      cases h5
      have : Tmx.alignBlanks Tmx.ascii [0x61, 0x62, -2, 0x20, -1, 0x63] unitTarget = (unitSource, unitTarget) := by decide +kernel
      rw [this] at h6
      cases h6
      exact ⟨rfl, rfl⟩
    · exfalso
      have : Tmx.align Tmx.ascii (Tmx.trim Tmx.ascii (Tmx.texts Tmx.en [(Tmx.en, Tmx.src), (Tmx.es, [0x61])]))
          (Tmx.trim Tmx.ascii (Tmx.texts Tmx.es [(Tmx.en, Tmx.src), (Tmx.es, [0x61])])) = .ok ([0x61, 0x62, 0x20, -1], [0x61]) := by decide +kernel
      rw [this] at h5
      cases h5
      have : Tmx.alignBlanks Tmx.ascii [0x61, 0x62, 0x20, -1] [0x61] = ([0x61, 0x62, 0x20, -1], [0x61]) := by decide +kernel
      rw [this] at h6
      cases h6
      simp at h4
  · rintro ⟨rfl, rfl⟩
    refine ⟨_, List.mem_cons_self .., ?_, by decide, by decide⟩
    rw [Tmx.normal_iff (Tmx.few_short (by decide +kernel))]
    exact ⟨[0x61, 0x62, -2, 0x20, -1, 0x63], unitTarget, by decide +kernel, by decide +kernel⟩

theorem demo_tables : Tables demoChars where
  digits d h1 h2 := by simp [demoChars]; omega
  notDigit := by decide
  nul := by decide
  space := by decide
  notUpper c h := by
    simp only [demoChars, decide_eq_true_eq] at h
    rcases h with rfl | rfl <;> decide
  tag := by decide
  lowerZero c h := by
    simp only [demoChars] at h
    split at h <;> omega

theorem demo_sees {x z : Int} (h : Sees demoChars x z) : z = x ∨ (0x41 ≤ x ∧ x ≤ 0x5a ∧ z = x + 32) := by
  obtain ⟨-, h | ⟨h1, h2⟩⟩ := h
  · exact .inl h
  · have h1' : 0x41 ≤ x ∧ x ≤ 0x5a := by simpa [demoChars] using h1
    exact .inr ⟨h1'.1, h1'.2, by simpa [demoChars, h1'] using h2⟩

theorem memory_neat : Neat demoChars false (Remembers Tmx.ascii Tmx.en Tmx.es Tmx.memory) where
  start x o m h := by
    obtain ⟨h, -⟩ := (memory_units _ _).1 h
    cases h
    decide
  longer xs x o m h _ hb := by
    obtain ⟨h1, -⟩ := (memory_units _ _).1 h.1
    rcases hb with h | ⟨o', m', h2, o1, h3, h4⟩
    · simp at h
    · obtain ⟨h2, -⟩ := (memory_units _ _).1 h2
      have e1 := h.2.length_eq
      have e2 := h4.length_eq
      have e3 := h3.length_le
      subst h1
      subst h2
      simp only [List.length_append, List.length_cons, List.length_nil] at e2
      omega

/-- `Ab 7c. q` -/
def endText : List Token := [.ch 0x41, .ch 0x62, .ch 0x20, .num [0x37], .ch 0x63] ++ .ch 0x2e :: [.ch 0x20, .ch 0x71]

/-- No unit begins with this symbol. -/
theorem memory_begun {x : Int} {xs : List Int} (h : Begun demoChars (Remembers Tmx.ascii Tmx.en Tmx.es Tmx.memory) (x :: xs)) : x = 0x61 ∨ x = 0x41 := by
  rcases h with h | ⟨o, m, h1, o1, h2, h3⟩
  · cases h
  · obtain ⟨rfl, -⟩ := (memory_units _ _).1 h1
    cases h3 with
    | @cons _ z _ o' h4 h5 =>
      obtain ⟨r, h2⟩ := h2
      simp only [unitSource, List.cons_append, List.cons.injEq] at h2
      obtain ⟨rfl, -⟩ := h2
      rcases demo_sees h4 with h | ⟨-, -, h⟩ <;> omega

theorem end_tells : Tells demoChars false (Remembers Tmx.ascii Tmx.en Tmx.es Tmx.memory) endText
    (0x5b :: [0x37, 0x20, 0x78, 0x2c, 0x37] ++ [0x5d] ++ (([0x2e] : UString) ++ (([0x20] : UString) ++ [0x71]))) := by
  have hf : Found demoChars (Remembers Tmx.ascii Tmx.en Tmx.es Tmx.memory) [0x41, 0x62, 0x20, -1, 0x63] unitSource unitTarget := by
    refine ⟨(memory_units _ _).2 ⟨rfl, rfl⟩, ?_⟩
    refine .cons ⟨by decide, .inr (by decide)⟩ (.cons ⟨by decide, .inl rfl⟩ (.cons ⟨by decide, .inl rfl⟩ (.cons ⟨by decide, .inl rfl⟩ (.cons ⟨by decide, .inl rfl⟩ .nil))))
  refine .segment (o := unitSource) (m := unitTarget) hf ?_ (.inl (by decide)) ?_ ?_ (by decide) (by decide) ?_
  · rintro o' m' ⟨h, -⟩
    exact (memory_units _ _).1 h
  · exact memory_neat.longer _ 0x2e _ _ hf (.inl (by decide))
  · have ho : Tmx.Open 0x20 ∧ Tmx.Open 0x78 ∧ Tmx.Open 0x2c := by unfold Tmx.Open; decide
    exact .ref (k := 0) (n := [0x37]) rfl (by decide) (.sym ho.1 (.sym ho.2.1 (.sym ho.2.2 (.ref (k := 0) (n := [0x37]) (m := []) rfl (by decide) .nil))))
  · refine .gap (.inr (by decide)) (fun h => ?_) (.gap (.inl (by decide)) (fun h => ?_) (.final (pre := []) (w := .ch 0x71) (ws := []) (.inl rfl) (fun h => ?_) ?_ rfl rfl))
    · rcases memory_begun h with h | h <;> cases h
    · rcases memory_begun h with h | h <;> cases h
    · rcases memory_begun h with h | h <;> cases h
    · intro x hx
      rw [List.mem_singleton.1 hx]
      rintro (h | h) <;> exact absurd h (by decide)

-- the memory of `Verif.Tmx.memory` and the text `Ab 7c. q`: `[7 x,7]. q` is written
example : ∃ bs, Tmx.ltTmxcomp Tmx.ascii (fun _ : Nat => (0 : Dbl)) Tmx.en Tmx.es Tmx.memory = .ok bs ∧ ∃ N, ∀ n ≥ N,
    ltTmxproc (fun _ => (0 : Nat)) demoChars false n bs (bytes (textOf endText)) = .ok [0x5b, 0x37, 0x20, 0x78, 0x2c, 0x37, 0x5d, 0x2e, 0x20, 0x71, 0] := by
  obtain ⟨bs, h1, h2⟩ := C93_text_partial (V := Nat) (W := Nat) (tc := Tmx.ascii) (fun _ => (0 : Dbl)) Trim.kept_demo (lo := Tmx.en) (lm := Tmx.es) (by decide) Tmx.memory
    Tmx.memory_proper (Tmx.fits_of_check (by decide +kernel)) (fun _ => 0) demo_tables memory_neat (by
      intro d hd
      simp [demoChars]
      omega)
  refine ⟨bs, h1, ?_⟩
  have := h2 [endText] _ (by simp) ?_ ?_ (.cons end_tells .nil)
  · simpa using this
  · intro p hp t ht
    rw [List.mem_singleton.1 hp] at ht
    simp only [endText, List.cons_append, List.nil_append, List.mem_cons, List.not_mem_nil, or_false] at ht
    have hch : ∀ c : Nat, c ∈ [0x41, 0x62, 0x20, 0x63, 0x2e, 0x71] → (Token.ch c).Ok (bare demoChars false) := by
      intro c hc
      simp only [List.mem_cons, List.not_mem_nil, or_false] at hc
      rcases hc with rfl | rfl | rfl | rfl | rfl | rfl <;> exact ⟨scalar_ascii (by decide), by decide, by decide, by decide⟩
    have hnum : (Token.num [0x37]).Ok (bare demoChars false) := by
      refine ⟨⟨_, _, rfl, by decide, by decide⟩, ?_⟩
      intro d hd
      rw [List.mem_singleton.1 hd]
      exact ⟨scalar_ascii (by decide), by decide⟩
    rcases ht with rfl | rfl | rfl | rfl | rfl | rfl | rfl | rfl <;> first | exact hnum | exact hch _ (by decide)
  · intro p hp
    rw [List.mem_singleton.1 hp]
    exact apart_of rfl

/-! ## Where the full claim fails -/

/-- The memory above with one more unit, in which a mark stands before a space. -/
def spoilt : List (List Tuv) := [(Tmx.en, [-2, 0x20, 0x61, 0x62, 0x63, 0x64]), (Tmx.es, [0x61, 0x62, 0x63, 0x64, 0x65])] :: Tmx.memory

theorem spoilt_proper : ∀ vs ∈ spoilt, Tmx.Proper Tmx.ascii Tmx.en Tmx.es vs := by
  intro vs hv
  rcases List.mem_cons.1 hv with rfl | hv
  · refine ⟨?_, ?_, ?_⟩
    · unfold Tmx.Char; decide
    · unfold Tmx.Char; decide
    · rintro o ⟨a, b, h, -⟩
      apply Tmx.few_short
      have := congrArg List.length h
      simp [Tmx.texts, Tmx.en, Tmx.es] at this
      omega
  · exact Tmx.memory_proper vs hv

/-- **C93**, refuted for memories in which the source of a unit starts with a mark and a space: the compiler takes the space for the beginning of the source, and
`lt-tmxproc` refuses all of the memory, whatever the text. -/
theorem C93_spoilt_false : ∃ bs N, Tmx.ltTmxcomp Tmx.ascii (fun _ : Nat => (0 : Dbl)) Tmx.en Tmx.es spoilt = .ok bs ∧
    ∀ n ≥ N, ∀ text, ltTmxproc (fun _ => (0 : Nat)) demoChars false n bs text = .exit := by
  obtain ⟨bs, τ, N, h1, -, h3⟩ := C93_refused (V := Nat) (W := Nat) (tc := Tmx.ascii) (fun _ => (0 : Dbl)) Trim.kept_demo (lo := Tmx.en) (lm := Tmx.es) (by decide) spoilt
    spoilt_proper (Tmx.fits_of_check (by decide +kernel)) (fun _ => 0) demoChars false
  refine ⟨bs, N, h1, fun n hn text => (h3 n hn text).1 ⟨[0x61, 0x62, 0x63, 0x64], [0x61, 0x62, 0x63, 0x64, 0x65], _, List.mem_cons_self .., ?_, by decide, by decide⟩⟩
  rw [Tmx.normal_iff (Tmx.few_short (by decide +kernel))]
  exact ⟨[-2, 0x20, 0x61, 0x62, 0x63, 0x64], [0x61, 0x62, 0x63, 0x64, 0x65], by decide +kernel, by decide +kernel⟩

end Verif.TmProc
