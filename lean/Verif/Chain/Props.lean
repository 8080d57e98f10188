import Verif.Chain.Demo

/-! # C78: from a dictionary to the analysis of a text -/

namespace Verif.Chain

open Verif.Fst (Transducer)
open Verif.Compiler (Settings File)
open Verif.Compression (Dbl)
open Verif.Load (bare)

variable {N V W : Type} [LinearOrder N] [AddMonoid V] [LinearOrder V]

section
variable {s : Settings} {f : File N V} {closed : N → Bool} {A : Alphabet} {secs : List (UString × Transducer V)} {g : V → Dbl} {isSpace : UInt16 → Bool} {text : UString}

theorem ltComp_ok (hp : Compiler.parse s f.nodes = .ok (A, secs)) {bs : List UInt8} (hw : BinIO.writeSet (lettersOf isSpace text) A (storedAll g secs) = .ok bs) :
    ltComp g isSpace s text f.nodes = .ok bs := by
  unfold ltComp
  rw [hp, Res.bind_ok]
  exact hw

theorem alike_loaded [AddMonoid W] [LinearOrder W] {v : Dbl → W} {o : Proc.Setting W} {ts : List (UString × Transducer Dbl)} {letters : UString} (h : Load.Fits letters A ts)
    (hk : ∀ e ∈ ts, ∃ κ, Load.HasKind e.1 κ) {bs : List UInt8} (hb : BinIO.writeSet letters A ts = .ok bs) {σ : Proc.Setting W} (hσ : Load.loadAnalysis v o bs = .ok σ) :
    Alike σ (bare o letters) := by
  obtain ⟨bs', es, ds, σ', h1, h2, h3, h4, h5, ls, h6, h7⟩ := Load.load_ok v o h hk
  rw [hb] at h1
  cases h1
  rw [hσ] at h2
  cases h2
  refine ⟨by rw [h7]; rfl, fun c => ?_, by rw [h7]; rfl, by rw [h7]; rfl, by rw [h7]; rfl, by rw [h7]; rfl, by rw [h7]; rfl⟩
  unfold Proc.Setting.isAlphabetic
  have e1 : σ.chars = (bare o letters).chars := by rw [h7]; rfl
  rw [e1]
  congr 1
  rw [Bool.eq_iff_iff, List.contains_iff_mem, List.contains_iff_mem, h7]
  simp only [bare, List.mem_map, h6]

/-- **C78** From a dictionary to the analysis of a text: `lt-comp` compiles it, and `lt-proc -a`, with the file that it writes, divides the text by longest match in the
entries of the dictionary and lists for each word the analyses that the dictionary has for it. -/
theorem C78_analysis [AddMonoid W] [LinearOrder W] (v : Dbl → W) (o : Proc.Setting W) (hreg : Compiler.Regular s f closed)
    (hp : Compiler.parse s f.nodes = .ok (A, secs)) (hs : Small g (lettersOf isSpace text) A secs) (ht : Tame (bare o (lettersOf isSpace text)) s f)
    (hr : Proc.Regular (bare o (lettersOf isSpace text)) (tagName f)) :
    ∃ bs σ, ltComp g isSpace s text f.nodes = .ok bs ∧ Load.loadAnalysis v o bs = .ok σ ∧
      ∀ ps, Proc.Few σ → Fit (lexicon (bare o (lettersOf isSpace text)) (tagName f) s f) (bare o (lettersOf isSpace text)) ps →
        ∃ toks, Tokens (lexicon (bare o (lettersOf isSpace text)) (tagName f) s f) (bare o (lettersOf isSpace text)) ps toks ∧
          ∃ n0, ∀ n ≥ n0, Load.ltProcAnalysis v o n bs (Input.bytes (ps.flatMap Proc.Piece.text)) = .ok (toks.flatMap Proc.Token.render) := by
  have hc := compiled hreg hp
  have hfits := hc.fits hs
  have hkinds := hc.kinds g ht
  obtain ⟨bs, σ, h1, h2, h3, h4, h5⟩ := Load.C77_load v o hfits hkinds
  obtain ⟨bs', σ', k1, k2, k3⟩ := Load.C77_analysis v o hfits hkinds (hc.noLoop g) (hc.named g ht) hr
  rw [h1] at k1
  cases k1
  rw [h2] at k2
  cases k2
  have hal := alike_loaded hfits hkinds h1 h2
  have hreg' := Load.start_regular v o hfits hkinds (hc.noLoop g) (hc.named g ht) hr h1 h2
  have hsame := hc.same g v (name := tagName f) hal ht.kinds h3 h4 h5
  have hplain := Compiled.plain hreg hp hreg' hal hsame ht
  refine ⟨bs, σ, ltComp_ok hp h1, h2, fun ps hf hfit => ?_⟩
  obtain ⟨toks, k4, k5⟩ := k3 hf hplain (same_fit hsame hal hfit)
  exact ⟨toks, same_tokens hsame hal hreg' hf k4 fun p hp => (alike_ok hal p).2 (hfit.ok p hp), k5⟩

/-- **C78** In the compiled dictionary the first tag of the dictionary has the number −1, the second −2, and so on. -/
theorem C78_tags (hreg : Compiler.Regular s f closed) (hp : Compiler.parse s f.nodes = .ok (A, secs)) (hn : f.tags.Nodup) (i : Nat) (hi : i < f.tags.length) :
    A.tagText (-(i : Int) - 1) = .ok (0x3c :: f.tags[i] ++ [0x3e]) := by
  rw [tagText_of hn (compiled hreg hp).tags (by omega) (by omega)]
  unfold tagName
  rw [show (-(-(i : Int) - 1) - 1).toNat = i by omega, List.getElem?_eq_getElem hi]
  rfl

/-- **C78** The letters of the file are those of the text of `<alphabet>` if something in that text is no blank, and none if everything in it is. -/
theorem C78_letters (hreg : Compiler.Regular s f closed) (hp : Compiler.parse s f.nodes = .ok (A, secs)) (hs : Small g (lettersOf isSpace text) A secs) :
    ∃ bs ls ts, ltComp g isSpace s text f.nodes = .ok bs ∧ BinIO.readSet bs = .ok ((ls, A, ts), []) ∧ ls.Pairwise (· < ·) ∧
      ∀ c, c ∈ ls ↔ (∃ u ∈ text, isSpace u = false) ∧ c ∈ Compression.vec32 text := by
  have hfits := (compiled hreg hp).fits hs
  obtain ⟨bs, ls, h1, h2, h3, h4⟩ := BinIO.set_roundtrip _ A _ hfits.letters hfits.alphabet hfits.writable hfits.sections
  refine ⟨bs, ls, _, ltComp_ok hp h1, by simpa using h4.1 [], h2, fun c => (h3 c).trans ?_⟩
  unfold lettersOf
  by_cases h : ∀ u ∈ text, isSpace u = true
  · rw [if_pos (List.all_eq_true.2 h)]
    constructor
    · intro hc; cases hc
    · rintro ⟨⟨u, hu, hb⟩, -⟩
      rw [h u hu] at hb; cases hb
  · rw [if_neg (fun h' => h (List.all_eq_true.1 h'))]
    have : ∃ u ∈ text, isSpace u = false := by
      by_contra hn
      exact h fun u hu => by
        by_contra hb
        exact hn ⟨u, hu, by simpa using hb⟩
    exact ⟨fun hc => ⟨this, hc⟩, And.right⟩

example : (∃ u ∈ ([0x61, 0x20] : UString), (fun u : UInt16 => u == 0x20) u = false) ∧ Compression.vec32 [0x61, 0x20] = [0x61, 0x20] := by decide

/-- **C78** What is no dictionary for the analyser: an entry that reads nothing stops `lt-comp`. -/
theorem C78_empty (hreg : Compiler.Regular s f closed) {k : UString} {y : List Int} (h : Says s f k [] y) : ltComp g isSpace s text f.nodes = .exit := by
  unfold ltComp
  rw [Compiler.C69_refused_empty s f closed hreg k _ _ h (by rw [Compiler.sides_sides])]
  rfl

end

/-! ## Examples -/

/-- All the conditions of `C78_analysis` are met by a dictionary with a paradigm and two sections and by a text. -/
example : Compiler.Regular {} demoFile (fun _ => true) ∧ Compiler.parse {} demoFile.nodes = .ok (demoAlpha, demoSecs) ∧ Small (fun _ => 0) [] demoAlpha demoSecs ∧
    Tame (bare Proc.demo []) {} demoFile ∧ Proc.Regular (bare Proc.demo []) (tagName demoFile) ∧ ltComp (fun _ => 0) (fun _ => false) {} [] demoFile.nodes = .ok demoBytes ∧
    (∀ σ, Load.loadAnalysis (fun _ => 0) Proc.demo demoBytes = .ok σ → Proc.Few σ) ∧ Fit (lexicon (bare Proc.demo []) (tagName demoFile) {} demoFile) (bare Proc.demo []) demoText :=
  ⟨demoFile_regular, demo_parse, demo_small, demo_tame, bare_regular Load.demo_bare, by decide +kernel, fun _ h => demo_few h, demo_fit⟩

/-- What is written for the text. -/
def demoOut (out : String) : Bool :=
  match Load.ltProcAnalysis (fun _ => 0) Proc.demo 300 demoBytes (Input.bytes (demoText.flatMap Proc.Piece.text)) with
  | .ok o => decide (o = out.toList.map fun c => UInt16.ofNat c.toNat)
  | _ => false

example : demoOut "^Abs/Ab<n><v>$^./.<v>$ ^ab/ab<n>$ ^abc/*abc$ ^b/*b$^./.<v>$\n" = true := by decide +kernel

/-- The condition of `C78_empty` is met. -/
example : Compiler.Regular {} (Compiler.oneSection [[.text [0x61] [0x62]], [.text [] [0x63]]]) (fun _ => true) ∧
    Says {} (Compiler.oneSection [[.text [0x61] [0x62]], [.text [] [0x63]]]) [109] [] [0x63] := by
  refine ⟨Compiler.oneSection_regular _ rfl _ ?_, Compiler.oneSection_gives.2 ⟨rfl, [.text [] [0x63]], by simp, .text .nil⟩⟩
  intro es hes
  simp only [List.mem_cons, List.not_mem_nil, or_false] at hes
  rcases hes with rfl | rfl <;> simp [Compiler.Fits, Compiler.FitsText]

end Verif.Chain
