import Verif.Chain.FormDemo
import Verif.Chain.Props
import Verif.Gen.Props

/-! # C79: from a dictionary to the forms of lexical units, and back -/

namespace Verif.Chain.Forms

open Verif.Fst (Transducer)
open Verif.Compiler (Settings File)
open Verif.Compression (Dbl)
open Verif.Load (bare bareGen)
open Verif.Gen (Setting Mode way formed slashed)
open Verif.Stream

variable {N V W : Type} [LinearOrder N] [AddMonoid V] [LinearOrder V]

section
variable {s : Settings} {f : File N V} {closed : N → Bool} {A : Alphabet} {secs : List (UString × Transducer V)} {g : V → Dbl} {isSpace : UInt16 → Bool} {text : UString}

/-- What is known about a loaded file. -/
theorem loaded [AddMonoid W] [LinearOrder W] {v : Dbl → W} {o σ : Setting W} {bs : List UInt8} {letters : UString} {a : Alphabet} {ts : List (UString × Transducer Dbl)}
    (h : Load.Fits letters a ts) (hw : BinIO.writeSet letters a ts = .ok bs) (hl : Load.loadGeneration v o bs = .ok σ) :
    Alike σ o ∧ σ.alphabet = a.includeSymbol Load.ANY_CHAR := by
  obtain ⟨bs', ls, es, h1, h2, h3, h4⟩ := Load.loaded_file h
  rw [hw] at h1
  cases h1
  have h9 := h4 []
  rw [List.append_nil] at h9
  unfold Load.loadGeneration at hl
  simp only [h9, Res.bind_ok] at hl
  obtain ⟨ds, -, hl⟩ := Res.bind_eq_ok.1 hl
  cases hl
  exact ⟨⟨rfl, rfl, rfl, rfl, rfl, rfl⟩, rfl⟩

/-- **C79** From a dictionary to the forms of lexical units: `lt-comp` compiles it, and `lt-proc -g`, with the file that it writes, writes for each unit of a stream the
forms that the dictionary has for it, or what the mode prescribes for a unit without forms. -/
theorem C79_generation [AddMonoid W] [LinearOrder W] (v : Dbl → W) (o : Setting W) {mode : Mode} (hm : mode ≠ .carefulcase) (hreg : Compiler.Regular s f closed)
    (hp : Compiler.parse s f.nodes = .ok (A, secs)) (hs : Small g (lettersOf isSpace text) A secs) (ht : Tame s f) (hr : Gen.Regular (bareGen o) (tagName f)) :
    ∃ bs σ, ltComp g isSpace s text f.nodes = .ok bs ∧ Load.loadGeneration v o bs = .ok σ ∧ (Walk.Fewer σ.graph σ.root (way σ false) 65536 →
      ∀ items last, (∀ i ∈ items, i.WF) → (∀ b ∈ last, b.WF) → (∀ b wb rs, Item.unit b wb rs ∈ items → ∀ r ∈ rs.head?, Gen.Tidy r) →
        ∃ outs, List.Forall₂ (Writes o (tagName f) s f mode) items outs ∧ ∃ n0, ∀ n ≥ n0,
          Load.ltProcGeneration v o n mode bs (Input.bytes (streamText items last)) = .ok (outs.flatten ++ enc (blankText last))) := by
  have hc := compiled hreg hp
  have hfits := hc.fits hs
  obtain ⟨bs, σ, h1, h2, h3, -, -⟩ := Load.C77_loadGeneration v o hfits
  obtain ⟨bs', σ', k1, k2, k3, N0, k4⟩ := Load.C77_startGeneration v o mode hfits (hc.noLoop g) (Compiled.named hc g ht) hr
  rw [h1] at k1
  cases k1
  rw [h2] at k2
  cases k2
  obtain ⟨hal, hA⟩ := loaded hfits h1 h2
  have hext : Alphabet.Ext A σ.alphabet := by rw [hA]; exact (Alphabet.includeSymbol_spec hc.ok Load.ANY_CHAR).2.1
  refine ⟨bs, σ, ltComp_ok hp h1, h2, fun hf items last hi hl htidy => ?_⟩
  have hm' : decide (mode = .carefulcase) = false := by simp [hm]
  obtain ⟨outs, h4, N1, h5⟩ := Gen.C72_generation k3 mode (by rw [hm']; exact hf) hi hl htidy
  refine ⟨outs, h4.imp ?_, max N0 N1, fun n hn => ?_⟩
  · intro i out hw
    have hgen : ∀ {r : RSyn} {out : UString}, Gen.Generates σ (tagName f) mode r out → Generates o (tagName f) s f mode r out :=
      fun hg => generates_of hc ht g v k3 hal hext h3 hf hm hg
    cases i with
    | null b => exact hw
    | unit b wb rs =>
      obtain ⟨r, t, g1, g2, g3⟩ := hw
      refine ⟨r, t, g1, ?_, g3⟩
      unfold Gen.Reads at g2
      unfold Reads
      split
      · rwa [if_pos ‹_›] at g2
      · rw [if_neg ‹_›] at g2
        split
        · rwa [if_pos ‹_›] at g2
        · rw [if_neg ‹_›] at g2
          split
          · rwa [if_pos ‹_›] at g2
          · rw [if_neg ‹_›] at g2
            split
            · rw [if_pos ‹_›] at g2
              obtain ⟨t', e, g2⟩ := g2
              exact ⟨t', e, hgen g2⟩
            · rw [if_neg ‹_›] at g2
              exact hgen g2
  · rw [(k4 n (by omega) _).2 (Compiled.accepted hreg hp g v ht), h5 n (by omega)]

/-- **C79** With the same dictionary in the other direction, the pairs are turned round. -/
theorem C79_back (hf : Free f) (k : UString) (x y : List Int) : Says (back s) f k y x ↔ Says s f k x y := says_back_iff hf

theorem mem_tokens [AddMonoid W] [LinearOrder W] {L : Lexicon} {o : Proc.Setting W} {ps : List Proc.Piece} {toks : List Proc.Token} (h : Tokens L o ps toks) {tok : Proc.Token}
    (ht : tok ∈ toks) : ∃ rest, Next L o tok rest := by
  induction h with
  | nil => cases ht
  | cons h _ ih =>
    rcases List.mem_cons.1 ht with rfl | ht
    · exact ⟨_, h⟩
    · exact ih ht

/-- **C79** There and back: if no entry is restricted to one direction, then whatever the analyser lists for a word in a text, as it is written there, the generator, with the same dictionary
compiled in the other direction, lists the word among the forms of that. -/
theorem C79_roundtrip [AddMonoid W] [LinearOrder W] (v : Dbl → W) (oa : Proc.Setting W) (og : Setting W) {mode : Mode} (hm : mode ≠ .carefulcase) {names : List (List Nat)}
    {A' : Alphabet} {secs' : List (UString × Transducer V)} (hfree : Free f) (hn : Names f names)
    (hreg : Compiler.Regular s f closed) (hp : Compiler.parse s f.nodes = .ok (A, secs)) (hs : Small g (lettersOf isSpace text) A secs)
    (ht : Chain.Tame (bare oa (lettersOf isSpace text)) s f) (hr : Proc.Regular (bare oa (lettersOf isSpace text)) (tagName f))
    (hp' : Compiler.parse (back s) f.nodes = .ok (A', secs')) (hs' : Small g (lettersOf isSpace text) A' secs')
    (ht' : Tame (back s) f) (hr' : Gen.Regular (bareGen og) (tagName f)) :
    ∃ bs bs' σ σ', ltComp g isSpace s text f.nodes = .ok bs ∧ Load.loadAnalysis v oa bs = .ok σ ∧
      ltComp g isSpace (back s) text f.nodes = .ok bs' ∧ Load.loadGeneration v og bs' = .ok σ' ∧ (Proc.Few σ → Walk.Fewer σ'.graph σ'.root (way σ' false) 65536 →
        ∀ ps, Fit (lexicon (bare oa (lettersOf isSpace text)) (tagName f) s f) (bare oa (lettersOf isSpace text)) ps →
          ∃ toks : List Proc.Token, toks.flatMap Proc.Token.pieces = ps ∧
            (∃ n0, ∀ n ≥ n0, Load.ltProcAnalysis v oa n bs (Input.bytes (ps.flatMap Proc.Piece.text)) = .ok (toks.flatMap Proc.Token.render)) ∧
            ∀ b a qs lf, Proc.Token.word b a qs lf ∈ toks → ∀ k y, Says s f k (Proc.vals qs) y → Nice f y →
              ∃ (rs : List (UString × W)) (cs : List Nat) (forms : List (UString × W)),
                lf = rs.flatMap (fun x => 0x2f :: (x.1 ++ oa.showWeight x.2)) ∧ enc cs ∈ rs.map (·.1) ∧ enc cs = symbolsText f y ∧
                symbolsText f (Proc.vals qs) ∈ forms.map (·.1) ∧
                ∃ n0, ∀ n ≥ n0, Load.ltProcGeneration v og n mode bs' (Input.bytes ('^'.toNat :: cs ++ ['$'.toNat])) =
                  .ok (formed mode (reading names y) (slashed (forms.map fun x => x.1 ++ og.showWeight x.2)))) := by
  obtain ⟨bs, σ, a1, a2, a3⟩ := C78_analysis v oa hreg hp hs ht hr
  obtain ⟨bs', σ', b1, b2, b3⟩ := C79_generation v og hm (regular_back hfree hreg) hp' hs' ht' hr'
  refine ⟨bs, bs', σ, σ', a1, a2, b1, b2, fun hf hf' ps hfit => ?_⟩
  obtain ⟨toks, a4, a5⟩ := a3 ps hf hfit
  refine ⟨toks, ?_, a5, fun b a qs lf hmem k y hsay hnice => ?_⟩
  · clear a5 hfit
    induction a4 with
    | nil => rfl
    | cons _ _ ih => rw [List.flatMap_cons, ih]
  · obtain ⟨rest, -, -, -, -, rs, a6, -, -, a7⟩ := mem_tokens a4 hmem
    have hy0 : (0 : Int) ∉ y := fun h => (hnice.chars 0 h (by omega)).2 rfl
    have hx0 : (0 : Int) ∉ Proc.vals qs := Compiled.nonzero (compiled hreg hp) hsay
    have hback := says_back hfree hsay
    have htext := reading_text hn hnice
    obtain ⟨outs, b4, n0, b5⟩ := b3 hf' [.unit [] none [reading names y]] [] (by
        intro i hi
        rw [List.mem_singleton] at hi
        subst hi
        refine ⟨fun b hb => (by cases hb), fun w hw => (by cases hw), fun _ w hw => (by cases hw), by simp, fun r hr => ?_⟩
        rw [List.mem_singleton] at hr
        subst hr
        exact reading_wf hn hnice) (fun b hb => by cases hb) (by
        intro b wb rs hi r hr
        rw [List.mem_singleton] at hi
        cases hi
        cases hr
        exact reading_tidy hnice)
    obtain ⟨out, _, hw, hnil, rfl⟩ := List.forall₂_cons_left_iff.1 b4
    cases hnil
    obtain ⟨r, t, c1, c2, c3⟩ := hw
    cases c1
    have c2 : Generates og (tagName f) (back s) f mode (reading names y) t := c2
    unfold Generates at c2
    simp only [reading_symbols hn ht'.tags hnice] at c2
    have hform : ∀ u fi, Form og (tagName f) (back s) f u fi y (symbolsText f (Proc.vals qs)) := by
      intro u fi
      refine ⟨k, y, Proc.vals qs, hback, List.forall₂_same.2 fun c _ => .inl rfl, ?_⟩
      simp only [ne_eq, not_true_eq_false, decide_false, Gen.formText, Bool.false_and, Bool.false_eq_true, if_false]
      exact (mapText_symbols f 0 _ hx0).symm
    rcases c2 with ⟨forms, -, -, -, d4, d5⟩ | ⟨d1, -⟩
    · refine ⟨rs, (reading names y).text, forms, a6, ?_, htext, (d4 _).2 (hform _ _), n0, fun n hn' => ?_⟩
      · rw [a7, htext]
        refine ⟨k, Proc.vals qs, y, hsay, List.forall₂_same.2 fun c _ => .inl rfl, ?_⟩
        simp only [ne_eq, not_true_eq_false, decide_false, Proc.analysisText, Bool.false_and, Bool.false_eq_true, if_false]
        exact (mapText_symbols f 0 _ hy0).symm
      · have e : streamText [.unit [] none [reading names y]] [] = '^'.toNat :: (reading names y).text ++ ['$'.toNat] := by
          simp [streamText, Item.text, readingsTo, blankText]
        rw [← e, b5 n hn', c3, d5]
        simp [blankText, enc]
    · exact absurd (hform _ _) (d1 _)

end

/-! ## Examples -/

/-- All the conditions of `C79_generation` and `C79_roundtrip` are met by the dictionary of C78, its text, and the word `abs`. -/
example : Free demoFile ∧ Names demoFile demoNames ∧ Compiler.Regular {} demoFile (fun _ => true) ∧ Compiler.parse {} demoFile.nodes = .ok (demoAlpha, demoSecs) ∧
    Small (fun _ => 0) [] demoAlpha demoSecs ∧ Chain.Tame (bare Proc.demo []) {} demoFile ∧ Proc.Regular (bare Proc.demo []) (tagName demoFile) ∧
    Compiler.Regular (back {}) demoFile (fun _ => true) ∧ Compiler.parse (back {}) demoFile.nodes = .ok (demoBackAlpha, demoSecs) ∧
    Small (fun _ => 0) [] demoBackAlpha demoSecs ∧ Tame (back {}) demoFile ∧ Gen.Regular (bareGen Gen.demo) (tagName demoFile) ∧
    ltComp (fun _ => 0) (fun _ => false) (back {}) [] demoFile.nodes = .ok demoBackBytes ∧
    (∀ σ, Load.loadGeneration (fun _ => 0) Gen.demo demoBackBytes = .ok σ → Walk.Fewer σ.graph σ.root (way σ false) 65536) ∧
    Says {} demoFile (0x6d :: Load.STANDARD) [0x61, 0x62, 0x73] [0x61, 0x62, -1, -2] ∧ Nice demoFile [0x61, 0x62, -1, -2] :=
  ⟨demo_free, demo_names, demoFile_regular, demo_parse, demo_small, demo_tame, bare_regular Load.demo_bare, regular_back demo_free demoFile_regular, demo_back_parse, demo_back_small,
    demo_back_tame, Load.demo_bareGen _, by decide +kernel, fun _ h => demo_back_fewer h,
    ⟨_, List.mem_cons_self, _, ⟨_, List.mem_cons_self, Compiler.visible_plain _, rfl⟩,
      .text (l := [0x61, 0x62]) (r := [0x61, 0x62]) (Compiler.gives_par.2 ⟨_, _, List.mem_cons_self, ⟨_, List.mem_cons_of_mem _ List.mem_cons_self, Compiler.visible_plain _, rfl⟩,
        .text (l := [0x73]) (r := [-1, -2]) .nil⟩)⟩, demo_nice⟩

/-- What `lt-comp rl` and `lt-proc -g` make of a dictionary and a stream. -/
def demoForms (f : File Nat Nat) (input out : String) : Bool :=
  match ltComp (fun _ => 0) (fun _ => false) (back {}) [] f.nodes with
  | .ok bs => match Load.ltProcGeneration (fun _ => 0) Gen.demo 300 .unknown bs (Input.bytes (input.toList.map Char.toNat)) with
    | .ok o => decide (o = out.toList.map fun c => UInt16.ofNat c.toNat)
    | _ => false
  | _ => false

/-- The analyses of C78 give the words again; `<x>` is no tag of the dictionary. -/
example : demoForms demoFile "^Ab<n><v>$^.<v>$ ^ab<n>$ ^*abc$ ^ab<x>$\n" "Abs. ab *abc #ab\n" = true := by decide +kernel

/-! ## What does not hold -/

/-- The tag `n`; `*a` is `*a<n>`. -/
def starFile : File Nat Nat where
  tags := [[0x6e]]
  secs := [(0x6d :: Load.STANDARD, [Compiler.entry [.text [0x2a, 0x61] [0x2a, 0x61, -1]]])]

/-- **C79** An analysis that starts with one of the marks `* # = %` does not give the word again: the analyser does not escape these characters, and the generator takes them for marks. -/
theorem C79_mark_false : demoForms starFile "^*a<n>$" "*a\\<n\\>" = true ∧
    (match ltComp (fun _ => 0) (fun _ => false) {} [] starFile.nodes with
      | .ok bs => match Load.ltProcAnalysis (fun _ => 0) Proc.demo 300 bs (Input.bytes ("*a\n".toList.map Char.toNat)) with
        | .ok o => decide (o = "^*a/*a<n>$\n".toList.map fun c => UInt16.ofNat c.toNat)
        | _ => false
      | _ => false) = true := by decide +kernel

end Verif.Chain.Forms
