import Verif.Unified.Demo

/-! # C82: `lt-comp u` and `lt-restrict` give what `lt-comp` gives -/

namespace Verif.Unified

open Verif.Fst Verif.Compiler Verif.Alphabet
open Verif.Compression (Dbl vec32)
open Verif.Expander (Attrs)
open Verif.Tools (Choice)
open Verif.Chain (lettersOf)

variable {N W : Type} [LinearOrder N] [AddMonoid W] [LinearOrder W]
variable {s : Settings} {ch : Choice} {f : File N W} {closed : N → Bool} {A : Alphabet} {secs : List (UString × Transducer W)} {g : W → Dbl} {isSpace : UInt16 → Bool}
  {text : UString} {parname : Attrs → N}

/-- **C82** `lt-comp u` compiles the dictionary, `lt-restrict` makes a compiled dictionary of it, and that one has exactly the pairs that the
dictionary has with the direction and the variants which `lt-restrict` was told. What is missing: attributes with several values, and files with
variants of the side that the direction does not look at (see `C82_left_false`). -/
theorem C82_unified_partial (hs : Same s ch) (hf : Fit s ch f) (hreg : Regular {} (bareFile f) closed) (hp : parse parname {} f.nodes = .ok (A, secs))
    (hsm : Chain.Small g (lettersOf isSpace text) A secs) (hsy : ∀ p ∈ A.spairinv, Tools.Symbol A p.1 ∧ Tools.Symbol A p.2)
    (hn : 2 * (A.spairinv.length + A.slexicinv.length) < 2 ^ 30)
    (hl : ∀ c ∈ vec32 (lettersOf isSpace text), c.toNat < 0x10000 ∧ ¬ (0xd800 ≤ c.toNat ∧ c.toNat < 0xdc00)) :
    ∃ bs bs', ltComp g isSpace parname {} text f.nodes = .ok bs ∧ Tools.ltRestrict ch bs = .ok bs' ∧ ∀ k x y, Pairs bs' k x y ↔ Meant s f k x y := by
  obtain ⟨hk, hc, hfine⟩ := unified_parse hf hreg hp
  have hfits := hc.fits hsm
  obtain ⟨bs, -, g1, -⟩ := BinIO.set_roundtrip _ A _ hfits.letters hfits.alphabet hfits.writable hfits.sections
  obtain ⟨L, hd, -⟩ := Tools.C80_compiled hfits hsy (by omega) hl g1
  obtain ⟨bs', a', ts', r1, -, -, -, r2⟩ := Tools.C81_restrict ch hd hn
  refine ⟨bs, bs', ?_, r1, restricted hs hk hf hc hfine hsy hd r2⟩
  unfold ltComp
  rw [hp, Res.bind_ok]
  exact g1

/-- **C82** `lt-comp` with a direction and variants writes a compiled dictionary with exactly the pairs that the dictionary has with them. -/
theorem C82_direct (hf : Fit s ch f) (hreg : Regular s f closed) (hp : Compiler.parse s f.nodes = .ok (A, secs))
    (hsm : Chain.Small g (lettersOf isSpace text) A secs) (hsy : ∀ p ∈ A.spairinv, Tools.Symbol A p.1 ∧ Tools.Symbol A p.2) (hn : A.slexicinv.length < 2 ^ 29)
    (hl : ∀ c ∈ vec32 (lettersOf isSpace text), c.toNat < 0x10000 ∧ ¬ (0xd800 ≤ c.toNat ∧ c.toNat < 0xdc00)) :
    ∃ bs, Chain.ltComp g isSpace s text f.nodes = .ok bs ∧ ∀ k x y, Pairs bs k x y ↔ Meant s f k x y := by
  have hc := Chain.compiled hreg hp
  have hfits := hc.fits hsm
  obtain ⟨bs, -, g1, -⟩ := BinIO.set_roundtrip _ A _ hfits.letters hfits.alphabet hfits.writable hfits.sections
  obtain ⟨L, hd, -⟩ := Tools.C80_compiled hfits hsy hn hl g1
  refine ⟨bs, ?_, direct hf hc hsy hd⟩
  unfold Chain.ltComp
  rw [hp, Res.bind_ok]
  exact g1

/-- **C82** The two ways to the same dictionary: `lt-comp u` and then `lt-restrict`, or `lt-comp` with the same direction and variants, give files
with the same pairs in the same sections. What is missing: as in `C82_unified_partial`. -/
theorem C82_same_partial {closed' : N → Bool} {A' : Alphabet} {secs' : List (UString × Transducer W)} (hs : Same s ch) (hf : Fit s ch f) (hreg : Regular {} (bareFile f) closed)
    (hp : parse parname {} f.nodes = .ok (A, secs)) (hsm : Chain.Small g (lettersOf isSpace text) A secs)
    (hsy : ∀ p ∈ A.spairinv, Tools.Symbol A p.1 ∧ Tools.Symbol A p.2) (hn : 2 * (A.spairinv.length + A.slexicinv.length) < 2 ^ 30)
    (hl : ∀ c ∈ vec32 (lettersOf isSpace text), c.toNat < 0x10000 ∧ ¬ (0xd800 ≤ c.toNat ∧ c.toNat < 0xdc00))
    (hreg' : Regular s f closed') (hp' : Compiler.parse s f.nodes = .ok (A', secs')) (hsm' : Chain.Small g (lettersOf isSpace text) A' secs')
    (hsy' : ∀ p ∈ A'.spairinv, Tools.Symbol A' p.1 ∧ Tools.Symbol A' p.2) (hn' : A'.slexicinv.length < 2 ^ 29) :
    ∃ bs bs' bs'', ltComp g isSpace parname {} text f.nodes = .ok bs ∧ Tools.ltRestrict ch bs = .ok bs' ∧ Chain.ltComp g isSpace s text f.nodes = .ok bs'' ∧
      ∀ k x y, Pairs bs' k x y ↔ Pairs bs'' k x y := by
  obtain ⟨bs, bs', h1, h2, h3⟩ := C82_unified_partial hs hf hreg hp hsm hsy hn hl
  obtain ⟨bs'', h4, h5⟩ := C82_direct hf hreg' hp' hsm' hsy' hn' hl
  exact ⟨bs, bs', bs'', h1, h2, h4, fun k x y => (h3 k x y).trans (h5 k x y).symm⟩

-- all hypotheses of the three theorems are met, for `lr` without variants and for `rl` with the variant `x`
example : Same demoL chooseL ∧ Same demoR chooseR ∧ Fit demoL chooseL demoFile ∧ Fit demoR chooseR demoFile ∧ Regular {} (bareFile demoFile) (fun _ => true) ∧
    parse demoPar {} demoFile.nodes = .ok (demoAlpha, demoSecs) ∧ Chain.Small (fun _ => 0) (lettersOf (fun _ => false) []) demoAlpha demoSecs ∧
    (∀ p ∈ demoAlpha.spairinv, Tools.Symbol demoAlpha p.1 ∧ Tools.Symbol demoAlpha p.2) ∧ 2 * (demoAlpha.spairinv.length + demoAlpha.slexicinv.length) < 2 ^ 30 ∧
    Regular demoL demoFile (fun _ => true) ∧ Regular demoR demoFile (fun _ => true) ∧
    Compiler.parse demoL demoFile.nodes = .ok (demoAlphaL, demoSecsL) ∧ Compiler.parse demoR demoFile.nodes = .ok (demoAlphaR, demoSecsR) ∧
    Chain.Small (fun _ => 0) (lettersOf (fun _ => false) []) demoAlphaL demoSecsL ∧ Chain.Small (fun _ => 0) (lettersOf (fun _ => false) []) demoAlphaR demoSecsR ∧
    (∀ p ∈ demoAlphaL.spairinv, Tools.Symbol demoAlphaL p.1 ∧ Tools.Symbol demoAlphaL p.2) ∧
    (∀ p ∈ demoAlphaR.spairinv, Tools.Symbol demoAlphaR p.1 ∧ Tools.Symbol demoAlphaR p.2) :=
  ⟨same_L, same_R, demo_fit _ _, demo_fit _ _, demo_regular, demo_parse, demo_small, demo_symbols, by decide, demo_direct_regular _ (.inl rfl),
    demo_direct_regular _ (.inr rfl), demo_parse_L, demo_parse_R, demo_small_L, demo_small_R, demo_symbols_L, demo_symbols_R⟩

/-- The pairs: `as` gives `b<n>` for analysis, but `b<n>` does not give `as` in generation, and `c` is there for generation only. -/
example : Meant demoL demoFile [0x6d] [.letter 0x61, .letter 0x73] [.letter 0x62, .tag [0x3c, 0x6e, 0x3e]] ∧
    ¬ Meant demoR demoFile [0x6d] [.letter 0x62, .tag [0x3c, 0x6e, 0x3e]] [.letter 0x61, .letter 0x73] ∧
    Meant demoR demoFile [0x6d] [.letter 0x63] [.letter 0x63] ∧ ¬ Meant demoL demoFile [0x6d] [.letter 0x63] [.letter 0x63] := by
  refine ⟨⟨[0x61, 0x73], [0x62, -1], ⟨_, List.mem_cons_self, _, ⟨_, List.mem_cons_self, visible_plain _, rfl⟩, ?_⟩, by decide, by decide⟩, ?_,
    ⟨[0x63], [0x63], ⟨_, List.mem_cons_self, _, ⟨_, List.mem_cons_of_mem _ List.mem_cons_self, ?_, rfl⟩, .text (l := [0x63]) (r := [0x63]) .nil⟩, by decide, by decide⟩, ?_⟩
  · exact .text (l := [0x61]) (r := [0x62]) (gives_par.2 ⟨_, _, List.mem_cons_self, ⟨_, List.mem_cons_of_mem _ List.mem_cons_self,
      ⟨.inr rfl, by decide, .inl rfl, .inl rfl, fun h => (by cases h), fun _ => .inl rfl⟩, rfl⟩, .text (l := [0x73]) (r := [-1]) .nil⟩)
  · rintro ⟨u, v, h, h1, h2⟩
    rcases demo_gives h with ⟨e1, e2⟩ | ⟨-, -, e3⟩ | ⟨e1, e2, -⟩
    · simp only [sides, demoR, if_true] at e1 e2
      subst e1 e2
      revert h2
      decide
    · cases e3
    · simp only [sides, demoR, if_true] at e1 e2
      subst e1 e2
      revert h2
      decide
  · exact ⟨.inr rfl, by decide, .inl rfl, .inr (.inr ⟨by decide, by decide, [], [], rfl, .inl rfl, .inl rfl⟩), fun _ => .inl rfl, fun h => (by cases h)⟩
  · rintro ⟨u, v, h, h1, h2⟩
    rcases demo_gives h with ⟨e1, e2⟩ | ⟨e1, -, -⟩ | ⟨-, -, e3⟩
    · simp only [sides, demoL, Bool.false_eq_true, if_false] at e1 e2
      subst e1 e2
      revert h1
      decide
    · simp only [sides, demoL, Bool.false_eq_true, if_false] at e1
      subst e1
      revert h1
      decide
    · cases e3

/-- **C82** With variants of the left side the two ways differ: `lt-comp lr` keeps an entry with `vl="x"`, since only the variants of the right side
matter for this direction; after `lt-comp u`, `lt-restrict lr` without `-l x` drops it. -/
theorem C82_left_false : ∃ (s : Settings) (ch : Choice) (f : File Nat Nat) (parname : Attrs → Nat) (bs bs' bs'' : List UInt8) (k : UString) (x y : List Name),
    Same s ch ∧ ltComp (fun _ => 0) (fun _ => false) parname {} [] f.nodes = .ok bs ∧ Tools.ltRestrict ch bs = .ok bs' ∧
      Chain.ltComp (fun _ => 0) (fun _ => false) s [] f.nodes = .ok bs'' ∧ Pairs bs'' k x y ∧ ¬ Pairs bs' k x y := by
  obtain ⟨bs'', h1, h2⟩ := C82_direct (g := fun _ => 0) (isSpace := fun _ => false) (text := []) left_fit left_regular left_parse
    ⟨by decide, ⟨fun s hs => (by cases hs), by decide, by decide, by decide⟩, by decide, fun e he => by
      rw [List.mem_singleton.1 he]
      exact ⟨by decide, Chain.range_of (by decide) (by decide)⟩⟩
    (fun p hp => by
      simp only [List.mem_cons, List.not_mem_nil, or_false] at hp
      rcases hp with rfl | rfl <;> exact ⟨.inl (by decide), .inl (by decide)⟩) (by decide) (by decide)
  refine ⟨demoL, chooseL, leftFile, demoPar, leftBytes, leftBytes', bs'', [0x6d], [.letter 0x61], [.letter 0x61], same_L, by decide +kernel, by decide +kernel, h1, ?_, ?_⟩
  · exact (h2 _ _ _).2 ⟨[0x61], [0x61], ⟨_, List.mem_cons_self, _, ⟨_, List.mem_cons_self, left_visible, rfl⟩, .text (l := [0x61]) (r := [0x61]) .nil⟩, by decide, by decide⟩
  · exact stuck_pairs (by decide +kernel) (by simp)

end Verif.Unified
