import Verif.TmProc.EndLemmas
import Verif.TmProc.Run

/-! # The compiled memory, loaded -/

namespace Verif.TmProc

open Verif.Fst Verif.State Verif.Stream Verif.Walk
open Verif.Alphabet (Ok HasTag includeSymbol_spec symCode_of_hasTag)
open Verif.Tmx (Remembers Compiled Tuv unitPairs)
open Verif.Compression (Dbl)
open Verif.Tools (Kept)
open Verif.Chain (stored edge_stored final_stored)

variable {W V : Type} [AddCommMonoid V] [LinearOrder V]

theorem fits_load {R : List Int → List Int → Prop} {a : Alphabet} {t : Transducer V} (h : Compiled R a t) (g : V → Dbl) (hg : ∀ w, Kept (g w))
    (m0 : a.spairinv.length < 2 ^ 30) (m1 : Fst.size t < 2 ^ 30) (m2 : ∀ e ∈ t.transitions, e.2.length < 2 ^ 30) : Load.Fits [] a [([], stored g t)] := by
  have hcd := Trim.coded_known h.known
  have hp : Tools.Part a (stored g t) := by
    refine ⟨Chain.wf_stored g h.wf, ?_, ?_, ?_, ?_, ?_⟩
    · intro q l p hl
      obtain ⟨w, hw, -⟩ := (edge_stored g t _ _ _).1 hl
      exact hcd _ _ _ hw
    · have : Fst.size (stored g t) = Fst.size t := by unfold Fst.size stored; simp
      rw [this]; exact m1
    · intro x hx
      unfold stored at hx
      obtain ⟨x', j1, rfl⟩ := List.mem_map.1 hx
      simpa using m2 x' j1
    · intro q l p hl
      obtain ⟨w, -, hw⟩ := (edge_stored g t _ _ _).1 hl
      rw [hw]; exact hg w
    · intro q w hl
      obtain ⟨u, -, rfl⟩ := (final_stored g t _ _).1 hl
      exact hg u
  refine ⟨by decide, h.ok, h.sane.writable (by rw [h.tags]; decide) m0, ⟨by simp, by simp, ?_⟩, ?_⟩
  · intro e he
    rw [List.mem_singleton.1 he]
    exact ⟨by simp, hp.wf, hp.inRange m0⟩
  · intro e he q c w p hl
    rw [List.mem_singleton.1 he] at hl
    exact hp.coded _ _ _ hl

theorem number_code {a : Alphabet} (h : Ok a) (ht : a.slexicinv = [Tmx.numberText, Tmx.blankText]) : (a.includeSymbol Load.ANY_CHAR).symCode numberTag = -1 := by
  obtain ⟨h1, h2, -⟩ := includeSymbol_spec h Load.ANY_CHAR
  refine symCode_of_hasTag h1 (HasTag.mono h2 ⟨0, ?_, rfl⟩)
  rw [ht]
  rfl

variable {τ : Setting W} {Q : List (List Pair)} {R : List Int → List Int → Prop}

theorem simple_neat (h : Holds Q τ) (hq : Units Q R) {ch : Chars} {sp : Bool} (hch : τ.chars = ch) (hsp : τ.spaces = sp) (ht : Tables ch) (hn : Neat ch sp R) (h0 : ∀ m, ¬ R [] m) :
    Simple τ := by
  subst hch
  subst hsp
  refine ⟨?_, ?_, ?_⟩
  · rw [segment_found h hq]
    rintro ⟨o, m, h1, h2⟩
    cases h2
    exact h0 m h1
  · intro x hx
    rw [live_begun h hq]
    rintro (h1 | ⟨o, m, h1, o1, ⟨o2, rfl⟩, h3⟩)
    · cases h1
    · cases h3 with
      | @cons _ z _ _ h4 h5 =>
        cases h5
        have hz : z = x := by
          obtain ⟨-, e | ⟨e, -⟩⟩ := h4
          · exact e
          · rw [ht.notUpper x hx] at e; cases e
        have := hn.start z o2 m h1
        rw [hz, hx] at this
        cases this
  · intro xs x h1 h2
    rw [live_begun h hq]
    obtain ⟨o, m, h3⟩ := (segment_found h hq _).1 h1
    exact hn.longer xs x o m h3 h2

/-- The check in `lt-tmxproc`. -/
theorem valid_memory (h : Holds Q τ) (hq : Units Q R) (hf : ∃ k, Finite τ.graph k) (hc : ∀ q, NoEpsCycle τ.graph q) (h0 : ∀ m, ¬ R [] m) :
    ∃ b N, (∀ n ≥ N, Load.valid τ.graph τ.root τ.finals n = .ok b) ∧ (b = true ↔ ∀ o m, ¬ R (0x20 :: o) m) := by
  obtain ⟨k, hk⟩ := hf
  obtain ⟨b, N, h1, h2⟩ := Load.valid_ok (root := τ.root) (finals := τ.finals) hk hc
  refine ⟨b, N, h1, h2.trans ?_⟩
  constructor
  · rintro ⟨-, h3⟩ o m hr
    apply h3
    obtain ⟨k, x, ls, p, w, h4, -, h6⟩ := h.stored _ ((hq.words _).2 ⟨_, m, hr, rfl⟩)
    have h7 : inputs ls = [0x20] ++ o := by rw [inputs_couples, h6, hq.left _ m hr]; rfl
    rw [← (first_inputs k x ls).1] at h7
    obtain ⟨l1, l2, e, h8⟩ := inputs_split _ _ _ h7
    rw [e] at h4
    obtain ⟨q, h9, -⟩ := h4.split
    exact ⟨l1, q, h9, h8⟩
  · intro h3
    constructor
    · rintro ⟨ls, p, w, h4, h5, h6⟩
      obtain ⟨k, x, ls', rfl, h7⟩ := h.first ls p w h4 h6
      obtain ⟨o, m, h8, h9⟩ := (hq.words _).1 h7
      rw [(first_inputs k x ls').1, inputs_couples, h9, hq.left o m h8] at h5
      subst h5
      exact h0 m h8
    · rintro ⟨ls, p, h4, h5⟩
      rcases h.goes ls p h4 with h6 | ⟨ps, h6, h7⟩
      · rw [h5] at h6; cases h6
      · obtain ⟨o, m, h8, rfl⟩ := (hq.words ps).1 h6
        rw [hq.left o m h8, h5] at h7
        obtain ⟨o2, rfl⟩ := h7
        exact h3 _ _ h8

/-- What `lt-tmxcomp` writes is loaded by `lt-tmxproc`. -/
theorem memory_loaded {tc : Tmx.Chars} (g : V → Dbl) (hg : ∀ w, Kept (g w)) {lo lm : UString} (hl : lo ≠ lm) (us : List (List Tuv))
    (hu : ∀ vs ∈ us, Tmx.Proper tc lo lm vs) (hf : Tmx.Fits (Tmx.parse tc V lo lm us)) :
    ∃ bs Q, Tmx.ltTmxcomp tc g lo lm us = .ok bs ∧ Units Q (Remembers tc lo lm us) ∧ ∀ (v : Dbl → W) (ch : Chars) (sp : Bool), ∃ τ, loadTM v ch sp bs = .ok τ ∧
      τ.chars = ch ∧ τ.spaces = sp ∧ τ.alphabet.symCode numberTag = -1 ∧ (∃ k, Finite τ.graph k) ∧ (∀ q, NoEpsCycle τ.graph q) ∧ Holds Q τ := by
  obtain ⟨a, t, Q, h1, h2, h3, h4⟩ := parse_exact (W := V) hl us hu
  obtain ⟨m0, m1, m2⟩ := hf a t h1
  have hfit := fits_load h2 g hg m0 m1 m2
  obtain ⟨bs, ls, e, -⟩ := BinIO.set_roundtrip [] a _ hfit.letters hfit.alphabet hfit.writable hfit.sections
  refine ⟨bs, Q, ?_, ⟨h4, fun o m h => (Tmx.remembers_sides hu h).1, fun o m h => (Tmx.remembers_sides hu h).2⟩, ?_⟩
  · unfold Tmx.ltTmxcomp
    rw [h1]
    exact e
  · intro v ch sp
    obtain ⟨bs', τ, k1, k2, k3, k4, k5, k6⟩ := load_holds h2.ok h2.known h3 g hfit v ch sp
    rw [e] at k1
    cases k1
    exact ⟨τ, k2, k3, k4, by rw [k5]; exact number_code h2.ok h2.tags, k6⟩

theorem remembers_long {tc : Tmx.Chars} {lo lm : UString} {us : List (List Tuv)} (m : List Int) : ¬ Remembers tc lo lm us [] m := by
  rintro ⟨vs, -, -, h, -⟩
  simp at h

end Verif.TmProc
