import Verif.Chain.Sections
import Verif.Chain.Spec
import Verif.Proc.Props
import Mathlib.Data.Set.Finite.Lemmas
import Mathlib.Data.Set.Finite.Basic

/-! # The loaded graph and the dictionary -/

namespace Verif.Chain

open Verif.State Verif.Proc
open Verif.Load (Kind finalsOf)

set_option linter.unusedSectionVars false

variable {W : Type}

/-- The settings agree on characters and output. -/
structure Alike (σ o : Setting W) : Prop where
  chars : σ.chars = o.chars
  alpha : ∀ c, σ.isAlphabetic c = o.isAlphabetic c
  weights : σ.showWeight = o.showWeight
  ignore : σ.useIgnored = o.useIgnored
  ignored : σ.ignored = o.ignored
  folding : σ.caseSensitive = o.caseSensitive
  keep : σ.dictionaryCase = o.dictionaryCase

/-- The graph and the lexicon agree. -/
structure Same [Add W] [Zero W] (σ : Setting W) (name : Int → UString) (L : Lexicon) : Prop where
  has : ∀ κ xs, In σ (finalsOf σ κ) xs ↔ L.has κ xs
  starts : ∀ xs, Live σ xs ↔ L.starts xs
  analysed : ∀ xs sf t, (∃ w, Analysis σ name xs sf t w) ↔ L.analysed xs sf t

section
variable [AddMonoid W] [LinearOrder W] {σ o : Setting W} {name : Int → UString} {L : Lexicon}

theorem same_special (h : Same σ name L) (xs : List Int) : Proc.Special σ xs ↔ Special L xs := by
  unfold Proc.Special Special
  rw [← h.has, ← h.has, ← h.has]
  rfl

theorem same_entry (h : Same σ name L) (xs : List Int) : Proc.Entry σ xs ↔ Entry L xs := by
  unfold Proc.Entry Entry
  rw [same_special h, ← h.has]
  rfl

theorem same_good (h : Same σ name L) (ha : Alike σ o) (xs ys : List Int) : Proc.Good σ xs ys ↔ Good L o xs ys := by
  unfold Proc.Good Good
  simp only [same_special h, same_entry h, ha.alpha]

theorem same_std (h : Same σ name L) (ha : Alike σ o) (xs ys : List Int) : Proc.Std σ xs ys ↔ Std L o xs ys := by
  unfold Proc.Std Std
  rw [same_special h, same_good h ha]

theorem same_after (h : Same σ name L) (ha : Alike σ o) (xs : List Int) : Proc.After σ xs ↔ After L o xs := by
  unfold Proc.After After
  simp only [same_good h ha, same_std h ha, ← h.has]
  rfl

theorem same_before (h : Same σ name L) (ha : Alike σ o) (xs : List Int) : Proc.Before σ xs ↔ Before L o xs := by
  unfold Proc.Before Before
  simp only [same_good h ha, same_std h ha, same_after h ha, ← h.has]
  rfl

/-- A text can be read in finitely many ways. -/
theorem finite_reads (hf : Few σ) (xs : List Int) (hx : ∀ x ∈ xs, x ≠ 0) : {e : List (Label W) × Nat | Proc.Reads σ xs e.1 e.2}.Finite := by
  by_contra hno
  obtain ⟨S, h1, h2⟩ := Set.Infinite.exists_subset_card_eq hno 65536
  have := hf xs hx S.toList S.nodup_toList fun e he => h1 (by simpa using he)
  rw [Finset.length_toList, h2] at this
  omega

/-- Among the weights of an analysis one is the least. -/
theorem least_weight (hf : Few σ) {xs : List Int} (hx : ∀ x ∈ xs, x ≠ 0) {sf t : UString} (h : ∃ w, Analysis σ name xs sf t w) :
    ∃ w, Analysis σ name xs sf t w ∧ ∀ w', Analysis σ name xs sf t w' → w ≤ w' := by
  have hfin : {w | Analysis σ name xs sf t w}.Finite := by
    refine (((finite_reads hf xs hx).image fun e => ((σ.weight e.2).getD 0) + ((written e.1).map (·.2)).sum)).subset ?_
    rintro w ⟨ls, p, w0, h1, h2, h3, -⟩
    exact ⟨(ls, p), h1, by simp [h2, h3]⟩
  obtain ⟨w, h1, h2⟩ := Set.exists_min_image _ id hfin h
  exact ⟨w, h1, h2⟩

theorem same_lists (h : Same σ name L) (ha : Alike σ o) (hf : Few σ) {xs : List Int} (hx : ∀ x ∈ xs, x ≠ 0) {sf lf : UString}
    (hl : Proc.Lists σ name xs sf lf) : Lists L o xs sf lf := by
  obtain ⟨rs, h1, h2, h3, h4⟩ := hl
  refine ⟨rs, by rw [h1, ha.weights], h2, h3, fun t => ?_⟩
  rw [← h.analysed]
  constructor
  · intro ht
    obtain ⟨⟨t', w⟩, h5, rfl⟩ := List.mem_map.1 ht
    exact ⟨w, ((h4 _ _).1 h5).1⟩
  · intro ht
    obtain ⟨w, h5⟩ := least_weight hf hx ht
    exact List.mem_map.2 ⟨(t, w), (h4 _ _).2 h5, rfl⟩

theorem piece_nonzero {p : Piece} (h : p.Ok σ) : (p.val : Int) ≠ 0 := by
  obtain ⟨sk, c⟩ := p
  obtain ⟨-, h⟩ := h
  have : c.val ≠ 0 := by
    cases c with
    | ch c => exact h.2.1
    | esc c => exact h.2.1
    | super ts => exact (by decide : (0x20 : Nat) ≠ 0)
    | wb ts => exact (by decide : (0x20 : Nat) ≠ 0)
  exact fun e => this (by exact_mod_cast e)

theorem same_run (ha : Alike σ o) (ps rest : List Piece) : Proc.LongestRun σ ps rest ↔ Proc.LongestRun o ps rest := by
  unfold Proc.LongestRun
  simp only [ha.alpha]

theorem same_next (h : Same σ name L) (ha : Alike σ o) (hr : Proc.Regular σ name) (hf : Few σ) {tok : Token} {rest : List Piece} (hok : ∀ p ∈ tok.pieces, p.Ok σ)
    (hn : Proc.Next σ name tok rest) : Next L o tok rest := by
  have hv : ∀ ps : List Piece, (∀ p ∈ ps, p.Ok σ) → ∀ x ∈ vals ps, x ≠ 0 := by
    intro ps hps x hx
    obtain ⟨p, hp, rfl⟩ := List.mem_map.1 hx
    exact piece_nonzero (hps p hp)
  have hlow : ∀ ps, loweredUnits σ ps = loweredUnits o ps := by
    intro ps
    unfold loweredUnits
    rw [ha.chars]
  cases tok with
  | word before after ps lf =>
    obtain ⟨h1, h2, h3, h4, h5⟩ := hn
    exact ⟨(same_good h ha _ _).1 h1, fun zs hz => h2 zs ((same_good h ha _ _).2 hz), h3.trans (same_after h ha _), h4.trans (same_before h ha _),
      same_lists h ha hf (hv ps hok) h5⟩
  | lowered ps lf =>
    obtain ⟨h1, h2, h3, h5⟩ := hn
    refine ⟨fun zs hz => h1 zs ((same_good h ha _ _).2 hz), (same_run ha _ _).1 h2, by rw [← hlow]; exact (same_entry h _).1 h3, ?_⟩
    rw [← hlow, ← ha.chars]
    refine same_lists h ha hf ?_ h5
    intro x hx
    unfold loweredUnits at hx
    obtain ⟨u, hu, rfl⟩ := List.mem_map.1 hx
    have h6 := (hr.lowerText (surface ps) (surface_ne_nil h2.1) (surface_zero hok)).2
    intro e
    have : u = 0 := by
      apply UInt16.toNat_inj.1
      simpa using e
    subst this
    exact h6 hu
  | unknown ps =>
    obtain ⟨h1, h2, h3⟩ := hn
    exact ⟨fun zs hz => h1 zs ((same_good h ha _ _).2 hz), (same_run ha _ _).1 h2, by rw [← hlow]; exact fun hc => h3 ((same_entry h _).2 hc)⟩
  | char p =>
    obtain ⟨h1, h2⟩ := hn
    exact ⟨fun zs hz => h1 zs ((same_good h ha _ _).2 hz), by rw [← ha.alpha]; exact h2⟩

theorem same_tokens (h : Same σ name L) (ha : Alike σ o) (hr : Proc.Regular σ name) (hf : Few σ) {ps : List Piece} {toks : List Token}
    (ht : Proc.Tokens σ name ps toks) (hok : ∀ p ∈ ps, p.Ok σ) : Tokens L o ps toks := by
  induction ht with
  | nil => exact .nil
  | cons hn _ ih =>
    exact .cons (same_next h ha hr hf (fun p hp => hok p (List.mem_append_left _ hp)) hn) (ih fun p hp => hok p (List.mem_append_right _ hp))

theorem alike_ok (ha : Alike σ o) (p : Piece) : p.Ok σ ↔ p.Ok o := by
  obtain ⟨sk, c⟩ := p
  unfold Piece.Ok
  cases c <;> simp only [Core.Ok, ha.ignore, ha.ignored, ha.chars]

theorem same_fit (h : Same σ name L) (ha : Alike σ o) {ps : List Piece} (hf : Fit L o ps) : Proc.Fit σ ps where
  ok p hp := (alike_ok ha p).2 (hf.ok p hp)
  ends qs p e := by
    obtain ⟨h1, h2⟩ := hf.ends qs p e
    exact ⟨by rw [ha.alpha]; exact h1, fun xs hx => h2 xs ((h.starts xs).1 hx)⟩
  short us ys zs q ws e h1 h2 := hf.short us ys zs q ws e ((h.starts _).1 h1) fun v hv => by rw [← ha.alpha]; exact h2 v hv

theorem alike_analysisText (ha : Alike σ o) (sf : UString) (b : Bool) (seq : List (Int × W)) :
    analysisText σ name sf b seq = analysisText o name sf b seq := by
  unfold analysisText allUpper firstUpper
  simp only [ha.chars, ha.keep]

theorem alike_folds (ha : Alike σ o) : Folds σ = Folds o := by
  funext x y
  unfold Folds
  rw [ha.chars, ha.folding]

end

end Verif.Chain
