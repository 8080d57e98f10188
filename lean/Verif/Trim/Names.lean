import Verif.Trim.Sections
import Verif.Unified.Spec
import Verif.Tools.Lemmas
import Verif.Chain.Sections

/-! # Names of symbols instead of their numbers -/

namespace Verif.Trim

open Verif.Fst Verif.Alphabet Verif.Compiler
open Verif.Product (Meets)
open Verif.Chain (stored edge_stored final_stored)
open Verif.Tools (Stores Says Dictionary)

set_option linter.unusedSectionVars false

variable {W D : Type} {a b : Alphabet}

/-- The transducer relates `x` to `y` with some weights. -/
def Spelled (a : Alphabet) (t : Transducer W) (x y : List Int) : Prop :=
  ∃ ls fw, Spells a t ls fw ∧ x = (ls.map (·.1.1)).filter (· ≠ 0) ∧ y = (ls.map (·.1.2)).filter (· ≠ 0)

theorem maps_spelled [AddMonoid W] {t : Transducer W} {x y : List Int} : Maps a t x y ↔ Spelled a t x y := by
  constructor
  · rintro ⟨w, ls, fw, h1, h2, h3, -⟩
    exact ⟨ls, fw, h1, h2, h3⟩
  · rintro ⟨ls, fw, h1, h2, h3⟩
    exact ⟨_, ls, fw, h1, h2, h3, rfl⟩

theorem path_to_stored (g : W → D) {t : Transducer W} {q p : Nat} {ls : List (Pair × W)} (h : Path (PairEdge a t) q ls p) :
    Path (PairEdge a (stored g t)) q (ls.map fun l => (l.1, g l.2)) p := by
  induction h with
  | nil q => exact .nil q
  | cons he _ ih =>
    obtain ⟨c, h1, h2⟩ := he
    exact .cons ⟨c, h1, (edge_stored g t _ _ _).2 ⟨_, h2, rfl⟩⟩ ih

theorem path_of_stored (g : W → D) {t : Transducer W} {q p : Nat} {ls : List (Pair × D)} (h : Path (PairEdge a (stored g t)) q ls p) :
    ∃ ls', Path (PairEdge a t) q ls' p ∧ ls = ls'.map fun l => (l.1, g l.2) := by
  induction h with
  | nil q => exact ⟨[], .nil q, rfl⟩
  | @cons q q' p l ls he _ ih =>
    obtain ⟨c, h1, h2⟩ := he
    obtain ⟨v, h2, h3⟩ := (edge_stored g t _ _ _).1 h2
    obtain ⟨ls', k1, k2⟩ := ih
    refine ⟨(l.1, v) :: ls', .cons ⟨c, h1, h2⟩ k1, ?_⟩
    rw [k2, List.map_cons]
    simp only at h3
    rw [← h3]

theorem spelled_stored (g : W → D) {t : Transducer W} {x y : List Int} : Spelled a (stored g t) x y ↔ Spelled a t x y := by
  constructor
  · rintro ⟨ls, fw, ⟨p, h1, h2⟩, rfl, rfl⟩
    obtain ⟨ls', k1, rfl⟩ := path_of_stored g h1
    obtain ⟨v, k2, -⟩ := (final_stored g t _ _).1 h2
    exact ⟨ls', v, ⟨p, k1, k2⟩, by simp [Function.comp_def], by simp [Function.comp_def]⟩
  · rintro ⟨ls, fw, ⟨p, h1, h2⟩, rfl, rfl⟩
    exact ⟨_, g fw, ⟨p, path_to_stored g h1, (final_stored g t _ _).2 ⟨_, h2, rfl⟩⟩, by simp [Function.comp_def], by simp [Function.comp_def]⟩

theorem named_zero_iff {x : Int} {n : Name} (h : Named a x n) : x = 0 ↔ n = .letter 0 := by
  rcases h with ⟨h1, rfl⟩ | ⟨h1, s, -, rfl⟩
  · constructor
    · rintro rfl; rfl
    · intro e; cases e; rfl
  · constructor
    · rintro rfl; cases h1
    · intro e; cases e

theorem named_filter {xs : List Int} {ns : List Name} (h : List.Forall₂ (Named a) xs ns) :
    List.Forall₂ (Named a) (xs.filter (· ≠ 0)) (ns.filter (· ≠ .letter 0)) := by
  induction h with
  | nil => exact .nil
  | @cons x n xs ns h _ ih =>
    have := named_zero_iff h
    rw [List.filter_cons, List.filter_cons]
    by_cases hx : x = 0
    · rw [if_neg (by simpa using hx), if_neg (by simpa using this.1 hx)]; exact ih
    · rw [if_pos (by simpa using hx), if_pos (by simpa using fun h => hx (this.2 h))]; exact .cons h ih

/-- The transducer relates the names `X` to the names `Y`. -/
def NMaps (a : Alphabet) (t : Transducer W) (X Y : List Name) : Prop :=
  ∃ x y, Spelled a t x y ∧ List.Forall₂ (Named a) x X ∧ List.Forall₂ (Named a) y Y

theorem forall2_functional {α β : Type} {R : α → β → Prop} (hR : ∀ x y y', R x y → R x y' → y = y') {xs : List α} {ys ys' : List β}
    (h : List.Forall₂ R xs ys) (h' : List.Forall₂ R xs ys') : ys = ys' := by
  induction h generalizing ys' with
  | nil => cases h'; rfl
  | cons h _ ih =>
    cases h' with
    | cons g gs => rw [hR _ _ _ h g, ih gs]

theorem path_edge {t : Transducer W} {q p : Nat} {ls : List (Pair × W)} (h : Path (PairEdge a t) q ls p) {l : Pair × W} (hl : l ∈ ls) :
    ∃ q p, PairEdge a t q l p := by
  induction h with
  | nil => cases hl
  | cons he _ ih =>
    rcases List.mem_cons.1 hl with rfl | hl
    · exact ⟨_, _, he⟩
    · exact ih hl

theorem spelled_names {t : Transducer W} (ht : TagsKnown a t) {X Y : List Name} :
    (∃ ls fw, SpellsNames a t ls fw ∧ (ls.map (·.1.1)).filter (· ≠ .letter 0) = X ∧ (ls.map (·.1.2)).filter (· ≠ .letter 0) = Y) ↔ NMaps a t X Y := by
  constructor
  · rintro ⟨ls, fw, h, rfl, rfl⟩
    obtain ⟨ps, h1, h2⟩ := Tools.spellsNames_iff.1 h
    refine ⟨_, _, ⟨ps, fw, h1, rfl, rfl⟩, named_filter ?_, named_filter ?_⟩
    · rw [List.forall₂_map_left_iff, List.forall₂_map_right_iff]
      exact h2.imp fun _ _ h => h.1
    · rw [List.forall₂_map_left_iff, List.forall₂_map_right_iff]
      exact h2.imp fun _ _ h => h.2.1
  · rintro ⟨x, y, ⟨ps, fw, h1, rfl, rfl⟩, h3, h4⟩
    obtain ⟨ls, h2⟩ : ∃ ls, List.Forall₂ (Tools.NamedPair a) ps ls := by
      obtain ⟨p, hp, -⟩ := h1
      have : ∀ l ∈ ps, ∃ m, Tools.NamedPair a l m := by
        intro l hl
        obtain ⟨q, q', he⟩ := path_edge hp hl
        obtain ⟨⟨n, hn⟩, m, hm⟩ := ht _ _ _ he
        exact ⟨((n, m), l.2), hn, hm, rfl⟩
      clear hp h3 h4
      induction ps with
      | nil => exact ⟨[], .nil⟩
      | cons l ps ih =>
        obtain ⟨m, hm⟩ := this l (List.mem_cons_self ..)
        obtain ⟨ls, hls⟩ := ih fun l hl => this l (List.mem_cons_of_mem _ hl)
        exact ⟨m :: ls, .cons hm hls⟩
    have hu : ∀ x n n', Named a x n → Named a x n' → n = n' := fun _ _ _ h h' => Product.named_unique h h'
    refine ⟨ls, fw, Tools.spellsNames_iff.2 ⟨ps, h1, h2⟩, ?_, ?_⟩
    · refine forall2_functional hu (named_filter ?_) h3
      rw [List.forall₂_map_left_iff, List.forall₂_map_right_iff]
      exact h2.imp fun _ _ h => h.1
    · refine forall2_functional hu (named_filter ?_) h4
      rw [List.forall₂_map_left_iff, List.forall₂_map_right_iff]
      exact h2.imp fun _ _ h => h.2.1

/-- A dictionary knows its tags. -/
theorem dictionary_tags {bs : List UInt8} {L : List UInt32} {ts : List (UString × Transducer Compression.Dbl)} (h : Dictionary bs L a ts)
    (t : Transducer W) : TagsKnown a t := by
  rintro q l p ⟨c, h1, -⟩
  obtain ⟨i, h2, -⟩ := decode_iff.1 h1
  have := h.sane.symbols l.1 (List.mem_of_getElem? h2)
  have hn : ∀ x, Tools.Symbol a x → ∃ n, Named a x n := by
    rintro x (⟨h, -⟩ | ⟨h, s, hs⟩)
    · exact ⟨_, .inl ⟨h, rfl⟩⟩
    · exact ⟨_, .inr ⟨h, s, hs, rfl⟩⟩
  exact ⟨hn _ this.1, hn _ this.2⟩

theorem pairs_iff {bs : List UInt8} {L : List UInt32} {ts : List (UString × Transducer Compression.Dbl)} (h : Dictionary bs L a ts) {k : UString} {X Y : List Name} :
    Unified.Pairs bs k X Y ↔ ∃ t, (k, t) ∈ ts ∧ NMaps a t X Y := by
  unfold Unified.Pairs
  constructor
  · rintro ⟨ls, fw, h1, h2⟩
    obtain ⟨t, h3, h4⟩ := (Tools.says_iff h.stored k ls fw).1 h1
    exact ⟨t, h3, (spelled_names (dictionary_tags h t)).1 ⟨ls, fw, h4, h2⟩⟩
  · rintro ⟨t, h3, h4⟩
    obtain ⟨ls, fw, h4, h2⟩ := (spelled_names (dictionary_tags h t)).2 h4
    exact ⟨ls, fw, (Tools.says_iff h.stored k ls fw).2 ⟨t, h3, h4⟩, h2⟩

end Verif.Trim
