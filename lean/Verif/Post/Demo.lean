import Verif.Post.Spec
import Verif.Gen.Demo

/-! # A small dictionary for postgeneration -/

namespace Verif.Post

open Verif.State Verif.Stream Verif.Walk
open Verif.Proc (graphOf arcsOf mem_arcsOf path_up path_listed pathsFrom)
open Verif.Gen (walk_path demoName demoAlphabet demoAlphabet_ok)

variable {W : Type}

theorem changes_le (xs : List Int) (ls : List (Label W)) : changes xs ls ≤ ls.length := by
  unfold changes
  refine List.countP_le_length.trans ?_
  rw [List.length_zip]
  exact (Nat.min_le_left _ _).trans (List.length_filter_le _ _)

/-- All lists of truth values of this length. -/
def bools : Nat → List (List Bool)
  | 0 => [[]]
  | n + 1 => (bools n).flatMap fun bs => [false :: bs, true :: bs]

theorem mem_bools (bs : List Bool) : bs ∈ bools bs.length := by
  induction bs with
  | nil => simp [bools]
  | cons b bs ih => cases b <;> simp [bools, ih]

theorem bools_length (n : Nat) : (bools n).length = 2 ^ n := by
  induction n with
  | zero => rfl
  | succ n ih =>
    simp only [bools, List.length_flatMap, List.length_cons, List.length_nil, List.map_const', List.sum_replicate, ih]
    rw [pow_succ]
    rfl

theorem few_listed {σ : Setting Nat} {arcs : List ((Nat × Int) × List (Int × Nat × Nat))} {m : Nat} (hg : σ.graph = graphOf arcs) (h0 : σ.root = 0)
    (h : ∀ a ∈ arcsOf arcs, a.1 < a.2.2 ∧ a.2.2 < m) (hk : ((pathsFrom (arcsOf arcs) m 0).map fun e => 2 ^ e.1.length).sum < 65536) : Few σ := by
  intro xs L hn hL
  have hsub : L ⊆ (pathsFrom (arcsOf arcs) m 0).flatMap fun e => (bools (changes xs e.1)).map fun bs => (e.1, bs) := by
    rintro ⟨ls, bs⟩ hls
    obtain ⟨⟨wr, ch, p, hw⟩, hb⟩ := hL _ hls
    rw [hg, h0] at hw
    refine List.mem_flatMap.2 ⟨(ls, p), path_listed h (walk_path hw), List.mem_map.2 ⟨bs, ?_, rfl⟩⟩
    simp only at hb
    rw [← hb]
    exact mem_bools bs
  have h1 := (hn.subperm hsub).length_le
  refine lt_of_le_of_lt (h1.trans ?_) hk
  rw [List.length_flatMap]
  refine List.sum_le_sum fun e _ => ?_
  rw [List.length_map, bools_length]
  exact Nat.pow_le_pow_right (by omega) (changes_le _ _)

/-- The dictionary with these arcs. -/
def setting (arcs : List ((Nat × Int) × List (Int × Nat × Nat))) (finals : List (Nat × Nat)) : Setting Nat where
  isUpper c := decide (0x41 ≤ c ∧ c ≤ 0x5a)
  toLower c := if 0x41 ≤ c ∧ c ≤ 0x5a then c + 32 else c
  toUpper c := if 0x61 ≤ c ∧ c ≤ 0x7a then c - 32 else c
  graph := graphOf arcs
  root := 0
  finals := finals
  alphabet := demoAlphabet
  caseSensitive := false
  dictionaryCase := false
  maxAnalyses := 2147483647
  maxWeightClasses := 2147483647
  showWeight _ := []
  sort := List.insertionSort fun a b => a.2 ≤ b.2
  isSpace c := decide (c = 0x20 ∨ c = 0x0a ∨ c = 0xa0)
  isAlnum c := decide ((0x61 ≤ c ∧ c ≤ 0x7a) ∨ (0x41 ≤ c ∧ c ≤ 0x5a))
  letters := []
  dropTilde := true

theorem setting_regular {arcs : List ((Nat × Int) × List (Int × Nat × Nat))} {finals : List (Nat × Nat)} {m : Nat} (h : ∀ a ∈ arcsOf arcs, a.1 < a.2.2 ∧ a.2.2 < m)
    (hw : ∀ a ∈ arcsOf arcs, (0 ≤ a.2.1.2.2.1 ∧ a.2.1.2.2.1 < 0xd800) ∨ a.2.1.2.2.1 = -1) (hf : (finals.map (·.1)).Nodup) : Regular (setting arcs finals) demoName where
  alphabet := demoAlphabet_ok
  names c t h := by
    obtain ⟨i, hi, rfl⟩ := h
    have e : (setting arcs finals).alphabet.slexicinv = [[0x3c, 0x6e, 0x3e], [0x3c, 0x76, 0x3e]] := by
      show demoAlphabet.slexicinv = _
      decide
    rw [e] at hi
    match i with
    | 0 => simp only [List.getElem?_cons_zero, Option.some.injEq] at hi; rw [← hi]; rfl
    | 1 => simp only [List.getElem?_cons_succ, List.getElem?_cons_zero, Option.some.injEq] at hi; rw [← hi]; rfl
    | i + 2 => simp at hi
  sortPerm l := List.perm_insertionSort _ l
  sortLe l := by
    have : Std.Total (fun a b : UString × Nat => a.2 ≤ b.2) := ⟨fun a b => Nat.le_total _ _⟩
    have : IsTrans (UString × Nat) (fun a b : UString × Nat => a.2 ≤ b.2) := ⟨fun a b c => Nat.le_trans⟩
    exact List.pairwise_insertionSort _ l
  classes := by
    show 0 < 2147483647
    decide
  silent w := rfl
  upperPos x hx := by simp only [setting, decide_eq_true_eq] at hx; omega
  lowerPos x hx := by simp only [setting, decide_eq_true_eq] at hx ⊢; rw [if_pos hx]; omega
  lowerPlain x hx := by simp only [setting, decide_eq_true_eq] at hx ⊢; intro _; unfold Plain; omega
  upperZero := rfl
  upperPlain x hx := by
    unfold Plain at hx ⊢
    simp only [setting]
    split <;> omega
  upperRange c h := by
    simp only [setting]
    split <;> omega
  upperSpecial x hx := by
    simp only [Gen.escapedCps, List.mem_cons, List.not_mem_nil, or_false] at hx
    simp only [setting]
    rw [if_neg (by omega)]
  upperOther x hx := by
    simp only [setting] at hx
    split at hx
    · simp only [Gen.escapedCps, List.mem_cons, List.not_mem_nil, or_false] at hx
      omega
    · exact hx
  space := rfl
  spaces := by
    show ∀ c ∈ ['['.toNat, '\\'.toNat, '<'.toNat, 0, 0xFFFF], decide ((c : Int) = 0x20 ∨ (c : Int) = 0x0a ∨ (c : Int) = 0xa0) = false
    decide
  finals := hf
  finite := ⟨m + 1, fun q l p ha => by have := h _ (mem_arcsOf ha); simp only at this; omega⟩
  noCycle q ls p _ ls' h' := by
    obtain ⟨h1, -⟩ := path_up h ls' h'.1
    exact List.length_eq_zero_iff.1 (by omega)
  writes q l p ha := by
    rcases hw _ (mem_arcsOf ha) with h1 | h1
    · simp only at h1
      by_cases h0 : l.2.2.1 = 0
      · exact .inl h0
      · exact .inr (.inl ⟨by omega, by omega, by omega⟩)
    · simp only at h1
      rw [h1]
      exact .inr (.inr ⟨by omega, ⟨0, rfl, rfl⟩, [0x6e], rfl, by decide⟩)

/-- `de el` becomes `del`; `al` before a space becomes `a`; `ab` becomes `c`; `x` becomes `<n>` or, worse, `x`. -/
def demoArcs : List ((Nat × Int) × List (Int × Nat × Nat)) :=
  [((0, 0x64), [(0x64, 1, 0)]), ((1, 0x65), [(0x65, 2, 0)]), ((2, 0x20), [(0, 3, 0)]), ((3, 0x65), [(0, 4, 0)]), ((4, 0x6c), [(0x6c, 5, 0)]),
    ((0, 0x61), [(0x61, 6, 0), (0, 9, 0)]), ((6, 0x6c), [(0, 7, 0)]), ((7, 0x20), [(0x20, 8, 0)]), ((9, 0x62), [(0x63, 10, 0)]), ((0, 0x78), [(-1, 11, 0), (0x78, 11, 2)])]

def demo : Setting Nat := setting demoArcs [(5, 0), (8, 0), (10, 0), (11, 0)]

theorem demo_up : ∀ a ∈ arcsOf demoArcs, a.1 < a.2.2 ∧ a.2.2 < 12 := by decide

theorem demo_regular : Regular demo demoName := setting_regular demo_up (by decide) (by decide)

theorem demo_few : Few demo := few_listed rfl rfl demo_up (by decide +kernel)

/-- ` de[x]el` and `de [[t]]el[[/]]` with special characters, tags and other letters in between, a NUL, and another segment. -/
def demoSegs : List Seg :=
  [⟨[⟨[.space 0x20], none, [.letter (.chr (.raw 0x44)), .letter (.chr (.raw 0x65))]⟩,
     ⟨[.super [.raw 0x78]], none, [.letter (.chr (.raw 0x65)), .letter (.chr (.raw 0x6c)), .letter (.chr (.esc 0x24)), .letter (.tag [.raw 0x76])]⟩,
     ⟨[.space 0x20], some [.raw 0x74], [.letter (.chr (.raw 0x61)), .gap [.space 0x20, .space 0x20], .letter (.chr (.raw 0x61)), .letter (.chr (.raw 0x62))]⟩,
     ⟨[], none, [.letter (.chr (.raw 0x64)), .letter (.chr (.raw 0x65))]⟩,
     ⟨[.space 0x0a], some [.raw 0x75], [.letter (.chr (.raw 0x65)), .letter (.chr (.raw 0x6c))]⟩], []⟩,
   ⟨[⟨[], none, [.letter (.chr (.raw 0x41)), .letter (.chr (.raw 0x6c))]⟩, ⟨[.space 0x20], none, [.letter (.chr (.raw 0x78)), .letter (.chr (.raw 0x7e)), .letter (.chr (.raw 0x79))]⟩],
     [.space 0x0a]⟩]

end Verif.Post
