import Verif.Proc.Spec
import Mathlib.Data.List.Sort

/-! # A small dictionary -/

namespace Verif.Proc

open Verif.State Verif.Stream
open Verif.Fst (Path path_cons_iff)

/-! ## Graphs given by lists -/

/-- A graph given by the arcs of each node and symbol. -/
def graphOf (arcs : List ((Nat × Int) × List (Int × Nat × Nat))) : Graph Nat := fun q x => (arcs.find? fun e => e.1 = (q, x)).map (·.2)

/-- All the arcs. -/
def arcsOf (arcs : List ((Nat × Int) × List (Int × Nat × Nat))) : List (Nat × Label Nat × Nat) :=
  arcs.flatMap fun e => e.2.zipIdx.map fun d => (e.1.1, (e.1.2, d.2, d.1.1, d.1.2.2), d.1.2.1)

theorem mem_arcsOf {arcs : List ((Nat × Int) × List (Int × Nat × Nat))} {q p : Nat} {l : Label Nat} (h : Arc (graphOf arcs) q l p) : (q, l, p) ∈ arcsOf arcs := by
  obtain ⟨ds, h1, h2⟩ := h
  unfold graphOf at h1
  rw [Option.map_eq_some_iff] at h1
  obtain ⟨e, h3, rfl⟩ := h1
  have h4 := List.mem_of_find?_eq_some h3
  have h5 : e.1 = (q, l.1) := by simpa using List.find?_some h3
  refine List.mem_flatMap.2 ⟨e, h4, List.mem_map.2 ⟨((l.2.2.1, p, l.2.2.2), l.2.1), ?_, ?_⟩⟩
  · rw [List.mem_zipIdx_iff_getElem?]
    exact h2
  · rw [h5]

/-- The paths with at most `k` arcs. -/
def pathsFrom (as : List (Nat × Label Nat × Nat)) : (k : Nat) → (q : Nat) → List (List (Label Nat) × Nat)
  | 0, q => [([], q)]
  | k + 1, q => ([], q) :: (as.filter fun a => a.1 = q).flatMap fun a => (pathsFrom as k a.2.2).map fun e => (a.2.1 :: e.1, e.2)

theorem mem_pathsFrom {arcs : List ((Nat × Int) × List (Int × Nat × Nat))} {p : Nat} (ls : List (Label Nat)) :
    ∀ {k q : Nat}, Path (Arc (graphOf arcs)) q ls p → ls.length ≤ k → (ls, p) ∈ pathsFrom (arcsOf arcs) k q := by
  induction ls with
  | nil =>
    intro k q h _
    cases h
    cases k <;> simp [pathsFrom]
  | cons l ls ih =>
    intro k q h hk
    obtain ⟨r, h1, h2⟩ := path_cons_iff.1 h
    obtain ⟨k, rfl⟩ : ∃ k', k = k' + 1 := ⟨k - 1, by simp at hk; omega⟩
    have := ih h2 (by simpa using hk)
    simp only [pathsFrom, List.mem_cons, List.mem_flatMap, List.mem_filter, List.mem_map]
    right
    exact ⟨(q, l, r), ⟨mem_arcsOf h1, by simp⟩, (ls, p), this, rfl⟩

/-- Nodes are numbered along arcs. -/
theorem path_up {arcs : List ((Nat × Int) × List (Int × Nat × Nat))} {m : Nat} (h : ∀ a ∈ arcsOf arcs, a.1 < a.2.2 ∧ a.2.2 < m) (ls : List (Label Nat)) :
    ∀ {q p : Nat}, Path (Arc (graphOf arcs)) q ls p → q + ls.length ≤ p ∧ (ls ≠ [] → p < m) := by
  induction ls with
  | nil =>
    intro q p hp
    cases hp
    simp
  | cons l ls ih =>
    intro q p hp
    obtain ⟨r, h1, h2⟩ := path_cons_iff.1 hp
    have ha := h _ (mem_arcsOf h1)
    obtain ⟨g1, g2⟩ := ih h2
    simp only at ha
    refine ⟨by simp; omega, fun _ => ?_⟩
    by_cases e : ls = []
    · subst e
      cases h2
      exact ha.2
    · exact g2 e

theorem path_listed {arcs : List ((Nat × Int) × List (Int × Nat × Nat))} {m : Nat} (h : ∀ a ∈ arcsOf arcs, a.1 < a.2.2 ∧ a.2.2 < m) {ls : List (Label Nat)} {p : Nat}
    (hp : Path (Arc (graphOf arcs)) 0 ls p) : (ls, p) ∈ pathsFrom (arcsOf arcs) m 0 := by
  refine mem_pathsFrom ls hp ?_
  obtain ⟨h1, h2⟩ := path_up h ls hp
  by_cases e : ls = []
  · simp [e]
  · have := h2 e
    omega

/-! ## The dictionary -/

/-- Characters: ASCII, U+00A0, U+00AD. -/
def demoChars : Chars where
  isAlnum c := decide ((0x61 ≤ c ∧ c ≤ 0x7a) ∨ (0x41 ≤ c ∧ c ≤ 0x5a))
  isSpace c := decide (c = 0x20 ∨ c = 0x0a ∨ c = 0xa0)
  isUpper c := decide (0x41 ≤ c ∧ c ≤ 0x5a)
  toLower c := if 0x41 ≤ c ∧ c ≤ 0x5a then c + 32 else c
  toUpper c := if 0x61 ≤ c ∧ c ≤ 0x7a then c - 32 else c
  cToLower c := if 0x41 ≤ c ∧ c ≤ 0x5a then c + 32 else c
  lowerText s := s.map fun u => if 0x41 ≤ u.toNat ∧ u.toNat ≤ 0x5a then u + 32 else u

/-- `ab` is `ab<n>` and `ac<v>`, `a c` is `a c<n>`; `a cd` is an entry of a postblank section. -/
def demoArcs : List ((Nat × Int) × List (Int × Nat × Nat)) :=
  [((0, 0x61), [(0x61, 1, 0)]), ((1, 0x62), [(0x62, 2, 0), (0x63, 3, 0)]), ((2, 0), [(-1, 4, 0)]), ((3, 0), [(-2, 4, 2)]),
    ((1, 0x20), [(0x20, 5, 0)]), ((5, 0x63), [(0x63, 6, 0)]), ((6, 0), [(-1, 7, 0)]), ((6, 0x64), [(0x64, 8, 0)])]

def demo : Setting Nat where
  chars := demoChars
  graph := graphOf demoArcs
  root := 0
  standard := [(4, 0), (7, 0)]
  inconditional := []
  postblank := [(8, 1)]
  preblank := []
  alphabet := { slexic := [([0x3c, 0x6e, 0x3e], -1), ([0x3c, 0x76, 0x3e], -2)], slexicinv := [[0x3c, 0x6e, 0x3e], [0x3c, 0x76, 0x3e]], spair := [], spairinv := [] }
  letters := []
  caseSensitive := false
  dictionaryCase := false
  maxAnalyses := 2147483647
  maxWeightClasses := 2147483647
  showWeight _ := []
  sort := List.insertionSort fun a b => a.2 ≤ b.2
  useIgnored := true
  ignored := [0xad]
  useRestore := false
  restore := []
  decompose := false
  onlyL := 0
  compoundR := 0
  maxElements := 4

def demoName (s : Int) : UString := if s = -1 then [0x3c, 0x6e, 0x3e] else [0x3c, 0x76, 0x3e]

theorem demo_up : ∀ a ∈ arcsOf demoArcs, a.1 < a.2.2 ∧ a.2.2 < 9 := by decide

theorem demo_reads {xs : List Int} {ls : List (Label Nat)} {p : Nat} (h : Reads demo xs ls p) : (ls, p) ∈ pathsFrom (arcsOf demoArcs) 9 0 :=
  path_listed demo_up h.1

theorem demo_few : Few demo := by
  intro xs _ L hn hL
  have h := (hn.subperm (fun e he => demo_reads (xs := xs) (hL e he) : L ⊆ pathsFrom (arcsOf demoArcs) 9 0)).length_le
  have h2 : (pathsFrom (arcsOf demoArcs) 9 0).length ≤ 10 := by decide +kernel
  omega

theorem demo_regular : Regular demo demoName where
  noCompounds := rfl
  noRestore := rfl
  sortPerm l := List.perm_insertionSort _ l
  sortLe l := by
    have : Std.Total (fun a b : UString × Nat => a.2 ≤ b.2) := ⟨fun a b => Nat.le_total _ _⟩
    have : IsTrans (UString × Nat) (fun a b : UString × Nat => a.2 ≤ b.2) := ⟨fun a b c => Nat.le_trans⟩
    exact List.pairwise_insertionSort _ l
  manyAnalyses := by decide
  manyClasses := by decide
  space := rfl
  spaceAlpha c h := by
    simp only [demo, demoChars, Setting.isAlphabetic, decide_eq_true_eq, List.contains_nil, Bool.or_false, decide_eq_false_iff_not] at h ⊢
    omega
  zeroSpace := rfl
  zeroAlpha := rfl
  zeroUpper := rfl
  lowerZero c h := by
    simp only [demo, demoChars] at h
    split at h <;> omega
  upperZero := rfl
  upperRange c h := by
    simp only [demo, demoChars]
    split <;> omega
  lowerText s h h0 := by
    refine ⟨by simpa [demo, demoChars] using h, ?_⟩
    intro hm
    obtain ⟨u, hu, e⟩ := List.mem_map.1 hm
    split at e
    · rename_i hc
      have := congrArg UInt16.toNat e
      rw [UInt16.toNat_add] at this
      simp at this
      omega
    · exact h0 (e ▸ hu)
  letters c h := by cases h
  standard := by decide
  finite := ⟨9, fun q l p h => by have := demo_up _ (mem_arcsOf h); simp only at this; omega⟩
  noCycle q ls p _ ls' h := by
    obtain ⟨h1, -⟩ := path_up demo_up ls' h.1
    exact List.length_eq_zero_iff.1 (by omega)
  names q l p h := by
    have h1 : ∀ a ∈ arcsOf demoArcs, a.2.1.2.2.1 < 0x110000 ∧ (a.2.1.2.2.1 < 0 → a.2.1.2.2.1 = -1 ∨ a.2.1.2.2.1 = -2) := by decide
    obtain ⟨g1, g2⟩ := h1 _ (mem_arcsOf h)
    refine ⟨g1, fun hl => ?_⟩
    rcases g2 hl with e | e <;> simp only at e <;> rw [e] <;> rfl

/-- Reading: a letter of an entry is the letter of the text or its lower-case letter. -/
theorem demo_folds {x y : Int} (h : Folds demo x y) : y = x ∨ (0x41 ≤ x ∧ x ≤ 0x5a ∧ y = x + 32) := by
  rcases h with h | ⟨h1, -, h3⟩
  · exact .inl h
  · simp only [demo, demoChars, decide_eq_true_eq] at h1 h3
    rw [if_pos h1] at h3
    exact .inr ⟨h1.1, h1.2, h3⟩

theorem demo_inputs {xs : List Int} {ls : List (Label Nat)} {p : Nat} (h : Reads demo xs ls p) :
    (∀ y ∈ inputs ls, y = 0x61 ∨ y = 0x62 ∨ y = 0x63 ∨ y = 0x64 ∨ y = 0x20) ∧ ((inputs ls).length = 1 → inputs ls = [0x61]) ∧ (inputs ls = [] → p = 0) := by
  have key : ∀ e ∈ pathsFrom (arcsOf demoArcs) 9 0,
      (∀ y ∈ inputs e.1, y = 0x61 ∨ y = 0x62 ∨ y = 0x63 ∨ y = 0x64 ∨ y = 0x20) ∧ ((inputs e.1).length = 1 → inputs e.1 = [0x61]) ∧ (inputs e.1 = [] → e.2 = 0) := by
    decide +kernel
  exact key _ (demo_reads h)

theorem forall₂_mem {α β : Type} {R : α → β → Prop} {as : List α} {bs : List β} (h : List.Forall₂ R as bs) {a : α} (ha : a ∈ as) : ∃ b ∈ bs, R a b := by
  induction h with
  | nil => cases ha
  | cons h _ ih =>
    rcases List.mem_cons.1 ha with rfl | ha
    · exact ⟨_, by simp, h⟩
    · obtain ⟨b, hb, hr⟩ := ih ha
      exact ⟨b, by simp [hb], hr⟩

theorem demo_start {c : Int} (h : Live demo [c]) : c = 0x61 ∨ c = 0x41 := by
  obtain ⟨ls, p, hr⟩ := h
  have h1 := (demo_inputs hr).2.1 (by simpa using hr.2.length_eq.symm)
  have h2 := hr.2
  rw [h1] at h2
  cases h2 with
  | cons h _ =>
    rcases demo_folds h with h | h
    · exact .inl h.symm
    · exact .inr (by omega)

theorem demo_letters {xs : List Int} (h : Live demo xs) : ∀ c ∈ xs, (0x61 ≤ c ∧ c ≤ 0x64) ∨ (0x41 ≤ c ∧ c ≤ 0x5a) ∨ c = 0x20 := by
  intro c hc
  obtain ⟨ls, p, hr⟩ := h
  obtain ⟨y, hy, hf⟩ := forall₂_mem hr.2 hc
  have h1 := (demo_inputs hr).1 y hy
  rcases demo_folds hf with h | h <;> omega

theorem demo_plain : Plain demo where
  noEmpty := by
    have key : ∀ F : List (Nat × Nat), (∀ w, (0, w) ∉ F) → ¬ In demo F [] := by
      rintro F hF ⟨ls, p, w, hr, hm⟩
      have h1 : inputs ls = [] := List.forall₂_nil_left_iff.1 hr.2
      rw [(demo_inputs hr).2.2 h1] at hm
      exact hF w hm
    rintro (h | h | h | h)
    · exact key _ (by simp [demo]) h
    · exact key _ (by simp [demo]) h
    · exact key _ (by simp [demo]) h
    · exact key _ (by simp [demo]) h
  noSpaceStart c h := by
    rcases demo_start h with rfl | rfl <;> rfl
  onlySpace xs h c hc hs := by
    have := demo_letters h c hc
    simp only [demo, demoChars, decide_eq_true_eq] at hs
    omega
  bmpStart c h _ := by
    rcases demo_start h with rfl | rfl <;> omega

/-- The pieces of a text of plain characters. -/
def plainText (s : String) : List Piece := s.toList.map fun c => ⟨[], .ch c.toNat⟩

/-- `xy Ab a`, a blank, a soft hyphen, `c`, an escaped `$`, a word-bound blank, `a cd ABC` and a newline. -/
def demoText : List Piece :=
  plainText "xy Ab a" ++ [⟨[], .super [.raw 0x62, .esc 0x5d]⟩, ⟨[0xad], .ch 0x63⟩, ⟨[], .esc 0x24⟩, ⟨[], .wb [.raw 0x74]⟩] ++ plainText "a cd ABC" ++ [⟨[], .ch 0x0a⟩]

theorem demo_fit : Fit demo demoText where
  ok := by
    have hch : ∀ c : Nat, (c < 0xd800 ∧ c ≠ 0 ∧ (c : Int) ∉ escapedCps ∧ c ≠ 0xad) → Piece.Ok demo ⟨[], .ch c⟩ := by
      rintro c ⟨h1, h2, h3, h4⟩
      refine ⟨fun d hd => (by cases hd), .inl h1, h2, by omega, h3, ?_⟩
      intro _
      simpa [demo] using h4
    have hpl : ∀ s : String, (∀ c ∈ s.toList.map Char.toNat, c < 0xd800 ∧ c ≠ 0 ∧ (c : Int) ∉ escapedCps ∧ c ≠ 0xad) → ∀ p ∈ plainText s, Piece.Ok demo p := by
      intro s h p hp
      obtain ⟨c, hc, rfl⟩ := List.mem_map.1 hp
      exact hch _ (h _ (List.mem_map_of_mem hc))
    have h1 := hpl "xy Ab a" (by decide +kernel)
    have h2 := hpl "a cd ABC" (by decide +kernel)
    intro p hp
    simp only [demoText, List.mem_append, List.mem_cons, List.not_mem_nil, or_false] at hp
    rcases hp with ((hp | rfl | rfl | rfl | rfl) | hp) | rfl
    · exact h1 p hp
    · refine ⟨fun d hd => (by cases hd), ?_, by decide, by decide⟩
      intro t ht
      simp only [List.mem_cons, List.not_mem_nil, or_false] at ht
      rcases ht with rfl | rfl
      · exact ⟨.inl (by decide), by decide, by decide, by decide⟩
      · exact .inl (by decide)
    · refine ⟨?_, (hch 0x63 (by decide)).2⟩
      intro d hd
      rw [List.mem_singleton.1 hd]
      exact ⟨.inl (by decide), by decide, by decide, rfl, by decide⟩
    · exact ⟨fun d hd => (by cases hd), .inl (by decide), by decide, by decide, by decide, by decide⟩
    · exact ⟨fun d hd => (by cases hd), ⟨⟨.inl (by decide), by decide, by decide, fun h => absurd h (by decide)⟩, trivial⟩, by decide⟩
    · exact h2 p hp
    · exact hch 0x0a (by decide)
  ends := by
    intro qs p e
    have hl : demoText.getLast? = some p := by rw [e]; simp
    obtain rfl : p = ⟨[], .ch 0x0a⟩ := by
      unfold demoText at hl
      rw [List.getLast?_concat, Option.some.injEq] at hl
      exact hl.symm
    refine ⟨rfl, fun xs hx hm => ?_⟩
    have := demo_letters hx _ hm
    simp [Piece.val, Core.val] at this
  short := by
    intro us ys zs q ws e _ _
    have h1 := congrArg List.length e
    have h2 : demoText.length = 20 := by decide +kernel
    simp only [List.length_append, List.length_cons] at h1 ⊢
    omega

/-! ## Dictionaries that are not plain -/

/-- Whether the output for a text is the given one. -/
def writes (σ : Setting Nat) (n : Nat) (text : List Nat) (out : UString) : Bool :=
  match analysis σ n (text.flatMap Input.utf8) with
  | .ok o => o == out
  | _ => false

/-- The entries `a`, U+00A0, space, `b`, and U+1F600, `a` besides. -/
def demoOdd : Setting Nat :=
  { demo with graph := graphOf (demoArcs ++ [((1, 0xa0), [(0xa0, 9, 0)]), ((9, 0x20), [(0x20, 10, 0)]), ((10, 0x62), [(0x62, 4, 0)]), ((0, 0x1f600), [(0x1f600, 11, 0)]),
    ((11, 0x61), [(0x61, 4, 0)])]) }

end Verif.Proc
