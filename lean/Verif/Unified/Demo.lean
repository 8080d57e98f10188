import Verif.Unified.Paths
import Verif.Chain.Demo
import Verif.Compiler.Props

/-! # Examples for C82 -/

namespace Verif.Unified

open Verif.Fst Verif.Compiler Verif.Alphabet
open Verif.Compression (Dbl)
open Verif.Expander (Attrs)
open Verif.Tools (Choice mark preR preAlt preV preVl preVr Marked)

/-- An entry with weight 0. -/
def entryOf (a : Attrs) (es : List (Token Nat)) : CEntry Nat Nat := { attrs := a, weight := 0, junk := 0, content := some es }

/-- The tag `n`; a paradigm with `s` only for analysis; `a` and `b` with this paradigm, and `c` of the variant `x`, only for generation. -/
def demoFile : File Nat Nat where
  tags := [[0x6e]]
  pars := [(0, [entryOf {} [.text [] [-1]], entryOf { r := Tools.LR } [.text [0x73] [-1]]])]
  secs := [([0x6d], [entryOf {} [.text [0x61] [0x62], .par 0], entryOf { r := Tools.RL, v := [0x78] } [.text [0x63] [0x63]]])]

/-- The name of the paradigm for several values; there are none here. -/
def demoPar : Attrs → Nat := fun _ => 100

/-- `lt-comp lr` and `lt-restrict lr`; `lt-comp -v x rl` and `lt-restrict -v x rl`. -/
def demoL : Settings := {}
def demoR : Settings := { rl := true, variant := [0x78] }
def chooseL : Choice := { dir := Tools.LR }
def chooseR : Choice := { dir := Tools.RL, vars := [[0x78]] }

theorem same_L : Same demoL chooseL := ⟨rfl, rfl, rfl, fun h => (by cases h), fun _ => rfl⟩
theorem same_R : Same demoR chooseR := ⟨rfl, rfl, rfl, fun _ => rfl, fun h => (by cases h)⟩

theorem demo_entries {e : CEntry Nat Nat} (h : Entry demoFile e) :
    e = entryOf {} [.text [] [-1]] ∨ e = entryOf { r := Tools.LR } [.text [0x73] [-1]] ∨ e = entryOf {} [.text [0x61] [0x62], .par 0] ∨
      e = entryOf { r := Tools.RL, v := [0x78] } [.text [0x63] [0x63]] := by
  rcases h with ⟨n, ents, h, he⟩ | ⟨n, ents, h, he⟩
  · simp only [demoFile, List.mem_cons, List.not_mem_nil, or_false, Prod.mk.injEq] at h
    obtain ⟨-, rfl⟩ := h
    simp only [List.mem_cons, List.not_mem_nil, or_false] at he
    rcases he with rfl | rfl <;> simp
  · simp only [demoFile, List.mem_cons, List.not_mem_nil, or_false, Prod.mk.injEq] at h
    obtain ⟨-, rfl⟩ := h
    simp only [List.mem_cons, List.not_mem_nil, or_false] at he
    rcases he with rfl | rfl <;> simp

theorem demo_fit (s : Settings) (ch : Choice) : Fit s ch demoFile where
  tags := by decide
  unmarked := by
    intro t ht pre hpre
    simp only [demoFile, List.mem_cons, List.not_mem_nil, or_false] at ht
    subst ht
    simp only [List.mem_cons, List.not_mem_nil, or_false] at hpre
    rintro ⟨r, e⟩
    rcases hpre with rfl | rfl | rfl | rfl | rfl <;> simp [preR, preV, preAlt, preVl, preVr] at e
  single := by
    intro e he
    rcases demo_entries he with rfl | rfl | rfl | rfl <;> (unfold Single; decide)
  lefts := by
    intro _ e he
    rcases demo_entries he with rfl | rfl | rfl | rfl <;> exact .inl rfl
  rights := by
    intro _ e he
    rcases demo_entries he with rfl | rfl | rfl | rfl <;> exact .inl rfl
  own := by
    intro e he es hes k hk
    rcases demo_entries he with rfl | rfl | rfl | rfl <;> cases hes <;> simp only [List.mem_cons, List.not_mem_nil, or_false] at hk
    · subst hk; simp [Own, demoFile]
    · subst hk; simp [Own, demoFile]
    · rcases hk with rfl | rfl <;> simp [Own, demoFile]
    · subst hk; simp [Own, demoFile]

theorem demo_regular : Regular {} (bareFile demoFile) (fun _ => true) := by
  refine ⟨rfl, by decide, ?_, ?_, ?_, ?_, ?_, ?_⟩
  · intro ps n ents qs h es hu m hm
    have := uses_mem hu
    match ps, h with
    | [], h =>
      simp only [demoFile, bareFile, List.map_cons, List.map_nil, List.nil_append, List.cons.injEq, Prod.mk.injEq] at h
      obtain ⟨⟨rfl, rfl⟩, -⟩ := h
      simp only [entryOf, bare, List.map_cons, List.map_nil, List.mem_cons, Option.some.injEq, List.not_mem_nil, or_false] at this
      rcases this with rfl | rfl <;> simp at hm
    | _ :: _, h => simp [demoFile, bareFile] at h
  · intro k ents hk es hu m hm
    have := uses_mem hu
    simp only [demoFile, bareFile, List.map_cons, List.map_nil, List.mem_cons, List.not_mem_nil, or_false, Prod.mk.injEq] at hk
    obtain ⟨rfl, rfl⟩ := hk
    simp only [entryOf, bare, List.map_cons, List.map_nil, List.mem_cons, Option.some.injEq, List.not_mem_nil, or_false] at this
    rcases this with rfl | rfl <;> simp at hm
    subst hm
    simp [demoFile, bareFile]
  · intro n ents hn es hu
    have := uses_mem hu
    simp only [demoFile, bareFile, List.map_cons, List.map_nil, List.mem_cons, List.not_mem_nil, or_false, Prod.mk.injEq] at hn
    obtain ⟨rfl, rfl⟩ := hn
    simp only [entryOf, bare, List.map_cons, List.map_nil, List.mem_cons, Option.some.injEq, List.not_mem_nil, or_false] at this
    rcases this with rfl | rfl <;> simp [Fits, FitsText]
  · intro k ents hk es hu
    have := uses_mem hu
    simp only [demoFile, bareFile, List.map_cons, List.map_nil, List.mem_cons, List.not_mem_nil, or_false, Prod.mk.injEq] at hk
    obtain ⟨rfl, rfl⟩ := hk
    simp only [entryOf, bare, List.map_cons, List.map_nil, List.mem_cons, Option.some.injEq, List.not_mem_nil, or_false] at this
    rcases this with rfl | rfl <;> simp [Fits, FitsText]
  · intro n ents hn _ es hu
    have := uses_mem hu
    simp only [demoFile, bareFile, List.map_cons, List.map_nil, List.mem_cons, List.not_mem_nil, or_false, Prod.mk.injEq] at hn
    obtain ⟨rfl, rfl⟩ := hn
    simp only [entryOf, bare, List.map_cons, List.map_nil, List.mem_cons, Option.some.injEq, List.not_mem_nil, or_false] at this
    rcases this with rfl | rfl <;> simp [Closed]
  · intro ps n ents h
    match ps, h with
    | [], h =>
      simp only [demoFile, bareFile, List.map_cons, List.map_nil, List.nil_append, List.cons.injEq, Prod.mk.injEq] at h
      obtain ⟨⟨rfl, rfl⟩, -⟩ := h
      exact ⟨[], [-1], gives_par.2 ⟨_, _, List.mem_cons_self, ⟨_, List.mem_cons_self, visible_plain _, rfl⟩, Gives.text (l := []) (r := [-1]) .nil⟩⟩
    | _ :: _, h => simp [demoFile, bareFile] at h

theorem demo_direct_regular (s : Settings) (hs : s = demoL ∨ s = demoR) : Regular s demoFile (fun _ => true) := by
  refine ⟨by rcases hs with rfl | rfl <;> rfl, by decide, ?_, ?_, ?_, ?_, ?_, ?_⟩
  · intro ps n ents qs h es hu m hm
    have := uses_mem hu
    match ps, h with
    | [], h =>
      simp only [demoFile, List.nil_append, List.cons.injEq, Prod.mk.injEq] at h
      obtain ⟨⟨rfl, rfl⟩, -⟩ := h
      simp only [entryOf, List.map_cons, List.map_nil, List.mem_cons, Option.some.injEq, List.not_mem_nil, or_false] at this
      rcases this with rfl | rfl <;> simp at hm
    | _ :: _, h => simp [demoFile] at h
  · intro k ents hk es hu m hm
    have := uses_mem hu
    simp only [demoFile, List.mem_cons, List.not_mem_nil, or_false, Prod.mk.injEq] at hk
    obtain ⟨rfl, rfl⟩ := hk
    simp only [entryOf, List.map_cons, List.map_nil, List.mem_cons, Option.some.injEq, List.not_mem_nil, or_false] at this
    rcases this with rfl | rfl <;> simp at hm
    subst hm
    simp [demoFile]
  · intro n ents hn es hu
    have := uses_mem hu
    simp only [demoFile, List.mem_cons, List.not_mem_nil, or_false, Prod.mk.injEq] at hn
    obtain ⟨rfl, rfl⟩ := hn
    simp only [entryOf, List.map_cons, List.map_nil, List.mem_cons, Option.some.injEq, List.not_mem_nil, or_false] at this
    rcases this with rfl | rfl <;> simp [Fits, FitsText]
  · intro k ents hk es hu
    have := uses_mem hu
    simp only [demoFile, List.mem_cons, List.not_mem_nil, or_false, Prod.mk.injEq] at hk
    obtain ⟨rfl, rfl⟩ := hk
    simp only [entryOf, List.map_cons, List.map_nil, List.mem_cons, Option.some.injEq, List.not_mem_nil, or_false] at this
    rcases this with rfl | rfl <;> simp [Fits, FitsText]
  · intro n ents hn _ es hu
    have := uses_mem hu
    simp only [demoFile, List.mem_cons, List.not_mem_nil, or_false, Prod.mk.injEq] at hn
    obtain ⟨rfl, rfl⟩ := hn
    simp only [entryOf, List.map_cons, List.map_nil, List.mem_cons, Option.some.injEq, List.not_mem_nil, or_false] at this
    rcases this with rfl | rfl <;> simp [Closed]
  · intro ps n ents h
    match ps, h with
    | [], h =>
      simp only [demoFile, List.nil_append, List.cons.injEq, Prod.mk.injEq] at h
      obtain ⟨⟨rfl, rfl⟩, -⟩ := h
      exact ⟨[], [-1], gives_par.2 ⟨_, _, List.mem_cons_self, ⟨_, List.mem_cons_self, visible_plain _, rfl⟩, Gives.text (l := []) (r := [-1]) .nil⟩⟩
    | _ :: _, h => simp [demoFile] at h

/-- What `parse` gives with the direction `u`. -/
def demoAlpha : Alphabet where
  slexic := [([0x3c, 0x6e, 0x3e], -1), (mark preR Tools.LR, -2), (mark preR Tools.RL, -3), (mark preV [0x78], -4)]
  slexicinv := [[0x3c, 0x6e, 0x3e], mark preR Tools.LR, mark preR Tools.RL, mark preV [0x78]]
  spair := [(toLex (-4, -4), 6), (toLex (-3, -3), 5), (toLex (-2, -2), 2), (toLex (0, -1), 1), (toLex (0, 0), 0), (toLex (0x61, 0x62), 4), (toLex (0x63, 0x63), 7), (toLex (0x73, -1), 3)]
  spairinv := [(0, 0), (0, -1), (-2, -2), (0x73, -1), (0x61, 0x62), (-3, -3), (-4, -4), (0x63, 0x63)]

def demoSecs : List (UString × Transducer Nat) :=
  [([0x6d], ⟨0, [(3, 0)], [(0, [(4, 1, 0), (5, 2, 0)]), (1, [(1, 3, 0), (2, 4, 0)]), (2, [(6, 5, 0)]), (3, []), (4, [(3, 3, 0)]), (5, [(7, 3, 0)])]⟩)]

theorem demo_parse : parse demoPar {} demoFile.nodes = .ok (demoAlpha, demoSecs) := by decide +kernel

theorem demo_small : Chain.Small (fun _ => 0) [] demoAlpha demoSecs where
  letters := by decide
  writable := by
    refine ⟨?_, by decide, by decide, by decide⟩
    intro s hs
    simp only [demoAlpha, List.mem_cons, List.not_mem_nil, or_false] at hs
    rcases hs with rfl | rfl | rfl | rfl
    · exact ⟨⟨[0x6e], rfl⟩, by decide⟩
    · exact ⟨⟨[0x72, 0x3a, 0x4c, 0x52], rfl⟩, by decide⟩
    · exact ⟨⟨[0x72, 0x3a, 0x52, 0x4c], rfl⟩, by decide⟩
    · exact ⟨⟨[0x76, 0x3a, 0x78], rfl⟩, by decide⟩
  sections := by decide
  range := by
    intro e he
    simp only [demoSecs, List.mem_cons, List.not_mem_nil, or_false] at he
    subst he
    exact ⟨by decide, Chain.range_of (by decide) (by decide)⟩

theorem demo_symbols : ∀ p ∈ demoAlpha.spairinv, Tools.Symbol demoAlpha p.1 ∧ Tools.Symbol demoAlpha p.2 := by
  intro p hp
  have key : ∀ x : Int, ((0 ≤ x ∧ x < 2 ^ 29) ∨ x = -1 ∨ x = -2 ∨ x = -3 ∨ x = -4) → Tools.Symbol demoAlpha x := by
    rintro x (h | rfl | rfl | rfl | rfl)
    · exact .inl h
    · exact .inr ⟨by omega, [0x3c, 0x6e, 0x3e], by decide⟩
    · exact .inr ⟨by omega, mark preR Tools.LR, by decide⟩
    · exact .inr ⟨by omega, mark preR Tools.RL, by decide⟩
    · exact .inr ⟨by omega, mark preV [0x78], by decide⟩
  simp only [demoAlpha, List.mem_cons, List.not_mem_nil, or_false] at hp
  rcases hp with rfl | rfl | rfl | rfl | rfl | rfl | rfl | rfl <;> exact ⟨key _ (by decide), key _ (by decide)⟩

/-- What `parse` gives with `lr` and `rl`. -/
def demoAlphaL : Alphabet where
  slexic := [([0x3c, 0x6e, 0x3e], -1)]
  slexicinv := [[0x3c, 0x6e, 0x3e]]
  spair := [(toLex (0, -1), 1), (toLex (0, 0), 0), (toLex (0x61, 0x62), 3), (toLex (0x73, -1), 2)]
  spairinv := [(0, 0), (0, -1), (0x73, -1), (0x61, 0x62)]
def demoAlphaR : Alphabet where
  slexic := [([0x3c, 0x6e, 0x3e], -1)]
  slexicinv := [[0x3c, 0x6e, 0x3e]]
  spair := [(toLex (-1, 0), 1), (toLex (0, 0), 0), (toLex (0x62, 0x61), 2), (toLex (0x63, 0x63), 3)]
  spairinv := [(0, 0), (-1, 0), (0x62, 0x61), (0x63, 0x63)]
def demoSecsL : List (UString × Transducer Nat) := [([0x6d], ⟨0, [(2, 0)], [(0, [(3, 1, 0)]), (1, [(1, 2, 0), (2, 2, 0)]), (2, [])]⟩)]
def demoSecsR : List (UString × Transducer Nat) := [([0x6d], ⟨0, [(2, 0)], [(0, [(2, 1, 0), (3, 2, 0)]), (1, [(1, 2, 0)]), (2, [])]⟩)]

theorem demo_parse_L : Compiler.parse demoL demoFile.nodes = .ok (demoAlphaL, demoSecsL) := by decide +kernel
theorem demo_parse_R : Compiler.parse demoR demoFile.nodes = .ok (demoAlphaR, demoSecsR) := by decide +kernel

theorem demo_small_L : Chain.Small (fun _ => 0) [] demoAlphaL demoSecsL where
  letters := by decide
  writable := by
    refine ⟨?_, by decide, by decide, by decide⟩
    intro s hs
    simp only [demoAlphaL, List.mem_cons, List.not_mem_nil, or_false] at hs
    subst hs
    exact ⟨⟨[0x6e], rfl⟩, by decide⟩
  sections := by decide
  range := by
    intro e he
    simp only [demoSecsL, List.mem_cons, List.not_mem_nil, or_false] at he
    subst he
    exact ⟨by decide, Chain.range_of (by decide) (by decide)⟩

theorem demo_small_R : Chain.Small (fun _ => 0) [] demoAlphaR demoSecsR where
  letters := by decide
  writable := by
    refine ⟨?_, by decide, by decide, by decide⟩
    intro s hs
    simp only [demoAlphaR, List.mem_cons, List.not_mem_nil, or_false] at hs
    subst hs
    exact ⟨⟨[0x6e], rfl⟩, by decide⟩
  sections := by decide
  range := by
    intro e he
    simp only [demoSecsR, List.mem_cons, List.not_mem_nil, or_false] at he
    subst he
    exact ⟨by decide, Chain.range_of (by decide) (by decide)⟩

theorem demo_symbols_L : ∀ p ∈ demoAlphaL.spairinv, Tools.Symbol demoAlphaL p.1 ∧ Tools.Symbol demoAlphaL p.2 := by
  intro p hp
  have key : ∀ x : Int, ((0 ≤ x ∧ x < 2 ^ 29) ∨ x = -1) → Tools.Symbol demoAlphaL x := by
    rintro x (h | rfl)
    · exact .inl h
    · exact .inr ⟨by omega, [0x3c, 0x6e, 0x3e], by decide⟩
  simp only [demoAlphaL, List.mem_cons, List.not_mem_nil, or_false] at hp
  rcases hp with rfl | rfl | rfl | rfl <;> exact ⟨key _ (by decide), key _ (by decide)⟩

theorem demo_symbols_R : ∀ p ∈ demoAlphaR.spairinv, Tools.Symbol demoAlphaR p.1 ∧ Tools.Symbol demoAlphaR p.2 := by
  intro p hp
  have key : ∀ x : Int, ((0 ≤ x ∧ x < 2 ^ 29) ∨ x = -1) → Tools.Symbol demoAlphaR x := by
    rintro x (h | rfl)
    · exact .inl h
    · exact .inr ⟨by omega, [0x3c, 0x6e, 0x3e], by decide⟩
  simp only [demoAlphaR, List.mem_cons, List.not_mem_nil, or_false] at hp
  rcases hp with rfl | rfl | rfl | rfl <;> exact ⟨key _ (by decide), key _ (by decide)⟩

/-- The pairs of the dictionary. -/
theorem demo_gives {s : Settings} {k : UString} {u v : List Int} (h : SecGives s demoFile k u v) :
    (u = [0x61] ∧ v = [0x62, -1]) ∨ (u = [0x61, 0x73] ∧ v = [0x62, -1] ∧ s.rl = false) ∨ (u = [0x63] ∧ v = [0x63] ∧ s.rl = true) := by
  obtain ⟨ents, hk, es, ⟨e, he, hv, hc⟩, hg⟩ := h
  simp only [demoFile, List.mem_cons, List.not_mem_nil, or_false, Prod.mk.injEq] at hk
  obtain ⟨rfl, rfl⟩ := hk
  simp only [List.mem_cons, List.not_mem_nil, or_false] at he
  rcases he with rfl | rfl
  · cases hc
    obtain ⟨l1, r1, l2, r2, h1, h2, hx, hy⟩ := gives_cons hg
    obtain ⟨rfl, rfl⟩ := gives_text h1
    obtain ⟨ents, es, hp, ⟨e, he, hv, hc⟩, h3⟩ := gives_par.1 h2
    simp only [demoFile, List.mem_cons, List.not_mem_nil, or_false, Prod.mk.injEq, true_and] at hp
    subst hp
    simp only [List.mem_cons, List.not_mem_nil, or_false] at he
    rcases he with rfl | rfl
    · cases hc
      obtain ⟨rfl, rfl⟩ := gives_text h3
      exact .inl ⟨hx, hy⟩
    · cases hc
      obtain ⟨rfl, rfl⟩ := gives_text h3
      refine .inr (.inl ⟨hx, hy, ?_⟩)
      have := hv.r
      cases hb : s.rl
      · rfl
      · rw [hb] at this
        revert this
        decide
  · cases hc
    obtain ⟨hx, hy⟩ := gives_text hg
    refine .inr (.inr ⟨hx, hy, ?_⟩)
    have := hv.r
    cases hb : s.rl
    · rw [hb] at this
      revert this
      decide
    · rfl

/-! ## A file for the refutation -/

/-- `a` for the left variant `x`. -/
def leftFile : File Nat Nat where
  tags := []
  pars := []
  secs := [([0x6d], [entryOf { vl := [0x78] } [.text [0x61] [0x61]]])]

def leftBytes : List UInt8 :=
  match ltComp (fun _ => 0) (fun _ => false) demoPar {} [] leftFile.nodes with
  | .ok bs => bs
  | _ => []
def leftBytes' : List UInt8 :=
  match Tools.ltRestrict chooseL leftBytes with
  | .ok bs => bs
  | _ => []

/-- Whether in all sections no arc leaves the initial state. -/
def stuck (bs : List UInt8) : Bool :=
  match BinIO.readSet bs with
  | .ok ((_, _, ts), _) => ts.all fun e => (row e.2 e.2.initial).isEmpty
  | _ => true

theorem stuck_pairs {bs : List UInt8} (h : stuck bs = true) {k : UString} {x y : List Name} (hx : x ≠ []) : ¬ Pairs bs k x y := by
  rintro ⟨ls, fw, ⟨L, a, ts, t, ⟨rest, hst⟩, ht, p, hpath, -⟩, h3, -⟩
  unfold stuck at h
  rw [hst] at h
  simp only [List.all_eq_true, List.isEmpty_iff] at h
  have h0 := h _ ht
  cases hpath with
  | nil => exact hx (by simpa using h3.symm)
  | cons he _ =>
    obtain ⟨x, y, ⟨c, -, he⟩, -, -⟩ := he
    unfold Edge at he
    rw [h0] at he
    cases he

theorem left_parse : Compiler.parse demoL leftFile.nodes =
    .ok (⟨[], [], [(toLex (0, 0), 0), (toLex (0x61, 0x61), 1)], [(0, 0), (0x61, 0x61)]⟩, [([0x6d], ⟨0, [(1, 0)], [(0, [(1, 1, 0)]), (1, [])]⟩)]) := by decide +kernel

theorem left_visible : Visible demoL { vl := [0x78] } := ⟨.inl rfl, by decide, .inl rfl, .inl rfl, fun h => (by cases h), fun _ => .inl rfl⟩

theorem left_regular : Regular demoL leftFile (fun _ => true) := by
  have hes : ∀ k ents, (k, ents) ∈ leftFile.secs → ∀ es, Uses demoL ents es → es = [.text [0x61] [0x61]] := by
    intro k ents hk es hu
    have := uses_mem hu
    simp only [leftFile, List.mem_cons, List.not_mem_nil, or_false, Prod.mk.injEq] at hk
    obtain ⟨rfl, rfl⟩ := hk
    simpa [entryOf] using this
  refine ⟨rfl, by decide, ?_, ?_, ?_, ?_, ?_, ?_⟩
  · intro ps n ents qs h
    simp [leftFile] at h
  · intro k ents hk es hu m hm
    rw [hes k ents hk es hu] at hm
    simp at hm
  · intro n ents hn
    simp [leftFile] at hn
  · intro k ents hk es hu
    rw [hes k ents hk es hu]
    simp [Fits, FitsText]
  · intro n ents hn
    simp [leftFile] at hn
  · intro ps n ents h
    simp [leftFile] at h

theorem left_fit : Fit demoL { dir := Tools.LR, lefts := [[0x78]] } leftFile := by
  have hE : ∀ e, Entry leftFile e → e = entryOf { vl := [0x78] } [.text [0x61] [0x61]] := by
    rintro e (⟨n, ents, h, he⟩ | ⟨n, ents, h, he⟩)
    · simp [leftFile] at h
    · simp only [leftFile, List.mem_cons, List.not_mem_nil, or_false, Prod.mk.injEq] at h
      obtain ⟨-, rfl⟩ := h
      simpa using he
  refine ⟨by decide, fun t ht => (by cases ht), ?_, ?_, ?_, ?_⟩
  · intro e he
    rw [hE e he]
    unfold Single
    decide
  · intro _ e he
    rw [hE e he]
    exact .inr (by decide)
  · intro h
    cases h
  · intro e he es hes k hk
    rw [hE e he] at hes
    cases hes
    rw [List.mem_singleton.1 hk]
    simp [Own, leftFile]

end Verif.Unified
