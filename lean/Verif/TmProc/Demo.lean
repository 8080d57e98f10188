import Verif.TmProc.Paths
import Verif.Proc.Demo

/-! # A small translation memory -/

namespace Verif.TmProc

open Verif.State Verif.Stream Verif.Walk
open Verif.Proc (graphOf arcsOf mem_arcsOf path_up path_listed pathsFrom)
open Verif.Tmx (Filled slotted finalsText)

/-- `ab cd` has the target `x(#)y` with a blank, `c<n>` the target `z@(1)` with the number. -/
def demoArcs : List ((Nat × Int) × List (Int × Nat × Nat)) :=
  [((0, 0x61), [(0x78, 1, 0)]), ((1, 0x62), [(0x28, 2, 0)]), ((2, 0x20), [(0x23, 3, 0)]), ((3, 0x63), [(0x29, 4, 0)]), ((4, 0x64), [(0x79, 5, 0)]),
    ((0, 0x63), [(0x7a, 6, 0)]), ((6, -1), [(0x40, 7, 0)]), ((7, 0), [(0x28, 8, 0)]), ((8, 0), [(0x31, 9, 0)]), ((9, 0), [(0x29, 10, 0)])]

def demoChars : Chars where
  isSpace c := decide (c = 0x20 ∨ c = 0x0a)
  isPunct c := decide (c = 0x2e ∨ c = 0x2c ∨ c = 0x5d)
  isDigit c := decide (0x30 ≤ c ∧ c ≤ 0x39)
  isUpper c := decide (0x41 ≤ c ∧ c ≤ 0x5a)
  toLower c := if 0x41 ≤ c ∧ c ≤ 0x5a then c + 32 else c

def demo : Setting Nat where
  chars := demoChars
  graph := graphOf demoArcs
  root := 0
  finals := [(5, 0), (10, 0)]
  alphabet := Alphabet.empty.includeSymbol numberTag
  letters := []
  spaces := false

theorem demo_up : ∀ a ∈ arcsOf demoArcs, a.1 < a.2.2 ∧ a.2.2 < 11 := by decide

theorem demo_regular : Regular demo where
  number := by decide +kernel
  digits d h1 h2 := by simp [demo, demoChars]; omega
  notDigit := by decide
  nul := by decide
  space := by decide
  tag := by decide
  lowerZero c h := by
    simp only [demo, demoChars] at h
    split at h <;> omega
  finite := ⟨11, fun q l p h => by have := demo_up _ (mem_arcsOf h); simp only at this; omega⟩
  noCycle q ls p _ ls' h := by
    obtain ⟨h1, -⟩ := path_up demo_up ls' h.1
    exact List.length_eq_zero_iff.1 (by omega)

/-- What the paths of the memory read, with their ends and what they write. -/
def demoPaths : List (List Int × Nat) := (pathsFrom (arcsOf demoArcs) 11 0).map fun e => (inputs e.1, e.2)

/-- What is read for a symbol of the memory. -/
theorem demo_reads {x z : Int} (h : Reads demo x z) : z = x ∨ (0x41 ≤ x ∧ x ≤ 0x5a ∧ z = x + 32) := by
  obtain ⟨-, h | ⟨h1, h2⟩⟩ := h
  · exact .inl h
  · have h1' : 0x41 ≤ x ∧ x ≤ 0x5a := by simpa [demo, demoChars] using h1
    refine .inr ⟨h1'.1, h1'.2, ?_⟩
    simpa [demo, demoChars, h1'] using h2

theorem demo_inputs {ls : List (Label Nat)} {p : Nat} (h : Fst.Path (Arc demo.graph) demo.root ls p) : (inputs ls, p) ∈ demoPaths :=
  List.mem_map.2 ⟨(ls, p), path_listed demo_up h, rfl⟩

/-- Two symbols of the memory that are read for the same symbol are the same. -/
theorem demo_same {xs zs zs' : List Int} (h : List.Forall₂ (Reads demo) xs zs) (h' : List.Forall₂ (Reads demo) xs zs') (hz : ∀ z ∈ zs, ¬ (0x41 ≤ z ∧ z ≤ 0x5a))
    (hz' : ∀ z ∈ zs', ¬ (0x41 ≤ z ∧ z ≤ 0x5a)) : zs = zs' := by
  induction h generalizing zs' with
  | nil => cases h'; rfl
  | @cons x z xs zs h1 _ ih =>
    cases h' with
    | @cons _ z' _ zs' h2 h3 =>
      have e : z = z' := by
        have k1 := hz z (by simp)
        have k2 := hz' z' (by simp)
        rcases demo_reads h1 with rfl | ⟨h4, h5, rfl⟩ <;> rcases demo_reads h2 with rfl | ⟨h6, h7, rfl⟩ <;> first | rfl | omega
      rw [e, ih h3 (fun z hz1 => hz z (by simp [hz1])) (fun z hz1 => hz' z (by simp [hz1]))]

theorem demo_lower : ∀ e ∈ demoPaths, ∀ z ∈ e.1, ¬ (0x41 ≤ z ∧ z ≤ 0x5a) := by decide +kernel

theorem demo_simple : Simple demo where
  empty := by
    rintro ⟨ls, s, h⟩
    obtain ⟨p, w, h1, h2, h3, -⟩ := (has_paths [] ls s).1 h
    have key : ∀ e ∈ demoPaths, e.1 = [] → ¬ (e.2 = 5 ∨ e.2 = 10) := by decide +kernel
    refine key _ (demo_inputs h1) (List.forall₂_nil_left_iff.1 h2) ?_
    simp only [demo, List.mem_cons, Prod.mk.injEq, List.not_mem_nil, or_false] at h3
    simp only
    omega
  start := by
    intro x hx h
    obtain ⟨ls, p, h1, h2⟩ := (live_paths [x]).1 h
    have hx' : x = 0x20 ∨ x = 0x0a := by simpa [demo, demoChars] using hx
    have key : ∀ e ∈ demoPaths, e.1 ≠ [0x20] ∧ e.1 ≠ [0x0a] := by decide +kernel
    generalize hi : inputs ls = zs at h2
    cases h2 with
    | cons h3 h4 =>
      cases h4
      have := key _ (demo_inputs h1)
      rw [hi] at this
      rcases demo_reads h3 with rfl | ⟨h4, h5, -⟩
      · rcases hx' with rfl | rfl
        · exact this.1 rfl
        · exact this.2 rfl
      · omega
  longer := by
    rintro xs x ⟨ls, s, h⟩ hx h'
    obtain ⟨p, w, h1, h2, h3, -⟩ := (has_paths xs ls s).1 h
    obtain ⟨ls', p', h4, h5⟩ := (live_paths (xs ++ [x])).1 h'
    have hx' : x = 0x2e ∨ x = 0x2c ∨ x = 0x5d := by simpa [demo, demoChars, Stop] using hx
    have m1 := demo_inputs h1
    have m2 := demo_inputs h4
    generalize hi : inputs ls' = zs at h5
    obtain ⟨g1, g2⟩ : List.Forall₂ (Reads demo) xs (zs.take xs.length) ∧ List.Forall₂ (Reads demo) [x] (zs.drop xs.length) := by
      have a1 := List.forall₂_take xs.length h5
      have a2 := List.forall₂_drop xs.length h5
      simp only [List.take_left', List.drop_left'] at a1 a2
      exact ⟨a1, a2⟩
    have key : ∀ e ∈ demoPaths, ∀ z ∈ e.1, z ≠ 0x2e ∧ z ≠ 0x2c ∧ z ≠ 0x5d := by decide +kernel
    generalize hd : zs.drop xs.length = ds at g2
    cases g2 with
    | @cons _ z _ _ g3 g4 =>
      have hm : z ∈ inputs ls' := by
        rw [hi]
        exact List.mem_of_mem_drop (by rw [hd]; simp)
      have := key _ m2 z hm
      rcases demo_reads g3 with rfl | ⟨h4, h5, -⟩ <;> omega

/-! ## Segments -/

/-- A segment with one path has one target. -/
theorem targets_one {xs : List Int} {l0 : List (Label Nat)} {s0 : List Int} (h0 : Has demo xs l0 s0) (h : ∀ ls s, Has demo xs ls s → ls = l0) {seqs : List (List Int)}
    (ht : Targets demo xs seqs) : seqs = [s0] := by
  obtain ⟨⟨L, hn, hL⟩, hall⟩ := ht
  have hs : ∀ s, Has demo xs l0 s → s = s0 := by
    intro s hs
    obtain ⟨_, _, -, -, -, rfl⟩ := (has_paths xs l0 s).1 hs
    obtain ⟨_, _, -, -, -, rfl⟩ := (has_paths xs l0 s0).1 h0
    rfl
  have hm := hall _ _ h0
  cases hL with
  | nil => cases hm
  | @cons l s L seqs h1 h2 =>
    have e1 := h _ _ h1
    subst e1
    have e2 := hs _ h1
    subst e2
    cases h2 with
    | nil => rfl
    | @cons l' s' L seqs h3 h4 =>
      have e3 := h _ _ h3
      subst e3
      simp at hn

/-- The paths of a segment. -/
theorem demo_has {xs : List Int} {l0 : List (Label Nat)} {p : Nat} (hx : ∀ e ∈ pathsFrom (arcsOf demoArcs) 11 0, (e.2 = 5 ∨ e.2 = 10) → inputs e.1 = inputs l0 → e.1 = l0)
    (hl : Fst.Path (Arc demo.graph) demo.root l0 p) (hr : List.Forall₂ (Reads demo) xs (inputs l0)) (hp : p = 5 ∨ p = 10) :
    Has demo xs l0 ((written l0).map (·.1)) ∧ ∀ ls s, Has demo xs ls s → ls = l0 := by
  refine ⟨(has_paths _ _ _).2 ⟨p, 0, hl, hr, ?_, rfl⟩, ?_⟩
  · simp only [demo, List.mem_cons, Prod.mk.injEq, and_true, List.not_mem_nil, or_false]
    exact hp
  · intro ls s h
    obtain ⟨p', w, h1, h2, h3, -⟩ := (has_paths xs ls s).1 h
    refine hx (ls, p') (path_listed demo_up h1) ?_ ?_
    · simp only [demo, List.mem_cons, Prod.mk.injEq, List.not_mem_nil, or_false] at h3
      simp only
      omega
    · exact demo_same h2 hr (demo_lower _ (demo_inputs h1)) (demo_lower _ (demo_inputs hl))

def firstPath : List (Label Nat) := [(0x61, 0, 0x78, 0), (0x62, 0, 0x28, 0), (0x20, 0, 0x23, 0), (0x63, 0, 0x29, 0), (0x64, 0, 0x79, 0)]
def secondPath : List (Label Nat) := [(0x63, 0, 0x7a, 0), (-1, 0, 0x40, 0), (0, 0, 0x28, 0), (0, 0, 0x31, 0), (0, 0, 0x29, 0)]

/-- `Ab[-]cd` -/
def first : List Token := [.ch 0x41, .ch 0x62, .super [.raw 0x2d], .ch 0x63, .ch 0x64]
/-- `c12` -/
def second : List Token := [.ch 0x63, .num [0x31, 0x32]]

theorem arc_of {q p : Nat} {l : Label Nat} {ds : List (Int × Nat × Nat)} (h1 : graphOf demoArcs q l.1 = some ds) (h2 : ds[l.2.1]? = some (l.2.2.1, p, l.2.2.2)) :
    Arc demo.graph q l p := ⟨ds, h1, h2⟩

theorem reads_same {x : Int} (h : x ≠ 0) : Reads demo x x := ⟨h, .inl rfl⟩

theorem first_has : Has demo (vals first) firstPath ((written firstPath).map (·.1)) ∧ ∀ ls s, Has demo (vals first) ls s → ls = firstPath := by
  refine demo_has (p := 5) (by decide +kernel) ?_ ?_ (.inl rfl)
  · exact .cons (arc_of rfl rfl) (.cons (arc_of rfl rfl) (.cons (arc_of rfl rfl) (.cons (arc_of rfl rfl) (.cons (arc_of rfl rfl) (.nil _)))))
  · exact .cons ⟨by decide, .inr ⟨by decide, by decide⟩⟩ (.cons (reads_same (by decide)) (.cons (reads_same (by decide)) (.cons (reads_same (by decide)) (.cons (reads_same (by decide)) .nil))))

theorem second_has : Has demo (vals second) secondPath ((written secondPath).map (·.1)) ∧ ∀ ls s, Has demo (vals second) ls s → ls = secondPath := by
  refine demo_has (p := 10) (by decide +kernel) ?_ ?_ (.inr rfl)
  · exact .cons (arc_of rfl rfl) (.cons (arc_of rfl rfl) (.cons (arc_of rfl rfl) (.cons (arc_of rfl rfl) (.cons (arc_of rfl rfl) (.nil _)))))
  · exact .cons (reads_same (by decide)) (.cons (reads_same (by decide)) .nil)

/-- `x-y` is written for `Ab[-]cd`. -/
theorem first_written : Written demo first (.ch 0x2c) [0x78, 0x2d, 0x79] := by
  intro seqs h
  have := targets_one first_has.1 first_has.2 h
  subst this
  refine ⟨[([0x2f, 0x78], .blank)], [0x79], by decide +kernel, ?_⟩
  exact Filled.blank (s := [0x2f, 0x78]) (x := 0x5b) (b := [0x2d]) (y := 0x5d) (by decide) (.last (by decide))

/-- `z12` is written for `c12`. -/
theorem second_written : Written demo second (.ch 0x2e) [0x7a, 0x31, 0x32] := by
  intro seqs h
  have := targets_one second_has.1 second_has.2 h
  subst this
  refine ⟨[([0x2f, 0x7a], .num 1)], [], by decide +kernel, ?_⟩
  exact Filled.num (s := [0x2f, 0x7a]) (n := [0x31, 0x32]) (by decide) rfl (by decide) (.last (by decide))

/-! ## Texts -/

theorem demo_live {xs : List Int} (h : (match after demo 20 xs.reverse with | .ok st => !st.isEmpty | _ => false) = true) : Live demo xs := by
  cases e : after demo 20 xs.reverse with
  | ok st =>
    rw [e] at h
    exact (live_after demo_regular e).2 (by simpa using h)
  | exit => rw [e] at h; cases h
  | exception => rw [e] at h; cases h
  | ub => rw [e] at h; cases h

theorem demo_dead {xs : List Int} (h : after demo 20 xs.reverse = .ok []) : ¬ Live demo xs := fun hl => (live_after demo_regular h).1 hl rfl

/-- `Ab[-]cd, c12. aq.` -/
def demoText : List Token := first ++ .ch 0x2c :: .ch 0x20 :: (second ++ .ch 0x2e :: .ch 0x20 :: ([.ch 0x61] ++ [.ch 0x71] ++ [.ch 0x2e]))

/-- `[x-y], [z12]. aq.` -/
theorem demo_says : Says demo demoText
    [0x5b, 0x78, 0x2d, 0x79, 0x5d, 0x2c, 0x20, 0x5b, 0x7a, 0x31, 0x32, 0x5d, 0x2e, 0x20, 0x61, 0x71, 0x2e] := by
  have s1 : Segment demo (vals first) := ⟨_, _, first_has.1⟩
  have s2 : Segment demo (vals second) := ⟨_, _, second_has.1⟩
  refine Says.segment (cs := first) (t := .ch 0x2c) (txt := [0x78, 0x2d, 0x79]) (by decide) s1 (.inl (by decide)) (demo_dead (by decide +kernel)) first_written (by decide) (by decide) ?_
  refine Says.gap (t := .ch 0x2c) (.inr (by decide)) (demo_dead (by decide +kernel)) ?_
  refine Says.gap (t := .ch 0x20) (.inl (by decide)) (demo_dead (by decide +kernel)) ?_
  refine Says.segment (cs := second) (t := .ch 0x2e) (txt := [0x7a, 0x31, 0x32]) (by decide) s2 (.inl (by decide)) (demo_dead (by decide +kernel)) second_written (by decide) (by decide) ?_
  refine Says.gap (t := .ch 0x2e) (.inr (by decide)) (demo_dead (by decide +kernel)) ?_
  refine Says.gap (t := .ch 0x20) (.inl (by decide)) (demo_dead (by decide +kernel)) ?_
  refine Says.word (pre := [.ch 0x61]) (ws := []) (w := .ch 0x71) (t := .ch 0x2e) (demo_live (by decide +kernel)) (demo_dead (by decide +kernel)) ?_ (.inr (by decide)) ?_
  · intro x hx
    rw [List.mem_singleton.1 hx]
    rintro (h | h) <;> exact absurd h (by decide)
  · exact Says.gap (t := .ch 0x2e) (.inr (by decide)) (demo_dead (by decide +kernel)) .nil

/-- `ab.qq` -/
def otherText : List Token := [.ch 0x61, .ch 0x62] ++ .ch 0x2e :: ([] ++ [.ch 0x71, .ch 0x71])

theorem other_says : Says demo otherText [0x61, 0x62, 0x2e, 0x71, 0x71] := by
  refine Says.part (cs := [.ch 0x61, .ch 0x62]) (t := .ch 0x2e) (by decide) (demo_live (by decide +kernel)) ?_ (.inr (by decide)) (demo_dead (by decide +kernel)) ?_
  · rintro ⟨⟨ls, s, h⟩, -⟩
    obtain ⟨p, w, h1, h2, h3, -⟩ := (has_paths _ ls s).1 h
    have key : ∀ e ∈ demoPaths, e.1 = [0x61, 0x62] → ¬ (e.2 = 5 ∨ e.2 = 10) := by decide +kernel
    refine key _ (demo_inputs h1) (demo_same h2 (zs' := [0x61, 0x62]) (.cons (reads_same (by decide)) (.cons (reads_same (by decide)) .nil)) (demo_lower _ (demo_inputs h1)) (by decide)) ?_
    simp only [demo, List.mem_cons, Prod.mk.injEq, List.not_mem_nil, or_false] at h3
    simp only
    omega
  · refine Says.gap (t := .ch 0x2e) (.inr (by decide)) (demo_dead (by decide +kernel)) ?_
    refine Says.final (pre := []) (w := .ch 0x71) (ws := [.ch 0x71]) (demo_live (by decide +kernel)) (demo_dead (by decide +kernel)) ?_ rfl rfl
    intro x hx
    have : x = .ch 0x71 := by simpa using hx
    rw [this]
    rintro (h | h) <;> exact absurd h (by decide)

end Verif.TmProc
