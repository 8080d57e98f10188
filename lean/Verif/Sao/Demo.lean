import Verif.Sao.Spec
import Verif.Proc.Demo

/-! # A small text for the SAO mode -/

namespace Verif.Sao

open Verif.State Verif.Stream Verif.Proc
open Verif.Fst (Path)

/-- The pieces of a text of plain characters. -/
def plainText (s : String) : List Piece := s.toList.map fun c => .ch c.toNat

/-- `Ab xyz a c. `, a section, `ab\<AB a cdx` and a newline. -/
def demoText : List Piece :=
  plainText "Ab xyz a c. " ++ [.cdata [0x71, 0x3e, 0x77]] ++ plainText "ab" ++ [.esc 0x3c] ++ plainText "AB a cdx\n"

/-- The characters of `demoText`. -/
def demoVals : List Int := "Ab xyz a c.  ab<AB a cdx\n".toList.map fun c => (c.toNat : Int)

theorem demo_vals : vals demoText = demoVals := by decide +kernel

/-! ## What starts like an entry -/

def foldsB : List Int → List Int → Bool
  | [], [] => true
  | x :: xs, y :: ys => (y == x || (decide (0x41 ≤ x) && decide (x ≤ 0x5a) && y == x + 32)) && foldsB xs ys
  | _, _ => false

theorem foldsB_of {xs ys : List Int} (h : List.Forall₂ (Folds demo) xs ys) : foldsB xs ys = true := by
  induction h with
  | nil => rfl
  | cons h _ ih =>
    rw [foldsB, ih, Bool.and_true]
    rcases demo_folds h with h | ⟨h1, h2, h3⟩
    · simp [h]
    · simp [h1, h2, h3]

def liveB (xs : List Int) : Bool := (pathsFrom (arcsOf demoArcs) 9 0).any fun e => foldsB xs (inputs e.1)

theorem liveB_of {xs : List Int} (h : Live demo xs) : liveB xs = true := by
  obtain ⟨ls, p, hr⟩ := h
  exact List.any_eq_true.2 ⟨(ls, p), demo_reads hr, foldsB_of hr.2⟩

def alphaB (c : Int) : Bool := demo.isAlphabetic c

/-! ## The dictionary -/

theorem demo_noEmpty : ¬ Entry demo [] := demo_plain.noEmpty

theorem plain : Plain demo demoName where
  noEmpty := demo_noEmpty
  noSpaceStart c h := demo_plain.noSpaceStart c h
  tags q l p h hl := by
    unfold demoName
    split <;> simp
  escapedSpace := by decide

theorem demo_arc (q : Nat) (x : Int) (d : Int × Nat × Nat) (h : graphOf demoArcs q x = some [d]) : Arc demo.graph q (x, 0, d.1, d.2.2) d.2.1 :=
  ⟨[d], h, rfl⟩

/-- `a c` -/
theorem demo_phrase : Entry demo [0x61, 0x20, 0x63] := by
  refine .inl ⟨[(0x61, 0, 0x61, 0), (0x20, 0, 0x20, 0), (0x63, 0, 0x63, 0), (0, 0, -1, 0)], 7, 0, ⟨?_, ?_⟩, by decide⟩
  · exact .cons (demo_arc 0 0x61 _ rfl) (.cons (demo_arc 1 0x20 _ rfl) (.cons (demo_arc 5 0x63 _ rfl) (.cons (demo_arc 6 0 _ rfl) (.nil _))))
  · exact .cons (.inl rfl) (.cons (.inl rfl) (.cons (.inl rfl) .nil))

/-- `a cd` -/
theorem demo_loose : In demo demo.postblank [0x61, 0x20, 0x63, 0x64] := by
  refine ⟨[(0x61, 0, 0x61, 0), (0x20, 0, 0x20, 0), (0x63, 0, 0x63, 0), (0x64, 0, 0x64, 0)], 8, 1, ⟨?_, ?_⟩, by decide⟩
  · exact .cons (demo_arc 0 0x61 _ rfl) (.cons (demo_arc 1 0x20 _ rfl) (.cons (demo_arc 5 0x63 _ rfl) (.cons (demo_arc 6 0x64 _ rfl) (.nil _))))
  · exact .cons (.inl rfl) (.cons (.inl rfl) (.cons (.inl rfl) (.cons (.inl rfl) .nil)))

/-! ## The text -/

/-- A part of the text that starts like an entry consists of letters, or is at one of two places. -/
theorem demo_parts : ∀ i ≤ 25, ∀ j ≤ 25, liveB ((demoVals.drop i).take j) = true → ((demoVals.drop i).take j).all alphaB = true ∨ i = 7 ∨ i = 19 := by
  decide +kernel

theorem demo_section : ∀ i ≤ 12, liveB ((demoVals.drop i).take (12 - i)) = true →
    (((demoVals.drop i).take (12 - i)).all fun v => !demoChars.isSpace v) = true ∧ liveB ((demoVals.drop i).take (12 - i) ++ [0x20]) = false := by
  decide +kernel

theorem demo_length : demoText.length = 25 := by decide +kernel

def isCdata : Piece → Bool
  | .cdata _ => true
  | _ => false

theorem demo_one : ∀ k < 25, (demoText[k]?.map isCdata) = some true → k = 12 := by decide +kernel

theorem part {us ys ws : List Piece} (e : demoText = us ++ (ys ++ ws)) : vals ys = (demoVals.drop us.length).take ys.length ∧ us.length ≤ 25 ∧ ys.length ≤ 25 := by
  have h := demo_length
  rw [e] at h
  simp only [List.length_append] at h
  refine ⟨?_, by omega, by omega⟩
  rw [← demo_vals, e]
  simp [vals]

theorem demo_fit : Fit demo demoText where
  ok := by
    have hpl : ∀ s : String, (∀ c ∈ s.toList.map Char.toNat, c < 0xd800 ∧ c ≠ 0 ∧ (c : Int) ∉ escaped) → ∀ p ∈ plainText s, p.Ok := by
      intro s h p hp
      obtain ⟨c, hc, rfl⟩ := List.mem_map.1 hp
      obtain ⟨h1, h2, h3⟩ := h _ (List.mem_map_of_mem hc)
      exact ⟨.inl h1, h2, h3⟩
    have h1 := hpl "Ab xyz a c. " (by decide +kernel)
    have h2 := hpl "ab" (by decide +kernel)
    have h3 := hpl "AB a cdx\n" (by decide +kernel)
    intro p hp
    simp only [demoText, List.mem_append, List.mem_cons, List.not_mem_nil, or_false] at hp
    rcases hp with (((hp | rfl) | hp) | rfl) | hp
    · exact h1 p hp
    · refine ⟨?_, ?_⟩
      · intro c hc
        simp only [List.mem_cons, List.not_mem_nil, or_false] at hc
        rcases hc with rfl | rfl | rfl <;> exact ⟨.inl (by decide), by decide, by decide⟩
      · intro xs ys e
        have := congrArg (List.count 0x5d) e
        simp at this
    · exact h2 p hp
    · exact (by decide : ((0x3c : Nat) : Int) ∈ escaped)
    · exact h3 p hp
  ends := by
    intro qs p e
    have hl : (vals demoText).getLast? = some (p.val : Int) := by rw [e]; simp [vals]
    rw [demo_vals, show demoVals.getLast? = some 0x0a by decide +kernel, Option.some.injEq] at hl
    rw [← hl]
    refine ⟨by decide, fun xs hx hm => ?_⟩
    have := demo_letters hx _ hm
    omega
  short := by
    intro us ys zs q ws e _ _
    have h1 := congrArg List.length e
    have h2 := demo_length
    simp only [List.length_append, List.length_cons] at h1 ⊢
    omega
  tidy := by
    intro us ys ws e hl hno v hv
    obtain ⟨h1, h2, h3⟩ := part e
    have hall : vals (ys ++ ws) = demoVals.drop us.length := by
      rw [← demo_vals, e]
      simp [vals]
    have hl' := liveB_of hl
    rw [h1] at hl'
    rcases demo_parts _ h2 _ h3 hl' with h | h | h
    · rw [h1] at hv
      exact List.all_eq_true.1 h v hv
    · exfalso
      refine hno [0x61, 0x20, 0x63] ⟨by simp, 0x2e, demoVals.drop 11, ?_, demo_phrase, .inr (by decide)⟩
      rw [hall, h]
      decide +kernel
    · exfalso
      refine hno [0x61, 0x20, 0x63, 0x64] ⟨by simp, 0x78, demoVals.drop 24, ?_, .inr (.inr (.inl demo_loose)), .inl (.inr demo_loose)⟩
      rw [hall, h]
      decide +kernel
  clear := by
    intro us ys cs ws e hl
    obtain ⟨h1, h2, h3⟩ := part e
    have hk : (demoText[us.length + ys.length]?.map isCdata) = some true := by
      rw [e]
      simp [isCdata]
    have hlt : us.length + ys.length < 25 := by
      have := demo_length
      rw [e] at this
      simp only [List.length_append, List.length_cons] at this
      omega
    have h12 := demo_one _ hlt hk
    have hj : ys.length = 12 - us.length := by omega
    rw [hj] at h1
    have hl' := liveB_of hl
    rw [h1] at hl'
    obtain ⟨g1, g2⟩ := demo_section us.length (by omega) hl'
    rw [← h1] at g1 g2
    refine ⟨fun v hv => ?_, fun h => ?_⟩
    · have := List.all_eq_true.1 g1 v hv
      rw [Bool.not_eq_true'] at this
      exact this
    · rw [liveB_of h] at g2; cases g2

/-! ## Output -/

/-- Whether the output for a text is the given one. -/
def writes (σ : Setting Nat) (n : Nat) (text : List Nat) (out : UString) : Bool :=
  match sao σ n (text.flatMap Input.utf8) with
  | .ok o => o == out
  | _ => false

/-- Code points and units of ASCII text. -/
def cps (s : String) : List Nat := s.toList.map Char.toNat

def units (s : String) : UString := s.toList.map fun c => UInt16.ofNat c.toNat

end Verif.Sao
