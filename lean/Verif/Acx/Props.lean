import Verif.Acx.Apply
import Verif.Tools.Files

/-! # Properties of `lt-apply-acx` -/

namespace Verif.Acx

open Verif.Fst Verif.Tools
open Verif.Compression (Dbl)

/-- **C96** `readACX` reads a file exactly when it is as it should be, and ends the program with an error otherwise. -/
theorem C96_read (root : List Node) :
    (Good root → ∃ acx, readACX root = .ok acx ∧ ∀ x z : Int, (∃ zs, mapFind x acx = some zs ∧ z ∈ zs) ↔ ∃ m n : Nat, x = m ∧ z = n ∧ Effective root m n) ∧
      (¬ Good root → readACX root = .exit) := by
  refine ⟨fun h => ?_, readNodes_bad root []⟩
  obtain ⟨M, hM⟩ : ∃ M, ∀ c ∈ root, c.below.length ≤ M := by
    clear h
    induction root with
    | nil => exact ⟨0, by simp⟩
    | cons c cs ih =>
      obtain ⟨M, hM⟩ := ih
      refine ⟨max c.below.length M, fun d hd => ?_⟩
      rcases List.mem_cons.1 hd with rfl | hd
      · exact le_max_left _ _
      · exact (hM d hd).trans (le_max_right _ _)
  obtain ⟨acx, g1, -, g3⟩ := readNodes_good root [] h hM (by simp [mapFind])
  refine ⟨acx, g1, fun x z => (g3 x z).trans ?_⟩
  simp [Equiv', mapFind]

/-- **C96** `lt-apply-acx` turns a compiled dictionary into a compiled dictionary with the same letters, tags and sections in which every section has
exactly the paths of the old one and those that one gets by putting declared equivalents in place of letters of the left side, with the same weights.
Of several `char` elements for one character only the first that declares anything counts. `M` bounds the equivalents of a character. -/
theorem C96_apply_partial {bs : List UInt8} {L : List UInt32} {a : Alphabet} {ts : List (UString × Transducer Dbl)} (hd : Dictionary bs L a ts)
    {root : List Node} (hg : Good root) {M : Nat} (hM : ∀ c ∈ root, c.below.length ≤ M) (hn : (M + 1) * a.spairinv.length < 2 ^ 30)
    (hrow : ∀ e ∈ ts, ∀ r ∈ e.2.transitions, (M + 1) * r.2.length < 2 ^ 30) :
    ∃ bs' a' ts', ltApplyAcx bs root = .ok bs' ∧ Dictionary bs' L a' ts' ∧ a'.slexicinv = a.slexicinv ∧ (∀ k, Has bs' k ↔ Has bs k) ∧
      ∀ k ls fw, Says bs' k ls fw ↔ ∃ ls', Says bs k ls' fw ∧ List.Forall₂ (Variant (Effective root)) ls' ls := by
  obtain ⟨acx, f1, f2, f3⟩ := readNodes_good root [] hg hM (by simp [mapFind])
  obtain ⟨a', ts', g1, g2, g3, g4, g5⟩ := apply_all (E := Effective root) (fun x zs h => (f2 x zs h).2) (fun x z => (f3 x z).trans (by simp [Equiv', mapFind]))
    (fun m n h => by
      obtain ⟨-, c, -, -, -, ⟨e, -, h, -⟩, -⟩ := h
      omega) hd.sane hd.parts hrow
  obtain ⟨bs', j1, j2, j3, j4⟩ := rewritten (C := fun X ls fw => ∃ ls', X ls' fw ∧ List.Forall₂ (Variant (Effective root)) ls' ls) hd g2
    (fun X Y h ls fw => exists_congr fun ls' => and_congr_left fun _ => h ls' fw) (fun X h ls fw => by rintro ⟨ls', h1, -⟩; exact h ls' fw h1) g5
    (by rw [g3]; exact hd.ntags) (by omega)
  obtain ⟨rest, hr⟩ := hd.stored
  exact ⟨bs', a', ts', by simp only [ltApplyAcx, readACX, f1, hr, Res.bind_ok, g1, j1], j2, g3, j3, j4⟩

/-- **C96** If no character has two `char` elements with equivalents, all declared equivalents count. -/
theorem C96_apply {bs : List UInt8} {L : List UInt32} {a : Alphabet} {ts : List (UString × Transducer Dbl)} (hd : Dictionary bs L a ts)
    {root : List Node} (hg : Good root) (hu : root.Pairwise (fun c d => ∀ x, Single c.value x → Single d.value x → c.below = []))
    {M : Nat} (hM : ∀ c ∈ root, c.below.length ≤ M) (hn : (M + 1) * a.spairinv.length < 2 ^ 30)
    (hrow : ∀ e ∈ ts, ∀ r ∈ e.2.transitions, (M + 1) * r.2.length < 2 ^ 30) :
    ∃ bs' a' ts', ltApplyAcx bs root = .ok bs' ∧ Dictionary bs' L a' ts' ∧ a'.slexicinv = a.slexicinv ∧ (∀ k, Has bs' k ↔ Has bs k) ∧
      ∀ k ls fw, Says bs' k ls fw ↔ ∃ ls', Says bs k ls' fw ∧ List.Forall₂ (Variant (Declares root)) ls' ls := by
  have he : Declares root = Effective root := by
    funext x z
    refine propext ⟨?_, ?_⟩
    · rintro ⟨c, hc, h1, h2⟩
      obtain ⟨pre, post, rfl⟩ := List.append_of_mem hc
      exact ⟨pre, c, post, rfl, h1, h2, fun d hd' h3 => (List.pairwise_append.1 hu).2.2 d hd' c List.mem_cons_self x h3 h1⟩
    · rintro ⟨pre, c, post, rfl, h1, h2, -⟩
      exact ⟨c, by simp, h1, h2⟩
  rw [he]
  exact C96_apply_partial hd hg hM hn hrow

/-- A file of equivalents with `á` and `à` for `a`, in one element. -/
def demoRoot : List Node :=
  [⟨charNode, some [0x61], [⟨equivNode, some [0xe1]⟩, ⟨equivNode, some [0xe0]⟩]⟩, ⟨charNode, some [0x65], [⟨equivNode, some [0xe9]⟩]⟩]

theorem demoRoot_good : Good demoRoot := by
  intro c hc
  simp only [demoRoot, List.mem_cons, List.not_mem_nil, or_false] at hc
  rcases hc with rfl | rfl
  · refine ⟨rfl, ⟨0x61, by decide, rfl⟩, fun e he => ?_⟩
    simp only [List.mem_cons, List.not_mem_nil, or_false] at he
    rcases he with rfl | rfl
    · exact ⟨rfl, 0xe1, by decide, rfl⟩
    · exact ⟨rfl, 0xe0, by decide, rfl⟩
  · refine ⟨rfl, ⟨0x65, by decide, rfl⟩, fun e he => ?_⟩
    simp only [List.mem_cons, List.not_mem_nil, or_false] at he
    subst he
    exact ⟨rfl, 0xe9, by decide, rfl⟩

/-- The hypotheses are met by the file of `Verif.Tools.Files`, whose sections have `a` on the left. -/
example : ∃ bs, Dictionary bs [0x61, 0x62] demoAlpha [([0x6d], demoSection)] ∧ Good demoRoot ∧
    demoRoot.Pairwise (fun c d => ∀ x, Single c.value x → Single d.value x → c.below = []) ∧ (∀ c ∈ demoRoot, c.below.length ≤ 2) ∧
    (2 + 1) * demoAlpha.spairinv.length < 2 ^ 30 ∧ (∀ r ∈ demoSection.transitions, (2 + 1) * r.2.length < 2 ^ 30) ∧ Declares demoRoot 0x61 0xe0 := by
  obtain ⟨bs, -, h⟩ := demoFile
  refine ⟨bs, h, demoRoot_good, ?_, by decide, by decide, by decide, ⟨_, List.mem_cons_self, ⟨by decide, rfl⟩, _, List.mem_cons_of_mem _ List.mem_cons_self, by decide, rfl⟩⟩
  refine .cons (fun d hd x h1 h2 => ?_) (.cons (by simp) .nil)
  simp only [List.mem_cons, List.not_mem_nil, or_false] at hd
  subst hd
  have e1 := h1.unique (d := 0x61) ⟨by decide, rfl⟩
  have e2 := h2.unique (d := 0x65) ⟨by decide, rfl⟩
  omega

/-- The same equivalents in two elements. -/
def demoTwice : List Node :=
  [⟨charNode, some [0x61], [⟨equivNode, some [0xe1]⟩]⟩, ⟨charNode, some [0x61], [⟨equivNode, some [0xe0]⟩]⟩]

/-- **C96** With two `char` elements for one character the equivalents of the second are not put in, though the file declares them. -/
theorem C96_twice_false : Good demoTwice ∧ Declares demoTwice 0x61 0xe0 ∧ readACX demoTwice = .ok [(0x61, [0xe1])] := by
  refine ⟨fun c hc => ?_, ⟨_, List.mem_cons_of_mem _ List.mem_cons_self, ⟨by decide, rfl⟩, _, List.mem_cons_self, by decide, rfl⟩, by decide⟩
  simp only [demoTwice, List.mem_cons, List.not_mem_nil, or_false] at hc
  rcases hc with rfl | rfl
  · refine ⟨rfl, ⟨0x61, by decide, rfl⟩, fun e he => ?_⟩
    simp only [List.mem_cons, List.not_mem_nil, or_false] at he
    subst he
    exact ⟨rfl, 0xe1, by decide, rfl⟩
  · refine ⟨rfl, ⟨0x61, by decide, rfl⟩, fun e he => ?_⟩
    simp only [List.mem_cons, List.not_mem_nil, or_false] at he
    subst he
    exact ⟨rfl, 0xe0, by decide, rfl⟩

/-- **C96** Characters that are written with a combining mark are refused. -/
example : ¬ Good [⟨charNode, some [0x61, 0x301], []⟩] ∧ readACX [⟨charNode, some [0x61, 0x301], []⟩] = .exit := by
  have h : readACX [⟨charNode, some [0x61, 0x301], []⟩] = .exit := by decide
  refine ⟨fun hg => ?_, h⟩
  obtain ⟨acx, h1, -⟩ := (C96_read _).1 hg
  rw [h] at h1
  cases h1

end Verif.Acx
