import Verif.Bil.Lemmas
import Verif.Bil.Demo

/-! # Properties of the bilingual mode -/

namespace Verif.Bil

open Verif.State Verif.Stream Verif.Input Verif.Walk
open Verif.Gen (Mode Form pieces whole slashed escapedCps)

variable {W : Type}

/-- **C73** For a stream the bilingual mode writes, unit by unit, the blanks, the reading that is translated and its translations: those of the longest
part at its start that has some, the best first, with the rest of the reading after each. Tags that the dictionary does not know are kept: the
alphabet is extended with them. -/
theorem C73_bilingual [AddMonoid W] [LinearOrder W] {σ : Setting W} (hr : Regular σ) (hf : Fewer σ.graph σ.root (way σ true) 65536) (mode : Mode)
    {items : List Item} {last : List BTok} (hi : ∀ i ∈ items, i.WF) (hl : ∀ b ∈ last, b.WF) (hp : ∀ bl wb rs, Item.unit bl wb rs ∈ items → ∀ s ∈ chosen σ rs, Plain s) :
    ∃ b : Alphabet, b.Ok ∧ σ.alphabet.Ext b ∧ ∃ outs, List.Forall₂ (Writes σ b mode) items outs ∧
      ∃ N, ∀ n ≥ N, bilingual σ n mode (bytes (streamText items last)) = .ok (outs.flatten ++ enc (blankText last)) := by
  obtain ⟨b, h1, outs, h2, N, h3⟩ := units_ok hr hf mode hl items { inp := opened (bytes (streamText items last)), alpha := some σ.alphabet, addUnknowns := true } σ.alphabet
    hi hp rfl rfl rfl hr.base.alphabet (Alphabet.Ext.refl _) ⟨rfl, by simp [opened], ⟨_, rfl, rfl⟩, scalar_stream hi hl⟩
  refine ⟨b, h1.1, h1.2.1, outs, h2, max N (items.length + 1), fun n hn => ?_⟩
  unfold bilingual
  rw [h3 n (by omega) n (by omega)]
  simp

/-- A piece with a backslash just where it is needed. -/
def Canonical (first : Bool) : RTok → Prop
  | .tok (.raw c) => (c : Int) ∉ escapedCps ∧ ¬ (first = true ∧ c = '*'.toNat) ∧ c ≠ 0
  | .tok (.esc c) => (c : Int) ∈ escapedCps ∨ (first = true ∧ c = '*'.toNat)
  | _ => True

/-- **C73** Before the translations stands the reading as it was, if it is written with as few backslashes as possible. -/
theorem C73_source (s : RSyn) (h1 : ∀ p ∈ (pieces s).head?, Canonical true p) (h2 : ∀ p ∈ (pieces s).tail, Canonical false p) : source s = whole s := by
  have key : ∀ first p, p.isChunk = false → Canonical first p → pieceText first p = enc p.text := by
    intro first p hk hc
    cases p with
    | chunk _ => simp [RTok.isChunk] at hk
    | tag _ => rfl
    | tok t =>
      cases t with
      | raw c =>
        obtain ⟨g1, g2, g3⟩ := hc
        simp only [pieceText]
        rw [if_neg (by rintro (h | h); exacts [g1 h, g2 h]), if_neg g3]
        simp [enc, RTok.text, Tok.text]
      | esc c =>
        have h0 : c ≠ 0 := by
          rintro rfl
          revert hc
          simp [Canonical, escapedCps]
        simp only [pieceText]
        rw [if_pos (show (c : Int) ∈ escapedCps ∨ (first = true ∧ c = '*'.toNat) from hc), if_neg h0]
        simp [enc, RTok.text, Tok.text, utf16]
  have hk : ∀ p ∈ pieces s, p.isChunk = false := fun p hp => by simpa using (List.mem_filter.1 hp).2
  unfold source whole
  generalize pieces s = ps at h1 h2 hk
  cases ps with
  | nil => rfl
  | cons p ps =>
    simp only [List.flatMap_cons, Proc.enc_append]
    rw [key true p (hk p (by simp)) (h1 p rfl)]
    congr 1
    have h2' : ∀ q ∈ ps, q.isChunk = false ∧ Canonical false q := fun q hq => ⟨hk q (by simp [hq]), h2 q hq⟩
    clear h1 h2 hk
    induction ps with
    | nil => rfl
    | cons q ps ih =>
      simp only [List.flatMap_cons, Proc.enc_append]
      rw [key false q (h2' q (by simp)).1 (h2' q (by simp)).2, ih fun r hr => h2' r (by simp [hr])]

/-! ## Examples -/

/-- The output is `out`. -/
def writes (σ : Setting Nat) (n : Nat) (mode : Mode) (text : String) (out : String) : Bool :=
  match bilingual σ n mode (bytes (text.toList.map Char.toNat)) with
  | .ok o => decide (o = out.toList.map fun c => UInt16.ofNat c.toNat)
  | _ => false

/-- ` ^Ab<n><pl>$[x]^qz<n>$` NUL `^*q$^c/b$^ab$ ^ab<pl>$` and a newline -/
def demoItems : List Item := [
  .unit [.tok (.raw 32)] none [⟨none, [.tok (.raw 0x41), .tok (.raw 0x62), .tag [.raw 0x6e], .tag [.raw 0x70, .raw 0x6c]]⟩],
  .unit [.super [.raw 0x78]] none [⟨none, [.tok (.raw 0x71), .tok (.raw 0x7a), .tag [.raw 0x6e]]⟩],
  .null [],
  .unit [] none [⟨some '*'.toNat, [.tok (.raw 0x71)]⟩],
  .unit [] none [⟨none, [.tok (.raw 0x63)]⟩, ⟨none, [.tok (.raw 0x62)]⟩],
  .unit [] none [⟨none, [.tok (.raw 0x61), .tok (.raw 0x62)]⟩],
  .unit [.tok (.raw 32)] none [⟨none, [.tok (.raw 0x61), .tok (.raw 0x62), .tag [.raw 0x70, .raw 0x6c]]⟩]]

def demoLast : List BTok := [.tok (.raw 10)]

theorem demo_wf : (∀ i ∈ demoItems, i.WF) ∧ ∀ b ∈ demoLast, b.WF := by
  refine ⟨?_, ?_⟩
  · intro i hi
    simp only [demoItems, List.mem_cons, List.not_mem_nil, or_false] at hi
    rcases hi with rfl | rfl | rfl | rfl | rfl | rfl | rfl
    all_goals first
      | exact fun b hb => (by cases hb)
      | refine ⟨by simp [BTok.WF, Scalar, Tok.Inside], by simp, by simp, by simp, ?_⟩
    all_goals
      refine List.forall_mem_cons.2 ⟨⟨by simp [RTok.WF, Scalar, Tok.Inside], by simp [marks], by simp [marks]⟩, ?_⟩
      simp only [List.forall_mem_cons, List.not_mem_nil, IsEmpty.forall_iff, implies_true, and_true]
      try exact ⟨by simp [RTok.WF, Scalar], by simp [marks], by simp [marks]⟩
  · simp [demoLast, BTok.WF, Scalar]

theorem demo_plain : ∀ bl wb rs, Item.unit bl wb rs ∈ demoItems → ∀ s ∈ chosen demo rs, Plain s := by
  intro b wb rs h s hs
  have hc : chosen demo rs = rs[0]? := rfl
  rw [hc] at hs
  simp only [demoItems, List.mem_cons, List.not_mem_nil, or_false, Item.unit.injEq, reduceCtorEq, false_or] at h
  rcases h with ⟨-, -, rfl⟩ | ⟨-, -, rfl⟩ | ⟨-, -, rfl⟩ | ⟨-, -, rfl⟩ | ⟨-, -, rfl⟩ | ⟨-, -, rfl⟩
  all_goals
    simp only [List.getElem?_cons_zero, Option.mem_def, Option.some.injEq] at hs
    subst hs
    refine ⟨by simp, fun ts ht => ?_⟩
    simp only [List.mem_cons, List.not_mem_nil, or_false, reduceCtorEq, false_or, RTok.tag.injEq] at ht
    try (rcases ht with rfl | rfl <;> decide)

example : Regular demo ∧ Fewer demo.graph demo.root (way demo true) 65536 ∧ (∀ i ∈ demoItems, i.WF) ∧ (∀ b ∈ demoLast, b.WF) ∧
    ∀ bl wb rs, Item.unit bl wb rs ∈ demoItems → ∀ s ∈ chosen demo rs, Plain s :=
  ⟨demo_regular, demo_fewer, demo_wf.1, demo_wf.2, demo_plain⟩

example : streamText demoItems demoLast = " ^Ab<n><pl>$[x]^qz<n>$\x00^*q$^c/b$^ab$ ^ab<pl>$\n".toList.map Char.toNat := by decide

/-- Cases are restored, tags that were not read are added, any symbol is passed on. -/
example : writes demo 100 .unknown " ^Ab<n><pl>$[x]^qz<n>$\x00^*q$^c/b$^ab$ ^ab<pl>$\n"
    " ^Ab<n><pl>/Xy<n><pl>/Xy<m><pl>$[x]^qz<n>/rz<n>$\x00^*q/*q$^c/d$^ab/@ab$ ^ab<pl>/@ab<pl>$\n" = true := by decide +kernel

/-- In the mode for all marks, only whole units are translated. -/
example : writes demo 100 .all "^Ab<n><pl>$^AB<n>$" "^Ab<n><pl>/#Ab<n><pl>$^AB<n>/XY<n>/XY<m>$" = true := by decide +kernel

/-- With surface forms, the second reading is translated. -/
example : writes { demo with surfaceForms := true } 100 .unknown "^foo/c$" "^c/d$" = true := by decide +kernel
example : writes { demo with surfaceFormsKeep := true } 100 .unknown "^foo/c$" "^foo/c/d$" = true := by decide +kernel

example : (∀ p ∈ (pieces ⟨none, [.tok (.esc '*'.toNat), .tok (.raw 0x61), .tok (.esc '/'.toNat), .tag [.raw 0x6e]]⟩).head?, Canonical true p) ∧
    ∀ p ∈ (pieces ⟨none, [.tok (.esc '*'.toNat), .tok (.raw 0x61), .tok (.esc '/'.toNat), .tag [.raw 0x6e]]⟩).tail, Canonical false p := by
  simp [pieces, RTok.isChunk, Canonical, escapedCps]

/-! ## What does not hold -/

/-- **C73** Marks other than `*` are lost, also in the reading before the translations. -/
theorem C73_marks_false : writes demo 100 .unknown "^@c$^=c$" "^c/d$^c/d$" = true := by decide +kernel

/-- **C73** The reading before the translations is not always the reading that was read: the escaped mark of a unit becomes a mark. -/
theorem C73_escape_false : writes demo 100 .unknown "^\\#c$" "^#c/@#c$" = true := by decide +kernel

/-- **C73** Units are lost: with surface forms, those with one reading. -/
theorem C73_lost_false : writes { demo with surfaceForms := true } 100 .unknown "x^c$y" "xy" = true := by decide +kernel

/-- **C73** Not only tags are passed on: a word that begins with another word is translated as that word, with the rest of its letters. -/
theorem C73_letters_false : writes demo 100 .unknown "^cz<n>$" "^cz<n>/dz<n>$" = true := by decide +kernel

/-- **C73** Any symbol may be a tag: the symbol for any character is not only read for letters. -/
theorem C73_any_false : writes demo 100 .unknown "^q<m><n>$" "^q<m><n>/r<m><n>$" = true := by decide +kernel

/-- **C73** Chunks are lost. -/
theorem C73_chunks_false : writes demo 100 .unknown "^c{^c$}$" "^c/d$" = true := by decide +kernel

end Verif.Bil
