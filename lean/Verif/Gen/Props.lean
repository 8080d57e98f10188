import Verif.Gen.Lemmas
import Verif.Gen.Demo

/-! # Properties of the generation mode -/

namespace Verif.Gen

open Verif.State Verif.Stream Verif.Input Verif.Walk

variable {W : Type}

/-- **C72** For a stream the generator writes, unit by unit, the blanks and the forms of the first reading, or what the mode prescribes for a
unit without forms; NULs and the last blank are kept. -/
theorem C72_generation [AddMonoid W] [LinearOrder W] {σ : Setting W} {name : Int → UString} (hr : Regular σ name) (mode : Mode)
    (hf : Fewer σ.graph σ.root (way σ (mode = .carefulcase)) 65536) {items : List Item} {last : List BTok} (hi : ∀ i ∈ items, i.WF) (hl : ∀ b ∈ last, b.WF)
    (ht : ∀ b wb rs, Item.unit b wb rs ∈ items → ∀ s ∈ rs.head?, Tidy s) :
    ∃ outs, List.Forall₂ (Writes σ name mode) items outs ∧
      ∃ N, ∀ n ≥ N, generation σ n mode (bytes (streamText items last)) = .ok (outs.flatten ++ enc (blankText last)) := by
  obtain ⟨os, r', e1, h1, h2⟩ := C54_stream items last hi hl (some σ.alphabet) (fun a ha => by cases ha; exact hr.alphabet) false 0
  have hal : r'.alpha = some σ.alphabet := by
    cases ha : r'.alpha with
    | none => rw [ha] at h2; exact absurd h2 (by simp [AlphaStep])
    | some b => rw [ha] at h2; rw [h2.2.2 rfl]
  rw [hal] at h1
  have key : ∀ (items : List Item) (os : List Out), List.Forall₂ (Shows false (some σ.alphabet)) items os → (∀ i ∈ items, i.WF) →
      (∀ b wb rs, Item.unit b wb rs ∈ items → ∀ s ∈ rs.head?, Tidy s) →
      ∃ outs, List.Forall₂ (Writes σ name mode) items outs ∧ ∃ N, ∀ n ≥ N, List.Forall₂ (fun o t => genOut σ n mode o = .ok t) os outs := by
    intro items os h
    induction h with
    | nil => exact fun _ _ => ⟨[], .nil, 0, fun n _ => .nil⟩
    | cons h _ ih =>
      intro hw ht
      obtain ⟨outs, g1, N1, g2⟩ := ih (fun i hi => hw i (by simp [hi])) (fun b wb rs hm => ht b wb rs (by simp [hm]))
      obtain ⟨t, k1, N2, k2⟩ := genOut_ok hr mode hf (hw _ (by simp)) (fun b wb rs e => ht b wb rs (by simp [e])) h
      exact ⟨t :: outs, .cons k1 g1, max N1 N2, fun n hn => .cons (k2 n (by omega)) (g2 n (by omega))⟩
  obtain ⟨outs, g1, N, g2⟩ := key items os h1 hi ht
  refine ⟨outs, g1, max N (os.length + 1), fun n hn => ?_⟩
  have heof : ∀ o ∈ os, o.atEof = false := by
    intro o ho
    obtain ⟨i, -, hs⟩ := Walk.forall2_left h1 ho
    cases i with
    | unit b wb rs => exact hs.2.2.2.2.2
    | null b => rw [hs]
  unfold generation
  rw [eachUnit_ok _ os outs n _ r' [] ⟨enc (blankText last), [], [], [], false, true⟩ (enc (blankText last)) ?_ heof rfl rfl (g2 n (by omega)) ?_ (by omega)]
  · simp
  · rw [h1.length_eq] at e1
    simpa using e1
  · simp [genOut]

/-- The forms that are listed are determined, but for the order of forms of the same weight. -/
theorem C72_unique [LinearOrder W] {A : UString → W → Prop} {rs rs' : List (UString × W)} (h : Best A rs) (h' : Best A rs') : rs.Perm rs' := by
  have nd : ∀ {rs : List (UString × W)}, Best A rs → rs.Nodup := fun h => List.Nodup.of_map _ h.1
  rw [List.perm_ext_iff_of_nodup (nd h) (nd h')]
  rintro ⟨t, w⟩
  rw [h.2.2, h'.2.2]

/-! ## Examples -/

/-- The output is `out`. -/
def writes (σ : Setting Nat) (n : Nat) (mode : Mode) (text : String) (out : String) : Bool :=
  match generation σ n mode (bytes (text.toList.map Char.toNat)) with
  | .ok o => decide (o = out.toList.map fun c => UInt16.ofNat c.toNat)
  | _ => false

/-- ` ^Ab<n>$[x]^=ab<n>$ ^*q$^A/b$` NUL `^@q<v>$^q<v>$` and a newline -/
def demoItems : List Item := [
  .unit [.tok (.raw 32)] none [⟨none, [.tok (.raw 0x41), .tok (.raw 0x62), .tag [.raw 0x6e]]⟩],
  .unit [.super [.raw 0x78]] none [⟨some '='.toNat, [.tok (.raw 0x61), .tok (.raw 0x62), .tag [.raw 0x6e]]⟩],
  .unit [.tok (.raw 32)] none [⟨some '*'.toNat, [.tok (.raw 0x71)]⟩],
  .unit [] none [⟨none, [.tok (.raw 0x41)]⟩, ⟨none, [.tok (.raw 0x62)]⟩],
  .null [],
  .unit [] none [⟨some '@'.toNat, [.tok (.raw 0x71), .tag [.raw 0x76]]⟩],
  .unit [] none [⟨none, [.tok (.raw 0x71), .tag [.raw 0x76]]⟩]]

def demoLast : List BTok := [.tok (.raw 10)]

theorem demo_wf : (∀ i ∈ demoItems, i.WF) ∧ ∀ b ∈ demoLast, b.WF := by
  refine ⟨?_, ?_⟩
  · intro i hi
    simp only [demoItems, List.mem_cons, List.not_mem_nil, or_false] at hi
    rcases hi with rfl | rfl | rfl | rfl | rfl | rfl | rfl
    all_goals first
      | exact fun b hb => (by cases hb)
      | refine ⟨by simp [BTok.WF, Scalar, Tok.Inside], by simp, by simp, by simp, ?_⟩
    all_goals
      refine List.forall_mem_cons.2 ⟨⟨by simp [RTok.WF, Scalar, Tok.Inside], by simp [marks], by simp [marks]⟩, ?_⟩
      simp only [List.forall_mem_cons, List.not_mem_nil, IsEmpty.forall_iff, implies_true, and_true]
      try exact ⟨by simp [RTok.WF, Scalar], by simp [marks], by simp [marks]⟩
  · simp [demoLast, BTok.WF, Scalar]

theorem demo_tidy : ∀ b wb rs, Item.unit b wb rs ∈ demoItems → ∀ s ∈ rs.head?, Tidy s := by
  intro b wb rs h s hs
  simp only [demoItems, List.mem_cons, List.not_mem_nil, or_false, Item.unit.injEq, reduceCtorEq] at h
  rcases h with ⟨-, -, rfl⟩ | ⟨-, -, rfl⟩ | ⟨-, -, rfl⟩ | ⟨-, -, rfl⟩ | h | ⟨-, -, rfl⟩ | ⟨-, -, rfl⟩
  all_goals first
    | exact absurd h (by simp)
    | (simp only [List.head?_cons, Option.mem_def, Option.some.injEq] at hs
       subst hs
       exact ⟨by simp [pieces, RTok.isChunk], by simp [pieces, RTok.isChunk, List.takeWhile, isTagPiece]⟩)

example (mode : Mode) : Regular demo demoName ∧ Fewer demo.graph demo.root (way demo (mode = .carefulcase)) 65536 ∧
    (∀ i ∈ demoItems, i.WF) ∧ (∀ b ∈ demoLast, b.WF) ∧ ∀ b wb rs, Item.unit b wb rs ∈ demoItems → ∀ s ∈ rs.head?, Tidy s :=
  ⟨demo_regular, demo_fewer _, demo_wf.1, demo_wf.2, demo_tidy⟩

example : streamText demoItems demoLast = " ^Ab<n>$[x]^=ab<n>$ ^*q$^A/b$\x00^@q<v>$^q<v>$\n".toList.map Char.toNat := by decide

/-- The forms, the best first; `A` can be read as `A` and as `a`. -/
example : writes demo 100 .unknown " ^Ab<n>$[x]^=ab<n>$ ^*q$^A/b$\x00^@q<v>$^q<v>$\n" " Ab/Abc[x]=ab/abc *qx/A\x00@q#q\n" = true := by decide +kernel
example : writes demo 100 .carefulcase " ^Ab<n>$[x]^=ab<n>$ ^*q$^A/b$\x00^@q<v>$^q<v>$\n" " #Ab[x]=ab/abc *qx\x00#q\n" = true := by decide +kernel
example : writes demo 100 .taggedNm " ^Ab<n>$[x]^=ab<n>$ ^*q$^A/b$\x00^@q<v>$^q<v>$\n"
    " ^Ab/Abc/Ab<n>$[x]=^ab/abc/ab<n>$ ^q/*q$^x/A/A$\x00^q/@q<v>$^q/#q<v>$\n" = true := by decide +kernel

/-! ## What does not hold -/

/-- **C72** A unit that is passed on is not passed on as it was: escapes are escaped again, so that the next program reads another word. -/
theorem C72_escape_false : writes demo 100 .unknown "^*a\\/b$" "*a\\\\\\/b" = true := by decide +kernel

/-- **C72** Tags are not always removed: not if there is nothing before them, and not after an escaped backslash. -/
theorem C72_tags_false : writes demo 100 .unknown "^@<n>$^@q\\\\<n>$" "@\\<n\\>@q\\\\\\\\\\<n\\>" = true := by decide +kernel

/-- **C72** In the mode for careful case, units with the mark `@` disappear. -/
theorem C72_lost_false : writes demo 100 .carefulcase " ^@q<n>$ ^q<n>$ " "  #q " = true := by decide +kernel

/-- **C72** A form is written in capitals also if the first letter of the unit is not a capital: the second alone decides. -/
theorem C72_capitals_false : writes demo 100 .unknown "^aB<n>$" "AB/ABC" = true := by decide +kernel

end Verif.Gen
