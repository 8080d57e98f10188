import Verif.Trim.Model
import Verif.Unified.Spec
import Verif.Product.Spec

/-! # What `lt-trim` is meant to keep -/

namespace Verif.Trim

open Verif.Fst Verif.Alphabet
open Verif.Tools (Has)
open Verif.Unified (Pairs)

/-- Two symbols that `lt-trim` takes for the same: the same name, or one of the marks for any letter and any tag. -/
def NameMeets (n m : Name) : Prop :=
  n = m ∨ (n = .tag anyChar ∧ ∃ c, 0 < c ∧ m = .letter c) ∨ (n = .tag anyTag ∧ ∃ s, m = .tag s) ∨
    (m = .tag anyChar ∧ ∃ c, 0 < c ∧ n = .letter c) ∨ (m = .tag anyTag ∧ ∃ s, n = .tag s)

/-- The section `k` of the analyser is trimmed with the section `k'` of the bilingual dictionary: with its namesake if that was
asked for and exists, else with all sections that were not asked for. -/
def TrimmedBy (names : List UString) (bi : List UInt8) (k k' : UString) : Prop :=
  (k ∈ names ∧ Has bi k ∧ k' = k) ∨ (¬ (k ∈ names ∧ Has bi k) ∧ k' ∉ names)

/-- The bilingual dictionary has a beginning of the analysis, up to some of its tags. -/
def Covered (names : List UString) (bi : List UInt8) (k : UString) (Y : List Name) : Prop :=
  ∃ Y1 Y2 X Z k', Y = Y1 ++ Y2 ∧ (∀ n ∈ Y2, ∃ s, n = .tag s) ∧ TrimmedBy names bi k k' ∧ List.Forall₂ NameMeets Y1 X ∧ Pairs bi k' X Z

/-- The bilingual dictionary has it as `Covered` asks, or has an entry that goes on after it. -/
def Begun (names : List UString) (bi : List UInt8) (k : UString) (Y : List Name) : Prop :=
  Covered names bi k Y ∨ ∃ X X' Z k', TrimmedBy names bi k k' ∧ List.Forall₂ NameMeets Y X ∧ Pairs bi k' (X ++ X') Z

/-- Without the tags that mark the parts of compounds. -/
def unmarked (Y : List Name) : List Name := Y.filter fun n => n ∉ Product.compoundTags.map Name.tag

/-- The analysis is a row of parts with joins between them; the bilingual dictionary has the last of them, and begins with the others.
The marks of compounds do not matter. -/
def JoinCovered (names : List UString) (bi : List UInt8) (k : UString) (Y : List Name) : Prop :=
  ∃ (parts : List (List Name)) (last : List Name), Y = (parts.map (· ++ [.letter 0x2b])).flatten ++ last ∧
    (∀ p ∈ parts, Begun names bi k (unmarked p)) ∧ Covered names bi k (unmarked last)

/-- A name of a tag other than `<ANY_CHAR>`. -/
def IsTag (n : Name) : Prop := ∃ s, n = .tag s ∧ s ≠ anyChar

/-- Two sections of the bilingual dictionary that are used together. -/
def Together (names : List UString) (k k' : UString) : Prop := k = k' ∧ k ∈ names ∨ k ∉ names ∧ k' ∉ names

/-- An analyser and a bilingual dictionary without queues and groups. -/
structure Plainly {W : Type} [Zero W] (v : Compression.Dbl → W) (names : List UString) (mono bi : List UInt8) (La Lb : List UInt32) (a b : Alphabet)
    (ts us : List (UString × Transducer Compression.Dbl)) : Prop where
  analyser : Tools.Dictionary mono La a ts
  bilingual : Tools.Dictionary bi Lb b us
  noEmpty : [] ∉ names
  zeroMono : ∀ e ∈ ts, ∀ p w, Final e.2 p w → v w = 0
  zeroBi : ∀ e ∈ us, ∀ p w, Final e.2 p w → v w = 0
  someMono : ∀ k, Has mono k → ∃ X Y, Pairs mono k X Y
  someBi : ∀ k, Has bi k → ∃ X Y, Pairs bi k X Y
  joining : ∀ e ∈ ts, Product.Joining a e.2
  any : ∀ p ∈ a.spairinv, ¬ Named a p.2 (.tag anyChar)
  queues : ∀ e ∈ us, ∀ q x y w p, PairEdge b e.2 q ((x, y), w) p → x ≠ 0x23
  /-- No arc leads back to the first state, as in every minimised transducer without such loops. -/
  noReturn : ∀ e ∈ us, ∀ q l, ¬ Edge e.2 q l e.2.initial
  /-- The final states of the sections given with `-s` can be reached. -/
  reached : ∀ e ∈ us, e.1 ∈ names → ∀ p w, Final e.2 p w → ∃ ls, Path (Edge e.2) e.2.initial ls p
  /-- From every state of these sections a final state can be reached. -/
  live : ∀ e ∈ us, e.1 ∈ names → ∀ ls p, Path (Edge e.2) e.2.initial ls p → ∃ ms f w, Path (Edge e.2) p ms f ∧ Final e.2 f w
  /-- An entry that begins like another has only tags after that. -/
  after : ∀ k k' X1 X2 Y1 Y2, Together names k k' → Pairs bi k X1 Y1 → Pairs bi k' (X1 ++ X2) Y2 → ∀ n ∈ X2, IsTag n

/-- The results are not too large for the format. -/
def Fits {W : Type} (r : Res (List (UString × Transducer W))) : Prop :=
  ∀ rs, r = .ok rs → ∀ e ∈ rs, Fst.size e.2 < 2 ^ 30 ∧ ∀ x ∈ e.2.transitions, x.2.length < 2 ^ 30

end Verif.Trim
