import Verif.Unified.Spec
import Verif.Unified.Alphabets
import Verif.Compiler.Filter

/-! # Entries with marks -/

namespace Verif.Unified

open Verif.Fst Verif.Compiler Verif.Alphabet
open Verif.Expander (Attrs)
open Verif.Tools (mark preR preAlt preV preVl preVr)

set_option linter.unusedSectionVars false

/-- The mark for a value. -/
def markOf (pre v : UString) : List UString := if v = [] then [] else [mark pre v]

/-- The marks of an entry. -/
def entryMarks (a : Attrs) : List UString :=
  markOf preR a.r ++ markOf preAlt a.alt ++ markOf preV a.v ++ markOf preVl a.vl ++ markOf preVr a.vr

theorem split_single {v : UString} (h : 0x20 ∉ v) (h0 : v ≠ []) : Str.split v [0x20] = some [v] := by
  rw [Str.C51_split [0x20] v (by simp) [v] (.last (by rw [infix_one]; exact h))]
  simp [h0]

/-- The alphabet got these tags, and nothing else. -/
structure Tagged (ms : List UString) (a b : Alphabet) : Prop where
  ok : Ok b
  ext : Ext a b
  pairs : b.spairinv = a.spairinv
  tags : ∀ m ∈ ms, ∃ c, HasTag b c m

theorem code_later {a A : Alphabet} (ha : Ok a) (hA : Ok A) (he : Ext a A) {m : UString} (h : ∃ c, HasTag a c m) : a.symCode m = A.symCode m := by
  obtain ⟨c, hc⟩ := h
  rw [symCode_of_hasTag ha hc, symCode_of_hasTag hA (hc.mono he)]

theorem filters_single {v : UString} (h : 0x20 ∉ v) (pre : UString) {a : Alphabet} (ha : Ok a) (sy : List (List Int)) :
    ∃ b sy', symbolFilters v pre (a, sy) = (b, sy ++ sy') ∧ Tagged (markOf pre v) a b ∧
      ∀ A, Ok A → Ext b A → sy' = (markOf pre v).map fun m => [A.symCode m] := by
  by_cases h0 : v = []
  · refine ⟨a, [], ?_, ⟨ha, .refl a, rfl, ?_⟩, fun A _ _ => ?_⟩
    · simp [symbolFilters, h0]
    · simp [markOf, h0]
    · simp [markOf, h0]
  · obtain ⟨i1, i2, i3, i4, -⟩ := includeSymbol_spec ha (mark pre v)
    refine ⟨a.includeSymbol (mark pre v), [[(a.includeSymbol (mark pre v)).symCode (mark pre v)]], ?_, ⟨i1, i2, i4, ?_⟩, fun A hA he => ?_⟩
    · simp [symbolFilters, h0, split_single h h0, filterLoop]
    · intro m hm
      rw [markOf, if_neg h0, List.mem_singleton] at hm
      rw [hm]; exact i3
    · simp [markOf, h0, code_later i1 hA he i3]

theorem Tagged.append {ms ns : List UString} {a b c : Alphabet} (h : Tagged ms a b) (h' : Tagged ns b c) : Tagged (ms ++ ns) a c :=
  ⟨h'.ok, h.ext.trans h'.ext, h'.pairs.trans h.pairs, fun m hm => by
    rcases List.mem_append.1 hm with hm | hm
    · obtain ⟨x, hx⟩ := h.tags m hm
      exact ⟨x, hx.mono h'.ext⟩
    · exact h'.tags m hm⟩

theorem symbols_single {at' : Attrs} (h : Single at') {a : Alphabet} (ha : Ok a) :
    ∃ b sy, symbolsOf at' a = (b, sy) ∧ Tagged (entryMarks at') a b ∧ ∀ A, Ok A → Ext b A → sy = (entryMarks at').map fun m => [A.symCode m] := by
  obtain ⟨h1, h2, h3, h4, h5⟩ := h
  obtain ⟨b1, s1, e1, t1, c1⟩ := filters_single h1 preR ha []
  obtain ⟨b2, s2, e2, t2, c2⟩ := filters_single h2 preAlt t1.ok ([] ++ s1)
  obtain ⟨b3, s3, e3, t3, c3⟩ := filters_single h3 preV t2.ok ([] ++ s1 ++ s2)
  obtain ⟨b4, s4, e4, t4, c4⟩ := filters_single h4 preVl t3.ok ([] ++ s1 ++ s2 ++ s3)
  obtain ⟨b5, s5, e5, t5, c5⟩ := filters_single h5 preVr t4.ok ([] ++ s1 ++ s2 ++ s3 ++ s4)
  refine ⟨b5, [] ++ s1 ++ s2 ++ s3 ++ s4 ++ s5, ?_, (((t1.append t2).append t3).append t4).append t5, fun A hA he => ?_⟩
  · unfold symbolsOf
    simp only [e1, e2, e3, e4]
    exact e5
  · have x4 := t5.ext.trans he
    have x3 := t4.ext.trans x4
    have x2 := t3.ext.trans x3
    have x1 := t2.ext.trans x2
    rw [c1 A hA x1, c2 A hA x2, c3 A hA x3, c4 A hA x4, c5 A hA he]
    simp [entryMarks]

variable {N W : Type}

/-- The codes of the marks. -/
def codes (A : Alphabet) (a : Attrs) : List Int := (entryMarks a).map A.symCode

/-- The element for the marks. -/
def markTok (A : Alphabet) (a : Attrs) : List (Token N) := if entryMarks a = [] then [] else [.text (codes A a) (codes A a)]

/-- The entry with its marks as an element, and the file with such entries. -/
def tr (A : Alphabet) (e : CEntry N W) : CEntry N W :=
  { e with attrs := { ignore := e.attrs.ignore }, content := e.content.map (markTok A e.attrs ++ ·) }
def trFile (A : Alphabet) (f : File N W) : File N W :=
  { tags := f.tags, pars := f.pars.map fun p => (p.1, p.2.map (tr A)), secs := f.secs.map fun p => (p.1, p.2.map (tr A)) }

variable [LinearOrder N] [Zero W] [DecidableEq W]

/-- What an entry does. -/
def entryRest (s : Settings) (pre : List (W × Token N)) (e : CEntry N W) (c : Comp N W) : Res (Comp N W) :=
  match e.content with
  | none => .ok c
  | some es => do if ← readTokens c es then insertEntryTokens s (pre ++ es.map (weigh e.weight e.junk)) c else pure c

theorem entry_single {parname : Attrs → N} {s : Settings} {e : CEntry N W} (h : Single e.attrs) (hi : e.attrs.ignore ≠ Expander.YES) {c : Comp N W} (hc : Ok c.alphabet) :
    ∃ (a : Alphabet) (pre : List (W × Token N)), Tagged (entryMarks e.attrs) c.alphabet a ∧ (∀ A, Ok A → Ext a A → pre.map (·.2) = markTok A e.attrs) ∧
      procEntry parname s e c = entryRest s pre e { c with alphabet := a } := by
  obtain ⟨a, sy, h1, h2, h3⟩ := symbols_single h hc
  have hsy := h3 a h2.ok (.refl a)
  have hno : sy.any (fun it => it.length > 1) = false := by
    rw [hsy, List.any_eq_false]
    intro it hit
    obtain ⟨m, -, rfl⟩ := List.mem_map.1 hit
    simp
  refine ⟨a, if sy = [] then [] else [(0, .text (sy.map fun it => it.headD 0) (sy.map fun it => it.headD 0))], h2, fun A hA he => ?_, ?_⟩
  · have := h3 A hA he
    unfold markTok codes
    rw [this]
    by_cases h0 : entryMarks e.attrs = []
    · simp [h0]
    · simp [h0, Function.comp_def]
  · unfold procEntry
    rw [if_neg hi, h1]
    simp only
    unfold marks entryRest
    by_cases h0 : sy = []
    · rw [if_pos h0, if_pos h0, Res.bind_ok]; rfl
    · rw [if_neg h0, if_neg h0, if_neg (by rw [hno]; simp), Res.bind_ok]; rfl

end Verif.Unified
