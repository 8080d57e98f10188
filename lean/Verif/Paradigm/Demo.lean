import Verif.Paradigm.Props
import Verif.Trim.Demo

/-! # C91: small dictionaries -/

namespace Verif.Paradigm

open Verif.Fst
open Verif.Alphabet hiding tagN
open Verif.Tools (Has Dictionary)
open Verif.Unified (Pairs)
open Verif.Compression (Dbl)
open Verif.Trim (tagN tagS monoAlpha monoSec sec NMaps)

/-! ## A dictionary with `a:a<n><s>` and `b:b<n>` -/

/-- No symbol of the alphabet opens or closes a group or begins a queue. -/
theorem mono_joining (analyser : Bool) {t : Transducer Dbl} : ∀ q x y w r, PairEdge monoAlpha t q ((x, y), w) r →
    (if analyser then y else x) ≠ 0x23 ∧ ∀ s ∈ Product.groupTags, ¬ Named monoAlpha (if analyser then y else x) (.tag s) := by
  rintro q x y w r ⟨c, h1, -⟩
  obtain ⟨i, h2, -⟩ := decode_iff.1 h1
  have hm : (x, y) ∈ monoAlpha.spairinv := List.mem_of_getElem? h2
  constructor
  · rw [Trim.monoAlpha_pairs] at hm
    have : ∀ p ∈ [((0 : Int), (0 : Int)), (0x61, 0x61), (0, -1), (0, -2), (0x62, 0x62)], p.1 ≠ 0x23 ∧ p.2 ≠ 0x23 := by decide
    have := this _ hm
    cases analyser
    · exact this.1
    · exact this.2
  · intro s hs hn
    have : s ∈ monoAlpha.slexicinv := hasTag_mem.1 ⟨_, named_tag_iff.1 hn⟩
    rw [Trim.monoAlpha_tags] at this
    have key : ∀ s ∈ Product.groupTags, s ∉ [tagN, tagS] := by decide
    exact key s hs this

theorem mono_wild : anyChar ∉ monoAlpha.slexicinv ∧ anyTag ∉ monoAlpha.slexicinv := by rw [Trim.monoAlpha_tags]; decide

/-- `a:a<n><s>`. -/
theorem mono_first {bs : List UInt8} (h : Dictionary bs [0x61, 0x62] monoAlpha [(sec, monoSec)]) : Pairs bs sec [.letter 0x61] [.letter 0x61, .tag tagN, .tag tagS] := by
  refine (Trim.pairs_iff h).2 ⟨monoSec, by simp, [0x61], [0x61, -1, -2], ⟨[((0x61, 0x61), 0), ((0, -1), 0), ((0, -2), 0)], 0, ⟨3, ?_, by simp [Final, monoSec]⟩, by decide, by decide⟩, ?_, ?_⟩
  · refine Path.cons (r := 1) ⟨1, by decide, (edge_iff_arcs (by decide) _ _ _).2 ?_⟩ (Path.cons (r := 2) ⟨2, by decide, (edge_iff_arcs (by decide) _ _ _).2 ?_⟩
      (Path.cons (r := 3) ⟨3, by decide, (edge_iff_arcs (by decide) _ _ _).2 ?_⟩ (.nil 3)))
    · simp [arcsOf, monoSec]
    · simp [arcsOf, monoSec]
    · simp [arcsOf, monoSec]
  · exact .cons (.inl ⟨by decide, rfl⟩) .nil
  · exact .cons (.inl ⟨by decide, rfl⟩) (.cons (.inr ⟨by decide, tagN, by decide, rfl⟩) (.cons (.inr ⟨by decide, tagS, by decide, rfl⟩) .nil))

theorem mono_listable (analyser : Bool) {bs : List UInt8} (h : Dictionary bs [0x61, 0x62] monoAlpha [(sec, monoSec)]) :
    Listable analyser bs [0x61, 0x62] monoAlpha [(sec, monoSec)] := by
  refine ⟨h, ?_, fun e _ => mono_joining analyser, mono_wild⟩
  intro k hk
  have := (Tools.has_iff h.stored k).1 hk
  have : k = sec := by simpa using this
  subst this
  exact ⟨_, _, mono_first h⟩

/-- Levels of the states: arcs go up. -/
def level (q : Nat) : Nat := [0, 1, 2, 3, 1, 3].getD q 3

theorem level_le (q : Nat) : level q ≤ 3 := by
  unfold level
  rcases q with _ | _ | _ | _ | _ | _ | q <;> simp

theorem mono_short {q p : Nat} {ls : List (Pair × Dbl)} (h : Path (PairEdge monoAlpha monoSec) q ls p) : level q + ls.length ≤ level p := by
  induction h with
  | nil => simp
  | cons h1 _ ih =>
    obtain ⟨c, -, he⟩ := h1
    rw [edge_iff_arcs (by decide)] at he
    have : ∀ x ∈ arcsOf monoSec.transitions, level x.1 + 1 ≤ level x.2.2.1 := by decide +kernel
    have := this _ he
    simp only at this
    rw [List.length_cons]
    omega

theorem mono_bounded {bs : List UInt8} (h : Dictionary bs [0x61, 0x62] monoAlpha [(sec, monoSec)]) :
    ∃ n, ∀ k X Y, Pairs bs k X Y → X.length ≤ n ∧ Y.length ≤ n := by
  refine ⟨3, fun k X Y hp => ?_⟩
  obtain ⟨t, h1, x, y, ⟨ls, fw, ⟨p, h2, h3⟩, rfl, rfl⟩, h4, h5⟩ := (Trim.pairs_iff h).1 hp
  have : t = monoSec := by
    have : k = sec ∧ t = monoSec := by simpa using h1
    exact this.2
  subst this
  have hl := mono_short h2
  have := level_le p
  rw [← h4.length_eq, ← h5.length_eq]
  constructor
  · refine (List.length_filter_le _ _).trans ?_
    rw [List.length_map]; omega
  · refine (List.length_filter_le _ _).trans ?_
    rw [List.length_map]; omega

/-- The pattern `*<*|s|n>`. -/
def starred : List Item := [.star, .some [[0x73], [0x6e]]]

theorem starred_line : Line monoAlpha.slexicinv [0x2a, 0x3c, 0x2a, 0x7c, 0x73, 0x7c, 0x6e, 0x3e] starred := by
  refine ⟨by decide, by decide, ?_⟩
  intro i hi
  simp only [starred, List.mem_cons, List.not_mem_nil, or_false] at hi
  rcases hi with rfl | rfl
  · exact trivial
  · refine ⟨?_, by rw [Trim.monoAlpha_tags]; decide⟩
    intro n hn
    simp only [List.mem_cons, List.not_mem_nil, or_false] at hn
    rcases hn with rfl | rfl <;> exact ⟨by decide, by decide, by decide, by decide⟩

theorem starred_fits : Fits [0x61, 0x62] [] starred [.letter 0x61, .tag tagN, .tag tagS] := by
  refine ⟨[.letter 0x61], [.tag tagN, .tag tagS], rfl, ?_, [.tag tagN, .tag tagS], [], rfl, ?_, rfl⟩
  · intro m hm
    exact ⟨0x61, by simp, by simpa using hm⟩
  · intro m hm
    simp only [List.mem_cons, List.not_mem_nil, or_false] at hm
    rcases hm with rfl | rfl
    · exact ⟨[0x6e], by simp, rfl⟩
    · exact ⟨[0x73], by simp, rfl⟩

/-- `a<n><s>:a` -/
theorem starred_belongs {bs : List UInt8} (h : Dictionary bs [0x61, 0x62] monoAlpha [(sec, monoSec)]) :
    Belongs true bs [0x61, 0x62] [] starred ([0x61, 0x3c, 0x6e, 0x3e, 0x3c, 0x73, 0x3e], [0x61]) := by
  refine ⟨sec, [.letter 0x61], [.letter 0x61, .tag tagN, .tag tagS], by simpa [Entry] using mono_first h, ?_, by decide, by decide, by decide⟩
  exact (C91_matches _ _ _ _ ⟨by decide, by decide⟩).2 starred_fits

/-- C91 at work: the analysis that the pattern stands for is in the list, for two patterns of the input. -/
example : ∃ bs e e' : _, ∃ out, ltParadigm (fun _ => (0 : Nat)) true true [] bs (inputOf [0x2a, 0x3c, 0x2a, 0x7c, 0x73, 0x7c, 0x6e, 0x3e]
    [(0x0a, [0x2a, 0x3c, 0x2a, 0x7c, 0x73, 0x7c, 0x6e, 0x3e])]) = .ok out ∧ out = outputOf e [(0x0a, e')] ∧
    ([0x61, 0x3c, 0x6e, 0x3e, 0x3c, 0x73, 0x3e], [0x61]) ∈ e ∧ ([0x61, 0x3c, 0x6e, 0x3e, 0x3c, 0x73, 0x3e], [0x61]) ∈ e' := by
  obtain ⟨bs, h⟩ := Trim.monoFile
  obtain ⟨e, es, h1, h2, h3⟩ := C91_lists (fun _ => (0 : Nat)) true true [] bs _ _ _ (mono_listable true h) _ starred starred_line
    [((0x0a, [0x2a, 0x3c, 0x2a, 0x7c, 0x73, 0x7c, 0x6e, 0x3e]), starred)] (by intro r hr; rw [List.mem_singleton.1 hr]; exact ⟨.inl rfl, starred_line⟩)
  cases h3 with
  | @cons _ x _ _ h4 h5 =>
    cases h5
    obtain ⟨s, e'⟩ := x
    obtain ⟨h6, h7⟩ := h4
    simp only at h6
    subst h6
    exact ⟨bs, e, e', _, h1, rfl, h2.complete (mono_bounded h) _ (starred_belongs h), h7.complete (mono_bounded h) _ (starred_belongs h)⟩

/-! ## Where the patterns do not mean what they say -/

/-- With the file of the dictionary the tool does what follows reading. -/
theorem run_mono {bs : List UInt8} (h : Dictionary bs [0x61, 0x62] monoAlpha [(sec, monoSec)]) (sort : Bool) (exclude : List UString) (input : List Nat) :
    ltParadigm (fun _ => (0 : Nat)) true sort exclude bs input = (do
      let tags ← allowed exclude (monoAlpha.includeSymbol ANY)
      readLoop sort [0x61, 0x62] tags input [] (monoAlpha.includeSymbol ANY) (Chain.storedAll (fun _ => (0 : Nat)) [(sec, monoSec)])) := by
  obtain ⟨r, hr⟩ := h.stored
  unfold ltParadigm
  rw [hr, Res.bind_ok]
  simp only [if_true, Res.bind_ok]

/-- A tag that the dictionary does not have is left out of the pattern: for `b<z><n>` the list has `b<n>:b`. -/
theorem C91_unknownTag_false : ∃ bs L a ts, Listable true bs L a ts ∧ tagOf [0x7a] ∉ a.slexicinv ∧
    ltParadigm (fun _ => (0 : Nat)) true false [] bs [0x62, 0x3c, 0x7a, 0x3e, 0x3c, 0x6e, 0x3e] = .ok (printed [([0x62, 0x3c, 0x6e, 0x3e], [0x62])]) := by
  obtain ⟨bs, h⟩ := Trim.monoFile
  refine ⟨bs, _, _, _, mono_listable true h, by rw [Trim.monoAlpha_tags]; decide, ?_⟩
  rw [run_mono h]
  decide +kernel

/-- So is a choice between tags none of which the dictionary has: for `b<|z><n>` the list has `b<n>:b`. -/
theorem C91_unknownChoice_false : ∃ bs L a ts, Listable true bs L a ts ∧ tagOf [0x7a] ∉ a.slexicinv ∧
    ltParadigm (fun _ => (0 : Nat)) true false [] bs ([0x62] ++ (Item.one [[0x7a]]).text.map (·.toNat) ++ [0x3c, 0x6e, 0x3e]) =
      .ok (printed [([0x62, 0x3c, 0x6e, 0x3e], [0x62])]) := by
  obtain ⟨bs, h⟩ := Trim.monoFile
  refine ⟨bs, _, _, _, mono_listable true h, by rw [Trim.monoAlpha_tags]; decide, ?_⟩
  rw [run_mono h]
  decide +kernel

/-- A star with a backslash before it stands for any letters all the same: for `\*<n>` the list has `b<n>:b`. -/
theorem C91_escapedStar_false : ∃ bs L a ts, Listable true bs L a ts ∧
    ltParadigm (fun _ => (0 : Nat)) true false [] bs [0x5c, 0x2a, 0x3c, 0x6e, 0x3e] = .ok (printed [([0x62, 0x3c, 0x6e, 0x3e], [0x62])]) := by
  obtain ⟨bs, h⟩ := Trim.monoFile
  refine ⟨bs, _, _, _, mono_listable true h, ?_⟩
  rw [run_mono h]
  decide +kernel

/-- `-e` is said to disregard paths with the tag; but a pattern that names the tag gets them: with `-e <n>` the list for `b<n>` has `b<n>:b`. -/
theorem C91_excluded_false : ∃ bs L a ts, Listable true bs L a ts ∧
    ltParadigm (fun _ => (0 : Nat)) true false [tagN] bs [0x62, 0x3c, 0x6e, 0x3e] = .ok (printed [([0x62, 0x3c, 0x6e, 0x3e], [0x62])]) := by
  obtain ⟨bs, h⟩ := Trim.monoFile
  refine ⟨bs, _, _, _, mono_listable true h, ?_⟩
  rw [run_mono h]
  decide +kernel

/-! ## A cycle -/

/-- `a:a`, any number of times and at least once, and then `<n>`. -/
def loopSec : Transducer Dbl :=
  { initial := 0
    finals := [(2, 0)]
    transitions := [(0, [(1, (1, 0))]), (1, [(1, (1, 0)), (2, (2, 0))]), (2, [])] }

theorem loop_file : ∃ bs, Dictionary bs [0x61, 0x62] monoAlpha [(sec, loopSec)] := by
  obtain ⟨bs, -, h⟩ := Tools.written (L := [0x61, 0x62]) (a := monoAlpha) (ts := [(sec, loopSec)]) ⟨by decide, by decide, by decide⟩ Trim.monoAlpha_sane (by simp) (by decide)
    (by simpa using Trim.part_of_check (a := monoAlpha) (t := loopSec) (by decide) (by decide) (by simp [arcsOf, loopSec]) (by simp [loopSec]) (by decide) (by decide))
    (by decide) (by decide) (by decide)
  exact ⟨bs, h⟩

theorem loop_pairs {bs : List UInt8} (h : Dictionary bs [0x61, 0x62] monoAlpha [(sec, loopSec)]) (n : Nat) :
    Pairs bs sec (List.replicate (n + 1) (.letter 0x61)) (List.replicate (n + 1) (.letter 0x61) ++ [.tag tagN]) := by
  have e0 : PairEdge monoAlpha loopSec 0 ((0x61, 0x61), 0) 1 := ⟨1, by decide, (edge_iff_arcs (by decide) _ _ _).2 (by simp [arcsOf, loopSec])⟩
  have e1 : PairEdge monoAlpha loopSec 1 ((0x61, 0x61), 0) 1 := ⟨1, by decide, (edge_iff_arcs (by decide) _ _ _).2 (by simp [arcsOf, loopSec])⟩
  have e2 : PairEdge monoAlpha loopSec 1 ((0, -1), 0) 2 := ⟨2, by decide, (edge_iff_arcs (by decide) _ _ _).2 (by simp [arcsOf, loopSec])⟩
  have hl : ∀ n, Path (PairEdge monoAlpha loopSec) 1 (List.replicate n ((0x61, 0x61), 0) ++ [((0, -1), 0)]) 2 := by
    intro n
    induction n with
    | zero => exact .cons e2 (.nil _)
    | succ n ih => rw [List.replicate_succ, List.cons_append]; exact .cons e1 ih
  refine (Trim.pairs_iff h).2 ⟨loopSec, by simp, List.replicate (n + 1) 0x61, List.replicate (n + 1) 0x61 ++ [-1],
    ⟨List.replicate (n + 1) ((0x61, 0x61), 0) ++ [((0, -1), 0)], 0, ⟨2, ?_, by simp [Final, loopSec]⟩, ?_, ?_⟩, ?_, ?_⟩
  · rw [List.replicate_succ, List.cons_append]; exact .cons e0 (hl n)
  · simp [List.filter_append]
  · simp [List.filter_append]
  · clear hl
    generalize n + 1 = m
    induction m with
    | zero => exact .nil
    | succ m ih => rw [List.replicate_succ, List.replicate_succ]; exact .cons (.inl ⟨by decide, rfl⟩) ih
  · refine List.rel_append ?_ (.cons (.inr ⟨by decide, tagN, by decide, rfl⟩) .nil)
    clear hl
    generalize n + 1 = m
    induction m with
    | zero => exact .nil
    | succ m ih => rw [List.replicate_succ, List.replicate_succ]; exact .cons (.inl ⟨by decide, rfl⟩) ih

theorem loop_listable {bs : List UInt8} (h : Dictionary bs [0x61, 0x62] monoAlpha [(sec, loopSec)]) : Listable true bs [0x61, 0x62] monoAlpha [(sec, loopSec)] := by
  refine ⟨h, ?_, fun e _ => mono_joining true, mono_wild⟩
  intro k hk
  have := (Tools.has_iff h.stored k).1 hk
  have : k = sec := by simpa using this
  subst this
  exact ⟨_, _, loop_pairs h 0⟩

/-- With a cycle in the dictionary the list is not complete: for `*<n>` it has `aa<n>:aa` and `a<n>:a`, and longer ones belong there too. -/
theorem C91_cycles_false : ∃ bs L a ts, Listable true bs L a ts ∧ Line a.slexicinv [0x2a, 0x3c, 0x6e, 0x3e] [.star, .tag [0x6e]] ∧
    ∃ es, ltParadigm (fun _ => (0 : Nat)) true false [] bs [0x2a, 0x3c, 0x6e, 0x3e] = .ok (printed es) ∧ ∃ e, Belongs true bs L [] [.star, .tag [0x6e]] e ∧ e ∉ es := by
  obtain ⟨bs, h⟩ := loop_file
  refine ⟨bs, _, _, _, loop_listable h, ?_, [([0x61, 0x61, 0x3c, 0x6e, 0x3e], [0x61, 0x61]), ([0x61, 0x3c, 0x6e, 0x3e], [0x61])], ?_,
    ([0x61, 0x61, 0x61, 0x61, 0x61, 0x3c, 0x6e, 0x3e], [0x61, 0x61, 0x61, 0x61, 0x61]), ?_, by decide⟩
  · refine ⟨by decide, by decide, ?_⟩
    intro i hi
    simp only [List.mem_cons, List.not_mem_nil, or_false] at hi
    rcases hi with rfl | rfl
    · exact trivial
    · exact ⟨by decide, by rw [Trim.monoAlpha_tags]; decide, by decide⟩
  · obtain ⟨r, hr⟩ := h.stored
    unfold ltParadigm
    rw [hr, Res.bind_ok]
    simp only [if_true, Res.bind_ok]
    decide +kernel
  · refine ⟨sec, _, _, by simpa [Entry] using loop_pairs h 4, ?_, by simp, by simp, by decide⟩
    refine (C91_matches _ _ _ _ ⟨by decide, by decide⟩).2 ⟨List.replicate 5 (.letter 0x61), [.tag tagN], rfl, ?_, [.tag tagN], [], rfl, rfl, rfl⟩
    intro m hm
    exact ⟨0x61, by simp, List.eq_of_mem_replicate hm⟩

end Verif.Paradigm
