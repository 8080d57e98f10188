import Verif.Paradigm.Tool

/-! # What `lt-paradigm` lists -/

namespace Verif.Paradigm

open Verif.Fst
open Verif.Tools (Dictionary)
open Verif.Compression (Dbl)

variable {W : Type}

/-- For every pattern of the input, in order, `lt-paradigm` writes analyses and forms of the dictionary whose analyses match the pattern; all of them, if the
dictionary is without cycles; and with `-s` in order. Between the lists it writes the same line ends or zeros that are between the patterns. -/
theorem C91_lists [AddCommMonoid W] (v : Dbl → W) (analyser sort : Bool) (exclude : List UString) (bs : List UInt8) (L : List UInt32) (a : Alphabet)
    (ts : List (UString × Transducer Dbl)) (h : Listable analyser bs L a ts) (first : List Nat) (is : List Item) (hf : Line a.slexicinv first is)
    (rest : List ((Nat × List Nat) × List Item)) (hr : ∀ r ∈ rest, (r.1.1 = 0x0a ∨ r.1.1 = 0) ∧ Line a.slexicinv r.1.2 r.2) :
    ∃ e es, ltParadigm v analyser sort exclude bs (inputOf first (rest.map (·.1))) = .ok (outputOf e es) ∧
      Lists analyser sort bs L exclude is e ∧ List.Forall₂ (fun r x => x.1 = r.1.1 ∧ Lists analyser sort bs L exclude r.2 x.2) rest es := by
  obtain ⟨s1, -, s3⟩ := sane_any h.dict.sane
  obtain ⟨tags, t1, t2⟩ := allowed_ok s1.ok exclude
  obtain ⟨a', ts', g1, g2, g3, g4⟩ := sections_ok v h
  have hw : Alphabet.anyChar ∉ a'.slexicinv ∧ Alphabet.anyTag ∉ a'.slexicinv := by
    rw [g3, s3, s3]
    refine ⟨?_, ?_⟩
    · rintro (k | k)
      · exact h.noWildcards.1 k
      · exact absurd k (by decide)
    · rintro (k | k)
      · exact h.noWildcards.2 k
      · exact absurd k (by decide)
  have ht : Allowed a' exclude tags := by
    intro c
    rw [t2 c]
    simp only [← named_tag_iff, named_congr g3]
  obtain ⟨e, es, k1, k2, k3⟩ := readLoop_ok (sort := sort) (letters := L) (exclude := exclude) (tags := tags) (known := a.slexicinv)
    (fun c hc => (h.dict.letters.2.2 c hc).1) rest hr first is a' _ hf g2 (by rw [g3]; exact s3) ht hw g4
  refine ⟨e, es, ?_, listing_lists h.dict k2, k3.imp fun _ _ g => ⟨g.1, listing_lists h.dict g.2⟩⟩
  obtain ⟨r, hr⟩ := h.dict.stored
  unfold ltParadigm
  rw [hr, Res.bind_ok]
  simp only
  rw [t1, Res.bind_ok]
  cases analyser
  · rw [if_neg (by decide)] at g1
    simp only [Bool.false_eq_true, if_false, g1, Res.bind_ok]
    exact k1
  · rw [if_pos rfl] at g1
    cases g1
    simp only [if_true, Res.bind_ok]
    exact k1

theorem unmarked_eq {Y : List Name} (h : Unjoined Y) : Trim.unmarked Y = Y := by
  unfold Trim.unmarked
  rw [List.filter_eq_self]
  intro n hn
  simp only [decide_eq_true_eq]
  intro hm
  obtain ⟨s, h1, rfl⟩ := List.mem_map.1 hm
  exact h.2 s h1 hn

/-- For an analysis without joins and compounds to match a pattern is to be what the pattern stands for. -/
theorem C91_matches (L : List UInt32) (exclude : List UString) (is : List Item) (Y : List Name) (h : Unjoined Y) :
    Matches L exclude is Y ↔ Fits L exclude is Y := by
  constructor
  · rintro ⟨parts, last, rfl, -, h2⟩
    cases parts with
    | nil =>
      have : Trim.unmarked last = last := unmarked_eq (by simpa using h)
      rw [this] at h2
      simpa using h2
    | cons p ps => exact absurd (by simp) h.1
  · intro hf
    exact ⟨[], Y, by simp, by simp, by rw [unmarked_eq h]; exact hf⟩

end Verif.Paradigm
