import Verif.Patterns.Labels

/-! # Lists of patterns: examples, and what is not recognised -/

namespace Verif.Patterns

open Verif.Fst
open Verif.Match (MatchExe run classifyFinals Fits after)
open Verif.Pattern (units dotted)

/-- The numbers that the marks have in a new list. -/
def demo : Codes := { char := -2, tag := -1, queue := -3 }

example : codesOf (PatternList.new (W := Nat)).alphabet = demo := by decide

theorem demo_ok : demo.Ok := by constructor <;> decide

def built (ps : List (Int × List Int)) : Res MatchExe := do
  let (t, f) ← buildAll demo ps ((Fst.empty : Transducer Nat), [])
  MatchExe.make t f

def answer (ps : List (Int × List Int)) (banned : List Int) (ss : List (List Int)) : Res Int := do
  let m ← built ps
  let s ← run m.table m.initial ss
  classifyFinals m.finals banned s

instance fitsDecidable (nodes : Nat → SortedVec.Table Nat) : (l : List Nat) → (ss : List (List Int)) → Decidable (Fits nodes l ss)
  | _, [] => isTrue trivial
  | l, xs :: ss =>
    have := fitsDecidable nodes (after nodes xs l) ss
    inferInstanceAs (Decidable (_ ∧ _ ∧ _))

/-! ## Tidy patterns -/

/-- The places of the patterns. -/
def places (c : Codes) (ps : List (Int × List Int)) : List (List Int) := ps.flatMap fun e => e.2.inits.map (norm c)

theorem mem_places {c : Codes} {ps : List (Int × List Int)} {u : List Int} : u ∈ places c ps ↔ Begins c ps u := by
  unfold places Begins
  simp only [List.mem_flatMap, List.mem_map, List.mem_inits]
  constructor
  · rintro ⟨e, he, v, hv, rfl⟩; exact ⟨e, he, v, hv, rfl⟩
  · rintro ⟨e, he, v, hv, rfl⟩; exact ⟨e, he, v, hv, rfl⟩

instance (c : Codes) (x : Int) : Decidable (c.Plain x) := inferInstanceAs (Decidable (_ ∧ _ ∧ _))
instance (x : Int) : Decidable (Opener x) := inferInstanceAs (Decidable (_ ∨ _ ∨ _))

theorem tidy_of_places {c : Codes} {ps : List (Int × List Int)}
    (h1 : ∀ x ∈ places c ps, x.length ≥ 2 → x.dropLast.getLast? = some c.queue → ∀ y ∈ x.getLast?, c.Plain y ∧ ¬ Opener y)
    (h2 : ∀ x ∈ places c ps, x.getLast? = some c.queue → ∀ z ∈ places c ps, z ≠ [] → z.dropLast = x.dropLast → ∀ y ∈ z.getLast?, c.Plain y → ¬ Opener y ∧ x ++ [y] ∉ places c ps) :
    Tidy c ps := by
  constructor
  · intro u y h
    rw [← mem_places] at h
    refine h1 _ h (by simp) ?_ y ?_
    · rw [snoc2, List.dropLast_concat, last_snoc]
    · rw [snoc2, last_snoc]; rfl
  · intro u y h h' hy
    rw [← mem_places] at h h'
    have := h2 _ h (last_snoc _ _) _ h' (by simp) (by rw [List.dropLast_concat, List.dropLast_concat]) y (by rw [last_snoc]; rfl) hy
    rw [← mem_places, snoc2]
    exact this

/-- `a*<n>` is 1, `b<n><*>` is 3; the sequence of 1 and 3 is 5, that of 1 and `c<n>` is 6. -/
def tidyDemo : List (Int × List Int) :=
  [(1, [97, -2, -4, -3]), (3, [98, -4, -1, -3]), (5, [97, -2, -4, -3, 0x2b, 98, -4, -1, -3, -3]), (6, [97, -2, -4, -3, 0x2b, 99, -4, -3])]

theorem tidyDemo_tidy : Tidy demo tidyDemo := tidy_of_places (by decide +kernel) (by decide +kernel)

example : demo.Ok ∧ (tidyDemo.Pairwise fun a b => a.1 ≤ b.1) ∧ (∀ e ∈ tidyDemo, e.1 < 2147483647) ∧ Tidy demo tidyDemo :=
  ⟨demo_ok, by decide, by decide, tidyDemo_tidy⟩

example : Apart demo tidyDemo := by unfold Apart; decide

/-- With 1 banned, `ax<n>` is nothing, and `ax<n>+b<n><m>` is 5 still. -/
example : answer tidyDemo [1] [[97, -2], [120, -2], [-4, -1]] = .ok (-1) ∧
    answer tidyDemo [1] [[97, -2], [120, -2], [-4, -1], [0x2b], [98, -2], [-4, -1], [-5, -1]] = .ok 5 := by decide +kernel

/-- With characters and tags read together with the marks: `ax<n>` is 1, `ax<n>#y+c<n>` is 6, `ax<n>+b<n><m>` is 5, and `ax` nothing. -/
example :
    answer tidyDemo [] [[97, -2], [120, -2], [-4, -1]] = .ok 1 ∧
    answer tidyDemo [] [[97, -2], [120, -2], [-4, -1], [0x23, -2], [121, -2], [0x2b], [99, -2], [-4, -1]] = .ok 6 ∧
    answer tidyDemo [] [[97, -2], [120, -2], [-4, -1], [0x2b], [98, -2], [-4, -1], [-5, -1]] = .ok 5 ∧
    answer tidyDemo [] [[97, -2], [120, -2]] = .ok (-1) := by decide +kernel

example : (built tidyDemo).bind (fun m => if Fits m.table [m.initial] [[97, -2], [120, -2], [-4, -1], [0x2b], [98, -2], [-4, -1], [-5, -1]] then .ok () else .exit) = .ok () := by
  decide +kernel

/-! ## Patterns with and without a queue at the same place -/

theorem answer_split {ps : List (Int × List Int)} {banned : List Int} {ss : List (List Int)} {r : Int} (h : answer ps banned ss = .ok r)
    (hf : (built ps).bind (fun m => if Fits m.table [m.initial] ss then .ok () else .exit) = .ok ()) :
    ∃ m s, built ps = .ok m ∧ Fits m.table [m.initial] ss ∧ run m.table m.initial ss = .ok s ∧ classifyFinals m.finals banned s = .ok r := by
  obtain ⟨m, h1, h2⟩ := Res.bind_eq_ok.1 h
  obtain ⟨s, h3, h4⟩ := Res.bind_eq_ok.1 h2
  refine ⟨m, s, h1, ?_, h3, h4⟩
  rw [h1] at hf
  simp only [Res.bind] at hf
  by_contra hn
  rw [if_neg hn] at hf
  cases hf

theorem stands_cons {c : Codes} {x : Int} {v w : List Int} (hx : c.Plain x) (h : Stands c (x :: v) w) : ∃ w', w = x :: w' ∧ Stands c v w' := by
  have : x :: v = [x] ++ v := rfl
  rw [this] at h
  obtain ⟨w1, w2, rfl, h1, h2⟩ := h.split
  exact ⟨w2, by rw [stands_plain hx h1]; rfl, h2⟩

/-- `a<n>+c<n>` as a sequence of lemmas and tags, and `a<n>` and `b<n>` as a sequence of labels. -/
def mixed : List (Int × List Int) := [(1, [97, -4, 0x2b, 99, -4, -3]), (2, [97, -4, -3, 0x2b, 98, -4, -3, -3])]

/-- The same with the numbers exchanged. -/
def mixed' : List (Int × List Int) := [(1, [97, -4, -3, 0x2b, 98, -4, -3, -3]), (2, [97, -4, 0x2b, 99, -4, -3])]

/-- **C85** Without tidiness it is false: `a<n>+b<n>` is not recognised after `a<n>+c<n>` has been put in without a queue after `a<n>`; -/
theorem C85_mixed_false : ∃ m s, built mixed = .ok m ∧ Fits m.table [m.initial] [[97], [-4], [0x2b], [98], [-4]] ∧
    run m.table m.initial [[97], [-4], [0x2b], [98], [-4]] = .ok s ∧ classifyFinals m.finals [] s = .ok (-1) ∧
    Fitting demo mixed [[97], [-4], [0x2b], [98], [-4]] 2 := by
  obtain ⟨m, s, h1, h2, h3, h4⟩ := answer_split (ps := mixed) (banned := []) (ss := [[97], [-4], [0x2b], [98], [-4]]) (r := -1) (by decide +kernel) (by decide +kernel)
  refine ⟨m, s, h1, h2, h3, h4, [97, -4, -3, 0x2b, 98, -4, -3, -3], [97, -4, 0x2b, 98, -4], by decide, ?_, by decide⟩
  have e : norm demo [97, -4, -3, 0x2b, 98, -4, -3, -3] = [97, -4, -3, 0x2b, 98, -4, -3] := by decide
  rw [e]
  exact .plain (by decide) (.plain (by decide) (.absent (.plain (by decide) (.plain (by decide) (.plain (by decide) (.absent .nil))))))

/-- **C85** and `a<n>#+c<n>` is recognised as `a<n>+c<n>` after `a<n>+b<n>` has been put in with a queue there. -/
theorem C85_spurious_false : ∃ m s, built mixed' = .ok m ∧ Fits m.table [m.initial] [[97], [-4], [0x23], [0x2b], [99], [-4]] ∧
    run m.table m.initial [[97], [-4], [0x23], [0x2b], [99], [-4]] = .ok s ∧ classifyFinals m.finals [] s = .ok 2 ∧
    ¬ Fitting demo mixed' [[97], [-4], [0x23], [0x2b], [99], [-4]] 2 := by
  obtain ⟨m, s, h1, h2, h3, h4⟩ := answer_split (ps := mixed') (banned := []) (ss := [[97], [-4], [0x23], [0x2b], [99], [-4]]) (r := 2) (by decide +kernel) (by decide +kernel)
  refine ⟨m, s, h1, h2, h3, h4, ?_⟩
  rintro ⟨v, w, g1, g2, g3⟩
  have hv : v = [97, -4, 0x2b, 99, -4, -3] := by
    simp only [mixed', List.mem_cons, Prod.mk.injEq, List.not_mem_nil, or_false] at g1
    rcases g1 with ⟨h, -⟩ | ⟨-, h⟩
    · omega
    · exact h
  subst hv
  have e : norm demo [97, -4, 0x2b, 99, -4, -3] = [97, -4, 0x2b, 99, -4, -3] := by decide
  rw [e] at g2
  obtain ⟨w1, rfl, k1⟩ := stands_cons (by decide) g2
  obtain ⟨w2, rfl, k2⟩ := stands_cons (by decide) k1
  obtain ⟨w3, rfl, k3⟩ := stands_cons (by decide) k2
  rcases g3 with _ | ⟨-, _ | ⟨-, _ | ⟨h, -⟩⟩⟩
  simp at h

/-- **C85** A state has the number of the first pattern that ends there. When that one is banned, another pattern for the same strings is not found. -/
theorem C85_banned_false : ∃ m s, built [(1, [97, -4, -3]), (2, [97, -4, -3])] = .ok m ∧ Fits m.table [m.initial] [[97], [-4]] ∧
    run m.table m.initial [[97], [-4]] = .ok s ∧ classifyFinals m.finals [1] s = .ok (-1) ∧
    Fitting demo [(1, [97, -4, -3]), (2, [97, -4, -3])] [[97], [-4]] 2 ∧ (2 : Int) ∉ [(1 : Int)] := by
  obtain ⟨m, s, h1, h2, h3, h4⟩ := answer_split (ps := [(1, [97, -4, -3]), (2, [97, -4, -3])]) (banned := [1]) (ss := [[97], [-4]]) (r := -1) (by decide +kernel) (by decide +kernel)
  refine ⟨m, s, h1, h2, h3, h4, ⟨[97, -4, -3], [97, -4], by decide, ?_, by decide⟩, by decide⟩
  have e : norm demo [97, -4, -3] = [97, -4, -3] := by decide
  rw [e]
  exact .plain (by decide) (.plain (by decide) (.absent .nil))

/-! ## Operations -/

/-- The items of the demonstration, not in the order of their numbers. -/
def opsDemo : List Op :=
  [.word 7 (units "house*", [units "n", units "*"]), .sequence 4 [(units "de", [units "pr"]), ([], [units "det", units "m"])], .word 2 ([], [units "pr"])]

example : (∀ o ∈ opsDemo, (∀ it ∈ o.entry.2, it.Fine) ∧ o.entry.2 ≠ []) ∧ ∀ o ∈ opsDemo, o.entry.1 < 2147483647 := by
  unfold Item.Fine
  decide

example : (performAll opsDemo (PatternList.new (W := Nat))).bind (fun l => .ok l.patterns) =
    .ok [(2, [-2, -5, -3]), (4, [100, 101, -5, 0x2b, -2, -6, -7, -3]), (7, [104, 111, 117, 115, 101, -2, -4, -1, -3])] := by decide +kernel

/-- **C86** A label without patterns in the middle of a sequence: what came before it is forgotten, and what comes after it is stored alone. -/
theorem C86_no_label_false : ∃ l', performSequence 3 [.item (units "a", [units "n"]), .label 99, .item (units "b", [units "n"])] (PatternList.new (W := Nat)) = .ok l' ∧
    l'.patterns = [(3, [98, -4, -3])] := by
  have : (performSequence 3 [.item (units "a", [units "n"]), .label 99, .item (units "b", [units "n"])] (PatternList.new (W := Nat))).bind (fun l => .ok l.patterns) =
      .ok [(3, [98, -4, -3])] := by decide +kernel
  obtain ⟨l', h1, h2⟩ := Res.bind_eq_ok.1 this
  exact ⟨l', h1, Res.ok.inj h2⟩

/-- A list with two patterns of number 1, for a sequence with the label 1. -/
example : ∃ l : PatternList Nat, performAll [.word 1 (units "a", [units "n"]), .word 1 (units "b", [units "n"])] PatternList.new = .ok l ∧
    (∃ c, Holds c l [(1, [(units "a", [units "n"])]), (1, [(units "b", [units "n"])])]) ∧ ∀ p ∈ [Part.label 1, Part.item (units "c", [units "n"])], p.Fine l.patterns := by
  obtain ⟨c, h0⟩ := holds_new (W := Nat)
  obtain ⟨l, h1, h2⟩ := performAll_ok [.word 1 (units "a", [units "n"]), .word 1 (units "b", [units "n"])] _ _ h0 (by unfold Item.Fine; decide)
  refine ⟨l, h1, ⟨c, h2⟩, ?_⟩
  intro p hp
  simp only [List.mem_cons, List.not_mem_nil, or_false] at hp
  rcases hp with rfl | rfl
  · exact ⟨_, (h2.mem 1 _).2 ⟨[(units "a", [units "n"])], by simp [Op.entry], rfl⟩⟩
  · show Item.Fine _
    unfold Item.Fine
    decide

end Verif.Patterns
