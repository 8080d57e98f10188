import Verif.Patterns.Props

/-! # Sequences with labels -/

namespace Verif.Patterns

open Verif.Fst
open Verif.Pattern (dotted)
open Verif.Alphabet (Ok Ext HasTag)

variable {W : Type} [Zero W]

/-- A part of a sequence: a lemma with tags, or the number of patterns that are already there. -/
inductive Part where
  | item (it : Item)
  | label (id : Int)

/-- The calls for the parts of a sequence. -/
def insertParts (id : Int) : List Part → PatternList W → Res (PatternList W)
  | [], l => .ok l
  | .item it :: ps, l => do insertParts id ps (← insert id it.1 (dotted it.2) l)
  | .label k :: ps, l => do insertParts id ps (← insertLabel id k l)

/-- The calls for a sequence. -/
def performSequence (id : Int) (ps : List Part) (l : PatternList W) : Res (PatternList W) := do
  endSequence (← insertParts id ps (← beginSequence l))

/-- The symbols for a part: those of the item, or one of the patterns with the number. -/
def Chosen (a : Alphabet) (old : List (Int × List Int)) : Part → List Int → Prop
  | .item it, v => v = itemSyms a it
  | .label k, v => (k, v) ∈ old

/-- The lemma and the tags are fine; there are patterns with the number. -/
def Part.Fine (old : List (Int × List Int)) : Part → Prop
  | .item it => it.Fine
  | .label k => ∃ v, (k, v) ∈ old

def Part.Known (a : Alphabet) : Part → Prop
  | .item it => Patterns.Known a it
  | .label _ => True

theorem chosen_mono {a b : Alphabet} {c : Codes} (ha : Ok a) (hb : Ok b) (he : Ext a b) (hm : Marks a c) {old : List (Int × List Int)} {p : Part} (hk : p.Known a) {v : List Int} :
    Chosen b old p v ↔ Chosen a old p v := by
  cases p with
  | item it => show v = itemSyms b it ↔ v = itemSyms a it; rw [itemSyms_mono ha hb he hm hk]
  | label k => exact Iff.rfl

theorem forall₂_congr {α β : Type} {R S : α → β → Prop} {xs : List α} {ys : List β} (h : ∀ x ∈ xs, ∀ y, R x y ↔ S x y) : List.Forall₂ R xs ys ↔ List.Forall₂ S xs ys := by
  induction xs generalizing ys with
  | nil => constructor <;> (intro h; cases h; exact .nil)
  | cons x xs ih =>
    have ih := fun ys => @ih ys (fun x hx => h x (List.mem_cons_of_mem _ hx))
    constructor
    · intro h'
      cases h' with
      | cons h1 h2 => exact .cons ((h x (List.mem_cons_self ..) _).1 h1) ((ih _).1 h2)
    · intro h'
      cases h' with
      | cons h1 h2 => exact .cons ((h x (List.mem_cons_self ..) _).2 h1) ((ih _).2 h2)

theorem forall₂_snoc {α β : Type} {R : α → β → Prop} {xs : List α} {x : α} {zs : List β} :
    List.Forall₂ R (xs ++ [x]) zs ↔ ∃ ys y, zs = ys ++ [y] ∧ List.Forall₂ R xs ys ∧ R x y := by
  constructor
  · intro h
    induction xs generalizing zs with
    | nil =>
      cases h with
      | cons h1 h2 => cases h2; exact ⟨[], _, rfl, .nil, h1⟩
    | cons z xs ih =>
      cases h with
      | cons h1 h2 =>
        obtain ⟨ys, y, rfl, g1, g2⟩ := ih h2
        exact ⟨_ :: ys, y, rfl, .cons h1 g1, g2⟩
  · rintro ⟨ys, y, rfl, h1, h2⟩
    induction h1 with
    | nil => exact .cons h2 .nil
    | cons h _ ih => exact .cons h ih

theorem extendAll_ok {c : Codes} {it : Item} (hf : it.Fine) : ∀ (vs : List (List Int)) (a : Alphabet), vs ≠ [] → Ok a → Marks a c →
    ∃ a', extendAll it.1 (dotted it.2) vs a = .ok (a', vs.map fun v => v ++ [0x2b] ++ itemSyms a' it) ∧ Ok a' ∧ Ext a a' ∧ Known a' it
  | [], _, h, _, _ => absurd rfl h
  | [v], a, _, ha, hm => by
    obtain ⟨a', g1, g2, g3, g4⟩ := wordSymbols_ok hf ha hm
    exact ⟨a', by rw [extendAll, g1]; rfl, g2, g3, g4⟩
  | v :: v' :: vs, a, _, ha, hm => by
    obtain ⟨a1, g1, g2, g3, g4⟩ := wordSymbols_ok hf ha hm
    obtain ⟨a2, k1, k2, k3, k4⟩ := extendAll_ok hf (v' :: vs) a1 (by simp) g2 (hm.mono g3)
    refine ⟨a2, ?_, k2, g3.trans k3, k4⟩
    rw [extendAll, g1]
    simp only [Res.bind_ok]
    rw [k1]
    simp only [Res.bind_ok, Res.pure_eq, List.map_cons]
    rw [itemSyms_mono g2 k2 k3 (hm.mono g3) g4]

/-- What `sequence_data` has after the parts. -/
structure Holding (c : Codes) (id : Int) (l : PatternList W) (old : List (Int × List Int)) (ps : List Part) : Prop where
  ok : Ok l.alphabet
  marks : Marks l.alphabet c
  on : l.sequence = true
  pats : l.patterns = old
  known : ∀ p ∈ ps, p.Known l.alphabet
  start : ps = [] → l.seqData = []
  ne : ps ≠ [] → l.seqData ≠ [] ∧ l.seqId = id
  mem : ps ≠ [] → ∀ v, v ∈ l.seqData ↔ ∃ vs, List.Forall₂ (Chosen l.alphabet old) ps vs ∧ v = joined vs

theorem forall₂_ne {α β : Type} {R : α → β → Prop} {xs : List α} {ys : List β} (h : List.Forall₂ R xs ys) (hx : xs ≠ []) : ys ≠ [] := by
  cases h with
  | nil => exact absurd rfl hx
  | cons => simp

omit [Zero W] in
theorem mem_ofId {id : Int} {m : List (Int × List Int)} {v : List Int} : v ∈ ofId id m ↔ (id, v) ∈ m := by
  unfold ofId
  simp only [List.mem_map, List.mem_filter, decide_eq_true_eq]
  constructor
  · rintro ⟨⟨k, u⟩, ⟨h1, h2⟩, h3⟩
    simp only at h2 h3
    subst h2; subst h3
    exact h1
  · intro h
    exact ⟨(id, v), ⟨h, rfl⟩, rfl⟩

theorem insertPart_ok {c : Codes} {id : Int} {l : PatternList W} {old : List (Int × List Int)} {ps : List Part} (h : Holding c id l old ps) {p : Part} (hf : p.Fine old) :
    ∃ l', insertParts id [p] l = .ok l' ∧ Holding c id l' old (ps ++ [p]) ∧ Ext l.alphabet l'.alphabet ∧ l'.transducer = l.transducer ∧ l'.finalType = l.finalType := by
  have hmem : ∀ (b : Alphabet), Ok b → Ext l.alphabet b → ∀ vs, List.Forall₂ (Chosen b old) ps vs ↔ List.Forall₂ (Chosen l.alphabet old) ps vs := by
    intro b hb he vs
    exact forall₂_congr fun p hp v => chosen_mono h.ok hb he h.marks (h.known p hp)
  cases p with
  | item it =>
    by_cases hps : ps = []
    · obtain ⟨a', g1, g2, g3, g4⟩ := wordSymbols_ok hf h.ok h.marks
      refine ⟨{ l with alphabet := a', seqId := id, seqData := [itemSyms a' it] }, ?_, ⟨g2, h.marks.mono g3, h.on, h.pats, ?_, by simp, fun _ => ⟨by simp, rfl⟩, ?_⟩, g3, rfl, rfl⟩
      · simp only [insertParts]
        unfold insert insertIntoSequence
        rw [if_pos h.on, if_pos (h.start hps), g1]
        rfl
      · subst hps
        intro p hp
        simp only [List.nil_append, List.mem_singleton] at hp
        subst hp
        exact g4
      · subst hps
        intro _ v
        simp only [List.nil_append, List.mem_singleton]
        constructor
        · rintro rfl
          exact ⟨[itemSyms a' it], .cons rfl .nil, rfl⟩
        · rintro ⟨vs, k1, rfl⟩
          cases k1 with
          | cons k1 k2 => cases k2; exact k1
    · obtain ⟨hne, hid⟩ := h.ne hps
      obtain ⟨a', g1, g2, g3, g4⟩ := extendAll_ok hf l.seqData l.alphabet hne h.ok h.marks
      refine ⟨{ l with alphabet := a', seqId := id, seqData := l.seqData.map fun v => v ++ [0x2b] ++ itemSyms a' it }, ?_,
        ⟨g2, h.marks.mono g3, h.on, h.pats, ?_, by simp, fun _ => ⟨by simpa using hne, rfl⟩, ?_⟩, g3, rfl, rfl⟩
      · simp only [insertParts]
        unfold insert insertIntoSequence
        rw [if_pos h.on, if_neg hne, g1]
        rfl
      · intro p hp
        rcases List.mem_append.1 hp with hp | hp
        · have := h.known p hp
          cases p with
          | item it => exact Known.mono this g3
          | label k => exact this
        · rw [List.mem_singleton.1 hp]; exact g4
      · intro _ v
        simp only
        rw [List.mem_map]
        constructor
        · rintro ⟨u, hu, rfl⟩
          obtain ⟨vs, k1, rfl⟩ := (h.mem hps u).1 hu
          exact ⟨vs ++ [itemSyms a' it], forall₂_snoc.2 ⟨vs, _, rfl, (hmem _ g2 g3 _).2 k1, rfl⟩, (joined_snoc _ _ (forall₂_ne k1 hps)).symm⟩
        · rintro ⟨vs, k1, rfl⟩
          obtain ⟨ys, y, rfl, k2, k3⟩ := forall₂_snoc.1 k1
          have k3 : y = itemSyms a' it := k3
          subst k3
          exact ⟨joined ys, (h.mem hps _).2 ⟨ys, (hmem _ g2 g3 _).1 k2, rfl⟩, (joined_snoc _ _ (forall₂_ne k2 hps)).symm⟩
  | label k =>
    obtain ⟨w, hw⟩ : ∃ v, (k, v) ∈ old := hf
    have hof : ofId k l.patterns ≠ [] := List.ne_nil_of_mem (mem_ofId.2 (by rw [h.pats]; exact hw))
    have hkn : ∀ p ∈ ps ++ [Part.label k], p.Known l.alphabet := by
      intro p hp
      rcases List.mem_append.1 hp with hp | hp
      · exact h.known p hp
      · rw [List.mem_singleton.1 hp]; trivial
    by_cases hps : ps = []
    · refine ⟨{ l with seqId := id, seqData := ofId k l.patterns }, ?_, ⟨h.ok, h.marks, h.on, h.pats, hkn, by simp, fun _ => ⟨hof, rfl⟩, ?_⟩, .refl _, rfl, rfl⟩
      · simp only [insertParts]
        unfold insertLabel
        rw [if_pos h.on]
        simp only [Res.bind_ok]
        rw [if_pos (h.start hps)]
      · subst hps
        intro _ v
        simp only [List.nil_append]
        rw [mem_ofId, h.pats]
        constructor
        · intro hv
          exact ⟨[v], .cons hv .nil, rfl⟩
        · rintro ⟨vs, k1, rfl⟩
          cases k1 with
          | cons k1 k2 => cases k2; exact k1
    · obtain ⟨hne, hid⟩ := h.ne hps
      refine ⟨{ l with seqId := id, seqData := l.seqData.flatMap fun v => (ofId k l.patterns).map fun p => v ++ [0x2b] ++ p }, ?_,
        ⟨h.ok, h.marks, h.on, h.pats, hkn, by simp, fun _ => ⟨?_, rfl⟩, ?_⟩, .refl _, rfl, rfl⟩
      · simp only [insertParts]
        unfold insertLabel
        rw [if_pos h.on]
        simp only [Res.bind_ok]
        rw [if_neg hne]
      · obtain ⟨u, hu⟩ := List.exists_mem_of_ne_nil _ hne
        obtain ⟨x, hx⟩ := List.exists_mem_of_ne_nil _ hof
        exact List.ne_nil_of_mem (List.mem_flatMap.2 ⟨u, hu, List.mem_map.2 ⟨x, hx, rfl⟩⟩)
      · intro _ v
        simp only
        rw [List.mem_flatMap]
        constructor
        · rintro ⟨u, hu, hv⟩
          obtain ⟨x, hx, rfl⟩ := List.mem_map.1 hv
          obtain ⟨vs, k1, rfl⟩ := (h.mem hps u).1 hu
          rw [mem_ofId, h.pats] at hx
          exact ⟨vs ++ [x], forall₂_snoc.2 ⟨vs, _, rfl, k1, hx⟩, (joined_snoc _ _ (forall₂_ne k1 hps)).symm⟩
        · rintro ⟨vs, k1, rfl⟩
          obtain ⟨ys, y, rfl, k2, k3⟩ := forall₂_snoc.1 k1
          refine ⟨joined ys, (h.mem hps _).2 ⟨ys, k2, rfl⟩, List.mem_map.2 ⟨y, ?_, (joined_snoc _ _ (forall₂_ne k2 hps)).symm⟩⟩
          rw [mem_ofId, h.pats]; exact k3

theorem insertParts_ok {c : Codes} {id : Int} {old : List (Int × List Int)} : ∀ (qs ps : List Part) (l : PatternList W), Holding c id l old ps → (∀ p ∈ qs, p.Fine old) →
    ∃ l', insertParts id qs l = .ok l' ∧ Holding c id l' old (ps ++ qs) ∧ Ext l.alphabet l'.alphabet ∧ l'.transducer = l.transducer ∧ l'.finalType = l.finalType
  | [], ps, l, h, _ => ⟨l, rfl, by simpa using h, .refl _, rfl, rfl⟩
  | q :: qs, ps, l, h, hf => by
    obtain ⟨l1, g1, g2, g3, g4, g5⟩ := insertPart_ok h (hf q (List.mem_cons_self ..))
    obtain ⟨l2, k1, k2, k3, k4, k5⟩ := insertParts_ok qs _ l1 g2 (fun p hp => hf p (List.mem_cons_of_mem _ hp))
    refine ⟨l2, ?_, by simpa using k2, g3.trans k3, k4.trans g4, k5.trans g5⟩
    cases q with
    | item it =>
      simp only [insertParts] at g1 ⊢
      obtain ⟨l', j1, j2⟩ := Res.bind_eq_ok.1 g1
      cases j2
      rw [j1]
      exact k1
    | label k =>
      simp only [insertParts] at g1 ⊢
      obtain ⟨l', j1, j2⟩ := Res.bind_eq_ok.1 g1
      cases j2
      rw [j1]
      exact k1

theorem foldl_multi {id : Int} : ∀ (vs : List (List Int)) (m : List (Int × List Int)), (m.Pairwise fun a b => a.1 ≤ b.1) →
    ((vs.foldl (fun m v => multiInsert id v m) m).Pairwise fun a b => a.1 ≤ b.1) ∧ ∀ e, e ∈ vs.foldl (fun m v => multiInsert id v m) m ↔ e ∈ m ∨ (e.1 = id ∧ e.2 ∈ vs)
  | [], m, h => ⟨h, fun e => by simp⟩
  | v :: vs, m, h => by
    obtain ⟨g1, g2⟩ := foldl_multi vs (multiInsert id v m) (sorted_multiInsert h)
    refine ⟨g1, fun e => ?_⟩
    rw [List.foldl_cons, g2, mem_multiInsert]
    obtain ⟨k, w⟩ := e
    simp only [Prod.mk.injEq, List.mem_cons]
    tauto

/-- **C86** A sequence with labels stores a pattern for every choice: at each label one of the patterns that have its number, and no more than that. The other
patterns stay, the alphabet grows, and all is sorted by number. -/
theorem C86_sequence {a : Alphabet} {c : Codes} {l : PatternList W} (hl : l.alphabet = a) (ha : Ok a) (hm : codesOf a = c) (hmarks : Marks a c) (hseq : l.sequence = false)
    (hs : l.patterns.Pairwise fun a b => a.1 ≤ b.1) (id : Int) (ps : List Part) (hne : ps ≠ []) (hf : ∀ p ∈ ps, p.Fine l.patterns) :
    ∃ l', performSequence id ps l = .ok l' ∧ l'.sequence = false ∧ Ok l'.alphabet ∧ Ext a l'.alphabet ∧ codesOf l'.alphabet = c ∧ (l'.patterns.Pairwise fun a b => a.1 ≤ b.1) ∧
      l'.transducer = l.transducer ∧ l'.finalType = l.finalType ∧
      ∀ k v, (k, v) ∈ l'.patterns ↔ (k, v) ∈ l.patterns ∨ (k = id ∧ ∃ vs, List.Forall₂ (Chosen l'.alphabet l.patterns) ps vs ∧ v = joined vs ++ [c.queue]) := by
  subst hl
  have h0 : Holding c id { l with sequence := true, seqData := [] } l.patterns [] :=
    ⟨ha, hmarks, rfl, rfl, by simp, fun _ => rfl, fun h => absurd rfl h, fun h => absurd rfl h⟩
  obtain ⟨l1, g1, g2, g3, g4, g5⟩ := insertParts_ok ps [] _ h0 hf
  rw [List.nil_append] at g2
  obtain ⟨k1, k2⟩ := g2.ne hne
  have hq : l1.alphabet.symCode QUEUE = c.queue := (g2.marks.codes g2.ok).2.2
  have hfold := foldl_multi (id := id) (l1.seqData.map (· ++ [c.queue])) l.patterns hs
  refine ⟨{ l1 with sequence := false, seqData := l1.seqData.map (· ++ [c.queue]), patterns := (l1.seqData.map (· ++ [c.queue])).foldl (fun m v => multiInsert id v m) l.patterns },
    ?_, rfl, g2.ok, g3, g2.marks.codesOf g2.ok, hfold.1, g4, g5, ?_⟩
  · unfold performSequence beginSequence
    simp only [hseq, Bool.false_eq_true, if_false, Res.bind_ok]
    rw [g1]
    simp only [Res.bind_ok]
    unfold endSequence
    rw [if_pos g2.on, g2.pats, k2]
    simp only [hq]
  · intro k v
    simp only
    rw [hfold.2]
    refine or_congr Iff.rfl (and_congr Iff.rfl ?_)
    simp only [List.mem_map]
    constructor
    · rintro ⟨u, hu, rfl⟩
      obtain ⟨vs, j1, rfl⟩ := (g2.mem hne u).1 hu
      exact ⟨vs, j1, rfl⟩
    · rintro ⟨vs, j1, rfl⟩
      exact ⟨_, (g2.mem hne _).2 ⟨vs, j1, rfl⟩, rfl⟩

end Verif.Patterns
