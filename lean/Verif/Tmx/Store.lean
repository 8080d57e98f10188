import Verif.Tmx.Blanks
import Verif.Transducer.Trie
import Verif.Trim.File
import Verif.Compiler.Entry
import Verif.Regex.Labels

/-! # The units in the transducer -/

namespace Verif.Tmx

open Verif.Fst Verif.Alphabet Verif.Compiler
open Verif.Trim (Spelled)

variable {W : Type} [AddCommMonoid W] [LinearOrder W] {ch : Chars}

/-! ## Inserting one unit -/

/-- The codes of the pairs, and the alphabet with them. -/
def codesOf : List Pair → Alphabet → List Int × Alphabet
  | [], a => ([], a)
  | p :: ps, a =>
    let (cs, b) := codesOf ps (a.pairCode p.1 p.2).2
    ((a.pairCode p.1 p.2).1 :: cs, b)

theorem codes_spec (ps : List Pair) {a : Alphabet} (h : Ok a) : Ok (codesOf ps a).2 ∧ Ext a (codesOf ps a).2 ∧ List.Forall₂ (HasPair (codesOf ps a).2) (codesOf ps a).1 ps ∧
    (codesOf ps a).2.slexicinv = a.slexicinv ∧ ∀ p ∈ (codesOf ps a).2.spairinv, p ∈ a.spairinv ∨ p ∈ ps := by
  induction ps generalizing a with
  | nil => exact ⟨h, .refl a, .nil, rfl, fun p hp => .inl hp⟩
  | cons p ps ih =>
    obtain ⟨h1, h2, h3, h4, -, h5⟩ := pairCode_spec h p.1 p.2
    obtain ⟨k1, k2, k3, k4, k5⟩ := ih h1
    refine ⟨k1, h2.trans k2, .cons (h3.mono k2) k3, k4.trans h4, ?_⟩
    intro p' hp'
    rcases k5 p' hp' with hp' | hp'
    · rw [h5] at hp'
      split at hp'
      · exact .inl hp'
      · rcases List.mem_append.1 hp' with hp' | hp'
        · exact .inl hp'
        · rw [List.mem_singleton] at hp'
          right
          rw [hp']
          exact List.mem_cons_self ..
    · exact .inr (List.mem_cons_of_mem _ hp')

omit [LinearOrder W] in
theorem insertPairs_eq (ps : List Pair) (q : Nat) (a : Alphabet) (t : Transducer W) {p : Nat} {t' : Transducer W}
    (h : insertSymbols (codesOf ps a).1 q t = (some p, t')) : insertPairs ps q (a, t) = .ok ((codesOf ps a).2, setFinal p 0 true t') := by
  induction ps generalizing q a t with
  | nil =>
    cases h
    rfl
  | cons x ps ih =>
    rw [insertPairs]
    simp only
    rw [codesOf] at h
    simp only at h
    rw [insertSymbols] at h
    rcases hi : insertSingleTransduction (a.pairCode x.1 x.2).1 q 0 t with ⟨_ | q', t1⟩
    · rw [hi] at h; cases h
    · rw [hi] at h
      simp only at h ⊢
      rw [ih q' _ t1 h]
      rfl

theorem forall2_left {α β : Type} {R : α → β → Prop} {as : List α} {bs : List β} (h : List.Forall₂ R as bs) {a : α} (ha : a ∈ as) : ∃ b ∈ bs, R a b := by
  induction h with
  | nil => cases ha
  | cons h _ ih =>
    rcases List.mem_cons.1 ha with rfl | ha
    · exact ⟨_, List.mem_cons_self .., h⟩
    · obtain ⟨b, hb, hr⟩ := ih ha
      exact ⟨b, List.mem_cons_of_mem _ hb, hr⟩

theorem forall2_right {α β : Type} {R : α → β → Prop} {as : List α} {bs : List β} (h : List.Forall₂ R as bs) {b : β} (hb : b ∈ bs) : ∃ a ∈ as, R a b := by
  induction h with
  | nil => cases hb
  | cons h _ ih =>
    rcases List.mem_cons.1 hb with rfl | hb
    · exact ⟨_, List.mem_cons_self .., h⟩
    · obtain ⟨a, ha, hr⟩ := ih hb
      exact ⟨a, List.mem_cons_of_mem _ ha, hr⟩

/-! ## The labels -/

theorem labT_single {K : Int → Prop} {t t' : Transducer W} (hwf : WF t) (h : Regex.LabT K t) {c : Int} (hc : K c) {q p : Nat}
    (hi : insertSingleTransduction c q 0 t = (some p, t')) : Regex.LabT K t' := by
  obtain ⟨-, h1⟩ := single_cases hwf hi
  rcases h1 with ⟨rfl, -⟩ | ⟨-, rfl, -⟩
  · exact h
  · exact Regex.labT_insertNew h hc q

theorem labT_symbols {K : Int → Prop} {u : List Int} {acc : List (List Int)} {q p : Nat} {t t' : Transducer W} (ht : Trie 0 acc t)
    (h0 : ∀ c ∈ u, c ≠ 0) (h : Regex.LabT K t) (hu : ∀ c ∈ u, K c) {v : List Int} (hv : Path (Edge t) t.initial (labels v) q)
    (hi : insertSymbols u q t = (some p, t')) : Regex.LabT K t' := by
  induction u generalizing q t v with
  | nil => cases hi; exact h
  | cons c u ih =>
    obtain ⟨q', t1, k1, k2, k3, k4⟩ := ht.step (h0 c (List.mem_cons_self ..)) hv
    rw [insertSymbols, k1] at hi
    exact ih k2 (fun d hd => h0 d (List.mem_cons_of_mem _ hd)) (labT_single ht.wf h (hu c (List.mem_cons_self ..)) k1)
      (fun d hd => hu d (List.mem_cons_of_mem _ hd)) k4 hi

/-! ## The units that were put in -/

/-- A symbol of a stored unit, or none. -/
def Stored (c : Int) : Prop := c = -1 ∨ 0 ≤ c ∧ c < 2 ^ 29

/-- The transducer stores just these words. -/
structure Memory (P : List (List Pair)) (a : Alphabet) (t : Transducer W) : Prop where
  ok : Ok a
  tags : a.slexicinv = [numberText, blankText]
  syms : ∀ p ∈ a.spairinv, Stored p.1 ∧ Stored p.2
  lab : Regex.LabT (KA a) t
  words : ∃ acc, Trie 0 acc t ∧ List.Forall₂ (List.Forall₂ (HasPair a)) acc P

theorem memory_start : Memory [] start (Fst.empty : Transducer W) := by
  have h1 := (includeSymbol_spec ok_empty numberText)
  have h2 := (includeSymbol_spec h1.1 blankText)
  refine ⟨h2.1, by decide, ?_, Regex.labT_empty, [], Trie.empty 0, .nil⟩
  intro p hp
  have : p = (0, 0) := by
    have e : start.spairinv = [(0, 0)] := by decide
    rw [e] at hp
    simpa using hp
  rw [this]
  exact ⟨.inr (by decide), .inr (by decide)⟩

theorem ka_mono {a b : Alphabet} (h : Ext a b) {c : Int} (hc : KA a c) : KA b c := by
  obtain ⟨p, hp⟩ := hc
  exact ⟨p, hp.mono h⟩

/-- One more unit. -/
theorem Memory.insert {P : List (List Pair)} {a : Alphabet} {t : Transducer W} (h : Memory P a t) {ps : List Pair} (h0 : (0, 0) ∉ ps)
    (hs : ∀ p ∈ ps, Stored p.1 ∧ Stored p.2) : ∃ a' t', insertPairs ps t.initial (a, t) = .ok (a', t') ∧ Memory (P ++ [ps]) a' t' := by
  obtain ⟨acc, h1, h2⟩ := h.words
  obtain ⟨k1, k2, k3, k4, k5⟩ := codes_spec ps h.ok
  have hne : ∀ c ∈ (codesOf ps a).1, c ≠ 0 := by
    intro c hc
    obtain ⟨p, hp, hcp⟩ := forall2_left k3 hc
    exact code_ne_zero k1 hcp fun e => h0 (e ▸ hp)
  have hka : ∀ c ∈ (codesOf ps a).1, KA (codesOf ps a).2 c := by
    intro c hc
    obtain ⟨p, hp, hcp⟩ := forall2_left k3 hc
    exact ⟨p, hcp⟩
  obtain ⟨p, t', g1, g2, g3, g4⟩ := h1.symbols (codesOf ps a).1 hne (q := t.initial) (u := []) (.nil _)
  refine ⟨_, _, insertPairs_eq ps _ a t g1, k1, k4.trans h.tags, ?_, ?_, acc ++ [(codesOf ps a).1], ?_, ?_⟩
  · intro p hp
    exact (k5 p hp).elim (h.syms p) (hs p)
  · exact Regex.labT_setFinal (labT_symbols h1 hne (h.lab.mono fun c => ka_mono k2) hka (v := []) (.nil _) g1) _
  · have := h1.word hne
    rw [insertWord, g1] at this
    exact this
  · refine List.rel_append (h2.imp fun u ps h => h.imp fun c p h => h.mono k2) (.cons k3 .nil)

theorem lft_labels {a : Alphabet} {u : List Int} {ps : List Pair} (h : List.Forall₂ (HasPair a) u ps) :
    lft a (labels u : List (Int × W)) = (ps.map (·.1)).filter (· ≠ 0) ∧ rgt a (labels u : List (Int × W)) = (ps.map (·.2)).filter (· ≠ 0) := by
  have : (labels u : List (Int × W)).map (fun l => dec a l.1) = ps := by
    induction h with
    | nil => rfl
    | cons h _ ih =>
      unfold labels at ih ⊢
      simp only [List.map_cons, dec_eq h, ih]
  unfold lft rgt
  subst this
  simp only [List.map_map, Function.comp_def, and_self]

theorem Memory.accRel {P : List (List Pair)} {a : Alphabet} {t : Transducer W} (h : Memory P a t) (x y : List Int) :
    AccRel a t t.initial x y ↔ ∃ ps ∈ P, x = (ps.map (·.1)).filter (· ≠ 0) ∧ y = (ps.map (·.2)).filter (· ≠ 0) := by
  obtain ⟨acc, h1, h2⟩ := h.words
  constructor
  · rintro ⟨ls, ⟨p, fw, k1, k2⟩, rfl, rfl⟩
    obtain ⟨-, u, k3, k4⟩ := h1.fin p fw k2
    obtain rfl := h1.tree _ _ _ k1 k4
    obtain ⟨ps, k5, k6⟩ := forall2_left h2 k3
    exact ⟨ps, k5, (lft_labels k6).1, (lft_labels k6).2⟩
  · rintro ⟨ps, k1, rfl, rfl⟩
    obtain ⟨u, k2, k3⟩ := forall2_right h2 k1
    obtain ⟨p, k4, k5⟩ := h1.stored u k2
    exact ⟨labels u, ⟨p, 0, k4, k5⟩, (lft_labels k3).1, (lft_labels k3).2⟩

theorem Memory.piece {P : List (List Pair)} {a : Alphabet} {t : Transducer W} (h : Memory P a t) (hP : P ≠ []) : Trim.Piece a t := by
  obtain ⟨acc, h1, h2⟩ := h.words
  refine ⟨h1.wf, fun p w hf => (h1.fin p w hf).1, fun q l p he => (h.lab.edge h1.wf he).1, ?_⟩
  cases h2 with
  | nil => exact absurd rfl hP
  | cons h3 _ =>
    obtain ⟨p, k4, k5⟩ := h1.stored _ (List.mem_cons_self ..)
    exact ⟨_, p, 0, k4, k5⟩

theorem Memory.none {a : Alphabet} {t : Transducer W} (h : Memory [] a t) : t.finals = [] := by
  obtain ⟨acc, h1, h2⟩ := h.words
  cases h2
  cases hf : t.finals with
  | nil => rfl
  | cons f fs =>
    obtain ⟨-, u, hu, -⟩ := h1.fin f.1 f.2 (show (f.1, f.2) ∈ t.finals by rw [hf]; exact List.mem_cons_self ..)
    cases hu

/-! ## The symbols of a unit -/

theorem unitPairs_spec {o m : List Int} (ho : 0 ∉ o) (hm : 0 ∉ m) : ((unitPairs o m).map (·.1)).filter (· ≠ 0) = o ∧
    ((unitPairs o m).map (·.2)).filter (· ≠ 0) = m ∧ (0, 0) ∉ unitPairs o m ∧ ∀ p ∈ unitPairs o m, (p.1 = 0 ∨ p.1 ∈ o) ∧ (p.2 = 0 ∨ p.2 ∈ m) := by
  have hl : ∀ o : List Int, 0 ∉ o → ((unitPairs o []).map (·.1)).filter (· ≠ 0) = o ∧
    ((unitPairs o []).map (·.2)).filter (· ≠ 0) = [] ∧ (0, 0) ∉ unitPairs o [] ∧ ∀ p ∈ unitPairs o [], (p.1 = 0 ∨ p.1 ∈ o) ∧ p.2 = 0 := by
    intro o ho
    induction o with
    | nil => simp [unitPairs, targetPairs]
    | cons a o ih =>
      have ha : a ≠ 0 := fun e => ho (by simp [e])
      obtain ⟨i1, i2, i3, i4⟩ := ih fun e => ho (List.mem_cons_of_mem _ e)
      rw [unitPairs, if_neg ha]
      refine ⟨by simpa [ha] using i1, by simpa using i2, by simp [i3, ha.symm], ?_⟩
      intro p hp
      rcases List.mem_cons.1 hp with rfl | hp
      · exact ⟨.inr (List.mem_cons_self ..), rfl⟩
      · exact ⟨(i4 p hp).1.imp_right (List.mem_cons_of_mem _), (i4 p hp).2⟩
  have hr : ∀ m : List Int, 0 ∉ m → ((unitPairs [] m).map (·.1)).filter (· ≠ 0) = [] ∧
    ((unitPairs [] m).map (·.2)).filter (· ≠ 0) = m ∧ (0, 0) ∉ unitPairs [] m ∧ ∀ p ∈ unitPairs [] m, p.1 = 0 ∧ (p.2 = 0 ∨ p.2 ∈ m) := by
    intro o ho
    induction o with
    | nil => simp [unitPairs, targetPairs]
    | cons a o ih =>
      have ha : a ≠ 0 := fun e => ho (by simp [e])
      obtain ⟨i1, i2, i3, i4⟩ := ih fun e => ho (List.mem_cons_of_mem _ e)
      rw [unitPairs, targetPairs, if_neg ha]
      rw [unitPairs] at i1 i2 i3 i4
      refine ⟨by simpa using i1, by simpa [ha] using i2, by simp [i3, ha.symm], ?_⟩
      intro p hp
      rcases List.mem_cons.1 hp with rfl | hp
      · exact ⟨rfl, .inr (List.mem_cons_self ..)⟩
      · exact ⟨(i4 p hp).1, (i4 p hp).2.imp_right (List.mem_cons_of_mem _)⟩
  induction o generalizing m with
  | nil =>
    obtain ⟨i1, i2, i3, i4⟩ := hr m hm
    exact ⟨i1, i2, i3, fun p hp => ⟨.inl (i4 p hp).1, (i4 p hp).2⟩⟩
  | cons a o ih =>
    cases m with
    | nil =>
      obtain ⟨i1, i2, i3, i4⟩ := hl _ ho
      exact ⟨i1, i2, i3, fun p hp => ⟨(i4 p hp).1, .inl (i4 p hp).2⟩⟩
    | cons b m =>
      have ha : a ≠ 0 := fun e => ho (by simp [e])
      have hb : b ≠ 0 := fun e => hm (by simp [e])
      obtain ⟨i1, i2, i3, i4⟩ := ih (fun e => ho (List.mem_cons_of_mem _ e)) (m := m) (fun e => hm (List.mem_cons_of_mem _ e))
      rw [unitPairs, if_neg fun e => ha e.1]
      refine ⟨by simpa [ha] using i1, by simpa [hb] using i2, by simp [i3, ha.symm], ?_⟩
      intro p hp
      rcases List.mem_cons.1 hp with rfl | hp
      · exact ⟨.inr (List.mem_cons_self ..), .inr (List.mem_cons_self ..)⟩
      · exact ⟨(i4 p hp).1.imp_right (List.mem_cons_of_mem _), (i4 p hp).2.imp_right (List.mem_cons_of_mem _)⟩

theorem trimmed_mem {s t : List Int} (h : Trimmed ch s t) {c : Int} (hc : c ∈ t) : c ∈ s := by
  obtain ⟨a, b, rfl, -⟩ := h
  simp [hc]

theorem items_mem {v : List Int} {its : List Item} (h : Items ch v its) {c : Int} (hc : c ∈ tagged its) : c = -1 ∨ c ∈ v := by
  induction h with
  | nil => simp [tagged] at hc
  | sym _ _ ih =>
    rcases List.mem_cons.1 (show c ∈ _ :: tagged _ from hc) with rfl | hc
    · exact .inr (List.mem_cons_self ..)
    · exact (ih hc).imp_right (List.mem_cons_of_mem _)
  | num _ _ ih =>
    rcases List.mem_cons.1 (show c ∈ _ :: tagged _ from hc) with rfl | hc
    · exact .inl rfl
    · exact (ih hc).imp_right (List.mem_append_right _)

theorem reference_mem {k : Nat} {c : Int} (hc : c ∈ reference k) : 0 < c ∧ c < 2 ^ 29 := by
  unfold reference at hc
  simp only [List.mem_cons, List.mem_append, List.mem_map, List.mem_reverse, List.mem_singleton, List.not_mem_nil, or_false] at hc
  rcases hc with rfl | rfl | ⟨d, hd, rfl⟩ | rfl
  · decide
  · decide
  · have := Nat.digits_lt_base (b := 10) (by decide) hd
    omega
  · decide

theorem told_mem {ns : List (List Int)} {i : Nat} {v r : List Int} {s : Option (List Int)} (h : Told ch ns i v s) (e : s = some r) {c : Int} (hc : c ∈ r) :
    (0 < c ∧ c < 2 ^ 29) ∨ c ∈ v := by
  induction h generalizing r with
  | nil i => cases e; cases hc
  | @sym i d v s hd _ ih =>
    obtain ⟨r', e1, rfl⟩ := Option.map_eq_some_iff.1 e
    rcases List.mem_cons.1 hc with rfl | hc
    · exact .inr (List.mem_cons_self ..)
    · exact (ih e1 hc).imp_right (List.mem_cons_of_mem _)
  | known _ _ _ ih =>
    obtain ⟨r', e1, rfl⟩ := Option.map_eq_some_iff.1 e
    rcases List.mem_append.1 hc with hc | hc
    · exact .inl (reference_mem hc)
    · exact (ih e1 hc).imp_right (List.mem_append_right _)
  | far => cases e
  | near _ _ _ _ _ ih =>
    obtain ⟨r', e1, rfl⟩ := Option.map_eq_some_iff.1 e
    rcases List.mem_append.1 hc with hc | hc
    · exact .inr (List.mem_append_left _ hc)
    · exact (ih e1 hc).imp_right (List.mem_append_right _)

theorem inter_mem {s : List Int} {ps : List (List Int)} {c : Int} (h : c ∈ s.intercalate ps) : c ∈ s ∨ ∃ p ∈ ps, c ∈ p := by
  induction ps with
  | nil => simp [List.intercalate] at h
  | cons p ps ih =>
    cases ps with
    | nil => exact .inr ⟨p, by simp, by simpa [List.intercalate] using h⟩
    | cons q ps =>
      have : s.intercalate (p :: q :: ps) = p ++ (s ++ s.intercalate (q :: ps)) := by simp [List.intercalate]
      rw [this, List.mem_append, List.mem_append] at h
      rcases h with h | h | h
      · exact .inr ⟨p, by simp, h⟩
      · exact .inl h
      · rcases ih h with h | ⟨x, hx, h⟩
        · exact .inl h
        · exact .inr ⟨x, List.mem_cons_of_mem _ hx, h⟩

theorem mem_inter {s : List Int} {ps : List (List Int)} {p : List Int} (hp : p ∈ ps) {c : Int} (h : c ∈ p) : c ∈ s.intercalate ps := by
  induction ps with
  | nil => cases hp
  | cons q ps ih =>
    cases ps with
    | nil =>
      rw [List.mem_singleton] at hp
      subst hp
      simpa [List.intercalate] using h
    | cons q' ps =>
      have : s.intercalate (q :: q' :: ps) = q ++ (s ++ s.intercalate (q' :: ps)) := by simp [List.intercalate]
      rw [this, List.mem_append, List.mem_append]
      rcases List.mem_cons.1 hp with rfl | hp
      · exact .inl h
      · exact .inr (.inr (ih hp))

/-- The parts hold symbols of the text, and no marks. -/
theorem parts_mem {v : List Int} {ps : List (List Int)} (h : Parts v ps) {p : List Int} (hp : p ∈ ps) {c : Int} (hc : c ∈ p) : c ≠ -2 ∧ c ∈ v := by
  refine ⟨fun e => h.1 p hp (e ▸ hc), ?_⟩
  rcases h.2 with ⟨h, -⟩ | ⟨h, -⟩
  · rw [h]; exact mem_inter hp hc
  · rw [h]; exact List.mem_append_left _ (mem_inter hp hc)

/-- The symbols of a unit as it is stored. -/
theorem normal_mem {o m o' m' : List Int} (ho : ∀ c ∈ o, Char c) (hm : ∀ c ∈ m, Char c) (h : Normal ch o m o' m') :
    (∀ c ∈ o', c = -1 ∨ 0 < c ∧ c < 2 ^ 29) ∧ ∀ c ∈ m', 0 < c ∧ c < 2 ^ 29 := by
  obtain ⟨o1, m1, o2, m2, po, pm, po', pm', h1, h2, ⟨its, r, h3, h4, h5⟩, h6, h7, h8, h9, rfl, rfl⟩ := h
  have k1 : ∀ c ∈ o2, c = -1 ∨ Char c := by
    intro c hc
    rcases h5 with ⟨-, rfl⟩ | ⟨-, rfl, -⟩
    · exact (items_mem h3 hc).imp_right fun hc => ho c (trimmed_mem h1 hc)
    · exact .inr (ho c (trimmed_mem h1 hc))
  have k2 : ∀ c ∈ m2, Char c := by
    intro c hc
    rcases h5 with ⟨h5, -⟩ | ⟨-, -, rfl⟩
    · rcases told_mem h4 h5 hc with hc | hc
      · exact .inr hc
      · exact hm c (trimmed_mem h2 hc)
    · exact hm c (trimmed_mem h2 hc)
  constructor
  · intro c hc
    rcases inter_mem hc with hc | ⟨p, hp, hc⟩
    · rw [List.mem_singleton] at hc
      subst hc
      exact .inr (by decide)
    · obtain ⟨q, hq, hqp⟩ := forall2_right h8 hp
      obtain ⟨k3, k4⟩ := parts_mem h6 hq (trimmed_mem hqp hc)
      rcases k1 c k4 with e | e | e
      · exact .inl e
      · exact absurd e k3
      · exact .inr e
  · intro c hc
    rcases inter_mem hc with hc | ⟨p, hp, hc⟩
    · simp only [List.mem_cons, List.not_mem_nil, or_false] at hc
      rcases hc with rfl | rfl | rfl <;> decide
    · obtain ⟨q, hq, hqp⟩ := forall2_right h9 hp
      obtain ⟨k3, k4⟩ := parts_mem h7 hq (trimmed_mem hqp hc)
      rcases k2 c k4 with e | e
      · exact absurd e k3
      · exact e

end Verif.Tmx
