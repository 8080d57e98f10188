import Verif.Patterns.User

/-! # The automaton made from a list of patterns -/

namespace Verif.Patterns

open Verif.Fst
open Verif.Match (MatchExe run classifyFinals Fits)

variable {W : Type} [Zero W] {c : Codes}

theorem build_core (hc : c.Ok) (ps : List (Int × List Int)) (hs : ps.Pairwise fun a b => a.1 ≤ b.1) (hmax : ∀ e ∈ ps, e.1 < 2147483647) (ht : Tidy c ps) :
    ∃ t f, buildAll c ps ((Fst.empty : Transducer W), []) = .ok (t, f) ∧ ∃ m, MatchExe.make t f = .ok m ∧
      ∀ ss, Fits m.table [m.initial] ss → ∀ banned, banned = [] ∨ Apart c ps → ∃ s, run m.table m.initial ss = .ok s ∧
        ∃ r, classifyFinals m.finals banned s = .ok r ∧ LeastOf (fun id => Fitting c ps ss id ∧ id ∉ banned) r := by
  have hC := ht.clear hc
  obtain ⟨⟨t, f⟩, name, h1, h2⟩ := buildAll_ok hC ps _ _ [] (start c (Begins c ps) (W := W)) (by simpa using hs) (fun e he z hz => ⟨e, he, z, hz, rfl⟩)
  rw [List.nil_append] at h2
  refine ⟨t, f, h1, ?_⟩
  have hI := h2.base.inv
  simp only at hI
  have hmax' : ∀ p r, mapFind p f = some r → r < 2147483647 := by
    intro p r hp
    obtain ⟨v, g1, -⟩ := h2.sound p r hp
    exact hmax _ g1
  obtain ⟨m, e1, e2⟩ := Match.C46_from_transducer t hI.wf (strict_row hI.wf hI.det) f h2.base.lt hmax'
  have hini : m.initial = t.initial := by
    unfold MatchExe.make at e1
    simp only at e1
    split at e1
    · obtain ⟨n, -, e1⟩ := Res.bind_eq_ok.1 e1
      cases e1
      rfl
    · cases e1
  refine ⟨m, e1, ?_⟩
  intro ss hss banned hb
  rw [hini] at hss
  obtain ⟨s, k1, r, k2, k3⟩ := e2 ss hss banned
  refine ⟨s, k1, r, k2, ?_⟩
  have key : ∀ p < size t, ∀ w, Leads c (name p) w → List.Forall₂ (fun x s => x ∈ s) w ss →
      ∃ ls : List (Int × W), List.Forall₂ (fun l s => l.1 ∈ s) ls ss ∧ Path (Edge t) t.initial ls p := by
    intro p hp w hl hw
    have hS : Begins c ps (name p) ∨ name p = [] := by
      rcases List.eq_nil_or_concat' (name p) with h | ⟨u, y, h⟩
      · exact .inr h
      · left
        obtain ⟨q, -, g2⟩ := hI.born p hp u y h
        exact (hI.arcs _ _ _ g2).2.target
    obtain ⟨ls, j1, j2⟩ := walk_path hC hI h2.base.full (Leads.walk hC _ rfl hS hl) p hp rfl
    subst j1
    exact ⟨ls, List.forall₂_map_left_iff.1 hw, j2⟩
  have fits : ∀ id, Fitting c ps ss id → id ∉ banned → ∃ p r', (∃ ls : List (Int × W), List.Forall₂ (fun l s => l.1 ∈ s) ls ss ∧ Path (Edge t) t.initial ls p) ∧
      mapFind p f = some r' ∧ r' ≤ id ∧ r' ∉ banned := by
    rintro id ⟨v, w, g1, g2, g3⟩ hnb
    have free : ∀ p r', mapFind p f = some r' → (name p = norm c v ∨ norm c v = name p ++ [c.queue]) → r' ∉ banned := by
      intro p r' hp hv
      rcases hb with hb | hb
      · rw [hb]; simp
      · obtain ⟨v', i1, i2⟩ := h2.sound p r' hp
        have : id = r' := by
          rcases hv with hv | hv <;> rcases i2 with i2 | i2
          · exact hb _ g1 _ i1 (.inl (by rw [i2]; exact hv.symm))
          · exact (hb _ i1 _ g1 (.inr (by rw [i2]; simp only; rw [hv]))).symm
          · exact hb _ g1 _ i1 (.inr (by rw [i2]; exact hv))
          · exact hb _ g1 _ i1 (.inl (by rw [i2]; exact hv))
        rw [← this]; exact hnb
    rcases (stands_leads hc).1 g2 with g2 | ⟨u, hu, g2⟩
    · obtain ⟨p, r', j1, j2, j3⟩ := h2.here _ _ g1
      exact ⟨p, r', key p (h2.base.lt _ (mapFind_mem j2)) w (by rw [j1]; exact g2) g3, j2, j3, free p r' j2 (.inl j1)⟩
    · obtain ⟨p, r', j1, j2, j3⟩ := h2.before _ _ g1 u hu
      have hq : u.getLast? ≠ some c.queue := hC.no_queue (by rw [← hu]; exact ⟨_, g1, v, List.prefix_refl _, rfl⟩)
      exact ⟨p, r', key p (h2.base.lt _ (mapFind_mem j2)) w (by rw [j1, leads_other hq]; exact g2) g3, j2, j3, free p r' j2 (.inr (by rw [j1]; exact hu))⟩
  have sound : ∀ p id, (∃ ls : List (Int × W), List.Forall₂ (fun l s => l.1 ∈ s) ls ss ∧ Path (Edge t) t.initial ls p) → mapFind p f = some id → Fitting c ps ss id := by
    rintro p id ⟨ls, g1, g2⟩ hp
    obtain ⟨v, j1, j2⟩ := h2.sound p id hp
    have hw := path_walk hI g2 [] (by rw [hI.root]; exact .nil)
    rw [List.nil_append] at hw
    have hst := leads_stands (hw.leads hC)
    refine ⟨v, _, j1, ?_, List.forall₂_map_left_iff.2 g1⟩
    rcases j2 with j2 | j2
    · rw [j2]; exact hst
    · rw [j2]
      have := hst.append (Stands.absent (c := c) .nil)
      simpa using this
  rcases k3 with ⟨p, g1, g2, g0, g3⟩ | ⟨g1, g2⟩
  · refine .inl ⟨⟨sound p r g1 g2, g0⟩, fun id hid => ?_⟩
    obtain ⟨p', r', j1, j2, j3, j4⟩ := fits id hid.1 hid.2
    exact (g3 p' r' j1 j2 j4).trans j3
  · refine .inr ⟨g1, fun id hid => ?_⟩
    obtain ⟨p', r', j1, j2, j3, j4⟩ := fits id hid.1 hid.2
    exact absurd (g2 p' r' j1 j2) j4

/-- **C85** `buildTransducer` and `newMatchExe` succeed on tidy patterns, and after any steps within the capacity of the automaton `classifyFinals` is the
least number of the patterns that stand for a string with one symbol of each step, or -1 if there is none. -/
theorem C85_build (hc : c.Ok) (ps : List (Int × List Int)) (hs : ps.Pairwise fun a b => a.1 ≤ b.1) (hmax : ∀ e ∈ ps, e.1 < 2147483647) (ht : Tidy c ps) :
    ∃ t f, buildAll c ps ((Fst.empty : Transducer W), []) = .ok (t, f) ∧ ∃ m, MatchExe.make t f = .ok m ∧
      ∀ ss, Fits m.table [m.initial] ss → ∃ s, run m.table m.initial ss = .ok s ∧
        ∃ r, classifyFinals m.finals [] s = .ok r ∧ LeastOf (Fitting c ps ss) r := by
  obtain ⟨t, f, h1, m, h2, h3⟩ := build_core (W := W) hc ps hs hmax ht
  refine ⟨t, f, h1, m, h2, fun ss hss => ?_⟩
  obtain ⟨s, g1, r, g2, g3⟩ := h3 ss hss [] (.inl rfl)
  exact ⟨s, g1, r, g2, by simpa using g3⟩

/-- **C85** With banned numbers, `classifyFinals` is the least number that is not banned, if patterns with different numbers are different. -/
theorem C85_banned (hc : c.Ok) (ps : List (Int × List Int)) (hs : ps.Pairwise fun a b => a.1 ≤ b.1) (hmax : ∀ e ∈ ps, e.1 < 2147483647) (ht : Tidy c ps) (ha : Apart c ps) :
    ∃ t f, buildAll c ps ((Fst.empty : Transducer W), []) = .ok (t, f) ∧ ∃ m, MatchExe.make t f = .ok m ∧
      ∀ ss, Fits m.table [m.initial] ss → ∀ banned, ∃ s, run m.table m.initial ss = .ok s ∧
        ∃ r, classifyFinals m.finals banned s = .ok r ∧ LeastOf (fun id => Fitting c ps ss id ∧ id ∉ banned) r := by
  obtain ⟨t, f, h1, m, h2, h3⟩ := build_core (W := W) hc ps hs hmax ht
  exact ⟨t, f, h1, m, h2, fun ss hss banned => h3 ss hss banned (.inr ha)⟩

/-! ## Lists of patterns made by a user -/

/-- **C86** The lists that are made with `insert` and with sequences of lemmas and tags: all calls succeed, in any order of the numbers; the alphabet has the
tags; and the automaton recognises, after any steps within its capacity, the least number of the items that stand for a string with one symbol of each
step: the symbols of the lemma, then the tags, with `+` between the items of a sequence, and perhaps a queue at the end. -/
theorem C86_user (os : List Op) (hf : ∀ o ∈ os, (∀ it ∈ o.entry.2, it.Fine) ∧ o.entry.2 ≠ []) (hmax : ∀ o ∈ os, o.entry.1 < 2147483647) :
    ∃ l l' m, performAll os (PatternList.new : PatternList W) = .ok l ∧ buildTransducer l = .ok l' ∧ newMatchExe l' = .ok m ∧
      (∀ o ∈ os, ∀ it ∈ o.entry.2, ∀ t ∈ it.2, t ≠ [0x2a] → l'.alphabet.tagText (tagSym l'.alphabet t) = .ok ([0x3c] ++ t ++ [0x3e])) ∧
      ∀ ss, Fits m.table [m.initial] ss → ∃ s, run m.table m.initial ss = .ok s ∧ ∃ r, classifyFinals m.finals [] s = .ok r ∧
        LeastOf (fun id => ∃ its w, (id, its) ∈ os.map Op.entry ∧ Stands (codesOf l'.alphabet) (norm (codesOf l'.alphabet) (vector l'.alphabet its)) w ∧
          List.Forall₂ (· ∈ ·) w ss) r := by
  obtain ⟨c, h0⟩ := holds_new (W := W)
  obtain ⟨l, h1, h2⟩ := performAll_ok os _ _ h0 hf
  rw [List.nil_append] at h2
  have hcodes := h2.marks.codesOf h2.ok
  have hmem : ∀ e ∈ os.map Op.entry, ∃ o ∈ os, o.entry = e := fun e he => List.mem_map.1 he
  obtain ⟨t, f, g1, m, g2, g3⟩ := C85_build (W := W) h2.marks.ok l.patterns h2.sorted (by
    rintro ⟨id, v⟩ he
    obtain ⟨its, k1, -⟩ := (h2.mem id v).1 he
    obtain ⟨o, ho, hoe⟩ := hmem _ k1
    have := hmax o ho
    rw [hoe] at this
    exact this) (h2.tidy (by
    intro e he
    obtain ⟨o, ho, rfl⟩ := hmem _ he
    exact hf o ho))
  refine ⟨l, { l with transducer := t, finalType := f }, m, h1, ?_, g2, ?_, ?_⟩
  · unfold buildTransducer
    rw [hcodes, h2.fresh.1, h2.fresh.2, g1]
    rfl
  · intro o ho it hit tag htag hn
    obtain ⟨k, hk⟩ := h2.known _ (List.mem_map.2 ⟨o, ho, rfl⟩) it hit tag htag hn
    simp only
    rw [tagSym, if_neg hn, Alphabet.symCode_of_hasTag h2.ok hk, Alphabet.tagText_iff hk.neg]
    exact hk
  · intro ss hss
    obtain ⟨s, k1, r, k2, k3⟩ := g3 ss hss
    refine ⟨s, k1, r, k2, ?_⟩
    simp only
    rw [hcodes]
    have : Fitting c l.patterns ss = fun id => ∃ its w, (id, its) ∈ os.map Op.entry ∧ Stands c (norm c (vector l.alphabet its)) w ∧ List.Forall₂ (· ∈ ·) w ss := by
      funext id
      apply propext
      constructor
      · rintro ⟨v, w, j1, j2, j3⟩
        obtain ⟨its, i1, rfl⟩ := (h2.mem id v).1 j1
        exact ⟨its, w, i1, j2, j3⟩
      · rintro ⟨its, w, i1, j2, j3⟩
        exact ⟨_, w, (h2.mem id _).2 ⟨its, i1, rfl⟩, j2, j3⟩
    rw [← this]
    exact k3

end Verif.Patterns
