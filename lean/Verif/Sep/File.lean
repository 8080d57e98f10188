import Verif.Sep.Section

/-! # Files of separable dictionaries -/

namespace Verif.Sep

open Verif.Fst Verif.Compiler Verif.Alphabet

set_option linter.unusedSectionVars false

section
variable {W : Type} [LinearOrder W] [Zero W] {N : Type} [LinearOrder N]

theorem procNodes_append (s : Settings) (ns ms : List (Node N W)) (c c' : Comp N W) (h : procNodes s ns c = .ok c') :
    procNodes s (ns ++ ms) c = procNodes s ms c' := by
  induction ns generalizing c with
  | nil => cases h; rfl
  | cons n ns ih =>
    rw [procNodes, Res.bind_eq_ok] at h
    obtain ⟨c1, h1, h2⟩ := h
    rw [List.cons_append, procNodes, h1, Res.bind_ok]
    exact ih c1 h2

theorem Secs.congr {c : Comp N W} {G G' : UString → List Pair → Prop} (h : Secs c G) (e : ∀ k v, G k v ↔ G' k v) : Secs c G' := by
  have : G = G' := by funext k v; exact propext (e k v)
  rw [← this]; exact h

theorem tags_spec (s : Settings) (tags : List UString) {c : Comp N W} {G : UString → List Pair → Prop} (h : Secs c G) :
    ∃ c', procNodes s (tags.map .sdef) c = .ok c' ∧ Secs c' G := by
  induction tags generalizing c with
  | nil => exact ⟨c, rfl, h⟩
  | cons n tags ih =>
    obtain ⟨h1, h2, -⟩ := includeSymbol_spec h.ok (0x3c :: n ++ [0x3e])
    obtain ⟨c', k1, k2⟩ := ih (c := { c with alphabet := c.alphabet.includeSymbol (0x3c :: n ++ [0x3e]) })
      ⟨h1, h.cur, h.sorted, h.none, fun k x hk => by
        obtain ⟨j1, nm, j2⟩ := h.some k x hk
        exact ⟨j1, nm, j2.mono h2⟩⟩
    exact ⟨c', by rw [List.map_cons, procNodes]; exact k1, k2⟩

theorem entries_spec (s : Settings) (hs : s.acx = []) (ents : List (CEntry N W)) (hes : ∀ es, Uses s ents es → AllTexts es) {c : Comp N W}
    {G : UString → List Pair → Prop} (h : Secs c G) :
    ∃ c', procNodes s (ents.map .entry) c = .ok c' ∧ c'.sect = c.sect ∧
      Secs c' (fun k v => G k v ∨ (k = c.sect ∧ ∃ es, Uses s ents es ∧ v = pairsOf s es)) := by
  induction ents generalizing c G with
  | nil => exact ⟨c, rfl, rfl, h.congr fun k v => by simp [Uses]⟩
  | cons e ents ih =>
    have hone : ∃ c1, procEntry s e c = .ok c1 ∧ c1.sect = c.sect ∧
        Secs c1 (fun k v => G k v ∨ (k = c.sect ∧ ∃ es, (Visible s e.attrs ∧ e.content = some es) ∧ v = pairsOf s es)) := by
      by_cases hv : Visible s e.attrs
      · have hsk : skipped s e.attrs = false := (skipped_iff ..).2 hv
        cases hc : e.content with
        | none =>
          refine ⟨c, by unfold procEntry; rw [hsk, hc]; rfl, rfl, h.congr fun k v => ?_⟩
          simp
        | some es =>
          have hall := hes es ⟨e, by simp, hv, hc⟩
          obtain ⟨c1, h1, h2, h3⟩ := insertEntryTokens_spec s hs e.weight e.junk es hall h
          refine ⟨c1, ?_, h2, h3.congr fun k v => ?_⟩
          · unfold procEntry
            rw [hsk, hc]
            simp only [Bool.false_eq_true, if_false, readTokens_texts c es hall, Res.bind_ok, if_true]
            exact h1
          · constructor
            · rintro (h | ⟨rfl, rfl⟩)
              · exact .inl h
              · exact .inr ⟨rfl, es, ⟨hv, rfl⟩, rfl⟩
            · rintro (h | ⟨rfl, es', ⟨-, e'⟩, rfl⟩)
              · exact .inl h
              · cases e'; exact .inr ⟨rfl, rfl⟩
      · have : skipped s e.attrs = true := by rw [← Bool.not_eq_false, skipped_iff]; exact hv
        refine ⟨c, by unfold procEntry; rw [if_pos this], rfl, h.congr fun k v => ?_⟩
        constructor
        · exact .inl
        · rintro (h | ⟨-, es, ⟨h', -⟩, -⟩)
          · exact h
          · exact absurd h' hv
    obtain ⟨c1, h1, h2, h3⟩ := hone
    obtain ⟨c2, k1, k2, k3⟩ := ih (fun es ⟨e', he', h'⟩ => hes es ⟨e', List.mem_cons_of_mem _ he', h'⟩) h3
    refine ⟨c2, ?_, k2.trans h2, k3.congr fun k v => ?_⟩
    · rw [List.map_cons, procNodes]
      show (procEntry s e c >>= fun c => procNodes s (ents.map .entry) c) = _
      rw [h1, Res.bind_ok]
      exact k1
    · rw [h2]
      constructor
      · rintro ((h | ⟨rfl, es, h', rfl⟩) | ⟨rfl, es, ⟨e', he', h'⟩, rfl⟩)
        · exact .inl h
        · exact .inr ⟨rfl, es, ⟨e, by simp, h'⟩, rfl⟩
        · exact .inr ⟨rfl, es, ⟨e', List.mem_cons_of_mem _ he', h'⟩, rfl⟩
      · rintro (h | ⟨rfl, es, ⟨e', he', h'⟩, rfl⟩)
        · exact .inl (.inl h)
        · rcases List.mem_cons.1 he' with rfl | he'
          · exact .inl (.inr ⟨rfl, es, h', rfl⟩)
          · exact .inr ⟨rfl, es, ⟨e', he', h'⟩, rfl⟩

/-- Only the current section changes. -/
theorem Secs.sect {c : Comp N W} {G : UString → List Pair → Prop} (h : Secs c G) (k : UString) : Secs { c with sect := k } G :=
  ⟨h.ok, h.cur, h.sorted, h.none, h.some⟩

theorem secs_spec (s : Settings) (hs : s.acx = []) (secs : List (UString × List (CEntry N W)))
    (hes : ∀ k ents, (k, ents) ∈ secs → ∀ es, Uses s ents es → AllTexts es) {c : Comp N W} {G : UString → List Pair → Prop} (h : Secs c G) :
    ∃ c', procNodes s (secs.flatMap secNodes) c = .ok c' ∧
      Secs c' (fun k v => G k v ∨ ∃ ents, (k, ents) ∈ secs ∧ ∃ es, Uses s ents es ∧ v = pairsOf s es) := by
  induction secs generalizing c G with
  | nil => exact ⟨c, rfl, h.congr fun k v => by simp⟩
  | cons p secs ih =>
    obtain ⟨k, ents⟩ := p
    obtain ⟨c1, h1, h2, h3⟩ := entries_spec s hs ents (hes k ents (by simp)) (h.sect k)
    obtain ⟨c2, k1, k2⟩ := ih (fun k ents hm => hes k ents (List.mem_cons_of_mem _ hm)) (h3.sect [])
    refine ⟨c2, ?_, k2.congr fun k' v => ?_⟩
    · rw [List.flatMap_cons, secNodes]
      have e1 : procNodes s (.secOpen k :: ents.map .entry) c = .ok c1 := by rw [procNodes]; exact h1
      have e2 : procNodes s (.secOpen k :: ents.map .entry ++ [.secClose]) c = .ok { c1 with sect := [] } := by
        rw [procNodes_append _ _ _ _ _ e1]; rfl
      rw [procNodes_append _ _ _ _ _ e2]
      exact k1
    · simp only
      constructor
      · rintro ((h | ⟨rfl, h⟩) | ⟨ents', h1, h2⟩)
        · exact .inl h
        · exact .inr ⟨ents, by simp, h⟩
        · exact .inr ⟨ents', List.mem_cons_of_mem _ h1, h2⟩
      · rintro (h | ⟨ents', h1, h2⟩)
        · exact .inl (.inl h)
        · rcases List.mem_cons.1 h1 with h1 | h1
          · cases h1; exact .inl (.inr ⟨rfl, h2⟩)
          · exact .inr ⟨ents', h1, h2⟩

theorem start_ok : Ok startAlphabet := by
  unfold startAlphabet
  exact (includeSymbol_spec (includeSymbol_spec (includeSymbol_spec (includeSymbol_spec (includeSymbol_spec (includeSymbol_spec ok_empty _).1 _).1 _).1 _).1 _).1 _).1

/-- The entries of a section. -/
def Entries (s : Settings) (f : File N W) (k : UString) (v : List Pair) : Prop :=
  ∃ ents, (k, ents) ∈ f.secs ∧ ∃ es, Uses s ents es ∧ v = pairsOf s es

theorem likely_iff {s : Settings} {f : File N W} {k : UString} {ps : List Pair} :
    Likely s f k ps ↔ ∃ e, Entries s f k e ∧ collapse ps = collapse e := by
  constructor
  · rintro ⟨ents, h1, es, h2, h3⟩
    exact ⟨_, ⟨ents, h1, es, h2, rfl⟩, like_iff.1 h3⟩
  · rintro ⟨_, ⟨ents, h1, es, h2, rfl⟩, h3⟩
    exact ⟨ents, h1, es, h2, like_iff.2 h3⟩

theorem nodes_spec {s : Settings} {f : File N W} (hf : Texts s f) :
    ∃ c, procNodes s f.nodes ({ alphabet := startAlphabet } : Comp N W) = .ok c ∧ Secs c (Entries s f) := by
  have h0 : Secs ({ alphabet := startAlphabet } : Comp N W) (fun _ _ => False) :=
    ⟨start_ok, rfl, .nil, fun _ _ _ h => h, fun k x hk => by simp [mapFind] at hk⟩
  obtain ⟨c1, h1, h2⟩ := tags_spec s f.tags h0
  obtain ⟨c2, k1, k2⟩ := secs_spec s hf.acx f.secs (fun k ents hm es hu => hf.texts k ents hm es hu) h2
  refine ⟨c2, ?_, k2.congr fun k v => by rw [false_or]; rfl⟩
  rw [File.nodes, procNodes_append _ _ _ _ _ h1, hf.pars]
  exact k1

end

section
variable {W : Type} [AddMonoid W] [LinearOrder W] {A : Alphabet} {t t' : Transducer W} {nm : Nat → List Pair}

theorem LT.label_ne (hA : Ok A) (h : LT A t nm) {q p : Nat} {l : Int × W} (he : Edge t q l p) : l.1 ≠ 0 := by
  obtain ⟨pr, h1, h2, -⟩ := h.edge q l.1 l.2 p he
  exact code_ne_zero hA h1 h2

theorem visible_last (fw : W) : visible 0 [((0 : Int), fw)] = if fw = 0 then [] else [(0, fw)] := by
  by_cases h : fw = 0 <;> simp [visible, h]

theorem LT.visible_eq (hA : Ok A) (h : LT A t nm) {q p : Nat} {ls : List (Int × W)} (hp : Path (Edge t) q ls p) : visible 0 ls = ls := by
  unfold visible
  rw [List.filter_eq_self]
  intro l hl
  obtain ⟨q', p', he⟩ := path_mem hp hl
  simp only [ne_eq, decide_not, Bool.not_eq_eq_eq_not, Bool.not_true, decide_eq_false_iff_not]
  rintro rfl
  exact h.label_ne hA he rfl

/-- Minimising keeps the accepting paths. -/
theorem minimal_acc (hA : Ok A) (h : LT A t nm) (m : Minimal A t t') (ls : List (Int × W)) : Acc t' t'.initial ls ↔ Acc t t.initial ls := by
  have hv : ∀ xs ys : List (Int × W), visible 0 (xs ++ ys) = visible 0 xs ++ visible 0 ys := fun xs ys => by simp [visible]
  have h0 : visible 0 [((0 : Int), (0 : W))] = [] := by rw [visible_last, if_pos rfl]
  constructor
  · rintro ⟨p, fw, h1, h2⟩
    obtain ⟨ls2, p2, fw2, k1, k2, k3⟩ := (m.lang _).1 ⟨ls, p, fw, h1, h2, rfl⟩
    rw [hv, hv, m.visible_eq h1, h.visible_eq hA k1, h.zero _ _ k2, h0, List.append_nil, visible_last] at k3
    split at k3
    · rw [List.append_nil] at k3
      subst k3
      exact ⟨p2, fw2, k1, k2⟩
    · subst k3
      obtain ⟨q', p', he⟩ := path_mem k1 (l := (0, fw)) (by simp)
      exact absurd rfl (h.label_ne hA he)
  · rintro ⟨p, fw, h1, h2⟩
    obtain ⟨ls2, p2, fw2, k1, k2, k3⟩ := (m.lang _).2 ⟨ls, p, fw, h1, h2, rfl⟩
    rw [hv, hv, m.visible_eq k1, h.visible_eq hA h1, h.zero _ _ h2, h0, List.append_nil, visible_last] at k3
    split at k3
    · rw [List.append_nil] at k3
      subst k3
      exact ⟨p2, fw2, k1, k2⟩
    · subst k3
      obtain ⟨q', p', he⟩ := path_mem h1 (l := (0, fw2)) (by simp)
      exact absurd rfl (h.label_ne hA he)

/-! ## The arcs at the end -/

/-- `t1` is `t` with arcs to new final states. -/
structure Ended (c : Int) (t : Transducer W) (D : List (Nat × Nat)) (t1 : Transducer W) : Prop where
  wf : WF t1
  size_le : size t ≤ size t1
  initial : t1.initial = t.initial
  new : ∀ d ∈ D, d.1 < size t ∧ size t ≤ d.2
  edge : ∀ q l p, Edge t1 q l p ↔ Edge t q l p ∨ (l = (c, 0) ∧ (q, p) ∈ D)
  fin : ∀ p, (∃ fw, Final t1 p fw) ↔ (∃ fw, Final t p fw) ∨ ∃ q, (q, p) ∈ D
  all : ∀ p, size t ≤ p → p < size t1 → ∃ q, (q, p) ∈ D

theorem endArcs_spec {c : Int} (hwf : WF t) (fins : List (Nat × W)) (hf : ∀ e ∈ fins, e ∈ t.finals) (hnd : (fins.map (·.1)).Nodup)
    (hno : ∀ q fw, Final t q fw → ∀ v p, ¬ Edge t q (c, v) p) {D : List (Nat × Nat)} {t1 : Transducer W} (h : Ended c t D t1)
    (hD : ∀ e ∈ fins, e.1 ∉ D.map (·.1)) :
    ∃ t2 D', endArcs c fins t1 = .ok t2 ∧ Ended c t D' t2 ∧ D'.map (·.1) = D.map (·.1) ++ fins.map (·.1) := by
  induction fins generalizing D t1 with
  | nil => exact ⟨t1, D, rfl, h, by simp⟩
  | cons e fins ih =>
    obtain ⟨q, fw⟩ := e
    have hfin : Final t q fw := hf _ (by simp)
    have hq : q < size t := hwf.finals_lt _ _ hfin
    have hq1 : q < size t1 := lt_of_lt_of_le hq h.size_le
    have hnone : equalRange c (row t1 q) = [] := by
      rw [List.eq_nil_iff_forall_not_mem]
      rintro ⟨p, v⟩ hm
      rcases (h.edge q (c, v) p).1 ((mem_equalRange _ _ _ _).mp hm) with he | ⟨-, he⟩
      · exact hno q fw hfin v p he
      · exact hD (q, fw) (by simp) (List.mem_map_of_mem he)
    have w1 := newState_wf h.wf
    have s1 := newState_size h.wf
    have f1 := newState_fst h.wf
    have e1 := newState_edge h.wf
    have hins : insertSingleTransduction c q 0 t1 = (some (size t1), addArc q c (size t1) 0 (newState t1).2) := by
      unfold insertSingleTransduction
      rw [(exists_iff h.wf q).mpr hq1, if_pos rfl, hnone]
      rw [← f1]
    set t2 := addArc q c (size t1) 0 (newState t1).2 with ht2
    have hwf2 : WF t2 := addArc_wf w1 (by omega) c (by omega) 0
    have hs2 : size t2 = size t1 + 1 := by rw [ht2, addArc_size w1 (by omega), s1]
    have hE2 : ∀ x l y, Edge t2 x l y ↔ Edge t1 x l y ∨ (x = q ∧ l = (c, 0) ∧ y = size t1) := by
      intro x l y
      rw [ht2, addArc_edge w1, e1]
    have h' : Ended c t (D ++ [(q, size t1)]) (setFinal (size t1) 0 true t2) := by
      refine ⟨setFinal_wf hwf2 (by omega) 0, ?_, h.initial, ?_, ?_, ?_, ?_⟩
      · show size t ≤ size t2
        have := h.size_le; omega
      · intro d hd
        rcases List.mem_append.1 hd with hd | hd
        · exact h.new d hd
        · rw [List.mem_singleton.1 hd]; exact ⟨hq, h.size_le⟩
      · intro x l y
        show Edge t2 x l y ↔ _
        rw [hE2, h.edge]
        simp only [List.mem_append, List.mem_singleton, Prod.mk.injEq]
        constructor
        · rintro ((h | ⟨h1, h2⟩) | ⟨h1, h2, h3⟩)
          · exact .inl h
          · exact .inr ⟨h1, .inl h2⟩
          · exact .inr ⟨h2, .inr ⟨h1, h3⟩⟩
        · rintro (h | ⟨h1, h2 | ⟨h2, h3⟩⟩)
          · exact .inl (.inl h)
          · exact .inl (.inr ⟨h1, h2⟩)
          · exact .inr ⟨h2, h1, h3⟩
      · intro p
        rw [setFinal_final hwf2]
        have hf2 : (∃ fw, Final t2 p fw) ↔ ∃ fw, Final t1 p fw := Iff.rfl
        rw [hf2, h.fin]
        simp only [List.mem_append, List.mem_singleton, Prod.mk.injEq]
        constructor
        · rintro (rfl | h | ⟨q', h⟩)
          · exact .inr ⟨q, .inr ⟨rfl, rfl⟩⟩
          · exact .inl h
          · exact .inr ⟨q', .inl h⟩
        · rintro (h | ⟨q', h | ⟨-, h⟩⟩)
          · exact .inr (.inl h)
          · exact .inr (.inr ⟨q', h⟩)
          · exact .inl h
      · intro p hp1 hp2
        have hp2 : p < size t2 := hp2
        by_cases hp : p = size t1
        · exact ⟨q, by simp [hp]⟩
        · obtain ⟨q', h'⟩ := h.all p hp1 (by omega)
          exact ⟨q', by simp [h']⟩
    simp only [List.map_cons, List.nodup_cons] at hnd
    obtain ⟨t3, D', k1, k2, k3⟩ := ih (fun e he => hf e (List.mem_cons_of_mem _ he)) hnd.2 h' (fun e he => by
      rw [List.map_append, List.mem_append]
      rintro (hm | hm)
      · exact hD e (List.mem_cons_of_mem _ he) hm
      · simp only [List.map_cons, List.map_nil, List.mem_singleton] at hm
        exact hnd.1 (hm ▸ List.mem_map_of_mem he))
    refine ⟨t3, D', ?_, k2, by rw [k3]; simp⟩
    unfold endArcs
    simp only [hins]
    exact k1

theorem Ended.path {c : Int} {D : List (Nat × Nat)} {t1 : Transducer W} (hwf : WF t) (h : Ended c t D t1) {q p : Nat} {ls : List (Int × W)}
    (hp : Path (Edge t1) q ls p) (hq : q < size t) :
    (p < size t ∧ Path (Edge t) q ls p) ∨ ∃ ls' r, ls = ls' ++ [(c, 0)] ∧ Path (Edge t) q ls' r ∧ (r, p) ∈ D := by
  induction hp with
  | nil => exact .inl ⟨hq, .nil _⟩
  | @cons q r p l ls he hrest ih =>
    rcases (h.edge _ _ _).1 he with he | ⟨rfl, hd⟩
    · rcases ih (hwf.target_lt _ _ _ he) with ⟨h1, h2⟩ | ⟨ls', r', rfl, h2, h3⟩
      · exact .inl ⟨h1, .cons he h2⟩
      · exact .inr ⟨l :: ls', r', rfl, .cons he h2, h3⟩
    · have hr := (h.new _ hd).2
      cases hrest with
      | nil => exact .inr ⟨[], q, rfl, .nil _, hd⟩
      | cons he' _ =>
        rcases (h.edge _ _ _).1 he' with he' | ⟨-, hd'⟩
        · exact absurd (hwf.source_lt he') (by simpa using hr)
        · have := (h.new _ hd').1; simp only at this hr; omega

theorem Ended.path_old {c : Int} {D : List (Nat × Nat)} {t1 : Transducer W} (h : Ended c t D t1) {q p : Nat} {ls : List (Int × W)}
    (hp : Path (Edge t) q ls p) : Path (Edge t1) q ls p := hp.mono fun _ _ _ he => (h.edge _ _ _).2 (.inl he)

theorem Ended.acc {c : Int} {D : List (Nat × Nat)} {t1 : Transducer W} (hwf : WF t) (h : Ended c t D t1) (hD : D.map (·.1) = t.finals.map (·.1))
    (ls : List (Int × W)) :
    Acc t1 t1.initial ls ↔ Acc t t.initial ls ∨ ∃ ls', Acc t t.initial ls' ∧ ls = ls' ++ [(c, 0)] := by
  constructor
  · rintro ⟨p, fw, h1, h2⟩
    rw [h.initial] at h1
    rcases h.path hwf h1 hwf.initial_lt with ⟨k1, k2⟩ | ⟨ls', r, rfl, k2, k3⟩
    · rcases (h.fin p).1 ⟨fw, h2⟩ with ⟨fw', k3⟩ | ⟨q, k3⟩
      · exact .inl ⟨p, fw', k2, k3⟩
      · have := (h.new _ k3).2; simp only at this; omega
    · have : r ∈ t.finals.map (·.1) := hD ▸ List.mem_map_of_mem k3
      obtain ⟨⟨r', fw'⟩, j1, rfl⟩ := List.mem_map.1 this
      exact .inr ⟨ls', ⟨r', fw', k2, j1⟩, rfl⟩
  · rintro (⟨p, fw, h1, h2⟩ | ⟨ls', ⟨p, fw, h1, h2⟩, rfl⟩)
    · obtain ⟨fw', h3⟩ := (h.fin p).2 (.inl ⟨fw, h2⟩)
      exact ⟨p, fw', by rw [h.initial]; exact h.path_old h1, h3⟩
    · have : p ∈ D.map (·.1) := hD ▸ List.mem_map_of_mem h2
      obtain ⟨⟨p', r⟩, j1, rfl⟩ := List.mem_map.1 this
      obtain ⟨fw', h3⟩ := (h.fin r).2 (.inr ⟨p', j1⟩)
      exact ⟨r, fw', by rw [h.initial]; exact (h.path_old h1).append (.single ((h.edge _ _ _).2 (.inr ⟨rfl, j1⟩))), h3⟩

theorem Ended.useful {c : Int} {D : List (Nat × Nat)} {t1 : Transducer W} (h : Ended c t D t1)
    (hu : ∀ q < size t, (∃ ls, Path (Edge t) t.initial ls q) ∧ ∃ w, LangFrom 0 t q w) :
    ∀ q < size t1, (∃ ls, Path (Edge t1) t1.initial ls q) ∧ ∃ w, LangFrom 0 t1 q w := by
  intro q hq
  by_cases hq' : q < size t
  · obtain ⟨⟨ls, h1⟩, w, ls', p, fw, h2, h3, -⟩ := hu q hq'
    obtain ⟨fw', h4⟩ := (h.fin p).2 (.inl ⟨fw, h3⟩)
    exact ⟨⟨ls, by rw [h.initial]; exact h.path_old h1⟩, _, ls', p, fw', h.path_old h2, h4, rfl⟩
  · obtain ⟨r, hr⟩ := h.all q (by omega) hq
    obtain ⟨⟨ls, h1⟩, -⟩ := hu r (h.new _ hr).1
    obtain ⟨fw', h4⟩ := (h.fin q).2 (.inr ⟨r, hr⟩)
    exact ⟨⟨ls ++ [(c, 0)], by rw [h.initial]; exact (h.path_old h1).append (.single ((h.edge _ _ _).2 (.inr ⟨rfl, hr⟩)))⟩,
      _, [], q, fw', .nil _, h4, rfl⟩

end

end Verif.Sep
