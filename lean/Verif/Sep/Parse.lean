import Verif.Sep.File
import Verif.Compiler.Check

/-! # The end of `parse` for separable dictionaries -/

namespace Verif.Sep

open Verif.Fst Verif.Compiler Verif.Alphabet

set_option linter.unusedSectionVars false

variable {W : Type} [AddMonoid W] [LinearOrder W] {N : Type} [LinearOrder N]

theorem prs_append {A : Alphabet} (xs ys : List (Int × W)) : prs A (xs ++ ys) = prs A xs ++ prs A ys := by simp [prs]

/-- All sections minimised. -/
theorem minimizeAll_spec {A : Alphabet} (hA : Ok A) (secs : List (UString × Sec N W)) (hs : SortedKeys secs) (G : UString → List Pair → Prop)
    (h : ∀ e ∈ secs, (∃ v, G e.1 v) ∧ ∃ nm, SLT A e.2.t nm (G e.1)) :
    ∃ ts, minimizeAll secs = .ok ts ∧ SortedKeys ts ∧ (∀ k, k ∈ ts.map (·.1) ↔ k ∈ secs.map (·.1)) ∧
      ∀ k t', (k, t') ∈ ts → ∃ x, (k, x) ∈ secs ∧ Minimal A x.t t' := by
  induction secs with
  | nil => exact ⟨[], rfl, .nil, fun _ => Iff.rfl, fun k t' h => by simp at h⟩
  | cons e secs ih =>
    obtain ⟨k, x⟩ := e
    obtain ⟨ts, h1, h2, h3, h4⟩ := ih hs.tail fun e he => h e (List.mem_cons_of_mem _ he)
    obtain ⟨⟨v, hv⟩, nm, i⟩ := h (k, x) (by simp)
    obtain ⟨ls, hls, -⟩ := (i.acc v).2 ⟨v, hv, rfl⟩
    have hne : x.t.finals ≠ [] := by
      obtain ⟨p, fw, -, hf⟩ := hls
      exact List.ne_nil_of_mem hf
    obtain ⟨t', m1, m2⟩ := minimize_tree hA i.lt.wf i.lt.zero i.lt.known hne ⟨ls, hls⟩
    refine ⟨(k, t') :: ts, ?_, ?_, ?_, ?_⟩
    · rw [minimizeAll, m1, Res.bind_ok, h1]
      rfl
    · refine List.pairwise_cons.2 ⟨fun e he => ?_, h2⟩
      obtain ⟨e', he', e''⟩ := List.mem_map.1 ((h3 e.1).1 (List.mem_map_of_mem he))
      rw [← e'']
      exact (List.pairwise_cons.1 hs).1 e' he'
    · intro k'
      simp only [List.map_cons, List.mem_cons, h3]
    · intro k' t'' hm
      rcases List.mem_cons.1 hm with hm | hm
      · cases hm
        exact ⟨x, by simp, m2⟩
      · obtain ⟨x', hx', hm'⟩ := h4 k' t'' hm
        exact ⟨x', List.mem_cons_of_mem _ hx', hm'⟩

/-- All sections with their last arcs. -/
theorem endAll_spec {c : Int} (ts : List (UString × Transducer W)) (hs : SortedKeys ts)
    (h : ∀ k t, (k, t) ∈ ts → WF t ∧ ∀ q fw, Final t q fw → ∀ v p, ¬ Edge t q (c, v) p) :
    ∃ ts', endAll c ts = .ok ts' ∧ SortedKeys ts' ∧ (∀ k, k ∈ ts'.map (·.1) ↔ k ∈ ts.map (·.1)) ∧
      ∀ k t', (k, t') ∈ ts' → ∃ t D, (k, t) ∈ ts ∧ Ended c t D t' ∧ D.map (·.1) = t.finals.map (·.1) := by
  induction ts with
  | nil => exact ⟨[], rfl, .nil, fun _ => Iff.rfl, fun k t' h => by simp at h⟩
  | cons e ts ih =>
    obtain ⟨k, t⟩ := e
    obtain ⟨ts', h1, h2, h3, h4⟩ := ih hs.tail fun k t he => h k t (List.mem_cons_of_mem _ he)
    obtain ⟨hwf, hno⟩ := h k t (by simp)
    have h0 : Ended c t [] t := ⟨hwf, le_refl _, rfl, by simp, by simp, by simp, fun p h1 h2 => by omega⟩
    have hnd : (t.finals.map (·.1)).Nodup := by
      rw [List.nodup_iff_pairwise_ne, List.pairwise_map]
      exact hwf.finals_sorted.imp fun h => ne_of_lt h
    obtain ⟨t2, D, k1, k2, k3⟩ := endArcs_spec hwf t.finals (fun _ h => h) hnd hno h0 (by simp)
    refine ⟨(k, t2) :: ts', ?_, ?_, ?_, ?_⟩
    · rw [endAll, k1, Res.bind_ok, h1]
      rfl
    · refine List.pairwise_cons.2 ⟨fun e he => ?_, h2⟩
      obtain ⟨e', he', e''⟩ := List.mem_map.1 ((h3 e.1).1 (List.mem_map_of_mem he))
      rw [← e'']
      exact (List.pairwise_cons.1 hs).1 e' he'
    · intro k'
      simp only [List.map_cons, List.mem_cons, h3]
    · intro k' t'' hm
      rcases List.mem_cons.1 hm with hm | hm
      · cases hm
        exact ⟨t, D, by simp, k2, by simpa using k3⟩
      · obtain ⟨t0, D0, j1, j2⟩ := h4 k' t'' hm
        exact ⟨t0, D0, List.mem_cons_of_mem _ j1, j2⟩

/-- What the arcs of a finished section read. -/
theorem parse_spec {s : Settings} {f : File N W} (hf : Texts s f) (hends : Ends s f) :
    ∃ A ts, Ok A ∧ parse s f.nodes = (if valid A ts then .ok (A, ts) else .exit) ∧ SortedKeys ts ∧ (∀ k, k ∈ ts.map (·.1) ↔ ∃ ps, Likely s f k ps) ∧
      ∀ k t, (k, t) ∈ ts → WF t ∧ (∀ q < size t, (∃ ls, Path (Edge t) t.initial ls q) ∧ ∃ w, LangFrom 0 t q w) ∧
        (∀ q l p, Edge t q l p → KA A l.1) ∧
        ∀ ps, (∃ ls, Acc t t.initial ls ∧ prs A ls = ps) ↔ Likely s f k ps ∨ ∃ ps', Likely s f k ps' ∧ ps = ps' ++ [boundary] := by
  obtain ⟨c, h1, h2⟩ := nodes_spec hf
  obtain ⟨hA, hext, hb, -⟩ := pairCode_spec h2.ok wild.boundary wild.boundary
  set A := (c.alphabet.pairCode wild.boundary wild.boundary).2 with hAdef
  set b := (c.alphabet.pairCode wild.boundary wild.boundary).1 with hbdef
  have hsec : ∀ e ∈ c.secs, (∃ v, Entries s f e.1 v) ∧ ∃ nm, SLT A e.2.t nm (Entries s f e.1) := by
    intro e he
    obtain ⟨a1, nm, a2⟩ := h2.some _ _ (mapFind_of_mem h2.sorted (show (e.1, e.2) ∈ c.secs from he))
    exact ⟨a1, nm, a2.mono hext⟩
  obtain ⟨ts, k1, k2, k3, k4⟩ := minimizeAll_spec hA c.secs h2.sorted (Entries s f) hsec
  have hmin : ∀ k t, (k, t) ∈ ts → ∀ ps, (∃ ls, Acc t t.initial ls ∧ prs A ls = ps) ↔ Likely s f k ps := by
    intro k t ht ps
    obtain ⟨x, hx, m⟩ := k4 k t ht
    obtain ⟨-, nm, i⟩ := hsec _ hx
    rw [likely_iff, ← i.acc]
    simp only [minimal_acc hA i.lt m]
  have hno : ∀ k t, (k, t) ∈ ts → WF t ∧ ∀ q fw, Final t q fw → ∀ v p, ¬ Edge t q (b, v) p := by
    intro k t ht
    obtain ⟨x, hx, m⟩ := k4 k t ht
    refine ⟨m.wf, fun q fw hq v p he => ?_⟩
    obtain ⟨⟨us, u1⟩, -⟩ := m.useful q (m.wf.source_lt he)
    obtain ⟨-, w, vs, p', fw', v1, v2, -⟩ := m.useful p (m.wf.target_lt _ _ _ he)
    have e1 := (hmin k t ht _).1 ⟨us, ⟨q, fw, u1, hq⟩, rfl⟩
    have e2 := (hmin k t ht _).1 ⟨us ++ (b, v) :: vs, ⟨p', fw', u1.append (.cons he v1), v2⟩, rfl⟩
    have e3 : prs A (us ++ (b, v) :: vs) = prs A us ++ boundary :: prs A vs := by
      rw [prs_append]
      simp [prs, dec_eq hb, boundary]
    rw [e3] at e2
    exact hends k _ _ e1 e2
  obtain ⟨ts', j1, j2, j3, j4⟩ := endAll_spec ts k2 hno
  refine ⟨A, ts', hA, ?_, j2, fun k => ?_, fun k t ht => ?_⟩
  · unfold parse
    rw [h1, Res.bind_ok, k1, Res.bind_ok]
    show (endAll b ts >>= fun secs => if valid A secs then pure (A, secs) else .exit) = _
    rw [j1, Res.bind_ok]
    split <;> rfl
  · rw [j3, k3, ← mapFind_isSome_iff]
    have hl : (∃ ps, Likely s f k ps) ↔ ∃ v, Entries s f k v := by
      simp only [likely_iff]
      exact ⟨fun ⟨_, e, h, _⟩ => ⟨e, h⟩, fun ⟨e, h⟩ => ⟨e, e, h, rfl⟩⟩
    rw [hl]
    cases hm : mapFind k c.secs with
    | none => simp [h2.none k hm]
    | some x => simpa using (h2.some k x hm).1
  · obtain ⟨t0, D, i1, i2, i3⟩ := j4 k t ht
    obtain ⟨x, hx, m⟩ := k4 k t0 i1
    refine ⟨i2.wf, i2.useful m.useful, fun q l p he => ?_, fun ps => ?_⟩
    · rcases (i2.edge q l p).1 he with he | ⟨rfl, -⟩
      · exact m.known q l p he
      · exact ⟨_, hb⟩
    · have hm := hmin k t0 i1
      constructor
      · rintro ⟨ls, hls, rfl⟩
        rcases (i2.acc m.wf i3 ls).1 hls with h | ⟨ls', h, rfl⟩
        · exact .inl ((hm _).1 ⟨ls, h, rfl⟩)
        · exact .inr ⟨_, (hm _).1 ⟨ls', h, rfl⟩, by rw [prs_append]; simp [prs, dec_eq hb, boundary]⟩
      · rintro (h | ⟨ps', h, rfl⟩)
        · obtain ⟨ls, h1, h2⟩ := (hm _).2 h
          exact ⟨ls, (i2.acc m.wf i3 ls).2 (.inl h1), h2⟩
        · obtain ⟨ls, h1, rfl⟩ := (hm _).2 h
          exact ⟨_, (i2.acc m.wf i3 _).2 (.inr ⟨ls, h1, rfl⟩), by rw [prs_append]; simp [prs, dec_eq hb, boundary]⟩

end Verif.Sep
