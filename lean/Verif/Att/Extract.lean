import Verif.Att.Lines

/-! # The transducer that is extracted from the graph -/

namespace Verif.Att

open Verif.Fst Verif.Product

variable {W : Type}

/-- An arc of the graph that is kept for a section. -/
def Kept (g : Graph W) (type : Nat) (q : Int) (l : Int × W) (p : Int) : Prop :=
  ∃ arc ∈ arcsAt g q, arc.type &&& type = type ∧ arc.dst = p ∧ arc.tag = l.1 ∧ arc.weight = l.2

/-- What holds during the extraction. -/
structure Sound (g : Graph W) (type : Nat) (s : Extract W) : Prop where
  wf : WF s.t
  nofinals : s.t.finals = []
  initial : s.t.initial = 0
  corr : SortedKeys s.corr
  lt : ∀ q f, (q, f) ∈ s.corr → f < Fst.size s.t
  inj : ∀ q q' f, (q, f) ∈ s.corr → (q', f) ∈ s.corr → q = q'
  visited : ∀ q ∈ s.visited, ∃ f, (q, f) ∈ s.corr
  sorted : s.visited.Pairwise (· < ·)
  edges : ∀ f l d, Edge s.t f l d → ∃ q p, (q, f) ∈ s.corr ∧ (p, d) ∈ s.corr ∧ Kept g type q l p

/-- Nothing is lost. -/
structure Grows (s s' : Extract W) : Prop where
  corr : ∀ e ∈ s.corr, e ∈ s'.corr
  visited : ∀ q ∈ s.visited, q ∈ s'.visited
  edges : ∀ f l d, Edge s.t f l d → Edge s'.t f l d

theorem Grows.refl (s : Extract W) : Grows s s := ⟨fun _ h => h, fun _ h => h, fun _ _ _ h => h⟩

theorem Grows.trans {s s' s'' : Extract W} (h : Grows s s') (h' : Grows s' s'') : Grows s s'' :=
  ⟨fun _ hh => h'.corr _ (h.corr _ hh), fun _ hh => h'.visited _ (h.visited _ hh), fun _ _ _ hh => h'.edges _ _ _ (h.edges _ _ _ hh)⟩

/-- The arc has its place in the transducer. -/
def DoneArc (src : Int) (arc : Arc W) (s : Extract W) : Prop :=
  arc.dst ∈ s.visited ∧ ∃ f d w, (src, f) ∈ s.corr ∧ (arc.dst, d) ∈ s.corr ∧ Edge s.t f (arc.tag, w) d

theorem DoneArc.grows {src : Int} {arc : Arc W} {s s' : Extract W} (h : Grows s s') (hd : DoneArc src arc s) : DoneArc src arc s' := by
  obtain ⟨h1, f, d, w, h2, h3, h4⟩ := hd
  exact ⟨h.visited _ h1, f, d, w, h.corr _ h2, h.corr _ h3, h.edges _ _ _ h4⟩

def DoneNode (g : Graph W) (type : Nat) (q : Int) (s : Extract W) : Prop := ∀ arc ∈ arcsAt g q, arc.type &&& type = type → DoneArc q arc s

/-- The keys of the graph that were not visited. -/
def left (g : Graph W) (visited : List Int) : Nat := (g.map (·.1)).countP fun q => !decide (q ∈ visited)

theorem left_le {g : Graph W} {v v' : List Int} (h : ∀ q ∈ v, q ∈ v') : left g v' ≤ left g v := by
  unfold left
  refine List.countP_mono_left ?_
  intro q _ hq
  simp only [Bool.not_eq_true', decide_eq_false_iff_not] at hq ⊢
  exact fun hh => hq (h q hh)

theorem left_lt {g : Graph W} {v v' : List Int} (h : ∀ q ∈ v, q ∈ v') {q : Int} (hg : q ∈ g.map (·.1)) (hq : q ∉ v) (hq' : q ∈ v') : left g v' < left g v := by
  obtain ⟨l1, l2, e⟩ := List.append_of_mem hg
  have key : ∀ l : List Int, (l.countP fun q => !decide (q ∈ v')) ≤ l.countP fun q => !decide (q ∈ v) := by
    intro l
    refine List.countP_mono_left ?_
    intro q _ hq
    simp only [Bool.not_eq_true', decide_eq_false_iff_not] at hq ⊢
    exact fun hh => hq (h q hh)
  have h1 := key l1
  have h2 := key l2
  unfold left
  rw [e, List.countP_append, List.countP_append, List.countP_cons_of_neg (by simp [hq']), List.countP_cons_of_pos (by simp [hq])]
  omega

theorem arcsAt_key {g : Graph W} {q : Int} {arc : Arc W} (h : arc ∈ arcsAt g q) : q ∈ g.map (·.1) := by
  unfold arcsAt at h
  cases hq : mapFind q g with
  | none => rw [hq] at h; cases h
  | some a => exact List.mem_map.2 ⟨_, mapFind_mem hq, rfl⟩

/-- What a call leaves behind. -/
structure Post (g : Graph W) (type : Nat) (s s' : Extract W) : Prop where
  sound : Sound g type s'
  grows : Grows s s'
  done : ∀ q ∈ s'.visited, q ∉ s.visited → DoneNode g type q s'

theorem Post.trans {g : Graph W} {type : Nat} {s s' s'' : Extract W} (h : Post g type s s') (h' : Post g type s' s'') : Post g type s s'' := by
  refine ⟨h'.sound, h.grows.trans h'.grows, ?_⟩
  intro q hq hn
  by_cases hm : q ∈ s'.visited
  · intro arc ha ht
    exact (h.done q hm hn arc ha ht).grows h'.grows
  · exact h'.done q hq hm

/-- A call for a node that is not reached by a new arc. -/
def CallSpec (g : Graph W) (type : Nat) (rec : Int → Extract W → Res (Extract W)) (bound : Nat) : Prop :=
  ∀ q s, Sound g type s → (∃ f, (q, f) ∈ s.corr) → left g s.visited ≤ bound → ∃ s', rec q s = .ok s' ∧ Post g type s s' ∧ q ∈ s'.visited

theorem link_sound {g : Graph W} {type : Nat} {s : Extract W} (h : Sound g type s) {src : Int} {arc : Arc W} {f d : Nat} (ha : arc ∈ arcsAt g src)
    (ht : arc.type &&& type = type) (hf : (src, f) ∈ s.corr) (hd : (arc.dst, d) ∈ s.corr) :
    ∃ t, linkStates f d arc.tag arc.weight s.t = .ok t ∧ Sound g type { s with t } ∧ Grows s { s with t } ∧ ∃ w, Edge t f (arc.tag, w) d := by
  have hf' := h.lt _ _ hf
  have hd' := h.lt _ _ hd
  rw [linkStates_eq h.wf hf' hd']
  by_cases he : (equalRange arc.tag (row s.t f)).any (fun e => e.1 = d) = true
  · rw [if_pos he]
    obtain ⟨w, hw⟩ := (any_target _ _ _).1 he
    exact ⟨s.t, rfl, h, .refl s, w, hw⟩
  · rw [if_neg he]
    refine ⟨_, rfl, ⟨addArc_wf h.wf hf' arc.tag hd' arc.weight, h.nofinals, h.initial, h.corr, ?_, h.inj, h.visited, h.sorted, ?_⟩, ⟨fun _ hh => hh, fun _ hh => hh, ?_⟩, ?_⟩
    · intro q f' hq
      rw [addArc_size h.wf hf']
      exact h.lt q f' hq
    · intro x l y hx
      rcases (addArc_edge h.wf _ _ _ _ _ _ _).1 hx with hx | ⟨rfl, rfl, rfl⟩
      · exact h.edges x l y hx
      · exact ⟨src, arc.dst, hf, hd, arc, ha, ht, rfl, rfl, rfl⟩
    · intro x l y hx
      exact (addArc_edge h.wf _ _ _ _ _ _ _).2 (.inl hx)
    · exact ⟨arc.weight, (addArc_edge h.wf _ _ _ _ _ _ _).2 (.inr ⟨rfl, rfl, rfl⟩)⟩

theorem insert_sound {g : Graph W} {type : Nat} {s : Extract W} (h : Sound g type s) {src : Int} {arc : Arc W} {f : Nat} (ha : arc ∈ arcsAt g src)
    (ht : arc.type &&& type = type) (hf : (src, f) ∈ s.corr) (hd : mapFind arc.dst s.corr = none) {s' : Extract W}
    (hs' : s' = { s with t := (insertNewSingleTransduction arc.tag f arc.weight s.t).2, corr := mapSet arc.dst (insertNewSingleTransduction arc.tag f arc.weight s.t).1 s.corr }) :
    Sound g type s' ∧ Grows s s' ∧ ∃ d, (arc.dst, d) ∈ s'.corr ∧ ∃ w, Edge s'.t f (arc.tag, w) d := by
  have e1 : (insertNewSingleTransduction arc.tag f arc.weight s.t).1 = Fst.size s.t := newState_fst h.wf
  have e2 : (insertNewSingleTransduction arc.tag f arc.weight s.t).2 = addArc f arc.tag (Fst.size s.t) arc.weight (newState s.t).2 := by
    show addArc f arc.tag (newState s.t).1 arc.weight (newState s.t).2 = _
    rw [newState_fst h.wf]
  rw [e1, e2] at hs'
  have hwf := newState_wf h.wf
  have hsz := newState_size h.wf
  have hf' := h.lt _ _ hf
  have hmem : ∀ e, e ∈ s'.corr ↔ e = (arc.dst, Fst.size s.t) ∨ e ∈ s.corr := by
    rintro ⟨k, v⟩
    rw [hs']
    show (k, v) ∈ mapSet arc.dst (Fst.size s.t) s.corr ↔ _
    rw [mapSet_eq_modify, ← mapFind_iff (sorted_modify h.corr _ _ _), mapFind_modify h.corr, ← mapFind_iff h.corr]
    by_cases hk : k = arc.dst
    · subst hk
      rw [if_pos rfl, hd]
      simp [eq_comm]
    · rw [if_neg hk]
      simp [hk]
  have hedge : ∀ x l y, Edge s'.t x l y ↔ Edge s.t x l y ∨ (x = f ∧ l = (arc.tag, arc.weight) ∧ y = Fst.size s.t) := by
    intro x l y
    rw [hs']
    show Edge (addArc f arc.tag (Fst.size s.t) arc.weight (newState s.t).2) x l y ↔ _
    rw [addArc_edge hwf, newState_edge h.wf]
  have hsize : Fst.size s'.t = Fst.size s.t + 1 := by
    rw [hs']
    show Fst.size (addArc f arc.tag (Fst.size s.t) arc.weight (newState s.t).2) = _
    rw [addArc_size hwf (by omega), hsz]
  refine ⟨⟨?_, ?_, ?_, ?_, ?_, ?_, ?_, ?_, ?_⟩, ⟨?_, ?_, ?_⟩, ?_⟩
  · rw [hs']
    exact addArc_wf hwf (by omega) _ (by omega) _
  · rw [hs']; exact h.nofinals
  · rw [hs']; exact h.initial
  · rw [hs']
    show SortedKeys (mapSet arc.dst (Fst.size s.t) s.corr)
    rw [mapSet_eq_modify]
    exact sorted_modify h.corr _ _ _
  · intro q x hq
    rw [hsize]
    rcases (hmem _).1 hq with hq | hq
    · cases hq; omega
    · have := h.lt q x hq; omega
  · intro q q' x hq hq'
    rcases (hmem _).1 hq with hq | hq <;> rcases (hmem _).1 hq' with hq' | hq'
    · cases hq; cases hq'; rfl
    · cases hq; exact absurd (h.lt _ _ hq') (by omega)
    · cases hq'; exact absurd (h.lt _ _ hq) (by omega)
    · exact h.inj q q' x hq hq'
  · intro q hq
    rw [hs'] at hq
    obtain ⟨x, hx⟩ := h.visited q hq
    exact ⟨x, (hmem _).2 (.inr hx)⟩
  · rw [hs']; exact h.sorted
  · intro x l y hx
    rcases (hedge x l y).1 hx with hx | ⟨rfl, rfl, rfl⟩
    · obtain ⟨q, p, h1, h2, h3⟩ := h.edges x l y hx
      exact ⟨q, p, (hmem _).2 (.inr h1), (hmem _).2 (.inr h2), h3⟩
    · exact ⟨src, arc.dst, (hmem _).2 (.inr hf), (hmem _).2 (.inl rfl), arc, ha, ht, rfl, rfl, rfl⟩
  · intro e he
    exact (hmem e).2 (.inr he)
  · intro q hq
    rw [hs']; exact hq
  · intro x l y hx
    exact (hedge x l y).2 (.inl hx)
  · exact ⟨Fst.size s.t, (hmem _).2 (.inl rfl), arc.weight, (hedge _ _ _).2 (.inr ⟨rfl, rfl, rfl⟩)⟩

theorem extractArcs_spec {g : Graph W} {type : Nat} {rec : Int → Extract W → Res (Extract W)} {bound : Nat} (hrec : CallSpec g type rec bound) (src : Int) :
    ∀ (arcs : List (Arc W)), (∀ arc ∈ arcs, arc ∈ arcsAt g src) → ∀ s, Sound g type s → src ∈ s.visited → left g s.visited ≤ bound →
      ∃ s', extractArcs rec type src arcs s = .ok s' ∧ Post g type s s' ∧ ∀ arc ∈ arcs, arc.type &&& type = type → DoneArc src arc s' := by
  intro arcs
  induction arcs with
  | nil =>
    intro _ s h _ _
    exact ⟨s, rfl, ⟨h, .refl s, fun q hq hn => absurd hq hn⟩, by simp⟩
  | cons arc arcs ih =>
    intro ha s h hsrc hb
    have ha' : ∀ x ∈ arcs, x ∈ arcsAt g src := fun x hx => ha x (by simp [hx])
    by_cases ht : arc.type &&& type = type
    · obtain ⟨f, hf⟩ := h.visited src hsrc
      have hff := (mapFind_iff h.corr).2 hf
      -- the arc has been added, the call and the other arcs follow
      have key : ∀ s1, Sound g type s1 → Grows s s1 → s1.visited = s.visited → (∃ d, (arc.dst, d) ∈ s1.corr ∧ ∃ w, Edge s1.t f (arc.tag, w) d) →
          ∃ s', (do let s ← rec arc.dst s1; extractArcs rec type src arcs s) = .ok s' ∧ Post g type s s' ∧
            ∀ x ∈ arc :: arcs, x.type &&& type = type → DoneArc src x s' := by
        rintro s1 h1 g1 ev ⟨d, hd, w, hw⟩
        obtain ⟨s2, e2, p2, v2⟩ := hrec arc.dst s1 h1 ⟨d, hd⟩ (by rw [ev]; exact hb)
        have p2' : Post g type s s2 := ⟨p2.sound, g1.trans p2.grows, fun q hq hn => p2.done q hq (by rw [ev]; exact hn)⟩
        obtain ⟨s3, e3, p3, d3⟩ := ih ha' s2 p2.sound (p2'.grows.visited _ hsrc) ((left_le p2'.grows.visited).trans hb)
        refine ⟨s3, by rw [e2]; exact e3, p2'.trans p3, ?_⟩
        intro x hx htx
        rcases List.mem_cons.1 hx with rfl | hx
        · refine DoneArc.grows p3.grows ⟨v2, f, d, w, p2.grows.corr _ (g1.corr _ hf), p2.grows.corr _ hd, p2.grows.edges _ _ _ hw⟩
        · exact d3 x hx htx
      rw [extractArcs, if_neg (fun hn => hn ht), hff]
      simp only
      cases hd : mapFind arc.dst s.corr with
      | some d =>
        have hd' := mapFind_mem hd
        obtain ⟨t, e1, h1, g1, w, hw⟩ := link_sound h (ha arc (by simp)) ht hf hd'
        simp only [e1, Res.bind_ok]
        exact key _ h1 g1 rfl ⟨d, hd', w, hw⟩
      | none =>
        obtain ⟨h1, g1, hd'⟩ := insert_sound h (ha arc (by simp)) ht hf hd rfl
        exact key _ h1 g1 rfl hd'
    · rw [extractArcs, if_pos ht]
      obtain ⟨s', h1, h2, h3⟩ := ih ha' s h hsrc hb
      refine ⟨s', h1, h2, ?_⟩
      intro x hx htx
      rcases List.mem_cons.1 hx with rfl | hx
      · exact absurd htx ht
      · exact h3 x hx htx

theorem visit_sound {g : Graph W} {type : Nat} {s : Extract W} (h : Sound g type s) {q : Int} (hq : ∃ f, (q, f) ∈ s.corr) :
    Sound g type { s with visited := setInsert q s.visited } := by
  refine ⟨h.wf, h.nofinals, h.initial, h.corr, h.lt, h.inj, ?_, sorted_setInsert h.sorted q, h.edges⟩
  intro x hx
  rcases (mem_setInsert _ _ _).1 hx with rfl | hx
  · exact hq
  · exact h.visited x hx

theorem extractFrom_spec (g : Graph W) (type : Nat) : ∀ turns, CallSpec g type (extractFrom g type (turns + 1)) turns := by
  intro turns
  induction turns with
  | zero =>
    intro q s h hq hb
    rw [extractFrom]
    by_cases hv : q ∈ s.visited
    · rw [if_pos hv]
      exact ⟨s, rfl, ⟨h, .refl s, fun q hq hn => absurd hq hn⟩, hv⟩
    · rw [if_neg hv]
      have hin : q ∈ setInsert q s.visited := (mem_setInsert _ _ _).2 (.inl rfl)
      have he : arcsAt g q = [] := by
        cases ha : arcsAt g q with
        | nil => rfl
        | cons arc arcs =>
          have := left_lt (g := g) (v := s.visited) (v' := setInsert q s.visited) (fun x hx => (mem_setInsert _ _ _).2 (.inr hx))
            (arcsAt_key (by rw [ha]; simp : arc ∈ arcsAt g q)) hv hin
          omega
      simp only [he]
      refine ⟨_, rfl, ⟨visit_sound h hq, ⟨fun _ hh => hh, fun x hx => (mem_setInsert _ _ _).2 (.inr hx), fun _ _ _ hh => hh⟩, ?_⟩, hin⟩
      intro x hx hn arc ha
      rcases (mem_setInsert _ _ _).1 hx with rfl | hx
      · rw [he] at ha; cases ha
      · exact absurd hx hn
  | succ n ih =>
    intro q s h hq hb
    rw [extractFrom]
    by_cases hv : q ∈ s.visited
    · rw [if_pos hv]
      exact ⟨s, rfl, ⟨h, .refl s, fun q hq hn => absurd hq hn⟩, hv⟩
    · rw [if_neg hv]
      have hin : q ∈ setInsert q s.visited := (mem_setInsert _ _ _).2 (.inl rfl)
      have hsub : ∀ x ∈ s.visited, x ∈ setInsert q s.visited := fun x hx => (mem_setInsert _ _ _).2 (.inr hx)
      by_cases hk : q ∈ g.map (·.1)
      · have hl := left_lt (g := g) hsub hk hv hin
        obtain ⟨s', e, hp, hd⟩ := extractArcs_spec ih q (arcsAt g q) (fun _ hh => hh) { s with visited := setInsert q s.visited } (visit_sound h hq) hin (by
          show left g (setInsert q s.visited) ≤ n
          omega)
        refine ⟨s', e, ⟨hp.sound, ⟨hp.grows.corr, fun x hx => hp.grows.visited x (hsub x hx), hp.grows.edges⟩, ?_⟩, hp.grows.visited _ hin⟩
        intro x hx hn
        by_cases hxq : x = q
        · subst hxq
          exact hd
        · refine hp.done x hx ?_
          intro hm
          rcases (mem_setInsert _ _ _).1 hm with hm | hm
          · exact hxq hm
          · exact hn hm
      · have he : arcsAt g q = [] := by
          cases ha : arcsAt g q with
          | nil => rfl
          | cons arc arcs => exact absurd (arcsAt_key (by rw [ha]; simp : arc ∈ arcsAt g q)) hk
        simp only [he]
        refine ⟨_, rfl, ⟨visit_sound h hq, ⟨fun _ hh => hh, hsub, fun _ _ _ hh => hh⟩, ?_⟩, hin⟩
        intro x hx hn arc ha
        rcases (mem_setInsert _ _ _).1 hx with rfl | hx
        · rw [he] at ha; cases ha
        · exact absurd hx hn

theorem empty_sound (g : Graph W) (type : Nat) (start : Int) : Sound g type { t := Fst.empty, corr := [(start, 0)], visited := [] } := by
  refine ⟨start_wf, rfl, rfl, by simp [SortedKeys], ?_, ?_, by simp, by simp, ?_⟩
  · intro q f hq
    simp only [List.mem_singleton, Prod.mk.injEq] at hq
    rw [hq.2]
    exact start_wf.initial_lt
  · intro q q' f h h'
    simp only [List.mem_singleton, Prod.mk.injEq] at h h'
    rw [h.1, h'.1]
  · intro f l d h
    simp [Edge, row, Fst.empty, newState, freeFrom, mapSet, mapFind] at h
    split at h <;> cases h

/-! ## Final states -/

theorem extractFinals_spec {corr : List (Int × Nat)} (hc : SortedKeys corr) (hinj : ∀ q q' f, (q, f) ∈ corr → (q', f) ∈ corr → q = q') :
    ∀ (fs : List (Int × W)) (t : Transducer W), SortedKeys t.finals → (fs.map (·.1)).Nodup → (∀ q f w, (q, w) ∈ fs → (q, f) ∈ corr → ∀ v, ¬ Final t f v) →
      (∀ q l p, Edge (extractFinals corr fs t) q l p ↔ Edge t q l p) ∧ (extractFinals corr fs t).initial = t.initial ∧
      (∀ f w, Final (extractFinals corr fs t) f w ↔ Final t f w ∨ ∃ q, (q, w) ∈ fs ∧ (q, f) ∈ corr) := by
  intro fs
  induction fs with
  | nil => intro t _ _ _; exact ⟨fun _ _ _ => Iff.rfl, rfl, by simp [extractFinals]⟩
  | cons e fs ih =>
    obtain ⟨q, w⟩ := e
    intro t hs hn hfree
    simp only [List.map_cons, List.nodup_cons] at hn
    rw [extractFinals]
    cases hq : mapFind q corr with
    | none =>
      have hno : ∀ f, (q, f) ∉ corr := by
        intro f hf
        rw [(mapFind_iff hc).2 hf] at hq
        cases hq
      obtain ⟨h1, h2, h3⟩ := ih t hs hn.2 (fun q' f v hm => hfree q' f v (by simp [hm]))
      refine ⟨h1, h2, ?_⟩
      intro f v
      rw [h3]
      refine or_congr_right ⟨?_, ?_⟩
      · rintro ⟨q', hm, hf⟩; exact ⟨q', by simp [hm], hf⟩
      · rintro ⟨q', hm, hf⟩
        rcases List.mem_cons.1 hm with hm | hm
        · cases hm; exact absurd hf (hno f)
        · exact ⟨q', hm, hf⟩
    | some p =>
      have hp := mapFind_mem hq
      have hfr : p ∉ t.finals.map (·.1) := by
        intro hm
        obtain ⟨⟨x, v⟩, hx, rfl⟩ := List.mem_map.1 hm
        exact hfree q x w (by simp) hp v hx
      have hmem : ∀ f v, Final (setFinal p w true t) f v ↔ (f = p ∧ v = w) ∨ Final t f v := by
        intro f v
        show (f, v) ∈ mapInsert p w t.finals ↔ _
        rw [mem_mapInsert hs]
        constructor
        · rintro (⟨h, -⟩ | h)
          · cases h; exact .inl ⟨rfl, rfl⟩
          · exact .inr h
        · rintro (⟨rfl, rfl⟩ | h)
          · exact .inl ⟨rfl, hfr⟩
          · exact .inr h
      obtain ⟨h1, h2, h3⟩ := ih (setFinal p w true t) (sorted_mapInsert hs _ _) hn.2 (by
        intro q' f v hm hf u hu
        rcases (hmem f u).1 hu with ⟨rfl, -⟩ | hu
        · obtain rfl := hinj _ _ _ hf hp
          exact hn.1 (List.mem_map.2 ⟨_, hm, rfl⟩)
        · exact hfree q' f v (by simp [hm]) hf u hu)
      refine ⟨h1, h2, ?_⟩
      intro f v
      rw [h3, hmem]
      constructor
      · rintro ((⟨rfl, rfl⟩ | h) | ⟨q', hm, hf⟩)
        · exact .inr ⟨q, by simp, hp⟩
        · exact .inl h
        · exact .inr ⟨q', by simp [hm], hf⟩
      · rintro (h | ⟨q', hm, hf⟩)
        · exact .inl (.inr h)
        · rcases List.mem_cons.1 hm with hm | hm
          · cases hm
            have : f = p := by
              have := (mapFind_iff hc).2 hf
              rw [hq] at this
              cases this; rfl
            exact .inl (.inl ⟨this, rfl⟩)
          · exact .inr ⟨q', hm, hf⟩

/-- The extracted transducer, related to the graph by `corr`. -/
structure Extracted (x : Compiler W) (type : Nat) (t : Transducer W) (corr : Int → Nat → Prop) (visited : Int → Prop) : Prop where
  start : corr x.start t.initial ∧ visited x.start
  fn : ∀ q f f', corr q f → corr q f' → f = f'
  inj : ∀ q q' f, corr q f → corr q' f → q = q'
  sound : ∀ f l d, Edge t f l d → ∃ q p, corr q f ∧ corr p d ∧ Kept x.graph type q l p
  complete : ∀ q a w p, visited q → Kept x.graph type q (a, w) p → visited p ∧ ∃ f d w', corr q f ∧ corr p d ∧ Edge t f (a, w') d
  finals : ∀ q f w, corr q f → (Final t f w ↔ (q, w) ∈ x.finals)

theorem extractTransducer_spec (type : Nat) (x : Compiler W) (hf : SortedKeys x.finals) :
    ∃ t corr visited, extractTransducer type x = .ok t ∧ Extracted x type t corr visited := by
  have hi : (Fst.empty : Transducer W).initial = 0 := rfl
  obtain ⟨s, e, hp, hv⟩ := extractFrom_spec x.graph type (x.graph.length + 1) x.start _ (empty_sound x.graph type x.start) ⟨0, by simp⟩ (by
    unfold left
    refine le_trans (List.countP_le_length) ?_
    simp)
  have hs := hp.sound
  have hnd : (x.finals.map (·.1)).Nodup := List.pairwise_map.2 (hf.imp fun h => ne_of_lt h)
  obtain ⟨f1, f2, f3⟩ := extractFinals_spec hs.corr hs.inj x.finals s.t (by rw [hs.nofinals]; simp [SortedKeys]) hnd (by
    intro q f w _ _ v hv
    rw [Final, hs.nofinals] at hv
    cases hv)
  refine ⟨extractFinals s.corr x.finals s.t, fun q f => (q, f) ∈ s.corr, fun q => q ∈ s.visited, ?_, ⟨⟨?_, hv⟩, ?_, hs.inj, ?_, ?_, ?_⟩⟩
  · rw [extractTransducer, hi, e]
    rfl
  · rw [f2, hs.initial]
    exact hp.grows.corr _ (by simp)
  · intro q f f' h h'
    have h1 := (mapFind_iff hs.corr).2 h
    rw [(mapFind_iff hs.corr).2 h'] at h1
    cases h1; rfl
  · intro f l d h
    exact hs.edges f l d ((f1 _ _ _).1 h)
  · rintro q a w p hq ⟨arc, ha, ht, rfl, rfl, rfl⟩
    obtain ⟨h1, f, d, w', h2, h3, h4⟩ := hp.done q hq (by simp) arc ha ht
    exact ⟨h1, f, d, w', h2, h3, (f1 _ _ _).2 h4⟩
  · intro q f w hq
    rw [f3]
    constructor
    · rintro (h | ⟨q', hm, hq'⟩)
      · rw [Final, hs.nofinals] at h
        cases h
      · obtain rfl := hs.inj _ _ _ hq hq'
        exact hm
    · intro h
      exact .inr ⟨q, h, hq⟩

end Verif.Att
