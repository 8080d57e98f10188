import Verif.Regex.Props

/-! # The labels of the transducer of a regular expression -/

namespace Verif.Regex

open Verif.Fst Verif.Alphabet

set_option linter.unusedSectionVars false

variable {W : Type} [Zero W]

/-- All labels of the table satisfy `K`, and all weights are zero. -/
def LabT (K : Int → Prop) (t : Transducer W) : Prop := (∀ e ∈ t.transitions, ∀ d ∈ e.2, K d.1 ∧ d.2.2 = 0) ∧ ∀ f ∈ t.finals, f.2 = 0

theorem LabT.mono {K K' : Int → Prop} {t : Transducer W} (h : LabT K t) (hk : ∀ c, K c → K' c) : LabT K' t :=
  ⟨fun e he d hd => ⟨hk _ (h.1 e he d hd).1, (h.1 e he d hd).2⟩, h.2⟩

theorem LabT.edge {K : Int → Prop} {t : Transducer W} (ht : WF t) (h : LabT K t) {q : Nat} {l : Int × W} {p : Nat} (he : Edge t q l p) : K l.1 ∧ l.2 = 0 :=
  h.1 _ (row_mem ht (ht.source_lt he)) _ he

theorem mem_modify' {ν : Type} {d : ν} {k : Nat} {f : ν → ν} {m : List (Nat × ν)} {e : Nat × ν} (h : e ∈ mapModify d k f m) :
    e ∈ m ∨ e.2 = f d ∨ ∃ e' ∈ m, e.2 = f e'.2 := by
  induction m with
  | nil =>
    simp only [mapModify, List.mem_singleton] at h
    exact .inr (.inl (by rw [h]))
  | cons x m ih =>
    obtain ⟨k', v'⟩ := x
    simp only [mapModify] at h
    split at h
    · rcases List.mem_cons.1 h with rfl | h
      · exact .inr (.inl rfl)
      · exact .inl h
    · split at h
      · rcases List.mem_cons.1 h with rfl | h
        · exact .inl (by simp)
        · rcases ih h with h | h | ⟨e', h1, h2⟩
          · exact .inl (List.mem_cons_of_mem _ h)
          · exact .inr (.inl h)
          · exact .inr (.inr ⟨e', List.mem_cons_of_mem _ h1, h2⟩)
      · rcases List.mem_cons.1 h with rfl | h
        · exact .inr (.inr ⟨(k', v'), by simp, rfl⟩)
        · exact .inl (List.mem_cons_of_mem _ h)

theorem mem_mapSet' {ν : Type} {v : ν} {k : Nat} {m : List (Nat × ν)} {e : Nat × ν} (h : e ∈ mapSet k v m) : e ∈ m ∨ e = (k, v) := by
  induction m with
  | nil =>
    simp only [mapSet, List.mem_singleton] at h
    exact .inr h
  | cons x m ih =>
    obtain ⟨k', v'⟩ := x
    simp only [mapSet] at h
    split at h
    · rcases List.mem_cons.1 h with rfl | h
      · exact .inr rfl
      · exact .inl h
    · split at h
      · rcases List.mem_cons.1 h with rfl | h
        · exact .inl (by simp)
        · rcases ih h with h | h
          · exact .inl (List.mem_cons_of_mem _ h)
          · exact .inr h
      · next h1 h2 =>
        rcases List.mem_cons.1 h with rfl | h
        · have : k' = k := by omega
          subst this; exact .inr rfl
        · exact .inl (List.mem_cons_of_mem _ h)

theorem mem_mapInsert' {ν : Type} {v : ν} {k : Nat} {m : List (Nat × ν)} {e : Nat × ν} (h : e ∈ mapInsert k v m) : e ∈ m ∨ e = (k, v) := by
  induction m with
  | nil =>
    simp only [mapInsert, List.mem_singleton] at h
    exact .inr h
  | cons x m ih =>
    obtain ⟨k', v'⟩ := x
    simp only [mapInsert] at h
    split at h
    · rcases List.mem_cons.1 h with rfl | h
      · exact .inr rfl
      · exact .inl h
    · split at h
      · rcases List.mem_cons.1 h with rfl | h
        · exact .inl (by simp)
        · exact (ih h).imp (List.mem_cons_of_mem _) id
      · exact .inl h

section
variable {K : Int → Prop} {t t' : Transducer W}

theorem labT_addArc (h : LabT K t) {c : Int} (hc : K c) (s p : Nat) {w : W} (hw : w = 0) : LabT K (addArc s c p w t) := by
  refine ⟨fun e he d hd => ?_, h.2⟩
  rcases mem_modify' he with he | he | ⟨e', he', he⟩
  · exact h.1 e he d hd
  · rw [he, mem_mmInsert] at hd
    rcases hd with rfl | hd
    · exact ⟨hc, hw⟩
    · simp at hd
  · rw [he, mem_mmInsert] at hd
    rcases hd with rfl | hd
    · exact ⟨hc, hw⟩
    · exact h.1 e' he' d hd

theorem labT_newState (h : LabT K t) : LabT K (newState t).2 := by
  refine ⟨fun e he d hd => ?_, h.2⟩
  rcases mem_mapSet' he with he | rfl
  · exact h.1 e he d hd
  · simp at hd

theorem labT_empty : LabT K (Fst.empty : Transducer W) := by
  refine ⟨fun e he d hd => ?_, fun f hf => by simp [Fst.empty, newState] at hf⟩
  simp [Fst.empty, newState, mapSet] at he
  rw [he] at hd
  simp at hd

theorem labT_insertNew (h : LabT K t) {c : Int} (hc : K c) (q : Nat) : LabT K (insertNewSingleTransduction c q 0 t).2 :=
  labT_addArc (labT_newState h) hc _ _ rfl

theorem labT_setFinal (h : LabT K t) (q : Nat) : LabT K (setFinal q 0 true t) := by
  refine ⟨h.1, fun f hf => ?_⟩
  rcases mem_mapInsert' (show f ∈ mapInsert q 0 t.finals from hf) with hf | rfl
  · exact h.2 f hf
  · rfl

theorem labT_unFinal (h : LabT K t) (fs : List (Nat × W)) (hf : ∀ f ∈ fs, f.2 = 0) : LabT K { t with finals := fs } := ⟨h.1, hf⟩

theorem labT_link (h : LabT K t) {c : Int} (hc : K c) {q p : Nat} {w : W} (hw : w = 0) (he : linkStates q p c w t = .ok t') : LabT K t' := by
  unfold linkStates at he
  split at he
  · split at he
    · cases he; exact h
    · cases he; exact labT_addArc h hc _ _ hw
  · cases he

theorem labT_linkFinals {c : Int} (hc : K c) (st : Nat) (fs : List (Nat × W)) (hfs : ∀ f ∈ fs, f.2 = 0) (h : LabT K t) (he : linkFinals st c fs t = .ok t') : LabT K t' := by
  induction fs generalizing t with
  | nil => cases he; exact h
  | cons f fs ih =>
    obtain ⟨t1, h1, h2⟩ := Res.bind_eq_ok.1 he
    exact ih (fun f hf => hfs f (List.mem_cons_of_mem _ hf)) (labT_link h hc (hfs f (by simp)) h1) h2

theorem labT_join (h : LabT K t) {c : Int} (hc : K c) (he : joinFinals c t = .ok t') : LabT K t' := by
  unfold joinFinals at he
  split at he
  · cases he
  · cases he; exact h
  · obtain ⟨t1, h1, h2⟩ := Res.bind_eq_ok.1 he
    cases h2
    exact labT_unFinal (labT_linkFinals hc _ _ h.2 (labT_newState h) h1) _ fun f hf => by
      simp only [mapInsert, List.mem_singleton] at hf
      rw [hf]

theorem labT_wrap (h : LabT K t) {c : Int} (hc : K c) {n : Nat} (he : wrap c t = .ok (n, t')) : LabT K t' := by
  unfold wrap at he
  obtain ⟨t1, h1, h2⟩ := Res.bind_eq_ok.1 he
  obtain ⟨t2, h3, h4⟩ := Res.bind_eq_ok.1 h2
  have l1 := labT_join h hc h1
  have l2 := labT_link (labT_newState l1) hc rfl h3
  have l3 : LabT K (newState { t2 with initial := (newState t1).1 }).2 := labT_newState l2
  simp only at h4
  split at h4
  · cases h4
  · next f w fs hfs =>
    have hfs : t2.finals = (f, w) :: fs := hfs
    obtain ⟨t3, h5, h6⟩ := Res.bind_eq_ok.1 h4
    cases h6
    exact labT_unFinal (labT_link l3 hc (l3.2 (f, w) (show (f, w) ∈ t2.finals by rw [hfs]; exact List.mem_cons_self)) h5) _ fun f hf => by
      simp [mapInsert] at hf
      rw [hf]

theorem labT_optional (h : LabT K t) {c : Int} (hc : K c) (he : optional c t = .ok t') : LabT K t' := by
  obtain ⟨⟨n, t1⟩, h1, h2⟩ := Res.bind_eq_ok.1 he
  exact labT_link (labT_wrap h hc h1) hc rfl h2

theorem labT_oneOrMore (h : LabT K t) {c : Int} (hc : K c) (he : oneOrMore c t = .ok t') : LabT K t' := by
  obtain ⟨⟨n, t1⟩, h1, h2⟩ := Res.bind_eq_ok.1 he
  exact labT_link (labT_wrap h hc h1) hc rfl h2

theorem labT_zeroOrMore (h : LabT K t) {c : Int} (hc : K c) (he : zeroOrMore c t = .ok t') : LabT K t' := by
  obtain ⟨t1, h1, h2⟩ := Res.bind_eq_ok.1 he
  exact labT_optional (labT_oneOrMore h hc h1) hc h2

theorem labT_newStates (ks : List Nat) (rel : List (Nat × Nat)) (h : LabT K t) : LabT K (newStates ks rel t).2 := by
  induction ks generalizing rel t with
  | nil => exact h
  | cons k ks ih => exact ih _ (labT_newState h)

theorem labT_copyArcs (rel : List (Nat × Nat)) (arcs : List (Nat × Int × Nat × W)) (ha : ∀ a ∈ arcs, K a.2.1 ∧ a.2.2.2 = 0) (h : LabT K t) :
    LabT K (copyArcs rel arcs t) := by
  induction arcs generalizing t with
  | nil => exact h
  | cons a arcs ih =>
    exact ih (fun x hx => ha x (List.mem_cons_of_mem _ hx)) (labT_addArc h (ha a (by simp)).1 _ _ (ha a (by simp)).2)

theorem labT_insert (h : LabT K t) {o o' : Transducer W} (ho : LabT K o) {c : Int} (hc : K c) {q r : Nat}
    (he : insertTransducer q o c t = .ok (r, t', o')) : LabT K t' := by
  unfold insertTransducer at he
  split at he
  · cases he; exact h
  · obtain ⟨o1, h1, h2⟩ := Res.bind_eq_ok.1 he
    have lo := labT_join ho hc h1
    simp only at h2
    split at h2
    · cases h2
    · cases h2
      refine labT_addArc (labT_copyArcs _ _ ?_ (labT_newStates _ _ h)) hc _ _ rfl
      intro a ha
      simp only [arcsOf, List.mem_flatMap, List.mem_map] at ha
      obtain ⟨e, he, d, hd, rfl⟩ := ha
      exact lo.1 e he d hd

end

/-- The label is the code of a symbol paired with itself. -/
def IdOf (a : Alphabet) (c : Int) : Prop := ∃ x, HasPair a c (x, x)

theorem IdOf.mono {a b : Alphabet} {c : Int} (h : IdOf a c) (he : Ext a b) : IdOf b c := h.imp fun _ hx => hx.mono he

/-- The alphabet got nothing but pairs of a symbol with itself. -/
structure Grows (a b : Alphabet) : Prop where
  ext : Ext a b
  tags : b.slexicinv = a.slexicinv
  pairs : ∀ p ∈ b.spairinv, p ∈ a.spairinv ∨ p.1 = p.2

theorem Grows.refl (a : Alphabet) : Grows a a := ⟨.refl a, rfl, fun _ h => .inl h⟩

theorem Grows.trans {a b c : Alphabet} (h : Grows a b) (h' : Grows b c) : Grows a c :=
  ⟨h.ext.trans h'.ext, h'.tags.trans h.tags, fun p hp => (h'.pairs p hp).elim (h.pairs p) .inr⟩

theorem pairCode_grows {a : Alphabet} (h : AOk a) (c : Int) : Grows a (a.pairCode c c).2 := by
  obtain ⟨-, h2, -, h4, -, h6⟩ := pairCode_spec h.ok c c
  refine ⟨h2, h4, fun p hp => ?_⟩
  rw [h6] at hp
  split at hp
  · exact .inl hp
  · rcases List.mem_append.1 hp with hp | hp
    · exact .inl hp
    · rw [List.mem_singleton] at hp
      subst hp
      exact .inr rfl

/-- What is kept by the functions of the compiler. -/
structure Lab (s s' : St W) : Prop where
  aok : AOk s'.alphabet
  grows : Grows s.alphabet s'.alphabet
  lab : LabT (IdOf s'.alphabet) s'.transducer

theorem Lab.ext {s s' : St W} (h : Lab s s') : Ext s.alphabet s'.alphabet := h.grows.ext

theorem Lab.trans {s s' s'' : St W} (h : Lab s s') (h' : Lab s' s'') : Lab s s'' := ⟨h'.aok, h.grows.trans h'.grows, h'.lab⟩

/-- Functions that touch neither the transducer nor the alphabet. -/
def Same (s s' : St W) : Prop := s'.transducer = s.transducer ∧ s'.alphabet = s.alphabet

theorem Same.trans {s s' s'' : St W} (h : Same s s') (h' : Same s' s'') : Same s s'' := ⟨h'.1.trans h.1, h'.2.trans h.2⟩

theorem same_consume {t : Int} {s s' : St W} (h : consume t s = .ok s') : Same s s' := by
  unfold consume at h
  split at h
  · split at h
    · cases h
    · cases h; exact ⟨rfl, rfl⟩
  · cases h

theorem same_reservado {s s' : St W} (h : reservado s = .ok s') : Same s s' := by
  unfold reservado at h
  split at h
  · exact same_consume h
  · cases h

theorem same_letra {s s' : St W} (h : letra s = .ok s') : Same s s' := by
  unfold letra at h
  split at h
  · exact (show Same s { s with letter := s.token } from ⟨rfl, rfl⟩).trans (same_consume h)
  · split at h
    · obtain ⟨s1, h1, h2⟩ := Res.bind_eq_ok.1 h
      exact ((same_consume h1).trans (show Same s1 { s1 with letter := s1.token } from ⟨rfl, rfl⟩)).trans (same_reservado h2)
    · cases h

theorem same_postop {s s' : St W} (h : postop s = .ok s') : Same s s' := by
  unfold postop at h
  split at h
  · obtain ⟨s1, h1, h2⟩ := Res.bind_eq_ok.1 h
    cases h2; exact (same_consume h1 : Same s s1)
  · split at h
    · obtain ⟨s1, h1, h2⟩ := Res.bind_eq_ok.1 h
      cases h2; exact (same_consume h1 : Same s s1)
    · split at h
      · obtain ⟨s1, h1, h2⟩ := Res.bind_eq_ok.1 h
        cases h2; exact (same_consume h1 : Same s s1)
      · split at h
        · cases h; exact ⟨rfl, rfl⟩
        · cases h

theorem same_elem {s s' : St W} (h : elem s = .ok s') : Same s s' := by
  unfold elem at h
  split at h
  · obtain ⟨s1, h1, h2⟩ := Res.bind_eq_ok.1 h
    obtain ⟨s2, h3, h4⟩ := Res.bind_eq_ok.1 h2
    refine (same_letra h1).trans (Same.trans (s' := s2) ?_ ?_)
    · unfold colaLetra at h3
      split at h3
      · obtain ⟨s3, h5, h6⟩ := Res.bind_eq_ok.1 h3
        exact (same_consume h5).trans (same_letra h6)
      · split at h3
        · cases h3; exact ⟨rfl, rfl⟩
        · cases h3
    · simp only at h4
      split at h4
      · cases h4
      · split at h4
        · cases h4
        · cases h4; exact ⟨rfl, rfl⟩
  · cases h

theorem same_lista (fuel : Nat) {s s' : St W} (h : lista fuel s = .ok s') : Same s s' := by
  induction fuel generalizing s with
  | zero => cases h
  | succ n ih =>
    unfold lista at h
    split at h
    · obtain ⟨s1, h1, h2⟩ := Res.bind_eq_ok.1 h
      exact (same_elem h1).trans (ih h2)
    · split at h
      · cases h; exact ⟨rfl, rfl⟩
      · cases h

theorem Same.lab {s s' : St W} (h : Same s s') (ha : AOk s.alphabet) (hl : LabT (IdOf s.alphabet) s.transducer) : Lab s s' := by
  refine ⟨?_, ?_, ?_⟩
  · rw [h.2]; exact ha
  · rw [h.2]; exact .refl _
  · rw [h.1, h.2]; exact hl


theorem idOf_zero {a : Alphabet} (h : AOk a) : IdOf a (a.pairCode 0 0).1 := by rw [pc00 h]; exact ⟨0, h.eps⟩

theorem labT_postop {K : Int → Prop} {op : Int} {a : Alphabet} {t t' : Transducer W} (hc : K (a.pairCode 0 0).1) (h : LabT K t)
    (he : applyPostop op a t = .ok t') : LabT K t' := by
  unfold applyPostop at he
  split at he
  · exact labT_zeroOrMore h hc he
  · split at he
    · exact labT_oneOrMore h hc he
    · split at he
      · exact labT_optional h hc he
      · cases he; exact h

theorem lab_classLoop (is : List Int) (a : Alphabet) (t : Transducer W) (ha : AOk a) (h : LabT (IdOf a) t) :
    AOk (classLoop is a t).1 ∧ Grows a (classLoop is a t).1 ∧ LabT (IdOf (classLoop is a t).1) (classLoop is a t).2 := by
  induction is generalizing a t with
  | nil => exact ⟨ha, .refl _, h⟩
  | cons i is ih =>
    rw [classLoop]
    simp only [pc00 ha]
    obtain ⟨p1, p2, p3⟩ := pairCode_aok ha i
    have l1 := labT_insertNew (c := 0) h ⟨0, ha.eps⟩ t.initial
    have l2 := labT_insertNew (K := IdOf (a.pairCode i i).2) (c := (a.pairCode i i).1) (l1.mono fun c hc => hc.mono p2) ⟨i, p3⟩
      (insertNewSingleTransduction 0 t.initial 0 t).1
    obtain ⟨h1, h2, h3⟩ := ih (a.pairCode i i).2 _ p1 (labT_setFinal l2
      (insertNewSingleTransduction (a.pairCode i i).1 (insertNewSingleTransduction 0 t.initial 0 t).1 0 (insertNewSingleTransduction 0 t.initial 0 t).2).1)
    exact ⟨h1, (pairCode_grows ha i).trans h2, h3⟩

theorem lab_finishClass {ms : List Int} {s s' : St W} (ha : AOk s.alphabet) (hl : LabT (IdOf s.alphabet) s.transducer)
    (h : finishClass ms s = .ok s') : Lab s s' := by
  unfold finishClass at h
  obtain ⟨c1, c2, c3⟩ := lab_classLoop ms s.alphabet (Fst.empty : Transducer W) ha labT_empty
  generalize classLoop ms s.alphabet (Fst.empty : Transducer W) = cl at c1 c2 c3 h
  obtain ⟨a, t⟩ := cl
  simp only at c1 c2 c3 h
  rw [pc00 c1] at h
  simp only at h
  have k0 : IdOf a 0 := ⟨0, c1.eps⟩
  obtain ⟨t1, h1, h2⟩ := Res.bind_eq_ok.1 h
  obtain ⟨t2, h3, h4⟩ := Res.bind_eq_ok.1 h2
  obtain ⟨⟨r, t3, o⟩, h5, h6⟩ := Res.bind_eq_ok.1 h4
  cases h6
  exact ⟨c1, c2, labT_insert (hl.mono fun c hc => hc.mono c2.ext) (labT_postop (by rw [pc00 c1]; exact k0) (labT_join c3 k0 h1) h3) k0 h5⟩

theorem lab_esp {s s' : St W} (ha : AOk s.alphabet) (hl : LabT (IdOf s.alphabet) s.transducer) (h : esp s = .ok s') : Lab s s' := by
  have key : ∀ (s0 : St W) (f : St W → List Int), Same s s0 → (do
      let s ← lista (s0.input.length + 1) s0
      let s ← consume 93 s
      let s ← postop s
      finishClass (f s) s) = .ok s' → Lab s s' := by
    intro s0 f h0 h
    obtain ⟨s1, h1, h2⟩ := Res.bind_eq_ok.1 h
    obtain ⟨s2, h3, h4⟩ := Res.bind_eq_ok.1 h2
    obtain ⟨s3, h5, h6⟩ := Res.bind_eq_ok.1 h4
    have hs := ((h0.trans (same_lista _ h1)).trans (same_consume h3)).trans (same_postop h5)
    have l1 := hs.lab ha hl
    exact l1.trans (lab_finishClass l1.aok l1.lab h6)
  unfold esp at h
  split at h
  · exact key s (fun s => s.brackets) ⟨rfl, rfl⟩ h
  · split at h
    · obtain ⟨s1, h1, h2⟩ := Res.bind_eq_ok.1 h
      exact key s1 (fun s => ((List.range 256).map fun (i : Nat) => (i : Int)).filter (fun i => i ∉ s.brackets)) (same_consume h1) h2
    · cases h

theorem lab_termLetter {s s' : St W} (ha : AOk s.alphabet) (hl : LabT (IdOf s.alphabet) s.transducer) (h : termLetter s = .ok s') : Lab s s' := by
  unfold termLetter at h
  obtain ⟨s1, h1, h2⟩ := Res.bind_eq_ok.1 h
  have e1 := (same_letra h1).lab ha hl
  obtain ⟨p1, p2, p3⟩ := pairCode_aok e1.aok s1.letter
  simp only at h2
  obtain ⟨s2, h3, h4⟩ := Res.bind_eq_ok.1 h2
  obtain ⟨t1, h5, h6⟩ := Res.bind_eq_ok.1 h4
  rw [pc00 p1] at h6
  simp only at h6
  obtain ⟨⟨r, t3, o⟩, h7, h8⟩ := Res.bind_eq_ok.1 h6
  cases h8
  have hs2 := same_postop h3
  have k0 : IdOf (s1.alphabet.pairCode s1.letter s1.letter).2 0 := ⟨0, p1.eps⟩
  refine ⟨p1, e1.grows.trans (pairCode_grows e1.aok s1.letter), labT_insert ?_ (labT_postop (by rw [pc00 p1]; exact k0)
    (labT_setFinal (labT_insertNew labT_empty ⟨_, p3⟩ _) _) h5) k0 h7⟩
  rw [hs2.1]
  exact e1.lab.mono fun c hc => hc.mono p2

theorem lab_endGroup {t : Transducer W} {e : Nat} {s s' : St W} (ha : AOk s.alphabet) (hl : LabT (IdOf s.alphabet) s.transducer)
    (ht : LabT (IdOf s.alphabet) t) (h : endGroup t e s = .ok s') : Lab s s' := by
  unfold endGroup at h
  obtain ⟨s1, h1, h2⟩ := Res.bind_eq_ok.1 h
  have e1 := (same_consume h1).lab ha hl
  simp only at h2
  obtain ⟨s2, h3, h4⟩ := Res.bind_eq_ok.1 h2
  have e2 := (same_postop h3).lab e1.aok e1.lab
  obtain ⟨t1, h5, h6⟩ := Res.bind_eq_ok.1 h4
  rw [pc00 e2.aok] at h6
  simp only at h6
  obtain ⟨⟨r, t3, o⟩, h7, h8⟩ := Res.bind_eq_ok.1 h6
  cases h8
  have k0 : IdOf s2.alphabet 0 := ⟨0, e2.aok.eps⟩
  have ex := e1.grows.trans e2.grows
  exact ⟨e2.aok, ex, labT_insert (ht.mono fun c hc => hc.mono ex.ext) (labT_postop (by rw [pc00 e2.aok]; exact k0)
    (labT_setFinal (e1.lab.mono fun c hc => hc.mono e2.ext) _) h5) k0 h7⟩

theorem lab_endAlternative {e : Nat} {s s' : St W} (ha : AOk s.alphabet) (hl : LabT (IdOf s.alphabet) s.transducer)
    (h : endAlternative e s = .ok s') : Lab s s' := by
  unfold endAlternative at h
  rw [pc00 ha] at h
  simp only at h
  obtain ⟨t1, h1, h2⟩ := Res.bind_eq_ok.1 h
  cases h2
  have k0 : IdOf s.alphabet 0 := ⟨0, ha.eps⟩
  exact ⟨ha, .refl _, labT_link (labT_insertNew hl k0 _) k0 rfl h1⟩

theorem lab_all (fuel : Nat) :
    (∀ s s' : St W, AOk s.alphabet → LabT (IdOf s.alphabet) s.transducer → S fuel s = .ok s' → Lab s s') ∧
    (∀ s s' : St W, AOk s.alphabet → LabT (IdOf s.alphabet) s.transducer → rExpr fuel s = .ok s' → Lab s s') ∧
    (∀ s s' : St W, AOk s.alphabet → LabT (IdOf s.alphabet) s.transducer → cola fuel s = .ok s' → Lab s s') ∧
    (∀ s s' : St W, AOk s.alphabet → LabT (IdOf s.alphabet) s.transducer → term fuel s = .ok s' → Lab s s') ∧
    (∀ s s' : St W, AOk s.alphabet → LabT (IdOf s.alphabet) s.transducer → rExprp fuel s = .ok s' → Lab s s') := by
  induction fuel with
  | zero => refine ⟨?_, ?_, ?_, ?_, ?_⟩ <;> (intro _ _ _ _ h; cases h)
  | succ n ih =>
    obtain ⟨iS, iR, iC, iT, iP⟩ := ih
    refine ⟨fun s s' ha hl h => ?_, fun s s' ha hl h => ?_, fun s s' ha hl h => ?_, fun s s' ha hl h => ?_, fun s s' ha hl h => ?_⟩
    · rw [S] at h
      split at h
      · obtain ⟨s1, h1, h2⟩ := Res.bind_eq_ok.1 h
        have l1 := iR _ _ ha hl h1
        exact l1.trans (iC _ _ l1.aok l1.lab h2)
      · cases h
    · rw [rExpr] at h
      split at h
      · obtain ⟨s1, h1, h2⟩ := Res.bind_eq_ok.1 h
        have l1 := iT _ _ ha hl h1
        exact l1.trans (iP _ _ l1.aok l1.lab h2)
      · cases h
    · rw [cola] at h
      split at h
      · cases h; exact ⟨ha, .refl _, hl⟩
      · split at h
        · obtain ⟨s1, h1, h2⟩ := Res.bind_eq_ok.1 h
          obtain ⟨s2, h3, h4⟩ := Res.bind_eq_ok.1 h2
          obtain ⟨s3, h5, h6⟩ := Res.bind_eq_ok.1 h4
          have l1 : Lab s s1 := Same.lab ((show Same s { s with state := s.transducer.initial } from ⟨rfl, rfl⟩).trans (same_consume h1)) ha hl
          have l2 := iR _ _ l1.aok l1.lab h3
          have l3 := iC _ _ l2.aok l2.lab h5
          exact ((l1.trans l2).trans l3).trans (lab_endAlternative l3.aok l3.lab h6)
        · cases h
    · rw [term] at h
      split at h
      · exact lab_termLetter ha hl h
      · split at h
        · obtain ⟨s1, h1, h2⟩ := Res.bind_eq_ok.1 h
          obtain ⟨s2, h3, h4⟩ := Res.bind_eq_ok.1 h2
          have e1 := same_consume h1
          have a1 : s1.alphabet = s.alphabet := e1.2
          have t1 : s1.transducer = (Fst.empty : Transducer W) := e1.1
          have l2 := iS _ _ (by rw [a1]; exact ha) (by rw [t1]; exact labT_empty) h3
          have ex : Grows s.alphabet s2.alphabet := by rw [← a1]; exact l2.grows
          have l3 := lab_endGroup l2.aok l2.lab (hl.mono fun c hc => hc.mono ex.ext) h4
          exact ⟨l3.aok, ex.trans l3.grows, l3.lab⟩
        · split at h
          · obtain ⟨s1, h1, h2⟩ := Res.bind_eq_ok.1 h
            have l1 := (same_consume h1).lab ha hl
            exact l1.trans (lab_esp l1.aok l1.lab h2)
          · cases h
    · rw [rExprp] at h
      split at h
      · obtain ⟨s1, h1, h2⟩ := Res.bind_eq_ok.1 h
        have l1 := iT _ _ ha hl h1
        exact l1.trans (iP _ _ l1.aok l1.lab h2)
      · split at h
        · cases h; exact ⟨ha, .refl _, hl⟩
        · cases h

/-- All labels of a compiled expression are codes of symbols paired with themselves. -/
theorem compile_labels {a : Alphabet} (ha : AOk a) {er : List Int} {s' : St W} (h : compile er (initialise a) = .ok s') :
    AOk s'.alphabet ∧ Grows a s'.alphabet ∧ LabT (IdOf s'.alphabet) s'.transducer := by
  unfold compile at h
  split at h
  · cases h
  · obtain ⟨s1, h1, h2⟩ := Res.bind_eq_ok.1 h
    cases h2
    have := (lab_all (W := W) _).1 _ s1 ha labT_empty h1
    exact ⟨this.aok, this.grows, labT_setFinal this.lab _⟩

/-! ## Valid expressions denote something -/

theorem Post.apply_some {α : Type} (p : Post) {L : List α → Prop} {u : List α} (h : L u) : p.Apply L u := by
  cases p with
  | none => exact h
  | star => exact ⟨[u], by simpa using h, by simp⟩
  | plus => exact ⟨[u], by simp, by simpa using h, by simp⟩
  | opt => exact .inr h

mutual
theorem Term.some_means (T : Term) (h : T.Valid) : ∃ u, T.Means latinOthers u := by
  cases T with
  | letter c p => exact ⟨sym c, by simp only [Term.Means]; exact p.apply_some rfl⟩
  | cls neg items p =>
    obtain ⟨-, c, hc⟩ := h
    exact ⟨sym c, by simp only [Term.Means]; exact p.apply_some ⟨c, hc, rfl⟩⟩
  | group e p =>
    obtain ⟨u, hu⟩ := Alt.some_means e h
    exact ⟨u, by simp only [Term.Means]; exact p.apply_some hu⟩
theorem Seq.some_means (Q : Seq) (h : Q.Valid) : ∃ u, Q.Means latinOthers u := by
  cases Q with
  | one t => exact Term.some_means t h
  | more t s =>
    obtain ⟨v, hv⟩ := Term.some_means t h.1
    obtain ⟨w, hw⟩ := Seq.some_means s h.2
    exact ⟨v ++ w, by simp only [Seq.Means]; exact ⟨v, w, hv, hw, rfl⟩⟩
theorem Alt.some_means (A : Alt) (h : A.Valid) : ∃ u, A.Means latinOthers u := by
  cases A with
  | one s => exact Seq.some_means s h
  | more s a =>
    obtain ⟨v, hv⟩ := Seq.some_means s h.1
    exact ⟨v, by simp only [Alt.Means]; exact .inl hv⟩
end

end Verif.Regex
