import Verif.Transducer.Lemmas

/-! # joinFinals, optional, oneOrMore, insertTransducer: the arcs they create -/

namespace Verif.Fst

variable {W : Type}

/-! ## joinFinals -/

theorem linkFinals_spec (n : Nat) (ε : Int) (fs : List (Nat × W)) (t : Transducer W) (h : WF t) (hn : n < size t)
    (hs : SortedKeys fs) (hlt : ∀ e ∈ fs, e.1 < size t) (hno : ∀ e ∈ fs, ∀ l, ¬ Edge t e.1 l n) :
    ∃ t', linkFinals n ε fs t = .ok t' ∧ WF t' ∧ size t' = size t ∧ t'.initial = t.initial ∧ t'.finals = t.finals ∧
      ∀ q l p, Edge t' q l p ↔ Edge t q l p ∨ (p = n ∧ l.1 = ε ∧ (q, l.2) ∈ fs) := by
  induction fs generalizing t with
  | nil => exact ⟨t, rfl, h, rfl, rfl, rfl, by simp⟩
  | cons e fs ih =>
    obtain ⟨f, w⟩ := e
    have hs' := List.pairwise_cons.mp hs
    have hf : f < size t := hlt (f, w) (by simp)
    have h1 := linkStates_new h hf hn ε w (fun v => hno (f, w) (by simp) (ε, v))
    have hsz := addArc_size h hf ε n w
    obtain ⟨t', ht', hwf, hsz', hi, hfi, hE⟩ := ih (addArc f ε n w t) (addArc_wf h hf ε hn w) (by omega) hs'.2
      (fun e he => by rw [hsz]; exact hlt e (List.mem_cons_of_mem _ he))
      (fun e he l hl => by
        rw [addArc_edge h] at hl
        rcases hl with hl | ⟨hl, -⟩
        · exact hno e (List.mem_cons_of_mem _ he) l hl
        · have := hs'.1 e he
          simp only at this; omega)
    refine ⟨t', by rw [linkFinals, h1]; exact ht', hwf, by omega, hi, hfi, ?_⟩
    intro q l p
    obtain ⟨a, v⟩ := l
    rw [hE, addArc_edge h]
    simp only [Prod.mk.injEq, List.mem_cons]
    constructor
    · rintro ((h | ⟨h1, ⟨h2, h3⟩, h4⟩) | ⟨h1, h2, h3⟩)
      · exact .inl h
      · exact .inr ⟨h4, h2, .inl ⟨h1, h3⟩⟩
      · exact .inr ⟨h1, h2, .inr h3⟩
    · rintro (h | ⟨h1, h2, h3 | h3⟩)
      · exact .inl (.inl h)
      · exact .inl (.inr ⟨h3.1, ⟨h2, h3.2⟩, h1⟩)
      · exact .inr ⟨h1, h2, h3⟩

/-- A well-formed transducer stays so when only its final states are replaced by one state. -/
theorem WF.setFinals {t : Transducer W} (h : WF t) {f : Nat} (hf : f < size t) (w : W) :
    WF { t with finals := [(f, w)] } :=
  ⟨h.keys, h.rows, h.initial_lt, h.target_lt, by simp [SortedKeys], by
    intro p v hp
    simp only [Final, List.mem_singleton, Prod.mk.injEq] at hp
    have : p = f := hp.1
    subst this; exact hf⟩

theorem WF.setInitial {t : Transducer W} (h : WF t) {i : Nat} (hi : i < size t) : WF { t with initial := i } :=
  ⟨h.keys, h.rows, hi, h.target_lt, h.finals_sorted, h.finals_lt⟩

variable [Zero W]

theorem joinFinals_many {t : Transducer W} (h : WF t) (ε : Int) (h2 : 2 ≤ t.finals.length) :
    ∃ t', joinFinals ε t = .ok t' ∧ WF t' ∧ size t' = size t + 1 ∧ t'.initial = t.initial ∧
      t'.finals = [(size t, 0)] ∧
      ∀ q l p, Edge t' q l p ↔ Edge t q l p ∨ (p = size t ∧ l.1 = ε ∧ Final t q l.2) := by
  have hsz := newState_size h
  obtain ⟨t', ht', hwf, hsz', hi, hfi, hE⟩ := linkFinals_spec (size t) ε t.finals (newState t).2 (newState_wf h)
    (by omega) h.finals_sorted (fun e he => by have := h.finals_lt e.1 e.2 he; omega)
    (fun e _ l hl => by
      rw [newState_edge h] at hl
      have := h.target_lt _ _ _ hl; omega)
  refine ⟨{ t' with finals := [(size t, 0)] }, ?_, hwf.setFinals (by omega) 0, by simp only [size] at *; omega,
    hi, rfl, ?_⟩
  · obtain ⟨e1, e2, fs, hfs⟩ : ∃ e1 e2 fs, t.finals = e1 :: e2 :: fs := by
      match hf : t.finals with
      | [] => simp [hf] at h2
      | [_] => simp [hf] at h2
      | e1 :: e2 :: fs => exact ⟨e1, e2, fs, rfl⟩
    rw [joinFinals, hfs]
    simp only [newState_fst h, ← hfs, ht']
    rfl
  · intro q l p
    have := hE q l p
    rw [newState_edge h] at this
    exact this

theorem joinFinals_single (ε : Int) {t : Transducer W} {e : Nat × W} (h : t.finals = [e]) : joinFinals ε t = .ok t := by
  rw [joinFinals, h]

theorem joinFinals_none (ε : Int) {t : Transducer W} (h : t.finals = []) : joinFinals ε t = .exit := by
  rw [joinFinals, h]

/-- Paths when arcs into one fresh state are added. -/
theorem path_sink {S L : Type} {E E' : S → L → S → Prop} {G : S → L → Prop} {n : S}
    (hE : ∀ q l p, E' q l p ↔ E q l p ∨ (p = n ∧ G q l))
    (hout : ∀ l p, ¬ E n l p) (hG : ∀ l, ¬ G n l) (hin : ∀ q l, ¬ E q l n) {q p : S} {ls : List L} (hq : q ≠ n) :
    Path E' q ls p ↔ (p ≠ n ∧ Path E q ls p) ∨ (p = n ∧ ∃ ls0 r l, Path E q ls0 r ∧ G r l ∧ ls = ls0 ++ [l]) := by
  constructor
  · intro h
    induction h with
    | nil q => exact .inl ⟨hq, .nil q⟩
    | @cons q r p l ls he hp ih =>
      rcases (hE _ _ _).mp he with he | ⟨he, hg⟩
      · have hr : r ≠ n := fun hr => hin q l (hr ▸ he)
        rcases ih hr with ⟨h1, h2⟩ | ⟨h1, ls0, r', l', h2, h3, h4⟩
        · exact .inl ⟨h1, .cons he h2⟩
        · exact .inr ⟨h1, l :: ls0, r', l', .cons he h2, h3, by simp [h4]⟩
      · subst he
        cases hp with
        | nil => exact .inr ⟨rfl, [], q, l, .nil q, hg, rfl⟩
        | cons he' _ =>
          exfalso
          rcases (hE _ _ _).mp he' with he' | ⟨-, he'⟩
          · exact hout _ _ he'
          · exact hG _ he'
  · rintro (⟨-, h⟩ | ⟨h1, ls0, r, l, h2, h3, h4⟩)
    · exact h.mono (fun q l p he => (hE _ _ _).mpr (.inl he))
    · subst h4 h1
      exact (h2.mono (fun q l p he => (hE _ _ _).mpr (.inl he))).append (.single ((hE _ _ _).mpr (.inr ⟨rfl, h3⟩)))

omit [Zero W] in
theorem no_edge_out {t : Transducer W} (h : WF t) {n : Nat} (hn : size t ≤ n) (l : Int × W) (p : Nat) :
    ¬ Edge t n l p := fun he => by have := h.source_lt he; omega

omit [Zero W] in
theorem no_edge_in {t : Transducer W} (h : WF t) {n : Nat} (hn : size t ≤ n) (q : Nat) (l : Int × W) :
    ¬ Edge t q l n := fun he => by have := h.target_lt _ _ _ he; omega

theorem joinFinals_langFrom [DecidableEq W] {t t' : Transducer W} (h : WF t) (ε : Int) (h2 : 2 ≤ t.finals.length)
    (ht : joinFinals ε t = .ok t') {q : Nat} (hq : q < size t) (w : List (Int × W)) :
    LangFrom ε t' q w ↔ LangFrom ε t q w := by
  obtain ⟨t1, ht1, hwf, hsz, hi, hf, hE⟩ := joinFinals_many h ε h2
  rw [ht] at ht1
  cases ht1
  have hps := fun (p : Nat) (ls : List (Int × W)) => path_sink (E := Edge t) (E' := Edge t')
    (G := fun q l => l.1 = ε ∧ Final t q l.2) (n := size t) hE (fun l p => no_edge_out h (le_refl _) l p)
    (fun l hl => by have := h.finals_lt _ _ hl.2; omega) (fun q l => no_edge_in h (le_refl _) q l)
    (q := q) (p := p) (ls := ls) (by omega)
  constructor
  · rintro ⟨ls, p, fw, hp, hfin, rfl⟩
    simp only [Final, hf, List.mem_singleton, Prod.mk.injEq] at hfin
    obtain ⟨rfl, rfl⟩ := hfin
    rcases (hps _ _).mp hp with ⟨hne, -⟩ | ⟨-, ls0, r, l, h1, ⟨h3, h4⟩, rfl⟩
    · exact absurd rfl hne
    · exact ⟨ls0, r, l.2, h1, h4, by rw [visible_append_eps, ← h3]⟩
  · rintro ⟨ls, p, fw, hp, hfin, rfl⟩
    refine ⟨ls ++ [(ε, fw)], size t, 0, (hps _ _).mpr (.inr ⟨rfl, ls, p, (ε, fw), hp, ⟨rfl, hfin⟩, rfl⟩), ?_, ?_⟩
    · simp [Final, hf]
    · rw [visible_append_eps]

/-- Everything later proofs need about `joinFinals`. -/
theorem joinFinals_spec [DecidableEq W] {t : Transducer W} (h : WF t) (ε : Int) (hf : t.finals ≠ []) :
    ∃ t' f fw, joinFinals ε t = .ok t' ∧ WF t' ∧ t'.initial = t.initial ∧ t'.finals = [(f, fw)] ∧
      size t ≤ size t' ∧ (2 ≤ t.finals.length → fw = 0) ∧ (t.finals.length = 1 → t' = t) ∧
      ∀ q < size t, ∀ w, LangFrom ε t' q w ↔ LangFrom ε t q w := by
  match hfs : t.finals with
  | [] => exact absurd hfs hf
  | [e] =>
    exact ⟨t, e.1, e.2, joinFinals_single ε hfs, h, rfl, hfs, le_refl _, by simp, fun _ => rfl,
      fun _ _ _ => Iff.rfl⟩
  | e1 :: e2 :: fs =>
    have h2 : 2 ≤ t.finals.length := by simp [hfs]
    obtain ⟨t', ht', hwf, hsz, hi, hfi, -⟩ := joinFinals_many h ε h2
    exact ⟨t', _, _, ht', hwf, hi, hfi, by omega, fun _ => rfl, by simp,
      fun q hq w => joinFinals_langFrom h ε h2 ht' hq w⟩

/-! ## The frame around a transducer made by optional and oneOrMore -/

omit [Zero W] in
theorem mapInsert_nil (k : Nat) (v : W) : mapInsert k v [] = [(k, v)] := rfl

theorem wrap_spec {t : Transducer W} (h : WF t) (ε : Int) {f : Nat} {fw : W} (hf : t.finals = [(f, fw)]) :
    ∃ t', wrap ε t = .ok (size t + 1, t') ∧ WF t' ∧ size t' = size t + 2 ∧ t'.initial = size t ∧
      t'.finals = [(size t + 1, 0)] ∧
      ∀ q l p, Edge t' q l p ↔ Edge t q l p ∨ (q = size t ∧ l = (ε, 0) ∧ p = t.initial) ∨
        (q = f ∧ l = (ε, fw) ∧ p = size t + 1) := by
  have hflt : f < size t := h.finals_lt f fw (by simp [Final, hf])
  have hilt := h.initial_lt
  have h1 := newState_wf h
  have s1 := newState_size h
  have n1 := newState_fst h
  have e1 := newState_edge h
  have hl1 := linkStates_new h1 (s := size t) (p := t.initial) (by omega) (by omega) ε 0
    (fun v hv => by rw [e1] at hv; exact no_edge_out h (le_refl _) _ _ hv)
  have h2 := addArc_wf h1 (s := size t) (by omega) ε (p := t.initial) (by omega) 0
  have s2 := addArc_size h1 (s := size t) (by omega) ε t.initial 0
  have e2 := addArc_edge h1 (size t) ε t.initial 0
  have h3 := h2.setInitial (i := size t) (by omega)
  generalize ht3 : ({ addArc (size t) ε t.initial 0 (newState t).2 with initial := size t } : Transducer W) = t3
    at h3
  have s3 : size t3 = size t + 1 := by rw [← ht3]; simp only [size] at *; omega
  have e3 : ∀ q l p, Edge t3 q l p ↔ Edge t q l p ∨ (q = size t ∧ l = (ε, 0) ∧ p = t.initial) := by
    intro q l p
    rw [← ht3, ← e1]
    exact e2 q l p
  have f3 : t3.finals = [(f, fw)] := by rw [← ht3]; exact hf
  have i3 : t3.initial = size t := by rw [← ht3]
  have h4 := newState_wf h3
  have s4 := newState_size h3
  have n4 := newState_fst h3
  have e4 := newState_edge h3
  have hl4 := linkStates_new h4 (s := f) (p := size t + 1) (by omega) (by omega) ε fw
    (fun v hv => by rw [e4] at hv; exact no_edge_in h3 (by omega) _ _ hv)
  have h5 := addArc_wf h4 (s := f) (by omega) ε (p := size t + 1) (by omega) fw
  have s5 := addArc_size h4 (s := f) (by omega) ε (size t + 1) fw
  have e5 := addArc_edge h4 f ε (size t + 1) fw
  refine ⟨{ addArc f ε (size t + 1) fw (newState t3).2 with finals := [(size t + 1, 0)] }, ?_,
    h5.setFinals (by omega) 0, by simp only [size] at *; omega, i3, rfl, ?_⟩
  · have hj := joinFinals_single ε hf
    simp only [wrap, hj, Res.bind_ok, n1, newState_initial, hl1]
    rw [show ({ addArc (size t) ε t.initial 0 (newState t).2 with initial := size t } : Transducer W) = t3 from ht3]
    simp only [newState_finals, f3, n4, s3, hl4]
    rfl
  · intro q l p
    have := e5 q l p
    rw [e4, e3, or_assoc] at this
    exact this

theorem optional_spec {t : Transducer W} (h : WF t) (ε : Int) {f : Nat} {fw : W} (hf : t.finals = [(f, fw)]) :
    ∃ t', optional ε t = .ok t' ∧ WF t' ∧ size t' = size t + 2 ∧ t'.initial = size t ∧
      t'.finals = [(size t + 1, 0)] ∧
      ∀ q l p, Edge t' q l p ↔ Edge t q l p ∨ (q = size t ∧ l = (ε, 0) ∧ p = t.initial) ∨
        (q = f ∧ l = (ε, fw) ∧ p = size t + 1) ∨ (q = size t ∧ l = (ε, 0) ∧ p = size t + 1) := by
  obtain ⟨t1, ht1, hwf, hsz, hi, hfi, hE⟩ := wrap_spec h ε hf
  have hflt : f < size t := h.finals_lt f fw (by simp [Final, hf])
  have hilt := h.initial_lt
  have hl := linkStates_new hwf (s := size t) (p := size t + 1) (by omega) (by omega) ε 0 (fun v hv => by
    rw [hE] at hv
    rcases hv with hv | ⟨-, -, hv⟩ | ⟨hv, -⟩
    · exact no_edge_out h (le_refl _) _ _ hv
    · omega
    · omega)
  refine ⟨addArc (size t) ε (size t + 1) 0 t1, ?_, addArc_wf hwf (by omega) ε (by omega) 0,
    (addArc_size hwf (by omega) _ _ _).trans hsz, hi, hfi, ?_⟩
  · simp only [optional, ht1, Res.bind_ok, hi]; exact hl
  · intro q l p
    rw [addArc_edge hwf, hE]
    tauto

theorem oneOrMore_spec {t : Transducer W} (h : WF t) (ε : Int) {f : Nat} {fw : W} (hf : t.finals = [(f, fw)]) :
    ∃ t', oneOrMore ε t = .ok t' ∧ WF t' ∧ size t' = size t + 2 ∧ t'.initial = size t ∧
      t'.finals = [(size t + 1, 0)] ∧
      ∀ q l p, Edge t' q l p ↔ Edge t q l p ∨ (q = size t ∧ l = (ε, 0) ∧ p = t.initial) ∨
        (q = f ∧ l = (ε, fw) ∧ p = size t + 1) ∨ (q = size t + 1 ∧ l = (ε, 0) ∧ p = size t) := by
  obtain ⟨t1, ht1, hwf, hsz, hi, hfi, hE⟩ := wrap_spec h ε hf
  have hflt : f < size t := h.finals_lt f fw (by simp [Final, hf])
  have hilt := h.initial_lt
  have hl := linkStates_new hwf (s := size t + 1) (p := size t) (by omega) (by omega) ε 0 (fun v hv => by
    rw [hE] at hv
    rcases hv with hv | ⟨hv, -⟩ | ⟨hv, -⟩
    · exact no_edge_out h (Nat.le_succ _) _ _ hv
    · omega
    · omega)
  refine ⟨addArc (size t + 1) ε (size t) 0 t1, ?_, addArc_wf hwf (by omega) ε (by omega) 0,
    (addArc_size hwf (by omega) _ _ _).trans hsz, hi, hfi, ?_⟩
  · simp only [oneOrMore, ht1, Res.bind_ok, hi]; exact hl
  · intro q l p
    rw [addArc_edge hwf, hE]
    tauto

/-- `wrap` starts with `joinFinals`. -/
theorem wrap_join {t t' : Transducer W} (ε : Int) (h : joinFinals ε t = .ok t') {f : Nat} {fw : W}
    (hf : t'.finals = [(f, fw)]) : wrap ε t = wrap ε t' := by
  unfold wrap
  rw [h, joinFinals_single ε hf]

variable [DecidableEq W]

theorem langFrom_single {t : Transducer W} {ε : Int} {f : Nat} {fw : W} (hf : t.finals = [(f, fw)]) (q : Nat)
    (w : List (Int × W)) :
    LangFrom ε t q w ↔ ∃ ls, Path (Edge t) q ls f ∧ w = visible ε (ls ++ [(ε, fw)]) := by
  constructor
  · rintro ⟨ls, p, v, hp, hfin, hw⟩
    simp only [Final, hf, List.mem_singleton, Prod.mk.injEq] at hfin
    obtain ⟨rfl, rfl⟩ := hfin
    exact ⟨ls, hp, hw⟩
  · rintro ⟨ls, hp, hw⟩
    exact ⟨ls, f, fw, hp, by simp [Final, hf], hw⟩

/-- The language of the frame made by `optional`, from its arcs. -/
theorem optional_lang {t t' : Transducer W} (h : WF t) (ε : Int) {f : Nat} {fw : W} (hf : t.finals = [(f, fw)])
    (hi : t'.initial = size t) (hfi : t'.finals = [(size t + 1, 0)])
    (hE : ∀ q l p, Edge t' q l p ↔ Edge t q l p ∨ (q = size t ∧ l = (ε, 0) ∧ p = t.initial) ∨
        (q = f ∧ l = (ε, fw) ∧ p = size t + 1) ∨ (q = size t ∧ l = (ε, 0) ∧ p = size t + 1))
    (w : List (Int × W)) : Lang ε t' w ↔ w = [] ∨ Lang ε t w := by
  have hflt : f < size t := h.finals_lt f fw (by simp [Final, hf])
  have hilt := h.initial_lt
  -- inside the old part
  have key : ∀ q ls, q < size t → (Path (Edge t') q ls (size t + 1) ↔
      ∃ ls0, Path (Edge t) q ls0 f ∧ ls = ls0 ++ [(ε, fw)]) := by
    intro q ls hq
    constructor
    · intro hp
      generalize hn : size t + 1 = n at hp
      induction hp with
      | nil => omega
      | @cons q r p l ls he hp ih =>
        subst hn
        rcases (hE _ _ _).mp he with he | ⟨he, -⟩ | ⟨rfl, rfl, rfl⟩ | ⟨he, -⟩
        · obtain ⟨ls0, h1, h2⟩ := ih (h.target_lt _ _ _ he) rfl
          exact ⟨l :: ls0, .cons he h1, by simp [h2]⟩
        · omega
        · cases hp with
          | nil => exact ⟨[], .nil _, rfl⟩
          | cons he' _ =>
            exfalso
            rcases (hE _ _ _).mp he' with he' | ⟨he', -⟩ | ⟨he', -⟩ | ⟨he', -⟩
            · exact no_edge_out h (Nat.le_succ _) _ _ he'
            all_goals omega
        · omega
    · rintro ⟨ls0, hp, rfl⟩
      exact (hp.mono (fun q l p he => (hE _ _ _).mpr (.inl he))).append
        (.single ((hE _ _ _).mpr (.inr (.inr (.inl ⟨rfl, rfl, rfl⟩)))))
  rw [Lang, langFrom_single hfi, hi, Lang, langFrom_single hf]
  constructor
  · rintro ⟨ls, hp, rfl⟩
    rw [visible_append_eps]
    cases ls with
    | nil => have := path_nil_iff.mp hp; omega
    | cons l ls =>
      obtain ⟨r, he, hp⟩ := path_cons_iff.mp hp
      rcases (hE _ _ _).mp he with he | ⟨-, rfl, rfl⟩ | ⟨he, -⟩ | ⟨-, rfl, rfl⟩
      · exact absurd he (no_edge_out h (le_refl _) _ _)
      · obtain ⟨ls0, h1, rfl⟩ := (key _ _ hilt).mp hp
        exact .inr ⟨ls0, h1, visible_eps _ _⟩
      · omega
      · cases hp with
        | nil => exact .inl (by rw [visible_eps]; rfl)
        | cons he' _ =>
          exfalso
          rcases (hE _ _ _).mp he' with he' | ⟨he', -⟩ | ⟨he', -⟩ | ⟨he', -⟩
          · exact no_edge_out h (Nat.le_succ _) _ _ he'
          all_goals omega
  · rintro (rfl | ⟨ls, hp, rfl⟩)
    · exact ⟨[(ε, 0)], .single ((hE _ _ _).mpr (.inr (.inr (.inr ⟨rfl, rfl, rfl⟩)))), by simp [visible]⟩
    · refine ⟨(ε, 0) :: (ls ++ [(ε, fw)]), .cons ((hE _ _ _).mpr (.inr (.inl ⟨rfl, rfl, rfl⟩)))
        ((key _ _ hilt).mpr ⟨ls, hp, rfl⟩), ?_⟩
      rw [visible_append_eps, visible_eps]

/-- The language of the frame made by `oneOrMore`, from its arcs. -/
theorem oneOrMore_lang {t t' : Transducer W} (h : WF t) (ε : Int) {f : Nat} {fw : W} (hf : t.finals = [(f, fw)])
    (hi : t'.initial = size t) (hfi : t'.finals = [(size t + 1, 0)])
    (hE : ∀ q l p, Edge t' q l p ↔ Edge t q l p ∨ (q = size t ∧ l = (ε, 0) ∧ p = t.initial) ∨
        (q = f ∧ l = (ε, fw) ∧ p = size t + 1) ∨ (q = size t + 1 ∧ l = (ε, 0) ∧ p = size t))
    (w : List (Int × W)) :
    Lang ε t' w ↔ ∃ ws : List (List (Int × W)), ws ≠ [] ∧ (∀ u ∈ ws, Lang ε t u) ∧ w = ws.flatten := by
  have hflt : f < size t := h.finals_lt f fw (by simp [Final, hf])
  have hilt := h.initial_lt
  have sound : ∀ q ls, Path (Edge t') q ls (size t + 1) →
      (q < size t → ∃ u, ∃ ws : List (List (Int × W)), LangFrom ε t q u ∧ (∀ u ∈ ws, Lang ε t u) ∧
        visible ε ls = u ++ ws.flatten) ∧
      (q = size t → ∃ ws : List (List (Int × W)), ws ≠ [] ∧ (∀ u ∈ ws, Lang ε t u) ∧ visible ε ls = ws.flatten) ∧
      (q = size t + 1 → ∃ ws : List (List (Int × W)), (∀ u ∈ ws, Lang ε t u) ∧ visible ε ls = ws.flatten) := by
    intro q ls hp
    generalize hn : size t + 1 = n at hp
    induction hp with
    | nil q => exact ⟨by omega, by omega, fun _ => ⟨[], by simp, rfl⟩⟩
    | @cons q r p l ls he hp ih =>
      subst hn
      obtain ⟨ih1, ih2, ih3⟩ := ih rfl
      rcases (hE _ _ _).mp he with he | ⟨rfl, rfl, rfl⟩ | ⟨rfl, rfl, rfl⟩ | ⟨rfl, rfl, rfl⟩
      · have hq := h.source_lt he
        refine ⟨fun _ => ?_, by omega, by omega⟩
        obtain ⟨u, ws, ⟨ls0, p0, v, h1, h2, rfl⟩, h4, h5⟩ := ih1 (h.target_lt _ _ _ he)
        refine ⟨visible ε ((l :: ls0) ++ [(ε, v)]), ws, ⟨l :: ls0, p0, v, .cons he h1, h2, rfl⟩, h4, ?_⟩
        rw [visible_cons, h5, List.cons_append, visible_cons, List.append_assoc]
      · refine ⟨by omega, fun _ => ?_, by omega⟩
        obtain ⟨u, ws, h1, h2, h3⟩ := ih1 hilt
        refine ⟨u :: ws, by simp, ?_, ?_⟩
        · intro x hx
          rcases List.mem_cons.mp hx with rfl | hx
          · exact h1
          · exact h2 x hx
        · rw [visible_eps, h3]; rfl
      · refine ⟨fun _ => ?_, by omega, by omega⟩
        obtain ⟨ws, h2, h3⟩ := ih3 rfl
        refine ⟨visible ε ([] ++ [(ε, fw)]), ws, (langFrom_single hf _ _).mpr ⟨[], .nil _, rfl⟩, h2, ?_⟩
        rw [visible_cons, h3]
        simp [visible_cons, visible_nil]
      · refine ⟨by omega, by omega, fun _ => ?_⟩
        obtain ⟨ws, -, h2, h3⟩ := ih2 rfl
        exact ⟨ws, h2, by rw [visible_eps]; exact h3⟩
  have complete : ∀ ws : List (List (Int × W)), (∀ u ∈ ws, Lang ε t u) → ∀ u, Lang ε t u →
      ∃ ls, Path (Edge t') (size t) ls (size t + 1) ∧ visible ε ls = u ++ ws.flatten := by
    intro ws
    have one : ∀ u, Lang ε t u → ∃ ls, Path (Edge t') (size t) ls (size t + 1) ∧ visible ε ls = u := by
      intro u hu
      obtain ⟨ls, hp, rfl⟩ := (langFrom_single hf _ _).mp hu
      refine ⟨(ε, 0) :: (ls ++ [(ε, fw)]), .cons ((hE _ _ _).mpr (.inr (.inl ⟨rfl, rfl, rfl⟩))) ?_, visible_eps _ _⟩
      exact (hp.mono (fun q l p he => (hE _ _ _).mpr (.inl he))).append
        (.single ((hE _ _ _).mpr (.inr (.inr (.inl ⟨rfl, rfl, rfl⟩)))))
    induction ws with
    | nil =>
      intro _ u hu
      obtain ⟨ls, h1, h2⟩ := one u hu
      exact ⟨ls, h1, by simp [h2]⟩
    | cons v ws ih =>
      intro hws u hu
      obtain ⟨ls, h1, h2⟩ := one u hu
      obtain ⟨ls', h1', h2'⟩ := ih (fun x hx => hws x (List.mem_cons_of_mem _ hx)) v (hws v (by simp))
      refine ⟨ls ++ (ε, 0) :: ls', h1.append (.cons ((hE _ _ _).mpr (.inr (.inr (.inr ⟨rfl, rfl, rfl⟩)))) h1'), ?_⟩
      rw [visible_append, visible_eps, h2, h2']; rfl
  rw [Lang, langFrom_single hfi, hi]
  constructor
  · rintro ⟨ls, hp, rfl⟩
    rw [visible_append_eps]
    exact (sound _ _ hp).2.1 rfl
  · rintro ⟨ws, hne, hws, rfl⟩
    match ws, hne with
    | u :: ws, _ =>
      obtain ⟨ls, h1, h2⟩ := complete ws (fun x hx => hws x (List.mem_cons_of_mem _ hx)) u (hws u (by simp))
      exact ⟨ls, h1, by rw [visible_append_eps, h2]; rfl⟩

end Verif.Fst
