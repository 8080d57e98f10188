import Verif.Regex.Parse

/-! # The recursive descent -/

namespace Verif.Regex

open Verif.Fst Verif.Alphabet

set_option linter.unusedSectionVars false

variable {W : Type} [Zero W] [DecidableEq W]

/-- A result is a success with property `P`, a refusal, or undefined because of the input. -/
def Out (P : St W → Prop) (r : Res (St W)) (inp : List Int) : Prop :=
  (∃ s', r = .ok s' ∧ P s') ∨ r = .exit ∨ (r = .ub ∧ Bad inp)

theorem Out.mono {P Q : St W → Prop} {r : Res (St W)} {inp inp' : List Int} (h : Out P r inp) (hPQ : ∀ s', P s' → Q s')
    (hb : Bad inp → Bad inp') : Out Q r inp' := by
  rcases h with ⟨s', h1, h2⟩ | h | ⟨h, h'⟩
  · exact .inl ⟨s', h1, hPQ s' h2⟩
  · exact .inr (.inl h)
  · exact .inr (.inr ⟨h, hb h'⟩)

theorem Out.bind {P Q : St W → Prop} {r : Res (St W)} {f : St W → Res (St W)} {inp : List Int} (h : Out P r inp)
    (hf : ∀ s', P s' → Out Q (f s') inp) : Out Q (r >>= f) inp := by
  rcases h with ⟨s', h1, h2⟩ | h | ⟨h, h'⟩
  · rw [h1, Res.bind_ok]; exact hf s' h2
  · rw [h]; exact .inr (.inl rfl)
  · rw [h]; exact .inr (.inr ⟨rfl, h'⟩)

/-! ## Tokens -/

theorem out_consume (t : Int) (ht : t ≠ fin) (s : St W) (inp : List Int) :
    Out (fun s' => ∃ r, s.input = t :: r ∧ s' = { s with input := r }) (consume t s) inp := by
  cases h : consume t s with
  | ok s' => exact .inl ⟨s', rfl, consume_inv h⟩
  | exit => exact .inr (.inl rfl)
  | exception => exact absurd h consume_exception
  | ub => exact absurd (consume_ub h).2 ht

theorem out_letra (s : St W) : Out (fun s' => ∃ c r, s.input = printLetter c ++ r ∧ s' = { s with input := r, letter := c }) (letra s) s.input := by
  cases h : letra s with
  | ok s' => exact .inl ⟨s', rfl, letra_inv h⟩
  | exit => exact .inr (.inl rfl)
  | exception => exact absurd h letra_exception
  | ub => exact .inr (.inr ⟨rfl, by rw [letra_ub h]; left; rfl⟩)

theorem out_postop (s : St W) (h0 : s.postop = 0) (inp : List Int) :
    Out (fun s' => ∃ (p : Post) (r : List Int), s.input = p.print ++ r ∧ s' = { s with input := r, postop := p.code } ∧
      (p = .none → Follow (tok r))) (postop s) inp := by
  rcases postop_total (s := s) with ⟨s', h⟩ | h
  · exact .inl ⟨s', h, postop_inv h h0⟩
  · exact .inr (.inl h)

/-! ## Letters -/

theorem good_input {s : St W} (h : Good s) (r : List Int) (l : Int) : Good ({ s with input := r, letter := l } : St W) :=
  ⟨h.wf, h.state_lt, h.noIn, h.aok, h.postop, h.brackets, h.finals⟩

theorem sem_input {L : List Int → Prop} {s s' : St W} {r : List Int} {l : Int}
    (h : Sem L ({ s with input := r, letter := l } : St W) s') : Sem L s s' :=
  { good := h.good, ext := h.ext, init := h.init, size_le := h.size_le, old := h.old, letters := h.letters, lang := h.lang }

/-- What `termLetter` does after reading a letter. -/
theorem termLetter_step {s : St W} (hg : Good s) (c : Int) (p : Post) (r r' : List Int) (h1 : letra s = .ok { s with input := r, letter := c })
    (h2 : postop ({ s with input := r, letter := c } : St W) = .ok { s with input := r', letter := c, postop := p.code }) :
    ∃ s', termLetter s = .ok s' ∧ s'.input = r' ∧ Sem (Term.Means latinOthers (.letter c p)) s s' := by
  obtain ⟨b1, b2, b3⟩ := pairCode_aok hg.aok c
  obtain ⟨k1, k2⟩ := letter_spec (W := W) hg.aok c
  obtain ⟨t2, g1, g2, g3⟩ := applyPostop_spec b1 k1 p
  have hL : Letters (s.alphabet.pairCode c c).2 (Term.Means latinOthers (.letter c p)) := by
    intro u hu
    simp only [Term.Means] at hu
    refine apply_letters (p := p) ?_ u hu
    rintro v rfl d hd
    unfold sym at hd
    split at hd
    · simp at hd
    · next h0 =>
      simp only [List.mem_singleton] at hd
      subst hd
      exact ⟨h0, _, b3⟩
  obtain ⟨q, t', o, i1, i2⟩ := sem_insert hg g2 b1 b2 hL (by
    intro code hc w
    rw [g3, apply_enc code p (k2 code hc)]
    simp only [Term.Means])
  refine ⟨{ s with input := r', letter := c, postop := 0, state := q, transducer := t', alphabet := (s.alphabet.pairCode c c).2 },
    ?_, rfl, i2 _ rfl rfl rfl rfl hg.brackets⟩
  simp only [termLetter, h1, Res.bind_ok, h2, g1, pc00 b1, i1]
  rfl

theorem termLetter_ok {s : St W} (hg : Good s) (c : Int) (p : Post) (r : List Int) (h : s.input = printLetter c ++ p.print ++ r)
    (hf : p = .none → Follow (tok r)) :
    ∃ s', termLetter s = .ok s' ∧ s'.input = r ∧ Sem (Term.Means latinOthers (.letter c p)) s s' := by
  refine termLetter_step hg c p (p.print ++ r) r (letra_ok c _ s (by rw [h, List.append_assoc])) ?_
  exact postop_ok p r ({ s with input := p.print ++ r, letter := c } : St W) rfl hg.postop hf

/-- The postfix operator of a term. -/
def Term.post : Term → Post
  | .letter _ p => p
  | .cls _ _ p => p
  | .group _ p => p

/-- The specification of `term` on success. -/
def TermSpec (s s' : St W) : Prop :=
  ∃ (T : Term), T.Valid ∧ s.input = T.print ++ s'.input ∧ (T.post = .none → Follow (tok s'.input)) ∧ Sem (T.Means latinOthers) s s'

theorem out_termLetter {s : St W} (hg : Good s) : Out (TermSpec s) (termLetter s) s.input := by
  rcases out_letra s with ⟨s1, h1, c, r, h2, rfl⟩ | h | ⟨h, hb⟩
  · rcases out_postop ({ s with input := r, letter := c } : St W) hg.postop s.input with ⟨s2, h3, p, r', h4, rfl, h5⟩ | h | ⟨h, hb⟩
    · obtain ⟨s', g1, g2, g3⟩ := termLetter_step hg c p r r' h1 h3
      refine .inl ⟨s', g1, .letter c p, trivial, ?_, ?_, g3⟩
      · simp only at h4
        rw [g2, h2, h4]; simp [Term.print]
      · rw [g2]; exact h5
    · right; left
      simp only [termLetter, h1, Res.bind_ok, h]
      rfl
    · rcases postop_total (s := ({ s with input := r, letter := c } : St W)) with ⟨x, hx⟩ | hx <;> rw [hx] at h <;> cases h
  · right; left
    simp only [termLetter, h]
    rfl
  · right; right
    refine ⟨?_, hb⟩
    simp only [termLetter, h]
    rfl

/-! ## Classes -/

theorem good_class {s : St W} (hg : Good s) (r : List Int) (l p : Int) (b : List Int) :
    Good ({ ({ s with input := r, letter := l, postop := p, brackets := b } : St W) with postop := 0, brackets := [] } : St W) :=
  ⟨hg.wf, hg.state_lt, hg.noIn, hg.aok, rfl, rfl, hg.finals⟩

/-- The end of a class, when the list has been read. -/
theorem class_step {s : St W} (hg : Good s) (neg : Bool) (items : List Item) (p : Post) (r : List Int) (l : Int) (b : List Int)
    (hb : ∀ c, c ∈ b ↔ Listed items c) (hne : ∃ c, if neg then latinOthers items c else Listed items c) :
    ∃ s', finishClass (if neg then ((List.range 256).map fun (i : Nat) => (i : Int)).filter (fun i => i ∉ b) else b)
        ({ s with input := r, letter := l, postop := p.code, brackets := b } : St W) = .ok s' ∧ s'.input = r ∧
      Sem (Term.Means latinOthers (.cls neg items p)) s s' := by
  have hmem : ∀ c, c ∈ (if neg then ((List.range 256).map fun (i : Nat) => (i : Int)).filter (fun i => i ∉ b) else b) ↔
      (if neg then latinOthers items c else Listed items c) := by
    intro c
    cases neg with
    | false => simpa using hb c
    | true =>
      simp only [if_true, List.mem_filter, List.mem_map, List.mem_range, decide_eq_true_eq, latinOthers, hb]
      constructor
      · rintro ⟨⟨i, hi, rfl⟩, h⟩; exact ⟨by omega, by omega, h⟩
      · rintro ⟨h1, h2, h3⟩; exact ⟨⟨c.toNat, by omega, by omega⟩, h3⟩
  obtain ⟨c0, hc0⟩ := hne
  have hmne := List.ne_nil_of_mem ((hmem c0).2 hc0)
  generalize (if neg then ((List.range 256).map fun (i : Nat) => (i : Int)).filter (fun i => i ∉ b) else b) = members at hmem hmne
  obtain ⟨s', h1, h2, h3⟩ := finishClass_spec (s := ({ s with input := r, letter := l, postop := p.code, brackets := b } : St W)) p
    (good_class hg r l p.code b) rfl hmne (L := Term.Means latinOthers (.cls neg items p)) (by
      intro u
      simp only [Term.Means, hmem])
  refine ⟨s', h1, h2, ?_⟩
  exact { good := h3.good, ext := h3.ext, init := h3.init, size_le := h3.size_le, old := h3.old, letters := h3.letters, lang := h3.lang }

theorem esp_ok {s : St W} (hg : Good s) (neg : Bool) (items : List Item) (p : Post) (r : List Int)
    (hv : Term.Valid (.cls neg items p)) (h : s.input = (if neg then [94] else []) ++ items.flatMap Item.print ++ 93 :: p.print ++ r)
    (hf : p = .none → Follow (tok r)) :
    ∃ s', esp s = .ok s' ∧ s'.input = r ∧ Sem (Term.Means latinOthers (.cls neg items p)) s s' := by
  obtain ⟨hv, hne⟩ := hv
  unfold esp
  cases neg with
  | false =>
    simp only [Bool.false_eq_true, if_false, List.nil_append, List.append_assoc, List.cons_append] at h
    have hstart : (isLetter s.token || decide (s.token = 93)) = true := by
      rw [token_eq, h]
      cases items with
      | nil => rfl
      | cons i is => simp [tok_item]
    rw [if_pos hstart]
    obtain ⟨l, b, k1, k2⟩ := lista_ok items hv (p.print ++ r) s (s.input.length + 1) h (by omega)
    simp only [hg.brackets, List.not_mem_nil, false_or] at k2
    rw [k1, Res.bind_ok, consume_ok 93 (p.print ++ r) _ rfl, Res.bind_ok,
      postop_ok p r ({ s with input := p.print ++ r, letter := l, brackets := b } : St W) rfl hg.postop hf, Res.bind_ok]
    obtain ⟨s', g1, g2, g3⟩ := class_step hg false items p r l b k2 hne
    exact ⟨s', g1, g2, g3⟩
  | true =>
    simp only [if_true, List.append_assoc, List.cons_append, List.nil_append] at h
    have e : s.token = 94 := by rw [token_eq, h]; rfl
    rw [e, if_neg (by decide), if_pos rfl, consume_ok 94 _ s h, Res.bind_ok]
    obtain ⟨l, b, k1, k2⟩ := lista_ok items hv (p.print ++ r)
      ({ s with input := items.flatMap Item.print ++ 93 :: (p.print ++ r) } : St W) ((items.flatMap Item.print ++ 93 :: (p.print ++ r)).length + 1)
      rfl (by simp only; omega)
    simp only [hg.brackets, List.not_mem_nil, false_or] at k2
    rw [k1, Res.bind_ok, consume_ok 93 (p.print ++ r) _ rfl, Res.bind_ok,
      postop_ok p r ({ s with input := p.print ++ r, letter := l, brackets := b } : St W) rfl hg.postop hf, Res.bind_ok]
    obtain ⟨s', g1, g2, g3⟩ := class_step hg true items p r l b k2 hne
    exact ⟨s', g1, g2, g3⟩

/-- Classes end with a result or, without members, with a refusal. -/
theorem out_class {s : St W} (hg : Good s) (neg : Bool) (items : List Item) (p : Post) (r : List Int) (l : Int) (b : List Int)
    (hb : ∀ c, c ∈ b ↔ Listed items c) (hv : ∀ i ∈ items, i.Valid) (inp : List Int) :
    Out (fun s' => s'.input = r ∧ Term.Valid (.cls neg items p) ∧ Sem (Term.Means latinOthers (.cls neg items p)) s s')
      (finishClass (if neg then ((List.range 256).map fun (i : Nat) => (i : Int)).filter (fun i => i ∉ b) else b)
        ({ s with input := r, letter := l, postop := p.code, brackets := b } : St W)) inp := by
  by_cases hne : ∃ c, if neg then latinOthers items c else Listed items c
  · obtain ⟨s', h1, h2, h3⟩ := class_step hg neg items p r l b hb hne
    exact .inl ⟨s', h1, h2, ⟨hv, hne⟩, h3⟩
  · right; left
    have : (if neg then ((List.range 256).map fun (i : Nat) => (i : Int)).filter (fun i => i ∉ b) else b) = [] := by
      rw [List.eq_nil_iff_forall_not_mem]
      intro c hc
      refine hne ⟨c, ?_⟩
      cases neg with
      | false => simpa [hb] using hc
      | true =>
        simp only [if_true, List.mem_filter, List.mem_map, List.mem_range, decide_eq_true_eq, hb] at hc
        obtain ⟨⟨i, hi, rfl⟩, h⟩ := hc
        exact ⟨by omega, by omega, h⟩
    rw [this]
    exact finishClass_empty hg.aok

theorem out_esp {s : St W} (hg : Good s) :
    Out (fun s' => ∃ (neg : Bool) (items : List Item) (p : Post), Term.Valid (.cls neg items p) ∧
        91 :: s.input = Term.print (.cls neg items p) ++ s'.input ∧ (p = .none → Follow (tok s'.input)) ∧
        Sem (Term.Means latinOthers (.cls neg items p)) s s') (esp s) s.input := by
  -- the common part
  have common : ∀ (neg : Bool) (r0 : List Int), s.input = (if neg then [94] else []) ++ r0 →
      Out (fun s' => ∃ (neg : Bool) (items : List Item) (p : Post), Term.Valid (.cls neg items p) ∧
        91 :: s.input = Term.print (.cls neg items p) ++ s'.input ∧ (p = .none → Follow (tok s'.input)) ∧
        Sem (Term.Means latinOthers (.cls neg items p)) s s')
        (do let s ← lista (r0.length + 1) ({ s with input := r0 } : St W)
            let s ← consume 93 s
            let s ← postop s
            finishClass (if neg then ((List.range 256).map fun (i : Nat) => (i : Int)).filter (fun i => i ∉ s.brackets) else s.brackets) s)
        s.input := by
    intro neg r0 hr0
    have h1 : Out (fun s' => ∃ (items : List Item) (r : List Int) (l : Int) (b : List Int), (∀ i ∈ items, i.Valid) ∧ r0 = items.flatMap Item.print ++ 93 :: r ∧
        s' = { s with input := 93 :: r, letter := l, brackets := b } ∧ ∀ c, c ∈ b ↔ Listed items c)
        (lista (r0.length + 1) ({ s with input := r0 } : St W)) s.input := by
      rcases lista_total (s := ({ s with input := r0 } : St W)) (fuel := r0.length + 1) (by simp only; omega) with ⟨s1, h⟩ | h | ⟨h, hb⟩
      · obtain ⟨items, r, l, b, g1, g2, rfl, g4⟩ := lista_inv h
        simp only [hg.brackets, List.not_mem_nil, false_or] at g4
        exact .inl ⟨_, h, items, r, l, b, g1, g2, rfl, g4⟩
      · exact .inr (.inl h)
      · exact .inr (.inr ⟨h, by rw [hr0]; exact hb.append _⟩)
    refine h1.bind ?_
    rintro _ ⟨items, r, l, b, g1, g2, rfl, g4⟩
    refine (out_consume 93 (by decide) _ s.input).bind ?_
    rintro _ ⟨r1, k1, rfl⟩
    simp only [List.cons.injEq, true_and] at k1
    subst k1
    refine (out_postop _ (by exact hg.postop) s.input).bind ?_
    rintro _ ⟨p, r2, k2, rfl, k3⟩
    simp only at k2
    refine (out_class hg neg items p r2 l b g4 g1 s.input).mono ?_ id
    rintro s' ⟨j1, j2, j3⟩
    refine ⟨neg, items, p, j2, ?_, by rw [j1]; exact k3, j3⟩
    rw [hr0, g2, k2, j1]
    simp [Term.print]
  unfold esp
  split
  · exact common false s.input (by simp)
  · split
    · refine (out_consume 94 (by decide) s s.input).bind ?_
      rintro _ ⟨r0, h0, rfl⟩
      exact common true r0 (by simp [h0])
    · exact .inr (.inl rfl)

/-! ## Groups -/

theorem endGroup_ok {s s0 s1 : St W} (hg : Good s) (ha : s0.alphabet = s.alphabet) {L : List Int → Prop} (hw : Whole L s0 s1) (p : Post) (r : List Int)
    (h : s1.input = 41 :: p.print ++ r) (hf : p = .none → Follow (tok r)) :
    ∃ s', endGroup s.transducer s.state s1 = .ok s' ∧ s'.input = r ∧ Sem (p.Apply L) s s' := by
  obtain ⟨k1, k2⟩ := hw.part
  obtain ⟨t2, g1, g2, g3⟩ := applyPostop_spec hw.good.aok k1 p
  have hL : Letters s1.alphabet (p.Apply L) := fun u hu => apply_letters (p := p) hw.letters u hu
  obtain ⟨q, t', o, i1, i2⟩ := sem_insert hg g2 hw.good.aok (ha ▸ hw.ext) hL (by
    intro code hc w
    rw [g3, apply_enc code p (k2 code hc)])
  refine ⟨{ s1 with input := r, postop := 0, state := q, transducer := t' }, ?_, rfl, i2 _ rfl rfl rfl rfl hw.good.brackets⟩
  have h' : s1.input = 41 :: (p.print ++ r) := h
  simp only [endGroup, consume_ok 41 _ s1 h', Res.bind_ok]
  rw [postop_ok p r ({ s1 with input := p.print ++ r } : St W) rfl hw.good.postop hf]
  simp only [Res.bind_ok, g1, pc00 hw.good.aok, i1]
  rfl

theorem out_endGroup {s s0 s1 : St W} (hg : Good s) (ha : s0.alphabet = s.alphabet) {L : List Int → Prop} (hw : Whole L s0 s1) (inp : List Int) :
    Out (fun s' => ∃ p : Post, s1.input = 41 :: p.print ++ s'.input ∧ (p = .none → Follow (tok s'.input)) ∧ Sem (p.Apply L) s s')
      (endGroup s.transducer s.state s1) inp := by
  rcases out_consume 41 (by decide) s1 inp with ⟨_, h1, r, h2, rfl⟩ | h | ⟨h, hb⟩
  · rcases out_postop ({ s1 with input := r } : St W) hw.good.postop inp with ⟨_, h3, p, r', h4, rfl, h5⟩ | h | ⟨h, hb⟩
    · obtain ⟨s', g1, g2, g3⟩ := endGroup_ok hg ha hw p r' (by rw [h2]; exact congrArg (41 :: ·) h4) h5
      exact .inl ⟨s', g1, p, by rw [g2, h2]; exact congrArg (41 :: ·) h4, by rw [g2]; exact h5, g3⟩
    · right; left
      simp only [endGroup, h1, Res.bind_ok, h]
      rfl
    · rcases postop_total (s := ({ s1 with input := r } : St W)) with ⟨x, hx⟩ | hx <;> rw [hx] at h <;> cases h
  · right; left
    simp only [endGroup, h]
    rfl
  · exact absurd (consume_ub h).2 (by decide)

/-! ## Sequences and alternatives -/

theorem Sem.refl {s : St W} (h : Good s) : Sem (· = []) s s where
  good := h
  ext := Ext.refl _
  init := rfl
  size_le := le_refl _
  old _ _ _ _ _ := Iff.rfl
  letters := by rintro u rfl; simp
  lang code hc q hq w := by
    constructor
    · intro h; exact ⟨w, [], h, rfl, by simp [enc]⟩
    · rintro ⟨v, _, h, rfl, rfl⟩; simpa [enc] using h

theorem reach_init {s : St W} (h : Good s) (v : List (Int × W)) :
    Reach s.transducer s.transducer.initial s.transducer.initial v ↔ v = [] := by
  constructor
  · rintro ⟨ls, h1, rfl⟩; rw [h.noIn ls h1]; rfl
  · rintro rfl; exact ⟨[], .nil _, rfl⟩

/-- The alternatives of `L` were added to what leads to the current state. -/
structure AltTail (L : List Int → Prop) (s s' : St W) : Prop extends Grown s s' where
  letters : Letters s'.alphabet L
  lang : ∀ code, Agrees code s'.alphabet → ∀ w, Reach s'.transducer s'.transducer.initial s'.state w ↔
    Reach s.transducer s.transducer.initial s.state w ∨ ∃ u, L u ∧ w = enc code u

theorem Sem.whole {L : List Int → Prop} {s s' : St W} (hg : Good s) (hs : s.state = s.transducer.initial) (h : Sem L s s') : Whole L s s' where
  toGrown := h.toGrown
  letters := h.letters
  lang code hc w := by
    rw [h.init, h.lang code hc _ hg.wf.initial_lt]
    simp only [hs, reach_init hg]
    constructor
    · rintro ⟨v, u, rfl, h1, rfl⟩; exact ⟨u, h1, rfl⟩
    · rintro ⟨u, h1, rfl⟩; exact ⟨[], u, rfl, h1, rfl⟩

theorem Whole.tail {L M : List Int → Prop} {s s' s'' : St W} (h : Whole L s s') (h' : AltTail M s' s'') :
    Whole (fun u => L u ∨ M u) s s'' where
  toGrown := h.toGrown.trans h'.toGrown
  letters := by
    rintro u (hu | hu)
    · exact h.letters.mono h'.ext u hu
    · exact h'.letters u hu
  lang code hc w := by
    rw [h'.lang code hc, h.lang code (hc.mono h'.ext)]
    constructor
    · rintro (⟨u, h1, h2⟩ | ⟨u, h1, h2⟩)
      · exact ⟨u, .inl h1, h2⟩
      · exact ⟨u, .inr h1, h2⟩
    · rintro ⟨u, h1 | h1, h2⟩
      · exact .inl ⟨u, h1, h2⟩
      · exact .inr ⟨u, h1, h2⟩

theorem good_alt {s : St W} (hg : Good s) (r : List Int) : Good ({ s with input := r, state := s.transducer.initial } : St W) :=
  ⟨hg.wf, hg.wf.initial_lt, hg.noIn, hg.aok, hg.postop, hg.brackets, hg.finals⟩

theorem endAlternative_tail {s s1 : St W} (hg : Good s) (r : List Int) {M : List Int → Prop}
    (hw : Whole M ({ s with input := r, state := s.transducer.initial } : St W) s1) :
    ∃ s', endAlternative s.state s1 = .ok s' ∧ s'.input = s1.input ∧ AltTail M s s' := by
  have hst : s.state < size s1.transducer := lt_of_lt_of_le hg.state_lt hw.size_le
  obtain ⟨s', k1, k2, k3, k4, k5⟩ := endAlternative_spec hw.good hst
  refine ⟨s', k1, k2, ?_⟩
  have gr : Grown s s1 := { good := hw.good, ext := hw.ext, init := hw.init, size_le := hw.size_le, old := hw.old }
  refine { toGrown := gr.trans k3, letters := k4 ▸ hw.letters, lang := ?_ }
  intro code hc w
  rw [k3.init, k5 _ hw.good.wf.initial_lt, hw.lang code (k4 ▸ hc), or_comm]
  refine or_congr ?_ Iff.rfl
  rw [hw.init]
  unfold Reach
  constructor
  · rintro ⟨ls, h1, h2⟩
    exact ⟨ls, (gr.old _ _ hg.wf.initial_lt hg.state_lt ls).1 h1, h2⟩
  · rintro ⟨ls, h1, h2⟩
    exact ⟨ls, (gr.old _ _ hg.wf.initial_lt hg.state_lt ls).2 h1, h2⟩

/-- The tokens that end a sequence. -/
def EndSeq (t : Int) : Prop := t = 124 ∨ t = fin ∨ t = 41
/-- The tokens that end the alternatives. -/
def EndAlt (t : Int) : Prop := t = fin ∨ t = 41

theorem EndAlt.seq {t : Int} (h : EndAlt t) : EndSeq t := .inr h
theorem EndSeq.follow {t : Int} (h : EndSeq t) : Follow t := .inr h

theorem EndSeq.not_starts {t : Int} (h : EndSeq t) : starts t = false := by
  rcases h with rfl | rfl | rfl <;> decide

theorem rExpr_eq (f : Nat) (s : St W) (h : starts s.token = true) : rExpr (f + 1) s = rExprp (f + 1) s := by
  rw [rExpr, rExprp, if_pos h, if_pos h]

/-! ## Printed terms -/

theorem term_starts (T : Term) (r : List Int) : starts (tok (T.print ++ r)) = true := by
  rw [starts_iff]
  cases T with
  | letter c p => left; simp only [Term.print, List.append_assoc]; exact tok_printLetter c _
  | cls neg items p => right; right; rfl
  | group e p => right; left; rfl

theorem seq_starts (Q : Seq) (r : List Int) : starts (tok (Q.print ++ r)) = true := by
  cases Q with
  | one t => exact term_starts t r
  | more t q => simp only [Seq.print, List.append_assoc]; exact term_starts t _

theorem alt_starts (A : Alt) (r : List Int) : starts (tok (A.print ++ r)) = true := by
  cases A with
  | one q => exact seq_starts q r
  | more q a => simp only [Alt.print, List.append_assoc]; exact seq_starts q _

theorem term_length (T : Term) : 1 ≤ T.print.length := by
  cases T with
  | letter c p => simp only [Term.print, List.length_append]; have := printLetter_length c; omega
  | cls neg items p => simp [Term.print]
  | group e p => simp [Term.print]

mutual
/-- A printed term is compiled. -/
theorem term_ok : ∀ (T : Term) (fuel : Nat) (s : St W) (r : List Int), Good s → T.Valid → s.input = T.print ++ r →
    (T.post = .none → Follow (tok r)) → 4 * s.input.length + 2 ≤ fuel →
    ∃ s', term fuel s = .ok s' ∧ s'.input = r ∧ Sem (T.Means latinOthers) s s'
  | .letter c p, fuel, s, r, hg, hv, h, hf, hfu => by
    obtain ⟨f, rfl⟩ : ∃ f, fuel = f + 1 := ⟨fuel - 1, by omega⟩
    simp only [Term.print] at h
    rw [term, token_eq, if_pos (by rw [h, List.append_assoc]; exact tok_printLetter c _)]
    exact termLetter_ok hg c p r h hf
  | .cls neg items p, fuel, s, r, hg, hv, h, hf, hfu => by
    obtain ⟨f, rfl⟩ : ∃ f, fuel = f + 1 := ⟨fuel - 1, by omega⟩
    simp only [Term.print, List.cons_append] at h
    have e : s.token = 91 := by rw [token_eq, h]; rfl
    rw [term, e, if_neg (by decide), if_neg (by decide), if_pos rfl, consume_ok 91 _ s h, Res.bind_ok]
    obtain ⟨s', g1, g2, g3⟩ := esp_ok (good_input hg ((if neg then [94] else []) ++ items.flatMap Item.print ++ 93 :: p.print ++ r) s.letter)
      neg items p r hv (by simp) hf
    refine ⟨s', ?_, g2, sem_input g3⟩
    rw [← g1]
  | .group e p, fuel, s, r, hg, hv, h, hf, hfu => by
    obtain ⟨f, rfl⟩ : ∃ f, fuel = f + 1 := ⟨fuel - 1, by omega⟩
    simp only [Term.print, List.cons_append, List.append_assoc] at h
    have ht : s.token = 40 := by rw [token_eq, h]; rfl
    have hlen : s.input.length = (e.print ++ (41 :: (p.print ++ r))).length + 1 := by rw [h]; rfl
    rw [term, ht, if_neg (by decide), if_pos rfl]
    simp only
    rw [consume_ok 40 (e.print ++ (41 :: (p.print ++ r))) ({ s with transducer := Fst.empty, state := (Fst.empty : Transducer W).initial } : St W) h, Res.bind_ok]
    obtain ⟨f', rfl⟩ : ∃ f', f = f' + 1 := ⟨f - 1, by omega⟩
    obtain ⟨s1, g1, g2, g3⟩ := alt_ok e f' _ (41 :: (p.print ++ r)) (good_start hg (e.print ++ (41 :: (p.print ++ r)))) rfl hv rfl (.inr rfl)
      (by simp only; omega)
    rw [S, if_pos (by exact alt_starts e _), g1, Res.bind_ok]
    obtain ⟨s', k1, k2, k3⟩ := endGroup_ok (s0 := ({ s with input := e.print ++ (41 :: (p.print ++ r)), transducer := Fst.empty, state := (Fst.empty : Transducer W).initial } : St W))
      hg rfl g3 p r g2 hf
    exact ⟨s', k1, k2, k3.congr (fun u => by simp only [Term.Means])⟩
/-- A printed sequence is compiled. -/
theorem seq_ok : ∀ (Q : Seq) (fuel : Nat) (s : St W) (r : List Int), Good s → Q.Valid → s.input = Q.print ++ r →
    EndSeq (tok r) → 4 * s.input.length + 3 ≤ fuel →
    ∃ s', rExprp fuel s = .ok s' ∧ s'.input = r ∧ Sem (Q.Means latinOthers) s s'
  | .one t, fuel, s, r, hg, hv, h, hf, hfu => by
    obtain ⟨f, rfl⟩ : ∃ f, fuel = f + 1 := ⟨fuel - 1, by omega⟩
    simp only [Seq.print] at h
    have hs : starts s.token = true := by rw [token_eq, h]; exact term_starts t r
    have hlen := term_length t
    have hl : s.input.length = t.print.length + r.length := by rw [h, List.length_append]
    obtain ⟨s1, g1, g2, g3⟩ := term_ok t f s r hg hv h (fun _ => hf.follow) (by omega)
    rw [rExprp, if_pos hs, g1, Res.bind_ok]
    obtain ⟨f', rfl⟩ : ∃ f', f = f' + 1 := ⟨f - 1, by omega⟩
    have e : s1.token = tok r := by rw [token_eq, g2]
    refine ⟨s1, ?_, g2, g3⟩
    rw [rExprp, e, if_neg (by rw [hf.not_starts]; simp), if_pos (by unfold EndSeq at hf; simpa [or_assoc] using hf)]
  | .more t q, fuel, s, r, hg, hv, h, hf, hfu => by
    obtain ⟨f, rfl⟩ : ∃ f, fuel = f + 1 := ⟨fuel - 1, by omega⟩
    simp only [Seq.print, List.append_assoc] at h
    have hs : starts s.token = true := by rw [token_eq, h]; exact term_starts t _
    have hlen := term_length t
    have hl : s.input.length = t.print.length + (q.print ++ r).length := by rw [h, List.length_append]
    obtain ⟨s1, g1, g2, g3⟩ := term_ok t f s (q.print ++ r) hg hv.1 h (fun _ => .inl (seq_starts q r)) (by omega)
    obtain ⟨s2, k1, k2, k3⟩ := seq_ok q f s1 r g3.good hv.2 g2 hf (by rw [g2]; omega)
    rw [rExprp, if_pos hs, g1, Res.bind_ok, k1]
    exact ⟨s2, rfl, k2, (g3.trans k3).congr (fun u => by simp only [Seq.Means])⟩
/-- Printed alternatives are compiled. -/
theorem alt_ok : ∀ (A : Alt) (fuel : Nat) (s : St W) (r : List Int), Good s → s.state = s.transducer.initial → A.Valid →
    s.input = A.print ++ r → EndAlt (tok r) → 4 * s.input.length + 3 ≤ fuel →
    ∃ s', (rExpr fuel s >>= cola fuel) = .ok s' ∧ s'.input = r ∧ Whole (A.Means latinOthers) s s'
  | .one q, fuel, s, r, hg, hst, hv, h, hf, hfu => by
    obtain ⟨f, rfl⟩ : ∃ f, fuel = f + 1 := ⟨fuel - 1, by omega⟩
    simp only [Alt.print] at h
    have hs : starts s.token = true := by rw [token_eq, h]; exact seq_starts q r
    obtain ⟨s1, g1, g2, g3⟩ := seq_ok q (f + 1) s r hg hv h hf.seq hfu
    have e : s1.token = tok r := by rw [token_eq, g2]
    refine ⟨s1, ?_, g2, g3.whole hg hst⟩
    rw [rExpr_eq f s hs, g1, Res.bind_ok, cola, e, if_pos (by unfold EndAlt at hf; simpa using hf)]
  | .more q a, fuel, s, r, hg, hst, hv, h, hf, hfu => by
    obtain ⟨f, rfl⟩ : ∃ f, fuel = f + 1 := ⟨fuel - 1, by omega⟩
    simp only [Alt.print, List.append_assoc, List.cons_append] at h
    have hs : starts s.token = true := by rw [token_eq, h]; exact seq_starts q _
    obtain ⟨s1, g1, g2, g3⟩ := seq_ok q (f + 1) s (124 :: (a.print ++ r)) hg hv.1 h (.inl rfl) hfu
    have e : s1.token = 124 := by rw [token_eq, g2]; rfl
    have hl : s.input.length = q.print.length + (124 :: (a.print ++ r)).length := by rw [h, List.length_append]
    simp only [List.length_cons] at hl
    obtain ⟨s2, k1, k2, k3⟩ := alt_ok a f ({ s1 with input := a.print ++ r, state := s1.transducer.initial } : St W) r
      (good_alt g3.good _) rfl hv.2 rfl hf (by simp only; omega)
    obtain ⟨s3, j1, j2, j3⟩ := endAlternative_tail g3.good _ k3
    refine ⟨s3, ?_, j2.trans k2, ?_⟩
    · rw [rExpr_eq f s hs, g1, Res.bind_ok, cola, e, if_neg (by decide), if_pos rfl]
      simp only
      rw [consume_ok 124 (a.print ++ r) ({ s1 with state := s1.transducer.initial } : St W) g2, Res.bind_ok]
      rw [← j1]
      rcases Res.bind_eq_ok.1 k1 with ⟨s2', x1, x2⟩
      rw [x1, Res.bind_ok, x2, Res.bind_ok]
    · have := (g3.whole hg hst).tail j3
      exact { toGrown := this.toGrown, letters := this.letters, lang := this.lang }
end

/-! ## Arbitrary input -/

def SeqSpec (s s' : St W) : Prop :=
  EndSeq (tok s'.input) ∧ ((s' = s) ∨ ∃ Q : Seq, Q.Valid ∧ s.input = Q.print ++ s'.input ∧ Sem (Q.Means latinOthers) s s')

def ColaSpec (s s' : St W) : Prop :=
  EndAlt (tok s'.input) ∧ ((s' = s) ∨ ∃ A : Alt, A.Valid ∧ s.input = 124 :: A.print ++ s'.input ∧ AltTail (A.Means latinOthers) s s')

def AltSpec (s s' : St W) : Prop :=
  EndAlt (tok s'.input) ∧ ∃ A : Alt, A.Valid ∧ s.input = A.print ++ s'.input ∧ Whole (A.Means latinOthers) s s'

theorem TermSpec.length {s s' : St W} (h : TermSpec s s') : s'.input.length + 1 ≤ s.input.length := by
  obtain ⟨T, -, h, -⟩ := h
  rw [h, List.length_append]
  have := term_length T
  omega

theorem TermSpec.good {s s' : St W} (h : TermSpec s s') : Good s' := by
  obtain ⟨T, -, -, -, h⟩ := h
  exact h.good

theorem bad_of_eq {s : St W} {x r : List Int} (h : s.input = x ++ r) (hb : Bad r) : Bad s.input := by
  rw [h]; exact hb.append x

theorem out_all : ∀ (fuel : Nat),
    (∀ s : St W, Good s → 4 * s.input.length + 2 ≤ fuel → Out (TermSpec s) (term fuel s) s.input) ∧
    (∀ s : St W, Good s → 4 * s.input.length + 3 ≤ fuel → Out (SeqSpec s) (rExprp fuel s) s.input) ∧
    (∀ s : St W, Good s → 4 * s.input.length + 3 ≤ fuel → Out (ColaSpec s) (cola fuel s) s.input) ∧
    (∀ s : St W, Good s → s.state = s.transducer.initial → 4 * s.input.length + 4 ≤ fuel → Out (AltSpec s) (S fuel s) s.input) := by
  intro fuel
  induction fuel with
  | zero => exact ⟨fun _ _ h => by omega, fun _ _ h => by omega, fun _ _ h => by omega, fun _ _ _ h => by omega⟩
  | succ f ih =>
    obtain ⟨ihT, ihQ, ihC, ihS⟩ := ih
    -- a sequence at its start, through `rExpr`
    have hR : ∀ s : St W, Good s → starts s.token = true → 4 * s.input.length + 3 ≤ f →
        Out (fun s' => EndSeq (tok s'.input) ∧ ∃ Q : Seq, Q.Valid ∧ s.input = Q.print ++ s'.input ∧ Sem (Q.Means latinOthers) s s')
          (rExpr f s) s.input := by
      intro s hg hs hfu
      obtain ⟨f', rfl⟩ : ∃ f', f = f' + 1 := ⟨f - 1, by omega⟩
      rw [rExpr_eq f' s hs]
      refine (ihQ s hg hfu).mono ?_ id
      rintro s' ⟨h1, rfl | h2⟩
      · rw [token_eq] at hs
        rw [h1.not_starts] at hs; cases hs
      · exact ⟨h1, h2⟩
    -- alternatives at their start
    have hA : ∀ s : St W, Good s → s.state = s.transducer.initial → 4 * s.input.length + 3 ≤ f →
        Out (AltSpec s) (rExpr f s >>= cola f) s.input := by
      intro s hg hst hfu
      by_cases hs : starts s.token = true
      · refine (hR s hg hs hfu).bind ?_
        rintro s1 ⟨h1, Q, h2, h3, h4⟩
        have hl : s.input.length = Q.print.length + s1.input.length := by rw [h3, List.length_append]
        refine (ihC s1 h4.good (by omega)).mono ?_ (bad_of_eq h3)
        rintro s2 ⟨k1, rfl | ⟨A, k2, k3, k4⟩⟩
        · exact ⟨k1, .one Q, h2, h3, h4.whole hg hst⟩
        · refine ⟨k1, .more Q A, ⟨h2, k2⟩, by rw [h3, k3]; simp [Alt.print], ?_⟩
          have := (h4.whole hg hst).tail k4
          exact { toGrown := this.toGrown, letters := this.letters, lang := this.lang }
      · obtain ⟨f', rfl⟩ : ∃ f', f = f' + 1 := ⟨f - 1, by omega⟩
        rw [rExpr, if_neg hs]
        exact .inr (.inl rfl)
    refine ⟨?_, ?_, ?_, ?_⟩
    · intro s hg hfu
      rw [term]
      split
      · exact out_termLetter hg
      · split
        · next ht =>
          simp only
          refine (out_consume 40 (by decide) _ s.input).bind ?_
          rintro _ ⟨r, h1, rfl⟩
          simp only at h1
          have hl : s.input.length = r.length + 1 := by rw [h1]; rfl
          have := ihS _ (good_start hg r) rfl (by simp only; omega)
          refine (this.mono (fun _ h => h) (inp' := s.input) (fun hb => by rw [h1]; exact hb.append [40])).bind ?_
          rintro s1 ⟨k1, A, k2, k3, k4⟩
          refine (out_endGroup (s0 := ({ s with input := r, transducer := Fst.empty, state := (Fst.empty : Transducer W).initial } : St W)) hg rfl k4 s.input).mono ?_ id
          rintro s' ⟨p, j1, j2, j3⟩
          refine ⟨.group A p, k2, ?_, j2, j3.congr (fun u => by simp only [Term.Means])⟩
          simp only at k3
          rw [h1, k3, j1]
          simp [Term.print]
        · split
          · refine (out_consume 91 (by decide) s s.input).bind ?_
            rintro _ ⟨r, h1, rfl⟩
            refine (out_esp (good_input hg r s.letter)).mono ?_ (fun hb => by rw [h1]; exact hb.append [91])
            rintro s' ⟨neg, items, p, k1, k2, k3, k4⟩
            exact ⟨.cls neg items p, k1, by rw [h1]; exact k2, k3, sem_input k4⟩
          · exact .inr (.inl rfl)
    · intro s hg hfu
      rw [rExprp]
      split
      · refine (ihT s hg (by omega)).bind ?_
        intro s1 h1
        have hl := h1.length
        obtain ⟨T, g1, g2, g3, g4⟩ := h1
        refine (ihQ s1 g4.good (by omega)).mono ?_ (bad_of_eq g2)
        rintro s2 ⟨k1, rfl | ⟨Q, k2, k3, k4⟩⟩
        · exact ⟨k1, .inr ⟨.one T, g1, g2, g4⟩⟩
        · refine ⟨k1, .inr ⟨.more T Q, ⟨g1, k2⟩, by rw [g2, k3]; simp [Seq.print], ?_⟩⟩
          exact (g4.trans k4).congr (fun u => by simp only [Seq.Means])
      · split
        · next h =>
          refine .inl ⟨s, rfl, ?_, .inl rfl⟩
          rw [token_eq] at h
          unfold EndSeq
          simpa [or_assoc] using h
        · exact .inr (.inl rfl)
    · intro s hg hfu
      rw [cola]
      split
      · next h =>
        refine .inl ⟨s, rfl, ?_, .inl rfl⟩
        rw [token_eq] at h
        unfold EndAlt
        simpa using h
      · split
        · simp only
          refine (out_consume 124 (by decide) _ s.input).bind ?_
          rintro _ ⟨r, h1, rfl⟩
          simp only at h1
          have hl : s.input.length = r.length + 1 := by rw [h1]; rfl
          have hbind : ∀ x : St W, (do let s1 ← rExpr f x; let s2 ← cola f s1; endAlternative s.state s2) =
              ((rExpr f x >>= cola f) >>= endAlternative s.state) := by
            intro x
            cases rExpr f x <;> rfl
          simp only at hbind ⊢
          rw [hbind]
          refine ((hA _ (good_alt hg r) rfl (by simp only; omega)).mono (fun _ h => h) (inp' := s.input)
            (fun hb => by rw [h1]; exact hb.append [124])).bind ?_
          rintro s1 ⟨k1, A, k2, k3, k4⟩
          obtain ⟨s', j1, j2, j3⟩ := endAlternative_tail hg r k4
          refine .inl ⟨s', j1, by rw [j2]; exact k1, .inr ⟨A, k2, ?_, j3⟩⟩
          simp only at k3
          rw [h1, k3, j2]
          rfl
        · exact .inr (.inl rfl)
    · intro s hg hst hfu
      rw [S]
      split
      · exact hA s hg hst (by omega)
      · exact .inr (.inl rfl)

end Verif.Regex
