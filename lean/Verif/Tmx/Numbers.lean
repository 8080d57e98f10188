import Verif.Tmx.Spec

/-! # Numbers in a text -/

namespace Verif.Tmx

variable {ch : Chars}

/-- Symbols that may stand inside a number. -/
def allowed (ch : Chars) (c : Int) : Bool := ch.isDigit c || decide (c = 0x2e) || decide (c = 0x2c)

theorem back_eq (l : List Int) : back ch l = (l.dropWhile (fun c => !ch.isDigit c)).length := by
  induction l with
  | nil => rfl
  | cons c l ih =>
    unfold back
    rw [List.dropWhile_cons]
    cases h : ch.isDigit c <;> simp [ih]

theorem numberLoop_eq {seen : List Int} (h : seen ≠ []) (cs : List Int) : numberLoop ch seen cs = back ch ((cs.takeWhile (allowed ch)).reverse ++ seen) := by
  induction cs generalizing seen with
  | nil => rfl
  | cons c cs ih =>
    have hs : seen.isEmpty = false := by cases seen with | nil => exact absurd rfl h | cons => rfl
    unfold numberLoop
    rw [hs, List.takeWhile_cons]
    unfold allowed
    by_cases h1 : ch.isDigit c = true
    · simp [h1, ih]
      rfl
    · by_cases h2 : c = 0x2e
      · simp [h2, ih]
        rfl
      · by_cases h3 : c = 0x2c
        · simp [h3, ih]
          rfl
        · simp [h1, h2, h3]

theorem numberLength_symbol {c : Int} (h : ch.isDigit c = false) (cs : List Int) : numberLength ch (c :: cs) = 0 := by
  unfold numberLength numberLoop
  simp [h]

/-- The longest number at the front of `c :: cs`, where `c` is a digit. -/
def front (ch : Chars) (c : Int) (cs : List Int) : List Int := (((cs.takeWhile (allowed ch)).reverse ++ [c]).dropWhile (fun c => !ch.isDigit c)).reverse

theorem numberLength_digit {c : Int} (h : ch.isDigit c = true) (cs : List Int) : numberLength ch (c :: cs) = (front ch c cs).length := by
  unfold numberLength numberLoop
  simp only [h, Bool.not_true, Bool.false_and, Bool.false_eq_true, if_false]
  rw [numberLoop_eq (by simp), back_eq]
  unfold front
  rw [List.length_reverse]

theorem takeWhile_mem {p : Int → Bool} {l : List Int} {c : Int} (h : c ∈ l.takeWhile p) : p c = true := by
  induction l with
  | nil => cases h
  | cons x l ih =>
    rw [List.takeWhile_cons] at h
    split at h
    · next hx =>
      rcases List.mem_cons.1 h with rfl | h
      · exact hx
      · exact ih h
    · cases h

theorem dropWhile_split {p : Int → Bool} (l : List Int) : ∃ a, l = a ++ l.dropWhile p ∧ ∀ c ∈ a, p c = true :=
  ⟨l.takeWhile p, (List.takeWhile_append_dropWhile).symm, fun _ h => takeWhile_mem h⟩

theorem front_spec {c : Int} (h : ch.isDigit c = true) (cs : List Int) : ∃ r, c :: cs = front ch c cs ++ r ∧ Leads ch (front ch c cs) r := by
  have hw : (cs.takeWhile (allowed ch)).reverse ++ [c] = (c :: cs.takeWhile (allowed ch)).reverse := by simp
  unfold front
  rw [hw]
  obtain ⟨a, h1, h2⟩ := dropWhile_split (p := fun c => !ch.isDigit c) (c :: cs.takeWhile (allowed ch)).reverse
  generalize hd : (c :: cs.takeWhile (allowed ch)).reverse.dropWhile (fun c => !ch.isDigit c) = d at h1 ⊢
  have h3 : c :: cs.takeWhile (allowed ch) = d.reverse ++ a.reverse := by
    have := congrArg List.reverse h1
    simpa using this
  have h4 : c :: cs = d.reverse ++ (a.reverse ++ cs.dropWhile (allowed ch)) := by
    rw [← List.append_assoc, ← h3, List.cons_append, List.takeWhile_append_dropWhile]
  -- `d` is not empty
  have hne : d ≠ [] := by
    rintro rfl
    have : c ∈ a := by
      have : c ∈ a.reverse := by
        rw [List.reverse_nil, List.nil_append] at h3
        rw [← h3]; exact List.mem_cons_self ..
      simpa using this
    have := h2 c this
    rw [h] at this; cases this
  have hall : ∀ x ∈ d, ch.isDigit x = true ∨ x = 0x2e ∨ x = 0x2c := by
    intro x hx
    have : x ∈ c :: cs.takeWhile (allowed ch) := by rw [h3]; simp [hx]
    rcases List.mem_cons.1 this with rfl | hx
    · exact .inl h
    · have := takeWhile_mem hx
      unfold allowed at this
      simpa [or_assoc] using this
  have hhead : ∃ x e, d = x :: e ∧ ch.isDigit x = true := by
    cases d with
    | nil => exact absurd rfl hne
    | cons x e =>
      refine ⟨x, e, rfl, ?_⟩
      have : (!ch.isDigit x) = false := by
        have := List.head?_dropWhile_not (p := fun c => !ch.isDigit c) (l := (c :: cs.takeWhile (allowed ch)).reverse)
        rw [hd] at this
        simpa using this
      simpa using this
  refine ⟨a.reverse ++ cs.dropWhile (allowed ch), h4, ⟨⟨?_, ?_, fun x hx => hall x (by simpa using hx)⟩, ?_⟩⟩
  · cases hr : d.reverse with
    | nil => rw [List.reverse_eq_nil_iff] at hr; exact absurd hr hne
    | cons x e =>
      refine ⟨x, e, rfl, ?_⟩
      rw [hr, List.cons_append] at h3
      rw [← (List.cons.inj h3).1]; exact h
  · obtain ⟨x, e, rfl, hx⟩ := hhead
    exact ⟨e.reverse, x, by simp, hx⟩
  · intro e s he hn
    rw [← h4] at he
    -- `e` is a beginning of the allowed symbols
    obtain ⟨f, hf⟩ : ∃ f, c :: cs.takeWhile (allowed ch) = e ++ f := by
      obtain ⟨⟨x, e', rfl, -⟩, -, hal⟩ := hn
      rw [List.cons_append] at he
      obtain ⟨rfl, he'⟩ := List.cons.inj he
      have hal' : ∀ x ∈ e', allowed ch x = true := by
        intro x hx
        unfold allowed
        have := hal x (List.mem_cons_of_mem _ hx)
        simpa [or_assoc] using this
      refine ⟨s.takeWhile (allowed ch), ?_⟩
      rw [he', List.takeWhile_append_of_pos hal', List.cons_append]
    obtain ⟨-, ⟨e', x, rfl, hx⟩, -⟩ := hn
    rw [← hd, hf, List.length_reverse]
    have : (e' ++ [x] ++ f).reverse = f.reverse ++ (x :: e'.reverse) := by simp
    rw [this]
    obtain ⟨g, k1, k2⟩ := dropWhile_split (p := fun c => !ch.isDigit c) (f.reverse ++ (x :: e'.reverse))
    generalize List.dropWhile (fun c => !ch.isDigit c) (f.reverse ++ (x :: e'.reverse)) = z at k1 ⊢
    rcases List.append_eq_append_iff.1 k1 with ⟨u, k3, k4⟩ | ⟨u, k3, k4⟩
    · cases u with
      | nil =>
        rw [List.nil_append] at k4
        rw [← k4]; simp
      | cons y u =>
        rw [List.cons_append] at k4
        have := (List.cons.inj k4).1
        subst this
        have := k2 x (by rw [k3]; simp)
        rw [hx] at this; cases this
    · rw [k4]; simp

theorem leads_unique {d r e s : List Int} (h : Leads ch d r) (h' : Leads ch e s) (he : d ++ r = e ++ s) : d = e ∧ r = s := by
  have h1 := h.2 e s he h'.1
  have h2 := h'.2 d r he.symm h.1
  exact List.append_inj he (by omega)

theorem leads_cons {d r : List Int} (h : Leads ch d r) : ∃ c e, d = c :: e ∧ ch.isDigit c = true := h.1.1

theorem numberLength_leads {d r : List Int} (h : Leads ch d r) : numberLength ch (d ++ r) = d.length := by
  obtain ⟨c, e, rfl, hc⟩ := h.1.1
  obtain ⟨s, h1, h2⟩ := front_spec hc (e ++ r)
  have := (leads_unique h h2 h1).1
  rw [List.cons_append, numberLength_digit hc, ← this]

theorem exists_leads {c : Int} (h : ch.isDigit c = true) (cs : List Int) : ∃ d r, c :: cs = d ++ r ∧ Leads ch d r := by
  obtain ⟨r, h1, h2⟩ := front_spec h cs
  exact ⟨_, r, h1, h2⟩

/-- Every text can be read in one way. -/
theorem exists_items (ch : Chars) (v : List Int) : ∃ its, Items ch v its := by
  suffices ∀ n v, v.length ≤ n → ∃ its, Items ch v its from this _ v le_rfl
  intro n
  induction n with
  | zero =>
    intro v hv
    cases v with
    | nil => exact ⟨_, .nil⟩
    | cons => simp at hv
  | succ n ih =>
    intro v hv
    cases v with
    | nil => exact ⟨_, .nil⟩
    | cons c cs =>
      rw [List.length_cons] at hv
      cases hc : ch.isDigit c with
      | false =>
        obtain ⟨its, h⟩ := ih cs (by omega)
        exact ⟨_, .sym hc h⟩
      | true =>
        obtain ⟨d, r, h1, h2⟩ := exists_leads hc cs
        obtain ⟨x, e, rfl, -⟩ := leads_cons h2
        have := congrArg List.length h1
        simp at this
        obtain ⟨its, h⟩ := ih r (by omega)
        rw [h1]
        exact ⟨_, .num h2 h⟩

theorem items_unique {v : List Int} {its its' : List Item} (h : Items ch v its) (h' : Items ch v its') : its = its' := by
  induction h generalizing its' with
  | nil =>
    generalize e : ([] : List Int) = v at h'
    cases h' with
    | nil => rfl
    | sym => cases e
    | num hl _ =>
      obtain ⟨x, y, rfl, -⟩ := leads_cons hl
      cases e
  | @sym c v its hc h ih =>
    generalize e : c :: v = u at h'
    cases h' with
    | nil => cases e
    | sym hc' h' =>
      cases e
      rw [ih h']
    | num hl _ =>
      obtain ⟨x, y, rfl, hx⟩ := leads_cons hl
      cases e
      rw [hc] at hx; cases hx
  | @num d v its hl h ih =>
    generalize e : d ++ v = u at h'
    cases h' with
    | nil =>
      obtain ⟨x, y, rfl, hx⟩ := leads_cons hl
      cases e
    | sym hc' h' =>
      obtain ⟨x, y, rfl, hx⟩ := leads_cons hl
      cases e
      rw [hc'] at hx; cases hx
    | num hl' h' =>
      obtain ⟨rfl, rfl⟩ := leads_unique hl hl' e
      rw [ih h']

end Verif.Tmx
