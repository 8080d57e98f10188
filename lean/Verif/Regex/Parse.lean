import Verif.Regex.Build

/-! # How the parts of the compiler read the input -/

namespace Verif.Regex

open Verif.Fst Verif.Alphabet

set_option linter.unusedSectionVars false

section
variable {W : Type}

/-- The first token. -/
def tok (r : List Int) : Int := r.headD fin

@[simp] theorem tok_cons (c : Int) (r : List Int) : tok (c :: r) = c := rfl
@[simp] theorem tok_nil : tok [] = fin := rfl

theorem token_eq (s : St W) : s.token = tok s.input := rfl

theorem fin_reserved : isReserved fin = true := by decide

theorem isReserved_iff (t : Int) : isReserved t = true ↔ t = 40 ∨ t = 41 ∨ t = 91 ∨ t = 93 ∨ t = 42 ∨ t = 63 ∨ t = 43 ∨ t = 45 ∨
    t = 94 ∨ t = 92 ∨ t = 124 ∨ t = fin := by
  simp [isReserved]; tauto

theorem isReserved_false (t : Int) : isReserved t = false ↔ ¬ (t = 40 ∨ t = 41 ∨ t = 91 ∨ t = 93 ∨ t = 42 ∨ t = 63 ∨ t = 43 ∨ t = 45 ∨
    t = 94 ∨ t = 92 ∨ t = 124 ∨ t = fin) := by
  rw [← isReserved_iff]; simp

theorem isLetter_iff (t : Int) : isLetter t = true ↔ isReserved t = false ∨ t = 92 := by
  simp [isLetter]

theorem starts_iff (t : Int) : starts t = true ↔ isLetter t = true ∨ t = 40 ∨ t = 91 := by
  simp [starts, isLetter]; tauto

/-- The tokens that may follow a term without postfix operator. -/
def Follow (t : Int) : Prop := starts t = true ∨ t = 124 ∨ t = fin ∨ t = 41

theorem consume_ok (t : Int) (r : List Int) (s : St W) (h : s.input = t :: r) : consume t s = .ok { s with input := r } := by
  unfold consume
  rw [token_eq, h, tok_cons, if_pos rfl]

theorem consume_inv {t : Int} {s s' : St W} (h : consume t s = .ok s') : ∃ r, s.input = t :: r ∧ s' = { s with input := r } := by
  unfold consume at h
  split at h
  · next ht =>
    split at h
    · cases h
    · next c r hr =>
      cases h
      refine ⟨r, ?_, rfl⟩
      rw [token_eq, hr, tok_cons] at ht
      rw [hr, ht]
  · cases h

theorem consume_ub {t : Int} {s : St W} (h : consume t s = .ub) : s.input = [] ∧ t = fin := by
  unfold consume at h
  split at h
  · next ht =>
    split at h
    · next hr => exact ⟨hr, by rw [token_eq, hr] at ht; exact ht.symm⟩
    · cases h
  · cases h

theorem consume_exception {t : Int} {s : St W} : consume t s ≠ .exception := by
  unfold consume
  split
  · split <;> simp
  · simp

/-! ## Letters -/

theorem reservado_of {s : St W} (h : isReserved s.token = true) : reservado s = consume s.token s := by
  unfold reservado; rw [if_pos h]

theorem letra_ok (c : Int) (r : List Int) (s : St W) (h : s.input = printLetter c ++ r) :
    letra s = .ok { s with input := r, letter := c } := by
  unfold printLetter at h
  unfold letra
  split at h
  · next hc =>
    have h92 : isReserved 92 = true := by decide
    have ht : s.token = 92 := by rw [token_eq, h]; rfl
    rw [ht, h92, if_neg (by simp), if_pos rfl, consume_ok 92 (c :: r) s h, Res.bind_ok]
    rw [reservado_of (by exact hc)]
    exact consume_ok c r _ rfl
  · next hc =>
    have ht : s.token = c := by rw [token_eq, h]; rfl
    rw [ht, if_pos (by simpa using hc)]
    exact consume_ok c r { s with letter := c } h

theorem letra_inv {s s' : St W} (h : letra s = .ok s') :
    ∃ c r, s.input = printLetter c ++ r ∧ s' = { s with input := r, letter := c } := by
  unfold letra at h
  split at h
  · next hc =>
    obtain ⟨r, h1, h2⟩ := consume_inv h
    refine ⟨s.token, r, ?_, h2⟩
    simp only [printLetter]
    rw [if_neg (by simpa using hc)]
    exact h1
  · split at h
    · next hc =>
      obtain ⟨s1, h1, h2⟩ := Res.bind_eq_ok.1 h
      obtain ⟨r, h3, rfl⟩ := consume_inv h1
      unfold reservado at h2
      split at h2
      · next hr =>
        obtain ⟨r', h4, h5⟩ := consume_inv h2
        simp only at h4
        refine ⟨tok r, r', ?_, h5⟩
        have hr' : isReserved (tok r) = true := hr
        simp only [printLetter, hr', if_true]
        rw [h3, h4]
        rfl
      · cases h2
    · cases h

theorem letra_ub {s : St W} (h : letra s = .ub) : s.input = [92] := by
  unfold letra at h
  split at h
  · next hc =>
    have := consume_ub h
    rw [this.2, fin_reserved] at hc
    simp at hc
  · split at h
    · next hc =>
      cases h1 : consume 92 s with
      | ok s1 =>
        rw [h1, Res.bind_ok] at h
        obtain ⟨r, h3, rfl⟩ := consume_inv h1
        unfold reservado at h
        split at h
        · have := (consume_ub h).1
          simp only at this
          rw [h3, this]
        · cases h
      | exit => rw [h1] at h; cases h
      | exception => exact absurd h1 consume_exception
      | ub =>
        have := (consume_ub h1).2
        exact absurd this (by decide)
    · cases h

theorem letra_exception {s : St W} : letra s ≠ .exception := by
  unfold letra
  split
  · exact consume_exception
  · split
    · intro h
      cases h1 : consume 92 s with
      | ok s1 =>
        rw [h1, Res.bind_ok] at h
        unfold reservado at h
        split at h
        · exact consume_exception h
        · cases h
      | exit => rw [h1] at h; cases h
      | exception => exact consume_exception h1
      | ub => rw [h1] at h; cases h
    · simp

theorem printLetter_length (c : Int) : 1 ≤ (printLetter c).length := by
  unfold printLetter; split <;> simp

theorem tok_printLetter (c : Int) (r : List Int) : isLetter (tok (printLetter c ++ r)) = true := by
  rw [isLetter_iff]
  unfold printLetter
  split
  · right; rfl
  · next h => left; simpa using h

/-! ## Postfix operators -/

theorem postop_ok (p : Post) (r : List Int) (s : St W) (h : s.input = p.print ++ r) (h0 : s.postop = 0)
    (hf : p = .none → Follow (tok r)) : postop s = .ok { s with input := r, postop := p.code } := by
  unfold postop
  cases p with
  | none =>
    have hf := hf rfl
    simp only [Post.print, List.nil_append] at h
    have e : s.token = tok r := by rw [token_eq, h]
    rw [e]
    have hne : ∀ c, (c = 42 ∨ c = 63 ∨ c = 43) → tok r ≠ c := by
      intro c hc e
      rw [e] at hf
      rcases hc with rfl | rfl | rfl <;> revert hf <;> unfold Follow <;> decide
    rw [if_neg (hne 42 (by simp)), if_neg (hne 63 (by simp)), if_neg (hne 43 (by simp)), if_pos]
    · rw [← h]; cases s; simp only at h0; subst h0; rfl
    · unfold Follow at hf
      simp only [Bool.or_eq_true, decide_eq_true_eq]
      tauto
  | star =>
    have e : s.token = 42 := by rw [token_eq, h]; rfl
    rw [e, if_pos (by rfl), consume_ok 42 r s h]; rfl
  | plus =>
    have e : s.token = 43 := by rw [token_eq, h]; rfl
    rw [e, if_neg (by decide), if_neg (by decide), if_pos (by rfl), consume_ok 43 r s h]; rfl
  | opt =>
    have e : s.token = 63 := by rw [token_eq, h]; rfl
    rw [e, if_neg (by decide), if_pos (by rfl), consume_ok 63 r s h]; rfl

theorem postop_inv {s s' : St W} (h : postop s = .ok s') (h0 : s.postop = 0) :
    ∃ (p : Post) (r : List Int), s.input = p.print ++ r ∧ s' = { s with input := r, postop := p.code } ∧ (p = .none → Follow (tok r)) := by
  unfold postop at h
  split at h
  · obtain ⟨s1, h1, h2⟩ := Res.bind_eq_ok.1 h
    obtain ⟨r, h3, rfl⟩ := consume_inv h1
    cases h2
    exact ⟨.star, r, h3, rfl, by simp⟩
  · split at h
    · obtain ⟨s1, h1, h2⟩ := Res.bind_eq_ok.1 h
      obtain ⟨r, h3, rfl⟩ := consume_inv h1
      cases h2
      exact ⟨.opt, r, h3, rfl, by simp⟩
    · split at h
      · obtain ⟨s1, h1, h2⟩ := Res.bind_eq_ok.1 h
        obtain ⟨r, h3, rfl⟩ := consume_inv h1
        cases h2
        exact ⟨.plus, r, h3, rfl, by simp⟩
      · split at h
        · next hf =>
          cases h
          refine ⟨.none, s.input, rfl, ?_, fun _ => ?_⟩
          · cases s; simp only at h0; subst h0; rfl
          · simp only [Bool.or_eq_true, decide_eq_true_eq] at hf
            unfold Follow
            rw [token_eq] at hf
            tauto
        · cases h

theorem postop_total {s : St W} : (∃ s', postop s = .ok s') ∨ postop s = .exit := by
  have key : ∀ t, s.token = t → t ≠ fin → ∃ s', consume t s = .ok s' := by
    intro t ht hne
    cases hi : s.input with
    | nil => rw [token_eq, hi] at ht; exact absurd ht.symm hne
    | cons c r =>
      rw [token_eq, hi, tok_cons] at ht
      exact ⟨_, consume_ok t r s (by rw [hi, ht])⟩
  unfold postop
  split
  · next h => obtain ⟨s1, h1⟩ := key _ h (by decide); rw [h1]; exact .inl ⟨_, rfl⟩
  · split
    · next h => obtain ⟨s1, h1⟩ := key _ h (by decide); rw [h1]; exact .inl ⟨_, rfl⟩
    · split
      · next h => obtain ⟨s1, h1⟩ := key _ h (by decide); rw [h1]; exact .inl ⟨_, rfl⟩
      · split
        · exact .inl ⟨_, rfl⟩
        · exact .inr rfl

/-! ## Classes -/

theorem mem_rangeInsert (n : Nat) (lo : Int) (b : List Int) (c : Int) :
    c ∈ (List.range n).foldl (fun (b : List Int) (i : Nat) => setInsert (lo + (i : Int)) b) b ↔ c ∈ b ∨ (lo ≤ c ∧ c < lo + n) := by
  induction n with
  | zero => simp
  | succ n ih =>
    rw [List.range_succ, List.foldl_append]
    simp only [List.foldl_cons, List.foldl_nil]
    rw [mem_setInsert, ih]
    constructor
    · rintro (h | h | h)
      · right; omega
      · exact .inl h
      · right; omega
    · rintro (h | h)
      · exact .inr (.inl h)
      · by_cases he : c = lo + n
        · exact .inl he
        · right; right; omega

/-- The tokens that may follow a single character in a class. -/
def ItemFollow (t : Int) : Prop := isLetter t = true ∨ t = 93

theorem colaLetra_none {s : St W} (h : s.token ≠ 45) (hf : ItemFollow s.token) : colaLetra s = .ok s := by
  unfold colaLetra
  rw [if_neg h, if_pos (by unfold ItemFollow at hf; simpa using hf)]

theorem colaLetra_range (c : Int) (r : List Int) (s : St W) (h : s.input = 45 :: (printLetter c ++ r)) :
    colaLetra s = .ok { s with input := r, letter := c } := by
  unfold colaLetra
  have e : s.token = 45 := by rw [token_eq, h]; rfl
  rw [if_pos e, consume_ok 45 _ s h, Res.bind_ok, letra_ok c r _ rfl]

theorem elem_ok (i : Item) (hv : i.Valid) (r : List Int) (s : St W) (h : s.input = i.print ++ r) (hf : ItemFollow (tok r)) :
    ∃ l b, elem s = .ok { s with input := r, letter := l, brackets := b } ∧ ∀ c, c ∈ b ↔ c ∈ s.brackets ∨ i.Has c := by
  unfold elem
  have h45 : tok r ≠ 45 := by
    intro e; rw [e] at hf; revert hf; unfold ItemFollow; decide
  cases i with
  | one d =>
    simp only [Item.print] at h
    refine ⟨d, _, ?_, fun c => mem_rangeInsert (d - d + 1).toNat d s.brackets c |>.trans ?_⟩
    · rw [token_eq, h, if_pos (tok_printLetter d r), letra_ok d r s h, Res.bind_ok]
      rw [colaLetra_none (by exact h45) (by exact hf), Res.bind_ok]
      simp only [gt_iff_lt, lt_irrefl, if_false]
      rw [if_neg hv]
      rfl
    · simp only [Item.Has]
      refine or_congr Iff.rfl ?_
      have : ((d - d + 1).toNat : Int) = 1 := by simp
      omega
  | range lo hi =>
    simp only [Item.print, List.append_assoc, List.cons_append] at h
    obtain ⟨hle, hne⟩ := hv
    refine ⟨hi, _, ?_, fun c => mem_rangeInsert (hi - lo + 1).toNat lo s.brackets c |>.trans ?_⟩
    · rw [token_eq, h, if_pos (tok_printLetter lo _), letra_ok lo _ s h, Res.bind_ok]
      rw [colaLetra_range hi r _ rfl, Res.bind_ok]
      simp only [gt_iff_lt]
      rw [if_neg (by omega), if_neg hne]
      rfl
    · simp only [Item.Has]
      refine or_congr Iff.rfl ?_
      omega

theorem elem_inv {s s' : St W} (h : elem s = .ok s') :
    ∃ (i : Item) (r : List Int) (l : Int) (b : List Int), i.Valid ∧ s.input = i.print ++ r ∧ s' = { s with input := r, letter := l, brackets := b } ∧
      ∀ c, c ∈ b ↔ c ∈ s.brackets ∨ i.Has c := by
  unfold elem at h
  split at h
  · obtain ⟨s1, h1, h2⟩ := Res.bind_eq_ok.1 h
    obtain ⟨d, r, h3, rfl⟩ := letra_inv h1
    obtain ⟨s2, h4, h5⟩ := Res.bind_eq_ok.1 h2
    unfold colaLetra at h4
    split at h4
    · obtain ⟨s3, h6, h7⟩ := Res.bind_eq_ok.1 h4
      obtain ⟨r', h8, rfl⟩ := consume_inv h6
      simp only at h8
      obtain ⟨d', r'', h9, rfl⟩ := letra_inv h7
      simp only at h9 h5
      split at h5
      · cases h5
      · split at h5
        · cases h5
        · next h10 h11 =>
          cases h5
          refine ⟨.range d d', r'', d', _, ⟨by omega, h11⟩, ?_, rfl, fun c => (mem_rangeInsert _ _ _ _).trans ?_⟩
          · simp only [Item.print]; rw [h3, h8, h9]; simp
          · simp only [Item.Has]
            refine or_congr Iff.rfl ?_
            omega
    · split at h4
      · cases h4
        simp only [gt_iff_lt, lt_irrefl, if_false] at h5
        split at h5
        · cases h5
        · next h11 =>
          cases h5
          refine ⟨.one d, r, d, _, h11, h3, rfl, fun c => (mem_rangeInsert _ _ _ _).trans ?_⟩
          simp only [Item.Has]
          refine or_congr Iff.rfl ?_
          have : ((d - d + 1).toNat : Int) = 1 := by simp
          omega
      · cases h4
  · cases h

/-- What makes the behaviour undefined: a backslash at the end, or the code of the end among the tokens. -/
def Bad (r : List Int) : Prop := r.getLast? = some 92 ∨ fin ∈ r

theorem Bad.append {r : List Int} (h : Bad r) (x : List Int) : Bad (x ++ r) := by
  rcases h with h | h
  · left; rw [List.getLast?_append, h]; rfl
  · right; exact List.mem_append_right _ h

theorem mem_printLetter (c : Int) : c ∈ printLetter c := by unfold printLetter; split <;> simp

theorem colaLetra_ub {s : St W} (h : colaLetra s = .ub) : Bad s.input := by
  unfold colaLetra at h
  split at h
  · cases h2 : consume 45 s with
    | ok s2 =>
      rw [h2, Res.bind_ok] at h
      obtain ⟨r', h4, rfl⟩ := consume_inv h2
      have := letra_ub h
      simp only at this
      rw [h4, this]
      left; rfl
    | exit => rw [h2] at h; cases h
    | exception => exact absurd h2 consume_exception
    | ub => have := (consume_ub h2).2; exact absurd this (by decide)
  · split at h <;> cases h

theorem colaLetra_inv {s s' : St W} (h : colaLetra s = .ok s') : s' = s ∨
    ∃ c r, s.input = 45 :: (printLetter c ++ r) ∧ s' = { s with input := r, letter := c } := by
  unfold colaLetra at h
  split at h
  · obtain ⟨s3, h6, h7⟩ := Res.bind_eq_ok.1 h
    obtain ⟨r', h8, rfl⟩ := consume_inv h6
    obtain ⟨d', r'', h9, rfl⟩ := letra_inv h7
    simp only at h9
    exact .inr ⟨d', r'', by rw [h8, h9], rfl⟩
  · split at h
    · cases h; exact .inl rfl
    · cases h

theorem elem_ub {s : St W} (h : elem s = .ub) : Bad s.input := by
  unfold elem at h
  split at h
  · cases h1 : letra s with
    | ok s1 =>
      rw [h1, Res.bind_ok] at h
      obtain ⟨d, r, h3, rfl⟩ := letra_inv h1
      rw [h3]
      simp only at h
      cases h2 : colaLetra ({ s with input := r, letter := d } : St W) with
      | ok s2 =>
        rw [h2, Res.bind_ok] at h
        rcases colaLetra_inv h2 with rfl | ⟨c, r', h4, rfl⟩
        · simp only [gt_iff_lt, lt_irrefl, if_false] at h
          split at h
          · next hf =>
            right
            subst hf
            have := mem_printLetter fin
            simp [this]
          · cases h
        · simp only at h4 h
          split at h
          · cases h
          · split at h
            · next hf =>
              rw [h4]
              right
              subst hf
              have := mem_printLetter fin
              simp [this]
            · cases h
      | exit => rw [h2] at h; cases h
      | exception => rw [h2] at h; cases h
      | ub => exact (colaLetra_ub h2).append _
    | exit => rw [h1] at h; cases h
    | exception => exact absurd h1 letra_exception
    | ub => rw [letra_ub h1]; left; rfl
  · cases h

theorem elem_exception {s : St W} : elem s ≠ .exception := by
  intro h
  unfold elem at h
  split at h
  · cases h1 : letra s with
    | ok s1 =>
      rw [h1, Res.bind_ok] at h
      cases h2 : colaLetra s1 with
      | ok s2 =>
        rw [h2, Res.bind_ok] at h
        simp only at h
        split at h
        · cases h
        · split at h <;> cases h
      | exit => rw [h2] at h; cases h
      | exception =>
        unfold colaLetra at h2
        split at h2
        · cases h3 : consume 45 s1 with
          | ok s3 => rw [h3, Res.bind_ok] at h2; exact letra_exception h2
          | exit => rw [h3] at h2; cases h2
          | exception => exact consume_exception h3
          | ub => rw [h3] at h2; cases h2
        · split at h2 <;> cases h2
      | ub => rw [h2] at h; cases h
    | exit => rw [h1] at h; cases h
    | exception => exact letra_exception h1
    | ub => rw [h1] at h; cases h
  · cases h

theorem tok_item (i : Item) (r : List Int) : isLetter (tok (i.print ++ r)) = true := by
  cases i with
  | one c => exact tok_printLetter c r
  | range lo hi => simp only [Item.print, List.append_assoc]; exact tok_printLetter lo _

theorem item_length (i : Item) : 1 ≤ i.print.length := by
  cases i with
  | one c => exact printLetter_length c
  | range lo hi => simp only [Item.print, List.length_append, List.length_cons]; omega

theorem listed_cons (i : Item) (is : List Item) (c : Int) : Listed (i :: is) c ↔ i.Has c ∨ Listed is c := by
  simp [Listed]

theorem lista_ok (items : List Item) (hv : ∀ i ∈ items, i.Valid) (r : List Int) (s : St W) (fuel : Nat)
    (h : s.input = items.flatMap Item.print ++ 93 :: r) (hf : s.input.length < fuel) :
    ∃ l b, lista fuel s = .ok { s with input := 93 :: r, letter := l, brackets := b } ∧ ∀ c, c ∈ b ↔ c ∈ s.brackets ∨ Listed items c := by
  induction items generalizing s fuel with
  | nil =>
    simp only [List.flatMap_nil, List.nil_append] at h
    obtain ⟨f, rfl⟩ : ∃ f, fuel = f + 1 := ⟨fuel - 1, by omega⟩
    refine ⟨s.letter, s.brackets, ?_, by simp [Listed]⟩
    simp only [lista]
    have e : s.token = 93 := by rw [token_eq, h]; rfl
    rw [e, if_neg (by decide), if_pos rfl, ← h]
  | cons i is ih =>
    simp only [List.flatMap_cons, List.append_assoc] at h
    obtain ⟨f, rfl⟩ : ∃ f, fuel = f + 1 := ⟨fuel - 1, by omega⟩
    have hfol : ItemFollow (tok (is.flatMap Item.print ++ 93 :: r)) := by
      cases is with
      | nil => right; rfl
      | cons j js => left; simp only [List.flatMap_cons, List.append_assoc]; exact tok_item j _
    obtain ⟨l, b, h1, h2⟩ := elem_ok i (hv i (by simp)) _ s h hfol
    have hlen : s.input.length = i.print.length + (is.flatMap Item.print ++ 93 :: r).length := by rw [h, List.length_append]
    have := item_length i
    obtain ⟨l', b', h3, h4⟩ := ih (fun j hj => hv j (List.mem_cons_of_mem _ hj))
      { s with input := is.flatMap Item.print ++ 93 :: r, letter := l, brackets := b } f rfl (by simp only; omega)
    refine ⟨l', b', ?_, ?_⟩
    · simp only [lista]
      rw [token_eq, h, if_pos (tok_item i _), h1, Res.bind_ok, h3]
    · intro c
      rw [h4, h2, listed_cons, or_assoc]

theorem lista_inv {fuel : Nat} {s s' : St W} (h : lista fuel s = .ok s') :
    ∃ (items : List Item) (r : List Int) (l : Int) (b : List Int), (∀ i ∈ items, i.Valid) ∧ s.input = items.flatMap Item.print ++ 93 :: r ∧
      s' = { s with input := 93 :: r, letter := l, brackets := b } ∧ ∀ c, c ∈ b ↔ c ∈ s.brackets ∨ Listed items c := by
  induction fuel generalizing s with
  | zero => cases h
  | succ f ih =>
    simp only [lista] at h
    split at h
    · obtain ⟨s1, h1, h2⟩ := Res.bind_eq_ok.1 h
      obtain ⟨i, r, l, b, h3, h4, rfl, h5⟩ := elem_inv h1
      obtain ⟨items, r', l', b', h6, h7, rfl, h8⟩ := ih h2
      simp only at h7 h8
      refine ⟨i :: items, r', l', b', ?_, ?_, rfl, ?_⟩
      · intro j hj
        rcases List.mem_cons.1 hj with rfl | hj
        · exact h3
        · exact h6 j hj
      · rw [h4, h7]; simp
      · intro c
        rw [h8, h5, listed_cons, or_assoc]
    · split at h
      · next h93 =>
        have h' := Res.ok.inj h
        subst h'
        rw [token_eq] at h93
        obtain ⟨r, hr⟩ : ∃ r, s.input = 93 :: r := by
          cases hi : s.input with
          | nil => rw [hi] at h93; exact absurd h93 (by decide)
          | cons c r => rw [hi, tok_cons] at h93; exact ⟨r, by rw [h93]⟩
        exact ⟨[], r, s.letter, s.brackets, by simp, hr, by rw [← hr], by simp [Listed]⟩
      · cases h

theorem lista_total {fuel : Nat} {s : St W} (hf : s.input.length < fuel) :
    (∃ s', lista fuel s = .ok s') ∨ lista fuel s = .exit ∨ (lista fuel s = .ub ∧ Bad s.input) := by
  induction fuel generalizing s with
  | zero => omega
  | succ f ih =>
    simp only [lista]
    split
    · cases h1 : elem s with
      | ok s1 =>
        obtain ⟨i, r, l, b, h3, h4, rfl, h5⟩ := elem_inv h1
        have := item_length i
        rw [Res.bind_ok]
        rcases ih (s := { s with input := r, letter := l, brackets := b }) (by
          rw [h4, List.length_append] at hf; simp only; omega) with h | h | ⟨h, hb⟩
        · exact .inl h
        · exact .inr (.inl h)
        · exact .inr (.inr ⟨h, by rw [h4]; exact hb.append _⟩)
      | exit => exact .inr (.inl rfl)
      | exception => exact absurd h1 elem_exception
      | ub => exact .inr (.inr ⟨rfl, elem_ub h1⟩)
    · split
      · exact .inl ⟨_, rfl⟩
      · exact .inr (.inl rfl)

end

end Verif.Regex
