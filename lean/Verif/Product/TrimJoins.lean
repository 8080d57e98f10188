import Verif.Product.TrimPlain

/-! # What the trimmer reads, in parts with joins between them -/

namespace Verif.Product

open Verif.Fst Verif.Alphabet

variable {W : Type}

/-- The transducer with joined final states. -/
theorem ready [AddCommMonoid W] {a b : Alphabet} {t trimmer : Transducer W} (h : Trimmable a b t trimmer) (hp : Joining a t) :
    ∃ t', joinFinals 0 t = .ok t' ∧ Ready a b t' trimmer ∧
      (∀ inverted x y w, RelatesDir inverted a t' x y w ↔ RelatesDir inverted a t x y w) ∧
      ∀ q l p, PairEdge a t' q l p → PairEdge a t q l p ∨ (p = Fst.size t ∧ l.1 = (0, 0) ∧ Final t q l.2) := by
  obtain ⟨t', h1, h2, h3, h4, h5, h6, h7⟩ := h.joined
  have hO := h.talpha
  refine ⟨t', h1, ⟨hO, h2, h.gwf, h3, h.gcoded, h4, h.gtags, ?_, ?_⟩, h5, h6⟩
  · intro q l p w u v hm hd
    have key : v ≠ 0x23 ∧ ∀ s ∈ groupTags, ¬ Named a v (.tag s) := by
      rcases h6 q ((u, v), w) p ⟨l, hd, hm⟩ with g | ⟨-, g, -⟩
      · exact hp _ _ _ _ _ g
      · cases g
        refine ⟨by decide, fun s _ hs => ?_⟩
        exact absurd (named_tag.1 hs).1 (by omega)
    refine ⟨?_, key.1⟩
    rw [mem_symLsx hO]
    rintro ⟨s, e1, e2⟩
    exact key.2 s e1 e2
  · rw [mem_symCmp hO]
    rintro (e | ⟨s, -, e⟩)
    · exact absurd e (by decide)
    · exact absurd (named_tag.1 e).1 (by decide)

theorem Plain.joining {a : Alphabet} {t : Transducer W} (h : Plain a t) : Joining a t := by
  intro q x y w r he
  obtain ⟨-, h1, h2⟩ := h _ _ _ _ _ he
  exact ⟨h1, fun s hs => h2 s (List.mem_append.2 (.inl hs))⟩

section
variable {a b : Alphabet} {trimmer : Transducer W}

theorem isCompound_iff (hO : Ok a) {c : Int} (hc : c ≠ 0) : c ∈ symCmpOrEps a ↔ IsCompound a c := by
  rw [mem_symCmp hO]
  simp [hc, IsCompound]

theorem isCompound_ne {c : Int} (h : IsCompound a c) : c ≠ 0 := by
  rintro rfl
  obtain ⟨s, -, h⟩ := h
  exact absurd (named_tag.1 h).1 (by decide)

variable [AddCommMonoid W]

theorem begins_tr {y : List Int} : Begins b trimmer y ↔ ∃ z g q, Tr (dir false b trimmer) trimmer.initial y z g q := by
  constructor
  · rintro ⟨ls, p, h1, rfl⟩
    suffices ∀ q, Path (PairEdge b trimmer) q ls p → ∃ z g, Tr (dir false b trimmer) q ((ls.map (·.1.1)).filter (· ≠ 0)) z g p by
      obtain ⟨z, g, h⟩ := this _ h1
      exact ⟨z, g, p, h⟩
    intro q h
    clear h1
    induction h with
    | nil q => exact ⟨[], 0, .nil _⟩
    | @cons q r p l ls he _ ih =>
      obtain ⟨z, g, ih⟩ := ih
      obtain ⟨⟨x, c⟩, w⟩ := l
      refine ⟨cons0 c z, w + g, ?_⟩
      have := Tr.cons (E := dir false b trimmer) (x := x) (y := c) he ih
      have e : (((((x, c), w) :: ls).map (·.1.1)).filter (· ≠ 0)) = cons0 x ((ls.map (·.1.1)).filter (· ≠ 0)) := by
        unfold cons0
        by_cases h : x = 0 <;> simp [h]
      rw [e]; exact this
  · rintro ⟨z, g, p, h⟩
    suffices ∀ q, Tr (dir false b trimmer) q y z g p → ∃ ls, Path (PairEdge b trimmer) q ls p ∧ y = (ls.map (·.1.1)).filter (· ≠ 0) by
      obtain ⟨ls, h⟩ := this _ h
      exact ⟨ls, p, h⟩
    intro q h'
    clear h
    induction h' with
    | nil q => exact ⟨[], .nil q, rfl⟩
    | @cons q r p x y w v xs ys he _ ih =>
      obtain ⟨ls, h1, h2⟩ := ih
      refine ⟨((x, y), w) :: ls, .cons he h1, ?_⟩
      rw [h2]
      unfold cons0
      by_cases h : x = 0 <;> simp [h]

/-- One part. -/
theorem Covers.reads (hO : Ok a) {y y' : List Int} (h : Covers a b y y') : ∀ {q q' : Nat} {z : List Int} {g : W}, Tr (dir false b trimmer) q y' z g q' →
    ∀ {ys : List Int} {q'' : Nat}, Reads a b trimmer q' ys q'' → Reads a b trimmer q (y ++ ys) q'' := by
  induction h with
  | nil =>
    intro q q' z g h ys q'' hr
    suffices ∀ y', y' = ([] : List Int) → Tr (dir false b trimmer) q y' z g q' → Reads a b trimmer q ([] ++ ys) q'' from this _ rfl h
    intro y' hy h'
    clear h
    induction h' with
    | nil => exact hr
    | @cons q r p x y w v xs ys' he _ ih =>
      by_cases hx : x = 0
      · subst hx
        exact .eps he (ih hr (by simpa using hy))
      · rw [cons0_ne hx] at hy; cases hy
  | skip h1 _ ih =>
    intro q q' z g h ys q'' hr
    exact .skip (isCompound_ne h1) ((isCompound_iff hO (isCompound_ne h1)).2 h1) (ih h hr)
  | @meet c d y y' h1 h2 h3 ih =>
    intro q q' z g h ys q'' hr
    suffices ∀ e, e = d :: y' → Tr (dir false b trimmer) q e z g q' → Reads a b trimmer q ((c :: y) ++ ys) q'' from this _ rfl h
    intro e hy h'
    clear h
    induction h' with
    | nil => cases hy
    | @cons q r p x y1 w v xs ys' he hrest ih' =>
      by_cases hx : x = 0
      · subst hx
        exact .eps he (ih' hr (by simpa using hy))
      · rw [cons0_ne hx] at hy
        cases hy
        have hc := meets_ne_zero h2 hx
        exact .meet (fun h => h1 ((isCompound_iff hO hc).1 h)) he hx h2 (ih hrest hr)

theorem Reads.split (hO : Ok a) {q q' : Nat} {y : List Int} (h : Reads a b trimmer q y q') :
    (∃ y' z g, Covers a b y y' ∧ Tr (dir false b trimmer) q y' z g q') ∨
    ∃ y1 y2 y' z g r, y = y1 ++ 0x2b :: y2 ∧ Covers a b y1 y' ∧ Tr (dir false b trimmer) q y' z g r ∧ Reads a b trimmer trimmer.initial y2 q' := by
  induction h with
  | nil q => exact .inl ⟨[], [], 0, .nil, .nil _⟩
  | @eps q r q' z w y he _ ih =>
    rcases ih with ⟨y', z', g, h1, h2⟩ | ⟨y1, y2, y', z', g, r', h0, h1, h2, h3⟩
    · exact .inl ⟨y', cons0 z z', w + g, h1, .cons (x := 0) he h2⟩
    · exact .inr ⟨y1, y2, y', cons0 z z', w + g, r', h0, h1, .cons (x := 0) he h2, h3⟩
  | @skip q q' c y hc hm _ ih =>
    have hc' := (isCompound_iff hO hc).1 hm
    rcases ih with ⟨y', z', g, h1, h2⟩ | ⟨y1, y2, y', z', g, r', rfl, h1, h2, h3⟩
    · exact .inl ⟨y', z', g, .skip hc' h1, h2⟩
    · exact .inr ⟨c :: y1, y2, y', z', g, r', rfl, .skip hc' h1, h2, h3⟩
  | @join q q' y hr _ => exact .inr ⟨[], y, [], [], 0, q, rfl, .nil, .nil _, hr⟩
  | @meet q r q' c d z w y hm he hd hmeet _ ih =>
    have hc : ¬ IsCompound a c := fun h => hm ((isCompound_iff hO (isCompound_ne h)).2 h)
    have key : ∀ {y' z' g r'}, Tr (dir false b trimmer) r y' z' g r' → Tr (dir false b trimmer) q (d :: y') (cons0 z z') (w + g) r' := by
      intro y' z' g r' h
      have := Tr.cons (E := dir false b trimmer) he h
      rwa [cons0_ne hd] at this
    rcases ih with ⟨y', z', g, h1, h2⟩ | ⟨y1, y2, y', z', g, r', rfl, h1, h2, h3⟩
    · exact .inl ⟨d :: y', _, _, .meet hc hmeet h1, key h2⟩
    · exact .inr ⟨c :: y1, y2, d :: y', _, _, r', rfl, .meet hc hmeet h1, key h2, h3⟩

theorem passed_joined (hO : Ok a) {y : List Int} : Passed a b trimmer y ↔ Joined a b trimmer y := by
  constructor
  · rintro ⟨q, g, h, hf⟩
    induction hn : y.length using Nat.strong_induction_on generalizing y with
    | _ n ih =>
      rcases h.split hO with ⟨y', z, g', h1, h2⟩ | ⟨y1, y2, y', z, g', r, rfl, h1, h2, h3⟩
      · exact ⟨[], y, rfl, by simp, y', z, g' + g, h1, show RelatesDir false b trimmer y' z (g' + g) from relates_tr.2 ⟨_, g', g, h2, hf, rfl⟩⟩
      · obtain ⟨parts, last, rfl, k1, k2⟩ := ih _ (by rw [← hn]; simp; omega) h3 rfl
        refine ⟨y1 :: parts, last, by simp, ?_, k2⟩
        intro p hp
        rcases List.mem_cons.1 hp with rfl | hp
        · exact ⟨y', h1, begins_tr.2 ⟨z, g', r, h2⟩⟩
        · exact k1 p hp
  · rintro ⟨parts, last, rfl, k1, y', z, g, k2, k3⟩
    obtain ⟨q, g1, g2, k4, k5, -⟩ := relates_tr.1 (show RelatesDir false b trimmer y' z g from k3)
    refine ⟨q, g2, ?_, k5⟩
    induction parts with
    | nil => simpa using k2.reads hO k4 (.nil q)
    | cons p parts ih =>
      obtain ⟨p', h1, h2⟩ := k1 p (List.mem_cons_self ..)
      obtain ⟨z', g', r, h2⟩ := begins_tr.1 h2
      have := h1.reads hO h2 (.join (ih fun p hp => k1 p (List.mem_cons_of_mem _ hp)))
      simpa using this

/-- Without joins and marks of compounds there is only one part. -/
theorem joined_plain {y : List Int} (hy : ∀ c ∈ y, c ≠ 0x2b ∧ ¬ IsCompound a c) :
    Joined a b trimmer y ↔ ∃ y' z g, List.Forall₂ (Meets a b) y y' ∧ Relates b trimmer y' z g := by
  have key : ∀ {y : List Int}, (∀ c ∈ y, ¬ IsCompound a c) → ∀ {y'}, Covers a b y y' ↔ List.Forall₂ (Meets a b) y y' := by
    intro y hy y'
    constructor
    · intro h
      induction h with
      | nil => exact .nil
      | skip h1 => exact absurd h1 (hy _ (List.mem_cons_self ..))
      | meet _ h2 _ ih => exact .cons h2 (ih fun c hc => hy c (List.mem_cons_of_mem _ hc))
    · intro h
      induction h with
      | nil => exact .nil
      | cons h1 _ ih => exact .meet (hy _ (List.mem_cons_self ..)) h1 (ih fun c hc => hy c (List.mem_cons_of_mem _ hc))
  constructor
  · rintro ⟨parts, last, rfl, k1, y', z, g, k2, k3⟩
    cases parts with
    | nil =>
      refine ⟨y', z, g, ?_, k3⟩
      simpa using (key (fun c hc => (hy c (by simpa using hc)).2)).1 k2
    | cons p parts => exact absurd rfl (hy 0x2b (by simp)).1
  · rintro ⟨y', z, g, h1, h2⟩
    exact ⟨[], y, rfl, by simp, y', z, g, (key fun c hc => (hy c hc).2).2 h1, h2⟩

theorem Plain.written {t : Transducer W} (h : Plain a t) {x y : List Int} {v : W} (hr : Relates a t x y v) : ∀ c ∈ y, c ≠ 0x2b ∧ ¬ IsCompound a c := by
  obtain ⟨p, u, f, h1, -, -⟩ := relates_tr.1 (show RelatesDir false a t x y v from hr)
  clear hr
  generalize t.initial = q at h1
  induction h1 with
  | nil => simp
  | @cons q r p x y w v xs ys he _ ih =>
    intro c hc
    by_cases hy : y = 0
    · rw [hy, cons0_zero] at hc; exact ih c hc
    · rw [cons0_ne hy] at hc
      rcases List.mem_cons.1 hc with rfl | hc
      · obtain ⟨k1, -, k2⟩ := h _ _ _ _ _ he
        refine ⟨k1, ?_⟩
        rintro ⟨s, hs, hn⟩
        exact k2 s (List.mem_append.2 (.inr hs)) hn
      · exact ih c hc

end

end Verif.Product
