import Verif.Tmx.Numbers
import Mathlib.Data.Nat.Digits.Lemmas

/-! # The treatment of numbers -/

namespace Verif.Tmx

variable {ch : Chars}

theorem numberTag_eq : numberTag = -1 := by decide
theorem blankTag_eq : blankTag = -2 := by decide

theorem origin_skip (d r : List Int) (i : Nat) : alignOrigin ch i d.length (d ++ r) = alignOrigin ch (i + d.length) 0 r := by
  induction d generalizing i with
  | nil => rfl
  | cons c d ih =>
    rw [List.length_cons, List.cons_append, alignOrigin, ih]
    congr 1
    omega

/-- Where the numbers stand. -/
def Places (origin : List Int) : List (Nat × Nat) → List (List Int) → Prop :=
  List.Forall₂ fun p d => p.2 = d.length ∧ ∃ r, origin.drop p.1 = d ++ r

theorem origin_spec {origin v : List Int} {its : List Item} (h : Items ch v its) : ∀ i, origin.drop i = v →
    (alignOrigin ch i 0 v).1 = tagged its ∧ Places origin (alignOrigin ch i 0 v).2 (numbers its) := by
  induction h with
  | nil => intro i _; exact ⟨rfl, .nil⟩
  | @sym c v its hc _ ih =>
    intro i hi
    have := ih (i + 1) (by rw [← List.tail_drop, hi]; rfl)
    rw [alignOrigin]
    simp only [numberLength_symbol hc, ne_eq, not_true_eq_false, if_false]
    refine ⟨?_, this.2⟩
    show c :: _ = c :: _
    rw [this.1]; rfl
  | @num d v its hl _ ih =>
    intro i hi
    obtain ⟨c, e, rfl, hc⟩ := leads_cons hl
    have hlen := numberLength_leads hl
    have := ih (i + (c :: e).length) (by rw [← List.drop_drop, hi]; simp)
    rw [List.cons_append] at hlen ⊢
    rw [alignOrigin]
    simp only [hlen, List.length_cons, ne_eq, Nat.add_eq_zero_iff, one_ne_zero, and_false, not_false_eq_true, if_true, Nat.add_sub_cancel]
    rw [origin_skip]
    have e1 : i + 1 + e.length = i + (c :: e).length := by rw [List.length_cons]; omega
    rw [e1]
    refine ⟨?_, .cons ⟨rfl, v, by rw [hi]⟩ this.2⟩
    show numberTag :: _ = -1 :: _
    rw [this.1, numberTag_eq]
    rfl

theorem vectorcmp_spec {d e : List Int} (h : e.length = d.length) (a b : List Int) : vectorcmp (e ++ a) (d ++ b) d.length = .ok (decide (e = d)) := by
  induction d generalizing e with
  | nil =>
    have : e = [] := List.length_eq_zero_iff.1 h
    subst this
    simp [vectorcmp]
  | cons c d ih =>
    cases e with
    | nil => cases h
    | cons x e =>
      rw [List.cons_append, List.cons_append, List.length_cons, vectorcmp]
      by_cases hx : x = c
      · subst hx
        rw [if_neg (by simp), ih (by simpa using h)]
        simp
      · rw [if_pos hx]
        simp [hx]

theorem findNumber_spec {origin : List Int} {nums : List (Nat × Nat)} {ns : List (List Int)} (h : Places origin nums ns) (d v : List Int) : ∀ j,
    (∃ k, First ns d k ∧ findNumber origin (d ++ v) d.length j nums = .ok (some (j + k))) ∨ (d ∉ ns ∧ findNumber origin (d ++ v) d.length j nums = .ok none) := by
  induction h with
  | nil => intro j; exact .inr ⟨by simp, rfl⟩
  | @cons p e nums ns hp _ ih =>
    intro j
    obtain ⟨h1, r, h2⟩ := hp
    have next : e ≠ d → findNumber origin (d ++ v) d.length j (p :: nums) = findNumber origin (d ++ v) d.length (j + 1) nums →
        (∃ k, First (e :: ns) d k ∧ findNumber origin (d ++ v) d.length j (p :: nums) = .ok (some (j + k))) ∨
          (d ∉ e :: ns ∧ findNumber origin (d ++ v) d.length j (p :: nums) = .ok none) := by
      intro hne e1
      rw [e1]
      rcases ih (j + 1) with ⟨k, ⟨k1, k2⟩, k3⟩ | ⟨k1, k2⟩
      · refine .inl ⟨k + 1, ⟨by simpa using k1, fun i hi => ?_⟩, by rw [k3]; congr 2; omega⟩
        cases i with
        | zero => simpa using hne
        | succ i => simpa using k2 i (by omega)
      · refine .inr ⟨?_, k2⟩
        rw [List.mem_cons]
        rintro (rfl | h)
        · exact hne rfl
        · exact k1 h
    by_cases hl : d.length = p.2
    · have e0 : findNumber origin (d ++ v) d.length j (p :: nums) = if decide (e = d) then .ok (some j) else findNumber origin (d ++ v) d.length (j + 1) nums := by
        rw [findNumber, if_pos hl, h2, vectorcmp_spec (by omega)]
        rfl
      by_cases he : e = d
      · refine .inl ⟨0, ⟨by simpa using he, fun j hj => absurd hj (by omega)⟩, ?_⟩
        rw [e0]; simp [he]
      · refine next he ?_
        rw [e0]; simp [he]
    · refine next ?_ ?_
      · rintro rfl; exact hl h1.symm
      · rw [findNumber, if_neg hl]

theorem meta_skip {origin : List Int} {nums : List (Nat × Nat)} (d r : List Int) (i : Nat) :
    alignMeta ch origin nums i d.length 0 (d ++ r) = alignMeta ch origin nums (i + d.length) 0 0 r := by
  induction d generalizing i with
  | nil => rfl
  | cons c d ih =>
    rw [List.length_cons, List.cons_append, alignMeta, ih]
    congr 1
    omega

theorem meta_copy {origin : List Int} {nums : List (Nat × Nat)} (d r : List Int) (i : Nat) :
    alignMeta ch origin nums i 0 d.length (d ++ r) = (alignMeta ch origin nums (i + d.length) 0 0 r >>= fun x => pure (x.map (d ++ ·))) := by
  induction d generalizing i with
  | nil =>
    simp only [List.length_nil, List.nil_append, Nat.add_zero]
    cases alignMeta ch origin nums i 0 0 r with
    | ok x => cases x <;> rfl
    | _ => rfl
  | cons c d ih =>
    rw [List.length_cons, List.cons_append, alignMeta, ih]
    have : i + 1 + d.length = i + (d.length + 1) := by omega
    rw [this]
    cases alignMeta ch origin nums (i + (d.length + 1)) 0 0 r with
    | ok x => cases x <;> rfl
    | _ => rfl

theorem decimal_spec {k : Nat} (h : k < 10 ^ 8) : decimal k = .ok ((Nat.digits 10 k).reverse.map fun d : Nat => 48 + (d : Int)) := by
  unfold decimal
  have : ((Nat.digits 10 k).reverse.map fun d : Nat => 48 + (d : Int)).length ≤ 8 := by
    rw [List.length_map, List.length_reverse]
    exact (Nat.digits_length_le_iff (by norm_num) k).2 h
  simp only
  rw [if_pos this]

theorem first_lt {ns : List (List Int)} {d : List Int} {k : Nat} (h : First ns d k) : k < ns.length := by
  obtain ⟨h, -⟩ := List.getElem?_eq_some_iff.1 h.1
  exact h

theorem first_unique {ns : List (List Int)} {d : List Int} {k k' : Nat} (h : First ns d k) (h' : First ns d k') : k = k' := by
  rcases Nat.lt_trichotomy k k' with hlt | rfl | hlt
  · exact absurd h.1 (h'.2 k hlt)
  · rfl
  · exact absurd h'.1 (h.2 k' hlt)

/-- The loop does what `Told` says. -/
theorem meta_told {origin : List Int} {nums : List (Nat × Nat)} {ns : List (List Int)} (hp : Places origin nums ns) (hf : ns.length < 10 ^ 8) :
    ∀ n v i, v.length ≤ n → ∃ r, Told ch ns i v r ∧ alignMeta ch origin nums i 0 0 v = .ok r := by
  intro n
  induction n with
  | zero =>
    intro v i hv
    cases v with
    | nil => exact ⟨_, .nil i, rfl⟩
    | cons => simp at hv
  | succ n ih =>
    intro v i hv
    cases v with
    | nil => exact ⟨_, .nil i, rfl⟩
    | cons c cs =>
      rw [List.length_cons] at hv
      cases hc : ch.isDigit c with
      | false =>
        obtain ⟨r, h1, h2⟩ := ih cs (i + 1) (by omega)
        refine ⟨_, .sym hc h1, ?_⟩
        rw [alignMeta]
        simp only [numberLength_symbol hc, ne_eq, not_true_eq_false, if_false]
        rw [h2]; rfl
      | true =>
        obtain ⟨d, v, h1, h2⟩ := exists_leads hc cs
        have hlen := numberLength_leads h2
        have hfind := findNumber_spec hp d v 0
        obtain ⟨x, e, rfl, -⟩ := leads_cons h2
        rw [List.cons_append] at h1 hlen hfind
        obtain ⟨rfl, rfl⟩ := List.cons.inj h1
        rw [List.length_append] at hv
        rcases hfind with ⟨k, k1, k2⟩ | ⟨k1, k2⟩
        · obtain ⟨r, g1, g2⟩ := ih v (i + (c :: e).length) (by omega)
          refine ⟨_, .known h2 k1 g1, ?_⟩
          rw [alignMeta]
          simp only [hlen]
          rw [if_pos (by simp), k2]
          simp only [Res.bind_ok, List.length_cons, Nat.add_sub_cancel, Nat.zero_add]
          have hk := first_lt k1
          rw [decimal_spec (by omega)]
          simp only [Res.bind_ok]
          rw [meta_skip]
          have : i + 1 + e.length = i + (c :: e).length := by rw [List.length_cons]; omega
          rw [this, g2]
          simp only [Res.bind_ok, reference]
          cases r <;> simp
        · by_cases hi : (c :: e).length ≤ i
          · refine ⟨_, .far h2 k1 hi, ?_⟩
            rw [alignMeta]
            simp only [hlen]
            rw [if_pos (by simp), k2]
            simp only [Res.bind_ok]
            rw [if_pos hi]; rfl
          · -- the number is split at the position that equals its length
            rw [List.length_cons] at hi
            obtain ⟨a, b, e1, e2⟩ : ∃ a b, e = a ++ b ∧ b.length = i := ⟨e.take (e.length - i), e.drop (e.length - i), by simp, by rw [List.length_drop]; omega⟩
            subst e1
            rw [List.length_append] at hi hv
            obtain ⟨r, g1, g2⟩ := ih (b ++ v) (i + (c :: a).length) (by rw [List.length_append]; omega)
            refine ⟨r.map (c :: a ++ ·), ?_, ?_⟩
            · have : c :: (a ++ b) ++ v = (c :: a) ++ (b ++ v) := by simp
              rw [← List.cons_append, this]
              exact .near (by simpa using h2) (by simpa using k1) (by simp) e2 g1
            · rw [alignMeta]
              simp only [hlen]
              rw [if_pos (by simp), k2]
              simp only [Res.bind_ok]
              rw [if_neg (by rw [List.length_cons, List.length_append]; omega)]
              have e3 : (c :: (a ++ b)).length - i - 1 = a.length := by rw [List.length_cons, List.length_append]; omega
              rw [e3, List.append_assoc, meta_copy]
              have : i + 1 + a.length = i + (c :: a).length := by rw [List.length_cons]; omega
              rw [this, g2]
              cases r <;> rfl

theorem align_spec (o m : List Int) (hf : Few ch o) : ∃ o' m', align ch o m = .ok (o', m') ∧ Aligned ch o m o' m' := by
  obtain ⟨its, h⟩ := exists_items ch o
  obtain ⟨h1, h2⟩ := origin_spec (origin := o) h 0 rfl
  obtain ⟨r, h3, h4⟩ := meta_told (ch := ch) h2 (hf its h) _ m 0 le_rfl
  unfold align
  rcases hA : alignOrigin ch 0 0 o with ⟨oo, nums⟩
  rw [hA] at h1 h4
  simp only at h1 h4 ⊢
  rw [h4]
  cases r with
  | none => exact ⟨o, m, rfl, its, _, h, h3, .inr ⟨rfl, rfl, rfl⟩⟩
  | some m' => exact ⟨_, m', rfl, its, _, h, h3, .inl ⟨rfl, h1⟩⟩

theorem cons_append_leads {c : Int} {cs d v : List Int} (hc : ch.isDigit c = false) (hl : Leads ch d v) : c :: cs ≠ d ++ v := by
  obtain ⟨x, e, rfl, hx⟩ := leads_cons hl
  intro h
  cases h
  rw [hc] at hx; cases hx

/-- `Told` leaves no choice. -/
theorem told_unique {ns : List (List Int)} {i : Nat} {v : List Int} {r r' : Option (List Int)} (h : Told ch ns i v r) (h' : Told ch ns i v r') : r = r' := by
  induction h generalizing r' with
  | nil i =>
    generalize e : ([] : List Int) = u at h'
    cases h' with
    | nil => rfl
    | sym => cases e
    | known hl _ _ => obtain ⟨x, y, rfl, -⟩ := leads_cons hl; cases e
    | far hl _ _ => obtain ⟨x, y, rfl, -⟩ := leads_cons hl; cases e
    | near hl _ hd _ _ => exact absurd (List.append_eq_nil_iff.1 e.symm).1 hd
  | @sym i c v r hc h ih =>
    generalize e : c :: v = u at h'
    cases h' with
    | nil => cases e
    | sym _ h' => cases e; rw [ih h']
    | known hl _ _ => exact absurd e (cons_append_leads hc hl)
    | far hl _ _ => exact absurd e (cons_append_leads hc hl)
    | near hl _ _ _ _ => rw [← List.append_assoc] at e; exact absurd e (cons_append_leads hc hl)
  | @known i k d v r hl hk h ih =>
    generalize e : d ++ v = u at h'
    cases h' with
    | nil => obtain ⟨x, y, rfl, -⟩ := leads_cons hl; cases e
    | sym hc _ => exact absurd e.symm (cons_append_leads hc hl)
    | known hl' hk' h' =>
      obtain ⟨rfl, rfl⟩ := leads_unique hl hl' e
      rw [first_unique hk hk', ih h']
    | far hl' hn _ =>
      obtain ⟨rfl, rfl⟩ := leads_unique hl hl' e
      exact absurd (List.mem_of_getElem? hk.1) hn
    | near hl' hn _ _ _ =>
      rw [← List.append_assoc] at e
      obtain ⟨rfl, rfl⟩ := leads_unique hl hl' e
      exact absurd (List.mem_of_getElem? hk.1) hn
  | @far i d v hl hn hi =>
    generalize e : d ++ v = u at h'
    cases h' with
    | nil => obtain ⟨x, y, rfl, -⟩ := leads_cons hl; cases e
    | sym hc _ => exact absurd e.symm (cons_append_leads hc hl)
    | known hl' hk' h' =>
      obtain ⟨rfl, rfl⟩ := leads_unique hl hl' e
      exact absurd (List.mem_of_getElem? hk'.1) hn
    | far hl' _ _ => rfl
    | near hl' hn' hd he _ =>
      rw [← List.append_assoc] at e
      obtain ⟨rfl, rfl⟩ := leads_unique hl hl' e
      rename_i d' _ _ _
      rw [List.length_append] at hi
      have := List.length_pos_of_ne_nil hd
      omega
  | @near i d e' v r hl hn hd he h ih =>
    generalize e : d ++ (e' ++ v) = u at h'
    cases h' with
    | nil => cases d with | nil => exact absurd rfl hd | cons => cases e
    | sym hc _ => rw [← List.append_assoc] at e; exact absurd e.symm (cons_append_leads hc hl)
    | known hl' hk' h' =>
      rw [← List.append_assoc] at e
      obtain ⟨rfl, rfl⟩ := leads_unique hl hl' e
      exact absurd (List.mem_of_getElem? hk'.1) hn
    | far hl' _ hi =>
      rw [← List.append_assoc] at e
      obtain ⟨rfl, rfl⟩ := leads_unique hl hl' e
      rw [List.length_append] at hi
      have := List.length_pos_of_ne_nil hd
      omega
    | near hl' _ hd' he' h' =>
      rw [← List.append_assoc, ← List.append_assoc] at e
      obtain ⟨e1, rfl⟩ := leads_unique hl hl' e
      obtain ⟨rfl, rfl⟩ := List.append_inj' e1 (by omega)
      rw [ih h']

theorem aligned_unique {o m o1 m1 o2 m2 : List Int} (h : Aligned ch o m o1 m1) (h' : Aligned ch o m o2 m2) : o1 = o2 ∧ m1 = m2 := by
  obtain ⟨its, r, h1, h2, h3⟩ := h
  obtain ⟨its', r', h1', h2', h3'⟩ := h'
  have := items_unique h1 h1'
  subst this
  have := told_unique h2 h2'
  subst this
  rcases h3 with ⟨rfl, rfl⟩ | ⟨rfl, rfl, rfl⟩ <;> rcases h3' with ⟨h, rfl⟩ | ⟨h, rfl, rfl⟩
  · cases h; exact ⟨rfl, rfl⟩
  · cases h
  · cases h
  · exact ⟨rfl, rfl⟩

end Verif.Tmx
