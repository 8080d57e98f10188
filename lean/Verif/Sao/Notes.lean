import Verif.Sao.Reading

/-! # The best word so far -/

namespace Verif.Sao

open Verif.State Verif.Stream Verif.Input Verif.Proc
open Verif.Buffer (Buffer Rep)

variable {W : Type}

/-! ## Analyses -/

theorem symbolText_map (up : Int → Int) (a : Alphabet) (b : Bool) (s : Int) (h0 : 0 ≤ s) (hup : ∀ c, c < 0x110000 → up c < 0x110000) (hl : s < 0x110000) :
    symbolText up a s b = .ok (if s = 0 then [] else utf16 ((if b then up else id) s).toNat) := by
  unfold symbolText
  by_cases hs : s = 0
  · simp [hs]
  · rw [if_neg hs, if_neg (by omega), if_neg hs]
    have := hup s hl
    cases b
    · simp only [Bool.false_eq_true, if_false, id]
      rw [Compression.unitsOf_utf16 _ (by omega)]
    · simp only [if_true]
      rw [Compression.unitsOf_utf16 _ (by omega)]

theorem symbolSAO_ok (up : Int → Int) (a : Alphabet) (name : Int → UString) (b : Bool) (s : Int) (hup : ∀ c, c < 0x110000 → up c < 0x110000) (hl : s < 0x110000)
    (hn : s < 0 → a.tagText s = .ok (name s) ∧ name s ≠ []) :
    symbolSAO up a b s = .ok ((if s ∈ escaped then [0x5c] else []) ++
      (if s = 0 then [] else if s < 0 then tagForm (name s) else utf16 ((if b then up else id) s).toNat)) := by
  unfold symbolSAO
  by_cases h : s < 0
  · obtain ⟨h1, h2⟩ := hn h
    have e0 : s ≠ 0 := by omega
    simp only [if_pos h, if_neg e0, h1, Res.bind_ok, inner, if_neg h2]
    rfl
  · rw [if_neg h, symbolText_map up a b s (by omega) hup hl, if_neg h]
    rfl

theorem seqSAO_ok (up : Int → Int) (a : Alphabet) (name : Int → UString) (b : Bool) (hup : ∀ c, c < 0x110000 → up c < 0x110000) (seq : List (Int × W))
    (hl : ∀ x ∈ seq, x.1 < 0x110000) (hn : ∀ x ∈ seq, x.1 < 0 → a.tagText x.1 = .ok (name x.1) ∧ name x.1 ≠ []) :
    seqSAO up a b seq = .ok (formOf name (if b then up else id) seq) := by
  induction seq with
  | nil => rfl
  | cons x seq ih =>
    rw [seqSAO, symbolSAO_ok up a name b x.1 hup (hl x (by simp)) (hn x (by simp)), Res.bind_ok, ih (fun y hy => hl y (by simp [hy])) fun y hy => hn y (by simp [hy])]
    simp only [Res.bind_ok, formOf, List.flatMap_cons]
    rfl

theorem filterFinals_ok (up : Int → Int) (h0 : up 0 = 0) (finals : List (Nat × W)) (a : Alphabet) (name : Int → UString) (whole first : Bool)
    (hup : ∀ c, c < 0x110000 → up c < 0x110000) (st : List (Rec W)) (hl : ∀ r ∈ st, ∀ x ∈ r.seq, x.1 < 0x110000)
    (hn : ∀ r ∈ st, ∀ x ∈ r.seq, x.1 < 0 → a.tagText x.1 = .ok (name x.1) ∧ name x.1 ≠ []) :
    filterFinalsSAO up finals a whole first st = .ok (st.flatMap fun r => if (mapFind r.node finals).isSome then
      0x2f :: (if first then capital up (formOf name (if whole then up else id) r.seq) else formOf name (if whole then up else id) r.seq) else []) := by
  induction st with
  | nil => rfl
  | cons r st ih =>
    have ih := ih (fun r hr => hl r (by simp [hr])) (fun r hr => hn r (by simp [hr]))
    rw [filterFinalsSAO, List.flatMap_cons]
    split
    · rw [seqSAO_ok up a name whole hup r.seq (hl r (by simp)) (hn r (by simp)), Res.bind_ok]
      cases first
      · simp only [Bool.false_eq_true, if_false, Res.bind_ok, ih]
      · simp only [if_true, upperFirst_capital up h0, Res.bind_ok, ih]
    · rw [ih]; rfl

theorem cases_ok (σ : Setting W) (sf : UString) (h : sf ≠ []) : cases σ sf = .ok (upperUnit σ sf.head?, upperUnit σ sf.head? && upperUnit σ sf.getLast?) := by
  have key : ∀ b : Bool, (some b == some true) = b := by decide
  cases sf with
  | nil => exact absurd rfl h
  | cons u t =>
    unfold cases upperUnit
    rw [List.getLast?_eq_some_getLast (by simp)]
    simp [key]

/-- The text up to the first slash is that of the first final state. -/
theorem first_text {α : Type} (f : α → Option UString) (l : List α) : (l.flatMap fun r => ((f r).map fun t => (0x2f : UInt16) :: t).getD []) = [] ∧ (∀ r ∈ l, f r = none) ∨
    ∃ r ∈ l, ∃ t s, f r = some t ∧ (l.flatMap fun r => ((f r).map fun t => (0x2f : UInt16) :: t).getD []) = 0x2f :: s ∧ s.takeWhile (· ≠ 0x2f) = t.takeWhile (· ≠ 0x2f) := by
  have tw : ∀ (t s : UString), (s = [] ∨ ∃ s', s = 0x2f :: s') → (t ++ s).takeWhile (· ≠ 0x2f) = t.takeWhile (· ≠ 0x2f) := by
    intro t s hs
    induction t with
    | nil => rcases hs with rfl | ⟨s', rfl⟩ <;> simp
    | cons u t ih => simp only [List.cons_append, List.takeWhile_cons, ih]
  induction l with
  | nil => left; simp
  | cons r l ih =>
    cases h : f r with
    | none =>
      rcases ih with ⟨h1, h2⟩ | ⟨r', h1, t, s, h2, h3, h4⟩
      · left
        refine ⟨by rw [List.flatMap_cons, h, h1]; rfl, ?_⟩
        intro x hx
        rcases List.mem_cons.1 hx with rfl | hx
        · exact h
        · exact h2 x hx
      · right
        exact ⟨r', by simp [h1], t, s, h2, by rw [List.flatMap_cons, h, h3]; rfl, h4⟩
    | some t =>
      right
      refine ⟨r, by simp, t, t ++ l.flatMap fun r => ((f r).map fun t => (0x2f : UInt16) :: t).getD [], h, by rw [List.flatMap_cons, h]; rfl, tw _ _ ?_⟩
      rcases ih with ⟨h1, -⟩ | ⟨r', -, t', s, -, h3, -⟩
      · exact .inl h1
      · exact .inr ⟨s, h3⟩

/-- What is noted for a word. -/
theorem filter_ok [LinearOrder W] {σ : Setting W} {name : Int → UString} (hr : Regular σ name) (hpl : Plain σ name) {xs : List Int} {st : List (Rec W)}
    (h : Sound σ xs st) (sf : UString) (hf : sf ≠ []) (he : Entry σ xs) :
    ∃ s, filter σ st sf = .ok (0x2f :: s) ∧ IsAnalysis σ name xs sf (s.takeWhile (· ≠ 0x2f)) := by
  have hsym : ∀ r ∈ st, ∀ x ∈ r.seq, ∃ q l p, Arc σ.graph q l p ∧ l.2.2.1 = x.1 := by
    intro r hr' x hx
    obtain ⟨ls, h1, h2, -⟩ := (h r).1 hr'
    rw [h2] at hx
    exact written_mem h1.1 hx
  have hres := filterFinals_ok σ.chars.toUpper hr.upperZero σ.allFinals σ.alphabet name (upperUnit σ sf.head? && upperUnit σ sf.getLast?) (upperUnit σ sf.head?)
    hr.upperRange st
    (by
      intro r hr' x hx
      obtain ⟨q, l, p, h3, h4⟩ := hsym r hr' x hx
      rw [← h4]
      exact (hr.names _ _ _ h3).1)
    (by
      intro r hr' x hx hneg
      obtain ⟨q, l, p, h3, h4⟩ := hsym r hr' x hx
      rw [← h4] at hneg ⊢
      exact ⟨(hr.names _ _ _ h3).2 hneg, hpl.tags _ _ _ h3 hneg⟩)
  have hcal : filter σ st sf = .ok (st.flatMap fun r => ((if (σ.weight r.node).isSome then some (analysisForm σ name sf r.seq) else none).map fun t => (0x2f : UInt16) :: t).getD []) := by
    unfold filter
    rw [cases_ok σ sf hf, Res.bind_ok]
    simp only [hres, find_allFinals hr.standard]
    congr 2
    funext r
    split
    · simp [analysisForm]
    · rfl
  rw [hcal]
  rcases first_text (fun r : Rec W => if (σ.weight r.node).isSome then some (analysisForm σ name sf r.seq) else none) st with ⟨-, h1⟩ | ⟨r, h1, t, s, h2, h3, h4⟩
  · exfalso
    rw [← sound_entry hr.standard h] at he
    unfold isFinal at he
    obtain ⟨r, hr', h2⟩ := List.any_eq_true.1 he
    rw [find_allFinals hr.standard] at h2
    have := h1 r hr'
    rw [if_pos h2] at this
    cases this
  · refine ⟨s, by rw [h3], ?_⟩
    obtain ⟨ls, h5, h6, -⟩ := (h r).1 h1
    by_cases hw : (σ.weight r.node).isSome = true
    · rw [if_pos hw, Option.some.injEq] at h2
      exact ⟨ls, r.node, h5, hw, by rw [h4, ← h2, h6]⟩
    · rw [if_neg hw] at h2; cases h2

/-! ## Words -/

/-- The word of the first `i` characters. -/
def Gd (σ : Setting W) (X : List Int) (i : Nat) : Prop :=
  0 < i ∧ ∃ v, X[i]? = some v ∧ Entry σ (X.take i) ∧ (Loose σ (X.take i) ∨ σ.isAlphabetic v = false)

def Sd (σ : Setting W) (X : List Int) (i : Nat) : Prop := Gd σ X i ∧ ¬ Loose σ (X.take i)

def Po (σ : Setting W) (X : List Int) (i : Nat) : Prop := In σ σ.postblank (X.take i) ∧ ¬ In σ σ.inconditional (X.take i)

def Ic (σ : Setting W) (X : List Int) (i : Nat) : Prop := In σ σ.inconditional (X.take i)

theorem word_iff {σ : Setting W} {X ys : List Int} : Word σ X ys ↔ ys = X.take ys.length ∧ Gd σ X ys.length := by
  constructor
  · rintro ⟨h0, v, zs, e, h1, h2⟩
    obtain ⟨e1, e2⟩ := take_of_append e
    refine ⟨e1.symm, List.length_pos_iff.2 h0, v, e2, ?_⟩
    rw [e1]; exact ⟨h1, h2⟩
  · rintro ⟨e, h0, v, e2, h1, h2⟩
    rw [← e] at h1 h2
    refine ⟨List.length_pos_iff.1 h0, v, X.drop (ys.length + 1), ?_, h1, h2⟩
    conv => rhs; rw [e]
    exact (split_at e2).trans (by rw [List.length_take, Nat.min_eq_left (List.getElem?_eq_some_iff.1 e2).1.le])

theorem gd_lt {σ : Setting W} {X : List Int} {i : Nat} (h : Gd σ X i) : i < X.length := by
  obtain ⟨-, v, e, -⟩ := h
  exact (List.getElem?_eq_some_iff.1 e).1

theorem word_take {σ : Setting W} {X : List Int} {i : Nat} (h : Gd σ X i) : Word σ X (X.take i) ∧ (X.take i).length = i := by
  have hi := gd_lt h
  have hl : (X.take i).length = i := by rw [List.length_take]; omega
  exact ⟨word_iff.2 ⟨by rw [hl], by rw [hl]; exact h⟩, hl⟩

theorem later_iff {σ : Setting W} {X : List Int} {k : Nat} (hk : ∀ j, Gd σ X j → j < k) (P : List Int → Prop) :
    Later σ X P ↔ ∃ j < k, Gd σ X j ∧ P (X.take j) ∧ ∀ m < k, Sd σ X m → m < j := by
  constructor
  · rintro ⟨ys, h1, h2, h3⟩
    obtain ⟨e, hg⟩ := word_iff.1 h1
    refine ⟨ys.length, hk _ hg, hg, by rw [← e]; exact h2, fun m _ hm => ?_⟩
    obtain ⟨k1, k2⟩ := word_take hm.1
    have := h3 _ k1 hm.2
    rwa [k2] at this
  · rintro ⟨j, -, h1, h2, h3⟩
    obtain ⟨k1, k2⟩ := word_take h1
    refine ⟨_, k1, h2, fun zs hz hl => ?_⟩
    rw [k2]
    obtain ⟨e, hg⟩ := word_iff.1 hz
    exact h3 _ (hk _ hg) ⟨hg, by rw [← e]; exact hl⟩

section
variable [LinearOrder W] {σ : Setting W} {name : Int → UString}

/-- There is fuel enough for what the dictionary says of parts of the text. -/
def Ready (hr : Regular σ name) (n : Nat) (ps : List Piece) : Prop :=
  (∀ ys, ys <:+: ps → after σ n (vals ys) = .ok (states σ name hr (vals ys))) ∧ ∀ p ∈ ps, p.text.length ≤ n

theorem ready_exists (hr : Regular σ name) (ps : List Piece) : ∃ N, ∀ n ≥ N, Ready hr n ps := by
  obtain ⟨N, h⟩ := states_all σ name hr ((ps.tails.flatMap List.inits).map vals)
  refine ⟨max N (ps.flatMap Piece.text).length, fun n hn => ⟨?_, ?_⟩⟩
  · rintro ys ⟨s, t, e⟩
    exact h n (by omega) _ (List.mem_map.2 ⟨ys, List.mem_flatMap.2 ⟨ys ++ t, (List.mem_tails _ _).2 ⟨s, by simpa using e⟩, (List.mem_inits _ _).2 ⟨t, rfl⟩⟩, rfl⟩)
  · intro p hp
    have : p.text.length ≤ (ps.flatMap Piece.text).length := by
      obtain ⟨us, vs, rfl⟩ := List.append_of_mem hp
      simp only [List.flatMap_append, List.flatMap_cons, List.length_append]
      omega
    omega

/-- What is known when the words of less than `k` characters have been looked at. -/
def Noted (hr : Regular σ name) (R : List Piece) (base k : Nat) (l : Loc W) : Prop :=
  ((∀ i < k, ¬ Gd σ (vals R) i) ∧ l.lf = [] ∧ l.post = false ∧ l.incond = false) ∨
  ∃ i < k, Gd σ (vals R) i ∧ (∀ j < k, Gd σ (vals R) j → j ≤ i) ∧ (l.last ≡ base + i + 1 [MOD 2048] ∧ 0 < l.last ∧ l.last ≤ 2048) ∧
    filter σ (states σ name hr (vals (R.take i))) (surface (R.take i)) = .ok l.lf ∧ l.lf ≠ [] ∧
    (l.post = true ↔ ∃ j < k, Gd σ (vals R) j ∧ Po σ (vals R) j ∧ ∀ m < k, Sd σ (vals R) m → m < j) ∧
    (l.incond = true ↔ ∃ j < k, Gd σ (vals R) j ∧ Ic σ (vals R) j ∧ ∀ m < k, Sd σ (vals R) m → m < j) ∧
    (l.post = true ∨ l.incond = true ∨ Sd σ (vals R) i)

theorem noted_bad {hr : Regular σ name} {R : List Piece} {base k : Nat} {l : Loc W} (h : Noted hr R base k l) (hb : ¬ Gd σ (vals R) k) : Noted hr R base (k + 1) l := by
  have e1 : ∀ {Q : Nat → Prop}, (∃ j < k + 1, Gd σ (vals R) j ∧ Q j) ↔ ∃ j < k, Gd σ (vals R) j ∧ Q j := by
    intro Q
    constructor
    · rintro ⟨j, h1, h2, h3⟩
      rcases Nat.lt_succ_iff_lt_or_eq.1 h1 with h | rfl
      · exact ⟨j, h, h2, h3⟩
      · exact absurd h2 hb
    · rintro ⟨j, h1, h2⟩
      exact ⟨j, by omega, h2⟩
  have e2 : ∀ j, (∀ m < k + 1, Sd σ (vals R) m → m < j) ↔ ∀ m < k, Sd σ (vals R) m → m < j := by
    intro j
    rw [lt_succ_split]
    exact ⟨fun h => h.1, fun h => ⟨h, fun h' => absurd h'.1 hb⟩⟩
  rcases h with ⟨h1, h2⟩ | ⟨i, hi, h1, h2, h3, h5, h6, h7, h8, h9⟩
  · left
    exact ⟨lt_succ_split.2 ⟨h1, hb⟩, h2⟩
  · right
    refine ⟨i, by omega, h1, lt_succ_split.2 ⟨h2, fun h => absurd h hb⟩, h3, h5, h6, ?_, ?_, h9⟩
    · rw [h7, e1]; simp only [e2]
    · rw [h8, e1]; simp only [e2]

theorem noted_flags {hr : Regular σ name} {R : List Piece} {base k : Nat} {l : Loc W} (h : Noted hr R base k l) :
    (l.post = true ↔ ∃ j < k, Gd σ (vals R) j ∧ Po σ (vals R) j ∧ ∀ m < k, Sd σ (vals R) m → m < j) ∧
    (l.incond = true ↔ ∃ j < k, Gd σ (vals R) j ∧ Ic σ (vals R) j ∧ ∀ m < k, Sd σ (vals R) m → m < j) := by
  rcases h with ⟨h1, -, h2, h3⟩ | ⟨i, hi, -, -, -, -, -, h7, h8, -⟩
  · rw [h2, h3]
    constructor <;> constructor
    · intro h; cases h
    · rintro ⟨j, hj, hg, -⟩; exact absurd hg (h1 j hj)
    · intro h; cases h
    · rintro ⟨j, hj, hg, -⟩; exact absurd hg (h1 j hj)
  · exact ⟨h7, h8⟩

/-- The word of `k` characters is the best so far. -/
theorem noted_good {hr : Regular σ name} {R : List Piece} {base k : Nat} {l l' : Loc W} (h : Noted hr R base k l) (hg : Gd σ (vals R) k)
    (hl : l'.last ≡ base + k + 1 [MOD 2048] ∧ 0 < l'.last ∧ l'.last ≤ 2048)
    (hf : filter σ (states σ name hr (vals (R.take k))) (surface (R.take k)) = .ok l'.lf) (hne : l'.lf ≠ [])
    (hcase : (Sd σ (vals R) k ∧ l'.post = false ∧ l'.incond = false) ∨
      (¬ Sd σ (vals R) k ∧ (l'.post = true ↔ l.post = true ∨ Po σ (vals R) k) ∧ (l'.incond = true ↔ l.incond = true ∨ Ic σ (vals R) k) ∧
        (l'.post = true ∨ l'.incond = true))) :
    Noted hr R base (k + 1) l' := by
  obtain ⟨f1, f2⟩ := noted_flags h
  right
  refine ⟨k, by omega, hg, fun j hj _ => by omega, hl, hf, hne, ?_⟩
  rcases hcase with ⟨h1, h2, h3⟩ | ⟨h1, h2, h3, h4⟩
  · rw [h2, h3]
    refine ⟨⟨fun h => (by cases h), ?_⟩, ⟨fun h => (by cases h), ?_⟩, .inr (.inr h1)⟩
    · rintro ⟨j, hj, -, -, hm⟩
      have := hm k (by omega) h1
      omega
    · rintro ⟨j, hj, -, -, hm⟩
      have := hm k (by omega) h1
      omega
  · have key : ∀ P : Nat → Prop, ((∃ j < k, Gd σ (vals R) j ∧ P j ∧ ∀ m < k, Sd σ (vals R) m → m < j) ∨ P k) ↔
        ∃ j < k + 1, Gd σ (vals R) j ∧ P j ∧ ∀ m < k + 1, Sd σ (vals R) m → m < j := by
      intro P
      constructor
      · rintro (⟨j, hj, g1, g2, g3⟩ | g)
        · exact ⟨j, by omega, g1, g2, lt_succ_split.2 ⟨g3, fun g => absurd g h1⟩⟩
        · exact ⟨k, by omega, hg, g, lt_succ_split.2 ⟨fun m hm _ => hm, fun g => absurd g h1⟩⟩
      · rintro ⟨j, hj, g1, g2, g3⟩
        rcases Nat.lt_succ_iff_lt_or_eq.1 hj with hj | rfl
        · exact .inl ⟨j, hj, g1, g2, (lt_succ_split.1 g3).1⟩
        · exact .inr g2
    refine ⟨?_, ?_, ?_⟩
    · rw [h2, f1]; exact key _
    · rw [h3, f2]; exact key _
    · rcases h4 with h | h
      · exact .inl h
      · exact .inr (.inl h)

theorem vals_take (R : List Piece) (i : Nat) : (vals R).take i = vals (R.take i) := by simp [vals, List.map_take]

/-- The test for final states. -/
theorem note_ok (hr : Regular σ name) (hs : Small σ) (hpl : Plain σ name) {R xs : List Piece} {p : Piece} {qs : List Piece} (hR : R = xs ++ p :: qs)
    (hok : ∀ p ∈ R, p.Ok) {l : Loc W} {base pos : Nat} (hsf : l.sf = surface xs) (hc : l.cur = states σ name hr (vals xs))
    (hsp : xs = [] → σ.chars.isSpace (p.val : Int) = false) (hpos : pos ≡ base + xs.length + 1 [MOD 2048] ∧ 0 < pos ∧ pos ≤ 2048) (h : Noted hr R base xs.length l) :
    ∃ l', note σ (p.val : Int) pos l = .ok l' ∧ Noted hr R base (xs.length + 1) l' ∧ l'.sf = l.sf ∧ l'.cur = l.cur := by
  have hxok : ∀ p ∈ xs, p.Ok := fun q hq => hok q (by rw [hR]; simp [hq])
  have hsound : Sound σ (vals xs) l.cur := by rw [hc]; exact states_sound hr hs (vals_ne hxok)
  have htake : R.take xs.length = xs := by rw [hR]; simp
  have hvt : (vals R).take xs.length = vals xs := by rw [vals_take, htake]
  have hget : (vals R)[xs.length]? = some (p.val : Int) := by rw [hR]; simp [vals]
  have hgd : Gd σ (vals R) xs.length ↔ 0 < xs.length ∧ Entry σ (vals xs) ∧ (Loose σ (vals xs) ∨ σ.isAlphabetic (p.val : Int) = false) := by
    unfold Gd
    rw [hvt, hget]
    simp only [Option.some.injEq, exists_eq_left']
  have hE := sound_entry hr.standard hsound
  have hI := sound_final hsound σ.inconditional
  have hP := sound_final hsound σ.postblank
  unfold note
  by_cases e : Entry σ (vals xs)
  · have hx0 : xs ≠ [] := by rintro rfl; exact hpl.noEmpty e
    have hpos0 := List.length_pos_iff.2 hx0
    rw [if_pos (hE.2 e)]
    obtain ⟨s, g1, -⟩ := filter_ok hr hpl hsound (surface xs) (surface_ne_nil hx0) e
    have g1' : filter σ (states σ name hr (vals (R.take xs.length))) (surface (R.take xs.length)) = .ok (0x2f :: s) := by rw [htake, ← hc]; exact g1
    simp only [hsf, g1, Res.bind_ok]
    by_cases i1 : In σ σ.inconditional (vals xs)
    · rw [if_pos (hI.2 i1)]
      refine ⟨_, rfl, noted_good h (hgd.2 ⟨hpos0, e, .inl (.inl i1)⟩) hpos g1' (by simp) (.inr ⟨?_, ?_, ?_, ?_⟩), rfl, rfl⟩
      · unfold Sd; rw [hvt]; exact fun h => h.2 (.inl i1)
      · simp only [Po, hvt]; exact ⟨.inl, fun h => h.elim id fun h => absurd i1 h.2⟩
      · simp only [Ic, hvt]; exact ⟨fun _ => .inr i1, fun _ => trivial⟩
      · exact .inr rfl
    · rw [if_neg (by rw [hI]; exact i1)]
      by_cases i2 : In σ σ.postblank (vals xs)
      · rw [if_pos (hP.2 i2)]
        refine ⟨_, rfl, noted_good h (hgd.2 ⟨hpos0, e, .inl (.inr i2)⟩) hpos g1' (by simp) (.inr ⟨?_, ?_, ?_, ?_⟩), rfl, rfl⟩
        · unfold Sd; rw [hvt]; exact fun h => h.2 (.inr i2)
        · simp only [Po, hvt]; exact ⟨fun _ => .inr ⟨i2, i1⟩, fun _ => trivial⟩
        · simp only [Ic, hvt]; exact ⟨.inl, fun h => h.elim id fun h => absurd h i1⟩
        · exact .inl rfl
      · have hns : ¬ Loose σ (vals xs) := by rintro (h | h); exacts [i1 h, i2 h]
        rw [if_neg (by rw [hP]; exact i2)]
        by_cases ha : σ.isAlphabetic (p.val : Int) = true
        · rw [if_neg (by simp [ha])]
          refine ⟨l, rfl, noted_bad h ?_, hsf, rfl⟩
          rw [hgd]
          rintro ⟨-, -, h | h⟩
          · exact hns h
          · rw [ha] at h; cases h
        · rw [if_pos (by simp [ha])]
          have hg := hgd.2 ⟨hpos0, e, .inr (by simpa using ha)⟩
          exact ⟨_, rfl, noted_good h hg hpos g1' (by simp) (.inl ⟨⟨hg, by rw [hvt]; exact hns⟩, rfl, rfl⟩), rfl, rfl⟩
  · rw [if_neg (by rw [hE]; exact e), if_neg]
    · exact ⟨l, rfl, noted_bad h fun hg => e (hgd.1 hg).2.1, rfl, rfl⟩
    · rw [hsf]
      intro h
      simp only [Bool.and_eq_true, List.isEmpty_iff] at h
      by_cases hx : xs = []
      · rw [hsp hx] at h; exact absurd h.2 (by simp)
      · exact surface_ne_nil hx h.1

end

/-! ## Letters -/

theorem lastBlank_concat (σ : Setting W) (s : UString) (u : UInt16) :
    lastBlank σ (s ++ [u]) = if σ.letters.contains (u.toNat : Int) then lastBlank σ s else s.length := by
  unfold lastBlank
  rw [List.reverse_append, List.reverse_singleton, List.singleton_append, lastBlankLoop, List.length_reverse]

/-- After the last unit that is no letter of the dictionary there are not more units than characters after one that is no letter. -/
theorem lastBlank_ge [LinearOrder W] {σ : Setting W} {name : Int → UString} (hr : Regular σ name) (ts : List Piece) (r : Piece) (hrok : r.Ok)
    (ha : σ.isAlphabetic (r.val : Int) = false) (us : List Piece) (hok : ∀ p ∈ us, p.Ok) :
    (surface (ts ++ r :: us)).length ≤ lastBlank σ (surface (ts ++ r :: us)) + us.length + 1 := by
  have pair : ∀ (s : UString) (q : Piece), q.Ok → 0x10000 ≤ q.val → (s ++ utf16 q.val).length ≤ lastBlank σ (s ++ utf16 q.val) + 1 := by
    intro s q hq h
    obtain ⟨hsc, -⟩ := piece_val hq
    obtain ⟨u, v, e, k1, k2, k3, k4, k5⟩ := utf16_pair h (by rcases hsc with hs | hs <;> omega)
    rw [e, show s ++ [u, v] = (s ++ [u]) ++ [v] by simp, lastBlank_concat]
    rw [if_neg]
    · simp
    · intro hc
      rw [List.contains_iff_mem] at hc
      have := hr.letters _ hc
      omega
  induction us using List.reverseRecOn with
  | nil =>
    rw [surface_append, show surface [r] = utf16 r.val by simp [surface, enc]]
    rcases Nat.lt_or_ge r.val 0x10000 with h | h
    · rw [utf16_bmp h, lastBlank_concat, ofNat_toNat h]
      unfold Setting.isAlphabetic at ha
      rw [Bool.or_eq_false_iff] at ha
      rw [if_neg (by rw [ha.2]; simp)]
      simp
    · have := pair (surface ts) r hrok h
      simpa using this
  | append_singleton us q ih =>
    have ih := ih fun p hp => hok p (by simp [hp])
    have hq := hok q (by simp)
    rw [show ts ++ r :: (us ++ [q]) = (ts ++ r :: us) ++ [q] by simp, surface_append, show surface [q] = utf16 q.val by simp [surface, enc]]
    rcases Nat.lt_or_ge q.val 0x10000 with h | h
    · rw [utf16_bmp h, lastBlank_concat]
      simp only [List.length_append, List.length_cons, List.length_nil]
      split <;> omega
    · have := pair (surface (ts ++ r :: us)) q hq h
      simp only [List.length_append, List.length_cons, List.length_nil] at this ⊢
      omega

theorem surface_length (ps : List Piece) : ps.length ≤ (surface ps).length := by
  induction ps with
  | nil => simp
  | cons p ps ih =>
    rw [surface_cons, List.length_append, List.length_cons]
    have := List.length_pos_iff.2 (utf16_ne_nil p.val)
    omega

theorem firstNotAlpha_letters {σ : Setting W} (ps : List Piece) (hp : ∀ p ∈ ps, p.Ok) (ha : ∀ p ∈ ps, σ.isAlphabetic (p.val : Int) = true) :
    (firstNotAlpha σ (surface ps)).2 = (surface ps).length := by
  induction ps with
  | nil => rfl
  | cons p ps ih =>
    have ih := ih (fun q hq => hp q (by simp [hq])) (fun q hq => ha q (by simp [hq]))
    obtain ⟨hs, h0⟩ := piece_val (hp p (by simp))
    have hpa := ha p (by simp)
    rw [surface_cons]
    rcases Nat.lt_or_ge p.val 0x10000 with h | h
    · rw [utf16_bmp h, List.singleton_append]
      cases hsf : surface ps with
      | nil => simp [firstNotAlpha, ofNat_toNat h, hpa]
      | cons v s =>
        rw [hsf] at ih
        rw [firstNotAlpha]
        rw [if_neg (by
          rintro ⟨k1, k2, -⟩
          rw [UInt16.le_iff_toNat_le, ofNat_toNat h] at k1
          rw [UInt16.lt_iff_toNat_lt, ofNat_toNat h] at k2
          simp only [UInt16.reduceToNat] at k1 k2
          rcases hs with hs | hs <;> omega)]
        simp [ofNat_toNat h, hpa, ih]
    · obtain ⟨u, v, e, h1, h2, h3, h4, h5⟩ := utf16_pair h (by rcases hs with hs | hs <;> omega)
      rw [e, List.cons_append, List.singleton_append, firstNotAlpha]
      rw [if_pos (by
        simp only [UInt16.le_iff_toNat_le, UInt16.lt_iff_toNat_lt, UInt16.reduceToNat]
        exact ⟨h1, h2, h3, h4⟩), h5]
      simp [hpa, ih]

end Verif.Sao
