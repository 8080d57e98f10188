import Verif.Paradigm.Pattern

/-! # Listing the pairs of a transducer -/

namespace Verif.Paradigm

open Verif.Fst Verif.Alphabet Verif.Compiler
open Verif.Tools (Sane Symbol)

variable {W : Type}

/-- An arc with this pair of symbols. -/
def PE (a : Alphabet) (t : Transducer W) (q : Nat) (l : Pair) (p : Nat) : Prop := ∃ w, PairEdge a t q (l, w) p

/-- The walks that `expand` follows: what is in `past` is not entered. -/
inductive Simple (a : Alphabet) (t : Transducer W) : List Nat → Nat → List Pair → Nat → Prop
  | nil (past : List Nat) (q : Nat) : Simple a t past q [] q
  | cons {past : List Nat} {q q1 p : Nat} {l : Pair} {ls : List Pair} : PE a t q l q1 → q1 ∉ past → Simple a t (setInsert q past) q1 ls p →
      Simple a t past q (l :: ls) p

theorem Simple.path {a : Alphabet} {t : Transducer W} {past : List Nat} {q p : Nat} {ls : List Pair} (h : Simple a t past q ls p) : Path (PE a t) q ls p := by
  induction h with
  | nil => exact .nil _
  | cons h _ _ ih => exact .cons h ih

/-- The text of a symbol. -/
def symText (a : Alphabet) (x : Int) : UString :=
  match a.getSymbol x with
  | .ok s => s
  | _ => []

theorem getSymbol_ok {a : Alphabet} {x : Int} (h : Symbol a x) : a.getSymbol x = .ok (symText a x) := by
  have : ∃ s, a.getSymbol x = .ok s := by
    unfold Alphabet.getSymbol
    rcases h with ⟨h1, -⟩ | ⟨h1, s, h2⟩
    · split
      · exact ⟨_, rfl⟩
      · rw [if_neg (by omega)]; exact ⟨_, rfl⟩
    · rw [if_neg (by omega), if_pos h1]; exact ⟨s, h2⟩
  obtain ⟨s, hs⟩ := this
  unfold symText
  rw [hs]

/-- The codes stand for these pairs. -/
def Dec (a : Alphabet) (cs : List Int) (ls : List Pair) : Prop := List.Forall₂ (fun c l => a.decode c = .ok l) cs ls

/-- The texts of a row of pairs. -/
def texts (a : Alphabet) (ls : List Pair) : UString × UString := (ls.flatMap fun l => symText a l.1, ls.flatMap fun l => symText a l.2)

theorem spell_ok {a : Alphabet} (hs : Sane a) {cs : List Int} {ls : List Pair} (h : Dec a cs ls) : spell a cs = .ok (texts a ls) := by
  induction h with
  | nil => rfl
  | @cons c l cs ls h _ ih =>
    obtain ⟨i, h2, -⟩ := decode_iff.1 h
    obtain ⟨g1, g2⟩ := hs.symbols l (List.mem_of_getElem? h2)
    unfold spell
    rw [h, Res.bind_ok, getSymbol_ok g1, Res.bind_ok, getSymbol_ok g2, Res.bind_ok, ih]
    rfl

/-- What is listed for a row of pairs. -/
def Out (a : Alphabet) (ls : List Pair) (e : UString × UString) : Prop := (texts a ls).1 ≠ [] ∧ (texts a ls).2 ≠ [] ∧ e = ((texts a ls).2, (texts a ls).1)

theorem mem_keys {m : List (Nat × W)} {q : Nat} : (mapFind q m).isSome = true ↔ ∃ w, (q, w) ∈ m := by
  induction m with
  | nil => simp [mapFind]
  | cons e m ih =>
    obtain ⟨k, w⟩ := e
    unfold mapFind
    by_cases h : k = q
    · subst h; simp
    · simp only [h, if_false, ih, List.mem_cons, Prod.mk.injEq]
      constructor
      · rintro ⟨w', h'⟩; exact ⟨w', .inr h'⟩
      · rintro ⟨w', ⟨h', -⟩ | h'⟩
        · exact absurd h'.symm h
        · exact ⟨w', h'⟩

theorem isFinal_iff {t : Transducer W} {q : Nat} : isFinal t q = true ↔ ∃ w, Final t q w := mem_keys

theorem here_ok {a : Alphabet} (hs : Sane a) {t : Transducer W} {q : Nat} {cs : List Int} {ls : List Pair} (h : Dec a cs ls) :
    ∃ es, here t a q cs = .ok es ∧ ∀ e, e ∈ es ↔ (∃ w, Final t q w) ∧ Out a ls e := by
  unfold here
  rw [spell_ok hs h]
  by_cases hf : isFinal t q = true
  · rw [if_pos hf]
    refine ⟨_, rfl, fun e => ?_⟩
    have := isFinal_iff.1 hf
    unfold Out
    by_cases hne : (texts a ls).1 ≠ [] ∧ (texts a ls).2 ≠ []
    · show e ∈ (if (texts a ls).1 ≠ [] ∧ (texts a ls).2 ≠ [] then [((texts a ls).2, (texts a ls).1)] else []) ↔ _
      rw [if_pos hne, List.mem_singleton]
      exact ⟨fun h => ⟨this, hne.1, hne.2, h⟩, fun h => h.2.2.2⟩
    · show e ∈ (if (texts a ls).1 ≠ [] ∧ (texts a ls).2 ≠ [] then [((texts a ls).2, (texts a ls).1)] else []) ↔ _
      rw [if_neg hne]
      simp only [List.not_mem_nil, false_iff]
      rintro ⟨-, h1, h2, -⟩
      exact hne ⟨h1, h2⟩
  · rw [if_neg hf]
    refine ⟨[], rfl, fun e => ?_⟩
    simp only [List.not_mem_nil, false_iff]
    rintro ⟨h, -⟩
    exact hf (isFinal_iff.2 h)

/-- How many states are not in `past`. -/
def left (n : Nat) (past : List Nat) : Nat := ((List.range n).filter (· ∉ past)).length

theorem left_insert {n q : Nat} {past : List Nat} (hq : q < n) (h : q ∉ past) : left n (setInsert q past) < left n past := by
  unfold left
  have hsub : ((List.range n).filter (· ∉ setInsert q past)).Sublist ((List.range n).filter (· ∉ past)) := by
    have e : ((List.range n).filter (· ∉ setInsert q past)) = ((List.range n).filter (· ∉ past)).filter (· ∉ setInsert q past) := by
      rw [List.filter_filter]
      apply List.filter_congr
      intro x _
      simp [mem_setInsert]
    rw [e]
    exact List.filter_sublist
  rcases Nat.lt_or_ge ((List.range n).filter (· ∉ setInsert q past)).length ((List.range n).filter (· ∉ past)).length with h' | h'
  · exact h'
  · have := hsub.eq_of_length_le h'
    have hm : q ∈ (List.range n).filter (· ∉ past) := List.mem_filter.2 ⟨List.mem_range.2 hq, by simpa using h⟩
    rw [← this] at hm
    have := (List.mem_filter.1 hm).2
    simp [mem_setInsert] at this

theorem left_same {n q : Nat} {past : List Nat} (h : q ∈ past) : left n (setInsert q past) = left n past := by
  unfold left
  congr 1
  apply List.filter_congr
  intro x _
  simp only [mem_setInsert, decide_eq_decide]
  constructor
  · intro g g'; exact g (.inr g')
  · rintro g (rfl | g')
    · exact g h
    · exact g g'

theorem expand_ok {a : Alphabet} (hs : Sane a) {t : Transducer W} (hw : WF t) (hk : Coded a t) : ∀ (depth q : Nat) (past : List Nat) (cs : List Int) (ls : List Pair),
    q < Fst.size t → 2 * left (Fst.size t) past + (if q ∈ past then 1 else 0) < depth → Dec a cs ls →
    ∃ es, expand t a depth q past cs = .ok es ∧ ∀ e, e ∈ es ↔ ∃ ms p w, Simple a t past q ms p ∧ Final t p w ∧ Out a (ls ++ ms) e := by
  intro depth
  induction depth with
  | zero => intro q past cs ls _ h; omega
  | succ depth ih =>
    intro q past cs ls hq hd hdec
    obtain ⟨x, hx1, hx2⟩ := here_ok (t := t) (q := q) hs hdec
    have harcs : ∀ arcs : Row W, (∀ c p w, (c, p, w) ∈ arcs → Edge t q (c, w) p) →
        ∃ es, expandArcs (fun p syms => expand t a depth p (setInsert q past) syms) past cs arcs = .ok es ∧
          ∀ e, e ∈ es ↔ ∃ c p w l, (c, p, w) ∈ arcs ∧ a.decode c = .ok l ∧ p ∉ past ∧ ∃ ms p' w', Simple a t (setInsert q past) p ms p' ∧ Final t p' w' ∧ Out a (ls ++ l :: ms) e := by
      intro arcs
      induction arcs with
      | nil => intro _; exact ⟨[], rfl, by simp⟩
      | cons arc arcs ih2 =>
        obtain ⟨c, p, w⟩ := arc
        intro hA
        obtain ⟨es, h1, h2⟩ := ih2 fun c p w h => hA c p w (by simp [h])
        have hedge := hA c p w (by simp)
        obtain ⟨l, hl⟩ := hk _ _ _ hedge
        simp only at hl
        unfold expandArcs
        by_cases hp : p ∈ past
        · rw [if_pos hp]
          refine ⟨es, h1, fun e => ?_⟩
          rw [h2]
          constructor
          · rintro ⟨c', p', w', l', g, g'⟩; exact ⟨c', p', w', l', by simp [g], g'⟩
          · rintro ⟨c', p', w', l', g, g1, g2, g3⟩
            rcases List.mem_cons.1 g with e' | g
            · cases e'; exact absurd hp g2
            · exact ⟨c', p', w', l', g, g1, g2, g3⟩
        · rw [if_neg hp]
          have hplt := hw.target_lt _ _ _ hedge
          have hmeas : 2 * left (Fst.size t) (setInsert q past) + (if p ∈ setInsert q past then 1 else 0) < depth := by
            by_cases hqp : q ∈ past
            · rw [left_same hqp]
              rw [if_pos hqp] at hd
              have : p ∉ setInsert q past := by
                rw [mem_setInsert]
                rintro (rfl | h)
                · exact hp hqp
                · exact hp h
              rw [if_neg this]
              omega
            · have := left_insert hq hqp
              rw [if_neg hqp] at hd
              split <;> omega
          have hdec' : Dec a (cs ++ [c]) (ls ++ [l]) := List.rel_append hdec (.cons hl .nil)
          obtain ⟨y, g1, g2⟩ := ih p (setInsert q past) (cs ++ [c]) (ls ++ [l]) hplt hmeas hdec'
          refine ⟨y ++ es, by rw [g1, Res.bind_ok, h1]; rfl, fun e => ?_⟩
          rw [List.mem_append, g2, h2]
          constructor
          · rintro (⟨ms, p', w', k1, k2, k3⟩ | ⟨c', p', w', l', g, g'⟩)
            · exact ⟨c, p, w, l, by simp, hl, hp, ms, p', w', k1, k2, by simpa using k3⟩
            · exact ⟨c', p', w', l', by simp [g], g'⟩
          · rintro ⟨c', p', w', l', g, k1, k2, ms, p'', w'', k3, k4, k5⟩
            rcases List.mem_cons.1 g with e' | g
            · cases e'
              rw [hl] at k1
              cases k1
              exact .inl ⟨ms, p'', w'', k3, k4, by simpa using k5⟩
            · exact .inr ⟨c', p', w', l', g, k1, k2, ms, p'', w'', k3, k4, k5⟩
    obtain ⟨es, h1, h2⟩ := harcs (row t q) fun c p w h => h
    refine ⟨x ++ es, ?_, fun e => ?_⟩
    · unfold expand
      rw [hx1, Res.bind_ok, h1]
      rfl
    · rw [List.mem_append, hx2, h2]
      constructor
      · rintro (⟨⟨w, g1⟩, g2⟩ | ⟨c, p, w, l, g1, g2, g3, ms, p', w', g4, g5, g6⟩)
        · exact ⟨[], q, w, .nil _ _, g1, by simpa using g2⟩
        · exact ⟨l :: ms, p', w', .cons ⟨w, c, g2, g1⟩ g3 g4, g5, g6⟩
      · rintro ⟨ms, p, w, g1, g2, g3⟩
        cases g1 with
        | nil => exact .inl ⟨⟨w, g2⟩, by simpa using g3⟩
        | @cons _ _ q1 _ l ls' k1 k2 k3 =>
          obtain ⟨w', c, k4, k5⟩ := k1
          exact .inr ⟨c, q1, w', l, k5, k4, k2, ls', p, w, k3, g2, g3⟩

/-! ## Walks without repeated states -/

/-- A path that visits each of these states once. -/
inductive Once (a : Alphabet) (t : Transducer W) : Nat → List Pair → Nat → List Nat → Prop
  | nil (q : Nat) : Once a t q [] q [q]
  | cons {q q1 p : Nat} {l : Pair} {ls : List Pair} {vs : List Nat} : PE a t q l q1 → Once a t q1 ls p vs → q ∉ vs → Once a t q (l :: ls) p (q :: vs)

theorem Once.first {a : Alphabet} {t : Transducer W} {q p : Nat} {ls : List Pair} {vs : List Nat} (h : Once a t q ls p vs) : q ∈ vs := by
  cases h <;> simp

theorem Once.split {a : Alphabet} {t : Transducer W} {q p : Nat} {ls : List Pair} {vs : List Nat} (h : Once a t q ls p vs) {s : Nat} (hs : s ∈ vs) :
    ∃ l1 l3, ls = l1 ++ l3 ∧ Path (PE a t) q l1 s ∧ Path (PE a t) s l3 p := by
  have path : ∀ {q p ls vs}, Once a t q ls p vs → Path (PE a t) q ls p := by
    intro q p ls vs h
    induction h with
    | nil => exact .nil _
    | cons h _ _ ih => exact .cons h ih
  induction h with
  | nil q => rw [List.mem_singleton.1 hs]; exact ⟨[], [], rfl, .nil _, .nil _⟩
  | @cons q q1 p l ls vs h1 h2 h3 ih =>
    rcases List.mem_cons.1 hs with rfl | hs
    · exact ⟨[], l :: ls, rfl, .nil _, .cons h1 (path h2)⟩
    · obtain ⟨l1, l3, rfl, g1, g2⟩ := ih hs
      exact ⟨l :: l1, l3, rfl, .cons h1 g1, g2⟩

theorem Once.simple {a : Alphabet} {t : Transducer W} {q p : Nat} {ls : List Pair} {vs : List Nat} (h : Once a t q ls p vs) :
    ∀ past : List Nat, (∀ s ∈ vs, s ∉ past) → Simple a t past q ls p := by
  induction h with
  | nil q => exact fun _ _ => .nil _ _
  | @cons q q1 p l ls vs h1 h2 h3 ih =>
    intro past hp
    refine .cons h1 (hp _ (by simp [h2.first])) (ih _ ?_)
    intro s hs
    rw [mem_setInsert]
    rintro (rfl | h)
    · exact h3 hs
    · exact hp s (by simp [hs]) h

theorem once_or_loop {a : Alphabet} {t : Transducer W} {q p : Nat} {ls : List Pair} (h : Path (PE a t) q ls p) :
    (∃ vs, Once a t q ls p vs) ∨ ∃ l1 l2 l3 s, ls = l1 ++ l2 ++ l3 ∧ l2 ≠ [] ∧ Path (PE a t) q l1 s ∧ Path (PE a t) s l2 s ∧ Path (PE a t) s l3 p := by
  induction h with
  | nil q => exact .inl ⟨_, .nil q⟩
  | @cons q q1 p l ls h1 h2 ih =>
    rcases ih with ⟨vs, g⟩ | ⟨l1, l2, l3, s, rfl, g1, g2, g3, g4⟩
    · by_cases hq : q ∈ vs
      · obtain ⟨l1, l3, rfl, k1, k2⟩ := g.split hq
        exact .inr ⟨[], l :: l1, l3, q, rfl, by simp, .nil _, .cons h1 k1, k2⟩
      · exact .inl ⟨_, .cons h1 g hq⟩
    · exact .inr ⟨l :: l1, l2, l3, s, rfl, g1, .cons h1 g2, g3, g4⟩

/-- What a row of pairs reads and writes. -/
def lefts (ls : List Pair) : List Int := (ls.map (·.1)).filter (· ≠ 0)
def rights (ls : List Pair) : List Int := (ls.map (·.2)).filter (· ≠ 0)

theorem lefts_append (l l' : List Pair) : lefts (l ++ l') = lefts l ++ lefts l' := by simp [lefts]
theorem rights_append (l l' : List Pair) : rights (l ++ l') = rights l ++ rights l' := by simp [rights]

/-- If what is read and written has bounded length, then everything is read and written without repeating a state. -/
theorem simple_of_bounded {a : Alphabet} {t : Transducer W} {N : Nat}
    (hN : ∀ ls p w, Path (PE a t) t.initial ls p → Final t p w → (lefts ls).length + (rights ls).length ≤ N) :
    ∀ (n : Nat) (ls : List Pair) (p : Nat) (w : W), ls.length ≤ n → Path (PE a t) t.initial ls p → Final t p w →
      ∃ ms, Simple a t [] t.initial ms p ∧ lefts ms = lefts ls ∧ rights ms = rights ls := by
  intro n
  induction n with
  | zero =>
    intro ls p w hl h hf
    have : ls = [] := List.length_eq_zero_iff.1 (by omega)
    subst this
    cases h
    exact ⟨[], .nil _ _, rfl, rfl⟩
  | succ n ih =>
    intro ls p w hl h hf
    rcases once_or_loop h with ⟨vs, g⟩ | ⟨l1, l2, l3, s, rfl, g1, g2, g3, g4⟩
    · exact ⟨ls, g.simple [] (by simp), rfl, rfl⟩
    · have hpos : 0 < l2.length := List.length_pos_iff.2 g1
      by_cases he : lefts l2 = [] ∧ rights l2 = []
      · obtain ⟨ms, k1, k2, k3⟩ := ih (l1 ++ l3) p w (by simp only [List.length_append] at hl ⊢; omega) (g2.append g4) hf
        refine ⟨ms, k1, ?_, ?_⟩
        · rw [k2]; simp only [lefts_append, he.1]; simp
        · rw [k3]; simp only [rights_append, he.2]; simp
      · exfalso
        have pump : ∀ k : Nat, ∃ m, Path (PE a t) s m s ∧ k ≤ (lefts m).length + (rights m).length := by
          intro k
          induction k with
          | zero => exact ⟨[], .nil _, by simp⟩
          | succ k ihk =>
            obtain ⟨m, k1, k2⟩ := ihk
            refine ⟨l2 ++ m, g3.append k1, ?_⟩
            rw [lefts_append, rights_append, List.length_append, List.length_append]
            have : 0 < (lefts l2).length + (rights l2).length := by
              by_contra hz
              apply he
              exact ⟨List.length_eq_zero_iff.1 (by omega), List.length_eq_zero_iff.1 (by omega)⟩
            omega
        obtain ⟨m, k1, k2⟩ := pump (N + 1)
        have := hN (l1 ++ m ++ l3) p w ((g2.append k1).append g4) hf
        simp only [lefts_append, rights_append, List.length_append] at this
        omega

/-! ## Texts and names -/

theorem symText_named {a : Alphabet} {x : Int} (hs : Symbol a x) {n : Name} (hn : Named a x n) (h0 : x ≠ 0) : symText a x = nameText n := by
  unfold symText Alphabet.getSymbol
  rw [if_neg h0]
  rcases hn with ⟨h1, rfl⟩ | ⟨h1, s, h2, rfl⟩
  · rw [if_neg (by omega)]
    rcases hs with ⟨-, h3⟩ | ⟨h3, -⟩
    · exact Compression.unitsOf_utf16 x.toNat (by omega)
    · omega
  · rw [if_pos h1, h2]; rfl

theorem text_named {a : Alphabet} : ∀ {xs : List Int} {X : List Name}, (∀ x ∈ xs, Symbol a x) → List.Forall₂ (Named a) (xs.filter (· ≠ 0)) X →
    xs.flatMap (symText a) = textOf X := by
  intro xs
  induction xs with
  | nil => intro X _ h; cases h; rfl
  | cons x xs ih =>
    intro X hs h
    by_cases h0 : x = 0
    · subst h0
      rw [List.filter_cons_of_neg (by simp)] at h
      rw [List.flatMap_cons, ih (fun x hx => hs x (by simp [hx])) h]
      rfl
    · rw [List.filter_cons_of_pos (by simpa using h0)] at h
      cases h with
      | cons g gs =>
        rw [List.flatMap_cons, ih (fun x hx => hs x (by simp [hx])) gs, symText_named (hs x (by simp)) g h0]
        rfl

theorem texts_named {a : Alphabet} {ls : List Pair} (hs : ∀ l ∈ ls, Symbol a l.1 ∧ Symbol a l.2) {X Y : List Name}
    (hX : List.Forall₂ (Named a) (lefts ls) X) (hY : List.Forall₂ (Named a) (rights ls) Y) : texts a ls = (textOf X, textOf Y) := by
  have h1 := text_named (xs := ls.map (·.1)) (by
    intro x hx
    obtain ⟨l, hl, rfl⟩ := List.mem_map.1 hx
    exact (hs l hl).1) hX
  have h2 := text_named (xs := ls.map (·.2)) (by
    intro x hx
    obtain ⟨l, hl, rfl⟩ := List.mem_map.1 hx
    exact (hs l hl).2) hY
  rw [List.flatMap_map] at h1 h2
  unfold texts
  rw [← h1, ← h2]

theorem utf16_ne_nil (c : Nat) : utf16 c ≠ [] := by unfold utf16; split <;> simp

theorem textOf_nil {a : Alphabet} (hs : Sane a) {y : List Int} {Y : List Name} (h : List.Forall₂ (Named a) y Y) : textOf Y = [] ↔ Y = [] := by
  cases h with
  | nil => simp [textOf]
  | @cons x n y Y g gs =>
    simp only [reduceCtorEq, iff_false]
    intro he
    have hn : nameText n = [] := by
      unfold textOf at he
      rw [List.flatMap_cons] at he
      exact (List.append_eq_nil_iff.1 he).1
    rcases g with ⟨-, rfl⟩ | ⟨h1, s, h2, rfl⟩
    · exact utf16_ne_nil _ hn
    · have hm := hasTag_mem.1 ⟨x, (tagText_iff h1).1 h2⟩
      obtain ⟨hb, -⟩ := hs.tags s hm
      simp only [nameText] at hn
      subst hn
      exact absurd hb (by simp [Alphabet.Bracketed])

end Verif.Paradigm
