import Verif.Stream.Model
import Verif.Input.Lemmas

/-! # The reader has no undefined behaviour and ends -/

namespace Verif.Stream

open Verif.Input

/-- Not undefined, and `P` of a returned value. -/
def Safe {α : Type} (P : α → Prop) : Res α → Prop
  | .ok a => P a
  | .ub => False
  | _ => True

theorem Safe.bind {α β : Type} {P : α → Prop} {Q : β → Prop} {r : Res α} {f : α → Res β} (h : Safe P r)
    (hf : ∀ a, P a → Safe Q (f a)) : Safe Q (r >>= f) := by
  cases r with
  | ok a => exact hf a h
  | ub => exact h
  | exit => exact trivial
  | exception => exact trivial

theorem Safe.mono {α : Type} {P Q : α → Prop} {r : Res α} (h : Safe P r) (hpq : ∀ a, P a → Q a) : Safe Q r := by
  cases r with
  | ok a => exact hpq a h
  | ub => exact h
  | exit => exact trivial
  | exception => exact trivial

theorem bind_assoc_res {α β γ : Type} (x : Res α) (f : α → Res β) (g : β → Res γ) :
    ((x >>= f) >>= g) = (x >>= fun a => f a >>= g) := by cases x <;> rfl

/-- What is left to read. -/
def left (f : InFile) : Nat := f.rest.length + f.buf.length + if f.eof then 0 else 1

theorem left_zero {f : InFile} (h : left f = 0) : f.eof = true := by
  unfold left at h; cases he : f.eof
  · rw [he] at h; simp at h
  · rfl

theorem left_lt (f : InFile) : left f < turnsOf f := by unfold left turnsOf; split <;> omega

theorem utf8_pos (c : Nat) : 0 < (utf8 c).length := List.length_pos_iff.2 (utf8_ne_nil c)

theorem get_safe (f : InFile) : Safe (fun x => x.2.buf.length = f.buf.length - 1 ∧ left x.2 ≤ left f ∧
    (f.eof = false ∨ f.buf ≠ [] → left x.2 + 1 ≤ left f) ∧
    (x.1 ≠ uEOF → left x.2 + 1 ≤ left f ∧ x.2.eof = f.eof) ∧ (f.eof = true → x.2.eof = true)) (Input.get f) := by
  unfold Input.get
  rcases internalRead_inv f with e | ⟨h1, e⟩ | ⟨h1, h2, e⟩ | ⟨c, r, h1, h2, _, hr, e⟩
  · rw [e]; exact trivial
  · rw [e]
    obtain ⟨rest, eof, buf⟩ := f
    cases buf with
    | nil => exact absurd rfl h1
    | cons c b =>
      refine ⟨by simp, ?_, ?_, ?_, fun h => h⟩ <;> simp [left] <;> omega
  · rw [e]
    obtain ⟨rest, eof, buf⟩ := f
    simp only at h1
    subst h1
    refine ⟨rfl, ?_, ?_, fun h => absurd rfl h, fun _ => rfl⟩
    · simp [left]
    · rintro (h | h)
      · simp only at h; subst h; simp [left]
      · exact absurd rfl h
  · rw [e]
    obtain ⟨rest, eof, buf⟩ := f
    simp only at h1 h2 hr
    subst h1 h2 hr
    have := utf8_pos c
    refine ⟨rfl, ?_, fun _ => ?_, fun _ => ⟨?_, rfl⟩, fun h => h⟩ <;> simp [left] <;> omega

theorem peek_safe (f : InFile) : Safe (fun x => x.2.buf.length ≤ max f.buf.length 1 ∧ x.2.buf ≠ [] ∧
    (left x.2 ≤ left f ∨ (x.2.eof = true ∧ x.2.buf = [uEOF])) ∧ (f.eof = false → left x.2 ≤ left f)) (peek f) := by
  unfold peek
  rcases internalRead_inv f with e | ⟨h1, e⟩ | ⟨h1, h2, e⟩ | ⟨c, r, h1, h2, _, hr, e⟩
  · rw [e]; exact trivial
  · rw [e]
    obtain ⟨rest, eof, buf⟩ := f
    cases buf with
    | nil => exact absurd rfl h1
    | cons c b => exact ⟨by simp, by simp, .inl (Nat.le_refl _), fun _ => Nat.le_refl _⟩
  · rw [e]
    obtain ⟨rest, eof, buf⟩ := f
    simp only at h1
    subst h1
    refine ⟨by simp, by simp, .inr ⟨rfl, rfl⟩, ?_⟩
    intro h
    simp only at h
    subst h
    simp [left]
  · rw [e]
    obtain ⟨rest, eof, buf⟩ := f
    simp only at h1 h2 hr
    subst h1 h2 hr
    have := utf8_pos c
    have : left ⟨r, false, [c]⟩ ≤ left ⟨utf8 c ++ r, false, []⟩ := by simp [left]; omega
    exact ⟨by simp, by simp, .inl this, fun _ => this⟩

theorem unget_safe {f : InFile} (c : Nat) (h : f.buf.length ≤ 2) :
    Safe (fun g => g = { f with buf := c :: f.buf }) (unget f c) := by
  unfold unget; rw [if_neg (by omega)]; rfl

/-- The buffer has room for one more value, and no more is left than before. -/
def Post (n : Nat) {α : Type} (x : α × InFile) : Prop := x.2.buf.length ≤ 2 ∧ left x.2 ≤ n

theorem readBlockLoop_safe (stop : Nat) : ∀ (turns c : Nat) (ret : UString) (f : InFile), f.buf.length ≤ 2 →
    f.eof = true ∨ left f ≤ turns → Safe (Post (left f)) (readBlockLoop stop turns c ret f) := by
  intro turns
  induction turns with
  | zero =>
    intro c ret f hb ht
    have : f.eof = true := ht.elim id fun h => left_zero (by omega)
    unfold readBlockLoop
    rw [if_neg (by simp [this])]
    exact ⟨hb, Nat.le_refl _⟩
  | succ turns ih =>
    intro c ret f hb ht
    unfold readBlockLoop
    split
    · rename_i hc
      have hlt : left f ≤ turns + 1 := ht.elim (fun h => by rw [h] at hc; cases hc.2) id
      refine (get_safe f).bind ?_
      rintro ⟨c, g⟩ ⟨p1, p2, p3, p4, p5⟩
      have p3' := p3 (.inl hc.2)
      dsimp only at *
      split
      · exact ⟨by simp only; omega, p2⟩
      split
      · refine (get_safe g).bind ?_
        rintro ⟨c2, g2⟩ ⟨q1, q2, q3, q4, q5⟩
        dsimp only at *
        exact (ih _ _ g2 (by omega) (.inr (by omega))).mono fun x hx => ⟨hx.1, hx.2.trans (by omega)⟩
      · exact (ih _ _ g (by omega) (.inr (by omega))).mono fun x hx => ⟨hx.1, hx.2.trans (by omega)⟩
    · exact ⟨hb, Nat.le_refl _⟩

theorem readBlock_safe (start stop : Nat) (f : InFile) (h : f.buf.length ≤ 2) :
    Safe (Post (left f)) (readBlock start stop f) :=
  readBlockLoop_safe stop _ _ _ f h (.inr (left_lt f).le)

theorem finishWBlankLoop_safe : ∀ (turns : Nat) (ret : UString) (f : InFile), f.buf.length ≤ 2 →
    f.eof = true ∨ left f ≤ turns → Safe (Post (left f)) (finishWBlankLoop turns ret f) := by
  intro turns
  induction turns with
  | zero =>
    intro ret f hb ht
    have : f.eof = true := ht.elim id fun h => left_zero (by omega)
    unfold finishWBlankLoop
    rw [if_neg (by simp [this])]
    exact ⟨hb, Nat.le_refl _⟩
  | succ turns ih =>
    intro ret f hb ht
    unfold finishWBlankLoop
    split
    · rename_i hc
      have hlt : left f ≤ turns + 1 := ht.elim (fun h => by rw [h] at hc; cases hc) id
      refine (get_safe f).bind ?_
      rintro ⟨c, g⟩ ⟨p1, p2, p3, p4, p5⟩
      have p3' := p3 (.inl hc)
      dsimp only at *
      split
      · exact ⟨by simp only; omega, p2⟩
      split
      · refine (get_safe g).bind ?_
        rintro ⟨c2, g2⟩ ⟨q1, q2, q3, q4, q5⟩
        dsimp only at *
        exact (ih _ g2 (by omega) (.inr (by omega))).mono fun x hx => ⟨hx.1, hx.2.trans (by omega)⟩
      split
      · rename_i hbr
        have hge : g.eof = false := by rw [(p4 (by rw [hbr]; decide)).2]; exact hc
        refine (peek_safe g).bind ?_
        rintro ⟨c2, g2⟩ ⟨q1, q2, q3, q4⟩
        have q4' := q4 hge
        dsimp only at *
        split
        · refine (get_safe g2).bind ?_
          rintro ⟨c3, g3⟩ ⟨r1, r2, r3, r4, r5⟩
          dsimp only at *
          exact ⟨by simp only; omega, by simp only; omega⟩
        · exact (ih _ g2 (by omega) (.inr (by omega))).mono fun x hx => ⟨hx.1, hx.2.trans (by omega)⟩
      · exact (ih _ g (by omega) (.inr (by omega))).mono fun x hx => ⟨hx.1, hx.2.trans (by omega)⟩
    · exact ⟨hb, Nat.le_refl _⟩

theorem finishWBlank_safe (f : InFile) (h : f.buf.length ≤ 2) : Safe (Post (left f)) (finishWBlank f) :=
  finishWBlankLoop_safe _ _ f h (.inr (left_lt f).le)

theorem readBlankLoop_safe (rw : Bool) : ∀ (turns : Nat) (ret : UString) (f : InFile), f.buf.length ≤ 2 →
    f.eof = true ∨ left f ≤ turns → Safe (Post (left f)) (readBlankLoop rw turns ret f) := by
  intro turns
  induction turns with
  | zero =>
    intro ret f hb ht
    have : f.eof = true := ht.elim id fun h => left_zero (by omega)
    unfold readBlankLoop
    rw [if_neg (by simp [this])]
    exact ⟨hb, Nat.le_refl _⟩
  | succ turns ih =>
    intro ret f hb ht
    unfold readBlankLoop
    split
    · rename_i hc
      have hlt : left f ≤ turns + 1 := ht.elim (fun h => by rw [h] at hc; cases hc) id
      refine (get_safe f).bind ?_
      rintro ⟨c, g⟩ ⟨p1, p2, p3, p4, p5⟩
      have p3' := p3 (.inl hc)
      dsimp only at *
      split
      · refine (unget_safe c (by omega)).bind ?_
        rintro g' rfl
        exact ⟨by simp; omega, by simp only [left, List.length_cons] at p3' ⊢; omega⟩
      rename_i hn
      have hge : g.eof = false := by rw [(p4 (by simp only [not_or] at hn; exact hn.2.2)).2]; exact hc
      split
      · refine (get_safe g).bind ?_
        rintro ⟨c2, g2⟩ ⟨q1, q2, q3, q4, q5⟩
        have q3' : left g2 + 1 ≤ left g := q3 (.inl hge)
        dsimp only at *
        split
        · split
          · refine (finishWBlank_safe g2 (by omega)).bind ?_
            rintro ⟨w, g3⟩ ⟨r1, r2⟩
            dsimp only at *
            exact (ih _ g3 (by omega) (.inr (by omega))).mono fun x hx => ⟨hx.1, hx.2.trans (by omega)⟩
          · refine (unget_safe c2 (by omega)).bind ?_
            rintro g' rfl
            refine (unget_safe c (by simp; omega)).bind ?_
            rintro g' rfl
            exact ⟨by simp only [List.length_cons]; omega, by simp only [left, List.length_cons] at p3' q3' ⊢; omega⟩
        · refine (unget_safe c2 (by omega)).bind ?_
          rintro g' rfl
          refine (readBlock_safe _ _ _ (by simp; omega)).bind ?_
          rintro ⟨w, g3⟩ ⟨r1, r2⟩
          have : left { g2 with buf := c2 :: g2.buf } ≤ left g := by
            simp only [left, List.length_cons] at q3' ⊢; omega
          dsimp only at *
          exact (ih _ g3 (by omega) (.inr (by omega))).mono fun x hx => ⟨hx.1, hx.2.trans (by omega)⟩
      split
      · split
        · exact trivial
        · refine (peek_safe g).bind ?_
          rintro ⟨c2, g2⟩ ⟨q1, q2, q3, q4⟩
          have q4' := q4 hge
          dsimp only at *
          split
          · exact trivial
          · refine (get_safe g2).bind ?_
            rintro ⟨c3, g3⟩ ⟨r1, r2, r3, r4, r5⟩
            dsimp only at *
            exact (ih _ g3 (by omega) (.inr (by omega))).mono fun x hx => ⟨hx.1, hx.2.trans (by omega)⟩
      · exact (ih _ g (by omega) (.inr (by omega))).mono fun x hx => ⟨hx.1, hx.2.trans (by omega)⟩
    · exact ⟨hb, Nat.le_refl _⟩

theorem readBlank_safe (rw : Bool) (f : InFile) (h : f.buf.length ≤ 2) : Safe (Post (left f)) (readBlank rw f) :=
  readBlankLoop_safe rw _ _ f h (.inr (left_lt f).le)

theorem readingLoop_safe (add : Bool) : ∀ (turns c : Nat) (cur : Reading) (chunk : UString) (al : Option Alphabet) (f : InFile),
    f.buf.length ≤ 2 → f.eof = true ∨ left f ≤ turns →
    Safe (fun x => x.2.2.2.2.buf.length ≤ 2 ∧ left x.2.2.2.2 ≤ left f) (readingLoop add turns c cur chunk al f) := by
  intro turns
  induction turns with
  | zero =>
    intro c cur chunk al f hb ht
    have : f.eof = true := ht.elim id fun h => left_zero (by omega)
    unfold readingLoop
    rw [if_neg (by simp [this])]
    exact ⟨hb, Nat.le_refl _⟩
  | succ turns ih =>
    intro c cur chunk al f hb ht
    unfold readingLoop
    split
    · rename_i hc
      have hlt : left f ≤ turns + 1 := ht.elim (fun h => by rw [h] at hc; cases hc.2.2.2) id
      have blk : ∀ (a b : Nat) (F : UString → Nat → InFile → Res (Nat × Reading × UString × Option Alphabet × InFile)),
          (∀ w c g, g.buf.length ≤ 2 → g.eof = true ∨ left g ≤ turns → left g ≤ left f →
            Safe (fun x => x.2.2.2.2.buf.length ≤ 2 ∧ left x.2.2.2.2 ≤ left f) (F w c g)) →
          Safe (fun x => x.2.2.2.2.buf.length ≤ 2 ∧ left x.2.2.2.2 ≤ left f)
            (readBlock a b f >>= fun p => Input.get p.2 >>= fun q => F p.1 q.1 q.2) := by
        intro a b F hF
        refine (readBlock_safe a b f hb).bind ?_
        rintro ⟨w, g⟩ ⟨r1, r2⟩
        dsimp only at *
        refine (get_safe g).bind ?_
        rintro ⟨c3, g3⟩ ⟨q1, q2, q3, q4, q5⟩
        dsimp only at *
        apply hF
        · omega
        · cases he : g.eof
          · have : left g3 + 1 ≤ left g := q3 (.inl he)
            right; show left g3 ≤ turns; omega
          · left; exact q5 he
        · omega
      simp only []
      split
      · exact blk _ _ (fun w c g => readingLoop add turns c { cur with content := cur.content ++ w, symbols := cur.symbols ++ (tagSymbol add al w).1 }
          chunk (tagSymbol add al w).2 g) fun w c g h1 h2 h3 => (ih _ _ _ _ g h1 h2).mono fun x hx => ⟨hx.1, hx.2.trans h3⟩
      split
      · exact blk _ _ (fun w c g => readingLoop add turns c cur (chunk ++ w) al g)
          fun w c g h1 h2 h3 => (ih _ _ _ _ g h1 h2).mono fun x hx => ⟨hx.1, hx.2.trans h3⟩
      split
      · refine (get_safe f).bind ?_
        rintro ⟨c2, g⟩ ⟨p1, p2, p3, p4, p5⟩
        have p3' := p3 (.inl hc.2.2.2)
        dsimp only at *
        refine (get_safe g).bind ?_
        rintro ⟨c2, g2⟩ ⟨q1, q2, q3, q4, q5⟩
        dsimp only at *
        exact (ih _ _ _ _ g2 (by omega) (.inr (by omega))).mono fun x hx => ⟨hx.1, hx.2.trans (by omega)⟩
      · refine (get_safe f).bind ?_
        rintro ⟨c2, g⟩ ⟨p1, p2, p3, p4, p5⟩
        have p3' := p3 (.inl hc.2.2.2)
        dsimp only at *
        exact (ih _ _ _ _ g (by omega) (.inr (by omega))).mono fun x hx => ⟨hx.1, hx.2.trans (by omega)⟩
    · exact ⟨hb, Nat.le_refl _⟩

theorem readingsLoop_safe (add : Bool) : ∀ (turns c : Nat) (rs : List Reading) (chunk : UString) (al : Option Alphabet) (f : InFile),
    f.buf.length ≤ 2 → f.eof = true ∨ left f ≤ turns →
    Safe (fun x => x.2.2.2.2.buf.length ≤ 2) (readingsLoop add turns c rs chunk al f) := by
  intro turns
  induction turns with
  | zero =>
    intro c cur chunk al f hb ht
    have : f.eof = true := ht.elim id fun h => left_zero (by omega)
    unfold readingsLoop
    rw [if_neg (by simp [this])]
    exact hb
  | succ turns ih =>
    intro c rs chunk al f hb ht
    unfold readingsLoop
    split
    · rename_i hc
      have hlt : left f ≤ turns + 1 := ht.elim (fun h => by rw [h] at hc; cases hc.2.2) id
      refine (peek_safe f).bind ?_
      rintro ⟨c2, g⟩ ⟨p1, p2, p3, p4⟩
      have p4' := p4 hc.2.2
      dsimp only at *
      have last : ∀ (m c : Nat) (g : InFile), g.buf.length ≤ 2 → left g ≤ turns →
          Safe (fun x => x.2.2.2.2.buf.length ≤ 2) (do
            let (c, cur, chunk, alpha, f) ← readingLoop add (turnsOf g) c { mark := m } chunk al g
            readingsLoop add turns c (rs ++ [cur]) chunk alpha f) := by
        intro m c g h1 h2
        refine (readingLoop_safe add _ _ _ _ _ g h1 (.inr (left_lt g).le)).bind ?_
        rintro ⟨c3, cur, ck, a3, g3⟩ ⟨r1, r2⟩
        dsimp only at *
        exact ih _ _ _ _ _ r1 (.inr (by omega))
      have q := get_safe g
      split
      · simp only [Res.bind_ok]
        refine q.bind ?_
        rintro ⟨c3, g3⟩ ⟨q1, q2, q3, q4, q5⟩
        have q3' := q3 (.inr p2)
        dsimp only at *
        refine (get_safe g3).bind ?_
        rintro ⟨c4, g4⟩ ⟨r1, r2, r3, r4, r5⟩
        dsimp only at *
        exact last _ _ _ (by omega) (by omega)
      · simp only [Res.bind_ok]
        refine q.bind ?_
        rintro ⟨c3, g3⟩ ⟨q1, q2, q3, q4, q5⟩
        have q3' := q3 (.inr p2)
        dsimp only at *
        exact last _ _ _ (by omega) (by omega)
    · exact hb

theorem unit_safe (r : Reader) (c : Nat) (f : InFile) (h : f.buf.length ≤ 2) :
    Safe (fun x => x.inp.buf.length ≤ 2) (nextLoop.unit r c f) := by
  unfold nextLoop.unit
  split
  · exact h
  split
  · exact h
  refine (readingsLoop_safe _ _ _ _ _ _ f h (.inr (left_lt f).le)).bind ?_
  rintro ⟨c3, cur, ck, a3, g3⟩ r1
  dsimp only at *
  split
  · exact r1
  split
  · exact r1
  · exact r1

theorem nextLoop_safe : ∀ (turns : Nat) (r : Reader), r.inp.buf.length ≤ 2 →
    left r.inp ≤ turns ∨ (r.inp.eof = true ∧ r.inp.buf = [uEOF]) → Safe (fun x => x.inp.buf.length ≤ 2) (nextLoop turns r) := by
  have ended : ∀ (turns : Nat) (r : Reader), (r.inp.eof = true ∧ r.inp.buf = [uEOF]) →
      Safe (fun x => x.inp.buf.length ≤ 2) (nextLoop turns r) := by
    rintro turns r ⟨h1, h2⟩
    unfold nextLoop
    simp only []
    split
    · simp [Safe, h2]
    have e1 : readBlank false r.inp = .ok ([], r.inp) := by
      unfold readBlank readBlankLoop; rw [if_neg (by simp [h1])]
    have e2 : Input.get r.inp = .ok (uEOF, { r.inp with buf := [] }) := by
      unfold Input.get internalRead; rw [if_pos (by simp [h2])]; simp [h2]
    simp only [e1, e2, Res.bind_ok]
    rw [if_neg (by decide)]
    exact unit_safe _ _ _ (by simp)
  intro turns
  induction turns with
  | zero =>
    intro r hb ht
    rcases ht with ht | ht
    swap
    · exact ended _ _ ht
    have he : r.inp.eof = true := left_zero (by omega)
    unfold nextLoop
    simp only []
    split
    · exact hb
    refine (readBlank_safe false r.inp hb).bind ?_
    rintro ⟨b, f⟩ ⟨p1, p2⟩
    dsimp only at *
    refine (get_safe f).bind ?_
    rintro ⟨c, g⟩ ⟨q1, q2, q3, q4, q5⟩
    dsimp only at *
    split
    · rename_i hc
      have := (q4 (by rw [hc]; decide)).1
      omega
    · exact unit_safe _ _ _ (by omega)
  | succ turns ih =>
    intro r hb ht
    rcases ht with ht | ht
    swap
    · exact ended _ _ ht
    unfold nextLoop
    simp only []
    split
    · exact hb
    refine (readBlank_safe false r.inp hb).bind ?_
    rintro ⟨b, f⟩ ⟨p1, p2⟩
    dsimp only at *
    refine (get_safe f).bind ?_
    rintro ⟨c, g⟩ ⟨q1, q2, q3, q4, q5⟩
    dsimp only at *
    split
    · rename_i hc
      have hlt := (q4 (by rw [hc]; decide)).1
      refine (get_safe g).bind ?_
      rintro ⟨c3, g3⟩ ⟨r1, r2, r3, r4, r5⟩
      dsimp only at *
      refine (finishWBlank_safe g3 (by omega)).bind ?_
      rintro ⟨w, g4⟩ ⟨s1, s2⟩
      dsimp only at *
      refine (peek_safe g4).bind ?_
      rintro ⟨p, g5⟩ ⟨t1, t2, t3, t4⟩
      dsimp only at *
      split
      · refine (ih _ (by simp only; omega) (t3.imp (fun h => by simp only; omega) id)).bind ?_
        rintro r' h'
        exact h'
      · refine (get_safe g5).bind ?_
        rintro ⟨c6, g6⟩ ⟨u1, u2, u3, u4, u5⟩
        dsimp only at *
        exact unit_safe _ _ _ (by omega)
    · exact unit_safe _ _ _ (by omega)

end Verif.Stream
