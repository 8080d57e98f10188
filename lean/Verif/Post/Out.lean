import Verif.Post.States
import Verif.Post.Queue

/-! # Rewriting and writing words -/

namespace Verif.Post

open Verif.State Verif.Stream

variable {W : Type} {σ : Setting W} {name : Int → UString}

/-! ## Symbols that can be written -/

def Known (σ : Setting W) (name : Int → UString) (x : Int) : Prop := x = 0 ∨ (0 < x ∧ x < 0x110000) ∨ (x < 0 ∧ σ.alphabet.HasTag x (name x))

theorem Good.known {x : Int} (h : Good σ name x) : Known σ name x := by
  rcases h with h | h
  · exact .inr (.inl ⟨h.1, by have := h.2.1; omega⟩)
  · exact .inr (.inr ⟨h.1, h.2.1⟩)

theorem Known.write {x : Int} (h : Known σ name x) : ∃ s, symbolText id σ.alphabet x false = .ok s ∧
    (if x > 0 ∧ x ∈ Gen.escapedCps then [0x5c] else []) ++ s = symText name x := by
  rcases h with rfl | ⟨h1, h2⟩ | ⟨h1, h2⟩
  · exact ⟨[], rfl, by simp [symText]⟩
  · refine ⟨utf16 x.toNat, ?_, ?_⟩
    · unfold symbolText
      rw [if_neg (by omega), if_neg (by omega), if_neg (by simp), Compression.unitsOf_utf16 _ (by omega)]
    · unfold symText
      rw [if_neg (show ¬ x = 0 by omega), if_neg (show ¬ x < 0 by omega)]
      simp [h1]
  · refine ⟨name x, ?_, ?_⟩
    · unfold symbolText
      rw [if_neg (by omega), if_pos h1, (Alphabet.tagText_iff h1).2 h2]
    · unfold symText
      rw [if_neg (show ¬ x = 0 by omega), if_pos h1, if_neg (by rintro ⟨h, -⟩; omega)]
      rfl

theorem letter_known [LinearOrder W] (hr : Regular σ name) {l : Letter} (h : l.WF σ) : Known σ name (l.code σ.alphabet) ∧ l.code σ.alphabet ≠ 0x20 := by
  rcases l with (c | c) | ts
  · obtain ⟨h1, h2, -, -, -, h3⟩ := h
    have : c < 0x110000 := by rcases h1 with h1 | h1 <;> omega
    refine ⟨.inr (.inl ⟨?_, ?_⟩), ?_⟩
    · show (0 : Int) < (c : Int); omega
    · show (c : Int) < _; omega
    · show (c : Int) ≠ 0x20
      intro e
      have e : c = 0x20 := by omega
      subst e
      have := hr.space
      rw [show ((0x20 : Nat) : Int) = 0x20 from rfl] at h3
      rw [h3] at this
      cases this
  · obtain ⟨h1, h2, h3⟩ := h
    have : c < 0x110000 := by rcases h1 with h1 | h1 <;> omega
    refine ⟨.inr (.inl ⟨?_, ?_⟩), ?_⟩
    · show (0 : Int) < (c : Int); omega
    · show (c : Int) < _; omega
    · show (c : Int) ≠ 0x20; omega
  · rcases (letter_is hr.alphabet (.tag ts) _).2 rfl with h1 | ⟨-, h1⟩
    · have hn : Letter.code σ.alphabet (.tag ts) < 0 := by
        obtain ⟨i, -, h2⟩ := id h1
        rw [h2]
        simp only [Alphabet.tagNo]; omega
      exact ⟨.inr (.inr ⟨hn, by rw [hr.names _ _ h1]; exact h1⟩), by omega⟩
    · exact ⟨.inl h1, by omega⟩

theorem front_spaces [LinearOrder W] (hr : Regular σ name) {ps : List Part} (h : ∀ p ∈ ps, p.WF σ) :
    spaces (ps.map (Part.code σ.alphabet)) = (gapTexts ps).length := by
  induction ps with
  | nil => rfl
  | cons p ps ih =>
    have ih := ih fun p hp => h p (by simp [hp])
    unfold spaces at ih ⊢
    cases p with
    | letter l =>
      have h1 := (letter_known hr (h (.letter l) (by simp))).2
      have : Part.code σ.alphabet (.letter l) = l.code σ.alphabet := rfl
      rw [List.map_cons, this, List.count_cons_of_ne (fun e => h1 e), ih]
      rfl
    | gap b =>
      have : Part.code σ.alphabet (.gap b) = 0x20 := rfl
      rw [List.map_cons, this, List.count_cons_self, ih]
      rfl

theorem front_known [LinearOrder W] (hr : Regular σ name) {ps : List Part} (h : ∀ p ∈ ps, p.WF σ) : ∀ x ∈ ps.map (Part.code σ.alphabet), Known σ name x := by
  intro x hx
  obtain ⟨p, hp, rfl⟩ := List.mem_map.1 hx
  cases p with
  | letter l => exact (letter_known hr (h _ hp)).1
  | gap b => exact .inr (.inl ⟨by show (0 : Int) < 0x20; omega, by show (0x20 : Int) < _; omega⟩)

/-! ## Replacing -/

theorem common_eq (a b : List Int) : common a b = ((a.zip b).takeWhile fun p => p.1 = p.2).length := by
  induction a generalizing b with
  | nil => simp [common]
  | cons x a ih =>
    cases b with
    | nil => simp [common]
    | cons y b =>
      rw [common, List.zip_cons_cons, List.takeWhile_cons]
      by_cases h : x = y
      · simp [h, ih]
      · simp [h]

theorem overlap_eq (a b : List Int) : common a.reverse b.reverse = overlap a b := common_eq _ _

theorem overlap_le (a b : List Int) : overlap a b ≤ b.length := by
  unfold overlap
  refine (List.takeWhile_sublist _).length_le.trans ?_
  rw [List.length_zip, List.length_reverse, List.length_reverse]
  exact Nat.min_le_right _ _

/-! ## Writing -/

theorem wordText_ok (diff : Int) (count : Nat) (more : List UString) (word : List Int) : ∀ (so : Nat) (out : UString) (bs : List UString), (∀ x ∈ word, Known σ name x) →
    (bs.length : Int) = max 0 ((count : Int) - diff - so) →
    wordText σ diff count word so out (bs ++ more) = .ok (out ++ (fill σ name word bs).1, (fill σ name word bs).2 ++ more) := by
  induction word with
  | nil => intro so out bs _ _; simp [wordText, fill]
  | cons x word ih =>
    intro so out bs hk hb
    have hk' : ∀ x ∈ word, Known σ name x := fun x hx => hk x (by simp [hx])
    unfold wordText fill
    by_cases hx : x = 0x20
    · rw [if_pos hx, if_pos hx]
      cases bs with
      | nil =>
        rw [List.length_nil] at hb
        rw [if_pos (by omega), ih _ _ _ hk' (by rw [List.length_nil]; omega)]
        simp
      | cons b bs =>
        rw [List.length_cons] at hb
        rw [if_neg (by omega)]
        simp only [List.cons_append]
        rw [ih _ _ _ hk' (by omega)]
        simp
    · rw [if_neg hx, if_neg hx]
      split
      · exact ih _ _ _ hk' hb
      · obtain ⟨s, h1, h2⟩ := (hk x (by simp)).write
        rw [h1]
        simp only [Res.bind_ok]
        rw [ih _ _ _ hk' hb, List.append_assoc out, h2]
        simp

theorem fill_left (word : List Int) (bs : List UString) : (fill σ name word bs).2.length = bs.length - spaces word := by
  induction word generalizing bs with
  | nil => simp [fill, spaces]
  | cons x word ih =>
    unfold fill
    unfold spaces at ih ⊢
    by_cases hx : x = 0x20
    · subst hx
      rw [if_pos rfl, List.count_cons_self]
      cases bs with
      | nil => simp [ih]
      | cons b bs => simp [ih]
    · rw [if_neg hx, List.count_cons_of_ne (fun e => hx e)]
      split
      · exact ih bs
      · exact ih bs

theorem surplus_ok (bs more : List UString) (out : UString) : surplus bs.length out (bs ++ more) = .ok (out ++ (bs.filter (· ≠ [0x20])).flatten, more) := by
  induction bs generalizing out with
  | nil => simp [surplus]
  | cons b bs ih =>
    rw [List.length_cons, List.cons_append, surplus, ih]
    by_cases hb : b = [0x20]
    · simp [hb]
    · simp [hb]

theorem writeWord_ok {f : Front} {diff : Int} {t : Tl} {more : List UString} {ws : List UString} {q : List (List Int)} (hb : t.blanks = f.blanks ++ more)
    (hne : f.blanks ≠ []) (hw : t.wblanks = markText f.mark :: ws) (hq : t.queue = f.word :: q) (hd : (spaces f.word : Int) = f.blanks.length - 1 + diff)
    (hk : ∀ x ∈ f.word, Known σ name x) :
    writeWord σ diff t = .ok { t with out := t.out ++ f.out σ name, blanks := more, wblanks := ws, queue := q } := by
  obtain ⟨b, bs, hbs⟩ := List.exists_cons_of_ne_nil hne
  rw [hbs, List.length_cons] at hd
  have h1 := wordText_ok (σ := σ) (name := name) diff (spaces f.word) more f.word 0 [] bs hk (by push_cast at hd ⊢; omega)
  have h2 := fill_left (σ := σ) (name := name) f.word bs
  unfold writeWord
  rw [hb, hw, hq, hbs]
  simp only [List.cons_append]
  rw [h1]
  simp only [Res.bind_ok]
  have h3 : (-diff).toNat = (fill σ name f.word bs).2.length := by rw [h2]; push_cast at hd; omega
  rw [h3, surplus_ok]
  simp only [Res.bind_ok, Res.ok.injEq, Tl.mk.injEq, true_and]
  unfold Front.out
  rw [hbs]
  have e1 : (if markText f.mark ≠ [] then ([0x5b, 0x5b, 0x2f, 0x5d, 0x5d] : UString) else []) = f.mark.elim [] fun _ => enc closing := by
    cases f.mark with
    | none => rfl
    | some x => rw [if_pos (by simp [markText])]; exact (by decide : ([0x5b, 0x5b, 0x2f, 0x5d, 0x5d] : UString) = enc closing)
  rw [e1]
  simp [markText]

end Verif.Post
