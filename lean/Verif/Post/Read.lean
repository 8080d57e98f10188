import Verif.Post.Spec
import Verif.Stream.Props
import Verif.Proc.Text

/-! # Reading words and blanks -/

namespace Verif.Post

open Verif.Input Verif.State Verif.Stream

variable {W : Type} {σ : Setting W}

/-! ## Words as fronts -/

def Letter.code (a : Alphabet) : Letter → Int
  | .chr (.raw c) => c
  | .chr (.esc c) => c
  | .tag ts => a.symCode (enc (blockText '<'.toNat '>'.toNat ts))

def Part.code (a : Alphabet) : Part → Int
  | .letter l => l.code a
  | .gap _ => 0x20

def gapTexts (ps : List Part) : List UString := ps.filterMap fun
  | .gap b => some (enc b.text)
  | .letter _ => none

def frontOf (a : Alphabet) (w : Word) : Front :=
  ⟨enc w.blank.text :: gapTexts w.parts, w.mark.map fun ts => enc (toksText ts), w.parts.map (Part.code a)⟩

theorem letter_is {a : Alphabet} (ha : a.Ok) (l : Letter) (x : Int) : l.Is a x ↔ x = l.code a := by
  rcases l with (c | c) | ts
  · exact Iff.rfl
  · exact Iff.rfl
  · unfold Letter.Is Letter.code
    simp only
    constructor
    · rintro (h | ⟨h, rfl⟩)
      · exact (Alphabet.symCode_of_hasTag ha h).symm
      · unfold Alphabet.symCode
        cases hm : mapFind (enc (blockText '<'.toNat '>'.toNat ts)) a.slexic with
        | none => rfl
        | some c =>
          obtain ⟨i, hi, -⟩ := (Alphabet.hasTag_find ha).1 hm
          exact absurd (List.mem_of_getElem? hi) h
    · rintro rfl
      unfold Alphabet.symCode
      cases hm : mapFind (enc (blockText '<'.toNat '>'.toNat ts)) a.slexic with
      | none =>
        refine .inr ⟨?_, rfl⟩
        intro hmem
        obtain ⟨i, hi⟩ := List.mem_iff_getElem?.1 hmem
        have : mapFind (enc (blockText '<'.toNat '>'.toNat ts)) a.slexic = some (Alphabet.tagNo i) := (Alphabet.hasTag_find ha).2 ⟨i, hi, rfl⟩
        rw [hm] at this
        cases this
      | some c => exact .inl ((Alphabet.hasTag_find ha).1 hm)

theorem part_is {a : Alphabet} (ha : a.Ok) (p : Part) (x : Int) : p.Is a x ↔ x = p.code a := by
  cases p with
  | letter l => exact letter_is ha l x
  | gap b => exact Iff.rfl

theorem forall2_fun {α β : Type} {R : α → β → Prop} {g : α → β} (h : ∀ a b, R a b ↔ b = g a) (as : List α) (bs : List β) :
    List.Forall₂ R as bs ↔ bs = as.map g := by
  induction as generalizing bs with
  | nil => cases bs <;> simp
  | cons a as ih =>
    cases bs with
    | nil => simp
    | cons b bs => simp [h, ih]

theorem word_front {a : Alphabet} (ha : a.Ok) (w : Word) (f : Front) : w.Front a f ↔ f = frontOf a w := by
  constructor
  · rintro ⟨h1, h2, h3⟩
    obtain ⟨b, m, x⟩ := f
    simp only at h1 h2 h3
    rw [h1, h2, (forall2_fun (part_is ha) _ _).1 h3]
    rfl
  · rintro rfl
    exact ⟨rfl, rfl, (forall2_fun (part_is ha) _ _).2 rfl⟩

/-! ## Blanks -/

theorem Piece.length_text (p : Piece) : 1 ≤ p.text.length := by
  cases p <;> simp [Piece.text, blockText]

theorem Blank.length_text (b : Blank) : b.length ≤ b.text.length := by
  induction b with
  | nil => simp [Blank.text]
  | cons p b ih =>
    have := p.length_text
    simp only [Blank.text, List.flatMap_cons, List.length_append, List.length_cons] at ih ⊢
    omega

theorem Blank.text_cons (p : Piece) (b : Blank) : Blank.text (p :: b) = p.text ++ Blank.text b := by simp [Blank.text]

theorem utf16_ne_nil (c : Nat) : utf16 c ≠ [] := by
  unfold utf16
  split <;> simp

theorem enc_eq_nil {cs : List Nat} : enc cs = [] ↔ cs = [] := by
  cases cs with
  | nil => simp [enc]
  | cons c cs => simp [enc, utf16_ne_nil c]

theorem Blank.enc_eq_nil (b : Blank) : enc b.text = [] ↔ b = [] := by
  rw [Post.enc_eq_nil]
  constructor
  · intro h
    have := Blank.length_text b
    rw [h] at this
    exact List.length_eq_zero_iff.1 (by simpa using this)
  · rintro rfl; rfl

theorem toksText_head {ts : List Tok} {stop : Nat} (hs : stop ≠ '['.toNat) (h : ts.head? ≠ some (.raw '['.toNat)) (cs : List Nat) :
    ∃ c cs', toksText ts ++ stop :: cs = c :: cs' ∧ c ≠ '['.toNat := by
  cases ts with
  | nil => exact ⟨stop, cs, rfl, hs⟩
  | cons t ts =>
    cases t with
    | raw c => exact ⟨c, _, rfl, fun e => h (by rw [e]; rfl)⟩
    | esc c => exact ⟨'\\'.toNat, _, rfl, by decide⟩

theorem blankLoop_pieces (hsp : σ.isSpace '['.toNat = false) (cs : List Nat) (b : Blank) : ∀ (k : Nat) (acc : UString) (f : InFile), (∀ p ∈ b, p.WF σ) →
    Holds f (b.text ++ cs) → ∃ g, Holds g cs ∧ blankLoop σ (b.length + k) acc f = blankLoop σ k (acc ++ enc b.text) g := by
  induction b with
  | nil => exact fun k acc f _ h => ⟨f, h, by simp [Blank.text, enc]⟩
  | cons p b ih =>
    intro k acc f hw h
    have hk : (p :: b).length + k = (b.length + k) + 1 := by rw [List.length_cons]; omega
    rw [hk]
    have hp := hw p (by simp)
    rw [Blank.text_cons, List.append_assoc] at h
    have he : f.eof = false := h.eof
    rw [blankLoop]
    rw [if_neg (by rw [he]; decide)]
    cases p with
    | space c =>
      obtain ⟨g, e, hg, -⟩ := Holds.get (c := c) h
      simp only [e, Res.bind_ok]
      rw [if_pos hp.2]
      obtain ⟨g', h1, h2⟩ := ih k (acc ++ utf16 c) g (fun p hp => hw p (by simp [hp])) hg
      refine ⟨g', h1, ?_⟩
      rw [h2, Blank.text_cons]
      simp [Piece.text, enc]
    | super ts =>
      have h' : Holds f ('['.toNat :: (toksText ts ++ ']'.toNat :: (Blank.text b ++ cs))) := by
        simpa [Piece.text, blockText] using h
      obtain ⟨g, e, hg, -⟩ := h'.get
      simp only [e, Res.bind_ok]
      rw [if_neg (by rw [hsp]; decide), if_pos trivial]
      obtain ⟨c, cs', e2, hc⟩ := toksText_head (stop := ']'.toNat) (by decide) hp.2 (Blank.text b ++ cs)
      have hg' := hg
      rw [e2] at hg'
      obtain ⟨g1, e3, hg1⟩ := hg'.peek
      simp only [e3, Res.bind_ok]
      rw [if_neg hc]
      rw [← e2] at hg1
      obtain ⟨g2, e4, hg2⟩ := readBlock_ok '['.toNat ']'.toNat (by decide) (by decide) _ ts g1 hp.1 hg1
      simp only [e4, Res.bind_ok]
      obtain ⟨g', h1, h2⟩ := ih k _ g2 (fun p hp => hw p (by simp [hp])) hg2
      refine ⟨g', h1, ?_⟩
      rw [h2, Blank.text_cons]
      simp [Piece.text, enc]

/-- Where a blank ends, and the file there. -/
inductive Behind (σ : Setting W) : List Nat → InFile → Prop
  | char {c : Nat} {cs g} (h1 : σ.isSpace c = false) (h2 : c ≠ '['.toNat) (h : Holds g (c :: cs)) : Behind σ (c :: cs) g
  | mark {cs g} (h : Holds g ('['.toNat :: cs)) : Behind σ ('['.toNat :: '['.toNat :: cs) g
  | eof : Behind σ [] Stream.ended

theorem Behind.at_char {c : Nat} {cs : List Nat} {g : InFile} (h : Behind σ (c :: cs) g) (hc : c ≠ '['.toNat) : Holds g (c :: cs) := by
  generalize hx : c :: cs = cs' at h
  cases h with
  | char _ _ h => exact h
  | mark h => exact absurd (List.cons.inj hx).1 hc
  | eof => cases hx

theorem Behind.at_mark {cs : List Nat} {g : InFile} (h : Behind σ ('['.toNat :: '['.toNat :: cs) g) : Holds g ('['.toNat :: cs) := by
  generalize hx : '['.toNat :: '['.toNat :: cs = cs' at h
  cases h with
  | char _ h2 _ => exact absurd (List.cons.inj hx).1.symm h2
  | mark h => rw [(List.cons.inj (List.cons.inj hx).2).2]; exact h
  | eof => cases hx

/-- Where a blank ends. -/
inductive Stopped (σ : Setting W) : List Nat → Prop
  | char {c : Nat} {cs} (h1 : σ.isSpace c = false) (h2 : c ≠ '['.toNat) : Stopped σ (c :: cs)
  | mark {cs} : Stopped σ ('['.toNat :: '['.toNat :: cs)
  | eof : Stopped σ []

theorem blankLoop_stop (hs : σ.isSpace '['.toNat = false) (he : σ.isSpace 0xFFFF = false) {cs : List Nat} (hc : Stopped σ cs) (k : Nat) (acc : UString) (f : InFile)
    (h : Holds f cs) : ∃ g, Behind σ cs g ∧ blankLoop σ (k + 1) acc f = .ok (acc, g) := by
  have hef : f.eof = false := h.eof
  rw [blankLoop, if_neg (by rw [hef]; decide)]
  cases hc with
  | @char c cs h1 h2 =>
    obtain ⟨g, e, hg, hb⟩ := h.get
    have := h.buf
    obtain ⟨g', e', hg', -⟩ := hg.unget (h.scalar c (by simp)) (by omega)
    refine ⟨g', .char h1 h2 hg', ?_⟩
    simp only [e, Res.bind_ok]
    rw [if_neg (by rw [h1]; decide), if_neg h2]
    simp only [e', Res.bind_ok]
  | @mark cs =>
    obtain ⟨g, e, hg, -⟩ := h.get
    obtain ⟨g1, e1, hg1⟩ := hg.peek
    refine ⟨g1, .mark hg1, ?_⟩
    simp only [e, Res.bind_ok]
    rw [if_neg (by rw [hs]; decide), if_pos trivial]
    simp only [e1, Res.bind_ok]
    rw [if_pos trivial]
  | eof =>
    have := h.nil
    subst this
    refine ⟨_, .eof, ?_⟩
    have e : Input.get ⟨[], false, []⟩ = .ok (uEOF, ⟨[], true, []⟩) := rfl
    simp only [e, Res.bind_ok]
    rw [if_neg (by show ¬ σ.isSpace ((uEOF : Nat) : Int) = true; rw [show ((uEOF : Nat) : Int) = 0xFFFF from rfl, he]; decide), if_neg (by decide)]
    rfl

theorem readBlankT_ok (hs : σ.isSpace '['.toNat = false) (he : σ.isSpace 0xFFFF = false) {cs : List Nat} (hc : Stopped σ cs) {b : Blank} (hb : ∀ p ∈ b, p.WF σ) (t : Tl)
    (h : Holds t.inp (b.text ++ cs)) : ∃ g, Behind σ cs g ∧
    readBlankT σ t = .ok (decide (b ≠ []), { t with inp := g, blanks := if b ≠ [] then t.blanks ++ [enc b.text] else t.blanks }) := by
  have ht := h.turns
  rw [List.length_append] at ht
  have hl := Blank.length_text b
  obtain ⟨k, hk⟩ : ∃ k, turnsOf t.inp = b.length + (k + 1) := ⟨turnsOf t.inp - b.length - 1, by omega⟩
  obtain ⟨g, hg, e⟩ := blankLoop_pieces hs cs b (k + 1) [] t.inp hb h
  obtain ⟨g', hg', e'⟩ := blankLoop_stop hs he hc k ([] ++ enc b.text) g hg
  refine ⟨g', hg', ?_⟩
  unfold readBlankT
  rw [hk, e, e']
  simp only [Res.bind_ok, List.nil_append]
  by_cases hb' : b = []
  · subst hb'; simp [Blank.text, enc]
  · have : enc b.text ≠ [] := fun h => hb' ((Blank.enc_eq_nil b).1 h)
    simp [hb', this]

/-! ## Letters -/

theorem Letter.head (hs : ∀ c ∈ ['['.toNat, '\\'.toNat, '<'.toNat, 0, 0xFFFF], σ.isSpace c = false) (l : Letter) (hl : l.WF σ) :
    ∃ c cs, l.text = c :: cs ∧ c ≠ 0 ∧ c ≠ '['.toNat ∧ σ.isSpace c = false := by
  rcases l with (c | c) | ts
  · exact ⟨c, [], rfl, hl.2.1, hl.2.2.1, hl.2.2.2.2.2⟩
  · exact ⟨'\\'.toNat, [c], rfl, by decide, by decide, hs _ (by simp)⟩
  · exact ⟨'<'.toNat, _, rfl, by decide, by decide, hs _ (by simp)⟩

theorem Letter.length_text (l : Letter) : 1 ≤ l.text.length := by
  rcases l with (c | c) | ts <;> simp [Letter.text, Tok.text, blockText]

/-- The words of plain letters end here. -/
inductive Ends (σ : Setting W) : List Nat → Prop
  | space {c : Nat} {cs} (h : σ.isSpace c = true) : Ends σ (c :: cs)
  | bracket {cs} : Ends σ ('['.toNat :: cs)
  | null {cs} : Ends σ (0 :: cs)

theorem plainLoop_letters (hs : ∀ c ∈ ['['.toNat, '\\'.toNat, '<'.toNat, 0, 0xFFFF], σ.isSpace c = false) (cs : List Nat) (ls : List Letter) :
    ∀ (k : Nat) (acc : List Int) (f : InFile), (∀ l ∈ ls, l.WF σ) → Holds f (ls.flatMap Letter.text ++ cs) →
    ∃ g, Holds g cs ∧ plainLoop σ (ls.length + k) acc f = plainLoop σ k (acc ++ ls.map (Letter.code σ.alphabet)) g := by
  induction ls with
  | nil => exact fun k acc f _ h => ⟨f, h, by simp⟩
  | cons l ls ih =>
    intro k acc f hw h
    have hk : (l :: ls).length + k = (ls.length + k) + 1 := by rw [List.length_cons]; omega
    rw [hk]
    have hl := hw l (by simp)
    rw [List.flatMap_cons, List.append_assoc] at h
    rw [plainLoop, if_neg (by rw [h.eof]; decide)]
    have ih := fun acc g => ih k acc g (fun l hl => hw l (by simp [hl]))
    rcases l with (c | c) | ts
    · obtain ⟨h1, h2, h3, h4, h5, h6⟩ := hl
      obtain ⟨g, e, hg, -⟩ := Holds.get (c := c) h
      simp only [e, Res.bind_ok]
      rw [if_neg (by rw [h6]; simpa [h2] using h3), if_neg h4, if_neg h5]
      obtain ⟨g', g1, g2⟩ := ih (acc ++ [(c : Int)]) g hg
      exact ⟨g', g1, by rw [g2]; simp [Letter.code]⟩
    · obtain ⟨g, e, hg, -⟩ := Holds.get (c := '\\'.toNat) h
      simp only [e, Res.bind_ok]
      rw [if_neg (by rw [hs '\\'.toNat (by simp)]; simp), if_pos trivial]
      obtain ⟨g1, e1, hg1, -⟩ := Holds.get (c := c) hg
      simp only [e1, Res.bind_ok]
      obtain ⟨g', g1, g2⟩ := ih (acc ++ [(c : Int)]) g1 hg1
      exact ⟨g', g1, by rw [g2]; simp [Letter.code]⟩
    · have h' : Holds f ('<'.toNat :: (toksText ts ++ '>'.toNat :: (ls.flatMap Letter.text ++ cs))) := by
        simpa [Letter.text, blockText] using h
      obtain ⟨g, e, hg, -⟩ := h'.get
      simp only [e, Res.bind_ok]
      rw [if_neg (by rw [hs '<'.toNat (by simp)]; simp), if_neg (by decide), if_pos trivial]
      obtain ⟨g2, e4, hg2⟩ := readBlock_ok '<'.toNat '>'.toNat (by decide) (by decide) _ ts g hl hg
      simp only [e4, Res.bind_ok]
      obtain ⟨g', g1, g3⟩ := ih (acc ++ [σ.alphabet.symCode (enc (blockText '<'.toNat '>'.toNat ts))]) g2 hg2
      exact ⟨g', g1, by rw [g3]; simp [Letter.code]⟩

theorem plainLoop_stop {cs : List Nat} (hc : Ends σ cs) (k : Nat) (acc : List Int) (f : InFile) (h : Holds f cs) :
    ∃ g, Holds g cs ∧ plainLoop σ (k + 1) acc f = .ok (acc, g) := by
  rw [plainLoop, if_neg (by rw [h.eof]; decide)]
  have key : ∀ c cs, Holds f (c :: cs) → (σ.isSpace c || decide (c = '['.toNat) || decide (c = 0)) = true → ∃ g, Holds g (c :: cs) ∧
      (do
        let (c, f) ← Input.get f
        if σ.isSpace c || c = '['.toNat || c = 0 then do
          let f ← unget f c
          .ok (acc, f)
        else if c = '\\'.toNat then do
          let (c, f) ← Input.get f
          plainLoop σ k (acc ++ [(c : Int)]) f
        else if c = '<'.toNat then do
          let (tag, f) ← readBlock '<'.toNat '>'.toNat f
          plainLoop σ k (acc ++ [σ.alphabet.symCode tag]) f
        else plainLoop σ k (acc ++ [(c : Int)]) f) = .ok (acc, g) := by
    intro c cs h hcond
    obtain ⟨g, e, hg, hb⟩ := h.get
    have := h.buf
    obtain ⟨g', e', hg', -⟩ := hg.unget (h.scalar c (by simp)) (by omega)
    refine ⟨g', hg', ?_⟩
    simp only [e, Res.bind_ok]
    rw [if_pos hcond]
    simp only [e', Res.bind_ok]
  cases hc with
  | space h1 => exact key _ _ h (by simp [h1])
  | bracket => exact key _ _ h (by simp)
  | null => exact key _ _ h (by simp)

/-! ## Words -/

theorem Holds.ends_eof {cs : List Nat} {g : InFile} (h : Behind σ cs g) (hne : cs ≠ []) : g.eof = false := by
  cases h with
  | char _ _ h => exact h.eof
  | mark h => exact h.eof
  | eof => exact absurd rfl hne

/-- A letter in a word with a word-bound blank. -/
theorem boundLoop_letter (hs : ∀ c ∈ ['['.toNat, '\\'.toNat, '<'.toNat, 0, 0xFFFF], σ.isSpace c = false) (cs : List Nat) (l : Letter) (hl : l.WF σ)
    (k : Nat) (acc : List Int) (t : Tl) (h : Holds t.inp (l.text ++ cs)) :
    ∃ g, Holds g cs ∧ boundLoop σ (k + 1) acc t = boundLoop σ k (acc ++ [l.code σ.alphabet]) { t with inp := g } := by
  rw [boundLoop, if_neg (by rw [h.eof]; decide)]
  obtain ⟨c0, cs0, e0, h01, h02, h03⟩ := l.head hs hl
  have hst : Stopped σ (l.text ++ cs) := by rw [e0]; exact .char h03 h02
  obtain ⟨g, hg, e⟩ := readBlankT_ok (b := []) (hs '['.toNat (by simp)) (hs 0xFFFF (by simp)) hst (by simp) t (by simpa [Blank.text] using h)
  have hh : Holds g (l.text ++ cs) := by
    rw [e0] at hg ⊢
    exact hg.at_char h02
  simp only [e, Res.bind_ok]
  rw [if_neg (by simp)]
  simp only [ne_eq, not_true_eq_false, if_false]
  rcases l with (c | c) | ts
  · obtain ⟨h1, h2, h3, h4, h5, h6⟩ := hl
    obtain ⟨g, e, hg, -⟩ := Holds.get (c := c) hh
    refine ⟨g, hg, ?_⟩
    simp only [e, Res.bind_ok]
    rw [if_neg h3, if_neg h4, if_neg h5, if_neg h2]
    rfl
  · obtain ⟨g, e, hg, -⟩ := Holds.get (c := '\\'.toNat) hh
    obtain ⟨g1, e1, hg1, -⟩ := Holds.get (c := c) hg
    refine ⟨g1, hg1, ?_⟩
    simp only [e, Res.bind_ok]
    rw [if_neg (by decide), if_pos trivial]
    simp only [e1, Res.bind_ok]
    rfl
  · have h' : Holds g ('<'.toNat :: (toksText ts ++ '>'.toNat :: cs)) := by
      simpa [Letter.text, blockText] using hh
    obtain ⟨g, e, hg, -⟩ := h'.get
    obtain ⟨g2, e4, hg2⟩ := readBlock_ok '<'.toNat '>'.toNat (by decide) (by decide) _ ts g hl hg
    refine ⟨g2, hg2, ?_⟩
    simp only [e, Res.bind_ok]
    rw [if_neg (by decide), if_neg (by decide), if_pos trivial]
    simp only [e4, Res.bind_ok]
    rfl

theorem boundLoop_ok (hs : ∀ c ∈ ['['.toNat, '\\'.toNat, '<'.toNat, 0, 0xFFFF], σ.isSpace c = false) (cs : List Nat) (ps : List Part) :
    ∀ (k : Nat) (acc : List Int) (t : Tl), (∀ p ∈ ps, p.WF σ) → (ps.IsChain fun p q => ¬ (p.isGap = true ∧ q.isGap = true)) →
    Holds t.inp (ps.flatMap Part.text ++ '['.toNat :: '['.toNat :: cs) →
    ∃ g, Holds g ('['.toNat :: cs) ∧ boundLoop σ (ps.length + k + 1) acc t =
      .ok (acc ++ ps.map (Part.code σ.alphabet), { t with inp := g, blanks := t.blanks ++ gapTexts ps }) := by
  have hs1 : σ.isSpace '['.toNat = false := hs '['.toNat (by simp)
  have hs2 : σ.isSpace 0xFFFF = false := hs 0xFFFF (by simp)
  induction ps with
  | nil =>
    intro k acc t _ _ h
    rw [boundLoop.eq_def]
    simp only
    rw [if_neg (by rw [h.eof]; decide)]
    obtain ⟨g, hg, e⟩ := readBlankT_ok (b := []) (cs := '['.toNat :: '['.toNat :: cs) hs1 hs2 .mark (by simp) t (by simpa [Blank.text] using h)
    have hh := hg.at_mark
    obtain ⟨g1, e1, hg1, hb1⟩ := hh.get
    have := hh.buf
    obtain ⟨g2, e2, hg2, -⟩ := hg1.unget (scalar_lt (by decide) : Scalar '['.toNat) (by omega)
    refine ⟨g2, hg2, ?_⟩
    simp only [List.length_nil, Nat.zero_add, e, Res.bind_ok]
    rw [if_neg (by simp)]
    simp only [ne_eq, not_true_eq_false, if_false, e1, Res.bind_ok]
    rw [if_pos trivial]
    simp only [e2, Res.bind_ok]
    simp [gapTexts]
  | cons p ps ih =>
    intro k acc t hw hc h
    have hk : (p :: ps).length + k + 1 = (ps.length + k + 1) + 1 := by rw [List.length_cons]; omega
    rw [hk]
    have hp := hw p (by simp)
    rw [List.flatMap_cons, List.append_assoc] at h
    cases p with
    | letter l =>
      obtain ⟨g, hg, e⟩ := boundLoop_letter hs _ l hp (ps.length + k + 1) acc t h
      obtain ⟨g', h1, h2⟩ := ih k (acc ++ [l.code σ.alphabet]) { t with inp := g } (fun p hp => hw p (by simp [hp])) hc.tail hg
      refine ⟨g', h1, ?_⟩
      rw [e, h2]
      simp [gapTexts, Part.code]
    | gap b =>
      obtain ⟨hb1, hb2⟩ := hp
      rw [boundLoop, if_neg (by rw [h.eof]; decide)]
      cases ps with
      | nil =>
        obtain ⟨g, hg, e⟩ := readBlankT_ok (b := b) (cs := '['.toNat :: '['.toNat :: cs) hs1 hs2 .mark hb2 t (by simpa [Part.text] using h)
        have hh := hg.at_mark
        obtain ⟨g1, e1, hg1⟩ := hh.peek
        refine ⟨g1, hg1, ?_⟩
        simp only [e, Res.bind_ok]
        rw [if_pos (by simp [hb1])]
        simp only [e1, Res.bind_ok]
        rw [if_pos trivial]
        simp [gapTexts, Part.code, hb1]
      | cons q ps =>
        cases q with
        | gap b' => exact absurd ⟨rfl, rfl⟩ (List.isChain_cons_cons.1 hc).1
        | letter l =>
          have hl : l.WF σ := hw (.letter l) (by simp)
          obtain ⟨c0, cs0, e0, h01, h02, h03⟩ := l.head hs hl
          have hst : Stopped σ ((Part.letter l :: ps).flatMap Part.text ++ '['.toNat :: '['.toNat :: cs) := by
            rw [List.flatMap_cons, show (Part.letter l).text = l.text from rfl, e0]; exact .char h03 h02
          obtain ⟨g, hg, e⟩ := readBlankT_ok (b := b) hs1 hs2 hst hb2 t h
          have hh : Holds g ((Part.letter l :: ps).flatMap Part.text ++ '['.toNat :: '['.toNat :: cs) := by
            rw [List.flatMap_cons, show (Part.letter l).text = l.text from rfl, e0] at hg ⊢
            exact hg.at_char h02
          have hh' := hh
          rw [List.flatMap_cons, show (Part.letter l).text = l.text from rfl, e0] at hh'
          obtain ⟨g1, e1, hg1⟩ := Holds.peek (c := c0) hh'
          have hg1' : Holds g1 ((Part.letter l :: ps).flatMap Part.text ++ '['.toNat :: '['.toNat :: cs) := by
            rw [List.flatMap_cons, show (Part.letter l).text = l.text from rfl, e0]; exact hg1
          simp only [e, Res.bind_ok]
          rw [if_pos (by simp [hb1])]
          simp only [e1, Res.bind_ok]
          rw [if_neg h02]
          obtain ⟨g', h1, h2⟩ := ih k (acc ++ [0x20]) { t with inp := g1, blanks := if b ≠ [] then t.blanks ++ [enc b.text] else t.blanks }
            (fun p hp => hw p (by simp [hp])) hc.tail hg1'
          refine ⟨g', h1, ?_⟩
          rw [h2]
          simp [gapTexts, Part.code, hb1]

theorem Part.length_text {p : Part} (h : p.WF σ) : 1 ≤ p.text.length := by
  cases p with
  | letter l => exact l.length_text
  | gap b =>
    have := Blank.length_text b
    have : b.length ≠ 0 := fun e => h.1 (List.length_eq_zero_iff.1 e)
    show 1 ≤ (Blank.text b).length
    omega

theorem parts_length {ps : List Part} (h : ∀ p ∈ ps, p.WF σ) : ps.length ≤ (ps.flatMap Part.text).length := by
  induction ps with
  | nil => simp
  | cons p ps ih =>
    have := Part.length_text (h p (by simp))
    have := ih fun p hp => h p (by simp [hp])
    simp only [List.flatMap_cons, List.length_append, List.length_cons]
    omega

theorem boundWord_ok (hs : ∀ c ∈ ['['.toNat, '\\'.toNat, '<'.toNat, 0, 0xFFFF], σ.isSpace c = false) (cs : List Nat) {m : List Tok} (hm : WBody m)
    {ps : List Part} (hw : ∀ p ∈ ps, p.WF σ) (hc : ps.IsChain fun p q => ¬ (p.isGap = true ∧ q.isGap = true)) (t : Tl)
    (h : Holds t.inp ('['.toNat :: (toksText m ++ ']'.toNat :: ']'.toNat :: (ps.flatMap Part.text ++ (closing ++ cs))))) :
    ∃ g, Holds g cs ∧ boundWord σ t = .ok (ps.map (Part.code σ.alphabet), enc (wblankText m), { t with inp := g, blanks := t.blanks ++ gapTexts ps }) := by
  unfold boundWord
  obtain ⟨g, e, hg, -⟩ := h.get
  obtain ⟨g1, e1, hg1⟩ := finishWBlank_ok _ m g hm hg
  have ht := hg1.turns
  have hl := parts_length hw
  rw [List.length_append] at ht
  obtain ⟨k, hk⟩ : ∃ k, turnsOf g1 = ps.length + k + 1 := ⟨turnsOf g1 - ps.length - 1, by omega⟩
  obtain ⟨g2, hg2, e2⟩ := boundLoop_ok hs (['/'.toNat, ']'.toNat, ']'.toNat] ++ cs) ps k [] { t with inp := g1 } hw hc hg1
  simp only [e, Res.bind_ok, e1]
  rw [hk, e2]
  obtain ⟨g3, e3, hg3⟩ := hg2.peek
  obtain ⟨g4, e4, hg4, -⟩ := hg3.get
  have hb : WBody [Tok.raw '/'.toNat] := by
    refine ⟨⟨scalar_lt (by decide), by decide, by decide, fun h => absurd h (by decide)⟩, trivial⟩
  obtain ⟨g5, e5, hg5⟩ := finishWBlank_ok cs _ g4 hb hg4
  refine ⟨g5, hg5, ?_⟩
  simp only [Res.bind_ok, e3]
  rw [if_pos trivial]
  simp only [e4, Res.bind_ok, e5, List.nil_append]

theorem plainWord_ok (hs : ∀ c ∈ ['['.toNat, '\\'.toNat, '<'.toNat, 0, 0xFFFF], σ.isSpace c = false) {cs : List Nat} (hc : Ends σ cs)
    {ps : List Part} (hw : ∀ p ∈ ps, p.WF σ) (hg : ∀ p ∈ ps, p.isGap = false) (t : Tl) (h : Holds t.inp (ps.flatMap Part.text ++ cs)) :
    ∃ g, Holds g cs ∧ plainWord σ t = .ok (ps.map (Part.code σ.alphabet), [], { t with inp := g }) := by
  obtain ⟨ls, rfl⟩ : ∃ ls : List Letter, ps = ls.map .letter := by
    clear h hw
    induction ps with
    | nil => exact ⟨[], rfl⟩
    | cons p ps ih =>
      obtain ⟨ls, rfl⟩ := ih fun p hp => hg p (by simp [hp])
      cases p with
      | letter l => exact ⟨l :: ls, rfl⟩
      | gap b => exact absurd (hg (.gap b) (by simp)) (by simp [Part.isGap])
  have hw' : ∀ l ∈ ls, l.WF σ := fun l hl => hw (.letter l) (List.mem_map.2 ⟨l, hl, rfl⟩)
  have et : (ls.map Part.letter).flatMap Part.text = ls.flatMap Letter.text := by
    rw [List.flatMap_map]; rfl
  have ht := h.turns
  have hl := parts_length hw
  rw [List.length_append] at ht
  rw [et] at h ht hl
  rw [List.length_map] at hl
  obtain ⟨k, hk⟩ : ∃ k, turnsOf t.inp = ls.length + (k + 1) := ⟨turnsOf t.inp - ls.length - 1, by omega⟩
  obtain ⟨g, hg, e⟩ := plainLoop_letters hs cs ls (k + 1) [] t.inp hw' h
  obtain ⟨g', hg', e'⟩ := plainLoop_stop hc k ([] ++ ls.map (Letter.code σ.alphabet)) g hg
  refine ⟨g', hg', ?_⟩
  unfold plainWord
  rw [hk, e, e']
  simp only [Res.bind_ok, List.nil_append, List.map_map]
  rfl

/-- The text of the word-bound blank. -/
def markText (m : Option UString) : UString := m.elim [] fun x => [0x5b, 0x5b] ++ x ++ [0x5d, 0x5d]

theorem enc_wblank (ts : List Tok) : enc (wblankText ts) = [0x5b, 0x5b] ++ enc (toksText ts) ++ [0x5d, 0x5d] := by
  unfold wblankText
  have h1 : utf16 91 = [0x5b] := by decide
  have h2 : utf16 93 = [0x5d] := by decide
  simp [enc, h1, h2]

/-- The queues with another word. -/
def pushed (t : Tl) (g : InFile) (f : Front) : Tl :=
  { t with inp := g, blanks := t.blanks ++ f.blanks, wblanks := t.wblanks ++ [markText f.mark], queue := t.queue ++ [f.word] }

theorem Piece.head (hs : ∀ c ∈ ['['.toNat, '\\'.toNat, '<'.toNat, 0, 0xFFFF], σ.isSpace c = false) (p : Piece) (hp : p.WF σ) : ∃ c cs, p.text = c :: cs ∧ c ≠ 0 := by
  cases p with
  | space c =>
    refine ⟨c, [], rfl, ?_⟩
    rintro rfl
    have := hp.2
    rw [hs 0 (by simp)] at this
    cases this
  | super ts => exact ⟨_, _, rfl, by decide⟩

theorem Word.head (hs : ∀ c ∈ ['['.toNat, '\\'.toNat, '<'.toNat, 0, 0xFFFF], σ.isSpace c = false) (w : Word) (hw : w.WF σ) : ∃ c cs, w.text = c :: cs ∧ c ≠ 0 := by
  unfold Word.text
  cases hb : w.blank with
  | cons p b =>
    obtain ⟨c, cs, h1, h2⟩ := p.head hs (hw.blank p (by rw [hb]; simp))
    exact ⟨c, _, by rw [Blank.text_cons, h1]; rfl, h2⟩
  | nil =>
    cases hm : w.mark with
    | some ts => exact ⟨_, _, rfl, by decide⟩
    | none =>
      cases hp : w.parts with
      | nil => exact absurd hp hw.nonempty
      | cons p ps =>
        have h1 := hw.gaps hm p (by rw [hp]; simp)
        cases p with
        | gap b => cases h1
        | letter l =>
          obtain ⟨c, cs, h2, h3, -⟩ := l.head hs (hw.parts (.letter l) (by rw [hp]; simp))
          refine ⟨c, cs ++ ps.flatMap Part.text, ?_, h3⟩
          simp [Blank.text, Part.text, h2]

/-- A word is read. -/
theorem readWord_ok (hs : ∀ c ∈ ['['.toNat, '\\'.toNat, '<'.toNat, 0, 0xFFFF], σ.isSpace c = false) {w : Word} (hw : w.WF σ) {cs : List Nat}
    (hc : w.mark = none → Ends σ cs) (t : Tl) (h : Holds t.inp (w.text ++ cs)) :
    ∃ g, Holds g cs ∧ readWord σ t = .ok (true, pushed t g (frontOf σ.alphabet w)) := by
  have hs1 : σ.isSpace '['.toNat = false := hs '['.toNat (by simp)
  have hs2 : σ.isSpace 0xFFFF = false := hs 0xFFFF (by simp)
  unfold readWord
  rw [if_neg (by rw [h.eof]; decide)]
  obtain ⟨c, cs', e1, h1⟩ := w.head hs hw
  have h' := h
  rw [e1] at h'
  obtain ⟨g0, e2, hg0⟩ := Holds.peek (c := c) h'
  have hg0' : Holds g0 (w.text ++ cs) := by rw [e1]; exact hg0
  simp only [e2, Res.bind_ok]
  rw [if_neg h1]
  unfold readSome
  have hne : w.parts.map (Part.code σ.alphabet) ≠ [] := by simpa using hw.nonempty
  cases hm : w.mark with
  | none =>
    cases hp : w.parts with
    | nil => exact absurd hp hw.nonempty
    | cons p ps =>
      have hgp := hw.gaps hm p (by rw [hp]; simp)
      cases p with
      | gap b => cases hgp
      | letter l =>
        obtain ⟨c1, cs1, h2, h3, h4, h5⟩ := l.head hs (hw.parts (.letter l) (by rw [hp]; simp))
        have et : w.parts.flatMap Part.text ++ cs = c1 :: (cs1 ++ ps.flatMap Part.text ++ cs) := by
          rw [hp, List.flatMap_cons, show (Part.letter l).text = l.text from rfl, h2]; simp
        have hh : Holds g0 (w.blank.text ++ (w.parts.flatMap Part.text ++ cs)) := by
          simpa [Word.text, hm] using hg0'
        obtain ⟨g1, hg1, e3⟩ := readBlankT_ok (t := { t with inp := g0 }) hs1 hs2 (by rw [et]; exact .char h5 h4) hw.blank hh
        have hg1' : Holds g1 (w.parts.flatMap Part.text ++ cs) := by
          rw [et] at hg1 ⊢
          exact hg1.at_char h4
        have hg1'' := hg1'
        rw [et] at hg1''
        obtain ⟨g2, e4, hg2⟩ := hg1''.peek
        rw [← et] at hg2
        obtain ⟨g3, hg3, e5⟩ := plainWord_ok hs (hc hm) hw.parts (hw.gaps hm) { t with inp := g2, blanks := t.blanks ++ [enc w.blank.text] } hg2
        refine ⟨g3, hg3, ?_⟩
        simp only [e3, Res.bind_ok, e4]
        rw [if_neg h4]
        have eb : (if decide (w.blank ≠ []) = true then (if w.blank ≠ [] then t.blanks ++ [enc w.blank.text] else t.blanks) else
            (if w.blank ≠ [] then t.blanks ++ [enc w.blank.text] else t.blanks) ++ [[]]) = t.blanks ++ [enc w.blank.text] := by
          by_cases hb : w.blank = []
          · simp [hb, Blank.text, enc]
          · simp [hb]
        rw [eb, e5]
        simp only [Res.bind_ok]
        rw [if_neg hne]
        have hgt : gapTexts w.parts = [] := by
          unfold gapTexts
          rw [List.filterMap_eq_nil_iff]
          intro p hp
          have := hw.gaps hm p hp
          cases p with
          | letter l => rfl
          | gap b => cases this
        simp [pushed, frontOf, hm, markText, hgt]
  | some m =>
    have hh : Holds g0 (w.blank.text ++ ('['.toNat :: '['.toNat :: (toksText m ++ ']'.toNat :: ']'.toNat :: (w.parts.flatMap Part.text ++ (closing ++ cs))))) := by
      simpa [Word.text, hm, wblankText] using hg0'
    obtain ⟨g1, hg1, e3⟩ := readBlankT_ok (t := { t with inp := g0 }) hs1 hs2 .mark hw.blank hh
    have hg1' := hg1.at_mark
    obtain ⟨g2, e4, hg2⟩ := hg1'.peek
    obtain ⟨g3, hg3, e5⟩ := boundWord_ok hs cs (hw.mark m hm) hw.parts hw.apart { t with inp := g2, blanks := t.blanks ++ [enc w.blank.text] } hg2
    refine ⟨g3, hg3, ?_⟩
    simp only [e3, Res.bind_ok, e4]
    rw [if_pos trivial]
    have eb : (if decide (w.blank ≠ []) = true then (if w.blank ≠ [] then t.blanks ++ [enc w.blank.text] else t.blanks) else
        (if w.blank ≠ [] then t.blanks ++ [enc w.blank.text] else t.blanks) ++ [[]]) = t.blanks ++ [enc w.blank.text] := by
      by_cases hb : w.blank = []
      · simp [hb, Blank.text, enc]
      · simp [hb]
    rw [eb, e5]
    simp only [Res.bind_ok]
    rw [if_neg hne, enc_wblank]
    simp [pushed, frontOf, hm, markText]

/-- There is no word before a null character. -/
theorem readWord_null (hs : ∀ c ∈ ['['.toNat, '\\'.toNat, '<'.toNat, 0, 0xFFFF], σ.isSpace c = false) {b : Blank} (hb : ∀ p ∈ b, p.WF σ) (cs : List Nat) (t : Tl)
    (h : Holds t.inp (b.text ++ 0 :: cs)) : ∃ g, Holds g (0 :: cs) ∧
    readWord σ t = .ok (false, { t with inp := g, blanks := t.blanks ++ if b = [] then [] else [enc b.text] }) := by
  have hs1 : σ.isSpace '['.toNat = false := hs '['.toNat (by simp)
  have hs2 : σ.isSpace 0xFFFF = false := hs 0xFFFF (by simp)
  have hs0 : σ.isSpace ((0 : Nat) : Int) = false := hs 0 (by simp)
  unfold readWord
  rw [if_neg (by rw [h.eof]; decide)]
  cases hbc : b with
  | nil =>
    rw [hbc] at h
    obtain ⟨g, e, hg⟩ := Holds.peek (c := 0) h
    refine ⟨g, hg, ?_⟩
    simp only [e, Res.bind_ok]
    rw [if_pos trivial]
    simp
  | cons p b' =>
    obtain ⟨c, cs1, e1, h1⟩ := p.head hs (hb p (by rw [hbc]; simp))
    have h' := h
    rw [hbc, Blank.text_cons, e1] at h'
    obtain ⟨g0, e2, hg0⟩ := Holds.peek (c := c) h'
    have hg0' : Holds g0 (b.text ++ 0 :: cs) := by rw [hbc, Blank.text_cons, e1]; exact hg0
    simp only [e2, Res.bind_ok]
    rw [if_neg h1]
    unfold readSome
    obtain ⟨g1, hg1, e3⟩ := readBlankT_ok (t := { t with inp := g0 }) hs1 hs2 (.char hs0 (by decide)) hb hg0'
    have hg1' : Holds g1 (0 :: cs) := by
      cases hg1 with
      | char _ _ h => exact h
    obtain ⟨g2, e4, hg2⟩ := hg1'.peek
    obtain ⟨g3, hg3, e5⟩ := plainWord_ok (ps := []) hs (.null : Ends σ (0 :: cs)) (by simp) (by simp) { t with inp := g2, blanks := t.blanks ++ [enc b.text] } hg2
    refine ⟨g3, hg3, ?_⟩
    simp only [e3, Res.bind_ok, e4]
    rw [if_neg (by decide)]
    have hbn : b ≠ [] := by rw [hbc]; simp
    rw [if_pos (by simp [hbn]), if_pos hbn, e5]
    simp only [Res.bind_ok, List.map_nil, if_true]
    rw [← hbc, if_neg hbn]

/-- There is no word before the end of the file. -/
theorem readWord_eof (hs : ∀ c ∈ ['['.toNat, '\\'.toNat, '<'.toNat, 0, 0xFFFF], σ.isSpace c = false) {b : Blank} (hb : ∀ p ∈ b, p.WF σ) (t : Tl)
    (h : Holds t.inp b.text) : readWord σ t = .ok (false, { t with inp := Stream.ended, blanks := t.blanks ++ [enc b.text] }) := by
  have hs1 : σ.isSpace '['.toNat = false := hs '['.toNat (by simp)
  have hs2 : σ.isSpace 0xFFFF = false := hs 0xFFFF (by simp)
  unfold readWord
  rw [if_neg (by rw [h.eof]; decide)]
  cases hbc : b with
  | nil =>
    rw [hbc] at h
    have := Holds.nil h
    rw [this]
    rfl
  | cons p b' =>
    obtain ⟨c, cs1, e1, h1⟩ := p.head hs (hb p (by rw [hbc]; simp))
    have h' := h
    rw [hbc, Blank.text_cons, e1] at h'
    obtain ⟨g0, e2, hg0⟩ := Holds.peek (c := c) h'
    have hg0' : Holds g0 (b.text ++ []) := by rw [hbc, Blank.text_cons, e1, List.append_nil]; exact hg0
    simp only [e2, Res.bind_ok]
    rw [if_neg h1]
    unfold readSome
    obtain ⟨g1, hg1, e3⟩ := readBlankT_ok (t := { t with inp := g0 }) hs1 hs2 .eof hb hg0'
    have hg1' : g1 = Stream.ended := by
      cases hg1 with
      | eof => rfl
    simp only [e3, Res.bind_ok, hg1']
    have hbn : b ≠ [] := by rw [hbc]; simp
    have e4 : peek Stream.ended = .ok (uEOF, Stream.ended) := rfl
    simp only [e4, Res.bind_ok]
    rw [if_neg (by decide), if_pos (by simp [hbn]), if_pos hbn]
    have e5 : ∀ t' : Tl, t'.inp = Stream.ended → plainWord σ t' = .ok ([], [], t') := by
      intro t' h
      unfold plainWord
      rw [h, plainLoop.eq_def]
      have : Stream.ended.eof = true := rfl
      simp only [this, if_true, Res.bind_ok]
      rw [← h]
    rw [e5 _ rfl]
    simp only [Res.bind_ok, if_true]
    rw [← hbc]

theorem readWord_ended (t : Tl) (h : t.inp.eof = true) : readWord σ t = .ok (false, t) := by
  unfold readWord
  rw [if_pos h]

end Verif.Post
