import Verif.Post.Loop

/-!
# Texts that are not changed
-/

namespace Verif.Post

open Verif.Input Verif.State Verif.Stream Verif.Walk

variable {W : Type} {σ : Setting W} {name : Int → UString}

def wholeOf : Option (Front × Nat) → List Front → List Int
  | some (f, _), rest => ahead f rest
  | none, f :: rest => ahead f rest
  | none, [] => []

theorem pass_same [Add W] [Zero W] [LE W] {o : Option (Front × Nat)} {rest gs : List Front} (h : Pass σ o rest gs)
    (hm : ∀ xs m, xs <:+: wholeOf o rest → ¬ Match σ xs m) : gs = (match o with | some (f, _) => f :: rest | none => rest) := by
  have step : ∀ {f : Front} {s : Nat} {rest : List Front} {x}, Step σ f s rest x → (∀ xs m, xs <:+: ahead f rest → ¬ Match σ xs m) → x = (f, s + 1, rest) := by
    intro f s rest x h hm
    have hin : ∀ k, ((ahead f rest).drop s).take k <:+: ahead f rest := fun k => (List.take_prefix _ _).isInfix.trans (List.drop_suffix _ _).isInfix
    cases h with
    | none h => rfl
    | within h he => exact absurd h.2.1 (hm _ _ (hin _))
    | upto h he => exact absurd h.2.1 (hm _ _ (hin _))
  induction h with
  | done => rfl
  | start h ih => exact ih hm
  | go h hs h' ih =>
    have := step h hm
    simp only [Prod.mk.injEq] at this
    obtain ⟨rfl, rfl, rfl⟩ := this
    exact ih hm
  | @emit f s rest f' s' rest' gs h hs h' ih =>
    have := step h hm
    simp only [Prod.mk.injEq] at this
    obtain ⟨rfl, rfl, rfl⟩ := this
    have := ih fun xs m hx => hm xs m (hx.trans ?_)
    · simp only at this ⊢
      rw [this]
    · cases rest' with
      | nil => exact (List.nil_infix : [] <:+: _)
      | cons g rest' =>
        refine ⟨f'.word ++ [0x20], [], ?_⟩
        simp [wholeOf, ahead]

theorem fill_other {x : Int} (h1 : x ≠ 0x20) (h2 : ¬ (σ.dropTilde = true ∧ x = 0x7e)) (xs : List Int) (bs : List UString) :
    fill σ name (x :: xs) bs = (symText name x ++ (fill σ name xs bs).1, (fill σ name xs bs).2) := by
  cases bs <;> simp only [fill, if_neg h1, if_neg h2]

theorem fill_parts [LinearOrder W] (hr : Regular σ name) (ps : List Part) (h : ∀ p ∈ ps, p.WF σ) (hc : ∀ p ∈ ps, p.Canonical σ) :
    fill σ name (ps.map (Part.code σ.alphabet)) (gapTexts ps) = (enc (ps.flatMap Part.text), []) := by
  induction ps with
  | nil => rfl
  | cons p ps ih =>
    have ih := ih (fun q hq => h q (by simp [hq])) (fun q hq => hc q (by simp [hq]))
    have hp := h p (by simp)
    have hcp := hc p (by simp)
    rcases p with ((c | c) | ts) | b
    · obtain ⟨h1, h2, -, -, -, h3⟩ := hp
      obtain ⟨h4, h5⟩ := hcp
      have e : gapTexts (Part.letter (.chr (.raw c)) :: ps) = gapTexts ps := rfl
      have hsp : (c : Int) ≠ 0x20 := by
        intro he
        have := hr.space
        rw [← he] at this
        rw [this] at h3
        cases h3
      rw [e, List.map_cons, show (Part.letter (.chr (.raw c))).code σ.alphabet = (c : Int) from rfl, fill_other hsp h5, ih]
      unfold symText
      rw [if_neg (by omega), if_neg (by omega), if_neg (by simpa using h4)]
      simp [enc, Part.text, Letter.text, Tok.text]
    · obtain ⟨h1, h2, h3⟩ := hp
      have e : gapTexts (Part.letter (.chr (.esc c)) :: ps) = gapTexts ps := rfl
      have h4 : (c : Int) ∈ Gen.escapedCps := hcp
      have h5 : (c : Int) ≠ 0x7e := by
        rintro he
        rw [he] at h4
        revert h4
        decide
      rw [e, List.map_cons, show (Part.letter (.chr (.esc c))).code σ.alphabet = (c : Int) from rfl, fill_other (by omega) (fun h => h5 h.2), ih]
      unfold symText
      rw [if_neg (by omega), if_neg (by omega), if_pos h4]
      simp [enc, Part.text, Letter.text, Tok.text]
      rfl
    · have e : gapTexts (Part.letter (.tag ts) :: ps) = gapTexts ps := rfl
      have hcp : enc (blockText '<'.toNat '>'.toNat ts) ∈ σ.alphabet.slexicinv := hcp
      obtain ⟨i, hi⟩ := List.mem_iff_getElem?.1 hcp
      have ht : σ.alphabet.HasTag (Alphabet.tagNo i) (enc (blockText '<'.toNat '>'.toNat ts)) := ⟨i, hi, rfl⟩
      have hcode : (Part.letter (.tag ts)).code σ.alphabet = Alphabet.tagNo i := Alphabet.symCode_of_hasTag hr.alphabet ht
      have hneg : Alphabet.tagNo i < 0 := by unfold Alphabet.tagNo; omega
      rw [e, List.map_cons, hcode, fill_other (by omega) (by omega), ih]
      simp only [symText]
      rw [if_neg (by omega), if_pos hneg, hr.names _ _ ht]
      simp [enc, Part.text, Letter.text]
    · have e : gapTexts (Part.gap b :: ps) = enc b.text :: gapTexts ps := rfl
      rw [e, List.map_cons]
      simp only [Part.code, fill, if_true]
      rw [ih]
      simp [enc, Part.text]

theorem word_same [LinearOrder W] (hr : Regular σ name) {w : Word} (h : w.WF σ) (hc : ∀ p ∈ w.parts, p.Canonical σ) :
    (frontOf σ.alphabet w).out σ name = enc w.text := by
  unfold Front.out frontOf
  simp only [List.tail_cons, List.headD_cons, fill_parts hr w.parts h.parts hc]
  unfold Word.text
  cases w.mark with
  | none => simp [enc]
  | some ts =>
    have e : enc (wblankText ts) = [0x5b, 0x5b] ++ enc (toksText ts) ++ [0x5d, 0x5d] := by
      have e1 : utf16 91 = [91] := by decide
      have e2 : utf16 93 = [93] := by decide
      simp [enc, wblankText, e1, e2]
    simp only [Option.map_some, Option.elim, enc, List.flatMap_append] at *
    rw [e]
    simp

theorem seg_same [AddMonoid W] [LinearOrder W] (hr : Regular σ name) {s : Seg} (h : s.WF σ) (hc : ∀ w ∈ s.words, ∀ p ∈ w.parts, p.Canonical σ) (hu : s.Untouched σ) {out : UString}
    (ho : s.Out σ name out) : out = enc s.text := by
  obtain ⟨fs, gs, h1, h2, rfl⟩ := ho
  have h3 := (forall2_fun (word_front hr.alphabet) _ _).1 h1
  subst h3
  have h4 : gs = s.words.map (frontOf σ.alphabet) := by
    generalize s.words.map (frontOf σ.alphabet) = fs at *
    cases fs with
    | nil =>
      cases h2
      rfl
    | cons f rest => exact pass_same h2 fun xs m hx => hu f rest h1 xs m hx
  subst h4
  unfold Seg.text enc
  rw [List.flatMap_append, List.flatMap_map, List.flatMap_assoc]
  congr 1
  refine List.flatMap_congr fun w hw => word_same hr (h.words w hw) (hc w hw)

end Verif.Post
