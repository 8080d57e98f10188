import Verif.Minimised.Spec
import Verif.Tools.Restrict
import Verif.Transducer.PropsDet

/-! # Lemmas about `lt-restrict -m` -/

namespace Verif.Minimised

open Verif.Fst Verif.Tools Alphabet
open Verif.Compression (Dbl)

section
variable {W : Type} [LinearOrder W] [Zero W]

/-- Minimising sections one after the other. -/
def minEach : List (UString × Transducer W) → Res (List (UString × Transducer W))
  | [] => .ok []
  | (k, t) :: ts => do
    let t ← minimize 0 t
    let ts ← minEach ts
    pure ((k, t) :: ts)

theorem eachSection_min (rl : Bool) (keep drop : List Int) (ts : List (UString × Transducer W)) (a a' : Alphabet) (us : List (UString × Transducer W))
    (h : eachSection (restrictOne rl keep drop) ts a = .ok (a', us)) (hm : ∀ e ∈ us, minimize 0 e.2 ≠ .ub ∧ minimize 0 e.2 ≠ .exception) :
    eachSection (restrictMin rl keep drop) ts a = minEach us >>= fun vs => pure (a', vs) := by
  induction ts generalizing a us with
  | nil => cases h; rfl
  | cons e ts ih =>
    obtain ⟨k, t⟩ := e
    rw [eachSection] at h
    obtain ⟨⟨b, u⟩, h1, h2⟩ := Res.bind_eq_ok.1 h
    obtain ⟨⟨c, us'⟩, h3, h4⟩ := Res.bind_eq_ok.1 h2
    cases h4
    have := ih b us' h3 fun e he => hm e (List.mem_cons_of_mem _ he)
    rw [eachSection, minEach, restrictMin, h1]
    simp only [Res.bind_ok]
    cases hu : minimize 0 u with
    | ok v =>
      simp only [Res.bind_ok, Res.pure_eq, this]
      cases minEach us' with
      | ok vs => rfl
      | exit => rfl
      | exception => rfl
      | ub => rfl
    | exit => rfl
    | exception => rfl
    | ub => rfl

theorem restrictAll_min (ch : Choice) (a a' : Alphabet) (ts us : List (UString × Transducer W)) (h : restrictAll ch a ts = .ok (a', us))
    (hm : ∀ e ∈ us, minimize 0 e.2 ≠ .ub ∧ minimize 0 e.2 ≠ .exception) : restrictAllMin ch a ts = minEach us >>= fun vs => pure (a', vs) := by
  unfold restrictAll at h
  unfold restrictAllMin
  obtain ⟨⟨b, keep, drop⟩, h1, h2⟩ := Res.bind_eq_ok.1 h
  refine (congrArg (· >>= _) h1).trans ?_
  exact eachSection_min _ _ _ _ _ _ _ h2 hm

theorem restrictOne_finals {rl : Bool} {keep drop : List Int} {a a' : Alphabet} {t t' : Transducer W} (h : restrictOne rl keep drop a t = .ok (a', t')) :
    t'.finals = t.finals := by
  unfold restrictOne at h
  obtain ⟨u, h1, h2⟩ := Res.bind_eq_ok.1 h
  have e1 : u.finals = t.finals := by
    unfold epsilonizeSymbols at h1
    obtain ⟨m, -, h1⟩ := Res.bind_eq_ok.1 h1
    cases h1
    rfl
  split at h2
  · unfold invert at h2
    obtain ⟨⟨b, m⟩, -, h2⟩ := Res.bind_eq_ok.1 h2
    cases h2
    exact e1
  · cases h2
    exact e1

theorem restrictAll_finals {ch : Choice} {a a' : Alphabet} {ts us : List (UString × Transducer W)} (h : restrictAll ch a ts = .ok (a', us)) :
    List.Forall₂ (fun e e' => e'.1 = e.1 ∧ e'.2.finals = e.2.finals) ts us := by
  unfold restrictAll at h
  obtain ⟨⟨b, keep, drop⟩, -, h⟩ := Res.bind_eq_ok.1 h
  simp only at h
  clear * - h
  induction ts generalizing b us with
  | nil => cases h; exact .nil
  | cons e ts ih =>
    obtain ⟨k, t⟩ := e
    rw [eachSection] at h
    obtain ⟨⟨c, u⟩, h1, h2⟩ := Res.bind_eq_ok.1 h
    obtain ⟨⟨d, us'⟩, h3, h4⟩ := Res.bind_eq_ok.1 h2
    cases h4
    exact .cons ⟨rfl, restrictOne_finals h1⟩ (ih c h3)

/-- What minimising a section does: nothing, if there are no final states; end the program, if there is no path; or keep the language. -/
theorem minimize_cases [D : DecidableEq W] {u : Transducer W} (h : WF u) (hw : NoLoneWeight u) :
    (u.finals ≠ [] ∧ (¬ ∃ w, Lang 0 u w) ∧ minimize 0 u = .exit) ∨
    ((u.finals = [] ∨ ∃ w, Lang 0 u w) ∧ ∃ v, minimize 0 u = .ok v ∧ (v = u ∨ (WF v ∧ u.finals ≠ [] ∧ Deterministic 0 v ∧ ∀ w, Lang 0 v w ↔ Lang 0 u w))) := by
  obtain rfl : D = LinearOrder.toDecidableEq := Subsingleton.elim _ _
  by_cases hf : u.finals = []
  · exact .inr ⟨.inl hf, u, C29_no_finals 0 hf, .inl rfl⟩
  · obtain ⟨h1, h2⟩ := C29_minimize_partial h 0 hf hw
    by_cases hne : ∃ w, Lang 0 u w
    · obtain ⟨v, g1, g2, g3, g4⟩ := h1 hne
      exact .inr ⟨.inr hne, v, g1, .inr ⟨g2, hf, g3, g4⟩⟩
    · exact .inl ⟨hf, hne, h2 hne⟩

theorem minEach_exit [D : DecidableEq W] (us : List (UString × Transducer W)) (h : ∀ e ∈ us, WF e.2) (hw : ∀ e ∈ us, NoLoneWeight e.2)
    (hx : ∃ e ∈ us, e.2.finals ≠ [] ∧ ¬ ∃ w, Lang 0 e.2 w) : minEach us = .exit := by
  induction us with
  | nil => obtain ⟨e, he, -⟩ := hx; cases he
  | cons e us ih =>
    obtain ⟨k, u⟩ := e
    rw [minEach]
    rcases minimize_cases (h _ List.mem_cons_self) (hw _ List.mem_cons_self) with ⟨-, -, h1⟩ | ⟨h1, v, h2, -⟩
    · simp only at h1
      rw [h1]
      rfl
    · simp only at h2
      rw [h2, Res.bind_ok, ih (fun e he => h e (List.mem_cons_of_mem _ he)) (fun e he => hw e (List.mem_cons_of_mem _ he))]
      · rfl
      · obtain ⟨e, he, h3, h4⟩ := hx
        rcases List.mem_cons.1 he with rfl | he
        · exact (h1.elim h3 h4).elim
        · exact ⟨e, he, h3, h4⟩

theorem minEach_ok [D : DecidableEq W] (us : List (UString × Transducer W)) (h : ∀ e ∈ us, WF e.2) (hw : ∀ e ∈ us, NoLoneWeight e.2)
    (hx : ∀ e ∈ us, e.2.finals = [] ∨ ∃ w, Lang 0 e.2 w) :
    ∃ vs, minEach us = .ok vs ∧ List.Forall₂ (fun e e' => e'.1 = e.1 ∧ minimize 0 e.2 = .ok e'.2 ∧
      (e'.2 = e.2 ∨ (WF e'.2 ∧ e.2.finals ≠ [] ∧ Deterministic 0 e'.2 ∧ ∀ w, Lang 0 e'.2 w ↔ Lang 0 e.2 w))) us vs := by
  induction us with
  | nil => exact ⟨[], rfl, .nil⟩
  | cons e us ih =>
    obtain ⟨k, u⟩ := e
    obtain ⟨vs, g1, g2⟩ := ih (fun e he => h e (List.mem_cons_of_mem _ he)) (fun e he => hw e (List.mem_cons_of_mem _ he))
      (fun e he => hx e (List.mem_cons_of_mem _ he))
    rcases minimize_cases (h _ List.mem_cons_self) (hw _ List.mem_cons_self) with ⟨h1, h2, -⟩ | ⟨-, v, h2, h3⟩
    · exact absurd (hx _ List.mem_cons_self) (not_or.2 ⟨h1, h2⟩)
    · refine ⟨(k, v) :: vs, ?_, .cons ⟨rfl, h2, h3⟩ g2⟩
      simp only at h2
      rw [minEach, h2, Res.bind_ok, g1]
      rfl

end

/-! ## Names -/

theorem kept_nothing : Kept (0 : Dbl) := ⟨.inl ⟨rfl, rfl⟩, ⟨0, rfl⟩⟩

theorem named_zero {b : Alphabet} (hb : Sane b) (w : Dbl) : NamedCode b (0, w) ((Name.letter 0, Name.letter 0), w) :=
  ⟨(0, 0), ⟨0, hb.ok.zero, rfl⟩, .inl ⟨le_refl _, rfl⟩, .inl ⟨le_refl _, rfl⟩, rfl⟩

theorem named_nothing {b : Alphabet} (hb : Sane b) {c : Int × Dbl} {l : (Name × Name) × Dbl} (h : NamedCode b c l) :
    c = (0, 0) ↔ l = ((Name.letter 0, Name.letter 0), 0) := by
  constructor
  · rintro rfl
    exact namedCode_unique h (named_zero hb 0)
  · rintro rfl
    obtain ⟨pr, h1, h2, h3, h4⟩ := h
    have e : ∀ {x : Int}, Named b x (.letter 0) → x = 0 := by
      rintro x (⟨-, h⟩ | ⟨-, s, -, h⟩)
      · cases h; rfl
      · cases h
    obtain ⟨x, y⟩ := pr
    obtain rfl : x = 0 := e h2
    obtain rfl : y = 0 := e h3
    have hz : HasPair b 0 (0, 0) := ⟨0, hb.ok.zero, rfl⟩
    exact Prod.ext (h1.code_unique hb.ok hz) h4.symm

theorem visible_named {b : Alphabet} (hb : Sane b) {cs : List (Int × Dbl)} {ls : List ((Name × Name) × Dbl)} (h : List.Forall₂ (NamedCode b) cs ls) :
    List.Forall₂ (NamedCode b) (visible 0 cs) (ls.filter fun l => l ≠ ((Name.letter 0, Name.letter 0), 0)) := by
  induction h with
  | nil => exact .nil
  | @cons c l cs ls h1 h2 ih =>
    have hz := named_nothing hb h1
    unfold visible at ih ⊢
    by_cases hc : c = (0, 0)
    · rw [List.filter_cons_of_neg (by simpa using hc), List.filter_cons_of_neg (by simpa using hz.1 hc)]
      exact ih
    · rw [List.filter_cons_of_pos (by simpa using hc), List.filter_cons_of_pos (by simpa using fun e => hc (hz.2 e))]
      exact .cons h1 ih

theorem named_append {b : Alphabet} (hb : Sane b) {cs : List (Int × Dbl)} {ls : List ((Name × Name) × Dbl)} (h : List.Forall₂ (NamedCode b) cs ls) (fw : Dbl) :
    List.Forall₂ (NamedCode b) (visible 0 (cs ++ [(0, fw)])) (shown ls fw) :=
  visible_named hb (List.rel_append h (.cons (named_zero hb fw) .nil))

theorem named_same {b : Alphabet} {cs : List (Int × Dbl)} {ls ls' : List ((Name × Name) × Dbl)} (h : List.Forall₂ (NamedCode b) cs ls)
    (h' : List.Forall₂ (NamedCode b) cs ls') : ls = ls' := by
  induction h generalizing ls' with
  | nil => cases h'; rfl
  | cons h1 _ ih =>
    cases h' with
    | cons h3 h4 => rw [namedCode_unique h1 h3, ih h4]

/-- What can be seen of the paths is the language under names. -/
theorem shown_lang {b : Alphabet} (hb : Sane b) {t : Transducer Dbl} (ht : Coded b t) (ws : List ((Name × Name) × Dbl)) :
    (∃ ls fw, SpellsNames b t ls fw ∧ shown ls fw = ws) ↔ ∃ w, Lang 0 t w ∧ List.Forall₂ (NamedCode b) w ws := by
  constructor
  · rintro ⟨ls, fw, h, rfl⟩
    obtain ⟨cs, ⟨p, h1, h2⟩, h3⟩ := spellsNames_reads.1 h
    exact ⟨_, ⟨cs, p, fw, h1, h2, rfl⟩, named_append hb h3 fw⟩
  · rintro ⟨w, ⟨cs, p, fw, h1, h2, rfl⟩, h⟩
    obtain ⟨ls, hls⟩ := named_all hb ht (fw := fw) ⟨p, h1, h2⟩
    exact ⟨ls, fw, spellsNames_reads.2 ⟨cs, ⟨p, h1, h2⟩, hls⟩, named_same (named_append hb hls fw) h⟩

theorem no_lang {b : Alphabet} (hb : Sane b) {t : Transducer Dbl} (ht : Coded b t) : (∃ w, Lang 0 t w) ↔ ∃ ls fw, SpellsNames b t ls fw := by
  constructor
  · rintro ⟨w, cs, p, fw, h1, h2, -⟩
    obtain ⟨ls, hls⟩ := named_all hb ht (fw := fw) ⟨p, h1, h2⟩
    exact ⟨ls, fw, spellsNames_reads.2 ⟨cs, ⟨p, h1, h2⟩, hls⟩⟩
  · rintro ⟨ls, fw, h⟩
    obtain ⟨cs, ⟨p, h1, h2⟩, -⟩ := spellsNames_reads.1 h
    exact ⟨_, cs, p, fw, h1, h2, rfl⟩

theorem path_join {t : Transducer Dbl} {q r p : Nat} {xs ys : List (Int × Dbl)} (h : Path (Edge t) q xs r) (h' : Path (Edge t) r ys p) :
    Path (Edge t) q (xs ++ ys) p := by
  induction h with
  | nil => exact h'
  | cons he _ ih => exact .cons he (ih h')

/-- A section is minimised to one that can be written, if it is not too large. -/
theorem minimize_part [LinearOrder Dbl] {b : Alphabet} (hb : Sane b) {u v : Transducer Dbl} (hu : Part b u) (hw : NoLoneWeight u) (hf : u.finals ≠ []) (hm : minimize 0 u = .ok v)
    (hv : WF v) (hd : Deterministic 0 v) (hl : ∀ w, Lang 0 v w ↔ Lang 0 u w) (hs : Small v) : Part b v := by
  have hz : ∀ w : Dbl, b.decode (0, w).1 = .ok (0, 0) := fun w => decode_iff.2 ⟨0, hb.ok.zero, rfl⟩
  have from_u : ∀ w, Lang 0 u w → ∀ l ∈ w, (∃ pr, b.decode l.1 = .ok pr) ∧ Kept l.2 := by
    rintro w ⟨cs, p, fw, h1, h2, rfl⟩ l hl
    unfold visible at hl
    have hl := List.mem_of_mem_filter hl
    rcases List.mem_append.1 hl with hl | hl
    · obtain ⟨q, p, he⟩ := path_edges h1 l hl
      exact ⟨hu.coded _ _ _ he, hu.arcs _ _ _ he⟩
    · rw [List.mem_singleton] at hl
      subst hl
      exact ⟨⟨_, hz fw⟩, hu.finals _ _ h2⟩
  have useful := C29_all_states_useful hu.wf 0 hf hw hm
  have edge_ok : ∀ q l p, Edge v q l p → (∃ pr, b.decode l.1 = .ok pr) ∧ Kept l.2 := by
    intro q l p he
    have hq := hv.source_lt he
    have hp := hv.target_lt _ _ _ he
    obtain ⟨⟨xs, h1⟩, -⟩ := useful q hq
    obtain ⟨-, w2, ys, r, fw, h2, h3, -⟩ := useful p hp
    refine from_u _ ((hl _).1 ⟨xs ++ l :: ys, r, fw, path_join h1 (.cons he h2), h3, rfl⟩) l ?_
    unfold visible
    rw [List.mem_filter]
    refine ⟨by simp, ?_⟩
    simp only [ne_eq, decide_not, Bool.not_eq_true', decide_eq_false_iff_not]
    rintro rfl
    exact hd.2.2 _ _ he
  refine ⟨hv, fun q l p he => (edge_ok q l p he).1, hs.1, hs.2, fun q l p he => (edge_ok q l p he).2, fun q w hfin => ?_⟩
  by_cases h0 : w = 0
  · subst h0; exact kept_nothing
  · obtain ⟨⟨xs, h1⟩, -⟩ := useful q (hv.finals_lt _ _ hfin)
    refine (from_u _ ((hl _).1 ⟨xs, q, w, h1, hfin, rfl⟩) (0, w) ?_).2
    unfold visible
    rw [List.mem_filter]
    refine ⟨by simp, ?_⟩
    simpa using h0

end Verif.Minimised
