import Verif.Compiler.Section
import Verif.Transducer.PropsDet

/-! # Minimising what was built -/

namespace Verif.Compiler

open Verif.Fst Verif.Alphabet

set_option linter.unusedSectionVars false

section
variable {W : Type} [AddMonoid W] [DecidableEq W] {A : Alphabet}

theorem lft_visible (hA : Ok A) (ls : List (Int × W)) : lft A (visible 0 ls) = lft A ls := by
  induction ls with
  | nil => rfl
  | cons l ls ih =>
    by_cases hl : l = (0, 0)
    · subst hl
      rw [lft_zero hA, ← ih]
      simp [visible]
    · have : visible 0 (l :: ls) = l :: visible 0 ls := by simp [visible, hl]
      rw [this, lft_cons, ih, ← lft_cons]

theorem rgt_visible (hA : Ok A) (ls : List (Int × W)) : rgt A (visible 0 ls) = rgt A ls := by
  induction ls with
  | nil => rfl
  | cons l ls ih =>
    by_cases hl : l = (0, 0)
    · subst hl
      rw [rgt_zero hA, ← ih]
      simp [visible]
    · have : visible 0 (l :: ls) = l :: visible 0 ls := by simp [visible, hl]
      rw [this, rgt_cons, ih, ← rgt_cons]

/-- The pairs of a transducer only depend on its language. -/
theorem lang_rel (hA : Ok A) (t : Transducer W) (x y : List Int) : AccRel A t t.initial x y ↔ Rel A (Lang 0 t) x y := by
  constructor
  · rintro ⟨ls, ⟨p, fw, h1, h2⟩, rfl, rfl⟩
    refine ⟨_, ⟨ls, p, fw, h1, h2, rfl⟩, ?_, ?_⟩
    · rw [lft_visible hA, lft_append, lft_zero hA]; simp
    · rw [rgt_visible hA, rgt_append, rgt_zero hA]; simp
  · rintro ⟨_, ⟨ls, p, fw, h1, h2, rfl⟩, rfl, rfl⟩
    refine ⟨ls, ⟨p, fw, h1, h2⟩, ?_, ?_⟩
    · rw [lft_visible hA, lft_append, lft_zero hA]; simp
    · rw [rgt_visible hA, rgt_append, rgt_zero hA]; simp

theorem path_pump {t : Transducer W} {f : Nat} {ls : List (Int × W)} (h : Path (Edge t) f ls f) (hl : 1 ≤ (visible 0 ls).length) (k : Nat) :
    ∃ ms, Path (Edge t) f ms f ∧ k ≤ (visible 0 ms).length := by
  induction k with
  | zero => exact ⟨[], .nil _, Nat.zero_le _⟩
  | succ k ih =>
    obtain ⟨ms, h1, h2⟩ := ih
    refine ⟨ls ++ ms, h.append h1, ?_⟩
    rw [visible, List.filter_append, List.length_append]
    unfold visible at hl h2
    omega

end

variable {W : Type} [AddMonoid W] [LinearOrder W] {A : Alphabet} {B : (Int × W → Bool) → Prop} {t : Transducer W} {C : Nat → Prop} {D : Nat → Int → Prop}

theorem finals_bound (c : Int × W → Bool) (fs : List (Nat × W)) (E : Nat → Int × W → Nat → Prop) (i : Nat)
    (h : ∀ f ∈ fs, ∃ n, ∀ ls, Path E i ls f.1 → ls.countP c ≤ n) : ∃ n, ∀ f ∈ fs, ∀ ls, Path E i ls f.1 → ls.countP c ≤ n := by
  induction fs with
  | nil => exact ⟨0, fun f hf => by simp at hf⟩
  | cons f fs ih =>
    obtain ⟨n, hn⟩ := ih fun g hg => h g (List.mem_cons_of_mem _ hg)
    obtain ⟨m, hm⟩ := h f (by simp)
    refine ⟨max n m, fun g hg ls hp => ?_⟩
    rcases List.mem_cons.1 hg with rfl | hg
    · exact le_trans (hm ls hp) (le_max_right _ _)
    · exact le_trans (hn g hg ls hp) (le_max_left _ _)

/-- What is accepted by what was built, and what is left of it after minimising. -/
structure Minimal (A : Alphabet) (t t' : Transducer W) : Prop where
  wf : WF t'
  det : Deterministic 0 t'
  lang : ∀ w, Lang 0 t' w ↔ Lang 0 t w
  useful : ∀ q < size t', (∃ ls, Path (Edge t') t'.initial ls q) ∧ ∃ w, LangFrom 0 t' q w
  known : ∀ q l p, Edge t' q l p → KA A l.1
  rel : ∀ x y, AccRel A t' t'.initial x y ↔ AccRel A t t.initial x y

theorem minimize_tree (hA : Ok A) (hwf : WF t) (hz : ZeroFinals t) (hk : ∀ q l p, Edge t q l p → KA A l.1) (hne : t.finals ≠ [])
    (hacc : ∃ ls, Acc t t.initial ls) : ∃ t', minimize 0 t = .ok t' ∧ Minimal A t t' := by
  obtain ⟨ls, p, fw, h1, h2⟩ := hacc
  have hl : ∃ w, Lang 0 t w := ⟨_, ls, p, fw, h1, h2, rfl⟩
  obtain ⟨t', m1, m2, m3, m4⟩ := (C29_minimize_partial hwf 0 hne hz.noLone).1 hl
  have huse := C29_all_states_useful hwf 0 hne hz.noLone m1
  refine ⟨t', m1, m2, m3, m4, huse, fun q l p he => ?_, fun x y => ?_⟩
  · by_cases hl0 : l.1 = 0
    · rw [hl0]; exact ka_zero hA
    · obtain ⟨⟨us, h3⟩, -⟩ := huse q (m2.source_lt he)
      obtain ⟨-, w, vs, f, fw', h4, h5, -⟩ := huse p (m2.target_lt _ _ _ he)
      have hlang : Lang 0 t' (visible 0 ((us ++ l :: vs) ++ [(0, fw')])) := ⟨_, f, fw', h3.append (.cons he h4), h5, rfl⟩
      obtain ⟨ms, f', fw'', h6, h7, h8⟩ := (m4 _).1 hlang
      have hmem : l ∈ visible 0 ((us ++ l :: vs) ++ [(0, fw')]) := by
        unfold visible
        rw [List.mem_filter]
        refine ⟨by simp, ?_⟩
        simp only [ne_eq, decide_not, Bool.not_eq_eq_eq_not, Bool.not_true, decide_eq_false_iff_not]
        intro h; rw [h] at hl0; exact hl0 rfl
      rw [h8] at hmem
      have hmem' := (List.mem_filter.1 hmem).1
      rcases List.mem_append.1 hmem' with hm | hm
      · obtain ⟨q', p', he'⟩ := path_mem h6 hm
        exact hk _ _ _ he'
      · simp only [List.mem_singleton] at hm
        rw [hm] at hl0
        exact absurd rfl hl0
  · rw [lang_rel hA, lang_rel hA]
    exact rel_congr A m4 x y

theorem Minimal.visible_eq {t' : Transducer W} (m : Minimal A t t') {q p : Nat} {ls : List (Int × W)} (hp : Path (Edge t') q ls p) :
    visible 0 ls = ls := by
  unfold visible
  rw [List.filter_eq_self]
  intro l hl
  obtain ⟨q', p', he⟩ := path_mem hp hl
  simp only [ne_eq, decide_not, Bool.not_eq_eq_eq_not, Bool.not_true, decide_eq_false_iff_not]
  rintro rfl
  exact m.det.2.2 _ _ he

theorem Minimal.bd {t' : Transducer W} (m : Minimal A t t') (h : AccBd A t t.initial) : AccBd A t' t'.initial := by
  intro c hc
  obtain ⟨n, hn⟩ := h c hc
  refine ⟨n + 1, ?_⟩
  rintro ls ⟨p, fw, h1, h2⟩
  obtain ⟨ls', p', fw', h3, h4, h5⟩ := (m.lang _).1 ⟨ls, p, fw, h1, h2, rfl⟩
  have h6 : (visible 0 ls).countP c ≤ (visible 0 (ls ++ [(0, fw)])).countP c := by
    rw [visible, visible, List.filter_append, List.countP_append]; omega
  rw [m.visible_eq h1, h5] at h6
  have h7 : (visible 0 (ls' ++ [(0, fw')])).countP c ≤ (ls' ++ [(0, fw')]).countP c := List.filter_sublist.countP_le
  have h8 : [((0 : Int), fw')].countP c ≤ 1 := List.countP_le_length (p := c) (l := [((0 : Int), fw')])
  have := hn ls' ⟨p', fw', h3, h4⟩
  rw [List.countP_append] at h7
  omega

/-- The end of a paradigm. -/
theorem close_part (hA : Ok A) (h : Tree B (KA A) t C D) (hfc : ∀ p fw, Final t p fw → C p) (hne : t.finals ≠ []) :
    ∃ t' o X, minimize 0 t = .ok t' ∧ joinFinals 0 t' = .ok o ∧ Part B (KA A) o X (fun _ => B fun _ => true) ∧
      ∀ x y, Rel A X x y ↔ AccRel A t t.initial x y := by
  obtain ⟨⟨p0, fw0⟩, hp0⟩ := List.exists_mem_of_ne_nil _ hne
  obtain ⟨ls0, hls0⟩ := h.reach p0 (hfc p0 fw0 hp0)
  obtain ⟨t', m1, m⟩ := minimize_tree hA h.wf h.zero h.known hne ⟨ls0, p0, fw0, hls0, hp0⟩
  have hbd : ∀ m, B m → ∃ n, ∀ w, Lang 0 t w → w.countP m ≤ n := by
    intro m hB
    obtain ⟨n, hn⟩ := finals_bound m t.finals (Edge t) t.initial fun f hf => h.bdd m hB f.1 (hfc f.1 f.2 hf)
    refine ⟨n + 1, ?_⟩
    rintro w ⟨ls, p, fw, h1, h2, rfl⟩
    have := hn (p, fw) h2 ls h1
    refine Nat.le_trans (List.filter_sublist.countP_le) ?_
    have h3 : [((0 : Int), fw)].countP m ≤ 1 := List.countP_le_length (p := m) (l := [((0 : Int), fw)])
    rw [List.countP_append]
    omega
  have hvis : ∀ {q p ls}, Path (Edge t') q ls p → visible 0 ls = ls := m.visible_eq
  have hpl : ∀ {ls p fw}, Path (Edge t') t'.initial ls p → Final t' p fw → ∃ w, Lang 0 t w ∧ ∀ m, ls.countP m ≤ w.countP m := by
    intro ls p fw h1 h2
    refine ⟨_, (m.lang _).1 ⟨ls, p, fw, h1, h2, rfl⟩, fun c => ?_⟩
    have : (visible 0 ls).countP c ≤ (visible 0 (ls ++ [(0, fw)])).countP c := by
      rw [visible, visible, List.filter_append, List.countP_append]; omega
    rw [hvis h1] at this
    exact this
  have hfin' : t'.finals ≠ [] := by
    intro hnil
    obtain ⟨ls, p, fw, h1, h2, -⟩ := (m.lang _).2 ⟨ls0, p0, fw0, hls0, hp0, rfl⟩
    unfold Final at h2
    rw [hnil] at h2
    simp at h2
  match hfs : t'.finals with
  | [] => exact absurd hfs hfin'
  | [(f, fw)] =>
    have hacc : ∀ ls, Acc t' t'.initial ls ↔ Path (Edge t') t'.initial ls f := by
      intro ls
      constructor
      · rintro ⟨p, v, h1, h2⟩
        unfold Final at h2
        rw [hfs] at h2
        simp only [List.mem_singleton, Prod.mk.injEq] at h2
        rw [h2.1] at h1
        exact h1
      · intro h1; exact ⟨f, fw, h1, by unfold Final; rw [hfs]; simp⟩
    have hff : Final t' f fw := by unfold Final; rw [hfs]; simp
    refine ⟨t', t', fun ls => Path (Edge t') t'.initial ls f, m1, joinFinals_single 0 hfs, ⟨m.wf, m.known, ⟨f, fw, hfs, ?_, fun _ => Iff.rfl⟩, ?_, ?_⟩, ?_⟩
    · intro c hB hc w p he
      obtain ⟨n, hn⟩ := hbd _ hB
      obtain ⟨⟨us, h1⟩, -⟩ := m.useful f (m.wf.source_lt he)
      obtain ⟨-, _, vs, f', fw', h2, h3, -⟩ := m.useful p (m.wf.target_lt _ _ _ he)
      unfold Final at h3
      rw [hfs] at h3
      simp only [List.mem_singleton, Prod.mk.injEq] at h3
      rw [h3.1] at h2
      obtain ⟨ms, h4, h5⟩ := path_pump (Path.cons he h2) (by
        have : visible 0 ((c, w) :: vs) = (c, w) :: visible 0 vs := by simp [visible, hc]
        rw [this]; simp) (n + 1)
      obtain ⟨w', h6, h7⟩ := hpl (h1.append h4) hff
      have := hn w' h6
      have h7 := h7 fun _ => true
      rw [hvis h4] at h5
      simp only [List.countP_true, List.length_append] at h7 this
      omega
    · obtain ⟨ls, p, v, h1, h2, -⟩ := (m.lang _).2 ⟨ls0, p0, fw0, hls0, hp0, rfl⟩
      exact ⟨ls, (hacc ls).1 ⟨p, v, h1, h2⟩⟩
    · intro c hB
      obtain ⟨n, hn⟩ := hbd c hB
      refine ⟨n, fun ls h1 => ?_⟩
      obtain ⟨w', h6, h7⟩ := hpl h1 hff
      have := hn w' h6
      have := h7 c
      omega
    · intro x y
      rw [← m.rel]
      exact (rel_congr A hacc x y).symm
  | e1 :: e2 :: fs =>
    have h2 : 2 ≤ t'.finals.length := by simp [hfs]
    obtain ⟨o, j1, j2, j3, j4, j5, j6⟩ := joinFinals_many m.wf 0 h2
    have jl : ∀ w, Lang 0 o w ↔ Lang 0 t' w := fun w => by
      have := joinFinals_langFrom m.wf 0 h2 j1 m.wf.initial_lt w
      unfold Lang
      rw [j4]
      exact this
    have hno : ∀ l p, ¬ Edge o (size t') l p := by
      intro l p he
      rcases (j6 _ _ _).1 he with he | ⟨-, -, he⟩
      · exact no_edge_out m.wf (Nat.le_refl _) _ _ he
      · have := m.wf.finals_lt _ _ he
        omega
    have hacc : ∀ ls, Acc o o.initial ls ↔ Path (Edge o) o.initial ls (size t') := by
      intro ls
      constructor
      · rintro ⟨p, v, h1, h2⟩
        unfold Final at h2
        rw [j5] at h2
        simp only [List.mem_singleton, Prod.mk.injEq] at h2
        rw [h2.1] at h1
        exact h1
      · intro h1; exact ⟨size t', 0, h1, by unfold Final; rw [j5]; simp⟩
    have hinit : o.initial ≠ size t' := by have := m.wf.initial_lt; omega
    have hlast : ∀ ls, Path (Edge o) o.initial ls (size t') → ∃ ls' p fw, ls = ls' ++ [(0, fw)] ∧ Path (Edge t') t'.initial ls' p ∧ Final t' p fw := by
      intro ls hp
      rcases List.eq_nil_or_concat ls with rfl | ⟨ls', l', rfl⟩
      · exact absurd (path_nil_iff.1 hp).symm hinit
      · rw [List.concat_eq_append] at hp ⊢
        obtain ⟨r, h3, h4⟩ := path_snoc hp
        rcases (j6 _ _ _).1 h4 with h4 | ⟨-, h5, h6⟩
        · exact absurd h4 (no_edge_in m.wf (Nat.le_refl _) _ _)
        · obtain ⟨l1, l2⟩ := l'
          simp only at h5 h6
          subst h5
          refine ⟨ls', r, l2, rfl, ?_, h6⟩
          have hr := m.wf.finals_lt _ _ h6
          rw [j4] at h3
          have key : ∀ {q r : Nat} {ls : List (Int × W)}, Path (Edge o) q ls r → r < size t' → Path (Edge t') q ls r := by
            intro q r ls hpath
            induction hpath with
            | nil => exact fun _ => .nil _
            | cons he hpath ih =>
              intro hr
              rcases (j6 _ _ _).1 he with he | ⟨rfl, -, -⟩
              · exact .cons he (ih hr)
              · exfalso
                cases hpath with
                | nil => omega
                | cons he' _ => exact hno _ _ he'
          exact key h3 hr
    refine ⟨t', o, fun ls => Path (Edge o) o.initial ls (size t'), m1, j1, ⟨j2, ?_, ⟨size t', 0, j5, fun c _ _ w p => hno _ _, fun _ => Iff.rfl⟩, ?_, ?_⟩, ?_⟩
    · intro q l p he
      rcases (j6 _ _ _).1 he with he | ⟨-, hl, -⟩
      · exact m.known _ _ _ he
      · rw [hl]; exact ka_zero hA
    · obtain ⟨ls, p, v, h1, h2, -⟩ := (jl _).2 ((m.lang _).2 ⟨ls0, p0, fw0, hls0, hp0, rfl⟩)
      exact ⟨ls, (hacc ls).1 ⟨p, v, h1, h2⟩⟩
    · intro c hB
      obtain ⟨n, hn⟩ := hbd c hB
      refine ⟨n + 1, fun ls h1 => ?_⟩
      obtain ⟨ls', p, fw, rfl, h3, h4⟩ := hlast ls h1
      obtain ⟨w', h6, h7⟩ := hpl h3 h4
      have := hn w' h6
      have := h7 c
      have h8 : [((0 : Int), fw)].countP c ≤ 1 := List.countP_le_length (p := c) (l := [((0 : Int), fw)])
      rw [List.countP_append]
      omega
    · intro x y
      rw [← m.rel, ← rel_congr A hacc]
      show AccRel A o o.initial x y ↔ _
      rw [lang_rel hA, lang_rel hA]
      exact rel_congr A jl x y

end Verif.Compiler
