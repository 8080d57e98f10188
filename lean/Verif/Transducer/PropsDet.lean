import Verif.Transducer.Props
import Mathlib.Algebra.BigOperators.Group.List.Basic

/-! # Properties of reversal, determinisation and minimisation (C27-C30) -/

namespace Verif.Fst

/-! ## C27 -/

/-- **C27**, unless the only final state has a weight (see `C27_reverse_false`): `reverse` accepts exactly the
reversed words, label by label. -/
theorem C27_reverse_partial {W : Type} [Zero W] [DecidableEq W] {t : Transducer W} (h : WF t) (ε : Int)
    (hf : t.finals ≠ []) (hw : NoLoneWeight t) :
    ∃ t', reverse ε t = .ok t' ∧ WF t' ∧ ∀ w, Lang ε t' w ↔ Lang ε t w.reverse := by
  obtain ⟨t', h1, h2, -, h4⟩ := reverse_ok h ε hf hw
  exact ⟨t', h1, h2, h4⟩

/-- **C27** In terms of strings and total weights. -/
theorem C27_reverse_accepts_partial {W : Type} [AddCommMonoid W] [DecidableEq W] {t t' : Transducer W} (h : WF t) (ε : Int)
    (hw : NoLoneWeight t) (hr : reverse ε t = .ok t') (s : List Int) (x : W) :
    Accepts ε t' s x ↔ Accepts ε t s.reverse x := by
  have hf : t.finals ≠ [] := fun hx => by rw [reverse, joinFinals_none ε hx] at hr; cases hr
  obtain ⟨t1, h1, -, h4⟩ := C27_reverse_partial h ε hf hw
  rw [hr] at h1; cases h1
  simp only [accepts_iff_lang, h4]
  have key : ∀ w : List (Int × W), ((w.reverse.map (·.1)).filter (· ≠ ε)) = ((w.map (·.1)).filter (· ≠ ε)).reverse := by
    intro w; rw [List.map_reverse, List.filter_reverse]
  have key2 : ∀ w : List (Int × W), (w.reverse.map (·.2)).sum = (w.map (·.2)).sum := by
    intro w; rw [List.map_reverse, List.sum_reverse]
  constructor
  · rintro ⟨w, hw, rfl, rfl⟩
    exact ⟨w.reverse, hw, (key w).symm, (key2 w).symm⟩
  · rintro ⟨w, hw, hs, rfl⟩
    refine ⟨w.reverse, by rwa [List.reverse_reverse], ?_, (key2 w).symm⟩
    rw [key, ← hs, List.reverse_reverse]

/-- **C27** Without final states `reverse` terminates the program. -/
theorem C27_reverse_exit {W : Type} [Zero W] {t : Transducer W} (ε : Int) (hf : t.finals = []) :
    reverse ε t = .exit := by rw [reverse, joinFinals_none ε hf]; rfl

example : WF exA ∧ exA.finals ≠ [] ∧ NoLoneWeight exA :=
  ⟨exA_wf, by decide, by intro p w h; simp [exA] at h⟩

/-- What a concrete acyclic chain accepts: `exLone` accepts `4` with weight 5 only. -/
theorem exLone_lang (w : List (Int × Int)) (h : Lang 0 exLone w) : w = [(4, 0), (0, 5)] := by
  have := langFrom_sub (t := exLone) (ε := 0) (q := 0)
    (fun q w => (q = 0 → w = [(4, 0), (0, 5)]) ∧ (q = 1 → w = [(0, 5)])) (by
      intro p fw hf
      simp only [Final, exLone, List.mem_singleton, Prod.mk.injEq] at hf
      obtain ⟨rfl, rfl⟩ := hf
      decide) (by
      intro q l p w he hA
      rw [edge_iff_arcs (by decide)] at he
      obtain ⟨a, v⟩ := l
      simp only [arcsOf, exLone, List.flatMap_cons, List.map_cons, List.map_nil, List.flatMap_nil, List.append_nil,
        List.mem_singleton, Prod.mk.injEq] at he
      obtain ⟨rfl, rfl, rfl, rfl⟩ := he
      obtain ⟨-, h1⟩ := hA
      rw [h1 rfl]
      decide) h
  exact this.1 rfl

/-- **C27** In general the claim is false: the reverse of `exLone` accepts `4` with weight 0. -/
theorem C27_reverse_false : ∃ t : Transducer Int, WF t ∧ ∃ t', reverse 0 t = .ok t' ∧
    ∃ w, Lang 0 t' w ∧ ¬ Lang 0 t w.reverse := by
  refine ⟨exLone, wf_of_check (by decide), _, rfl, [(4, 0)], lang_of_check [(4, 0)] 0 (by decide) (by decide), ?_⟩
  intro h
  exact absurd (exLone_lang _ h) (by decide)

/-! ## C28 -/

section
variable {W : Type} [LinearOrder W] [Zero W]

/-- Deterministic: at most one arc per symbol and weight from each state, and no weightless epsilon arc. -/
def Deterministic (ε : Int) (t : Transducer W) : Prop :=
  (∀ q l p p', Edge t q l p → Edge t q l p' → p = p') ∧ (∀ q, ((row t q).map (fun e => (e.1, e.2.2))).Nodup) ∧
  (∀ q p, ¬ Edge t q (ε, 0) p)

/-- **C28** `determinize` terminates normally on every well-formed transducer and its result is deterministic. -/
theorem C28_deterministic {t : Transducer W} (h : WF t) (ε : Int) :
    ∃ t', determinize ε t = .ok t' ∧ WF t' ∧ Deterministic ε t' := by
  obtain ⟨t', Q, h1, h2⟩ := determinize_spec h ε
  refine ⟨t', h1, h2.wf, fun _ _ _ _ a b => h2.det a b, h2.labels, ?_⟩
  intro q p he
  exact ((h2.edge _ _ _).mp he).2.2.1 rfl

/-- **C28**, for weightless final states (see `C28_determinize_false`): `determinize` preserves the language. -/
theorem C28_determinize_partial {t : Transducer W} (h : WF t) (ε : Int) (hz : ∀ p w, Final t p w → w = 0) :
    ∃ t', determinize ε t = .ok t' ∧ WF t' ∧ (∀ p w, Final t' p w → w = 0) ∧ ∀ w, Lang ε t' w ↔ Lang ε t w := by
  obtain ⟨t', Q, h1, h2⟩ := determinize_spec h ε
  exact ⟨t', h1, h2.wf, h2.final_zero hz, h2.lang hz⟩

/-- **C28** Whatever the final weights, the label sequences leading to acceptance are preserved. -/
theorem C28_determinize_paths {t : Transducer W} (h : WF t) (ε : Int) :
    ∃ t', determinize ε t = .ok t' ∧ ∀ w,
      (∃ ls p v, Path (Edge t') t'.initial ls p ∧ Final t' p v ∧ w = visible ε ls) ↔
      (∃ ls p v, Path (Edge t) t.initial ls p ∧ Final t p v ∧ w = visible ε ls) := by
  obtain ⟨t', Q, h1, hd⟩ := determinize_spec h ε
  have h0 : 0 < Q.length := by have := hd.wf.initial_lt; rw [hd.size_eq] at this; omega
  refine ⟨t', h1, fun w => ⟨?_, ?_⟩⟩
  · rintro ⟨ls, j, fw, hp, hf, rfl⟩
    rw [hd.initial] at hp
    obtain ⟨-, -, q, hq, v, hv⟩ := (hd.final _ _).mp hf
    obtain ⟨x, hx, ls', hp', hv'⟩ := hd.sound hp q hq
    obtain ⟨es, hes⟩ := (hd.start x).mp hx
    obtain ⟨hev, hep⟩ := visible_of_epsPath hes
    refine ⟨es ++ ls', q, v, hep.append hp', hv, ?_⟩
    rw [visible_append, hev, hv', hd.visible_path hp]
    rfl
  · rintro ⟨ls, p, fw, hp, hf, rfl⟩
    obtain ⟨j, hj, hpj, hxj⟩ := hd.complete hp 0 h0 ((hd.start _).mpr (EpsReach.refl _ _ _))
    exact ⟨visible ε ls, j, finW t j, by rw [hd.initial]; exact hpj,
      (hd.final _ _).mpr ⟨hj, rfl, p, hxj, fw, hf⟩, (hd.visible_path hpj).symm⟩

end

/-- Nondeterministic, with an epsilon cycle. -/
def exND : Transducer Int :=
  { initial := 0, finals := [(2, 0), (3, 0)],
    transitions := [(0, [(0, (1, 0)), (1, (2, 0)), (1, (3, 0))]), (1, [(0, (0, 0)), (1, (1, 3))]), (2, [(2, (0, 0))]), (3, [])] }

example : WF exND ∧ (∀ p w, Final exND p w → w = 0) ∧ Lang 0 exND [(1, 3), (1, 0), (2, 0), (1, 0)] := by
  refine ⟨wf_of_check (by decide), ?_, lang_of_check [(0, 0), (1, 3), (0, 0), (1, 0), (2, 0), (1, 0)] 0 (by decide) (by decide)⟩
  intro p w h
  simp [Final, exND] at h
  omega

/-- `1` with final weight 5; the final state has number 2. -/
def exW : Transducer Int := { initial := 0, finals := [(2, 5)], transitions := [(0, [(1, (2, 0))]), (1, []), (2, [])] }

theorem exW_lang (w : List (Int × Int)) (h : Lang 0 exW w) : w = [(1, 0), (0, 5)] := by
  have := langFrom_sub (t := exW) (ε := 0) (q := 0)
    (fun q w => (q = 0 → w = [(1, 0), (0, 5)]) ∧ (q = 2 → w = [(0, 5)])) (by
      intro p fw hf
      simp only [Final, exW, List.mem_singleton, Prod.mk.injEq] at hf
      obtain ⟨rfl, rfl⟩ := hf
      decide) (by
      intro q l p w he hA
      rw [edge_iff_arcs (by decide)] at he
      obtain ⟨a, v⟩ := l
      simp only [arcsOf, exW, List.flatMap_cons, List.map_cons, List.map_nil, List.flatMap_nil, List.append_nil,
        List.mem_singleton, Prod.mk.injEq] at he
      obtain ⟨rfl, rfl, rfl, rfl⟩ := he
      obtain ⟨-, h1⟩ := hA
      rw [h1 rfl]
      decide) h
  exact this.1 rfl

/-- **C28** With weighted final states the claim is false: `determinize` looks the weight up with the number of
the new state. -/
theorem C28_determinize_false : ∃ t : Transducer Int, WF t ∧ ∃ t', determinize 0 t = .ok t' ∧
    ∃ w, Lang 0 t' w ∧ ¬ Lang 0 t w := by
  have hm : determinize 0 exW = .ok { initial := 0, finals := [(1, 0)], transitions := [(0, [(1, (1, 0))]), (1, [])] } := by
    decide +kernel
  refine ⟨exW, wf_of_check (by decide), _, hm, [(1, 0)], lang_of_check [(1, 0)] 0 (by decide) (by decide), ?_⟩
  intro h
  exact absurd (exW_lang _ h) (by decide)

/-! ## C29 -/

section
variable {W : Type} [LinearOrder W] [Zero W]

/-- **C29** `minimize` leaves a transducer without final states untouched. -/
theorem C29_no_finals (ε : Int) {t : Transducer W} (hf : t.finals = []) : minimize ε t = .ok t := by
  rw [minimize, hf]; rfl

/-- **C29**, unless the only final state has a weight (see `C29_minimize_false`): when something is accepted,
`minimize` returns a well-formed deterministic transducer with the same language; when there are final states but
nothing is accepted, it terminates the program. -/
theorem C29_minimize_partial {t : Transducer W} (h : WF t) (ε : Int) (hf : t.finals ≠ []) (hw : NoLoneWeight t) :
    ((∃ w, Lang ε t w) → ∃ t', minimize ε t = .ok t' ∧ WF t' ∧ Deterministic ε t' ∧ ∀ w, Lang ε t' w ↔ Lang ε t w) ∧
    ((¬ ∃ w, Lang ε t w) → minimize ε t = .exit) := by
  refine ⟨fun hne => ?_, minimize_exit h ε hf hw⟩
  obtain ⟨t1, d1, j, r, d2, Q1, Q2, h1, c, h2⟩ := minimize_chain h ε hf hw hne
  refine ⟨d2, h1, c.det2.wf, ⟨fun _ _ _ _ a b => c.det2.det a b, c.det2.labels, ?_⟩, h2⟩
  intro q p he
  exact ((c.det2.edge _ _ _).mp he).2.2.1 rfl

/-- **C29** Useless states disappear: every state of the result can be reached and leads to acceptance. -/
theorem C29_all_states_useful {t t' : Transducer W} (h : WF t) (ε : Int) (hf : t.finals ≠ []) (hw : NoLoneWeight t)
    (hm : minimize ε t = .ok t') (q : Nat) (hq : q < size t') :
    (∃ ls, Path (Edge t') t'.initial ls q) ∧ ∃ w, LangFrom ε t' q w := by
  by_cases hne : ∃ w, Lang ε t w
  · obtain ⟨t1, d1, j, r, d2, Q1, Q2, h1, c, h2⟩ := minimize_chain h ε hf hw hne
    rw [hm] at h1; cases h1
    rw [c.det2.size_eq] at hq
    refine ⟨?_, c.live hq⟩
    rw [c.det2.initial]
    exact c.det2.reachable q hq
  · rw [minimize_exit h ε hf hw hne] at hm; cases hm

end

/-- **C29** In terms of strings and total weights. -/
theorem C29_minimize_accepts_partial {W : Type} [LinearOrder W] [AddMonoid W] {t t' : Transducer W} (h : WF t) (ε : Int)
    (hw : NoLoneWeight t) (hm : minimize ε t = .ok t') (s : List Int) (x : W) :
    Accepts ε t' s x ↔ Accepts ε t s x := by
  by_cases hf : t.finals = []
  · rw [C29_no_finals ε hf] at hm; cases hm; rfl
  · by_cases hne : ∃ w, Lang ε t w
    · obtain ⟨t1, h1, -, -, h4⟩ := (C29_minimize_partial h ε hf hw).1 hne
      rw [hm] at h1; cases h1
      exact accepts_congr h4 s x
    · rw [(C29_minimize_partial h ε hf hw).2 hne] at hm; cases hm

example : WF exA ∧ exA.finals ≠ [] ∧ NoLoneWeight exA ∧ ∃ w, Lang 0 exA w :=
  ⟨exA_wf, by decide, by intro p w h; simp [exA] at h, _, lang_of_check [(1, 0), (3, 4)] 7 (by decide) rfl⟩

/-- A final state that cannot be reached: the process ends. -/
example : minimize 0 ({ initial := 0, finals := [(1, 0)], transitions := [(0, []), (1, [])] } : Transducer Int) = .exit := by
  decide +kernel

/-- **C29** In general the claim is false: minimising a transducer whose only final state is weighted loses the
weight. -/
theorem C29_minimize_false : ∃ t : Transducer Int, WF t ∧ ∃ t', minimize 0 t = .ok t' ∧
    ∃ w, Lang 0 t' w ∧ ¬ Lang 0 t w := by
  have hm : minimize 0 exLone = .ok { initial := 0, finals := [(1, 0)], transitions := [(0, [(4, (1, 0))]), (1, [])] } := by
    decide +kernel
  refine ⟨exLone, wf_of_check (by decide), _, hm, [(4, 0)], lang_of_check [(4, 0)] 0 (by decide) (by decide), ?_⟩
  intro h
  exact absurd (exLone_lang _ h) (by decide)

/-! ## C30 -/

section
variable {W : Type} [LinearOrder W] [Zero W]

/-- **C30**, up to one state (see `C30_minimal_false`): no deterministic automaton over the same labels that accepts
the same words has fewer states than the result of `minimize` minus one. -/
theorem C30_minimal_partial {t t' : Transducer W} (h : WF t) (ε : Int) (hf : t.finals ≠ []) (hw : NoLoneWeight t)
    (hm : minimize ε t = .ok t') {n : Nat} (A : DFA (Int × W) n) (hA : ∀ w, A.Accepts w ↔ Lang ε t w) :
    size t' ≤ n + 1 := by
  by_cases hne : ∃ w, Lang ε t w
  · obtain ⟨t1, d1, j, r, d2, Q1, Q2, h1, c, h2⟩ := minimize_chain h ε hf hw hne
    rw [hm] at h1; cases h1
    rw [c.det2.size_eq]
    exact c.bound A (fun w => (hA w).trans (h2 w).symm)
  · rw [minimize_exit h ε hf hw hne] at hm; cases hm

/-- **C30** holds exactly when the accepted words are bounded in length, as they are for a dictionary without
regular expressions: no deterministic automaton is smaller. -/
theorem C30_minimal_finite {t t' : Transducer W} (h : WF t) (ε : Int) (hf : t.finals ≠ []) (hw : NoLoneWeight t)
    (hm : minimize ε t = .ok t') {N : Nat} (hN : ∀ w, Lang ε t w → w.length ≤ N) {n : Nat} (A : DFA (Int × W) n)
    (hA : ∀ w, A.Accepts w ↔ Lang ε t w) : size t' ≤ n := by
  by_cases hne : ∃ w, Lang ε t w
  · obtain ⟨t1, d1, j, r, d2, Q1, Q2, h1, c, h2⟩ := minimize_chain h ε hf hw hne
    rw [hm] at h1; cases h1
    rw [c.det2.size_eq]
    refine c.bound_exact (fun a ha h0 => c.finite_initial (fun w hw => hN w ((h2 w).mp hw)) ha h0) A
      (fun w => (hA w).trans (h2 w).symm)
  · rw [minimize_exit h ε hf hw hne] at hm; cases hm

/-- **C30** It also holds when an arc leads back to the initial state of the result. -/
theorem C30_minimal_back_to_start {t t' : Transducer W} (h : WF t) (ε : Int) (hf : t.finals ≠ []) (hw : NoLoneWeight t)
    (hm : minimize ε t = .ok t') (hin : ∃ q l, Edge t' q l t'.initial) {n : Nat} (A : DFA (Int × W) n)
    (hA : ∀ w, A.Accepts w ↔ Lang ε t w) : size t' ≤ n := by
  by_cases hne : ∃ w, Lang ε t w
  · obtain ⟨t1, d1, j, r, d2, Q1, Q2, h1, c, h2⟩ := minimize_chain h ε hf hw hne
    rw [hm] at h1; cases h1
    rw [c.det2.size_eq]
    rw [c.det2.initial] at hin
    refine c.bound_exact (fun a ha h0 => ?_) A (fun w => (hA w).trans (h2 w).symm)
    by_contra hcon
    simp only [not_exists, not_not] at hcon
    exact h0 (c.inj_of_lang (by omega) ha hin (c.has_in_edge ha h0) hcon).symm
  · rw [minimize_exit h ε hf hw hne] at hm; cases hm

end

/-- `1*` as two final states. -/
def exTwoStar : Transducer Int :=
  { initial := 0, finals := [(0, 0), (1, 0)], transitions := [(0, [(1, (1, 0))]), (1, [(1, (1, 0))])] }

theorem exTwoStar_lang (w : List (Int × Int)) : Lang 0 exTwoStar w ↔ ∀ l ∈ w, l = (1, 0) := by
  constructor
  · intro h
    refine langFrom_sub (t := exTwoStar) (ε := 0) (q := 0) (fun _ w => ∀ l ∈ w, l = (1, 0)) ?_ ?_ h
    · intro p fw hf
      simp only [Final, exTwoStar, List.mem_cons, List.not_mem_nil, or_false, Prod.mk.injEq] at hf
      rcases hf with ⟨rfl, rfl⟩ | ⟨rfl, rfl⟩ <;> decide
    · intro q l p w he hA
      rw [edge_iff_arcs (by decide)] at he
      obtain ⟨a, v⟩ := l
      simp only [arcsOf, exTwoStar, List.flatMap_cons, List.map_cons, List.map_nil, List.flatMap_nil, List.append_nil,
          List.mem_cons, List.cons_append, List.nil_append, List.not_mem_nil, or_false, Prod.mk.injEq] at he
      intro l hl
      simp only [List.mem_append] at hl
      rcases hl with hl | hl
      · rcases he with ⟨rfl, rfl, rfl, rfl⟩ | ⟨rfl, rfl, rfl, rfl⟩ <;> (simp [visible] at hl; exact hl)
      · exact hA l hl
  · intro h
    have hp : ∀ (w : List (Int × Int)) q, (q = 0 ∨ q = 1) → (∀ l ∈ w, l = (1, 0)) →
        ∃ p, (p = 0 ∨ p = 1) ∧ Path (Edge exTwoStar) q w p := by
      intro w
      induction w with
      | nil => intro q hq _; exact ⟨q, hq, .nil q⟩
      | cons l w ih =>
        intro q hq hl
        obtain ⟨p, hp, hpp⟩ := ih 1 (.inr rfl) (fun x hx => hl x (by simp [hx]))
        have := hl l (by simp)
        subst this
        refine ⟨p, hp, .cons (r := 1) ?_ hpp⟩
        rcases hq with rfl | rfl <;> (unfold Edge; decide)
    obtain ⟨p, hp, hpp⟩ := hp w 0 (.inl rfl) h
    refine ⟨w, p, 0, hpp, ?_, ?_⟩
    · rcases hp with rfl | rfl <;> simp [Final, exTwoStar]
    · rw [visible_append_eps]
      symm
      rw [visible, List.filter_eq_self]
      intro l hl
      rw [h l hl]; decide

/-- **C30** In general the claim is false: `1*` minimises to two states, although one is enough. -/
theorem C30_minimal_false : ∃ t : Transducer Int, WF t ∧ NoLoneWeight t ∧ ∃ t', minimize 0 t = .ok t' ∧
    size t' = 2 ∧ ∃ A : DFA (Int × Int) 1, ∀ w, A.Accepts w ↔ Lang 0 t w := by
  have hm : minimize 0 exTwoStar = .ok exTwoStar := by decide +kernel
  refine ⟨exTwoStar, wf_of_check (by decide), by intro p w h; simp [exTwoStar] at h, _, hm, by decide,
    ⟨0, fun s l => if l = (1, 0) then some s else none, fun _ => True⟩, fun w => ?_⟩
  rw [exTwoStar_lang]
  unfold DFA.Accepts
  simp only [and_true]
  generalize (0 : Fin 1) = s
  induction w generalizing s with
  | nil => simp [DFA.run]
  | cons l w ih =>
    simp only [DFA.run, List.mem_cons, forall_eq_or_imp, ← ih s]
    by_cases hl : l = (1, 0)
    · simp [hl]
    · simp [hl]

example : WF exA ∧ exA.finals ≠ [] ∧ NoLoneWeight exA ∧ (∃ t', minimize 0 exA = .ok t') ∧
    (∀ w, Lang 0 exA w → w.length ≤ 3) := by
  refine ⟨exA_wf, by decide, by intro p w h; simp [exA] at h, ?_, ?_⟩
  · exact ⟨_, (by decide +kernel : minimize 0 exA = .ok
      { initial := 0, finals := [(2, 0)], transitions := [(0, [(1, (1, 0))]), (1, [(2, (2, 0)), (3, (3, 4))]), (2, []), (3, [(0, (2, 7))])] })⟩
  · intro w h
    have := langFrom_sub (t := exA) (ε := 0) (q := 0)
      (fun q w => (q = 0 → w.length ≤ 3) ∧ (q = 1 → w.length ≤ 2) ∧ (q = 2 → w.length ≤ 1) ∧ (q = 3 → w.length ≤ 1)) (by
        intro p fw hf
        simp only [Final, exA, List.mem_cons, List.not_mem_nil, or_false, Prod.mk.injEq] at hf
        rcases hf with ⟨rfl, rfl⟩ | ⟨rfl, rfl⟩ <;> decide) (by
        intro q l p w he hA
        rw [edge_iff_arcs (by decide)] at he
        obtain ⟨a, v⟩ := l
        simp only [arcsOf, exA, List.flatMap_cons, List.map_cons, List.map_nil, List.flatMap_nil, List.append_nil,
          List.mem_cons, List.cons_append, List.nil_append, List.not_mem_nil, or_false, Prod.mk.injEq] at he
        have hv : (visible 0 [(a, v)]).length ≤ 1 := List.length_filter_le _ _
        rw [List.length_append]
        omega) h
    exact this.1 rfl

end Verif.Fst
