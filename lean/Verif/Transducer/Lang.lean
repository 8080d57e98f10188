import Verif.Transducer.Det
import Verif.Transducer.Insert

/-! # Language-level consequences used by the property theorems -/

namespace Verif.Fst

/-! ## The coarse view follows from the fine one -/

theorem sum_filter_zero {W : Type} [AddMonoid W] [DecidableEq W] (ε : Int) (ls : List (Int × W)) :
    ((visible ε ls).map (·.2)).sum = (ls.map (·.2)).sum := by
  induction ls with
  | nil => rfl
  | cons l ls ih =>
    rw [visible_cons]
    by_cases h : l = (ε, 0)
    · simp [h, ih]
    · simp [h, ih]

theorem symbols_visible {W : Type} [Zero W] [DecidableEq W] (ε : Int) (ls : List (Int × W)) :
    ((visible ε ls).map (·.1)).filter (· ≠ ε) = (ls.map (·.1)).filter (· ≠ ε) := by
  induction ls with
  | nil => rfl
  | cons l ls ih =>
    rw [visible_cons]
    by_cases h : l = (ε, 0)
    · simpa [h] using ih
    · simp only [h, if_false, List.cons_append, List.nil_append, List.map_cons, List.filter_cons, ih]

theorem accepts_iff_lang {W : Type} [AddMonoid W] [DecidableEq W] (ε : Int) (t : Transducer W) (s : List Int) (x : W) :
    Accepts ε t s x ↔ ∃ w, Lang ε t w ∧ s = (w.map (·.1)).filter (· ≠ ε) ∧ x = (w.map (·.2)).sum := by
  constructor
  · rintro ⟨ls, p, fw, hp, hf, rfl, rfl⟩
    refine ⟨visible ε (ls ++ [(ε, fw)]), ⟨ls, p, fw, hp, hf, rfl⟩, ?_, ?_⟩
    · rw [symbols_visible]; simp
    · rw [sum_filter_zero]; simp
  · rintro ⟨w, ⟨ls, p, fw, hp, hf, rfl⟩, rfl, rfl⟩
    refine ⟨ls, p, fw, hp, hf, ?_, ?_⟩
    · rw [symbols_visible]; simp
    · rw [sum_filter_zero]; simp

/-- Equal languages accept the same strings with the same weights. -/
theorem accepts_congr {W : Type} [AddMonoid W] [DecidableEq W] {ε : Int} {t t' : Transducer W}
    (h : ∀ w, Lang ε t w ↔ Lang ε t' w) (s : List Int) (x : W) : Accepts ε t s x ↔ Accepts ε t' s x := by
  simp only [accepts_iff_lang, h]

/-! ## Weights of single final states -/

section
variable {W : Type} [Zero W]

/-- No weight is lost by operations that forget the weight of a single final state. -/
def NoLoneWeight (t : Transducer W) : Prop := ∀ p w, t.finals = [(p, w)] → w = 0

variable [DecidableEq W]

theorem langFrom_zero {t : Transducer W} {ε : Int} {f : Nat} (hf : t.finals = [(f, 0)]) (q : Nat)
    (w : List (Int × W)) : LangFrom ε t q w ↔ ∃ ls, Path (Edge t) q ls f ∧ w = visible ε ls := by
  rw [langFrom_single hf]
  simp only [visible_append_eps]

/-- `joinFinals` on a transducer without a lone weighted final state. -/
theorem joinFinals_zero {t : Transducer W} (h : WF t) (ε : Int) (hf : t.finals ≠ []) (hw : NoLoneWeight t) :
    ∃ t' f, joinFinals ε t = .ok t' ∧ WF t' ∧ t'.initial = t.initial ∧ t'.finals = [(f, 0)] ∧ size t ≤ size t' ∧
      ∀ q < size t, ∀ w, LangFrom ε t' q w ↔ LangFrom ε t q w := by
  obtain ⟨t', f, fw, h1, h2, h3, h4, h5, h6, h7, h8⟩ := joinFinals_spec h ε hf
  have : fw = 0 := by
    match hfs : t.finals with
    | [] => exact absurd hfs hf
    | [e] =>
      have := h7 (by simp [hfs])
      subst this
      exact hw f fw h4
    | _ :: _ :: _ => exact h6 (by simp [hfs])
  subst this
  exact ⟨t', f, h1, h2, h3, h4, h5, h8⟩

theorem reverse_ok {t : Transducer W} (h : WF t) (ε : Int) (hf : t.finals ≠ []) (hw : NoLoneWeight t) :
    ∃ t', reverse ε t = .ok t' ∧ WF t' ∧ (∃ i, t'.finals = [(i, 0)]) ∧ ∀ w, Lang ε t' w ↔ Lang ε t w.reverse := by
  obtain ⟨t1, f, h1, h2, h3, h4, h5, h6⟩ := joinFinals_zero h ε hf hw
  obtain ⟨t', r1, r2, r3, r4, r5, r6⟩ := reverse_spec h2 ε h1 h4
  refine ⟨t', r1, r2, ⟨_, r5⟩, fun w => ?_⟩
  rw [reverse_lang ε r4 r5 r6, Lang, ← h6 _ h.initial_lt, ← h3, langFrom_zero h4]

end

/-! ## Determinisation and minimisation -/

section
variable {W : Type} [LinearOrder W] [Zero W]

omit [LinearOrder W] in
theorem finW_zero {t : Transducer W} (hw : ∀ p w, Final t p w → w = 0) (i : Nat) : finW t i = 0 := by
  unfold finW
  split
  · rfl
  · cases h : mapFind i t.finals with
    | none => rfl
    | some v => exact hw i v (mapFind_mem h)

theorem IsDet.lang {t t' : Transducer W} {ε : Int} {Q : List (List Nat)} (hd : IsDet t ε t' Q)
    (hw : ∀ p w, Final t p w → w = 0) (w : List (Int × W)) : Lang ε t' w ↔ Lang ε t w := by
  have h0 : 0 < Q.length := by have := hd.wf.initial_lt; rw [hd.size_eq] at this; omega
  constructor
  · rintro ⟨ls, j, fw, hp, hf, rfl⟩
    rw [hd.initial] at hp
    obtain ⟨-, rfl, q, hq, v, hv⟩ := (hd.final _ _).mp hf
    obtain ⟨x, hx, ls', hp', hv'⟩ := hd.sound hp q hq
    obtain ⟨es, hes⟩ := (hd.start x).mp hx
    obtain ⟨hev, hep⟩ := visible_of_epsPath hes
    refine ⟨es ++ ls', q, v, hep.append hp', hv, ?_⟩
    have hv0 := hw q v hv
    subst hv0
    rw [finW_zero hw, visible_append_eps, visible_append_eps, visible_append, hev, hv', hd.visible_path hp]
    rfl
  · rintro ⟨ls, p, fw, hp, hf, rfl⟩
    obtain ⟨j, hj, hpj, hxj⟩ := hd.complete hp 0 h0 ((hd.start _).mpr (EpsReach.refl _ _ _))
    have := hw p fw hf
    subst this
    refine ⟨visible ε ls, j, 0, by rw [hd.initial]; exact hpj, ?_, ?_⟩
    · rw [hd.final]; exact ⟨hj, (finW_zero hw j).symm, p, hxj, 0, hf⟩
    · rw [visible_append_eps, visible_append_eps, hd.visible_path hpj]

omit [LinearOrder W] in
theorem IsDet.final_zero {t t' : Transducer W} {ε : Int} {Q : List (List Nat)} (hd : IsDet t ε t' Q)
    (hw : ∀ p w, Final t p w → w = 0) (p : Nat) (w : W) (h : Final t' p w) : w = 0 := by
  obtain ⟨-, rfl, -⟩ := (hd.final _ _).mp h
  exact finW_zero hw p

/-- All final weights zero. -/
def ZeroFinals (t : Transducer W) : Prop := ∀ p w, Final t p w → w = 0

omit [LinearOrder W] in
theorem ZeroFinals.noLone {t : Transducer W} (h : ZeroFinals t) : NoLoneWeight t :=
  fun p w hf => h p w (by simp [Final, hf])

/-- The steps of `minimize`. The last intermediate transducers are kept for the minimality proof. -/
theorem minimize_steps {t : Transducer W} (h : WF t) (ε : Int) (hf : t.finals ≠ []) (hw : NoLoneWeight t) :
    ∃ t1, reverse ε t = .ok t1 ∧ WF t1 ∧ ZeroFinals t1 ∧ t1.finals ≠ [] ∧ (∀ w, Lang ε t1 w ↔ Lang ε t w.reverse) := by
  obtain ⟨t1, r1, r2, ⟨i, r3⟩, r4⟩ := reverse_ok h ε hf hw
  exact ⟨t1, r1, r2, fun p w hp => by simp [Final, r3] at hp; exact hp.2, by simp [r3], r4⟩

end

end Verif.Fst
