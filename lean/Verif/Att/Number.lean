import Verif.Data.Units
import Verif.Base
import Mathlib.Logic.Basic
import Mathlib.Tactic.ByContra

/-! # `fast_stoi` of `lttoolbox/att_compiler.cc` (C58) -/

namespace Verif.Att

/-- A value of type `int`: signed overflow is undefined. -/
def int32 (n : Int) : Res Int := if -2 ^ 31 ≤ n ∧ n < 2 ^ 31 then .ok n else .ub

/-- The loop of `fast_stoi` (att_compiler.cc:154-158). -/
def stoiLoop : UString → Int → Res Int
  | [], ret => .ok ret
  | u :: s, ret =>
    if u < 0x30 ∨ u > 0x39 then .exception
    else do
      let ret ← int32 (ret * 10)
      let ret ← int32 (ret + ((u.toNat : Int) - 0x30))
      stoiLoop s ret

/-- `fast_stoi` (att_compiler.cc:152-160). -/
def fastStoi (s : UString) : Res Int := stoiLoop s 0


/-- The value of a digit string read from the left, starting with `v`. -/
def valueFrom (v : Nat) (ds : List Nat) : Nat := ds.foldl (fun v d => v * 10 + d) v

theorem valueFrom_ge (v : Nat) (ds : List Nat) : v ≤ valueFrom v ds := by
  induction ds generalizing v with
  | nil => exact Nat.le_refl _
  | cons d ds ih => exact Nat.le_trans (by omega) (ih (v * 10 + d))

theorem digit_unit {d : Nat} (h : d < 10) : (UInt16.ofNat (0x30 + d)).toNat = 0x30 + d := by
  simp; omega

theorem digit_not {d : Nat} (h : d < 10) : ¬ (UInt16.ofNat (0x30 + d) < 0x30 ∨ UInt16.ofNat (0x30 + d) > 0x39) := by
  have := digit_unit h
  simp only [UInt16.lt_iff_toNat_lt, gt_iff_lt, this]
  have h1 : (0x30 : UInt16).toNat = 0x30 := rfl
  have h2 : (0x39 : UInt16).toNat = 0x39 := rfl
  rw [h1, h2]; omega

theorem stoiLoop_digits (ds : List Nat) (h : ∀ d ∈ ds, d < 10) (rest : UString) : ∀ v : Nat, v < 2 ^ 31 →
    stoiLoop (ds.map (fun d => UInt16.ofNat (0x30 + d)) ++ rest) v =
      if valueFrom v ds < 2 ^ 31 then stoiLoop rest (valueFrom v ds) else .ub := by
  induction ds with
  | nil => intro v hv; rw [show valueFrom v [] = v from rfl, if_pos hv]; rfl
  | cons d ds ih =>
    intro v hv
    have hd := h d (by simp)
    have hge := valueFrom_ge (v * 10 + d) ds
    rw [List.map_cons, List.cons_append, stoiLoop, if_neg (digit_not hd), show valueFrom v (d :: ds) = valueFrom (v * 10 + d) ds from rfl]
    unfold int32
    by_cases h1 : v * 10 < 2 ^ 31
    · rw [if_pos (by omega)]
      simp only [Res.bind_ok]
      rw [digit_unit hd]
      by_cases h2 : v * 10 + d < 2 ^ 31
      · rw [if_pos (by omega)]
        simp only [Res.bind_ok]
        have := ih (fun x hx => h x (by simp [hx])) (v * 10 + d) h2
        rw [← this]
        congr 1; push_cast; omega
      · rw [if_neg (by omega), if_neg (by omega)]; rfl
    · rw [if_neg (by omega), if_neg (by omega)]; rfl

/-- **C58** A string of digits, with or without leading zeros, gives its value in base ten if that is an `int`; otherwise the
arithmetic overflows. The empty string is accepted as zero. -/
theorem C58_digits (ds : List Nat) (h : ∀ d ∈ ds, d < 10) :
    fastStoi (ds.map fun d => UInt16.ofNat (0x30 + d)) =
      if (ds.foldl (fun v d => v * 10 + d) 0) < 2 ^ 31 then .ok ((ds.foldl (fun v d => v * 10 + d) 0 : Nat) : Int) else .ub := by
  have := stoiLoop_digits ds h [] 0 (by omega)
  rw [List.append_nil] at this
  exact this

example : (∀ d ∈ [0, 0, 4, 2], d < 10) ∧ fastStoi (([0, 0, 4, 2] : List Nat).map fun d => UInt16.ofNat (0x30 + d)) = .ok 42 := by decide

/-- **C58** Anything else in the text makes it throw, unless the digits before it already overflow. -/
theorem C58_other (ds : List Nat) (h : ∀ d ∈ ds, d < 10) (u : UInt16) (hu : ∀ d < 10, u ≠ UInt16.ofNat (0x30 + d)) (rest : UString) :
    fastStoi (ds.map (fun d => UInt16.ofNat (0x30 + d)) ++ u :: rest) =
      if (ds.foldl (fun v d => v * 10 + d) 0) < 2 ^ 31 then .exception else .ub := by
  have := stoiLoop_digits ds h (u :: rest) 0 (by omega)
  unfold fastStoi
  rw [show ((0 : Nat) : Int) = 0 from rfl] at this
  rw [this]
  have : u < 0x30 ∨ u > 0x39 := by
    by_contra hc
    simp only [UInt16.lt_iff_toNat_lt, gt_iff_lt, not_or, Nat.not_lt] at hc
    have h1 : (0x30 : UInt16).toNat = 0x30 := rfl
    have h2 : (0x39 : UInt16).toNat = 0x39 := rfl
    rw [h1, h2] at hc
    refine hu (u.toNat - 0x30) (by omega) ?_
    apply UInt16.toNat_inj.1
    rw [digit_unit (by omega)]; omega
  rw [stoiLoop, if_pos this]
  rfl

example : (∀ d < 10, (0x2d : UInt16) ≠ UInt16.ofNat (0x30 + d)) ∧ fastStoi (([1] : List Nat).map (fun d => UInt16.ofNat (0x30 + d)) ++ [0x2d]) = .exception := by
  decide

/-- **C58** Together the two cases cover all texts. -/
theorem C58_cases (s : UString) : (∃ ds : List Nat, (∀ d ∈ ds, d < 10) ∧ s = ds.map fun d => UInt16.ofNat (0x30 + d)) ∨
    ∃ (ds : List Nat) (u : UInt16) (rest : UString), (∀ d ∈ ds, d < 10) ∧ (∀ d < 10, u ≠ UInt16.ofNat (0x30 + d)) ∧
      s = ds.map (fun d => UInt16.ofNat (0x30 + d)) ++ u :: rest := by
  induction s with
  | nil => exact .inl ⟨[], by simp, rfl⟩
  | cons u s ih =>
    by_cases hu : ∀ d < 10, u ≠ UInt16.ofNat (0x30 + d)
    · exact .inr ⟨[], u, s, by simp, hu, rfl⟩
    · simp only [not_forall, not_not] at hu
      obtain ⟨d, hd, rfl⟩ := hu
      rcases ih with ⟨ds, h, rfl⟩ | ⟨ds, v, rest, h, hv, rfl⟩
      · exact .inl ⟨d :: ds, by simpa using ⟨hd, h⟩, rfl⟩
      · exact .inr ⟨d :: ds, v, rest, by simpa using ⟨hd, h⟩, hv, rfl⟩

/-- **C58** The empty text is not a number but is read as one. -/
theorem C58_empty_false : ¬ ∀ s n, fastStoi s = .ok n → s ≠ [] := fun h => h [] 0 rfl rfl

end Verif.Att
