import Verif.Compiler.Model

/-!
# One thread for each section

`Compiler::parse` (compiler.cc:70-90) with `jobs`: each thread works on the transducer of one section, to which it has the only
reference while it runs. The steps of a thread are the four operations of `Transducer::minimize`; nothing that they read or write is
shared, so finer steps would commute as well. A step that ends the process ends it for all threads.
-/

namespace Verif.Compiler

open Verif.Fst

section
variable {T : Type}

/-- What a thread still has to do, and the value that it works on. -/
abbrev Thread (T : Type) := List (T → Res T) × T

/-- The process with these threads can end with this result: at each moment any thread that is not finished does its next step. -/
inductive Run : List (Thread T) → Res (List T) → Prop
  | done {ts : List (Thread T)} (h : ∀ t ∈ ts, t.1 = []) : Run ts (.ok (ts.map (·.2)))
  | step {pre post : List (Thread T)} {op : T → Res T} {ops : List (T → Res T)} {t t' : T} {r : Res (List T)} (h : op t = .ok t')
      (hr : Run (pre ++ (ops, t') :: post) r) : Run (pre ++ (op :: ops, t) :: post) r
  | exit {pre post : List (Thread T)} {op : T → Res T} {ops : List (T → Res T)} {t : T} (h : op t = .exit) : Run (pre ++ (op :: ops, t) :: post) .exit
  | exception {pre post : List (Thread T)} {op : T → Res T} {ops : List (T → Res T)} {t : T} (h : op t = .exception) :
      Run (pre ++ (op :: ops, t) :: post) .exception
  | ub {pre post : List (Thread T)} {op : T → Res T} {ops : List (T → Res T)} {t : T} (h : op t = .ub) : Run (pre ++ (op :: ops, t) :: post) .ub

/-- A thread alone. -/
def alone : List (T → Res T) → T → Res T
  | [], t => .ok t
  | op :: ops, t => do alone ops (← op t)

theorem alone_cons_ok {op : T → Res T} {ops : List (T → Res T)} {t t' : T} (h : op t = .ok t') : alone (op :: ops) t = alone ops t' := by
  rw [alone, h, Res.bind_ok]

/-- Some way for the process to end exists. -/
theorem run_exists (n : Nat) (ts : List (Thread T)) (h : (ts.map (·.1.length)).sum = n) : ∃ r, Run ts r := by
  induction n generalizing ts with
  | zero =>
    refine ⟨_, .done fun t ht => ?_⟩
    have : t.1.length = 0 := by
      obtain ⟨pre, post, rfl⟩ := List.append_of_mem ht
      simp only [List.map_append, List.map_cons, List.sum_append, List.sum_cons] at h
      omega
    exact List.length_eq_zero_iff.1 this
  | succ n ih =>
    by_cases hall : ∀ t ∈ ts, t.1 = []
    · exact ⟨_, .done hall⟩
    · have : ∃ t ∈ ts, t.1 ≠ [] := by
        by_contra hno
        exact hall fun t ht => by
          by_contra h'
          exact hno ⟨t, ht, h'⟩
      obtain ⟨⟨ops, t⟩, ht, hne⟩ := this
      obtain ⟨pre, post, rfl⟩ := List.append_of_mem ht
      cases ops with
      | nil => exact absurd rfl hne
      | cons op ops =>
        cases hop : op t with
        | ok t' =>
          obtain ⟨r, hr⟩ := ih (pre ++ (ops, t') :: post) (by simp at h ⊢; omega)
          exact ⟨r, .step hop hr⟩
        | exit => exact ⟨_, .exit hop⟩
        | exception => exact ⟨_, .exception hop⟩
        | ub => exact ⟨_, .ub hop⟩

/-- If the process ends well, every thread has what it would have had alone. -/
theorem run_ok {ts : List (Thread T)} {r : Res (List T)} (h : Run ts r) {us : List T} (hr : r = .ok us) :
    List.Forall₂ (fun t u => alone t.1 t.2 = .ok u) ts us := by
  induction h with
  | @done ts h =>
    cases hr
    induction ts with
    | nil => exact .nil
    | cons t ts ih =>
      refine .cons ?_ (ih fun t ht => h t (List.mem_cons_of_mem _ ht))
      rw [h t (by simp)]
      rfl
  | @step pre post op ops t t' r h hrun ih =>
    have := ih hr
    clear ih hr hrun
    induction pre generalizing us with
    | nil =>
      cases this with
      | cons h1 h2 => exact .cons (by rw [alone_cons_ok h]; exact h1) h2
    | cons p pre ih =>
      cases this with
      | cons h1 h2 => exact .cons h1 (ih h2)
  | exit => cases hr
  | exception => cases hr
  | ub => cases hr

/-- If it ends badly, so would one of the threads alone, in the same way. -/
theorem run_bad {ts : List (Thread T)} {r : Res (List T)} (h : Run ts r) (hr : ∀ us, r ≠ .ok us) :
    ∃ t ∈ ts, (r = .exit ∧ alone t.1 t.2 = .exit) ∨ (r = .exception ∧ alone t.1 t.2 = .exception) ∨ (r = .ub ∧ alone t.1 t.2 = .ub) := by
  induction h with
  | done h => exact absurd rfl (hr _)
  | @step pre post op ops t t' r h _ ih =>
    obtain ⟨t1, ht, h1⟩ := ih hr
    rcases List.mem_append.1 ht with ht | ht
    · exact ⟨t1, by simp [ht], h1⟩
    · rcases List.mem_cons.1 ht with rfl | ht
      · refine ⟨(op :: ops, t), by simp, ?_⟩
        rw [alone_cons_ok h]
        exact h1
      · exact ⟨t1, by simp [ht], h1⟩
  | @exit pre post op ops t h => exact ⟨(op :: ops, t), by simp, .inl ⟨rfl, by rw [alone, h]; rfl⟩⟩
  | @exception pre post op ops t h => exact ⟨(op :: ops, t), by simp, .inr (.inl ⟨rfl, by rw [alone, h]; rfl⟩)⟩
  | @ub pre post op ops t h => exact ⟨(op :: ops, t), by simp, .inr (.inr ⟨rfl, by rw [alone, h]; rfl⟩)⟩

end

section
variable {W : Type} [LinearOrder W] [Zero W] {N : Type}

/-- The thread for a section: `Transducer::minimize` (transducer.cc:396-404). -/
def sectionThread (t : Transducer W) : Thread (Transducer W) :=
  (if t.finals.isEmpty then [] else [reverse 0, determinize 0, reverse 0, determinize 0], t)

theorem alone_section (t : Transducer W) : alone (sectionThread t).1 (sectionThread t).2 = minimize 0 t := by
  unfold sectionThread minimize
  split
  · rfl
  · simp only [alone]
    cases reverse 0 t with
    | ok t1 =>
      simp only [Res.bind_ok]
      cases determinize 0 t1 with
      | ok t2 =>
        simp only [Res.bind_ok]
        cases reverse 0 t2 with
        | ok t3 =>
          simp only [Res.bind_ok]
          cases determinize 0 t3 <;> rfl
        | _ => rfl
      | _ => rfl
    | _ => rfl

theorem minimizeAll_ok (secs : List (UString × Sec N W)) (us : List (UString × Transducer W)) :
    minimizeAll secs = .ok us ↔ List.Forall₂ (fun x u => x.1 = u.1 ∧ minimize 0 x.2.t = .ok u.2) secs us := by
  induction secs generalizing us with
  | nil =>
    constructor
    · intro h; cases h; exact .nil
    · intro h; cases h; rfl
  | cons x secs ih =>
    obtain ⟨k, x⟩ := x
    rw [minimizeAll]
    constructor
    · intro h
      obtain ⟨t, h1, h⟩ := Res.bind_eq_ok.1 h
      obtain ⟨ts, h2, h⟩ := Res.bind_eq_ok.1 h
      cases h
      exact .cons ⟨rfl, h1⟩ ((ih ts).1 h2)
    · intro h
      cases h with
      | @cons _ u _ us h1 h2 =>
        obtain ⟨k', t⟩ := u
        obtain ⟨rfl, h1⟩ := h1
        rw [h1, Res.bind_ok, (ih us).2 h2]
        rfl

end

end Verif.Compiler
