import Verif.Print.Props
import Verif.Transducer.Check
import Verif.Transducer.PropsDet

/-! # Minimised transducers, examples, and what does not hold -/

namespace Verif.Print

open Verif.Fst Verif.Att

/-- **C76** Minimised transducers, which are what compilers write, have 0 as their initial state, and `lt-print` begins with one of its lines. -/
theorem C76_minimized {W : Type} [AddMonoid W] [LinearOrder W] {t t' : Transducer W} (h : WF t) (hf : t.finals ≠ []) (hw : NoLoneWeight t)
    (hm : minimize 0 t = .ok t') : t'.initial = 0 ∧ Leads t' := by
  have huse := fun q hq => C29_all_states_useful h 0 hf hw hm q hq
  have hwf : WF t' := by
    by_cases hne : ∃ w, Lang 0 t w
    · obtain ⟨t2, h1, h2, -⟩ := (C29_minimize_partial h 0 hf hw).1 hne
      rw [hm] at h1
      cases h1
      exact h2
    · rw [(C29_minimize_partial h 0 hf hw).2 hne] at hm
      cases hm
  have hi : t'.initial = 0 := by
    unfold minimize at hm
    rw [if_neg (by simpa using hf)] at hm
    obtain ⟨t1, -, hm⟩ := Res.bind_eq_ok.1 hm
    obtain ⟨t2, -, hm⟩ := Res.bind_eq_ok.1 hm
    obtain ⟨t3, -, hm⟩ := Res.bind_eq_ok.1 hm
    unfold determinize at hm
    obtain ⟨cl, -, hm⟩ := Res.bind_eq_ok.1 hm
    split at hm
    · cases hm
      rfl
    · cases hm
  refine ⟨hi, ?_⟩
  by_cases he : ∃ l p, Edge t' 0 l p
  · exact .inl he
  · have hno : ∀ ls q, Path (Edge t') 0 ls q → q = 0 := by
      intro ls q hp
      cases hp with
      | nil => rfl
      | cons h1 _ => exact absurd ⟨_, _, h1⟩ he
    refine .inr ⟨fun q l p hq => ?_, ?_⟩
    · obtain ⟨⟨ls, hp⟩, -⟩ := huse q (hwf.source_lt hq)
      rw [hi] at hp
      rw [hno _ _ hp] at hq
      exact he ⟨_, _, hq⟩
    · obtain ⟨-, w, ls, p, fw, hp, hfin, -⟩ := huse 0 (hi ▸ hwf.initial_lt)
      exact ⟨fw, hno _ _ hp ▸ hfin⟩

/-! ## Examples -/

theorem printable_of {W : Type} [DecidableEq W] {σ : Setting W} {fmt : W → UString} {a : Alphabet} {t : Transducer W} (h : checkWF t = true) (hi : t.initial = 0) (hf : t.finals ≠ [])
    (hs : ∀ r ∈ arcsOf t.transitions, ∃ x y n m, a.decode r.2.1 = .ok (x, y) ∧ Named a x n ∧ Writable σ.hfstSymbols n ∧ Named a y m ∧ Writable σ.hfstSymbols m ∧
      Kept σ fmt r.2.2.2) (hw : ∀ e ∈ t.finals, Kept σ fmt e.2) : Printable σ fmt a t where
  wf := wf_of_check h
  coded q l p he := by
    obtain ⟨x, y, n, m, h1, -⟩ := hs _ ((edge_iff_arcs h q l p).1 he)
    exact ⟨_, h1⟩
  names := by
    rintro q l p ⟨c, hc, he⟩
    obtain ⟨x, y, n, m, h1, h2, h3, h4, h5, -⟩ := hs _ ((edge_iff_arcs h q _ p).1 he)
    simp only at h1
    rw [hc] at h1
    cases l with
    | mk l w =>
      cases h1
      exact ⟨⟨n, h2, h3⟩, m, h4, h5⟩
  finals := hf
  initial := hi
  arcWeight q l p he := by
    obtain ⟨x, y, n, m, -, -, -, -, -, h6⟩ := hs _ ((edge_iff_arcs h q l p).1 he)
    exact h6
  finalWeight p w hp := hw _ hp

/-- A weight as one digit. -/
def digit (n : Nat) : UString := [UInt16.ofNat (0x30 + n)]

theorem kept_digit {n : Nat} (h : n < 10) : Kept (natSetting false) digit n := by
  have : ∀ n < 10, (natSetting false).stod (digit n) = some n ∧ ∀ u ∈ digit n, u ≠ 0x09 ∧ u ≠ 0x0a ∧ u ≠ 0xffff := by decide
  exact this n h

/-- The pairs (a,a), (b,b), (a,<n>) and (ε,ε), with the letter ε. -/
def alpha : Alphabet where
  slexic := [(str "<n>", -1)]
  slexicinv := [str "<n>"]
  spair := [(toLex (0, 0), 0), (toLex (0x61, -1), 3), (toLex (0x61, 0x61), 1), (toLex (0x62, 0x62), 2), (toLex (0x3b5, 0x3b5), 4)]
  spairinv := [(0, 0), (0x61, 0x61), (0x62, 0x62), (0x61, -1), (0x3b5, 0x3b5)]

def one : Transducer Nat := { initial := 0, finals := [(0, 0), (1, 2)], transitions := [(0, [(3, (1, 3))]), (1, [(0, (0, 1))])] }
def two : Transducer Nat := { initial := 0, finals := [(1, 0)], transitions := [(0, [(2, (1, 0))]), (1, [])] }

theorem letter_ok {c : Nat} (h1 : Scalar c) (h2 : c ≠ 0x0a ∧ c ≠ 0xffff ∧ c ≠ 0x09 ∧ c ≠ 0x3b5) : Writable false (.letter c) :=
  .inr ⟨c, rfl, h1, h2.1, h2.2.1, fun _ => ⟨h2.2.2.1, h2.2.2.2⟩⟩

theorem tag_ok : Writable false (.tag (str "<n>")) := ⟨⟨[0x6e], rfl⟩, by unfold Column; decide, by decide⟩

theorem one_ok : Printable (natSetting false) digit alpha one := by
  refine printable_of (by decide) rfl (by decide) ?_ ?_
  · intro r hr
    have hr : r = (0, 3, 1, 3) ∨ r = (1, 0, 0, 1) := by simpa [arcsOf, one] using hr
    rcases hr with rfl | rfl
    · exact ⟨_, _, _, _, rfl, .inl ⟨by decide, rfl⟩, letter_ok (c := 0x61) (by simp [Scalar]) (by decide), .inr ⟨by decide, _, rfl, rfl⟩, tag_ok, kept_digit (by decide)⟩
    · exact ⟨_, _, _, _, rfl, .inl ⟨by decide, rfl⟩, .inl rfl, .inl ⟨by decide, rfl⟩, .inl rfl, kept_digit (by decide)⟩
  · intro e he
    simp only [one, List.mem_cons, List.not_mem_nil, or_false] at he
    rcases he with rfl | rfl <;> exact kept_digit (by decide)

theorem two_ok : Printable (natSetting false) digit alpha two := by
  refine printable_of (by decide) rfl (by decide) ?_ ?_
  · intro r hr
    have hr : r = (0, 2, 1, 0) := by simpa [arcsOf, two] using hr
    subst hr
    exact ⟨_, _, _, _, rfl, .inl ⟨by decide, rfl⟩, letter_ok (c := 0x62) (by simp [Scalar]) (by decide), .inl ⟨by decide, rfl⟩, letter_ok (c := 0x62) (by simp [Scalar]) (by decide),
      kept_digit (by decide)⟩
  · intro e he
    simp only [two, List.mem_cons, List.not_mem_nil, or_false] at he
    subst he
    exact kept_digit (by decide)

theorem oneArc_of {a : Alphabet} {t : Transducer Nat} (h : checkWF t = true)
    (hk : ∀ r ∈ arcsOf t.transitions, ∀ r' ∈ arcsOf t.transitions, r.1 = r'.1 → r.2.2.1 = r'.2.2.1 → r.2.2.2 = r'.2.2.2) : OneArc a t := by
  rintro q l w v p ⟨x, y, ⟨c, -, he⟩, -⟩ ⟨x', y', ⟨c', -, he'⟩, -⟩
  exact hk _ ((edge_iff_arcs h _ _ _).1 he) _ ((edge_iff_arcs h _ _ _).1 he') rfl rfl

/-- The hypotheses of `C76_print` and `C76_roundtrip` hold of these two transducers. -/
example : alpha.decode 0 = .ok (0, 0) ∧ Kept (natSetting false) digit 0 ∧ (∀ e ∈ [(str "a", one), (str "b", two)], Printable (natSetting false) digit alpha e.2 ∧ Leads e.2 ∧ OneArc alpha e.2) ∧
    ([(str "a", one), (str "b", two)].map fun e => size e.2 + 1).sum < 2 ^ 31 := by
  refine ⟨rfl, kept_digit (by decide), ?_, by decide⟩
  intro e he
  simp only [List.mem_cons, List.not_mem_nil, or_false] at he
  rcases he with rfl | rfl
  · exact ⟨one_ok, .inl ⟨(3, 3), 1, (edge_iff_arcs (by decide) _ _ _).2 (by decide)⟩, oneArc_of (by decide) (by decide)⟩
  · exact ⟨two_ok, .inl ⟨(2, 0), 1, (edge_iff_arcs (by decide) _ _ _).2 (by decide)⟩, oneArc_of (by decide) (by decide)⟩

/-- The result is this text. -/
def gives (r : Res UString) (s : String) : Bool :=
  match r with
  | .ok t => decide (t = str s)
  | _ => false

example : gives (printSet digit false alpha [(str "a", one), (str "b", two)])
    "0\t2\tε\tε\t0\n0\t1\ta\t<n>\t3\n1\t0\tε\tε\t1\n1\t2\tε\tε\t2\n2\t0\n--\n0\t1\tb\tb\t0\n1\t0\n" = true := by decide +kernel

example : gives (printSet digit true alpha [(str "b", two), (str "a", one)])
    "0\t1\tb\tb\t0\n1\t0\n--\n0\t2\t@0@\t@0@\t0\n0\t1\ta\t<n>\t3\n1\t0\t@0@\t@0@\t1\n1\t2\t@0@\t@0@\t2\n2\t0\n" = true := by decide +kernel

/-! ## What does not hold -/

/-- What `lt-comp` makes of what `lt-print` writes. -/
def again (es : List (UString × Transducer Nat)) : Res (Alphabet × Transducer Nat × Option (Transducer Nat)) := do
  let text ← printSet digit false alpha es
  compileText (natSetting false) text

/-- The result is a transducer that passes a test. -/
def passes (r : Res (Alphabet × Transducer Nat × Option (Transducer Nat))) (f : Alphabet → Transducer Nat → Bool) : Bool :=
  match r with
  | .ok (b, t, none) => f b t
  | _ => false

theorem passes_iff {r : Res (Alphabet × Transducer Nat × Option (Transducer Nat))} {f : Alphabet → Transducer Nat → Bool} (h : passes r f = true) :
    ∃ b t, r = .ok (b, t, none) ∧ f b t = true := by
  unfold passes at h
  split at h
  · exact ⟨_, _, rfl, h⟩
  · cases h

/-- All paths to final states end with the letter `c`. -/
def endsWith (code : Int) (t : Transducer Nat) : Bool :=
  checkWF t && t.finals.all fun e => decide (e.1 ≠ t.initial) && (arcsOf t.transitions).all fun r => decide (r.2.2.1 ≠ e.1) || decide (r.2.1 = code)

/-- No path has a label but the empty one. -/
def silent (t : Transducer Nat) : Bool := checkWF t && (arcsOf t.transitions).all fun r => decide (r.2.1 = 0)

theorem silent_relates {b : Alphabet} {t : Transducer Nat} (h : silent t = true) (h0 : b.decode 0 = .ok (0, 0)) {X Y : List Name} {w : Nat} (hr : NamesRelate b t X Y w) :
    X = [] := by
  unfold silent at h
  rw [Bool.and_eq_true, List.all_eq_true] at h
  obtain ⟨ls, fw, ⟨p, hp, -⟩, rfl, -⟩ := hr
  rw [List.filter_eq_nil_iff]
  have key : ∀ q, Path (NamedEdge b t) q ls p → ∀ l ∈ ls, l.1.1 = .letter 0 := by
    clear hp
    intro q hp
    induction hp with
    | nil => simp
    | cons he _ ih =>
      intro l hl
      rcases List.mem_cons.1 hl with rfl | hl
      · obtain ⟨x, y, ⟨c, hc, he⟩, hx, -⟩ := he
        have hc0 := h.2 _ ((edge_iff_arcs h.1 _ _ _).1 he)
        simp only [decide_eq_true_eq] at hc0
        rw [hc0, h0] at hc
        cases hc
        exact named_zero.1 hx
      · exact ih l hl
  intro n hn
  obtain ⟨l, hl, rfl⟩ := List.mem_map.1 hn
  simpa using key _ hp l hl

theorem endsWith_relates {b : Alphabet} {t : Transducer Nat} {code : Int} (h : endsWith code t = true) {x y : Int} (hd : b.decode code = .ok (x, y)) (hx : 0 < x) {X Y : List Name} {w : Nat}
    (hr : NamesRelate b t X Y w) : X ≠ [] := by
  unfold endsWith at h
  rw [Bool.and_eq_true, List.all_eq_true] at h
  obtain ⟨ls, fw, ⟨p, hp, hf⟩, rfl, -⟩ := hr
  have hf' := h.2 _ hf
  rw [Bool.and_eq_true, List.all_eq_true, decide_eq_true_eq] at hf'
  have key : ∀ q, q ≠ p → Path (NamedEdge b t) q ls p → ∃ l ∈ ls, l.1.1 = .letter x := by
    clear hp hf
    intro q hq hp
    induction hp with
    | nil => exact absurd rfl hq
    | @cons q r p l ls he _ ih =>
      by_cases hr : r = p
      · obtain ⟨x', y', ⟨c, hc, he⟩, hx', -⟩ := he
        have := hf'.2 _ ((edge_iff_arcs h.1 _ _ _).1 he)
        simp only [hr, ne_eq, not_true_eq_false, decide_false, Bool.false_or, decide_eq_true_eq] at this
        rw [this, hd] at hc
        cases hc
        rcases hx' with ⟨-, hx'⟩ | ⟨hx', -⟩
        · exact ⟨_, by simp, hx'⟩
        · omega
      · obtain ⟨l, hl, e⟩ := ih hf' hr
        exact ⟨l, by simp [hl], e⟩
  obtain ⟨l, hl, e⟩ := key _ (Ne.symm hf'.1) hp
  intro hnil
  rw [List.filter_eq_nil_iff] at hnil
  have := hnil _ (List.mem_map.2 ⟨l, hl, rfl⟩)
  rw [e] at this
  simp at this
  omega

/-- The initial state is 1. -/
def late : Transducer Nat := { initial := 1, finals := [(0, 0)], transitions := [(0, []), (1, [(1, (0, 0))])] }

/-- **C76** A transducer with another initial state than 0 is not the same after `lt-print` and `lt-comp`: the initial state is not written. -/
theorem C76_start_false : ∃ b t, again [(str "a", late)] = .ok (b, t, none) ∧ NamesRelate alpha late [.letter 0x61] [.letter 0x61] 0 ∧ ∀ v, ¬ NamesRelate b t [.letter 0x61] [.letter 0x61] v := by
  have h : passes (again [(str "a", late)]) (fun b t => silent t && decide (b.decode 0 = .ok (0, 0))) = true := by decide +kernel
  obtain ⟨b, t, e, h⟩ := passes_iff h
  rw [Bool.and_eq_true, decide_eq_true_eq] at h
  refine ⟨b, t, e, ?_, ?_⟩
  · refine ⟨[((.letter 0x61, .letter 0x61), 0)], 0, ⟨0, .single ⟨0x61, 0x61, ⟨1, rfl, (edge_iff_arcs (by decide) _ _ _).2 (by decide)⟩, .inl ⟨by decide, rfl⟩, .inl ⟨by decide, rfl⟩⟩, List.mem_cons_self⟩, rfl, rfl, rfl⟩
  · intro v hr
    exact absurd (silent_relates h.1 h.2 hr) (by simp)

/-- The letter ε. -/
def eps : Transducer Nat := { initial := 0, finals := [(1, 0)], transitions := [(0, [(4, (1, 0))]), (1, [])] }

/-- **C76** Without the option for HFST the letter ε becomes nothing. -/
theorem C76_epsilon_false : ∃ b t, again [(str "a", eps)] = .ok (b, t, none) ∧ NamesRelate alpha eps [.letter 0x3b5] [.letter 0x3b5] 0 ∧ ∀ v, ¬ NamesRelate b t [.letter 0x3b5] [.letter 0x3b5] v := by
  have h : passes (again [(str "a", eps)]) (fun b t => silent t && decide (b.decode 0 = .ok (0, 0))) = true := by decide +kernel
  obtain ⟨b, t, e, h⟩ := passes_iff h
  rw [Bool.and_eq_true, decide_eq_true_eq] at h
  refine ⟨b, t, e, ?_, ?_⟩
  · refine ⟨[((.letter 0x3b5, .letter 0x3b5), 0)], 0, ⟨1, .single ⟨0x3b5, 0x3b5, ⟨4, rfl, (edge_iff_arcs (by decide) _ _ _).2 (by decide)⟩, .inl ⟨by decide, rfl⟩, .inl ⟨by decide, rfl⟩⟩, List.mem_cons_self⟩, rfl, rfl, rfl⟩
  · intro v hr
    exact absurd (silent_relates h.1 h.2 hr) (by simp)

/-- The initial state is final, and the only arc cannot be reached. -/
def idle : Transducer Nat := { initial := 0, finals := [(0, 0)], transitions := [(0, []), (1, [(1, (2, 0))]), (2, [])] }

/-- **C76** In a file with several transducers the first line must be one of the initial state. -/
theorem C76_leads_false : ∃ b t, again [(str "a", two), (str "b", idle)] = .ok (b, t, none) ∧ NamesRelate alpha idle [] [] 0 ∧ ∀ v, ¬ NamesRelate b t [] [] v := by
  have h : passes (again [(str "a", two), (str "b", idle)]) (fun b t => endsWith 1 t && decide (b.decode 1 = .ok (0x62, 0x62))) = true := by decide +kernel
  obtain ⟨b, t, e, h⟩ := passes_iff h
  rw [Bool.and_eq_true, decide_eq_true_eq] at h
  refine ⟨b, t, e, ?_, ?_⟩
  · exact ⟨[], 0, ⟨0, .nil 0, List.mem_cons_self⟩, rfl, rfl, rfl⟩
  · intro v hr
    exact absurd rfl (endsWith_relates h.1 h.2 (by decide) hr)

end Verif.Print
