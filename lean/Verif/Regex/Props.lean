import Verif.Regex.Compile
import Verif.Labels.Props
import Mathlib.Algebra.BigOperators.Group.List.Basic

/-! # Properties of the compiler of regular expressions (C47) -/

namespace Verif.Regex

open Verif.Fst Verif.Alphabet

variable {W : Type} [AddMonoid W] [DecidableEq W]

/-! ## From labels to strings -/

theorem aok_reachable {a : Alphabet} (h : Reachable a) : AOk a := by
  have h0 : HasPair Alphabet.empty 0 (0, 0) := decode_iff.1 (by rfl)
  exact ⟨h.ok, h0.mono (later_spec h ok_empty).2⟩

theorem good_initialise {a : Alphabet} (h : AOk a) (er : List Int) :
    Good ({ (initialise a : St W) with input := er, state := (initialise a : St W).transducer.initial } : St W) where
  wf := wf_of_check (by rfl)
  state_lt := by show 0 < 1; omega
  noIn := by
    intro ls h
    cases ls with
    | nil => rfl
    | cons l ls =>
      obtain ⟨r, he, hp⟩ := path_cons_iff.1 h
      have := (edge_iff_arcs (t := (Fst.empty : Transducer W)) (by rfl) _ _ _).1 he
      simp [arcsOf, Fst.empty, newState, mapSet] at this
  aok := h
  postop := rfl
  brackets := rfl
  finals := rfl

open Classical in
/-- The codes of the identity pairs of an alphabet. -/
noncomputable def idCode (a : Alphabet) (c : Int) : Int := if h : ∃ x, HasPair a x (c, c) then h.choose else 0

theorem idCode_agrees {a : Alphabet} (h : Ok a) : Agrees (idCode a) a := by
  intro c x hx
  have he : ∃ x, HasPair a x (c, c) := ⟨x, hx⟩
  unfold idCode
  rw [dif_pos he]
  exact hx.code_unique h he.choose_spec

theorem idCode_has {a : Alphabet} {c : Int} (h : ∃ x, HasPair a x (c, c)) : HasPair a (idCode a c) (c, c) := by
  unfold idCode; rw [dif_pos h]; exact h.choose_spec

/-- A path of pairs comes from a path of labels. -/
theorem path_labels {a : Alphabet} {t : Transducer W} {q p : Nat} {ls : List (Pair × W)} (h : Path (PairEdge a t) q ls p) :
    ∃ cs : List (Int × W), Path (Edge t) q cs p ∧ List.Forall₂ (fun c l => a.decode c.1 = .ok l.1 ∧ c.2 = l.2) cs ls := by
  induction h with
  | nil q => exact ⟨[], .nil q, .nil⟩
  | cons he _ ih =>
    obtain ⟨c, h1, h2⟩ := he
    obtain ⟨cs, k1, k2⟩ := ih
    exact ⟨_ :: cs, .cons h2 k1, .cons ⟨h1, rfl⟩ k2⟩

/-- A word over identity pairs, seen from its labels. -/
theorem decode_word {a : Alphabet} (ha : AOk a) {u : List Int} (hu : ∀ c ∈ u, c ≠ 0 ∧ ∃ x, HasPair a x (c, c)) :
    ∀ {cs : List (Int × W)} {ls : List (Pair × W)}, List.Forall₂ (fun c l => a.decode c.1 = .ok l.1 ∧ c.2 = l.2) cs ls →
      visible 0 cs = enc (idCode a) u →
      u = (ls.map (·.1.1)).filter (· ≠ 0) ∧ u = (ls.map (·.1.2)).filter (· ≠ 0) ∧ (ls.map (·.2)).sum = 0 := by
  intro cs ls h
  induction h generalizing u with
  | nil =>
    intro h
    cases u with
    | nil => simp
    | cons c u => simp [visible, enc] at h
  | @cons c l cs ls hcl _ ih =>
    intro h
    obtain ⟨c1, c2⟩ := c
    obtain ⟨⟨l1, l2⟩, l3⟩ := l
    obtain ⟨h1, h2⟩ := hcl
    simp only at h1 h2
    subst h2
    by_cases hc : (c1, c2) = ((0, 0) : Int × W)
    · rw [hc] at h
      have h' : visible 0 cs = enc (idCode a) u := by simpa [visible] using h
      obtain ⟨i1, i2, i3⟩ := ih hu h'
      simp only [Prod.mk.injEq] at hc
      obtain ⟨rfl, rfl⟩ := hc
      rw [decode_iff] at h1
      have := h1.pair_unique ha.eps
      simp only [Prod.mk.injEq] at this
      obtain ⟨rfl, rfl⟩ := this
      refine ⟨?_, ?_, ?_⟩
      · simpa using i1
      · simpa using i2
      · simpa using i3
    · have h' : (c1, c2) :: visible 0 cs = enc (idCode a) u := by
        rw [← h]; simp only [visible, List.filter_cons]; simp [hc]
      cases u with
      | nil => simp [enc] at h'
      | cons d u =>
        simp only [enc, List.map_cons, List.cons.injEq, Prod.mk.injEq] at h'
        obtain ⟨⟨rfl, rfl⟩, h'⟩ := h'
        have hd := hu d (by simp)
        obtain ⟨i1, i2, i3⟩ := ih (u := u) (fun c hc => hu c (by simp [hc])) h'
        rw [decode_iff] at h1
        have := h1.pair_unique (idCode_has hd.2)
        simp only [Prod.mk.injEq] at this
        obtain ⟨rfl, rfl⟩ := this
        refine ⟨?_, ?_, ?_⟩
        · simpa [hd.1] using i1
        · simpa [hd.1] using i2
        · simpa using i3

/-- A path of labels decodes if the visible ones do. -/
theorem path_decode {a : Alphabet} (ha : AOk a) {t : Transducer W} {u : List Int} (hu : ∀ c ∈ u, c ≠ 0 ∧ ∃ x, HasPair a x (c, c))
    {q p : Nat} {cs : List (Int × W)} (h : Path (Edge t) q cs p) (hv : visible 0 cs = enc (idCode a) u) :
    ∃ ls : List (Pair × W), Path (PairEdge a t) q ls p ∧ List.Forall₂ (fun c l => a.decode c.1 = .ok l.1 ∧ c.2 = l.2) cs ls := by
  induction h generalizing u with
  | nil q => exact ⟨[], .nil q, .nil⟩
  | @cons q r p c cs he _ ih =>
    obtain ⟨c1, c2⟩ := c
    by_cases hc : (c1, c2) = ((0, 0) : Int × W)
    · rw [hc] at hv
      obtain ⟨ls, k1, k2⟩ := ih hu (by simpa [visible] using hv)
      simp only [Prod.mk.injEq] at hc
      obtain ⟨rfl, rfl⟩ := hc
      have hd := decode_iff.2 ha.eps
      exact ⟨((0, 0), 0) :: ls, .cons ⟨0, hd, he⟩ k1, .cons ⟨hd, rfl⟩ k2⟩
    · have h' : (c1, c2) :: visible 0 cs = enc (idCode a) u := by
        rw [← hv]; simp only [visible, List.filter_cons]; simp [hc]
      cases u with
      | nil => simp [enc] at h'
      | cons d u =>
        simp only [enc, List.map_cons, List.cons.injEq, Prod.mk.injEq] at h'
        obtain ⟨⟨rfl, rfl⟩, h'⟩ := h'
        have hd := hu d (by simp)
        obtain ⟨ls, k1, k2⟩ := ih (u := u) (fun c hc => hu c (by simp [hc])) h'
        have hdec := decode_iff.2 (idCode_has hd.2)
        exact ⟨((d, d), 0) :: ls, .cons ⟨_, hdec, he⟩ k1, .cons ⟨hdec, rfl⟩ k2⟩

/-- The relation of the finished transducer. -/
theorem Whole.relates {L : List Int → Prop} {s s' : St W} (h : Whole L s s') (xs ys : List Int) (w : W) :
    Relates s'.alphabet (setFinal s'.state 0 true s'.transducer) xs ys w ↔ xs = ys ∧ L xs ∧ w = 0 := by
  have ha := h.good.aok
  have hl := h.lang (idCode s'.alphabet) (idCode_agrees ha.ok)
  have hf : (setFinal s'.state 0 true s'.transducer).finals = [(s'.state, (0 : W))] := by
    show mapInsert s'.state 0 s'.transducer.finals = _
    rw [h.good.finals]; rfl
  constructor
  · rintro ⟨ls, fw, ⟨p, h1, h2⟩, h3, h4, h5⟩
    have h2' : (p, fw) ∈ (setFinal s'.state 0 true s'.transducer).finals := h2
    rw [hf] at h2'
    simp only [List.mem_singleton, Prod.mk.injEq] at h2'
    obtain ⟨rfl, rfl⟩ := h2'
    obtain ⟨cs, k1, k2⟩ := path_labels h1
    obtain ⟨u, g1, g2⟩ := (hl (visible 0 cs)).1 ⟨cs, k1, rfl⟩
    obtain ⟨i1, i2, i3⟩ := decode_word ha (h.letters u g1) k2 g2
    rw [← i1] at h3
    rw [← i2] at h4
    rw [i3, zero_add] at h5
    subst h3; subst h4
    exact ⟨rfl, g1, h5⟩
  · rintro ⟨rfl, hL, rfl⟩
    obtain ⟨cs, k1, k2⟩ := (hl _).2 ⟨xs, hL, rfl⟩
    obtain ⟨ls, g1, g2⟩ := path_decode ha (h.letters xs hL) k1 k2.symm
    obtain ⟨i1, i2, i3⟩ := decode_word ha (h.letters xs hL) g2 k2.symm
    exact ⟨ls, 0, ⟨s'.state, g1, by show _ ∈ (setFinal s'.state 0 true s'.transducer).finals; rw [hf]; simp⟩, i1, i2, by rw [i3]; simp⟩

/-! ## C47 -/

/-- **C47** A well-formed expression compiles, with any alphabet, to a transducer that relates every string the
expression denotes to itself, with weight 0, and no other strings. The members of a negated class are those that
the compiler gives it; see `C47_plain` and `C47_negated_false`. -/
theorem C47_language_partial (a : Alphabet) (ha : Reachable a) (e : Alt) (he : e.Valid) :
    ∃ s' : St W, compile e.print (initialise a) = .ok s' ∧
      ∀ xs ys w, Relates s'.alphabet s'.transducer xs ys w ↔ xs = ys ∧ e.Means latinOthers xs ∧ w = 0 := by
  have hst := alt_starts e []
  rw [List.append_nil] at hst
  obtain ⟨s1, h1, -, h3⟩ := alt_ok (W := W) e (4 * e.print.length + 3) _ [] (good_initialise (aok_reachable ha) e.print) rfl he
    (by simp) (.inl rfl) (by simp)
  refine ⟨{ s1 with transducer := setFinal s1.state 0 true s1.transducer }, ?_, fun xs ys w => h3.relates xs ys w⟩
  unfold compile
  split
  · next h => rw [h] at hst; exact absurd hst (by decide)
  · simp only
    rw [S, if_pos (by exact hst), h1]
    rfl

mutual
theorem Term.plain (T : Term) (h : T.Plain) (N M : List Item → Int → Prop) (u : List Int) : T.Means N u ↔ T.Means M u := by
  cases T with
  | letter c p => simp only [Term.Means]
  | cls neg items p =>
    simp only [Term.Plain] at h
    subst h
    simp only [Term.Means, Bool.false_eq_true, if_false]
  | group e p =>
    simp only [Term.Means]
    have : Alt.Means N e = Alt.Means M e := funext fun v => propext (Alt.plain e h N M v)
    rw [this]
theorem Seq.plain (Q : Seq) (h : Q.Plain) (N M : List Item → Int → Prop) (u : List Int) : Q.Means N u ↔ Q.Means M u := by
  cases Q with
  | one t => exact Term.plain t h N M u
  | more t s =>
    simp only [Seq.Means]
    simp only [Term.plain t h.1 N M, Seq.plain s h.2 N M]
theorem Alt.plain (A : Alt) (h : A.Plain) (N M : List Item → Int → Prop) (u : List Int) : A.Means N u ↔ A.Means M u := by
  cases A with
  | one s => exact Seq.plain s h N M u
  | more s a =>
    simp only [Alt.Means]
    rw [Seq.plain s h.1 N M, Alt.plain a h.2 N M]
end

/-- **C47** Without negated classes it is the usual meaning, whichever way negation is read. -/
theorem C47_plain (a : Alphabet) (ha : Reachable a) (e : Alt) (he : e.Valid) (hp : e.Plain) :
    ∃ s' : St W, compile e.print (initialise a) = .ok s' ∧
      ∀ xs ys w, Relates s'.alphabet s'.transducer xs ys w ↔ xs = ys ∧ e.Means allOthers xs ∧ w = 0 := by
  obtain ⟨s', h1, h2⟩ := C47_language_partial (W := W) a ha e he
  refine ⟨s', h1, fun xs ys w => ?_⟩
  rw [h2, e.plain hp latinOthers allOthers]

/-- **C47** What is not refused starts with a well-formed expression that is followed by the end, by a closing
parenthesis or by the number that stands for the end; the transducer is the one of that expression. -/
theorem C47_accepted_partial (a : Alphabet) (ha : Reachable a) (er : List Int) (s' : St W) (h : compile er (initialise a) = .ok s') :
    ∃ (e : Alt) (rest : List Int), e.Valid ∧ er = e.print ++ rest ∧ (rest = [] ∨ rest.head? = some 41 ∨ rest.head? = some fin) ∧
      ∀ xs ys w, Relates s'.alphabet s'.transducer xs ys w ↔ xs = ys ∧ e.Means latinOthers xs ∧ w = 0 := by
  unfold compile at h
  split at h
  · cases h
  · simp only at h
    rcases (out_all (W := W) (4 * er.length + 4)).2.2.2 _ (good_initialise (aok_reachable ha) er) rfl (le_refl _) with
      ⟨s1, h1, h2, A, h3, h4, h5⟩ | h1 | ⟨h1, -⟩
    · rw [h1, Res.bind_ok] at h
      have h' := Res.ok.inj h
      subst h'
      refine ⟨A, s1.input, h3, h4, ?_, fun xs ys w => h5.relates xs ys w⟩
      cases hi : s1.input with
      | nil => exact .inl rfl
      | cons x r =>
        rw [hi] at h2
        rcases h2 with h2 | h2
        · right; right; exact congrArg some h2
        · right; left; exact congrArg some h2
    · rw [h1] at h; cases h
    · rw [h1] at h; cases h

/-- **C47** The compiler always ends, with a transducer or with a refusal, unless the input is empty, ends in a
backslash or contains the number that stands for the end. -/
theorem C47_outcomes (a : Alphabet) (ha : Reachable a) (er : List Int) (h0 : er ≠ []) (hb : er.getLast? ≠ some 92) (hf : fin ∉ er) :
    (∃ s' : St W, compile er (initialise a) = .ok s') ∨ compile (W := W) er (initialise a) = .exit := by
  unfold compile
  split
  · exact absurd rfl h0
  · simp only
    rcases (out_all (W := W) (4 * er.length + 4)).2.2.2 _ (good_initialise (aok_reachable ha) er) rfl (le_refl _) with
      ⟨s1, h1, -⟩ | h1 | ⟨-, h1⟩
    · left
      rw [h1]
      exact ⟨_, rfl⟩
    · right; rw [h1]; rfl
    · rcases h1 with h1 | h1
      · exact absurd h1 hb
      · exact absurd h1 hf

/-- **C47** Malformed input without a closing parenthesis is refused. -/
theorem C47_refused_partial (a : Alphabet) (ha : Reachable a) (er : List Int) (h0 : er ≠ []) (hb : er.getLast? ≠ some 92) (hf : fin ∉ er)
    (hn : ∀ (e : Alt) (rest : List Int), e.Valid → er = e.print ++ rest → rest ≠ [] ∧ rest.head? ≠ some 41) :
    compile (W := W) er (initialise a) = .exit := by
  rcases C47_outcomes (W := W) a ha er h0 hb hf with ⟨s', h⟩ | h
  · obtain ⟨e, rest, h1, h2, h3, -⟩ := C47_accepted_partial a ha er s' h
    obtain ⟨h4, h5⟩ := hn e rest h1 h2
    rcases h3 with h3 | h3 | h3
    · exact absurd h3 h4
    · exact absurd h3 h5
    · refine absurd ?_ hf
      rw [h2]
      refine List.mem_append_right _ ?_
      exact List.mem_of_mem_head? h3
  · exact h

/-! ## Examples and refutations -/

/-- `a(b|[c-e]x?)*\+` -/
def exampleExpr : Alt :=
  .one (.more (.letter 97 .none) (.more (.group (.more (.one (.letter 98 .none))
    (.one (.more (.cls false [.range 99 101] .none) (.one (.letter 120 .opt))))) .star) (.one (.letter 43 .none))))

example : exampleExpr.print = [97, 40, 98, 124, 91, 99, 45, 101, 93, 120, 63, 41, 42, 92, 43] := by decide

theorem exampleExpr_valid : exampleExpr.Valid := by
  refine ⟨trivial, ⟨trivial, ⟨?_, 99, ?_⟩, trivial⟩, trivial⟩
  · intro i hi
    simp only [List.mem_singleton] at hi
    subst hi
    exact ⟨by decide, by decide⟩
  · show Listed _ _
    exact ⟨_, List.mem_singleton.2 rfl, by decide, by decide⟩

/-- The hypotheses of `C47_language_partial` and `C47_plain` hold of it, and `abdx+` is one of its strings. -/
example : Reachable exAlpha ∧ exampleExpr.Valid ∧ exampleExpr.Plain ∧ exampleExpr.Means allOthers [97, 98, 100, 120, 43] := by
  refine ⟨exAlpha_reachable, exampleExpr_valid, ⟨trivial, ⟨trivial, rfl, trivial⟩, trivial⟩, ?_⟩
  refine ⟨[97], [98, 100, 120, 43], rfl, ⟨[98, 100, 120], [43], ⟨[[98], [100, 120]], ?_, rfl⟩, rfl, rfl⟩, rfl⟩
  intro w hw
  simp only [List.mem_cons, List.not_mem_nil, or_false] at hw
  rcases hw with rfl | rfl
  · exact .inl rfl
  · exact .inr ⟨[100], [120], ⟨100, ⟨_, List.mem_singleton.2 rfl, by decide, by decide⟩, rfl⟩, .inr rfl, rfl⟩

/-- `*a` is refused: it begins with no expression at all. -/
example : compile (W := Nat) [42, 97] (initialise exAlpha) = .exit := by
  refine C47_refused_partial _ exAlpha_reachable _ (by decide) (by decide) (by decide) ?_
  intro e rest _ h
  have := alt_starts e rest
  rw [← h] at this
  exact absurd this (by decide)

/-- `C47_outcomes` and `C47_accepted_partial` meet both outcomes. -/
example : (∃ s', compile (W := Nat) [97, 41, 98] (initialise exAlpha) = .ok s') ∧
    compile (W := Nat) [97, 124] (initialise exAlpha) = .exit := by
  exact ⟨⟨_, rfl⟩, rfl⟩

/-- `[^a]` -/
def notA : Alt := .one (.one (.cls true [.one 97] .none))

/-- **C47** does not hold of negated classes: `[^a]` accepts the empty string and does not accept the letter `ł`
(code 322), which is not `a`. -/
theorem C47_negated_false (a : Alphabet) (ha : Reachable a) : ∃ s' : St W, compile notA.print (initialise a) = .ok s' ∧
    Relates s'.alphabet s'.transducer [] [] 0 ∧ ¬ notA.Means allOthers [] ∧
    (∀ w, ¬ Relates s'.alphabet s'.transducer [322] [322] w) ∧ notA.Means allOthers [322] := by
  have hl : ∀ c, Listed [.one 97] c ↔ c = 97 := by
    intro c
    simp [Listed, Item.Has]
  have hv : notA.Valid := by
    refine ⟨?_, 98, ?_⟩
    · intro i hi
      simp only [List.mem_singleton] at hi
      subst hi
      show (97 : Int) ≠ fin
      decide
    · show latinOthers _ _
      refine ⟨by decide, by decide, ?_⟩
      rw [hl]; decide
  obtain ⟨s', h1, h2⟩ := C47_language_partial (W := W) a ha notA hv
  have m : ∀ N u, notA.Means N u ↔ ∃ c, N [.one 97] c ∧ u = sym c := by
    intro N u
    simp [notA, Alt.Means, Seq.Means, Term.Means, Post.Apply]
  refine ⟨s', h1, ?_, ?_, ?_, ?_⟩
  · rw [h2, m]
    exact ⟨rfl, ⟨0, ⟨by decide, by decide, by rw [hl]; decide⟩, rfl⟩, rfl⟩
  · rw [m]
    rintro ⟨c, ⟨h, -⟩, h'⟩
    simp [sym, h] at h'
  · intro w hw
    rw [h2, m] at hw
    obtain ⟨-, ⟨c, ⟨g1, g2, -⟩, g3⟩, -⟩ := hw
    unfold sym at g3
    split at g3
    · cases g3
    · simp only [List.cons.injEq, and_true] at g3
      omega
  · rw [m]
    exact ⟨322, ⟨by decide, by rw [hl]; decide⟩, rfl⟩

/-- **C47** Malformed input is not always refused: `a)(` compiles like `a`. -/
theorem C47_trailing_false : ∃ s' : St Nat, compile [97, 41, 40] (initialise Alphabet.empty) = .ok s' ∧
    ∀ xs ys w, Relates s'.alphabet s'.transducer xs ys w ↔ xs = ys ∧ xs = [97] ∧ w = 0 := by
  obtain ⟨s1, h1, -, h3⟩ : ∃ s1 : St Nat,
      (rExpr 15 ({ (initialise Alphabet.empty : St Nat) with input := [97, 41, 40], state := 0 } : St Nat) >>= cola 15) = .ok s1 ∧
        s1.input = [41, 40] ∧ Whole (Alt.Means latinOthers (.one (.one (.letter 97 .none)))) _ s1 :=
    alt_ok (.one (.one (.letter 97 .none))) 15 _ [41, 40] (good_initialise (W := Nat) (aok_reachable .refl) [97, 41, 40]) rfl trivial rfl
      (.inr rfl) (by decide)
  refine ⟨{ s1 with transducer := setFinal s1.state 0 true s1.transducer }, ?_, ?_⟩
  · unfold compile
    simp only
    show (S (15 + 1) ({ (initialise Alphabet.empty : St Nat) with input := [97, 41, 40], state := 0 } : St Nat) >>= _) = _
    rw [S, if_pos (by decide)]
    rw [h1]
    rfl
  · intro xs ys w
    refine (h3.relates xs ys w).trans ?_
    simp [Alt.Means, Seq.Means, Term.Means, Post.Apply, sym]

/-- **C47** Inputs for which the behaviour is undefined: the empty one and a lone backslash. -/
theorem C47_undefined_false : compile (W := Nat) [] (initialise Alphabet.empty) = .ub ∧
    compile (W := Nat) [97, 92] (initialise Alphabet.empty) = .ub := ⟨rfl, by rfl⟩

end Verif.Regex
