import Verif.Post.Same
import Verif.Post.Demo

/-! # Properties of postgeneration and transliteration -/

namespace Verif.Post

open Verif.State Verif.Stream Verif.Input Verif.Walk
open Verif.Proc (graphOf arcsOf mem_arcsOf path_up path_listed pathsFrom)
open Verif.Gen (demoName)

variable {W : Type}

/-- **C74** Whatever the dictionary, what the postgenerator writes for a file, if it comes to an end, are the segments of the file with their words
rewritten from left to right, by the longest entries, with NULs in between. -/
theorem C74_postgeneration [AddMonoid W] [LinearOrder W] {σ : Setting W} {name : Int → UString} (hr : Regular σ name) (hf : Few σ) {segs : List Seg} (hne : segs ≠ [])
    (hw : ∀ s ∈ segs, s.WF σ) (hc : ∀ s, segs.getLast? = some s → s.Closed) {n : Nat} {out : UString} (h : transliteration σ n (bytes (fileText segs)) = .ok out) :
    ∃ outs, List.Forall₂ (Seg.Out σ name) segs outs ∧ out = nulled outs :=
  transliteration_sound hr hf hne ⟨hw, hc⟩ h

/-- **C74** It comes to an end if no entry makes the text longer by as much as the search goes on, and then there is only one output. -/
theorem C74_ends [AddMonoid W] [LinearOrder W] {σ : Setting W} {name : Int → UString} (hr : Regular σ name) (hf : Few σ) (hst : Settles σ) {segs : List Seg} (hne : segs ≠ [])
    (hw : ∀ s ∈ segs, s.WF σ) (hc : ∀ s, segs.getLast? = some s → s.Closed) :
    ∃ outs, List.Forall₂ (Seg.Out σ name) segs outs ∧ ∃ N, ∀ n ≥ N, transliteration σ n (bytes (fileText segs)) = .ok (nulled outs) := by
  obtain ⟨N, out, h⟩ := transliteration_ends hr hf hst hne ⟨hw, hc⟩
  obtain ⟨outs, h1, rfl⟩ := transliteration_sound hr hf hne ⟨hw, hc⟩ (h N (Nat.le_refl _))
  exact ⟨outs, h1, N, h⟩

/-- **C74** In particular, if arcs that read nothing write nothing. -/
theorem C74_settles [AddMonoid W] [LinearOrder W] {σ : Setting W} (h : ∀ q l p, Arc σ.graph q l p → l.1 = 0 → l.2.2.1 = 0) : Settles σ := by
  rintro xs m ⟨w, ⟨ls, wr, ch, p, w0, hw, -, -, rfl⟩, -⟩
  have hlen : wr.length ≤ xs.length := by
    clear w0
    induction hw with
    | start => exact Nat.le_refl _
    | empty _ h0 ha ih => rw [if_pos (h _ _ _ ha h0)]; exact ih
    | read _ _ _ _ ih => simp only [List.length_append, List.length_singleton]; omega
  have hcap : ∀ zs, (capitalised σ zs).length = zs.length := by
    intro zs
    match zs with
    | [] => rfl
    | [x] => simp only [capitalised]; split <;> rfl
    | x :: y :: zs => simp only [capitalised]; split <;> rfl
  have hsh : (shown σ (upper σ xs) (first σ xs) ch (wr.map (·.1))).length ≤ wr.length := by
    have h1 : ((wr.map (·.1)).filter (· ≠ 0)).length ≤ wr.length := (List.length_filter_le _ _).trans (by rw [List.length_map])
    unfold shown
    simp only
    split
    · rw [hcap, List.length_map]; exact h1
    · rw [List.length_map]; exact h1
  omega

/-- **C74** A text of which no entry reads a part is not changed, if it is written with the least number of backslashes, has no tags that are not in
the alphabet and no `~` that would be removed. -/
theorem C74_unchanged [AddMonoid W] [LinearOrder W] {σ : Setting W} {name : Int → UString} (hr : Regular σ name) (hf : Few σ) {segs : List Seg} (hne : segs ≠ [])
    (hw : ∀ s ∈ segs, s.WF σ) (hc : ∀ s, segs.getLast? = some s → s.Closed) (hp : ∀ s ∈ segs, ∀ w ∈ s.words, ∀ p ∈ w.parts, p.Canonical σ)
    (hu : ∀ s ∈ segs, s.Untouched σ) {n : Nat} {out : UString} (h : transliteration σ n (bytes (fileText segs)) = .ok out) : out = enc (fileText segs) := by
  obtain ⟨outs, h1, rfl⟩ := transliteration_sound hr hf hne ⟨hw, hc⟩ h
  clear h hc hne
  have e0 : utf16 0 = [0] := by decide
  induction h1 with
  | nil => rfl
  | @cons s o ss outs h1 h2 ih =>
    have e := seg_same hr (hw s (by simp)) (hp s (by simp)) (hu s (by simp)) h1
    have ih := ih (fun s hs => hw s (by simp [hs])) (fun s hs => hp s (by simp [hs])) (fun s hs => hu s (by simp [hs]))
    cases h2 with
    | nil => simpa [nulled, fileText] using e
    | cons h3 h4 =>
      rw [nulled, fileText, ih, e]
      · simp [enc, e0]
      · simp
      · simp

/-- **C74** If some entry reads a part of a text, there is one with the least weight. -/
theorem C74_match [AddMonoid W] [LinearOrder W] {σ : Setting W} {name : Int → UString} (hr : Regular σ name) (hf : Few σ) {xs m : List Int} {w : W} (h : Entry σ xs m w) :
    ∃ m', Match σ xs m' := by
  have key : ∀ xs : List Int, ∃ st, Sound σ xs st := by
    intro xs
    induction xs using List.reverseRecOn with
    | nil =>
      obtain ⟨st, h1, -⟩ := init_comes hr
      exact ⟨st, h1⟩
    | append_singleton xs x ih =>
      obtain ⟨st, h1⟩ := ih
      obtain ⟨st', h2, -⟩ := step_comes hr hf h1 x
      exact ⟨st', h2⟩
  obtain ⟨st, h1⟩ := key xs
  exact (isFinal_match hr h1).1 ((isFinal_iff hr.finals h1).2 ⟨m, w, h⟩)

/-! ## Examples -/

/-- The output is `out`. -/
def writes (σ : Setting Nat) (n : Nat) (text : String) (out : List Nat) : Bool :=
  match transliteration σ n (bytes (text.toList.map Char.toNat)) with
  | .ok o => decide (o = out.map UInt16.ofNat)
  | _ => false

theorem demo_wf : ∀ s ∈ demoSegs, s.WF demo := by
  intro s hs
  simp only [demoSegs, List.mem_cons, List.not_mem_nil, or_false] at hs
  rcases hs with rfl | rfl
  · refine ⟨?_, by simp [Apart], by simp⟩
    simp only [List.forall_mem_cons, List.not_mem_nil, IsEmpty.forall_iff, implies_true, and_true]
    refine ⟨⟨?_, ?_, ?_, ?_, ?_, ?_⟩, ⟨?_, ?_, ?_, ?_, ?_, ?_⟩, ⟨?_, ?_, ?_, ?_, ?_, ?_⟩, ⟨?_, ?_, ?_, ?_, ?_, ?_⟩, ⟨?_, ?_, ?_, ?_, ?_, ?_⟩⟩
    all_goals simp [Piece.WF, Part.WF, Letter.WF, Scalar, Tok.Inside, WBody, Part.isGap, demo, setting]
  · refine ⟨?_, by simp [Apart], by simp [Piece.WF, Scalar, demo, setting]⟩
    simp only [List.forall_mem_cons, List.not_mem_nil, IsEmpty.forall_iff, implies_true, and_true]
    refine ⟨⟨?_, ?_, ?_, ?_, ?_, ?_⟩, ⟨?_, ?_, ?_, ?_, ?_, ?_⟩⟩
    all_goals simp [Piece.WF, Part.WF, Letter.WF, Scalar, Tok.Inside, WBody, Part.isGap, demo, setting]

theorem demo_closed : ∀ s, demoSegs.getLast? = some s → s.Closed := by
  intro s hs
  simp only [demoSegs, List.getLast?_cons_cons, List.getLast?_singleton, Option.some.injEq] at hs
  subst hs
  intro h
  simp at h

theorem demo_settles : Settles demo := C74_settles fun q l p h h0 => by
  have h1 : ∀ a ∈ arcsOf demoArcs, a.2.1.1 ≠ 0 := by decide
  exact absurd h0 (h1 _ (mem_arcsOf h))

example : Regular demo demoName ∧ Few demo ∧ Settles demo ∧ demoSegs ≠ [] ∧ (∀ s ∈ demoSegs, s.WF demo) ∧ ∀ s, demoSegs.getLast? = some s → s.Closed :=
  ⟨demo_regular, demo_few, demo_settles, by simp [demoSegs], demo_wf, demo_closed⟩

example : fileText demoSegs = " De[x]el\\$<v> [[t]]a  ab[[/]]de\n[[u]]el[[/]]\x00Al x~y\n".toList.map Char.toNat := by decide

/-- Words are joined, with their blanks behind them and their word-bound blanks together; and `al` is not joined with the word behind it. -/
example : writes demo 100 " De[x]el\\$<v> [[t]]a  ab[[/]]de\n[[u]]el[[/]]\x00Al x~y\n"
    (" Del\\$<v>[x] [[t]]a  c[[/]][[u]]del[[/]]\n\x00A <n>y\n".toList.map Char.toNat) = true := by decide +kernel
example : writes demo 100 "[[t]]de[[/]][x] [[u]]el[[/]] AL AB XY " ("[[t; u]]del[[/]][x]  A C <n>Y ".toList.map Char.toNat) = true := by decide +kernel

theorem demo_init : Sound demo [] [⟨0, [], false⟩] := by
  obtain ⟨st, h1, h2, -⟩ := init_comes demo_regular
  have e : State.init demo.graph 20 demo.root = some [⟨0, [], false⟩] := by decide +kernel
  rcases h2 20 with h | h
  · simp only [e] at h
    cases h
  · simp only [e, Option.some.injEq] at h
    rw [h]
    exact h1

theorem demo_empty (m : List Int) : ¬ Match demo [] m := by
  intro h
  have := (isFinal_match demo_regular demo_init).2 ⟨m, h⟩
  revert this
  decide

theorem demo_dead {x : Int} (h : stepCaseOverride demo.isUpper demo.toLower demo.graph 20 x (demo.beCaseSensitive [⟨0, [], false⟩]) [⟨0, [], false⟩] = some [])
    (xs m : List Int) : ¬ Match demo (x :: xs) m := by
  obtain ⟨st, h1, h2, -⟩ := step_comes demo_regular demo_few demo_init x
  have hst : st = [] := by
    rcases h2 20 with h3 | h3
    · simp only [h] at h3
      cases h3
    · simp only [h, Option.some.injEq] at h3
      exact h3.symm
  subst hst
  intro hm
  obtain ⟨ls, wr, ch, p, hw⟩ := match_walk hm
  exact h1.dead xs hw

/-- A text that is not changed. -/
def demoSame : List Seg := [⟨[⟨[], none, [.letter (.chr (.raw 0x62)), .letter (.chr (.esc 0x24)), .letter (.tag [.raw 0x6e])]⟩], [.space 0x20]⟩]

example : (∀ s ∈ demoSame, ∀ w ∈ s.words, ∀ p ∈ w.parts, p.Canonical demo) ∧ (∀ s ∈ demoSame, s.WF demo) ∧ ∀ s ∈ demoSame, s.Untouched demo := by
  refine ⟨?_, ?_, ?_⟩
  · simp only [demoSame, List.forall_mem_cons, List.not_mem_nil, IsEmpty.forall_iff, implies_true, and_true]
    refine ⟨⟨by decide, by decide⟩, ?_, ?_⟩
    · show (0x24 : Int) ∈ Gen.escapedCps
      decide
    · show _ ∈ demo.alphabet.slexicinv
      decide
  · simp only [demoSame, List.forall_mem_cons, List.not_mem_nil, IsEmpty.forall_iff, implies_true, and_true]
    refine ⟨?_, by simp, by simp [Piece.WF, Scalar, demo, setting]⟩
    simp only [List.forall_mem_cons, List.not_mem_nil, IsEmpty.forall_iff, implies_true, and_true]
    refine ⟨?_, ?_, ?_, ?_, ?_, ?_⟩
    all_goals simp [Piece.WF, Part.WF, Letter.WF, Scalar, Tok.Inside, WBody, Part.isGap, demo, setting]
  · simp only [demoSame, List.forall_mem_cons, List.not_mem_nil, IsEmpty.forall_iff, implies_true, and_true]
    intro f rest h
    obtain ⟨h1, h2⟩ := List.forall₂_cons.1 h
    cases h2
    rw [(word_front demo_regular.alphabet _ _).1 h1]
    intro xs m hx hm
    have hmem : ∀ x ∈ xs, x ∈ [0x62, 0x24, -1] := fun x h => by
      have := hx.subset h
      revert this
      have e : ahead (frontOf demo.alphabet ⟨[], none, [.letter (.chr (.raw 0x62)), .letter (.chr (.esc 0x24)), .letter (.tag [.raw 0x6e])]⟩) [] = [0x62, 0x24, -1] := by decide
      rw [e]
      exact id
    cases xs with
    | nil => exact demo_empty m hm
    | cons x xs =>
      have h2 := hmem x (by simp)
      simp only [List.mem_cons, List.not_mem_nil, or_false] at h2
      rcases h2 with rfl | rfl | rfl
      · exact demo_dead (by decide +kernel) xs m hm
      · exact demo_dead (by decide +kernel) xs m hm
      · exact demo_dead (by decide +kernel) xs m hm

/-! ## What does not hold -/

/-- **C74** An escaped space takes the place of a blank: the blanks behind it move by one word. -/
theorem C74_escaped_space_false : writes demo 100 "a\\ de[x]ab " ("a[x]de c".toList.map Char.toNat) = true := by decide +kernel

/-- **C74** If the file does not end with a blank, the last word gets another character. -/
theorem C74_end_false : writes demo 100 "ab" [0x63, 0xffff] = true := by decide +kernel

/-- **C74** Tags that are not in the alphabet are lost, -/
theorem C74_unknown_tag_false : writes demo 100 "<q>b " ("b ".toList.map Char.toNat) = true := by decide +kernel

/-- **C74** and so are word-bound blanks without a word. -/
theorem C74_empty_word_false : writes demo 100 " [[t]][[/]] b " ("  b ".toList.map Char.toNat) = true := by decide +kernel

/-- **C74** After an entry that makes the text shorter, letters are skipped: the second `ab` is not replaced. -/
theorem C74_skip_false : writes demo 100 "abab " ("cab ".toList.map Char.toNat) = true := by decide +kernel

/-- **C74** The output of an entry may be replaced again: `a` becomes `yb`, and `b` becomes `c`. -/
theorem C74_again_false : writes (setting [((0, 0x61), [(0x79, 1, 0)]), ((1, 0), [(0x62, 2, 0)]), ((0, 0x62), [(0x63, 2, 0)])] [(2, 0)]) 100 "a "
    ("yc ".toList.map Char.toNat) = true := by decide +kernel

/-- `a` becomes `aa`. -/
def grow : Setting Nat := setting [((0, 0x61), [(0x61, 1, 0)]), ((1, 0), [(0x61, 2, 0)])] [(2, 0)]

theorem grow_up : ∀ a ∈ arcsOf [((0, (0x61 : Int)), [((0x61 : Int), 1, 0)]), ((1, 0), [(0x61, 2, 0)])], a.1 < a.2.2 ∧ a.2.2 < 3 := by decide
theorem grow_regular : Regular grow demoName := setting_regular grow_up (by decide) (by decide)
theorem grow_few : Few grow := few_listed rfl rfl grow_up (by decide +kernel)

theorem grow_arc {q p : Nat} {l : Label Nat} (h : Arc grow.graph q l p) : (q = 0 ∧ l = (0x61, 0, 0x61, 0) ∧ p = 1) ∨ (q = 1 ∧ l = (0, 0, 0x61, 0) ∧ p = 2) := by
  have h1 := mem_arcsOf h
  simpa [arcsOf] using h1

theorem grow_walk {xs : List Int} {ls : List (Label Nat)} {wr : List (Int × Nat)} {ch : Bool} {p : Nat} (h : Walk grow.graph 0 (way grow) xs ls wr ch p) :
    (p = 0 ∧ xs = [] ∧ ch = false ∧ wr = []) ∨ (p = 1 ∧ ∃ x, xs = [x] ∧ (x = 0x61 → ch = false ∧ wr = [(0x61, 0)])) ∨
      (p = 2 ∧ ∃ x, xs = [x] ∧ (x = 0x61 → ch = false ∧ wr = [(0x61, 0), (0x61, 0)])) := by
  induction h with
  | start => exact .inl ⟨rfl, rfl, rfl, rfl⟩
  | empty _ h0 ha ih =>
    rcases grow_arc ha with ⟨rfl, rfl, rfl⟩ | ⟨rfl, rfl, rfl⟩
    · exact absurd h0 (by decide)
    · rcases ih with ⟨h, -⟩ | ⟨-, x, rfl, h⟩ | ⟨h, -⟩
      · omega
      · refine .inr (.inr ⟨rfl, x, rfl, fun hx => ?_⟩)
        obtain ⟨rfl, rfl⟩ := h hx
        exact ⟨rfl, rfl⟩
      · omega
  | @read _ _ _ _ _ _ _ x _ h0 _ ha ih =>
    rcases grow_arc ha with ⟨rfl, rfl, rfl⟩ | ⟨rfl, rfl, rfl⟩
    · rcases ih with ⟨-, rfl, rfl, rfl⟩ | ⟨h, -⟩ | ⟨h, -⟩
      · refine .inr (.inl ⟨rfl, x, rfl, ?_⟩)
        rintro rfl
        exact ⟨by decide, by decide⟩
      · omega
      · omega
    · exact absurd rfl h0

theorem grow_match {xs m : List Int} (h : Match grow xs m) : ∃ x, xs = [x] ∧ (x = 0x61 → m = [0x61, 0x61]) := by
  obtain ⟨w, ⟨ls, wr, ch, p, w0, hw, hf, -, rfl⟩, -⟩ := h
  have hp : p = 2 := by
    have : (p, w0) ∈ [(2, 0)] := hf
    simp only [List.mem_singleton, Prod.mk.injEq] at this
    exact this.1
  rcases grow_walk hw with ⟨h, -⟩ | ⟨h, -⟩ | ⟨-, x, rfl, h⟩
  · omega
  · omega
  · refine ⟨x, rfl, fun hx => ?_⟩
    obtain ⟨rfl, rfl⟩ := h hx
    subst hx
    decide

theorem grow_some : ∃ m, Match grow [0x61] m := by
  have h0 : Walk grow.graph grow.root (way grow) [] [] [] false 0 := .start
  have h1 : Walk grow.graph grow.root (way grow) [0x61] [(0x61, 0, 0x61, 0)] [(0x61, 0)] false 1 :=
    h0.read (x := 0x61) (l := (0x61, 0, 0x61, 0)) (p' := 1) (by decide) ⟨by decide, .inl rfl⟩ ⟨[(0x61, 1, 0)], by decide, by decide⟩
  have h2 : Walk grow.graph grow.root (way grow) [0x61] [(0x61, 0, 0x61, 0), (0, 0, 0x61, 0)] [(0x61, 0), (0x61, 0)] false 2 :=
    h1.empty (l := (0, 0, 0x61, 0)) (p' := 2) rfl ⟨[(0x61, 2, 0)], by decide, by decide⟩
  exact C74_match grow_regular grow_few (m := [0x61, 0x61]) (w := 0) ⟨_, _, _, 2, 0, h2, by decide, rfl, by decide⟩

theorem grow_pass {o : Option (Front × Nat)} {rest gs : List Front} (h : Pass grow o rest gs) :
    ∀ f s k, o = some (f, s) → rest = [] → f.word = List.replicate (k + 1) 0x61 → s < k + 1 → False := by
  have step : ∀ (f : Front) (s k : Nat) x, Step grow f s [] x → f.word = List.replicate (k + 1) 0x61 → s < k + 1 →
      x.1.word = List.replicate (k + 2) 0x61 ∧ x.2.1 = s + 1 ∧ x.2.2 = [] := by
    intro f s k x h hf hs
    have hX : (ahead f []).drop s = List.replicate (k + 1 - s) 0x61 := by simp [ahead, hf]
    have htake : ∀ j m, Match grow (((ahead f []).drop s).take j) m → j ≤ ((ahead f []).drop s).length → j = 1 ∧ m = [0x61, 0x61] := by
      intro j m hm hj
      rw [hX, List.length_replicate] at hj
      rw [hX, List.take_replicate, Nat.min_eq_left hj] at hm
      obtain ⟨x, h1, h2⟩ := grow_match hm
      have hj1 : j = 1 := by simpa using congrArg List.length h1
      subst hj1
      simp only [List.replicate_one, List.cons.injEq, and_true] at h1
      exact ⟨rfl, h2 h1.symm⟩
    cases h with
    | none h =>
      obtain ⟨m, hm⟩ := grow_some
      exfalso
      refine h 1 ?_ m ?_
      · rw [hX, List.length_replicate]; omega
      · rw [hX, List.take_replicate, Nat.min_eq_left (by omega)]
        exact hm
    | within h he =>
      obtain ⟨rfl, rfl⟩ := htake _ _ h.2.1 h.1
      unfold replaced
      simp only [gather]
      have hov : overlap [0x61, 0x61] ((f.word.drop s).take 1) = 1 := by
        rw [hf, List.drop_replicate, List.take_replicate, Nat.min_eq_left (by omega)]
        decide
      rw [hov]
      refine ⟨?_, by omega, trivial⟩
      rw [hf, List.take_replicate, List.drop_replicate, Nat.min_eq_left (by omega), show ([0x61, 0x61] : List Int) = List.replicate 2 0x61 from rfl, List.replicate_append_replicate,
        List.replicate_append_replicate]
      congr 1
      omega
    | upto h he =>
      obtain ⟨rfl, rfl⟩ := htake _ _ h.2.1 h.1
      exact absurd he.2.2 (by decide)
  induction h with
  | done => intro f s k h; cases h
  | start _ _ => intro f s k h; cases h
  | go h hs _ ih =>
    rintro f s k ⟨⟩ rfl hf hk
    obtain ⟨h1, h2, h3⟩ := step _ _ _ _ h hf hk
    exact ih _ _ (k + 1) rfl h3 h1 (by simp only at h2; omega)
  | emit h hs _ _ =>
    rintro f s k ⟨⟩ rfl hf hk
    obtain ⟨h1, h2, h3⟩ := step _ _ _ _ h hf hk
    simp only at h1 h2
    rw [h1, List.length_replicate] at hs
    omega

/-- **C74** Without the condition on the dictionary, the program may never end. -/
theorem C74_endless_false (n : Nat) (out : UString) : transliteration grow n (bytes ("a ".toList.map Char.toNat)) ≠ .ok out := by
  intro h
  obtain ⟨outs, h1, -⟩ := C74_postgeneration (segs := [⟨[⟨[], none, [.letter (.chr (.raw 0x61))]⟩], [.space 0x20]⟩]) grow_regular grow_few (by simp) (by
    simp only [List.forall_mem_cons, List.not_mem_nil, IsEmpty.forall_iff, implies_true, and_true]
    refine ⟨?_, by simp, by simp [Piece.WF, Scalar, grow, setting]⟩
    simp only [List.forall_mem_cons, List.not_mem_nil, IsEmpty.forall_iff, implies_true, and_true]
    refine ⟨?_, ?_, ?_, ?_, ?_, ?_⟩
    all_goals simp [Piece.WF, Part.WF, Letter.WF, Scalar, Part.isGap, grow, setting]) (by
    intro s hs
    simp only [List.getLast?_singleton, Option.some.injEq] at hs
    subst hs
    intro h
    simp at h) (n := n) (out := out) h
  cases h1 with
  | cons h1 _ =>
    obtain ⟨fs, gs, h2, h3, -⟩ := h1
    cases h2 with
    | cons h2 h4 =>
      cases h4
      cases h3 with
      | start h3 =>
        have := (word_front grow_regular.alphabet _ _).1 h2
        subst this
        exact grow_pass h3 _ 0 0 rfl rfl rfl (by omega)

end Verif.Post
