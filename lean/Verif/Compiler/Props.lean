import Verif.Compiler.Check
import Verif.Compiler.Entry
import Verif.Compiler.Threads

/-!
# C48, C56, C69: compiling dictionaries

The vocabulary is in `Spec`: a file, which entries are visible, and which pairs of symbol sequences a section stands for.
-/

namespace Verif.Compiler

open Verif.Fst Verif.Alphabet

section
variable {N W : Type} [LinearOrder N] [AddMonoid W] [LinearOrder W]

/-- **C69** A dictionary without pairs that begin with a space or are empty on the side that is read compiles, and the section of
each name relates exactly the pairs that the visible entries of the sections with this name stand for. Sections that stand for
nothing are left out, and each name comes once.

Missing: weights (see `C56`), equivalent characters (`C69_acx_false`), texts that follow a regular expression
(`C69_after_expression_false`), an empty last paradigm (`C69_empty_paradigm_false`). -/
theorem C69_dictionary_partial (s : Settings) (f : File N W) (closed : N → Bool) (hreg : Regular s f closed)
    (hok : ∀ k l r, SecGives s f k l r → (sides s l r).1 ≠ [] ∧ (sides s l r).1.head? ≠ some 0x20) :
    ∃ A secs, parse s f.nodes = .ok (A, secs) ∧ (secs.map (·.1)).Nodup ∧ (∀ k, k ∈ secs.map (·.1) ↔ ∃ l r, SecGives s f k l r) ∧
      ∀ k t, (k, t) ∈ secs → WF t ∧ ∀ l r, (∃ w, Relates A t (sides s l r).1 (sides s l r).2 w) ↔ SecGives s f k l r := by
  obtain ⟨A, ts, hA, -, h1, h2, h3, h4⟩ := parse_spec hreg
  have hrel : ∀ k l r, SecRel s f k (sides s l r).1 (sides s l r).2 ↔ SecGives s f k l r := by
    intro k l r
    unfold SecRel
    rw [sides_sides]
  have hv : valid A ts = true := by
    by_contra hno
    simp only [Bool.not_eq_true] at hno
    unfold valid at hno
    rw [List.all_eq_false] at hno
    obtain ⟨⟨k, t⟩, ht, hc⟩ := hno
    obtain ⟨i1, i2, i3, i4, -, i5⟩ := h4 k t ht
    obtain ⟨x, y, k1, k2⟩ := check_false hA i1 i3 i4 (by simpa [check] using hc)
    have := (i5 x y).1 k1
    unfold SecRel at this
    have := hok _ _ _ this
    rw [sides_sides] at this
    rcases k2 with k2 | k2
    · exact this.1 k2
    · exact this.2 k2
  refine ⟨A, ts, by rw [h1, if_pos hv], ?_, fun k => ?_, fun k t ht => ?_⟩
  · rw [List.nodup_iff_pairwise_ne, List.pairwise_map]
    exact h2.imp fun h => ne_of_lt h
  · rw [h3]
    constructor
    · rintro ⟨x, y, h⟩; exact ⟨_, _, h⟩
    · rintro ⟨l, r, h⟩; exact ⟨_, _, (hrel k l r).2 h⟩
  · obtain ⟨i1, i2, i3, i4, -, i5⟩ := h4 k t ht
    refine ⟨i1, fun l r => ?_⟩
    rw [← hrel, ← i5]
    constructor
    · rintro ⟨w, h⟩
      obtain ⟨ls, p, fw, j1, j2, j3, j4, -⟩ := (relates_iff (.refl A) i4 _ _ w).1 h
      exact ⟨ls, ⟨p, fw, j1, j2⟩, j3, j4⟩
    · rintro ⟨ls, ⟨p, fw, j1, j2⟩, j3, j4⟩
      exact ⟨_, (relates_iff (.refl A) i4 _ _ _).2 ⟨ls, p, fw, j1, j2, j3, j4, rfl⟩⟩

/-- **C69** The compiler refuses such a dictionary for no other reason than a pair that begins with a space or is empty on the side
that is read, and it never does anything else. -/
theorem C69_refused_reason (s : Settings) (f : File N W) (closed : N → Bool) (hreg : Regular s f closed) :
    (∃ x, parse s f.nodes = .ok x) ∨
    (parse s f.nodes = .exit ∧ ∃ k l r, SecGives s f k l r ∧ ((sides s l r).1 = [] ∨ (sides s l r).1.head? = some 0x20)) := by
  by_cases hok : ∀ k l r, SecGives s f k l r → (sides s l r).1 ≠ [] ∧ (sides s l r).1.head? ≠ some 0x20
  · obtain ⟨A, ts, h, -⟩ := C69_dictionary_partial s f closed hreg hok
    exact .inl ⟨_, h⟩
  · obtain ⟨A, ts, hA, -, h1, -⟩ := parse_spec hreg
    rw [h1]
    split
    · exact .inl ⟨_, rfl⟩
    · refine .inr ⟨rfl, ?_⟩
      by_contra hno
      refine hok fun k l r h => ?_
      by_contra h'
      refine hno ⟨k, l, r, h, ?_⟩
      by_contra h''
      exact h' ⟨fun e => h'' (.inl e), fun e => h'' (.inr e)⟩

theorem refused_of {s : Settings} {f : File N W} {closed : N → Bool} (hreg : Regular s f closed) {k : UString} {l r : List Int}
    (h : SecGives s f k l r)
    (hc : ∀ (A : Alphabet) (t : Transducer W), Ok A → WF t → (∀ q < size t, (∃ ls, Path (Edge t) t.initial ls q) ∧ ∃ w, LangFrom 0 t q w) →
      (∀ q l p, Edge t q l p → KA A l.1) → AccRel A t t.initial (sides s l r).1 (sides s l r).2 →
      (∀ x y, AccRel A t t.initial x y → SecGives s f k (sides s x y).1 (sides s x y).2) → check A t = false) :
    parse s f.nodes = .exit := by
  obtain ⟨A, ts, hA, -, h1, h2, h3, h4⟩ := parse_spec hreg
  have hr : SecRel s f k (sides s l r).1 (sides s l r).2 := by
    unfold SecRel; rw [sides_sides]; exact h
  obtain ⟨⟨k', t⟩, ht, rfl⟩ := List.mem_map.1 ((h3 k).2 ⟨_, _, hr⟩)
  obtain ⟨i1, i2, i3, i4, -, i5⟩ := h4 k' t ht
  have := hc A t hA i1 i3 i4 ((i5 _ _).2 hr) fun x y h => (i5 x y).1 h
  rw [h1, if_neg]
  intro hv
  unfold valid at hv
  rw [List.all_eq_true] at hv
  have h' : check A t = true := hv _ ht
  rw [this] at h'
  cases h'

/-- **C69** A dictionary with a pair that is empty on the side that is read is refused. -/
theorem C69_refused_empty (s : Settings) (f : File N W) (closed : N → Bool) (hreg : Regular s f closed) (k : UString) (l r : List Int)
    (h : SecGives s f k l r) (hl : (sides s l r).1 = []) : parse s f.nodes = .exit :=
  refused_of hreg h fun A t hA i1 i3 i4 ha _ => check_nil hA i1 i3 i4 (by rwa [hl] at ha)

/-- **C69** A dictionary with a pair that begins with a space on that side is refused, unless the section has pairs that begin with
any number of spaces (see `C69_spaces_false`). -/
theorem C69_refused_space_partial (s : Settings) (f : File N W) (closed : N → Bool) (hreg : Regular s f closed) (k : UString) (l r : List Int)
    (h : SecGives s f k l r) (hl : (sides s l r).1.head? = some 0x20) (n : Nat)
    (hn : ∀ l' r' xs, SecGives s f k l' r' → (sides s l' r').1 ≠ List.replicate n 0x20 ++ xs) : parse s f.nodes = .exit := by
  refine refused_of hreg h fun A t hA i1 i3 i4 ha hs => ?_
  cases hx : (sides s l r).1 with
  | nil => rw [hx] at hl; cases hl
  | cons x xs =>
    rw [hx] at hl ha
    cases hl
    by_contra hno
    simp only [Bool.not_eq_false] at hno
    obtain ⟨x', y', h'⟩ := check_space hA i1 i3 i4 hno ha n
    refine hn _ _ x' (hs _ _ h') ?_
    rw [sides_sides]

/-! ## C56 -/

/-- **C56** Putting a pair of symbol sequences into any transducer at any state follows existing arcs as long as there are some with
the right pairs (`us`), and adds new arcs (`vs`) for the rest; together they spell the two sequences. Nothing else changes: paths
between old states are the old ones, and the paths to the new end are those to the place where the new arcs begin, continued by the
new arcs. The new arcs together have the weight of the entry.

Missing: the weight of arcs that are shared with other entries (`C56_weight_shared_false`), and entries with several elements
(`C56_weight_twice_false`, `C56_weight_lost_false`). -/
theorem C56_text_partial (s : Settings) (hs : s.acx = []) (l r : List Int) (hl : 0 ∉ l) (hr : 0 ∉ r) (hlr : ¬ (l = [] ∧ r = [])) (w : W)
    (a a' : Alphabet) (ha : Reachable a) (t t' : Transducer W) (hwf : WF t) (q e : Nat) (hq : q < size t)
    (h : matchTransduction s l r w a q t = .ok (a', e, t')) :
    ∃ o us vs, Path (Edge t) q us o ∧ Reads a' (us ++ vs) (sides s l r).1 (sides s l r).2 ∧
      (∀ c v vs', vs = (c, v) :: vs' → ∀ v p, ¬ Edge t o (c, v) p) ∧
      (vs = [] → t' = t ∧ e = o) ∧ (vs ≠ [] → (vs.map (·.2)).sum = w ∧ size t ≤ e) ∧
      (∀ p < size t, ∀ ls, Path (Edge t') p ls e ↔ ∃ xs, Path (Edge t) p xs o ∧ ls = xs ++ vs) ∧
      (∀ p p', p' < size t → ∀ ls, Path (Edge t') p ls p' ↔ Path (Edge t) p ls p') ∧
      WF t' ∧ t'.initial = t.initial ∧ t'.finals = t.finals ∧ size t' = size t + vs.length := by
  rw [matchTransduction_eq s hs l r w a q t hlr] at h
  have hl' : 0 ∉ (sides s l r).1 := by unfold sides; split <;> assumption
  have hr' : 0 ∉ (sides s l r).2 := by unfold sides; split <;> assumption
  obtain ⟨-, o, us, vs, k1, k2⟩ := runs_all w _ _ hl' hr' a ha.ok a' q e t t' hwf hq h
  exact ⟨o, us, vs, k1.shared, k2, k1.stop, k1.same, k1.sum, k1.into, k1.old, k1.wf, k1.init, k1.finals, k1.size⟩

/-- **C56** If no arc leaves the state then there is exactly one way on to the new end; it spells the two sequences and has the
weight of the entry. -/
theorem C56_text_fresh (s : Settings) (hs : s.acx = []) (l r : List Int) (hl : 0 ∉ l) (hr : 0 ∉ r) (hlr : ¬ (l = [] ∧ r = [])) (w : W)
    (a a' : Alphabet) (ha : Reachable a) (t t' : Transducer W) (hwf : WF t) (q e : Nat) (hq : q < size t) (hfresh : ∀ z p, ¬ Edge t q z p)
    (h : matchTransduction s l r w a q t = .ok (a', e, t')) :
    ∃ vs, Reads a' vs (sides s l r).1 (sides s l r).2 ∧ (vs.map (·.2)).sum = w ∧ size t ≤ e ∧ e < size t' ∧
      ∀ p < size t, ∀ ls, Path (Edge t') p ls e ↔ ∃ xs, Path (Edge t) p xs q ∧ ls = xs ++ vs := by
  obtain ⟨o, us, vs, h1, h2, -, h4, h5, h6, -, h7, -, -, h8⟩ := C56_text_partial s hs l r hl hr hlr w a a' ha t t' hwf q e hq h
  obtain ⟨rfl, rfl⟩ : us = [] ∧ o = q := by
    cases h1 with
    | nil => exact ⟨rfl, rfl⟩
    | cons he _ => exact absurd he (hfresh _ _)
  have hne : vs ≠ [] := by
    refine reads_nil h2 ?_
    unfold sides
    split <;> simpa [and_comm] using hlr
  refine ⟨vs, h2, (h5 hne).1, (h5 hne).2, ?_, h6⟩
  have hp := (h6 o hq vs).2 ⟨[], .nil o, rfl⟩
  exact path_lt h7 hp (by omega)

end

/-! ## C48 -/

section
variable {N W : Type} [LinearOrder W] [Zero W]

/-- **C48** With one thread for each section the process ends, whatever the order of the steps, and always with the result of
minimising one section after the other; if that fails, it fails. -/
theorem C48_schedules (secs : List (UString × Sec N W)) :
    (∃ r, Run (secs.map fun x => sectionThread x.2.t) r) ∧
    ∀ r, Run (secs.map fun x => sectionThread x.2.t) r →
      (∀ us, minimizeAll secs = .ok us → r = .ok (us.map (·.2))) ∧
      (∀ vs, r = .ok vs → ∃ us, minimizeAll secs = .ok us ∧ us.map (·.1) = secs.map (·.1) ∧ us.map (·.2) = vs) := by
  refine ⟨run_exists _ _ rfl, fun r hr => ?_⟩
  have hok : ∀ vs, r = .ok vs → ∃ us, minimizeAll secs = .ok us ∧ us.map (·.1) = secs.map (·.1) ∧ us.map (·.2) = vs := by
    intro vs hvs
    have h := run_ok hr hvs
    clear hr hvs r
    suffices ∃ us : List (UString × Transducer W), List.Forall₂ (fun x u => x.1 = u.1 ∧ minimize 0 x.2.t = .ok u.2) secs us ∧ us.map (·.1) = secs.map (·.1) ∧ us.map (·.2) = vs by
      obtain ⟨us, h1, h2⟩ := this
      exact ⟨us, (minimizeAll_ok secs us).2 h1, h2⟩
    induction secs generalizing vs with
    | nil => cases h; exact ⟨[], .nil, rfl, rfl⟩
    | cons x secs ih =>
      cases h with
      | @cons _ v _ vs h1 h2 =>
        obtain ⟨us, k1, k2, k3⟩ := ih vs h2
        rw [alone_section] at h1
        exact ⟨(x.1, v) :: us, .cons ⟨rfl, h1⟩ k1, by simp [k2], by simp [k3]⟩
  refine ⟨fun us hus => ?_, hok⟩
  by_cases hr' : ∃ vs, r = .ok vs
  · obtain ⟨vs, rfl⟩ := hr'
    obtain ⟨us', h1, -, h2⟩ := hok vs rfl
    rw [hus] at h1
    cases h1
    rw [h2]
  · exfalso
    obtain ⟨t, ht, h⟩ := run_bad hr fun vs h => hr' ⟨vs, h⟩
    obtain ⟨x, hx, rfl⟩ := List.mem_map.1 ht
    have hall := (minimizeAll_ok secs us).1 hus
    have : ∃ u, minimize 0 x.2.t = .ok u := by
      clear hr hok hr' h ht hus
      induction hall with
      | nil => simp at hx
      | cons h1 _ ih =>
        rcases List.mem_cons.1 hx with rfl | hx
        · exact ⟨_, h1.2⟩
        · exact ih hx
    obtain ⟨u, hu⟩ := this
    rw [alone_section, hu] at h
    rcases h with ⟨-, h⟩ | ⟨-, h⟩ | ⟨-, h⟩ <;> cases h

end

/-! ## Examples -/

/-- An entry that is always visible. -/
def entry (es : List (Token Nat)) (w : Nat := 0) : CEntry Nat Nat := { weight := w, junk := 0, content := some es }

/-- Paradigm 0 has `s`/`<p>` and ` `/`<s>`, paradigm 1 has `x` before paradigm 0 and, from left to right only, `y`. The section has
`a`/`b` before paradigm 1, the letters `u` and `v` by a regular expression, and an entry for the other direction. -/
def exFile : File Nat Nat where
  pars := [(0, [entry [.text [115] [-1]], entry [.text [] [-2]]]),
    (1, [entry [.text [120] [120], .par 0], { entry [.text [121] [121]] with attrs := { r := Expander.LR } }])]
  secs := [([109], [entry [.text [97] [98], .par 1], entry [.re [91, 117, 118, 93]], { entry [.text [] [122]] with attrs := { r := Expander.RL } }])]

theorem visible_plain (s : Settings) : Visible s {} :=
  ⟨.inl rfl, by decide, .inl rfl, .inl rfl, fun _ => .inl rfl, fun _ => .inl rfl⟩

theorem uses_mem {s : Settings} {ents : List (CEntry Nat Nat)} {es : List (Token Nat)} (h : Uses s ents es) : some es ∈ ents.map (·.content) := by
  obtain ⟨e, h1, -, h2⟩ := h
  exact List.mem_map.2 ⟨e, h1, h2⟩

/-- `[uv]` -/
def exClass : Regex.Alt := .one (.one (.cls false [.one 117, .one 118] .none))

theorem exClass_valid : exClass.Valid := by
  refine ⟨?_, 117, ?_⟩
  · intro i hi
    simp only [List.mem_cons, List.not_mem_nil, or_false] at hi
    rcases hi with rfl | rfl
    · show (117 : Int) ≠ Regex.fin; decide
    · show (118 : Int) ≠ Regex.fin; decide
  · show Regex.Listed _ _
    exact ⟨.one 117, by simp, rfl⟩

theorem exFile_regular : Regular {} exFile (fun _ => true) := by
  refine ⟨rfl, by decide, ?_, ?_, ?_, ?_, ?_, ?_⟩
  · intro ps n ents qs h es hu m hm
    have := uses_mem hu
    match ps, h with
    | [], h =>
      simp only [exFile, List.nil_append, List.cons.injEq, Prod.mk.injEq] at h
      obtain ⟨⟨rfl, rfl⟩, -⟩ := h
      simp only [entry, List.map_cons, List.map_nil, List.mem_cons, Option.some.injEq, List.not_mem_nil, or_false] at this
      rcases this with rfl | rfl <;> simp at hm
    | [_], h =>
      simp only [exFile, List.cons_append, List.nil_append, List.cons.injEq, Prod.mk.injEq] at h
      obtain ⟨rfl, ⟨rfl, rfl⟩, -⟩ := h
      simp only [entry, List.map_cons, List.map_nil, List.mem_cons, Option.some.injEq, List.not_mem_nil, or_false] at this
      rcases this with rfl | rfl <;> simp at hm
      subst hm; simp
    | _ :: _ :: _, h => simp [exFile] at h
  · intro k ents hk es hu m hm
    have := uses_mem hu
    simp only [exFile, List.mem_singleton, Prod.mk.injEq] at hk
    obtain ⟨rfl, rfl⟩ := hk
    simp only [entry, List.map_cons, List.map_nil, List.mem_cons, Option.some.injEq, List.not_mem_nil, or_false] at this
    rcases this with rfl | rfl | rfl <;> simp at hm
    subst hm; simp [exFile]
  · intro n ents hn es hu
    have := uses_mem hu
    simp only [exFile, List.mem_cons, List.not_mem_nil, or_false, Prod.mk.injEq] at hn
    rcases hn with ⟨rfl, rfl⟩ | ⟨rfl, rfl⟩ <;>
      simp only [entry, List.map_cons, List.map_nil, List.mem_cons, Option.some.injEq, List.not_mem_nil, or_false] at this <;>
      rcases this with rfl | rfl <;> simp [Fits, FitsText]
  · intro k ents hk es hu
    have := uses_mem hu
    simp only [exFile, List.mem_singleton, Prod.mk.injEq] at hk
    obtain ⟨rfl, rfl⟩ := hk
    simp only [entry, List.map_cons, List.map_nil, List.mem_cons, Option.some.injEq, List.not_mem_nil, or_false] at this
    rcases this with rfl | rfl | rfl
    · simp [Fits, FitsText]
    · exact ⟨⟨exClass, exClass_valid, rfl⟩, trivial⟩
    · simp [Fits, FitsText]
  · intro n ents hn _ es hu
    have := uses_mem hu
    simp only [exFile, List.mem_cons, List.not_mem_nil, or_false, Prod.mk.injEq] at hn
    rcases hn with ⟨rfl, rfl⟩ | ⟨rfl, rfl⟩ <;>
      simp only [entry, List.map_cons, List.map_nil, List.mem_cons, Option.some.injEq, List.not_mem_nil, or_false] at this <;>
      rcases this with rfl | rfl <;> simp [Closed]
  · intro ps n ents h
    obtain ⟨rfl, rfl⟩ : n = 1 ∧ ents = (exFile.pars[1]).2 := by
      match ps, h with
      | [_], h =>
        simp only [exFile, List.cons_append, List.nil_append, List.cons.injEq, Prod.mk.injEq] at h
        obtain ⟨-, ⟨rfl, rfl⟩, -⟩ := h
        exact ⟨rfl, rfl⟩
      | [], h => simp [exFile] at h
      | _ :: _ :: _, h => simp [exFile] at h
    refine ⟨[121], [121], gives_par.2 ⟨_, [.text [121] [121]],
      List.mem_cons_of_mem _ (List.mem_cons_self ..), ⟨_, List.mem_cons_of_mem _ (List.mem_cons_self ..), ?_, rfl⟩, ?_⟩⟩
    · exact ⟨.inr rfl, by decide, .inl rfl, .inl rfl, fun _ => .inl rfl, fun _ => .inl rfl⟩
    · simpa using Gives.text (l := [121]) (r := [121]) (Gives.nil (s := ({} : Settings)) (f := exFile))

/-- `axs` is `bx<p>` in it, and `v` is `v`. -/
theorem exFile_gives : SecGives {} exFile [109] [97, 120, 115] [98, 120, -1] ∧ SecGives {} exFile [109] [118] [118] := by
  constructor
  · refine ⟨_, List.mem_singleton.2 rfl, _, ⟨_, List.mem_cons_self .., visible_plain _, rfl⟩, ?_⟩
    refine Gives.text (l := [97]) (r := [98]) (l' := [120, 115]) (r' := [120, -1]) ?_
    refine Gives.par (l := [120, 115]) (r := [120, -1]) (l' := []) (r' := []) (List.mem_cons_of_mem _ (List.mem_cons_self ..))
      ⟨_, List.mem_cons_self .., visible_plain _, rfl⟩ ?_ .nil
    refine Gives.text (l := [120]) (r := [120]) (l' := [115]) (r' := [-1]) ?_
    refine Gives.par (l := [115]) (r := [-1]) (l' := []) (r' := []) (List.mem_cons_self ..) ⟨_, List.mem_cons_self .., visible_plain _, rfl⟩ ?_ .nil
    exact Gives.text (l := [115]) (r := [-1]) (l' := []) (r' := []) .nil
  · refine ⟨_, List.mem_singleton.2 rfl, _, ⟨_, List.mem_cons_of_mem _ (List.mem_cons_self ..), visible_plain _, rfl⟩, ?_⟩
    refine Gives.re (e := exClass) (u := [118]) (l' := []) (r' := []) exClass_valid ?_ .nil
    exact ⟨118, ⟨.one 118, by simp, rfl⟩, rfl⟩

/-- What `parse` gives, for evaluation: the pairs of symbols and the sections. -/
def outcome {W : Type} : Res (Alphabet × List (UString × Transducer W)) → Option (List Pair × List (UString × Transducer W))
  | .ok x => some (x.1.spairinv, x.2)
  | _ => none

theorem of_outcome {W : Type} {r : Res (Alphabet × List (UString × Transducer W))} {ps : List Pair} {ts : List (UString × Transducer W)}
    (h : outcome r = some (ps, ts)) : ∃ A, r = .ok (A, ts) ∧ A.spairinv = ps := by
  cases r with
  | ok x =>
    obtain ⟨A, ts'⟩ := x
    simp only [outcome, Option.some.injEq, Prod.mk.injEq] at h
    obtain ⟨h1, rfl⟩ := h
    exact ⟨A, rfl, h1⟩
  | _ => cases h

theorem decode_of {A : Alphabet} {ps : List Pair} (h : A.spairinv = ps) (i : Nat) (p : Pair) (hp : ps[i]? = some p) : A.decode (i : Int) = .ok p :=
  decode_iff.2 ⟨i, by rw [h]; exact hp, rfl⟩

/-- An expression can be written in one way only, as far as its strings go. -/
theorem means_unique {e e' : Regex.Alt} (hv : e.Valid) (hv' : e'.Valid) (hp : e.print = e'.print) (u : List Int) (h : e'.Means Regex.latinOthers u) :
    e.Means Regex.latinOthers u := by
  obtain ⟨r, h1, h2, h3, h4⟩ := regexp_part (W := Nat) ok_empty hv
  obtain ⟨r', h1', h2', h3', h4'⟩ := regexp_part (W := Nat) ok_empty hv'
  rw [← hp, h1] at h1'
  cases h1'
  obtain ⟨X, p1, p2⟩ := h4 _ h2 (.refl _)
  obtain ⟨X', p1', p2'⟩ := h4' _ h2 (.refl _)
  have hXX : ∀ ls, X ls ↔ X' ls := by
    obtain ⟨f, fw, q1, -, q2⟩ := p1.ex
    obtain ⟨f', fw', q1', -, q2'⟩ := p1'.ex
    rw [q1] at q1'
    simp only [List.cons.injEq, Prod.mk.injEq, and_true] at q1'
    intro ls
    rw [q2, q2', q1'.1]
  have := (p2' u u).2 ⟨rfl, h⟩
  rw [← rel_congr _ hXX, p2] at this
  exact this.2

theorem gives_cons {N W : Type} {s : Settings} {f : File N W} {k : Token N} {es : List (Token N)} {l r : List Int} (h : Gives s f (k :: es) l r) :
    ∃ l1 r1 l2 r2, Gives s f [k] l1 r1 ∧ Gives s f es l2 r2 ∧ l = l1 ++ l2 ∧ r = r1 ++ r2 := by
  generalize hk : k :: es = ks at h
  cases h with
  | nil => cases hk
  | @text l r _ l' r' h =>
    cases hk
    exact ⟨l, r, l', r', by simpa using Gives.text (l := l) (r := r) .nil, h, rfl, rfl⟩
  | @re e u _ l' r' hv hm h =>
    cases hk
    exact ⟨u, u, l', r', by simpa using Gives.re hv hm .nil, h, rfl, rfl⟩
  | @par n ents es' l r _ l' r' hp hu h1 h2 =>
    cases hk
    exact ⟨l, r, l', r', by simpa using Gives.par hp hu h1 .nil, h2, rfl, rfl⟩

theorem gives_nil {N W : Type} {s : Settings} {f : File N W} {l r : List Int} (h : Gives s f [] l r) : l = [] ∧ r = [] := by
  cases h; exact ⟨rfl, rfl⟩

theorem gives_text {N W : Type} {s : Settings} {f : File N W} {l r l' r' : List Int} (h : Gives s f [.text l r] l' r') : l' = l ∧ r' = r := by
  cases h with
  | text h => cases h; simp

theorem gives_re {N W : Type} {s : Settings} {f : File N W} {e : Regex.Alt} (hv : e.Valid) {l r : List Int} (h : Gives s f [.re e.print] l r) :
    e.Means Regex.latinOthers l ∧ r = l := by
  generalize he : e.print = er at h
  cases h with
  | re hv' hm h =>
    obtain ⟨rfl, rfl⟩ := gives_nil h
    simp only [List.append_nil]
    exact ⟨means_unique hv hv' he _ hm, trivial⟩

theorem exFile_left (k : UString) (l r : List Int) (h : SecGives {} exFile k l r) : l.head? = some 97 ∨ l = [117] ∨ l = [118] := by
  obtain ⟨ents, hk, es, ⟨e, he, hv, hc⟩, h⟩ := h
  simp only [exFile, List.mem_singleton, Prod.mk.injEq] at hk
  obtain ⟨rfl, rfl⟩ := hk
  simp only [List.mem_cons, List.not_mem_nil, or_false] at he
  rcases he with rfl | rfl | rfl
  · simp only [entry, Option.some.injEq] at hc
    subst hc
    obtain ⟨l1, r1, l2, r2, h1, -, rfl, -⟩ := gives_cons h
    obtain ⟨rfl, -⟩ := gives_text h1
    exact .inl rfl
  · simp only [entry, Option.some.injEq] at hc
    subst hc
    obtain ⟨⟨c, ⟨i, hi, hc⟩, rfl⟩, -⟩ := gives_re exClass_valid h
    simp only [List.mem_cons, List.not_mem_nil, or_false] at hi
    rcases hi with rfl | rfl
    · have : c = 117 := hc
      subst this; exact .inr (.inl rfl)
    · have : c = 118 := hc
      subst this; exact .inr (.inr rfl)
  · exact absurd hv.r (by decide)

/-- The hypotheses of `C69_dictionary_partial` hold of the example. -/
example : Regular {} exFile (fun _ => true) ∧
    (∀ k l r, SecGives {} exFile k l r → (sides {} l r).1 ≠ [] ∧ (sides {} l r).1.head? ≠ some 0x20) ∧
    SecGives {} exFile [109] [97, 120, 115] [98, 120, -1] := by
  refine ⟨exFile_regular, fun k l r h => ?_, exFile_gives.1⟩
  rcases exFile_left k l r h with h | rfl | rfl
  · have : (sides {} l r).1 = l := rfl
    rw [this]
    cases l with
    | nil => cases h
    | cons x l => cases h; simp
  · simp [sides]
  · simp [sides]

/-- Its section. -/
example : (outcome (parse {} exFile.nodes)).map (·.2.map (·.1)) = some [[109]] := by decide +kernel

/-- A file with one section and these entries. -/
def oneSection (ess : List (List (Token Nat))) : File Nat Nat := { secs := [([109], ess.map fun es => entry es)] }

theorem oneSection_regular (s : Settings) (hs : s.acx = []) (ess : List (List (Token Nat))) (h : ∀ es ∈ ess, (∀ m, .par m ∉ es) ∧ Fits (fun _ => true) .any es) :
    Regular s (oneSection ess) (fun _ => true) := by
  have hu : ∀ k ents, (k, ents) ∈ (oneSection ess).secs → ∀ es, Uses s ents es → es ∈ ess := by
    intro k ents hk es hu
    simp only [oneSection, List.mem_singleton, Prod.mk.injEq] at hk
    obtain ⟨rfl, rfl⟩ := hk
    have := uses_mem hu
    simpa [entry] using this
  refine ⟨hs, by simp [oneSection], ?_, ?_, ?_, ?_, ?_, ?_⟩
  · intro ps n ents qs h'; simp [oneSection] at h'
  · intro k ents hk es hes m hm
    exact absurd hm ((h es (hu k ents hk es hes)).1 m)
  · intro n ents hn; simp [oneSection] at hn
  · intro k ents hk es hes
    exact (h es (hu k ents hk es hes)).2
  · intro n ents hn; simp [oneSection] at hn
  · intro ps n ents h'; simp [oneSection] at h'

theorem oneSection_gives {s : Settings} {ess : List (List (Token Nat))} {k : UString} {l r : List Int} :
    SecGives s (oneSection ess) k l r ↔ k = [109] ∧ ∃ es ∈ ess, Gives s (oneSection ess) es l r := by
  constructor
  · rintro ⟨ents, hk, es, hu, h⟩
    simp only [oneSection, List.mem_singleton, Prod.mk.injEq] at hk
    obtain ⟨rfl, rfl⟩ := hk
    have := uses_mem hu
    exact ⟨rfl, es, by simpa [entry] using this, h⟩
  · rintro ⟨rfl, es, hes, h⟩
    exact ⟨_, List.mem_singleton.2 rfl, es, ⟨entry es, List.mem_map.2 ⟨es, hes, rfl⟩, visible_plain s, rfl⟩, h⟩

/-- The hypotheses of `C69_refused_empty` hold of a file with the entries `a`/`b` and nothing/`c`. -/
example : Regular {} (oneSection [[.text [97] [98]], [.text [] [99]]]) (fun _ => true) ∧
    SecGives {} (oneSection [[.text [97] [98]], [.text [] [99]]]) [109] [] [99] ∧ (sides {} ([] : List Int) [99]).1 = [] := by
  refine ⟨oneSection_regular {} rfl _ ?_, oneSection_gives.2 ⟨rfl, _, List.mem_cons_of_mem _ (List.mem_cons_self ..), ?_⟩, rfl⟩
  · simp [Fits, FitsText]
  · exact Gives.text (l := []) (r := [99]) (l' := []) (r' := []) .nil

/-- The hypotheses of `C69_refused_space_partial` hold of a file with the entry ` a`/`b`: nothing begins with two spaces. -/
example : Regular {} (oneSection [[.text [32, 97] [98]]]) (fun _ => true) ∧
    SecGives {} (oneSection [[.text [32, 97] [98]]]) [109] [32, 97] [98] ∧ (sides {} [32, 97] [98]).1.head? = some 0x20 ∧
    ∀ l' r' xs, SecGives {} (oneSection [[.text [32, 97] [98]]]) [109] l' r' → (sides {} l' r').1 ≠ List.replicate 2 0x20 ++ xs := by
  refine ⟨oneSection_regular {} rfl _ ?_, oneSection_gives.2 ⟨rfl, _, List.mem_cons_self .., ?_⟩, rfl, ?_⟩
  · simp [Fits, FitsText]
  · exact Gives.text (l := [32, 97]) (r := [98]) (l' := []) (r' := []) .nil
  · intro l' r' xs h
    obtain ⟨-, es, hes, h⟩ := oneSection_gives.1 h
    simp only [List.mem_singleton] at hes
    subst hes
    obtain ⟨rfl, rfl⟩ := gives_text h
    simp [sides, List.replicate]

/-- The hypotheses of `C56_text_partial` and `C56_text_fresh` hold: `ab`/`c` with weight 5 in a new transducer, and then `ad`/`c`. -/
example : matchTransduction {} [97, 98] [99] 5 .empty 0 (Fst.empty : Transducer Nat) =
      .ok ((((Alphabet.empty.pairCode 97 99).2).pairCode 98 0).2, 2, ⟨0, [], [(0, [(1, 1, 0)]), (1, [(2, 2, 5)]), (2, [])]⟩) ∧
    Reachable Alphabet.empty ∧ WF (Fst.empty : Transducer Nat) ∧ ∀ z p, ¬ Edge (Fst.empty : Transducer Nat) 0 z p :=
  ⟨rfl, .refl, (Trie.empty 0).wf, fun _ _ => edge_empty _ _ _⟩

/-- `C48_schedules` for the sections of a file with two sections. -/
example : ∃ c : Comp Nat Nat, procNodes {} [.secOpen [109], .entry (entry [.text [97] [98]]), .secClose, .secOpen [110],
      .entry (entry [.text [97] [99]]), .secClose] {} = .ok c ∧ c.secs.length = 2 := ⟨_, rfl, rfl⟩

/-! ## Refutations -/

/-- **C69** does not hold when the last paradigm is empty: the compiler stays in it, and the entries of the sections are lost. -/
theorem C69_empty_paradigm_false : ∃ f : File Nat Nat, SecGives {} f [109] [97] [97] ∧ ∃ A, parse {} f.nodes = .ok (A, []) := by
  refine ⟨{ pars := [(0, [])], secs := [([109], [entry [.text [97] [97]]])] }, ?_, ?_⟩
  · refine ⟨_, List.mem_singleton.2 rfl, _, ⟨_, List.mem_cons_self .., visible_plain _, rfl⟩, ?_⟩
    exact Gives.text (l := [97]) (r := [97]) (l' := []) (r' := []) .nil
  · obtain ⟨A, h, -⟩ := of_outcome (r := parse {} (File.nodes { pars := [(0, [])], secs := [([109], [entry [.text [97] [97]]])] }))
      (ps := [(0, 0), (97, 97)]) (ts := []) (by decide +kernel)
    exact ⟨A, h⟩

/-- `a+` -/
def aPlus : Regex.Alt := .one (.one (.letter 97 .plus))

/-- A paradigm `a+`, and an entry of it followed by `a`. -/
def exAfter : File Nat Nat := { pars := [(0, [entry [.re aPlus.print]])], secs := [([109], [entry [.par 0, .text [97] [97]]])] }

/-- **C69** does not hold for a text that follows a paradigm with a regular expression: with a paradigm `a+` and an entry of it
followed by `a`, a single `a` is accepted. -/
theorem C69_after_expression_false : ¬ SecGives {} exAfter [109] [97] [97] ∧
    ∃ A t, parse {} exAfter.nodes = .ok (A, [([109], t)]) ∧ Relates A t [97] [97] 0 := by
  constructor
  · rintro ⟨ents, hk, es, hu, h⟩
    simp only [exAfter, List.mem_singleton, Prod.mk.injEq, true_and] at hk
    subst hk
    have := uses_mem hu
    simp only [entry, List.map_cons, List.map_nil, List.mem_singleton, Option.some.injEq] at this
    subst this
    obtain ⟨l1, r1, l2, r2, h1, h2, hl, -⟩ := gives_cons h
    obtain ⟨rfl, rfl⟩ := gives_text h2
    obtain ⟨ents, es, hp, hu, h⟩ := gives_par.1 h1
    simp only [exAfter, List.mem_singleton, Prod.mk.injEq, true_and] at hp
    subst hp
    have := uses_mem hu
    simp only [entry, List.map_cons, List.map_nil, List.mem_singleton, Option.some.injEq] at this
    subst this
    obtain ⟨hm, -⟩ := gives_re (e := aPlus) trivial h
    obtain rfl : l1 = [] := by
      cases l1 with
      | nil => rfl
      | cons x l1 => simp at hl
    simp only [aPlus, Regex.Alt.Means, Regex.Seq.Means, Regex.Term.Means, Regex.Post.Apply] at hm
    obtain ⟨ws, hne, hall, hnil⟩ := hm
    cases ws with
    | nil => exact hne rfl
    | cons w ws =>
      have := hall w (List.mem_cons_self ..)
      rw [this] at hnil
      simp [Regex.sym] at hnil
  · obtain ⟨A, h, hA⟩ := of_outcome (r := parse {} exAfter.nodes) (ps := [(0, 0), (97, 97)])
      (ts := [([109], ⟨0, [(1, 0)], [(0, [(1, 1, 0)]), (1, [(1, 1, 0)])]⟩)]) (by decide +kernel)
    refine ⟨A, _, h, [((97, 97), 0)], 0, ⟨1, .cons ⟨1, decode_of hA 1 _ rfl, ?_⟩ (.nil _), ?_⟩, rfl, rfl, rfl⟩
    · unfold Edge; decide
    · unfold Final; decide

/-- ` *a` -/
def spaceStarA : Regex.Alt := .one (.more (.letter 32 .star) (.one (.letter 97 .none)))

/-- **C69** does not hold for the refusal of readings that begin with a space: the entry of nothing/`x` followed by ` *a` is accepted,
since the state reached by the space has been visited already. -/
theorem C69_spaces_false : SecGives {} (oneSection [[.text [] [120], .re spaceStarA.print]]) [109] [32, 97] [120, 32, 97] ∧
    ∃ A t, parse {} (oneSection [[.text [] [120], .re spaceStarA.print]]).nodes = .ok (A, [([109], t)]) ∧ Relates A t [32, 97] [120, 32, 97] 0 := by
  constructor
  · refine oneSection_gives.2 ⟨rfl, _, List.mem_cons_self .., ?_⟩
    refine Gives.text (l := []) (r := [120]) (l' := [32, 97]) (r' := [32, 97]) ?_
    refine Gives.re (e := spaceStarA) (u := [32, 97]) (l' := []) (r' := []) ?_ ?_ .nil
    · exact ⟨trivial, trivial⟩
    · exact ⟨[32], [97], ⟨[[32]], by simp [Regex.sym], rfl⟩, rfl, rfl⟩
  · obtain ⟨A, h, hA⟩ := of_outcome (r := parse {} (oneSection [[.text [] [120], .re spaceStarA.print]]).nodes)
      (ps := [(0, 0), (0, 120), (32, 32), (97, 97)])
      (ts := [([109], ⟨0, [(2, 0)], [(0, [(1, 1, 0)]), (1, [(2, 1, 0), (3, 2, 0)]), (2, [])]⟩)]) (by decide +kernel)
    refine ⟨A, _, h, [((0, 120), 0), ((32, 32), 0), ((97, 97), 0)], 0, ⟨2, .cons (r := 1) ⟨1, decode_of hA 1 _ rfl, ?_⟩
      (.cons (r := 1) ⟨2, decode_of hA 2 _ rfl, ?_⟩ (.cons ⟨3, decode_of hA 3 _ rfl, ?_⟩ (.nil _))), ?_⟩, rfl, rfl, rfl⟩
    · unfold Edge; decide
    · unfold Edge; decide
    · unfold Edge; decide
    · unfold Final; decide

/-- **C69** does not hold with equivalent characters: with `á` for `a`, the entries `ab`/`ab` and `ác`/`ac` together accept `ac`. -/
theorem C69_acx_false : ¬ SecGives { acx := [(97, [225])] } (oneSection [[.text [97, 98] [97, 98]], [.text [225, 99] [97, 99]]]) [109] [97, 99] [97, 99] ∧
    ∃ A t, parse { acx := [(97, [225])] } (oneSection [[.text [97, 98] [97, 98]], [.text [225, 99] [97, 99]]]).nodes = .ok (A, [([109], t)]) ∧
      Relates A t [97, 99] [97, 99] 0 := by
  constructor
  · intro h
    obtain ⟨-, es, hes, h⟩ := oneSection_gives.1 h
    simp only [List.mem_cons, List.not_mem_nil, or_false] at hes
    rcases hes with rfl | rfl
    · exact absurd (gives_text h).1 (by decide)
    · exact absurd (gives_text h).1 (by decide)
  · obtain ⟨A, h, hA⟩ := of_outcome (r := parse { acx := [(97, [225])] } (oneSection [[.text [97, 98] [97, 98]], [.text [225, 99] [97, 99]]]).nodes)
      (ps := [(0, 0), (97, 97), (225, 97), (98, 98), (99, 99)])
      (ts := [([109], ⟨0, [(2, 0)], [(0, [(1, 1, 0), (2, 1, 0)]), (1, [(3, 2, 0), (4, 2, 0)]), (2, [])]⟩)]) (by decide +kernel)
    refine ⟨A, _, h, [((97, 97), 0), ((99, 99), 0)], 0, ⟨2, .cons (r := 1) ⟨1, decode_of hA 1 _ rfl, ?_⟩
      (.cons ⟨4, decode_of hA 4 _ rfl, ?_⟩ (.nil _)), ?_⟩, rfl, rfl, rfl⟩
    · unfold Edge; decide
    · unfold Edge; decide
    · unfold Final; decide

/-- One section with these weighted entries. -/
def weighted (pars : List (Nat × List (CEntry Nat Nat))) (es : List (CEntry Nat Nat)) : File Nat Nat := { pars := pars, secs := [([109], es)] }

/-- What holds of the weights of the paths from the states holds of all weights. -/
theorem relates_weight {A : Alphabet} {t : Transducer Nat} (P : Nat → Nat → Prop) (hE : ∀ q l p, Edge t q l p → ∀ w, P p w → P q (l.2 + w))
    (hF : ∀ p fw, Final t p fw → P p fw) {xs ys : List Int} {w : Nat} (h : Relates A t xs ys w) : P t.initial w := by
  obtain ⟨ls, fw, ⟨p, hp, hf⟩, -, -, rfl⟩ := h
  have : ∀ q ls, Path (PairEdge A t) q ls p → P q ((ls.map (·.2)).sum + fw) := by
    intro q ls h
    induction h with
    | nil q => simpa using hF _ _ hf
    | cons h1 _ ih =>
      obtain ⟨c, -, h1⟩ := h1
      have := hE _ _ _ h1 _ (ih hp hf)
      simpa [Nat.add_assoc] using this
  exact this _ _ hp

/-- **C56** does not hold of an entry with two texts: its weight is put on both, so an entry of weight 5 weighs 10, and not 5. -/
theorem C56_weight_twice_false :
    ∃ A t, parse {} (weighted [] [entry [.text [97] [97], .text [98] [98]] 5]).nodes = .ok (A, [([109], t)]) ∧
      Relates A t [97, 98] [97, 98] 10 ∧ ¬ Relates A t [97, 98] [97, 98] 5 := by
  obtain ⟨A, h, hA⟩ := of_outcome (r := parse {} (weighted [] [entry [.text [97] [97], .text [98] [98]] 5]).nodes)
    (ps := [(0, 0), (97, 97), (98, 98)])
    (ts := [([109], ⟨0, [(2, 0)], [(0, [(1, 1, 5)]), (1, [(2, 2, 5)]), (2, [])]⟩)]) (by decide +kernel)
  refine ⟨A, _, h, ⟨[((97, 97), 5), ((98, 98), 5)], 0, ⟨2, .cons (r := 1) ⟨1, decode_of hA 1 _ rfl, ?_⟩
      (.cons ⟨2, decode_of hA 2 _ rfl, ?_⟩ (.nil _)), ?_⟩, rfl, rfl, rfl⟩, ?_⟩
  · unfold Edge; decide
  · unfold Edge; decide
  · unfold Final; decide
  · intro h
    have := relates_weight (fun q w => w = if q = 0 then 10 else if q = 1 then 5 else 0) ?_ ?_ h
    · exact absurd this (by decide)
    · intro q l p h w hw
      unfold Edge at h
      match q, h with
      | 0, h => simp [row, mapFind] at h; simp_all
      | 1, h => simp [row, mapFind] at h; simp_all
      | 2, h => simp [row, mapFind] at h
      | q + 3, h => simp [row, mapFind] at h
    · intro p fw h
      unfold Final at h
      simp_all

/-- **C56** does not hold of an entry that is only a paradigm: its weight is lost. -/
theorem C56_weight_lost_false :
    ∃ A t, parse {} (weighted [(0, [entry [.text [97] [97]]])] [entry [.par 0] 5]).nodes = .ok (A, [([109], t)]) ∧
      Relates A t [97] [97] 0 ∧ ¬ Relates A t [97] [97] 5 := by
  obtain ⟨A, h, hA⟩ := of_outcome (r := parse {} (weighted [(0, [entry [.text [97] [97]]])] [entry [.par 0] 5]).nodes)
    (ps := [(0, 0), (97, 97)])
    (ts := [([109], ⟨0, [(1, 0)], [(0, [(1, 1, 0)]), (1, [])]⟩)]) (by decide +kernel)
  refine ⟨A, _, h, ⟨[((97, 97), 0)], 0, ⟨1, .cons ⟨1, decode_of hA 1 _ rfl, ?_⟩ (.nil _), ?_⟩, rfl, rfl, rfl⟩, ?_⟩
  · unfold Edge; decide
  · unfold Final; decide
  · intro h
    have := relates_weight (fun q w => w = 0) ?_ ?_ h
    · exact absurd this (by decide)
    · intro q l p h w hw
      unfold Edge at h
      match q, h with
      | 0, h => simp [row, mapFind] at h; simp_all
      | 1, h => simp [row, mapFind] at h
      | q + 2, h => simp [row, mapFind] at h
    · intro p fw h
      unfold Final at h
      simp_all

/-- **C56** does not hold of an entry whose letters are already there with other weights: the second of `a` with weight 0 and `a` with
weight 5 is dropped, and nothing of weight 5 is left. -/
theorem C56_weight_shared_false :
    ∃ A t, parse {} (weighted [] [entry [.text [97] [97]], entry [.text [97] [97]] 5, entry [.text [97, 98] [97, 98]] 7]).nodes =
      .ok (A, [([109], t)]) ∧ Relates A t [97] [97] 0 ∧ ¬ Relates A t [97] [97] 5 := by
  obtain ⟨A, h, hA⟩ := of_outcome (r := parse {} (weighted [] [entry [.text [97] [97]], entry [.text [97] [97]] 5,
      entry [.text [97, 98] [97, 98]] 7]).nodes)
    (ps := [(0, 0), (97, 97), (98, 98)])
    (ts := [([109], ⟨0, [(1, 0), (2, 0)], [(0, [(1, 1, 0)]), (1, [(2, 2, 7)]), (2, [])]⟩)]) (by decide +kernel)
  refine ⟨A, _, h, ⟨[((97, 97), 0)], 0, ⟨1, .cons ⟨1, decode_of hA 1 _ rfl, ?_⟩ (.nil _), ?_⟩, rfl, rfl, rfl⟩, ?_⟩
  · unfold Edge; decide
  · unfold Final; decide
  · intro h
    have := relates_weight (fun q w => w = 0 ∨ (q ≠ 2 ∧ w = 7)) ?_ ?_ h
    · exact absurd this (by decide)
    · intro q l p h w hw
      unfold Edge at h
      match q, h with
      | 0, h => simp [row, mapFind] at h; simp_all
      | 1, h => simp [row, mapFind] at h; simp_all
      | 2, h => simp [row, mapFind] at h
      | q + 3, h => simp [row, mapFind] at h
    · intro p fw h
      unfold Final at h
      simp only [List.mem_cons, Prod.mk.injEq, List.not_mem_nil, or_false] at h
      rcases h with ⟨rfl, rfl⟩ | ⟨rfl, rfl⟩ <;> simp

end Verif.Compiler
