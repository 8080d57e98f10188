import Verif.Att.Classify
import Verif.Product.Check

/-! # C70: what a compiled AT&T file relates -/

namespace Verif.Att

open Verif.Fst Verif.Alphabet Verif.Product

section
variable {W : Type} [AddMonoid W]

theorem parse_read {σ : Setting W} {ls : List Line} (h : FileWF σ ls) :
    ∃ c ss E start, ReadFile σ ls c ss E start ∧ parse σ (fileText ls) {} = (if σ.splitting then do
      let g ← classifyForwards start c.graph
      let (_, g) ← classifyBackwards c.finals (c.graph.length + 2) start [] g
      pure { c with start, graph := g } else .ok { c with start }) := by
  obtain ⟨p, ss, E, e, hr, hs⟩ := read_file h
  have e0 : ({ ({} : Compiler W) with graph := [], alphabet := .empty }) = ({} : Compiler W) := rfl
  cases hm : p.multiple with
  | true =>
    rw [hm] at hr
    have e1 : p.c = { p.c with start := 0 } := by rw [← hs]
    refine ⟨p.c, ss, E, 0, hr, ?_⟩
    simp only [parse]
    rw [e0, e]
    simp only [Res.bind_ok, hm, if_true]
    rw [← e1, hs]
    rfl
  | false =>
    rw [hm] at hr
    refine ⟨p.c, ss, E, 1, hr, ?_⟩
    simp only [parse]
    rw [e0, e]
    simp only [Res.bind_ok, hm]
    rfl

/-- **C70** A well-formed file is compiled, and without splitting the result relates what the file says: nothing else is related, not
even with another weight; everything is related with some weight; and if the lines do not contradict each other, with the same one. -/
theorem C70_file (σ : Setting W) (hσ : σ.splitting = false) (ls : List Line) (h : FileWF σ ls) :
    ∃ a t, compileText σ (fileText ls) = .ok (a, t, none) ∧
      (∀ X Y w, NamesRelate a t X Y w → FileMeans σ ls X Y w) ∧
      (∀ X Y w, FileMeans σ ls X Y w → ∃ v, NamesRelate a t X Y v) ∧
      (OneWeight σ ls → ∀ X Y w, NamesRelate a t X Y w ↔ FileMeans σ ls X Y w) := by
  obtain ⟨c, ss, E, start, hr, e⟩ := parse_read h
  simp only [hσ, Bool.false_eq_true, if_false] at e
  obtain ⟨t, corr, visited, et, hx⟩ := extractTransducer_spec 0 { c with start } hr.good.sorted
  have hs : ∀ X Y w, NamesRelate c.alphabet t X Y w → FileMeans σ ls X Y w := fun X Y w hn => named_sound hr hx rfl rfl (fun _ _ _ hk => hk) hn
  refine ⟨c.alphabet, t, ?_, hs, ?_, ?_⟩
  · simp only [compileText, e, Res.bind_ok, sections, hσ, Bool.false_eq_true, if_false, et, Res.pure_eq]
  · intro X Y w hm
    obtain ⟨v, hv, -⟩ := named_complete hr hx rfl rfl rfl hm
    exact ⟨v, hv⟩
  · intro ho X Y w
    refine ⟨hs X Y w, fun hm => ?_⟩
    obtain ⟨v, hv, hw⟩ := named_complete hr hx rfl rfl rfl hm
    exact hw ho ▸ hv

/-- If a file with one transducer only begins with a line of state 0, both readings of the format agree. -/
theorem fileMeans_iff {σ : Setting W} {ls : List Line} (h0 : ∀ rows, segments ls = [rows] → ∀ r, rows.head? = some r → r.source = 0) (X Y : List Name) (w : W) :
    FileMeans σ ls X Y w ↔ FileRelates σ ls X Y w := by
  unfold FileMeans FileRelates
  have : ∀ rows ∈ segments ls, ∀ r, rows.head? = some r → (if (segments ls).length = 1 then 0 else r.source) = r.source := by
    intro rows hrows r hr
    split
    · next hl =>
      obtain ⟨x, hx⟩ := List.length_eq_one_iff.1 hl
      rw [hx, List.mem_singleton] at hrows
      subst hrows
      exact (h0 rows hx r hr).symm
    · rfl
  constructor
  · rintro ⟨rows, h1, r, h2, h3⟩
    exact ⟨rows, h1, r, h2, this rows h1 r h2 ▸ h3⟩
  · rintro ⟨rows, h1, r, h2, h3⟩
    exact ⟨rows, h1, r, h2, (this rows h1 r h2).symm ▸ h3⟩

/-- **C70** The same with the initial states that the format prescribes: missing is the case of a file with one transducer only that begins with
another state than 0 (see `C70_start_false`). -/
theorem C70_relates_partial (σ : Setting W) (hσ : σ.splitting = false) (ls : List Line) (h : FileWF σ ls)
    (h0 : ∀ rows, segments ls = [rows] → ∀ r, rows.head? = some r → r.source = 0) (h1 : OneWeight σ ls) :
    ∃ a t, compileText σ (fileText ls) = .ok (a, t, none) ∧ ∀ X Y w, NamesRelate a t X Y w ↔ FileRelates σ ls X Y w := by
  obtain ⟨a, t, e, -, -, h2⟩ := C70_file σ hσ ls h
  exact ⟨a, t, e, fun X Y w => (h2 h1 X Y w).trans (fileMeans_iff h0 X Y w)⟩

/-- **C70** With splitting, compilation of a well-formed file ends with a message or with sections that relate nothing but what the file says. Missing:
the sections together need not relate all of it (see `C70_split_false`). -/
theorem C70_split_partial (σ : Setting W) (hσ : σ.splitting = true) (ls : List Line) (h : FileWF σ ls) :
    compileText σ (fileText ls) = .exit ∨ ∃ a t o, compileText σ (fileText ls) = .ok (a, t, o) ∧
      (∀ X Y w, NamesRelate a t X Y w → FileMeans σ ls X Y w) ∧ ∀ t', o = some t' → ∀ X Y w, NamesRelate a t' X Y w → FileMeans σ ls X Y w := by
  obtain ⟨c, ss, E, start, hr, e⟩ := parse_read h
  rw [hσ] at e
  obtain ⟨g1, e1, e2⟩ := classify_ends start c.finals hr.good.built.sorted
  simp only [if_true, e1, Res.bind_ok] at e
  rcases e2 with e2 | ⟨ty, g, e2, hg⟩
  · left
    rw [e2] at e
    simp only [compileText, e]
    rfl
  · right
    rw [e2] at e
    simp only [Res.bind_ok, Res.pure_eq] at e
    obtain ⟨t, corr, visited, et, hx⟩ := extractTransducer_spec 1 { c with start, graph := g } hr.good.sorted
    obtain ⟨t', corr', visited', et', hx'⟩ := extractTransducer_spec 2 { c with start, graph := g } hr.good.sorted
    refine ⟨c.alphabet, t, if numberOfTransitions t' > 0 then some t' else none, ?_, ?_, ?_⟩
    · simp only [compileText, e, Res.bind_ok, sections, hσ, if_true, et, et', Res.pure_eq]
    · intro X Y w hn
      exact named_sound hr hx rfl rfl (fun _ _ _ hk => kept_of_strip hg hk) hn
    · intro t2 ht X Y w hn
      split at ht
      · cases ht
        exact named_sound hr hx' rfl rfl (fun _ _ _ hk => kept_of_strip hg hk) hn
      · cases ht

end

/-! ## Cases -/

/-- Characters for the examples. -/
def asciiChars : Chars where
  isPunct c := c = 0x21 ∨ c = 0x3f
  isSpace c := c = 0x20
  isLower c := 0x61 ≤ c ∧ c ≤ 0x7a
  isUpper c := 0x41 ≤ c ∧ c ≤ 0x5a
  toUpper c := c - 0x20
  toLower c := c + 0x20

/-- Weights that are natural numbers. -/
def natSetting (splitting : Bool) : Setting Nat where
  readRl := false
  hfstSymbols := false
  splitting := splitting
  chars := asciiChars
  stod s := match s with
    | [u] => if 0x30 ≤ u ∧ u ≤ 0x39 then some (u.toNat - 0x30) else none
    | _ => none

theorem denotes_text {s : UString} {cs : List Nat} {X : List Name} (he : enc cs = s) (hX : X = cs.map fun (c : Nat) => Name.letter (c : Int)) (h0 : cs ≠ [])
    (h1 : ∀ c ∈ cs, Scalar c ∧ c ≠ 0) (h2 : s ∉ reserved false) (h3 : isTag s = false) : Denotes false s X := by
  subst he hX
  refine .text h0 h1 h2 ?_
  rw [← isTag_iff, h3]
  simp

theorem denotes_tag {s : UString} (h : isTag s = true) : Denotes false s [.tag s] := .tag ((isTag_iff s).1 h)

/-- Two transducers. -/
def twoFile : List Line :=
  [.row (.arc [0] [1] (str "ab") (str "<n>") (some (str "3"))), .blank, .row (.final [1] (some (str "2"))), .sep (str "-") [],
    .row (.arc [5] [6] (str "@0@") (str "c") none), .row (.final [6] none)]

theorem den_ab : Denotes false (str "ab") [.letter 0x61, .letter 0x62] := denotes_text (cs := [0x61, 0x62]) (by decide) rfl (by decide) (by simp [Scalar]) (by decide) (by decide)
theorem den_n : Denotes false (str "<n>") [.tag (str "<n>")] := denotes_tag (by decide)
theorem den_c : Denotes false (str "c") [.letter 0x63] := denotes_text (cs := [0x63]) (by decide) rfl (by decide) (by simp [Scalar]) (by decide) (by decide)
theorem den_a : Denotes false (str "a") [.letter 0x61] := denotes_text (cs := [0x61]) (by decide) rfl (by decide) (by simp [Scalar]) (by decide) (by decide)
theorem den_b : Denotes false (str "b") [.letter 0x62] := denotes_text (cs := [0x62]) (by decide) rfl (by decide) (by simp [Scalar]) (by decide) (by decide)

theorem arc_wf {σ : Setting Nat} {src dst : Digits} {c2 c3 : UString} {w : Option UString} (h1 : src.WF) (h2 : dst.WF) (h3 : ∃ x, Denotes σ.hfstSymbols c2 x)
    (h4 : ∃ x, Denotes σ.hfstSymbols c3 x) (h5 : ∃ v, Weighs σ w v) (h6 : ∀ s ∈ (Row.arc src dst c2 c3 w).columns, ∀ u ∈ s, u ≠ 0x09 ∧ u ≠ 0x0a ∧ u ≠ 0xffff) :
    Row.WF σ (.arc src dst c2 c3 w) := by
  refine ⟨h6, ?_, ?_⟩
  · rintro _ _ _ _ _ ⟨⟩
    exact ⟨h1, h2, h3, h4, h5⟩
  · rintro _ _ ⟨⟩

theorem final_wf {σ : Setting Nat} {src : Digits} {w : Option UString} (h1 : src.WF) (h5 : ∃ v, Weighs σ w v)
    (h6 : ∀ s ∈ (Row.final src w).columns, ∀ u ∈ s, u ≠ 0x09 ∧ u ≠ 0x0a ∧ u ≠ 0xffff) : Row.WF σ (.final src w) := by
  refine ⟨h6, ?_, ?_⟩
  · rintro _ _ _ _ _ ⟨⟩
  · rintro _ _ ⟨⟩
    exact ⟨h1, h5⟩

theorem digits_wf {ds : Digits} (h : (!ds.isEmpty && ds.all (· < 10)) = true) : ds.WF := by
  simp only [Bool.and_eq_true, Bool.not_eq_true', List.all_eq_true, decide_eq_true_eq] at h
  exact ⟨by intro e; simp [e] at h, h.2⟩

theorem two_wf : FileWF (natSetting false) twoFile := by
  refine ⟨?_, ?_, ?_, ?_, by decide⟩
  · intro r hr
    simp only [twoFile, List.mem_cons, Line.row.injEq, reduceCtorEq, List.not_mem_nil, or_false, false_or] at hr
    rcases hr with rfl | rfl | rfl | rfl
    · exact arc_wf (digits_wf rfl) (digits_wf rfl) ⟨_, den_ab⟩ ⟨_, den_n⟩ ⟨3, rfl⟩ (by decide)
    · exact final_wf (digits_wf rfl) ⟨2, rfl⟩ (by decide)
    · exact arc_wf (digits_wf rfl) (digits_wf rfl) ⟨_, .short⟩ ⟨_, den_c⟩ ⟨0, rfl⟩ (by decide)
    · exact final_wf (digits_wf rfl) ⟨0, rfl⟩ (by decide)
  · intro s cols hs
    simp only [twoFile, List.mem_cons, Line.sep.injEq, reduceCtorEq, List.not_mem_nil, or_false, false_or] at hs
    obtain ⟨rfl, rfl⟩ := hs
    show ∀ c ∈ _, ∀ u ∈ c, _
    decide
  · show ∀ rows ∈ ([[Row.arc _ _ _ _ _, _]] : List (List Row)), _
    decide
  · intro rows hrows src
    have : segments twoFile = [[.arc [0] [1] (str "ab") (str "<n>") (some (str "3")), .final [1] (some (str "2"))],
      [.arc [5] [6] (str "@0@") (str "c") none, .final [6] none]] := rfl
    rw [this] at hrows
    simp only [List.mem_cons, List.not_mem_nil, or_false] at hrows
    rcases hrows with rfl | rfl <;> simp

/-- Every line has its own source, so there is nothing to contradict. -/
theorem oneWeight_of {σ : Setting Nat} {ls : List Line} (h : ∀ rows ∈ segments ls, rows.Pairwise fun r r' => r.source ≠ r'.source) : OneWeight σ ls := by
  intro rows hrows
  have key : ∀ r ∈ rows, ∀ r' ∈ rows, r.source = r'.source → r = r' := by
    intro r hr r' hr' e
    obtain ⟨i, hi, rfl⟩ := List.getElem_of_mem hr
    obtain ⟨j, hj, rfl⟩ := List.getElem_of_mem hr'
    have hp := List.pairwise_iff_getElem.1 (h rows hrows)
    rcases Nat.lt_trichotomy i j with hij | rfl | hij
    · exact absurd e (hp i j hi hj hij)
    · rfl
    · exact absurd e.symm (hp j i hj hi hij)
  constructor
  · rintro q l w v p ⟨a1, a2, a3, a4, a5, hm, e1, -, -, -, hw⟩ ⟨b1, b2, b3, b4, b5, hm', e1', -, -, -, hv⟩
    cases key _ hm _ hm' (e1.trans e1'.symm)
    exact weighs_unique hw hv
  · rintro p w v ⟨a1, a2, hm, e1, hw⟩ ⟨b1, b2, hm', e1', hv⟩
    cases key _ hm _ hm' (e1.trans e1'.symm)
    exact weighs_unique hw hv

theorem two_one : OneWeight (natSetting false) twoFile := oneWeight_of (by decide)

/-- The hypotheses of `C70_file` and `C70_relates_partial` hold of this file, and both of its transducers relate something. -/
example : FileWF (natSetting false) twoFile ∧ OneWeight (natSetting false) twoFile ∧ (∀ rows, segments twoFile = [rows] → ∀ r, rows.head? = some r → r.source = 0) ∧
    FileRelates (natSetting false) twoFile [.letter 0x61, .letter 0x62] [.tag (str "<n>")] 5 ∧ FileRelates (natSetting false) twoFile [] [.letter 0x63] 0 := by
  refine ⟨two_wf, two_one, ?_, ?_, ?_⟩
  · intro rows h
    have := congrArg List.length h
    cases this
  · refine ⟨_, List.mem_cons_self, _, rfl, [(([.letter 0x61, .letter 0x62], [.tag (str "<n>")]), 3)], 1, 2, .single ?_, ⟨[1], some (str "2"), by simp, rfl, rfl⟩, rfl, rfl, rfl⟩
    exact ⟨[0], [1], str "ab", str "<n>", some (str "3"), by simp, rfl, rfl, den_ab, den_n, rfl⟩
  · refine ⟨_, List.mem_cons_of_mem _ List.mem_cons_self, _, rfl, [(([], [.letter 0x63]), 0)], 6, 0, .single ?_, ⟨[6], none, by simp, rfl, rfl⟩, rfl, rfl, rfl⟩
    exact ⟨[5], [6], str "@0@", str "c", none, by simp, rfl, rfl, .short, den_c, rfl⟩

/-- One transducer whose first line is not one of state 0. -/
def lateFile : List Line := [.row (.arc [1] [2] (str "a") (str "b") none), .row (.final [2] none)]

/-- **C70** The source of the first line is not always the initial state: in a file with one transducer only it is state 0, so this file compiles to
a transducer that relates nothing. -/
theorem C70_start_false : ¬ ∀ (σ : Setting Nat) (ls : List Line), σ.splitting = false → FileWF σ ls → OneWeight σ ls →
    ∃ a t, compileText σ (fileText ls) = .ok (a, t, none) ∧ ∀ X Y w, NamesRelate a t X Y w ↔ FileRelates σ ls X Y w := by
  intro h
  have hwf : FileWF (natSetting false) lateFile := by
    refine ⟨?_, ?_, ?_, ?_, by decide⟩
    · intro r hr
      simp only [lateFile, List.mem_cons, Line.row.injEq, List.not_mem_nil, or_false] at hr
      rcases hr with rfl | rfl
      · exact arc_wf (digits_wf rfl) (digits_wf rfl) ⟨_, den_a⟩ ⟨_, den_b⟩ ⟨0, rfl⟩ (by decide)
      · exact final_wf (digits_wf rfl) ⟨0, rfl⟩ (by decide)
    · intro s cols hs
      simp [lateFile] at hs
    · intro rows hrows; cases hrows
    · intro rows hrows src
      have : segments lateFile = [[.arc [1] [2] (str "a") (str "b") none, .final [2] none]] := rfl
      rw [this, List.mem_singleton] at hrows
      subst hrows
      simp
  have hone : OneWeight (natSetting false) lateFile := oneWeight_of (by decide)
  obtain ⟨a, t, e, h1⟩ := h (natSetting false) lateFile rfl hwf hone
  obtain ⟨a', t', e', h2, -, -⟩ := C70_file (natSetting false) rfl lateFile hwf
  rw [e] at e'
  cases e'
  have hr : FileRelates (natSetting false) lateFile [.letter 0x61] [.letter 0x62] 0 := by
    refine ⟨_, List.mem_cons_self, _, rfl, [(([.letter 0x61], [.letter 0x62]), 0)], 2, 0, .single ?_, ⟨[2], none, by simp, rfl, rfl⟩, rfl, rfl, rfl⟩
    exact ⟨[1], [2], str "a", str "b", none, by simp, rfl, rfl, den_a, den_b, rfl⟩
  obtain ⟨rows, hrows, r, hr, ls, p, fw, hp, hf, hX, -, -⟩ := h2 _ _ _ ((h1 _ _ _).2 hr)
  have : segments lateFile = [[.arc [1] [2] (str "a") (str "b") none, .final [2] none]] := rfl
  rw [this, List.mem_singleton] at hrows
  subst hrows
  cases hp with
  | nil => cases hX
  | cons he _ =>
    obtain ⟨a1, a2, a3, a4, a5, hm, e1, -⟩ := he
    simp only [List.mem_cons, Row.arc.injEq, reduceCtorEq, List.not_mem_nil, or_false] at hm
    obtain ⟨rfl, -⟩ := hm
    cases e1

/-- A loop-free file without punctuation; the two ways to state 2 differ in that one of them reads letters. -/
def lostFile : List Line :=
  [.row (.arc [0] [1] (str "a") (str "a") none), .row (.arc [0] [2] (str "@0@") (str "<x>") none), .row (.arc [1] [2] (str "b") (str "b") none),
    .row (.arc [2] [3] (str "@0@") (str "<n>") none), .row (.arc [3] [4] (str "@0@") (str "<y>") none), .row (.final [4] none)]

/-- **C70** With splitting, which is the default, a file may lose everything: the types of arcs are not carried on from a state that was visited
before, so the last arc of this file is in no section, and the only section that is written has no final state. -/
theorem C70_split_false : ¬ ∀ (σ : Setting Nat) (ls : List Line) (a : Alphabet) (t : Transducer Nat) (o : Option (Transducer Nat)), σ.splitting = true → FileWF σ ls →
    compileText σ (fileText ls) = .ok (a, t, o) → ∀ X Y w, FileMeans σ ls X Y w → ∃ v, NamesRelate a t X Y v ∨ ∃ t', o = some t' ∧ NamesRelate a t' X Y v := by
  intro h
  have hwf : FileWF (natSetting true) lostFile := by
    refine ⟨?_, ?_, ?_, ?_, by decide⟩
    · intro r hr
      simp only [lostFile, List.mem_cons, Line.row.injEq, List.not_mem_nil, or_false] at hr
      have dx : Denotes false (str "<x>") [.tag (str "<x>")] := denotes_tag (by decide)
      have dy : Denotes false (str "<y>") [.tag (str "<y>")] := denotes_tag (by decide)
      rcases hr with rfl | rfl | rfl | rfl | rfl | rfl
      · exact arc_wf (digits_wf rfl) (digits_wf rfl) ⟨_, den_a⟩ ⟨_, den_a⟩ ⟨0, rfl⟩ (by decide)
      · exact arc_wf (digits_wf rfl) (digits_wf rfl) ⟨_, .short⟩ ⟨_, dx⟩ ⟨0, rfl⟩ (by decide)
      · exact arc_wf (digits_wf rfl) (digits_wf rfl) ⟨_, den_b⟩ ⟨_, den_b⟩ ⟨0, rfl⟩ (by decide)
      · exact arc_wf (digits_wf rfl) (digits_wf rfl) ⟨_, .short⟩ ⟨_, den_n⟩ ⟨0, rfl⟩ (by decide)
      · exact arc_wf (digits_wf rfl) (digits_wf rfl) ⟨_, .short⟩ ⟨_, dy⟩ ⟨0, rfl⟩ (by decide)
      · exact final_wf (digits_wf rfl) ⟨0, rfl⟩ (by decide)
    · intro s cols hs
      simp [lostFile] at hs
    · intro rows hrows; cases hrows
    · intro rows hrows src
      have : segments lostFile = [[.arc [0] [1] (str "a") (str "a") none, .arc [0] [2] (str "@0@") (str "<x>") none, .arc [1] [2] (str "b") (str "b") none,
        .arc [2] [3] (str "@0@") (str "<n>") none, .arc [3] [4] (str "@0@") (str "<y>") none, .final [4] none]] := rfl
      rw [this, List.mem_singleton] at hrows
      subst hrows
      simp
  have hc : (match compileText (natSetting true) (fileText lostFile) with
      | .ok (_, t, none) => t.finals.isEmpty
      | _ => false) = true := by decide +kernel
  cases e : compileText (natSetting true) (fileText lostFile) with
  | exit => rw [e] at hc; cases hc
  | exception => rw [e] at hc; cases hc
  | ub => rw [e] at hc; cases hc
  | ok r =>
    obtain ⟨a, t, o⟩ := r
    rw [e] at hc
    cases o with
    | some t' => cases hc
    | none =>
      have hm : FileMeans (natSetting true) lostFile [.letter 0x61, .letter 0x62] [.letter 0x61, .letter 0x62, .tag (str "<n>"), .tag (str "<y>")] 0 := by
        refine ⟨_, List.mem_cons_self, _, rfl, [(([.letter 0x61], [.letter 0x61]), 0), (([.letter 0x62], [.letter 0x62]), 0), (([], [.tag (str "<n>")]), 0),
          (([], [.tag (str "<y>")]), 0)], 4, 0, ?_, ⟨[4], none, by simp, rfl, rfl⟩, rfl, rfl, rfl⟩
        refine .cons (r := 1) ⟨[0], [1], str "a", str "a", none, by simp, rfl, rfl, den_a, den_a, rfl⟩ (.cons (r := 2)
          ⟨[1], [2], str "b", str "b", none, by simp, rfl, rfl, den_b, den_b, rfl⟩ (.cons (r := 3) ⟨[2], [3], str "@0@", str "<n>", none, by simp, rfl, rfl, .short, den_n, rfl⟩
          (.single ⟨[3], [4], str "@0@", str "<y>", none, by simp, rfl, rfl, .short, denotes_tag (by decide), rfl⟩)))
      obtain ⟨v, hv | ⟨t', ht', -⟩⟩ := h _ _ a t none rfl hwf e _ _ _ hm
      · obtain ⟨xs, fw, ⟨p, -, hf⟩, -⟩ := hv
        rw [Final, List.isEmpty_iff.1 hc] at hf
        cases hf
      · cases ht'

/-- Two lines that differ in their weights only. -/
def twiceFile : List Line :=
  [.row (.arc [0] [1] (str "a") (str "b") (some (str "5"))), .row (.arc [0] [1] (str "a") (str "b") (some (str "3"))), .row (.final [1] none)]

theorem twice_wf : FileWF (natSetting false) twiceFile := by
  refine ⟨?_, ?_, ?_, ?_, by decide⟩
  · intro r hr
    simp only [twiceFile, List.mem_cons, Line.row.injEq, List.not_mem_nil, or_false] at hr
    rcases hr with rfl | rfl | rfl
    · exact arc_wf (digits_wf rfl) (digits_wf rfl) ⟨_, den_a⟩ ⟨_, den_b⟩ ⟨5, rfl⟩ (by decide)
    · exact arc_wf (digits_wf rfl) (digits_wf rfl) ⟨_, den_a⟩ ⟨_, den_b⟩ ⟨3, rfl⟩ (by decide)
    · exact final_wf (digits_wf rfl) ⟨0, rfl⟩ (by decide)
  · intro s cols hs
    simp [twiceFile] at hs
  · intro rows hrows; cases hrows
  · intro rows hrows src
    have : segments twiceFile = [[.arc [0] [1] (str "a") (str "b") (some (str "5")), .arc [0] [1] (str "a") (str "b") (some (str "3")), .final [1] none]] := rfl
    rw [this, List.mem_singleton] at hrows
    subst hrows
    simp

theorem twice_five {a : Alphabet} {t : Transducer Nat} {o : Option (Transducer Nat)} (e : compileText (natSetting false) (fileText twiceFile) = .ok (a, t, o)) :
    checkWF t = true ∧ ∀ x ∈ arcsOf t.transitions, x.2.2.2 = 5 := by
  have hc : (match compileText (natSetting false) (fileText twiceFile) with
      | .ok (_, t, _) => checkWF t && (arcsOf t.transitions).all fun e => e.2.2.2 = 5
      | _ => false) = true := by decide +kernel
  rw [e] at hc
  simpa only [Bool.and_eq_true, List.all_eq_true, decide_eq_true_eq] using hc

theorem twice_means : FileMeans (natSetting false) twiceFile [.letter 0x61] [.letter 0x62] 3 := by
  refine ⟨_, List.mem_cons_self, _, rfl, [(([.letter 0x61], [.letter 0x62]), 3)], 1, 0, .single ?_, ⟨[1], none, by simp, rfl, rfl⟩, rfl, rfl, rfl⟩
  exact ⟨[0], [1], str "a", str "b", some (str "3"), by simp, rfl, rfl, den_a, den_b, rfl⟩

/-- **C70** Of two lines that differ in their weights only the second one has no effect: its weight is found nowhere. -/
theorem C70_weight_false : ¬ ∀ (σ : Setting Nat) (ls : List Line) (a : Alphabet) (t : Transducer Nat), σ.splitting = false → FileWF σ ls →
    compileText σ (fileText ls) = .ok (a, t, none) → ∀ X Y w, FileMeans σ ls X Y w → NamesRelate a t X Y w := by
  intro h
  obtain ⟨a, t, e, -, -, -⟩ := C70_file (natSetting false) rfl twiceFile twice_wf
  obtain ⟨hc, hc2⟩ := twice_five e
  obtain ⟨xs, fw, ⟨p, hp, -⟩, hX, -, hw⟩ := h _ _ a t rfl twice_wf e _ _ _ twice_means
  clear e h
  cases hp with
  | nil => cases hX
  | @cons _ r _ l xs he _ =>
    obtain ⟨l, w⟩ := l
    obtain ⟨tag, h1, -⟩ := namedEdge_iff.1 he
    have := hc2 _ ((edge_iff_arcs hc _ _ _).1 h1)
    simp only at this
    simp only [List.map_cons, List.sum_cons] at hw
    omega

/-- The hypotheses of `C70_split_partial` hold of this file, and both sections relate something. -/
def bothFile : List Line := [.row (.arc [0] [1] (str "a") (str "b") none), .row (.arc [0] [1] (str "!") (str "<n>") none), .row (.final [1] none)]

example : FileWF (natSetting true) bothFile ∧ ∃ a t t', compileText (natSetting true) (fileText bothFile) = .ok (a, t, some t') ∧
    numberOfTransitions t = 1 ∧ numberOfTransitions t' = 1 ∧ t.finals ≠ [] ∧ t'.finals ≠ [] := by
  refine ⟨⟨?_, ?_, ?_, ?_, by decide⟩, ?_⟩
  · intro r hr
    have de : Denotes false (str "!") [.letter 0x21] := denotes_text (cs := [0x21]) (by decide) rfl (by decide) (by simp [Scalar]) (by decide) (by decide)
    simp only [bothFile, List.mem_cons, Line.row.injEq, List.not_mem_nil, or_false] at hr
    rcases hr with rfl | rfl | rfl
    · exact arc_wf (digits_wf rfl) (digits_wf rfl) ⟨_, den_a⟩ ⟨_, den_b⟩ ⟨0, rfl⟩ (by decide)
    · exact arc_wf (digits_wf rfl) (digits_wf rfl) ⟨_, de⟩ ⟨_, den_n⟩ ⟨0, rfl⟩ (by decide)
    · exact final_wf (digits_wf rfl) ⟨0, rfl⟩ (by decide)
  · intro s cols hs
    simp [bothFile] at hs
  · intro rows hrows; cases hrows
  · intro rows hrows src
    have : segments bothFile = [[.arc [0] [1] (str "a") (str "b") none, .arc [0] [1] (str "!") (str "<n>") none, .final [1] none]] := rfl
    rw [this, List.mem_singleton] at hrows
    subst hrows
    simp
  · have hc : (match compileText (natSetting true) (fileText bothFile) with
      | .ok (_, t, some t') => decide (numberOfTransitions t = 1 ∧ numberOfTransitions t' = 1 ∧ t.finals ≠ [] ∧ t'.finals ≠ [])
      | _ => false) = true := by decide +kernel
    cases e : compileText (natSetting true) (fileText bothFile) with
    | exit => rw [e] at hc; cases hc
    | exception => rw [e] at hc; cases hc
    | ub => rw [e] at hc; cases hc
    | ok r =>
      obtain ⟨a, t, o⟩ := r
      rw [e] at hc
      cases o with
      | none => cases hc
      | some t' => exact ⟨a, t, t', rfl, of_decide_eq_true hc⟩

end Verif.Att
