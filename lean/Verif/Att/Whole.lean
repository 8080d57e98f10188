import Verif.Att.Extract

/-! # From the file to the transducer -/

namespace Verif.Att

open Verif.Fst Verif.Alphabet Verif.Product

variable {W : Type} [AddMonoid W]

/-- A graph that was read from a well-formed file: the transducers and the graph's arcs. -/
structure ReadFile (σ : Setting W) (ls : List Line) (c : Compiler W) (ss : Placed) (E : List (GE W)) (start : Int) : Prop where
  good : Good c E (PlacedTail σ ss) (PlacedFinal σ ss)
  parts : ss.map (·.2) = segments ls
  apart : ss.Pairwise fun s s' => ∀ r ∈ s.2, s.1 + r.top < s'.1
  pos : ∀ s ∈ ss, 1 ≤ s.1
  start : (start = 0 ∧ (segments ls).length ≠ 1) ∨ (start = 1 ∧ ∃ rows, ss = [(1, rows)])

theorem read_file {σ : Setting W} {ls : List Line} (h : FileWF σ ls) :
    ∃ p ss E, parseLines σ (splitLines (fileText ls)) { c := ({} : Compiler W) } = .ok p ∧ ReadFile σ ls p.c ss E (if p.multiple then 0 else 1) ∧ p.c.start = 0 := by
  have hi : Inv σ { c := ({} : Compiler W) } [] 1 [] := by
    refine ⟨⟨[], ⟨.refl, by simp [SortedKeys], ?_, ?_⟩, ?_, rfl, ?_, by simp [SortedKeys], ?_, ?_⟩, rfl, by simp, by simp [extent], by simp, by simp, by simp, by simp, by simp⟩
    · intro q arc ha; cases ha
    · intro q l w p
      constructor
      · rintro ⟨arc, ha, _⟩; cases ha
      · intro h; cases h
    · intro e he; cases he
    · intro q _ ls w d
      constructor
      · intro h; cases h <;> contradiction
      · rintro (⟨s, hs, n, m, X, Y, -, -, ⟨a, b, c, d, e, hm, -⟩, -⟩ | ⟨-, -, -, s, hs, r, hr, -⟩)
        · simp only [List.nil_append, List.mem_singleton] at hs; subst hs; cases hm
        · simp only [List.nil_append, List.mem_singleton] at hs; subst hs; cases hr
    · intro q w hm; cases hm
    · rintro q w ⟨s, hs, n, -, a, b, hm, -⟩
      simp only [List.nil_append, List.mem_singleton] at hs; subst hs; cases hm
  have hg := glue_nil (segments_ne ls)
  obtain ⟨p, done, off, cur, e, hp, hseg⟩ := lines_spec ls _ [] 1 [] hi h.rows (by rw [hg]; exact h.nonempty) (by rw [hg]; exact h.first)
    (by rw [hg]; simpa using h.room)
  rw [hg] at hseg
  obtain ⟨E, hE⟩ := hp.good
  refine ⟨p, done ++ [(off, cur)], E, ?_, ⟨hE, by simpa using hseg, hp.apart, hp.pos, ?_⟩, hE.start⟩
  · rw [splitLines_file ls (by
      intro l hl c hc
      cases l with
      | blank => simp only [Line.columns, List.mem_singleton] at hc; subst hc; intro u hu; cases hu
      | sep s cols => exact h.seps s cols hl c hc
      | row r => exact (h.rows r hl).columns c hc)]
    exact e
  · have hm := hp.multiple
    have hlen : (segments ls).length = done.length + 1 := by
      have := congrArg List.length hseg
      simpa using this.symm
    by_cases hd : done = []
    · right
      subst hd
      have hf : p.multiple = false := by
        cases hb : p.multiple with
        | false => rfl
        | true => exact absurd rfl (hm.1 hb)
      have := hp.space
      simp at this
      refine ⟨by simp [hf], cur, by simp [this]⟩
    · left
      refine ⟨by simp [hm.2 hd], ?_⟩
      cases done with
      | nil => exact absurd rfl hd
      | cons a b => simp at hlen; omega

omit [AddMonoid W] in
theorem namedEdge_iff {a : Alphabet} {t : Transducer W} {f d : Nat} {l : Lab} {w : W} :
    NamedEdge a t f (l, w) d ↔ ∃ tag, Edge t f (tag, w) d ∧ NamedTag a tag l := by
  constructor
  · rintro ⟨x, y, ⟨c, h1, h2⟩, h3, h4⟩
    exact ⟨c, h2, x, y, decode_iff.1 h1, h3, h4⟩
  · rintro ⟨c, h2, x, y, h1, h3, h4⟩
    exact ⟨x, y, ⟨c, decode_iff.2 h1, h2⟩, h3, h4⟩

/-! ## The graph and the transducers of the file -/

theorem rowEdge_top {σ : Setting W} {rows : List Row} {n m : Nat} {l : (List Name × List Name) × W} (h : RowEdge σ rows n l m) :
    ∃ r ∈ rows, n ≤ r.top ∧ m ≤ r.top := by
  obtain ⟨a, b, c, d, e, hm, rfl, rfl, -⟩ := h
  exact ⟨_, hm, by simp only [Row.top]; omega, by simp only [Row.top]; omega⟩

theorem apart_unique {ss : Placed} (h : ss.Pairwise fun s s' => ∀ r ∈ s.2, s.1 + r.top < s'.1) {s s' : Nat × List Row} (hs : s ∈ ss) (hs' : s' ∈ ss) {n n' : Nat}
    (hr : ∃ r ∈ s.2, n ≤ r.top) (hr' : ∃ r ∈ s'.2, n' ≤ r.top) (e : n + s.1 = n' + s'.1) : s = s' := by
  obtain ⟨i, hi, rfl⟩ := List.getElem_of_mem hs
  obtain ⟨j, hj, rfl⟩ := List.getElem_of_mem hs'
  obtain ⟨r, hr1, hr2⟩ := hr
  obtain ⟨r', hr1', hr2'⟩ := hr'
  rw [List.pairwise_iff_getElem] at h
  rcases Nat.lt_trichotomy i j with hij | rfl | hij
  · have := h i j hi hj hij r hr1
    omega
  · rfl
  · have := h j i hj hi hij r' hr1'
    omega

/-- The state belongs to this transducer. -/
def Owns (ss : Placed) (s : Nat × List Row) (n : Nat) : Prop := ss = [s] ∨ ∃ r ∈ s.2, n ≤ r.top

/-- A path in the graph stays in its transducer. -/
theorem placed_path {σ : Setting W} {ss : Placed} (ha : ss.Pairwise fun s s' => ∀ r ∈ s.2, s.1 + r.top < s'.1) (hp : ∀ s ∈ ss, 1 ≤ s.1)
    {s : Nat × List Row} (hs : s ∈ ss) {q p : Int} {ms : List (List Lab × W)} (h : Path (fun q l p => PlacedTail σ ss q l.1 l.2 p) q ms p) :
    ∀ n : Nat, q = n + s.1 → Owns ss s n → ∃ (m : Nat) (xs : List ((List Name × List Name) × W)), p = m + s.1 ∧ Owns ss s m ∧ Path (RowEdge σ s.2) n xs m ∧
      ms = xs.map fun l => (labs l.1.1 l.1.2, l.2) := by
  have hs1 := hp s hs
  induction h with
  | nil q => intro n hn ho; exact ⟨n, [], hn, ho, .nil n, rfl⟩
  | @cons q r p l ms he _ ih =>
    intro n hn ho
    rcases he with ⟨s', hs', n', m', X, Y, h1, h2, h3, h4⟩ | ⟨h1, -⟩
    · have hss : s' = s := by
        rcases ho with ho | ho
        · rw [ho, List.mem_singleton] at hs'
          exact hs'
        · obtain ⟨r, hr, hr1, -⟩ := rowEdge_top h3
          exact apart_unique ha hs' hs ⟨r, hr, hr1⟩ ho (by omega)
      subst hss
      have hnn : n' = n := by omega
      subst hnn
      obtain ⟨r, hr, -, hr2⟩ := rowEdge_top h3
      obtain ⟨m, xs, g1, g2, g3, g4⟩ := ih m' h2 (.inr ⟨r, hr, hr2⟩)
      refine ⟨m, ((X, Y), l.2) :: xs, g1, g2, .cons h3 g3, ?_⟩
      rw [List.map_cons, ← g4]
      exact congrArg (· :: ms) (Prod.ext h4 rfl)
    · omega

theorem path_placed {σ : Setting W} {ss : Placed} {s : Nat × List Row} (hs : s ∈ ss) {n m : Nat} {xs : List ((List Name × List Name) × W)}
    (h : Path (RowEdge σ s.2) n xs m) : Path (fun q l p => PlacedTail σ ss q l.1 l.2 p) (n + s.1 : Int) (xs.map fun l => (labs l.1.1 l.1.2, l.2)) (m + s.1 : Int) := by
  induction h with
  | nil q => exact .nil _
  | cons he _ ih => exact .cons (.inl ⟨s, hs, _, _, _, _, rfl, rfl, he, rfl⟩) ih

theorem path_denotes {σ : Setting W} {rows : List Row} {n m : Nat} {xs : List ((List Name × List Name) × W)} (h : Path (RowEdge σ rows) n xs m) :
    ∀ l ∈ xs, noName ∉ l.1.1 ∧ noName ∉ l.1.2 := by
  induction h with
  | nil q => intro l hl; cases hl
  | cons he _ ih =>
    intro l hl
    rcases List.mem_cons.1 hl with rfl | hl
    · obtain ⟨_, _, _, _, _, _, _, _, h1, h2, _⟩ := he
      exact ⟨h1.letters, h2.letters⟩
    · exact ih l hl

omit [AddMonoid W] in
theorem labs_flat_left {xs : List ((List Name × List Name) × W)} (h : ∀ l ∈ xs, noName ∉ l.1.1 ∧ noName ∉ l.1.2) :
    (((xs.map fun l => (labs l.1.1 l.1.2, l.2)).map (·.1)).flatten.map (·.1)).filter (· ≠ noName) = (xs.map (·.1.1)).flatten := by
  induction xs with
  | nil => rfl
  | cons l xs ih =>
    have := labs_left (h l (by simp)).1 l.1.2
    simp only [List.map_cons, List.flatten_cons, List.map_append, List.filter_append, this, ih fun l hl => h l (by simp [hl])]

omit [AddMonoid W] in
theorem labs_flat_right {xs : List ((List Name × List Name) × W)} (h : ∀ l ∈ xs, noName ∉ l.1.1 ∧ noName ∉ l.1.2) :
    (((xs.map fun l => (labs l.1.1 l.1.2, l.2)).map (·.1)).flatten.map (·.2)).filter (· ≠ noName) = (xs.map (·.1.2)).flatten := by
  induction xs with
  | nil => rfl
  | cons l xs ih =>
    have := labs_right l.1.1 (h l (by simp)).2
    simp only [List.map_cons, List.flatten_cons, List.map_append, List.filter_append, this, ih fun l hl => h l (by simp [hl])]

/-- A path from the start of the graph to a final state belongs to a transducer of the file. -/
theorem accept_sound {σ : Setting W} {ls : List Line} {c : Compiler W} {ss : Placed} {E : List (GE W)} {start : Int} (h : ReadFile σ ls c ss E start)
    {xs : List (Lab × W)} {q : Int} {fw : W} (hp : Path (fun q l p => (q, l, p) ∈ E) start xs q) (hf : (q, fw) ∈ c.finals) :
    FileMeans σ ls (((xs.map (·.1)).map (·.1)).filter (· ≠ noName)) (((xs.map (·.1)).map (·.2)).filter (· ≠ noName)) ((xs.map (·.2)).sum + fw) := by
  obtain ⟨s0, hs0, n0, hn0, hfin⟩ := h.good.finals q fw hf
  have hq : 1 ≤ q := by
    have := h.pos s0 hs0
    omega
  have hst : 0 ≤ start := by rcases h.start with ⟨e, -⟩ | ⟨e, -⟩ <;> omega
  obtain ⟨ms, m1, -, m3, m4⟩ := path_tails hp (by omega)
  have hmp : Path (fun q l p => PlacedTail σ ss q l.1 l.2 p) start ms q := by
    have : ∀ (q p : Int) (ms : List (List Lab × W)), Path (fun q l p => Tail E q l.1 l.2 p) q ms p → 0 ≤ q → Path (fun q l p => PlacedTail σ ss q l.1 l.2 p) q ms p := by
      intro q p ms hh
      induction hh with
      | nil q => intro _; exact .nil q
      | cons he _ ih =>
        intro hq
        exact .cons ((h.good.tails _ hq _ _ _).1 he) (ih he.nonneg)
    exact this _ _ _ (m1 hst) hst
  -- the rest of the way, inside a transducer
  have inside : ∀ s ∈ ss, ∀ (n : Nat) (ms : List (List Lab × W)), Owns ss s n → Path (fun q l p => PlacedTail σ ss q l.1 l.2 p) (n + s.1 : Int) ms q →
      RowsRelate σ n s.2 (((ms.map (·.1)).flatten.map (·.1)).filter (· ≠ noName)) (((ms.map (·.1)).flatten.map (·.2)).filter (· ≠ noName)) ((ms.map (·.2)).sum + fw) := by
    intro s hs n ms ho hpath
    obtain ⟨m, ys, g1, g2, g3, rfl⟩ := placed_path h.apart h.pos hs hpath n rfl ho
    have hss : s0 = s := by
      rcases g2 with g2 | g2
      · rw [g2, List.mem_singleton] at hs0
        exact hs0
      · obtain ⟨src, w, hm, e, -⟩ := hfin
        refine apart_unique h.apart hs0 hs (n := n0) (n' := m) ⟨_, hm, ?_⟩ g2 (by omega)
        simp only [Row.top]
        omega
    subst hss
    have hd := path_denotes g3
    refine ⟨ys, m, fw, g3, ?_, labs_flat_left hd, labs_flat_right hd, ?_⟩
    · have : n0 = m := by omega
      rw [← this]
      exact hfin
    · simp [Function.comp_def]
  rcases h.start with ⟨rfl, hlen⟩ | ⟨rfl, rows, rfl⟩
  · cases hmp with
    | nil => omega
    | @cons _ r _ l ms he hrest =>
      rcases he with ⟨s, hs, n, m, X, Y, h1, -⟩ | ⟨-, h2, h3, s, hs, r0, hr0, h5⟩
      · have := h.pos s hs
        omega
      · obtain ⟨l, v⟩ := l
        simp only at h2 h3
        subst h2 h3
        have hmem : r0 ∈ s.2 := List.mem_of_mem_head? hr0
        have hle : r0.source ≤ r0.top := by cases r0 <;> simp [Row.source, Row.top]
        have := inside s hs r0.source ms (.inr ⟨r0, hmem, hle⟩) (h5 ▸ hrest)
        refine ⟨s.2, ?_, r0, hr0, ?_⟩
        · rw [← h.parts]
          exact List.mem_map_of_mem hs
        · rw [if_neg hlen, m3, m4]
          simpa using this
  · have := inside (1, rows) (by simp) 0 ms (.inl rfl) (by simpa using hmp)
    have hseg : segments ls = [rows] := by rw [← h.parts]; rfl
    obtain ⟨ys, m, fw', -, ⟨src, w, hm, -⟩, -⟩ := this
    cases hr : rows with
    | nil => simp [hr] at hm
    | cons r0 rest =>
      refine ⟨rows, by simp [hseg], r0, by simp [hr], ?_⟩
      have := inside (1, rows) (by simp) 0 ms (.inl rfl) (by simpa using hmp)
      rw [if_pos (by simp [hseg]), m3, m4]
      exact this

/-! ## Soundness -/

/-- Every arc comes from the graph: the graph may have got other types since. -/
theorem named_sound {σ : Setting W} {ls : List Line} {c : Compiler W} {ss : Placed} {E : List (GE W)} {start : Int} (h : ReadFile σ ls c ss E start)
    {x : Compiler W} {type : Nat} {t : Transducer W} {corr : Int → Nat → Prop} {visited : Int → Prop} (hx : Extracted x type t corr visited)
    (hstart : x.start = start) (hfin : x.finals = c.finals) (hk : ∀ q l p, Kept x.graph type q l p → Kept c.graph 0 q l p) {X Y : List Name} {w : W}
    (hr : NamesRelate c.alphabet t X Y w) : FileMeans σ ls X Y w := by
  obtain ⟨xs, fw, ⟨p, hp, hf⟩, rfl, rfl, rfl⟩ := hr
  have key : ∀ (f p : Nat) (xs : List (Lab × W)), Path (NamedEdge c.alphabet t) f xs p → ∀ q, corr q f → ∃ q', corr q' p ∧ Path (fun q l p => (q, l, p) ∈ E) q xs q' := by
    intro f p xs hh
    induction hh with
    | nil f => intro q hq; exact ⟨q, hq, .nil q⟩
    | @cons f d p l xs he _ ih =>
      intro q hq
      obtain ⟨l, w⟩ := l
      obtain ⟨tag, h1, h2⟩ := namedEdge_iff.1 he
      obtain ⟨q1, p1, c1, c2, k⟩ := hx.sound f _ d h1
      obtain rfl := hx.inj _ _ _ hq c1
      obtain ⟨arc, ha, -, e1, e2, e3⟩ := hk _ _ _ k
      simp only at e2 e3
      subst e1 e2 e3
      obtain ⟨q', g1, g2⟩ := ih _ c2
      exact ⟨q', g1, .cons ((h.good.built.edges _ _ _ _).1 ⟨arc, ha, rfl, rfl, h2⟩) g2⟩
  obtain ⟨q, hq, hpath⟩ := key _ _ _ hp _ (hstart ▸ hx.start.1)
  have hfq := (hx.finals q p fw hq).1 hf
  rw [hfin] at hfq
  have := accept_sound h hpath hfq
  simpa only [List.map_map, Function.comp_def] using this

/-! ## Completeness -/

/-- The arcs of the graph that are in the transducer. -/
noncomputable def present (a : Alphabet) (t : Transducer W) (corr : Int → Nat → Prop) (E : List (GE W)) : List (GE W) :=
  open Classical in E.filter fun e => ∃ f d, corr e.1 f ∧ corr e.2.2 d ∧ NamedEdge a t f e.2.1 d

omit [AddMonoid W] in
theorem mem_present {a : Alphabet} {t : Transducer W} {corr : Int → Nat → Prop} {E : List (GE W)} {e : GE W} :
    e ∈ present a t corr E ↔ e ∈ E ∧ ∃ f d, corr e.1 f ∧ corr e.2.2 d ∧ NamedEdge a t f e.2.1 d := by
  simp [present]

theorem tail_present {E E' : List (GE W)} {V : Int → Prop} (hE : ∀ q l w p, V q → (q, (l, w), p) ∈ E → V p ∧ ∃ w', (q, (l, w'), p) ∈ E') {q : Int} {ls : List Lab} {w : W}
    {p : Int} (h : Tail E q ls w p) : V q → V p ∧ ∃ w', Tail E' q ls w' p := by
  induction h with
  | last h1 h2 =>
    intro hq
    obtain ⟨hp, w', hw⟩ := hE _ _ _ _ hq h1
    exact ⟨hp, w', .last hw h2⟩
  | step h1 h2 _ ih =>
    intro hq
    obtain ⟨hp, w', hw⟩ := hE _ _ _ _ hq h1
    obtain ⟨hp', w'', hw'⟩ := ih hp
    exact ⟨hp', _, .step hw h2 hw'⟩

/-- A path keeps its texts; if there is one weight only for every way, it keeps its weights. -/
theorem tails_present {E E' : List (GE W)} {V : Int → Prop} (hE : ∀ q l w p, V q → (q, (l, w), p) ∈ E → V p ∧ ∃ w', (q, (l, w'), p) ∈ E') (hsub : ∀ e ∈ E', e ∈ E)
    {q p : Int} {ms : List (List Lab × W)} (h : Path (fun q l p => Tail E q l.1 l.2 p) q ms p) : V q →
    V p ∧ ∃ ms' : List (List Lab × W), ms'.map (·.1) = ms.map (·.1) ∧ Path (fun q l p => Tail E' q l.1 l.2 p) q ms' p ∧
      ((0 ≤ q → ∀ q ls w v p, 0 ≤ q → Tail E q ls w p → Tail E q ls v p → w = v) → 0 ≤ q → ms' = ms) := by
  induction h with
  | nil q => intro hq; exact ⟨hq, [], rfl, .nil q, fun _ _ => rfl⟩
  | @cons q r p l ms he _ ih =>
    intro hq
    obtain ⟨hr, w', hw⟩ := tail_present hE he hq
    obtain ⟨hp, ms', i1, i2, i3⟩ := ih hr
    refine ⟨hp, (l.1, w') :: ms', by simp [i1], .cons hw i2, ?_⟩
    intro hone h0
    have e1 := i3 (fun _ => hone h0) he.nonneg
    have e2 := hone h0 q l.1 w' l.2 r h0 (hw.mono hsub) he
    rw [e1, e2]

theorem one_tail {σ : Setting W} {ls : List Line} {c : Compiler W} {ss : Placed} {E : List (GE W)} {start : Int} (h : ReadFile σ ls c ss E start) (ho : OneWeight σ ls)
    {q : Int} {l : List Lab} {w v : W} {p : Int} (hq : 0 ≤ q) (h1 : Tail E q l w p) (h2 : Tail E q l v p) : w = v := by
  rcases (h.good.tails q hq _ _ _).1 h1 with ⟨s, hs, n, m, X, Y, a1, a2, a3, rfl⟩ | ⟨e, -, a3, -⟩ <;>
    rcases (h.good.tails q hq _ _ _).1 h2 with ⟨s', hs', n', m', X', Y', b1, b2, b3, b4⟩ | ⟨e', -, b3, -⟩
  · obtain ⟨r, hr, hr1, -⟩ := rowEdge_top a3
    obtain ⟨r', hr', hr1', -⟩ := rowEdge_top b3
    obtain rfl := apart_unique h.apart hs hs' ⟨r, hr, hr1⟩ ⟨r', hr', hr1'⟩ (by omega)
    have hn : n' = n := by omega
    have hm : m' = m := by omega
    subst hn hm
    have hd : noName ∉ X ∧ noName ∉ Y := path_denotes (.single a3) _ (List.mem_singleton.2 rfl)
    have hd' : noName ∉ X' ∧ noName ∉ Y' := path_denotes (.single b3) _ (List.mem_singleton.2 rfl)
    have eX : X = X' := by rw [← labs_left hd.1 Y, b4, labs_left hd'.1]
    have eY : Y = Y' := by rw [← labs_right X hd.2, b4, labs_right _ hd'.2]
    subst eX eY
    exact (ho s.2 (by rw [← h.parts]; exact List.mem_map_of_mem hs)).1 _ _ _ _ _ a3 b3
  · have := h.pos s hs
    omega
  · have := h.pos s' hs'
    omega
  · rw [a3, b3]

theorem one_final {σ : Setting W} {ls : List Line} {c : Compiler W} {ss : Placed} {E : List (GE W)} {start : Int} (h : ReadFile σ ls c ss E start) (ho : OneWeight σ ls)
    {q : Int} {w v : W} (h1 : PlacedFinal σ ss q w) (h2 : PlacedFinal σ ss q v) : w = v := by
  obtain ⟨s, hs, n, a1, a2⟩ := h1
  obtain ⟨s', hs', n', b1, b2⟩ := h2
  have t : ∀ {rows : List Row} {n : Nat} {w : W}, RowFinal σ rows n w → ∃ r ∈ rows, n ≤ r.top := by
    rintro rows n w ⟨src, u, hm, rfl, -⟩
    exact ⟨_, hm, by simp [Row.top]⟩
  obtain rfl := apart_unique h.apart hs hs' (t a2) (t b2) (by omega)
  have hn : n' = n := by omega
  subst hn
  exact (ho s.2 (by rw [← h.parts]; exact List.mem_map_of_mem hs)).2 _ _ _ a2 b2

/-- What the file says is found in the graph. -/
theorem accept_complete {σ : Setting W} {ls : List Line} {c : Compiler W} {ss : Placed} {E : List (GE W)} {start : Int} (h : ReadFile σ ls c ss E start)
    {X Y : List Name} {w : W} (hm : FileMeans σ ls X Y w) :
    ∃ (ms : List (List Lab × W)) (q : Int) (fw : W), Path (fun q l p => Tail E q l.1 l.2 p) start ms q ∧ PlacedFinal σ ss q fw ∧
      X = ((ms.map (·.1)).flatten.map (·.1)).filter (· ≠ noName) ∧ Y = ((ms.map (·.1)).flatten.map (·.2)).filter (· ≠ noName) ∧ w = (ms.map (·.2)).sum + fw := by
  obtain ⟨rows, hrows, r, hr, ys, p, fw, hp, hf, rfl, rfl, rfl⟩ := hm
  rw [← h.parts] at hrows
  obtain ⟨s, hs, rfl⟩ := List.mem_map.1 hrows
  have back : ∀ (q p : Int) (ms : List (List Lab × W)), Path (fun q l p => PlacedTail σ ss q l.1 l.2 p) q ms p → 0 ≤ q → Path (fun q l p => Tail E q l.1 l.2 p) q ms p := by
    intro q p ms hh
    induction hh with
    | nil q => intro _; exact .nil q
    | cons he _ ih =>
      intro hq
      have he' := (h.good.tails _ hq _ _ _).2 he
      exact .cons he' (ih he'.nonneg)
  have hd := path_denotes hp
  have hfin : PlacedFinal σ ss (p + s.1 : Int) fw := ⟨s, hs, p, rfl, hf⟩
  have hpl := path_placed hs hp
  have esum : (((ys.map fun l => (labs l.1.1 l.1.2, l.2)).map (·.2)).sum : W) = (ys.map (·.2)).sum := by simp [Function.comp_def]
  rcases h.start with ⟨rfl, hlen⟩ | ⟨rfl, rows, rfl⟩
  · rw [if_neg hlen] at hpl
    refine ⟨([(noName, noName)], 0) :: (ys.map fun l => (labs l.1.1 l.1.2, l.2)), p + s.1, fw, ?_, hfin, ?_, ?_, ?_⟩
    · exact back _ _ _ (.cons (.inr ⟨rfl, rfl, rfl, s, hs, r, hr, rfl⟩) hpl) (Int.le_refl 0)
    · rw [← labs_flat_left hd]; simp
    · rw [← labs_flat_right hd]; simp
    · rw [List.map_cons, List.sum_cons, zero_add, esum]
  · have hseg : (segments ls).length = 1 := by rw [← h.parts]; rfl
    rw [if_pos hseg] at hpl
    rw [List.mem_singleton] at hs
    subst hs
    refine ⟨ys.map fun l => (labs l.1.1 l.1.2, l.2), p + 1, fw, back _ _ _ (by simpa using hpl) (by omega), by simpa using hfin, (labs_flat_left hd).symm,
      (labs_flat_right hd).symm, ?_⟩
    rw [esum]

theorem named_complete {σ : Setting W} {ls : List Line} {c : Compiler W} {ss : Placed} {E : List (GE W)} {start : Int} (h : ReadFile σ ls c ss E start)
    {x : Compiler W} {t : Transducer W} {corr : Int → Nat → Prop} {visited : Int → Prop} (hx : Extracted x 0 t corr visited)
    (hstart : x.start = start) (hfin : x.finals = c.finals) (hg : x.graph = c.graph) {X Y : List Name} {w : W} (hm : FileMeans σ ls X Y w) :
    ∃ w', NamesRelate c.alphabet t X Y w' ∧ (OneWeight σ ls → w' = w) := by
  obtain ⟨ms, q, fw, hp, hf, rfl, rfl, rfl⟩ := accept_complete h hm
  have hE : ∀ q l w p, visited q → (q, (l, w), p) ∈ E → visited p ∧ ∃ w', (q, (l, w'), p) ∈ present c.alphabet t corr E := by
    intro q l w p hv he
    obtain ⟨arc, ha, rfl, rfl, hl⟩ := (h.good.built.edges _ _ _ _).2 he
    obtain ⟨hv', f, d, w', c1, c2, he'⟩ := hx.complete q arc.tag arc.weight arc.dst hv ⟨arc, by rw [hg]; exact ha, by simp, rfl, rfl, rfl⟩
    refine ⟨hv', w', mem_present.2 ⟨?_, f, d, c1, c2, namedEdge_iff.2 ⟨_, he', hl⟩⟩⟩
    obtain ⟨q1, p1, k1, k2, arc', ha', -, e1, e2, e3⟩ := hx.sound _ _ _ he'
    obtain rfl := hx.inj _ _ _ c1 k1
    obtain rfl := hx.inj _ _ _ c2 k2
    simp only at e2 e3
    subst e3
    rw [hg] at ha'
    exact (h.good.built.edges _ _ _ _).1 ⟨arc', ha', e1, rfl, e2 ▸ hl⟩
  have hst : 0 ≤ start := by rcases h.start with ⟨e, -⟩ | ⟨e, -⟩ <;> omega
  obtain ⟨hv, ms', e1, hp', hone⟩ := tails_present hE (fun e he => (mem_present.1 he).1) hp (hstart ▸ hx.start.2)
  obtain ⟨xs, hpath, e2, e3⟩ := tails_path hp'
  have key : ∀ (q p : Int) (xs : List (Lab × W)), Path (fun q l p => (q, l, p) ∈ present c.alphabet t corr E) q xs p → ∀ f, corr q f → ∃ d, corr p d ∧ Path (NamedEdge c.alphabet t) f xs d := by
    intro q p xs hh
    induction hh with
    | nil q => intro f hq; exact ⟨f, hq, .nil f⟩
    | @cons q r p l xs he _ ih =>
      intro f hq
      obtain ⟨-, f', d, c1, c2, hn⟩ := mem_present.1 he
      obtain rfl := hx.fn _ _ _ hq c1
      obtain ⟨d', g1, g2⟩ := ih d c2
      exact ⟨d', g1, .cons hn g2⟩
  obtain ⟨d, hd, hpn⟩ := key _ _ _ hpath _ (hstart ▸ hx.start.1)
  obtain ⟨fw', hfw⟩ := h.good.all q fw hf
  have hfd : Final t d fw' := (hx.finals q d fw' hd).2 (by rw [hfin]; exact hfw)
  refine ⟨(xs.map (·.2)).sum + fw', ⟨xs, fw', ⟨d, hpn, hfd⟩, ?_, ?_, rfl⟩, ?_⟩
  · rw [← e1, ← e2, List.map_map]; rfl
  · rw [← e1, ← e2, List.map_map]; rfl
  · intro ho
    have e4 := hone (fun _ q l w v p hq h1 h2 => one_tail h ho hq h1 h2) hst
    rw [e3, e4, one_final h ho (h.good.finals _ _ hfw) hf]

end Verif.Att
