import Verif.Att.Paths

/-! # What the lines of a file add to the graph -/

namespace Verif.Att

open Verif.Fst Verif.Alphabet

variable {W : Type}

/-- The graph has these ways between states that are not helpers, and these final states. -/
structure Good [AddMonoid W] (c : Compiler W) (E : List (GE W)) (T : Int → List Lab → W → Int → Prop) (F : Int → W → Prop) : Prop where
  built : Built c E
  above : Above c.phantoms E
  start : c.start = 0
  tails : ∀ q, 0 ≤ q → ∀ ls w d, Tail E q ls w d ↔ T q ls w d
  sorted : SortedKeys c.finals
  finals : ∀ q w, (q, w) ∈ c.finals → F q w
  all : ∀ q w, F q w → ∃ v, (q, v) ∈ c.finals

variable [AddMonoid W]

omit [AddMonoid W] in
theorem Above.mono {ph ph' : Nat} {E : List (GE W)} (h : Above ph E) (hle : ph ≤ ph') : Above ph' E := by
  intro e he
  have := h e he
  omega

omit [AddMonoid W] in
theorem Above.append {ph : Nat} {E E' : List (GE W)} (h : Above ph E) (h' : Above ph E') : Above ph (E ++ E') := by
  intro e he
  rcases List.mem_append.1 he with he | he
  · exact h e he
  · exact h' e he

theorem Good.congr {c : Compiler W} {E : List (GE W)} {T T' : Int → List Lab → W → Int → Prop} {F F' : Int → W → Prop} (h : Good c E T F)
    (hT : ∀ q ls w d, 0 ≤ q → (T' q ls w d ↔ T q ls w d)) (hF : ∀ q w, F' q w ↔ F q w) : Good c E T' F' :=
  ⟨h.built, h.above, h.start, fun q hq ls w d => (h.tails q hq ls w d).trans (hT q ls w d hq).symm, h.sorted,
    fun q w hm => (hF q w).2 (h.finals q w hm), fun q w hm => h.all q w ((hF q w).1 hm)⟩

theorem Good.begin {c : Compiler W} {E : List (GE W)} {T : Int → List Lab → W → Int → Prop} {F : Int → W → Prop} (h : Good c E T F) {src : Int} (hs : 0 ≤ src)
    (p : Parse W) (hp : p.c = c) : ∃ E', Good (beginLine src p).c E' (fun q ls w d => T q ls w d ∨
      (p.first = true ∧ q = 0 ∧ ls = [(noName, noName)] ∧ w = 0 ∧ d = src)) F := by
  subst hp
  have ht : Good (touch src p.c) E T F := ⟨h.built.touch src, h.above, h.start, h.tails, h.sorted, h.finals, h.all⟩
  cases hf : p.first with
  | false =>
    refine ⟨E, ?_⟩
    have : (beginLine src p).c = touch src p.c := by simp [beginLine, hf]
    rw [this]
    exact ht.congr (by simp) (fun _ _ => Iff.rfl)
  | true =>
    have e : (beginLine src p).c = pushArc 0 { dst := src, tag := 0, weight := (0 : W) } (touch src p.c) := by
      simp only [beginLine, hf, if_true]
      rw [ht.start]
    rw [e]
    have hz : NamedTag (touch src p.c).alphabet 0 (noName, noName) :=
      ⟨0, 0, ⟨0, ht.built.alpha.ok.zero, rfl⟩, named_zero _, named_zero _⟩
    refine ⟨E ++ [(0, ((noName, noName), 0), src)], ht.built.push 0 { dst := src, tag := 0, weight := (0 : W) } _ hz, ?_, h.start, ?_, h.sorted, h.finals, h.all⟩
    · refine ht.above.append ?_
      intro x hx
      rw [List.mem_singleton] at hx
      subst hx
      simp only
      omega
    · intro q hq ls w d
      have := tail_chain ht.above (Int.le_refl 0) hs (0 : W) (labs := [(noName, noName)]) (by simp) hq ls w d
      rw [chain] at this
      rw [this, ht.tails q hq]
      simp

theorem Good.arc {c : Compiler W} {E : List (GE W)} {T : Int → List Lab → W → Int → Prop} {F : Int → W → Prop} (h : Good c E T F) (ch : Chars) {hfst : Bool}
    {u v : UString} {X Y : List Name} (hu : Denotes hfst u X) (hv : Denotes hfst v Y) {src dst : Int} (hs : 0 ≤ src) (hd : 0 ≤ dst) (w0 : W) :
    ∃ E', Good (addTransition ch src dst (convertHfst hfst u) (convertHfst hfst v) w0 c) E' (fun q ls w d => T q ls w d ∨
      (q = src ∧ ls = labs X Y ∧ w = w0 ∧ d = dst)) F := by
  obtain ⟨h1, h2, h3, h4⟩ := addTransition_spec ch hu hv src dst w0 c E h.built
  refine ⟨_, h1, ?_, h3.trans h.start, ?_, h2 ▸ h.sorted, h2 ▸ h.finals, h2 ▸ h.all⟩
  · rw [h4]
    exact (h.above.mono (by omega)).append (chain_above _ _ _ _ _ hd (by omega))
  · intro q hq ls w d
    rw [tail_chain h.above hs hd w0 (labs_ne X Y) hq, h.tails q hq]

theorem Good.final {c : Compiler W} {E : List (GE W)} {T : Int → List Lab → W → Int → Prop} {F : Int → W → Prop} (h : Good c E T F) (src : Int) (w0 : W) :
    Good { c with finals := mapInsert src w0 c.finals } E T (fun q w => F q w ∨ (q = src ∧ w = w0)) := by
  refine ⟨h.built.extend h.built.alpha (.refl _) rfl, h.above, h.start, h.tails, sorted_mapInsert h.sorted _ _, ?_, ?_⟩
  · intro q w hm
    rcases (mem_mapInsert h.sorted src w0 (q, w)).1 hm with ⟨hm, -⟩ | hm
    · cases hm; exact .inr ⟨rfl, rfl⟩
    · exact .inl (h.finals q w hm)
  · intro q w hF
    by_cases hk : ∃ v, (q, v) ∈ c.finals
    · obtain ⟨v, hv⟩ := hk
      exact ⟨v, (mem_mapInsert h.sorted src w0 (q, v)).2 (.inr hv)⟩
    · rcases hF with hF | ⟨rfl, rfl⟩
      · exact absurd (h.all q w hF) hk
      · refine ⟨w, (mem_mapInsert h.sorted q w (q, w)).2 (.inl ⟨rfl, ?_⟩)⟩
        intro hm
        obtain ⟨⟨q', v⟩, hv, rfl⟩ := List.mem_map.1 hm
        exact hk ⟨v, hv⟩

/-! ## Transducers in their places -/

/-- Transducers with the numbers that are added to their states. -/
abbrev Placed := List (Nat × List Row)

def PlacedEdge (σ : Setting W) (ss : Placed) (q : Int) (ls : List Lab) (w : W) (d : Int) : Prop :=
  ∃ s ∈ ss, ∃ (n m : Nat) (X Y : List Name), q = n + s.1 ∧ d = m + s.1 ∧ RowEdge σ s.2 n ((X, Y), w) m ∧ ls = labs X Y

def PlacedStart (ss : Placed) (d : Int) : Prop := ∃ s ∈ ss, ∃ r, s.2.head? = some r ∧ d = r.source + s.1

def PlacedFinal (σ : Setting W) (ss : Placed) (q : Int) (w : W) : Prop := ∃ s ∈ ss, ∃ n : Nat, q = n + s.1 ∧ RowFinal σ s.2 n w

def PlacedTail (σ : Setting W) (ss : Placed) (q : Int) (ls : List Lab) (w : W) (d : Int) : Prop :=
  PlacedEdge σ ss q ls w d ∨ (q = 0 ∧ ls = [(noName, noName)] ∧ w = 0 ∧ PlacedStart ss d)

/-- The numbers that the states of the lines need. -/
def extent (rows : List Row) : Nat := if rows = [] then 0 else (rows.map Row.top).foldr max 0 + 1

theorem top_lt_extent {rows : List Row} {r : Row} (hr : r ∈ rows) : r.top < extent rows := by
  have : ∀ (l : List Nat) (x : Nat), x ∈ l → x ≤ l.foldr max 0 := by
    intro l
    induction l with
    | nil => intro x hx; cases hx
    | cons y l ih =>
      intro x hx
      rcases List.mem_cons.1 hx with rfl | hx
      · simp
      · have := ih x hx
        simp only [List.foldr_cons]
        omega
  have h := this (rows.map Row.top) r.top (List.mem_map_of_mem hr)
  unfold extent
  rw [if_neg (by intro e; subst e; cases hr)]
  omega

theorem foldr_max_append (l : List Nat) (x : Nat) : (l ++ [x]).foldr max 0 = max (l.foldr max 0) x := by
  induction l with
  | nil => simp
  | cons y l ih => simp only [List.cons_append, List.foldr_cons, ih]; omega

theorem extent_append (rows : List Row) (r : Row) : extent (rows ++ [r]) = max (extent rows) (r.top + 1) := by
  unfold extent
  rw [if_neg (by simp), List.map_append, List.map_singleton, foldr_max_append]
  split
  · next h => subst h; simp
  · omega

theorem rowEdge_append (σ : Setting W) (rows : List Row) (r : Row) (n : Nat) (l : (List Name × List Name) × W) (m : Nat) :
    RowEdge σ (rows ++ [r]) n l m ↔ RowEdge σ rows n l m ∨ RowEdge σ [r] n l m := by
  unfold RowEdge
  simp only [List.mem_append, List.mem_singleton]
  constructor
  · rintro ⟨a, b, c, d, e, h | h, h'⟩
    · exact .inl ⟨a, b, c, d, e, h, h'⟩
    · exact .inr ⟨a, b, c, d, e, h, h'⟩
  · rintro (⟨a, b, c, d, e, h, h'⟩ | ⟨a, b, c, d, e, h, h'⟩)
    · exact ⟨a, b, c, d, e, .inl h, h'⟩
    · exact ⟨a, b, c, d, e, .inr h, h'⟩

theorem rowFinal_append (σ : Setting W) (rows : List Row) (r : Row) (n : Nat) (w : W) :
    RowFinal σ (rows ++ [r]) n w ↔ RowFinal σ rows n w ∨ RowFinal σ [r] n w := by
  unfold RowFinal
  simp only [List.mem_append, List.mem_singleton]
  constructor
  · rintro ⟨a, b, h | h, h'⟩
    · exact .inl ⟨a, b, h, h'⟩
    · exact .inr ⟨a, b, h, h'⟩
  · rintro (⟨a, b, h, h'⟩ | ⟨a, b, h, h'⟩)
    · exact ⟨a, b, .inl h, h'⟩
    · exact ⟨a, b, .inr h, h'⟩

theorem placedEdge_append (σ : Setting W) (done : Placed) (off : Nat) (cur : List Row) (r : Row) (q : Int) (ls : List Lab) (w : W) (d : Int) :
    PlacedEdge σ (done ++ [(off, cur ++ [r])]) q ls w d ↔ PlacedEdge σ (done ++ [(off, cur)]) q ls w d ∨
      ∃ (n m : Nat) (X Y : List Name), q = n + off ∧ d = m + off ∧ RowEdge σ [r] n ((X, Y), w) m ∧ ls = labs X Y := by
  unfold PlacedEdge
  constructor
  · rintro ⟨s, hs, n, m, X, Y, h1, h2, h3, h4⟩
    rcases List.mem_append.1 hs with hs | hs
    · exact .inl ⟨s, by simp [hs], n, m, X, Y, h1, h2, h3, h4⟩
    · rw [List.mem_singleton] at hs
      subst hs
      rcases (rowEdge_append σ cur r _ _ _).1 h3 with h3 | h3
      · exact .inl ⟨(off, cur), by simp, n, m, X, Y, h1, h2, h3, h4⟩
      · exact .inr ⟨n, m, X, Y, h1, h2, h3, h4⟩
  · rintro (⟨s, hs, n, m, X, Y, h1, h2, h3, h4⟩ | ⟨n, m, X, Y, h1, h2, h3, h4⟩)
    · rcases List.mem_append.1 hs with hs | hs
      · exact ⟨s, by simp [hs], n, m, X, Y, h1, h2, h3, h4⟩
      · rw [List.mem_singleton] at hs
        subst hs
        exact ⟨(off, cur ++ [r]), by simp, n, m, X, Y, h1, h2, (rowEdge_append σ cur r _ _ _).2 (.inl h3), h4⟩
    · exact ⟨(off, cur ++ [r]), by simp, n, m, X, Y, h1, h2, (rowEdge_append σ cur r _ _ _).2 (.inr h3), h4⟩

theorem placedFinal_append (σ : Setting W) (done : Placed) (off : Nat) (cur : List Row) (r : Row) (q : Int) (w : W) :
    PlacedFinal σ (done ++ [(off, cur ++ [r])]) q w ↔ PlacedFinal σ (done ++ [(off, cur)]) q w ∨ ∃ n : Nat, q = n + off ∧ RowFinal σ [r] n w := by
  unfold PlacedFinal
  constructor
  · rintro ⟨s, hs, n, h1, h2⟩
    rcases List.mem_append.1 hs with hs | hs
    · exact .inl ⟨s, by simp [hs], n, h1, h2⟩
    · rw [List.mem_singleton] at hs
      subst hs
      rcases (rowFinal_append σ cur r _ _).1 h2 with h2 | h2
      · exact .inl ⟨(off, cur), by simp, n, h1, h2⟩
      · exact .inr ⟨n, h1, h2⟩
  · rintro (⟨s, hs, n, h1, h2⟩ | ⟨n, h1, h2⟩)
    · rcases List.mem_append.1 hs with hs | hs
      · exact ⟨s, by simp [hs], n, h1, h2⟩
      · rw [List.mem_singleton] at hs
        subst hs
        exact ⟨(off, cur ++ [r]), by simp, n, h1, (rowFinal_append σ cur r _ _).2 (.inl h2)⟩
    · exact ⟨(off, cur ++ [r]), by simp, n, h1, (rowFinal_append σ cur r _ _).2 (.inr h2)⟩

theorem placedStart_append (done : Placed) (off : Nat) (cur : List Row) (r : Row) (d : Int) :
    PlacedStart (done ++ [(off, cur ++ [r])]) d ↔ PlacedStart (done ++ [(off, cur)]) d ∨ (cur = [] ∧ d = r.source + off) := by
  unfold PlacedStart
  constructor
  · rintro ⟨s, hs, r', h1, h2⟩
    rcases List.mem_append.1 hs with hs | hs
    · exact .inl ⟨s, by simp [hs], r', h1, h2⟩
    · rw [List.mem_singleton] at hs
      subst hs
      cases cur with
      | nil => simp only [List.nil_append, List.head?_cons, Option.some.injEq] at h1; subst h1; exact .inr ⟨rfl, h2⟩
      | cons x xs => exact .inl ⟨(off, x :: xs), by simp, r', h1, h2⟩
  · rintro (⟨s, hs, r', h1, h2⟩ | ⟨rfl, h2⟩)
    · rcases List.mem_append.1 hs with hs | hs
      · exact ⟨s, by simp [hs], r', h1, h2⟩
      · rw [List.mem_singleton] at hs
        subst hs
        refine ⟨(off, cur ++ [r]), by simp, r', ?_, h2⟩
        simp only at h1
        simp [h1]
    · exact ⟨(off, [r]), by simp, r, rfl, h2⟩

/-- The state of the loop when the finished transducers are `done` and the lines `cur` of the next one were read. -/
structure Inv (σ : Setting W) (p : Parse W) (done : Placed) (off : Nat) (cur : List Row) : Prop where
  good : ∃ E, Good p.c E (PlacedTail σ (done ++ [(off, cur)])) (PlacedFinal σ (done ++ [(off, cur)]))
  offset : p.offset = off
  first : p.first = true ↔ cur = []
  largest : p.largest + 1 = off + extent cur
  multiple : p.multiple = true ↔ done ≠ []
  space : off = 1 + (done.map fun s => extent s.2).sum
  full : ∀ s ∈ done, s.2 ≠ []
  apart : (done ++ [(off, cur)]).Pairwise fun s s' => ∀ r ∈ s.2, s.1 + r.top < s'.1
  pos : ∀ s ∈ done ++ [(off, cur)], 1 ≤ s.1

/-! ## One line -/

omit [AddMonoid W] in
theorem stateId_digits {ds : Digits} (h : ds.WF) {off : Nat} (hb : off + ds.value < 2 ^ 31) : stateId off ds.text = .ok ((ds.value : Int) + off) := by
  have := C58_digits ds h.2
  unfold stateId
  have e : fastStoi ds.text = .ok (ds.value : Int) := by
    refine this.trans ?_
    exact if_pos (show ds.value < 2 ^ 31 by omega)
  rw [e]
  simp only [int32]
  rw [if_pos (by omega)]

theorem weightOf_weighs {σ : Setting W} {o : Option UString} {w : W} (h : Weighs σ o w) : weightOf σ o = .ok w := by
  cases o with
  | none => simp only [Weighs] at h; subst h; rfl
  | some s => simp only [Weighs] at h; simp [weightOf, h]

theorem weighs_unique {σ : Setting W} {o : Option UString} {w v : W} (h : Weighs σ o w) (h' : Weighs σ o v) : w = v := by
  have := (weightOf_weighs h).symm.trans (weightOf_weighs h')
  exact Res.ok.inj this

theorem digits_head {ds : Digits} (h : ds.WF) : ds.text ≠ [] ∧ ds.text.head? ≠ some 0x2d := by
  obtain ⟨h1, h2⟩ := h
  cases ds with
  | nil => exact absurd rfl h1
  | cons d ds =>
    refine ⟨by simp [Digits.text], ?_⟩
    have hd := h2 d (by simp)
    simp only [Digits.text, List.map_cons, List.head?_cons, ne_eq, Option.some.injEq]
    intro e
    have := congrArg UInt16.toNat e
    simp only [UInt16.toNat_ofNat'] at this
    have e2 : (0x2d : UInt16).toNat = 45 := rfl
    rw [e2] at this
    omega

theorem extent_pos {rows : List Row} (h : rows ≠ []) : 0 < extent rows := by
  unfold extent; rw [if_neg h]; omega

theorem beginLine_parse (src : Int) (p : Parse W) : (beginLine src p).offset = p.offset ∧ (beginLine src p).first = false ∧
    (beginLine src p).largest = max p.largest src ∧ (beginLine src p).multiple = p.multiple := ⟨rfl, rfl, rfl, rfl⟩

theorem rearrange {A K a b c S e d : Prop} : (A ∨ K) ∨ (a ∧ b ∧ c ∧ (S ∨ (e ∧ d))) ↔ ((A ∨ (a ∧ b ∧ c ∧ S)) ∨ (e ∧ a ∧ b ∧ c ∧ d)) ∨ K := by tauto

theorem rearrange2 {A a b c S e d : Prop} : A ∨ (a ∧ b ∧ c ∧ (S ∨ (e ∧ d))) ↔ (A ∨ (a ∧ b ∧ c ∧ S)) ∨ (e ∧ a ∧ b ∧ c ∧ d) := by tauto

theorem parseLine_row {σ : Setting W} {p : Parse W} {done : Placed} {off : Nat} {cur : List Row} (hi : Inv σ p done off cur) {r : Row} (hr : r.WF σ)
    (hb : off + r.top < 2 ^ 31) (hf : cur = [] → ∀ src, r ≠ .final src none) :
    ∃ p', parseLine σ r.columns p = .ok p' ∧ Inv σ p' done off (cur ++ [r]) := by
  obtain ⟨E, hg⟩ := hi.good
  -- what does not depend on the kind of line
  have rest : ∀ p' : Parse W, p'.offset = p.offset → p'.first = false → p'.largest = max p.largest (r.top + off) → p'.multiple = p.multiple →
      (∃ E, Good p'.c E (PlacedTail σ (done ++ [(off, cur ++ [r])])) (PlacedFinal σ (done ++ [(off, cur ++ [r])]))) → Inv σ p' done off (cur ++ [r]) := by
    intro p' h1 h2 h3 h4 h5
    refine ⟨h5, h1.trans hi.offset, by simp [h2], ?_, by rw [h4]; exact hi.multiple, hi.space, hi.full, ?_, ?_⟩
    · have := hi.largest
      rw [extent_append, h3]
      omega
    · have := hi.apart
      rw [List.pairwise_append] at this ⊢
      refine ⟨this.1, List.pairwise_singleton _ _, ?_⟩
      intro a ha b hb x hx
      rw [List.mem_singleton] at hb
      subst hb
      exact this.2.2 a ha (off, cur) (by simp) x hx
    · intro s hs
      rcases List.mem_append.1 hs with hs | hs
      · exact hi.pos s (by simp [hs])
      · rw [List.mem_singleton] at hs
        subst hs
        exact hi.pos (off, cur) (by simp)
  cases r with
  | arc src dst c2 c3 w =>
    obtain ⟨s1, s2, ⟨X0, hX0⟩, ⟨Y0, hY0⟩, v, hv⟩ := hr.source src dst c2 c3 w rfl
    obtain ⟨hne, hmin⟩ := digits_head s1
    have hb1 : off + max src.value dst.value < 2 ^ 31 := hb
    obtain ⟨X, hX⟩ : ∃ X, Denotes σ.hfstSymbols (if σ.readRl then c3 else c2) X := by cases σ.readRl <;> simp <;> exact ⟨_, ‹_›⟩
    obtain ⟨Y, hY⟩ : ∃ Y, Denotes σ.hfstSymbols (if σ.readRl then c2 else c3) Y := by cases σ.readRl <;> simp <;> exact ⟨_, ‹_›⟩
    obtain ⟨E1, g1⟩ := hg.begin (src := (src.value : Int) + off) (by omega) p rfl
    obtain ⟨E2, g2⟩ := g1.arc σ.chars hX hY (src := (src.value : Int) + off) (dst := (dst.value : Int) + off) (by omega) (by omega) v
    refine ⟨{ beginLine ((src.value : Int) + off) p with
      largest := max (beginLine ((src.value : Int) + off) p).largest ((dst.value : Int) + off)
      c := addTransition σ.chars ((src.value : Int) + off) ((dst.value : Int) + off) (convertHfst σ.hfstSymbols (if σ.readRl then c3 else c2))
        (convertHfst σ.hfstSymbols (if σ.readRl then c2 else c3)) v (beginLine ((src.value : Int) + off) p).c }, ?_, ?_⟩
    · simp only [Row.columns, List.cons_append, List.nil_append, parseLine]
      rw [if_neg (by simp), if_neg (by simp), if_neg hmin]
      have hl : w.toList.length ≤ 1 := by cases w <;> simp
      rw [if_neg (by omega), hi.offset, stateId_digits s1 (by omega)]
      simp only [Res.bind_ok]
      rw [(beginLine_parse _ p).1, hi.offset, stateId_digits s2 (by omega)]
      have hw : w.toList.head? = w := by cases w <;> rfl
      simp only [Res.bind_ok, hw, weightOf_weighs hv, Res.pure_eq]
    · refine rest _ rfl rfl ?_ rfl ⟨E2, g2.congr ?_ ?_⟩
      · simp only [(beginLine_parse _ p).2.2.1, Row.top]
        push_cast
        omega
      · intro q ls w' d hq
        unfold PlacedTail
        rw [placedEdge_append, placedStart_append]
        have key : (∃ (n m : Nat) (X Y : List Name), q = n + off ∧ d = m + off ∧ RowEdge σ [Row.arc src dst c2 c3 w] n ((X, Y), w') m ∧ ls = labs X Y) ↔
            (q = (src.value : Int) + off ∧ ls = labs X Y ∧ w' = v ∧ d = (dst.value : Int) + off) := by
          constructor
          · rintro ⟨n, m, X', Y', rfl, rfl, ⟨a1, a2, a3, a4, a5, hm, rfl, rfl, h3, h4, h5⟩, rfl⟩
            rw [List.mem_singleton] at hm
            cases hm
            obtain rfl := h3.unique hX
            obtain rfl := h4.unique hY
            exact ⟨rfl, rfl, weighs_unique h5 hv, rfl⟩
          · rintro ⟨rfl, rfl, rfl, rfl⟩
            exact ⟨_, _, X, Y, rfl, rfl, ⟨src, dst, c2, c3, w, by simp, rfl, rfl, hX, hY, hv⟩, rfl⟩
        rw [key, ← hi.first]
        exact rearrange
      · intro q w'
        rw [placedFinal_append]
        constructor
        · rintro (h | ⟨n, -, a, b, hm, -⟩)
          · exact h
          · simp at hm
        · exact .inl
  | final src w =>
    obtain ⟨s1, v, hv⟩ := hr.final src w rfl
    obtain ⟨hne, hmin⟩ := digits_head s1
    have hb1 : off + src.value < 2 ^ 31 := hb
    obtain ⟨E1, g1⟩ := hg.begin (src := (src.value : Int) + off) (by omega) p rfl
    refine ⟨{ beginLine ((src.value : Int) + off) p with
      c := { (beginLine ((src.value : Int) + off) p).c with finals := mapInsert ((src.value : Int) + off) v (beginLine ((src.value : Int) + off) p).c.finals } }, ?_, ?_⟩
    · cases w with
      | none =>
        have hcur : ¬ cur = [] := fun e => hf e src rfl
        have hp : ¬ p.first = true := fun e => hcur (hi.first.1 e)
        simp only [Row.columns, Option.toList_none, parseLine]
        rw [if_neg (fun h => hne h.2), if_neg (fun h => hp h.1), if_neg hmin, hi.offset, stateId_digits s1 hb1]
        simp only [Res.bind_ok, weightOf_weighs hv, Res.pure_eq]
      | some s =>
        simp only [Row.columns, Option.toList_some, parseLine]
        rw [if_neg (by simp), if_neg (by simp), if_neg hmin, hi.offset, stateId_digits s1 hb1]
        simp only [Res.bind_ok, weightOf_weighs hv, Res.pure_eq]
    · refine rest _ rfl rfl ?_ rfl ⟨E1, (g1.final _ v).congr ?_ ?_⟩
      · simp only [(beginLine_parse _ p).2.2.1, Row.top]
      · intro q ls w' d hq
        unfold PlacedTail
        rw [placedEdge_append, placedStart_append]
        have key : ¬ (∃ (n m : Nat) (X Y : List Name), q = n + off ∧ d = m + off ∧ RowEdge σ [Row.final src w] n ((X, Y), w') m ∧ ls = labs X Y) := by
          rintro ⟨n, m, X', Y', -, -, ⟨a1, a2, a3, a4, a5, hm, -⟩, -⟩
          simp at hm
        rw [← hi.first]
        exact (or_congr_left (or_iff_left key)).trans rearrange2
      · intro q w'
        rw [placedFinal_append]
        refine or_congr_right ?_
        constructor
        · rintro ⟨n, rfl, a, b, hm, rfl, h2⟩
          rw [List.mem_singleton] at hm
          cases hm
          exact ⟨rfl, weighs_unique h2 hv⟩
        · rintro ⟨rfl, rfl⟩
          exact ⟨_, rfl, src, w, by simp, rfl, hv⟩

theorem parseLine_blank (σ : Setting W) (p : Parse W) : parseLine σ [[]] p = .ok p := by simp [parseLine]

theorem sum_extent_pos {done : Placed} (h : ∀ s ∈ done, s.2 ≠ []) : done ≠ [] → 0 < (done.map fun s => extent s.2).sum := by
  cases done with
  | nil => intro h; exact absurd rfl h
  | cons s ss =>
    intro _
    have := extent_pos (h s (by simp))
    simp only [List.map_cons, List.sum_cons]
    omega

theorem parseLine_sep {σ : Setting W} {p : Parse W} {done : Placed} {off : Nat} {cur : List Row} (hi : Inv σ p done off cur) (s : UString) (cols : List UString)
    (hc : cur ≠ []) : ∃ p', parseLine σ ((0x2d :: s) :: cols) p = .ok p' ∧ Inv σ p' (done ++ [(off, cur)]) (off + extent cur) [] := by
  have hp : ¬ p.first = true := fun e => hc (hi.first.1 e)
  refine ⟨{ p with multiple := p.multiple || decide (p.offset = 1), offset := p.largest + 1, first := true }, ?_, ?_⟩
  · simp [parseLine, hp]
  · obtain ⟨E, hg⟩ := hi.good
    have hl := hi.largest
    refine ⟨⟨E, hg.congr ?_ ?_⟩, ?_, by simp, ?_, ?_, ?_, ?_, ?_, ?_⟩
    · intro q ls w d _
      have e1 : PlacedEdge σ ((done ++ [(off, cur)]) ++ [(off + extent cur, [])]) q ls w d ↔ PlacedEdge σ (done ++ [(off, cur)]) q ls w d := by
        constructor
        · rintro ⟨s, hs, n, m, X, Y, h1, h2, h3, h4⟩
          rcases List.mem_append.1 hs with hs | hs
          · exact ⟨s, hs, n, m, X, Y, h1, h2, h3, h4⟩
          · rw [List.mem_singleton] at hs
            subst hs
            obtain ⟨_, _, _, _, _, hm, _⟩ := h3
            cases hm
        · rintro ⟨s, hs, h⟩
          exact ⟨s, List.mem_append_left _ hs, h⟩
      have e2 : PlacedStart ((done ++ [(off, cur)]) ++ [(off + extent cur, [])]) d ↔ PlacedStart (done ++ [(off, cur)]) d := by
        constructor
        · rintro ⟨s, hs, r, h1, h2⟩
          rcases List.mem_append.1 hs with hs | hs
          · exact ⟨s, hs, r, h1, h2⟩
          · rw [List.mem_singleton] at hs
            subst hs
            cases h1
        · rintro ⟨s, hs, h⟩
          exact ⟨s, List.mem_append_left _ hs, h⟩
      unfold PlacedTail
      rw [e1, e2]
    · intro q w
      constructor
      · rintro ⟨s, hs, n, h1, h2⟩
        rcases List.mem_append.1 hs with hs | hs
        · exact ⟨s, hs, n, h1, h2⟩
        · rw [List.mem_singleton] at hs
          subst hs
          obtain ⟨_, _, hm, _⟩ := h2
          cases hm
      · rintro ⟨s, hs, h⟩
        exact ⟨s, List.mem_append_left _ hs, h⟩
    · simp only
      push_cast
      omega
    · have : extent ([] : List Row) = 0 := rfl
      rw [this]
      show p.largest + 1 = _
      push_cast
      omega
    · have h1 := hi.multiple
      have h2 := hi.space
      have h3 := hi.offset
      simp only [Bool.or_eq_true, decide_eq_true_eq]
      constructor
      · intro _; simp
      · intro _
        by_cases hd : done = []
        · right
          subst hd
          simp at h2
          omega
        · exact .inl (h1.2 hd)
    · have := hi.space
      rw [List.map_append, List.sum_append]
      simp only [List.map_cons, List.map_nil, List.sum_cons, List.sum_nil]
      omega
    · intro x hx
      rcases List.mem_append.1 hx with hx | hx
      · exact hi.full x hx
      · rw [List.mem_singleton] at hx
        subst hx
        exact hc
    · rw [List.pairwise_append]
      refine ⟨hi.apart, List.pairwise_singleton _ _, ?_⟩
      intro a ha b hb x hx
      rw [List.mem_singleton] at hb
      subst hb
      rcases List.mem_append.1 ha with ha | ha
      · have := (List.pairwise_append.1 hi.apart).2.2 a ha (off, cur) (by simp) x hx
        simp only at this ⊢
        omega
      · rw [List.mem_singleton] at ha
        subst ha
        have := top_lt_extent hx
        simp only at this ⊢
        omega
    · intro x hx
      rcases List.mem_append.1 hx with hx | hx
      · exact hi.pos x hx
      · rw [List.mem_singleton] at hx
        subst hx
        have := hi.pos (off, cur) (by simp)
        simp only at this ⊢
        omega

/-! ## All lines -/

def glue (cur : List Row) : List (List Row) → List (List Row)
  | [] => [cur]
  | s :: ss => (cur ++ s) :: ss

theorem segments_ne (ls : List Line) : segments ls ≠ [] := by
  cases ls with
  | nil => simp [segments]
  | cons l ls =>
    induction ls generalizing l with
    | nil => cases l <;> simp [segments]
    | cons l2 ls ih =>
      cases l with
      | blank => rw [segments]; exact ih l2
      | sep => rw [segments]; simp
      | row r => rw [segments]; split <;> simp

theorem glue_nil {ss : List (List Row)} (h : ss ≠ []) : glue [] ss = ss := by
  cases ss with
  | nil => exact absurd rfl h
  | cons s ss => rfl

theorem glue_row (cur : List Row) (r : Row) (ls : List Line) : glue cur (segments (.row r :: ls)) = glue (cur ++ [r]) (segments ls) := by
  rw [segments]
  cases segments ls <;> simp [glue]

theorem glue_head (cur : List Row) (ss : List (List Row)) : ∃ t ts, glue cur ss = (cur ++ t) :: ts := by
  cases ss with
  | nil => exact ⟨[], [], by simp [glue]⟩
  | cons s ss => exact ⟨s, ss, rfl⟩

theorem extent_le (rows : List Row) : extent rows ≤ (rows.map Row.top).foldr max 0 + 1 := by
  unfold extent; split <;> omega

theorem lines_spec {σ : Setting W} : ∀ (ls : List Line) (p : Parse W) (done : Placed) (off : Nat) (cur : List Row), Inv σ p done off cur →
    (∀ r, .row r ∈ ls → r.WF σ) → (∀ rows ∈ (glue cur (segments ls)).dropLast, rows ≠ []) →
    (∀ rows ∈ glue cur (segments ls), ∀ src, rows.head? ≠ some (.final src none)) →
    (done.map fun s => extent s.2).sum + room (glue cur (segments ls)) < 2 ^ 31 →
    ∃ p' done' off' cur', parseLines σ (ls.map Line.columns ++ [[[]]]) p = .ok p' ∧ Inv σ p' done' off' cur' ∧
      (done' ++ [(off', cur')]).map (·.2) = done.map (·.2) ++ glue cur (segments ls) := by
  intro ls
  induction ls with
  | nil =>
    intro p done off cur hi _ _ _ _
    refine ⟨p, done, off, cur, ?_, hi, by simp [segments, glue]⟩
    simp [parseLines, parseLine_blank]
  | cons l ls ih =>
    intro p done off cur hi hr hn hf hroom
    cases l with
    | blank =>
      obtain ⟨p', done', off', cur', h1, h2, h3⟩ := ih p done off cur hi (fun r hm => hr r (by simp [hm])) hn hf hroom
      refine ⟨p', done', off', cur', ?_, h2, h3⟩
      simp only [List.map_cons, List.cons_append, Line.columns, parseLines, parseLine_blank, Res.bind_ok]
      exact h1
    | sep s cols =>
      have e : glue cur (segments (.sep s cols :: ls)) = cur :: segments ls := by simp [segments, glue]
      rw [e] at hn hf hroom
      obtain ⟨x, xs, ex⟩ : ∃ x xs, segments ls = x :: xs := by
        cases h : segments ls with
        | nil => exact absurd h (segments_ne ls)
        | cons x xs => exact ⟨x, xs, rfl⟩
      have hc : cur ≠ [] := hn cur (by rw [ex]; simp)
      obtain ⟨p1, g1, g2⟩ := parseLine_sep hi s cols hc
      have hg := glue_nil (segments_ne ls)
      obtain ⟨p', done', off', cur', h1, h2, h3⟩ := ih p1 _ _ [] g2 (fun r hm => hr r (by simp [hm]))
        (by rw [hg]; intro rows hm; exact hn rows (by rw [ex] at hm ⊢; simp only [List.dropLast_cons_cons, List.mem_cons]; exact .inr hm))
        (by rw [hg]; intro rows hm; exact hf rows (by simp [hm]))
        (by
          rw [hg, List.map_append, List.sum_append]
          have := extent_le cur
          simp only [room, List.map_cons, List.map_nil, List.sum_cons, List.sum_nil] at hroom ⊢
          omega)
      refine ⟨p', done', off', cur', ?_, h2, ?_⟩
      · simp only [List.map_cons, List.cons_append, Line.columns, parseLines, g1, Res.bind_ok]
        exact h1
      · rw [h3, hg, e]
        simp
    | row r =>
      rw [glue_row] at hn hf hroom
      obtain ⟨t, ts, et⟩ := glue_head (cur ++ [r]) (segments ls)
      have hb : off + r.top < 2 ^ 31 := by
        have := hi.space
        rw [et] at hroom
        have h2 := top_lt_extent (rows := cur ++ [r] ++ t) (r := r) (by simp)
        have h3 := extent_le (cur ++ [r] ++ t)
        simp only [room, List.map_cons, List.sum_cons] at hroom
        omega
      obtain ⟨p1, g1, g2⟩ := parseLine_row hi (hr r (by simp)) hb (by
        rintro rfl src rfl
        exact hf _ (by rw [et]; exact List.mem_cons_self) src rfl)
      obtain ⟨p', done', off', cur', h1, h2, h3⟩ := ih p1 _ _ _ g2 (fun r hm => hr r (by simp [hm])) hn hf hroom
      refine ⟨p', done', off', cur', ?_, h2, ?_⟩
      · simp only [List.map_cons, List.cons_append, Line.columns, parseLines, g1, Res.bind_ok]
        exact h1
      · rw [h3, glue_row]

end Verif.Att
