import Verif.Print.Lemmas
import Verif.Att.Lines
import Verif.Labels.Props

/-! # The lines that are written and their meaning -/

namespace Verif.Print

open Verif.Fst Verif.Att Verif.Alphabet

variable {W : Type}

/-! ## Joined final states -/

theorem named_zero {a : Alphabet} {n : Name} : Named a 0 n ↔ n = .letter 0 := by
  unfold Named
  simp

theorem printable_joined [AddMonoid W] {σ : Setting W} {fmt : W → UString} {a : Alphabet} {t : Transducer W} (h : Printable σ fmt a t) (h0 : a.decode 0 = .ok (0, 0))
    (hz : Kept σ fmt 0) : ∃ t', joinFinals 0 t = .ok t' ∧ Printable σ fmt a t' ∧ size t' ≤ size t + 1 ∧ (Leads t → Leads t') ∧ (OneArc a t → OneArc a t') ∧
      ∀ X Y w, NamesRelate a t' X Y w ↔ NamesRelate a t X Y w := by
  by_cases h2 : 2 ≤ t.finals.length
  · obtain ⟨t', e, hwf, hsz, hi, hf, hE⟩ := joinFinals_many h.wf 0 h2
    have hfin : ∀ p w, Final t' p w ↔ p = size t ∧ w = 0 := by simp [Final, hf]
    have hN : ∀ q l p, NamedEdge a t' q l p ↔ NamedEdge a t q l p ∨ (p = size t ∧ l.1 = (.letter 0, .letter 0) ∧ Final t q l.2) := by
      intro q l p
      unfold NamedEdge PairEdge
      constructor
      · rintro ⟨x, y, ⟨c, hc, he⟩, hx, hy⟩
        rcases (hE _ _ _).1 he with he | ⟨rfl, rfl, hfi⟩
        · exact .inl ⟨x, y, ⟨c, hc, he⟩, hx, hy⟩
        · simp only at hc
          rw [h0] at hc
          cases hc
          rw [named_zero] at hx hy
          exact .inr ⟨rfl, Prod.ext hx hy, hfi⟩
      · rintro (⟨x, y, ⟨c, hc, he⟩, hx, hy⟩ | ⟨rfl, hl, hfi⟩)
        · exact ⟨x, y, ⟨c, hc, (hE _ _ _).2 (.inl he)⟩, hx, hy⟩
        · exact ⟨0, 0, ⟨0, h0, (hE _ _ _).2 (.inr ⟨rfl, rfl, hfi⟩)⟩, named_zero.2 (by rw [hl]), named_zero.2 (by rw [hl])⟩
    have hout : ∀ l p, ¬ NamedEdge a t (size t) l p := by
      rintro l p ⟨x, y, ⟨c, -, he⟩, -⟩
      exact no_edge_out h.wf (le_refl _) _ _ he
    have hin : ∀ q l, ¬ NamedEdge a t q l (size t) := by
      rintro q l ⟨x, y, ⟨c, -, he⟩, -⟩
      exact no_edge_in h.wf (le_refl _) _ _ he
    refine ⟨t', e, ⟨hwf, ?_, ?_, by simp [hf], hi.trans h.initial, ?_, ?_⟩, by omega, ?_, ?_, ?_⟩
    · intro q l p he
      rcases (hE _ _ _).1 he with he | ⟨-, hl, -⟩
      · exact h.coded _ _ _ he
      · exact ⟨_, by rw [hl]; exact h0⟩
    · rintro q l p ⟨c, hc, he⟩
      rcases (hE _ _ _).1 he with he | ⟨-, hl, -⟩
      · exact h.names _ _ _ ⟨c, hc, he⟩
      · simp only at hl
        rw [hl, h0] at hc
        obtain ⟨⟨x, y⟩, w⟩ := l
        cases hc
        exact ⟨⟨_, named_zero.2 rfl, .inl rfl⟩, _, named_zero.2 rfl, .inl rfl⟩
    · intro q l p he
      rcases (hE _ _ _).1 he with he | ⟨-, -, hfi⟩
      · exact h.arcWeight _ _ _ he
      · exact h.finalWeight _ _ hfi
    · intro p w hp
      rw [((hfin _ _).1 hp).2]
      exact hz
    · rintro (⟨l, p, he⟩ | ⟨-, w, hw⟩)
      · exact .inl ⟨l, p, (hE _ _ _).2 (.inl he)⟩
      · exact .inl ⟨(0, w), size t, (hE _ _ _).2 (.inr ⟨rfl, rfl, hw⟩)⟩
    · intro ho q l w v p h1 h2
      rcases (hN _ _ _).1 h1 with h1 | ⟨rfl, -, f1⟩
      · rcases (hN _ _ _).1 h2 with h2 | ⟨rfl, -, f2⟩
        · exact ho _ _ _ _ _ h1 h2
        · exact absurd h1 (hin _ _)
      · rcases (hN _ _ _).1 h2 with h2 | ⟨-, -, f2⟩
        · exact absurd h2 (hin _ _)
        · have e1 := mapFind_of_mem h.wf.finals_sorted f1
          have e2 := mapFind_of_mem h.wf.finals_sorted f2
          exact Option.some.inj (e1.symm.trans e2)
    · have hps := fun (p : Nat) (ls : List ((Name × Name) × W)) => path_sink (E := NamedEdge a t) (E' := NamedEdge a t')
        (G := fun q l => l.1 = (.letter 0, .letter 0) ∧ Final t q l.2) (n := size t) hN hout
        (fun l hl => by have := h.wf.finals_lt _ _ hl.2; omega) hin (q := t.initial) (p := p) (ls := ls) (by have := h.wf.initial_lt; omega)
      intro X Y w
      unfold NamesRelate SpellsNames
      rw [hi]
      constructor
      · rintro ⟨ls, fw, ⟨p, hp, hfi⟩, rfl, rfl, rfl⟩
        obtain ⟨rfl, rfl⟩ := (hfin _ _).1 hfi
        rcases (hps _ _).1 hp with ⟨hne, -⟩ | ⟨-, ls0, r, l, h1, ⟨h3, h4⟩, rfl⟩
        · exact absurd rfl hne
        · refine ⟨ls0, l.2, ⟨r, h1, h4⟩, ?_, ?_, ?_⟩ <;> simp [h3]
      · rintro ⟨ls, fw, ⟨p, hp, hfi⟩, rfl, rfl, rfl⟩
        refine ⟨ls ++ [((.letter 0, .letter 0), fw)], 0, ⟨size t, (hps _ _).2 (.inr ⟨rfl, ls, p, _, hp, ⟨rfl, hfi⟩, rfl⟩), (hfin _ _).2 ⟨rfl, rfl⟩⟩, ?_, ?_, ?_⟩ <;> simp
  · obtain ⟨e, he⟩ : ∃ e, t.finals = [e] := by
      match hf : t.finals with
      | [] => exact absurd hf h.finals
      | [e] => exact ⟨e, rfl⟩
      | _ :: _ :: _ => simp [hf] at h2
    exact ⟨t, joinFinals_single 0 he, h, by omega, id, id, fun _ _ _ => Iff.rfl⟩

/-! ## The lines -/

/-- The text of a symbol, if there is one. -/
def colOf (a : Alphabet) (hfst : Bool) (x : Int) : UString :=
  match column a hfst x with
  | .ok s => s
  | _ => []

/-- The line of an arc. -/
def arcRow (fmt : W → UString) (a : Alphabet) (hfst : Bool) (q : Nat) (e : Int × (Nat × W)) : Att.Row :=
  match a.decode e.1 with
  | .ok p => .arc (digitsOf q) (digitsOf e.2.1) (colOf a hfst p.1) (colOf a hfst p.2) (some (fmt e.2.2))
  | _ => .final [] none

/-- The line of a final state. -/
def finalRow (fmt : W → UString) (e : Nat × W) : Att.Row := .final (digitsOf e.1) (some (fmt e.2))

/-- The lines of a transducer. -/
def rowsOf (fmt : W → UString) (a : Alphabet) (hfst : Bool) (t : Transducer W) : List Att.Row :=
  (t.transitions.flatMap fun e => e.2.map (arcRow fmt a hfst e.1)) ++ t.finals.map (finalRow fmt)

theorem fileText_append (xs ys : List Line) : fileText (xs ++ ys) = fileText xs ++ fileText ys := List.flatMap_append

variable {σ : Setting W} {fmt : W → UString} {a : Alphabet} {t : Transducer W}

theorem edge_of_mem (h : WF t) {e : Nat × Fst.Row W} (he : e ∈ t.transitions) {d : Int × (Nat × W)} (hd : d ∈ e.2) : Edge t e.1 (d.1, d.2.2) d.2.1 := by
  unfold Edge
  rw [mem_row_of_mem h he]
  exact hd

/-- The parts of the line of an arc. -/
theorem arc_parts (h : Printable σ fmt a t) {q : Nat} {c : Int} {w : W} {p : Nat} (he : Edge t q (c, w) p) :
    ∃ x y n m s u, a.decode c = .ok (x, y) ∧ Named a x n ∧ Named a y m ∧ column a σ.hfstSymbols x = .ok s ∧ column a σ.hfstSymbols y = .ok u ∧
      arcRow fmt a σ.hfstSymbols q (c, (p, w)) = .arc (digitsOf q) (digitsOf p) s u (some (fmt w)) ∧
      Denotes σ.hfstSymbols s (seen n) ∧ Denotes σ.hfstSymbols u (seen m) ∧ Column s ∧ Column u := by
  obtain ⟨⟨x, y⟩, hd⟩ := h.coded _ _ _ he
  obtain ⟨⟨n, hn, wn⟩, m, hm, wm⟩ := h.names _ ((x, y), w) _ ⟨c, hd, he⟩
  obtain ⟨s, h1, h2, h3⟩ := column_ok hn wn
  obtain ⟨u, g1, g2, g3⟩ := column_ok hm wm
  refine ⟨x, y, n, m, s, u, hd, hn, hm, h1, g1, ?_, h2, g2, h3, g3⟩
  simp only at hd
  simp only at h1 g1
  simp only [arcRow, hd, colOf, h1, g1]

theorem arcLine_ok (h : Printable σ fmt a t) {q : Nat} {e : Int × (Nat × W)} (he : Edge t q (e.1, e.2.2) e.2.1) :
    arcLine fmt a σ.hfstSymbols q e = .ok (Line.text (.row (arcRow fmt a σ.hfstSymbols q e))) := by
  obtain ⟨c, p, w⟩ := e
  obtain ⟨x, y, n, m, s, u, h1, -, -, h4, h5, h6, -⟩ := arc_parts h he
  rw [h6]
  simp only [arcLine, h1, Res.bind_ok, h4, h5, decimal_eq]
  simp [Line.text, Line.columns, Att.Row.columns, List.intercalate]

theorem arcLines_ok (h : Printable σ fmt a t) {q : Nat} (es : List (Int × (Nat × W))) (he : ∀ e ∈ es, Edge t q (e.1, e.2.2) e.2.1) :
    arcLines fmt a σ.hfstSymbols q es = .ok (fileText ((es.map (arcRow fmt a σ.hfstSymbols q)).map .row)) := by
  induction es with
  | nil => rfl
  | cons e es ih =>
    rw [arcLines, arcLine_ok h (he e (by simp)), Res.bind_ok, ih fun e h => he e (by simp [h])]
    rfl

theorem stateLines_ok (h : Printable σ fmt a t) (es : List (Nat × Fst.Row W)) (he : ∀ e ∈ es, e ∈ t.transitions) :
    stateLines fmt a σ.hfstSymbols es = .ok (fileText ((es.flatMap fun e => e.2.map (arcRow fmt a σ.hfstSymbols e.1)).map .row)) := by
  induction es with
  | nil => rfl
  | cons e es ih =>
    rw [stateLines, arcLines_ok h _ fun d hd => edge_of_mem h.wf (he e (by simp)) hd, Res.bind_ok, ih fun e h => he e (by simp [h])]
    simp only [Res.bind_ok, List.flatMap_cons, List.map_append, fileText_append]

theorem finalLine_eq (e : Nat × W) : finalLine fmt e = Line.text (.row (finalRow fmt e)) := by
  simp [finalLine, decimal_eq, Line.text, Line.columns, finalRow, Att.Row.columns, List.intercalate]

theorem showText_ok (h : Printable σ fmt a t) : showText fmt a σ.hfstSymbols t = .ok (fileText ((rowsOf fmt a σ.hfstSymbols t).map .row)) := by
  rw [showText, stateLines_ok h _ fun _ h => h, Res.bind_ok, rowsOf, List.map_append, fileText_append]
  congr 2
  unfold fileText
  rw [List.map_map, List.flatMap_map]
  exact List.flatMap_congr fun e _ => finalLine_eq e

theorem mem_rows (h : Printable σ fmt a t) {r : Att.Row} : r ∈ rowsOf fmt a σ.hfstSymbols t ↔
    (∃ q c w p, Edge t q (c, w) p ∧ r = arcRow fmt a σ.hfstSymbols q (c, (p, w))) ∨ ∃ p w, Final t p w ∧ r = .final (digitsOf p) (some (fmt w)) := by
  unfold rowsOf
  rw [List.mem_append]
  apply or_congr
  · rw [List.mem_flatMap]
    constructor
    · rintro ⟨e, he, hr⟩
      obtain ⟨d, hd, rfl⟩ := List.mem_map.1 hr
      exact ⟨e.1, d.1, d.2.2, d.2.1, edge_of_mem h.wf he hd, rfl⟩
    · rintro ⟨q, c, w, p, he, rfl⟩
      obtain ⟨es, hes, hm⟩ : ∃ es, (q, es) ∈ t.transitions ∧ (c, (p, w)) ∈ es := by
        unfold Edge row at he
        cases hf : mapFind q t.transitions with
        | none => simp [hf] at he
        | some es =>
          rw [hf] at he
          exact ⟨es, mapFind_mem hf, he⟩
      exact ⟨(q, es), hes, List.mem_map.2 ⟨_, hm, rfl⟩⟩
  · rw [List.mem_map]
    constructor
    · rintro ⟨e, he, rfl⟩
      exact ⟨e.1, e.2, he, rfl⟩
    · rintro ⟨p, w, he, rfl⟩
      exact ⟨(p, w), he, rfl⟩

theorem rows_wf [Zero W] (h : Printable σ fmt a t) {r : Att.Row} (hr : r ∈ rowsOf fmt a σ.hfstSymbols t) : r.WF σ := by
  rcases (mem_rows h).1 hr with ⟨q, c, w, p, he, rfl⟩ | ⟨p, w, hp, rfl⟩
  · obtain ⟨x, y, n, m, s, u, h1, -, -, h4, h5, h6, h7, h8, h9, h10⟩ := arc_parts h he
    have hk := h.arcWeight _ _ _ he
    rw [h6]
    refine ⟨?_, ?_, ?_⟩
    · intro z hz
      simp only [Att.Row.columns, Option.toList, List.cons_append, List.nil_append, List.mem_cons, List.not_mem_nil, or_false] at hz
      rcases hz with rfl | rfl | rfl | rfl | rfl
      · exact decimal_column q
      · exact decimal_column p
      · exact h9
      · exact h10
      · exact hk.2
    · rintro _ _ _ _ _ ⟨⟩
      exact ⟨digitsOf_wf _, digitsOf_wf _, ⟨_, h7⟩, ⟨_, h8⟩, w, hk.1⟩
    · rintro _ _ ⟨⟩
  · have hk := h.finalWeight _ _ hp
    refine ⟨?_, ?_, ?_⟩
    · intro z hz
      simp only [Att.Row.columns, Option.toList, List.mem_cons, List.not_mem_nil, or_false] at hz
      rcases hz with rfl | rfl
      · exact decimal_column p
      · exact hk.2
    · rintro _ _ _ _ _ ⟨⟩
    · rintro _ _ ⟨⟩
      exact ⟨digitsOf_wf _, w, hk.1⟩

/-! ## Their meaning -/

theorem named_unique {x : Int} {n m : Name} (h : Named a x n) (h' : Named a x m) : n = m := by
  rcases h with ⟨h1, rfl⟩ | ⟨h1, s, h2, rfl⟩ <;> rcases h' with ⟨g1, rfl⟩ | ⟨g1, u, g2, rfl⟩
  · rfl
  · omega
  · omega
  · rw [h2] at g2
    cases g2
    rfl

theorem seen_inj {n m : Name} (h : seen n = seen m) : n = m := by
  unfold seen at h
  split at h <;> split at h
  · next h1 h2 => rw [h1, h2]
  · cases h
  · cases h
  · simpa using h

/-- Both sides in the order in which they are read. -/
def turned {α : Type} (rl : Bool) (l : α × α) : α × α := if rl then (l.2, l.1) else l

theorem rowEdge_iff [Zero W] (h : Printable σ fmt a t) (q : Nat) (l : (List Name × List Name) × W) (p : Nat) :
    RowEdge σ (rowsOf fmt a σ.hfstSymbols t) q l p ↔ ∃ n m, NamedEdge a t q ((n, m), l.2) p ∧ l.1 = turned σ.readRl (seen n, seen m) := by
  constructor
  · rintro ⟨src, dst, c2, c3, ws, hm, rfl, rfl, d1, d2, hw⟩
    rcases (mem_rows h).1 hm with ⟨q, c, w, p, he, e⟩ | ⟨p, w, -, e⟩
    · obtain ⟨x, y, n, m, s, u, h1, h2, h3, -, -, h6, h7, h8, -⟩ := arc_parts h he
      rw [h6] at e
      cases e
      rw [digitsOf_value, digitsOf_value]
      have hk := (h.arcWeight _ _ _ he).1
      have e2 : l.2 = w := Option.some.inj ((show σ.stod (fmt w) = some l.2 from hw).symm.trans hk)
      refine ⟨n, m, ⟨x, y, ⟨c, h1, e2 ▸ he⟩, h2, h3⟩, ?_⟩
      unfold turned
      cases hrl : σ.readRl
      · simp only [hrl, Bool.false_eq_true, if_false] at d1 d2 ⊢
        exact Prod.ext (d1.unique h7) (d2.unique h8)
      · simp only [hrl, if_true] at d1 d2 ⊢
        exact Prod.ext (d1.unique h8) (d2.unique h7)
    · cases e
  · rintro ⟨n, m, ⟨x, y, ⟨c, hc, he⟩, hn, hm⟩, hl⟩
    obtain ⟨x', y', n', m', s, u, h1, h2, h3, -, -, h6, h7, h8, -⟩ := arc_parts h he
    simp only at hc
    rw [hc] at h1
    cases h1
    obtain rfl := named_unique hn h2
    obtain rfl := named_unique hm h3
    refine ⟨digitsOf q, digitsOf p, s, u, some (fmt l.2), (mem_rows h).2 (.inl ⟨q, c, l.2, p, he, h6.symm⟩), digitsOf_value q, digitsOf_value p, ?_, ?_, (h.arcWeight _ _ _ he).1⟩
    · rw [hl]
      unfold turned
      split
      · exact h8
      · exact h7
    · rw [hl]
      unfold turned
      split
      · exact h7
      · exact h8

theorem rowFinal_iff [Zero W] (h : Printable σ fmt a t) (p : Nat) (w : W) : RowFinal σ (rowsOf fmt a σ.hfstSymbols t) p w ↔ Final t p w := by
  constructor
  · rintro ⟨src, ws, hm, rfl, hw⟩
    rcases (mem_rows h).1 hm with ⟨q, c, v, p, he, e⟩ | ⟨p, v, hp, e⟩
    · obtain ⟨x, y, n, m, s, u, -, -, -, -, -, h6, -⟩ := arc_parts h he
      rw [h6] at e
      cases e
    · cases e
      rw [digitsOf_value]
      have e2 : w = v := Option.some.inj ((show σ.stod (fmt v) = some w from hw).symm.trans (h.finalWeight _ _ hp).1)
      exact e2 ▸ hp
  · intro hp
    exact ⟨digitsOf p, some (fmt w), (mem_rows h).2 (.inr ⟨p, w, hp, rfl⟩), digitsOf_value p, (h.finalWeight _ _ hp).1⟩

theorem seen_flatten {α : Type} (f : α → Name) (l : List α) : (l.map fun x => seen (f x)).flatten = (l.map f).filter (· ≠ .letter 0) := by
  induction l with
  | nil => rfl
  | cons x l ih =>
    rw [List.map_cons, List.flatten_cons, ih]
    unfold seen
    by_cases h : f x = .letter 0
    · simp [h]
    · simp [h]

/-- What is written means the same as the transducer. -/
theorem rows_relate [AddMonoid W] (h : Printable σ fmt a t) (X Y : List Name) (w : W) :
    RowsRelate σ 0 (rowsOf fmt a σ.hfstSymbols t) X Y w ↔ NamesRelate a t (turned σ.readRl (X, Y)).1 (turned σ.readRl (X, Y)).2 w := by
  have key : ∀ q ls p, Path (RowEdge σ (rowsOf fmt a σ.hfstSymbols t)) q ls p ↔
      ∃ ns, Path (NamedEdge a t) q ns p ∧ ls = ns.map fun l => (turned σ.readRl (seen l.1.1, seen l.1.2), l.2) := by
    intro q ls p
    constructor
    · intro hp
      induction hp with
      | nil q => exact ⟨[], .nil q, rfl⟩
      | cons he _ ih =>
        obtain ⟨ns, h1, rfl⟩ := ih
        obtain ⟨n, m, h2, h3⟩ := (rowEdge_iff h _ _ _).1 he
        refine ⟨_, .cons h2 h1, ?_⟩
        rw [List.map_cons]
        exact congrArg (· :: _) (Prod.ext h3 rfl)
    · rintro ⟨ns, hp, rfl⟩
      induction hp with
      | nil q => exact .nil q
      | @cons q r p l ls he _ ih =>
        refine .cons ?_ ih
        exact (rowEdge_iff h _ _ _).2 ⟨l.1.1, l.1.2, he, rfl⟩
  have e1 : ∀ ns : List ((Name × Name) × W), ((ns.map fun l => (turned σ.readRl (seen l.1.1, seen l.1.2), l.2)).map (·.1.1)).flatten =
      (turned σ.readRl ((ns.map (·.1.1)).filter (· ≠ .letter 0), (ns.map (·.1.2)).filter (· ≠ .letter 0))).1 := by
    intro ns
    rw [List.map_map]
    unfold turned
    cases σ.readRl
    · exact seen_flatten (fun l : (Name × Name) × W => l.1.1) ns
    · exact seen_flatten (fun l : (Name × Name) × W => l.1.2) ns
  have e2 : ∀ ns : List ((Name × Name) × W), ((ns.map fun l => (turned σ.readRl (seen l.1.1, seen l.1.2), l.2)).map (·.1.2)).flatten =
      (turned σ.readRl ((ns.map (·.1.1)).filter (· ≠ .letter 0), (ns.map (·.1.2)).filter (· ≠ .letter 0))).2 := by
    intro ns
    rw [List.map_map]
    unfold turned
    cases σ.readRl
    · exact seen_flatten (fun l : (Name × Name) × W => l.1.2) ns
    · exact seen_flatten (fun l : (Name × Name) × W => l.1.1) ns
  have e3 : ∀ ns : List ((Name × Name) × W), (ns.map fun l => (turned σ.readRl (seen l.1.1, seen l.1.2), l.2)).map (·.2) = ns.map (·.2) := by
    intro ns
    rw [List.map_map]
    rfl
  unfold RowsRelate NamesRelate SpellsNames
  rw [h.initial]
  constructor
  · rintro ⟨ls, p, fw, hp, hf, rfl, rfl, rfl⟩
    obtain ⟨ns, h1, rfl⟩ := (key _ _ _).1 hp
    refine ⟨ns, fw, ⟨p, h1, (rowFinal_iff h _ _).1 hf⟩, ?_, ?_, by rw [e3]⟩
    · rw [e1, e2]
      unfold turned
      cases σ.readRl <;> rfl
    · rw [e1, e2]
      unfold turned
      cases σ.readRl <;> rfl
  · rintro ⟨ns, fw, ⟨p, hp, hf⟩, hX, hY, rfl⟩
    refine ⟨_, p, fw, (key _ _ _).2 ⟨ns, hp, rfl⟩, (rowFinal_iff h _ _).2 hf, ?_, ?_, by rw [e3]⟩
    · rw [e1, ← hX, ← hY]
      unfold turned
      cases σ.readRl <;> rfl
    · rw [e2, ← hX, ← hY]
      unfold turned
      cases σ.readRl <;> rfl

end Verif.Print
