import Verif.Print.Rows
import Verif.Att.Props

/-! # Properties of `lt-print` -/

namespace Verif.Print

open Verif.Fst Verif.Att

variable {W : Type} [AddMonoid W] {σ : Setting W} {fmt : W → UString} {a : Alphabet}

/-- The lines of several transducers, with a line between two. -/
def linesOf : (first : Bool) → List (List Att.Row) → List Line
  | _, [] => []
  | first, r :: rs => (if first then [] else [.sep [0x2d] []]) ++ (r.map .row ++ linesOf false rs)

theorem segments_rows (r : List Att.Row) {ls : List Line} {s : List Att.Row} {ss : List (List Att.Row)} (h : segments ls = s :: ss) :
    segments (r.map .row ++ ls) = (r ++ s) :: ss := by
  induction r with
  | nil => exact h
  | cons x r ih =>
    rw [List.map_cons, List.cons_append, segments, ih]
    rfl

theorem segments_later (rs : List (List Att.Row)) : segments (linesOf false rs) = [] :: rs := by
  induction rs with
  | nil => rfl
  | cons r rs ih =>
    have := segments_rows r ih
    rw [List.append_nil] at this
    rw [linesOf, if_neg (by decide), List.cons_append, List.nil_append, segments, this]

theorem segments_lines (r : List Att.Row) (rs : List (List Att.Row)) : segments (linesOf true (r :: rs)) = r :: rs := by
  have := segments_rows r (segments_later rs)
  rw [List.append_nil] at this
  rw [linesOf, if_pos rfl, List.nil_append, this]

omit [AddMonoid W] in
/-- The first line is one of the initial state. -/
theorem rows_head {t : Transducer W} (h : Printable σ fmt a t) (hl : Leads t) : ∃ r, (rowsOf fmt a σ.hfstSymbols t).head? = some r ∧ r.source = 0 := by
  have hpos : 0 < size t := by have := h.wf.initial_lt; omega
  obtain ⟨es, tl, htl⟩ : ∃ es tl, t.transitions = (0, es) :: tl := by
    have hk := h.wf.keys
    cases ht : t.transitions with
    | nil => simp [size, ht] at hpos
    | cons e tl =>
      obtain ⟨q, es⟩ := e
      rw [ht] at hk
      obtain ⟨n, hn⟩ : ∃ n, size t = n + 1 := ⟨size t - 1, by omega⟩
      rw [hn, List.range_succ_eq_map, List.map_cons] at hk
      cases (List.cons.inj hk).1
      exact ⟨es, tl, rfl⟩
  have hrow : row t 0 = es := by
    have := mem_row_of_mem h.wf (e := (0, es)) (by rw [htl]; simp)
    exact this
  rcases hl with ⟨⟨c, w⟩, p, he⟩ | ⟨hno, w, hw⟩
  · unfold Edge at he
    rw [hrow] at he
    cases es with
    | nil => cases he
    | cons d es =>
      refine ⟨arcRow fmt a σ.hfstSymbols 0 d, ?_, ?_⟩
      · unfold rowsOf
        rw [htl]
        rfl
      · obtain ⟨c, p, w⟩ := d
        have hd : Edge t 0 (c, w) p := by
          unfold Edge
          rw [hrow]
          simp
        obtain ⟨x, y, n, m, s, u, -, -, -, -, -, h6, -⟩ := arc_parts h hd
        rw [h6]
        exact digitsOf_value 0
  · have e1 : (t.transitions.flatMap fun e => e.2.map (arcRow fmt a σ.hfstSymbols e.1)) = [] := by
      rw [List.flatMap_eq_nil_iff]
      intro e he
      rw [List.map_eq_nil_iff]
      by_contra hne
      obtain ⟨d, hd⟩ := List.exists_mem_of_ne_nil _ hne
      exact hno _ _ _ (edge_of_mem h.wf he hd)
    have e2 : ∃ tl, t.finals = (0, w) :: tl := by
      have hs := h.wf.finals_sorted
      unfold Final at hw
      cases hf : t.finals with
      | nil => rw [hf] at hw; cases hw
      | cons e tl =>
        rw [hf] at hw hs
        rcases List.mem_cons.1 hw with rfl | hw
        · exact ⟨tl, rfl⟩
        · have := (List.pairwise_cons.1 hs).1 _ hw
          simp at this
    obtain ⟨tl, e2⟩ := e2
    refine ⟨.final (digitsOf 0) (some (fmt w)), ?_, digitsOf_value 0⟩
    unfold rowsOf
    rw [e1, e2]
    rfl

omit [AddMonoid W] in
theorem rows_top {t : Transducer W} (h : Printable σ fmt a t) : ((rowsOf fmt a σ.hfstSymbols t).map Att.Row.top).foldr max 0 + 1 ≤ size t := by
  have hb : ∀ l : List Nat, (∀ x ∈ l, x < size t) → l.foldr max 0 < size t := by
    intro l hl
    induction l with
    | nil =>
      have := h.wf.initial_lt
      simp only [List.foldr_nil]
      omega
    | cons x l ih =>
      have h1 := hl x (by simp)
      have h2 := ih fun y hy => hl y (by simp [hy])
      simp only [List.foldr_cons]
      omega
  refine hb _ fun x hx => ?_
  obtain ⟨r, hr, rfl⟩ := List.mem_map.1 hx
  rcases (mem_rows h).1 hr with ⟨q, c, w, p, he, rfl⟩ | ⟨p, w, hp, rfl⟩
  · obtain ⟨x, y, n, m, s, u, -, -, -, -, -, h6, -⟩ := arc_parts h he
    rw [h6]
    have h1 := h.wf.source_lt he
    have h2 := h.wf.target_lt _ _ _ he
    simp only [Att.Row.top, digitsOf_value]
    omega
  · have := h.wf.finals_lt _ _ hp
    simp only [Att.Row.top, digitsOf_value]
    omega

theorem printLoop_ok (h0 : a.decode 0 = .ok (0, 0)) (hz : Kept σ fmt 0) (es : List (UString × Transducer W)) (hp : ∀ e ∈ es, Printable σ fmt a e.2) (first : Bool) :
    ∃ ts : List (Transducer W), printLoop fmt a σ.hfstSymbols first es = .ok (fileText (linesOf first (ts.map (rowsOf fmt a σ.hfstSymbols)))) ∧
      List.Forall₂ (fun e t' => Printable σ fmt a t' ∧ size t' ≤ size e.2 + 1 ∧ (Leads e.2 → Leads t') ∧ (OneArc a e.2 → OneArc a t') ∧
        ∀ X Y w, NamesRelate a t' X Y w ↔ NamesRelate a e.2 X Y w) es ts := by
  induction es generalizing first with
  | nil => exact ⟨[], rfl, .nil⟩
  | cons e es ih =>
    obtain ⟨t', h1, h2, h3⟩ := printable_joined (hp e (by simp)) h0 hz
    obtain ⟨ts, g1, g2⟩ := ih (fun e he => hp e (by simp [he])) false
    refine ⟨t' :: ts, ?_, .cons ⟨h2, h3⟩ g2⟩
    rw [printLoop, h1, Res.bind_ok, showText_ok h2, Res.bind_ok, g1, Res.bind_ok, List.map_cons, linesOf, fileText_append, fileText_append]
    cases first <;> rfl

/-- **C76** What `lt-print` writes is a file in the AT&T format that relates exactly what the transducers do: each transducer is one of the file, with the
same names and the same weights. -/
theorem C76_print (h0 : a.decode 0 = .ok (0, 0)) (hz : Kept σ fmt 0) (es : List (UString × Transducer W)) (hne : es ≠ []) (hp : ∀ e ∈ es, Printable σ fmt a e.2)
    (hl : es.length ≠ 1 → ∀ e ∈ es, Leads e.2) (hroom : (es.map fun e => size e.2 + 1).sum < 2 ^ 31) :
    ∃ ls, printSet fmt σ.hfstSymbols a es = .ok (fileText ls) ∧ FileWF σ ls ∧
      (∀ X Y w, FileMeans σ ls X Y w ↔ ∃ e ∈ es, if σ.readRl then NamesRelate a e.2 Y X w else NamesRelate a e.2 X Y w) ∧
      ((∀ e ∈ es, Leads e.2) → ∀ X Y w, FileRelates σ ls X Y w ↔ FileMeans σ ls X Y w) ∧
      ((∀ e ∈ es, OneArc a e.2) → OneWeight σ ls) := by
  obtain ⟨ts, h1, h2⟩ := printLoop_ok h0 hz es hp true
  have hseg : segments (linesOf true (ts.map (rowsOf fmt a σ.hfstSymbols))) = ts.map (rowsOf fmt a σ.hfstSymbols) := by
    cases h2 with
    | nil => exact absurd rfl hne
    | cons _ _ => exact segments_lines _ _
  have hlen : ts.length = es.length := h2.length_eq.symm
  have left : ∀ t' ∈ ts, ∃ e ∈ es, Printable σ fmt a t' ∧ size t' ≤ size e.2 + 1 ∧ (Leads e.2 → Leads t') ∧ (OneArc a e.2 → OneArc a t') ∧
      ∀ X Y w, NamesRelate a t' X Y w ↔ NamesRelate a e.2 X Y w := by
    clear h1 hseg hlen hne hp hl hroom
    induction h2 with
    | nil => intro t' h; cases h
    | cons hd _ ih =>
      intro t' h
      rcases List.mem_cons.1 h with rfl | h
      · exact ⟨_, by simp, hd⟩
      · obtain ⟨e, he, h⟩ := ih t' h
        exact ⟨e, by simp [he], h⟩
  have right : ∀ e ∈ es, ∃ t' ∈ ts, Printable σ fmt a t' ∧ (Leads e.2 → Leads t') ∧ ∀ X Y w, NamesRelate a t' X Y w ↔ NamesRelate a e.2 X Y w := by
    clear h1 hseg hlen hne hp hl hroom left
    induction h2 with
    | nil => intro t' h; cases h
    | cons hd _ ih =>
      intro e h
      rcases List.mem_cons.1 h with rfl | h
      · exact ⟨_, by simp, hd.1, hd.2.2.1, hd.2.2.2.2⟩
      · obtain ⟨t', he, h⟩ := ih e h
        exact ⟨t', by simp [he], h⟩
  have hnil : ∀ t', Printable σ fmt a t' → rowsOf fmt a σ.hfstSymbols t' ≠ [] := by
    intro t' h
    unfold rowsOf
    simp [h.finals]
  have hsum : room (ts.map (rowsOf fmt a σ.hfstSymbols)) ≤ (es.map fun e => size e.2 + 1).sum := by
    clear h1 hseg hlen hne hp hl hroom left right
    unfold room
    rw [List.map_map]
    induction h2 with
    | nil => exact le_refl _
    | cons hd _ ih =>
      have := rows_top hd.1
      have := hd.2.1
      simp only [List.map_cons, List.sum_cons, Function.comp_def] at ih ⊢
      omega
  have hturn : ∀ (t' : Transducer W) X Y w, NamesRelate a t' (turned σ.readRl (X, Y)).1 (turned σ.readRl (X, Y)).2 w ↔ if σ.readRl then NamesRelate a t' Y X w else NamesRelate a t' X Y w := by
    intro t' X Y w
    unfold turned
    cases σ.readRl <;> rfl
  refine ⟨_, h1, ⟨?_, ?_, ?_, ?_, ?_⟩, ?_, ?_, ?_⟩
  · have : ∀ (rs : List (List Att.Row)) (first : Bool) (r : Att.Row), .row r ∈ linesOf first rs → ∃ x ∈ rs, r ∈ x := by
      intro rs
      induction rs with
      | nil => intro _ _ h; cases h
      | cons x rs ih =>
        intro first r h
        rw [linesOf, List.mem_append, List.mem_append] at h
        rcases h with h | h | h
        · cases first <;> simp at h
        · exact ⟨x, by simp, by simpa using h⟩
        · obtain ⟨y, hy, h⟩ := ih _ _ h
          exact ⟨y, by simp [hy], h⟩
    intro r hr
    obtain ⟨x, hx, hr⟩ := this _ _ _ hr
    obtain ⟨t', ht, rfl⟩ := List.mem_map.1 hx
    obtain ⟨e, -, h, -⟩ := left t' ht
    exact rows_wf h hr
  · have : ∀ (rs : List (List Att.Row)) (first : Bool) (s : UString) (cols : List UString), .sep s cols ∈ linesOf first rs → s = [0x2d] ∧ cols = [] := by
      intro rs
      induction rs with
      | nil => intro _ _ _ h; cases h
      | cons x rs ih =>
        intro first s cols h
        rw [linesOf, List.mem_append, List.mem_append] at h
        rcases h with h | h | h
        · cases first
          · simpa using h
          · simp at h
        · simp at h
        · exact ih _ _ _ h
    intro s cols hs
    obtain ⟨rfl, rfl⟩ := this _ _ _ _ hs
    unfold Column
    decide
  · rw [hseg]
    intro rows hr
    obtain ⟨t', ht, rfl⟩ := List.mem_map.1 (List.mem_of_mem_dropLast hr)
    obtain ⟨e, -, h, -⟩ := left t' ht
    exact hnil t' h
  · rw [hseg]
    intro rows hr src hs
    obtain ⟨t', ht, rfl⟩ := List.mem_map.1 hr
    obtain ⟨e, -, h, -⟩ := left t' ht
    rcases (mem_rows h).1 (List.mem_of_mem_head? hs) with ⟨q, c, w, p, he, e⟩ | ⟨p, w, -, e⟩
    · obtain ⟨x, y, n, m, s, u, -, -, -, -, -, h6, -⟩ := arc_parts h he
      rw [h6] at e
      cases e
    · cases e
  · rw [hseg]
    omega
  · intro X Y w
    have hst : ∀ e ∈ es, ∀ t' ∈ ts, Printable σ fmt a t' → (Leads e.2 → Leads t') → ∃ r, (rowsOf fmt a σ.hfstSymbols t').head? = some r ∧
        (if (ts.map (rowsOf fmt a σ.hfstSymbols)).length = 1 then 0 else r.source) = 0 := by
      intro e he t' ht hpt hlt
      rw [List.length_map, hlen]
      split
      · obtain ⟨r, hr⟩ : ∃ r, (rowsOf fmt a σ.hfstSymbols t').head? = some r := by
          cases hh : rowsOf fmt a σ.hfstSymbols t' with
          | nil => exact absurd hh (hnil t' hpt)
          | cons r _ => exact ⟨r, rfl⟩
        exact ⟨r, hr, rfl⟩
      · next h => exact rows_head hpt (hlt (hl h e he))
    unfold FileMeans
    rw [hseg]
    constructor
    · rintro ⟨rows, hr, r, hh, hm⟩
      obtain ⟨t', ht, rfl⟩ := List.mem_map.1 hr
      obtain ⟨e, he, hpt, -, hlt, -, hrel⟩ := left t' ht
      obtain ⟨r', hr', hs⟩ := hst e he t' ht hpt hlt
      rw [hh] at hr'
      cases hr'
      rw [hs, rows_relate hpt, hturn] at hm
      refine ⟨e, he, ?_⟩
      rw [hrel, hrel] at hm
      exact hm
    · rintro ⟨e, he, hm⟩
      obtain ⟨t', ht, hpt, hlt, hrel⟩ := right e he
      obtain ⟨r, hr, hs⟩ := hst e he t' ht hpt hlt
      refine ⟨_, List.mem_map.2 ⟨t', ht, rfl⟩, r, hr, ?_⟩
      rw [hs, rows_relate hpt, hturn, hrel, hrel]
      exact hm
  · intro hld X Y w
    refine (fileMeans_iff ?_ X Y w).symm
    rw [hseg]
    intro rows hr r hh
    have hmem : rows ∈ ts.map (rowsOf fmt a σ.hfstSymbols) := by rw [hr]; simp
    obtain ⟨t', ht, rfl⟩ := List.mem_map.1 hmem
    obtain ⟨e, he, hpt, -, hlt, -⟩ := left t' ht
    obtain ⟨r', hr', hs⟩ := rows_head hpt (hlt (hld e he))
    rw [hh] at hr'
    cases hr'
    exact hs
  · intro hone
    unfold OneWeight
    rw [hseg]
    intro rows hr
    obtain ⟨t', ht, rfl⟩ := List.mem_map.1 hr
    obtain ⟨e, he, hpt, -, -, ho, -⟩ := left t' ht
    refine ⟨?_, ?_⟩
    · intro q l w v p g1 g2
      obtain ⟨n, m, e1, e2⟩ := (rowEdge_iff hpt _ _ _).1 g1
      obtain ⟨n', m', e3, e4⟩ := (rowEdge_iff hpt _ _ _).1 g2
      simp only at e2 e4
      rw [e2] at e4
      have : seen n = seen n' ∧ seen m = seen m' := by
        unfold turned at e4
        cases hb : σ.readRl <;> simp [hb] at e4
        · exact e4
        · exact ⟨e4.2, e4.1⟩
      rw [seen_inj this.1, seen_inj this.2] at e1
      exact ho (hone e he) _ _ _ _ _ e1 e3
    · intro p w v g1 g2
      have e1 := mapFind_of_mem hpt.wf.finals_sorted ((rowFinal_iff hpt _ _).1 g1)
      have e2 := mapFind_of_mem hpt.wf.finals_sorted ((rowFinal_iff hpt _ _).1 g2)
      exact Option.some.inj (e1.symm.trans e2)

/-- **C76** `lt-print` and then `lt-comp` without splitting give one transducer that relates exactly what the transducers of the first file do. -/
theorem C76_roundtrip (hσ : σ.splitting = false) (h0 : a.decode 0 = .ok (0, 0)) (hz : Kept σ fmt 0) (es : List (UString × Transducer W)) (hne : es ≠ [])
    (hp : ∀ e ∈ es, Printable σ fmt a e.2) (hl : es.length ≠ 1 → ∀ e ∈ es, Leads e.2) (hroom : (es.map fun e => size e.2 + 1).sum < 2 ^ 31) :
    ∃ text b t, printSet fmt σ.hfstSymbols a es = .ok text ∧ compileText σ text = .ok (b, t, none) ∧
      (∀ X Y w, NamesRelate b t X Y w → ∃ e ∈ es, if σ.readRl then NamesRelate a e.2 Y X w else NamesRelate a e.2 X Y w) ∧
      (∀ X Y w, (∃ e ∈ es, if σ.readRl then NamesRelate a e.2 Y X w else NamesRelate a e.2 X Y w) → ∃ v, NamesRelate b t X Y v) ∧
      ((∀ e ∈ es, OneArc a e.2) → ∀ X Y w, NamesRelate b t X Y w ↔ ∃ e ∈ es, if σ.readRl then NamesRelate a e.2 Y X w else NamesRelate a e.2 X Y w) := by
  obtain ⟨ls, h1, h2, h3, -, h4⟩ := C76_print h0 hz es hne hp hl hroom
  obtain ⟨b, t, g1, g2, g3, g4⟩ := C70_file σ hσ ls h2
  refine ⟨_, b, t, h1, g1, ?_, ?_, ?_⟩
  · exact fun X Y w h => (h3 X Y w).1 (g2 X Y w h)
  · exact fun X Y w h => g3 X Y w ((h3 X Y w).2 h)
  · exact fun ho X Y w => (g4 (h4 ho) X Y w).trans (h3 X Y w)

/-- **C76** Without final states `lt-print` ends with a message, whatever else there is in the file. -/
theorem C76_no_finals (b : Bool) {e : UString × Transducer W} (h : e.2.finals = []) (es : List (UString × Transducer W)) :
    printSet fmt b a (e :: es) = .exit := by
  unfold printSet printLoop
  rw [joinFinals_none 0 h]
  rfl

end Verif.Print
