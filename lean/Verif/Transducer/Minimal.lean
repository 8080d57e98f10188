import Verif.Transducer.Lang
import Mathlib.Data.Fintype.Card

/-! # How close to minimal the result of minimize is -/

namespace Verif.Fst

open SortedVec

set_option linter.unusedSectionVars false

theorem nil_or_snoc {α : Type} (l : List α) : l = [] ∨ ∃ i x, l = i ++ [x] := by
  rcases List.eq_nil_or_concat l with h | ⟨i, x, h⟩
  · exact .inl h
  · exact .inr ⟨i, x, by simpa using h⟩

variable {W : Type} [LinearOrder W] [Zero W]

theorem IsDet.det {t t' : Transducer W} {ε : Int} {Q : List (List Nat)} (hd : IsDet t ε t' Q) {i j k : Nat}
    {l : Int × W} (h1 : Edge t' i l j) (h2 : Edge t' i l k) : j = k := by
  obtain ⟨-, hj, -, -, hx⟩ := (hd.edge _ _ _).mp h1
  obtain ⟨-, hk, -, -, hy⟩ := (hd.edge _ _ _).mp h2
  refine eq_of_getD hd.nodup hj hk (SSorted.ext (hd.sorted _ (getD_mem hj)) (hd.sorted _ (getD_mem hk)) fun x => ?_)
  rw [hx, hy]

theorem IsDet.det_path {t t' : Transducer W} {ε : Int} {Q : List (List Nat)} (hd : IsDet t ε t' Q) {i j k : Nat}
    {ls : List (Int × W)} (h1 : Path (Edge t') i ls j) (h2 : Path (Edge t') i ls k) : j = k := by
  induction h1 with
  | nil => exact (path_nil_iff.mp h2).symm
  | cons he _ ih =>
    obtain ⟨r, he', hp'⟩ := path_cons_iff.mp h2
    have := hd.det he he'
    subst this
    exact ih hp'

theorem IsDet.langFrom {t t' : Transducer W} {ε : Int} {Q : List (List Nat)} (hd : IsDet t ε t' Q)
    (hw : ZeroFinals t) {i : Nat} (hi : i < Q.length) (w : List (Int × W)) :
    LangFrom ε t' i w ↔ ∃ q ∈ Q.getD i [], LangFrom ε t q w := by
  constructor
  · rintro ⟨ls, j, fw, hp, hf, rfl⟩
    have hf0 := hd.final_zero hw _ _ hf
    subst hf0
    obtain ⟨-, -, q, hq, v, hv⟩ := (hd.final _ _).mp hf
    obtain ⟨x, hx, ls', hp', hv'⟩ := hd.sound hp q hq
    refine ⟨x, hx, ls', q, v, hp', hv, ?_⟩
    rw [hw q v hv, visible_append_eps, visible_append_eps, hv', hd.visible_path hp]
  · rintro ⟨q, hq, ls, p, fw, hp, hf, rfl⟩
    obtain ⟨j, hj, hpj, hxj⟩ := hd.complete hp i hi hq
    refine ⟨visible ε ls, j, 0, hpj, ?_, ?_⟩
    · rw [hd.final]; exact ⟨hj, (finW_zero hw j).symm, p, hxj, fw, hf⟩
    · rw [hw p fw hf, visible_append_eps, visible_append_eps, hd.visible_path hpj]

/-- The words read from a state of a determinised transducer. -/
theorem IsDet.langFrom_path {t t' : Transducer W} {ε : Int} {Q : List (List Nat)} (hd : IsDet t ε t' Q)
    (hw : ZeroFinals t) (i : Nat) (w : List (Int × W)) :
    LangFrom ε t' i w ↔ ∃ j, Path (Edge t') i w j ∧ Final t' j 0 := by
  constructor
  · rintro ⟨ls, j, fw, hp, hf, rfl⟩
    have hf0 := hd.final_zero hw _ _ hf
    subst hf0
    refine ⟨j, ?_, hf⟩
    rw [visible_append_eps, hd.visible_path hp]; exact hp
  · rintro ⟨j, hp, hf⟩
    exact ⟨w, j, 0, hp, hf, by rw [visible_append_eps, hd.visible_path hp]⟩

/-- The setting of the last three steps of `minimize`: `d1` is a determinised transducer with weightless final
states, `j` is `d1` with its final states joined, `r` is the reverse of `j`, and `d2` is `r` determinised. -/
structure Chain (ε : Int) (t1 d1 j r d2 : Transducer W) (Q1 Q2 : List (List Nat)) : Prop where
  det1 : IsDet t1 ε d1 Q1
  zero1 : ZeroFinals t1
  join : joinFinals ε d1 = .ok j
  wfr : WF r
  edge_r : ∀ q l p, Edge r p l q ↔ Edge j q l p
  final_j : ∃ f, j.finals = [(f, 0)] ∧ r.initial = f
  final_r : r.finals = [(0, 0)]
  det2 : IsDet r ε d2 Q2

namespace Chain

variable {ε : Int} {t1 d1 j r d2 : Transducer W} {Q1 Q2 : List (List Nat)}

theorem zero_r (c : Chain ε t1 d1 j r d2 Q1 Q2) : ZeroFinals r := by
  intro p w hp; simp [Final, c.final_r] at hp; exact hp.2

theorem nonempty (c : Chain ε t1 d1 j r d2 Q1 Q2) : d1.finals ≠ [] := by
  intro hx
  have := c.join
  rw [joinFinals_none ε hx] at this
  cases this

/-- The arcs of the joined transducer: `size d1` is the state added when there are several final states. -/
theorem edge_j (c : Chain ε t1 d1 j r d2 Q1 Q2) (q : Nat) (l : Int × W) (p : Nat) :
    Edge j q l p ↔ Edge d1 q l p ∨ (p = size d1 ∧ 2 ≤ d1.finals.length ∧ l = (ε, 0) ∧ Final d1 q 0) := by
  have hz := c.det1.final_zero c.zero1
  by_cases h2 : 2 ≤ d1.finals.length
  · obtain ⟨t', ht', -, -, -, -, hE⟩ := joinFinals_many c.det1.wf ε h2
    rw [c.join] at ht'
    cases ht'
    rw [hE]
    refine or_congr Iff.rfl ⟨?_, ?_⟩
    · rintro ⟨h1, h3, h4⟩
      have := hz _ _ h4
      refine ⟨h1, h2, Prod.ext h3 this, ?_⟩
      rw [this] at h4; exact h4
    · rintro ⟨h1, -, rfl, h4⟩
      exact ⟨h1, rfl, h4⟩
  · match hfs : d1.finals with
    | [] => exact absurd hfs c.nonempty
    | [e] =>
      have := c.join
      rw [joinFinals_single ε hfs] at this
      cases this
      simp
    | _ :: _ :: _ => simp [hfs] at h2

theorem no_into_n (c : Chain ε t1 d1 j r d2 Q1 Q2) (q : Nat) (l : Int × W) : ¬ Edge r q l (size d1) := by
  rw [c.edge_r, c.edge_j]
  rintro (h | ⟨-, -, -, h⟩)
  · exact no_edge_out c.det1.wf (le_refl _) _ _ h
  · have := c.det1.wf.finals_lt _ _ h; omega

/-- Paths of the joined transducer from its start. -/
theorem path_j (c : Chain ε t1 d1 j r d2 Q1 Q2) {ls : List (Int × W)} {x : Nat} (h : Path (Edge j) 0 ls x) :
    (x < size d1 ∧ Path (Edge d1) 0 ls x) ∨
    (x = size d1 ∧ ∃ ls0 g, Path (Edge d1) 0 ls0 g ∧ 2 ≤ d1.finals.length ∧ Final d1 g 0 ∧ ls = ls0 ++ [(ε, 0)]) := by
  have hn : 0 < size d1 := by have := c.det1.wf.initial_lt; omega
  have := (path_sink (E := Edge d1) (E' := Edge j)
    (G := fun q l => 2 ≤ d1.finals.length ∧ l = (ε, 0) ∧ Final d1 q 0) (n := size d1) c.edge_j
    (fun l p => no_edge_out c.det1.wf (le_refl _) l p)
    (fun l hl => by have := c.det1.wf.finals_lt _ _ hl.2.2; omega)
    (fun q l => no_edge_in c.det1.wf (le_refl _) q l) (q := 0) (p := x) (ls := ls) (by omega)).mp h
  rcases this with ⟨-, hp⟩ | ⟨h1, ls0, g, l, h2, ⟨h3, rfl, h4⟩, h5⟩
  · exact .inl ⟨c.det1.wf.path_lt hp hn, hp⟩
  · exact .inr ⟨h1, ls0, g, h2, h3, h4, h5⟩

/-- What can be read from a state of the reversed transducer. -/
theorem langFrom_r (c : Chain ε t1 d1 j r d2 Q1 Q2) (q : Nat) (w : List (Int × W)) :
    LangFrom ε r q w ↔ ∃ ls, Path (Edge j) 0 ls q ∧ w.reverse = visible ε ls := by
  rw [langFrom_zero c.final_r]
  constructor
  · rintro ⟨ls, hp, rfl⟩
    exact ⟨ls.reverse, hp.reverse (fun q l p => (c.edge_r p l q).symm), by rw [visible_reverse]⟩
  · rintro ⟨ls, hp, hw⟩
    exact ⟨ls.reverse, hp.reverse c.edge_r, by rw [visible_reverse, ← hw, List.reverse_reverse]⟩

theorem mono_j (c : Chain ε t1 d1 j r d2 Q1 Q2) {q p : Nat} {ls : List (Int × W)} (h : Path (Edge d1) q ls p) :
    Path (Edge j) q ls p := h.mono (fun q l p he => (c.edge_j q l p).mpr (.inl he))

/-- States of `d1` in a subset can be read off its right language. -/
theorem subset_of_lang (c : Chain ε t1 d1 j r d2 Q1 Q2) {a b : Nat} (ha : a < Q2.length) (hb : b < Q2.length)
    (h : ∀ w, LangFrom ε d2 a w → LangFrom ε d2 b w) {x : Nat} (hx : x < size d1) (hxa : x ∈ Q2.getD a []) :
    x ∈ Q2.getD b [] := by
  obtain ⟨u, hu⟩ := c.det1.reachable x (by rw [← c.det1.size_eq]; exact hx)
  have hvu := c.det1.visible_path hu
  have h1 : LangFrom ε d2 a u.reverse := by
    rw [c.det2.langFrom c.zero_r ha]
    exact ⟨x, hxa, (c.langFrom_r _ _).mpr ⟨u, c.mono_j hu, by rw [List.reverse_reverse, hvu]⟩⟩
  have h2 := h _ h1
  rw [c.det2.langFrom c.zero_r hb] at h2
  obtain ⟨q, hq, hl⟩ := h2
  obtain ⟨ls, hp, hv⟩ := (c.langFrom_r _ _).mp hl
  rw [List.reverse_reverse] at hv
  rcases c.path_j hp with ⟨-, hp⟩ | ⟨rfl, ls0, g, hpg, h2, hg, rfl⟩
  · rw [c.det1.visible_path hp] at hv
    subst hv
    rw [c.det1.det_path hu hp]; exact hq
  · rw [visible_append_eps, c.det1.visible_path hpg] at hv
    subst hv
    have := c.det1.det_path hu hpg
    subst this
    refine c.det2.closed b hb _ hq x (EpsReach.step ?_)
    rw [c.edge_r, c.edge_j]
    exact .inr ⟨rfl, h2, rfl, hg⟩

theorem elem_lt (c : Chain ε t1 d1 j r d2 Q1 Q2) {a x : Nat} (hx : x ∈ Q2.getD a [])
    (ha : a < Q2.length) : x < size d1 ∨ x = size d1 := by
  -- every element of a subset is reachable from 0 in the joined transducer
  have hex : ∃ ls, Path (Edge d2) 0 ls a := c.det2.reachable a ha
  obtain ⟨ls, hp⟩ := hex
  obtain ⟨q, hq, ls', hp', -⟩ := c.det2.sound hp x hx
  obtain ⟨es, hes⟩ := (c.det2.start q).mp hq
  have hpath := (visible_of_epsPath hes).2.append hp'
  have hlt := c.wfr.path_lt hpath c.wfr.initial_lt
  by_cases h2 : 2 ≤ d1.finals.length
  · -- an element other than the added state has an arc or is the final state
    by_cases hxn : x = size d1
    · exact .inr hxn
    · left
      -- walk: either the path is empty (x is the added state) or x is a source of an arc of `j`
      rcases nil_or_snoc (es ++ ls') with hnil | ⟨init, last, hcon⟩
      · rw [hnil] at hpath
        have hxi := path_nil_iff.mp hpath
        obtain ⟨f, hf, hri⟩ := c.final_j
        obtain ⟨t', ht', -, -, -, hfj, -⟩ := joinFinals_many c.det1.wf ε h2
        rw [c.join] at ht'
        cases ht'
        rw [hfj] at hf
        simp only [List.cons.injEq, Prod.mk.injEq, and_true] at hf
        omega
      · rw [hcon] at hpath
        obtain ⟨y, -, hlast⟩ := hpath.split
        obtain ⟨z, he, hz⟩ := path_cons_iff.mp hlast
        have := path_nil_iff.mp hz
        subst this
        rw [c.edge_r, c.edge_j] at he
        rcases he with he | ⟨-, -, -, he⟩
        · exact c.det1.wf.source_lt he
        · exact c.det1.wf.finals_lt _ _ he
  · left
    rcases nil_or_snoc (es ++ ls') with hnil | ⟨init, last, hcon⟩
    · rw [hnil] at hpath
      have hxi := path_nil_iff.mp hpath
      obtain ⟨f, hf, hri⟩ := c.final_j
      match hfs : d1.finals with
      | [] => exact absurd hfs c.nonempty
      | [e] =>
        have hj := c.join
        rw [joinFinals_single ε hfs] at hj
        cases hj
        have := c.det1.wf.finals_lt f 0 (by simp [Final, hf])
        omega
      | _ :: _ :: _ => simp [hfs] at h2
    · rw [hcon] at hpath
      obtain ⟨y, -, hlast⟩ := hpath.split
      obtain ⟨z, he, hz⟩ := path_cons_iff.mp hlast
      have := path_nil_iff.mp hz
      subst this
      rw [c.edge_r, c.edge_j] at he
      rcases he with he | ⟨-, -, -, he⟩
      · exact c.det1.wf.source_lt he
      · exact c.det1.wf.finals_lt _ _ he

/-- A subset reached by an arc does not contain the added state. -/
theorem added_not_mem (c : Chain ε t1 d1 j r d2 Q1 Q2) {k a : Nat} {l : Int × W} (he : Edge d2 k l a) :
    size d1 ∉ Q2.getD a [] := by
  intro hx
  obtain ⟨-, -, -, -, hy⟩ := (c.det2.edge _ _ _).mp he
  obtain ⟨q, -, p, hqp, es, hes⟩ := (hy _).mp hx
  rcases nil_or_snoc es with rfl | ⟨init, last, rfl⟩
  · have := path_nil_iff.mp hes
    subst this
    exact c.no_into_n _ _ hqp
  · obtain ⟨y, -, hlast⟩ := hes.split
    obtain ⟨z, hz, hzz⟩ := path_cons_iff.mp hlast
    have := path_nil_iff.mp hzz
    subst this
    exact c.no_into_n _ _ hz.1

theorem has_in_edge (c : Chain ε t1 d1 j r d2 Q1 Q2) {a : Nat} (ha : a < Q2.length) (h0 : a ≠ 0) :
    ∃ k l, Edge d2 k l a := by
  obtain ⟨ls, hp⟩ := c.det2.reachable a ha
  rcases nil_or_snoc ls with rfl | ⟨init, last, rfl⟩
  · exact absurd (path_nil_iff.mp hp) h0
  · obtain ⟨y, -, hlast⟩ := hp.split
    obtain ⟨z, hz, hzz⟩ := path_cons_iff.mp hlast
    have := path_nil_iff.mp hzz
    subst this
    exact ⟨y, last, hz⟩

/-- States with an incoming arc are told apart by their right languages. -/
theorem inj_of_lang (c : Chain ε t1 d1 j r d2 Q1 Q2) {a b : Nat} (ha : a < Q2.length) (hb : b < Q2.length)
    (hia : ∃ k l, Edge d2 k l a) (hib : ∃ k l, Edge d2 k l b)
    (h : ∀ w, LangFrom ε d2 a w ↔ LangFrom ε d2 b w) : a = b := by
  refine eq_of_getD c.det2.nodup ha hb (SSorted.ext (c.det2.sorted _ (getD_mem ha)) (c.det2.sorted _ (getD_mem hb))
    fun x => ⟨fun hx => ?_, fun hx => ?_⟩)
  · obtain ⟨k, l, he⟩ := hia
    rcases c.elem_lt hx ha with hlt | rfl
    · exact c.subset_of_lang ha hb (fun w => (h w).mp) hlt hx
    · exact absurd hx (c.added_not_mem he)
  · obtain ⟨k, l, he⟩ := hib
    rcases c.elem_lt hx hb with hlt | rfl
    · exact c.subset_of_lang hb ha (fun w => (h w).mpr) hlt hx
    · exact absurd hx (c.added_not_mem he)

/-- From every state a final state can be reached. -/
theorem live (c : Chain ε t1 d1 j r d2 Q1 Q2) {a : Nat} (ha : a < Q2.length) : ∃ w, LangFrom ε d2 a w := by
  have hne : ∃ x, x ∈ Q2.getD a [] := by
    by_cases h0 : a = 0
    · subst h0
      exact ⟨r.initial, (c.det2.start _).mpr (EpsReach.refl _ _ _)⟩
    · obtain ⟨k, l, he⟩ := c.has_in_edge ha h0
      obtain ⟨-, -, -, ⟨q, hq, p, hqp⟩, hy⟩ := (c.det2.edge _ _ _).mp he
      exact ⟨p, (hy p).mpr ⟨q, hq, p, hqp, EpsReach.refl _ _ _⟩⟩
  obtain ⟨x, hx⟩ := hne
  have key : ∀ y, y < size d1 → y ∈ Q2.getD a [] → ∃ w, LangFrom ε d2 a w := by
    intro y hy hya
    obtain ⟨u, hu⟩ := c.det1.reachable y (by rw [← c.det1.size_eq]; exact hy)
    refine ⟨u.reverse, (c.det2.langFrom c.zero_r ha _).mpr ⟨y, hya, (c.langFrom_r _ _).mpr ⟨u, c.mono_j hu, ?_⟩⟩⟩
    rw [List.reverse_reverse, c.det1.visible_path hu]
  rcases c.elem_lt hx ha with hlt | rfl
  · exact key x hlt hx
  · -- the added state: go to one of the old final states
    by_cases h2 : 2 ≤ d1.finals.length
    · match hfs : d1.finals with
      | [] => exact absurd hfs c.nonempty
      | (g, v) :: fs =>
        have hg : Final d1 g v := by simp [Final, hfs]
        have hv := c.det1.final_zero c.zero1 _ _ hg
        subst hv
        refine key g (c.det1.wf.finals_lt _ _ hg) (c.det2.closed a ha _ hx g (EpsReach.step ?_))
        rw [c.edge_r, c.edge_j]
        exact .inr ⟨rfl, h2, rfl, hg⟩
    · exfalso
      -- without an added state no subset contains it
      by_cases h0 : a = 0
      · subst h0
        obtain ⟨es, hes⟩ := (c.det2.start _).mp hx
        have hpath := (visible_of_epsPath hes).2
        have hlt := c.wfr.path_lt hpath c.wfr.initial_lt
        match hfs : d1.finals with
        | [] => exact absurd hfs c.nonempty
        | [e] =>
          have hj := c.join
          rw [joinFinals_single ε hfs] at hj
          cases hj
          obtain ⟨f, hf, hri⟩ := c.final_j
          have hflt := c.det1.wf.finals_lt f 0 (by simp [Final, hf])
          rcases nil_or_snoc es with rfl | ⟨init, last, rfl⟩
          · have := path_nil_iff.mp hpath; omega
          · obtain ⟨y, -, hlast⟩ := hpath.split
            obtain ⟨z, hz, hzz⟩ := path_cons_iff.mp hlast
            have := path_nil_iff.mp hzz
            subst this
            exact c.no_into_n _ _ hz
        | _ :: _ :: _ => simp [hfs] at h2
      · obtain ⟨k, l, he⟩ := c.has_in_edge ha h0
        exact c.added_not_mem he hx

end Chain

/-! ## Competitors -/

/-- A deterministic automaton with `n` states over labels `L`. Missing arcs are allowed. -/
structure DFA (L : Type) (n : Nat) where
  start : Fin n
  step : Fin n → L → Option (Fin n)
  accept : Fin n → Prop

/-- The state reached by a word. -/
def DFA.run {L : Type} {n : Nat} (A : DFA L n) : Fin n → List L → Option (Fin n)
  | s, [] => some s
  | s, l :: ls => (A.step s l).bind (fun s' => A.run s' ls)

/-- The automaton accepts the word. -/
def DFA.Accepts {L : Type} {n : Nat} (A : DFA L n) (w : List L) : Prop := ∃ s, A.run A.start w = some s ∧ A.accept s

theorem DFA.run_append {L : Type} {n : Nat} (A : DFA L n) (s : Fin n) (u w : List L) :
    A.run s (u ++ w) = (A.run s u).bind (fun s' => A.run s' w) := by
  induction u generalizing s with
  | nil => rfl
  | cons l u ih =>
    simp only [List.cons_append, DFA.run]
    cases A.step s l with
    | none => rfl
    | some s' => exact ih s'

section
variable {ε : Int} {t1 d1 j r d2 : Transducer W} {Q1 Q2 : List (List Nat)}

theorem Chain.lang_append (c : Chain ε t1 d1 j r d2 Q1 Q2) {a : Nat} {u : List (Int × W)}
    (hu : Path (Edge d2) 0 u a) (w : List (Int × W)) : LangFrom ε d2 a w ↔ Lang ε d2 (u ++ w) := by
  rw [Lang, c.det2.langFrom_path c.zero_r, c.det2.langFrom_path c.zero_r, c.det2.initial]
  constructor
  · rintro ⟨b, hp, hf⟩; exact ⟨b, hu.append hp, hf⟩
  · rintro ⟨b, hp, hf⟩
    obtain ⟨x, h1, h2⟩ := hp.split
    have := c.det2.det_path hu h1
    subst this
    exact ⟨b, h2, hf⟩

/-- The state of a competitor that corresponds to a state of `d2`. -/
theorem Chain.competitor (c : Chain ε t1 d1 j r d2 Q1 Q2) {n : Nat} (A : DFA (Int × W) n)
    (hA : ∀ w, A.Accepts w ↔ Lang ε d2 w) :
    ∃ g : Fin Q2.length → Fin n, ∀ a b, g a = g b → ∀ w, LangFrom ε d2 a w ↔ LangFrom ε d2 b w := by
  have hex : ∀ a : Fin Q2.length, ∃ s : Fin n, ∃ u, Path (Edge d2) 0 u a ∧ A.run A.start u = some s := by
    intro a
    obtain ⟨u, hu⟩ := c.det2.reachable a a.2
    obtain ⟨w, hw⟩ := c.live a.2
    rw [c.lang_append hu, ← hA] at hw
    obtain ⟨s, hs, -⟩ := hw
    rw [A.run_append] at hs
    cases hr : A.run A.start u with
    | none => simp [hr] at hs
    | some s' => exact ⟨s', u, hu, hr⟩
  choose g u hu hg using hex
  refine ⟨g, fun a b hab w => ?_⟩
  rw [c.lang_append (hu a), c.lang_append (hu b), ← hA, ← hA]
  unfold DFA.Accepts
  rw [A.run_append, A.run_append, hg, hg, hab]

theorem Chain.bound (c : Chain ε t1 d1 j r d2 Q1 Q2) {n : Nat} (A : DFA (Int × W) n)
    (hA : ∀ w, A.Accepts w ↔ Lang ε d2 w) : Q2.length ≤ n + 1 := by
  obtain ⟨g, hg⟩ := c.competitor A hA
  have h0 : 0 < Q2.length := by have := c.det2.wf.initial_lt; rw [c.det2.size_eq] at this; omega
  have hinj : Function.Injective (fun i : Fin (Q2.length - 1) => g ⟨i.1 + 1, by omega⟩) := by
    intro a b hab
    have := c.inj_of_lang (a := a.1 + 1) (b := b.1 + 1) (by omega) (by omega)
      (c.has_in_edge (by omega) (by omega)) (c.has_in_edge (by omega) (by omega)) (hg _ _ hab)
    exact Fin.ext (by omega)
  have := Fintype.card_le_of_injective _ hinj
  simp only [Fintype.card_fin] at this
  omega

theorem Chain.bound_exact (c : Chain ε t1 d1 j r d2 Q1 Q2)
    (h0 : ∀ a, a < Q2.length → a ≠ 0 → ∃ w, ¬ (LangFrom ε d2 0 w ↔ LangFrom ε d2 a w)) {n : Nat}
    (A : DFA (Int × W) n) (hA : ∀ w, A.Accepts w ↔ Lang ε d2 w) : Q2.length ≤ n := by
  obtain ⟨g, hg⟩ := c.competitor A hA
  have hinj : Function.Injective g := by
    intro a b hab
    have hl := hg _ _ hab
    by_cases ha : a.1 = 0
    · by_cases hb : b.1 = 0
      · exact Fin.ext (by omega)
      · obtain ⟨w, hw⟩ := h0 b b.2 hb
        have := hl w
        rw [ha] at this
        exact absurd this hw
    · by_cases hb : b.1 = 0
      · obtain ⟨w, hw⟩ := h0 a a.2 ha
        have := hl w
        rw [hb] at this
        exact absurd this.symm hw
      · exact Fin.ext (c.inj_of_lang a.2 b.2 (c.has_in_edge a.2 ha) (c.has_in_edge b.2 hb) hl)
  have := Fintype.card_le_of_injective _ hinj
  simpa using this

/-- When the words of the language are bounded in length the initial state differs from all others. -/
theorem Chain.finite_initial (c : Chain ε t1 d1 j r d2 Q1 Q2) {N : Nat} (hN : ∀ w, Lang ε d2 w → w.length ≤ N)
    {a : Nat} (ha : a < Q2.length) (h0 : a ≠ 0) : ∃ w, ¬ (LangFrom ε d2 0 w ↔ LangFrom ε d2 a w) := by
  by_contra hcon
  simp only [not_exists, not_not] at hcon
  obtain ⟨u, hu⟩ := c.det2.reachable a ha
  have hul : 0 < u.length := by
    cases u with
    | nil => exact absurd (path_nil_iff.mp hu) h0
    | cons _ _ => simp
  have hL : ∀ w, LangFrom ε d2 0 w ↔ Lang ε d2 w := by intro w; rw [Lang, c.det2.initial]
  -- prefixing `u` stays in the language
  have hpre : ∀ w, Lang ε d2 w → Lang ε d2 (u ++ w) := by
    intro w hw
    rw [← c.lang_append hu, ← hcon, hL]; exact hw
  have hlong : ∀ k, ∃ w, Lang ε d2 w ∧ k ≤ w.length := by
    intro k
    induction k with
    | zero =>
      obtain ⟨w, hw⟩ := c.live (a := 0) (by omega)
      exact ⟨w, (hL w).mp hw, by omega⟩
    | succ k ih =>
      obtain ⟨w, hw, hk⟩ := ih
      exact ⟨u ++ w, hpre w hw, by rw [List.length_append]; omega⟩
  obtain ⟨w, hw, hk⟩ := hlong (N + 1)
  have := hN w hw
  omega

end

/-- `minimize` on a transducer with at least one accepting path goes through such a chain. -/
theorem minimize_chain {t : Transducer W} (h : WF t) (ε : Int) (hf : t.finals ≠ []) (hw : NoLoneWeight t)
    (hne : ∃ w, Lang ε t w) :
    ∃ t1 d1 j r d2 Q1 Q2, minimize ε t = .ok d2 ∧ Chain ε t1 d1 j r d2 Q1 Q2 ∧ ∀ w, Lang ε d2 w ↔ Lang ε t w := by
  obtain ⟨t1, r1, r2, r3, r4, r5⟩ := minimize_steps h ε hf hw
  obtain ⟨d1, Q1, hd1, id1⟩ := determinize_spec r2 ε
  have hl1 := id1.lang r3
  have hz1 : ZeroFinals d1 := id1.final_zero r3
  have hf1 : d1.finals ≠ [] := by
    obtain ⟨w, hw⟩ := hne
    rw [← List.reverse_reverse w, ← r5, ← hl1] at hw
    obtain ⟨ls, p, fw, -, hfin, -⟩ := hw
    intro hx
    simp [Final, hx] at hfin
  obtain ⟨j, f, j1, j2, j3, j4, j5, j6⟩ := joinFinals_zero id1.wf ε hf1 hz1.noLone
  obtain ⟨r, s1, s2, s3, s4, s5, s6⟩ := reverse_spec j2 ε j1 j4
  obtain ⟨d2, Q2, hd2, id2⟩ := determinize_spec s2 ε
  have hjr : ∀ w, Lang ε r w ↔ Lang ε d1 w.reverse := by
    intro w
    rw [reverse_lang ε s4 s5 s6, Lang, ← j6 _ id1.wf.initial_lt, ← j3, langFrom_zero j4]
  have hi0 : j.initial = 0 := j3.trans id1.initial
  rw [hi0] at s5
  have hzr : ZeroFinals r := by intro p w hp; simp [Final, s5] at hp; exact hp.2
  refine ⟨t1, d1, j, r, d2, Q1, Q2, ?_, ⟨id1, r3, j1, s2, s6, ⟨f, j4, s4⟩, s5, id2⟩, fun w => ?_⟩
  · have hemp : t.finals.isEmpty = false := by cases hx : t.finals with
      | nil => exact absurd hx hf
      | cons _ _ => rfl
    simp only [minimize, hemp, Bool.false_eq_true, if_false, r1, Res.bind_ok, hd1, s1, hd2]
  · rw [id2.lang hzr, hjr, hl1, r5, List.reverse_reverse]

/-- Without an accepting path the second reversal finds no final state. -/
theorem minimize_exit {t : Transducer W} (h : WF t) (ε : Int) (hf : t.finals ≠ []) (hw : NoLoneWeight t)
    (hne : ¬ ∃ w, Lang ε t w) : minimize ε t = .exit := by
  obtain ⟨t1, r1, r2, r3, r4, r5⟩ := minimize_steps h ε hf hw
  obtain ⟨d1, Q1, hd1, id1⟩ := determinize_spec r2 ε
  have hl1 := id1.lang r3
  have hf1 : d1.finals = [] := by
    match hfs : d1.finals with
    | [] => rfl
    | (g, v) :: fs =>
      exfalso
      have hg : Final d1 g v := by simp [Final, hfs]
      have hgl := id1.wf.finals_lt _ _ hg
      rw [id1.size_eq] at hgl
      obtain ⟨u, hu⟩ := id1.reachable g hgl
      have : Lang ε d1 (visible ε (u ++ [(ε, v)])) := ⟨u, g, v, by rw [id1.initial]; exact hu, hg, rfl⟩
      rw [hl1, r5] at this
      exact hne ⟨_, this⟩
  have hemp : t.finals.isEmpty = false := by cases hx : t.finals with
    | nil => exact absurd hx hf
    | cons _ _ => rfl
  have hr2 : reverse ε d1 = .exit := by simp only [reverse, joinFinals_none ε hf1, Res.bind_exit]
  simp only [minimize, hemp, Bool.false_eq_true, if_false, r1, Res.bind_ok, hd1, hr2, Res.bind_exit]

end Verif.Fst
