import Verif.Transducer.Ops
import Verif.Transducer.Check

/-! # Word lists: insertSingleTransduction builds a trie -/

namespace Verif.Fst

variable {W : Type} [Zero W]

/-- Insert the symbols of one word one after the other, starting at `q`. -/
def insertSymbols : List Int → Nat → Transducer W → Option Nat × Transducer W
  | [], q, t => (some q, t)
  | a :: as, q, t =>
    match insertSingleTransduction a q 0 t with
    | (some p, t) => insertSymbols as p t
    | (none, t) => (none, t)

/-- One entry of the word list: insert the symbols from the initial state and mark the end final. This is
the use that pattern_list.cc:305-343 and tmx_compiler.cc:195-216 make of `insertSingleTransduction` and `setFinal`,
without their own handling of wildcards and tags. -/
def insertWord (w : List Int) (t : Transducer W) : Transducer W :=
  match insertSymbols w t.initial t with
  | (some p, t) => setFinal p 0 true t
  | (none, t) => t

/-- The labels of a word. -/
def labels (u : List Int) : List (Int × W) := u.map (fun a => (a, 0))

/-- The invariant: a tree whose final states are the ends of the words `acc`. -/
structure Trie (ε : Int) (acc : List (List Int)) (t : Transducer W) : Prop where
  wf : WF t
  weight : ∀ q l p, Edge t q l p → l.2 = 0 ∧ l.1 ≠ ε
  det : ∀ q a, (equalRange a (row t q)).length ≤ 1
  tree : ∀ ls ls' p, Path (Edge t) t.initial ls p → Path (Edge t) t.initial ls' p → ls = ls'
  root : ∀ q l, ¬ Edge t q l t.initial
  fin : ∀ p v, Final t p v → v = 0 ∧ ∃ u ∈ acc, Path (Edge t) t.initial (labels u) p
  stored : ∀ u ∈ acc, ∃ p, Path (Edge t) t.initial (labels u) p ∧ Final t p 0

omit [Zero W] in
theorem equalRange_mmInsert (a b : Int) (v : Nat × W) (r : Row W) :
    (equalRange a (mmInsert b v r)).length = (equalRange a r).length + (if b = a then 1 else 0) := by
  induction r with
  | nil => by_cases h : b = a <;> simp [mmInsert, equalRange, h]
  | cons e r ih =>
    obtain ⟨c, x⟩ := e
    simp only [mmInsert]
    split
    · by_cases h : b = a <;> by_cases h' : c = a <;> simp [equalRange, h, h']
    · simp only [equalRange, List.length_map] at ih ⊢
      by_cases h' : c = a
      · simp only [h', decide_true, List.filter_cons_of_pos, List.length_cons, ih]; omega
      · simp only [h', decide_false, Bool.false_eq_true, not_false_eq_true, List.filter_cons_of_neg, ih]

theorem Trie.step {ε : Int} {acc : List (List Int)} {t : Transducer W} (h : Trie ε acc t) {a : Int} (ha : a ≠ ε)
    {q : Nat} {u : List Int} (hu : Path (Edge t) t.initial (labels u) q) :
    ∃ p t', insertSingleTransduction a q 0 t = (some p, t') ∧ Trie ε acc t' ∧ t'.initial = t.initial ∧
      Path (Edge t') t'.initial (labels (u ++ [a])) p := by
  have hq := h.wf.path_lt hu h.wf.initial_lt
  have hd := h.det q a
  unfold insertSingleTransduction
  rw [(exists_iff h.wf q).mpr hq, if_pos rfl]
  match hr : equalRange a (row t q), hd with
  | [(p, v)], _ =>
    refine ⟨p, t, rfl, h, rfl, ?_⟩
    have he : Edge t q (a, v) p := (mem_equalRange _ _ _ _).mp (by rw [hr]; simp)
    have hv := (h.weight _ _ _ he).1
    simp only at hv
    subst hv
    have := hu.append (Path.single he)
    simpa [labels] using this
  | [], _ =>
    have hno : ∀ v p, ¬ Edge t q (a, v) p := by
      intro v p he
      have := (mem_equalRange a (row t q) p v).mpr he
      rw [hr] at this; simp at this
    have w1 := newState_wf h.wf
    have s1 := newState_size h.wf
    have f1 := newState_fst h.wf
    have e1 := newState_edge h.wf
    refine ⟨size t, addArc q a (size t) 0 (newState t).2, by rw [← f1], ?_, rfl, ?_⟩
    · have hE : ∀ x l y, Edge (addArc q a (size t) 0 (newState t).2) x l y ↔
          Edge t x l y ∨ (y = size t ∧ (x = q ∧ l = (a, 0))) := by
        intro x l y
        rw [addArc_edge w1, e1]
        tauto
      have hps := fun (p : Nat) (ls : List (Int × W)) =>
        path_sink (E := Edge t) (G := fun x l => x = q ∧ l = (a, 0)) (n := size t) hE
        (fun l p => no_edge_out h.wf (le_refl _) l p) (fun l hl => by omega)
        (fun x l => no_edge_in h.wf (le_refl _) x l) (q := t.initial) (p := p) (ls := ls)
        (by have := h.wf.initial_lt; omega)
      have hmono : ∀ {x y ls}, Path (Edge t) x ls y → Path (Edge (addArc q a (size t) 0 (newState t).2)) x ls y :=
        fun hp => hp.mono (fun _ _ _ he => (hE _ _ _).mpr (.inl he))
      have hi : (addArc q a (size t) 0 (newState t).2).initial = t.initial := rfl
      refine ⟨addArc_wf w1 (by omega) a (by omega) 0, ?_, ?_, ?_, ?_, ?_, ?_⟩
      · intro x l y he
        rcases (hE _ _ _).mp he with he | ⟨-, -, rfl⟩
        · exact h.weight _ _ _ he
        · exact ⟨rfl, ha⟩
      · intro x b
        rw [addArc_row w1, newState_row h.wf, newState_row h.wf]
        split
        · next hx =>
          subst hx
          rw [equalRange_mmInsert]
          by_cases hb : b = a
          · subst hb; rw [hr]; simp
          · rw [if_neg (fun h => hb h.symm)]; exact h.det x b
        · exact h.det x b
      · intro ls ls' p hp hp'
        rw [hi] at hp hp'
        rcases (hps _ _).mp hp with ⟨h1, h2⟩ | ⟨h1, ls0, r, l, h2, ⟨rfl, rfl⟩, rfl⟩
        · rcases (hps _ _).mp hp' with ⟨-, h3⟩ | ⟨h3, -⟩
          · exact h.tree _ _ _ h2 h3
          · exact absurd h3 h1
        · rcases (hps _ _).mp hp' with ⟨h3, -⟩ | ⟨-, ls1, r', l', h3, ⟨rfl, rfl⟩, rfl⟩
          · exact absurd h1 h3
          · rw [h.tree _ _ _ h2 h3]
      · intro x l he
        rw [hi] at he
        rcases (hE _ _ _).mp he with he | ⟨he, -⟩
        · exact h.root _ _ he
        · have := h.wf.initial_lt; omega
      · intro p v hf
        obtain ⟨h1, u', hu', hp⟩ := h.fin p v hf
        exact ⟨h1, u', hu', hmono hp⟩
      · intro u' hu'
        obtain ⟨p, hp, hf⟩ := h.stored u' hu'
        exact ⟨p, hmono hp, hf⟩
    · have : Path (Edge (addArc q a (size t) 0 (newState t).2)) t.initial (labels u ++ [(a, 0)]) (size t) := by
        refine Path.append (hu.mono ?_) (Path.single ?_)
        · intro x l y he; rw [addArc_edge w1, e1]; exact .inl he
        · rw [addArc_edge w1]; exact .inr ⟨rfl, rfl, rfl⟩
      show Path _ t.initial _ _
      simpa [labels] using this
  | _ :: _ :: _, hd => exact absurd hd (by simp)

theorem Trie.symbols {ε : Int} {acc : List (List Int)} (w : List Int) (hw : ∀ a ∈ w, a ≠ ε) {t : Transducer W}
    (h : Trie ε acc t) {q : Nat} {u : List Int} (hu : Path (Edge t) t.initial (labels u) q) :
    ∃ p t', insertSymbols w q t = (some p, t') ∧ Trie ε acc t' ∧ t'.initial = t.initial ∧
      Path (Edge t') t'.initial (labels (u ++ w)) p := by
  induction w generalizing t q u with
  | nil => exact ⟨q, t, rfl, h, rfl, by simpa using hu⟩
  | cons a w ih =>
    obtain ⟨p, t1, h1, h2, h3, h4⟩ := h.step (hw a (by simp)) hu
    obtain ⟨p', t2, i1, i2, i3, i4⟩ := ih (fun b hb => hw b (by simp [hb])) h2 h4
    exact ⟨p', t2, by rw [insertSymbols, h1]; exact i1, i2, i3.trans h3, by simpa using i4⟩

theorem Trie.word {ε : Int} {acc : List (List Int)} {w : List Int} (hw : ∀ a ∈ w, a ≠ ε) {t : Transducer W}
    (h : Trie ε acc t) : Trie ε (acc ++ [w]) (insertWord w t) := by
  obtain ⟨p, t', h1, h2, h3, h4⟩ := h.symbols w hw (q := t.initial) (u := []) (.nil _)
  rw [List.nil_append] at h4
  rw [insertWord, h1]
  simp only [setFinal, if_true]
  have hp := h2.wf.path_lt h4 h2.wf.initial_lt
  have hm := mem_mapInsert h2.wf.finals_sorted p (0 : W)
  refine ⟨⟨h2.wf.keys, h2.wf.rows, h2.wf.initial_lt, h2.wf.target_lt, sorted_mapInsert h2.wf.finals_sorted _ _, ?_⟩,
    h2.weight, h2.det, h2.tree, h2.root, ?_, ?_⟩
  · intro x v hx
    rcases (hm (x, v)).mp hx with ⟨hx, -⟩ | hx
    · cases hx; exact hp
    · exact h2.wf.finals_lt _ _ hx
  · intro x v hx
    rcases (hm (x, v)).mp hx with ⟨hx, -⟩ | hx
    · cases hx; exact ⟨rfl, w, by simp, h4⟩
    · obtain ⟨h5, u, h6, h7⟩ := h2.fin x v hx
      exact ⟨h5, u, by simp [h6], h7⟩
  · intro u hu
    rcases List.mem_append.mp hu with hu | hu
    · obtain ⟨x, h5, h6⟩ := h2.stored u hu
      exact ⟨x, h5, (hm (x, 0)).mpr (.inr h6)⟩
    · simp only [List.mem_singleton] at hu
      subst hu
      refine ⟨p, h4, (hm (p, 0)).mpr ?_⟩
      by_cases hk : p ∈ t'.finals.map (·.1)
      · right
        obtain ⟨⟨y, v⟩, hy, rfl⟩ := List.mem_map.mp hk
        have := (h2.fin y v hy).1
        subst this
        exact hy
      · exact .inl ⟨rfl, hk⟩

theorem Trie.empty (ε : Int) : Trie ε [] (Verif.Fst.empty : Transducer W) := by
  refine ⟨wf_of_check (by rfl), ?_, ?_, ?_, ?_, ?_, by simp⟩
  · intro q l p he
    rw [edge_iff_arcs (by rfl)] at he
    simp [Verif.Fst.empty, newState, mapSet, freeFrom, arcsOf] at he
  · intro q a
    have : row (Verif.Fst.empty : Transducer W) q = [] := by
      simp only [row, Verif.Fst.empty, newState, mapSet, mapFind]
      split <;> simp_all
    rw [this]; simp [equalRange]
  · intro ls ls' p hp hp'
    have hno : ∀ q l p, ¬ Edge (Verif.Fst.empty : Transducer W) q l p := by
      intro q l p he
      rw [edge_iff_arcs (by rfl)] at he
      simp [Verif.Fst.empty, newState, mapSet, freeFrom, arcsOf] at he
    cases ls with
    | cons l ls => obtain ⟨r, he, -⟩ := path_cons_iff.mp hp; exact absurd he (hno _ _ _)
    | nil =>
      cases ls' with
      | nil => rfl
      | cons l ls => obtain ⟨r, he, -⟩ := path_cons_iff.mp hp'; exact absurd he (hno _ _ _)
  · intro q l he
    rw [edge_iff_arcs (by rfl)] at he
    simp [Verif.Fst.empty, newState, mapSet, freeFrom, arcsOf] at he
  · intro p v hf
    simp [Final, Verif.Fst.empty, newState] at hf

theorem Trie.words {ε : Int} (ws : List (List Int)) (hw : ∀ w ∈ ws, ∀ a ∈ w, a ≠ ε) :
    Trie ε ws (ws.foldl (fun t w => insertWord w t) (Verif.Fst.empty : Transducer W)) := by
  suffices ∀ (ws acc : List (List Int)) (t : Transducer W), (∀ w ∈ ws, ∀ a ∈ w, a ≠ ε) → Trie ε acc t →
      Trie ε (acc ++ ws) (ws.foldl (fun t w => insertWord w t) t) by
    simpa using this ws [] _ hw (Trie.empty ε)
  intro ws
  induction ws with
  | nil => intro acc t _ h; simpa using h
  | cons w ws ih =>
    intro acc t hw h
    have := ih (acc ++ [w]) (insertWord w t) (fun x hx => hw x (by simp [hx])) (h.word (hw w (by simp)))
    simpa using this

theorem Trie.visible [DecidableEq W] {ε : Int} {acc : List (List Int)} {t : Transducer W} (h : Trie ε acc t) {q p : Nat}
    {ls : List (Int × W)} (hp : Path (Edge t) q ls p) : visible ε ls = ls := by
  induction hp with
  | nil => rfl
  | cons he _ ih =>
    rw [visible_cons, if_neg, ih]; rfl
    rintro rfl
    exact (h.weight _ _ _ he).2 rfl

theorem Trie.lang [DecidableEq W] {ε : Int} {acc : List (List Int)} {t : Transducer W} (h : Trie ε acc t)
    (w : List (Int × W)) : Lang ε t w ↔ ∃ u ∈ acc, w = labels u := by
  constructor
  · rintro ⟨ls, p, fw, hp, hf, rfl⟩
    obtain ⟨rfl, u, hu, hpu⟩ := h.fin p fw hf
    refine ⟨u, hu, ?_⟩
    rw [visible_append_eps, h.visible hp]
    exact h.tree _ _ _ hp hpu
  · rintro ⟨u, hu, rfl⟩
    obtain ⟨p, hp, hf⟩ := h.stored u hu
    exact ⟨labels u, p, 0, hp, hf, by rw [visible_append_eps, h.visible hp]⟩

end Verif.Fst
