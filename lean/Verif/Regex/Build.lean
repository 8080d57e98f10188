import Verif.Regex.Spec
import Verif.Transducer.Props
import Verif.Labels.Props

/-! # What the parts of the regular expression compiler build -/

namespace Verif.Regex

open Verif.Fst Verif.Alphabet

set_option linter.unusedSectionVars false

variable {W : Type} [Zero W] [DecidableEq W]

/-- A path from `q` to `p` with these visible labels. -/
def Reach (t : Transducer W) (q p : Nat) (w : List (Int × W)) : Prop := ∃ ls, Path (Edge t) q ls p ∧ w = visible 0 ls

/-- The function gives the codes of the identity pairs that the alphabet has. -/
def Agrees (code : Int → Int) (a : Alphabet) : Prop := ∀ c x, HasPair a x (c, c) → x = code c

/-- A string of symbols as labels. -/
def enc (code : Int → Int) (u : List Int) : List (Int × W) := u.map fun c => (code c, 0)

/-- The alphabets that the compiler works with. -/
structure AOk (a : Alphabet) : Prop where
  ok : Ok a
  eps : HasPair a 0 (0, 0)

theorem pc00 {a : Alphabet} (h : AOk a) : a.pairCode 0 0 = (0, a) := by
  have := (hasPair_find h.ok (p := (0, 0))).2 h.eps
  unfold pairCode
  rw [this]

theorem AOk.ext {a b : Alphabet} (h : AOk a) (hb : Ok b) (he : Ext a b) : AOk b := ⟨hb, h.eps.mono he⟩

theorem Agrees.mono {code : Int → Int} {a b : Alphabet} (h : Agrees code b) (he : Ext a b) : Agrees code a :=
  fun c x hx => h c x (hx.mono he)

theorem pairCode_aok {a : Alphabet} (h : AOk a) (c : Int) :
    AOk (a.pairCode c c).2 ∧ Ext a (a.pairCode c c).2 ∧ HasPair (a.pairCode c c).2 (a.pairCode c c).1 (c, c) := by
  obtain ⟨h1, h2, h3, -⟩ := pairCode_spec h.ok c c
  exact ⟨h.ext h1 h2, h2, h3⟩

omit [DecidableEq W] in
theorem enc_append (code : Int → Int) (u v : List Int) : (enc code (u ++ v) : List (Int × W)) = enc code u ++ enc code v := by
  simp [enc]

omit [DecidableEq W] in
theorem enc_flatten (code : Int → Int) (ws : List (List Int)) :
    (enc code ws.flatten : List (Int × W)) = (ws.map (enc code)).flatten := by
  induction ws with
  | nil => rfl
  | cons w ws ih => simp [enc_append, ih]

/-- The code of a symbol, as a visible label. -/
theorem visible_sym {a : Alphabet} (h : AOk a) {code : Int → Int} (hc : Agrees code a) {c x : Int} (hx : HasPair a x (c, c)) :
    visible 0 [((x, 0) : Int × W)] = enc code (sym c) := by
  obtain rfl := hc c x hx
  by_cases h0 : c = 0
  · subst h0
    have : code 0 = 0 := (hc 0 0 h.eps).symm
    simp [visible, enc, sym, this]
  · have : code c ≠ 0 := by
      intro h1
      rw [h1] at hx
      have := hx.pair_unique h.eps
      simp only [Prod.mk.injEq] at this
      exact h0 this.1
    simp [visible, enc, sym, h0, this]

/-! ## Postfix operators -/

def Post.code : Post → Int
  | .none => 0
  | .star => 42
  | .plus => 43
  | .opt => 63

/-- Transducers that can be inserted without losing a weight. -/
structure Part (t : Transducer W) : Prop where
  wf : WF t
  zero : ∀ p w, Final t p w → w = 0
  fin : t.finals ≠ []

theorem Part.noLone {t : Transducer W} (h : Part t) : NoLoneWeight t := fun p w hf => h.zero p w (by simp [Final, hf])

theorem part_optional {t : Transducer W} (h : Part t) :
    ∃ t', Fst.optional 0 t = .ok t' ∧ Part t' ∧ ∀ w, Lang 0 t' w ↔ w = [] ∨ Lang 0 t w := by
  obtain ⟨t1, f, fw, h1, h2, h3, h4, -, -, -, h8⟩ := joinFinals_spec h.wf 0 h.fin
  obtain ⟨t', k1, k2, k3, k4, k5, k6⟩ := optional_spec h2 0 h4
  refine ⟨t', by rw [Fst.optional, wrap_join 0 h1 h4]; exact k1, ⟨k2, ?_, by simp [k5]⟩, fun w => ?_⟩
  · intro p w hw; simp [Final, k5] at hw; exact hw.2
  · rw [optional_lang h2 0 h4 k4 k5 k6, Lang, h3, h8 _ h.wf.initial_lt, Lang]

theorem part_oneOrMore {t : Transducer W} (h : Part t) :
    ∃ t', oneOrMore 0 t = .ok t' ∧ Part t' ∧ ∀ w, Lang 0 t' w ↔
      ∃ ws : List (List (Int × W)), ws ≠ [] ∧ (∀ u ∈ ws, Lang 0 t u) ∧ w = ws.flatten := by
  obtain ⟨t1, f, fw, h1, h2, h3, h4, -, -, -, h8⟩ := joinFinals_spec h.wf 0 h.fin
  obtain ⟨t', k1, k2, k3, k4, k5, k6⟩ := oneOrMore_spec h2 0 h4
  refine ⟨t', by rw [oneOrMore, wrap_join 0 h1 h4]; exact k1, ⟨k2, ?_, by simp [k5]⟩, fun w => ?_⟩
  · intro p w hw; simp [Final, k5] at hw; exact hw.2
  · rw [oneOrMore_lang h2 0 h4 k4 k5 k6]
    simp only [Lang, h3, h8 _ h.wf.initial_lt]

theorem applyPostop_spec {a : Alphabet} (ha : AOk a) {t : Transducer W} (h : Part t) (p : Post) :
    ∃ t', applyPostop p.code a t = .ok t' ∧ Part t' ∧ ∀ w, Lang 0 t' w ↔ p.Apply (Lang 0 t) w := by
  unfold applyPostop
  rw [pc00 ha]
  cases p with
  | none => exact ⟨t, rfl, h, fun w => Iff.rfl⟩
  | opt => exact part_optional h
  | plus => exact part_oneOrMore h
  | star =>
    obtain ⟨t1, h1, h2, h3⟩ := part_oneOrMore h
    obtain ⟨t', k1, k2, k3⟩ := part_optional h2
    refine ⟨t', by show zeroOrMore 0 t = _; rw [zeroOrMore, h1]; exact k1, k2, fun w => ?_⟩
    rw [k3, h3]
    simp only [Post.Apply]
    constructor
    · rintro (rfl | ⟨ws, -, h5, h6⟩)
      · exact ⟨[], by simp, rfl⟩
      · exact ⟨ws, h5, h6⟩
    · rintro ⟨ws, h5, h6⟩
      cases ws with
      | nil => exact .inl h6
      | cons u ws => exact .inr ⟨u :: ws, by simp, h5, h6⟩

omit [DecidableEq W] in
/-- Postfix operators commute with the translation of symbols. -/
theorem apply_enc (code : Int → Int) (p : Post) {L : List (Int × W) → Prop} {M : List Int → Prop}
    (h : ∀ w, L w ↔ ∃ u, M u ∧ w = enc code u) (w : List (Int × W)) :
    p.Apply L w ↔ ∃ u, p.Apply M u ∧ w = enc code u := by
  have lift : ∀ ws : List (List (Int × W)), (∀ w ∈ ws, L w) → ∃ us : List (List Int), (∀ u ∈ us, M u) ∧ ws = us.map (enc code) := by
    intro ws hw
    induction ws with
    | nil => exact ⟨[], by simp, rfl⟩
    | cons w ws ih =>
      obtain ⟨us, h1, h2⟩ := ih (fun w' hw' => hw w' (List.mem_cons_of_mem _ hw'))
      obtain ⟨u, h3, h4⟩ := (h w).1 (hw w (by simp))
      refine ⟨u :: us, ?_, by simp [h2, h4]⟩
      intro x hx
      rcases List.mem_cons.1 hx with rfl | hx
      · exact h3
      · exact h1 x hx
  have drop : ∀ us : List (List Int), (∀ u ∈ us, M u) → ∀ w ∈ us.map (enc code : _ → List (Int × W)), L w := by
    intro us hu w hw
    obtain ⟨u, h1, rfl⟩ := List.mem_map.1 hw
    exact (h _).2 ⟨u, hu u h1, rfl⟩
  cases p with
  | none => exact h w
  | opt =>
    simp only [Post.Apply, h]
    constructor
    · rintro (rfl | ⟨u, h1, h2⟩)
      · exact ⟨[], .inl rfl, rfl⟩
      · exact ⟨u, .inr h1, h2⟩
    · rintro ⟨u, rfl | h1, h2⟩
      · exact .inl h2
      · exact .inr ⟨u, h1, h2⟩
  | plus =>
    simp only [Post.Apply]
    constructor
    · rintro ⟨ws, h0, h1, rfl⟩
      obtain ⟨us, h2, rfl⟩ := lift ws h1
      exact ⟨us.flatten, ⟨us, by simpa using h0, h2, rfl⟩, (enc_flatten _ _).symm⟩
    · rintro ⟨u, ⟨us, h0, h2, rfl⟩, rfl⟩
      exact ⟨us.map (enc code), by simpa using h0, drop us h2, enc_flatten _ _⟩
  | star =>
    simp only [Post.Apply]
    constructor
    · rintro ⟨ws, h1, rfl⟩
      obtain ⟨us, h2, rfl⟩ := lift ws h1
      exact ⟨us.flatten, ⟨us, h2, rfl⟩, (enc_flatten _ _).symm⟩
    · rintro ⟨u, ⟨us, h2, rfl⟩, rfl⟩
      exact ⟨us.map (enc code), drop us h2, enc_flatten _ _⟩

theorem apply_letters {p : Post} {M : List Int → Prop} {P : Int → Prop} (h : ∀ u, M u → ∀ c ∈ u, P c) (u : List Int)
    (hu : p.Apply M u) : ∀ c ∈ u, P c := by
  cases p with
  | none => exact h u hu
  | opt =>
    rcases hu with rfl | hu
    · simp
    · exact h u hu
  | plus =>
    obtain ⟨ws, -, h1, rfl⟩ := hu
    intro c hc
    obtain ⟨w, hw, hc⟩ := List.mem_flatten.1 hc
    exact h w (h1 w hw) c hc
  | star =>
    obtain ⟨ws, h1, rfl⟩ := hu
    intro c hc
    obtain ⟨w, hw, hc⟩ := List.mem_flatten.1 hc
    exact h w (h1 w hw) c hc

/-! ## The effect of a piece of an expression -/

/-- The invariant of the compiler between terms. -/
structure Good (s : St W) : Prop where
  wf : WF s.transducer
  state_lt : s.state < size s.transducer
  noIn : ∀ ls, Path (Edge s.transducer) s.transducer.initial ls s.transducer.initial → ls = []
  aok : AOk s.alphabet
  postop : s.postop = 0
  brackets : s.brackets = []
  finals : s.transducer.finals = []

/-- Between `s` and `s'` only new states were added, and the alphabet grew. -/
structure Grown (s s' : St W) : Prop where
  good : Good s'
  ext : Ext s.alphabet s'.alphabet
  init : s'.transducer.initial = s.transducer.initial
  size_le : size s.transducer ≤ size s'.transducer
  old : ∀ q p, q < size s.transducer → p < size s.transducer → ∀ ls, Path (Edge s'.transducer) q ls p ↔ Path (Edge s.transducer) q ls p

/-- The strings of `L` consist of symbols of the alphabet. -/
def Letters (a : Alphabet) (L : List Int → Prop) : Prop := ∀ u, L u → ∀ c ∈ u, c ≠ 0 ∧ ∃ x, HasPair a x (c, c)

theorem Letters.mono {a b : Alphabet} {L : List Int → Prop} (h : Letters a L) (he : Ext a b) : Letters b L := by
  intro u hu c hc
  obtain ⟨h1, x, h2⟩ := h u hu c hc
  exact ⟨h1, x, h2.mono he⟩

/-- Between `s` and `s'` the language `L` was appended to the current state. -/
structure Sem (L : List Int → Prop) (s s' : St W) : Prop extends Grown s s' where
  letters : Letters s'.alphabet L
  lang : ∀ code, Agrees code s'.alphabet → ∀ q < size s.transducer, ∀ w, Reach s'.transducer q s'.state w ↔
    ∃ v u, Reach s.transducer q s.state v ∧ L u ∧ w = v ++ enc code u

theorem Grown.trans {s s' s'' : St W} (h : Grown s s') (h' : Grown s' s'') : Grown s s'' where
  good := h'.good
  ext := h.ext.trans h'.ext
  init := h'.init.trans h.init
  size_le := h.size_le.trans h'.size_le
  old q p hq hp ls := by rw [h'.old q p (lt_of_lt_of_le hq h.size_le) (lt_of_lt_of_le hp h.size_le), h.old q p hq hp]

theorem Sem.trans {L M : List Int → Prop} {s s' s'' : St W} (h : Sem L s s') (h' : Sem M s' s'') :
    Sem (fun u => ∃ v w, L v ∧ M w ∧ u = v ++ w) s s'' where
  toGrown := h.toGrown.trans h'.toGrown
  letters := by
    rintro u ⟨v, w, h1, h2, rfl⟩ c hc
    rcases List.mem_append.1 hc with hc | hc
    · exact h.letters.mono h'.ext v h1 c hc
    · exact h'.letters w h2 c hc
  lang code hc q hq w := by
    rw [h'.lang code hc q (lt_of_lt_of_le hq h.size_le)]
    simp only [h.lang code (hc.mono h'.ext) q hq]
    constructor
    · rintro ⟨_, u, ⟨v, u', h1, h2, rfl⟩, h3, rfl⟩
      exact ⟨v, u' ++ u, h1, ⟨u', u, h2, h3, rfl⟩, by simp [enc_append]⟩
    · rintro ⟨v, _, h1, ⟨u', u, h2, h3, rfl⟩, rfl⟩
      exact ⟨v ++ enc code u', u, ⟨v, u', h1, h2, rfl⟩, h3, by simp [enc_append]⟩

theorem Sem.congr {L M : List Int → Prop} {s s' : St W} (h : Sem L s s') (e : ∀ u, L u ↔ M u) : Sem M s s' := by
  have : L = M := funext fun u => propext (e u)
  exact this ▸ h

/-- Inserting a transducer for `L` at the current state. -/
theorem sem_insert {s : St W} (hg : Good s) {t : Transducer W} (ht : Part t) {b : Alphabet} (hb : AOk b) (he : Ext s.alphabet b)
    {L : List Int → Prop} (hL : Letters b L) (hlang : ∀ code, Agrees code b → ∀ w, Lang 0 t w ↔ ∃ u, L u ∧ w = enc code u) :
    ∃ r t' o, insertTransducer s.state t 0 s.transducer = .ok (r, t', o) ∧
      ∀ s' : St W, s'.transducer = t' → s'.state = r → s'.alphabet = b → s'.postop = 0 → s'.brackets = [] → Sem L s s' := by
  obtain ⟨r, t', o, k1, k2, k3, k4, k5, k6, k7, k8, k9, k10⟩ := C25_insert_partial hg.wf ht.wf 0 hg.state_lt ht.fin ht.noLone
  refine ⟨r, t', o, k1, ?_⟩
  rintro s' rfl rfl rfl hp hbr
  have hi := hg.wf.initial_lt
  refine { good := ⟨k2, k4, ?_, hb, hp, hbr, by rw [k6, hg.finals]⟩, ext := he, init := k5, size_le := by omega, old := k9,
           letters := hL, lang := ?_ }
  · intro ls hls
    rw [k5, k9 _ _ hi hi] at hls
    exact hg.noIn ls hls
  · intro code hc q hq w
    refine (k8 q hq w).trans ?_
    constructor
    · rintro ⟨ls, u, h1, h2, rfl⟩
      obtain ⟨u', h3, rfl⟩ := (hlang code hc u).1 h2
      exact ⟨visible 0 ls, u', ⟨ls, h1, rfl⟩, h3, rfl⟩
    · rintro ⟨v, u, ⟨ls, h1, rfl⟩, h2, rfl⟩
      exact ⟨ls, enc code u, h1, (hlang code hc _).2 ⟨u, h2, rfl⟩, rfl⟩

/-! ## The transducer of a class -/

/-- The shape of the transducer that `classLoop` has built for the members `done`: state 0 is the start, the member
number `k` has the states `2k+1` and `2k+2`. -/
structure ClassInv (a : Alphabet) (done xs : List Int) (t : Transducer W) : Prop where
  wf : WF t
  init : t.initial = 0
  size_eq : size t = 2 * xs.length + 1
  codes : List.Forall₂ (fun c x => HasPair a x (c, c)) done xs
  edge : ∀ q l p, Edge t q l p ↔ ∃ k x, xs[k]? = some x ∧ ((q = 0 ∧ l = (0, 0) ∧ p = 2 * k + 1) ∨ (q = 2 * k + 1 ∧ l = (x, 0) ∧ p = 2 * k + 2))
  final : ∀ p w, Final t p w ↔ w = 0 ∧ ∃ k < xs.length, p = 2 * k + 2

theorem forall₂_mono {α β : Type} {R R' : α → β → Prop} (h : ∀ a b, R a b → R' a b) {l : List α} {m : List β}
    (hl : List.Forall₂ R l m) : List.Forall₂ R' l m := hl.imp h

theorem classInv_empty (a : Alphabet) : ClassInv a [] [] (empty : Transducer W) := by
  refine ⟨wf_of_check (by rfl), rfl, rfl, .nil, ?_, ?_⟩
  · intro q l p
    constructor
    · intro h
      rw [edge_iff_arcs (by rfl)] at h
      simp [arcsOf, Fst.empty, newState, mapSet] at h
    · rintro ⟨k, x, h, -⟩; simp at h
  · intro p w
    constructor
    · intro h; simp [Final, Fst.empty, newState] at h
    · rintro ⟨-, k, h, -⟩; simp at h

theorem classInv_step {a : Alphabet} (ha : AOk a) {done xs : List Int} {t : Transducer W} (h : ClassInv a done xs t) (i : Int) :
    ClassInv (a.pairCode i i).2 (done ++ [i]) (xs ++ [(a.pairCode i i).1])
      (setFinal (size t + 1) 0 true (insertNewSingleTransduction (a.pairCode i i).1 (size t) 0
        (insertNewSingleTransduction 0 0 0 t).2).2) ∧
    (insertNewSingleTransduction 0 0 0 t).1 = size t ∧
    (insertNewSingleTransduction (a.pairCode i i).1 (size t) 0 (insertNewSingleTransduction 0 0 0 t).2).1 = size t + 1 := by
  obtain ⟨b1, b2, b3⟩ := pairCode_aok ha i
  generalize hx : (a.pairCode i i).1 = x at *
  have hw := h.wf
  have hs := h.size_eq
  have n1 := newState_fst hw
  have s1 := newState_size hw
  have w1 := newState_wf hw
  have e1 := newState_edge hw
  -- first arc
  have hA : insertNewSingleTransduction 0 0 0 t = (size t, addArc 0 0 (size t) 0 (newState t).2) := by
    simp only [insertNewSingleTransduction, n1]
  have wA : WF (addArc 0 0 (size t) (0 : W) (newState t).2) := addArc_wf w1 (by omega) 0 (by omega) 0
  have sA : size (addArc 0 0 (size t) (0 : W) (newState t).2) = size t + 1 := by rw [addArc_size w1 (by omega), s1]
  have eA : ∀ q l p, Edge (addArc 0 0 (size t) (0 : W) (newState t).2) q l p ↔ Edge t q l p ∨ (q = 0 ∧ l = (0, 0) ∧ p = size t) := by
    intro q l p; rw [addArc_edge w1, e1]
  have fA : (addArc 0 0 (size t) (0 : W) (newState t).2).finals = t.finals := rfl
  have iA : (addArc 0 0 (size t) (0 : W) (newState t).2).initial = t.initial := rfl
  generalize addArc 0 0 (size t) (0 : W) (newState t).2 = tA at *
  have n2 := newState_fst wA
  have s2 := newState_size wA
  have w2 := newState_wf wA
  have e2 := newState_edge wA
  have hB : insertNewSingleTransduction x (size t) 0 tA = (size t + 1, addArc (size t) x (size t + 1) 0 (newState tA).2) := by
    simp only [insertNewSingleTransduction, n2, sA]
  have wB : WF (addArc (size t) x (size t + 1) (0 : W) (newState tA).2) := addArc_wf w2 (by omega) x (by omega) 0
  have sB : size (addArc (size t) x (size t + 1) (0 : W) (newState tA).2) = size t + 2 := by rw [addArc_size w2 (by omega), s2, sA]
  have eB : ∀ q l p, Edge (addArc (size t) x (size t + 1) (0 : W) (newState tA).2) q l p ↔
      Edge t q l p ∨ (q = 0 ∧ l = (0, 0) ∧ p = size t) ∨ (q = size t ∧ l = (x, 0) ∧ p = size t + 1) := by
    intro q l p; rw [addArc_edge w2, e2, eA, or_assoc]
  have fB : (addArc (size t) x (size t + 1) (0 : W) (newState tA).2).finals = t.finals := fA
  have iB : (addArc (size t) x (size t + 1) (0 : W) (newState tA).2).initial = t.initial := iA
  rw [hA]
  simp only
  rw [hB]
  simp only
  generalize addArc (size t) x (size t + 1) (0 : W) (newState tA).2 = tB at *
  have hfin : ∀ p w, Final (setFinal (size t + 1) 0 true tB) p w ↔ Final t p w ∨ (p = size t + 1 ∧ w = 0) := by
    intro p w
    have hnot : size t + 1 ∉ tB.finals.map (·.1) := by
      rw [fB]
      intro hm
      obtain ⟨⟨p, v⟩, hp, hq⟩ := List.mem_map.1 hm
      have := hw.finals_lt p v hp
      simp only at hq
      omega
    have := mem_mapInsert (wB.finals_sorted) (size t + 1) (0 : W) (p, w)
    simp only [Final, setFinal, if_true]
    rw [this, fB]
    simp only [fB] at hnot
    simp only [Prod.mk.injEq]
    tauto
  refine ⟨⟨?_, by show tB.initial = 0; rw [iB, h.init], ?_, ?_, ?_, ?_⟩, trivial, trivial⟩
  · refine ⟨wB.keys, wB.rows, wB.initial_lt, wB.target_lt, ?_, ?_⟩
    · show SortedKeys (mapInsert _ _ _)
      exact sorted_mapInsert wB.finals_sorted _ _
    · intro p w hp
      show p < size tB
      rcases (hfin p w).1 hp with hp | ⟨rfl, -⟩
      · have := hw.finals_lt p w hp; omega
      · omega
  · show size tB = _
    simp only [List.length_append, List.length_singleton]; omega
  · refine List.rel_append ?_ ?_
    · exact h.codes.imp (fun c x hc => hc.mono b2)
    · exact .cons b3 .nil
  · intro q l p
    show Edge tB q l p ↔ _
    rw [eB, h.edge]
    constructor
    · rintro (⟨k, y, hk, h1⟩ | ⟨rfl, rfl, rfl⟩ | ⟨rfl, rfl, rfl⟩)
      · exact ⟨k, y, by rw [List.getElem?_append_left (List.getElem?_eq_some_iff.1 hk).1]; exact hk, h1⟩
      · exact ⟨xs.length, x, by simp, .inl ⟨rfl, rfl, by omega⟩⟩
      · exact ⟨xs.length, x, by simp, .inr ⟨by omega, rfl, by omega⟩⟩
    · rintro ⟨k, y, hk, h1⟩
      rcases Nat.lt_or_ge k xs.length with hlt | hge
      · rw [List.getElem?_append_left hlt] at hk
        exact .inl ⟨k, y, hk, h1⟩
      · rw [List.getElem?_append_right hge] at hk
        have hk0 : k - xs.length = 0 := by
          have := (List.getElem?_eq_some_iff.1 hk).1
          simp at this; omega
        rw [hk0] at hk
        simp at hk
        subst hk
        rcases h1 with ⟨rfl, rfl, rfl⟩ | ⟨rfl, rfl, rfl⟩
        · exact .inr (.inl ⟨rfl, rfl, by omega⟩)
        · exact .inr (.inr ⟨by omega, rfl, by omega⟩)
  · intro p w
    rw [hfin, h.final]
    simp only [List.length_append, List.length_singleton]
    constructor
    · rintro (⟨rfl, k, hk, rfl⟩ | ⟨rfl, rfl⟩)
      · exact ⟨rfl, k, by omega, rfl⟩
      · exact ⟨rfl, xs.length, by omega, by omega⟩
    · rintro ⟨rfl, k, hk, rfl⟩
      rcases Nat.lt_or_ge k xs.length with hlt | hge
      · exact .inl ⟨rfl, k, hlt, rfl⟩
      · exact .inr ⟨by omega, rfl⟩

theorem classLoop_spec (is : List Int) {a : Alphabet} (ha : AOk a) {done xs : List Int} {t : Transducer W} (h : ClassInv a done xs t) :
    ∃ ys, AOk (classLoop is a t).1 ∧ Ext a (classLoop is a t).1 ∧ ClassInv (classLoop is a t).1 (done ++ is) ys (classLoop is a t).2 := by
  induction is generalizing a done xs t with
  | nil => exact ⟨xs, ha, Ext.refl _, by simpa [classLoop] using h⟩
  | cons i is ih =>
    obtain ⟨k1, k2, k3⟩ := classInv_step ha h i
    obtain ⟨b1, b2, b3⟩ := pairCode_aok ha i
    obtain ⟨ys, j1, j2, j3⟩ := ih b1 k1
    have e : classLoop (i :: is) a t = classLoop is (a.pairCode i i).2 (setFinal (size t + 1) 0 true
        (insertNewSingleTransduction (a.pairCode i i).1 (size t) 0 (insertNewSingleTransduction 0 0 0 t).2).2) := by
      simp only [classLoop, pc00 ha, h.init, k2, k3]
    rw [e]
    exact ⟨ys, j1, b2.trans j2, by simpa using j3⟩

theorem ClassInv.lang {a : Alphabet} (ha : AOk a) {done xs : List Int} {t : Transducer W} (h : ClassInv a done xs t)
    {code : Int → Int} (hc : Agrees code a) (w : List (Int × W)) :
    Lang 0 t w ↔ ∃ u, (∃ c, c ∈ done ∧ u = sym c) ∧ w = enc code u := by
  have hlen := h.codes.length_eq
  have codes : ∀ (k : Nat) (x : Int), xs[k]? = some x → ∃ c ∈ done, HasPair a x (c, c) := by
    intro k x hk
    obtain ⟨hlt, rfl⟩ := List.getElem?_eq_some_iff.1 hk
    exact ⟨done[k], List.getElem_mem _, h.codes.get (by omega) hlt⟩
  constructor
  · rintro ⟨ls, p, fw, hp, hf, rfl⟩
    obtain ⟨rfl, k, hk, rfl⟩ := (h.final _ _).1 hf
    rw [visible_append_eps]
    rw [h.init] at hp
    cases ls with
    | nil => have := path_nil_iff.1 hp; omega
    | cons l ls =>
      obtain ⟨r, he, hp⟩ := path_cons_iff.1 hp
      obtain ⟨k1, x1, hk1, h1⟩ := (h.edge _ _ _).1 he
      rcases h1 with ⟨-, rfl, rfl⟩ | ⟨h1, -⟩
      · cases ls with
        | nil => have := path_nil_iff.1 hp; omega
        | cons l' ls =>
          obtain ⟨r, he, hp⟩ := path_cons_iff.1 hp
          obtain ⟨k2, x2, hk2, h2⟩ := (h.edge _ _ _).1 he
          rcases h2 with ⟨h2, -⟩ | ⟨h2, rfl, rfl⟩
          · omega
          · cases ls with
            | nil =>
              obtain ⟨c, h3, h4⟩ := codes k2 x2 hk2
              refine ⟨sym c, ⟨c, h3, rfl⟩, ?_⟩
              rw [visible_eps, visible_sym ha hc h4]
            | cons l'' ls =>
              obtain ⟨r, he, hp⟩ := path_cons_iff.1 hp
              obtain ⟨k3, x3, hk3, h3⟩ := (h.edge _ _ _).1 he
              rcases h3 with ⟨h3, -⟩ | ⟨h3, -⟩ <;> omega
      · omega
  · rintro ⟨u, ⟨c, h1, rfl⟩, rfl⟩
    obtain ⟨k, hk, rfl⟩ := List.getElem_of_mem h1
    have hk' : k < xs.length := by omega
    have hp : HasPair a xs[k] (done[k], done[k]) := h.codes.get hk hk'
    refine ⟨[(0, 0), (xs[k], 0)], 2 * k + 2, 0, ?_, (h.final _ _).2 ⟨rfl, k, hk', rfl⟩, ?_⟩
    · rw [h.init]
      refine .cons (r := 2 * k + 1) ((h.edge _ _ _).2 ⟨k, xs[k], by simp, .inl ⟨rfl, rfl, rfl⟩⟩)
        (.cons ((h.edge _ _ _).2 ⟨k, xs[k], by simp, .inr ⟨rfl, rfl, rfl⟩⟩) (.nil _))
    · rw [visible_append_eps, visible_eps, visible_sym ha hc hp]

/-- The result of a class. -/
theorem finishClass_spec {s : St W} (p : Post) (hg : Good { s with postop := 0, brackets := [] }) (hp : s.postop = p.code)
    {members : List Int} (hm : members ≠ []) {L : List Int → Prop} (hL : ∀ u, L u ↔ p.Apply (fun v => ∃ c, c ∈ members ∧ v = sym c) u) :
    ∃ s', finishClass members s = .ok s' ∧ s'.input = s.input ∧ Sem L { s with postop := 0, brackets := [] } s' := by
  obtain ⟨ys, k1, k2, k3⟩ := classLoop_spec members hg.aok (classInv_empty (W := W) s.alphabet)
  simp only [List.nil_append] at k3
  have hlen := k3.codes.length_eq
  obtain ⟨m0, rest, rfl⟩ := List.exists_cons_of_ne_nil hm
  generalize hcl : classLoop (m0 :: rest) s.alphabet (empty : Transducer W) = cl at k1 k2 k3
  obtain ⟨b, t⟩ := cl
  simp only at k1 k2 k3
  have hfin : t.finals ≠ [] := by
    intro h0
    have : Final t 2 0 := (k3.final 2 0).2 ⟨rfl, 0, by rw [← hlen]; simp, rfl⟩
    simp [Final, h0] at this
  obtain ⟨t1, f, h1, h2, h3, h4, h5, h6⟩ := joinFinals_zero k3.wf 0 hfin (fun p w hf => ((k3.final p w).1 (by simp [Final, hf])).1)
  have part : Part t1 := ⟨h2, fun p w hw => by simp [Final, h4] at hw; exact hw.2, by simp [h4]⟩
  have lang1 : ∀ code, Agrees code b → ∀ w, Lang 0 t1 w ↔ ∃ u, (∃ c, c ∈ m0 :: rest ∧ u = sym c) ∧ w = enc code u := by
    intro code hc w
    rw [Lang, h3, h6 _ k3.wf.initial_lt]
    exact k3.lang k1 hc w
  obtain ⟨t2, g1, g2, g3⟩ := applyPostop_spec k1 part p
  have hLet : Letters b L := by
    intro u hu
    refine apply_letters (p := p) ?_ u ((hL u).1 hu)
    rintro v ⟨c, hc, rfl⟩ d hd
    unfold sym at hd
    split at hd
    · simp at hd
    · next h0 =>
      simp only [List.mem_singleton] at hd
      subst hd
      obtain ⟨k, hk, rfl⟩ := List.getElem_of_mem hc
      have hk' : k < ys.length := by omega
      exact ⟨h0, ys[k], k3.codes.get hk hk'⟩
  obtain ⟨r, t', o, i1, i2⟩ := sem_insert hg g2 k1 (L := L) k2 hLet (by
    intro code hc w
    rw [g3, apply_enc code p (lang1 code hc)]
    simp only [hL])
  refine ⟨{ s with brackets := [], postop := 0, state := r, transducer := t', alphabet := b }, ?_, rfl, i2 _ rfl rfl rfl rfl rfl⟩
  simp only [finishClass, hcl, pc00 k1, h1, Res.bind_ok, hp, g1]
  simp only at i1
  rw [i1]
  rfl

theorem finishClass_empty {s : St W} (ha : AOk s.alphabet) : finishClass [] s = .exit := by
  simp [finishClass, classLoop, pc00 ha, joinFinals, Fst.empty, newState]

/-! ## Letters, groups, alternatives -/

theorem letter_spec {a : Alphabet} (ha : AOk a) (c : Int) :
    let x := (a.pairCode c c).1
    let ins := insertNewSingleTransduction x (Fst.empty : Transducer W).initial 0 (Fst.empty : Transducer W)
    Part (setFinal ins.1 0 true ins.2) ∧
    ∀ code, Agrees code (a.pairCode c c).2 → ∀ w, Lang 0 (setFinal ins.1 0 true ins.2) w ↔ ∃ u, u = sym c ∧ w = enc code u := by
  obtain ⟨b1, b2, b3⟩ := pairCode_aok ha c
  intro x ins
  have e : setFinal ins.1 0 true ins.2 = { initial := 0, finals := [(1, 0)], transitions := [(0, [(x, (1, 0))]), (1, [])] } := by rfl
  rw [e]
  have hE : ∀ q l p, Edge { initial := 0, finals := [(1, (0 : W))], transitions := [(0, [(x, (1, 0))]), (1, [])] } q l p ↔
      q = 0 ∧ l = (x, 0) ∧ p = 1 := by
    intro q l p
    obtain ⟨l1, l2⟩ := l
    rw [edge_iff_arcs (by rfl)]
    simp [arcsOf]
    tauto
  refine ⟨⟨wf_of_check (by rfl), ?_, by simp⟩, ?_⟩
  · intro p w hw
    simp [Final] at hw
    exact hw.2
  · intro code hc w
    simp only [exists_eq_left]
    rw [← visible_sym (W := W) b1 hc b3]
    constructor
    · rintro ⟨ls, p, fw, hp, hf, rfl⟩
      simp only [Final, List.mem_singleton, Prod.mk.injEq] at hf
      obtain ⟨rfl, rfl⟩ := hf
      rw [visible_append_eps]
      cases ls with
      | nil => have := path_nil_iff.1 hp; simp at this
      | cons l ls =>
        obtain ⟨r, he, hp⟩ := path_cons_iff.1 hp
        obtain ⟨-, rfl, rfl⟩ := (hE _ _ _).1 he
        cases ls with
        | nil => rfl
        | cons l ls =>
          obtain ⟨r, he, hp⟩ := path_cons_iff.1 hp
          obtain ⟨h, -⟩ := (hE _ _ _).1 he
          omega
    · rintro rfl
      exact ⟨[(x, 0)], 1, 0, .cons ((hE _ _ _).2 ⟨rfl, rfl, rfl⟩) (.nil _), by simp [Final], by rw [visible_append_eps]⟩

/-- The state after a group or letter was read: what `S` left, and the language from the start to the current state. -/
theorem good_start {s : St W} (hg : Good s) (r : List Int) :
    Good (W := W) { s with input := r, transducer := Fst.empty, state := (Fst.empty : Transducer W).initial } where
  wf := wf_of_check (by rfl)
  state_lt := by show 0 < 1; omega
  noIn := by
    intro ls h
    cases ls with
    | nil => rfl
    | cons l ls =>
      obtain ⟨r, he, hp⟩ := path_cons_iff.1 h
      have := (edge_iff_arcs (t := (Fst.empty : Transducer W)) (by rfl) _ _ _).1 he
      simp [arcsOf, Fst.empty, newState, mapSet] at this
  aok := hg.aok
  postop := hg.postop
  brackets := hg.brackets
  finals := rfl

/-- What `S` achieves from a new transducer: the strings of `L` lead from the start to the current state. -/
structure Whole (L : List Int → Prop) (s s' : St W) : Prop extends Grown s s' where
  letters : Letters s'.alphabet L
  lang : ∀ code, Agrees code s'.alphabet → ∀ w, Reach s'.transducer s'.transducer.initial s'.state w ↔ ∃ u, L u ∧ w = enc code u

theorem Whole.part {L : List Int → Prop} {s s' : St W} (h : Whole L s s') :
    Part (setFinal s'.state 0 true s'.transducer) ∧ ∀ code, Agrees code s'.alphabet → ∀ w,
      Lang 0 (setFinal s'.state 0 true s'.transducer) w ↔ ∃ u, L u ∧ w = enc code u := by
  have hf : (setFinal s'.state 0 true s'.transducer).finals = [(s'.state, (0 : W))] := by
    show mapInsert s'.state 0 s'.transducer.finals = _
    rw [h.good.finals]; rfl
  have e : setFinal s'.state 0 true s'.transducer = { s'.transducer with finals := [(s'.state, (0 : W))] } := by
    rw [← hf]; rfl
  refine ⟨⟨by rw [e]; exact h.good.wf.setFinals h.good.state_lt 0, ?_, by simp [hf]⟩, ?_⟩
  · intro p w hw
    simp [Final, hf] at hw
    exact hw.2
  · intro code hc w
    rw [← h.lang code hc, Lang, langFrom_zero hf]
    rfl

/-- A new state that is reached from two states by empty arcs. -/
theorem endAlternative_spec {s : St W} (hg : Good s) {e : Nat} (he : e < size s.transducer) :
    ∃ s', endAlternative e s = .ok s' ∧ s'.input = s.input ∧ Grown s s' ∧ s'.alphabet = s.alphabet ∧
      ∀ q < size s.transducer, ∀ w, Reach s'.transducer q s'.state w ↔ Reach s.transducer q s.state w ∨ Reach s.transducer q e w := by
  have hw := hg.wf
  have n1 := newState_fst hw
  have s1 := newState_size hw
  have w1 := newState_wf hw
  have e1 := newState_edge hw
  have hst := hg.state_lt
  have hin := hw.initial_lt
  have hA : insertNewSingleTransduction 0 s.state 0 s.transducer = (size s.transducer, addArc s.state 0 (size s.transducer) 0 (newState s.transducer).2) := by
    simp only [insertNewSingleTransduction, n1]
  have wA : WF (addArc s.state 0 (size s.transducer) (0 : W) (newState s.transducer).2) := addArc_wf w1 (by omega) 0 (by omega) 0
  have sA : size (addArc s.state 0 (size s.transducer) (0 : W) (newState s.transducer).2) = size s.transducer + 1 := by
    rw [addArc_size w1 (by omega), s1]
  have eA : ∀ q l p, Edge (addArc s.state 0 (size s.transducer) (0 : W) (newState s.transducer).2) q l p ↔
      Edge s.transducer q l p ∨ (q = s.state ∧ l = (0, 0) ∧ p = size s.transducer) := by
    intro q l p; rw [addArc_edge w1, e1]
  have fA : (addArc s.state 0 (size s.transducer) (0 : W) (newState s.transducer).2).finals = s.transducer.finals := rfl
  have iA : (addArc s.state 0 (size s.transducer) (0 : W) (newState s.transducer).2).initial = s.transducer.initial := rfl
  generalize hTA : addArc s.state 0 (size s.transducer) (0 : W) (newState s.transducer).2 = tA at *
  obtain ⟨t', k1, k2, k3, k4, k5, -⟩ := C20_adds_exactly wA (s := e) (p := size s.transducer) (by omega) (by omega) 0 (0 : W)
  have hWF : WF t' := by
    have := linkStates_eq wA (s := e) (p := size s.transducer) (by omega) (by omega) 0 (0 : W)
    rw [k1] at this
    split at this
    · cases this; exact wA
    · cases this; exact addArc_wf wA (by omega) 0 (by omega) 0
  have hE : ∀ q l p, Edge t' q l p ↔ Edge s.transducer q l p ∨ ((q = s.state ∨ q = e) ∧ l = (0, 0) ∧ p = size s.transducer) := by
    intro q l p
    rw [k5, eA]
    constructor
    · rintro ((h | ⟨rfl, rfl, rfl⟩) | ⟨rfl, rfl, rfl, -⟩)
      · exact .inl h
      · exact .inr ⟨.inl rfl, rfl, rfl⟩
      · exact .inr ⟨.inr rfl, rfl, rfl⟩
    · rintro (h | ⟨rfl | rfl, rfl, rfl⟩)
      · exact .inl (.inl h)
      · exact .inl (.inr ⟨rfl, rfl, rfl⟩)
      · by_cases hs : q = s.state
        · exact .inl (.inr ⟨hs, rfl, rfl⟩)
        · refine .inr ⟨rfl, rfl, rfl, ?_⟩
          rintro ⟨v, hv⟩
          rcases (eA _ _ _).1 hv with hv | ⟨hv, -⟩
          · exact no_edge_in hw (le_refl _) _ _ hv
          · exact hs hv
  -- paths that do not end in the new state
  have hold : ∀ q p, q < size s.transducer → p < size s.transducer → ∀ ls, Path (Edge t') q ls p ↔ Path (Edge s.transducer) q ls p := by
    intro q p hq hp ls
    constructor
    · intro h
      induction ls generalizing q with
      | nil => rw [path_nil_iff] at h ⊢; exact h
      | cons l ls ih =>
        obtain ⟨r, he', hp'⟩ := path_cons_iff.1 h
        rcases (hE _ _ _).1 he' with he' | ⟨-, -, rfl⟩
        · exact .cons he' (ih r (hw.target_lt _ _ _ he') hp')
        · exfalso
          cases ls with
          | nil => have := path_nil_iff.1 hp'; omega
          | cons l ls =>
            obtain ⟨r, he', hp'⟩ := path_cons_iff.1 hp'
            rcases (hE _ _ _).1 he' with he' | ⟨h1, -⟩
            · exact no_edge_out hw (le_refl _) _ _ he'
            · omega
    · intro h; exact h.mono (fun q l p he => (hE _ _ _).2 (.inl he))
  have hnew : ∀ q, q < size s.transducer → ∀ ls, Path (Edge t') q ls (size s.transducer) ↔
      ∃ ls0, (Path (Edge s.transducer) q ls0 s.state ∨ Path (Edge s.transducer) q ls0 e) ∧ ls = ls0 ++ [(0, 0)] := by
    intro q hq ls
    constructor
    · intro h
      induction ls generalizing q with
      | nil => have := path_nil_iff.1 h; omega
      | cons l ls ih =>
        obtain ⟨r, he', hp'⟩ := path_cons_iff.1 h
        rcases (hE _ _ _).1 he' with he' | ⟨h1, rfl, rfl⟩
        · obtain ⟨ls0, h2, rfl⟩ := ih r (hw.target_lt _ _ _ he') hp'
          exact ⟨l :: ls0, h2.imp (.cons he') (.cons he'), rfl⟩
        · cases ls with
          | nil =>
            refine ⟨[], ?_, rfl⟩
            rcases h1 with rfl | rfl
            · exact .inl (.nil _)
            · exact .inr (.nil _)
          | cons l ls =>
            exfalso
            obtain ⟨r, he', hp'⟩ := path_cons_iff.1 hp'
            rcases (hE _ _ _).1 he' with he' | ⟨h1, -⟩
            · exact no_edge_out hw (le_refl _) _ _ he'
            · omega
    · rintro ⟨ls0, h1 | h1, rfl⟩
      · exact (h1.mono (fun q l p he => (hE _ _ _).2 (.inl he))).append (.single ((hE _ _ _).2 (.inr ⟨.inl rfl, rfl, rfl⟩)))
      · exact (h1.mono (fun q l p he => (hE _ _ _).2 (.inl he))).append (.single ((hE _ _ _).2 (.inr ⟨.inr rfl, rfl, rfl⟩)))
  refine ⟨{ s with state := size s.transducer, transducer := t' }, ?_, rfl, ?_, rfl, ?_⟩
  · simp only [endAlternative, pc00 hg.aok, hA, k1, Res.bind_ok]
    rfl
  · refine { good := ⟨hWF, by show size s.transducer < size t'; omega, ?_, hg.aok, hg.postop, hg.brackets, ?_⟩, ext := Ext.refl _,
             init := by show t'.initial = _; rw [k2, iA], size_le := by show _ ≤ size t'; omega, old := hold }
    · intro ls h
      have h2 : Path (Edge t') t'.initial ls t'.initial := h
      rw [k2, iA, hold _ _ hin hin] at h2
      exact hg.noIn ls h2
    · show t'.finals = []
      rw [k3, fA, hg.finals]
  · intro q hq w
    show Reach t' q (size s.transducer) w ↔ _
    constructor
    · rintro ⟨ls, h1, rfl⟩
      obtain ⟨ls0, h2, rfl⟩ := (hnew q hq ls).1 h1
      rw [visible_append_eps]
      exact h2.imp (fun h => ⟨ls0, h, rfl⟩) (fun h => ⟨ls0, h, rfl⟩)
    · rintro (⟨ls, h1, rfl⟩ | ⟨ls, h1, rfl⟩)
      · exact ⟨ls ++ [(0, 0)], (hnew q hq _).2 ⟨ls, .inl h1, rfl⟩, by rw [visible_append_eps]⟩
      · exact ⟨ls ++ [(0, 0)], (hnew q hq _).2 ⟨ls, .inr h1, rfl⟩, by rw [visible_append_eps]⟩

end Verif.Regex
