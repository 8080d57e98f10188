import Verif.Sep.Lemmas

/-! # Sections of separable dictionaries -/

namespace Verif.Sep

open Verif.Fst Verif.Compiler Verif.Alphabet

set_option linter.unusedSectionVars false

section
variable {W : Type} [Zero W] {a : Alphabet} {t : Transducer W} {nm : Nat → List Pair}

/-! ## Names and paths -/

theorem LT.known (h : LT a t nm) : ∀ q l p, Edge t q l p → KA a l.1 := by
  rintro q ⟨c, w⟩ p he
  obtain ⟨pr, h1, -⟩ := h.edge _ _ _ _ he
  exact ⟨pr, h1⟩

/-- The pairs of labels. -/
def prs (a : Alphabet) (ls : List (Int × W)) : List Pair := ls.map fun l => dec a l.1

theorem lft_prs (ls : List (Int × W)) : lft a ls = lefts (prs a ls) := by
  simp only [lft, lefts, prs, List.map_map]; rfl
theorem rgt_prs (ls : List (Int × W)) : rgt a ls = rights (prs a ls) := by
  simp only [rgt, rights, prs, List.map_map]; rfl

theorem LT.path_name (h : LT a t nm) {q p : Nat} {ls : List (Int × W)} (hp : Path (Edge t) q ls p) : nm p = (prs a ls).foldl put (nm q) := by
  induction hp with
  | nil => rfl
  | @cons q r p l ls he _ ih =>
    obtain ⟨pr, h1, -, h2⟩ := h.edge q l.1 l.2 r he
    rw [ih, h2]
    simp [prs, dec_eq h1]

theorem LT.path_of_name (h : LT a t nm) (ps : List Pair) {p : Nat} (hp : p < size t) (hn : nm p = collapse ps) :
    ∃ ls, Path (Edge t) t.initial ls p ∧ prs a ls = ps := by
  induction ps using List.reverseRecOn generalizing p with
  | nil =>
    rw [h.inj p t.initial hp h.wf.initial_lt (by rw [hn, h.init]; rfl)]
    exact ⟨[], .nil _, rfl⟩
  | append_singleton ps pr ih =>
    rw [collapse_snoc] at hn
    by_cases hl : isLoop pr = true ∧ (collapse ps).getLast? = some pr
    · rw [put, if_pos hl] at hn
      obtain ⟨ls, h1, h2⟩ := ih hp hn
      obtain ⟨c, w, h3, h4⟩ := h.loops p hp pr hl.1 (by rw [hn, hl.2])
      exact ⟨ls ++ [(c, w)], h1.append (.single h4), by rw [prs, List.map_append, ← prs, h2]; simp [dec_eq h3]⟩
    · rw [put, if_neg hl] at hn
      obtain ⟨q, c, w, h3, h4, h5⟩ := h.parents p hp _ _ hn
      obtain ⟨ls, h1, h2⟩ := ih (h.wf.source_lt h5) h3
      exact ⟨ls ++ [(c, w)], h1.append (.single h5), by rw [prs, List.map_append, ← prs, h2]; simp [dec_eq h4]⟩

theorem LT.setFinal (h : LT a t nm) {q : Nat} (hq : q < size t) : LT a (setFinal q 0 true t) nm :=
  ⟨setFinal_wf h.wf hq 0, setFinal_zero h.wf h.zero q, h.init, h.inj, h.edge, h.loops, h.parents, h.det⟩

theorem lt_empty (a : Alphabet) : LT a (empty : Transducer W) (fun _ => []) := by
  have hsz : size (empty : Transducer W) = 1 := rfl
  have hno : ∀ q l p, ¬ Edge (empty : Transducer W) q l p := by
    intro q l p he
    have : row (empty : Transducer W) q = [] := by
      by_cases hq : q = 0
      · subst hq; rfl
      · have : mapFind q (empty : Transducer W).transitions = none := by
          show mapFind q [(0, ([] : Row W))] = none
          simp [mapFind, Ne.symm hq]
        rw [row, this]; rfl
    unfold Edge at he
    rw [this] at he
    simp at he
  refine ⟨⟨rfl, ?_, Nat.zero_lt_one, fun q l p he => absurd he (hno _ _ _), ?_, fun p w hf => ?_⟩, fun p w hf => ?_, rfl, ?_,
    fun q c w p he => absurd he (hno _ _ _), fun q hq pr _ hx => ?_, fun q hq u pr hx => ?_, fun q c => ?_⟩
  · intro e he
    have : e = (0, ([] : Row W)) := List.mem_singleton.1 he
    rw [this]; exact .nil
  · exact .nil
  · exact absurd (show (p, w) ∈ ([] : List (Nat × W)) from hf) (by simp)
  · exact absurd (show (p, w) ∈ ([] : List (Nat × W)) from hf) (by simp)
  · intro q p hq hp _; omega
  · simp at hx
  · simp at hx
  · have : equalRange c (row (empty : Transducer W) q) = [] := by
      rw [List.eq_nil_iff_forall_not_mem]
      rintro ⟨y, v⟩ hm
      exact hno q (c, v) y ((mem_equalRange _ _ _ _).mp hm)
    simp [this]

/-! ## A section with its entries -/

/-- The final states are the ends of the entries `G`. -/
structure SLT (a : Alphabet) (t : Transducer W) (nm : Nat → List Pair) (G : List Pair → Prop) : Prop where
  lt : LT a t nm
  fin : ∀ p, (∃ fw, Final t p fw) ↔ p < size t ∧ ∃ e, G e ∧ nm p = collapse e
  stored : ∀ e, G e → ∃ p < size t, nm p = collapse e

theorem SLT.mono {a' : Alphabet} {G : List Pair → Prop} (h : SLT a t nm G) (he : Ext a a') : SLT a' t nm G := ⟨h.lt.mono he, h.fin, h.stored⟩

theorem slt_empty (a : Alphabet) : SLT a (empty : Transducer W) (fun _ => []) (fun _ => False) :=
  ⟨lt_empty a, fun p => ⟨fun ⟨fw, hf⟩ => absurd (show (p, fw) ∈ ([] : List (Nat × W)) from hf) (by simp), fun ⟨_, e, he, _⟩ => he.elim⟩, fun _ h => h.elim⟩

theorem SLT.add {G : List Pair → Prop} (h : SLT a t nm G) {a' : Alphabet} {t' : Transducer W} {nm' : Nat → List Pair} {e : Nat} {u : List Pair}
    (hn : Next a' t nm (collapse u) t' nm' e) : SLT a' (setFinal e 0 true t') nm' (fun v => G v ∨ v = u) := by
  refine ⟨hn.lt.setFinal hn.e_lt, fun p => ?_, fun v hv => ?_⟩
  · rw [setFinal_final hn.lt.wf]
    have hf : (∃ fw, Final t' p fw) ↔ ∃ fw, Final t p fw := by unfold Final; rw [hn.finals]
    rw [hf, h.fin]
    constructor
    · rintro (rfl | ⟨h1, v, h2, h3⟩)
      · exact ⟨hn.e_lt, u, .inr rfl, hn.name⟩
      · exact ⟨lt_of_lt_of_le h1 hn.size_le, v, .inl h2, by rw [hn.same p h1, h3]⟩
    · rintro ⟨h1, v, h2 | rfl, h3⟩
      · obtain ⟨p', k1, k2⟩ := h.stored v h2
        have := hn.lt.inj p p' h1 (lt_of_lt_of_le k1 hn.size_le) (by rw [h3, hn.same p' k1, k2])
        subst this
        exact .inr ⟨k1, v, h2, k2⟩
      · exact .inl (hn.lt.inj p e h1 hn.e_lt (by rw [h3, hn.name]))
  · rcases hv with hv | rfl
    · obtain ⟨p, k1, k2⟩ := h.stored v hv
      exact ⟨p, lt_of_lt_of_le k1 hn.size_le, by rw [hn.same p k1, k2]⟩
    · exact ⟨e, hn.e_lt, hn.name⟩

/-- The pairs on the accepting paths. -/
theorem SLT.acc {G : List Pair → Prop} (h : SLT a t nm G) (ps : List Pair) :
    (∃ ls, Acc t t.initial ls ∧ prs a ls = ps) ↔ ∃ e, G e ∧ collapse ps = collapse e := by
  constructor
  · rintro ⟨ls, ⟨p, fw, h1, h2⟩, rfl⟩
    obtain ⟨-, e, h3, h4⟩ := (h.fin p).1 ⟨fw, h2⟩
    refine ⟨e, h3, ?_⟩
    rw [← h4, h.lt.path_name h1, h.lt.init]
    rfl
  · rintro ⟨e, h1, h2⟩
    obtain ⟨p, k1, k2⟩ := h.stored e h1
    obtain ⟨ls, h3, h4⟩ := h.lt.path_of_name ps k1 (by rw [k2, h2])
    obtain ⟨fw, h5⟩ := (h.fin p).2 ⟨k1, e, h1, k2⟩
    exact ⟨ls, ⟨p, fw, h3, h5⟩, h4⟩

end

section
variable {W : Type} [Zero W] [DecidableEq W] {N : Type} [LinearOrder N]

/-- The elements are texts that are not empty. -/
def AllTexts (es : List (Token N)) : Prop := ∀ e ∈ es, ∃ l r, e = .text l r ∧ ¬ (l = [] ∧ r = []) ∧ 0 ∉ l ∧ 0 ∉ r

theorem secTokens_spec (s : Settings) (hs : s.acx = []) (w j : W) (es : List (Token N)) (hes : AllTexts es) (b : Bool) {a : Alphabet} (ha : Ok a)
    (pars : List (N × Transducer W)) (x : Sec N W) {nm : Nat → List Pair} (h : LT a x.t nm) {q : Nat} (hq : q < size x.t) :
    ∃ a' e t' nm', secTokens s b (es.map (weigh w j)) a pars q x = .ok (a', pars, e, { x with t := t' }) ∧ Ok a' ∧ Ext a a' ∧
      Next a' x.t nm ((pairsOf s es).foldl put (nm q)) t' nm' e := by
  induction es generalizing a q x nm b with
  | nil =>
    refine ⟨a, q, x.t, nm, ?_, ha, .refl a, h, fun _ _ => rfl, le_refl _, hq, rfl, rfl, rfl⟩
    cases b <;> rfl
  | cons e es ih =>
    obtain ⟨l, r, rfl, h1, h2, h3⟩ := hes e (by simp)
    have h2' : 0 ∉ (sides s l r).1 ∧ 0 ∉ (sides s l r).2 := by unfold sides; split <;> exact ⟨by assumption, by assumption⟩
    obtain ⟨a1, e1, t1, nm1, k1, k2, k3, k4⟩ := matchLoop_spec w (sides s l r).1 (sides s l r).2 h2'.1 h2'.2 ha h hq
    obtain ⟨a2, e2, t2, nm2, j1, j2, j3, j4⟩ := ih (fun e he => hes e (List.mem_cons_of_mem _ he)) false k2 { x with t := t1 } k4.lt k4.e_lt
    refine ⟨a2, e2, t2, nm2, ?_, j2, k3.trans j3, ?_⟩
    · rw [List.map_cons]
      show secTokens s b ((w, .text l r) :: es.map (weigh w j)) a pars q x = _
      have e0 : secTokens s b ((w, .text l r) :: es.map (weigh w j)) a pars q x =
          (do let (a, e, t) ← matchTransduction s l r w a q x.t
              secTokens s false (es.map (weigh w j)) a pars e { x with t }) := by
        cases b <;> simp only [secTokens]
      rw [e0, matchTransduction_eq s hs l r h1, k1, Res.bind_ok]
      exact j1
    · have := k4.trans j4
      rw [k4.name] at this
      rw [pairsOf, List.foldl_append]
      exact this

/-- What holds of the sections while the file is read; `G k` are the entries of section `k`. -/
structure Secs (c : Comp N W) (G : UString → List Pair → Prop) : Prop where
  ok : Ok c.alphabet
  cur : c.current = none
  sorted : SortedKeys c.secs
  none : ∀ k, mapFind k c.secs = none → ∀ e, ¬ G k e
  some : ∀ k x, mapFind k c.secs = some x → (∃ e, G k e) ∧ ∃ nm, SLT c.alphabet x.t nm (G k)

theorem readTokens_texts (c : Comp N W) (es : List (Token N)) (hes : AllTexts es) : readTokens c es = .ok true := by
  induction es with
  | nil => rfl
  | cons e es ih =>
    obtain ⟨l, r, rfl, -⟩ := hes e (by simp)
    exact ih fun e he => hes e (List.mem_cons_of_mem _ he)

theorem insertEntryTokens_spec (s : Settings) (hs : s.acx = []) (w j : W) (es : List (Token N)) (hes : AllTexts es) {c : Comp N W}
    {G : UString → List Pair → Prop} (h : Secs c G) :
    ∃ c', insertEntryTokens s (es.map (weigh w j)) c = .ok c' ∧ c'.sect = c.sect ∧ Secs c' (fun k v => G k v ∨ (k = c.sect ∧ v = pairsOf s es)) := by
  have hx : ∃ nm, SLT c.alphabet ((mapFind c.sect c.secs).getD {}).t nm (G c.sect) := by
    cases hm : mapFind c.sect c.secs with
    | none =>
      have := h.none _ hm
      have e : G c.sect = fun _ => False := by funext v; simpa using this v
      rw [e]
      exact ⟨_, slt_empty _⟩
    | some x => exact (h.some _ _ hm).2
  obtain ⟨nm, hx⟩ := hx
  obtain ⟨a', e, t', nm', h1, h2, h3, h4⟩ := secTokens_spec s hs w j es hes true h.ok c.pars _ hx.lt hx.lt.wf.initial_lt
  rw [hx.lt.init] at h4
  refine ⟨{ c with alphabet := a', secs := mapSet c.sect { (mapFind c.sect c.secs).getD {} with t := setFinal e 0 true t' } c.secs }, ?_, ?_, ?_⟩
  · unfold insertEntryTokens
    rw [h.cur]
    simp only
    rw [h1, Res.bind_ok]
    rfl
  · rfl
  · have hsk : ∀ v, SortedKeys (mapSet c.sect v c.secs) := fun v => by rw [mapSet_eq_modify]; exact sorted_modify h.sorted _ _ _
    have hfind : ∀ v k, mapFind k (mapSet c.sect v c.secs) = if k = c.sect then some v else mapFind k c.secs := fun v k => by
      rw [mapSet_eq_modify, mapFind_modify h.sorted]
    refine ⟨h2, h.cur, hsk _, fun k hk v hv => ?_, fun k x hk => ?_⟩
    · simp only [hfind] at hk
      split at hk
      · cases hk
      · next hne =>
        rcases hv with hv | ⟨rfl, -⟩
        · exact h.none k hk v hv
        · exact hne rfl
    · simp only [hfind] at hk
      split at hk
      · next he =>
        cases hk
        subst he
        refine ⟨⟨_, .inr ⟨rfl, rfl⟩⟩, nm', ?_⟩
        have := hx.add h4
        simpa only [true_and] using this
      · next hne =>
        obtain ⟨⟨v, hv⟩, nm1, k1⟩ := h.some k x hk
        refine ⟨⟨v, .inl hv⟩, nm1, ?_⟩
        have : (fun v => G k v ∨ (k = c.sect ∧ v = pairsOf s es)) = G k := by
          funext v; simp [hne]
        rw [this]
        exact k1.mono h3

end

end Verif.Sep
