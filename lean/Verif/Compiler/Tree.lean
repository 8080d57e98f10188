import Verif.Compiler.Model
import Verif.Transducer.Props
import Verif.Labels.Props

/-!
# How a transducer grows while entries are put into it

States of a section or paradigm under construction are of two kinds: cursors, which entries may pass through or stop at, and the
insides of copied paradigms. What leads to a cursor never changes once it exists.
-/

namespace Verif.Compiler

open Verif.Fst Verif.Alphabet

set_option linter.unusedSectionVars false

variable {W : Type}

/-- The pair of symbols of a label. -/
def dec (A : Alphabet) (c : Int) : Pair :=
  match A.decode c with
  | .ok p => p
  | _ => (0, 0)

theorem dec_eq {A : Alphabet} {c : Int} {p : Pair} (h : HasPair A c p) : dec A c = p := by
  unfold dec; rw [decode_iff.2 h]

/-- What a path reads on its left and on its right side. -/
def lft (A : Alphabet) (ls : List (Int × W)) : List Int := (ls.map fun l => (dec A l.1).1).filter (· ≠ 0)
def rgt (A : Alphabet) (ls : List (Int × W)) : List Int := (ls.map fun l => (dec A l.1).2).filter (· ≠ 0)

@[simp] theorem lft_append (A : Alphabet) (xs ys : List (Int × W)) : lft A (xs ++ ys) = lft A xs ++ lft A ys := by simp [lft]
@[simp] theorem rgt_append (A : Alphabet) (xs ys : List (Int × W)) : rgt A (xs ++ ys) = rgt A xs ++ rgt A ys := by simp [rgt]
@[simp] theorem lft_nil (A : Alphabet) : lft A ([] : List (Int × W)) = [] := rfl
@[simp] theorem rgt_nil (A : Alphabet) : rgt A ([] : List (Int × W)) = [] := rfl

theorem lft_cons (A : Alphabet) (l : Int × W) (ls : List (Int × W)) : lft A (l :: ls) = lft A [l] ++ lft A ls := by
  rw [← lft_append]; rfl
theorem rgt_cons (A : Alphabet) (l : Int × W) (ls : List (Int × W)) : rgt A (l :: ls) = rgt A [l] ++ rgt A ls := by
  rw [← rgt_append]; rfl

/-- Some accepting path from `q` has these labels. -/
def Acc (t : Transducer W) (q : Nat) (ls : List (Int × W)) : Prop := ∃ p fw, Path (Edge t) q ls p ∧ Final t p fw

/-- `t'` has all arcs of `t`; all new arcs lead to new states and come from `q` or from new states. -/
structure Grow (q : Nat) (t t' : Transducer W) : Prop where
  wf : WF t'
  init : t'.initial = t.initial
  finals : t'.finals = t.finals
  size : Fst.size t ≤ Fst.size t'
  old : ∀ p l r, Edge t p l r → Edge t' p l r
  new : ∀ p l r, Edge t' p l r → Edge t p l r ∨ (Fst.size t ≤ r ∧ (p = q ∨ Fst.size t ≤ p))

theorem Grow.refl {q : Nat} {t : Transducer W} (h : WF t) : Grow q t t :=
  ⟨h, rfl, rfl, Nat.le_refl _, fun _ _ _ h => h, fun _ _ _ h => .inl h⟩

theorem Grow.trans {q s : Nat} {t t' t'' : Transducer W} (h : Grow q t t') (h' : Grow s t' t'') (hs : Fst.size t ≤ s ∨ s = q) :
    Grow q t t'' := by
  refine ⟨h'.wf, h'.init.trans h.init, h'.finals.trans h.finals, Nat.le_trans h.size h'.size,
    fun p l r he => h'.old _ _ _ (h.old _ _ _ he), fun p l r he => ?_⟩
  rcases h'.new p l r he with he | ⟨h1, h2⟩
  · exact h.new p l r he
  · have := h.size
    refine .inr ⟨by omega, ?_⟩
    rcases h2 with rfl | h2
    · rcases hs with hs | rfl
      · exact .inr hs
      · exact .inl rfl
    · exact .inr (by omega)

/-- A path to an old state is an old path. -/
theorem Grow.path {q : Nat} {t t' : Transducer W} (h : Grow q t t') (ht : WF t) {p r : Nat} {ls : List (Int × W)} (hr : r < Fst.size t) :
    Path (Edge t') p ls r ↔ Path (Edge t) p ls r := by
  constructor
  · intro hp
    have : Path (Edge t) p ls r ∧ p < Fst.size t := by
      induction hp with
      | nil => exact ⟨.nil _, hr⟩
      | cons he _ ih =>
        obtain ⟨h1, h2⟩ := ih hr
        rcases h.new _ _ _ he with he | ⟨h3, -⟩
        · exact ⟨.cons he h1, ht.source_lt he⟩
        · omega
    exact this.1
  · exact fun hp => hp.mono h.old

/-- A path from an old state that cannot reach `q` is an old path. -/
theorem Grow.path_from {q : Nat} {t t' : Transducer W} (h : Grow q t t') (ht : WF t) {p r : Nat} {ls : List (Int × W)} (hp : p < Fst.size t)
    (hq : ∀ ls, ¬ Path (Edge t) p ls q) (h' : Path (Edge t') p ls r) : Path (Edge t) p ls r := by
  induction h' with
  | nil => exact .nil _
  | @cons p r p' l ls he _ ih =>
    rcases h.new _ _ _ he with he | ⟨-, rfl | h3⟩
    · exact .cons he (ih (ht.target_lt _ _ _ he) fun ls hl => hq _ (.cons he hl))
    · exact absurd (.nil _) (hq [])
    · omega

theorem Grow.acc {q : Nat} {t t' : Transducer W} (h : Grow q t t') (ht : WF t) (p : Nat) (ls : List (Int × W)) :
    Acc t' p ls ↔ Acc t p ls := by
  constructor
  · rintro ⟨r, fw, h1, h2⟩
    have h2' : Final t r fw := by unfold Final at h2 ⊢; rwa [h.finals] at h2
    exact ⟨r, fw, (h.path ht (ht.finals_lt _ _ h2')).1 h1, h2'⟩
  · rintro ⟨r, fw, h1, h2⟩
    exact ⟨r, fw, h1.mono h.old, by unfold Final at h2 ⊢; rwa [h.finals]⟩

/-- What stays true of the cursors `C`, of the labels `D` that may be followed from them, and of the states that do not reach a
cursor. -/
structure Keeps (t : Transducer W) (C : Nat → Prop) (D : Nat → Int → Prop) (t' : Transducer W) (C' : Nat → Prop) (D' : Nat → Int → Prop) :
    Prop where
  init : t'.initial = t.initial
  size : Fst.size t ≤ Fst.size t'
  sub : ∀ q, C q → C' q
  dsub : ∀ q c, D q c → D' q c
  inn : ∀ q, C q → ∀ ls, Path (Edge t') t.initial ls q ↔ Path (Edge t) t.initial ls q
  out : ∀ s < Fst.size t, (∀ q, C q → ∀ ls, ¬ Path (Edge t) s ls q) →
    (∀ q, C' q → ∀ ls, ¬ Path (Edge t') s ls q) ∧ ∀ ls, Acc t' s ls ↔ Acc t s ls

theorem Keeps.refl (t : Transducer W) (C : Nat → Prop) (D : Nat → Int → Prop) : Keeps t C D t C D :=
  ⟨rfl, Nat.le_refl _, fun _ h => h, fun _ _ h => h, fun _ _ _ => Iff.rfl, fun _ _ h => ⟨h, fun _ => Iff.rfl⟩⟩

theorem Keeps.trans {t t' t'' : Transducer W} {C C' C'' : Nat → Prop} {D D' D'' : Nat → Int → Prop} (h : Keeps t C D t' C' D')
    (h' : Keeps t' C' D' t'' C'' D'') : Keeps t C D t'' C'' D'' := by
  refine ⟨h'.init.trans h.init, Nat.le_trans h.size h'.size, fun q hq => h'.sub q (h.sub q hq), fun q c hq => h'.dsub q c (h.dsub q c hq), ?_, ?_⟩
  · intro q hq ls
    rw [← h.inn q hq ls, ← h.init]
    exact h'.inn q (h.sub q hq) ls
  · intro s hs hr
    obtain ⟨h1, h2⟩ := h.out s hs hr
    obtain ⟨h3, h4⟩ := h'.out s (Nat.lt_of_lt_of_le hs h.size) h1
    exact ⟨h3, fun ls => (h4 ls).trans (h2 ls)⟩

theorem Grow.keeps {q : Nat} {t t' : Transducer W} (h : Grow q t t') (ht : WF t) {C C' : Nat → Prop} {D D' : Nat → Int → Prop} (hq : C q)
    (hlt : ∀ p, C p → p < Fst.size t) (hsub : ∀ p, C p → C' p) (hnew : ∀ p, C' p → C p ∨ Fst.size t ≤ p) (hd : ∀ p c, D p c → D' p c) :
    Keeps t C D t' C' D' := by
  refine ⟨h.init, h.size, hsub, hd, fun p hp ls => h.path ht (hlt p hp), fun s hs hr => ⟨fun p hp ls hpath => ?_, h.acc ht s⟩⟩
  have := h.path_from ht hs (hr q hq) hpath
  rcases hnew p hp with hp | hp
  · exact hr p hp _ this
  · have := ht.path_lt this hs
    omega

section
variable [Zero W]

/-- A transducer under construction, with cursors `C`. `D q c` says that the arcs with label `c` from the cursor `q` were put there as
parts of entries. `K` are the known labels. The paths to each cursor have only boundedly many of the labels that `B` counts. -/
structure Tree (B : (Int × W → Bool) → Prop) (K : Int → Prop) (t : Transducer W) (C : Nat → Prop) (D : Nat → Int → Prop) : Prop where
  wf : WF t
  zero : ZeroFinals t
  known : ∀ q l p, Edge t q l p → K l.1
  cinit : C t.initial
  dinit : ∀ c, c ≠ 0 → D t.initial c
  start : ∀ ls, Path (Edge t) t.initial ls t.initial → ls = []
  lt : ∀ q, C q → q < size t
  dc : ∀ q c, D q c → C q ∧ c ≠ 0
  step : ∀ q l p, D q l.1 → Edge t q l p → C p ∧ (∀ c, c ≠ 0 → D p c) ∧
    ∀ ls, Path (Edge t) t.initial ls p → ∃ ls', ls = ls' ++ [l] ∧ Path (Edge t) t.initial ls' q
  len : ∀ q c, D q c → (equalRange c (row t q)).length ≤ 1
  reach : ∀ q, C q → ∃ ls, Path (Edge t) t.initial ls q
  bdd : ∀ m, B m → ∀ q, C q → ∃ n, ∀ ls, Path (Edge t) t.initial ls q → ls.countP m ≤ n

theorem path_snoc {S L : Type} {E : S → L → S → Prop} {q p : S} {ls : List L} {l : L} (h : Path E q (ls ++ [l]) p) :
    ∃ r, Path E q ls r ∧ E r l p := by
  obtain ⟨r, h1, h2⟩ := h.split
  obtain ⟨r', h3, h4⟩ := path_cons_iff.1 h2
  rw [path_nil_iff.1 h4]
  exact ⟨r, h1, h3⟩

/-- A path that ends in a state with only one arc into it. -/
theorem path_into {E : Nat → Int × W → Nat → Prop} {q s : Nat} {l : Int × W} {i : Nat} (hi : i ≠ s)
    (hE : ∀ p l' , E p l' s → p = q ∧ l' = l) {ls : List (Int × W)} (h : Path E i ls s) : ∃ ls', ls = ls' ++ [l] ∧ Path E i ls' q := by
  rcases List.eq_nil_or_concat ls with rfl | ⟨ls', l', rfl⟩
  · exact absurd (path_nil_iff.1 h).symm hi
  · rw [List.concat_eq_append] at h ⊢
    obtain ⟨r, h1, h2⟩ := path_snoc h
    obtain ⟨rfl, rfl⟩ := hE _ _ h2
    exact ⟨ls', rfl, h1⟩

/-- Adding a new state behind `q`. -/
theorem grow_newArc {t : Transducer W} (h : WF t) {q : Nat} (hq : q < size t) (c : Int) (w : W) :
    insertNewSingleTransduction c q w t = (size t, (insertNewSingleTransduction c q w t).2) ∧
    Grow q t (insertNewSingleTransduction c q w t).2 ∧ size (insertNewSingleTransduction c q w t).2 = size t + 1 ∧
    ∀ p l r, Edge (insertNewSingleTransduction c q w t).2 p l r ↔ Edge t p l r ∨ (p = q ∧ l = (c, w) ∧ r = size t) := by
  have hs := newState_size h
  have hwf := newState_wf h
  have hE : ∀ p l r, Edge (insertNewSingleTransduction c q w t).2 p l r ↔ Edge t p l r ∨ (p = q ∧ l = (c, w) ∧ r = size t) := by
    intro p l r
    unfold insertNewSingleTransduction
    rw [addArc_edge hwf, newState_edge h, newState_fst h]
  have hz : size (insertNewSingleTransduction c q w t).2 = size t + 1 := by
    unfold insertNewSingleTransduction
    rw [addArc_size hwf (by omega), hs]
  refine ⟨?_, ⟨?_, rfl, rfl, by omega, fun p l r he => (hE p l r).2 (.inl he), fun p l r he => ?_⟩, hz, hE⟩
  · unfold insertNewSingleTransduction
    simp only [newState_fst h]
  · unfold insertNewSingleTransduction
    exact addArc_wf hwf (by omega) c (by rw [newState_fst h]; omega) w
  · rcases (hE p l r).1 he with he | ⟨rfl, -, rfl⟩
    · exact .inl he
    · exact .inr ⟨Nat.le_refl _, .inl rfl⟩

/-- Cursors and their labels with one more cursor. -/
def addC (C : Nat → Prop) (e : Nat) : Nat → Prop := fun p => C p ∨ p = e
def addD (D : Nat → Int → Prop) (e : Nat) (Dn : Int → Prop) : Nat → Int → Prop := fun p c => D p c ∨ (p = e ∧ Dn c ∧ c ≠ 0)

variable {B : (Int × W → Bool) → Prop} {K : Int → Prop} {t : Transducer W} {C : Nat → Prop} {D : Nat → Int → Prop}

/-- Putting a new state behind a cursor, with a label that the cursor does not have yet or that is not followed. -/
theorem Tree.newArc (h : Tree B K t C D) {q : Nat} (hq : C q) (c : Int) (w : W) (hk : K c)
    (hc : c ≠ 0 → equalRange c (row t q) = []) :
    let t' := (insertNewSingleTransduction c q w t).2
    Grow q t t' ∧ Tree B K t' (addC C (size t)) (addD D (size t) fun _ => True) ∧
      (∀ ls, Path (Edge t') t.initial ls (size t) ↔ ∃ ls', ls = ls' ++ [(c, w)] ∧ Path (Edge t) t.initial ls' q) ∧
      ∀ l p, ¬ Edge t' (size t) l p := by
  intro t'
  have hqlt := h.lt q hq
  obtain ⟨-, hg, hz, hE⟩ := grow_newArc h.wf hqlt c w
  have hz' : size t' = size t + 1 := hz
  have hil := h.wf.initial_lt
  have hno : ∀ l p, ¬ Edge t' (size t) l p := by
    intro l p he
    rcases (hE _ _ _).1 he with he | ⟨h1, -⟩
    · exact no_edge_out h.wf (Nat.le_refl _) _ _ he
    · omega
  have hin : ∀ ls, Path (Edge t') t.initial ls (size t) ↔ ∃ ls', ls = ls' ++ [(c, w)] ∧ Path (Edge t) t.initial ls' q := by
    intro ls
    constructor
    · intro hp
      obtain ⟨ls', rfl, h1⟩ := path_into (q := q) (l := (c, w)) (by omega) (fun p l' he => by
        rcases (hE _ _ _).1 he with he | ⟨rfl, rfl, -⟩
        · exact absurd he (no_edge_in h.wf (Nat.le_refl _) _ _)
        · exact ⟨rfl, rfl⟩) hp
      exact ⟨ls', rfl, (hg.path h.wf hqlt).1 h1⟩
    · rintro ⟨ls', rfl, h1⟩
      exact (h1.mono hg.old).append (.single ((hE _ _ _).2 (.inr ⟨rfl, rfl, rfl⟩)))
  have hrow : ∀ p, p ≠ q → row t' p = row t p := by
    intro p hp
    show row (insertNewSingleTransduction c q w t).2 p = _
    unfold insertNewSingleTransduction
    rw [addArc_row (newState_wf h.wf), if_neg hp, newState_row h.wf]
  have hrowq : row t' q = mmInsert c (size t, w) (row t q) := by
    show row (insertNewSingleTransduction c q w t).2 q = _
    unfold insertNewSingleTransduction
    rw [addArc_row (newState_wf h.wf), if_pos rfl, newState_row h.wf, newState_fst h.wf]
  refine ⟨hg, ⟨hg.wf, ?_, ?_, ?_, ?_, ?_, ?_, ?_, ?_, ?_, ?_, ?_⟩, hin, hno⟩
  · intro p x hf
    exact h.zero p x (by unfold Final at hf ⊢; rwa [hg.finals] at hf)
  · intro p l r he
    rcases (hE _ _ _).1 he with he | ⟨-, rfl, -⟩
    · exact h.known _ _ _ he
    · exact hk
  · rw [hg.init]; exact .inl h.cinit
  · intro x hx; rw [hg.init]; exact .inl (h.dinit x hx)
  · intro ls hp
    rw [hg.init] at hp
    exact h.start ls ((hg.path h.wf hil).1 hp)
  · rintro p (hp | rfl)
    · have := h.lt p hp
      omega
    · omega
  · rintro p x (hp | ⟨rfl, -, hx⟩)
    · exact ⟨.inl (h.dc p x hp).1, (h.dc p x hp).2⟩
    · exact ⟨.inr rfl, hx⟩
  · rintro p l r (hp | ⟨rfl, -, hx⟩) he
    · have hcp := (h.dc _ _ hp).1
      have hl0 := (h.dc _ _ hp).2
      rcases (hE _ _ _).1 he with he | ⟨rfl, rfl, rfl⟩
      · obtain ⟨h1, h2, h3⟩ := h.step p l r hp he
        refine ⟨.inl h1, fun x hx => .inl (h2 x hx), fun ls hpath => ?_⟩
        rw [hg.init] at hpath ⊢
        obtain ⟨ls', rfl, h4⟩ := h3 ls ((hg.path h.wf (h.lt r h1)).1 hpath)
        exact ⟨ls', rfl, h4.mono hg.old⟩
      · refine ⟨.inr rfl, fun x hx => .inr ⟨rfl, trivial, hx⟩, fun ls hpath => ?_⟩
        rw [hg.init] at hpath ⊢
        obtain ⟨ls', rfl, h4⟩ := (hin ls).1 hpath
        exact ⟨ls', rfl, h4.mono hg.old⟩
    · exact absurd he (hno _ _)
  · rintro p x (hp | ⟨rfl, -, hx⟩)
    · by_cases hpq : p = q
      · subst hpq
        rw [hrowq, equalRange_mmInsert]
        split
        · next hxc =>
          have h0 := (h.dc _ _ hp).2
          have : equalRange x (row t p) = [] := by subst hxc; exact hc h0
          rw [this]; simp
        · exact h.len p x hp
      · rw [hrow p hpq]; exact h.len p x hp
    · have : row t' (size t) = [] := by
        rcases hr : row t' (size t) with _ | ⟨⟨y, r, v⟩, _⟩
        · rfl
        · exact absurd (show Edge t' (size t) (y, v) r by unfold Edge; rw [hr]; simp) (hno _ _)
      rw [this]; simp [equalRange]
  · rintro p (hp | rfl)
    · obtain ⟨ls, hls⟩ := h.reach p hp
      rw [hg.init]
      exact ⟨ls, hls.mono hg.old⟩
    · obtain ⟨ls, hls⟩ := h.reach q hq
      rw [hg.init]
      exact ⟨ls ++ [(c, w)], (hin _).2 ⟨ls, rfl, hls⟩⟩
  · rintro m hB p (hp | rfl)
    · obtain ⟨n, hn⟩ := h.bdd m hB p hp
      refine ⟨n, fun ls hls => hn ls ?_⟩
      rw [hg.init] at hls
      exact (hg.path h.wf (h.lt p hp)).1 hls
    · obtain ⟨n, hn⟩ := h.bdd m hB q hq
      refine ⟨n + 1, fun ls hls => ?_⟩
      rw [hg.init] at hls
      obtain ⟨ls', rfl, h4⟩ := (hin ls).1 hls
      have := hn ls' h4
      have h6 : [(c, w)].countP m ≤ 1 := List.countP_le_length (p := m) (l := [(c, w)])
      rw [List.countP_append]
      omega

/-- What an operation that moves on from a cursor does: nothing else changes, the new cursor is `e` and is reached by the paths to `q`
continued with one of `X`; the labels in `Dn` may be followed from it. -/
structure Moves (B : (Int × W → Bool) → Prop) (K : Int → Prop) (t : Transducer W) (C : Nat → Prop) (D : Nat → Int → Prop) (q : Nat)
    (X : List (Int × W) → Prop) (Dn : Int → Prop) (t' : Transducer W) (C' : Nat → Prop) (D' : Nat → Int → Prop) (e : Nat) : Prop where
  keeps : Keeps t C D t' C' D'
  tree : Tree B K t' C' D'
  acc : ∀ ls, Acc t' t.initial ls ↔ Acc t t.initial ls
  cur : C' e
  dn : ∀ c, Dn c → c ≠ 0 → D' e c
  inn : ∀ ls, Path (Edge t') t.initial ls e ↔ ∃ xs ys, ls = xs ++ ys ∧ Path (Edge t) t.initial xs q ∧ X ys
  finals : t'.finals = t.finals

/-- Following a label from a cursor. -/
theorem Tree.single (h : Tree B K t C D) {q : Nat} {c : Int} (hq : D q c) (hk : K c) (w : W) :
    ∃ e t' C' D' v, insertSingleTransduction c q w t = (some e, t') ∧ Moves B K t C D q (· = [(c, v)]) (fun _ => True) t' C' D' e ∧
      (v = w ∨ ∃ p, Edge t q (c, v) p) := by
  obtain ⟨hC, hc0⟩ := h.dc q c hq
  have hlt := h.lt q hC
  have hx : exists_ t q = true := (exists_iff h.wf q).2 hlt
  have hlen := h.len q c hq
  rcases hr : equalRange c (row t q) with _ | ⟨⟨p, v⟩, _ | ⟨b, rest⟩⟩
  · obtain ⟨h1, h2, h3, h4⟩ := h.newArc hC c w hk fun _ => hr
    have h5 := (grow_newArc h.wf hlt c w).1
    refine ⟨size t, _, _, _, w, ?_, ⟨?_, h2, ?_, .inr rfl, fun x _ hx => .inr ⟨rfl, trivial, hx⟩, fun ls => ?_, h1.finals⟩, .inl rfl⟩
    · unfold insertSingleTransduction
      rw [if_pos hx, hr]
      unfold insertNewSingleTransduction at h5
      simp only [newState_fst h.wf] at h5 ⊢
      simp only [insertNewSingleTransduction, newState_fst h.wf]
    · exact h1.keeps h.wf hC h.lt (fun p hp => .inl hp) (fun p hp => hp.imp id fun h => by omega) (fun p c hp => .inl hp)
    · exact h1.acc h.wf _
    · rw [h3]
      constructor
      · rintro ⟨ls', rfl, h6⟩; exact ⟨ls', _, rfl, h6, rfl⟩
      · rintro ⟨ls', _, rfl, h6, rfl⟩; exact ⟨ls', rfl, h6⟩
  · have he : Edge t q (c, v) p := by
      have : (p, v) ∈ equalRange c (row t q) := by rw [hr]; simp
      exact (mem_equalRange c _ p v).1 this
    obtain ⟨h1, h2, h3⟩ := h.step q (c, v) p hq he
    refine ⟨p, t, C, D, v, ?_, ⟨.refl _ _ _, h, fun _ => Iff.rfl, h1, fun x _ hx => h2 x hx, fun ls => ?_, rfl⟩, .inr ⟨p, he⟩⟩
    · unfold insertSingleTransduction
      rw [if_pos hx, hr]
    · constructor
      · intro hp
        obtain ⟨ls', rfl, h4⟩ := h3 ls hp
        exact ⟨ls', _, rfl, h4, rfl⟩
      · rintro ⟨ls', _, rfl, h4, rfl⟩
        exact h4.append (.single he)
  · rw [hr] at hlen
    simp at hlen

theorem newStates_row (ks : List Nat) (rel : List (Nat × Nat)) (t : Transducer W) (h : WF t) (p : Nat) :
    WF (newStates ks rel t).2 ∧ row (newStates ks rel t).2 p = row t p := by
  induction ks generalizing rel t with
  | nil => exact ⟨h, rfl⟩
  | cons k ks ih =>
    rw [newStates]
    obtain ⟨h1, h2⟩ := ih (mapSet k (newState t).1 rel) (newState t).2 (newState_wf h)
    exact ⟨h1, by rw [h2, newState_row h]⟩

theorem copyArcs_row (rel : List (Nat × Nat)) (p : Nat) (arcs : List (Nat × Int × Nat × W)) (t : Transducer W) (h : WF t)
    (hs : ∀ a ∈ arcs, relGet rel a.1 < size t ∧ relGet rel a.2.2.1 < size t) (hp : ∀ a ∈ arcs, relGet rel a.1 ≠ p) :
    row (copyArcs rel arcs t) p = row t p := by
  induction arcs generalizing t with
  | nil => rfl
  | cons a arcs ih =>
    obtain ⟨h1, h2⟩ := hs a (by simp)
    have := ih (addArc (relGet rel a.1) a.2.1 (relGet rel a.2.2.1) a.2.2.2 t) (addArc_wf h h1 _ h2 _)
      (fun x hx => by rw [addArc_size h h1]; exact hs x (List.mem_cons_of_mem _ hx)) (fun x hx => hp x (List.mem_cons_of_mem _ hx))
    rw [copyArcs, List.foldl_cons]
    rw [copyArcs] at this
    rw [this, addArc_row h, if_neg (Ne.symm (hp a (by simp)))]

/-- The rows of the old states after `insertTransducer`. -/
theorem insertTransducer_row {t o t' o' : Transducer W} (h : WF t) (ho : WF o) {s f r : Nat} {fw : W} (hs : s < size t)
    (hf : o.finals = [(f, fw)]) (hi : insertTransducer s o 0 t = .ok (r, t', o')) {p : Nat} (hp : p < size t) :
    row t' p = if p = s then mmInsert 0 (size t + o.initial, 0) (row t s) else row t p := by
  have hj := joinFinals_single (0 : Int) hf
  have hk : o.transitions.map (·.1) = List.range' 0 (size o) := by rw [ho.keys, List.range_eq_range']
  obtain ⟨n1, n2, n3, -, -, -⟩ := newStates_spec (size o) 0 (size t) [] t h (by simp) (by simp)
  rw [← hk] at n1 n2 n3
  have nrow := fun p => (newStates_row (o.transitions.map (·.1)) [] t h p).2
  unfold insertTransducer at hi
  rw [transitions_ne_nil ho, hj] at hi
  simp only [Bool.false_eq_true, if_false, Res.bind_ok] at hi
  generalize hns : newStates (o.transitions.map (·.1)) [] t = ns at n1 n2 n3 hi nrow
  obtain ⟨rel, t1⟩ := ns
  simp only [List.nil_append] at n1
  simp only [ho.keys] at n1
  have hrel : ∀ k < size o, relGet rel k = size t + k := fun k hk' => by rw [n1]; exact relGet_range _ _ _ hk'
  simp only at n2 n3 nrow hi
  have ha : ∀ a ∈ arcsOf o.transitions, relGet rel a.1 < size t1 ∧ relGet rel a.2.2.1 < size t1 := by
    rintro ⟨q, a, p, w⟩ hx
    rw [mem_arcsOf ho] at hx
    have h1 := ho.source_lt hx
    have h2 := ho.target_lt _ _ _ hx
    simp only [hrel q h1, hrel p h2]
    omega
  obtain ⟨c1, c2, -, -, -⟩ := copyArcs_spec rel (arcsOf o.transitions) t1 n2 ha
  have crow : ∀ p < size t, row (copyArcs rel (arcsOf o.transitions) t1) p = row t p := by
    intro p hp
    rw [copyArcs_row rel p _ _ n2 ha, nrow]
    rintro ⟨q, a, p', w⟩ hx
    rw [mem_arcsOf ho] at hx
    have h1 := ho.source_lt hx
    simp only [hrel q h1]
    omega
  rw [hf] at hi
  simp only at hi
  injection hi with hi
  injection hi with _ hi
  injection hi with hi _
  rw [← hi, addArc_row c1, crow s hs, crow p hp, hrel _ ho.initial_lt]

/-- A finished transducer that can be copied: one final state; `X` are the paths to it, the labels in `Dn` do not leave it. -/
structure Part (B : (Int × W → Bool) → Prop) (K : Int → Prop) (o : Transducer W) (X : List (Int × W) → Prop) (Dn : Int → Prop) : Prop where
  wf : WF o
  known : ∀ q l p, Edge o q l p → K l.1
  ex : ∃ f fw, o.finals = [(f, fw)] ∧ (∀ c, Dn c → c ≠ 0 → ∀ w p, ¬ Edge o f (c, w) p) ∧ ∀ ls, X ls ↔ Path (Edge o) o.initial ls f
  some : ∃ ls, X ls
  bdd : ∀ m, B m → ∃ n, ∀ ls, X ls → ls.countP m ≤ n

/-- Copying a finished transducer behind a cursor. -/
theorem Tree.copy (h : Tree B K t C D) {q : Nat} (hq : C q) (hk0 : K 0) {o : Transducer W} {X : List (Int × W) → Prop} {Dn : Int → Prop}
    (ho : Part B K o X Dn) :
    ∃ e t' C' D', insertTransducer q o 0 t = .ok (e, t', o) ∧ Grow q t t' ∧ size t ≤ e ∧ e < size t' ∧ C' = addC C e ∧
      Moves B K t C D q (fun ys => ∃ zs, ys = (0, 0) :: zs ∧ X zs) Dn t' C' D' e ∧
      (∀ s < size t, ∀ ls, Path (Edge t') s ls e ↔ ∃ xs ys, ls = xs ++ (0, 0) :: ys ∧ Path (Edge t) s xs q ∧ X ys) ∧
      ∀ p l r, p < size t → Edge t' p l r → Edge t p l r ∨ l.1 = 0 := by
  obtain ⟨f, fw, hf, hout, hX⟩ := ho.ex
  have hlt := h.lt q hq
  have hil := h.wf.initial_lt
  obtain ⟨t', h1, h2, h3, h4, h5, hE⟩ := insertTransducer_spec h.wf ho.wf ho.wf 0 hlt (joinFinals_single 0 hf) hf
  obtain ⟨p1, p2⟩ := insert_path h.wf hlt hE
  have hrow := fun p hp => insertTransducer_row h.wf ho.wf hlt hf h1 (p := p) hp
  have hflt : f < size o := ho.wf.finals_lt f fw (by simp [Final, hf])
  have hg : Grow q t t' := by
    refine ⟨h2, h4, h5, by omega, fun p l r he => (hE _ _ _).2 (.inl he), fun p l r he => ?_⟩
    rcases (hE _ _ _).1 he with he | ⟨q0, p0, -, rfl, rfl⟩ | ⟨rfl, -, rfl⟩
    · exact .inl he
    · exact .inr ⟨by omega, .inr (by omega)⟩
    · exact .inr ⟨by omega, .inl rfl⟩
  have hin' : ∀ s < size t, ∀ ls, Path (Edge t') s ls (size t + f) ↔ ∃ xs ys, ls = xs ++ (0, 0) :: ys ∧ Path (Edge t) s xs q ∧ X ys := by
    intro s hs ls
    rw [p2 _ _ _ hs]
    constructor
    · rintro (⟨h6, -⟩ | ⟨xs, ys, p0, h6, h7, h8, h9⟩)
      · omega
      · obtain rfl : f = p0 := by omega
        exact ⟨xs, ys, h9, h7, (hX ys).2 h8⟩
    · rintro ⟨xs, ys, h9, h7, h8⟩
      exact .inr ⟨xs, ys, f, rfl, h7, (hX ys).1 h8, h9⟩
  have hin := hin' t.initial hil
  have hnoE : ∀ c, Dn c → c ≠ 0 → ∀ w p, ¬ Edge t' (size t + f) (c, w) p := by
    intro c hc hc0 w p he
    rcases (hE _ _ _).1 he with he | ⟨q0, p0, he, h6, -⟩ | ⟨h6, -⟩
    · exact no_edge_out h.wf (by omega) _ _ he
    · obtain rfl : f = q0 := by omega
      exact hout c hc hc0 w p0 he
    · omega
  refine ⟨size t + f, t', addC C (size t + f), addD D (size t + f) Dn, h1, hg, by omega, by omega, rfl, ⟨?_, ?_, ?_, .inr rfl,
    fun c hc hc0 => .inr ⟨rfl, hc, hc0⟩, ?_, h5⟩, hin', ?_⟩
  · exact hg.keeps h.wf hq h.lt (fun p hp => .inl hp) (fun p hp => hp.imp id fun h => by omega) (fun p c hp => .inl hp)
  · refine ⟨h2, ?_, ?_, ?_, ?_, ?_, ?_, ?_, ?_, ?_, ?_, ?_⟩
    · intro p x hx
      exact h.zero p x (by unfold Final at hx ⊢; rwa [h5] at hx)
    · intro p l r he
      rcases (hE _ _ _).1 he with he | ⟨q0, p0, he, -⟩ | ⟨-, rfl, -⟩
      · exact h.known _ _ _ he
      · exact ho.known _ _ _ he
      · exact hk0
    · rw [h4]; exact .inl h.cinit
    · intro x hx; rw [h4]; exact .inl (h.dinit x hx)
    · intro ls hp
      rw [h4] at hp
      exact h.start ls ((hg.path h.wf hil).1 hp)
    · rintro p (hp | rfl)
      · have := h.lt p hp
        omega
      · omega
    · rintro p x (hp | ⟨rfl, -, hx⟩)
      · exact ⟨.inl (h.dc p x hp).1, (h.dc p x hp).2⟩
      · exact ⟨.inr rfl, hx⟩
    · rintro p l r (hp | ⟨rfl, hd, hx⟩) he
      · have hcp := (h.dc _ _ hp).1
        have hl0 := (h.dc _ _ hp).2
        have hplt := h.lt p hcp
        rcases (hE _ _ _).1 he with he | ⟨q0, p0, he, h6, -⟩ | ⟨-, rfl, -⟩
        · obtain ⟨h1, h2, h3⟩ := h.step p l r hp he
          refine ⟨.inl h1, fun x hx => .inl (h2 x hx), fun ls hpath => ?_⟩
          rw [h4] at hpath ⊢
          obtain ⟨ls', rfl, h4⟩ := h3 ls ((hg.path h.wf (h.lt r h1)).1 hpath)
          exact ⟨ls', rfl, h4.mono hg.old⟩
        · omega
        · exact absurd rfl hl0
      · exact absurd he (hnoE _ hd hx _ _)
    · rintro p x (hp | ⟨rfl, hd, hx⟩)
      · have hcp := (h.dc _ _ hp).1
        have hl0 := (h.dc _ _ hp).2
        rw [hrow p (h.lt p hcp)]
        split
        · next hpq =>
          subst hpq
          rw [equalRange_mmInsert, if_neg (Ne.symm hl0)]
          exact h.len p x hp
        · exact h.len p x hp
      · have : equalRange x (row t' (size t + f)) = [] := by
          rcases hr : equalRange x (row t' (size t + f)) with _ | ⟨⟨r, v⟩, rest⟩
          · rfl
          · exact absurd ((mem_equalRange x _ r v).1 (by rw [hr]; simp)) (hnoE x hd hx v r)
        rw [this]; simp
    · rintro p (hp | rfl)
      · obtain ⟨ls, hls⟩ := h.reach p hp
        rw [h4]
        exact ⟨ls, hls.mono hg.old⟩
      · obtain ⟨ls, hls⟩ := h.reach q hq
        obtain ⟨zs, hzs⟩ := ho.some
        rw [h4]
        exact ⟨ls ++ (0, 0) :: zs, (hin _).2 ⟨ls, zs, rfl, hls, hzs⟩⟩
    · rintro c hB p (hp | rfl)
      · obtain ⟨n, hn⟩ := h.bdd c hB p hp
        refine ⟨n, fun ls hls => hn ls ?_⟩
        rw [h4] at hls
        exact (hg.path h.wf (h.lt p hp)).1 hls
      · obtain ⟨n, hn⟩ := h.bdd c hB q hq
        obtain ⟨m, hm⟩ := ho.bdd c hB
        refine ⟨n + 1 + m, fun ls hls => ?_⟩
        rw [h4] at hls
        obtain ⟨xs, ys, rfl, h6, h7⟩ := (hin ls).1 hls
        have := hn xs h6
        have := hm ys h7
        have h8 := List.countP_le_length (p := c) (l := [((0 : Int), (0 : W))])
        rw [List.countP_append, List.countP_cons]
        split <;> omega
  · exact hg.acc h.wf _
  · intro ls
    rw [hin]
    constructor
    · rintro ⟨xs, ys, rfl, h6, h7⟩; exact ⟨xs, _, rfl, h6, ys, rfl, h7⟩
    · rintro ⟨xs, _, rfl, h6, ys, rfl, h7⟩; exact ⟨xs, ys, rfl, h6, h7⟩
  · intro p l r hp he
    rcases (hE _ _ _).1 he with he | ⟨q0, p0, -, h6, -⟩ | ⟨-, rfl, -⟩
    · exact .inl he
    · omega
    · exact .inr rfl

/-- One move after another. -/
theorem Moves.trans {t' t'' : Transducer W} {C' C'' : Nat → Prop} {D' D'' : Nat → Int → Prop} {q e e' : Nat}
    {X Y : List (Int × W) → Prop} {Dn Dm : Int → Prop} (h : Moves B K t C D q X Dn t' C' D' e) (h' : Moves B K t' C' D' e Y Dm t'' C'' D'' e') :
    Moves B K t C D q (fun zs => ∃ xs ys, zs = xs ++ ys ∧ X xs ∧ Y ys) Dm t'' C'' D'' e' := by
  refine ⟨h.keeps.trans h'.keeps, h'.tree, fun ls => ?_, h'.cur, h'.dn, fun ls => ?_, h'.finals.trans h.finals⟩
  · rw [← h.acc, ← h.keeps.init]; exact h'.acc ls
  · have := h'.inn ls
    rw [h.keeps.init] at this
    rw [this]
    constructor
    · rintro ⟨xs, ys, rfl, h1, h2⟩
      obtain ⟨us, vs, rfl, h3, h4⟩ := (h.inn xs).1 h1
      exact ⟨us, vs ++ ys, by simp, h3, vs, ys, rfl, h4, h2⟩
    · rintro ⟨us, _, rfl, h3, vs, ys, rfl, h4, h2⟩
      exact ⟨us ++ vs, ys, by simp, (h.inn _).2 ⟨us, vs, rfl, h3, h4⟩, h2⟩

/-- Staying. -/
theorem Tree.stay (h : Tree B K t C D) {q : Nat} (hq : C q) : Moves B K t C D q (· = []) (D q) t C D q :=
  ⟨.refl _ _ _, h, fun _ => Iff.rfl, hq, fun _ h _ => h, fun ls => by
    constructor
    · intro hp; exact ⟨ls, [], by simp, hp, rfl⟩
    · rintro ⟨xs, _, rfl, hp, rfl⟩; simpa using hp, rfl⟩

/-- The step that is taken for a pair without symbols. -/
theorem Tree.skip (h : Tree B K t C D) {q : Nat} (hq : C q) (hk : K 0) (w : W) :
    ∃ t' C' D', insertNewSingleTransduction 0 q w t = (size t, t') ∧ Grow q t t' ∧
      Moves B K t C D q (· = [(0, w)]) (fun _ => True) t' C' D' (size t) ∧ (∀ l p, ¬ Edge t' (size t) l p) := by
  obtain ⟨h1, h2, h3, h4⟩ := h.newArc hq 0 w hk fun h => absurd rfl h
  refine ⟨_, _, _, (grow_newArc h.wf (h.lt q hq) 0 w).1, h1, ⟨?_, h2, ?_, .inr rfl, fun x _ hx => .inr ⟨rfl, trivial, hx⟩, fun ls => ?_, h1.finals⟩, h4⟩
  · exact h1.keeps h.wf hq h.lt (fun p hp => .inl hp) (fun p hp => hp.imp id fun h => by omega) (fun p c hp => .inl hp)
  · exact h1.acc h.wf _
  · rw [h3]
    constructor
    · rintro ⟨ls', rfl, h6⟩; exact ⟨ls', _, rfl, h6, rfl⟩
    · rintro ⟨ls', _, rfl, h6, rfl⟩; exact ⟨ls', rfl, h6⟩

theorem setFinal_wf {t : Transducer W} (h : WF t) {q : Nat} (hq : q < size t) (w : W) : WF (setFinal q w true t) := by
  refine ⟨h.keys, h.rows, h.initial_lt, h.target_lt, sorted_mapInsert h.finals_sorted _ _, ?_⟩
  intro x v hx
  rcases (mem_mapInsert h.finals_sorted q w (x, v)).mp hx with ⟨hx, -⟩ | hx
  · cases hx; exact hq
  · exact h.finals_lt _ _ hx

theorem setFinal_final {t : Transducer W} (h : WF t) (q p : Nat) (w : W) :
    (∃ fw, Final (setFinal q w true t) p fw) ↔ p = q ∨ ∃ fw, Final t p fw := by
  constructor
  · rintro ⟨fw, hf⟩
    rcases (mem_mapInsert h.finals_sorted q w (p, fw)).mp hf with ⟨hx, -⟩ | hx
    · cases hx; exact .inl rfl
    · exact .inr ⟨fw, hx⟩
  · rintro (rfl | ⟨fw, hf⟩)
    · by_cases hm : p ∈ t.finals.map (·.1)
      · obtain ⟨⟨p', v⟩, hp, hq⟩ := List.mem_map.1 hm
        simp only at hq
        subst hq
        exact ⟨v, (mem_mapInsert h.finals_sorted _ w _).mpr (.inr hp)⟩
      · exact ⟨w, (mem_mapInsert h.finals_sorted _ w _).mpr (.inl ⟨rfl, hm⟩)⟩
    · exact ⟨fw, (mem_mapInsert h.finals_sorted _ w _).mpr (.inr hf)⟩

theorem setFinal_acc {t : Transducer W} (h : WF t) (q s : Nat) (w : W) (ls : List (Int × W)) :
    Acc (setFinal q w true t) s ls ↔ Acc t s ls ∨ Path (Edge t) s ls q := by
  constructor
  · rintro ⟨p, fw, h1, h2⟩
    rcases (setFinal_final h q p w).1 ⟨fw, h2⟩ with rfl | ⟨fw', h3⟩
    · exact .inr h1
    · exact .inl ⟨p, fw', h1, h3⟩
  · rintro (⟨p, fw, h1, h2⟩ | h1)
    · obtain ⟨fw', h3⟩ := (setFinal_final h q p w).2 (.inr ⟨fw, h2⟩)
      exact ⟨p, fw', h1, h3⟩
    · obtain ⟨fw', h3⟩ := (setFinal_final h q q w).2 (.inl rfl)
      exact ⟨q, fw', h1, h3⟩

theorem setFinal_zero {t : Transducer W} (h : WF t) (hz : ZeroFinals t) (q : Nat) : ZeroFinals (setFinal q 0 true t) := by
  intro p fw hf
  rcases (mem_mapInsert h.finals_sorted q 0 (p, fw)).mp hf with ⟨hx, -⟩ | hx
  · cases hx; rfl
  · exact hz p fw hx

/-- Making a state final does not change the tree. -/
theorem Tree.setFinal (h : Tree B K t C D) {q : Nat} (hq : q < size t) : Tree B K (setFinal q 0 true t) C D :=
  ⟨setFinal_wf h.wf hq 0, setFinal_zero h.wf h.zero q, h.known, h.cinit, h.dinit, h.start, h.lt, h.dc, h.step, h.len, h.reach, h.bdd⟩

end

end Verif.Compiler
