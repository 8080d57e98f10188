import Verif.Walk.Spec
import Verif.State.Props

/-! # Sets of states and paths -/

namespace Verif.Walk

open Verif.State
open Verif.Fst (Path path_cons_iff)

variable {W : Type} {g : Graph W} {root : Nat} {y : Way}

/-- The states are those of the paths that read `xs`, one for each. -/
def Sound (g : Graph W) (root : Nat) (y : Way) (xs : List Int) (st : List (Rec W)) : Prop :=
  (∃ L : List (List (Label W)), L.Nodup ∧ List.Forall₂ (fun ls r => Walk g root y xs ls r.seq r.dirty r.node) L st) ∧
    ∀ ls wr ch p, Walk g root y xs ls wr ch p → (⟨p, wr, ch⟩ : Rec W) ∈ st

theorem forall2_left {α β : Type} {R : α → β → Prop} {as : List α} {bs : List β} (h : List.Forall₂ R as bs) {b : β} (hb : b ∈ bs) : ∃ a ∈ as, R a b := by
  induction h with
  | nil => cases hb
  | cons h _ ih =>
    rcases List.mem_cons.1 hb with rfl | hb
    · exact ⟨_, by simp, h⟩
    · obtain ⟨a, ha, hr⟩ := ih hb
      exact ⟨a, by simp [ha], hr⟩

theorem forall2_get {α β : Type} {R : α → β → Prop} {as : List α} {bs : List β} (h : List.Forall₂ R as bs) {i : Nat} {b : β} (hb : bs[i]? = some b) :
    ∃ a, as[i]? = some a ∧ R a b := by
  induction h generalizing i with
  | nil => simp at hb
  | cons h _ ih =>
    cases i with
    | zero =>
      simp only [List.getElem?_cons_zero, Option.some.injEq] at hb
      subst hb
      exact ⟨_, rfl, h⟩
    | succ i => exact ih (by simpa using hb)

theorem written_snoc (ls : List (Label W)) {l : Label W} (h : l.1 = 0) : written (ls ++ [l]) = if l.2.2.1 = 0 then written ls else written ls ++ [l.2.2] := by
  by_cases h2 : l.2.2.1 = 0 <;> simp [written, h, h2]

theorem walk_eps {xs : List Int} {l1 : List (Label W)} {wr : List (Int × W)} {ch : Bool} {p : Nat} (h : Walk g root y xs l1 wr ch p) (ls : List (Label W)) :
    ∀ {p' : Nat}, EpsPath g p ls p' → Walk g root y xs (l1 ++ ls) (wr ++ written ls) ch p' := by
  induction ls using List.reverseRecOn with
  | nil =>
    rintro p' ⟨hp, -⟩
    cases hp
    simpa [written] using h
  | append_singleton ls l ih =>
    rintro p' ⟨hp, h0⟩
    obtain ⟨q, h1, h2⟩ := Fst.Path.split hp
    obtain ⟨q', h3, h4⟩ := path_cons_iff.1 h2
    cases h4
    have h5 := ih ⟨h1, fun l hl => h0 l (by simp [hl])⟩
    have h6 : l.1 = 0 := h0 l (by simp)
    have := Walk.empty h5 h6 h3
    rw [← List.append_assoc, written_snoc _ h6]
    split <;> rename_i h7
    · rw [if_pos h7] at this; exact this
    · rw [if_neg h7] at this; simpa using this

/-- The last arc reads something. -/
def Ripe (ls : List (Label W)) : Prop := ∀ l0 l, ls = l0 ++ [l] → l.1 ≠ 0

theorem walk_split {xs : List Int} {ls : List (Label W)} {wr : List (Int × W)} {ch : Bool} {p : Nat} (h : Walk g root y xs ls wr ch p) :
    ∃ l1 l2 wr1 q, ls = l1 ++ l2 ∧ Ripe l1 ∧ Walk g root y xs l1 wr1 ch q ∧ EpsPath g q l2 p ∧ wr = wr1 ++ written l2 := by
  induction h with
  | start => exact ⟨[], [], [], root, rfl, fun l0 l h => by simp at h, .start, ⟨.nil _, by simp⟩, rfl⟩
  | empty h h0 ha ih =>
    rename_i l p'
    obtain ⟨l1, l2, wr1, q, rfl, h1, h2, h3, rfl⟩ := ih
    refine ⟨l1, l2 ++ [l], wr1, q, by simp, h1, h2, ⟨h3.1.append (.cons ha (.nil _)), ?_⟩, ?_⟩
    · intro m hm
      rcases List.mem_append.1 hm with hm | hm
      · exact h3.2 m hm
      · rw [List.mem_singleton.1 hm]; exact h0
    · rw [written_snoc _ h0]
      split <;> simp
  | read h h0 hy ha ih =>
    rename_i l p' x
    refine ⟨_, [], _, _, (by rw [List.append_nil]), ?_, .read h h0 hy ha, ⟨.nil _, by simp⟩, by simp [written]⟩
    intro l0 m e
    have := (List.append_inj' e rfl).2
    simp only [List.cons.injEq, and_true] at this
    rw [← this]; exact h0

theorem append_eps_inj {a1 a2 b1 b2 : List (Label W)} (ha : Ripe a1) (hb : Ripe b1) (ha2 : ∀ l ∈ a2, l.1 = 0) (hb2 : ∀ l ∈ b2, l.1 = 0) (e : a1 ++ a2 = b1 ++ b2) :
    a1 = b1 ∧ a2 = b2 := by
  have key : ∀ {a1 a2 b1 b2 : List (Label W)}, Ripe b1 → (∀ l ∈ a2, l.1 = 0) → a1 ++ a2 = b1 ++ b2 → b1.length ≤ a1.length := by
    intro a1 a2 b1 b2 hb ha2 e
    by_contra hc
    have hne : b1 ≠ [] := by intro h; simp [h] at hc
    obtain ⟨l0, l, rfl⟩ : ∃ l0 l, b1 = l0 ++ [l] := ⟨b1.dropLast, b1.getLast hne, (List.dropLast_append_getLast hne).symm⟩
    have hl := hb l0 l rfl
    have h1 : (l0 ++ [l] ++ b2)[l0.length]? = some l := by simp
    rw [← e, List.getElem?_append_right (by simp at hc; omega)] at h1
    exact hl (ha2 l (List.mem_of_getElem? h1))
  have h1 := key hb ha2 e
  have h2 := key ha hb2 e.symm
  exact List.append_inj e (by omega)

theorem zipIdx_origin {P : List (Rec W)} {e : PE (Nat × Rec W) W} (h : e ∈ origins P) : P[e.1.1]? = some e.1.2 ∧ e.2.1 = [] ∧ e.2.2 = e.1.2.node := by
  simp only [origins, List.mem_map] at h
  obtain ⟨⟨x, j⟩, hx, rfl⟩ := h
  exact ⟨List.mem_zipIdx_iff_getElem?.1 hx, rfl, rfl⟩

/-- The closure of the states of the paths that end with an arc that reads something. -/
theorem closure_sound {xs : List Int} {P st : List (Rec W)} {LP : List (List (Label W))} (hn : LP.Nodup)
    (h1 : List.Forall₂ (fun ls r => Walk g root y xs ls r.seq r.dirty r.node ∧ Ripe ls) LP P)
    (h2 : ∀ ls wr ch p, Walk g root y xs ls wr ch p → Ripe ls → (⟨p, wr, ch⟩ : Rec W) ∈ P) {n : Nat} (h : epsilonClosure g n P = some st) :
    Sound g root y xs st := by
  refine ⟨?_, ?_⟩
  · rw [← origins_map P] at h
    obtain ⟨ps, k1, rfl⟩ := closure_of_paths g _ n _ h
    obtain ⟨k2, -, k3⟩ := closureP_spec (origins_fresh P) (origins_nodup P) (origins_real g P) k1
    have hfacts : ∀ e ∈ ps, P[e.1.1]? = some e.1.2 ∧ EpsPath g e.1.2.node e.2.1 e.2.2 ∧
        ∃ ls, LP[e.1.1]? = some ls ∧ Walk g root y xs ls e.1.2.seq e.1.2.dirty e.1.2.node ∧ Ripe ls := by
      intro e he
      obtain ⟨e0, g1, ls, g2, g3, g4⟩ := (k3 e).1 he
      obtain ⟨m1, m2, m3⟩ := zipIdx_origin g1
      rw [g3, g4, m2, List.nil_append]
      obtain ⟨ls', q1, q2⟩ := forall2_get h1 m1
      exact ⟨m1, m3 ▸ g2, ls', q1, q2⟩
    refine ⟨ps.map fun e => (LP[e.1.1]?.getD []) ++ e.2.1, ?_, ?_⟩
    · rw [List.Nodup, List.pairwise_map]
      refine List.Pairwise.imp_of_mem ?_ k2
      intro a b ha hb hab e
      obtain ⟨a1, a2, la, a3, -, a4⟩ := hfacts a ha
      obtain ⟨b1, b2, lb, b3, -, b4⟩ := hfacts b hb
      rw [a3, b3] at e
      simp only [Option.getD_some] at e
      obtain ⟨rfl, e2⟩ := append_eps_inj a4 b4 a2.2 b2.2 e
      have hi : a.1.1 = b.1.1 := by
        obtain ⟨ia, ea⟩ := List.getElem?_eq_some_iff.1 a3
        obtain ⟨ib, eb⟩ := List.getElem?_eq_some_iff.1 b3
        exact (List.Nodup.getElem_inj_iff hn).1 (ea.trans eb.symm)
      have hr : a.1.2 = b.1.2 := by
        rw [hi, b1] at a1
        exact (Option.some.inj a1).symm
      have hn2 : a.2.2 = b.2.2 := by
        have h1 := a2.1
        rw [e2, hr] at h1
        exact path_det h1 b2.1
      exact hab (Prod.ext (Prod.ext hi hr) (Prod.ext e2 hn2))
    · rw [List.forall₂_map_left_iff, List.forall₂_map_right_iff, List.forall₂_same]
      intro e he
      obtain ⟨-, a2, la, a3, a5, -⟩ := hfacts e he
      rw [a3]
      exact walk_eps a5 _ a2
  · intro ls wr ch p hw
    obtain ⟨l1, l2, wr1, q, rfl, g1, g2, g3, rfl⟩ := walk_split hw
    rw [closure_mem h]
    exact ⟨_, h2 _ _ _ _ g2 g1, l2, g3, rfl, rfl⟩

theorem sound_init {n : Nat} {st : List (Rec W)} (h : State.init g n root = some st) : Sound g root y [] st := by
  refine closure_sound (LP := [[]]) (by simp) (.cons ⟨.start, fun l0 l e => by simp at e⟩ .nil) ?_ h
  intro ls wr ch p hw hr
  generalize hx : ([] : List Int) = xs at hw
  cases hw with
  | start => simp
  | empty h h0 ha => exact absurd h0 (hr _ _ rfl)
  | read => simp at hx

/-- What a state becomes. -/
structure Next (g : Graph W) (y : Way) (x : Int) (r : Rec W) (l : Label W) (r' : Rec W) : Prop where
  nonempty : l.1 ≠ 0
  allow : y.allow r.node x l.1
  arc : Arc g r.node l r'.node
  seq : r'.seq = r.seq ++ [(y.out x l.2.2.1, l.2.2.2)]
  dirty : r'.dirty = (r.dirty || decide (l.1 ≠ x))

/-- `succ` gives what a state becomes, once for each arc. -/
def Steps (g : Graph W) (y : Way) (x : Int) (r : Rec W) (rs : List (Rec W)) : Prop :=
  (∃ M : List (Label W), M.Nodup ∧ List.Forall₂ (Next g y x r) M rs) ∧ ∀ l r', Next g y x r l r' → r' ∈ rs

theorem sound_step {xs : List Int} {x : Int} {st st' : List (Rec W)} (h : Sound g root y xs st) (succ : Rec W → List (Rec W))
    (hs : ∀ r, Steps g y x r (succ r)) {n : Nat} (he : epsilonClosure g n (st.flatMap succ) = some st') : Sound g root y (xs ++ [x]) st' := by
  obtain ⟨⟨L, hn, hL⟩, hc⟩ := h
  have key : ∃ LP : List (List (Label W)), LP.Nodup ∧ (∀ ls ∈ LP, ∃ l0 ∈ L, ∃ l, ls = l0 ++ [l]) ∧
      List.Forall₂ (fun ls r => Walk g root y (xs ++ [x]) ls r.seq r.dirty r.node ∧ Ripe ls) LP (st.flatMap succ) := by
    clear hc he
    induction hL with
    | nil => exact ⟨[], by simp, by simp, .nil⟩
    | cons h1 h2 ih =>
      rename_i ls r L st
      rw [List.nodup_cons] at hn
      obtain ⟨LP, k1, k2, k3⟩ := ih hn.2
      obtain ⟨⟨M, m1, m2⟩, -⟩ := hs r
      refine ⟨M.map (fun l => ls ++ [l]) ++ LP, ?_, ?_, ?_⟩
      · rw [List.nodup_append]
        refine ⟨?_, k1, ?_⟩
        · rw [List.Nodup, List.pairwise_map]
          refine m1.imp ?_
          intro a b hab e
          have := (List.append_inj' e rfl).2
          simp only [List.cons.injEq, and_true] at this
          exact hab this
        · intro a ha b hb e
          obtain ⟨l, -, rfl⟩ := List.mem_map.1 ha
          obtain ⟨l0, g1, l', rfl⟩ := k2 b hb
          exact hn.1 ((List.append_inj' e rfl).1 ▸ g1)
      · intro ls' hls
        rcases List.mem_append.1 hls with hls | hls
        · obtain ⟨l, -, rfl⟩ := List.mem_map.1 hls
          exact ⟨ls, by simp, l, rfl⟩
        · obtain ⟨l0, g1, g2⟩ := k2 _ hls
          exact ⟨l0, by simp [g1], g2⟩
      · rw [List.flatMap_cons]
        refine List.rel_append ?_ k3
        rw [List.forall₂_map_left_iff]
        refine m2.imp ?_
        intro l r' hx
        refine ⟨?_, ?_⟩
        · rw [hx.seq, hx.dirty]
          exact .read h1 hx.nonempty hx.allow hx.arc
        · intro l0 m e
          have := (List.append_inj' e rfl).2
          simp only [List.cons.injEq, and_true] at this
          rw [← this]; exact hx.nonempty
  obtain ⟨LP, k1, -, k3⟩ := key
  refine closure_sound k1 k3 ?_ he
  intro ls wr ch p hw hr
  generalize hx : xs ++ [x] = xs' at hw
  cases hw with
  | start => simp at hx
  | empty h h0 ha => exact absurd h0 (hr _ _ rfl)
  | read h h0 hy ha =>
    obtain ⟨rfl, e2⟩ := List.append_inj' hx rfl
    simp only [List.cons.injEq, and_true] at e2
    subst e2
    rw [List.mem_flatMap]
    exact ⟨_, hc _ _ _ _ h, (hs _).2 _ _ ⟨h0, hy, ha, rfl, rfl⟩⟩

theorem sound_length {xs : List Int} {st : List (Rec W)} (h : Sound g root y xs st) {k : Nat} (hf : Fewer g root y k) : st.length < k := by
  obtain ⟨⟨L, h1, h2⟩, -⟩ := h
  rw [← h2.length_eq]
  refine hf xs L h1 ?_
  intro ls hls
  clear h1
  induction h2 with
  | nil => cases hls
  | cons h _ ih =>
    rcases List.mem_cons.1 hls with rfl | hls
    · exact ⟨_, _, _, h⟩
    · exact ih hls

theorem sound_mem {xs : List Int} {st : List (Rec W)} (h : Sound g root y xs st) (r : Rec W) :
    r ∈ st ↔ ∃ ls, Walk g root y xs ls r.seq r.dirty r.node := by
  constructor
  · intro hr
    obtain ⟨ls, -, h1⟩ := forall2_left h.1.choose_spec.2 hr
    exact ⟨ls, h1⟩
  · rintro ⟨ls, h1⟩
    exact h.2 _ _ _ _ h1

/-! ## Arcs for one symbol -/

/-- The labels of the arcs for `x`. -/
def labelsAt (g : Graph W) (q : Nat) (x : Int) : List (Label W) := ((g q x).getD []).zipIdx.map fun d => (x, d.2, d.1.1, d.1.2.2)

theorem labelsAt_nodup (g : Graph W) (q : Nat) (x : Int) : (labelsAt g q x).Nodup := by
  unfold labelsAt
  have h1 : ∀ (l : List (Int × Nat × W)) (k : Nat), (l.zipIdx k).Pairwise (fun a b => a.2 ≠ b.2) := by
    intro l
    induction l with
    | nil => intro k; simp
    | cons x l ih =>
      intro k
      rw [List.zipIdx_cons, List.pairwise_cons]
      refine ⟨?_, ih _⟩
      rintro ⟨y, j⟩ hy
      have := List.le_snd_of_mem_zipIdx hy
      simp only at this ⊢
      omega
  rw [List.Nodup, List.pairwise_map]
  refine (h1 _ 0).imp ?_
  intro a b hab he
  simp only [Prod.mk.injEq] at he
  exact hab he.2.1

theorem labelsAt_fst {g : Graph W} {q : Nat} {x : Int} {l : Label W} (h : l ∈ labelsAt g q x) : l.1 = x := by
  obtain ⟨d, -, rfl⟩ := List.mem_map.1 h
  rfl

/-- What `applyInto` and `applyIntoOverride` have in common. -/
def into (g : Graph W) (z : Int) (f : Int → Int) (r : Rec W) (dirty : Bool) : List (Rec W) :=
  ((g r.node z).getD []).map fun d => { node := d.2.1, seq := r.seq ++ [(f d.1, d.2.2)], dirty := r.dirty || dirty }

theorem applyInto_into (g : Graph W) {z : Int} (hz : z ≠ 0) (r : Rec W) (d : Bool) : (applyInto g z r d).1 = into g z id r d := by
  unfold applyInto into
  cases g r.node z <;> simp [hz]

theorem override_into (g : Graph W) {z : Int} (hz : z ≠ 0) (o x : Int) (r : Rec W) (d : Bool) :
    (applyIntoOverride g z o x r d).1 = into g z (fun s => if s = o then x else s) r d := by
  unfold applyIntoOverride into
  cases hg : g r.node z with
  | none => simp
  | some ds =>
    simp only [Option.getD_some, if_pos hz]
    refine List.map_congr_left ?_
    intro d _
    split <;> rfl

theorem into_steps (g : Graph W) {z : Int} (hz : z ≠ 0) (x : Int) (f : Int → Int) (r : Rec W) (d : Bool) (hd : d = decide (z ≠ x)) :
    List.Forall₂ (fun l r' => Arc g r.node l r'.node ∧ r'.seq = r.seq ++ [(f l.2.2.1, l.2.2.2)] ∧ r'.dirty = (r.dirty || decide (l.1 ≠ x))) (labelsAt g r.node z) (into g z f r d) := by
  unfold labelsAt into
  have e : ((g r.node z).getD []).map (fun d' => ({ node := d'.2.1, seq := r.seq ++ [(f d'.1, d'.2.2)], dirty := r.dirty || d } : Rec W)) =
      ((g r.node z).getD []).zipIdx.map (fun x => ({ node := x.1.2.1, seq := r.seq ++ [(f x.1.1, x.1.2.2)], dirty := r.dirty || d } : Rec W)) := by
    conv_lhs => rw [← List.zipIdx_map_fst 0 ((g r.node z).getD []), List.map_map]
    rfl
  rw [e, List.forall₂_map_left_iff, List.forall₂_map_right_iff, List.forall₂_same]
  rintro ⟨⟨o, p, w⟩, j⟩ hm
  have hj := List.mem_zipIdx_iff_getElem?.1 hm
  refine ⟨?_, rfl, by rw [hd]⟩
  cases hg : g r.node z with
  | none => simp [hg] at hj
  | some ds =>
    rw [hg] at hj
    exact ⟨ds, hg, hj⟩

theorem arc_labelsAt {g : Graph W} {q p : Nat} {l : Label W} (h : Arc g q l p) : l ∈ labelsAt g q l.1 := by
  obtain ⟨ds, h1, h2⟩ := h
  unfold labelsAt
  rw [h1]
  exact List.mem_map.2 ⟨((l.2.2.1, p, l.2.2.2), l.2.1), List.mem_zipIdx_iff_getElem?.2 h2, rfl⟩

theorem mem_into {g : Graph W} {z : Int} {f : Int → Int} {r r' : Rec W} {d : Bool} {l : Label W} (hl : l.1 = z) (ha : Arc g r.node l r'.node)
    (hs : r'.seq = r.seq ++ [(f l.2.2.1, l.2.2.2)]) (hd : r'.dirty = (r.dirty || d)) : r' ∈ into g z f r d := by
  obtain ⟨ds, h1, h2⟩ := ha
  unfold into
  rw [hl] at h1
  rw [h1]
  refine List.mem_map.2 ⟨_, List.mem_of_getElem? h2, ?_⟩
  obtain ⟨n, s, b⟩ := r'
  simp only at hs hd
  subst hs; subst hd
  rfl

/-- The states after arcs for several symbols. -/
def intos (g : Graph W) (x : Int) (f : Int → Int) (zs : List Int) (r : Rec W) : List (Rec W) := zs.flatMap fun z => into g z f r (decide (z ≠ x))

/-- A way to read `x`, with the symbols that are tried at a node. -/
theorem intos_steps {x : Int} (r : Rec W) (zs : List Int) (hn : zs.Nodup) (h0 : ∀ z ∈ zs, z ≠ 0)
    (hz : ∀ z, z ≠ 0 → (y.allow r.node x z ↔ z ∈ zs)) : Steps g y x r (intos g x (y.out x) zs r) := by
  refine ⟨⟨zs.flatMap (labelsAt g r.node), ?_, ?_⟩, ?_⟩
  · rw [List.nodup_flatMap]
    refine ⟨fun z _ => labelsAt_nodup g _ z, hn.imp ?_⟩
    intro a b hab l ha hb
    exact hab ((labelsAt_fst ha).symm.trans (labelsAt_fst hb))
  · have key : ∀ ws, (∀ z ∈ ws, z ∈ zs) → List.Forall₂ (Next g y x r) (ws.flatMap (labelsAt g r.node)) (intos g x (y.out x) ws r) := by
      intro ws
      induction ws with
      | nil => intro _; exact .nil
      | cons z ws ih =>
        intro hw
        rw [List.flatMap_cons]
        refine List.rel_append ?_ (ih fun z hz => hw z (by simp [hz]))
        have hz0 := h0 z (hw z (by simp))
        have h1 := into_steps g hz0 x (y.out x) r (decide (z ≠ x)) rfl
        have hall : ∀ l ∈ labelsAt g r.node z, l.1 = z := fun l hl => labelsAt_fst hl
        show List.Forall₂ (Next g y x r) (labelsAt g r.node z) (into g z (y.out x) r (decide (z ≠ x)))
        revert h1 hall
        generalize labelsAt g r.node z = ls
        generalize into g z (y.out x) r (decide (z ≠ x)) = rs
        intro h1 hall
        induction h1 with
        | nil => exact .nil
        | cons h _ ih2 =>
          rename_i l r' _ _ _
          have hlz : l.1 = z := hall l (by simp)
          refine .cons ⟨hlz ▸ hz0, ?_, h.1, h.2.1, h.2.2⟩ (ih2 fun m hm => hall m (by simp [hm]))
          rw [hlz]
          exact (hz z hz0).2 (hw z (by simp))
    exact key zs fun z h => h
  · intro l r' hx
    have hm := (hz l.1 hx.nonempty).1 hx.allow
    exact List.mem_flatMap.2 ⟨l.1, hm, mem_into rfl hx.arc hx.seq hx.dirty⟩

/-! ## Selection -/

theorem best_pick [LinearOrder W] (showWeight : W → UString) {A : UString → W → Prop} {resp sorted : List (UString × W)} (hp : sorted.Perm resp)
    (hle : sorted.Pairwise fun a b => a.2 ≤ b.2) (hmem : ∀ t w, (t, w) ∈ resp ↔ A t w) :
    ∃ rs, Best A rs ∧ dedup showWeight [] sorted = rs.map fun x => x.1 ++ showWeight x.2 := by
  obtain ⟨d, d1, d2, d3, d4, d5⟩ := C41_no_duplicates showWeight sorted
  refine ⟨d, ⟨d2, hle.sublist d1, ?_⟩, d5⟩
  intro t w
  constructor
  · intro hd
    obtain ⟨pre, post, e1, e2⟩ := d4 _ hd
    have hm : (t, w) ∈ sorted := d1.subset hd
    refine ⟨(hmem t w).1 (hp.mem_iff.1 hm), fun w' hw' => ?_⟩
    have hm' : (t, w') ∈ sorted := hp.mem_iff.2 ((hmem t w').2 hw')
    rw [e1, List.mem_append, List.mem_cons] at hm'
    have hle := hle
    rw [e1, List.pairwise_append, List.pairwise_cons] at hle
    rcases hm' with hm' | hm' | hm'
    · exact absurd (List.mem_map.2 ⟨_, hm', rfl⟩) e2
    · rw [Prod.mk.injEq] at hm'; rw [hm'.2]
    · exact hle.2.1.1 _ hm'
  · rintro ⟨h1, h2⟩
    have hm : (t, w) ∈ sorted := hp.mem_iff.2 ((hmem t w).2 h1)
    have ht : t ∈ d.map (·.1) := (d3 t).2 (List.mem_map.2 ⟨_, hm, rfl⟩)
    obtain ⟨⟨t', w'⟩, hd, rfl⟩ := List.mem_map.1 ht
    have hw' := (hmem t' w').1 (hp.mem_iff.1 (d1.subset hd))
    obtain ⟨pre, post, e1, e2⟩ := d4 _ hd
    have hle := hle
    rw [e1, List.pairwise_append, List.pairwise_cons] at hle
    rw [e1, List.mem_append, List.mem_cons] at hm
    have : w' ≤ w := by
      rcases hm with hm | hm | hm
      · exact absurd (List.mem_map.2 ⟨_, hm, rfl⟩) e2
      · rw [Prod.mk.injEq] at hm; rw [hm.2]
      · exact hle.2.1.1 _ hm
    rw [le_antisymm (h2 w' hw') this]
    exact hd

end Verif.Walk
