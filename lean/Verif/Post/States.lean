import Verif.Post.Read
import Verif.Gen.Lemmas
import Verif.Alphabet.Props

/-! # Sets of states and entries -/

namespace Verif.Post

open Verif.State Verif.Walk Verif.Input
open Verif.Proc (capital)

variable {W : Type}

section
variable {g : Graph W} {root : Nat} {y : Way}

/-! ## Sets of states with repetitions -/

theorem closure_tagged {xs : List Int} {P st : List (Rec W)} {LP : List (List (Label W) × List Bool)} (hn : LP.Nodup)
    (h1 : List.Forall₂ (fun e r => Walk g root y xs e.1 r.seq r.dirty r.node ∧ Ripe e.1) LP P) {n : Nat} (h : epsilonClosure g n P = some st) :
    ∃ L : List (List (Label W) × List Bool), L.Nodup ∧
      List.Forall₂ (fun e r => Walk g root y xs e.1 r.seq r.dirty r.node ∧ ∃ l1 l2, (l1, e.2) ∈ LP ∧ e.1 = l1 ++ l2 ∧ ∀ l ∈ l2, l.1 = 0) L st := by
  rw [← origins_map P] at h
  obtain ⟨ps, k1, rfl⟩ := closure_of_paths g _ n _ h
  obtain ⟨k2, -, k3⟩ := closureP_spec (origins_fresh P) (origins_nodup P) (origins_real g P) k1
  have hfacts : ∀ e ∈ ps, P[e.1.1]? = some e.1.2 ∧ EpsPath g e.1.2.node e.2.1 e.2.2 ∧
      ∃ x, LP[e.1.1]? = some x ∧ Walk g root y xs x.1 e.1.2.seq e.1.2.dirty e.1.2.node ∧ Ripe x.1 := by
    intro e he
    obtain ⟨e0, g1, ls, g2, g3, g4⟩ := (k3 e).1 he
    obtain ⟨m1, m2, m3⟩ := zipIdx_origin g1
    rw [g3, g4, m2, List.nil_append]
    obtain ⟨ls', q1, q2⟩ := forall2_get h1 m1
    exact ⟨m1, m3 ▸ g2, ls', q1, q2⟩
  refine ⟨ps.map fun e => (((LP[e.1.1]?).getD ([], [])).1 ++ e.2.1, ((LP[e.1.1]?).getD ([], [])).2), ?_, ?_⟩
  · rw [List.Nodup, List.pairwise_map]
    refine List.Pairwise.imp_of_mem ?_ k2
    intro a b ha hb hab e
    obtain ⟨a1, a2, la, a3, -, a4⟩ := hfacts a ha
    obtain ⟨b1, b2, lb, b3, -, b4⟩ := hfacts b hb
    rw [a3, b3] at e
    simp only [Option.getD_some, Prod.mk.injEq] at e
    obtain ⟨e1, e2⟩ := append_eps_inj a4 b4 a2.2 b2.2 e.1
    have hl : la = lb := Prod.ext e1 e.2
    subst hl
    have hi : a.1.1 = b.1.1 := by
      obtain ⟨ia, ea⟩ := List.getElem?_eq_some_iff.1 a3
      obtain ⟨ib, eb⟩ := List.getElem?_eq_some_iff.1 b3
      exact (List.Nodup.getElem_inj_iff hn).1 (ea.trans eb.symm)
    have hr : a.1.2 = b.1.2 := by
      rw [hi, b1] at a1
      exact (Option.some.inj a1).symm
    have hn2 : a.2.2 = b.2.2 := by
      have h1 := a2.1
      rw [e2, hr] at h1
      exact path_det h1 b2.1
    exact hab (Prod.ext (Prod.ext hi hr) (Prod.ext e2 hn2))
  · rw [List.forall₂_map_left_iff, List.forall₂_map_right_iff, List.forall₂_same]
    intro e he
    obtain ⟨-, a2, la, a3, a5, -⟩ := hfacts e he
    rw [a3]
    exact ⟨walk_eps a5 _ a2, la.1, e.2.1, List.mem_of_getElem? a3, rfl, a2.2⟩

theorem walk_count {xs : List Int} {ls : List (Label W)} {wr : List (Int × W)} {ch : Bool} {p : Nat} (h : Walk g root y xs ls wr ch p) :
    (ls.filter fun l => l.1 ≠ 0).length = xs.length := by
  induction h with
  | start => rfl
  | empty h h0 ha ih => simpa [h0] using ih
  | read h h0 hy ha ih =>
    rw [List.filter_append, List.length_append, List.length_append, ih]
    simp [h0]

theorem changes_eps {xs : List Int} {l1 l2 : List (Label W)} (h : ∀ l ∈ l2, l.1 = 0) : changes xs (l1 ++ l2) = changes xs l1 := by
  unfold changes
  have : l2.filter (fun l => decide (l.1 ≠ 0)) = [] := List.filter_eq_nil_iff.2 fun l hl => by simp [h l hl]
  rw [List.filter_append, this, List.append_nil]

theorem changes_read {xs : List Int} {ls : List (Label W)} {wr : List (Int × W)} {ch : Bool} {p : Nat} (h : Walk g root y xs ls wr ch p) {l : Label W} (hl : l.1 ≠ 0) (x : Int) :
    changes (xs ++ [x]) (ls ++ [l]) = changes xs ls + if l.1 ≠ x then 1 else 0 := by
  unfold changes
  rw [List.filter_append, List.zip_append (walk_count h), List.countP_append]
  congr 1
  simp only [ne_eq, hl, not_false_eq_true, decide_true, List.filter_cons_of_pos, List.filter_nil, List.zip_cons_cons, List.zip_nil_right]
  by_cases hx : l.1 = x <;> simp [hx]

theorem mem_steps {xs : List Int} {x : Int} {st st' : List (Rec W)} (h : ∀ r, r ∈ st ↔ ∃ ls, Walk g root y xs ls r.seq r.dirty r.node) (succ : Rec W → List (Rec W))
    (hs : ∀ r r', r' ∈ succ r ↔ ∃ l, Next g y x r l r') {n : Nat} (he : epsilonClosure g n (st.flatMap succ) = some st') (r : Rec W) :
    r ∈ st' ↔ ∃ ls, Walk g root y (xs ++ [x]) ls r.seq r.dirty r.node := by
  rw [closure_mem he]
  constructor
  · rintro ⟨r1, h1, ls, h2, h3, h4⟩
    obtain ⟨r0, h5, h6⟩ := List.mem_flatMap.1 h1
    obtain ⟨l, h7⟩ := (hs r0 r1).1 h6
    obtain ⟨l0, h8⟩ := (h r0).1 h5
    have h9 := Walk.read h8 h7.nonempty h7.allow h7.arc
    rw [← h7.seq, ← h7.dirty] at h9
    rw [h3, h4]
    exact ⟨_, walk_eps h9 _ h2⟩
  · rintro ⟨ls, hw⟩
    obtain ⟨l1, l2, wr1, q, -, g1, g2, g3, g4⟩ := walk_split hw
    refine ⟨⟨q, wr1, r.dirty⟩, ?_, l2, g3, g4, rfl⟩
    rw [List.mem_flatMap]
    generalize hx : xs ++ [x] = xs' at g2
    generalize hd : r.dirty = d at g2
    cases g2 with
    | start => simp at hx
    | empty h h0 ha => exact absurd h0 (g1 _ _ rfl)
    | read h' h0 hy ha =>
      obtain ⟨rfl, e2⟩ := List.append_inj' hx rfl
      simp only [List.cons.injEq, and_true] at e2
      subst e2
      exact ⟨⟨_, _, _⟩, (h _).2 ⟨_, h'⟩, (hs _ _).2 ⟨_, h0, hy, ha, rfl, rfl⟩⟩

theorem mem_into_iff {z : Int} (hz : z ≠ 0) (f : Int → Int) (r r' : Rec W) (x : Int) : r' ∈ into g z f r (decide (z ≠ x)) ↔
    ∃ l : Label W, l.1 = z ∧ Arc g r.node l r'.node ∧ r'.seq = r.seq ++ [(f l.2.2.1, l.2.2.2)] ∧ r'.dirty = (r.dirty || decide (l.1 ≠ x)) := by
  constructor
  · intro h
    obtain ⟨l, h1, h2⟩ := forall2_left (into_steps g hz x f r _ rfl) h
    exact ⟨l, labelsAt_fst h1, h2⟩
  · rintro ⟨l, h1, h2, h3, h4⟩
    exact mem_into h1 h2 h3 (by rw [h4, h1])

theorem mem_intos {x : Int} (r r' : Rec W) (zs : List Int) (h0 : ∀ z ∈ zs, z ≠ 0) (hz : ∀ z, z ≠ 0 → (y.allow r.node x z ↔ z ∈ zs)) :
    r' ∈ intos g x (y.out x) zs r ↔ ∃ l, Next g y x r l r' := by
  unfold intos
  rw [List.mem_flatMap]
  constructor
  · rintro ⟨z, h1, h2⟩
    obtain ⟨l, h3, h4, h5, h6⟩ := (mem_into_iff (h0 z h1) _ r r' x).1 h2
    exact ⟨l, h3 ▸ h0 z h1, h3 ▸ (hz z (h0 z h1)).2 h1, h4, h5, h6⟩
  · rintro ⟨l, h1, h2, h3, h4, h5⟩
    exact ⟨l.1, (hz l.1 h1).1 h2, (mem_into_iff h1 _ r r' x).2 ⟨l, rfl, h3, h4, h5⟩⟩

end

/-! ## Reading letters -/

/-- The states are those of the paths that read `xs`; a path that reads letters as other letters may be there more than once. -/
structure Sound (σ : Setting W) (xs : List Int) (st : List (Rec W)) : Prop where
  mem : ∀ r, r ∈ st ↔ ∃ ls, Walk σ.graph σ.root (way σ) xs ls r.seq r.dirty r.node
  list : ∃ L : List (List (Label W) × List Bool), L.Nodup ∧
    List.Forall₂ (fun e r => Walk σ.graph σ.root (way σ) xs e.1 r.seq r.dirty r.node ∧ e.2.length = changes xs e.1) L st

variable {σ : Setting W} {name : Int → UString}

theorem Sound.length {xs : List Int} {st : List (Rec W)} (h : Sound σ xs st) (hf : Few σ) : st.length < 65536 := by
  obtain ⟨L, h1, h2⟩ := h.list
  rw [← h2.length_eq]
  refine hf xs L h1 ?_
  intro e he
  clear h1 h
  induction h2 with
  | nil => cases he
  | cons h _ ih =>
    rcases List.mem_cons.1 he with rfl | he
    · exact ⟨⟨_, _, _, h.1⟩, h.2⟩
    · exact ih he

theorem sound_start {n : Nat} {st : List (Rec W)} (h : State.init σ.graph n σ.root = some st) : Sound σ [] st := by
  have h0 := sound_init (y := way σ) h
  refine ⟨sound_mem h0, ?_⟩
  obtain ⟨L, h1, h2⟩ := h0.1
  refine ⟨L.map fun ls => (ls, []), ?_, ?_⟩
  · rw [List.Nodup, List.pairwise_map]
    exact h1.imp fun hab e => hab (Prod.mk.inj e).1
  · rw [List.forall₂_map_left_iff]
    exact h2.imp fun ls r hw => ⟨hw, by simp [changes]⟩

/-- The symbols that are tried, and how often. -/
def tried (σ : Setting W) (x : Int) : List (Int × List Bool) :=
  if x = 0 then [] else if folds σ x then [(x, []), (σ.toLower x, [false]), (σ.toLower x, [true])] else [(x, [])]

theorem sound_read [LinearOrder W] (hr : Regular σ name) {xs : List Int} {x : Int} {st st' : List (Rec W)} (h : Sound σ xs st) {n : Nat}
    (he : epsilonClosure σ.graph n (st.flatMap (intos σ.graph x ((way σ).out x) ((tried σ x).map (·.1)))) = some st') : Sound σ (xs ++ [x]) st' := by
  have hup : ∀ {x : Int}, folds σ x = true → σ.isUpper x = true := by
    intro x hx
    simp only [folds, Bool.and_eq_true] at hx
    exact hx.1
  have hz0 : ∀ z ∈ tried σ x, z.1 ≠ 0 := by
    intro z hz
    unfold tried at hz
    split at hz
    · cases hz
    · rename_i h0
      split at hz
      · rename_i hf
        have : σ.toLower x ≠ 0 := by have := (hr.lowerPos x (hup hf)).1; omega
        simp only [List.mem_cons, List.not_mem_nil, or_false] at hz
        rcases hz with rfl | rfl | rfl
        · exact h0
        · exact this
        · exact this
      · rw [List.mem_singleton.1 hz]; exact h0
  have hall : ∀ p z, z ≠ 0 → ((way σ).allow p x z ↔ z ∈ (tried σ x).map (·.1)) := by
    intro p z hz
    show (x ≠ 0 ∧ _) ↔ _
    unfold tried
    by_cases h0 : x = 0
    · simp [h0]
    · by_cases hf : folds σ x = true
      · simp [h0, hf]
      · simp [h0, hf]
  have hlen : ∀ z ∈ tried σ x, z.2.length = if z.1 ≠ x then 1 else 0 := by
    intro z hz
    unfold tried at hz
    split at hz
    · cases hz
    · split at hz
      · rename_i hf
        have := (hr.lowerPos x (hup hf)).2
        simp only [List.mem_cons, List.not_mem_nil, or_false] at hz
        rcases hz with rfl | rfl | rfl <;> simp [this]
      · rw [List.mem_singleton.1 hz]; simp
  have hnod : (tried σ x).Nodup := by
    unfold tried
    split
    · simp
    · split <;> simp
  refine ⟨mem_steps h.mem _ (fun r r' => mem_intos r r' _ (by
      intro z hz
      obtain ⟨z', h1, rfl⟩ := List.mem_map.1 hz
      exact hz0 z' h1) (hall r.node)) he, ?_⟩
  obtain ⟨L, hn, hL⟩ := h.list
  have key : ∃ LP : List (List (Label W) × List Bool), LP.Nodup ∧
      (∀ e ∈ LP, ∃ e0 ∈ L, ∃ l, ∃ b, e = (e0.1 ++ [l], e0.2 ++ b) ∧ e.2.length = changes (xs ++ [x]) e.1) ∧
      List.Forall₂ (fun e r => Walk σ.graph σ.root (way σ) (xs ++ [x]) e.1 r.seq r.dirty r.node ∧ Ripe e.1) LP
        (st.flatMap (intos σ.graph x ((way σ).out x) ((tried σ x).map (·.1)))) := by
    have hlens : ∀ e ∈ L, e.2.length = changes xs e.1 := by
      intro e he
      clear hn h
      rename_i he' 
      clear he'
      induction hL with
      | nil => cases he
      | cons h _ ih =>
        rcases List.mem_cons.1 he with rfl | he
        · exact h.2
        · exact ih he
    clear he h
    induction hL with
    | nil => exact ⟨[], by simp, by simp, .nil⟩
    | cons h1 h2 ih =>
      rename_i e r L st
      rw [List.nodup_cons] at hn
      obtain ⟨LP, k1, k2, k3⟩ := ih hn.2 fun e he => hlens e (by simp [he])
      have hM : ∀ zs : List (Int × List Bool), zs.Nodup → (∀ z ∈ zs, z ∈ tried σ x) →
          (zs.flatMap fun z => (labelsAt σ.graph r.node z.1).map fun l => (e.1 ++ [l], e.2 ++ z.2)).Nodup ∧
          List.Forall₂ (fun e r => Walk σ.graph σ.root (way σ) (xs ++ [x]) e.1 r.seq r.dirty r.node ∧ Ripe e.1)
            (zs.flatMap fun z => (labelsAt σ.graph r.node z.1).map fun l => (e.1 ++ [l], e.2 ++ z.2)) (intos σ.graph x ((way σ).out x) (zs.map (·.1)) r) := by
        intro zs hzn hzm
        constructor
        · rw [List.nodup_flatMap]
          refine ⟨fun z _ => ?_, hzn.imp ?_⟩
          · rw [List.Nodup, List.pairwise_map]
            refine (labelsAt_nodup σ.graph r.node z.1).imp ?_
            intro a b hab he
            have := (List.append_inj' (Prod.mk.inj he).1 rfl).2
            simp only [List.cons.injEq, and_true] at this
            exact hab this
          · intro a b hab u hu hv
            obtain ⟨l1, m1, rfl⟩ := List.mem_map.1 hu
            obtain ⟨l2, m2, he⟩ := List.mem_map.1 hv
            have e1 := (List.append_inj' (Prod.mk.inj he).1 rfl).2
            simp only [List.cons.injEq, and_true] at e1
            have e2 := List.append_cancel_left (Prod.mk.inj he).2
            have ez := labelsAt_fst m1
            rw [← e1, labelsAt_fst m2] at ez
            exact hab (Prod.ext ez.symm e2.symm)
        · induction zs with
          | nil => exact .nil
          | cons z zs ihz =>
            rw [List.flatMap_cons]
            refine List.rel_append ?_ (ihz (List.nodup_cons.1 hzn).2 fun z hz => hzm z (by simp [hz]))
            have hz := hz0 z (hzm z (by simp))
            rw [List.forall₂_map_left_iff]
            have h3 := into_steps σ.graph hz x ((way σ).out x) r (decide (z.1 ≠ x)) rfl
            have hf : ∀ l ∈ labelsAt σ.graph r.node z.1, l.1 = z.1 := fun l hl => labelsAt_fst hl
            revert h3 hf
            show List.Forall₂ _ _ (into σ.graph z.1 ((way σ).out x) r (decide (z.1 ≠ x))) → _ → List.Forall₂ _ _ (into σ.graph z.1 ((way σ).out x) r (decide (z.1 ≠ x)))
            generalize labelsAt σ.graph r.node z.1 = ls
            generalize into σ.graph z.1 ((way σ).out x) r (decide (z.1 ≠ x)) = rs
            intro h3 hf
            induction h3 with
            | nil => exact .nil
            | cons h4 _ ih4 =>
              rename_i l r' _ _ _
              have hl := hf l (by simp)
              refine .cons ⟨?_, ?_⟩ (ih4 fun l hl => hf l (by simp [hl]))
              · have h9 := Walk.read h1.1 (l := l) (x := x) (by rw [hl]; exact hz) (by rw [hl]; exact (hall r.node z.1 hz).2 (List.mem_map.2 ⟨z, hzm z (by simp), rfl⟩)) h4.1
                rw [← h4.2.1, ← h4.2.2] at h9
                exact h9
              · intro l1 l' he
                have := (List.append_inj' he rfl).2
                simp only [List.cons.injEq, and_true] at this
                rw [← this, hl]; exact hz
      obtain ⟨m1, m2⟩ := hM (tried σ x) hnod fun z hz => hz
      refine ⟨((tried σ x).flatMap fun z => (labelsAt σ.graph r.node z.1).map fun l => (e.1 ++ [l], e.2 ++ z.2)) ++ LP, ?_, ?_, ?_⟩
      rotate_left 2
      · rw [List.flatMap_cons]
        exact List.rel_append m2 k3
      · rw [List.nodup_append]
        refine ⟨m1, k1, ?_⟩
        intro a ha b hb hab
        subst hab
        obtain ⟨z, hz, h3⟩ := List.mem_flatMap.1 ha
        obtain ⟨l, -, rfl⟩ := List.mem_map.1 h3
        obtain ⟨e0, h4, l', b', h5, h6⟩ := k2 _ hb
        have e1 := (List.append_inj' (Prod.mk.inj h5).1 rfl).1
        have e2 := (List.append_inj (Prod.mk.inj h5).2 (by rw [hlens e (by simp), hlens e0 (by simp [h4]), e1])).1
        exact hn.1 ((Prod.ext e1 e2 : e = e0) ▸ h4)
      · intro e' he'
        rcases List.mem_append.1 he' with h3 | h3
        · obtain ⟨z, hz, h3⟩ := List.mem_flatMap.1 h3
          obtain ⟨l, hl, rfl⟩ := List.mem_map.1 h3
          refine ⟨e, by simp, l, z.2, rfl, ?_⟩
          have h5 := labelsAt_fst hl
          rw [changes_read h1.1 (by rw [h5]; exact hz0 z hz), h5, List.length_append, hlens e (by simp), hlen z hz]
        · obtain ⟨e0, h4, h5⟩ := k2 e' h3
          exact ⟨e0, by simp [h4], h5⟩
  obtain ⟨LP, k1, k2, k3⟩ := key
  obtain ⟨L', h1, h2⟩ := closure_tagged k1 k3 he
  refine ⟨L', h1, h2.imp ?_⟩
  rintro e r ⟨h3, l1, l2, h4, h5, h6⟩
  refine ⟨h3, ?_⟩
  obtain ⟨e0, -, l, b, -, h7⟩ := k2 _ h4
  rw [h5, changes_eps h6]
  exact h7

theorem caseOverride_eq [LinearOrder W] (hr : Regular σ name) (n : Nat) (x : Int) {st : List (Rec W)} (hs : st.length < 65536) :
    stepCaseOverride σ.isUpper σ.toLower σ.graph n x (σ.beCaseSensitive st) st =
      epsilonClosure σ.graph n (st.flatMap (intos σ.graph x ((way σ).out x) ((tried σ x).map (·.1)))) := by
  have hc : σ.beCaseSensitive st = σ.caseSensitive := by simp [Gen.Setting.beCaseSensitive, hs]
  unfold stepCaseOverride
  rw [hc]
  by_cases hf : folds σ x = true
  · have hu : σ.isUpper x = true ∧ σ.caseSensitive = false := by simpa [folds] using hf
    have h0 := hr.upperPos x hu.1
    obtain ⟨h1, h2⟩ := hr.lowerPos x hu.1
    have h1 : σ.toLower x ≠ 0 := by omega
    rw [if_neg (by simp [hu])]
    unfold stepOverrideAlt applyOverrideAlt
    rw [if_neg (Ne.symm h2), if_neg (by rintro (e | e); exacts [by omega, h1 e])]
    congr 1
    refine List.flatMap_congr ?_
    intro r _
    rw [override_into _ (by omega), override_into _ h1]
    have hy : (way σ).out x = fun s => if s = σ.toLower x then x else s := by
      funext o
      show (if folds σ x = true ∧ o = σ.toLower x then x else o) = _
      simp [hf]
    rw [hy]
    unfold tried intos
    rw [if_neg (by omega), if_pos hf]
    simp [h2]
  · have hu : (!σ.isUpper x || σ.caseSensitive) = true := by
      simp only [folds, Bool.not_eq_true] at hf
      revert hf
      cases σ.isUpper x <;> cases σ.caseSensitive <;> simp
    rw [if_pos hu]
    unfold step State.apply
    congr 1
    split
    · rename_i h0
      subst h0
      simp [tried, intos]
    · rename_i h0
      refine List.flatMap_congr ?_
      intro r _
      rw [applyInto_into _ h0]
      have hy : (way σ).out x = id := by
        funext o
        show (if folds σ x = true ∧ o = σ.toLower x then x else o) = _
        simp [hf]
      rw [hy]
      unfold tried intos
      rw [if_neg h0, if_neg hf]
      simp

/-- A computation that gives `r` if it gets enough turns, and nothing before. -/
def Comes {α : Type} (f : Nat → Option α) (r : α) : Prop := (∀ n, f n = none ∨ f n = some r) ∧ ∃ N, ∀ n ≥ N, f n = some r

theorem closure_comes [LinearOrder W] (hr : Regular σ name) (st : List (Rec W)) : ∃ st', Comes (fun n => epsilonClosure σ.graph n st) st' := by
  obtain ⟨k, hk⟩ := hr.finite
  obtain ⟨N, st', h⟩ := (closure_ends_iff hk st).2 fun r _ => hr.noCycle _
  refine ⟨st', fun n => ?_, N, fun n hn => closure_mono h hn⟩
  cases he : epsilonClosure σ.graph n st with
  | none => exact .inl he
  | some st2 =>
    have h1 := closure_mono he (Nat.le_max_left n N)
    have h2 := closure_mono h (Nat.le_max_right n N)
    exact .inr (by rw [← h2, h1]; exact he)

theorem step_comes [LinearOrder W] (hr : Regular σ name) (hf : Few σ) {xs : List Int} {st : List (Rec W)} (h : Sound σ xs st) (x : Int) :
    ∃ st', Sound σ (xs ++ [x]) st' ∧ Comes (fun n => stepCaseOverride σ.isUpper σ.toLower σ.graph n x (σ.beCaseSensitive st) st) st' := by
  obtain ⟨st', h1⟩ := closure_comes hr (st.flatMap (intos σ.graph x ((way σ).out x) ((tried σ x).map (·.1))))
  obtain ⟨N, h2⟩ := h1.2
  refine ⟨st', sound_read hr h (h2 N (Nat.le_refl _)), ?_⟩
  simpa only [caseOverride_eq hr _ x (h.length hf)] using h1

theorem init_comes [LinearOrder W] (hr : Regular σ name) : ∃ st, Sound σ [] st ∧ Comes (fun n => State.init σ.graph n σ.root) st := by
  obtain ⟨st, h⟩ := closure_comes hr [({ node := σ.root, seq := [], dirty := false } : Rec W)]
  obtain ⟨N, h2⟩ := h.2
  exact ⟨st, sound_start (h2 N (Nat.le_refl _)), h⟩

theorem walk_prefix {g : Graph W} {root : Nat} {y : Way} {xs : List Int} {ls : List (Label W)} {wr : List (Int × W)} {ch : Bool} {p : Nat}
    (h : Walk g root y xs ls wr ch p) : ∀ us, us <+: xs → ∃ ls wr ch p, Walk g root y us ls wr ch p := by
  induction h with
  | start => 
    intro us hu
    rw [List.prefix_nil.1 hu]
    exact ⟨_, _, _, _, .start⟩
  | empty h h0 ha ih => exact ih
  | read h h0 hy ha ih =>
    intro us hu
    rcases List.prefix_concat_iff.1 hu with rfl | hu
    · exact ⟨_, _, _, _, Walk.read h h0 hy ha⟩
    · exact ih us hu

/-- No path reads the symbols: none reads more. -/
theorem Sound.dead {xs : List Int} (h : Sound σ xs []) (ys : List Int) {ls : List (Label W)} {wr : List (Int × W)} {ch : Bool} {p : Nat} :
    ¬ Walk σ.graph σ.root (way σ) (xs ++ ys) ls wr ch p := by
  intro hw
  obtain ⟨ls, wr, ch, p, h1⟩ := walk_prefix hw xs (List.prefix_append _ _)
  have := (h.mem ⟨p, wr, ch⟩).2 ⟨ls, h1⟩
  simp at this

/-! ## Entries -/

/-- A symbol of the kind that entries write. -/
def Good (σ : Setting W) (name : Int → UString) (y : Int) : Prop :=
  Plain y ∨ (y < 0 ∧ σ.alphabet.HasTag y (name y) ∧ ∃ i : UString, name y = 0x3c :: i ++ [0x3e] ∧ (0x3e : UInt16) ∉ i)

/-- The text of symbols. -/
def text (name : Int → UString) (m : List Int) : UString := m.flatMap (symText name)

theorem text_append (name : Int → UString) (a b : List Int) : text name (a ++ b) = text name a ++ text name b := List.flatMap_append

theorem Good.ne_zero {y : Int} (h : Good σ name y) : y ≠ 0 := by
  rcases h with h | h
  · have := h.1; omega
  · have := h.1; omega

theorem plain_text {x : Int} (h : Plain x) : symText name x = (if x ∈ Gen.escapedCps then [0x5c] else []) ++ [UInt16.ofNat x.toNat] := by
  obtain ⟨h1, h2, -⟩ := h
  unfold symText
  rw [if_neg (by omega), if_neg (by omega), Proc.utf16_bmp (by omega)]

theorem escaped_plain {x : Int} (h : x ∈ Gen.escapedCps) : Plain x := by
  simp only [Gen.escapedCps, List.mem_cons, List.not_mem_nil, or_false] at h
  unfold Plain
  omega

theorem up_plain [LinearOrder W] (hr : Regular σ name) {x : Int} (h : Plain x) : Plain (up σ x) := by
  unfold up; rw [if_pos h.1]; exact hr.upperPlain x h

theorem up_good [LinearOrder W] (hr : Regular σ name) {x : Int} (h : Good σ name x) : Good σ name (up σ x) := by
  rcases h with h | h
  · exact .inl (up_plain hr h)
  · unfold up; rw [if_neg (by have := h.1; omega)]; exact .inr h

theorem unit_eq {n m : Nat} (hn : n < 0x10000) (hm : m < 0x10000) : (UInt16.ofNat n = UInt16.ofNat m) ↔ n = m := by
  constructor
  · intro h
    have := congrArg UInt16.toNat h
    rwa [Proc.ofNat_toNat hn, Proc.ofNat_toNat hm] at this
  · rintro rfl; rfl

/-- The first unit of a symbol, and what becomes of it. -/
theorem symText_head [LinearOrder W] (hr : Regular σ name) {y : Int} (h : Good σ name y) : ∃ u v, symText name y = u :: v ∧
    symText name (up σ y) = UInt16.ofNat (σ.toUpper (u.toNat : Int)).toNat :: v ∧ (u = 0x7e ↔ y = 0x7e) ∧ (y = 0x7e → v = []) := by
  rcases h with h | ⟨h1, -, i, h3, -⟩
  · obtain ⟨h1, h2, -⟩ := id h
    have hu := plain_text (name := name) h
    have hup := plain_text (name := name) (up_plain hr h)
    have e : up σ y = σ.toUpper y := if_pos h1
    rw [e] at hup ⊢
    by_cases he : y ∈ Gen.escapedCps
    · have e2 := hr.upperSpecial y he
      rw [if_pos he] at hu
      refine ⟨0x5c, [UInt16.ofNat y.toNat], hu, ?_, ?_, ?_⟩
      · rw [e2, hu]
        have : σ.toUpper (((0x5c : UInt16)).toNat : Int) = 0x5c := hr.upperSpecial 0x5c (by decide)
        rw [this]; rfl
      · simp only [show (0x5c : UInt16) ≠ 0x7e by decide, false_iff]
        rintro rfl
        revert he; decide
      · rintro rfl; exact absurd he (by decide)
    · rw [if_neg he, List.nil_append] at hu
      rw [if_neg (fun k => he (hr.upperOther y k)), List.nil_append] at hup
      refine ⟨UInt16.ofNat y.toNat, [], hu, ?_, ?_, fun _ => rfl⟩
      · rw [hup, Proc.ofNat_toNat (by omega), Int.toNat_of_nonneg (by omega)]
      · have : (0x7e : UInt16) = UInt16.ofNat 0x7e := rfl
        rw [this, unit_eq (by omega) (by omega)]
        omega
  · have e : up σ y = y := if_neg (by omega)
    have hu : symText name y = 0x3c :: (i ++ [0x3e]) := by
      unfold symText; rw [if_neg (by omega), if_pos h1, h3]; rfl
    rw [e]
    refine ⟨0x3c, i ++ [0x3e], hu, ?_, ?_, fun h => absurd h (by omega)⟩
    · rw [hu]
      have : σ.toUpper (((0x3c : UInt16)).toNat : Int) = 0x3c := hr.upperSpecial 0x3c (by decide)
      rw [this]; rfl
    · simp only [show (0x3c : UInt16) ≠ 0x7e by decide, false_iff]
      omega

theorem capital_text [LinearOrder W] (hr : Regular σ name) {m : List Int} (h : ∀ y ∈ m, Good σ name y) :
    capital σ.toUpper (text name m) = text name (capitalised σ m) := by
  match m, h with
  | [], _ => rfl
  | [x], h =>
    obtain ⟨u, v, h1, h2, h3, h4⟩ := symText_head hr (h x (by simp))
    simp only [text, List.flatMap_cons, List.flatMap_nil, List.append_nil, capitalised]
    rw [h1]
    by_cases hx : x = 0x7e
    · rw [if_pos hx, h4 hx, h3.2 hx]
      simp only [List.flatMap_cons, List.flatMap_nil, List.append_nil, h1, h4 hx, h3.2 hx]
      rfl
    · rw [if_neg hx]
      simp only [List.flatMap_cons, List.flatMap_nil, List.append_nil, h2]
      have hu : u ≠ 0x7e := fun e => hx (h3.1 e)
      cases v with
      | nil => simp [capital, hu]
      | cons w v => simp [capital, hu]
  | x :: y :: m, h =>
    obtain ⟨u, v, h1, h2, h3, h4⟩ := symText_head hr (h x (by simp))
    obtain ⟨u', v', h1', h2', -, -⟩ := symText_head hr (h y (by simp))
    simp only [text, List.flatMap_cons, capitalised]
    by_cases hx : x = 0x7e
    · rw [if_pos hx]
      simp only [List.flatMap_cons, h1, h4 hx, h3.2 hx, h1', h2']
      simp [capital]
    · rw [if_neg hx]
      have hu : u ≠ 0x7e := fun e => hx (h3.1 e)
      simp only [List.flatMap_cons, h1, h2, h1']
      cases v with
      | nil => simp [capital, hu]
      | cons w v => simp [capital, hu]

theorem capitalised_good [LinearOrder W] (hr : Regular σ name) {m : List Int} (h : ∀ y ∈ m, Good σ name y) : ∀ y ∈ capitalised σ m, Good σ name y := by
  match m, h with
  | [], _ => simp [capitalised]
  | [x], h =>
    simp only [capitalised]
    split
    · exact h
    · intro y hy; rw [List.mem_singleton.1 hy]; exact up_good hr (h x (by simp))
  | x :: z :: m, h =>
    simp only [capitalised]
    split
    · intro y hy
      simp only [List.mem_cons] at hy
      rcases hy with rfl | rfl | hy
      · exact h _ (by simp)
      · exact up_good hr (h _ (by simp))
      · exact h y (by simp [hy])
    · intro y hy
      simp only [List.mem_cons] at hy
      rcases hy with rfl | rfl | hy
      · exact up_good hr (h _ (by simp))
      · exact h _ (by simp)
      · exact h y (by simp [hy])

theorem mapText_eq [LinearOrder W] (hr : Regular σ name) (b : Bool) (seq : List (Int × W)) (h : ∀ e ∈ seq, e.1 = 0 ∨ Good σ name e.1) :
    mapText name (if b then σ.toUpper else id) Gen.escapedCps seq = text name (((seq.map (·.1)).filter (· ≠ 0)).map (if b then up σ else id)) := by
  unfold mapText text
  induction seq with
  | nil => rfl
  | cons e seq ih =>
    rw [List.flatMap_cons, ih fun e he => h e (by simp [he]), List.map_cons]
    by_cases h0 : e.1 = 0
    · rw [if_neg (by rw [h0]; decide), if_pos h0, List.filter_cons_of_neg (by simp [h0])]
      rfl
    · rw [List.filter_cons_of_pos (by simp [h0]), List.map_cons, List.flatMap_cons]
      congr 1
      rcases (h e (by simp)).resolve_left h0 with hp | ⟨hneg, -⟩
      · rw [if_neg h0, if_neg (show ¬ e.1 < 0 by have := hp.1; omega)]
        cases b with
        | false =>
          simp only [Bool.false_eq_true, if_false, id]
          unfold symText
          rw [if_neg h0, if_neg (show ¬ e.1 < 0 by have := hp.1; omega)]
        | true =>
          simp only [if_true]
          have e1 : up σ e.1 = σ.toUpper e.1 := if_pos hp.1
          have h2 := hr.upperPlain _ hp
          rw [e1]
          unfold symText
          rw [if_neg (show ¬ σ.toUpper e.1 = 0 by have := h2.1; omega), if_neg (show ¬ σ.toUpper e.1 < 0 by have := h2.1; omega)]
          congr 1
          by_cases he : e.1 ∈ Gen.escapedCps
          · rw [if_pos he, if_pos (by rw [hr.upperSpecial _ he]; exact he)]
          · rw [if_neg he, if_neg fun k => he (hr.upperOther _ k)]
      · have hn : e.1 ∉ Gen.escapedCps := fun k => by have := (escaped_plain k).1; omega
        rw [if_neg hn, if_neg h0, if_pos hneg]
        have e1 : (if b then up σ else id) e.1 = e.1 := by
          cases b with
          | false => rfl
          | true => exact if_neg (by omega)
        rw [e1]
        unfold symText
        rw [if_neg h0, if_pos hneg]
        rfl

theorem shown_good [LinearOrder W] (hr : Regular σ name) (u f c : Bool) {ys : List Int} (h : ∀ y ∈ ys, y = 0 ∨ Good σ name y) : ∀ y ∈ shown σ u f c ys, Good σ name y := by
  have h1 : ∀ y ∈ (ys.filter (· ≠ 0)).map (if c && u then up σ else id), Good σ name y := by
    intro y hy
    obtain ⟨z, hz, rfl⟩ := List.mem_map.1 hy
    obtain ⟨hz1, hz2⟩ := List.mem_filter.1 hz
    have hz3 := (h z hz1).resolve_left (by simpa using hz2)
    split
    · exact up_good hr hz3
    · exact hz3
  unfold shown
  simp only
  split
  · exact capitalised_good hr h1
  · exact h1

theorem shown_text [LinearOrder W] (hr : Regular σ name) (u f c : Bool) {seq : List (Int × W)} (h : ∀ e ∈ seq, e.1 = 0 ∨ Good σ name e.1) :
    (let t := mapText name (if c && u then σ.toUpper else id) Gen.escapedCps seq
     if c && f then capital σ.toUpper t else t) = text name (shown σ u f c (seq.map (·.1))) := by
  simp only
  rw [mapText_eq hr _ _ h]
  unfold shown
  simp only
  have hg := shown_good hr u false c (ys := seq.map (·.1)) (by
    intro y hy
    obtain ⟨e, he, rfl⟩ := List.mem_map.1 hy
    exact h e he)
  unfold shown at hg
  simp only [Bool.and_false, Bool.false_eq_true, if_false] at hg
  split
  · rw [capital_text hr hg]
  · rfl

/-- What walks write. -/
theorem walk_good [LinearOrder W] (hr : Regular σ name) {xs : List Int} {ls : List (Label W)} {wr : List (Int × W)} {ch : Bool} {p : Nat}
    (h : Walk σ.graph σ.root (way σ) xs ls wr ch p) : ∀ e ∈ wr, e.1 = 0 ∨ Good σ name e.1 := by
  intro e he
  rcases Gen.walk_written h e he with ⟨q, l, p, h1, h2⟩ | ⟨q, l, p, x, -, h1, h2, h3⟩
  · rw [h2]
    rcases hr.writes q l p h1 with h | h | h
    · exact .inl h
    · exact .inr (.inl h)
    · exact .inr (.inr h)
  · have h4 : e.1 = if folds σ x = true ∧ l.2.2.1 = σ.toLower x then x else l.2.2.1 := h3
    split at h4
    · rename_i hf
      have hu : σ.isUpper x = true := by simpa [folds] using (Bool.and_eq_true _ _ ▸ hf.1 : _ ∧ _).1
      have hl := (hr.lowerPos x hu).1
      rw [h4]
      rcases hr.writes q l p h1 with h | h | h
      · rw [hf.2] at h; omega
      · rw [hf.2] at h; exact .inr (.inl (hr.lowerPlain x hu h))
      · rw [hf.2] at h; omega
    · rw [h4]
      rcases hr.writes q l p h1 with h | h | h
      · exact .inl h
      · exact .inr (.inl h)
      · exact .inr (.inr h)

theorem Good.text_ok {y : Int} (h : Good σ name y) : symbolText id σ.alphabet y false = .ok (if y < 0 then name y else utf16 y.toNat) := by
  unfold symbolText
  rw [if_neg h.ne_zero]
  rcases h with h | ⟨h1, h2, -⟩
  · have := h.1
    have := h.2.1
    rw [if_neg (by omega), if_neg (by simp), if_neg (by omega), Compression.unitsOf_utf16 _ (by omega)]
  · rw [if_pos h1, if_pos h1, (Alphabet.tagText_iff h1).2 h2]

section
variable [AddMonoid W] [LinearOrder W]

omit [LinearOrder W] in
theorem isFinal_iff [LE W] (hf : (σ.finals.map (·.1)).Nodup) {xs : List Int} {st : List (Rec W)} (h : Sound σ xs st) :
    isFinal σ.finals st = true ↔ ∃ m w, Entry σ xs m w := by
  unfold isFinal
  rw [List.any_eq_true]
  constructor
  · rintro ⟨r, h1, h2⟩
    obtain ⟨w0, h3⟩ := Option.isSome_iff_exists.1 h2
    obtain ⟨ls, h5⟩ := (h.mem r).1 h1
    exact ⟨_, _, ls, r.seq, r.dirty, r.node, w0, h5, (Gen.mapFind_iff hf _ _).1 h3, rfl, rfl⟩
  · rintro ⟨t, w, ls, wr, ch, p, w0, h1, h2, h3, h4⟩
    refine ⟨⟨p, wr, ch⟩, (h.mem _).2 ⟨ls, h1⟩, ?_⟩
    simp only
    rw [(Gen.mapFind_iff hf p w0).2 h2]
    rfl

/-- What is picked from final states. -/
theorem results_ok (hr : Regular σ name) {xs : List Int} {st : List (Rec W)} (h : Sound σ xs st) (hfin : isFinal σ.finals st = true) :
    ∃ m, Match σ xs m ∧ (∀ y ∈ m, Good σ name y) ∧
      Gen.results { σ.toSetting with maxAnalyses := 1 } (upper σ xs) (first σ xs) st = .ok [text name m] := by
  have hgood : ∀ r ∈ st, ∀ e ∈ r.seq, e.1 = 0 ∨ Good σ name e.1 := by
    intro r hr' e he
    obtain ⟨ls, hw⟩ := (h.mem r).1 hr'
    exact walk_good hr hw e he
  have hresp := Proc.responses_ok σ.toUpper hr.upperZero σ.finals σ.alphabet name Gen.escapedCps (upper σ xs) (first σ xs) st (by
      intro r hr' x hx hneg
      rcases hgood r hr' x hx with h0 | h0 | h0
      · omega
      · have := h0.1; omega
      · exact (Alphabet.tagText_iff hneg).2 h0.2.1)
    hr.upperRange (by
      intro r hr' x hx
      rcases hgood r hr' x hx with h0 | h0 | h0
      · omega
      · have := h0.2.1; omega
      · have := h0.1; omega)
  generalize he : (st.filterMap fun r => (mapFind r.node σ.finals).map fun w =>
      (let t := mapText name (if r.dirty && upper σ xs then σ.toUpper else id) Gen.escapedCps r.seq
       if r.dirty && first σ xs then capital σ.toUpper t else t, w + (r.seq.map (·.2)).sum)) = resp at hresp
  have hmem : ∀ t w, (t, w) ∈ resp ↔ ∃ m, t = text name m ∧ (∀ y ∈ m, Good σ name y) ∧ Entry σ xs m w := by
    intro t w
    rw [← he, List.mem_filterMap]
    constructor
    · rintro ⟨r, h1, h2⟩
      obtain ⟨w0, h3, h4⟩ := Option.map_eq_some_iff.1 h2
      obtain ⟨ls, h5⟩ := (h.mem r).1 h1
      rw [shown_text hr _ _ _ (hgood r h1)] at h4
      simp only [Prod.mk.injEq] at h4
      refine ⟨_, h4.1.symm, shown_good hr _ _ _ ?_, ls, r.seq, r.dirty, r.node, w0, h5, (Gen.mapFind_iff hr.finals _ _).1 h3, h4.2.symm, rfl⟩
      intro y hy
      obtain ⟨e, he, rfl⟩ := List.mem_map.1 hy
      exact hgood r h1 e he
    · rintro ⟨m, rfl, -, ls, wr, ch, p, w0, h1, h2, h3, h4⟩
      refine ⟨⟨p, wr, ch⟩, (h.mem _).2 ⟨ls, h1⟩, ?_⟩
      rw [shown_text hr _ _ _ (walk_good hr h1)]
      rw [(Gen.mapFind_iff hr.finals p w0).2 h2, h3, h4]
      rfl
  have hp := hr.sortPerm resp
  have hle := hr.sortLe resp
  obtain ⟨m0, w0, hm0⟩ := (isFinal_iff hr.finals h).1 hfin
  have hne : σ.sort resp ≠ [] := by
    intro e
    have h0 : (text name m0, w0) ∈ σ.sort resp := hp.mem_iff.2 ((hmem _ _).2 ⟨m0, rfl, by
      obtain ⟨ls, wr, ch, p, w1, h1, h2, h3, h4⟩ := hm0
      rw [h4]
      refine shown_good hr _ _ _ ?_
      intro y hy
      obtain ⟨e, he, rfl⟩ := List.mem_map.1 hy
      exact walk_good hr h1 e he, hm0⟩)
    rw [e] at h0
    cases h0
  obtain ⟨x, rest, hx⟩ := List.exists_cons_of_ne_nil hne
  have hxm : (x.1, x.2) ∈ resp := hp.mem_iff.1 (by rw [hx]; simp)
  obtain ⟨m, e1, e2, e3⟩ := (hmem _ _).1 hxm
  refine ⟨m, ⟨x.2, e3, ?_⟩, e2, ?_⟩
  · intro m' w' h'
    have h0 : (text name m', w') ∈ σ.sort resp := hp.mem_iff.2 ((hmem _ _).2 ⟨m', rfl, by
      obtain ⟨ls, wr, ch, p, w1, h1, h2, h3, h4⟩ := h'
      rw [h4]
      refine shown_good hr _ _ _ ?_
      intro y hy
      obtain ⟨e, he, rfl⟩ := List.mem_map.1 hy
      exact walk_good hr h1 e he, h'⟩)
    rw [hx] at h0 hle
    rcases List.mem_cons.1 h0 with h0 | h0
    · rw [← h0]
    · exact (List.pairwise_cons.1 hle).1 _ h0
  · unfold Gen.results
    simp only
    rw [hresp]
    simp only [Res.bind_ok]
    rw [hx, nFinalsLoop, if_pos ⟨by decide, hr.classes⟩]
    have : nFinalsLoop (1 - 1) (if (0 : W) ≠ x.2 then σ.maxWeightClasses - 1 else σ.maxWeightClasses) rest = [] := by
      cases rest <;> simp [nFinalsLoop]
    rw [this]
    show Res.ok (dedup σ.showWeight [] [(x.1, x.2)]) = _
    simp only [dedup, SortedVec.insert, hr.silent, List.append_nil]
    rw [e1]
    rfl

omit [LinearOrder W] in
theorem match_walk [LE W] {xs m : List Int} (h : Match σ xs m) : ∃ ls wr ch p, Walk σ.graph σ.root (way σ) xs ls wr ch p := by
  obtain ⟨w, ⟨ls, wr, ch, p, w0, h1, -⟩, -⟩ := h
  exact ⟨ls, wr, ch, p, h1⟩

/-- There is a match exactly if a state is final. -/
theorem isFinal_match (hr : Regular σ name) {xs : List Int} {st : List (Rec W)} (h : Sound σ xs st) : isFinal σ.finals st = true ↔ ∃ m, Match σ xs m := by
  constructor
  · intro hf
    obtain ⟨m, h1, -⟩ := results_ok hr h hf
    exact ⟨m, h1⟩
  · rintro ⟨m, w, h1, -⟩
    exact (isFinal_iff hr.finals h).2 ⟨m, w, h1⟩

end

/-! ## The text of matches -/

/-- A symbol as it is written. -/
def symOf (name : Int → UString) (y : Int) : Alphabet.Sym := if y < 0 then .tag (name y) else .letter (UInt16.ofNat y.toNat) (decide (y ∈ Gen.escapedCps))

theorem tokenize_text [LinearOrder W] (hr : Regular σ name) {m : List Int} (h : ∀ y ∈ m, Good σ name y) :
    Alphabet.tokenize 0 σ.alphabet (text name m) = .ok m := by
  have e : text name m = (m.map (symOf name)).flatMap Alphabet.Sym.text := by
    unfold text
    rw [List.flatMap_map]
    refine List.flatMap_congr fun y hy => ?_
    rcases h y hy with hp | ⟨hn, -⟩
    · rw [plain_text hp]
      have := hp.1
      unfold symOf
      rw [if_neg (show ¬ y < 0 by omega)]
      by_cases he : y ∈ Gen.escapedCps <;> simp [Alphabet.Sym.text, he]
    · unfold symOf symText
      rw [if_neg (by omega), if_pos hn, if_pos hn]
      rfl
  have hw : ∀ x ∈ m.map (symOf name), x.Writable := by
    intro x hx
    obtain ⟨y, hy, rfl⟩ := List.mem_map.1 hx
    rcases h y hy with hp | ⟨hn, -, i, h2, h3⟩
    · have h1 := hp.1
      have h2 := hp.2.1
      have h3 := hp.2.2
      have hu : (UInt16.ofNat y.toNat).toNat = y.toNat := Proc.ofNat_toNat (by omega)
      unfold symOf
      rw [if_neg (by omega)]
      refine ⟨?_, ?_, ?_⟩
      · simp only [Compression.isLead, Bool.and_eq_false_iff, decide_eq_false_iff_not, UInt16.le_iff_toNat_le, hu]
        simp
        omega
      · simp only [Compression.isTrail, Bool.and_eq_false_iff, decide_eq_false_iff_not, UInt16.le_iff_toNat_le, hu]
        simp
        omega
      · intro k
        have : y = 0x5c ∨ y = 0x3c := by
          rcases k with k | k
          · left; have := congrArg UInt16.toNat k; rw [hu] at this; simp at this; omega
          · right; have := congrArg UInt16.toNat k; rw [hu] at this; simp at this; omega
        rcases this with rfl | rfl <;> decide
    · unfold symOf
      rw [if_pos hn]
      exact ⟨i, h2, h3⟩
  rw [e]
  have hps := Alphabet.pieces_syms 0 (by decide) (m.map (symOf name)) hw _ (Nat.le_refl _)
  simp only [Alphabet.tokenize, Alphabet.pieces, hps, Res.bind_ok, Res.pure_eq, Res.ok.injEq, List.map_map]
  conv => rhs; rw [← List.map_id m]
  refine List.map_congr_left fun y hy => ?_
  rcases h y hy with hp | ⟨hn, ht, i, h2, h3⟩
  · have h1 := hp.1
    have h2 := hp.2.1
    have hu : (UInt16.ofNat y.toNat).toNat = y.toNat := Proc.ofNat_toNat (by omega)
    simp only [Function.comp, symOf, if_neg (show ¬ y < 0 by omega), Alphabet.Sym.piece, id]
    show ((UInt16.ofNat y.toNat).toNat : Int) = y
    rw [hu]; omega
  · simp only [Function.comp, symOf, if_pos hn, Alphabet.Sym.piece, id]
    have hc := Alphabet.symCodeConst_of_hasTag hr.alphabet ht
    rw [h2] at hc ⊢
    cases i <;> exact hc

/-- The last unit is a space exactly if the last symbol is. -/
theorem text_space {m : List Int} (h : ∀ y ∈ m, Good σ name y) :
    (0x2f :: text name m).getLast? = some 0x20 ↔ m.getLast? = some 0x20 := by
  rcases List.eq_nil_or_concat m with rfl | ⟨m', y, rfl⟩
  · simp [text]
  · rw [List.concat_eq_append]
    rw [text_append, List.getLast?_concat]
    have hy := h y (by simp)
    have : text name [y] = symText name y := by simp [text]
    rw [this]
    rcases hy with hp | ⟨hn, -, i, h2, -⟩
    · have h1 := hp.1
      have h2 := hp.2.1
      rw [plain_text hp, ← List.append_assoc, ← List.cons_append, List.getLast?_concat]
      have : (0x20 : UInt16) = UInt16.ofNat 0x20 := rfl
      rw [Option.some.injEq, Option.some.injEq, this, unit_eq (by omega) (by omega)]
      omega
    · have : symText name y = (0x3c :: i) ++ [0x3e] := by
        unfold symText; rw [if_neg (by omega), if_pos hn, h2]
      rw [this, ← List.append_assoc, ← List.cons_append, List.getLast?_concat]
      simp only [Option.some.injEq]
      constructor
      · intro k; exact absurd k (by decide)
      · intro k; omega

theorem text_dropLast {m : List Int} (h : m.getLast? = some 0x20) : (0x2f :: text name m).dropLast = 0x2f :: text name m.dropLast := by
  rcases List.eq_nil_or_concat m with rfl | ⟨m', y, rfl⟩
  · simp at h
  · rw [List.concat_eq_append] at h ⊢
    simp only [List.getLast?_concat, Option.some.injEq] at h
    subst h
    rw [List.dropLast_concat, text_append]
    have : text name [0x20] = [0x20] := by
      simp only [text, List.flatMap_cons, List.flatMap_nil, List.append_nil]
      rw [plain_text (by unfold Plain; omega)]
      decide
    rw [this, ← List.cons_append, List.dropLast_concat]

end Verif.Post
