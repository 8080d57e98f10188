import Verif.Transducer.Insert
import Verif.SortedVec.Lemmas
import Mathlib.Data.List.Nodup
import Mathlib.Data.List.Perm.Subperm

/-! # closure and closure_all compute reachability -/

namespace Verif.Fst

open SortedVec

variable {W : Type}

/-- One step by an arc whose symbol is among the tags. -/
def TagEdge (t : Transducer W) (tags : List Int) (q : Nat) (l : Int × W) (p : Nat) : Prop :=
  Edge t q l p ∧ l.1 ∈ tags

theorem nodup_length_le {a b : List Nat} (h : a.Nodup) (hs : ∀ x ∈ a, x ∈ b) : a.length ≤ b.length :=
  (List.subperm_of_subset h hs).length_le

theorem length_setInsert {p : Nat} {l : List Nat} (h : p ∉ l) : (setInsert p l).length = l.length + 1 := by
  induction l with
  | nil => rfl
  | cons a l ih =>
    simp only [List.mem_cons, not_or] at h
    unfold setInsert
    split
    · rfl
    · split
      · simp [ih h.2]
      · omega

/-- The invariant of the search: everything unvisited is already in the result, both are sets, and
`k` states have been visited. -/
structure ClInv (U : List Nat) (nv res : List Nat) (k : Nat) : Prop where
  nv_sorted : nv.Pairwise (· < ·)
  res_sorted : res.Pairwise (· < ·)
  sub : ∀ x ∈ nv, x ∈ res
  univ : ∀ x ∈ res, x ∈ U
  count : res.length = nv.length + k

theorem closureFold_spec (U : List Nat) (succs nv res : List Nat) (k : Nat) (h : ClInv U nv res k)
    (hU : ∀ p ∈ succs, p ∈ U) :
    let r := succs.foldl (fun (nr : List Nat × List Nat) p =>
      if p ∈ nr.2 then nr else (setInsert p nr.1, setInsert p nr.2)) (nv, res)
    ClInv U r.1 r.2 k ∧ (∀ x, x ∈ r.2 ↔ x ∈ res ∨ x ∈ succs) ∧ (∀ x, x ∈ r.1 ↔ x ∈ nv ∨ (x ∈ succs ∧ x ∉ res)) := by
  induction succs generalizing nv res with
  | nil => simp [h]
  | cons p succs ih =>
    simp only [List.foldl_cons]
    by_cases hp : p ∈ res
    · simp only [hp, if_true]
      obtain ⟨h1, h2, h3⟩ := ih nv res h (fun x hx => hU x (List.mem_cons_of_mem _ hx))
      refine ⟨h1, ?_, ?_⟩
      · intro x; rw [h2, List.mem_cons]
        constructor
        · tauto
        · rintro (h | rfl | h) <;> tauto
      · intro x; rw [h3, List.mem_cons]
        constructor
        · tauto
        · rintro (h | ⟨rfl | h, h'⟩) <;> tauto
    · simp only [hp, if_false]
      have hpn : p ∉ nv := fun hx => hp (h.sub p hx)
      obtain ⟨h1, h2, h3⟩ := ih (setInsert p nv) (setInsert p res)
        ⟨sorted_setInsert h.nv_sorted p, sorted_setInsert h.res_sorted p, by
          intro x hx; rw [mem_setInsert] at hx ⊢; exact hx.imp id (h.sub x), by
          intro x hx; rw [mem_setInsert] at hx
          rcases hx with rfl | hx
          · exact hU x (by simp)
          · exact h.univ x hx, by
          rw [length_setInsert hp, length_setInsert hpn, h.count]; omega⟩
        (fun x hx => hU x (List.mem_cons_of_mem _ hx))
      refine ⟨h1, ?_, ?_⟩
      · intro x; rw [h2, mem_setInsert, List.mem_cons]; tauto
      · intro x; rw [h3, mem_setInsert, mem_setInsert, List.mem_cons]
        by_cases hx : x = p
        · subst hx; simp [hp]
        · simp [hx]

theorem mem_succs (t : Transducer W) (tags : List Int) (q p : Nat) :
    p ∈ tags.flatMap (fun tag => (equalRange tag (row t q)).map (·.1)) ↔ ∃ l, TagEdge t tags q l p := by
  simp only [List.mem_flatMap, List.mem_map, TagEdge, Edge]
  constructor
  · rintro ⟨tag, ht, ⟨p', w⟩, hm, rfl⟩
    exact ⟨(tag, w), (mem_equalRange _ _ _ _).mp hm, ht⟩
  · rintro ⟨⟨a, w⟩, hm, ha⟩
    exact ⟨a, ha, (p, w), (mem_equalRange _ _ _ _).mpr hm, rfl⟩

theorem length_erase {l : List Nat} {q : Nat} (hs : l.Nodup) (hq : q ∈ l) :
    (l.filter (· ≠ q)).length + 1 = l.length := by
  induction l with
  | nil => simp at hq
  | cons a l ih =>
    have hn := List.nodup_cons.mp hs
    by_cases ha : a = q
    · subst ha
      have : l.filter (· ≠ a) = l := List.filter_eq_self.mpr (fun x hx => by
        simp only [ne_eq, decide_not, Bool.not_eq_eq_eq_not, Bool.not_true, decide_eq_false_iff_not]
        rintro rfl; exact hn.1 hx)
      simp only [List.filter_cons, ne_eq, not_true_eq_false, decide_false, Bool.false_eq_true, if_false, this,
        List.length_cons]
    · have hq' : q ∈ l := by
        rcases List.mem_cons.mp hq with h | h
        · exact absurd h.symm ha
        · exact h
      simp only [List.filter_cons, ne_eq, ha, not_false_eq_true, decide_true, if_true, List.length_cons]
      rw [ih hn.2 hq']

theorem closureLoop_spec (t : Transducer W) (tags : List Int) (U : List Nat)
    (hU : ∀ q l p, TagEdge t tags q l p → p ∈ U) (P : Nat → Prop)
    (hP : ∀ q l p, P q → TagEdge t tags q l p → P p) (fuel : Nat) (nv res : List Nat) (k : Nat)
    (h : ClInv U nv res k) (hf : U.length < fuel + k) (hres : ∀ x ∈ res, P x)
    (hcl : ∀ q ∈ res, q ∉ nv → ∀ l p, TagEdge t tags q l p → p ∈ res) :
    let r := closureLoop t tags fuel nv res
    r.Pairwise (· < ·) ∧ (∀ x ∈ res, x ∈ r) ∧ (∀ x ∈ r, P x) ∧
      ∀ q ∈ r, ∀ l p, TagEdge t tags q l p → p ∈ r := by
  induction fuel generalizing nv res k with
  | zero =>
    exfalso
    have := nodup_length_le (h.res_sorted.imp (fun h => Nat.ne_of_lt h)) h.univ
    have := h.count
    omega
  | succ fuel ih =>
    cases nv with
    | nil =>
      simp only [closureLoop]
      exact ⟨h.res_sorted, fun _ hx => hx, hres, fun q hq => hcl q hq (by simp)⟩
    | cons q nv =>
      simp only [closureLoop, closureStep]
      have hsp := closureFold_spec U (tags.flatMap (fun tag => (equalRange tag (row t q)).map (·.1))) (q :: nv) res
        k h (fun p hp => by obtain ⟨l, hl⟩ := (mem_succs t tags q p).mp hp; exact hU _ _ _ hl)
      simp only at hsp
      generalize hr : (tags.flatMap (fun tag => (equalRange tag (row t q)).map (·.1))).foldl
        (fun (nr : List Nat × List Nat) p => if p ∈ nr.2 then nr else (setInsert p nr.1, setInsert p nr.2))
        (q :: nv, res) = r at hsp
      obtain ⟨nv', res'⟩ := r
      obtain ⟨h1, h2, h3⟩ := hsp
      simp only at h1 h2 h3
      have hqr : q ∈ res := h.sub q (by simp)
      have hqn : q ∈ nv' := (h3 q).mpr (.inl (by simp))
      have hlen := length_erase (h1.nv_sorted.imp (fun h => Nat.ne_of_lt h)) hqn
      obtain ⟨r1, r2, r3, r4⟩ := ih (nv'.filter (· ≠ q)) res' (k + 1)
        ⟨h1.nv_sorted.filter _, h1.res_sorted, fun x hx => h1.sub x (List.mem_of_mem_filter hx), h1.univ, by
          rw [h1.count]; omega⟩
        (by omega)
        (by
          intro x hx
          rcases (h2 x).mp hx with hx | hx
          · exact hres x hx
          · obtain ⟨l, hl⟩ := (mem_succs t tags q x).mp hx
            exact hP q l x (hres q hqr) hl)
        (by
          intro x hx hxn l p he
          rw [h2]
          by_cases hxq : x = q
          · subst hxq
            exact .inr ((mem_succs t tags x p).mpr ⟨l, he⟩)
          · have hxn' : x ∉ nv' := fun hx' => hxn (by simp [hx', hxq])
            rw [h3] at hxn'
            have hxr : x ∈ res := by
              by_contra hxr
              rcases (h2 x).mp hx with hx | hx
              · exact hxr hx
              · exact hxn' (.inr ⟨hx, hxr⟩)
            exact .inl (hcl x hxr (fun hx' => hxn' (.inl hx')) l p he))
      exact ⟨r1, fun x hx => r2 x ((h2 x).mpr (.inl hx)), r3, r4⟩

theorem length_arcsOf (t : Transducer W) : (arcsOf t.transitions).length = numberOfTransitions t := by
  simp [arcsOf, numberOfTransitions, List.length_flatMap]

theorem edge_target_mem (t : Transducer W) {q : Nat} {l : Int × W} {p : Nat} (h : Edge t q l p) :
    p ∈ (arcsOf t.transitions).map (fun a => a.2.2.1) := by
  unfold Edge row at h
  cases hr : mapFind q t.transitions with
  | none => simp [hr] at h
  | some r =>
    simp only [hr, Option.getD_some] at h
    refine List.mem_map.mpr ⟨(q, l.1, p, l.2), ?_, rfl⟩
    simp only [arcsOf, List.mem_flatMap, List.mem_map]
    exact ⟨(q, r), mapFind_mem hr, _, h, rfl⟩

theorem path_end_mem {E : Nat → Int × W → Nat → Prop} {r : List Nat} (hcl : ∀ q ∈ r, ∀ l p, E q l p → p ∈ r)
    {q p : Nat} {ls : List (Int × W)} (h : Path E q ls p) (hq : q ∈ r) : p ∈ r :=
  h.inv (· ∈ r) (fun q l p he hq => hcl q hq l p he) hq

theorem closure_spec (t : Transducer W) (state : Nat) (tags : List Int) :
    (closure t state tags).Pairwise (· < ·) ∧
    ∀ p, p ∈ closure t state tags ↔ ∃ ls, Path (TagEdge t tags) state ls p := by
  obtain ⟨h1, h2, h3, h4⟩ := closureLoop_spec t tags (state :: (arcsOf t.transitions).map (fun a => a.2.2.1))
    (fun q l p he => List.mem_cons_of_mem _ (edge_target_mem t he.1))
    (fun p => ∃ ls, Path (TagEdge t tags) state ls p)
    (fun q l p ⟨ls, hq⟩ he => ⟨ls ++ [l], hq.append (.single he)⟩)
    (numberOfTransitions t + 2) [state] [state] 0
    ⟨by simp, by simp, by simp, by simp, by simp⟩ (by simp [length_arcsOf])
    (by simp only [List.mem_singleton, forall_eq]; exact ⟨[], .nil _⟩)
    (fun q hq hq' => absurd hq hq')
  refine ⟨h1, fun p => ⟨h3 p, ?_⟩⟩
  rintro ⟨ls, hp⟩
  exact path_end_mem h4 hp (h2 state (by simp))

/-! ## closure_all -/

section
variable [DecidableEq W] [Zero W]

/-- One step by a weightless epsilon arc. -/
def EpsEdge (t : Transducer W) (ε : Int) (q : Nat) (l : Int × W) (p : Nat) : Prop := Edge t q l p ∧ l = (ε, 0)

/-- Reachable by weightless epsilon arcs. -/
def EpsReach (t : Transducer W) (ε : Int) (q p : Nat) : Prop := ∃ ls, Path (EpsEdge t ε) q ls p

omit [DecidableEq W] in
theorem EpsReach.refl (t : Transducer W) (ε : Int) (q : Nat) : EpsReach t ε q q := ⟨[], .nil q⟩

omit [DecidableEq W] in
theorem EpsReach.trans {t : Transducer W} {ε : Int} {q r p : Nat} (h : EpsReach t ε q r) (h' : EpsReach t ε r p) :
    EpsReach t ε q p := by
  obtain ⟨a, ha⟩ := h
  obtain ⟨b, hb⟩ := h'
  exact ⟨a ++ b, ha.append hb⟩

omit [DecidableEq W] in
theorem EpsReach.step {t : Transducer W} {ε : Int} {q p : Nat} (h : Edge t q (ε, 0) p) : EpsReach t ε q p :=
  ⟨[(ε, 0)], .single ⟨h, rfl⟩⟩

theorem directClosure_aux (l : List (Nat × W)) (c : List Nat) (hc : SSorted c) :
    let r := l.foldl (fun c e => if e.2 ≠ 0 then c else (SortedVec.insert e.1 c).1) c
    SSorted r ∧ ∀ x, x ∈ r ↔ x ∈ c ∨ (x, (0 : W)) ∈ l := by
  induction l generalizing c with
  | nil => simp [hc]
  | cons e l ih =>
    obtain ⟨p, w⟩ := e
    simp only [List.foldl_cons]
    by_cases hw : w = 0
    · subst hw
      simp only [ne_eq, not_true_eq_false, if_false]
      obtain ⟨h1, h2⟩ := ih _ (insert_sorted p c hc)
      refine ⟨h1, fun x => ?_⟩
      rw [h2, mem_insert p c hc]
      simp only [List.mem_cons, Prod.mk.injEq, and_true]
      tauto
    · simp only [ne_eq, hw, not_false_eq_true, if_true]
      obtain ⟨h1, h2⟩ := ih c hc
      refine ⟨h1, fun x => ?_⟩
      rw [h2]
      simp only [List.mem_cons, Prod.mk.injEq, eq_comm (a := (0 : W)), hw, and_false, false_or]

theorem directClosure_spec (t : Transducer W) (ε : Int) (i : Nat) :
    SSorted (directClosure t ε i) ∧ ∀ x, x ∈ directClosure t ε i ↔ x = i ∨ Edge t i (ε, 0) x := by
  obtain ⟨h1, h2⟩ := directClosure_aux (equalRange ε (row t i)) (SortedVec.insert i []).1
    (insert_sorted i [] SSorted.nil)
  refine ⟨h1, fun x => ?_⟩
  have := h2 x
  rw [mem_insert i [] SSorted.nil] at this
  rw [directClosure]
  refine this.trans ?_
  simp [Edge, mem_equalRange]

theorem mem_reversedOf {t : Transducer W} (h : WF t) (ε : Int) (p i : Nat) :
    i ∈ reversedOf t ε p ↔ Edge t i (ε, 0) p := by
  simp only [reversedOf, List.mem_flatMap, List.mem_range, List.mem_filterMap]
  constructor
  · rintro ⟨j, -, ⟨p', w⟩, hm, he⟩
    split at he
    · simp at he
    · next hw =>
      split at he
      · next hp =>
        simp only [Option.some.injEq] at he
        simp only [ne_eq, not_not] at hw
        subst he hw hp
        exact (mem_equalRange _ _ _ _).mp hm
      · simp at he
  · intro he
    exact ⟨i, h.source_lt he, (p, 0), (mem_equalRange _ _ _ _).mpr he, by simp⟩

theorem getD_set (l : List (List Nat)) (i j : Nat) (v : List Nat) (hi : i < l.length) :
    (l.set i v).getD j [] = if j = i then v else l.getD j [] := by
  by_cases h : j = i
  · subst h; simp [hi]
  · simp [List.getD_eq_getElem?_getD, List.getElem?_set_ne (Ne.symm h), h]

theorem absorb_spec (it : Nat) (temp : List Nat) (ret : List (List Nat)) (hi : it < ret.length)
    (hs : SSorted (ret.getD it [])) :
    (absorb it temp ret).length = ret.length ∧ SSorted ((absorb it temp ret).getD it []) ∧
    (∀ j, j ≠ it → (absorb it temp ret).getD j [] = ret.getD j []) ∧
    ∀ x, x ∈ (absorb it temp ret).getD it [] ↔ x ∈ ret.getD it [] ∨ ∃ j ∈ temp, x ∈ ret.getD j [] := by
  induction temp generalizing ret with
  | nil => exact ⟨rfl, hs, fun _ _ => rfl, by simp [absorb]⟩
  | cons it2 temp ih =>
    simp only [absorb]
    have hg := getD_set ret it
    have hgi : (ret.set it (insertRange (ret.getD it2 []) (ret.getD it []))).getD it [] =
        insertRange (ret.getD it2 []) (ret.getD it []) := by rw [getD_set _ _ _ _ hi]; simp
    obtain ⟨h1, h2, h3, h4⟩ := ih (ret.set it (insertRange (ret.getD it2 []) (ret.getD it []))) (by simpa using hi)
      (by rw [hgi]; exact insertRange_sorted _ _ hs)
    refine ⟨by rw [h1]; simp, h2, fun j hj => by rw [h3 j hj, getD_set _ _ _ _ hi]; simp [hj], fun x => ?_⟩
    rw [h4, hgi, mem_insertRange _ _ hs]
    constructor
    · rintro ((h | h) | ⟨j, hj, h⟩)
      · exact .inr ⟨it2, by simp, h⟩
      · exact .inl h
      · rw [getD_set _ _ _ _ hi] at h
        split at h
        · rw [mem_insertRange _ _ hs] at h
          rcases h with h | h
          · exact .inr ⟨it2, by simp, h⟩
          · exact .inl h
        · exact .inr ⟨j, List.mem_cons_of_mem _ hj, h⟩
    · rintro (h | ⟨j, hj, h⟩)
      · exact .inl (.inr h)
      · rcases List.mem_cons.mp hj with rfl | hj
        · exact .inl (.inl h)
        · refine .inr ⟨j, hj, ?_⟩
          rw [getD_set _ _ _ _ hi]
          split
          · next hji => subst hji; rw [mem_insertRange _ _ hs]; exact .inr h
          · exact h

/-- What always holds of `ret`. -/
structure RetInv (t : Transducer W) (ε : Int) (ret : List (List Nat)) : Prop where
  len : ret.length = size t
  sorted : ∀ i < size t, SSorted (ret.getD i [])
  direct : ∀ i < size t, i ∈ ret.getD i [] ∧ ∀ p, Edge t i (ε, 0) p → p ∈ ret.getD i []
  reach : ∀ i < size t, ∀ p ∈ ret.getD i [], EpsReach t ε i p

omit [DecidableEq W] in
theorem EpsReach.lt {t : Transducer W} (h : WF t) {ε : Int} {q p : Nat} (hr : EpsReach t ε q p) (hq : q < size t) :
    p < size t := by
  obtain ⟨ls, hp⟩ := hr
  exact hp.inv (fun q => q < size t) (fun _ _ _ he _ => h.target_lt _ _ _ he.1) hq

/-- Total size of the sets. -/
def total (ret : List (List Nat)) : Nat := (ret.map List.length).sum

theorem total_set (ret : List (List Nat)) (i : Nat) (v : List Nat) (hi : i < ret.length) :
    total (ret.set i v) + (ret.getD i []).length = total ret + v.length := by
  induction ret generalizing i with
  | nil => simp at hi
  | cons a ret ih =>
    cases i with
    | zero => simp [total]; omega
    | succ i =>
      have := ih i (by simpa using hi)
      simp only [total, List.set_cons_succ, List.map_cons, List.sum_cons, List.getD_cons_succ] at this ⊢
      omega

theorem set_self_getD (ret : List (List Nat)) (i : Nat) (hi : i < ret.length) : ret.set i (ret.getD i []) = ret := by
  simp [List.getD_eq_getElem?_getD, hi]

theorem ext_getD {a b : List (List Nat)} (hl : a.length = b.length) (h : ∀ i < a.length, a.getD i [] = b.getD i []) :
    a = b := by
  apply List.ext_getElem hl
  intro i h1 h2
  have := h i h1
  simpa [List.getD_eq_getElem?_getD, h1, h2] using this

theorem absorb_eq_set (it : Nat) (temp : List Nat) (ret : List (List Nat)) (hi : it < ret.length)
    (hs : SSorted (ret.getD it [])) :
    absorb it temp ret = ret.set it ((absorb it temp ret).getD it []) := by
  obtain ⟨h1, -, h3, -⟩ := absorb_spec it temp ret hi hs
  apply ext_getD (by simp [h1])
  intro j _
  rw [getD_set _ _ _ _ hi]
  split
  · next h => rw [h]
  · next h => exact h3 j h

theorem sorted_length_mono {a b : List Nat} (ha : SSorted a) (hb : SSorted b) (h : ∀ x ∈ a, x ∈ b) :
    a.length ≤ b.length ∧ (b.length ≤ a.length → a = b) := by
  have hna : a.Nodup := ha.imp (fun h => Nat.ne_of_lt h)
  have hnb : b.Nodup := hb.imp (fun h => Nat.ne_of_lt h)
  refine ⟨nodup_length_le hna h, fun hle => ?_⟩
  have hp := (List.subperm_of_subset hna h).perm_of_length_le hle
  exact SSorted.ext ha hb (fun x => hp.mem_iff)

/-- One round. `Closed ret i` is closedness of the set of `i` under the sets of its direct successors. -/
theorem closureRound_spec {t : Transducer W} (h : WF t) (ε : Int) (todo : List Nat) (ret : List (List Nat))
    (newTodo : List Nat) (hinv : RetInv t ε ret) (htodo : ∀ i ∈ todo, i < size t) (hnt : SSorted newTodo)
    (hntlt : ∀ i ∈ newTodo, i < size t)
    (hcl : ∀ i < size t, i ∉ todo → i ∉ newTodo → ∀ j, Edge t i (ε, 0) j → ∀ p ∈ ret.getD j [], p ∈ ret.getD i []) :
    let r := closureRound t ε todo ret newTodo
    RetInv t ε r.1 ∧ SSorted r.2 ∧ (∀ i ∈ r.2, i < size t) ∧
    (∀ i < size t, i ∉ r.2 → ∀ j, Edge t i (ε, 0) j → ∀ p ∈ r.1.getD j [], p ∈ r.1.getD i []) ∧
    total ret ≤ total r.1 ∧ (r.2 = newTodo ∨ total ret < total r.1) := by
  induction todo generalizing ret newTodo with
  | nil => exact ⟨hinv, hnt, hntlt, fun i hi hin => hcl i hi (by simp) hin, le_refl _, .inl rfl⟩
  | cons it todo ih =>
    simp only [closureRound]
    have hit : it < size t := htodo it (by simp)
    have hitl : it < ret.length := by rw [hinv.len]; exact hit
    have hs := hinv.sorted it hit
    obtain ⟨a1, a2, a3, a4⟩ := absorb_spec it (ret.getD it []) ret hitl hs
    have aset := absorb_eq_set it (ret.getD it []) ret hitl hs
    generalize hret' : absorb it (ret.getD it []) ret = ret' at a1 a2 a3 a4 aset
    have hsub : ∀ x ∈ ret.getD it [], x ∈ ret'.getD it [] := fun x hx => (a4 x).mpr (.inl hx)
    have hmono := sorted_length_mono hs a2 hsub
    have hinv' : RetInv t ε ret' := by
      refine ⟨a1.trans hinv.len, ?_, ?_, ?_⟩
      · intro i hi
        by_cases hii : i = it
        · subst hii; exact a2
        · rw [a3 i hii]; exact hinv.sorted i hi
      · intro i hi
        by_cases hii : i = it
        · subst hii; exact ⟨hsub _ (hinv.direct i hi).1, fun p hp => hsub _ ((hinv.direct i hi).2 p hp)⟩
        · rw [a3 i hii]; exact hinv.direct i hi
      · intro i hi p hp
        by_cases hii : i = it
        · subst hii
          rcases (a4 p).mp hp with hp | ⟨j, hj, hp⟩
          · exact hinv.reach i hi p hp
          · have hj' := hinv.reach i hi j hj
            exact hj'.trans (hinv.reach j (hj'.lt h hi) p hp)
        · rw [a3 i hii] at hp; exact hinv.reach i hi p hp
    have htot := total_set ret it (ret'.getD it []) hitl
    rw [← aset] at htot
    -- the new worklist
    have hnew : ∀ nt, nt = (if (ret'.getD it []).length > (ret.getD it []).length
        then insertRange (reversedOf t ε it) newTodo else newTodo) →
        SSorted nt ∧ (∀ i ∈ nt, i < size t) ∧ (∀ i ∈ newTodo, i ∈ nt) ∧
        ((ret'.getD it []).length > (ret.getD it []).length → ∀ i, Edge t i (ε, 0) it → i ∈ nt) ∧
        (¬ (ret'.getD it []).length > (ret.getD it []).length → nt = newTodo) := by
      intro nt hnt'
      split at hnt'
      · next hgt =>
        subst hnt'
        refine ⟨insertRange_sorted _ _ hnt, ?_, ?_, ?_, fun hn => absurd hgt hn⟩
        · intro i hi
          rw [mem_insertRange _ _ hnt, mem_reversedOf h] at hi
          rcases hi with hi | hi
          · exact h.source_lt hi
          · exact hntlt i hi
        · intro i hi; rw [mem_insertRange _ _ hnt]; exact .inr hi
        · intro _ i hi; rw [mem_insertRange _ _ hnt, mem_reversedOf h]; exact .inl hi
      · next hgt =>
        subst hnt'
        exact ⟨hnt, hntlt, fun _ hi => hi, fun hg => absurd hg hgt, fun _ => rfl⟩
    generalize hnt' : (if (ret'.getD it []).length > (ret.getD it []).length
        then insertRange (reversedOf t ε it) newTodo else newTodo) = nt
    obtain ⟨n1, n2, n3, n4, n5⟩ := hnew nt hnt'.symm
    obtain ⟨r1, r2, r3, r4, r5, r6⟩ := ih ret' nt hinv' (fun i hi => htodo i (List.mem_cons_of_mem _ hi)) n1 n2 (by
      intro i hi hi1 hi2 j hj p hp
      by_cases hii : i = it
      · subst hii
        by_cases hji : j = i
        · subst hji; exact hp
        · rw [a3 j hji] at hp
          exact (a4 p).mpr (.inr ⟨j, (hinv.direct i hi).2 j hj, hp⟩)
      · rw [a3 i hii]
        have hold := hcl i hi (by simp [hii, hi1]) (fun hx => hi2 (n3 i hx)) j hj p
        by_cases hji : j = it
        · subst hji
          by_cases hgt : (ret'.getD j []).length > (ret.getD j []).length
          · exact absurd (n4 hgt i hj) hi2
          · have heq := hmono.2 (by omega)
            rw [← heq] at hp
            exact hold hp
        · rw [a3 j hji] at hp; exact hold hp)
    refine ⟨r1, r2, r3, r4, by omega, ?_⟩
    by_cases hgt : (ret'.getD it []).length > (ret.getD it []).length
    · right; omega
    · rw [n5 hgt] at r6 ⊢
      rcases r6 with r6 | r6
      · exact .inl r6
      · right; omega

theorem sum_le_mul (l : List Nat) (n : Nat) (h : ∀ x ∈ l, x ≤ n) : l.sum ≤ l.length * n := by
  induction l with
  | nil => simp
  | cons a l ih =>
    have h1 := h a (by simp)
    have h2 := ih (fun x hx => h x (List.mem_cons_of_mem _ hx))
    simp only [List.sum_cons, List.length_cons, Nat.add_mul, Nat.one_mul]
    omega

omit [DecidableEq W] in
theorem total_le {t : Transducer W} (h : WF t) {ε : Int} {ret : List (List Nat)} (hinv : RetInv t ε ret) :
    total ret ≤ size t * size t := by
  have hlen : ∀ l ∈ ret.map List.length, l ≤ size t := by
    intro l hl
    obtain ⟨s, hs, rfl⟩ := List.mem_map.mp hl
    obtain ⟨i, hi, rfl⟩ := List.getElem_of_mem hs
    have hi' : i < size t := by rw [← hinv.len]; exact hi
    have hg : ret.getD i [] = ret[i] := by simp [List.getD_eq_getElem?_getD, hi]
    rw [← hg]
    have hsd := hinv.sorted i hi'
    have := nodup_length_le (a := ret.getD i []) (b := List.range (size t)) (hsd.imp (fun h => Nat.ne_of_lt h))
      (fun x hx => List.mem_range.mpr ((hinv.reach i hi' x hx).lt h hi'))
    simpa using this
  have := sum_le_mul (ret.map List.length) (size t) hlen
  simpa [total, hinv.len] using this

theorem closureRounds_spec {t : Transducer W} (h : WF t) (ε : Int) (fuel : Nat) (todo : List Nat)
    (ret : List (List Nat)) (hinv : RetInv t ε ret) (htodo : ∀ i ∈ todo, i < size t)
    (hcl : ∀ i < size t, i ∉ todo → ∀ j, Edge t i (ε, 0) j → ∀ p ∈ ret.getD j [], p ∈ ret.getD i [])
    (hfuel : size t * size t + 2 ≤ fuel + total ret) :
    RetInv t ε (closureRounds t ε fuel todo ret) ∧
    ∀ i < size t, ∀ j, Edge t i (ε, 0) j → ∀ p ∈ (closureRounds t ε fuel todo ret).getD j [],
      p ∈ (closureRounds t ε fuel todo ret).getD i [] := by
  induction fuel generalizing todo ret with
  | zero => have := total_le h hinv; omega
  | succ fuel ih =>
    cases todo with
    | nil => exact ⟨hinv, fun i hi => hcl i hi (by simp)⟩
    | cons it todo =>
      simp only [closureRounds]
      obtain ⟨r1, r2, r3, r4, r5, r6⟩ := closureRound_spec h ε (it :: todo) ret [] hinv htodo SSorted.nil (by simp)
        (fun i hi hi' _ => hcl i hi hi')
      rcases r6 with r6 | r6
      · have hbound := total_le h r1
        cases fuel with
        | zero =>
          have := total_le h hinv
          omega
        | succ fuel =>
          rw [r6]
          simp only [closureRounds]
          exact ⟨r1, fun i hi => r4 i hi (by rw [r6]; simp)⟩
      · exact ih _ _ r1 r3 (fun i hi hin => r4 i hi hin) (by omega)

theorem initTodo_spec (ret : List (List Nat)) (l : List Nat) (td : List Nat) (htd : SSorted td) :
    let r := l.foldl (fun td i => if (ret.getD i []).length > 1 then (SortedVec.insert i td).1 else td) td
    SSorted r ∧ ∀ i, i ∈ r ↔ i ∈ td ∨ (i ∈ l ∧ (ret.getD i []).length > 1) := by
  induction l generalizing td with
  | nil => simp [htd]
  | cons a l ih =>
    simp only [List.foldl_cons]
    by_cases ha : (ret.getD a []).length > 1
    · rw [if_pos ha]
      obtain ⟨h1, h2⟩ := ih _ (insert_sorted a td htd)
      refine ⟨h1, fun i => ?_⟩
      rw [h2, mem_insert a td htd, List.mem_cons]
      constructor
      · rintro ((rfl | h) | h)
        · exact .inr ⟨.inl rfl, ha⟩
        · exact .inl h
        · exact .inr ⟨.inr h.1, h.2⟩
      · rintro (h | ⟨rfl | h, h'⟩)
        · exact .inl (.inr h)
        · exact .inl (.inl rfl)
        · exact .inr ⟨h, h'⟩
    · rw [if_neg ha]
      obtain ⟨h1, h2⟩ := ih td htd
      refine ⟨h1, fun i => ?_⟩
      rw [h2, List.mem_cons]
      constructor
      · rintro (h | h)
        · exact .inl h
        · exact .inr ⟨.inr h.1, h.2⟩
      · rintro (h | ⟨rfl | h, h'⟩)
        · exact .inl h
        · exact absurd h' ha
        · exact .inr ⟨h, h'⟩

omit [DecidableEq W] [Zero W] in
theorem targetsInRange_of_wf {t : Transducer W} (h : WF t) : targetsInRange t = true := by
  rw [targetsInRange, List.all_eq_true]
  rintro ⟨q, a, p, w⟩ hx
  rw [mem_arcsOf h] at hx
  simpa [size] using h.target_lt _ _ _ hx

theorem closureAll_spec {t : Transducer W} (h : WF t) (ε : Int) :
    ∃ ret, closureAll t ε = .ok ret ∧ ret.length = size t ∧
      ∀ i < size t, SSorted (ret.getD i []) ∧ ∀ p, p ∈ ret.getD i [] ↔ EpsReach t ε i p := by
  have hall : (List.range t.transitions.length).all (exists_ t) = true := by
    rw [List.all_eq_true]
    intro q hq
    exact (exists_iff h q).mpr (List.mem_range.mp hq)
  have hget : ∀ i < size t, ((List.range t.transitions.length).map (directClosure t ε)).getD i [] =
      directClosure t ε i := by
    intro i hi
    have hi' : i < t.transitions.length := hi
    simp [List.getD_eq_getElem?_getD, hi']
  have hinv : RetInv t ε ((List.range t.transitions.length).map (directClosure t ε)) := by
    refine ⟨by simp [size], ?_, ?_, ?_⟩
    · intro i hi; rw [hget i hi]; exact (directClosure_spec t ε i).1
    · intro i hi; rw [hget i hi]
      exact ⟨((directClosure_spec t ε i).2 i).mpr (.inl rfl),
        fun p hp => ((directClosure_spec t ε i).2 p).mpr (.inr hp)⟩
    · intro i hi p hp
      rw [hget i hi, (directClosure_spec t ε i).2] at hp
      rcases hp with rfl | hp
      · exact EpsReach.refl t ε _
      · exact EpsReach.step hp
  generalize hret : (List.range t.transitions.length).map (directClosure t ε) = ret at hinv hget
  obtain ⟨ht1, ht2⟩ := initTodo_spec ret (List.range t.transitions.length) [] SSorted.nil
  generalize htodo : (List.range t.transitions.length).foldl
    (fun td i => if (ret.getD i []).length > 1 then (SortedVec.insert i td).1 else td) [] = todo at ht1 ht2
  obtain ⟨r1, r2⟩ := closureRounds_spec h ε (t.transitions.length * t.transitions.length + 2) todo ret hinv
    (by
      intro i hi
      rw [ht2] at hi
      simp only [List.not_mem_nil, List.mem_range, false_or] at hi
      exact hi.1)
    (by
      intro i hi hin j hj p hp
      have hlen : ¬ (ret.getD i []).length > 1 := fun hgt => hin ((ht2 i).mpr (.inr ⟨List.mem_range.mpr hi, hgt⟩))
      have hmi := (hinv.direct i hi).1
      have hmj := (hinv.direct i hi).2 j hj
      have : j = i := by
        match hl : ret.getD i [], hlen with
        | [x], _ =>
          rw [hl] at hmi hmj
          simp only [List.mem_singleton] at hmi hmj
          rw [hmi, hmj]
        | [], _ => rw [hl] at hmi; simp at hmi
        | _ :: _ :: _, hlen => simp at hlen
      subst this; exact hp)
    (by simp only [size]; omega)
  refine ⟨closureRounds t ε (t.transitions.length * t.transitions.length + 2) todo ret, ?_, r1.len, ?_⟩
  · simp only [closureAll, hall, targetsInRange_of_wf h, if_true, hret, htodo]
  · intro i hi
    refine ⟨r1.sorted i hi, fun p => ⟨r1.reach i hi p, ?_⟩⟩
    rintro ⟨ls, hp⟩
    induction hp with
    | nil q => exact (r1.direct q hi).1
    | cons he _ ih =>
      obtain ⟨he1, rfl⟩ := he
      exact r2 _ hi _ he1 _ (ih (h.target_lt _ _ _ he1))

end

end Verif.Fst
