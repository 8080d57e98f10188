import Verif.Bil.Spec
import Verif.Gen.Lemmas

/-! # Translations -/

namespace Verif.Bil

open Verif.State Verif.Stream Verif.Input Verif.Walk Verif.Merge
open Verif.Gen (Mode Form pieces whole slashed escapedCps results ended)

variable {W : Type}

/-! ## Names -/

theorem nameOf_tag {b : Alphabet} {c : Int} {t : UString} (h : b.HasTag c t) : c < 0 ∧ nameOf b c = t ∧ b.tagText c = .ok t := by
  obtain ⟨i, hi, rfl⟩ := h
  have e : (-Alphabet.tagNo i - 1).toNat = i := by simp only [Alphabet.tagNo]; omega
  refine ⟨by simp only [Alphabet.tagNo]; omega, ?_, ?_⟩
  · unfold nameOf; rw [e, hi]; rfl
  · unfold Alphabet.tagText; rw [e, hi]

theorem tag_of_text {b : Alphabet} {c : Int} {t : UString} (hc : c < 0) (h : b.tagText c = .ok t) : b.HasTag c t := by
  unfold Alphabet.tagText at h
  cases hg : b.slexicinv[(-c - 1).toNat]? with
  | none => rw [hg] at h; cases h
  | some s =>
    rw [hg] at h
    cases h
    exact ⟨_, hg, by simp only [Alphabet.tagNo]; omega⟩

section
variable [AddMonoid W] [LinearOrder W] {σ : Setting W} {b : Alphabet}

omit [AddMonoid W] in
/-- What arcs write, in an extended alphabet. -/
theorem regular_ext (hr : Regular σ) (h : σ.alphabet.Ext b) : Gen.Regular σ.toSetting (nameOf b) := by
  refine { hr.base with names := fun q l p ha => ⟨(hr.base.names q l p ha).1, fun h0 => ?_⟩ }
  have h1 := (hr.base.names q l p ha).2 h0
  have h2 := tag_of_text h0 h1
  rw [h1, (nameOf_tag (h2.mono h)).2.1]

/-- The symbols of a reading, and the text of each. -/
structure Known (σ : Setting W) (a : Alphabet) (x : Int) : Prop where
  any : x ≠ σ.anyChar
  range : x < 0x110000
  tag : x < 0 → ∃ t, a.HasTag x t

omit [AddMonoid W] in
theorem known_of (hr : Regular σ) {a : Alphabet} (he : σ.alphabet.Ext a) {s : RSyn} (hw : s.WF) (hp : Plain s) {xs : List Int} (hx : SymsOf true (some a) s.toks xs) :
    ∀ x ∈ xs, Known σ a x := by
  intro x hx'
  obtain ⟨t, ht, hs⟩ := Walk.forall2_left hx hx'
  obtain ⟨ht, hk⟩ := List.mem_filter.1 ht
  have hany := nameOf_tag hr.any
  cases t with
  | chunk _ => simp [RTok.isChunk] at hk
  | tag ts =>
    rcases hs with hs | ⟨hs, -⟩
    · have h1 := nameOf_tag hs
      refine ⟨?_, by have := h1.1; omega, fun _ => ⟨_, hs⟩⟩
      rintro rfl
      have h2 := nameOf_tag (hr.any.mono he)
      exact hp.tags ts ht (h1.2.1.symm.trans h2.2.1)
    · cases hs
  | tok t =>
    have key : ∀ c : Nat, Scalar c → Known σ a (c : Int) := by
      intro c hc
      have hc' : c < 0x110000 := by rcases hc with hc | hc <;> omega
      refine ⟨by have := hany.1; omega, by omega, fun h => ?_⟩
      omega
    have hwt := hw.toks _ ht
    cases t with
    | raw c => obtain rfl := hs; exact key c hwt.1
    | esc c => obtain rfl := hs; exact key c hwt

/-! ## Steps -/

/-- The symbols that are tried. -/
def tried (σ : Setting W) (fold : Bool) (x : Int) : List Int :=
  if x = 0 then []
  else if fold && !σ.caseSensitive && decide (σ.toLower x ≠ x) then [x, σ.toLower x, σ.anyChar]
  else [x, σ.anyChar]

omit [AddMonoid W] in
theorem lower_any (hr : Regular σ) {x : Int} (hx : x ≠ σ.anyChar) (hl : x < 0x110000) : σ.toLower x ≠ σ.anyChar := by
  have hany := (nameOf_tag hr.any).1
  rcases lt_or_ge x 0 with h | h
  · rwa [hr.lowerTag x (by omega)]
  · have := (hr.lowerRange x h hl).1; omega

omit [AddMonoid W] in
theorem tried_steps (hr : Regular σ) (fold : Bool) {x : Int} (hx : x ≠ σ.anyChar) (hl : x < 0x110000) (r : Rec W) :
    Steps σ.graph (way σ fold) x r (intos σ.graph x ((way σ fold).out x) (tried σ fold x) r) := by
  have hany := (nameOf_tag hr.any).1
  have h1 := lower_any hr hx hl
  have h2 := hr.base.lowerZero x
  refine intos_steps (y := way σ fold) r _ ?_ ?_ ?_
  · unfold tried
    split
    · simp
    · split
      · rename_i h
        simp only [Bool.and_eq_true, decide_eq_true_eq] at h
        simp [hx, h1, Ne.symm h.2]
      · simp [hx]
  · intro z hz
    unfold tried at hz
    split at hz
    · cases hz
    · rename_i h0
      split at hz
      · simp only [List.mem_cons, List.not_mem_nil, or_false] at hz
        rcases hz with rfl | rfl | rfl
        · exact h0
        · exact fun e => h0 (h2 e)
        · omega
      · simp only [List.mem_cons, List.not_mem_nil, or_false] at hz
        rcases hz with rfl | rfl
        · exact h0
        · omega
  · intro z _
    show (x ≠ 0 ∧ (z = x ∨ z = σ.anyChar ∨ (fold = true ∧ σ.caseSensitive = false ∧ z = σ.toLower x))) ↔ _
    unfold tried
    split
    · rename_i h; simp [h]
    · rename_i h0
      split
      · rename_i h
        simp only [Bool.and_eq_true, decide_eq_true_eq, Bool.not_eq_true'] at h
        simp only [List.mem_cons, List.not_mem_nil, or_false, h0, h.1.1, h.1.2, ne_eq, not_false_eq_true, true_and]
        tauto
      · rename_i h
        simp only [Bool.and_eq_true, decide_eq_true_eq, Bool.not_eq_true', not_and, not_not, ne_eq] at h
        simp only [List.mem_cons, List.not_mem_nil, or_false, h0, ne_eq, not_false_eq_true, true_and]
        constructor
        · rintro (e | e | ⟨e1, e2, e3⟩)
          · exact .inl e
          · exact .inr e
          · exact .inl (e3.trans (h ⟨e1, e2⟩))
        · rintro (e | e)
          · exact .inl e
          · exact .inr (.inl e)

omit [AddMonoid W] in
theorem override_eq (hr : Regular σ) (fold : Bool) {x : Int} (hx : x ≠ σ.anyChar) (hf : (fold && !σ.caseSensitive && decide (σ.toLower x ≠ x)) = false) (st : List (Rec W)) :
    applyOverride σ.graph x σ.anyChar x st = st.flatMap fun r => intos σ.graph x ((way σ fold).out x) (tried σ fold x) r := by
  have hany := (nameOf_tag hr.any).1
  unfold applyOverride tried
  by_cases h0 : x = 0
  · simp [h0, intos]
  · rw [if_neg (by rintro (e | e); exacts [h0 e, by omega])]
    simp only [h0, if_false, hf]
    refine List.flatMap_congr fun r _ => ?_
    rw [override_into _ h0, override_into _ (by omega)]
    simp [intos, way, Ne.symm hx]

omit [AddMonoid W] in
theorem bilStep_eq (hr : Regular σ) (n : Nat) {x : Int} (hx : x ≠ σ.anyChar) (st : List (Rec W)) (hs : st.length < 65536) :
    bilStep σ n x st = ended (epsilonClosure σ.graph n (st.flatMap fun r => intos σ.graph x ((way σ true).out x) (tried σ true x) r)) := by
  have hc : σ.beCaseSensitive st = σ.caseSensitive := by simp [Gen.Setting.beCaseSensitive, hs]
  have hany := (nameOf_tag hr.any).1
  unfold bilStep
  rw [hc]
  split
  · rename_i h
    unfold stepOverride
    rw [override_eq hr true hx (by simp [h])]
  · rename_i h
    unfold stepOverrideAlt applyOverrideAlt
    split
    · rename_i h1
      rw [override_eq hr true hx (by simp [← h1])]
    · rename_i h1
      congr 2
      by_cases h0 : x = 0
      · simp [h0, tried, intos]
      · rw [if_neg (by rintro (e | e); exacts [h0 e, by omega])]
        refine List.flatMap_congr fun r _ => ?_
        rw [override_into _ h0, override_into _ (fun e => h0 (hr.base.lowerZero x e)), override_into _ (by omega)]
        unfold tried
        rw [if_neg h0, if_pos (by simp [h, Ne.symm h1])]
        simp [intos, way, Ne.symm hx, Ne.symm h1]

/-- A symbol of the second attempt. -/
def low (σ : Setting W) (x : Int) : Int := if x < 0 ∨ σ.caseSensitive = true then x else σ.toLower x

omit [AddMonoid W] in
theorem low_known (hr : Regular σ) {a : Alphabet} {x : Int} (h : Known σ a x) : Known σ a (low σ x) := by
  unfold low
  split
  · exact h
  · rename_i hc
    have h0 : 0 ≤ x := by by_contra hn; exact hc (.inl (by omega))
    have := hr.lowerRange x h0 h.range
    exact ⟨lower_any hr h.any h.range, this.2, fun hn => by omega⟩

omit [AddMonoid W] in
theorem lowStep_eq (hr : Regular σ) (n : Nat) {x : Int} (hx : x ≠ σ.anyChar) (hl : x < 0x110000) (st : List (Rec W)) (hs : st.length < 65536) :
    lowStep σ n x st = ended (epsilonClosure σ.graph n (st.flatMap fun r => intos σ.graph (low σ x) ((way σ false).out (low σ x)) (tried σ false (low σ x)) r)) := by
  have hc : σ.beCaseSensitive st = σ.caseSensitive := by simp [Gen.Setting.beCaseSensitive, hs]
  unfold lowStep low
  rw [hc]
  by_cases h : x < 0 ∨ σ.caseSensitive = true
  · rw [if_pos (by simpa using h), if_pos h]
    unfold stepOverride
    rw [override_eq hr false hx (by simp)]
  · rw [if_neg (by simpa using h), if_neg h]
    unfold stepOverride
    rw [override_eq hr false (lower_any hr hx hl) (by simp)]

omit [AddMonoid W] in
theorem step_ok (hr : Regular σ) (fold : Bool) {x : Int} (hx : x ≠ σ.anyChar) (hl : x < 0x110000) {us : List Int} {st : List (Rec W)}
    (h : Walk.Sound σ.graph σ.root (way σ fold) us st) : ∃ st', Walk.Sound σ.graph σ.root (way σ fold) (us ++ [x]) st' ∧
      ∃ N, ∀ n ≥ N, epsilonClosure σ.graph n (st.flatMap fun r => intos σ.graph x ((way σ fold).out x) (tried σ fold x) r) = some st' := by
  obtain ⟨k, hk⟩ := hr.base.finite
  obtain ⟨N, st1, h1⟩ := (closure_ends_iff hk (st.flatMap fun r => intos σ.graph x ((way σ fold).out x) (tried σ fold x) r)).2 fun r _ => hr.base.noCycle _
  exact ⟨st1, sound_step h _ (tried_steps hr fold hx hl) h1, N, fun n hn => closure_mono h1 hn⟩

omit [AddMonoid W] in
theorem way_names (hr : Regular σ) {a : Alphabet} (hea : σ.alphabet.Ext a) (hab : a.Ext b) {fold : Bool} {xs : List Int} (hx : ∀ x ∈ xs, Known σ a x) {st : List (Rec W)}
    (h : Walk.Sound σ.graph σ.root (way σ fold) xs st) : ∀ r ∈ st, ∀ e ∈ r.seq, e.1 < 0x110000 ∧ (e.1 < 0 → a.tagText e.1 = .ok (nameOf b e.1)) := by
  intro r hr' e he
  obtain ⟨ls, hw⟩ := (sound_mem h r).1 hr'
  have key : ∀ q l p, Arc σ.graph q l p → l.2.2.1 < 0x110000 ∧ (l.2.2.1 < 0 → a.tagText l.2.2.1 = .ok (nameOf b l.2.2.1)) := by
    intro q l p ha
    refine ⟨(hr.base.names q l p ha).1, fun h0 => ?_⟩
    have h2 := (tag_of_text h0 ((hr.base.names q l p ha).2 h0)).mono hea
    rw [(nameOf_tag h2).2.2, (nameOf_tag (h2.mono hab)).2.1]
  rcases Gen.walk_written hw e he with ⟨q, l, p, h1, h2⟩ | ⟨q, l, p, x, hm, h1, -, h2⟩
  · rw [h2]; exact key _ _ _ h1
  · rw [h2]
    show (if _ then _ else _) < _ ∧ ((if _ then _ else _) < (0 : Int) → a.tagText (if _ then _ else _) = .ok (nameOf b (if _ then _ else _)))
    split
    · refine ⟨(hx x hm).range, fun h0 => ?_⟩
      obtain ⟨t, ht⟩ := (hx x hm).tag h0
      rw [(nameOf_tag ht).2.2, (nameOf_tag (ht.mono hab)).2.1]
    · exact key _ _ _ h1

/-! ## Loops -/

/-- What the loops find. -/
theorem loop_ok (hr : Regular σ) {a : Alphabet} (hea : σ.alphabet.Ext a) (hab : a.Ext b) {fold : Bool} (hfew : Fewer σ.graph σ.root (way σ fold) 65536)
    (f : Int → Int) (stepOf : Nat → Int → List (Rec W) → Res (List (Rec W))) (upper first : Bool)
    (hstep : ∀ n x st, Known σ a x → st.length < 65536 →
      stepOf n x st = ended (epsilonClosure σ.graph n (st.flatMap fun r => intos σ.graph (f x) ((way σ fold).out (f x)) (tried σ fold (f x)) r)))
    (hf : ∀ x, Known σ a x → Known σ a (f x)) (xs : List Int) :
    ∀ (us : List Int) (st : List (Rec W)) (q0 : Nat) (r0 : List UString), (∀ x ∈ us, Known σ a x) → (∀ x ∈ xs, Known σ a x) →
      Walk.Sound σ.graph σ.root (way σ fold) us st →
      let A := fun j => Form σ.toSetting (nameOf b) (way σ fold) upper first (us ++ (xs.map f).take j)
      ∃ q rs, (∃ N, ∀ n ≥ N, bilLoop σ a (stepOf n) upper first xs us.length st q0 r0 = .ok (q, rs)) ∧
        ((∃ j, 0 < j ∧ j ≤ xs.length ∧ (∃ t w, A j t w) ∧ (∀ i, j < i → i ≤ xs.length → ∀ t w, ¬ A i t w) ∧ q + 1 = us.length + j ∧
            ∃ bs, Best (A j) bs ∧ bs ≠ [] ∧ rs = bs.map fun x => x.1 ++ σ.showWeight x.2) ∨
          ((∀ j, 0 < j → j ≤ xs.length → ∀ t w, ¬ A j t w) ∧ q = q0 ∧ rs = r0)) := by
  induction xs with
  | nil =>
    intro us st q0 r0 _ _ _
    exact ⟨q0, r0, ⟨0, fun n _ => rfl⟩, .inr ⟨fun j h1 h2 => absurd h2 (by simp; omega), rfl, rfl⟩⟩
  | cons x xs ih =>
    intro us st q0 r0 hus hxs hs A
    have hx := hxs x (by simp)
    obtain ⟨st1, hs1, N1, e1⟩ := step_ok hr fold (hf x hx).any (hf x hx).range hs
    have hus1 : ∀ y ∈ us ++ [f x], Known σ a y := by
      intro y hy
      rcases List.mem_append.1 hy with h | h
      · exact hus y h
      · rw [List.mem_singleton.1 h]; exact hf x hx
    have hlen : (us ++ [f x]).length = us.length + 1 := by simp
    have hA : ∀ j, (us ++ [f x]) ++ (xs.map f).take j = us ++ ((x :: xs).map f).take (j + 1) := by intro j; simp
    have hfin := Gen.isFinal_iff (name := nameOf b) hr.base.finals hs1 upper first
    have hA1 : us ++ [f x] = us ++ ((x :: xs).map f).take 1 := by simp
    -- what is found after this symbol, if anything
    have later : ∀ q1 r1, ∃ q rs, (∃ N, ∀ n ≥ N, bilLoop σ a (stepOf n) upper first xs (us.length + 1) st1 q1 r1 = .ok (q, rs)) ∧
        ((∃ j, 1 < j ∧ j ≤ (x :: xs).length ∧ (∃ t w, A j t w) ∧ (∀ i, j < i → i ≤ (x :: xs).length → ∀ t w, ¬ A i t w) ∧ q + 1 = us.length + j ∧
            ∃ bs, Best (A j) bs ∧ bs ≠ [] ∧ rs = bs.map fun x => x.1 ++ σ.showWeight x.2) ∨
          ((∀ j, 1 < j → j ≤ (x :: xs).length → ∀ t w, ¬ A j t w) ∧ q = q1 ∧ rs = r1)) := by
      intro q1 r1
      obtain ⟨q, rs, h1, h2⟩ := ih (us ++ [f x]) st1 q1 r1 hus1 (fun y hy => hxs y (by simp [hy])) hs1
      rw [hlen] at h1
      refine ⟨q, rs, h1, ?_⟩
      simp only [hA, hlen] at h2
      rcases h2 with ⟨j, g1, g2, g3, g4, g5, g6⟩ | ⟨g1, g2, g3⟩
      · refine .inl ⟨j + 1, by omega, by simpa using g2, g3, ?_, by omega, g6⟩
        intro i hi hl
        obtain ⟨k, rfl⟩ : ∃ k, i = k + 1 := ⟨i - 1, by omega⟩
        exact g4 k (by omega) (by simpa using hl)
      · refine .inr ⟨?_, g2, g3⟩
        intro i hi hl
        obtain ⟨k, rfl⟩ : ∃ k, i = k + 1 := ⟨i - 1, by omega⟩
        exact g1 k (by omega) (by simpa using hl)
    by_cases hF : isFinal σ.finals st1 = true
    · obtain ⟨bs, h2, e2⟩ := Gen.results_ok (regular_ext hr (hea.trans hab)) hs1 (sound_length hs1 hfew) a (way_names hr hea hab hus1 hs1) upper first
      have hne : bs ≠ [] := by
        intro e
        obtain ⟨t, w, h4⟩ := hfin.1 hF
        exact (Gen.best_nil h2 (Gen.form_finite hr.base.finals hs1 _ _)).1 e t w h4
      obtain ⟨q, rs, ⟨N, h3⟩, h4⟩ := later us.length (bs.map fun x => x.1 ++ σ.showWeight x.2)
      refine ⟨q, rs, ⟨max N N1, fun n hn => ?_⟩, ?_⟩
      · rw [bilLoop, hstep n x st hx (sound_length hs hfew), e1 n (by omega)]
        simp only [Gen.ended, Res.bind_ok, hF, if_true]
        rw [e2]
        exact h3 n (by omega)
      · rcases h4 with ⟨j, g1, g⟩ | ⟨g1, g2, g3⟩
        · exact .inl ⟨j, by omega, g⟩
        · refine .inl ⟨1, by omega, by simp, ?_, g1, by omega, bs, ?_, hne, g3⟩
          · have := hfin.1 hF
            rw [hA1] at this
            exact this
          · rw [hA1] at h2
            exact h2
    · obtain ⟨q, rs, ⟨N, h3⟩, h4⟩ := later q0 r0
      refine ⟨q, rs, ⟨max N N1, fun n hn => ?_⟩, ?_⟩
      · rw [bilLoop, hstep n x st hx (sound_length hs hfew), e1 n (by omega)]
        simp only [Gen.ended, Res.bind_ok, hF, Bool.false_eq_true, if_false]
        exact h3 n (by omega)
      · rcases h4 with ⟨j, g1, g⟩ | ⟨g1, g2, g3⟩
        · exact .inl ⟨j, by omega, g⟩
        · refine .inr ⟨fun j h1 h2 t w h => ?_, g2, g3⟩
          rcases Nat.lt_or_ge 1 j with h5 | h5
          · exact g1 j h5 h2 t w h
          · obtain rfl : j = 1 := by omega
            exact hF (hfin.2 ⟨t, w, by rw [hA1]; exact h⟩)

omit [AddMonoid W] in
theorem init_ok (hr : Regular σ) {mark : Nat} (hm : mark ≠ '#'.toNat) :
    ∃ st, Walk.Sound σ.graph σ.root (way σ true) [] st ∧ Walk.Sound σ.graph σ.root (way σ false) [] st ∧ ∃ N, ∀ n ≥ N, bilInit σ n mark = .ok st := by
  obtain ⟨k, hk⟩ := hr.base.finite
  obtain ⟨N, st, h⟩ := (closure_ends_iff hk [({ node := σ.root, seq := [], dirty := false } : Rec W)]).2 fun r _ => hr.base.noCycle _
  refine ⟨st, sound_init h, sound_init h, N, fun n hn => ?_⟩
  unfold bilInit State.init
  rw [closure_mono h hn]
  simp only [Gen.ended, Res.bind_ok, if_neg hm]

omit [AddMonoid W] [LinearOrder W] in
theorem whole_iff (mode : Mode) (xs : List Int) (q : Nat) :
    ((!(xs.any fun x => decide (x < 0)) || mode = .all || mode = .bilgen) && decide (q + 1 < xs.length)) = true ↔ Whole mode xs ∧ q + 1 < xs.length := by
  unfold Whole
  simp only [Bool.and_eq_true, Bool.or_eq_true, Bool.not_eq_true', decide_eq_true_eq, List.any_eq_false]
  constructor
  · rintro ⟨(h | h) | h, h2⟩
    · exact ⟨.inr (.inr fun x hx => by have := h x hx; omega), h2⟩
    · exact ⟨.inl h, h2⟩
    · exact ⟨.inr (.inl h), h2⟩
  · rintro ⟨h | h | h, h2⟩
    · exact ⟨.inl (.inr h), h2⟩
    · exact ⟨.inr h, h2⟩
    · exact ⟨.inl (.inl fun x hx => by have := h x hx; omega), h2⟩

/-- Symbols with lower-case letters. -/
def lowered (σ : Setting W) (xs : List Int) : List Int := xs.map (low σ)

/-- The translations of symbols as lower-case letters. -/
def Lower (σ : Setting W) (b : Alphabet) (xs : List Int) : UString → W → Prop :=
  Form σ.toSetting (nameOf b) (way σ false) false false (lowered σ xs)

omit [AddMonoid W] [LinearOrder W] in
theorem walk_fold {ys : List Int} {ls : List (Label W)} {wr : List (Int × W)} {ch : Bool} {p : Nat} (h : Walk σ.graph σ.root (way σ false) ys ls wr ch p) :
    Walk σ.graph σ.root (way σ true) ys ls wr ch p := by
  induction h with
  | start => exact .start
  | empty _ h0 ha ih => exact .empty ih h0 ha
  | read _ h0 hy ha ih =>
    refine .read (y := way σ true) ih h0 ⟨hy.1, ?_⟩ ha
    rcases hy.2 with h | h | ⟨h, -⟩
    · exact .inl h
    · exact .inr (.inl h)
    · cases h

omit [AddMonoid W] [LinearOrder W] in
theorem fewer_fold (h : Fewer σ.graph σ.root (way σ true) 65536) : Fewer σ.graph σ.root (way σ false) 65536 :=
  fun xs L hn hL => h xs L hn fun ls hls => by
    obtain ⟨wr, ch, p, hw⟩ := hL ls hls
    exact ⟨wr, ch, p, walk_fold hw⟩

omit [AddMonoid W] in
/-- What can be read with lower-case letters can be read. -/
theorem walk_low (hr : Regular σ) {ys : List Int} {ls : List (Label W)} {wr : List (Int × W)} {ch : Bool} {p : Nat} (h : Walk σ.graph σ.root (way σ false) ys ls wr ch p) :
    ∀ xs, ys = lowered σ xs → ∃ wr' ch', Walk σ.graph σ.root (way σ true) xs ls wr' ch' p := by
  induction h with
  | start =>
    intro xs e
    obtain rfl : xs = [] := by simpa [lowered] using e.symm
    exact ⟨_, _, .start⟩
  | empty _ h0 ha ih =>
    intro xs e
    obtain ⟨wr', ch', h'⟩ := ih xs e
    exact ⟨_, _, .empty h' h0 ha⟩
  | read _ h0 hy ha ih =>
    rename_i ys _ _ _ _ _ _ y
    intro xs e
    obtain ⟨us, vs, rfl, e1, e2⟩ := List.map_eq_append_iff.1 e.symm
    obtain ⟨x, rfl, e3⟩ := List.map_eq_singleton_iff.1 e2
    obtain ⟨wr', ch', h'⟩ := ih us e1.symm
    refine ⟨_, _, .read (y := way σ true) h' h0 (x := x) ?_ ha⟩
    have hy2 := hy.2
    have hx : x ≠ 0 := by
      rintro rfl
      refine hy.1 ?_
      rw [← e3]
      unfold low
      split
      · rfl
      · exact hr.lowerTag 0 le_rfl
    refine ⟨hx, ?_⟩
    rcases hy2 with h | h | ⟨h, -⟩
    · rw [← e3] at h
      unfold low at h
      split at h
      · exact .inl h
      · rename_i hc
        exact .inr (.inr ⟨rfl, by simpa using fun hh => hc (.inr hh), h⟩)
    · exact .inr (.inl h)
    · cases h

/-- What the two attempts find. -/
def Found (σ : Setting W) (b : Alphabet) (mode : Mode) (xs : List Int) (q : Nat) (rs : List UString) : Prop :=
  (∃ k bs, Longest σ b xs k ∧ (Whole mode xs → k = xs.length) ∧ Best (Trans σ b xs k) bs ∧ bs ≠ [] ∧ q + 1 = k ∧ rs = bs.map fun x => x.1 ++ σ.showWeight x.2) ∨
    (¬ ∃ k, Longest σ b xs k ∧ (Whole mode xs → k = xs.length)) ∧ rs = []

theorem find_ok (hr : Regular σ) {a : Alphabet} (hea : σ.alphabet.Ext a) (hab : a.Ext b) (hf1 : Fewer σ.graph σ.root (way σ true) 65536)
    (mode : Mode) {mark : Nat} (hm : mark ≠ '#'.toNat) {xs : List Int} (hne : xs ≠ []) (hxs : ∀ x ∈ xs, Known σ a x) :
    ∃ q rs, (∃ N, ∀ n ≥ N, bilFind σ a n mode mark xs = .ok (q, rs)) ∧ Found σ b mode xs q rs := by
  obtain ⟨st, hs1, hs2, N0, e0⟩ := init_ok hr hm
  have hpos : 0 < xs.length := List.length_pos_iff.2 hne
  obtain ⟨q1, r1, ⟨N1, e1⟩, h1⟩ := loop_ok hr hea hab hf1 id (bilStep σ) (upperAt σ xs 0 && upperAt σ xs 1) (upperAt σ xs 0)
    (fun n x st hx hs => bilStep_eq hr n hx.any st hs) (fun x h => h) xs [] st 0 [] (by simp) hxs hs1
  obtain ⟨q2, r2, ⟨N2, e2⟩, h2⟩ := loop_ok hr hea hab (fewer_fold hf1) (low σ) (lowStep σ) false false
    (fun n x st hx hs => lowStep_eq hr n hx.any hx.range st hs) (fun x h => low_known hr h) xs [] st q1 [] (by simp) hxs hs2
  have hfirst : bilFirst σ xs = upperAt σ xs 0 := by
    match xs, hne with
    | x :: _, _ => simp only [bilFirst, upperAt, List.getElem?_cons_zero, Option.map_some]; cases (decide (0 < x) && σ.isUpper x) <;> rfl
  have hsecond : bilUpper σ xs = (upperAt σ xs 0 && upperAt σ xs 1) := by
    unfold bilUpper
    rw [hfirst]
    match xs, hne with
    | [x], _ => simp [upperAt]
    | _ :: x :: _, _ =>
      congr 1
      simp only [upperAt, List.getElem?_cons_succ, List.getElem?_cons_zero, Option.map_some]; cases (decide (0 < x) && σ.isUpper x) <;> rfl
  have hT : ∀ j, Form σ.toSetting (nameOf b) (way σ true) (upperAt σ xs 0 && upperAt σ xs 1) (upperAt σ xs 0) ([] ++ (xs.map id).take j) = Trans σ b xs j := by
    intro j; unfold Trans; simp
  have hL : ∀ j, xs.length ≤ j → Form σ.toSetting (nameOf b) (way σ false) false false ([] ++ (xs.map (low σ)).take j) = Lower σ b xs := by
    intro j hj
    unfold Lower lowered
    rw [List.nil_append, List.take_of_length_le (by simpa using hj)]
  simp only [hT, List.length_nil, Nat.zero_add] at h1
  simp only [List.length_nil, Nat.zero_add] at h2
  have hrun : ∀ n ≥ max N0 (max N1 N2), bilFind σ a n mode mark xs =
      (let result := onlyWhole mode (xs.any fun x => decide (x < 0)) xs.length q1 r1
       if result.isEmpty && (mode = .bilgen || mode = .all) then do
         let (queueStart, result) ← bilLoop σ a (lowStep σ n) false false xs 0 st q1 result
         .ok (queueStart, onlyWhole mode (xs.any fun x => decide (x < 0)) xs.length queueStart result)
       else .ok (q1, result)) := by
    intro n hn
    unfold bilFind
    simp only [hfirst, hsecond]
    rw [e0 n (by omega)]
    simp only [Res.bind_ok]
    have := e1 n (by omega)
    simp only [List.length_nil] at this
    rw [this]
    rfl
  -- the second attempt
  have second : onlyWhole mode (xs.any fun x => decide (x < 0)) xs.length q1 r1 = [] → (¬ ∃ k, Longest σ b xs k ∧ (Whole mode xs → k = xs.length)) →
      ∃ q rs, (∃ N, ∀ n ≥ N, bilFind σ a n mode mark xs = .ok (q, rs)) ∧ Found σ b mode xs q rs := by
    intro h3 h4
    by_cases hmd : mode = .all ∨ mode = .bilgen
    · have hb : (decide (mode = .bilgen) || decide (mode = .all)) = true := by simpa [or_comm] using hmd
      have hW : Whole mode xs := by rcases hmd with h | h; exacts [.inl h, .inr (.inl h)]
      have hno : ∀ t w, ¬ Lower σ b xs t w := by
        rintro t w ⟨ls, wr, ch, p, w0, k1, k2, -, -⟩
        obtain ⟨wr', ch', k3⟩ := walk_low hr k1 xs rfl
        refine h4 ⟨xs.length, ⟨hpos, le_rfl, ?_, fun j g1 g2 => absurd g2 (by omega)⟩, fun _ => rfl⟩
        refine ⟨_, _, ls, wr', ch', p, w0, ?_, k2, rfl, rfl⟩
        rwa [List.take_length]
      refine ⟨q2, onlyWhole mode (xs.any fun x => decide (x < 0)) xs.length q2 r2, ⟨max N0 (max N1 N2), fun n hn => ?_⟩, .inr ⟨h4, ?_⟩⟩
      · rw [hrun n hn]
        simp only [h3, List.isEmpty_nil, Bool.true_and, hb, if_true]
        have := e2 n (by omega)
        simp only [List.length_nil] at this
        rw [this]
        rfl
      · rcases h2 with ⟨j, g1, g2, ⟨t, w, g3⟩, g4, g5, bs, g6, g7, g8⟩ | ⟨g1, g2, g3⟩
        · rcases Nat.lt_or_ge j xs.length with hj | hj
          · unfold onlyWhole
            rw [if_pos ((whole_iff mode xs q2).2 ⟨hW, by omega⟩)]
          · rw [hL j hj] at g3
            exact absurd g3 (hno t w)
        · unfold onlyWhole
          rw [g3]
          split <;> rfl
    · have hb : (decide (mode = .bilgen) || decide (mode = .all)) = false := by
        by_contra hc
        simp only [Bool.not_eq_false, Bool.or_eq_true, decide_eq_true_eq] at hc
        exact hmd hc.symm
      refine ⟨q1, [], ⟨max N0 (max N1 N2), fun n hn => ?_⟩, .inr ⟨h4, rfl⟩⟩
      rw [hrun n hn]
      simp only [h3, hb, Bool.and_false, Bool.false_eq_true, if_false]
  rcases h1 with ⟨j, g1, g2, g3, g4, g5, bs, g6, g7, g8⟩ | ⟨g1, g2, g3⟩
  · have hlong : Longest σ b xs j := ⟨g1, g2, g3, g4⟩
    by_cases hW : Whole mode xs ∧ j < xs.length
    · refine second ?_ ?_
      · unfold onlyWhole
        rw [if_pos ((whole_iff mode xs q1).2 ⟨hW.1, by omega⟩)]
      · rintro ⟨k, hk, hk'⟩
        obtain rfl := hk' hW.1
        exact hk.2.2.1.elim fun t h => h.elim fun w h => g4 _ hW.2 le_rfl t w h
    · have he : onlyWhole mode (xs.any fun x => decide (x < 0)) xs.length q1 r1 = r1 := by
        unfold onlyWhole
        rw [if_neg (fun h => hW (by have := (whole_iff mode xs q1).1 h; exact ⟨this.1, by omega⟩))]
      refine ⟨q1, r1, ⟨max N0 (max N1 N2), fun n hn => ?_⟩, .inl ⟨j, bs, hlong, fun h => ?_, g6, g7, g5, g8⟩⟩
      · rw [hrun n hn]
        have hn1 : r1.isEmpty = false := by rw [g8]; simpa using g7
        simp only [he, hn1, Bool.false_and, Bool.false_eq_true, if_false]
      · by_contra hc
        exact hW ⟨h, by omega⟩
  · refine second ?_ ?_
    · unfold onlyWhole
      rw [g3]
      split <;> rfl
    · rintro ⟨k, hk, -⟩
      exact hk.2.2.1.elim fun t h => h.elim fun w h => g1 k hk.1 hk.2.1 t w h

/-! ## Texts -/

omit [AddMonoid W] [LinearOrder W] in
theorem piece_ok {a : Alphabet} {p : RTok} (hw : p.WF) {x : Int} (h : SymOf true a p x) (first : Bool) :
    ∃ t, symbolText id a x false = .ok t ∧ (if x ∈ escapedCps ∨ (first = true ∧ x = 0x2a) then [0x5c] else []) ++ t = pieceText first p := by
  have key : ∀ c : Nat, Scalar c → ∃ t, symbolText id a (c : Int) false = .ok t ∧ t = if c = 0 then [] else utf16 c := by
    intro c hc
    have hc' : c < 0x110000 := by rcases hc with hc | hc <;> omega
    unfold symbolText
    by_cases h0 : c = 0
    · subst h0; exact ⟨_, rfl, rfl⟩
    · rw [if_neg (by omega), if_neg (by omega), if_neg (by simp), Int.toNat_natCast, Compression.unitsOf_utf16 _ (by omega), if_neg h0]
      exact ⟨_, rfl, rfl⟩
  have hstar : ∀ c : Nat, ((c : Int) = 0x2a ↔ c = '*'.toNat) := by
    intro c
    have : '*'.toNat = 0x2a := rfl
    omega
  cases p with
  | chunk _ => cases h
  | tag ts =>
    rcases h with h | ⟨h, -⟩
    · obtain ⟨h1, h2, h3⟩ := nameOf_tag h
      refine ⟨_, by unfold symbolText; rw [if_neg (by omega), if_pos h1, h3], ?_⟩
      rw [if_neg]
      · rfl
      · rintro (h | h)
        · simp only [escapedCps, List.mem_cons, List.not_mem_nil, or_false] at h; omega
        · omega
    · cases h
  | tok t =>
    cases t with
    | raw c =>
      obtain rfl := h
      obtain ⟨t, e, rfl⟩ := key c hw.1
      exact ⟨_, e, by simp only [pieceText, hstar]⟩
    | esc c =>
      obtain rfl := h
      obtain ⟨t, e, rfl⟩ := key c hw
      exact ⟨_, e, by simp only [pieceText, hstar]⟩

omit [AddMonoid W] [LinearOrder W] in
theorem source_rest {a : Alphabet} {ps : List RTok} {xs : List Int} (h : List.Forall₂ (SymOf true a) ps xs) (hw : ∀ p ∈ ps, p.WF) (q : Nat) :
    ∀ (i : Nat) (src : UString) (pos : Nat), 0 < i →
      ∃ pos', sourceLoop a q xs i src pos = .ok (src ++ ps.flatMap (pieceText false), pos') ∧
        (i ≤ q → q < i + ps.length → pos' = (src ++ (ps.take (q + 1 - i)).flatMap (pieceText false)).length) ∧ (q < i → pos' = pos) := by
  induction h with
  | nil => exact fun i src pos _ => ⟨pos, by simp [sourceLoop], fun h1 h2 => absurd h2 (by simp; omega), fun _ => rfl⟩
  | cons hp _ ih =>
    rename_i p x ps xs _
    intro i src pos hi
    obtain ⟨t, e1, e2⟩ := piece_ok (hw p (by simp)) hp false
    have e3 : (if x ∈ escapedCps ∨ (i = 0 ∧ x = 0x2a) then src ++ [0x5c] else src) ++ t = src ++ pieceText false p := by
      rw [← e2]
      simp only [Bool.false_eq_true, false_and, or_false, show ¬ i = 0 by omega]
      split <;> simp
    obtain ⟨pos', g1, g2, g3⟩ := ih (fun p hp => hw p (by simp [hp])) (i + 1) (src ++ pieceText false p)
      (if i = q then (src ++ pieceText false p).length else pos) (by omega)
    refine ⟨pos', ?_, ?_, ?_⟩
    · rw [sourceLoop]
      simp only [e1, Res.bind_ok, e3]
      rw [g1]
      simp
    · intro h1 h2
      rcases Nat.lt_or_ge i q with h3 | h3
      · rw [g2 (by omega) (by simp at h2; omega), show q + 1 - i = (q + 1 - (i + 1)) + 1 by omega]
        simp
      · obtain rfl : i = q := by omega
        rw [g3 (by omega), if_pos rfl, show i + 1 - i = 1 by omega]
        simp
    · intro h1
      rw [g3 (by omega), if_neg (by omega)]

omit [AddMonoid W] [LinearOrder W] in
theorem source_ok {a : Alphabet} {s : RSyn} (hw : s.WF) {xs : List Int} (h : SymsOf true (some a) s.toks xs) (hne : xs ≠ []) (q : Nat) :
    ∃ pos, sourceLoop a q xs 0 [] 0 = .ok (source s, pos) ∧ (q < xs.length → (source s).drop pos = queue s (q + 1)) := by
  have h' : List.Forall₂ (SymOf true a) (pieces s) xs := h
  have hwp : ∀ p ∈ pieces s, p.WF := fun p hp => hw.toks p (List.mem_filter.1 hp).1
  have hlen := h'.length_eq
  unfold source queue
  generalize pieces s = ps at h' hwp hlen
  cases h' with
  | nil => exact absurd rfl hne
  | cons hp ht =>
    rename_i p x ps xs
    obtain ⟨t, e1, e2⟩ := piece_ok (hwp p (by simp)) hp true
    obtain ⟨pos', g1, g2, g3⟩ := source_rest ht (fun p hp => hwp p (by simp [hp])) q 1 (pieceText true p) (if 0 = q then (pieceText true p).length else 0) (by omega)
    refine ⟨pos', ?_, ?_⟩
    · have e3 : (if x ∈ escapedCps ∨ (True ∧ x = 0x2a) then [] ++ [0x5c] else ([] : UString)) ++ t = pieceText true p := by
        rw [← e2]
        simp only [true_and]
        split <;> simp
      rw [sourceLoop]
      simp only [e1, Res.bind_ok, e3]
      exact g1
    · intro hq
      simp only [List.length_cons] at hlen hq
      rcases Nat.lt_or_ge 0 q with h3 | h3
      · rw [g2 (by omega) (by omega), show q + 1 - 1 = q by omega]
        have e : pieceText true p ++ ps.flatMap (pieceText false) =
            (pieceText true p ++ (ps.take q).flatMap (pieceText false)) ++ (ps.drop q).flatMap (pieceText false) := by
          rw [List.append_assoc, ← List.flatMap_append, List.take_append_drop]
        simp only
        rw [e, List.drop_left]
        simp
      · obtain rfl : q = 0 := by omega
        rw [g3 (by omega)]
        simp

theorem compose_eq (rs : List UString) (hne : rs ≠ []) (z : UString) : compose rs z = slashed (rs.map (· ++ z)) := by
  have key : ∀ rs : List UString, ∀ t, t ++ z ++ rs.flatMap (fun t => 0x2f :: t ++ z) = slashed ((t :: rs).map (· ++ z)) := by
    intro rs
    induction rs with
    | nil => intro t; simp [Gen.slashed]
    | cons u rs ih =>
      intro t
      rw [List.flatMap_cons, List.map_cons, List.map_cons, Gen.slashed, ← List.map_cons (f := (· ++ z)), ← ih u]
      · simp
      · simp
  cases rs with
  | nil => exact absurd rfl hne
  | cons t rs => exact key rs t

/-! ## Units -/

/-- What is written for a reading with an alphabet that may be extended later. -/
theorem reading_ok (hr : Regular σ) {a : Alphabet} (hea : σ.alphabet.Ext a) (hab : AlphaStep true (some a) (some b)) (hf1 : Fewer σ.graph σ.root (way σ true) 65536)
    (mode : Mode) {s : RSyn} (hw : s.WF) (hp : Plain s) {rd : Reading} (hx : ReadsAs true (some a) s rd.mark rd.content rd.symbols) :
    ∃ t, Reads σ b mode s t ∧ ∃ N, ∀ n ≥ N, bilReading σ a n mode rd = .ok t := by
  obtain ⟨mark, content, xs⟩ := rd
  obtain ⟨h1, h2, h3⟩ := hx
  simp only at h1 h2 h3
  obtain rfl : content = whole s := h2
  subst h1
  have key : ∀ c : Nat, c ≠ 0 → (s.mark.getD 0 = c ↔ s.mark = some c) := by
    intro c hc
    cases s.mark with
    | none => simp; omega
    | some m => simp
  have k1 := key '*'.toNat (by decide)
  have k2 := key '#'.toNat (by decide)
  unfold bilReading Reads
  simp only [k1]
  by_cases c1 : s.mark = some '*'.toNat
  · simp only [c1, if_true]
    refine ⟨_, rfl, 0, fun n _ => ?_⟩
    by_cases hc : mode = .clean <;> simp [hc]
  simp only [c1, if_false]
  have hlen : (pieces s).length = xs.length := List.Forall₂.length_eq h3
  unfold bilUnit
  simp only
  by_cases c2 : pieces s = []
  · have : xs = [] := List.length_eq_zero_iff.1 (by rw [← hlen, c2]; rfl)
    simp only [c2, this, if_true]
    exact ⟨_, rfl, 0, fun n _ => rfl⟩
  have hne : xs ≠ [] := by rintro rfl; exact c2 (List.length_eq_zero_iff.1 hlen)
  simp only [c2, hne, if_false]
  have hm : s.mark.getD 0 ≠ '#'.toNat := fun e => hp.mark (k2.1 e)
  obtain ⟨q, rs, ⟨N, e⟩, hfind⟩ := find_ok hr hea hab.2.1 hf1 mode hm hne (known_of hr hea hw hp h3)
  obtain ⟨pos, e2, hpos⟩ := source_ok hw h3 hne q
  have h3' : SymsOf true (some b) s.toks xs := h3.mono hab
  have run : ∀ n ≥ N, (do
      let (queueStart, result) ← bilFind σ a n mode (s.mark.getD 0) xs
      let (source, queuePos) ← sourceLoop a queueStart xs 0 (if s.mark.getD 0 = '#'.toNat then [0x23] else []) (if s.mark.getD 0 = '#'.toNat then 1 else 0)
      .ok (source ++ 0x2f :: (if !result.isEmpty then compose result (source.drop queuePos) else (if mode = Mode.all then 0x23 else 0x40) :: source) ++ [0x24])) =
      .ok (source s ++ 0x2f :: (if !rs.isEmpty then compose rs ((source s).drop pos) else (if mode = Mode.all then 0x23 else 0x40) :: source s) ++ [0x24]) := by
    intro n hn
    rw [e n hn]
    simp only [Res.bind_ok, if_neg hm]
    rw [e2]
    rfl
  rcases hfind with ⟨k, bs, g1, g2, g3, g4, g5, rfl⟩ | ⟨g1, rfl⟩
  · refine ⟨_, ⟨_, ⟨xs, h3', .inl ⟨k, bs, g1, g2, g3, rfl⟩⟩, rfl⟩, N, fun n hn => ?_⟩
    rw [run n hn, hpos (by have := g1.2.1; omega), g5]
    have : (bs.map fun x => x.1 ++ σ.showWeight x.2).isEmpty = false := by simpa using g4
    rw [this, Bool.not_false, if_pos rfl, compose_eq _ (by simpa using g4), List.map_map]
    rfl
  · refine ⟨_, ⟨_, ⟨xs, h3', .inr ⟨g1, rfl⟩⟩, rfl⟩, N, fun n hn => ?_⟩
    rw [run n hn]
    rfl

theorem out_ok (hr : Regular σ) {a : Alphabet} (hea : σ.alphabet.Ext a) (hab : AlphaStep true (some a) (some b)) (hf1 : Fewer σ.graph σ.root (way σ true) 65536)
    (mode : Mode) {i : Item} (hw : i.WF) (hp : ∀ bl wb rs, i = .unit bl wb rs → ∀ s ∈ chosen σ rs, Plain s)
    {o : Out} (ho : Shows true (some a) i o) : ∃ t, Writes σ b mode i t ∧ ∃ N, ∀ n ≥ N, bilOut σ a n mode o = .ok t := by
  cases i with
  | null bl =>
    obtain rfl := ho
    exact ⟨_, rfl, 0, fun n _ => by simp [bilOut, kept]⟩
  | unit bl wb rs =>
    obtain ⟨h1, h2, h3, -, h5, -⟩ := ho
    obtain ⟨-, -, -, w4, w5⟩ := hw
    have hp := hp _ _ _ rfl
    obtain ⟨obl, owbl, rds, chunk, nul, eof⟩ := o
    simp only at h1 h2 h3 h5
    subst h1 h2 h5
    have hkept : ∀ (z : UString), kept σ rds ++ (match chosen σ rs with
          | none => []
          | some _ => (if σ.surfaceFormsKeep then [] else [0x5e]) ++ z) = before σ rs ++ (match chosen σ rs with | none => [] | some _ => z) := by
      intro z
      unfold before kept
      cases h3 with
      | nil => exact absurd rfl w4
      | cons hd ht =>
        rename_i s rd rs rds _
        have hc : rd.content = whole s := hd.content
        by_cases hk : σ.surfaceFormsKeep = true
        · cases ht with
          | nil => simp [hk, hc, chosen]
          | cons hd2 ht2 => simp [hk, hc, chosen]
        · cases hch : chosen σ (s :: rs) <;> simp [hk]
    have hget : ∀ (rs : List RSyn) (rds : List Reading) (k : Nat), List.Forall₂ (fun s (x : Reading) => ReadsAs true (some a) s x.mark x.content x.symbols) rs rds →
        (rs[k]? = none ∧ rds[k]? = none) ∨ ∃ s rd, rs[k]? = some s ∧ rds[k]? = some rd ∧ ReadsAs true (some a) s rd.mark rd.content rd.symbols := by
      intro rs rds k h
      induction h generalizing k with
      | nil => exact .inl ⟨by simp, by simp⟩
      | cons hd _ ih =>
        cases k with
        | zero => exact .inr ⟨_, _, rfl, rfl, hd⟩
        | succ k => simpa using ih k
    have hch : chosen σ rs = rs[if σ.surfaceForms || σ.surfaceFormsKeep then 1 else 0]? := by unfold chosen; split <;> rfl
    unfold bilOut
    simp only
    rcases hget rs rds (if σ.surfaceForms || σ.surfaceFormsKeep then 1 else 0) h3 with ⟨e1, e2⟩ | ⟨s, rd, e1, e2, hrd⟩
    · have hc : chosen σ rs = none := by rw [hch, e1]
      refine ⟨_, ⟨[], fun s h => (by rw [hc] at h; cases h), fun _ => rfl, rfl⟩, 0, fun n _ => ?_⟩
      rw [e2]
      simp only [Res.bind_ok]
      have := hkept []
      rw [hc] at this
      simp only [List.append_nil] at this
      rw [this]
      simp
    · have hc : chosen σ rs = some s := by rw [hch, e1]
      obtain ⟨t, g1, N, g2⟩ := reading_ok hr hea hab hf1 mode (w5 s (List.mem_of_getElem? e1)) (hp s hc) hrd
      refine ⟨_, ⟨t, fun s' h => (by rw [hc] at h; cases h; exact g1), fun h => (by rw [hc] at h; cases h), rfl⟩, N, fun n hn => ?_⟩
      rw [e2]
      simp only [g2 n hn, Res.bind_ok]
      have := hkept t
      rw [hc] at this
      simp only at this
      rw [List.append_assoc, List.append_assoc, List.append_assoc (enc (blankText bl) ++ _), ← this]
      simp

/-- The loop over the units. -/
theorem units_ok (hr : Regular σ) (hf1 : Fewer σ.graph σ.root (way σ true) 65536) (mode : Mode) {last : List BTok} (hl : ∀ b ∈ last, b.WF) (items : List Item) :
    ∀ (r : Reader) (a : Alphabet), (∀ i ∈ items, i.WF) → (∀ bl wb rs, Item.unit bl wb rs ∈ items → ∀ s ∈ chosen σ rs, Plain s) → r.atEof = false → r.addUnknowns = true →
      r.alpha = some a → a.Ok → σ.alphabet.Ext a → Holds r.inp (streamText items last) →
      ∃ b, AlphaStep true (some a) (some b) ∧ ∃ outs, List.Forall₂ (Writes σ b mode) items outs ∧
        ∃ N, ∀ n ≥ N, ∀ turns > items.length, ∀ out, bilUnits σ n mode turns r out = .ok (out ++ outs.flatten ++ enc (blankText last)) := by
  induction items with
  | nil =>
    intro r a _ _ he hadd hal hok hea hf
    rw [show streamText [] last = blankText last from rfl] at hf
    have ht := hf.turns
    have hb := length_blankText last
    obtain ⟨r1, e1, g⟩ := nextLoop_eof last (turnsOf r.inp) r hl he (by rw [hal]; exact hok) (by omega) hf
    have hread : r1.readings = [] := List.forall₂_nil_left_iff.1 g.readings
    have hst := g.step
    rw [hadd, hal] at hst
    refine ⟨a, .refl (x := some a) hok, [], .nil, 0, fun n _ turns hturns out => ?_⟩
    obtain ⟨k, rfl⟩ : ∃ k, turns = k + 1 := ⟨turns - 1, by omega⟩
    unfold bilUnits
    simp only [he, Bool.false_eq_true, if_false]
    rw [next, e1]
    simp only [Res.bind_ok, bilOut, Reader.out, hread, g.blank, g.wblank, g.atNull, kept, List.getElem?_nil, ite_self]
    unfold bilUnits
    rw [if_pos g.atEof]
    simp
  | cons i items ih =>
    intro r a hw hp he hadd hal hok hea hf
    rw [show streamText (i :: items) last = i.text ++ streamText items last by simp [streamText]] at hf
    obtain ⟨r1, e1, h1, he1, ha1, hs1, sh1⟩ := next_item i (hw i (by simp)) _ r he (by rw [hal]; exact hok) hf
    rw [hadd, hal] at hs1
    rw [hadd] at sh1 ha1
    cases hal1 : r1.alpha with
    | none => rw [hal1] at hs1; exact absurd hs1 (by simp [AlphaStep])
    | some a1 =>
      rw [hal1] at hs1 sh1
      have hea1 := hea.trans hs1.2.1
      obtain ⟨b, hb1, outs, hb2, N1, hb3⟩ := ih r1 a1 (fun j hj => hw j (by simp [hj])) (fun bl wb rs hm => hp bl wb rs (by simp [hm])) he1 ha1 hal1 hs1.1 hea1 h1
      obtain ⟨t, k1, N2, k2⟩ := out_ok hr hea1 hb1 hf1 mode (hw i (by simp)) (fun bl wb rs e => hp bl wb rs (by simp [e])) sh1
      refine ⟨b, hs1.trans hb1, t :: outs, .cons k1 hb2, max N1 N2, fun n hn turns hturns out => ?_⟩
      obtain ⟨k, rfl⟩ : ∃ k, turns = k + 1 := ⟨turns - 1, by omega⟩
      unfold bilUnits
      simp only [he, Bool.false_eq_true, if_false, e1, Res.bind_ok, hal1, Option.getD_some, k2 n (by omega)]
      rw [hb3 n (by omega) k (by simpa using hturns)]
      simp

end

end Verif.Bil
