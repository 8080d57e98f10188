import Verif.Gen.Spec
import Verif.Walk.Lemmas
import Verif.Proc.Text
import Verif.Stream.Props

/-! # Forms -/

namespace Verif.Gen

open Verif.State Verif.Stream Verif.Input Verif.Walk Verif.Merge
open Verif.Proc (capital)
open Verif.Proc.Token (escape)

variable {W : Type}

/-! ## Sets of states -/

theorem mapFind_iff {l : List (Nat × W)} (h : (l.map (·.1)).Nodup) (p : Nat) (w : W) : mapFind p l = some w ↔ (p, w) ∈ l := by
  induction l with
  | nil => simp [mapFind]
  | cons e l ih =>
    obtain ⟨k, v⟩ := e
    simp only [List.map_cons, List.nodup_cons] at h
    unfold mapFind
    by_cases hk : p = k
    · subst hk
      simp only [if_true, Option.some.injEq, List.mem_cons, Prod.mk.injEq, true_and]
      constructor
      · exact fun e => .inl e.symm
      · rintro (e | e)
        · exact e.symm
        · exact absurd (List.mem_map.2 ⟨_, e, rfl⟩) h.1
    · rw [if_neg (Ne.symm hk), ih h.2]
      simp [hk]

/-- All that a path writes is written by some arc. -/
theorem walk_written {g : Graph W} {root : Nat} {y : Way} {xs : List Int} {ls : List (Label W)} {wr : List (Int × W)} {ch : Bool} {p : Nat}
    (h : Walk g root y xs ls wr ch p) : ∀ e ∈ wr, (∃ q l p, Arc g q l p ∧ e.1 = l.2.2.1) ∨ ∃ q l p, ∃ x ∈ xs, Arc g q l p ∧ y.allow q x l.1 ∧ e.1 = y.out x l.2.2.1 := by
  induction h with
  | start => simp
  | empty h h0 ha ih =>
    intro e he
    split at he
    · exact ih e he
    · rcases List.mem_append.1 he with he | he
      · exact ih e he
      · rw [List.mem_singleton.1 he]
        exact .inl ⟨_, _, _, ha, rfl⟩
  | read h h0 hy ha ih =>
    intro e he
    rcases List.mem_append.1 he with he | he
    · rcases ih e he with h1 | ⟨q, l, p, x, hx, h1⟩
      · exact .inl h1
      · exact .inr ⟨q, l, p, x, by simp [hx], h1⟩
    · rw [List.mem_singleton.1 he]
      exact .inr ⟨_, _, _, _, by simp, ha, hy, rfl⟩

section
variable [AddMonoid W] [LinearOrder W] {σ : Setting W} {name : Int → UString} {y : Way}

/-- What is picked from the states for `xs`. -/
theorem results_ok (hr : Regular σ name) {xs : List Int} {st : List (Rec W)} (h : Walk.Sound σ.graph σ.root y xs st) (hs : st.length < 65536)
    (a : Alphabet) (hn : ∀ r ∈ st, ∀ e ∈ r.seq, e.1 < 0x110000 ∧ (e.1 < 0 → a.tagText e.1 = .ok (name e.1))) (upper first : Bool) :
    ∃ rs, Best (Form σ name y upper first xs) rs ∧ results { σ with alphabet := a } upper first st = .ok (rs.map fun x => x.1 ++ σ.showWeight x.2) := by
  have hresp := Proc.responses_ok σ.toUpper hr.upperZero σ.finals a name escapedCps upper first st (fun r hr' x hx => (hn r hr' x hx).2)
    hr.upperRange (fun r hr' x hx => (hn r hr' x hx).1)
  generalize he : (st.filterMap fun r => (mapFind r.node σ.finals).map fun w =>
      (let t := mapText name (if r.dirty && upper then σ.toUpper else id) escapedCps r.seq
       if r.dirty && first then capital σ.toUpper t else t, w + (r.seq.map (·.2)).sum)) = resp at hresp
  have hmem : ∀ t w, (t, w) ∈ resp ↔ Form σ name y upper first xs t w := by
    intro t w
    rw [← he, List.mem_filterMap]
    constructor
    · rintro ⟨r, h1, h2⟩
      obtain ⟨w0, h3, h4⟩ := Option.map_eq_some_iff.1 h2
      obtain ⟨ls, h5⟩ := (sound_mem h r).1 h1
      simp only [Prod.mk.injEq] at h4
      exact ⟨ls, r.seq, r.dirty, r.node, w0, h5, (mapFind_iff hr.finals _ _).1 h3, h4.2.symm, h4.1.symm⟩
    · rintro ⟨ls, wr, ch, p, w0, h1, h2, h3, h4⟩
      refine ⟨⟨p, wr, ch⟩, (sound_mem h _).2 ⟨ls, h1⟩, ?_⟩
      rw [(mapFind_iff hr.finals p w0).2 h2, h3, h4]
      rfl
  have hp := hr.sortPerm resp
  have hlen : resp.length ≤ st.length := by rw [← he]; exact List.length_filterMap_le _ _
  have hall : nFinalsLoop σ.maxAnalyses σ.maxWeightClasses (σ.sort resp) = σ.sort resp := by
    have := hr.manyAnalyses
    have := hr.manyClasses
    refine Proc.nFinalsLoop_all _ _ _ ?_ ?_ <;> (rw [hp.length_eq]; omega)
  obtain ⟨rs, h1, h2⟩ := best_pick σ.showWeight hp (hr.sortLe resp) hmem
  refine ⟨rs, h1, ?_⟩
  unfold results
  simp only
  rw [hresp]
  simp only [Res.bind_ok]
  rw [hall, h2]

omit [AddMonoid W] [LinearOrder W] in
theorem isFinal_iff [AddMonoid W] (hf : (σ.finals.map (·.1)).Nodup) {xs : List Int} {st : List (Rec W)} (h : Walk.Sound σ.graph σ.root y xs st) (upper first : Bool) :
    isFinal σ.finals st = true ↔ ∃ t w, Form σ name y upper first xs t w := by
  unfold isFinal
  rw [List.any_eq_true]
  constructor
  · rintro ⟨r, h1, h2⟩
    obtain ⟨w0, h3⟩ := Option.isSome_iff_exists.1 h2
    obtain ⟨ls, h5⟩ := (sound_mem h r).1 h1
    exact ⟨_, _, ls, r.seq, r.dirty, r.node, w0, h5, (mapFind_iff hf _ _).1 h3, rfl, rfl⟩
  · rintro ⟨t, w, ls, wr, ch, p, w0, h1, h2, h3, h4⟩
    refine ⟨⟨p, wr, ch⟩, (sound_mem h _).2 ⟨ls, h1⟩, ?_⟩
    simp only
    rw [(mapFind_iff hf p w0).2 h2]
    rfl

omit [AddMonoid W] in
/-- Nothing is listed only if there is nothing. -/
theorem best_nil {A : UString → W → Prop} {rs : List (UString × W)} (h : Best A rs) (hfin : ∃ S : List (UString × W), ∀ t w, A t w → (t, w) ∈ S) :
    rs = [] ↔ ∀ t w, ¬ A t w := by
  obtain ⟨-, -, h3⟩ := h
  constructor
  · rintro rfl t w hA
    obtain ⟨S, hS⟩ := hfin
    obtain ⟨m, hm1, hm2⟩ : ∃ m, A t m ∧ ∀ w', A t w' → m ≤ w' := by
      by_contra hc
      push Not at hc
      have key : ∀ (k : Nat) (S : List (UString × W)) (m : W), S.length ≤ k → A t m → (∀ w', A t w' → w' < m → (t, w') ∈ S) → False := by
        intro k
        induction k with
        | zero =>
          intro S m hk hm hS
          obtain ⟨w', h1, h2⟩ := hc m hm
          have := hS w' h1 h2
          rw [List.length_eq_zero_iff.1 (by omega : S.length = 0)] at this
          cases this
        | succ k ih =>
          intro S m hk hm hS
          obtain ⟨w', h1, h2⟩ := hc m hm
          have hmem := hS w' h1 h2
          refine ih (S.erase (t, w')) w' ?_ h1 ?_
          · rw [List.length_erase_of_mem hmem]; omega
          · intro w'' h3 h4
            rw [List.mem_erase_of_ne (by intro e; rw [Prod.mk.injEq] at e; exact absurd e.2 (ne_of_lt h4))]
            exact hS w'' h3 (h4.trans h2)
      exact key _ S w le_rfl hA fun w' h _ => hS t w' h
    have := (h3 t m).2 ⟨hm1, hm2⟩
    cases this
  · intro h
    rw [List.eq_nil_iff_forall_not_mem]
    rintro ⟨t, w⟩ hm
    exact h t w ((h3 t w).1 hm).1

omit [LinearOrder W] in
theorem form_finite (hf : (σ.finals.map (·.1)).Nodup) {xs : List Int} {st : List (Rec W)} (h : Walk.Sound σ.graph σ.root y xs st) (upper first : Bool) :
    ∃ S : List (UString × W), ∀ t w, Form σ name y upper first xs t w → (t, w) ∈ S := by
  refine ⟨st.filterMap fun r => (mapFind r.node σ.finals).map fun w => (formText σ name upper first r.dirty r.seq, w + (r.seq.map (·.2)).sum), ?_⟩
  rintro t w ⟨ls, wr, ch, p, w0, h1, h2, rfl, rfl⟩
  refine List.mem_filterMap.2 ⟨⟨p, wr, ch⟩, (sound_mem h _).2 ⟨ls, h1⟩, ?_⟩
  simp only
  rw [(mapFind_iff hf p w0).2 h2]
  rfl

/-! ## Steps -/

/-- The symbols that are tried at a node. -/
def tried (σ : Setting W) (careful : Bool) (x : Int) (p : Nat) : List Int :=
  if x = 0 then []
  else if !decide (x < 0) && σ.isUpper x && !σ.caseSensitive then
    if σ.toLower x = x then [x]
    else if careful && (σ.graph p x).isSome then [x]
    else [x, σ.toLower x]
  else [x]

omit [AddMonoid W] [LinearOrder W] in
theorem folded_iff (x : Int) : (!decide (x < 0) && σ.isUpper x && !σ.caseSensitive) = true ↔ Folded σ x := by
  unfold Folded
  simp [and_assoc]

omit [AddMonoid W] in
theorem tried_steps (hr : Regular σ name) (careful : Bool) (x : Int) (r : Rec W) :
    Steps σ.graph (way σ careful) x r (intos σ.graph x id (tried σ careful x r.node) r) := by
  have hl := hr.lowerZero x
  refine intos_steps (y := way σ careful) r _ ?_ ?_ ?_
  · unfold tried
    split
    · simp
    · split
      · split
        · simp
        · split
          · simp
          · rename_i h _
            simp [Ne.symm h]
      · simp
  · intro z hz
    unfold tried at hz
    split at hz
    · cases hz
    · split at hz
      · split at hz
        · simp at hz; omega
        · split at hz
          · simp at hz; omega
          · simp at hz
            rcases hz with rfl | rfl
            · assumption
            · intro e; rename_i h _ _ _; exact h (hl e)
      · simp at hz; omega
  · intro z _
    show (x ≠ 0 ∧ (z = x ∨ (Folded σ x ∧ z = σ.toLower x ∧ (careful = true → σ.graph r.node x = none)))) ↔ _
    rw [← folded_iff]
    unfold tried
    split
    · rename_i h; simp [h]
    · rename_i h
      split
      · rename_i h1
        split
        · rename_i h2
          simp only [h, h2, ne_eq, not_false_eq_true, true_and, List.mem_singleton]
          constructor
          · rintro (e | ⟨-, e, -⟩) <;> exact e
          · exact .inl
        · rename_i h2
          split
          · rename_i h3
            simp only [Bool.and_eq_true] at h3
            obtain ⟨w, hw⟩ := Option.isSome_iff_exists.1 h3.2
            simp [h, h3.1, hw]
          · rename_i h3
            have : careful = true → σ.graph r.node x = none := by
              intro hc
              simpa [hc] using h3
            have e : (z = σ.toLower x ∧ (careful = true → σ.graph r.node x = none)) ↔ z = σ.toLower x := and_iff_left this
            simp only [h, h1, ne_eq, not_false_eq_true, true_and, e, List.mem_cons, List.not_mem_nil, or_false]
      · rename_i h1
        simp [h, h1]

omit [AddMonoid W] in
theorem genStep_eq (hr : Regular σ name) (n : Nat) (mode : Mode) (x : Int) (st : List (Rec W)) (hs : st.length < 65536) :
    genStep σ n mode x st = ended (epsilonClosure σ.graph n (st.flatMap fun r => intos σ.graph x id (tried σ (mode = .carefulcase) x r.node) r)) := by
  have hc : σ.beCaseSensitive st = σ.caseSensitive := by simp [Setting.beCaseSensitive, hs]
  unfold genStep
  rw [hc]
  have hnil : (st.flatMap fun _ => ([] : List (Rec W))) = [] := by simp
  split
  · rename_i h
    split
    · rename_i hm
      congr 1
      unfold stepCareful applyCareful
      congr 1
      by_cases h0 : x = 0
      · subst h0
        simp [tried, intos]
      · rw [if_neg (by rintro (e | e); exacts [h0 e, h0 (hr.lowerZero x e)])]
        refine List.flatMap_congr ?_
        intro r _
        have hd : (applyInto σ.graph x r false).2 = (σ.graph r.node x).isSome := by
          unfold applyInto; cases σ.graph r.node x <;> rfl
        rw [hd, applyInto_into _ h0, applyInto_into _ (fun e => h0 (hr.lowerZero x e))]
        unfold tried intos
        rw [if_neg h0, if_pos h]
        by_cases h2 : σ.toLower x = x
        · rw [if_pos h2, h2]
          cases hg : σ.graph r.node x with
          | none => simp [into, hg]
          | some d => simp [into, hg]
        · rw [if_neg h2]
          cases hg : σ.graph r.node x with
          | none => simp [into, hg, hm, h2]
          | some d => simp [into, hg, hm]
    · rename_i hm
      congr 1
      unfold stepAlt applyAlt
      congr 1
      by_cases h0 : x = 0
      · subst h0
        simp [tried, intos]
      · rw [if_neg (by rintro (e | e); exacts [h0 e, h0 (hr.lowerZero x e)])]
        split
        · rename_i h2
          unfold State.apply
          rw [if_neg h0]
          refine List.flatMap_congr ?_
          intro r _
          rw [applyInto_into _ h0]
          unfold tried intos
          rw [if_neg h0, if_pos h, if_pos h2.symm]
          simp
        · rename_i h2
          refine List.flatMap_congr ?_
          intro r _
          rw [applyInto_into _ h0, applyInto_into _ (fun e => h0 (hr.lowerZero x e))]
          unfold tried intos
          rw [if_neg h0, if_pos h, if_neg (Ne.symm h2)]
          simp [hm, Ne.symm h2]
  · rename_i h
    congr 1
    unfold step State.apply
    congr 1
    split
    · rename_i h0
      subst h0
      simp [tried, intos]
    · rename_i h0
      refine List.flatMap_congr ?_
      intro r _
      rw [applyInto_into _ h0]
      unfold tried intos
      rw [if_neg h0, if_neg h]
      simp

omit [AddMonoid W] in
/-- All steps end, with the states of the paths that read the symbols. -/
theorem genSteps_ok (hr : Regular σ name) (mode : Mode) (hf : Fewer σ.graph σ.root (way σ (mode = .carefulcase)) 65536) (xs : List Int) :
    ∀ (us : List Int) (st : List (Rec W)), Walk.Sound σ.graph σ.root (way σ (mode = .carefulcase)) us st →
      ∃ st', Walk.Sound σ.graph σ.root (way σ (mode = .carefulcase)) (us ++ xs) st' ∧ ∃ N, ∀ n ≥ N, genSteps σ n mode xs st = .ok st' := by
  induction xs with
  | nil => exact fun us st h => ⟨st, by simpa using h, 0, fun n _ => rfl⟩
  | cons x xs ih =>
    intro us st h
    obtain ⟨k, hk⟩ := hr.finite
    obtain ⟨N, st1, h1⟩ := (closure_ends_iff hk (st.flatMap fun r => intos σ.graph x id (tried σ (mode = .carefulcase) x r.node) r)).2 fun r _ => hr.noCycle _
    obtain ⟨st2, h2, N2, h3⟩ := ih (us ++ [x]) st1 (sound_step h _ (tried_steps hr _ x) h1)
    refine ⟨st2, by simpa using h2, max N N2, fun n hn => ?_⟩
    rw [genSteps, genStep_eq hr n mode x st (sound_length h hf), closure_mono h1 (by omega)]
    exact h3 n (by omega)

omit [AddMonoid W] in
theorem init_ok (hr : Regular σ name) (y : Way) : ∃ st, Walk.Sound σ.graph σ.root y [] st ∧ ∃ N, ∀ n ≥ N, State.init σ.graph n σ.root = some st := by
  obtain ⟨k, hk⟩ := hr.finite
  obtain ⟨N, st, h⟩ := (closure_ends_iff hk [({ node := σ.root, seq := [], dirty := false } : Rec W)]).2 fun r _ => hr.noCycle _
  exact ⟨st, sound_init h, N, fun n hn => closure_mono h hn⟩

omit [AddMonoid W] in
theorem way_names (hr : Regular σ name) {careful : Bool} {xs : List Int} {st : List (Rec W)} (h : Walk.Sound σ.graph σ.root (way σ careful) xs st) :
    ∀ r ∈ st, ∀ e ∈ r.seq, e.1 < 0x110000 ∧ (e.1 < 0 → σ.alphabet.tagText e.1 = .ok (name e.1)) := by
  intro r hr' e he
  obtain ⟨ls, hw⟩ := (sound_mem h r).1 hr'
  rcases walk_written hw e he with ⟨q, l, p, h1, h2⟩ | ⟨q, l, p, x, -, h1, -, h2⟩
  · rw [h2]; exact hr.names _ _ _ h1
  · rw [h2]; exact hr.names _ _ _ h1

/-! ## Texts -/

omit [AddMonoid W] [LinearOrder W] in
theorem escape_eq (s : UString) : appendEscaped [] s = escape s := by
  rw [Proc.appendEscaped_eq]; rfl

/-- The last unit of a character. -/
theorem cut_char {c : Nat} (hc : Scalar c) :
    ∃ u : UInt16, (u = 0x5c ↔ c = '\\'.toNat) ∧ ∀ prev s, (c = '<'.toNat → prev = none ∨ prev = some 0x5c) → cutTags prev (utf16 c ++ s) = (utf16 c ++ (cutTags (some u) s).1, (cutTags (some u) s).2) := by
  have h5 : '<'.toNat = 0x3c := rfl
  have h6 : '\\'.toNat = 0x5c := rfl
  rcases Nat.lt_or_ge c 0x10000 with h1 | h1
  · rw [Proc.utf16_bmp h1]
    have hn := Proc.ofNat_toNat h1
    refine ⟨UInt16.ofNat c, ?_, ?_⟩
    · rw [h6]
      constructor
      · intro e
        rw [← hn, e]
        rfl
      · rintro rfl; rfl
    · intro prev s h
      rw [List.cons_append, List.nil_append, cutTags, if_neg]
      · rfl
      · rintro ⟨e, g1, g2⟩
        have : c = '<'.toNat := by rw [← hn, e]; rfl
        rcases h this with rfl | rfl
        · cases g1
        · exact g2 rfl
  · have h2 : c < 0x110000 := by rcases hc with hc | hc <;> omega
    obtain ⟨u, v, e, g1, g2, g3, g4, -⟩ := Proc.utf16_pair h1 h2
    rw [e]
    refine ⟨v, ?_, ?_⟩
    · rw [h6]
      constructor
      · intro e; rw [e] at g3; exact absurd g3 (by decide)
      · intro e; omega
    · intro prev s _
      rw [List.cons_append, List.cons_append, List.nil_append, cutTags, if_neg, cutTags, if_neg]
      · rfl
      · rintro ⟨e, -⟩; rw [e] at g3; exact absurd g3 (by decide)
      · rintro ⟨e, -⟩; rw [e] at g1; exact absurd g1 (by decide)

theorem cut_toks (ts : List RTok) : ∀ (prev : Option UInt16) (s : UString), (∀ t ∈ ts, t.WF) → (∀ t ∈ ts, t.isChunk = false ∧ isTagPiece t = false) →
    ∃ prev' : Option UInt16, (ts = [] → prev' = prev) ∧ (ts ≠ [] → ∃ u, prev' = some u ∧ (u = 0x5c ↔ ts.getLast? = some (.tok (.esc '\\'.toNat)))) ∧
      cutTags prev (enc (ts.flatMap RTok.text) ++ s) = (enc (ts.flatMap RTok.text) ++ (cutTags prev' s).1, (cutTags prev' s).2) := by
  induction ts with
  | nil => exact fun prev s _ _ => ⟨prev, fun _ => rfl, fun h => absurd rfl h, rfl⟩
  | cons t ts ih =>
    intro prev s hw hk
    have key : ∃ u : UInt16, (u = 0x5c ↔ t = .tok (.esc '\\'.toNat)) ∧ ∀ s, cutTags prev (enc t.text ++ s) = (enc t.text ++ (cutTags (some u) s).1, (cutTags (some u) s).2) := by
      cases t with
      | tag ts => exact absurd (hk (.tag ts) (by simp)).2 (by simp [isTagPiece])
      | chunk ts => exact absurd (hk (.chunk ts) (by simp)).1 (by simp [RTok.isChunk])
      | tok t =>
        have h1 := hw (.tok t) (by simp)
        cases t with
        | raw c =>
          obtain ⟨c1, c2, -, c3, -⟩ := h1
          obtain ⟨u, g1, g2⟩ := cut_char c1
          refine ⟨u, ?_, fun s => ?_⟩
          · rw [g1]
            exact ⟨fun e => absurd e c3, fun e => by simp at e⟩
          · have := g2 prev s fun e => absurd e c2
            simpa [RTok.text, Tok.text, enc] using this
        | esc c =>
          obtain ⟨v, e1, e2⟩ := cut_char (c := '\\'.toNat) (scalar_ascii (by decide))
          obtain ⟨u, g1, g2⟩ := cut_char (c := c) h1
          obtain rfl := e1.2 rfl
          refine ⟨u, ?_, fun s => ?_⟩
          · rw [g1]
            simp
          · have h2 := e2 prev (utf16 c ++ s) fun e => absurd e (by decide)
            have h3 := g2 (some 0x5c) s fun _ => .inr rfl
            rw [h3] at h2
            simpa [RTok.text, Tok.text, enc] using h2
    obtain ⟨u, k1, k2⟩ := key
    obtain ⟨prev', g1, g2, g3⟩ := ih (some u) s (fun t ht => hw t (by simp [ht])) (fun t ht => hk t (by simp [ht]))
    refine ⟨prev', fun h => (by cases h), fun _ => ?_, ?_⟩
    · by_cases e : ts = []
      · subst e
        exact ⟨u, g1 rfl, by rw [k1]; simp⟩
      · obtain ⟨v, h1, h2⟩ := g2 e
        exact ⟨v, h1, by rw [h2, List.getLast?_cons_of_ne_nil e]⟩
    · rw [List.flatMap_cons, Proc.enc_append, List.append_assoc, k2, g3]
      simp

/-- Tags are found. -/
theorem cut_whole {s : RSyn} (hw : s.WF) (ht : Tidy s) : cutTags none (whole s) = (stem s, tags s) := by
  obtain ⟨h1, h2⟩ := ht
  have e : whole s = stem s ++ tags s := by
    unfold whole stem tags
    rw [← Proc.enc_append, ← List.flatMap_append, List.takeWhile_append_dropWhile]
  have hp : ∀ t ∈ pieces s, t.WF ∧ t.isChunk = false := fun t ht => by
    obtain ⟨a, b⟩ := List.mem_filter.1 ht
    exact ⟨hw.toks t a, by simpa using b⟩
  obtain ⟨prev', g1, g2, g3⟩ := cut_toks ((pieces s).takeWhile fun t => !isTagPiece t) none (tags s)
    (fun t ht => (hp t ((List.takeWhile_prefix _).subset ht)).1)
    (fun t ht => ⟨(hp t ((List.takeWhile_prefix _).subset ht)).2, by have := List.all_eq_true.1 List.all_takeWhile _ ht; simpa using this⟩)
  rw [e]
  unfold stem at *
  rw [g3]
  have hcut : cutTags prev' (tags s) = ([], tags s) := by
    cases hd : (pieces s).dropWhile fun t => !isTagPiece t with
    | nil =>
      unfold tags
      rw [hd]
      rfl
    | cons t ts =>
      have htag : isTagPiece t = true := by
        have := List.head_dropWhile_not (fun t => !isTagPiece t) (l := pieces s) (by rw [hd]; simp)
        simpa [hd] using this
      cases t with
      | tok _ => cases htag
      | chunk _ => cases htag
      | tag b =>
        have hne : (pieces s).takeWhile (fun t => !isTagPiece t) ≠ [] := by
          intro e
          have := List.takeWhile_append_dropWhile (p := fun t => !isTagPiece t) (l := pieces s)
          rw [e, hd, List.nil_append] at this
          exact h1 b (by rw [← this]; rfl)
        obtain ⟨u, k1, k2⟩ := g2 hne
        have htt : ∃ z, tags s = 0x3c :: z := by
          unfold tags
          rw [hd]
          exact ⟨_, rfl⟩
        obtain ⟨z, hz⟩ := htt
        have hu : u ≠ 0x5c := by
          intro e
          have := h2 (k2.1 e)
          rw [hz] at this
          cases this
        rw [hz, k1, cutTags, if_pos ⟨rfl, rfl, by simpa using hu⟩]
  rw [hcut, List.append_nil]

omit [AddMonoid W] [LinearOrder W] in
theorem slashed_join (rs : List UString) (h : rs ≠ []) : substr1 (joinResults rs) = .ok (slashed rs) := by
  have key : ∀ rs : List UString, rs ≠ [] → joinResults rs = 0x2f :: slashed rs := by
    intro rs
    induction rs with
    | nil => exact fun h => absurd rfl h
    | cons t ts ih =>
      intro _
      cases ts with
      | nil => simp [joinResults, slashed]
      | cons t' ts =>
        have := ih (by simp)
        have e : joinResults (t :: t' :: ts) = 0x2f :: t ++ joinResults (t' :: ts) := by simp [joinResults]
        rw [e, this]
        simp [slashed]
  rw [key rs h]
  rfl

/-! ## Readings -/

omit [AddMonoid W] [LinearOrder W] in
theorem upper_eq (σ : Setting W) (t : UString) : genUpper σ t = secondUpper σ t := by
  unfold genUpper secondUpper
  match t with
  | [] => simp
  | [u] => simp
  | u :: v :: t => simp only [List.getElem?_cons_succ, List.getElem?_cons_zero, Option.map_some]; cases σ.isUpper (v.toNat : Int) <;> rfl

omit [AddMonoid W] in
theorem first_eq (hr : Regular σ name) (t : UString) : genFirst σ t = firstUpper σ t := by
  unfold genFirst firstUpper
  match t with
  | [] => simp [hr.zeroUpper]
  | u :: t => simp only [List.head?_cons, Option.map_some]; cases σ.isUpper (u.toNat : Int) <;> rfl

theorem tagged_eq {s : RSyn} (hw : s.WF) (ht : Tidy s) (m : Nat) : taggedUnknown m (whole s) = inTags (utf16 m) s := by
  unfold taggedUnknown removeTags escapedWithTags inTags
  rw [cut_whole hw ht, escape_eq]
  simp

theorem genUnknown_eq {s : RSyn} (hw : s.WF) (ht : Tidy s) (mode : Mode) : genUnknown mode (whole s) = formless mode s := by
  have h1 := tagged_eq hw ht 0x23
  have h3 : whole s = [] → stem s = [] := by
    intro e
    have := cut_whole hw ht
    rw [e] at this
    exact (congrArg Prod.fst this).symm
  have h2 : (if whole s ≠ [] then [0x23] else []) ++ escape (stem s) = if whole s = [] then [] else 0x23 :: escape (stem s) := by
    by_cases h : whole s = []
    · simp [h, h3 h, Proc.Token.escape]
    · simp [h]
  cases mode <;> simp only [genUnknown, formless, escape_eq, removeTags, cut_whole hw ht, h2]
  exact h1

theorem genForm_ok (hr : Regular σ name) (mode : Mode) (hf : Fewer σ.graph σ.root (way σ (mode = .carefulcase)) 65536) {s : RSyn} (hw : s.WF) (ht : Tidy s)
    {mark : Nat} {xs : List Int} (hx : SymsOf false (some σ.alphabet) s.toks xs) :
    ∃ t, Generates σ name mode s t ∧ ∃ N, ∀ n ≥ N, genForm σ n mode ⟨mark, whole s, xs⟩ = .ok t := by
  obtain ⟨st0, h0, N0, e0⟩ := init_ok hr (way σ (mode = .carefulcase))
  obtain ⟨st, h1, N1, e1⟩ := genSteps_ok hr mode hf xs [] st0 h0
  rw [List.nil_append] at h1
  obtain ⟨rs, h2, e2⟩ := results_ok hr h1 (sound_length h1 hf) σ.alphabet (way_names hr h1) (secondUpper σ (whole s)) (firstUpper σ (whole s))
  have hfin := isFinal_iff (name := name) hr.finals h1 (secondUpper σ (whole s)) (firstUpper σ (whole s))
  have hnil := best_nil h2 (form_finite hr.finals h1 _ _)
  by_cases h3 : isFinal σ.finals st = true
  · have hne : rs ≠ [] := by
      intro e
      obtain ⟨t, w, h4⟩ := hfin.1 h3
      exact hnil.1 e t w h4
    refine ⟨formed mode s (slashed (rs.map fun x => x.1 ++ σ.showWeight x.2)), ⟨xs, hx, .inl ⟨rs, hne, h2, rfl⟩⟩, max N0 N1, fun n hn => ?_⟩
    unfold genForm
    simp only [e0 n (by omega), ended, Res.bind_ok, e1 n (by omega), h3, if_true, upper_eq, first_eq hr]
    have e2' : results σ (secondUpper σ (whole s)) (firstUpper σ (whole s)) st = .ok (rs.map fun x => x.1 ++ σ.showWeight x.2) := e2
    rw [e2']
    simp only [Res.bind_ok]
    rw [slashed_join _ (by simpa using hne)]
    simp only [Res.bind_ok, escapedWithTags, cut_whole hw ht, escape_eq]
    cases mode <;> simp [formed]
  · refine ⟨formless mode s, ⟨xs, hx, .inr ⟨fun t w h => h3 (hfin.2 ⟨t, w, h⟩), rfl⟩⟩, max N0 N1, fun n hn => ?_⟩
    unfold genForm
    simp only [e0 n (by omega), ended, Res.bind_ok, e1 n (by omega), h3, genUnknown_eq hw ht]
    simp

theorem genReading_ok (hr : Regular σ name) (mode : Mode) (hf : Fewer σ.graph σ.root (way σ (mode = .carefulcase)) 65536) {s : RSyn} (hw : s.WF) (ht : Tidy s)
    {rd : Reading} (hx : ReadsAs false (some σ.alphabet) s rd.mark rd.content rd.symbols) :
    ∃ t, Reads σ name mode s t ∧ ∃ N, ∀ n ≥ N, genReading σ n mode rd = .ok t := by
  obtain ⟨mark, content, xs⟩ := rd
  obtain ⟨h1, h2, h3⟩ := hx
  simp only at h1 h2 h3
  obtain rfl : content = whole s := h2
  subst h1
  obtain ⟨t, g1, N, g2⟩ := genForm_ok hr mode hf hw ht (mark := s.mark.getD 0) h3
  have hm := hw.mark
  have key : ∀ c : Nat, c ≠ 0 → (s.mark.getD 0 = c ↔ s.mark = some c) := by
    intro c hc
    cases s.mark with
    | none => simp; omega
    | some m => simp
  have k1 := key '*'.toNat (by decide)
  have k2 := key '%'.toNat (by decide)
  have k3 := key '@'.toNat (by decide)
  have k4 := key '='.toNat (by decide)
  unfold genReading Reads
  simp only [k1, k2, k3, k4]
  by_cases c1 : s.mark = some '*'.toNat
  · refine ⟨_, by rw [if_pos c1], 0, fun n _ => ?_⟩
    rw [if_pos (.inl c1), c1]
    unfold genStar
    rw [Option.getD_some, tagged_eq hw ht, escape_eq]
    cases mode <;> rfl
  by_cases c2 : s.mark = some '%'.toNat
  · refine ⟨_, by rw [if_neg c1, if_pos c2], 0, fun n _ => ?_⟩
    rw [if_pos (.inr c2), c2]
    unfold genStar
    rw [Option.getD_some, tagged_eq hw ht, escape_eq]
    cases mode <;> rfl
  by_cases c3 : s.mark = some '@'.toNat
  · refine ⟨_, by rw [if_neg c1, if_neg c2, if_pos c3], 0, fun n _ => ?_⟩
    rw [if_neg (by rintro (h | h); exacts [c1 h, c2 h]), if_pos c3, c3]
    unfold genAt
    rw [Option.getD_some, tagged_eq hw ht]
    simp only [removeTags, cut_whole hw ht, escape_eq]
    cases mode <;> rfl
  simp only [if_neg c3, c1, c2, or_self, if_false]
  by_cases c4 : s.mark = some '='.toNat
  · simp only [c4, if_true]
    refine ⟨_, ⟨t, rfl, g1⟩, N, fun n hn => ?_⟩
    have := g2 n hn
    rw [c4] at this
    rw [this]
    rfl
  · simp only [c4, if_false]
    refine ⟨t, g1, N, fun n hn => ?_⟩
    rw [g2 n hn]
    rfl

theorem genOut_ok (hr : Regular σ name) (mode : Mode) (hf : Fewer σ.graph σ.root (way σ (mode = .carefulcase)) 65536) {i : Item} (hw : i.WF)
    (ht : ∀ b wb rs, i = .unit b wb rs → ∀ s ∈ rs.head?, Tidy s) {o : Out} (ho : Shows false (some σ.alphabet) i o) :
    ∃ t, Writes σ name mode i t ∧ ∃ N, ∀ n ≥ N, genOut σ n mode o = .ok t := by
  cases i with
  | null b =>
    obtain rfl := ho
    exact ⟨_, rfl, 0, fun n _ => by simp [genOut]⟩
  | unit b wb rs =>
    obtain ⟨h1, h2, h3, -, h5, -⟩ := ho
    obtain ⟨-, -, -, w4, w5⟩ := hw
    cases rs with
    | nil => exact absurd rfl w4
    | cons s rs =>
      obtain ⟨bl, wbl, rds, chunk, nul, eof⟩ := o
      simp only at h1 h2 h3 h5
      cases h3 with
      | cons hd _ =>
        obtain ⟨t, g1, N, g2⟩ := genReading_ok hr mode hf (w5 s (by simp)) (ht _ _ _ rfl s rfl) hd
        refine ⟨_, ⟨s, t, rfl, g1, rfl⟩, N, fun n hn => ?_⟩
        unfold genOut
        simp only [g2 n hn, Res.bind_ok, h1, h2, h5]
        simp

omit [AddMonoid W] [LinearOrder W] in
/-- The loop over the units, when it is known what is written for each. -/
theorem eachUnit_ok (f : Out → Res UString) : ∀ (os : List Out) (ts : List UString) (turns : Nat) (r r' : Reader) (out : UString) (o : Out) (t : UString),
    nexts (os.length + 1) r = .ok (os ++ [o], r') → (∀ x ∈ os, x.atEof = false) → o.atEof = true → r.atEof = false →
    List.Forall₂ (fun x t => f x = .ok t) os ts → f o = .ok t → os.length + 1 ≤ turns → eachUnit f turns r out = .ok (out ++ ts.flatten ++ t) := by
  intro os
  induction os with
  | nil =>
    intro ts turns r r' out o t hn _ ho hr hf hfo ht
    cases hf
    obtain ⟨k, rfl⟩ : ∃ k, turns = k + 1 := ⟨turns - 1, by simp at ht; omega⟩
    simp only [List.length_nil, nexts, Res.bind_eq_ok, Res.ok.injEq, Prod.mk.injEq, List.nil_append] at hn
    obtain ⟨r1, e1, ⟨os', r2⟩, e2, e3, e4⟩ := hn
    simp only [Prod.mk.injEq] at e2
    obtain ⟨rfl, rfl⟩ := e2
    simp only [List.cons.injEq, and_true] at e3
    subst e3
    unfold eachUnit
    simp only [hr, Bool.false_eq_true, if_false, e1, Res.bind_ok, hfo]
    unfold eachUnit
    rw [if_pos (show r1.atEof = true from ho)]
    simp
  | cons x os ih =>
    intro ts turns r r' out o t hn hos ho hr hf hfo ht
    cases hf with
    | cons hx hf =>
      rename_i tx ts
      obtain ⟨k, rfl⟩ : ∃ k, turns = k + 1 := ⟨turns - 1, by simp at ht; omega⟩
      rw [List.length_cons, nexts] at hn
      simp only [Res.bind_eq_ok, Res.ok.injEq, Prod.mk.injEq, List.cons_append] at hn
      obtain ⟨r1, e1, ⟨os', r2⟩, e2, e3, e4⟩ := hn
      simp only [List.cons.injEq] at e3
      obtain ⟨e3, rfl⟩ := e3
      have hr1 : r1.atEof = false := by have := hos x (by simp); rw [← e3] at this; exact this
      unfold eachUnit
      simp only [hr, Bool.false_eq_true, if_false, e1, Res.bind_ok, e3, hx]
      rw [ih ts k r1 r2 (out ++ tx) o t e2 (fun y hy => hos y (by simp [hy])) ho hr1 hf hfo (by simpa using ht)]
      simp

end

end Verif.Gen
