import Verif.Trans.Spec
import Verif.Gen.Lemmas
import Verif.Bil.Lemmas

/-! # Lemmas about the functions that translate one unit -/

namespace Verif.Trans

open Verif.State Verif.Walk
open Verif.Gen (Setting Form slashed ended results)
open Verif.Alphabet (Sym pieces piecesLoop nextPiece nextPiece_sym nextPiece_some withEsc withEsc_length pieces_syms nextLen_of_not_lead closeLen)

variable {W : Type}

/-! ## Pieces -/

theorem text_ne {x : Sym} (h : x.Writable) : x.text ≠ [] := by
  cases x with
  | letter u e => simp only [Sym.text]; split <;> simp
  | tag t => obtain ⟨i, rfl, -⟩ := h; simp [Sym.text]

theorem loop_append (past : UInt16) {r : UString} (hr : r ≠ []) (xs : List Sym) (h : ∀ x ∈ xs, x.Writable) :
    ∀ fuel, (xs.flatMap Sym.text ++ r).length ≤ fuel → ∃ f, r.length ≤ f ∧ ∀ ps, piecesLoop past f r = .ok ps →
      piecesLoop past fuel (xs.flatMap Sym.text ++ r) = .ok (xs.map Sym.piece ++ ps) := by
  induction xs with
  | nil => exact fun fuel hf => ⟨fuel, by simpa using hf, fun ps hp => by simpa using hp⟩
  | cons x xs ih =>
    intro fuel hf
    have hx := nextPiece_sym x (h x List.mem_cons_self) (xs.flatMap Sym.text ++ r)
    have hl := List.length_pos_iff.2 (text_ne (h x List.mem_cons_self))
    rw [List.flatMap_cons, List.append_assoc, List.length_append] at hf
    obtain ⟨fuel, rfl⟩ : ∃ f, fuel = f + 1 := ⟨fuel - 1, by omega⟩
    obtain ⟨f, h1, h2⟩ := ih (fun y hy => h y (List.mem_cons_of_mem _ hy)) fuel (by omega)
    refine ⟨f, h1, fun ps hp => ?_⟩
    rw [List.flatMap_cons, List.append_assoc]
    simp only [piecesLoop, hx]
    split
    · rename_i hnil
      simp [hr] at hnil
    · rw [h2 ps hp]; rfl

theorem loop_plain (past : UInt16) (hp : past ≠ 0x5c) (us : UString) (h : ∀ u ∈ us, PlainUnit u) :
    ∀ fuel, us.length ≤ fuel → piecesLoop past fuel us = .ok (us.map fun u => [u]) := by
  intro fuel hf
  have e : us.flatMap (fun u => Sym.text (.letter u false)) = us := by
    induction us with
    | nil => rfl
    | cons u us ih => simp only [List.flatMap_cons, ih (fun v hv => h v (by simp [hv])) (by simp at hf; omega)]; rfl
  have := pieces_syms past hp (us.map fun u => .letter u false) (by
    intro x hx
    obtain ⟨u, hu, rfl⟩ := List.mem_map.1 hx
    obtain ⟨h1, h2, h3, h4⟩ := h u hu
    exact ⟨h3, h4, fun hh => by rcases hh with rfl | rfl <;> simp_all⟩) fuel (by rw [List.flatMap_map, e]; exact hf)
  rw [List.flatMap_map, e] at this
  rw [this, List.map_map]
  rfl

theorem closeLen_none {t : UString} (h : (0x3e : UInt16) ∉ t) : closeLen t = none := by
  induction t with
  | nil => rfl
  | cons u t ih =>
    simp only [List.mem_cons, not_or] at h
    simp only [closeLen, if_neg (Ne.symm h.1), ih h.2, Option.map_none]

/-- The pieces of the text of a unit without its last character. -/
theorem pieces_shorn {ss : List Sym} (hne : ss ≠ []) (h : ∀ x ∈ ss, x.Writable) (hl : ∀ t, ss.getLast? = some (.tag t) → ∀ u ∈ t.tail, PlainUnit u) :
    pieces (((ss.flatMap Sym.text).getLast?).getD 0) (ss.flatMap Sym.text).dropLast = .ok ((shorn ss).map Sym.piece) := by
  obtain ⟨init, x, rfl⟩ : ∃ i x, ss = i ++ [x] := ⟨_, _, (List.dropLast_append_getLast hne).symm⟩
  have hi : ∀ y ∈ init, y.Writable := fun y hy => h y (by simp [hy])
  have hx : x.Writable := h x (by simp)
  have e0 : shorn (init ++ [x]) = init ++ shornLast x := by simp [shorn]
  have e1 : (init ++ [x]).flatMap Sym.text = init.flatMap Sym.text ++ x.text := by simp
  have e2 : (init.flatMap Sym.text ++ x.text).dropLast = init.flatMap Sym.text ++ x.text.dropLast := List.dropLast_append_of_ne_nil (text_ne hx)
  rw [e0, e1, e2, List.map_append]
  unfold pieces
  cases x with
  | letter u e =>
    obtain ⟨h1, h2, h3⟩ := hx
    cases e with
    | false =>
      have hu : u ≠ 0x5c := fun e => by simpa using h3 (.inl e)
      have e : (init.flatMap Sym.text ++ Sym.text (.letter u false)).getLast?.getD 0 = u := by simp [Sym.text]
      rw [e]
      have := pieces_syms u hu init hi (init.flatMap Sym.text).length (Nat.le_refl _)
      simpa [Sym.text, shornLast] using this
    | true =>
      obtain ⟨f, g1, g2⟩ := loop_append ((init.flatMap Sym.text ++ Sym.text (.letter u true)).getLast?.getD 0) (r := [0x5c]) (by simp) init hi
        (init.flatMap Sym.text ++ [0x5c]).length (Nat.le_refl _)
      refine g2 [] ?_
      obtain ⟨f, rfl⟩ : ∃ k, f = k + 1 := ⟨f - 1, by simp at g1; omega⟩
      simp [piecesLoop, nextPiece]
  | tag t =>
    have ht := hl t (by simp)
    obtain ⟨i, rfl, hi'⟩ := hx
    have ed : (0x3c :: i ++ [0x3e] : UString).dropLast = 0x3c :: i := List.dropLast_concat ..
    have el : (init.flatMap Sym.text ++ Sym.text (.tag (0x3c :: i ++ [0x3e]))).getLast?.getD 0 = 0x3e := by
      show (init.flatMap Sym.text ++ (0x3c :: i ++ [0x3e])).getLast?.getD 0 = 0x3e
      rw [← List.append_assoc, List.getLast?_concat]; rfl
    rw [el]
    show piecesLoop 0x3e (init.flatMap Sym.text ++ (0x3c :: i ++ [0x3e] : UString).dropLast).length _ = .ok (_ ++ (((0x3c :: i ++ [0x3e] : UString).dropLast).map _).map _)
    rw [show (Sym.tag (0x3c :: i ++ [0x3e])).text.dropLast = 0x3c :: i from ed, ed]
    obtain ⟨f, g1, g2⟩ := loop_append 0x3e (r := 0x3c :: i) (by simp) init hi (init.flatMap Sym.text ++ 0x3c :: i).length (Nat.le_refl _)
    refine g2 _ ?_
    rw [List.map_map]
    obtain ⟨f, rfl⟩ : ∃ k, f = k + 1 := ⟨f - 1, by simp at g1; omega⟩
    have hp : ∀ u ∈ i, PlainUnit u := fun u hu => ht u (by simp [hu])
    have := loop_plain 0x3e (by decide) i hp f (by simpa using g1)
    simp only [piecesLoop, nextPiece, closeLen_none hi']
    rw [if_neg (by decide), if_pos trivial]
    simp only
    cases i with
    | nil => simp [Sym.piece]
    | cons u i =>
      simp only [this]
      simp [Sym.piece]

/-! ## Steps -/

variable [AddMonoid W] [LinearOrder W] {σ : Setting W} {name : Int → UString}

/-- The symbols that `biltrans` tries. -/
def tried (σ : Setting W) (x : Int) : List Int := if σ.caseSensitive = false ∨ x = 0 then [] else if x = 1 then [1] else [x, 1]

omit [AddMonoid W] [LinearOrder W] in
theorem tried_steps (x : Int) (r : Rec W) : Steps σ.graph (flagWay σ) x r (intos σ.graph x id (tried σ x) r) := by
  refine intos_steps (y := flagWay σ) r _ ?_ ?_ ?_
  · unfold tried
    split
    · simp
    · split
      · simp
      · rename_i h; simp [h]
  · intro z hz
    unfold tried at hz
    split at hz
    · cases hz
    · rename_i h
      split at hz
      · simp at hz; omega
      · simp at hz
        rcases hz with rfl | rfl
        · exact fun e => h (.inr e)
        · omega
  · intro z _
    show (σ.caseSensitive = true ∧ x ≠ 0 ∧ (z = x ∨ z = 1)) ↔ _
    unfold tried
    cases σ.caseSensitive with
    | false => simp
    | true =>
      by_cases h0 : x = 0
      · simp [h0]
      · by_cases h1 : x = 1
        · simp [h1]
        · simp [h0, h1]

omit [AddMonoid W] [LinearOrder W] in
theorem flagStep_eq (n : Nat) (x : Int) (st : List (Rec W)) (hs : st.length < 65536) :
    flagStep σ n x st = ended (epsilonClosure σ.graph n (st.flatMap (intos σ.graph x id (tried σ x)))) := by
  have hc : σ.beCaseSensitive st = σ.caseSensitive := by simp [Gen.Setting.beCaseSensitive, hs]
  unfold flagStep stepAlt applyAlt
  rw [hc]
  congr 2
  unfold tried
  cases σ.caseSensitive with
  | false => simp [intos]
  | true =>
    by_cases h0 : x = 0
    · simp [h0, intos]
    · simp only [if_true, h0, false_or, Bool.true_eq_false, if_false, show ¬ (1 : Int) = 0 by omega]
      by_cases h1 : x = 1
      · subst h1
        simp only [if_true, State.apply, if_neg (show ¬ (1 : Int) = 0 by omega)]
        refine List.flatMap_congr fun r _ => ?_
        rw [applyInto_into _ (by omega)]
        simp [intos]
      · simp only [h1, if_false]
        refine List.flatMap_congr fun r _ => ?_
        rw [applyInto_into _ h0, applyInto_into _ (by omega)]
        simp [intos, Ne.symm h1]

omit [AddMonoid W] in
theorem caseStep_eq (hr : Regular σ name) (n : Nat) (x : Int) (st : List (Rec W)) (hs : st.length < 65536) :
    caseStep σ n x st = ended (epsilonClosure σ.graph n (st.flatMap fun r => intos σ.graph x id (Gen.tried σ false x r.node) r)) := by
  have h := Gen.genStep_eq hr.base n .unknown x st hs
  simp only [reduceCtorEq, decide_false] at h
  rw [← h]
  unfold caseStep Gen.genStep stepCase
  have h1 : σ.isUpper x = true → ¬ x < 0 := fun h2 h3 => by rw [hr.upperTag x h3] at h2; cases h2
  cases h2 : σ.isUpper x with
  | false => simp
  | true =>
    have h3 := h1 h2
    cases σ.beCaseSensitive st <;> simp [h3]

/-! ## The loop -/

omit [AddMonoid W] in
theorem seq_names (hr : Gen.Regular σ name) {y : Way} (hout : ∀ x o, y.out x o = o) {xs : List Int} {st : List (Rec W)} (h : Walk.Sound σ.graph σ.root y xs st) :
    ∀ r ∈ st, ∀ e ∈ r.seq, e.1 < 0x110000 ∧ (e.1 < 0 → σ.alphabet.tagText e.1 = .ok (name e.1)) := by
  intro r hr' e he
  obtain ⟨ls, hw⟩ := (sound_mem h r).1 hr'
  rcases Gen.walk_written hw e he with ⟨q, l, p, h1, h2⟩ | ⟨q, l, p, x, -, h1, -, h2⟩
  · rw [h2]; exact hr.names _ _ _ h1
  · rw [h2, hout]; exact hr.names _ _ _ h1

omit [AddMonoid W] [LinearOrder W] in
theorem read_iff {y : Way} {xs : List Int} {st : List (Rec W)} (h : Walk.Sound σ.graph σ.root y xs st) : Read σ y xs ↔ st ≠ [] := by
  constructor
  · rintro ⟨ls, wr, ch, p, hw⟩ rfl
    exact absurd (h.2 _ _ _ _ hw) (by simp)
  · intro hne
    obtain ⟨r, st', rfl⟩ := List.exists_cons_of_ne_nil hne
    obtain ⟨ls, hw⟩ := (sound_mem h r).1 (by simp)
    exact ⟨ls, _, _, _, hw⟩

omit [LinearOrder W] in
theorem form_read {y : Way} {upper first : Bool} {xs : List Int} {t : UString} {w : W} (h : Form σ name y upper first xs t w) : Read σ y xs := by
  obtain ⟨ls, wr, ch, p, w0, h1, -⟩ := h
  exact ⟨ls, wr, ch, p, h1⟩

omit [AddMonoid W] [LinearOrder W] in
theorem read_prefix {y : Way} {xs zs : List Int} (h : Read σ y (xs ++ zs)) : Read σ y xs := by
  obtain ⟨ls, wr, ch, p, hw⟩ := h
  generalize hv : xs ++ zs = vs at hw
  induction hw generalizing zs with
  | start =>
    obtain ⟨rfl, -⟩ := List.append_eq_nil_iff.1 hv
    exact ⟨_, _, _, _, .start⟩
  | empty h h0 ha ih => exact ih hv
  | read h h0 hy ha ih =>
    rename_i x
    rcases List.eq_nil_or_concat zs with rfl | ⟨zs', z, rfl⟩
    · rw [List.append_nil] at hv
      rw [hv]
      exact ⟨_, _, _, _, .read h h0 hy ha⟩
    · rw [← List.concat_eq_append, List.concat_eq_append, List.concat_eq_append, ← List.append_assoc] at hv
      exact ih (List.append_inj' hv rfl).1

/-- A way of reading and the step that belongs to it. -/
structure Fits (σ : Setting W) (y : Way) (stepOf : Nat → Int → List (Rec W) → Res (List (Rec W))) : Prop where
  out : ∀ x o, y.out x o = o
  steps : ∃ succ : Int → Rec W → List (Rec W), (∀ x r, Steps σ.graph y x r (succ x r)) ∧
    ∀ n x st, st.length < 65536 → stepOf n x st = ended (epsilonClosure σ.graph n (st.flatMap (succ x)))
  few : Fewer σ.graph σ.root y 65536

omit [AddMonoid W] [LinearOrder W] in
theorem fits_flag (hf : Fewer σ.graph σ.root (flagWay σ) 65536) : Fits σ (flagWay σ) (flagStep σ) :=
  ⟨fun _ _ => rfl, ⟨_, fun x r => tried_steps x r, fun n x st hs => flagStep_eq n x st hs⟩, hf⟩

omit [AddMonoid W] in
theorem fits_case (hr : Regular σ name) (hf : Fewer σ.graph σ.root (Gen.way σ false) 65536) : Fits σ (Gen.way σ false) (caseStep σ) :=
  ⟨fun _ _ => rfl, ⟨_, fun x r => Gen.tried_steps hr.base false x r, fun n x st hs => caseStep_eq hr n x st hs⟩, hf⟩

omit [AddMonoid W] in
theorem step_ok (hr : Gen.Regular σ name) {y : Way} {stepOf : Nat → Int → List (Rec W) → Res (List (Rec W))} (hy : Fits σ y stepOf) {us : List Int} {st : List (Rec W)}
    (h : Walk.Sound σ.graph σ.root y us st) (x : Int) : ∃ st', Walk.Sound σ.graph σ.root y (us ++ [x]) st' ∧ ∃ N, ∀ n ≥ N, stepIf (stepOf n) x st = .ok st' := by
  obtain ⟨succ, h1, h2⟩ := hy.steps
  unfold stepIf
  by_cases h0 : st.length = 0
  · obtain rfl := List.length_eq_zero_iff.1 h0
    exact ⟨[], sound_step h (succ x) (h1 x) (n := 0) rfl, 0, fun n _ => rfl⟩
  · obtain ⟨k, hk⟩ := hr.finite
    obtain ⟨N, st1, h3⟩ := (closure_ends_iff hk (st.flatMap (succ x))).2 fun r _ => hr.noCycle _
    refine ⟨st1, sound_step h _ (h1 x) h3, N, fun n hn => ?_⟩
    rw [if_neg h0, h2 n x st (sound_length h hy.few), closure_mono h3 hn]
    rfl

/-- What the loop returns. -/
theorem loop_ok (hr : Gen.Regular σ name) {y : Way} {stepOf : Nat → Int → List (Rec W) → Res (List (Rec W))} (hy : Fits σ y stepOf) (upper first : Bool) (ps : List UString) :
    ∀ (us : List Int) (st : List (Rec W)) (result : List UString) (queue : UString), Walk.Sound σ.graph σ.root y us st →
      let ys := fun j => us ++ (ps.map (valOf σ.alphabet)).take j
      let A := fun j => Form σ name y upper first (ys j)
      ∃ r, (∃ N, ∀ n ≥ N, transLoop σ (stepOf n) upper first ps st result queue = .ok r) ∧
        match r with
        | none => (∀ j, 0 < j → j ≤ ps.length → ∀ t w, ¬ A j t w) ∧ result = [] ∧ ∃ j, 0 < j ∧ j ≤ ps.length ∧ ∀ i, j ≤ i → i ≤ ps.length → ¬ Read σ y (ys i)
        | some (st', res, q) => Walk.Sound σ.graph σ.root y (ys ps.length) st' ∧
          ((∃ j, 0 < j ∧ j ≤ ps.length ∧ (∃ t w, A j t w) ∧ (∀ i, j < i → i ≤ ps.length → ∀ t w, ¬ A i t w) ∧
              ∃ bs, Best (A j) bs ∧ bs ≠ [] ∧ res = bs.map fun x => x.1 ++ σ.showWeight x.2) ∨
            (∀ j, 0 < j → j ≤ ps.length → ∀ t w, ¬ A j t w) ∧ res = result) ∧
          (ps ≠ [] → res = [] → Read σ y (ys ps.length)) ∧
          ∃ d, d ≤ ps.length ∧ (∀ j, d < j → j ≤ ps.length → ¬ Read σ y (ys j)) ∧ (0 < d → Read σ y (ys d)) ∧ q = queue ++ (ps.drop d).flatten := by
  induction ps with
  | nil =>
    intro us st result queue hs ys A
    refine ⟨some (st, result, queue), ⟨0, fun n _ => rfl⟩, by simpa [ys] using hs, .inr ⟨?_, rfl⟩, fun h => absurd rfl h, 0, by simp, ?_, by simp, by simp⟩
    · intro j h1 h2; simp at h2; omega
    · intro j h1 h2; simp at h2; omega
  | cons p ps ih =>
    intro us st result queue hs ys A
    obtain ⟨st1, hs1, N1, e1⟩ := step_ok hr hy hs (valOf σ.alphabet p)
    have hys : ∀ j, us ++ [valOf σ.alphabet p] ++ (ps.map (valOf σ.alphabet)).take j = ys (j + 1) := by intro j; simp [ys]
    have hy1 : us ++ [valOf σ.alphabet p] = ys 1 := by simp [ys]
    have hlen : (p :: ps).length = ps.length + 1 := rfl
    rw [hy1] at hs1
    have hfin := Gen.isFinal_iff (name := name) hr.finals hs1 upper first
    have hrd := read_iff hs1
    -- the translations after this symbol
    obtain ⟨res1, hres, eres⟩ : ∃ res1, (((∃ t w, A 1 t w) ∧ ∃ bs, Best (A 1) bs ∧ bs ≠ [] ∧ res1 = bs.map fun x => x.1 ++ σ.showWeight x.2) ∨
        (∀ t w, ¬ A 1 t w) ∧ res1 = result) ∧ foundNow σ upper first st1 result = .ok res1 := by
      unfold foundNow
      by_cases hF : isFinal σ.finals st1 = true
      · obtain ⟨bs, h2, e2⟩ := Gen.results_ok hr hs1 (sound_length hs1 hy.few) σ.alphabet (seq_names hr hy.out hs1) upper first
        have hne : bs ≠ [] := by
          intro e
          obtain ⟨t, w, h4⟩ := hfin.1 hF
          exact (Gen.best_nil h2 (Gen.form_finite hr.finals hs1 _ _)).1 e t w h4
        refine ⟨_, .inl ⟨hfin.1 hF, bs, h2, hne, rfl⟩, ?_⟩
        rw [if_pos hF]; exact e2
      · refine ⟨result, .inr ⟨fun t w h => hF (hfin.2 ⟨t, w, h⟩), rfl⟩, ?_⟩
        rw [if_neg hF]
    have hmono : ∀ j, 0 < j → Read σ y (ys j) → st1 ≠ [] := by
      intro j hj h
      refine hrd.1 ?_
      obtain ⟨j, rfl⟩ : ∃ k, j = k + 1 := ⟨j - 1, by omega⟩
      rw [← hys, hy1] at h
      exact read_prefix h
    have hres0 : res1 = [] → (∀ t w, ¬ A 1 t w) ∧ result = [] := by
      intro e
      rcases hres with ⟨-, bs, -, hb, h2⟩ | ⟨h1, h2⟩
      · rw [e] at h2
        exact absurd (List.map_eq_nil_iff.1 h2.symm) hb
      · exact ⟨h1, by rw [← h2, e]⟩
    -- what is found later
    have later : ∀ q1, ∃ r, (∃ N, ∀ n ≥ N, transLoop σ (stepOf n) upper first ps st1 res1 q1 = .ok r) ∧
        match r with
        | none => (∀ j, 1 < j → j ≤ ps.length + 1 → ∀ t w, ¬ A j t w) ∧ res1 = [] ∧ ∃ j, 1 < j ∧ j ≤ ps.length + 1 ∧ ∀ i, j ≤ i → i ≤ ps.length + 1 → ¬ Read σ y (ys i)
        | some (st', res, q) => Walk.Sound σ.graph σ.root y (ys (ps.length + 1)) st' ∧
          ((∃ j, 1 < j ∧ j ≤ ps.length + 1 ∧ (∃ t w, A j t w) ∧ (∀ i, j < i → i ≤ ps.length + 1 → ∀ t w, ¬ A i t w) ∧
              ∃ bs, Best (A j) bs ∧ bs ≠ [] ∧ res = bs.map fun x => x.1 ++ σ.showWeight x.2) ∨
            (∀ j, 1 < j → j ≤ ps.length + 1 → ∀ t w, ¬ A j t w) ∧ res = res1) ∧
          (ps ≠ [] → res = [] → Read σ y (ys (ps.length + 1))) ∧
          ∃ d, d ≤ ps.length ∧ (∀ j, d + 1 < j → j ≤ ps.length + 1 → ¬ Read σ y (ys j)) ∧ (0 < d → Read σ y (ys (d + 1))) ∧ q = q1 ++ (ps.drop d).flatten := by
      intro q1
      obtain ⟨r, h1, h2⟩ := ih (ys 1) st1 res1 q1 hs1
      refine ⟨r, h1, ?_⟩
      have hshift : ∀ j, ys 1 ++ (ps.map (valOf σ.alphabet)).take j = ys (j + 1) := by intro j; rw [← hy1, hys]
      simp only [hshift] at h2
      have up : ∀ P : Nat → Prop, ∀ d, (∀ j, d < j → j ≤ ps.length → P (j + 1)) → ∀ j, d + 1 < j → j ≤ ps.length + 1 → P j := by
        intro P d h j h1 h2
        obtain ⟨j, rfl⟩ : ∃ k, j = k + 1 := ⟨j - 1, by omega⟩
        exact h j (by omega) (by omega)
      match r, h2 with
      | none, ⟨g1, g2, j, g3, g4, g5⟩ =>
        refine ⟨up (fun j => ∀ t w, ¬ A j t w) 0 g1, g2, j + 1, by omega, by omega, fun i hi hl => ?_⟩
        obtain ⟨i, rfl⟩ : ∃ k, i = k + 1 := ⟨i - 1, by omega⟩
        exact g5 i (by omega) (by omega)
      | some (st', res, q), ⟨g1, g2, g3, d, g4, g5, g6, g7⟩ =>
        refine ⟨g1, ?_, g3, d, g4, up (fun j => ¬ Read σ y (ys j)) d g5, g6, g7⟩
        rcases g2 with ⟨j, k1, k2, k3, k4, k5⟩ | ⟨k1, k2⟩
        · exact .inl ⟨j + 1, by omega, by omega, k3, up (fun j => ∀ t w, ¬ A j t w) j k4, k5⟩
        · exact .inr ⟨up (fun j => ∀ t w, ¬ A j t w) 0 k1, k2⟩
    -- both findings together
    have both : ∀ res, ((∃ j, 1 < j ∧ j ≤ ps.length + 1 ∧ (∃ t w, A j t w) ∧ (∀ i, j < i → i ≤ ps.length + 1 → ∀ t w, ¬ A i t w) ∧
          ∃ bs, Best (A j) bs ∧ bs ≠ [] ∧ res = bs.map fun x => x.1 ++ σ.showWeight x.2) ∨
        (∀ j, 1 < j → j ≤ ps.length + 1 → ∀ t w, ¬ A j t w) ∧ res = res1) →
        ((∃ j, 0 < j ∧ j ≤ ps.length + 1 ∧ (∃ t w, A j t w) ∧ (∀ i, j < i → i ≤ ps.length + 1 → ∀ t w, ¬ A i t w) ∧
          ∃ bs, Best (A j) bs ∧ bs ≠ [] ∧ res = bs.map fun x => x.1 ++ σ.showWeight x.2) ∨
        (∀ j, 0 < j → j ≤ ps.length + 1 → ∀ t w, ¬ A j t w) ∧ res = result) := by
      intro res h
      rcases h with ⟨j, g1, g⟩ | ⟨g1, rfl⟩
      · exact .inl ⟨j, by omega, g⟩
      · rcases hres with ⟨h1, bs, h2⟩ | ⟨h1, h2⟩
        · exact .inl ⟨1, by omega, by omega, h1, g1, bs, h2⟩
        · refine .inr ⟨fun j hj hl => ?_, h2⟩
          rcases Nat.lt_or_ge 1 j with h5 | h5
          · exact g1 j h5 hl
          · obtain rfl : j = 1 := by omega
            exact h1
    rw [hlen]
    by_cases h0 : st1.length = 0
    · have hd : ∀ j, 0 < j → ¬ Read σ y (ys j) := fun j hj h => hmono j hj h (List.length_eq_zero_iff.1 h0)
      by_cases hE : res1 = []
      · refine ⟨none, ⟨N1, fun n hn => ?_⟩, fun j hj _ t w h => hd j hj (form_read h), (hres0 hE).2, 1, by omega, by omega, fun i hi _ => hd i (by omega)⟩
        rw [transLoop, e1 n hn]
        simp only [Res.bind_ok, eres, h0, if_true, hE, List.isEmpty_nil]
      · obtain ⟨r, ⟨N, h1⟩, h2⟩ := later (queue ++ p)
        match r, h1, h2 with
        | none, _, ⟨_, g2, _⟩ => exact absurd g2 hE
        | some (st', res, q), h1, ⟨g1, g2, g3, d, g4, g5, g6, g7⟩ =>
          have hd0 : d = 0 := by
            rcases Nat.eq_zero_or_pos d with h | h
            · exact h
            · exact absurd (g6 h) (hd _ (by omega))
          subst hd0
          refine ⟨some (st', res, q), ⟨max N N1, fun n hn => ?_⟩, g1, both res g2, fun _ hn => ?_, 0, by omega, fun j hj _ => hd j hj, by simp, by rw [g7]; simp⟩
          · rw [transLoop, e1 n (by omega)]
            simp only [Res.bind_ok, eres, h0, if_true]
            rw [if_neg (by simpa using hE)]
            exact h1 n (by omega)
          · exfalso
            rcases g2 with ⟨j, k1, k2, ⟨t, w, k3⟩, -⟩ | ⟨-, k2⟩
            · exact hd j (by omega) (form_read k3)
            · exact hE (k2 ▸ hn)
    · have hr1 : Read σ y (ys 1) := hrd.2 (by rintro rfl; exact h0 rfl)
      obtain ⟨r, ⟨N, h1⟩, h2⟩ := later queue
      refine ⟨r, ⟨max N N1, fun n hn => ?_⟩, ?_⟩
      · rw [transLoop, e1 n (by omega)]
        simp only [Res.bind_ok, eres, h0, if_false]
        exact h1 n (by omega)
      · match r, h2 with
        | none, ⟨g1, g2, j, g3, g4, g5⟩ =>
          refine ⟨fun i hi hl => ?_, (hres0 g2).2, j, by omega, g4, g5⟩
          rcases Nat.lt_or_ge 1 i with h5 | h5
          · exact g1 i h5 hl
          · obtain rfl : i = 1 := by omega
            exact (hres0 g2).1
        | some (st', res, q), ⟨g1, g2, g3, d, g4, g5, g6, g7⟩ =>
          refine ⟨g1, both res g2, fun _ hn => ?_, d + 1, by omega, g5, fun _ => ?_, g7⟩
          · by_cases hp : ps = []
            · subst hp; exact hr1
            · exact g3 hp hn
          · rcases Nat.eq_zero_or_pos d with rfl | h
            · exact hr1
            · exact g6 h

end Verif.Trans
