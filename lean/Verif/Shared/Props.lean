import Verif.Shared.Model
import Verif.Alphabet.Lemmas

/-!
# C101: threads that share an alphabet
-/

namespace Verif.Shared

open Verif Alphabet Verif.Compression

/-- The codes are those of the pairs, one for each. -/
abbrev Right (a : Alphabet) (ps : List Pair) (cs : List Int) : Prop := List.Forall₂ (fun p c => HasPair a c p) ps cs

/-! ## All pairs there -/

/-- A thread that was given these pairs, whose codes so far are right, and that has never found a pair missing. -/
def Fine (a : Alphabet) (ps : List Pair) (t : Thread) : Prop :=
  (∃ done, ps = done ++ t.todo ∧ Right a done t.codes) ∧ (t.pc = .search ∨ t.pc = .answer)

theorem fine_step {a : Alphabet} (ha : Ok a) {ps : List Pair} (hps : ∀ p ∈ ps, p ∈ a.spairinv) {t : Thread} (h : Fine a ps t) :
    (step a t).1 = a ∧ Fine a ps (step a t).2 := by
  obtain ⟨⟨dn, e, hd⟩, hpc⟩ := h
  obtain ⟨todo, pc, codes⟩ := t
  cases todo with
  | nil => exact ⟨rfl, ⟨dn, e, hd⟩, hpc⟩
  | cons p rest =>
    have hp : p ∈ a.spairinv := hps p (by rw [e]; simp)
    obtain ⟨i, hi, hi'⟩ := List.getElem_of_mem hp
    have hh : HasPair a i p := ⟨i, by rw [List.getElem?_eq_getElem hi, hi'], rfl⟩
    have hf := (hasPair_find ha).2 hh
    rcases hpc with rfl | rfl
    · simp only [step, hf, Option.isSome_some, if_true]
      exact ⟨trivial, ⟨dn, e, hd⟩, Or.inr rfl⟩
    · simp only [step, hf, Option.getD_some]
      exact ⟨trivial, ⟨dn ++ [p], by rw [e]; simp, List.rel_append hd (.cons hh .nil)⟩, Or.inl rfl⟩

theorem fine_run {a b : Alphabet} {ts us : List Thread} (hr : Run a ts b us) (ha : Ok a) {pss : List (List Pair)}
    (hps : ∀ ps ∈ pss, ∀ p ∈ ps, p ∈ a.spairinv) (h : List.Forall₂ (Fine a) pss ts) : b = a ∧ List.Forall₂ (Fine a) pss us := by
  induction hr with
  | refl => exact ⟨rfl, h⟩
  | @step a b pre post us t ht hr ih =>
    obtain ⟨l1, l2, h1, h2, rfl⟩ : ∃ l1 l2, List.Forall₂ (Fine a) l1 pre ∧ List.Forall₂ (Fine a) l2 (t :: post) ∧ pss = l1 ++ l2 := by
      refine ⟨pss.take pre.length, pss.drop pre.length, ?_, ?_, (List.take_append_drop _ _).symm⟩
      · have := List.forall₂_take pre.length h; rwa [List.take_left] at this
      · have := List.forall₂_drop pre.length h; rwa [List.drop_left] at this
    cases h2 with
    | @cons ps _ l2 _ hx h2 =>
      obtain ⟨e, hf⟩ := fine_step ha (hps ps (by simp)) hx
      rw [e] at ih
      exact ih ha hps (List.rel_append h1 (.cons hf h2))

/-- If the alphabet has all the pairs that the threads ask for, the order of the threads does not matter: the alphabet stays as it is and every thread gets the code
of each of its pairs. Without this hypothesis it is false: `C101_clash_false`. -/
theorem C101_shared_partial {a b : Alphabet} (ha : Ok a) (pss : List (List Pair)) (hps : ∀ ps ∈ pss, ∀ p ∈ ps, p ∈ a.spairinv) {us : List Thread}
    (hr : Run a (pss.map Thread.start) b us) (hf : Finished us) :
    b = a ∧ List.Forall₂ (fun ps u => Right a ps u.codes) pss us := by
  obtain ⟨e, h⟩ := fine_run hr ha hps (by
    rw [List.forall₂_map_right_iff]
    exact List.forall₂_same.2 fun ps _ => ⟨⟨[], rfl, .nil⟩, Or.inl rfl⟩)
  refine ⟨e, ?_⟩
  clear hr hps
  induction h with
  | nil => exact .nil
  | @cons ps u pss us hx _ ih =>
    refine .cons ?_ (ih fun t ht => hf t (by simp [ht]))
    obtain ⟨⟨dn, e, hd⟩, _⟩ := hx
    rw [hf u (by simp), List.append_nil] at e
    rw [e]; exact hd

/-! ## One thread -/

theorem mapFind_set {m : List ((Int ×ₗ Int) × Int)} (hs : SortedKeys m) (k : Int ×ₗ Int) (v : Int) (k' : Int ×ₗ Int) :
    mapFind k' (mapSet k v m) = if k' = k then some v else mapFind k' m := by
  rw [mapSet_eq_modify, mapFind_modify hs]

/-- What is true of the only thread at each statement; `a0` is the alphabet before the call. -/
def Only (a : Alphabet) (ps : List Pair) (b : Alphabet) (t : Thread) : Prop :=
  ∃ a0 done, Ok a0 ∧ Ext a a0 ∧ ps = done ++ t.todo ∧ Right a0 done t.codes ∧ (t.todo = [] → t.pc = .search) ∧
    match t.pc with
    | .search => b = a0
    | .size => b = a0 ∧ ∀ p, t.todo.head? = some p → mapFind (toLex p) a0.spair = none
    | .store n => b = a0 ∧ n = a0.spair.length ∧ ∀ p, t.todo.head? = some p → mapFind (toLex p) a0.spair = none
    | .push => ∀ p, t.todo.head? = some p →
        b = { a0 with spair := mapSet (toLex p) (a0.spair.length : Int) a0.spair } ∧ mapFind (toLex p) a0.spair = none
    | .answer => b = a0 ∧ ∀ p, t.todo.head? = some p → p ∈ a0.spairinv

theorem mem_of_find {a : Alphabet} (ha : Ok a) {p : Pair} {c : Int} (h : mapFind (toLex p) a.spair = some c) : p ∈ a.spairinv := by
  obtain ⟨i, hi, _⟩ := (hasPair_find ha).1 h
  exact List.mem_of_getElem? hi

theorem only_step {a : Alphabet} {ps : List Pair} {b : Alphabet} {t : Thread} (ht : t.todo ≠ []) (h : Only a ps b t) :
    Only a ps (step b t).1 (step b t).2 := by
  obtain ⟨a0, dn, ha, hx, e, hd, -, hpc⟩ := h
  obtain ⟨todo, pc, codes⟩ := t
  cases todo with
  | nil => exact absurd rfl ht
  | cons p rest =>
    cases pc with
    | search =>
      simp only at hpc
      subst hpc
      cases hf : mapFind (toLex p) b.spair with
      | some c =>
        simp only [step, hf, Option.isSome_some, if_true]
        refine ⟨b, dn, ha, hx, e, hd, (fun h => nomatch h), rfl, fun q hq => ?_⟩
        cases hq; exact mem_of_find ha hf
      | none =>
        simp only [step, hf, Option.isSome_none, Bool.false_eq_true, if_false]
        refine ⟨b, dn, ha, hx, e, hd, (fun h => nomatch h), rfl, fun q hq => ?_⟩
        cases hq; exact hf
    | size =>
      obtain ⟨rfl, hf⟩ := hpc
      exact ⟨b, dn, ha, hx, e, hd, (fun h => nomatch h), rfl, rfl, hf⟩
    | store n =>
      obtain ⟨rfl, rfl, hf⟩ := hpc
      refine ⟨b, dn, ha, hx, e, hd, (fun h => nomatch h), fun q hq => ?_⟩
      cases hq
      exact ⟨rfl, hf _ rfl⟩
    | push =>
      obtain ⟨rfl, hf⟩ := hpc p rfl
      have e' : pairCode a0 p.1 p.2 = ((a0.spair.length : Int), { a0 with
          spair := mapSet (toLex p) (a0.spair.length : Int) a0.spair
          spairinv := a0.spairinv ++ [p] }) := by simp only [pairCode, Prod.mk.eta, hf]
      obtain ⟨h1, h2, -⟩ := pairCode_spec ha p.1 p.2
      rw [e'] at h1 h2
      refine ⟨_, dn, h1, hx.trans h2, e, hd.imp fun _ _ h => h.mono h2, (fun h => nomatch h), rfl, fun q hq => ?_⟩
      cases hq
      simp
    | answer =>
      obtain ⟨rfl, hm⟩ := hpc
      obtain ⟨i, hi, hi'⟩ := List.getElem_of_mem (hm p rfl)
      have hh : HasPair b i p := ⟨i, by rw [List.getElem?_eq_getElem hi, hi'], rfl⟩
      have hf := (hasPair_find ha).2 hh
      simp only [step, hf, Option.getD_some]
      exact ⟨b, dn ++ [p], ha, hx, by rw [e]; simp, List.rel_append hd (.cons hh .nil), fun _ => rfl, rfl⟩

theorem only_run {b c : Alphabet} {ts us : List Thread} (hr : Run b ts c us) {a : Alphabet} {ps : List Pair} {t : Thread} (e : ts = [t])
    (h : Only a ps b t) : ∃ u, us = [u] ∧ Only a ps c u := by
  induction hr generalizing t with
  | refl => exact ⟨t, e, h⟩
  | @step a' b' pre post us t' ht hr ih =>
    cases pre with
    | nil =>
      obtain ⟨rfl, rfl⟩ := List.cons.inj e
      exact ih rfl (only_step ht h)
    | cons x pre => simp at e

/-- One thread alone, which is what lt-compose starts if the first file has one section: it gets codes that mean its pairs, and the alphabet is as it should be. -/
theorem C101_one {a b : Alphabet} (ha : Ok a) (ps : List Pair) {us : List Thread} (hr : Run a [Thread.start ps] b us) (hf : Finished us) :
    ∃ u, us = [u] ∧ Ok b ∧ Ext a b ∧ Right b ps u.codes := by
  obtain ⟨u, rfl, a0, dn, h0, hx, e, hd, hs, hpc⟩ := only_run hr rfl (⟨a, [], ha, .refl a, rfl, .nil, fun _ => rfl, rfl⟩ : Only a ps a (Thread.start ps))
  have hn := hf u (by simp)
  rw [hn, List.append_nil] at e
  rw [hs hn] at hpc
  simp only at hpc
  subst hpc e
  exact ⟨u, rfl, h0, hx, hd⟩

/-! ## One thread after the other -/

theorem Run.trans {a b c : Alphabet} {ts us vs : List Thread} (h : Run a ts b us) (h' : Run b us c vs) : Run a ts c vs := by
  induction h with
  | refl => exact h'
  | step ht _ ih => exact .step ht (ih h')

/-- One statement of one of two threads. -/
theorem run_left {a b : Alphabet} {t u : Thread} {us : List Thread} (ht : t.todo ≠ []) (hr : Run (step a t).1 [(step a t).2, u] b us) :
    Run a [t, u] b us := .step (pre := []) (post := [u]) ht hr

theorem run_right {a b : Alphabet} {t u : Thread} {us : List Thread} (hu : u.todo ≠ []) (hr : Run (step a u).1 [t, (step a u).2] b us) :
    Run a [t, u] b us := .step (pre := [t]) (post := []) hu hr

/-- A call that no other thread interrupts is `Alphabet::operator()` as in the rest of the model. -/
theorem call_run (a : Alphabet) (hs : SortedKeys a.spair) (p : Pair) (ps : List Pair) (cs : List Int) (pre post : List Thread) :
    Run a (pre ++ ⟨p :: ps, .search, cs⟩ :: post) (pairCode a p.1 p.2).2 (pre ++ ⟨ps, .search, cs ++ [(pairCode a p.1 p.2).1]⟩ :: post) := by
  refine .step (by simp) ?_
  cases hf : mapFind (toLex p) a.spair with
  | some c =>
    have e : pairCode a p.1 p.2 = (c, a) := by simp only [pairCode, Prod.mk.eta, hf]
    simp only [step, hf, Option.isSome_some, if_true]
    refine .step (by simp) ?_
    simp only [step, hf, Option.getD_some, e]
    exact .refl
  | none =>
    have e : pairCode a p.1 p.2 = ((a.spair.length : Int), { a with
      spair := mapSet (toLex p) (a.spair.length : Int) a.spair
      spairinv := a.spairinv ++ [p] }) := by simp only [pairCode, Prod.mk.eta, hf]
    simp only [step, hf, Option.isSome_none, Bool.false_eq_true, if_false]
    refine .step (by simp) ?_
    simp only [step]
    refine .step (by simp) ?_
    simp only [step]
    refine .step (by simp) ?_
    simp only [step]
    refine .step (by simp) ?_
    simp only [step, mapFind_set hs, if_true, Option.getD_some, e]
    exact .refl

theorem thread_run {a : Alphabet} (ha : Ok a) (ps : List Pair) (cs : List Int) (pre post : List Thread) :
    ∃ b ds, Run a (pre ++ ⟨ps, .search, cs⟩ :: post) b (pre ++ ⟨[], .search, cs ++ ds⟩ :: post) ∧ Ok b ∧ Ext a b ∧ Right b ps ds := by
  induction ps generalizing a cs with
  | nil => exact ⟨a, [], by rw [List.append_nil]; exact .refl, ha, .refl a, .nil⟩
  | cons p ps ih =>
    obtain ⟨h1, h2, h3, -⟩ := pairCode_spec ha p.1 p.2
    obtain ⟨b, ds, hr, hb, hx, hd⟩ := ih h1 (cs ++ [(pairCode a p.1 p.2).1])
    refine ⟨b, (pairCode a p.1 p.2).1 :: ds, (call_run a ha.pairs.sorted p ps cs pre post).trans ?_, hb, h2.trans hx, .cons (h3.mono hx) hd⟩
    simpa using hr

/-- Some order of the threads is good for all alphabets and all pairs: one thread after the other, which is what lt-compose does without `LT_JOBS`. -/
theorem C101_in_turn {a : Alphabet} (ha : Ok a) (pss : List (List Pair)) :
    ∃ b us, Run a (pss.map Thread.start) b us ∧ Finished us ∧ Ok b ∧ Ext a b ∧ List.Forall₂ (fun ps u => Right b ps u.codes) pss us := by
  suffices H : ∀ (pre : List Thread), ∃ b us, Run a (pre ++ pss.map Thread.start) b (pre ++ us) ∧ Finished us ∧ Ok b ∧ Ext a b ∧
      List.Forall₂ (fun ps u => Right b ps u.codes) pss us from H []
  induction pss generalizing a with
  | nil => exact fun pre => ⟨a, [], .refl, by simp [Finished], ha, .refl a, .nil⟩
  | cons ps pss ih =>
    intro pre
    obtain ⟨b, ds, hr, hb, hx, hd⟩ := thread_run ha ps [] pre (pss.map Thread.start)
    obtain ⟨c, us, hr', hf, hc, hx', hu⟩ := ih hb (pre ++ [⟨[], .search, ds⟩])
    refine ⟨c, ⟨[], .search, ds⟩ :: us, hr.trans ?_, ?_, hc, hx.trans hx', .cons (hd.imp fun _ _ h => h.mono hx') hu⟩
    · simpa using hr'
    · intro t ht
      rcases List.mem_cons.1 ht with rfl | ht
      · rfl
      · exact hf t ht

/-! ## Threads at the same time -/

theorem find_none {a : Alphabet} (ha : Ok a) {p : Pair} (hp : p ∉ a.spairinv) : mapFind (toLex p) a.spair = none := by
  cases hf : mapFind (toLex p) a.spair with
  | none => rfl
  | some c => exact absurd (mem_of_find ha hf) hp

theorem pairs_length {a : Alphabet} (ha : Ok a) : a.spair.length = a.spairinv.length := by
  have := ha.pairs.len; rwa [List.length_map] at this

theorem sorted_set {m : List ((Int ×ₗ Int) × Int)} (hs : SortedKeys m) (k : Int ×ₗ Int) (v : Int) : SortedKeys (mapSet k v m) := by
  rw [mapSet_eq_modify]; exact sorted_modify hs _ _ _

/-- Two threads that ask for different new pairs can get the same code for them, which then means the pair of the first one: in the section of the second thread the
one pair has become the other. -/
theorem C101_clash_false {a : Alphabet} (ha : Ok a) {p q : Pair} (hpq : p ≠ q) (hp : p ∉ a.spairinv) (hq : q ∉ a.spairinv) :
    ∃ b t u c, Run a [Thread.start [p], Thread.start [q]] b [t, u] ∧ Finished [t, u] ∧ t.codes = [c] ∧ u.codes = [c] ∧ HasPair b c p ∧
      ¬ HasPair b c q := by
  have hp' := find_none ha hp
  have hq' := find_none ha hq
  have hs := ha.pairs.sorted
  have hne : toLex q ≠ toLex p := fun e => hpq (toLex.injective e).symm
  refine ⟨{ a with
      spair := mapSet (toLex q) (a.spair.length : Int) (mapSet (toLex p) (a.spair.length : Int) a.spair)
      spairinv := (a.spairinv ++ [p]) ++ [q] }, ⟨[], .search, [(a.spair.length : Int)]⟩, ⟨[], .search, [(a.spair.length : Int)]⟩, a.spair.length, ?_,
    by simp [Finished], rfl, rfl, ?_, ?_⟩
  · refine run_left (by simp [Thread.start]) ?_
    simp only [step, Thread.start, hp', Option.isSome_none, Bool.false_eq_true, if_false]
    refine run_left (by simp) ?_
    simp only [step]
    refine run_right (by simp) ?_
    simp only [step, hq', Option.isSome_none, Bool.false_eq_true, if_false]
    refine run_right (by simp) ?_
    simp only [step]
    refine run_left (by simp) ?_
    simp only [step]
    refine run_left (by simp) ?_
    simp only [step]
    refine run_left (by simp) ?_
    simp only [step, mapFind_set hs, if_true, Option.getD_some]
    refine run_right (by simp) ?_
    simp only [step]
    refine run_right (by simp) ?_
    simp only [step]
    refine run_right (by simp) ?_
    simp only [step, mapFind_set (sorted_set hs _ _), if_true, Option.getD_some]
    exact .refl
  · exact ⟨a.spairinv.length, by simp, by rw [pairs_length ha]⟩
  · rintro ⟨i, hi, e⟩
    rw [pairs_length ha] at e
    obtain rfl : i = a.spairinv.length := by omega
    simp at hi
    exact hpq hi

/-- Two threads that ask for the same new pair can both add it. From then on the numbers in the map and the places in the list differ by one: the next new pair that
a thread asks for gets a code that means the pair before. -/
theorem C101_twice_false {a : Alphabet} (ha : Ok a) {p q : Pair} (hpq : p ≠ q) (hp : p ∉ a.spairinv) (hq : q ∉ a.spairinv) :
    ∃ b t u c d, Run a [Thread.start [p, q], Thread.start [p]] b [t, u] ∧ Finished [t, u] ∧ t.codes = [c, d] ∧ u.codes = [c] ∧ HasPair b c p ∧
      HasPair b d p ∧ ¬ HasPair b d q := by
  have hp' := find_none ha hp
  have hq' := find_none ha hq
  have hs := ha.pairs.sorted
  have hne : toLex q ≠ toLex p := fun e => hpq (toLex.injective e).symm
  let m := mapSet (toLex p) (a.spair.length : Int) a.spair
  have hm : SortedKeys m := sorted_set hs _ _
  have hmm : mapSet (toLex p) (a.spair.length : Int) m = m := by
    refine sortedKeys_ext (sorted_set hm _ _) hm fun k c => ?_
    rw [mapFind_set hm, show m = mapSet (toLex p) (a.spair.length : Int) a.spair from rfl, mapFind_set hs]
    by_cases hk : k = toLex p <;> simp [hk]
  have hlen : m.length = a.spair.length + 1 := length_mapSet_new hp'
  have hmq : mapFind (toLex q) m = none := by
    rw [show m = mapSet (toLex p) (a.spair.length : Int) a.spair from rfl, mapFind_set hs, if_neg hne, hq']
  have hmp : mapFind (toLex p) m = some (a.spair.length : Int) := by
    rw [show m = mapSet (toLex p) (a.spair.length : Int) a.spair from rfl, mapFind_set hs, if_pos rfl]
  refine ⟨{ a with
      spair := mapSet (toLex q) (m.length : Int) m
      spairinv := ((a.spairinv ++ [p]) ++ [p]) ++ [q] }, ⟨[], .search, [(a.spair.length : Int), (m.length : Int)]⟩,
    ⟨[], .search, [(a.spair.length : Int)]⟩, a.spair.length, m.length, ?_, by simp [Finished], rfl, rfl, ?_, ?_, ?_⟩
  · refine run_left (by simp [Thread.start]) ?_
    simp only [step, Thread.start, hp', Option.isSome_none, Bool.false_eq_true, if_false]
    refine run_left (by simp) ?_
    simp only [step]
    refine run_right (by simp) ?_
    simp only [step, hp', Option.isSome_none, Bool.false_eq_true, if_false]
    refine run_right (by simp) ?_
    simp only [step]
    refine run_left (by simp) ?_
    simp only [step]
    refine run_left (by simp) ?_
    simp only [step]
    refine run_left (by simp) ?_
    simp only [step, show mapSet (toLex p) (a.spair.length : Int) a.spair = m from rfl, hmp, Option.getD_some]
    refine run_right (by simp) ?_
    simp only [step, hmm]
    refine run_right (by simp) ?_
    simp only [step]
    refine run_right (by simp) ?_
    simp only [step, hmp, Option.getD_some]
    refine run_left (by simp) ?_
    simp only [step, hmq, Option.isSome_none, Bool.false_eq_true, if_false]
    refine run_left (by simp) ?_
    simp only [step]
    refine run_left (by simp) ?_
    simp only [step]
    refine run_left (by simp) ?_
    simp only [step]
    refine run_left (by simp) ?_
    simp only [step, mapFind_set hm, if_true, Option.getD_some]
    exact .refl
  · exact ⟨a.spairinv.length, by simp, by rw [pairs_length ha]⟩
  · exact ⟨a.spairinv.length + 1, by simp, by rw [hlen, pairs_length ha]⟩
  · rintro ⟨i, hi, e⟩
    rw [hlen, pairs_length ha] at e
    obtain rfl : i = a.spairinv.length + 1 := by push_cast at e; omega
    simp at hi
    exact hpq hi

/-! ## Cases -/

/-- An alphabet with the pair of `a` and `b`. -/
def exA : Alphabet := (empty.pairCode 0x61 0x62).2

theorem exA_ok : Ok exA := (pairCode_spec ok_empty 0x61 0x62).1

/-- Two threads that ask for a pair that is there, one of them twice, in an order that mixes them. -/
example : ∃ us, Run exA [Thread.start [(0x61, 0x62), (0, 0)], Thread.start [(0x61, 0x62)]] exA us ∧ Finished us ∧ us.map (·.codes) = [[1, 0], [1]] := by
  refine ⟨[⟨[], .search, [1, 0]⟩, ⟨[], .search, [1]⟩], ?_, by simp [Finished], rfl⟩
  refine run_left (by simp [Thread.start]) (run_right (by simp [Thread.start]) (run_left ?_ (run_left ?_ (run_right ?_ (run_left ?_ ?_)))))
  · decide +kernel
  · decide +kernel
  · decide +kernel
  · decide +kernel
  · exact .refl

example : ∀ ps ∈ [[((0x61, 0x62) : Pair), (0, 0)], [(0x61, 0x62)]], ∀ p ∈ ps, p ∈ exA.spairinv := by decide +kernel

/-- The pairs of `a` and `c`, and of `b` and `b`, are new. -/
example : ((0x61, 0x63) : Pair) ≠ (0x62, 0x62) ∧ ((0x61, 0x63) : Pair) ∉ exA.spairinv ∧ ((0x62, 0x62) : Pair) ∉ exA.spairinv := by decide +kernel

end Verif.Shared
