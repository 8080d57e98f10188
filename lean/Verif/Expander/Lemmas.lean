import Verif.Expander.Model
import Verif.Data.AssocLemmas

/-! # Lemmas on the expander -/

namespace Verif.Expander

open Verif.Dict (Dir Elem Gives)

theorem appendInner_eq (it : UString × UString) (es temp : EntList) :
    appendInner it es temp = temp ++ es.map fun e => (it.1 ++ e.1, it.2 ++ e.2) := by
  induction es generalizing temp with
  | nil => simp [appendInner]
  | cons e es ih => simp [appendInner, ih]

theorem appendOuter_eq (es rs temp : EntList) :
    appendOuter es rs temp = temp ++ rs.flatMap fun r => es.map fun e => (r.1 ++ e.1, r.2 ++ e.2) := by
  induction rs generalizing temp with
  | nil => simp [appendOuter]
  | cons e es ih => simp [appendOuter, ih, appendInner_eq]

theorem append_eq (rs es : EntList) :
    append rs es = rs.flatMap fun r => es.map fun e => (r.1 ++ e.1, r.2 ++ e.2) := by
  simp [append, appendOuter_eq]

theorem mem_append {rs es : EntList} {p : UString × UString} :
    p ∈ append rs es ↔ ∃ r ∈ rs, ∃ e ∈ es, (r.1 ++ e.1, r.2 ++ e.2) = p := by
  simp [append_eq]

theorem append_nil_right (rs : EntList) : append rs [] = [] := by simp [append_eq]
theorem append_nil_left (es : EntList) : append [] es = [] := by simp [append_eq]

theorem mem_appendPair {rs : EntList} {q p : UString × UString} :
    p ∈ appendPair rs q ↔ ∃ r ∈ rs, (r.1 ++ q.1, r.2 ++ q.2) = p := by
  simp [appendPair]

/-- The list of a direction. -/
def Items.get (it : Items) : Dir → EntList
  | .both => it.both
  | .lr => it.lr
  | .rl => it.rl

theorem mem_printed {it : Items} {d : Dir} {p : UString × UString} : (d, p) ∈ printed it ↔ p ∈ it.get d := by
  cases d <;> simp [printed, Items.get]

theorem meet_both_left (d : Dir) : Dir.meet .both d = some d := by cases d <;> rfl
theorem meet_both_right (d : Dir) : Dir.meet d .both = some d := by cases d <;> rfl

theorem meet_comm (a b : Dir) : a.meet b = b.meet a := by cases a <;> cases b <;> rfl

theorem meet_assoc {a b c x y : Dir} (h : a.meet b = some x) (h' : x.meet c = some y) :
    ∃ z, b.meet c = some z ∧ a.meet z = some y := by
  revert h h'
  cases a <;> cases b <;> cases c <;> cases x <;> cases y <;> simp [Dir.meet]

theorem meet_assoc' {a b c y z : Dir} (h : b.meet c = some z) (h' : a.meet z = some y) :
    ∃ x, a.meet b = some x ∧ x.meet c = some y := by
  revert h h'
  cases a <;> cases b <;> cases c <;> cases z <;> cases y <;> simp [Dir.meet]

section
variable {N : Type} [LinearOrder N]

/-- Only the list of the restriction is in use. -/
def Fits (r : UString) (it : Items) : Prop :=
  (r = LR → it.both = [] ∧ it.rl = []) ∧ (r = RL → it.both = [] ∧ it.lr = [])

theorem LR_ne_RL : LR ≠ RL := by decide

theorem startDir_LR {s : Settings} {a : Attrs} (h : a.r = LR) : startDir s a = .lr := by simp [startDir, h]

theorem startDir_RL {s : Settings} {a : Attrs} (hs : skipped s a = false) (h : a.r = RL) : startDir s a = .rl := by
  simp only [skipped, h, Bool.or_eq_false_iff, beq_self_eq_true, Bool.and_true] at hs
  simp [startDir, h, hs.1.2]
  decide

theorem fits_start {s : Settings} {a : Attrs} (hs : skipped s a = false) : Fits a.r (startItems (startDir s a)) := by
  constructor
  · intro h; rw [startDir_LR h]; exact ⟨rfl, rfl⟩
  · intro h; rw [startDir_RL hs h]; exact ⟨rfl, rfl⟩

theorem mem_startItems {d d' : Dir} {p : UString × UString} : p ∈ (startItems d).get d' ↔ d' = d ∧ p = ([], []) := by
  cases d <;> cases d' <;> simp [startItems, Items.get]

/-- One paradigm after the lists (the three branches). -/
def stepPar (r : UString) (it p : Items) : Items :=
  if r = LR then { it with lr := append it.lr p.lr ++ append it.lr p.both }
  else if r = RL then { it with rl := append it.rl p.rl ++ append it.rl p.both }
  else
    ⟨append it.both p.both, append (if p.lr.length > 0 then it.lr ++ it.both else it.lr) p.lr,
      append (if p.rl.length > 0 then it.rl ++ it.both else it.rl) p.rl⟩

theorem fits_par {r : UString} {it p : Items} (h : Fits r it) : Fits r (stepPar r it p) := by
  constructor
  · rintro rfl
    simpa [stepPar] using h.1 rfl
  · rintro rfl
    simpa [stepPar, LR_ne_RL.symm] using h.2 rfl

theorem fits_text {r : UString} {it : Items} (h : Fits r it) (p : UString × UString) :
    Fits r ⟨appendPair it.both p, appendPair it.lr p, appendPair it.rl p⟩ := by
  constructor
  · rintro rfl; obtain ⟨h1, h2⟩ := h.1 rfl; simp [h1, h2, appendPair]
  · rintro rfl; obtain ⟨h1, h2⟩ := h.2 rfl; simp [h1, h2, appendPair]

theorem get_text (it : Items) (p : UString × UString) (d : Dir) :
    Items.get ⟨appendPair it.both p, appendPair it.lr p, appendPair it.rl p⟩ d = appendPair (it.get d) p := by
  cases d <;> rfl

theorem mem_stepPar {r : UString} {it p : Items} (hf : Fits r it) {d : Dir} {q : UString × UString}
    (h : q ∈ (stepPar r it p).get d) :
    ∃ d0 d1, ∃ q0 ∈ it.get d0, ∃ q1 ∈ p.get d1, d0.meet d1 = some d ∧ q = (q0.1 ++ q1.1, q0.2 ++ q1.2) := by
  unfold stepPar at h
  split at h
  · rename_i hr
    obtain ⟨h1, h2⟩ := hf.1 hr
    cases d
    · simp [Items.get, h1] at h
    · simp only [Items.get, List.mem_append, mem_append] at h
      rcases h with ⟨q0, m0, q1, m1, rfl⟩ | ⟨q0, m0, q1, m1, rfl⟩
      · exact ⟨.lr, .lr, q0, m0, q1, m1, rfl, rfl⟩
      · exact ⟨.lr, .both, q0, m0, q1, m1, rfl, rfl⟩
    · simp [Items.get, h2] at h
  · split at h
    · rename_i hr
      obtain ⟨h1, h2⟩ := hf.2 hr
      cases d
      · simp [Items.get, h1] at h
      · simp [Items.get, h2] at h
      · simp only [Items.get, List.mem_append, mem_append] at h
        rcases h with ⟨q0, m0, q1, m1, rfl⟩ | ⟨q0, m0, q1, m1, rfl⟩
        · exact ⟨.rl, .rl, q0, m0, q1, m1, rfl, rfl⟩
        · exact ⟨.rl, .both, q0, m0, q1, m1, rfl, rfl⟩
    · cases d
      · simp only [Items.get, mem_append] at h
        obtain ⟨q0, m0, q1, m1, rfl⟩ := h
        exact ⟨.both, .both, q0, m0, q1, m1, rfl, rfl⟩
      · simp only [Items.get, mem_append] at h
        obtain ⟨q0, m0, q1, m1, rfl⟩ := h
        split at m0
        · rcases List.mem_append.1 m0 with m0 | m0
          · exact ⟨.lr, .lr, q0, m0, q1, m1, rfl, rfl⟩
          · exact ⟨.both, .lr, q0, m0, q1, m1, rfl, rfl⟩
        · exact ⟨.lr, .lr, q0, m0, q1, m1, rfl, rfl⟩
      · simp only [Items.get, mem_append] at h
        obtain ⟨q0, m0, q1, m1, rfl⟩ := h
        split at m0
        · rcases List.mem_append.1 m0 with m0 | m0
          · exact ⟨.rl, .rl, q0, m0, q1, m1, rfl, rfl⟩
          · exact ⟨.both, .rl, q0, m0, q1, m1, rfl, rfl⟩
        · exact ⟨.rl, .rl, q0, m0, q1, m1, rfl, rfl⟩

/-- No combination is lost, if the lists have no restricted pairs yet or there is an explicit restriction. -/
theorem stepPar_mem {r : UString} {it p : Items} (hf : Fits r it) (hs : r = LR ∨ r = RL ∨ it.lr = [] ∧ it.rl = [])
    {d d0 d1 : Dir} {q0 q1 : UString × UString} (h0 : q0 ∈ it.get d0) (h1 : q1 ∈ p.get d1) (hd : d0.meet d1 = some d) :
    (q0.1 ++ q1.1, q0.2 ++ q1.2) ∈ (stepPar r it p).get d := by
  unfold stepPar
  split
  · rename_i hr
    obtain ⟨h2, h3⟩ := hf.1 hr
    cases d0
    · simp [Items.get, h2] at h0
    · cases d1
      · cases hd
        exact List.mem_append_right _ (mem_append.2 ⟨q0, h0, q1, h1, rfl⟩)
      · cases hd
        exact List.mem_append_left _ (mem_append.2 ⟨q0, h0, q1, h1, rfl⟩)
      · cases hd
    · simp [Items.get, h3] at h0
  · split
    · rename_i hr
      obtain ⟨h2, h3⟩ := hf.2 hr
      cases d0
      · simp [Items.get, h2] at h0
      · simp [Items.get, h3] at h0
      · cases d1
        · cases hd
          exact List.mem_append_right _ (mem_append.2 ⟨q0, h0, q1, h1, rfl⟩)
        · cases hd
        · cases hd
          exact List.mem_append_left _ (mem_append.2 ⟨q0, h0, q1, h1, rfl⟩)
    · rename_i n1 n2
      have hs : it.lr = [] ∧ it.rl = [] := by tauto
      cases d0
      · rw [meet_both_left] at hd
        cases hd
        cases d
        · exact mem_append.2 ⟨q0, h0, q1, h1, rfl⟩
        · have : p.lr.length > 0 := List.length_pos_of_mem h1
          simp only [if_pos this]
          exact mem_append.2 ⟨q0, List.mem_append_right _ h0, q1, h1, rfl⟩
        · have : p.rl.length > 0 := List.length_pos_of_mem h1
          simp only [if_pos this]
          exact mem_append.2 ⟨q0, List.mem_append_right _ h0, q1, h1, rfl⟩
      · simp [Items.get, hs.1] at h0
      · simp [Items.get, hs.2] at h0

/-- What a successful run of a paradigm element does. -/
theorem procElems_par {r : UString} {pars : List (N × Items)} {n : N} {es : List (Elem N UInt16)} {it : Items} {o : Option Items}
    (h : procElems r pars (.par n :: es) it = .ok o) :
    ∃ p, mapFind n pars = some p ∧ (procElems r pars es (stepPar r it p) = .ok o ∨
      o = none ∧ (r = LR ∧ p.both = [] ∧ p.lr = [] ∨ r = RL ∧ p.both = [] ∧ p.rl = [])) := by
  rw [procElems] at h
  cases hp : mapFind n pars with
  | none => simp [hp] at h
  | some p =>
    refine ⟨p, rfl, ?_⟩
    simp only [hp] at h
    unfold stepPar
    split at h
    · rename_i hr
      split at h
      · rename_i he
        split at h
        · cases h
          exact Or.inr ⟨rfl, Or.inl ⟨hr, by simpa using he.1, by simpa using he.2⟩⟩
        · cases h
      · rw [if_pos hr]
        exact Or.inl h
    · rename_i hn
      split at h
      · rename_i hr
        split at h
        · rename_i he
          split at h
          · cases h
            exact Or.inr ⟨rfl, Or.inr ⟨hr, by simpa using he.1, by simpa using he.2⟩⟩
          · cases h
        · rw [if_neg hn, if_pos hr]
          exact Or.inl h
      · rename_i hn2
        rw [if_neg hn, if_neg hn2]
        exact Or.inl h

/-- Everything in the maps is in the meaning. -/
def SoundMap (P : List (N × List (Dict.Entry N UInt16))) (pars : List (N × Items)) : Prop :=
  ∀ n p d q, mapFind n pars = some p → q ∈ p.get d → ∃ ents, (n, ents) ∈ P ∧ ∃ e ∈ ents, e.Gives P d q.1 q.2

theorem procElems_sound {P : List (N × List (Dict.Entry N UInt16))} {pars : List (N × Items)} (hP : SoundMap P pars) {r : UString}
    (es : List (Elem N UInt16)) {it it' : Items} (hf : Fits r it) (h : procElems r pars es it = .ok (some it'))
    {d : Dir} {q : UString × UString} (hq : q ∈ it'.get d) :
    ∃ d0, ∃ q0 ∈ it.get d0, ∃ d1 l1 r1, Gives P es d1 l1 r1 ∧ d0.meet d1 = some d ∧ q = (q0.1 ++ l1, q0.2 ++ r1) := by
  induction es generalizing it with
  | nil =>
    rw [procElems] at h
    cases h
    exact ⟨d, q, hq, .both, [], [], .nil, meet_both_right d, by simp⟩
  | cons e es ih =>
    cases e with
    | text a b =>
      rw [procElems] at h
      obtain ⟨d0, q0, m0, d1, l1, r1, hg, hd, rfl⟩ := ih (fits_text hf _) h
      rw [get_text, mem_appendPair] at m0
      obtain ⟨q00, m00, rfl⟩ := m0
      exact ⟨d0, q00, m00, d1, _, _, .text a b hg, hd, by simp⟩
    | par n =>
      obtain ⟨p, hp, h | ⟨h, _⟩⟩ := procElems_par h
      · obtain ⟨d0, q0, m0, d1, l1, r1, hg, hd, rfl⟩ := ih (fits_par hf) h
        obtain ⟨d00, d01, q00, m00, q01, m01, hd1, rfl⟩ := mem_stepPar hf m0
        obtain ⟨ents, hm, e, he, d', hg', hm'⟩ := hP n p d01 q01 hp m01
        obtain ⟨z, hz, hz'⟩ := meet_assoc hd1 hd
        exact ⟨d00, q00, m00, z, _, _, .par hm he hg' hm' hg hz, hz', by simp⟩
      · cases h

/-- Every paradigm but the last of an entry gives unrestricted pairs only. -/
def LastOnly (P : List (N × List (Dict.Entry N UInt16))) : List (Elem N UInt16) → Prop
  | [] => True
  | .text _ _ :: es => LastOnly P es
  | .par n :: es => LastOnly P es ∧
      ((∀ m, Elem.par m ∉ es) ∨ ∀ ents, (n, ents) ∈ P → ∀ e ∈ ents, ∀ d l r, e.Gives P d l r → d = .both)

theorem lastOnly_of_noPar {P : List (N × List (Dict.Entry N UInt16))} {es : List (Elem N UInt16)} (h : ∀ m, Elem.par m ∉ es) :
    LastOnly P es := by
  induction es with
  | nil => trivial
  | cons e es ih =>
    have h' : ∀ m, Elem.par m ∉ es := fun m hm => h m (List.mem_cons_of_mem _ hm)
    cases e with
    | text => exact ih h'
    | par n => exact absurd (List.mem_cons_self ..) (h n)

/-- The meaning of the elements is in the maps. -/
def CompleteFor (P : List (N × List (Dict.Entry N UInt16))) (pars : List (N × Items)) (ns : List N) : Prop :=
  ∀ n ∈ ns, ∀ ents, (n, ents) ∈ P → ∀ e ∈ ents, ∀ d l r, e.Gives P d l r → ∃ p, mapFind n pars = some p ∧ (l, r) ∈ p.get d

theorem procElems_complete {P : List (N × List (Dict.Entry N UInt16))} {pars : List (N × Items)} (hS : SoundMap P pars) {r : UString}
    (es : List (Elem N UInt16)) {it : Items} {o : Option Items} (hf : Fits r it)
    (hP : CompleteFor P pars (Dict.refsOf es))
    (hs : r = LR ∨ r = RL ∨ (∀ m, Elem.par m ∉ es) ∨ (it.lr = [] ∧ it.rl = [] ∧ LastOnly P es))
    (h : procElems r pars es it = .ok o) {d0 d1 d : Dir} {q0 : UString × UString} {l1 r1 : UString} (h0 : q0 ∈ it.get d0)
    (hg : Gives P es d1 l1 r1) (hd : d0.meet d1 = some d) :
    ∃ it', o = some it' ∧ (q0.1 ++ l1, q0.2 ++ r1) ∈ it'.get d := by
  induction es generalizing it d0 d1 q0 l1 r1 with
  | nil =>
    cases hg
    rw [procElems] at h
    cases h
    rw [meet_both_right] at hd
    cases hd
    exact ⟨it, rfl, by simpa using h0⟩
  | cons e es ih =>
    cases e with
    | text a b =>
      rw [procElems] at h
      cases hg with
      | text _ _ hg =>
        rename_i l r
        have := ih (q0 := (q0.1 ++ a, q0.2 ++ b)) (fits_text hf (a, b)) hP ?_ h (d0 := d0) ?_ hg hd
        · simpa using this
        · rcases hs with hs | hs | hs | ⟨h1, h2, h3⟩
          · exact Or.inl hs
          · exact Or.inr (Or.inl hs)
          · exact Or.inr (Or.inr (Or.inl fun m hm => hs m (List.mem_cons_of_mem _ hm)))
          · exact Or.inr (Or.inr (Or.inr ⟨by simp [h1, appendPair], by simp [h2, appendPair], h3⟩))
        · rw [get_text, mem_appendPair]
          exact ⟨q0, h0, rfl⟩
    | par n =>
      cases hg with
      | par hm he hge hme hg hmm =>
        rename_i ents d1' d2 d3 e la ra lb rb
        obtain ⟨p, hp, hq⟩ := hP n (by simp [Dict.refsOf]) _ hm _ he d2 _ _ ⟨_, hge, hme⟩
        have hnp : ¬ ∀ m, Elem.par m ∉ (Elem.par n : Elem N UInt16) :: es := fun h => h n (List.mem_cons_self ..)
        obtain ⟨p', hp', h⟩ := procElems_par h
        rw [hp] at hp'
        cases hp'
        obtain ⟨x, hx, hx'⟩ := meet_assoc' hmm hd
        have hs0 : r = LR ∨ r = RL ∨ it.lr = [] ∧ it.rl = [] := by tauto
        have hstep := stepPar_mem hf hs0 h0 hq hx
        rcases h with h | ⟨rfl, hn⟩
        · have := ih (fits_par hf) (fun m hm' => hP m (by simp [Dict.refsOf] at hm' ⊢; exact Or.inr hm')) ?_ h hstep hg hx'
          · simpa using this
          · by_cases hL : r = LR
            · exact Or.inl hL
            by_cases hR : r = RL
            · exact Or.inr (Or.inl hR)
            obtain ⟨h1, h2, h3, h4⟩ : it.lr = [] ∧ it.rl = [] ∧ LastOnly P (.par n :: es) := by tauto
            rcases h4 with h4 | h4
            · exact Or.inr (Or.inr (Or.inl h4))
            · refine Or.inr (Or.inr (Or.inr ?_))
              have hb : ∀ d q, q ∈ p.get d → d = .both := by
                intro d q hq
                obtain ⟨ents, hm, e, he, hg⟩ := hS n p d q hp hq
                exact h4 _ hm _ he _ _ _ hg
              have e1 : p.lr = [] := List.eq_nil_iff_forall_not_mem.2 fun q hq => by cases hb .lr q hq
              have e2 : p.rl = [] := List.eq_nil_iff_forall_not_mem.2 fun q hq => by cases hb .rl q hq
              refine ⟨?_, ?_, h3⟩ <;> simp [stepPar, hL, hR, e1, e2, append_nil_right]
        · exfalso
          rcases hn with ⟨hr, e1, e2⟩ | ⟨hr, e1, e2⟩
          · obtain ⟨h1, h2⟩ := hf.1 hr
            cases d0
            · simp [Items.get, h1] at h0
            · cases d2
              · simp [Items.get, e1] at hq
              · simp [Items.get, e2] at hq
              · cases hx
            · simp [Items.get, h2] at h0
          · obtain ⟨h1, h2⟩ := hf.2 hr
            cases d0
            · simp [Items.get, h1] at h0
            · simp [Items.get, h2] at h0
            · cases d2
              · simp [Items.get, e1] at hq
              · cases hx
              · simp [Items.get, e2] at hq

end

end Verif.Expander
