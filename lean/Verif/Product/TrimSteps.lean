import Verif.Product.Steps
import Verif.Product.Run

/-! # What the steps of `trim` are -/

namespace Verif.Product

open Verif.Fst Verif.Alphabet

variable {W : Type} {t trimmer : Transducer W} {thisA trimmerA : Alphabet} {ε : Int}

/-! ## Empty left sides -/

theorem epsSteps_next {q : Nat} (hgw : WF trimmer) (p r : Nat) (arcs : Row W) (h : ∀ e ∈ arcs, e ∈ row trimmer q) (next : Nat)
    (hn : next < Fst.size trimmer) : (epsSteps trimmerA ε p q r arcs next).2 < Fst.size trimmer := by
  induction arcs generalizing next with
  | nil => exact hn
  | cons e arcs ih =>
    obtain ⟨l, trg, wt⟩ := e
    rw [epsSteps]
    refine ih (fun e he => h e (List.mem_cons_of_mem _ he)) _ ?_
    split
    · exact hgw.target_lt q (l, wt) trg (h _ (List.mem_cons_self ..))
    · exact hn

theorem length_epsSteps (p q r : Nat) (arcs : Row W) (next : Nat) : (epsSteps trimmerA ε p q r arcs next).1.length ≤ arcs.length := by
  induction arcs generalizing next with
  | nil => exact Nat.le_refl _
  | cons e arcs ih =>
    obtain ⟨l, trg, wt⟩ := e
    rw [epsSteps]
    simp only [List.length_append, List.length_cons]
    have := ih (if r = q then trg else next)
    split
    · split <;> simp <;> omega
    · simp; omega

theorem mem_epsSteps {q : Nat} (hgw : WF trimmer) (p r : Nat) (arcs : Row W) (h : ∀ e ∈ arcs, e ∈ row trimmer q) (next : Nat)
    (hn : next < Fst.size trimmer) {x : Step W} (hx : x ∈ (epsSteps trimmerA ε p q r arcs next).1) :
    ∃ z w q' nx, PairEdge trimmerA trimmer q ((0, z), w) q' ∧ nx < Fst.size trimmer ∧ x = .eps (three p q' nx) ε w := by
  induction arcs generalizing next with
  | nil => cases hx
  | cons e arcs ih =>
    obtain ⟨l, trg, wt⟩ := e
    have he : Edge trimmer q (l, wt) trg := h _ (List.mem_cons_self ..)
    have hn' : (if r = q then trg else next) < Fst.size trimmer := by
      split
      · exact hgw.target_lt q (l, wt) trg he
      · exact hn
    rw [epsSteps] at hx
    rcases List.mem_append.1 hx with hx | hx
    · split at hx
      · next pr hd =>
        split at hx
        · next h0 =>
          rw [List.mem_singleton] at hx
          obtain ⟨x1, z⟩ := pr
          simp only at h0
          subst h0
          exact ⟨z, wt, trg, _, ⟨l, hd, he⟩, hn', hx⟩
        · cases hx
      · cases hx
    · exact ih (fun e he => h e (List.mem_cons_of_mem _ he)) _ hn' hx

theorem epsSteps_mem {p q r : Nat} (arcs : Row W) (next : Nat) {l : Int} {q' : Nat} {w : W} (h : (l, q', w) ∈ arcs) {z : Int} (hd : trimmerA.decode l = .ok (0, z)) :
    ∃ nx, .eps (three p q' nx) ε w ∈ (epsSteps trimmerA ε p q r arcs next).1 := by
  induction arcs generalizing next with
  | nil => cases h
  | cons e arcs ih =>
    obtain ⟨l', trg, wt⟩ := e
    rw [epsSteps]
    rcases List.mem_cons.1 h with h | h
    · cases h
      refine ⟨if r = q then q' else next, List.mem_append.2 (.inl ?_)⟩
      rw [hd]; simp
    · obtain ⟨nx, hx⟩ := ih (if r = q then trg else next) h
      exact ⟨nx, List.mem_append.2 (.inr hx)⟩

/-! ## Symbols of both -/

theorem matchSteps_next {q : Nat} (hgw : WF trimmer) (r : Nat) (right label : Int) (p' : Nat) (w : W) (arcs : Row W) (h : ∀ e ∈ arcs, e ∈ row trimmer q) (next : Nat)
    (hn : next < Fst.size trimmer) : (matchSteps thisA trimmerA q r right label p' w arcs next).2 < Fst.size trimmer := by
  induction arcs generalizing next with
  | nil => exact hn
  | cons e arcs ih =>
    obtain ⟨l, trg, wt⟩ := e
    rw [matchSteps]
    refine ih (fun e he => h e (List.mem_cons_of_mem _ he)) _ ?_
    split
    · exact hgw.target_lt q (l, wt) trg (h _ (List.mem_cons_self ..))
    · exact hn

theorem length_matchSteps (q r : Nat) (right label : Int) (p' : Nat) (w : W) (arcs : Row W) (next : Nat) :
    (matchSteps thisA trimmerA q r right label p' w arcs next).1.length ≤ arcs.length := by
  induction arcs generalizing next with
  | nil => exact Nat.le_refl _
  | cons e arcs ih =>
    obtain ⟨l, trg, wt⟩ := e
    rw [matchSteps]
    simp only [List.length_append, List.length_cons]
    have := ih (if r = q then trg else next)
    split
    · split <;> simp <;> omega
    · simp; omega

theorem mem_matchSteps {q : Nat} (hgw : WF trimmer) (r : Nat) (right label : Int) (p' : Nat) (w : W) (arcs : Row W) (h : ∀ e ∈ arcs, e ∈ row trimmer q) (next : Nat)
    (hn : next < Fst.size trimmer) {x : Step W} (hx : x ∈ (matchSteps thisA trimmerA q r right label p' w arcs next).1) :
    ∃ y z v q' nx, PairEdge trimmerA trimmer q ((y, z), v) q' ∧ y ≠ 0 ∧ thisA.sameSymbol right trimmerA y true = .ok true ∧
      nx < Fst.size trimmer ∧ x = .visit (three p' q' nx) label w := by
  induction arcs generalizing next with
  | nil => cases hx
  | cons e arcs ih =>
    obtain ⟨l, trg, wt⟩ := e
    have he : Edge trimmer q (l, wt) trg := h _ (List.mem_cons_self ..)
    have hn' : (if r = q then trg else next) < Fst.size trimmer := by
      split
      · exact hgw.target_lt q (l, wt) trg he
      · exact hn
    rw [matchSteps] at hx
    rcases List.mem_append.1 hx with hx | hx
    · split at hx
      · next pr hd =>
        split at hx
        · next h0 =>
          rw [List.mem_singleton] at hx
          exact ⟨pr.1, pr.2, wt, trg, _, ⟨l, hd, he⟩, h0.1, h0.2, hn', hx⟩
        · cases hx
      · cases hx
    · exact ih (fun e he => h e (List.mem_cons_of_mem _ he)) _ hn' hx

theorem matchSteps_mem {q r : Nat} {right label : Int} {p' : Nat} {w : W} (arcs : Row W) (next : Nat) {l : Int} {q' : Nat} {v : W} (h : (l, q', v) ∈ arcs)
    {y z : Int} (hd : trimmerA.decode l = .ok (y, z)) (hy : y ≠ 0) (hs : thisA.sameSymbol right trimmerA y true = .ok true) :
    ∃ nx, .visit (three p' q' nx) label w ∈ (matchSteps thisA trimmerA q r right label p' w arcs next).1 := by
  induction arcs generalizing next with
  | nil => cases h
  | cons e arcs ih =>
    obtain ⟨l', trg, wt⟩ := e
    rw [matchSteps]
    rcases List.mem_cons.1 h with h | h
    · cases h
      refine ⟨if r = q then q' else next, List.mem_append.2 (.inl ?_)⟩
      rw [hd]; simp [hy, hs]
    · obtain ⟨nx, hx⟩ := ih (if r = q then trg else next) h
      exact ⟨nx, List.mem_append.2 (.inr hx)⟩

/-! ## All arcs of the transducer -/

theorem specialSteps_spec (hgw : WF trimmer) {r q next : Nat} (hq : q < Fst.size trimmer) (hn : next < Fst.size trimmer) (right label : Int) (p' : Nat) (w : W) :
    (specialSteps t trimmer thisA r q next right label p' w).2.2 < Fst.size trimmer ∧
    (specialSteps t trimmer thisA r q next right label p' w).1.length ≤ 1 ∧
    ∀ x ∈ (specialSteps t trimmer thisA r q next right label p' w).1, ∃ q' nx, q' < Fst.size trimmer ∧ nx < Fst.size trimmer ∧
      (x = .visit (three p' q' nx) label w ∨ (x = .fin (three p' q' nx) label w ∧ right ∈ symLsx thisA ∧ isFinal t p' = true)) := by
  have hn' : (if r = q then q else next) < Fst.size trimmer := by split <;> assumption
  unfold specialSteps
  simp only
  split
  · refine ⟨hn', by simp, ?_⟩
    intro x hx
    simp only [List.mem_singleton] at hx
    refine ⟨trimmer.initial, _, hgw.initial_lt, hn', ?_⟩
    split at hx
    · next h => exact .inr ⟨hx, h⟩
    · exact .inl hx
  · split
    · refine ⟨hn', by simp, ?_⟩
      intro x hx
      simp only [List.mem_singleton] at hx
      exact ⟨q, _, hq, hn', .inl hx⟩
    · exact ⟨hn, by simp, by simp⟩

theorem length_arcSteps (p r : Nat) (arcs : Row W) (hgw : WF trimmer) {q next : Nat} (hq : q < Fst.size trimmer) (hr : r < Fst.size trimmer) (hn : next < Fst.size trimmer) :
    ((arcSteps t trimmer thisA trimmerA p r arcs q next).filterMap Step.target).length ≤ arcs.length * (numberOfTransitions trimmer + 2) := by
  induction arcs generalizing q next with
  | nil => exact Nat.zero_le _
  | cons e arcs ih =>
    obtain ⟨l, trg, wt⟩ := e
    rw [arcSteps]
    split
    · next pr hd =>
      obtain ⟨h1, h2, -⟩ := specialSteps_spec (t := t) (thisA := thisA) hgw (r := r) hq hn pr.2 l trg wt
      simp only
      generalize specialSteps t trimmer thisA r q next pr.2 l trg wt = sp at h1 h2
      have h3 := List.length_filterMap_le Step.target sp.1
      split
      · have := ih hq h1
        simp only [List.filterMap_append, List.length_append, List.length_cons, Nat.add_mul, Nat.one_mul]
        omega
      · generalize decide (pr.2 = 0x23 ∧ r ≠ q) = back
        have hs : (if back = true then r else q) < Fst.size trimmer := by split <;> assumption
        have h4 := ih hs (matchSteps_next (thisA := thisA) (trimmerA := trimmerA) hgw r pr.2 l trg wt (row trimmer (if back = true then r else q)) (fun _ h => h) sp.2.2 h1)
        have h5 := length_matchSteps (thisA := thisA) (trimmerA := trimmerA) (if back = true then r else q) r pr.2 l trg wt (row trimmer (if back = true then r else q)) sp.2.2
        have h6 := List.length_filterMap_le Step.target
          (matchSteps thisA trimmerA (if back = true then r else q) r pr.2 l trg wt (row trimmer (if back = true then r else q)) sp.2.2).1
        have h7 := length_row_le trimmer (if back = true then r else q)
        have h8 : (List.filterMap Step.target (if back = true then [.again (three p r r)] else [] : List (Step W))).length = 0 := by
          cases back <;> rfl
        simp only [List.filterMap_append, List.length_append, List.length_cons, Nat.add_mul, Nat.one_mul]
        rw [h8]
        omega
    · exact Nat.zero_le _

theorem mem_arcSteps {p r : Nat} (hgw : WF trimmer) (arcs : Row W) (h : ∀ e ∈ arcs, e ∈ row t p) {q next : Nat} (hq : q < Fst.size trimmer) (hr : r < Fst.size trimmer)
    (hn : next < Fst.size trimmer) {x : Step W} (hx : x ∈ arcSteps t trimmer thisA trimmerA p r arcs q next) :
    (x = .again (three p r r)) ∨
    ∃ l u v w p' q' nx, thisA.decode l = .ok (u, v) ∧ Edge t p (l, w) p' ∧ q' < Fst.size trimmer ∧ nx < Fst.size trimmer ∧
      (x = .visit (three p' q' nx) l w ∨ (x = .fin (three p' q' nx) l w ∧ v ∈ symLsx thisA ∧ isFinal t p' = true)) := by
  induction arcs generalizing q next with
  | nil => cases hx
  | cons e arcs ih =>
    obtain ⟨l, trg, wt⟩ := e
    have he : Edge t p (l, wt) trg := h _ (List.mem_cons_self ..)
    have ih := fun {q next} => ih (fun e he => h e (List.mem_cons_of_mem _ he)) (q := q) (next := next)
    rw [arcSteps] at hx
    split at hx
    · next pr hd =>
      obtain ⟨h1, h2, h3⟩ := specialSteps_spec (t := t) (thisA := thisA) hgw (r := r) hq hn pr.2 l trg wt
      simp only at hx
      generalize specialSteps t trimmer thisA r q next pr.2 l trg wt = sp at h1 h2 h3 hx
      have first : x ∈ sp.1 → ∃ l u v w p' q' nx, thisA.decode l = .ok (u, v) ∧ Edge t p (l, w) p' ∧ q' < Fst.size trimmer ∧ nx < Fst.size trimmer ∧
          (x = .visit (three p' q' nx) l w ∨ (x = .fin (three p' q' nx) l w ∧ v ∈ symLsx thisA ∧ isFinal t p' = true)) := by
        intro hx
        obtain ⟨q', nx, g1, g2, g3⟩ := h3 x hx
        exact ⟨l, pr.1, pr.2, wt, trg, q', nx, hd, he, g1, g2, g3⟩
      split at hx
      · rcases List.mem_append.1 hx with hx | hx
        · exact .inr (first hx)
        · exact ih hq h1 hx
      · generalize decide (pr.2 = 0x23 ∧ r ≠ q) = back at hx
        have hs : (if back = true then r else q) < Fst.size trimmer := by split <;> assumption
        rcases List.mem_append.1 hx with hx | hx
        · exact .inr (first hx)
        rcases List.mem_append.1 hx with hx | hx
        · split at hx
          · rw [List.mem_singleton] at hx; exact .inl hx
          · cases hx
        rcases List.mem_append.1 hx with hx | hx
        · obtain ⟨y, z, v, q', nx, g1, -, -, g2, g3⟩ := mem_matchSteps hgw _ _ _ _ _ _ (fun _ h => h) _ h1 hx
          obtain ⟨c, -, g4⟩ := g1
          exact .inr ⟨l, pr.1, pr.2, wt, trg, q', nx, hd, he, hgw.target_lt _ _ _ g4, g2, .inl g3⟩
        · exact ih hs (matchSteps_next (thisA := thisA) (trimmerA := trimmerA) hgw r pr.2 l trg wt _ (fun _ h => h) sp.2.2 h1) hx
    · cases hx

/-! ## The loop -/

/-- The search at the beginning. -/
def trimStart (t trimmer : Transducer W) : Search Three W :=
  { todo := [three t.initial trimmer.initial trimmer.initial], seen := [], ids := [(three t.initial trimmer.initial trimmer.initial, (Fst.empty : Transducer W).initial)], t := Fst.empty }

theorem trimLoop_ok [Zero W] (hg : Coded trimmerA trimmer) (htags : TagsKnown trimmerA trimmer) (hf : Coded thisA t) (ftags : TagsKnown thisA t)
    (hfw : WF t) (hgw : WF trimmer)
    (hsame : ∀ x n y m, Named thisA x n → Named trimmerA y m → ∃ b, thisA.sameSymbol x trimmerA y true = .ok b)
    (P : Search Three W → Prop)
    (hstart : P (trimStart t trimmer))
    (hids : ∀ s, P s → ∀ n ∈ s.todo, (mapFind n s.ids).isSome)
    (hturn : ∀ s c rest i, P s → (ofLex c).1 < Fst.size t → (ofLex (ofLex c).2).1 < Fst.size trimmer → (ofLex (ofLex c).2).2 < Fst.size trimmer →
      s.todo = c :: rest → mapFind c s.ids = some i →
      ∃ s', exec i (steps t trimmer thisA trimmerA ε c) { todo := rest, seen := setInsert c s.seen, ids := s.ids, t := s.t } = .ok s' ∧ P s' ∧
        s'.seen = setInsert c s.seen ∧ s'.todo = pushes (setInsert c s.seen) ((steps t trimmer thisA trimmerA ε c).filterMap Step.target) rest) :
    ∃ s, trimLoop t trimmer thisA trimmerA ε (trimTurns t trimmer)
      (trimStart t trimmer) = .ok s ∧ P s ∧ s.todo = [] := by
  let U : List Three := (List.range (Fst.size t)).flatMap fun p => (List.range (Fst.size trimmer)).flatMap fun q =>
    (List.range (Fst.size trimmer)).map fun r => three p q r
  have memU : ∀ p q r, three p q r ∈ U ↔ p < Fst.size t ∧ q < Fst.size trimmer ∧ r < Fst.size trimmer := by
    intro p q r
    simp only [U, List.mem_flatMap, List.mem_range, List.mem_map]
    constructor
    · rintro ⟨p', h1, q', h2, r', h3, h4⟩; cases h4; exact ⟨h1, h2, h3⟩
    · rintro ⟨h1, h2, h3⟩; exact ⟨p, h1, q, h2, r, h3, rfl⟩
  have memU' : ∀ n, n ∈ U ↔ (ofLex n).1 < Fst.size t ∧ (ofLex (ofLex n).2).1 < Fst.size trimmer ∧ (ofLex (ofLex n).2).2 < Fst.size trimmer :=
    fun n => memU (ofLex n).1 (ofLex (ofLex n).2).1 (ofLex (ofLex n).2).2
  have lenU : U.length = Fst.size t * Fst.size trimmer * Fst.size trimmer := by
    simp [U, List.length_flatMap, Nat.mul_assoc]
  have key := loop_ok (σ := Search Three W) (fun x => x.todo) (fun x => x.seen)
    (fun c rest x => trimTurn t trimmer thisA trimmerA ε c { x with todo := rest })
    (fun k x => trimLoop t trimmer thisA trimmerA ε k x)
    (by
      intro k s h
      rw [trimLoop]; simp only [h])
    (by
      intro k s c rest s' h h'
      rw [trimLoop]; simp only [h, h', Res.bind_ok])
    (fun c => (steps t trimmer thisA trimmerA ε c).filterMap Step.target) U
    (numberOfTransitions trimmer + numberOfTransitions t * (numberOfTransitions trimmer + 2))
    (by
      intro n hn m hm
      obtain ⟨hp, hq, hr⟩ := (memU' n).1 hn
      obtain ⟨x, hx, hxm⟩ := List.mem_filterMap.1 hm
      unfold steps at hx
      rcases List.mem_append.1 hx with hx | hx
      · obtain ⟨z, w, q', nx, ⟨_, _, g1⟩, g2, rfl⟩ := mem_epsSteps hgw _ _ _ (fun _ h => h) _ hr hx
        cases hxm
        exact (memU _ _ _).2 ⟨hp, hgw.target_lt _ _ _ g1, g2⟩
      · have hnx := epsSteps_next (trimmerA := trimmerA) (ε := ε) hgw (ofLex n).1 (ofLex (ofLex n).2).2 (row trimmer (ofLex (ofLex n).2).1) (fun _ h => h) _ hr
        rcases mem_arcSteps hgw _ (fun _ h => h) hq hr hnx hx with rfl | ⟨l, u, v, w, p', q', nx, -, g1, g2, g3, g4⟩
        · cases hxm
        · have : three p' q' nx = m := by
            rcases g4 with rfl | ⟨rfl, -⟩ <;> exact Option.some.inj hxm
          rw [← this]
          exact (memU _ _ _).2 ⟨hfw.target_lt _ _ _ g1, g2, g3⟩)
    (by
      intro n hn
      obtain ⟨hp, hq, hr⟩ := (memU' n).1 hn
      have hnx := epsSteps_next (trimmerA := trimmerA) (ε := ε) hgw (ofLex n).1 (ofLex (ofLex n).2).2 (row trimmer (ofLex (ofLex n).2).1) (fun _ h => h) _ hr
      have h1 := length_arcSteps (t := t) (thisA := thisA) (trimmerA := trimmerA) (ofLex n).1 (ofLex (ofLex n).2).2 (row t (ofLex n).1) hgw hq hr hnx
      have h2 := length_epsSteps (trimmerA := trimmerA) (ε := ε) (ofLex n).1 (ofLex (ofLex n).2).1 (ofLex (ofLex n).2).2 (row trimmer (ofLex (ofLex n).2).1) (ofLex (ofLex n).2).2
      have h3 := length_row_le trimmer (ofLex (ofLex n).2).1
      have h4 := Nat.mul_le_mul_right (numberOfTransitions trimmer + 2) (length_row_le t (ofLex n).1)
      have h5 := List.length_filterMap_le Step.target
        (epsSteps trimmerA ε (ofLex n).1 (ofLex (ofLex n).2).1 (ofLex (ofLex n).2).2 (row trimmer (ofLex (ofLex n).2).1) (ofLex (ofLex n).2).2).1
      unfold steps
      simp only [List.filterMap_append, List.length_append]
      omega)
    P
    (by
      intro s c rest hP hc htodo
      obtain ⟨hp, hq, hr⟩ := (memU' c).1 hc
      obtain ⟨i, hi⟩ := Option.isSome_iff_exists.1 (hids s hP c (by rw [htodo]; exact List.mem_cons_self ..))
      obtain ⟨s', h1, h2, h3, h4⟩ := hturn s c rest i hP hp hq hr htodo hi
      refine ⟨s', ?_, h2, ?_, ?_⟩
      · rw [trimTurn_eq hg htags hf ftags hgw hsame hq hr (i := i) { todo := rest, seen := s.seen, ids := s.ids, t := s.t } hi, h1]
      · intro x
        simp only [h3, mem_setInsert]
      · rw [h4, h3])
  exact key (trimTurns t trimmer) _ hstart
    (by
      intro x hx
      simp only [trimStart, List.mem_singleton] at hx
      subst hx
      exact (memU _ _ _).2 ⟨hfw.initial_lt, hgw.initial_lt, hgw.initial_lt⟩)
    (by
      intro pre c post _ h
      cases h)
    (by
      have : unseen U [] = Fst.size t * Fst.size trimmer * Fst.size trimmer := by rw [← lenU]; simp [unseen]
      simp only [trimStart, this, trimTurns, List.length_singleton]
      omega)

end Verif.Product
