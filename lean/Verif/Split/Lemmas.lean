import Verif.Split.Spec
import Verif.Compiler.Props

/-! # Splitting sections is the same as writing them split -/

namespace Verif.Split

open Verif.Fst Verif.Compiler

variable {W : Type} [LinearOrder W] [Zero W] {N : Type} [LinearOrder N]

theorem nodes_append (s : Settings) (ns ms : List (Node N W)) (c : Comp N W) :
    procNodes s (ns ++ ms) c = procNodes s ns c >>= procNodes s ms := by
  induction ns generalizing c with
  | nil => rfl
  | cons n ns ih =>
    simp only [List.cons_append, procNodes]
    cases procNode s n c with
    | ok c => exact ih c
    | exit => rfl
    | exception => rfl
    | ub => rfl

theorem nodesMax_append (s : Settings) (m : Nat) (ns ms : List (Node N W)) (c : Comp N W) (n : Nat) :
    procNodesMax s m (ns ++ ms) c n = procNodesMax s m ns c n >>= fun x => procNodesMax s m ms x.1 x.2 := by
  induction ns generalizing c n with
  | nil => rfl
  | cons nd ns ih =>
    simp only [List.cons_append, procNodesMax]
    cases procNodeMax s m nd c n with
    | ok c => exact ih c.1 c.2
    | exit => rfl
    | exception => rfl
    | ub => rfl

omit [LinearOrder W] in
/-- What an entry does in a paradigm does not depend on the name of the section. -/
theorem procEntry_par [DecidableEq W] (s : Settings) (e : CEntry N W) {c : Comp N W} {n : N} (h : c.current = some n) (k : UString) :
    procEntry s e { c with sect := k } = procEntry s e c >>= fun c => pure { c with sect := k } := by
  unfold procEntry
  split
  · rfl
  · cases e.content with
    | none => rfl
    | some es =>
      have hr : readTokens { c with sect := k } es = readTokens c es := by
        induction es with
        | nil => rfl
        | cons t es ih =>
          cases t <;> simp only [readTokens, ih] 
      simp only [hr]
      cases readTokens c es with
      | ok b =>
        simp only [Res.bind_ok]
        cases b
        · rfl
        · simp only [if_true, insertEntryTokens, h]
          cases parTokens s (es.map (weigh e.weight e.junk)) c.alphabet c.pars (parOf n c.pars).initial (parOf n c.pars) <;> rfl
      | exit => rfl
      | exception => rfl
      | ub => rfl

omit [LinearOrder W] in
theorem procEntry_keeps [DecidableEq W] (s : Settings) (e : CEntry N W) {c c' : Comp N W} (h : procEntry s e c = .ok c') :
    c'.sect = c.sect ∧ c'.current = c.current := by
  unfold procEntry at h
  split at h
  · cases h; exact ⟨rfl, rfl⟩
  · cases hc : e.content with
    | none => rw [hc] at h; cases h; exact ⟨rfl, rfl⟩
    | some es =>
      rw [hc] at h
      obtain ⟨b, h1, h2⟩ := Res.bind_eq_ok.1 h
      cases b
      · simp only [Bool.false_eq_true, if_false, Res.pure_eq, Res.ok.injEq] at h2
        subst h2; exact ⟨rfl, rfl⟩
      · simp only [if_true, insertEntryTokens] at h2
        cases hcur : c.current with
        | none =>
          rw [hcur] at h2
          obtain ⟨⟨a, pars, e', x⟩, h3, h4⟩ := Res.bind_eq_ok.1 h2
          simp only [Res.pure_eq, Res.ok.injEq] at h4
          subst h4; exact ⟨rfl, rfl⟩
        | some n =>
          rw [hcur] at h2
          obtain ⟨⟨a, pars, e', t⟩, h3, h4⟩ := Res.bind_eq_ok.1 h2
          simp only [Res.pure_eq, Res.ok.injEq] at h4
          subst h4; exact ⟨rfl, rfl⟩

/-- The events of one entry in a section of its own. -/
theorem single_nodes (s : Settings) (k : UString) (e : CEntry N W) (rest : List (Node N W)) (c : Comp N W) :
    procNodes s (secNodes (k, [e]) ++ rest) c =
      procEntry s e { c with sect := k } >>= fun c => procNodes s rest { c with sect := [] } := by
  show procNodes s (.secOpen k :: .entry e :: .secClose :: rest) c = _
  simp only [procNodes, procNode, Res.bind_ok]

theorem plus_step (m i : Nat) (k : UString) :
    plus ((i + 1) / m) k = if 0 < m ∧ (i + 1) % m = 0 then 0x2b :: plus (i / m) k else plus (i / m) k := by
  rw [Nat.succ_div]
  by_cases h0 : m = 0
  · subst h0; simp
  · by_cases h : m ∣ i + 1
    · rw [if_pos h, if_pos ⟨by omega, Nat.mod_eq_zero_of_dvd h⟩]
      simp [plus, List.replicate_succ]
    · rw [if_neg h, if_neg (fun h' => h (Nat.dvd_of_mod_eq_zero h'.2))]
      rfl

theorem entries_none (s : Settings) (m : Nat) (k : UString) (ents : List (CEntry N W)) (i : Nat) (c : Comp N W) (hc : c.current = none) (hs : c.sect = []) :
    procNodesMax s m (ents.map .entry ++ [.secClose]) { c with sect := plus (i / m) k } i =
      procNodes s ((singles m k i ents).flatMap secNodes) c >>= fun c => pure (c, 0) := by
  induction ents generalizing i c with
  | nil =>
    simp only [List.map_nil, List.nil_append, procNodesMax, procNodeMax, procNode, Res.bind_ok, Res.pure_eq, singles, List.flatMap_nil, procNodes]
    obtain ⟨_, _, _, _, _⟩ := c
    cases hs
    rfl
  | cons e ents ih =>
    have hcount : countEntry m { c with sect := plus (i / m) k } i = ({ c with sect := plus ((i + 1) / m) k }, i + 1) := by
      simp only [countEntry, hc, plus_step m i k]
      split <;> rfl
    rw [singles, List.flatMap_cons, single_nodes, List.map_cons, List.cons_append, procNodesMax]
    simp only [procNodeMax, hcount]
    cases he : procEntry s e { c with sect := plus ((i + 1) / m) k } with
    | ok c1 =>
      simp only [Res.bind_ok, Res.pure_eq]
      obtain ⟨h1, h2⟩ := procEntry_keeps s e he
      have := ih (i + 1) { c1 with sect := [] } (h2.trans hc) rfl
      simp only [Res.pure_eq] at this
      rw [← this]
      simp only at h1
      rw [← h1]
    | exit => rfl
    | exception => rfl
    | ub => rfl

theorem entries_some (s : Settings) (m : Nat) (k k' : UString) (n : N) (ents : List (CEntry N W)) (i j : Nat) (c : Comp N W) (hc : c.current = some n)
    (hs : c.sect = []) :
    procNodesMax s m (ents.map .entry ++ [.secClose]) { c with sect := k' } j =
      procNodes s ((singles m k i ents).flatMap secNodes) c >>= fun c => pure (c, 0) := by
  induction ents generalizing i c with
  | nil =>
    simp only [List.map_nil, List.nil_append, procNodesMax, procNodeMax, procNode, Res.bind_ok, Res.pure_eq, singles, List.flatMap_nil, procNodes]
    obtain ⟨_, _, _, _, _⟩ := c
    cases hs
    rfl
  | cons e ents ih =>
    have hcount : countEntry m { c with sect := k' } j = ({ c with sect := k' }, j) := by simp only [countEntry, hc]
    rw [singles, List.flatMap_cons, single_nodes, List.map_cons, List.cons_append, procNodesMax]
    simp only [procNodeMax, hcount]
    rw [procEntry_par s e hc k', procEntry_par s e hc (plus ((i + 1) / m) k)]
    cases he : procEntry s e c with
    | ok c1 =>
      simp only [Res.bind_ok, Res.pure_eq]
      obtain ⟨h1, h2⟩ := procEntry_keeps s e he
      have := ih (i + 1) { c1 with sect := [] } (h2.trans hc) rfl
      simpa only [Res.pure_eq] using this
    | exit => rfl
    | exception => rfl
    | ub => rfl

theorem section_run (s : Settings) (m : Nat) (p : UString × List (CEntry N W)) (c : Comp N W) (i : Nat) (hs : c.sect = []) :
    procNodesMax s m (secNodes p) c i = procNodes s ((singles m p.1 0 p.2).flatMap secNodes) c >>= fun c => pure (c, 0) := by
  obtain ⟨k, ents⟩ := p
  show procNodesMax s m (.secOpen k :: (ents.map .entry ++ [.secClose])) c i = _
  rw [procNodesMax]
  simp only [procNodeMax, procNode, Res.bind_ok, Res.pure_eq]
  have hcur : c.current = none ∨ ∃ n, c.current = some n := by cases c.current <;> simp
  rcases hcur with hc | ⟨n, hc⟩
  · have := entries_none s m k ents 0 c hc hs
    simpa [plus] using this
  · exact entries_some s m k k n ents 0 0 c hc hs

/-- Sections leave the name of the section empty. -/
theorem sections_sect (s : Settings) (ps : List (UString × List (CEntry N W))) (c c' : Comp N W) (hs : c.sect = [])
    (h : procNodes s (ps.flatMap secNodes) c = .ok c') : c'.sect = [] := by
  induction ps generalizing c with
  | nil => cases h; exact hs
  | cons p ps ih =>
    rw [List.flatMap_cons, nodes_append] at h
    obtain ⟨c1, h1, h2⟩ := Res.bind_eq_ok.1 h
    refine ih c1 ?_ h2
    obtain ⟨k, ents⟩ := p
    rw [secNodes, nodes_append] at h1
    obtain ⟨c2, -, h3⟩ := Res.bind_eq_ok.1 h1
    simp only [procNodes, procNode, Res.bind_ok, Res.ok.injEq] at h3
    subst h3; rfl

theorem sections_run (s : Settings) (m : Nat) (ps : List (UString × List (CEntry N W))) (c : Comp N W) (hs : c.sect = []) :
    procNodesMax s m (ps.flatMap secNodes) c 0 = procNodes s ((ps.flatMap fun p => singles m p.1 0 p.2).flatMap secNodes) c >>= fun c => pure (c, 0) := by
  induction ps generalizing c with
  | nil => rfl
  | cons p ps ih =>
    rw [List.flatMap_cons, List.flatMap_cons, List.flatMap_append, nodes_append, nodesMax_append, section_run s m p c 0 hs]
    cases h : procNodes s ((singles m p.1 0 p.2).flatMap secNodes) c with
    | ok c1 =>
      simp only [Res.bind_ok, Res.pure_eq]
      have := ih c1 (sections_sect s _ c c1 hs h)
      simpa only [Res.pure_eq] using this
    | exit => rfl
    | exception => rfl
    | ub => rfl

/-- No event of the list is a tag of a section or, outside paradigms, an entry. -/
theorem others_run (s : Settings) (m : Nat) (tags : List UString) (ps : List (N × List (CEntry N W))) (c : Comp N W) :
    procNodesMax s m (tags.map .sdef ++ ps.flatMap parNodes) c 0 = procNodes s (tags.map .sdef ++ ps.flatMap parNodes) c >>= fun c => pure (c, 0) := by
  have hents : ∀ (n : N) (ents : List (CEntry N W)) (c : Comp N W), c.current = some n →
      procNodesMax s m (ents.map .entry) c 0 = procNodes s (ents.map .entry) c >>= fun c => pure (c, 0) := by
    intro n ents
    induction ents with
    | nil => intro c _; rfl
    | cons e ents ih =>
      intro c hc
      rw [List.map_cons, procNodesMax, procNodes]
      simp only [procNodeMax, countEntry, hc, procNode]
      cases he : procEntry s e c with
      | ok c1 => exact ih c1 ((procEntry_keeps s e he).2.trans hc)
      | exit => rfl
      | exception => rfl
      | ub => rfl
  have hpars : ∀ c : Comp N W, procNodesMax s m (ps.flatMap parNodes) c 0 = procNodes s (ps.flatMap parNodes) c >>= fun c => pure (c, 0) := by
    induction ps with
    | nil => intro c; rfl
    | cons p ps ih =>
      intro c
      obtain ⟨n, ents⟩ := p
      rw [List.flatMap_cons, parNodes, List.append_assoc, nodes_append, nodesMax_append]
      rw [procNodesMax, procNodes]
      simp only [procNodeMax, procNode, Res.bind_ok, Res.pure_eq]
      have := hents n ents { c with current := some n } rfl
      rw [this]
      cases procNodes s (ents.map .entry) { c with current := some n } with
      | ok c1 =>
        simp only [Res.bind_ok, Res.pure_eq]
        rw [nodes_append, nodesMax_append]
        simp only [procNodesMax, procNodes, procNodeMax, procNode]
        cases closePar c1 with
        | ok c2 => exact ih c2
        | exit => rfl
        | exception => rfl
        | ub => rfl
      | exit => rfl
      | exception => rfl
      | ub => rfl
  induction tags generalizing c with
  | nil => exact hpars c
  | cons t tags ih =>
    rw [List.map_cons, List.cons_append, procNodesMax, procNodes]
    simp only [procNodeMax, procNode, Res.bind_ok, Res.pure_eq]
    exact ih _

end Verif.Split
