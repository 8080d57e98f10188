import Verif.Unified.Entries
import Verif.Compiler.File

/-! # Compiling a whole file with marks -/

namespace Verif.Unified

open Verif.Fst Verif.Compiler Verif.Alphabet
open Verif.Expander (Attrs)

set_option linter.unusedSectionVars false

/-- The alphabet got more tags, and only such pairs. -/
structure Goes (n : Int) (a b : Alphabet) : Prop where
  ok : Ok b
  ext : Ext a b
  pairs : ∀ p ∈ b.spairinv, p ∈ a.spairinv ∨ Fine n p

theorem Goes.refl {n : Int} {a : Alphabet} (h : Ok a) : Goes n a a := ⟨h, .refl a, fun _ h => .inl h⟩
theorem Goes.trans {n : Int} {a b c : Alphabet} (h : Goes n a b) (h' : Goes n b c) : Goes n a c :=
  ⟨h'.ok, h.ext.trans h'.ext, fun p hp => (h'.pairs p hp).elim (h.pairs p) .inr⟩
theorem Adds.goes {n : Int} {a b : Alphabet} (h : Adds (Fine n) a b) : Goes n a b := ⟨h.ok, h.ext, h.pairs⟩
theorem Tagged.goes {n : Int} {ms : List UString} {a b : Alphabet} (h : Tagged ms a b) : Goes n a b :=
  ⟨h.ok, h.ext, fun p hp => .inl (h.pairs ▸ hp)⟩

section
variable {N W : Type} [LinearOrder N] [AddMonoid W] [LinearOrder W] {parname : Attrs → N} {n : Int}

/-- What is needed of an entry. -/
def Good (n : Int) (e : CEntry N W) : Prop := Single e.attrs ∧ ∀ es, e.content = some es → Texts n es

theorem texts_pre {es : List (Token N)} (h : Texts n es) (A : Alphabet) (a : Attrs) : Texts n (markTok A a ++ es) := by
  intro l r hm
  rcases List.mem_append.1 hm with hm | hm
  · unfold markTok at hm
    split at hm
    · cases hm
    · rw [List.mem_singleton] at hm
      cases hm
      exact .inl rfl
  · exact h l r hm

theorem goes_entry (hn : n ≤ 0) {e : CEntry N W} (h : Good n e) {c c1 : Comp N W} (hc : Ok c.alphabet) (he : procEntry parname {} e c = .ok c1) :
    Goes n c.alphabet c1.alphabet := by
  by_cases hi : e.attrs.ignore = Expander.YES
  · rw [procEntry, if_pos hi] at he
    cases he
    exact .refl hc
  · obtain ⟨a, pre, h1, h2, h3⟩ := entry_single (parname := parname) (s := {}) h.1 hi hc
    rw [h3] at he
    unfold entryRest at he
    split at he
    · cases he; exact h1.goes
    · next es hes =>
      obtain ⟨b, -, h5⟩ := Res.bind_eq_ok.1 he
      cases b
      · cases h5; exact h1.goes
      · have := adds_insertEntryTokens (n := n) hn rfl (pre ++ es.map (weigh e.weight e.junk)) (by
          rw [List.map_append, map_weigh, h2 a h1.ok (.refl a)]
          exact texts_pre (h.2 es hes) a _) (c := { c with alphabet := a }) h1.ok h5
        exact h1.goes.trans this.goes

theorem goes_closePar {c c1 : Comp N W} (hc : Ok c.alphabet) (he : closePar c = .ok c1) : Goes n c.alphabet c1.alphabet := by
  unfold closePar at he
  split at he
  · cases he; exact .refl hc
  · split at he
    · cases he; exact .refl hc
    · obtain ⟨t, -, he⟩ := Res.bind_eq_ok.1 he
      obtain ⟨t', -, he⟩ := Res.bind_eq_ok.1 he
      cases he; exact .refl hc

theorem goes_nodes (hn : n ≤ 0) (ns : List (Node N W)) (h : ∀ e, .entry e ∈ ns → Good n e) {c c1 : Comp N W} (hc : Ok c.alphabet)
    (he : procNodes parname {} ns c = .ok c1) : Goes n c.alphabet c1.alphabet := by
  induction ns generalizing c with
  | nil => cases he; exact .refl hc
  | cons k ns ih =>
    rw [procNodes] at he
    obtain ⟨c', h1, h2⟩ := Res.bind_eq_ok.1 he
    have g : Goes n c.alphabet c'.alphabet := by
      cases k with
      | sdef t =>
        cases h1
        obtain ⟨i1, i2, -, i4, -⟩ := includeSymbol_spec hc (0x3c :: t ++ [0x3e])
        exact ⟨i1, i2, fun p hp => .inl (i4 ▸ hp)⟩
      | parOpen m => cases h1; exact .refl hc
      | parClose => exact goes_closePar hc h1
      | secOpen m => cases h1; exact .refl hc
      | secClose => cases h1; exact .refl hc
      | entry e => exact goes_entry hn (h e (by simp)) hc h1
    exact g.trans (ih (fun e he => h e (List.mem_cons_of_mem _ he)) g.ok h2)

theorem procNodes_append (s : Settings) (ns ms : List (Node N W)) (c c' : Comp N W) (h : procNodes parname s (ns ++ ms) c = .ok c') :
    ∃ d, procNodes parname s ns c = .ok d ∧ procNodes parname s ms d = .ok c' := by
  induction ns generalizing c with
  | nil => exact ⟨c, rfl, h⟩
  | cons n ns ih =>
    rw [List.cons_append, procNodes] at h
    obtain ⟨c1, h1, h2⟩ := Res.bind_eq_ok.1 h
    obtain ⟨d, h3, h4⟩ := ih c1 h2
    exact ⟨d, by rw [procNodes, h1]; exact h3, h4⟩

/-! ## Paradigms -/

variable {f : File N W} {closed : N → Bool}

theorem parStage_mono {s : Settings} {seen : List N} {m : N} {R : List Int → List Int → Prop} {c : Comp N W} (h : ParStage s f closed seen m R c) {a : Alphabet}
    (ha : Ok a) (he : Ext c.alphabet a) : ParStage s f closed seen m R { c with alphabet := a } :=
  ⟨ha, h.tags.trans he, h.cur, fun A hA hx => h.inv A hA (he.trans hx)⟩

theorem visible_tr (A : Alphabet) (e : CEntry N W) : Visible {} (tr A e).attrs ↔ e.attrs.ignore ≠ Expander.YES := by
  constructor
  · exact fun h => h.ignore
  · exact fun h => ⟨.inl rfl, h, .inl rfl, .inl rfl, fun _ => .inl rfl, fun _ => .inl rfl⟩

theorem read_pre (c : Comp N W) (A : Alphabet) (a : Attrs) (es : List (Token N)) : readTokens c (markTok A a ++ es) = readTokens c es := by
  unfold markTok
  split <;> rfl

theorem parEntry (hn : n ≤ 0) {A : Alphabet} (hA : Ok A) {seen : List N} {m : N} (hm : m ∉ seen) {R : List Int → List Int → Prop} {c c1 : Comp N W}
    (h : ParStage {} f closed seen m R c) (e : CEntry N W) (hg : Good n e)
    (hr : ∀ es, Visible {} (tr A e).attrs ∧ (tr A e).content = some es → ∀ m, .par m ∈ es → m ∈ seen)
    (hf : ∀ es, Visible {} (tr A e).attrs ∧ (tr A e).content = some es → Fits closed .any es)
    (hcl : closed m = true → ∀ es, Visible {} (tr A e).attrs ∧ (tr A e).content = some es → Closed closed es)
    (he : procEntry parname {} e c = .ok c1) (hx : Ext c1.alphabet A) :
    ParStage {} f closed seen m (fun x y => R x y ∨ ERel1 {} f (tr A e) x y) c1 ∧ c1.secs = c.secs ∧ c1.sect = c.sect := by
  have hgo := goes_entry hn hg h.ok he
  by_cases hi : e.attrs.ignore = Expander.YES
  · rw [procEntry, if_pos hi] at he
    cases he
    have hE : ∀ x y, ¬ ERel1 {} f (tr A e) x y := by rintro x y ⟨es, ⟨h', -⟩, -⟩; exact h'.ignore hi
    refine ⟨?_, rfl, rfl⟩
    simpa only [hE, or_false] using h
  obtain ⟨a, pre, h1, h2, h3⟩ := entry_single (parname := parname) (s := {}) hg.1 hi h.ok
  have hst := parStage_mono h h1.ok h1.ext
  rw [h3] at he
  unfold entryRest at he
  have hv := (visible_tr A e).2 hi
  split at he
  · next hes =>
    cases he
    have hE : ∀ x y, ¬ ERel1 {} f (tr A e) x y := by
      rintro x y ⟨es, ⟨-, h'⟩, -⟩
      simp [tr, hes] at h'
    refine ⟨?_, rfl, rfl⟩
    simpa only [hE, or_false] using hst
  · next es hes =>
    have hxa : Ext a A := by
      obtain ⟨b, -, h5⟩ := Res.bind_eq_ok.1 he
      cases b
      · cases h5; exact hx
      · have := adds_insertEntryTokens (n := n) hn rfl (pre ++ es.map (weigh e.weight e.junk)) (by
          rw [List.map_append, map_weigh, h2 a h1.ok (.refl a)]
          exact texts_pre (hg.2 es hes) a _) (c := { c with alphabet := a }) h1.ok h5
        exact this.ext.trans hx
    have hcon : (tr A e).content = some (markTok A e.attrs ++ es) := by simp [tr, hes]
    have hws : (pre ++ es.map (weigh e.weight e.junk)).map (·.2) = markTok A e.attrs ++ es := by
      rw [List.map_append, map_weigh, h2 A hA hxa]
    obtain ⟨c', k1, k2, k3, k4⟩ := parContent rfl hm hst (pre ++ es.map (weigh e.weight e.junk)) (by rw [hws]; exact hr _ ⟨hv, hcon⟩)
      (by rw [hws]; exact hf _ ⟨hv, hcon⟩) (by rw [hws]; exact fun hb => hcl hb _ ⟨hv, hcon⟩)
    rw [hws, read_pre, he] at k1
    cases k1
    rw [hws] at k2
    refine ⟨?_, k3, k4⟩
    have hE : ∀ x y, ERel1 {} f (tr A e) x y ↔ Gv {} (G {} f) (markTok A e.attrs ++ es) x y := by
      intro x y
      constructor
      · rintro ⟨es', ⟨-, h'⟩, h''⟩
        rw [hcon] at h'; cases h'; exact h''
      · exact fun h => ⟨_, ⟨hv, hcon⟩, h⟩
    simpa only [hE] using k2

theorem parEntries (hn : n ≤ 0) {A : Alphabet} (hA : Ok A) {seen : List N} {m : N} (hm : m ∉ seen) (ents : List (CEntry N W)) {R : List Int → List Int → Prop}
    {c c1 : Comp N W} (h : ParStage {} f closed seen m R c) (hg : ∀ e ∈ ents, Good n e)
    (hr : ∀ es, Uses {} (ents.map (tr A)) es → ∀ m, .par m ∈ es → m ∈ seen)
    (hf : ∀ es, Uses {} (ents.map (tr A)) es → Fits closed .any es)
    (hcl : closed m = true → ∀ es, Uses {} (ents.map (tr A)) es → Closed closed es)
    (he : procNodes parname {} (ents.map .entry) c = .ok c1) (hx : Ext c1.alphabet A) :
    ParStage {} f closed seen m (fun x y => R x y ∨ ERel {} f (ents.map (tr A)) x y) c1 ∧ c1.secs = c.secs ∧ c1.sect = c.sect := by
  induction ents generalizing R c with
  | nil =>
    cases he
    refine ⟨?_, rfl, rfl⟩
    simpa only [List.map_nil, erel_nil, or_false] using h
  | cons e ents ih =>
    rw [List.map_cons, procNodes] at he
    obtain ⟨d, h1, h2⟩ := Res.bind_eq_ok.1 he
    have g1 := goes_entry hn (hg e (by simp)) h.ok h1
    have g2 := goes_nodes hn _ (fun e' he' => hg e' (by
      obtain ⟨e'', h', h''⟩ := List.mem_map.1 he'
      cases h''; exact List.mem_cons_of_mem _ h')) g1.ok h2
    obtain ⟨k1, k2, k3⟩ := parEntry hn hA hm h e (hg e (by simp)) (fun es he => hr es (uses_cons.2 (.inl he))) (fun es he => hf es (uses_cons.2 (.inl he)))
      (fun hb es he => hcl hb es (uses_cons.2 (.inl he))) h1 (g2.ext.trans hx)
    obtain ⟨m1, m2, m3⟩ := ih k1 (fun e he => hg e (List.mem_cons_of_mem _ he)) (fun es he => hr es (uses_cons.2 (.inr he))) (fun es he => hf es (uses_cons.2 (.inr he)))
      (fun hb es he => hcl hb es (uses_cons.2 (.inr he))) h2
    refine ⟨?_, m2.trans k2, m3.trans k3⟩
    simp only [List.map_cons, erel_cons]
    simpa only [or_assoc] using m1

theorem goodNodes {f : File N W} (h : ∀ e, Entry f e → Good n e) : ∀ e, .entry e ∈ f.nodes → Good n e := by
  intro e he
  simp only [File.nodes, parNodes, secNodes, List.mem_append, List.mem_map, List.mem_flatMap, List.mem_cons] at he
  rcases he with ⟨t, -, ht⟩ | ⟨p, hp, h'⟩ | ⟨p, hp, h'⟩
  · cases ht
  · rcases h' with (h' | ⟨e', h', h''⟩) | h'
    · cases h'
    · cases h''; exact h e (.inl ⟨p.1, p.2, hp, h'⟩)
    · simp at h'
  · rcases h' with (h' | ⟨e', h', h''⟩) | h'
    · cases h'
    · cases h''; exact h e (.inr ⟨p.1, p.2, hp, h'⟩)
    · simp at h'

theorem trPars (A : Alphabet) (qs : List (N × List (CEntry N W))) : (qs.map fun p => (p.1, p.2.map (tr A))).map (·.1) = qs.map (·.1) := by
  rw [List.map_map]; rfl

/-- All paradigms. -/
theorem parAll (hn : n ≤ 0) {A : Alphabet} (hA : Ok A) (hreg : Regular {} (trFile A f) closed) (hg : ∀ e, .entry e ∈ f.nodes → Good n e)
    (qs ps : List (N × List (CEntry N W))) (hps : f.pars = ps ++ qs) {c c1 : Comp N W} (h : Between {} (trFile A f) closed (ps.map fun p => (p.1, p.2.map (tr A))) c)
    (he : procNodes parname {} (qs.flatMap parNodes) c = .ok c1) (hx : Ext c1.alphabet A) : Between {} (trFile A f) closed (trFile A f).pars c1 := by
  induction qs generalizing ps c with
  | nil =>
    rw [List.append_nil] at hps
    cases he
    show Between {} (trFile A f) closed (f.pars.map fun p => (p.1, p.2.map (tr A))) c1
    rw [hps]; exact h
  | cons p qs ih =>
    obtain ⟨m, ents⟩ := p
    have hgs : ∀ ns : List (Node N W), (∀ k ∈ ns, k ∈ f.nodes) → ∀ e, .entry e ∈ ns → Good n e := fun ns hns e he => hg e (hns _ he)
    have hsub : ∀ k ∈ ((m, ents) :: qs).flatMap parNodes, k ∈ f.nodes := by
      intro k hk
      rw [File.nodes, hps, List.flatMap_append]
      exact List.mem_append_right _ (List.mem_append_left _ (List.mem_append_right _ hk))
    rw [List.flatMap_cons] at he hsub
    obtain ⟨d, h1, h2⟩ := procNodes_append _ _ _ _ _ he
    have g1 := goes_nodes hn _ (hgs _ fun k hk => hsub k (List.mem_append_left _ hk)) h.ok h1
    have g2 := goes_nodes hn _ (hgs _ fun k hk => hsub k (List.mem_append_right _ hk)) g1.ok h2
    have htr : (trFile A f).pars = (ps.map fun p => (p.1, p.2.map (tr A))) ++ (m, ents.map (tr A)) :: (qs.map fun p => (p.1, p.2.map (tr A))) := by
      show (f.pars.map fun p => (p.1, p.2.map (tr A))) = _
      rw [hps]; simp
    have hm : m ∉ (ps.map fun p => (p.1, p.2.map (tr A))).map (·.1) := nodup_split (p := (m, ents.map (tr A))) (htr ▸ hreg.names)
    have hmem : (m, ents.map (tr A)) ∈ (trFile A f).pars := by rw [htr]; simp
    obtain ⟨d', h3, h4⟩ : ∃ d', procNodes parname {} (ents.map .entry) { c with current := some m } = .ok d' ∧ closePar d' = .ok d := by
      have : procNodes parname {} (ents.map .entry ++ [.parClose]) { c with current := some m } = .ok d := h1
      obtain ⟨d', j1, j2⟩ := procNodes_append _ _ _ _ _ this
      refine ⟨d', j1, ?_⟩
      rw [procNodes] at j2
      obtain ⟨d'', j3, j4⟩ := Res.bind_eq_ok.1 j2
      cases j4
      exact j3
    have hst : ParStage {} (trFile A f) closed ((ps.map fun p => (p.1, p.2.map (tr A))).map (·.1)) m (fun _ _ => False) { c with current := some m } := by
      refine ⟨h.ok, h.tags, rfl, fun B hB hex => ?_⟩
      have hp := h.inv B hB hex
      have hpar : parOf m c.pars = Fst.empty := by
        unfold parOf
        rw [hp.rest m hm]; rfl
      refine ⟨hp.sorted, hp.done, fun m hm _ => hp.rest m hm, ?_⟩
      simp only [hpar]
      refine ⟨_, _, tree_empty _ _, ?_, ?_, fun _ => trivial⟩
      · intro p fw hf
        rw [empty_eq] at hf; unfold Final at hf; simp at hf
      · intro x y
        simp only [iff_false]
        rintro ⟨ls, h1, -⟩
        exact acc_empty _ _ h1
    have gd : Goes n c.alphabet d'.alphabet := goes_nodes (c := { c with current := some m }) hn _ (hgs _ fun k hk => hsub k (List.mem_append_left _ (by
      simp only [parNodes, List.mem_append, List.mem_cons]
      exact .inl (.inr hk)))) h.ok h3
    have gd' : Goes n d'.alphabet d.alphabet := goes_closePar gd.ok h4
    have hxd := gd'.ext.trans (g2.ext.trans hx)
    obtain ⟨m1, m2, m3⟩ := parEntries hn hA hm ents hst (fun e he => hg e (hsub _ (by
        simp only [parNodes, List.mem_append, List.mem_cons, List.mem_map]
        exact .inl (.inl (.inr ⟨e, he, rfl⟩))))) (hreg.order _ m _ _ htr) (hreg.parFits m _ hmem) (hreg.parClosed m _ hmem) h3 hxd
    have m1' : ParStage {} (trFile A f) closed ((ps.map fun p => (p.1, p.2.map (tr A))).map (·.1)) m (G {} (trFile A f) m) d' := by
      have e : (fun x y => False ∨ ERel {} (trFile A f) (ents.map (tr A)) x y) = G {} (trFile A f) m := by
        funext x y
        rw [false_or, propext (g_iff hreg.names hmem x y)]
      rw [← e]
      exact m1
    obtain ⟨d2, k1, k2, k3, k4, k5, k6⟩ := parEnd hm m1'
    rw [h4] at k1
    cases k1
    refine ih (ps ++ [(m, ents)]) (by rw [hps]; simp) ?_ h2
    rw [List.map_append, List.map_cons, List.map_nil]
    refine ⟨k2 ▸ m1.ok, k2 ▸ m1.tags, fun B hB hex => ?_, fun hl => k4 (hl _ (m, ents.map (tr A)) rfl), ?_⟩
    · rw [List.map_append]
      exact k3 B hB (k2 ▸ hex)
    · rw [k5, m2]; exact h.secs

/-! ## Sections -/

theorem secStage_mono {s : Settings} {S : UString → List Int → List Int → Prop} {c : Comp N W} (h : SecStage s f closed S c) {a : Alphabet}
    (ha : Ok a) (he : Ext c.alphabet a) : SecStage s f closed S { c with alphabet := a } :=
  ⟨ha, h.tags.trans he, h.cur, h.sorted, h.none, h.some, fun A hA hx => h.inv A hA (he.trans hx)⟩

theorem secEntry (hn : n ≤ 0) {A : Alphabet} (hA : Ok A) {S : UString → List Int → List Int → Prop} {c c1 : Comp N W}
    (h : SecStage {} f closed S c) (e : CEntry N W) (hg : Good n e)
    (hr : ∀ es, Visible {} (tr A e).attrs ∧ (tr A e).content = some es → ∀ m, .par m ∈ es → m ∈ f.pars.map (·.1))
    (hf : ∀ es, Visible {} (tr A e).attrs ∧ (tr A e).content = some es → Fits closed .any es)
    (he : procEntry parname {} e c = .ok c1) (hx : Ext c1.alphabet A) :
    SecStage {} f closed (fun k x y => S k x y ∨ (k = c.sect ∧ ERel1 {} f (tr A e) x y)) c1 ∧ c1.sect = c.sect := by
  have hgo := goes_entry hn hg h.ok he
  by_cases hi : e.attrs.ignore = Expander.YES
  · rw [procEntry, if_pos hi] at he
    cases he
    have hE : ∀ x y, ¬ ERel1 {} f (tr A e) x y := by rintro x y ⟨es, ⟨h', -⟩, -⟩; exact h'.ignore hi
    refine ⟨?_, rfl⟩
    simpa only [hE, and_false, or_false] using h
  obtain ⟨a, pre, h1, h2, h3⟩ := entry_single (parname := parname) (s := {}) hg.1 hi h.ok
  have hst := secStage_mono h h1.ok h1.ext
  rw [h3] at he
  unfold entryRest at he
  have hv := (visible_tr A e).2 hi
  split at he
  · next hes =>
    cases he
    have hE : ∀ x y, ¬ ERel1 {} f (tr A e) x y := by
      rintro x y ⟨es, ⟨-, h'⟩, -⟩
      simp [tr, hes] at h'
    refine ⟨?_, rfl⟩
    simpa only [hE, and_false, or_false] using hst
  · next es hes =>
    have hxa : Ext a A := by
      obtain ⟨b, -, h5⟩ := Res.bind_eq_ok.1 he
      cases b
      · cases h5; exact hx
      · have := adds_insertEntryTokens (n := n) hn rfl (pre ++ es.map (weigh e.weight e.junk)) (by
          rw [List.map_append, map_weigh, h2 a h1.ok (.refl a)]
          exact texts_pre (hg.2 es hes) a _) (c := { c with alphabet := a }) h1.ok h5
        exact this.ext.trans hx
    have hcon : (tr A e).content = some (markTok A e.attrs ++ es) := by simp [tr, hes]
    have hws : (pre ++ es.map (weigh e.weight e.junk)).map (·.2) = markTok A e.attrs ++ es := by
      rw [List.map_append, map_weigh, h2 A hA hxa]
    obtain ⟨c', k1, k2, k3⟩ := secContent rfl hst (pre ++ es.map (weigh e.weight e.junk)) (by rw [hws]; exact hr _ ⟨hv, hcon⟩)
      (by rw [hws]; exact hf _ ⟨hv, hcon⟩)
    rw [hws, read_pre, he] at k1
    cases k1
    rw [hws] at k2
    refine ⟨?_, k3⟩
    have hE : ∀ x y, ERel1 {} f (tr A e) x y ↔ Gv {} (G {} f) (markTok A e.attrs ++ es) x y := by
      intro x y
      constructor
      · rintro ⟨es', ⟨-, h'⟩, h''⟩
        rw [hcon] at h'; cases h'; exact h''
      · exact fun h => ⟨_, ⟨hv, hcon⟩, h⟩
    simpa only [hE] using k2

theorem secEntries (hn : n ≤ 0) {A : Alphabet} (hA : Ok A) (ents : List (CEntry N W)) {S : UString → List Int → List Int → Prop}
    {c c1 : Comp N W} (h : SecStage {} f closed S c) (hg : ∀ e ∈ ents, Good n e)
    (hr : ∀ es, Uses {} (ents.map (tr A)) es → ∀ m, .par m ∈ es → m ∈ f.pars.map (·.1))
    (hf : ∀ es, Uses {} (ents.map (tr A)) es → Fits closed .any es)
    (he : procNodes parname {} (ents.map .entry) c = .ok c1) (hx : Ext c1.alphabet A) :
    SecStage {} f closed (fun k x y => S k x y ∨ (k = c.sect ∧ ERel {} f (ents.map (tr A)) x y)) c1 := by
  induction ents generalizing S c with
  | nil =>
    cases he
    simpa only [List.map_nil, erel_nil, and_false, or_false] using h
  | cons e ents ih =>
    rw [List.map_cons, procNodes] at he
    obtain ⟨d, h1, h2⟩ := Res.bind_eq_ok.1 he
    have g1 := goes_entry hn (hg e (by simp)) h.ok h1
    have g2 := goes_nodes hn _ (fun e' he' => hg e' (by
      obtain ⟨e'', h', h''⟩ := List.mem_map.1 he'
      cases h''; exact List.mem_cons_of_mem _ h')) g1.ok h2
    obtain ⟨k1, k2⟩ := secEntry hn hA h e (hg e (by simp)) (fun es he => hr es (uses_cons.2 (.inl he))) (fun es he => hf es (uses_cons.2 (.inl he)))
      h1 (g2.ext.trans hx)
    have m1 := ih k1 (fun e he => hg e (List.mem_cons_of_mem _ he)) (fun es he => hr es (uses_cons.2 (.inr he))) (fun es he => hf es (uses_cons.2 (.inr he))) h2
    rw [k2] at m1
    simp only [List.map_cons, erel_cons]
    simpa only [or_assoc, ← and_or_left] using m1

/-- All sections. -/
theorem secAll (hn : n ≤ 0) {A : Alphabet} (hA : Ok A) (hreg : Regular {} (trFile A f) closed) (hg : ∀ e, .entry e ∈ f.nodes → Good n e)
    (qs : List (UString × List (CEntry N W))) (hsub : ∀ p ∈ qs, p ∈ f.secs) {S : UString → List Int → List Int → Prop} {c c1 : Comp N W}
    (h : SecStage {} (trFile A f) closed S c) (he : procNodes parname {} (qs.flatMap secNodes) c = .ok c1) (hx : Ext c1.alphabet A) :
    SecStage {} (trFile A f) closed (fun k x y => S k x y ∨ ∃ ents, (k, ents) ∈ (qs.map fun p => (p.1, p.2.map (tr A))) ∧ ERel {} (trFile A f) ents x y) c1 := by
  induction qs generalizing S c with
  | nil =>
    cases he
    simpa using h
  | cons p qs ih =>
    obtain ⟨k, ents⟩ := p
    have hmem : (k, ents.map (tr A)) ∈ (trFile A f).secs := List.mem_map.2 ⟨_, hsub (k, ents) (by simp), rfl⟩
    have hin : ∀ q ∈ (k, ents) :: qs, ∀ nd ∈ secNodes q, nd ∈ f.nodes := by
      intro q hq nd hnd
      rw [File.nodes]
      exact List.mem_append_right _ (List.mem_append_right _ (List.mem_flatMap.2 ⟨q, hsub q hq, hnd⟩))
    rw [List.flatMap_cons] at he
    obtain ⟨d, h1, h2⟩ := procNodes_append _ _ _ _ _ he
    obtain ⟨d', h3, h4⟩ : ∃ d', procNodes parname {} (ents.map .entry) { c with sect := k } = .ok d' ∧ { d' with sect := [] } = d := by
      have : procNodes parname {} (ents.map .entry ++ [.secClose]) { c with sect := k } = .ok d := h1
      obtain ⟨d', j1, j2⟩ := procNodes_append _ _ _ _ _ this
      refine ⟨d', j1, ?_⟩
      rw [procNodes] at j2
      obtain ⟨d'', j3, j4⟩ := Res.bind_eq_ok.1 j2
      cases j4
      cases j3
      rfl
    subst h4
    have g1 : Goes n c.alphabet d'.alphabet := goes_nodes (c := { c with sect := k }) hn _ (fun e he => hg e (hin (k, ents) (by simp) _ (by
      simp only [secNodes, List.mem_append, List.mem_cons]
      exact .inl (.inr he)))) h.ok h3
    have g2 : Goes n d'.alphabet c1.alphabet := goes_nodes (c := { d' with sect := [] }) hn _ (fun e he => hg e (by
      obtain ⟨q, hq, hq'⟩ := List.mem_flatMap.1 he
      exact hin q (List.mem_cons_of_mem _ hq) _ hq')) g1.ok h2
    have h' : SecStage {} (trFile A f) closed S { c with sect := k } := ⟨h.ok, h.tags, h.cur, h.sorted, h.none, h.some, h.inv⟩
    have k1 := secEntries hn hA ents h' (fun e he => hg e (hin (k, ents) (by simp) _ (by
      simp only [secNodes, List.mem_append, List.mem_cons, List.mem_map]
      exact .inl (.inr ⟨e, he, rfl⟩)))) (hreg.refs k _ hmem) (hreg.secFits k _ hmem) h3 (g2.ext.trans hx)
    have k2 : SecStage {} (trFile A f) closed (fun k' x y => S k' x y ∨ (k' = k ∧ ERel {} (trFile A f) (ents.map (tr A)) x y)) { d' with sect := [] } :=
      ⟨k1.ok, k1.tags, k1.cur, k1.sorted, k1.none, k1.some, k1.inv⟩
    have m1 := ih (fun p hp => hsub p (List.mem_cons_of_mem _ hp)) k2 h2
    have e : (fun k' x y => S k' x y ∨ ∃ ents', (k', ents') ∈ (((k, ents) :: qs).map fun p => (p.1, p.2.map (tr A))) ∧ ERel {} (trFile A f) ents' x y) =
        fun k' x y => (S k' x y ∨ (k' = k ∧ ERel {} (trFile A f) (ents.map (tr A)) x y)) ∨
          ∃ ents, (k', ents) ∈ (qs.map fun p => (p.1, p.2.map (tr A))) ∧ ERel {} (trFile A f) ents x y := by
      funext k' x y
      simp only [List.map_cons, List.mem_cons, Prod.mk.injEq, or_and_right, exists_or, or_assoc, and_assoc, exists_and_left, exists_eq_left]
    rw [e]
    exact m1

theorem tags_ok (ts : List UString) (c : Comp N W) : procNodes parname {} (ts.map .sdef) c =
    .ok { c with alphabet := ts.foldl (fun a n => a.includeSymbol (0x3c :: n ++ [0x3e])) c.alphabet } := by
  induction ts generalizing c with
  | nil => rfl
  | cons n ts ih =>
    rw [List.map_cons, procNodes]
    show (Res.ok _ >>= fun x => procNodes parname {} (ts.map .sdef) x) = _
    rw [Res.bind_ok, ih]
    rfl

/-- The state at the end of the file. -/
theorem nodes_spec (hn : n ≤ 0) {c : Comp N W} (hg : ∀ e, .entry e ∈ f.nodes → Good n e) (hreg : Regular {} (trFile c.alphabet f) closed)
    (he : procNodes parname {} f.nodes ({} : Comp N W) = .ok c) :
    SecStage {} (trFile c.alphabet f) closed (SecRel {} (trFile c.alphabet f)) c ∧ ∀ p ∈ c.alphabet.spairinv, Fine n p := by
  have hgo := goes_nodes hn _ hg ok_empty he
  refine ⟨?_, fun p hp => (hgo.pairs p hp).elim (fun h => ?_) id⟩
  rotate_left
  · have : p = (0, 0) := by simpa [Alphabet.empty] using h
    rw [this]; exact .inl rfl
  set A := c.alphabet with hA
  rw [File.nodes] at he
  obtain ⟨d1, h1, h2⟩ := procNodes_append _ _ _ _ _ he
  rw [tags_ok] at h1
  cases h1
  obtain ⟨d2, h3, h4⟩ := procNodes_append _ _ _ _ _ h2
  have t2 : Ok (tagsOf f) := (tags_spec (s := {}) f.tags ({} : Comp N W) ok_empty).2
  have h0 : Between {} (trFile A f) closed [] ({ alphabet := tagsOf f } : Comp N W) :=
    ⟨t2, .refl _, fun A hA hex => ⟨.nil, fun n hn => by simp at hn, fun n _ => rfl⟩, fun _ => rfl, rfl⟩
  have gd : Goes n (tagsOf f) d2.alphabet := goes_nodes (c := { alphabet := tagsOf f }) hn _ (fun e he => hg e (by
    rw [File.nodes]; exact List.mem_append_right _ (List.mem_append_left _ he))) t2 h3
  have gd' : Goes n d2.alphabet c.alphabet := goes_nodes hn _ (fun e he => hg e (by
    rw [File.nodes]; exact List.mem_append_right _ (List.mem_append_right _ he))) gd.ok h4
  have hb := parAll hn hgo.ok hreg hg f.pars [] rfl h0 h3 gd'.ext
  have h5 : SecStage {} (trFile A f) closed (fun _ _ _ => False) d2 := by
    refine ⟨hb.ok, hb.tags, hb.cur ?_, by rw [hb.secs]; exact .nil, fun _ _ _ _ => id, fun k x hk => ?_, fun A hA hex => ⟨hb.inv A hA hex, fun k x hk => ?_⟩⟩
    · rintro qs ⟨n, ents⟩ hq
      exact hreg.last qs n ents hq
    · rw [hb.secs] at hk; cases hk
    · rw [hb.secs] at hk; cases hk
  have h6 := secAll hn hgo.ok hreg hg f.secs (fun _ h => h) h5 h4 (.refl _)
  have e : (fun k x y => False ∨ ∃ ents, (k, ents) ∈ (f.secs.map fun p => (p.1, p.2.map (tr A))) ∧ ERel {} (trFile A f) ents x y) = SecRel {} (trFile A f) := by
    funext k x y
    rw [false_or, propext secRel_iff]
    rfl
  rw [← e]
  exact h6

end

end Verif.Unified
