import Verif.Unified.Marks
import Verif.Chain.Lemmas

/-! # Pairs of a file with marks and without -/

namespace Verif.Unified

open Verif.Fst Verif.Compiler Verif.Alphabet
open Verif.Expander (Attrs)
open Verif.Tools (Choice mark preR preAlt preV preVl preVr Marked Chosen Dropped Erased)

set_option linter.unusedSectionVars false

section
variable {N W : Type} [LinearOrder N] [AddMonoid W] [LinearOrder W] {parname : Attrs → N} {n : Int} {f : File N W}

/-- The marks are in the alphabet. -/
theorem marks_nodes (hn : n ≤ 0) (ns : List (Node N W)) (h : ∀ e, .entry e ∈ ns → Good n e) {c c1 : Comp N W} (hc : Ok c.alphabet)
    (he : procNodes parname {} ns c = .ok c1) : ∀ e, .entry e ∈ ns → e.attrs.ignore ≠ Expander.YES → ∀ m ∈ entryMarks e.attrs, ∃ x, HasTag c1.alphabet x m := by
  induction ns generalizing c with
  | nil => intro e he; cases he
  | cons k ns ih =>
    intro e hmem hi m hm
    rw [procNodes] at he
    obtain ⟨c', h1, h2⟩ := Res.bind_eq_ok.1 he
    have g : Goes n c.alphabet c'.alphabet := goes_nodes (ns := [k]) (parname := parname) hn (fun e he => h e (by
      rw [List.mem_singleton] at he; rw [he]; simp)) hc (by rw [procNodes, h1]; rfl)
    rcases List.mem_cons.1 hmem with rfl | hmem
    · have g2 := goes_nodes hn _ (fun e he => h e (List.mem_cons_of_mem _ he)) g.ok h2
      have h1 : procEntry parname {} e c = .ok c' := h1
      have hg := h e (by simp)
      obtain ⟨a, pre, k1, k2, k3⟩ := entry_single (parname := parname) (s := {}) hg.1 hi hc
      obtain ⟨x, hx⟩ := k1.tags m hm
      refine ⟨x, (hx.mono ?_).mono g2.ext⟩
      rw [k3] at h1
      unfold entryRest at h1
      split at h1
      · cases h1; exact .refl _
      · next es hes =>
        obtain ⟨b, -, h5⟩ := Res.bind_eq_ok.1 h1
        cases b
        · cases h5; exact .refl _
        · have := adds_insertEntryTokens (n := n) hn rfl (pre ++ es.map (weigh e.weight e.junk)) (by
            rw [List.map_append, map_weigh, k2 a k1.ok (.refl a)]
            exact texts_pre (hg.2 es hes) a _) (c := { c with alphabet := a }) k1.ok h5
          exact this.ext
    · exact ih (fun e he => h e (List.mem_cons_of_mem _ he)) g.ok h2 e hmem hi m hm

end

variable {N W : Type} {f : File N W} {A : Alphabet} {s : Settings} {ch : Choice}

/-- What is known about the alphabet. -/
structure Knows (f : File N W) (A : Alphabet) : Prop where
  ok : Ok A
  tags : Ext (tagsOf f) A
  has : ∀ e, Entry f e → e.attrs.ignore ≠ Expander.YES → ∀ m ∈ entryMarks e.attrs, ∃ c, HasTag A c m

/-- The code of a mark. -/
theorem mark_code (hk : Knows f A) (hf : Fit s ch f) {e : CEntry N W} (he : Entry f e) (hi : e.attrs.ignore ≠ Expander.YES) {m : UString} (hm : m ∈ entryMarks e.attrs) :
    HasTag A (A.symCode m) m ∧ A.symCode m < -(f.tags.length : Int) := by
  obtain ⟨c, hc⟩ := hk.has e he hi m hm
  rw [symCode_of_hasTag hk.ok hc]
  refine ⟨hc, ?_⟩
  by_contra hlt
  have h0 := hc.neg
  have ht := (tagText_iff h0).1 (Chain.tagText_of hf.tags hk.tags h0 (by omega))
  have e : m = Chain.tagName f c := hc.tag_unique ht
  obtain ⟨pre, hp, hm'⟩ := marked_entry hm
  rw [e] at hm'
  have hi : (-c - 1).toNat < f.tags.length := by omega
  refine hf.unmarked f.tags[(-c - 1).toNat] (List.getElem_mem _) pre hp ?_
  unfold Chain.tagName at hm'
  rw [List.getElem?_eq_getElem hi] at hm'
  exact hm'

/-- The symbols of the file itself. -/
def strip (f : File N W) (u : List Int) : List Int := u.filter fun c => decide (-(f.tags.length : Int) ≤ c)

theorem strip_append (u v : List Int) : strip f (u ++ v) = strip f u ++ strip f v := by simp [strip]

theorem strip_own {u : List Int} (h : ∀ c ∈ u, -(f.tags.length : Int) ≤ c) : strip f u = u := by
  unfold strip
  rw [List.filter_eq_self]
  simpa using h

theorem strip_codes (hk : Knows f A) (hf : Fit s ch f) {e : CEntry N W} (he : Entry f e) (hi : e.attrs.ignore ≠ Expander.YES) : strip f (codes A e.attrs) = [] := by
  unfold strip codes
  rw [List.filter_eq_nil_iff]
  intro c hc
  obtain ⟨m, hm, rfl⟩ := List.mem_map.1 hc
  have := (mark_code hk hf he hi hm).2
  simp only [decide_eq_true_eq]
  omega

/-- Nothing dropped. -/
def Stays (A : Alphabet) (ch : Choice) (u : List Int) : Prop := ∀ c ∈ u, ∀ m, HasTag A c m → ¬ Dropped ch m

theorem gives_marks {s' : Settings} {f' : File N W} {a : Attrs} {es : List (Token N)} {u v : List Int} :
    Gives s' f' (markTok A a ++ es) u v ↔ ∃ u' v', u = codes A a ++ u' ∧ v = codes A a ++ v' ∧ Gives s' f' es u' v' := by
  unfold markTok
  split
  · next h0 =>
    simp [codes, h0]
  · constructor
    · intro h
      cases h with
      | text h => exact ⟨_, _, rfl, rfl, h⟩
    · rintro ⟨u', v', rfl, rfl, h⟩
      exact .text h

theorem uses_tr {ents : List (CEntry N W)} {es : List (Token N)} :
    Uses {} (ents.map (tr A)) es ↔ ∃ e ∈ ents, e.attrs.ignore ≠ Expander.YES ∧ ∃ es', e.content = some es' ∧ es = markTok A e.attrs ++ es' := by
  unfold Uses
  simp only [List.mem_map]
  constructor
  · rintro ⟨_, ⟨e, he, rfl⟩, hv, hc⟩
    refine ⟨e, he, hv.ignore, ?_⟩
    unfold tr at hc
    simp only [Option.map_eq_some_iff] at hc
    obtain ⟨es', h1, h2⟩ := hc
    exact ⟨es', h1, h2.symm⟩
  · rintro ⟨e, he, hi, es', h1, rfl⟩
    refine ⟨_, ⟨e, he, rfl⟩, ⟨.inl rfl, hi, .inl rfl, .inl rfl, fun _ => .inl rfl, fun _ => .inl rfl⟩, ?_⟩
    simp [tr, h1]

theorem mem_trPars {n : N} {ents : List (CEntry N W)} : (n, ents) ∈ (trFile A f).pars ↔ ∃ ents', (n, ents') ∈ f.pars ∧ ents = ents'.map (tr A) := by
  show (n, ents) ∈ (f.pars.map fun p => (p.1, p.2.map (tr A))) ↔ _
  simp only [List.mem_map, Prod.mk.injEq, Prod.exists]
  constructor
  · rintro ⟨a, b, h, rfl, rfl⟩; exact ⟨b, h, rfl⟩
  · rintro ⟨b, h, rfl⟩; exact ⟨n, b, h, rfl, rfl⟩

theorem mem_trSecs {n : UString} {ents : List (CEntry N W)} : (n, ents) ∈ (trFile A f).secs ↔ ∃ ents', (n, ents') ∈ f.secs ∧ ents = ents'.map (tr A) := by
  show (n, ents) ∈ (f.secs.map fun p => (p.1, p.2.map (tr A))) ↔ _
  simp only [List.mem_map, Prod.mk.injEq, Prod.exists]
  constructor
  · rintro ⟨a, b, h, rfl, rfl⟩; exact ⟨b, h, rfl⟩
  · rintro ⟨b, h, rfl⟩; exact ⟨n, b, h, rfl, rfl⟩

/-- An entry whose marks stay is visible. -/
theorem visible_of_stays (hs : Same s ch) (hk : Knows f A) (hf : Fit s ch f) {e : CEntry N W} (he : Entry f e) (hi : e.attrs.ignore ≠ Expander.YES)
    (h : Stays A ch (codes A e.attrs)) : Visible s e.attrs := by
  refine (visible_iff hs (hf.single e he) (fun hb => hf.lefts hb e he) (fun hb => hf.rights hb e he)).2 ⟨hi, fun m hm => ?_⟩
  exact h _ (List.mem_map_of_mem hm) m (mark_code hk hf he hi hm).1

theorem stays_of_visible (hs : Same s ch) (hk : Knows f A) (hf : Fit s ch f) {e : CEntry N W} (he : Entry f e) (hv : Visible s e.attrs) :
    Stays A ch (codes A e.attrs) := by
  obtain ⟨hi, hd⟩ := (visible_iff hs (hf.single e he) (fun hb => hf.lefts hb e he) (fun hb => hf.rights hb e he)).1 hv
  intro c hc m hm
  obtain ⟨m', hm', rfl⟩ := List.mem_map.1 hc
  rw [hm.tag_unique (mark_code hk hf he hi hm').1]
  exact hd m' hm'

theorem Stays.left {u v : List Int} (h : Stays A ch (u ++ v)) : Stays A ch u := fun c hc => h c (List.mem_append_left _ hc)
theorem Stays.right {u v : List Int} (h : Stays A ch (u ++ v)) : Stays A ch v := fun c hc => h c (List.mem_append_right _ hc)
theorem Stays.append {u v : List Int} (h : Stays A ch u) (h' : Stays A ch v) : Stays A ch (u ++ v) :=
  fun c hc => (List.mem_append.1 hc).elim (h c) (h' c)

theorem stays_own (hk : Knows f A) (hf : Fit s ch f) {u : List Int} (h : ∀ c ∈ u, -(f.tags.length : Int) ≤ c) : Stays A ch u := by
  intro c hc m hm
  have h0 := hm.neg
  have hn := h c hc
  have e : m = Chain.tagName f c := hm.tag_unique ((tagText_iff h0).1 (Chain.tagText_of hf.tags hk.tags h0 hn))
  have hi : (-c - 1).toNat < f.tags.length := by omega
  have := plain_tag (ch := ch) (hf.unmarked f.tags[(-c - 1).toNat] (List.getElem_mem _))
  rw [e]
  unfold Chain.tagName
  rw [List.getElem?_eq_getElem hi]
  exact this.1

/-- Marks and symbols of the file. -/
def Mixed (f : File N W) (A : Alphabet) (u : List Int) : Prop :=
  ∀ c ∈ u, -(f.tags.length : Int) ≤ c ∨ ∃ e m, Entry f e ∧ e.attrs.ignore ≠ Expander.YES ∧ m ∈ entryMarks e.attrs ∧ HasTag A c m

theorem Mixed.append {u v : List Int} (h : Mixed f A u) (h' : Mixed f A v) : Mixed f A (u ++ v) :=
  fun c hc => (List.mem_append.1 hc).elim (h c) (h' c)

/-- From the file with marks to the file. -/
theorem gives_strip (hs : Same s ch) (hk : Knows f A) (hf : Fit s ch f) {es : List (Token N)} {u v : List Int} (h : Gives {} (trFile A f) es u v) :
    ∀ (a : Attrs) es0, es = markTok A a ++ es0 → (∀ m ∈ entryMarks a, ∃ e, Entry f e ∧ e.attrs.ignore ≠ Expander.YES ∧ m ∈ entryMarks e.attrs) → (∀ k ∈ es0, Own f k) →
      Mixed f A u ∧ (Stays A ch u → Gives s f es0 (strip f u) (strip f v)) := by
  have hcodes : ∀ a : Attrs, (∀ m ∈ entryMarks a, ∃ e, Entry f e ∧ e.attrs.ignore ≠ Expander.YES ∧ m ∈ entryMarks e.attrs) →
      Mixed f A (codes A a) ∧ strip f (codes A a) = [] := by
    intro a ha
    constructor
    · intro c hc
      obtain ⟨m, hm, rfl⟩ := List.mem_map.1 hc
      obtain ⟨e, h1, h2, h3⟩ := ha m hm
      exact .inr ⟨e, m, h1, h2, h3, (mark_code hk hf h1 h2 h3).1⟩
    · unfold strip codes
      rw [List.filter_eq_nil_iff]
      intro c hc
      obtain ⟨m, hm, rfl⟩ := List.mem_map.1 hc
      obtain ⟨e, h1, h2, h3⟩ := ha m hm
      have := (mark_code hk hf h1 h2 h3).2
      simp only [decide_eq_true_eq]
      omega
  have hnone : ∀ m ∈ entryMarks ({} : Attrs), ∃ e, Entry f e ∧ e.attrs.ignore ≠ Expander.YES ∧ m ∈ entryMarks e.attrs := by
    intro m hm; cases hm
  have hempty : ∀ es1 : List (Token N), es1 = markTok A ({} : Attrs) ++ es1 := fun _ => rfl
  induction h with
  | nil =>
    intro a es0 he ha ho
    obtain ⟨-, rfl⟩ := List.append_eq_nil_iff.1 he.symm
    exact ⟨fun c hc => (by cases hc), fun _ => .nil⟩
  | @text l r es1 l' r' h ih =>
    intro a es0 he ha ho
    by_cases h0 : entryMarks a = []
    · have : markTok (N := N) A a = [] := by unfold markTok; rw [if_pos h0]
      rw [this, List.nil_append] at he
      subst he
      obtain ⟨h1, h2⟩ := ih {} es1 (hempty _) hnone fun k hk => ho k (List.mem_cons_of_mem _ hk)
      obtain ⟨o1, o2⟩ := ho (.text l r) (by simp)
      refine ⟨Mixed.append (fun c hc => .inl (o1 c hc)) h1, fun hst => ?_⟩
      rw [strip_append, strip_append, strip_own o1, strip_own o2]
      exact .text (h2 hst.right)
    · have : markTok (N := N) A a = [.text (codes A a) (codes A a)] := by unfold markTok; rw [if_neg h0]
      rw [this] at he
      cases he
      obtain ⟨h1, h2⟩ := ih {} es0 (hempty _) hnone ho
      obtain ⟨c1, c2⟩ := hcodes a ha
      refine ⟨c1.append h1, fun hst => ?_⟩
      rw [strip_append, strip_append, c2, List.nil_append, List.nil_append]
      exact h2 hst.right
  | @re e u es1 l' r' hv hm h ih =>
    intro a es0 he ha ho
    have : markTok (N := N) A a = [] := by
      unfold markTok at he ⊢
      split at he
      · next h0 => rw [if_pos h0]
      · cases he
    rw [this, List.nil_append] at he
    subst he
    obtain ⟨h1, h2⟩ := ih {} es1 (hempty _) hnone fun k hk => ho k (List.mem_cons_of_mem _ hk)
    have o : ∀ c ∈ u, -(f.tags.length : Int) ≤ c := ho (.re e.print) (by simp) e hv rfl u hm
    refine ⟨Mixed.append (fun c hc => .inl (o c hc)) h1, fun hst => ?_⟩
    rw [strip_append, strip_append, strip_own o]
    exact .re hv hm (h2 hst.right)
  | @par n ents es' l r es1 l' r' hp hu h1 h2 ih1 ih2 =>
    intro a es0 he ha ho
    have : markTok (N := N) A a = [] := by
      unfold markTok at he ⊢
      split at he
      · next h0 => rw [if_pos h0]
      · cases he
    rw [this, List.nil_append] at he
    subst he
    obtain ⟨ents', hp', rfl⟩ := mem_trPars.1 hp
    obtain ⟨e, he, hi, es2, hc, rfl⟩ := uses_tr.1 hu
    have hent : Entry f e := .inl ⟨n, ents', hp', he⟩
    obtain ⟨g1, g2⟩ := ih1 e.attrs es2 rfl (fun m hm => ⟨e, hent, hi, hm⟩) (hf.own e hent es2 hc)
    obtain ⟨g3, g4⟩ := ih2 {} es1 (hempty _) hnone fun k hk => ho k (List.mem_cons_of_mem _ hk)
    refine ⟨g1.append g3, fun hst => ?_⟩
    rw [strip_append, strip_append]
    obtain ⟨u', v', rfl, -, -⟩ := gives_marks.1 h1
    exact .par hp' ⟨e, he, visible_of_stays hs hk hf hent hi hst.left.left, hc⟩ (g2 hst.left) (g4 hst.right)

/-- From the file to the file with marks. -/
theorem gives_marked (hs : Same s ch) (hk : Knows f A) (hf : Fit s ch f) {es : List (Token N)} {l r : List Int} (h : Gives s f es l r) (ho : ∀ k ∈ es, Own f k) :
    ∃ u v, Gives {} (trFile A f) es u v ∧ strip f u = l ∧ strip f v = r ∧ Stays A ch u := by
  induction h with
  | nil => exact ⟨[], [], .nil, rfl, rfl, fun c hc => by cases hc⟩
  | @text l r es1 l' r' h ih =>
    obtain ⟨u, v, h1, rfl, rfl, h4⟩ := ih fun k hk => ho k (List.mem_cons_of_mem _ hk)
    obtain ⟨o1, o2⟩ := ho (.text l r) (by simp)
    refine ⟨l ++ u, r ++ v, .text h1, by rw [strip_append, strip_own o1], by rw [strip_append, strip_own o2], (stays_own hk hf o1).append h4⟩
  | @re e w es1 l' r' hv hm h ih =>
    obtain ⟨u, v, h1, rfl, rfl, h4⟩ := ih fun k hk => ho k (List.mem_cons_of_mem _ hk)
    have o : ∀ c ∈ w, -(f.tags.length : Int) ≤ c := ho (.re e.print) (by simp) e hv rfl w hm
    exact ⟨w ++ u, w ++ v, .re hv hm h1, by rw [strip_append, strip_own o], by rw [strip_append, strip_own o], (stays_own hk hf o).append h4⟩
  | @par n ents es' l r es1 l' r' hp hu h1 h2 ih1 ih2 =>
    obtain ⟨e, he, hv, hc⟩ := hu
    have hent : Entry f e := .inl ⟨n, ents, hp, he⟩
    obtain ⟨u1, v1, g1, rfl, rfl, g4⟩ := ih1 (hf.own e hent es' hc)
    obtain ⟨u2, v2, k1, rfl, rfl, k4⟩ := ih2 fun k hk => ho k (List.mem_cons_of_mem _ hk)
    have hz := strip_codes hk hf hent hv.ignore
    refine ⟨codes A e.attrs ++ u1 ++ u2, codes A e.attrs ++ v1 ++ v2, .par (mem_trPars.2 ⟨ents, hp, rfl⟩) (uses_tr.2 ⟨e, he, hv.ignore, es', hc, rfl⟩)
      (gives_marks.2 ⟨u1, v1, rfl, rfl, g1⟩) k1, ?_, ?_, ((stays_of_visible hs hk hf hent hv).append g4).append k4⟩
    · rw [strip_append, strip_append, hz]; rfl
    · rw [strip_append, strip_append, hz]; rfl

/-- The pairs of sections. -/
theorem secGives_iff (hs : Same s ch) (hk : Knows f A) (hf : Fit s ch f) (k : UString) (l r : List Int) :
    SecGives s f k l r ↔ ∃ u v, SecGives {} (trFile A f) k u v ∧ Mixed f A u ∧ Stays A ch u ∧ strip f u = l ∧ strip f v = r := by
  constructor
  · rintro ⟨ents, hm, es, ⟨e, he, hv, hc⟩, h⟩
    have hent : Entry f e := .inr ⟨k, ents, hm, he⟩
    obtain ⟨u, v, h1, rfl, rfl, h4⟩ := gives_marked hs hk hf h (hf.own e hent es hc)
    have hz := strip_codes hk hf hent hv.ignore
    have hg := gives_marks (A := A) (a := e.attrs) (es := es) |>.2 ⟨u, v, rfl, rfl, h1⟩
    refine ⟨codes A e.attrs ++ u, codes A e.attrs ++ v, ⟨_, mem_trSecs.2 ⟨ents, hm, rfl⟩, _, uses_tr.2 ⟨e, he, hv.ignore, es, hc, rfl⟩, hg⟩,
      (gives_strip hs hk hf hg e.attrs es rfl (fun m hm => ⟨e, hent, hv.ignore, hm⟩) (hf.own e hent es hc)).1,
      (stays_of_visible hs hk hf hent hv).append h4, by rw [strip_append, hz]; rfl, by rw [strip_append, hz]; rfl⟩
  · rintro ⟨u, v, ⟨ents, hm, es, hu, h⟩, -, hst, rfl, rfl⟩
    obtain ⟨ents', hm', rfl⟩ := mem_trSecs.1 hm
    obtain ⟨e, he, hi, es', hc, rfl⟩ := uses_tr.1 hu
    have hent : Entry f e := .inr ⟨k, ents', hm', he⟩
    obtain ⟨u', v', rfl, -, -⟩ := gives_marks.1 h
    have hv := visible_of_stays hs hk hf hent hi hst.left
    exact ⟨ents', hm', es', ⟨e, he, hv, hc⟩, (gives_strip hs hk hf h e.attrs es' rfl (fun m hm => ⟨e, hent, hi, hm⟩) (hf.own e hent es' hc)).2 hst⟩

/-- All pairs of the file with marks consist of marks and own symbols. -/
theorem secGives_mixed (hs : Same s ch) (hk : Knows f A) (hf : Fit s ch f) {k : UString} {u v : List Int} (h : SecGives {} (trFile A f) k u v) : Mixed f A u := by
  obtain ⟨ents, hm, es, hu, h⟩ := h
  obtain ⟨ents', hm', rfl⟩ := mem_trSecs.1 hm
  obtain ⟨e, he, hi, es', hc, rfl⟩ := uses_tr.1 hu
  have hent : Entry f e := .inr ⟨k, ents', hm', he⟩
  exact (gives_strip hs hk hf h e.attrs es' rfl (fun m hm => ⟨e, hent, hi, hm⟩) (hf.own e hent es' hc)).1

/-! ## The file with marks is regular -/

theorem mem_barePars {n : N} {ents : List (CEntry N W)} : (n, ents) ∈ (bareFile f).pars ↔ ∃ ents', (n, ents') ∈ f.pars ∧ ents = ents'.map bare := by
  show (n, ents) ∈ (f.pars.map fun p => (p.1, p.2.map bare)) ↔ _
  simp only [List.mem_map, Prod.mk.injEq, Prod.exists]
  constructor
  · rintro ⟨a, b, h, rfl, rfl⟩; exact ⟨b, h, rfl⟩
  · rintro ⟨b, h, rfl⟩; exact ⟨n, b, h, rfl, rfl⟩

theorem uses_bare {ents : List (CEntry N W)} {es : List (Token N)} :
    Uses {} (ents.map bare) es ↔ ∃ e ∈ ents, e.attrs.ignore ≠ Expander.YES ∧ e.content = some es := by
  unfold Uses
  simp only [List.mem_map]
  constructor
  · rintro ⟨_, ⟨e, he, rfl⟩, hv, hc⟩
    exact ⟨e, he, hv.ignore, hc⟩
  · rintro ⟨e, he, hi, hc⟩
    exact ⟨_, ⟨e, he, rfl⟩, ⟨.inl rfl, hi, .inl rfl, .inl rfl, fun _ => .inl rfl, fun _ => .inl rfl⟩, hc⟩

theorem gives_bare {es : List (Token N)} {l r : List Int} (h : Gives {} (bareFile f) es l r) : ∃ u v, Gives {} (trFile A f) es u v := by
  induction h with
  | nil => exact ⟨_, _, .nil⟩
  | text h ih => obtain ⟨u, v, h⟩ := ih; exact ⟨_, _, .text h⟩
  | re hv hm h ih => obtain ⟨u, v, h⟩ := ih; exact ⟨_, _, .re hv hm h⟩
  | par hp hu h1 h2 ih1 ih2 =>
    obtain ⟨u1, v1, g1⟩ := ih1
    obtain ⟨u2, v2, g2⟩ := ih2
    obtain ⟨ents', hp', rfl⟩ := mem_barePars.1 hp
    obtain ⟨e, he, hi, hc⟩ := uses_bare.1 hu
    exact ⟨_, _, .par (mem_trPars.2 ⟨ents', hp', rfl⟩) (uses_tr.2 ⟨e, he, hi, _, hc, rfl⟩) (gives_marks.2 ⟨u1, v1, rfl, rfl, g1⟩) g2⟩

theorem regular_tr (hk : Knows f A) (hf : Fit s ch f) {closed : N → Bool} (h : Regular {} (bareFile f) closed) : Regular {} (trFile A f) closed := by
  have htok : ∀ (a : Attrs) (es : List (Token N)) m, .par m ∈ markTok A a ++ es → .par m ∈ es := by
    intro a es m hm
    unfold markTok at hm
    split at hm
    · exact hm
    · simpa using hm
  have hfit : ∀ e, Entry f e → e.attrs.ignore ≠ Expander.YES → ∀ es, Fits closed .any es → Fits closed .any (markTok A e.attrs ++ es) := by
    intro e he hi es h
    unfold markTok
    split
    · exact h
    · have h0 : 0 ∉ codes A e.attrs := by
        intro h0
        obtain ⟨m, hm, e0⟩ := List.mem_map.1 h0
        have := (mark_code hk hf he hi hm).2
        omega
      exact ⟨h0, h0, trivial, h⟩
  refine ⟨rfl, ?_, ?_, ?_, ?_, ?_, ?_, ?_⟩
  · have := h.names
    show ((f.pars.map fun p => (p.1, p.2.map (tr A))).map (·.1)).Nodup
    have e : ((bareFile f).pars.map (·.1)) = ((f.pars.map fun p => (p.1, p.2.map (tr A))).map (·.1)) := by
      show ((f.pars.map fun p => (p.1, p.2.map bare)).map (·.1)) = _
      rw [List.map_map, List.map_map]; rfl
    rw [← e]; exact this
  · intro ps n ents qs hps es hu m hm
    have hps' : (f.pars.map fun p => (p.1, p.2.map (tr A))) = ps ++ (n, ents) :: qs := hps
    obtain ⟨ps', rest, e1, rfl, e2⟩ := List.map_eq_append_iff.1 hps'
    obtain ⟨⟨n', ents'⟩, qs', rfl, e3, rfl⟩ := List.map_eq_cons_iff.1 e2
    cases e3
    obtain ⟨e, he, hi, es', hc, rfl⟩ := uses_tr.1 hu
    have := h.order (ps'.map fun p => (p.1, p.2.map bare)) n' (ents'.map bare) (qs'.map fun p => (p.1, p.2.map bare)) (by
      show (f.pars.map fun p => (p.1, p.2.map bare)) = _
      rw [e1]; simp) es' (uses_bare.2 ⟨e, he, hi, hc⟩) m (htok _ _ _ hm)
    rw [List.map_map] at this ⊢
    exact this
  · intro k ents hm es hu m hm'
    obtain ⟨ents', hin, rfl⟩ := mem_trSecs.1 hm
    obtain ⟨e, he, hi, es', hc, rfl⟩ := uses_tr.1 hu
    have := h.refs k (ents'.map bare) (List.mem_map.2 ⟨(k, ents'), hin, rfl⟩) es' (uses_bare.2 ⟨e, he, hi, hc⟩) m (htok _ _ _ hm')
    have e1 : (bareFile f).pars.map (·.1) = f.pars.map (·.1) := by
      show ((f.pars.map fun p => (p.1, p.2.map bare)).map (·.1)) = _
      rw [List.map_map]; rfl
    have e2 : (trFile A f).pars.map (·.1) = f.pars.map (·.1) := by
      show ((f.pars.map fun p => (p.1, p.2.map (tr A))).map (·.1)) = _
      rw [List.map_map]; rfl
    rw [e1] at this
    rw [e2]; exact this
  · intro n ents hm es hu
    obtain ⟨ents', hin, rfl⟩ := mem_trPars.1 hm
    obtain ⟨e, he, hi, es', hc, rfl⟩ := uses_tr.1 hu
    exact hfit e (.inl ⟨n, ents', hin, he⟩) hi es' (h.parFits n _ (mem_barePars.2 ⟨ents', hin, rfl⟩) es' (uses_bare.2 ⟨e, he, hi, hc⟩))
  · intro k ents hm es hu
    obtain ⟨ents', hin, rfl⟩ := mem_trSecs.1 hm
    obtain ⟨e, he, hi, es', hc, rfl⟩ := uses_tr.1 hu
    exact hfit e (.inr ⟨k, ents', hin, he⟩) hi es' (h.secFits k (ents'.map bare) (List.mem_map.2 ⟨(k, ents'), hin, rfl⟩) es' (uses_bare.2 ⟨e, he, hi, hc⟩))
  · intro n ents hm hcl es hu
    obtain ⟨ents', hin, rfl⟩ := mem_trPars.1 hm
    obtain ⟨e, he, hi, es', hc, rfl⟩ := uses_tr.1 hu
    have := h.parClosed n _ (mem_barePars.2 ⟨ents', hin, rfl⟩) hcl es' (uses_bare.2 ⟨e, he, hi, hc⟩)
    intro k hk
    rcases List.mem_append.1 hk with hk | hk
    · unfold markTok at hk
      split at hk
      · cases hk
      · rw [List.mem_singleton] at hk
        subst hk
        trivial
    · exact this k hk
  · intro ps n ents hps
    have hps' : (f.pars.map fun p => (p.1, p.2.map (tr A))) = ps ++ [(n, ents)] := hps
    obtain ⟨ps', rest, e1, rfl, e2⟩ := List.map_eq_append_iff.1 hps'
    obtain ⟨⟨n', ents'⟩, qs', rfl, e3, e4⟩ := List.map_eq_cons_iff.1 e2
    cases e3
    obtain rfl := List.map_eq_nil_iff.1 e4
    obtain ⟨l, r, hg⟩ := h.last (ps'.map fun p => (p.1, p.2.map bare)) n' (ents'.map bare) (by
      show (f.pars.map fun p => (p.1, p.2.map bare)) = _
      rw [e1]; simp)
    exact gives_bare hg

end Verif.Unified
