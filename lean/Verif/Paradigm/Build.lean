import Verif.Paradigm.Model
import Verif.Paradigm.Spec
import Verif.Trim.Whole

/-! # The transducer of a pattern -/

namespace Verif.Paradigm

open Verif.Fst Verif.Alphabet Verif.Compiler
open Verif.Tools (Sane Symbol)

variable {W : Type}

/-- The transducer reads `x` on its way from `q` to `p`. -/
def Rd (a : Alphabet) (t : Transducer W) (q : Nat) (x : List Int) (p : Nat) : Prop :=
  ∃ ls, Path (PairEdge a t) q ls p ∧ x = (ls.map (·.1.1)).filter (· ≠ 0)

/-- A state was added behind `p`: arcs lead from `p` to it for the symbols `A`, and from it to itself for the symbols `B`. -/
structure Added [Zero W] (a : Alphabet) (t : Transducer W) (p : Nat) (s : Build W) (A B : Int → Prop) : Prop where
  sane : Sane s.a
  ext : Ext a s.a
  tags : s.a.slexicinv = a.slexicinv
  wf : WF s.t
  size : Fst.size s.t = Fst.size t + 1
  initial : s.t.initial = t.initial
  finals : s.t.finals = t.finals
  q : s.q = Fst.size t
  known : ∀ q l r, Edge s.t q l r → KA s.a l.1
  edge : ∀ q l r, PairEdge s.a s.t q l r ↔ PairEdge a t q l r ∨
    (r = Fst.size t ∧ l.2 = 0 ∧ ((q = p ∧ ∃ c, A c ∧ l.1 = (c, c)) ∨ (q = Fst.size t ∧ ∃ c, B c ∧ l.1 = (c, c))))

theorem pairCode_sane {a : Alphabet} (h : Sane a) {c : Int} (hc : Symbol a c) : Sane (a.pairCode c c).2 := by
  obtain ⟨h1, h2, -, h4, -, h6⟩ := pairCode_spec h.ok c c
  refine ⟨h1, by rw [h4]; exact h.tags, ?_⟩
  intro p hp
  rw [h6] at hp
  split at hp
  · exact ⟨(h.symbols p hp).1.mono h2, (h.symbols p hp).2.mono h2⟩
  · rcases List.mem_append.1 hp with hp | hp
    · exact ⟨(h.symbols p hp).1.mono h2, (h.symbols p hp).2.mono h2⟩
    · rw [List.mem_singleton.1 hp]; exact ⟨hc.mono h2, hc.mono h2⟩

section
variable [Zero W] {a : Alphabet} {t : Transducer W} {p : Nat}

/-- One arc more, to the state `size t`, by `addArc` or by nothing. -/
theorem pairEdge_arc {a a' : Alphabet} {t t' : Transducer W} (he : Ext a a') (hk : ∀ q l r, Edge t q l r → KA a l.1) {c : Int} {code : Int}
    (hc : HasPair a' code (c, c)) {src trg : Nat} (hE : ∀ q l r, Edge t' q l r ↔ Edge t q l r ∨ (q = src ∧ l = (code, 0) ∧ r = trg)) :
    (∀ q l r, Edge t' q l r → KA a' l.1) ∧
    ∀ q l r, PairEdge a' t' q l r ↔ PairEdge a t q l r ∨ (q = src ∧ l = ((c, c), 0) ∧ r = trg) := by
  constructor
  · intro q l r h
    rcases (hE _ _ _).1 h with h | ⟨-, rfl, -⟩
    · obtain ⟨pr, hp⟩ := hk _ _ _ h
      exact ⟨pr, hp.mono he⟩
    · exact ⟨_, hc⟩
  · intro q l r
    constructor
    · rintro ⟨d, h1, h2⟩
      rcases (hE _ _ _).1 h2 with h | ⟨h3, h4, h5⟩
      · exact .inl ((Trim.pairEdge_ext he hk).1 ⟨d, h1, h⟩)
      · obtain ⟨h6, h7⟩ := Prod.mk.inj h4
        subst h6
        have := (decode_iff.1 h1).pair_unique hc
        exact .inr ⟨h3, Prod.ext this h7, h5⟩
    · rintro (h | ⟨rfl, rfl, rfl⟩)
      · obtain ⟨d, h1, h2⟩ := (Trim.pairEdge_ext he hk).2 h
        exact ⟨d, h1, (hE _ _ _).2 (.inl h2)⟩
      · exact ⟨code, decode_iff.2 hc, (hE _ _ _).2 (.inr ⟨rfl, rfl, rfl⟩)⟩

/-- `insertNewSingleTransduction` with a known code. -/
theorem added_new (hs : Sane a) {a' : Alphabet} (hs' : Sane a') (he : Ext a a') (ht : a'.slexicinv = a.slexicinv) (hw : WF t) (hp : p < Fst.size t)
    (hk : ∀ q l r, Edge t q l r → KA a l.1) {c code : Int} (hc : HasPair a' code (c, c)) :
    Added a t p { a := a', t := (insertNewSingleTransduction code p 0 t).2, q := (insertNewSingleTransduction code p 0 t).1 } (· = c) (fun _ => False) := by
  have hn := newState_wf hw
  have hsz := newState_size hw
  have hf := newState_fst hw
  have hlt : (newState t).1 < Fst.size (newState t).2 := by rw [hf, hsz]; omega
  have hp' : p < Fst.size (newState t).2 := by omega
  have hE : ∀ q l r, Edge (insertNewSingleTransduction code p 0 t).2 q l r ↔ Edge t q l r ∨ (q = p ∧ l = (code, 0) ∧ r = Fst.size t) := by
    intro q l r
    show Edge (addArc p code (newState t).1 0 (newState t).2) q l r ↔ _
    rw [addArc_edge hn, newState_edge hw, hf]
  obtain ⟨k1, k2⟩ := pairEdge_arc he hk hc hE
  refine ⟨hs', he, ht, addArc_wf hn hp' code hlt 0, ?_, rfl, rfl, hf, k1, ?_⟩
  · show Fst.size (addArc p code (newState t).1 0 (newState t).2) = _
    rw [addArc_size hn hp', hsz]
  · intro q l r
    rw [k2]
    constructor
    · rintro (h | ⟨h1, h2, h3⟩)
      · exact .inl h
      · exact .inr ⟨h3, by rw [h2], .inl ⟨h1, c, rfl, by rw [h2]⟩⟩
    · rintro (h | ⟨h1, h2, ⟨h3, c', rfl, h4⟩ | ⟨-, c', h4, -⟩⟩)
      · exact .inl h
      · exact .inr ⟨h3, Prod.ext h4 h2, h1⟩
      · exact h4.elim

theorem chain_added (hs : Sane a) (hw : WF t) (hp : p < Fst.size t) (hk : ∀ q l r, Edge t q l r → KA a l.1) {c : Int} (hc : Symbol a c) :
    Added a t p (chain c { a, t, q := p }) (· = c) (fun _ => False) := by
  obtain ⟨-, h2, h3, h4, -⟩ := pairCode_spec hs.ok c c
  exact added_new hs (pairCode_sane hs hc) h2 h4 hw hp hk h3

theorem fresh_added (hs : Sane a) (hw : WF t) (hp : p < Fst.size t) (hk : ∀ q l r, Edge t q l r → KA a l.1) :
    Added a t p { a, t := (insertNewSingleTransduction 0 p 0 t).2, q := (insertNewSingleTransduction 0 p 0 t).1 } (· = 0) (fun _ => False) :=
  added_new hs hs (Ext.refl a) rfl hw hp hk ⟨0, hs.ok.zero, rfl⟩

/-- One more arc to the new state. -/
theorem Added.link {s : Build W} {A B : Int → Prop} (h : Added a t p s A B) (hw : WF t) (hp : p < Fst.size t) {c : Int} (hc : Symbol a c) (loop : Bool) :
    ∃ s', Paradigm.link (if loop then Fst.size t else p) (Fst.size t) c s = .ok s' ∧
      Added a t p s' (fun d => A d ∨ (loop = false ∧ d = c)) (fun d => B d ∨ (loop = true ∧ d = c)) := by
  obtain ⟨-, h2, h3, h4, -⟩ := pairCode_spec h.sane.ok c c
  have hs := pairCode_sane h.sane (hc.mono h.ext)
  generalize hsrc : (if loop then Fst.size t else p) = src
  have hl : src < Fst.size s.t := by rw [← hsrc, h.size]; split <;> omega
  have hr : Fst.size t < Fst.size s.t := by rw [h.size]; omega
  have hle := linkStates_eq h.wf hl hr (s.a.pairCode c c).1 (0 : W)
  obtain ⟨t', e1, e2, e3, e4, e5, e6⟩ : ∃ t', linkStates src (Fst.size t) (s.a.pairCode c c).1 0 s.t = .ok t' ∧ WF t' ∧ Fst.size t' = Fst.size s.t ∧
      t'.initial = s.t.initial ∧ t'.finals = s.t.finals ∧
      ((∀ q l r, Edge t' q l r ↔ Edge s.t q l r ∨ (q = src ∧ l = ((s.a.pairCode c c).1, 0) ∧ r = Fst.size t))) := by
    refine ⟨_, hle, ?_⟩
    split
    · next hany =>
      refine ⟨h.wf, rfl, rfl, rfl, ?_⟩
      intro q l r
      constructor
      · exact .inl
      · rintro (g | ⟨rfl, rfl, rfl⟩)
        · exact g
        · obtain ⟨w, hw'⟩ := (any_target _ _ _).1 hany
          have hedge : Edge s.t q ((s.a.pairCode c c).1, w) (Fst.size t) := hw'
          -- the arc weighs nothing
          have hkk := h.known _ _ _ hedge
          obtain ⟨pr, hpr⟩ := hkk
          rcases (h.edge _ (pr, w) _).1 ⟨_, decode_iff.2 hpr, hedge⟩ with ⟨d, -, g⟩ | ⟨-, g, -⟩
          · exact absurd (hw.target_lt _ _ _ g) (by omega)
          · simp only at g
            rw [← g]; exact hedge
    · exact ⟨addArc_wf h.wf hl _ hr 0, addArc_size h.wf hl _ _ _, rfl, rfl, fun q l r => addArc_edge h.wf _ _ _ _ _ _ _⟩
  refine ⟨{ s with a := (s.a.pairCode c c).2, t := t' }, ?_, ?_⟩
  · unfold Paradigm.link
    simp only
    rw [e1]; rfl
  · obtain ⟨k1, k2⟩ := pairEdge_arc h2 h.known h3 e6
    refine ⟨hs, h.ext.trans h2, h4.trans h.tags, e2, e3.trans h.size, e4.trans h.initial, e5.trans h.finals, h.q, k1, ?_⟩
    intro q l r
    show PairEdge (s.a.pairCode c c).2 t' q l r ↔ _
    rw [k2, h.edge]
    constructor
    · rintro ((g | ⟨g1, g2, ⟨g3, d, g4, g5⟩ | ⟨g3, d, g4, g5⟩⟩) | ⟨g1, g2, g3⟩)
      · exact .inl g
      · exact .inr ⟨g1, g2, .inl ⟨g3, d, .inl g4, g5⟩⟩
      · exact .inr ⟨g1, g2, .inr ⟨g3, d, .inl g4, g5⟩⟩
      · cases loop with
        | true => exact .inr ⟨g3, by rw [g2], .inr ⟨by rw [g1, ← hsrc]; rfl, c, .inr ⟨rfl, rfl⟩, by rw [g2]⟩⟩
        | false => exact .inr ⟨g3, by rw [g2], .inl ⟨by rw [g1, ← hsrc]; rfl, c, .inr ⟨rfl, rfl⟩, by rw [g2]⟩⟩
    · rintro (g | ⟨g1, g2, ⟨g3, d, g4 | ⟨g4, rfl⟩, g5⟩ | ⟨g3, d, g4 | ⟨g4, rfl⟩, g5⟩⟩)
      · exact .inl (.inl g)
      · exact .inl (.inr ⟨g1, g2, .inl ⟨g3, d, g4, g5⟩⟩)
      · subst g4
        exact .inr ⟨by rw [g3, ← hsrc]; rfl, Prod.ext g5 g2, g1⟩
      · exact .inl (.inr ⟨g1, g2, .inr ⟨g3, d, g4, g5⟩⟩)
      · subst g4
        exact .inr ⟨by rw [g3, ← hsrc]; rfl, Prod.ext g5 g2, g1⟩

theorem Added.congr {s : Build W} {A B A' B' : Int → Prop} (h : Added a t p s A B) (hA : ∀ c, A c ↔ A' c) (hB : ∀ c, B c ↔ B' c) : Added a t p s A' B' := by
  have e1 : A = A' := funext fun c => propext (hA c)
  have e2 : B = B' := funext fun c => propext (hB c)
  subst e1 e2; exact h

theorem Added.loops {A B : Int → Prop} (hw : WF t) (hp : p < Fst.size t) (cs : List Int) (hc : ∀ c ∈ cs, Symbol a c) {s : Build W} (h : Added a t p s A B) :
    ∃ s', links (Fst.size t) (Fst.size t) cs s = .ok s' ∧ Added a t p s' A (fun d => B d ∨ d ∈ cs) := by
  induction cs generalizing s B with
  | nil => exact ⟨s, rfl, h.congr (fun _ => Iff.rfl) (by simp)⟩
  | cons c cs ih =>
    obtain ⟨s1, h1, h2⟩ := h.link hw hp (hc c (by simp)) true
    have h2' := h2.congr (A' := A) (B' := fun d => B d ∨ d = c) (by simp) (by simp)
    obtain ⟨s', h3, h4⟩ := ih (fun c hc' => hc c (by simp [hc'])) h2'
    refine ⟨s', ?_, h4.congr (by simp) (by simp [or_assoc])⟩
    simp only [if_true] at h1
    unfold links
    rw [h1]; exact h3

theorem Added.oneOf {A B : Int → Prop} (hw : WF t) (hp : p < Fst.size t) (cs : List Int) (hc : ∀ c ∈ cs, Symbol a c) {s : Build W} (h : Added a t p s A B) :
    ∃ s', Paradigm.oneOf p cs s = .ok s' ∧ Added a t p s' (fun d => A d ∨ d ∈ cs) B := by
  induction cs generalizing s A with
  | nil => exact ⟨s, rfl, h.congr (by simp) (fun _ => Iff.rfl)⟩
  | cons c cs ih =>
    obtain ⟨s1, h1, h2⟩ := h.link hw hp (hc c (by simp)) false
    have h2' := h2.congr (A' := fun d => A d ∨ d = c) (B' := B) (by simp) (by simp)
    obtain ⟨s', h3, h4⟩ := ih (fun c hc' => hc c (by simp [hc'])) h2'
    refine ⟨s', ?_, h4.congr (by simp [or_assoc]) (by simp)⟩
    simp only [Bool.false_eq_true, if_false] at h1
    unfold Paradigm.oneOf
    rw [if_neg (by rw [h.q]; omega), h.q, h1]; exact h3

theorem loops_added (hs : Sane a) (hw : WF t) (hp : p < Fst.size t) (hk : ∀ q l r, Edge t q l r → KA a l.1) (cs : List Int) (hc : ∀ c ∈ cs, Symbol a c) :
    ∃ s, Paradigm.loops cs { a, t, q := p } = .ok s ∧ Added a t p s (· = 0) (· ∈ cs) := by
  have h := fresh_added hs hw hp hk
  obtain ⟨s', h1, h2⟩ := h.loops hw hp cs hc
  refine ⟨s', ?_, h2.congr (fun _ => Iff.rfl) (by simp)⟩
  unfold Paradigm.loops
  have := h.q
  simp only at this
  rw [← this] at h1
  exact h1

theorem oneOf_added (hs : Sane a) (hw : WF t) (hp : p < Fst.size t) (hk : ∀ q l r, Edge t q l r → KA a l.1) (cs : List Int) (hne : cs ≠ []) (hc : ∀ c ∈ cs, Symbol a c) :
    ∃ s, Paradigm.oneOf p cs { a, t, q := p } = .ok s ∧ Added a t p s (· ∈ cs) (fun _ => False) := by
  cases cs with
  | nil => exact absurd rfl hne
  | cons c cs =>
    have h := chain_added hs hw hp hk (hc c (by simp))
    obtain ⟨s', h1, h2⟩ := h.oneOf hw hp cs (fun c hc' => hc c (by simp [hc']))
    refine ⟨s', ?_, h2.congr (by simp) (fun _ => Iff.rfl)⟩
    unfold Paradigm.oneOf
    rw [if_pos rfl]; exact h1

/-! ## What is read -/

/-- The new state reads what `p` reads, then a symbol of `A`, then symbols of `B`. -/
theorem Added.reads {s : Build W} {A B : Int → Prop} (h : Added a t p s A B) (hw : WF t) (hp : p < Fst.size t) (x : List Int) :
    Rd s.a s.t s.t.initial x s.q ↔
      ∃ (x1 : List Int) (c : Int) (x2 : List Int), Rd a t t.initial x1 p ∧ A c ∧ (∀ d ∈ x2, B d) ∧ x = x1 ++ [c].filter (· ≠ 0) ++ x2.filter (· ≠ 0) := by
  have lt : ∀ {q l r}, PairEdge a t q l r → q < Fst.size t ∧ r < Fst.size t := by
    rintro q l r ⟨c, -, he⟩
    exact ⟨hw.source_lt he, hw.target_lt _ _ _ he⟩
  have key : ∀ {q r : Nat} {ls : List (Pair × W)}, Path (PairEdge s.a s.t) q ls r → r = Fst.size t →
      (q = Fst.size t → ∃ x2 : List Int, (∀ d ∈ x2, B d) ∧ ls.map (·.1.1) = x2) ∧
      (q < Fst.size t → ∃ (ls1 : List (Pair × W)) (c : Int) (x2 : List Int), Path (PairEdge a t) q ls1 p ∧ A c ∧ (∀ d ∈ x2, B d) ∧ ls.map (·.1.1) = ls1.map (·.1.1) ++ c :: x2) := by
    intro q r ls hpath hr
    induction hpath with
    | nil q => exact ⟨fun _ => ⟨[], by simp, rfl⟩, fun hq => absurd hr (by omega)⟩
    | @cons q q1 r l ls he _ ih =>
      obtain ⟨ih1, ih2⟩ := ih hr
      rcases (h.edge _ _ _).1 he with g | ⟨g1, g2, ⟨g3, c, g4, g5⟩ | ⟨g3, c, g4, g5⟩⟩
      · obtain ⟨l1, l2⟩ := lt g
        refine ⟨fun hq => absurd hq (by omega), fun hq => ?_⟩
        obtain ⟨ls1, c, x2, k1, k2, k3, k4⟩ := ih2 l2
        exact ⟨l :: ls1, c, x2, .cons g k1, k2, k3, by simp [k4]⟩
      · obtain ⟨x2, k1, k2⟩ := ih1 g1
        refine ⟨fun hq => absurd hq (by omega), fun hq => ?_⟩
        subst g3
        exact ⟨[], c, x2, .nil _, g4, k1, by simp [k2, g5]⟩
      · obtain ⟨x2, k1, k2⟩ := ih1 g1
        refine ⟨fun _ => ⟨c :: x2, ?_, by simp [k2, g5]⟩, fun hq => absurd g3 (by omega)⟩
        intro d hd
        rcases List.mem_cons.1 hd with rfl | hd
        · exact g4
        · exact k1 d hd
  constructor
  · rintro ⟨ls, h1, rfl⟩
    obtain ⟨-, k⟩ := key h1 h.q
    obtain ⟨ls1, c, x2, k1, k2, k3, k4⟩ := k (by rw [h.initial]; exact hw.initial_lt)
    rw [h.initial] at k1
    refine ⟨_, c, x2, ⟨ls1, k1, rfl⟩, k2, k3, ?_⟩
    rw [k4]
    simp only [List.filter_append, List.append_assoc, ← List.filter_append]
    rfl
  · rintro ⟨x1, c, x2, ⟨ls1, k1, rfl⟩, k2, k3, rfl⟩
    have p1 : Path (PairEdge s.a s.t) s.t.initial ls1 p := by
      rw [h.initial]
      exact Path.mono (fun q l r g => (h.edge q l r).2 (.inl g)) k1
    have p2 : PairEdge s.a s.t p ((c, c), 0) (Fst.size t) := (h.edge _ _ _).2 (.inr ⟨rfl, rfl, .inl ⟨rfl, c, k2, rfl⟩⟩)
    have p3 : Path (PairEdge s.a s.t) (Fst.size t) (x2.map fun d => (((d, d), 0) : Pair × W)) (Fst.size t) := by
      clear p1 p2
      induction x2 with
      | nil => exact .nil _
      | cons d x2 ih =>
        exact .cons ((h.edge _ _ _).2 (.inr ⟨rfl, rfl, .inr ⟨rfl, d, k3 d (by simp), rfl⟩⟩)) (ih fun d hd => k3 d (by simp [hd]))
    refine ⟨ls1 ++ ((c, c), 0) :: (x2.map fun d => (((d, d), 0) : Pair × W)), ?_, ?_⟩
    · rw [h.q]; exact p1.append (.cons p2 p3)
    · simp only [List.map_append, List.map_cons, List.map_map, List.filter_append, List.filter_cons, List.append_assoc]
      have : (x2.map ((fun l : Pair × W => l.1.1) ∘ fun d => (((d, d), 0) : Pair × W))) = x2 := by simp [Function.comp_def]
      rw [this]
      by_cases hc0 : c = 0 <;> simp [hc0]

/-- From every state the new state can be reached. -/
theorem Added.live {s : Build W} {A B : Int → Prop} (h : Added a t p s A B) (hA : ∃ c, A c)
    (hl : ∀ q < Fst.size t, ∃ ls, Path (PairEdge a t) q ls p) : ∀ q < Fst.size s.t, ∃ ls, Path (PairEdge s.a s.t) q ls s.q := by
  intro q hq
  rw [h.size] at hq
  rw [h.q]
  by_cases hqt : q < Fst.size t
  · obtain ⟨ls, k⟩ := hl q hqt
    obtain ⟨c, hc⟩ := hA
    exact ⟨_, (Path.mono (fun q l r g => (h.edge q l r).2 (.inl g)) k).append
      (Path.single ((h.edge _ ((c, c), 0) _).2 (.inr ⟨rfl, rfl, .inl ⟨rfl, c, hc, rfl⟩⟩)))⟩
  · have : q = Fst.size t := by omega
    exact ⟨[], this ▸ .nil _⟩

end

end Verif.Paradigm
