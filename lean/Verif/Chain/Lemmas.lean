import Verif.Chain.Lexicon
import Verif.Compiler.Props
import Verif.Load.Props

/-! # From the dictionary to the loaded graph -/

namespace Verif.Chain

open Verif.Fst Verif.Alphabet Verif.Compiler
open Verif.State (Arc inputs written)
open Verif.Compression (Dbl cut30)
open Verif.Load (HasKind Kind finalsOf)

set_option linter.unusedSectionVars false

variable {N V W : Type}

/-! ## Tags -/

theorem tag_inj {a b : UString} (h : 0x3c :: a ++ [0x3e] = 0x3c :: b ++ [0x3e]) : a = b := by
  simpa using h

theorem foldl_tags (ns : List UString) : ∀ (a : Alphabet) (pre : List UString), Ok a → a.slexicinv = pre.map (fun n => 0x3c :: n ++ [0x3e]) → (pre ++ ns).Nodup →
    (ns.foldl (fun a n => a.includeSymbol (0x3c :: n ++ [0x3e])) a).slexicinv = (pre ++ ns).map fun n => 0x3c :: n ++ [0x3e] := by
  induction ns with
  | nil => intro a pre _ h _; simpa using h
  | cons n ns ih =>
    intro a pre ha h hn
    obtain ⟨h1, -, -, -, h2⟩ := includeSymbol_spec ha (0x3c :: n ++ [0x3e])
    have hnot : (0x3c :: n ++ [0x3e]) ∉ a.slexicinv := by
      rw [h]
      intro hm
      obtain ⟨m, hm', e⟩ := List.mem_map.1 hm
      have := tag_inj e
      subst this
      rw [List.nodup_append] at hn
      exact hn.2.2 m hm' m (by simp) rfl
    rw [if_neg hnot, h] at h2
    have := ih _ (pre ++ [n]) h1 (by rw [h2]; simp) (by simpa using hn)
    rw [List.foldl_cons, this]
    simp

/-- The tags of the dictionary have the numbers −1, −2, ... -/
theorem tagText_of {f : File N V} (hn : f.tags.Nodup) {A : Alphabet} (he : Ext (tagsOf f) A) {c : Int} (h0 : c < 0) (h1 : -(f.tags.length : Int) ≤ c) :
    A.tagText c = .ok (tagName f c) := by
  have hi : (-c - 1).toNat < f.tags.length := by omega
  rw [tagText_iff h0]
  refine HasTag.mono he ?_
  refine ⟨(-c - 1).toNat, ?_, by unfold tagNo; omega⟩
  have := foldl_tags f.tags Alphabet.empty [] ok_empty rfl (by simpa using hn)
  unfold Compiler.tagsOf
  rw [this]
  unfold tagName
  rw [List.nil_append, List.getElem?_map, List.getElem?_eq_getElem hi]
  rfl

/-! ## Sections -/

section
variable [LinearOrder N] [AddMonoid V] [LinearOrder V]
variable {s : Settings} {f : File N V} {closed : N → Bool} {A : Alphabet} {secs : List (UString × Transducer V)}

/-- What is known about the sections of a dictionary. -/
structure Compiled (s : Settings) (f : File N V) (A : Alphabet) (secs : List (UString × Transducer V)) : Prop where
  ok : Ok A
  tags : Ext (tagsOf f) A
  sorted : SortedKeys secs
  names : ∀ k, k ∈ secs.map (·.1) ↔ ∃ x y, SecRel s f k x y
  wf : ∀ e ∈ secs, WF e.2
  det : ∀ e ∈ secs, Deterministic 0 e.2
  useful : ∀ e ∈ secs, ∀ q < Fst.size e.2, (∃ ls, Path (Edge e.2) e.2.initial ls q) ∧ ∃ w, LangFrom 0 e.2 q w
  known : ∀ e ∈ secs, ∀ q l p, Edge e.2 q l p → KA A l.1
  bd : ∀ e ∈ secs, AccBd A e.2 e.2.initial
  rel : ∀ e ∈ secs, ∀ x y, AccRel A e.2 e.2.initial x y ↔ SecRel s f e.1 x y

theorem compiled (hreg : Regular s f closed) (hp : parse s f.nodes = .ok (A, secs)) : Compiled s f A secs := by
  obtain ⟨A', ts, h1, h2, h3, h4, h5, h6⟩ := parse_spec hreg
  rw [hp] at h3
  split at h3
  · cases h3
    exact ⟨h1, h2, h4, h5, fun e he => (h6 _ _ he).1, fun e he => (h6 _ _ he).2.1, fun e he => (h6 _ _ he).2.2.1, fun e he => (h6 _ _ he).2.2.2.1,
      fun e he => (h6 _ _ he).2.2.2.2.1, fun e he => (h6 _ _ he).2.2.2.2.2⟩
  · cases h3

theorem Compiled.says (h : Compiled s f A secs) (k : UString) (x y : List Int) :
    Says s f k x y ↔ ∃ e ∈ secs, e.1 = k ∧ AccRel A e.2 e.2.initial x y := by
  constructor
  · intro hs
    obtain ⟨e, he, rfl⟩ := List.mem_map.1 ((h.names k).2 ⟨x, y, hs⟩)
    exact ⟨e, he, rfl, (h.rel e he x y).2 hs⟩
  · rintro ⟨e, he, rfl, ha⟩
    exact (h.rel e he x y).1 ha

theorem Compiled.fits (h : Compiled s f A secs) {g : V → Dbl} {letters : UString} (hs : Small g letters A secs) : Load.Fits letters A (storedAll g secs) where
  letters := hs.letters
  alphabet := h.ok
  writable := hs.writable
  sections := by
    refine ⟨?_, by unfold storedAll; rw [List.length_map]; exact hs.sections, fun e he => ?_⟩
    · unfold storedAll
      rw [List.pairwise_map]
      exact h.sorted
    · obtain ⟨e, he', rfl⟩ := List.mem_map.1 he
      exact ⟨(hs.range e he').1, wf_stored g (h.wf e he'), (hs.range e he').2⟩
  labels e he q c w p hE := by
    obtain ⟨e, he', rfl⟩ := List.mem_map.1 he
    clear he
    rename' he' => he
    obtain ⟨v, hE, -⟩ := (edge_stored ..).1 hE
    obtain ⟨pr, hpr⟩ := h.known e he _ _ _ hE
    exact ⟨pr, decode_iff.2 hpr⟩

theorem Compiled.noLoop (h : Compiled s f A secs) (g : V → Dbl) : ∀ e ∈ storedAll g secs, Load.NoLoop A (BinIO.cut e.2) := by
  intro e he
  obtain ⟨e, he', rfl⟩ := List.mem_map.1 he
  clear he
  rename' he' => he
  rw [cut_stored]
  exact noLoop_stored h.ok _ (h.wf e he) (h.det e he) (h.known e he) (h.useful e he) (h.bd e he)

/-- What an arc writes is in some pair of the dictionary. -/
theorem Compiled.writes (h : Compiled s f A secs) {e : UString × Transducer V} (he : e ∈ secs) {q p : Nat} {c : Int} {w : V} (hE : Edge e.2 q (c, w) p)
    {i o : Int} (hd : HasPair A c (i, o)) (h0 : o ≠ 0) : ∃ x y, Says s f e.1 x y ∧ o ∈ y := by
  have hq := (h.wf e he).source_lt hE
  have hp := (h.wf e he).target_lt _ _ _ hE
  obtain ⟨⟨us, h1⟩, -⟩ := h.useful e he q hq
  obtain ⟨-, -, vs, t, fw, h2, h3, -⟩ := h.useful e he p hp
  refine ⟨_, _, (h.says _ _ _).2 ⟨e, he, rfl, us ++ (c, w) :: vs, ⟨t, fw, h1.append (.cons hE h2), h3⟩, rfl, rfl⟩, ?_⟩
  rw [rgt_append, rgt_cons]
  refine List.mem_append_right _ (List.mem_append_left _ ?_)
  simp [rgt, dec_eq hd, h0]

theorem Compiled.named (h : Compiled s f A secs) (g : V → Dbl) {b : Proc.Setting W} (ht : Tame b s f) : Load.Named A (storedAll g secs) (tagName f) := by
  intro e he q c w p hE i o hd
  obtain ⟨e, he', rfl⟩ := List.mem_map.1 he
  clear he
  rename' he' => he
  obtain ⟨v, hE, -⟩ := (edge_stored ..).1 hE
  by_cases h0 : o = 0
  · subst h0
    exact ⟨by decide, fun h => absurd h (by decide)⟩
  · obtain ⟨x, y, h1, h2⟩ := h.writes he hE (decode_iff.1 hd) h0
    obtain ⟨h3, h4⟩ := ht.symbols _ _ _ h1 o h2
    exact ⟨h3, fun hc => tagText_of ht.tags h.tags hc h4⟩

theorem Compiled.kinds (h : Compiled s f A secs) (g : V → Dbl) {b : Proc.Setting W} (ht : Tame b s f) : ∀ e ∈ storedAll g secs, ∃ κ, HasKind e.1 κ := by
  intro e he
  obtain ⟨e, he', rfl⟩ := List.mem_map.1 he
  clear he
  rename' he' => he
  obtain ⟨x, y, hs⟩ := (h.names e.1).1 (List.mem_map_of_mem he)
  exact ht.kinds _ _ _ hs

/-! ## The loaded graph -/

theorem mapText_filter (name : Int → UString) (up : Int → Int) (esc : List Int) (h0 : (0 : Int) ∉ esc) {W' : Type} (z : W') (seq : List (Int × W)) :
    State.mapText name up esc seq = State.mapText name up esc (((seq.map (·.1)).filter (· ≠ 0)).map fun c => (c, z)) := by
  induction seq with
  | nil => rfl
  | cons a seq ih =>
    unfold State.mapText at ih ⊢
    rw [List.flatMap_cons, ih]
    by_cases h : a.1 = 0
    · simp [h, h0]
    · simp [h]

theorem analysisText_filter (o : Proc.Setting W) (name : Int → UString) (sf : UString) (b : Bool) (seq : List (Int × W)) (z : W) :
    Proc.analysisText o name sf b seq = Proc.analysisText o name sf b (((seq.map (·.1)).filter (· ≠ 0)).map fun c => (c, z)) := by
  unfold Proc.analysisText
  rw [mapText_filter name _ Proc.escapedCps (by decide) z seq]

/-- Runs of the written sections are pairs of the dictionary. -/
theorem Compiled.together (h : Compiled s f A secs) (g : V → Dbl) (v : Dbl → W) (P : UString → Prop) (x y : List Int) :
    (∃ ys w, Load.Together v A (storedAll g secs) P x ys w ∧ (ys.map (·.1)).filter (· ≠ 0) = y) ↔ ∃ k, P k ∧ Says s f k x y := by
  have hl : ∀ ys : List (Int × Dbl), (Load.liftAll v ys).map (·.1) = ys.map (·.1) := by
    intro ys
    unfold Load.liftAll
    rw [List.map_map]
    rfl
  constructor
  · rintro ⟨ys, w, ⟨e, he, hP, ys0, w0, h1, rfl, rfl⟩, h2⟩
    obtain ⟨e, he', rfl⟩ := List.mem_map.1 he
    clear he
    rename' he' => he
    rw [hl] at h2
    rw [cut_stored] at h1
    exact ⟨e.1, hP, (h.says _ _ _).2 ⟨e, he, rfl, (run_stored _ (h.known e he) x y).1 ⟨ys0, w0, h1, h2⟩⟩⟩
  · rintro ⟨k, hP, hs⟩
    obtain ⟨e, he, rfl, ha⟩ := (h.says _ _ _).1 hs
    obtain ⟨ys0, w0, h1, h2⟩ := (run_stored (fun w => cut30 (g w)) (h.known e he) x y).2 ha
    refine ⟨_, _, ⟨(e.1, stored g e.2), List.mem_map_of_mem he, hP, ys0, w0, ?_, rfl, rfl⟩, by rw [hl]; exact h2⟩
    rw [cut_stored]
    exact h1

theorem Compiled.begins (h : Compiled s f A secs) (g : V → Dbl) (x : List Int) :
    Load.Begins A (storedAll g secs) x ↔ x = [] ∨ ∃ k zs y, Says s f k (x ++ zs) y := by
  unfold Load.Begins
  refine or_congr_right ?_
  constructor
  · rintro ⟨e, he, ys, q, h1⟩
    obtain ⟨e, he', rfl⟩ := List.mem_map.1 he
    clear he
    rename' he' => he
    rw [cut_stored] at h1
    obtain ⟨zs, y, h2⟩ := (begins_stored _ (h.wf e he) (h.known e he) (h.useful e he) x).1 ⟨ys, q, h1⟩
    exact ⟨e.1, zs, y, (h.says _ _ _).2 ⟨e, he, rfl, h2⟩⟩
  · rintro ⟨k, zs, y, hs⟩
    obtain ⟨e, he, rfl, ha⟩ := (h.says _ _ _).1 hs
    obtain ⟨ys, q, h1⟩ := (begins_stored (fun w => cut30 (g w)) (h.wf e he) (h.known e he) (h.useful e he) x).2 ⟨zs, y, ha⟩
    refine ⟨(e.1, stored g e.2), List.mem_map_of_mem he, ys, q, ?_⟩
    rw [cut_stored]
    exact h1

/-- The loaded graph and the dictionary agree. -/
theorem Compiled.same [AddMonoid W] [LinearOrder W] (h : Compiled s f A secs) (g : V → Dbl) (v : Dbl → W) {σ o : Proc.Setting W} {name : Int → UString} (hal : Alike σ o)
    (hk : ∀ k x y, Says s f k x y → ∃ κ, HasKind k κ)
    (h1 : ∀ κ xs ys w, Load.Accepts σ.graph σ.root (finalsOf σ κ) xs ys w ↔ Load.Together v A (storedAll g secs) (HasKind · κ) xs ys w)
    (h2 : ∀ xs, (∃ ls p, Path (Arc σ.graph) σ.root ls p ∧ inputs ls = xs) ↔ Load.Begins A (storedAll g secs) xs)
    (h3 : ∀ p w, σ.weight p = some w ↔ ∃ κ, (p, w) ∈ finalsOf σ κ) : Same σ name (lexicon o name s f) where
  has κ xs := by
    unfold Proc.In Proc.Reads lexicon
    simp only
    rw [alike_folds hal]
    constructor
    · rintro ⟨ls, p, w, ⟨g1, g2⟩, g3⟩
      obtain ⟨k, g4, g5⟩ := (h.together g v (HasKind · κ) (inputs ls) _).1 ⟨written ls, w, (h1 κ _ _ _).1 ⟨ls, p, g1, rfl, rfl, g3⟩, rfl⟩
      exact ⟨k, _, _, g4, g5, g2⟩
    · rintro ⟨k, x, y, g1, g2, g3⟩
      obtain ⟨ys, w, g4, -⟩ := (h.together g v (HasKind · κ) x y).2 ⟨k, g1, g2⟩
      obtain ⟨ls, p, g5, g6, -, g7⟩ := (h1 κ _ _ _).2 g4
      exact ⟨ls, p, w, ⟨g5, by rw [g6]; exact g3⟩, g7⟩
  starts xs := by
    unfold Proc.Live Proc.Reads lexicon
    simp only
    rw [alike_folds hal]
    constructor
    · rintro ⟨ls, p, g1, g2⟩
      rcases (h.begins g _).1 ((h2 _).1 ⟨ls, p, g1, rfl⟩) with g3 | ⟨k, zs, y, g3⟩
      · rw [g3] at g2
        exact .inl (List.forall₂_nil_right_iff.1 g2)
      · exact .inr ⟨k, _, y, zs, g3, g2⟩
    · rintro (rfl | ⟨k, x, y, zs, g1, g2⟩)
      · obtain ⟨ls, p, g3, g4⟩ := (h2 []).2 (.inl rfl)
        exact ⟨ls, p, g3, by rw [g4]; exact .nil⟩
      · obtain ⟨ls, p, g3, g4⟩ := (h2 x).2 ((h.begins g _).2 (.inr ⟨k, zs, y, g1⟩))
        exact ⟨ls, p, g3, by rw [g4]; exact g2⟩
  analysed xs sf t := by
    unfold Proc.Analysis Proc.Reads lexicon
    simp only
    rw [alike_folds hal]
    constructor
    · rintro ⟨w, ls, p, w0, ⟨g1, g2⟩, g3, -, g4⟩
      obtain ⟨κ, g5⟩ := (h3 _ _).1 g3
      obtain ⟨k, -, g6⟩ := (h.together g v (HasKind · κ) (inputs ls) _).1 ⟨written ls, w0, (h1 κ _ _ _).1 ⟨ls, p, g1, rfl, rfl, g5⟩, rfl⟩
      refine ⟨k, _, _, g6, g2, ?_⟩
      rw [g4, alike_analysisText hal, analysisText_filter o name sf _ _ 0]
    · rintro ⟨k, x, y, g1, g2, g3⟩
      obtain ⟨κ, g4⟩ := hk _ _ _ g1
      obtain ⟨ys, w, g5, g6⟩ := (h.together g v (HasKind · κ) x y).2 ⟨k, g4, g1⟩
      obtain ⟨ls, p, g7, g8, g9, g10⟩ := (h1 κ _ _ _).2 g5
      refine ⟨_, ls, p, w, ⟨g7, by rw [g8]; exact g2⟩, (h3 _ _).2 ⟨κ, g10⟩, rfl, ?_⟩
      rw [g3, alike_analysisText hal, analysisText_filter o name sf _ (written ls) 0, g8, g9, g6]

/-- No entry is empty or starts with a space. -/
theorem Compiled.plain [AddMonoid W] [LinearOrder W] (hreg : Regular s f closed) (hp : parse s f.nodes = .ok (A, secs)) {σ o : Proc.Setting W} {name : Int → UString}
    (hr : Proc.Regular σ name) (hal : Alike σ o) (hs : Same σ name (lexicon o name s f)) (ht : Tame o s f) : Proc.Plain σ := by
  have hne : ∀ k y, ¬ Says s f k [] y := by
    intro k y hsay
    have := C69_refused_empty s f closed hreg k _ _ hsay (by rw [sides_sides])
    rw [hp] at this
    cases this
  have hfold : ∀ c x, Proc.Folds o c x → σ.isAlphabetic c = false → x = c := by
    rintro c x (h | ⟨h, -⟩) hc
    · exact h
    · rw [hal.alpha, ht.upper c h] at hc
      cases hc
  refine ⟨?_, ?_, ?_, ?_⟩
  · rw [same_entry hs]
    have hno : ∀ κ, ¬ (lexicon o name s f).has κ [] := by
      rintro κ ⟨k, x, y, -, h1, h2⟩
      rw [List.forall₂_nil_left_iff] at h2
      subst h2
      exact hne _ _ h1
    rintro (h | h | h | h) <;> exact hno _ h
  · intro c hc
    rcases (hs.starts _).1 hc with h | ⟨k, x, y, zs, h1, h2⟩
    · cases h
    · by_contra hsp
      simp only [Bool.not_eq_false] at hsp
      have ha := hr.spaceAlpha c hsp
      obtain ⟨x, _, hx, -, rfl⟩ := List.forall₂_cons_left_iff.1 h2
      have := hfold _ _ hx ha
      subst this
      rw [hal.chars, (ht.start k x _ _ h1).1] at hsp
      cases hsp
  · intro xs hxs c hc hsp
    rcases (hs.starts _).1 hxs with rfl | ⟨k, x, y, zs, h1, h2⟩
    · cases hc
    · obtain ⟨d, hd, hcd⟩ := Proc.forall₂_mem h2 hc
      have := hfold _ _ hcd (hr.spaceAlpha c hsp)
      subst this
      exact ht.space k _ _ h1 d (List.mem_append_left _ hd) (by rw [← hal.chars]; exact hsp)
  · intro c hc ha
    rcases (hs.starts _).1 hc with h | ⟨k, x, y, zs, h1, h2⟩
    · cases h
    · obtain ⟨x, _, hx, h2, rfl⟩ := List.forall₂_cons_left_iff.1 h2
      have := hfold _ _ hx ha
      subst this
      exact (ht.start k x _ _ h1).2 (by rw [← hal.alpha]; exact ha)

end

end Verif.Chain
