import Verif.Product.TrimRun

/-! # Trimming only removes -/

namespace Verif.Product

open Verif.Fst Verif.Alphabet

variable {W : Type}

theorem hasTag_named {a : Alphabet} {c : Int} {s : UString} : HasTag a c s ↔ IsTagNamed a c s := by
  unfold HasTag IsTagNamed tagNo
  constructor
  · rintro ⟨i, h1, rfl⟩
    refine ⟨by omega, ?_⟩
    rw [← h1]
    congr 1
    omega
  · rintro ⟨h1, h2⟩
    exact ⟨_, h2, by omega⟩

theorem mem_definedTags {a : Alphabet} (h : Ok a) (texts : List UString) (y : Int) :
    y ∈ definedTags a texts ↔ ∃ s ∈ texts, Named a y (.tag s) := by
  unfold definedTags
  simp only [List.mem_map, List.mem_filter]
  constructor
  · rintro ⟨s, ⟨h1, h2⟩, rfl⟩
    refine ⟨s, h1, ?_⟩
    unfold isSymbolDefined at h2
    obtain ⟨c, hc⟩ := Option.isSome_iff_exists.1 h2
    have ht := (hasTag_find h).1 hc
    rw [symCodeConst_of_hasTag h ht]
    exact named_tag.2 (hasTag_named.1 ht)
  · rintro ⟨s, h1, h2⟩
    have ht : HasTag a y s := hasTag_named.2 (named_tag.1 h2)
    refine ⟨s, ⟨h1, ?_⟩, symCodeConst_of_hasTag h ht⟩
    unfold isSymbolDefined
    rw [(hasTag_find h).2 ht]; rfl

theorem mem_symLsx {a : Alphabet} (h : Ok a) (y : Int) : y ∈ symLsx a ↔ ∃ s ∈ groupTags, Named a y (.tag s) := by
  unfold symLsx
  rw [mem_definedTags h]
  have : [LSX, LSX_SPACE, LSX_NO_SPACE] = groupTags := by decide
  rw [this]

theorem mem_symCmp {a : Alphabet} (h : Ok a) (y : Int) : y ∈ symCmpOrEps a ↔ y = 0 ∨ ∃ s ∈ compoundTags, Named a y (.tag s) := by
  unfold symCmpOrEps
  rw [List.mem_cons, mem_definedTags h]
  have : [COMPOUND_ONLY_L, COMPOUND_R] = compoundTags := by decide
  rw [this]

/-! ## Final states -/

/-- The final weight of a triple. -/
def trimFinal (t trimmer : Transducer W) (n : Three) : Option W :=
  match mapFind n.this t.finals with
  | some w => if isFinal trimmer n.other then some w else none
  | none => none

theorem trimFinals_eq (t trimmer : Transducer W) (ids : List (Three × Nat)) (r : Transducer W) :
    trimFinals t trimmer ids r = setAll (trimFinal t trimmer) ids r := by
  induction ids generalizing r with
  | nil => rfl
  | cons e ids ih =>
    obtain ⟨n, i⟩ := e
    rw [trimFinals, setAll, ih]
    congr 1
    unfold trimFinal
    cases mapFind (ofLex n).1 t.finals with
    | none => rfl
    | some w => simp only []; split <;> rfl

theorem setAll_weak {S : Type} (F : S → Option W) (ids : List (S × Nat)) (t : Transducer W) (ht : WF t) (hlt : ∀ e ∈ ids, e.2 < Fst.size t) :
    WF (setAll F ids t) ∧ (setAll F ids t).initial = t.initial ∧ (setAll F ids t).transitions = t.transitions ∧
      ∀ i v, Final (setAll F ids t) i v → Final t i v ∨ ∃ n, (n, i) ∈ ids ∧ F n = some v := by
  induction ids generalizing t with
  | nil => exact ⟨ht, rfl, rfl, fun i v => .inl⟩
  | cons e ids ih =>
    obtain ⟨n, i⟩ := e
    rw [setAll]
    cases hF : F n with
    | none =>
      obtain ⟨h1, h2, h3, h4⟩ := ih t ht (fun e he => hlt e (List.mem_cons_of_mem _ he))
      refine ⟨h1, h2, h3, fun j v hv => ?_⟩
      rcases h4 j v hv with h | ⟨m, g1, g2⟩
      · exact .inl h
      · exact .inr ⟨m, List.mem_cons_of_mem _ g1, g2⟩
    | some w =>
      have hi : i < Fst.size t := hlt _ (List.mem_cons_self ..)
      have hwf : WF (setFinal i w true t) := by
        refine ⟨ht.keys, ht.rows, ht.initial_lt, ht.target_lt, sorted_mapInsert ht.finals_sorted _ _, ?_⟩
        intro x v hx
        rcases (mem_mapInsert ht.finals_sorted i w (x, v)).mp hx with ⟨hx, -⟩ | hx
        · cases hx; exact hi
        · exact ht.finals_lt _ _ hx
      obtain ⟨h1, h2, h3, h4⟩ := ih (setFinal i w true t) hwf (fun e he => hlt e (List.mem_cons_of_mem _ he))
      refine ⟨h1, h2, h3, fun j v hv => ?_⟩
      rcases h4 j v hv with h | ⟨m, g1, g2⟩
      · rcases (mem_mapInsert ht.finals_sorted i w (j, v)).mp h with ⟨h, -⟩ | h
        · cases h; exact .inr ⟨n, List.mem_cons_self .., hF⟩
        · exact .inl h
      · exact .inr ⟨m, List.mem_cons_of_mem _ g1, g2⟩

/-! ## Joined final states -/

theorem Trimmable.joined [AddCommMonoid W] {a b : Alphabet} {t trimmer : Transducer W} (h : Trimmable a b t trimmer) :
    ∃ t', joinFinals 0 t = .ok t' ∧ WF t' ∧ Coded a t' ∧ TagsKnown a t' ∧
      (∀ inverted x y w, RelatesDir inverted a t' x y w ↔ RelatesDir inverted a t x y w) ∧
      (∀ q l p, PairEdge a t' q l p → PairEdge a t q l p ∨ (p = Fst.size t ∧ l.1 = (0, 0) ∧ Final t q l.2)) ∧
      ∀ q w, Final t' q w → w = 0 ∨ Final t q w := by
  have hO := h.talpha
  have h0 : a.decode 0 = .ok (0, 0) := decode_iff.2 ⟨0, hO.zero, rfl⟩
  have hn : ∃ n, Named a 0 n := ⟨.letter 0, .inl ⟨le_rfl, rfl⟩⟩
  obtain ⟨t', h1, h2, -, h4, h5⟩ := Product.joined h.twf h.finals a hO
  have hF : ∀ q w, Final t' q w → w = 0 ∨ Final t q w := by
    intro q w hf
    by_cases hm : 2 ≤ t.finals.length
    · obtain ⟨t2, e1, -, -, -, e2, -⟩ := joinFinals_many h.twf 0 hm
      rw [e1] at h1
      cases h1
      unfold Final at hf
      rw [e2, List.mem_singleton] at hf
      cases hf
      exact .inl rfl
    · have h6 : t.finals.length = 1 := by
        have : t.finals.length ≠ 0 := by simpa using h.finals
        omega
      obtain ⟨⟨q', w'⟩, h6⟩ := List.length_eq_one_iff.1 h6
      rw [joinFinals_single 0 h6] at h1
      cases h1
      exact .inr hf
  rcases h4 with rfl | ⟨n, rfl, h4⟩
  · exact ⟨t', h1, h2, h.tcoded, h.ttags, h5, fun _ _ _ => .inl, hF⟩
  · have hP : ∀ q l p, PairEdge a t' q l p → PairEdge a t q l p ∨ (p = Fst.size t ∧ l.1 = (0, 0) ∧ Final t q l.2) := by
      rintro q l p ⟨c, g1, g2⟩
      rcases (h4 _ _ _).1 g2 with g2 | ⟨rfl, g2, g3⟩
      · exact .inl ⟨c, g1, g2⟩
      · simp only at g2
        rw [g2, h0] at g1
        exact .inr ⟨rfl, (Res.ok.inj g1).symm, g3⟩
    refine ⟨t', h1, h2, ?_, ?_, h5, hP, hF⟩
    · intro q l p he
      rcases (h4 _ _ _).1 he with he | ⟨-, he, -⟩
      · exact h.tcoded _ _ _ he
      · rw [he]; exact ⟨_, h0⟩
    · intro q l p he
      rcases hP _ _ _ he with he | ⟨-, he, -⟩
      · exact h.ttags _ _ _ he
      · rw [he]; exact ⟨hn, hn⟩

/-! ## Every path lies above a path of the transducer -/

theorem start_over [Zero W] (t trimmer : Transducer W) (b : Alphabet) (ε : Int) (G : Prop) :
    Over t trimmer b ε G (three t.initial trimmer.initial trimmer.initial) (trimStart t trimmer) := by
  refine ⟨start_wf, by simp [SortedKeys, trimStart], by simp [trimStart, mapFind], ?_, ?_, ?_, ?_⟩
  · intro n i h
    simp [mapFind, trimStart] at h
    rw [← h.2]
    exact (start_wf (W := W)).initial_lt
  · intro n m i h h'
    simp [mapFind, trimStart] at h h'
    rw [← h.1, ← h'.1]
  · intro i c w j h
    exact absurd h (start_edge _ _ _)
  · intro i w h
    cases h

theorem Over.path [AddCommMonoid W] {t trimmer : Transducer W} {a b : Alphabet} (h0 : a.decode 0 = .ok (0, 0)) {G : Prop} {start : Three} {s : Search Three W}
    (h : Over t trimmer b 0 G start s) {i j : Nat} {x y : List Int} {w : W} (hr : Tr (dir false a s.t) i x y w j) :
    ∀ n, mapFind n s.ids = some i → ∃ m u v, mapFind m s.ids = some j ∧ Tr (dir false a t) n.this x y v m.this ∧ EmptyArcs b trimmer u ∧ w = v + u := by
  induction hr with
  | nil q => exact fun n hn => ⟨n, 0, 0, hn, .nil _, ⟨[], rfl, by simp⟩, by simp⟩
  | @cons q r p x y w v xs ys he _ ih =>
    intro n hn
    obtain ⟨c, h1, h2⟩ := he
    simp only at h1
    obtain ⟨n', m, g1, g2, g3⟩ := h.sound q c w r h2
    have e := h.same _ _ _ hn g1
    obtain ⟨k, u, v', k1, k2, k3, rfl⟩ := ih m g2
    rcases g3 with g4 | ⟨rfl, g5, q, z, q', g4⟩
    · rw [← e] at g4
      exact ⟨k, u, w + v', k1, .cons ⟨c, h1, g4⟩ k2, k3, by rw [add_assoc]⟩
    · rw [h0] at h1
      cases h1
      obtain ⟨ws, rfl, hws⟩ := k3
      refine ⟨k, (w :: ws).sum, v', k1, ?_, ⟨w :: ws, rfl, ?_⟩, ?_⟩
      · simp only [cons0_zero]
        rw [e, ← g5]; exact k2
      · intro w' hw'
        rcases List.mem_cons.1 hw' with rfl | hw'
        · exact ⟨_, _, _, g4⟩
        · exact hws _ hw'
      · rw [List.sum_cons]; exact add_left_comm _ _ _

theorem trimLoop_over [Zero W] {t trimmer : Transducer W} {a b : Alphabet} (hO : Ok a) (hg : Coded b trimmer) (htags : TagsKnown b trimmer) (hf : Coded a t) (ftags : TagsKnown a t)
    (hfw : WF t) (hgw : WF trimmer) :
    ∃ s, trimLoop t trimmer a b 0 (trimTurns t trimmer) (trimStart t trimmer) = .ok s ∧
      Over t trimmer b 0 (HasGroups a t) (three t.initial trimmer.initial trimmer.initial) s := by
  obtain ⟨s, h1, h2, h3⟩ := trimLoop_ok (ε := 0) hg htags hf ftags hfw hgw
    (fun x n y m hx hy => by
      obtain ⟨r, h, -⟩ := sameSymbol_meets hx hy
      exact ⟨r, h⟩)
    (fun s => Over t trimmer b 0 (HasGroups a t) (three t.initial trimmer.initial trimmer.initial) s ∧
      (∀ n ∈ s.todo, (mapFind n s.ids).isSome) ∧ ∀ n ∈ s.seen, (mapFind n s.ids).isSome)
    ⟨start_over _ _ _ _ _, by simp [trimStart, mapFind], by simp [trimStart]⟩
    (fun s h => h.2.1)
    (by
      rintro s c rest i ⟨h1, h2, h3⟩ hp hq hr htodo hi
      have hc : ∀ n ∈ setInsert c s.seen, (mapFind n s.ids).isSome := by
        intro n hn
        rcases (mem_setInsert _ _ _).1 hn with rfl | hn
        · rw [hi]; rfl
        · exact h3 n hn
      obtain ⟨s', k1, k2, k3, k4, k5, k6⟩ := Over.exec (G := HasGroups a t) (t := t) (trimmer := trimmer) (trimmerA := b) (ε := 0)
        (start := three t.initial trimmer.initial trimmer.initial) (c := c) (i := i) (steps t trimmer a b 0 c) (by
          intro x hx
          unfold steps at hx
          rcases List.mem_append.1 hx with hx | hx
          · obtain ⟨z, w, q', nx, g1, g2, rfl⟩ := mem_epsSteps hgw _ _ _ (fun _ h => h) _ hr hx
            exact .inr ⟨rfl, rfl, _, _, _, g1⟩
          · have hnx := epsSteps_next (trimmerA := b) (ε := 0) hgw (ofLex c).1 (ofLex (ofLex c).2).2 (row trimmer (ofLex (ofLex c).2).1) (fun _ h => h) _ hr
            rcases mem_arcSteps hgw _ (fun _ h => h) hq hr hnx hx with rfl | ⟨l, u, v, w, p', q', nx, g0, g1, g2, g3, rfl | ⟨rfl, g4, g5⟩⟩
            · rfl
            · exact .inl g1
            · refine ⟨.inl g1, ?_, ?_⟩
              · unfold isFinal at g5
                obtain ⟨w', hw'⟩ := Option.isSome_iff_exists.1 g5
                exact ⟨w', (mapFind_iff hfw.finals_sorted).1 hw'⟩
              · obtain ⟨s, k1, k2⟩ := (mem_symLsx hO v).1 g4
                exact ⟨_, u, v, w, _, s, ⟨l, g0, g1⟩, k1, k2⟩)
        { todo := rest, seen := setInsert c s.seen, ids := s.ids, t := s.t } (h1.of_eq rfl rfl) hi hc
      refine ⟨s', k1, ⟨k2, ?_, ?_⟩, k4, k3⟩
      · intro n hn
        rw [k3, mem_pushes] at hn
        rcases hn with hn | hn
        · exact k6 n hn.1
        · obtain ⟨j, hj⟩ := Option.isSome_iff_exists.1 (h2 n (by rw [htodo]; exact List.mem_cons_of_mem _ hn))
          rw [k5 _ _ hj]; rfl
      · intro n hn
        rw [k4] at hn
        obtain ⟨j, hj⟩ := Option.isSome_iff_exists.1 (hc n hn)
        rw [k5 _ _ hj]; rfl)
  exact ⟨s, h1, h2.1⟩

theorem trim_over [AddCommMonoid W] {a b : Alphabet} {t trimmer : Transducer W} (h : Trimmable a b t trimmer) :
    ∃ r, trim t trimmer a b 0 = .ok r ∧ WF r ∧ Coded a r ∧
      ∀ x y w, Relates a r x y w → ∃ u v, EmptyArcs b trimmer u ∧ Relates a t x y v ∧
        (w = v + u ∨ (HasGroups a t ∧ ∃ f v', (∃ q, Final t q f) ∧ v = v' + f ∧ w = v' + u)) := by
  have hO := h.talpha
  have h0 : a.decode 0 = .ok (0, 0) := decode_iff.2 ⟨0, hO.zero, rfl⟩
  obtain ⟨t', h1, h2, h3, h4, h5, h6, h7⟩ := h.joined
  obtain ⟨s, k1, k2⟩ := trimLoop_over hO h.gcoded h.gtags h3 h4 h2 h.gwf
  obtain ⟨g1, g2, g3, g4⟩ := setAll_weak (trimFinal t' trimmer) s.ids s.t k2.wf (fun e he => k2.lt e.1 e.2 ((mapFind_iff k2.sorted).2 he))
  have hG : HasGroups a t' → HasGroups a t := by
    rintro ⟨q, x, y, w, r, s, e1, e2, e3⟩
    rcases h6 _ _ _ e1 with e1 | ⟨-, e1, -⟩
    · exact ⟨q, x, y, w, r, s, e1, e2, e3⟩
    · cases e1
      exact absurd (named_tag.1 e3).1 (by omega)
  have hE : ∀ q l p, Edge (setAll (trimFinal t' trimmer) s.ids s.t) q l p ↔ Edge s.t q l p := by
    intro q l p
    unfold Edge row; rw [g3]
  refine ⟨setAll (trimFinal t' trimmer) s.ids s.t, ?_, g1, ?_, ?_⟩
  · unfold trim
    rw [h1]
    simp only [Res.bind_ok]
    unfold trimStart at k1
    rw [k1]
    simp only [Res.bind_ok, Res.pure_eq, trimFinals_eq]
  · intro q l p he
    obtain ⟨n, m, e1, e2, e3⟩ := k2.sound q l.1 l.2 p ((hE _ _ _).1 he)
    rcases e3 with e3 | ⟨e3, -⟩
    · exact h3 _ _ _ e3
    · rw [e3]; exact ⟨_, h0⟩
  · intro x y w hw
    have hw' : RelatesDir false a (setAll (trimFinal t' trimmer) s.ids s.t) x y w := hw
    obtain ⟨p, wu, wf, e1, e2, rfl⟩ := relates_tr.1 hw'
    rw [g2] at e1
    have e1 : Tr (dir false a s.t) s.t.initial x y wu p := e1.mono fun q x y w p he => by
      obtain ⟨c, he1, he2⟩ := he
      exact ⟨c, he1, (hE _ _ _).1 he2⟩
    obtain ⟨m, u, v, j1, j2, j3, rfl⟩ := k2.path h0 e1 _ k2.start
    have fin : ∀ f, Final t' m.this f → Relates a t x y (v + f) := by
      intro f hf
      have : RelatesDir false a t' x y (v + f) := relates_tr.2 ⟨m.this, v, f, j2, hf, rfl⟩
      exact (h5 _ _ _ _).1 this
    rcases g4 p wf e2 with e | ⟨n, e3, e4⟩
    · obtain ⟨rfl, n, i1, ⟨f, i2⟩, i3⟩ := k2.finals p wf e
      rw [k2.same _ _ _ i1 j1] at i2
      rcases h7 _ _ i2 with rfl | i4
      · exact ⟨u, v + 0, j3, fin _ i2, .inl (by simp)⟩
      · exact ⟨u, v + f, j3, fin _ i2, .inr ⟨hG i3, f, v, ⟨_, i4⟩, rfl, by simp⟩⟩
    · have i1 := (mapFind_iff k2.sorted).2 e3
      unfold trimFinal at e4
      rw [k2.same _ _ _ i1 j1] at e4
      split at e4
      · next w' hw' =>
        split at e4
        · cases e4
          exact ⟨u, v + wf, j3, fin _ ((mapFind_iff h2.finals_sorted).1 hw'), .inl (by rw [add_right_comm])⟩
        · cases e4
      · cases e4

end Verif.Product
