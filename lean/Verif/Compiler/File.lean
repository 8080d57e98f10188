import Verif.Compiler.Close
import Verif.Compiler.Filter

/-! # Compiling a whole file -/

namespace Verif.Compiler

open Verif.Fst Verif.Alphabet

set_option linter.unusedSectionVars false

section
variable {N W : Type}

/-- The pairs of a paradigm in the order of the transducers. -/
def G (s : Settings) (f : File N W) (n : N) (x y : List Int) : Prop := Gives s f [.par n] (sides s x y).1 (sides s x y).2

theorem sides_sides {α : Type} (s : Settings) (x y : α) : sides s (sides s x y).1 (sides s x y).2 = (x, y) := by
  unfold sides
  cases s.rl <;> rfl

theorem sides_append (s : Settings) (x y x' y' : List Int) :
    (sides s (x ++ x') (y ++ y')) = ((sides s x y).1 ++ (sides s x' y').1, (sides s x y).2 ++ (sides s x' y').2) := by
  unfold sides
  cases s.rl <;> rfl

theorem gives_par {s : Settings} {f : File N W} {n : N} {l r : List Int} :
    Gives s f [.par n] l r ↔ ∃ ents es, (n, ents) ∈ f.pars ∧ Uses s ents es ∧ Gives s f es l r := by
  constructor
  · intro h
    cases h with
    | par hp hu h1 h2 =>
      cases h2
      simp only [List.append_nil]
      exact ⟨_, _, hp, hu, h1⟩
  · rintro ⟨ents, es, hp, hu, h⟩
    have := Gives.par hp hu h (Gives.nil (s := s) (f := f))
    simpa using this

theorem gv_iff (s : Settings) (f : File N W) (es : List (Token N)) (x y : List Int) :
    Gv s (G s f) es x y ↔ Gives s f es (sides s x y).1 (sides s x y).2 := by
  induction es generalizing x y with
  | nil =>
    constructor
    · rintro ⟨rfl, rfl⟩
      have : sides s ([] : List Int) [] = ([], []) := by unfold sides; split <;> rfl
      rw [this]
      exact .nil
    · intro h
      unfold sides at h
      cases hs : s.rl <;> rw [hs] at h
      · simp only [Bool.false_eq_true, if_false] at h; cases h; exact ⟨rfl, rfl⟩
      · simp only [if_true] at h; cases h; exact ⟨rfl, rfl⟩
  | cons k es ih =>
    constructor
    · rintro ⟨x1, y1, x2, y2, h1, h2, rfl, rfl⟩
      rw [sides_append]
      have h2 := (ih _ _).1 h2
      cases k with
      | text l r =>
        obtain ⟨rfl, rfl⟩ := h1
        rw [sides_sides]
        exact .text h2
      | re er =>
        obtain ⟨e, hv, rfl, hm, rfl⟩ := h1
        have : sides s x1 x1 = (x1, x1) := by unfold sides; split <;> rfl
        rw [this]
        exact .re hv hm h2
      | par n =>
        obtain ⟨ents, es', hp, hu, h⟩ := gives_par.1 h1
        exact .par hp hu h h2
    · intro h
      generalize hl : (sides s x y).1 = l at h
      generalize hr : (sides s x y).2 = r at h
      have hxy : (x, y) = sides s l r := by rw [← hl, ← hr, sides_sides]
      cases h with
      | @text l r _ l' r' h =>
        rw [sides_append] at hxy
        cases hxy
        refine ⟨_, _, _, _, ⟨rfl, rfl⟩, (ih _ _).2 ?_, rfl, rfl⟩
        rw [sides_sides]; exact h
      | @re e u _ l' r' hv hm h =>
        rw [sides_append] at hxy
        cases hxy
        have : sides s u u = (u, u) := by unfold sides; split <;> rfl
        rw [this]
        refine ⟨_, _, _, _, ⟨e, hv, rfl, hm, rfl⟩, (ih _ _).2 ?_, rfl, rfl⟩
        rw [sides_sides]; exact h
      | @par n ents es' l r _ l' r' hp hu h1 h =>
        rw [sides_append] at hxy
        cases hxy
        refine ⟨_, _, _, _, ?_, (ih _ _).2 ?_, rfl, rfl⟩
        · show Gives s f [.par n] _ _
          rw [sides_sides]
          exact gives_par.2 ⟨ents, es', hp, hu, h1⟩
        · rw [sides_sides]; exact h

/-- The pairs of the visible entries of a list. -/
def ERel (s : Settings) (f : File N W) (ents : List (CEntry N W)) (x y : List Int) : Prop := ∃ es, Uses s ents es ∧ Gv s (G s f) es x y

theorem g_iff {s : Settings} {f : File N W} (hn : (f.pars.map (·.1)).Nodup) {n : N} {ents : List (CEntry N W)} (hp : (n, ents) ∈ f.pars)
    (x y : List Int) : G s f n x y ↔ ERel s f ents x y := by
  unfold G ERel
  rw [gives_par]
  constructor
  · rintro ⟨ents', es, hp', hu, h⟩
    obtain rfl : ents' = ents := congrArg Prod.snd (List.inj_on_of_nodup_map hn hp' hp rfl)
    exact ⟨es, hu, (gv_iff ..).2 h⟩
  · rintro ⟨es, hu, h⟩
    exact ⟨ents, es, hp, hu, (gv_iff ..).1 h⟩

theorem uses_cons {s : Settings} {e : CEntry N W} {ents : List (CEntry N W)} {es : List (Token N)} :
    Uses s (e :: ents) es ↔ (Visible s e.attrs ∧ e.content = some es) ∨ Uses s ents es := by
  unfold Uses
  simp only [List.mem_cons, exists_eq_or_imp]

/-- The pairs of one entry. -/
def ERel1 (s : Settings) (f : File N W) (e : CEntry N W) (x y : List Int) : Prop :=
  ∃ es, (Visible s e.attrs ∧ e.content = some es) ∧ Gv s (G s f) es x y

theorem erel_cons {s : Settings} {f : File N W} {e : CEntry N W} {ents : List (CEntry N W)} {x y : List Int} :
    ERel s f (e :: ents) x y ↔ ERel1 s f e x y ∨ ERel s f ents x y := by
  unfold ERel ERel1
  simp only [uses_cons, or_and_right, exists_or]

theorem erel_nil {s : Settings} {f : File N W} {x y : List Int} : ¬ ERel s f [] x y := by
  rintro ⟨es, ⟨e, he, -⟩, -⟩
  simp at he

end

section
variable {N W : Type} [LinearOrder N] [AddMonoid W] [LinearOrder W]

theorem empty_eq : (Fst.empty : Transducer W) = ⟨0, [], [(0, [])]⟩ := rfl

theorem edge_empty (q : Nat) (l : Int × W) (p : Nat) : ¬ Edge (empty : Transducer W) q l p := by
  intro h
  unfold Edge at h
  have : row (empty : Transducer W) q = [] := by
    rw [empty_eq]; unfold row
    simp only [mapFind]
    split <;> rfl
  rw [this] at h
  simp at h

theorem path_empty {q p : Nat} {ls : List (Int × W)} (h : Path (Edge (empty : Transducer W)) q ls p) : ls = [] ∧ p = q := by
  cases h with
  | nil => exact ⟨rfl, rfl⟩
  | cons he _ => exact absurd he (edge_empty _ _ _)

theorem tree_empty (B : (Int × W → Bool) → Prop) (K : Int → Prop) : Tree B K (empty : Transducer W) (· = 0) (fun q c => q = 0 ∧ c ≠ 0) := by
  refine ⟨?_, ?_, fun q l p h => absurd h (edge_empty _ _ _), rfl, fun c hc => ⟨rfl, hc⟩, fun ls h => (path_empty h).1, ?_, fun q c h => h,
    fun q l p _ h => absurd h (edge_empty _ _ _), ?_, ?_, ?_⟩
  · exact Trie.empty (W := W) 0 |>.wf
  · intro p fw h
    rw [empty_eq] at h; unfold Final at h
    simp at h
  · rintro q rfl
    rw [empty_eq]; simp [Fst.size]
  · intro q c _
    have : row (empty : Transducer W) q = [] := by
      rw [empty_eq]; unfold row
      simp only [mapFind]
      split <;> rfl
    rw [this]
    simp [equalRange]
  · rintro q rfl
    exact ⟨[], .nil _⟩
  · rintro _ _ q rfl
    exact ⟨0, fun ls h => by rw [(path_empty h).1]; simp⟩

theorem acc_empty (q : Nat) (ls : List (Int × W)) : ¬ Acc (empty : Transducer W) q ls := by
  rintro ⟨p, fw, -, h⟩
  rw [empty_eq] at h; unfold Final at h
  simp at h

/-- What holds of the paradigms that are finished. -/
structure PInv (A : Alphabet) (closed : N → Bool) (G : N → List Int → List Int → Prop) (seen : List N) (pars : List (N × Transducer W)) : Prop where
  sorted : SortedKeys pars
  done : ∀ n ∈ seen, ParOk A closed G pars n ∨ ∃ t, mapFind n pars = some t ∧ isEmpty t = true ∧ ∀ x y, ¬ G n x y
  rest : ∀ n, n ∉ seen → mapFind n pars = none

theorem ParOk.notEmpty {A : Alphabet} {closed : N → Bool} {G : N → List Int → List Int → Prop} {pars : List (N × Transducer W)} {n : N}
    (h : ParOk A closed G pars n) : ∃ t, mapFind n pars = some t ∧ isEmpty t = false ∧ ∃ x y, G n x y := by
  obtain ⟨o, X, h1, h2, h3⟩ := h.ex
  obtain ⟨f, fw, hf, -⟩ := h2.ex
  obtain ⟨ls, hls⟩ := h2.some
  refine ⟨o, h1, ?_, _, _, (h3 _ _).1 ⟨ls, hls, rfl, rfl⟩⟩
  unfold isEmpty
  rw [hf]
  simp

/-- What is found out while the elements are read. -/
theorem readTokens_spec (s : Settings) {A : Alphabet} {closed : N → Bool} {G : N → List Int → List Int → Prop} {seen : List N} {c : Comp N W}
    (h : ∀ n ∈ seen, ParOk A closed G c.pars n ∨ ∃ t, mapFind n c.pars = some t ∧ isEmpty t = true ∧ ∀ x y, ¬ G n x y)
    (es : List (Token N)) (hr : ∀ m, .par m ∈ es → m ∈ seen) (hc : ∀ m ∈ seen, c.current ≠ some m) :
    (readTokens c es = .ok true ∧ ∀ m, .par m ∈ es → ParOk A closed G c.pars m) ∨
    (readTokens c es = .ok false ∧ ∀ x y, ¬ Gv s G es x y) := by
  induction es with
  | nil => exact .inl ⟨rfl, fun m hm => by simp at hm⟩
  | cons k es ih =>
    have ih := ih fun m hm => hr m (List.mem_cons_of_mem _ hm)
    have hno : (∀ x y, ¬ Gv s G es x y) → ∀ x y, ¬ Gv s G (k :: es) x y := by
      rintro h x y ⟨_, _, _, _, _, h', _⟩
      exact h _ _ h'
    cases k with
    | text l r =>
      refine ih.imp (fun h => ⟨h.1, fun m hm => h.2 m ?_⟩) fun h => ⟨h.1, hno h.2⟩
      simpa using hm
    | re er =>
      refine ih.imp (fun h => ⟨h.1, fun m hm => h.2 m ?_⟩) fun h => ⟨h.1, hno h.2⟩
      simpa using hm
    | par n =>
      have hn := hr n (by simp)
      have hcur : c.current ≠ some n := hc n hn
      rcases h n hn with hok | ⟨t, h1, h2, h3⟩
      · obtain ⟨t, h1, h2, -⟩ := hok.notEmpty
        have e : readTokens c (.par n :: es) = readTokens c es := by
          rw [readTokens, if_neg hcur, h1]
          simp [h2]
        rw [e]
        refine ih.imp (fun h => ⟨h.1, fun m hm => ?_⟩) fun h => ⟨h.1, hno h.2⟩
        rcases List.mem_cons.1 hm with hm | hm
        · cases hm; exact hok
        · exact h.2 m hm
      · refine .inr ⟨?_, ?_⟩
        · rw [readTokens, if_neg hcur, h1]
          simp [h2]
        · rintro x y ⟨_, _, _, _, h', _⟩
          exact h3 _ _ h'

variable {s : Settings} {f : File N W} {closed : N → Bool}

/-- The alphabet after the tags are defined. -/
def tagsOf (f : File N W) : Alphabet := f.tags.foldl (fun a n => a.includeSymbol (0x3c :: n ++ [0x3e])) Alphabet.empty

/-- While paradigm `n` is open. -/
structure ParStage (s : Settings) (f : File N W) (closed : N → Bool) (seen : List N) (n : N) (R : List Int → List Int → Prop) (c : Comp N W) : Prop where
  ok : Ok c.alphabet
  tags : Ext (tagsOf f) c.alphabet
  cur : c.current = some n
  inv : ∀ A, Ok A → Ext c.alphabet A → SortedKeys c.pars ∧
    (∀ n ∈ seen, ParOk A closed (G s f) c.pars n ∨ ∃ t, mapFind n c.pars = some t ∧ isEmpty t = true ∧ ∀ x y, ¬ G s f n x y) ∧
    (∀ m, m ∉ seen → m ≠ n → mapFind m c.pars = none) ∧
    ∃ C D, Tree (Bd A closed n) (KA A) (parOf n c.pars) C D ∧ (∀ p fw, Final (parOf n c.pars) p fw → C p) ∧
      (∀ x y, AccRel A (parOf n c.pars) (parOf n c.pars).initial x y ↔ R x y) ∧ ((parOf n c.pars).finals = [] → parOf n c.pars = Fst.empty)

theorem mapFind_mapSet {κ ν : Type} [LinearOrder κ] {m : List (κ × ν)} (hs : SortedKeys m) (k : κ) (v : ν) (k' : κ) :
    mapFind k' (mapSet k v m) = if k' = k then some v else mapFind k' m := by
  rw [mapSet_eq_modify, mapFind_modify hs]

theorem ParOk.set {A : Alphabet} {G : N → List Int → List Int → Prop} {pars : List (N × Transducer W)} (hs : SortedKeys pars) {n m : N}
    (h : ParOk A closed G pars m) (hm : m ≠ n) (t : Transducer W) : ParOk A closed G (mapSet n t pars) m := by
  obtain ⟨o, X, h1, h2⟩ := h.ex
  exact ⟨o, X, by rw [mapFind_mapSet hs, if_neg hm, h1], h2⟩

theorem done_set {A : Alphabet} {G : N → List Int → List Int → Prop} {seen : List N} {pars : List (N × Transducer W)} (hs : SortedKeys pars)
    (h : ∀ n ∈ seen, ParOk A closed G pars n ∨ ∃ t, mapFind n pars = some t ∧ isEmpty t = true ∧ ∀ x y, ¬ G n x y) {n : N} (hn : n ∉ seen)
    (t : Transducer W) :
    ∀ m ∈ seen, ParOk A closed G (mapSet n t pars) m ∨ ∃ t', mapFind m (mapSet n t pars) = some t' ∧ isEmpty t' = true ∧ ∀ x y, ¬ G m x y := by
  intro m hm
  have hne : m ≠ n := fun e => hn (e ▸ hm)
  refine (h m hm).imp (fun h => h.set hs hne t) ?_
  rintro ⟨t', h1, h2⟩
  exact ⟨t', by rw [mapFind_mapSet hs, if_neg hne, h1], h2⟩

theorem mapSet_sorted {κ ν : Type} [LinearOrder κ] {m : List (κ × ν)} (hs : SortedKeys m) (k : κ) (v : ν) : SortedKeys (mapSet k v m) := by
  rw [mapSet_eq_modify]; exact sorted_modify hs _ _ _

theorem map_weigh (w j : W) (es : List (Token N)) : (es.map (weigh w j)).map (·.2) = es := by
  rw [List.map_map]
  conv_rhs => rw [← List.map_id es]
  refine List.map_congr_left fun k _ => ?_
  cases k <;> rfl

/-- The elements of an entry of a paradigm. -/
theorem parContent (hacx : s.acx = []) {seen : List N} {n : N} (hn : n ∉ seen) {R : List Int → List Int → Prop} {c : Comp N W}
    (h : ParStage s f closed seen n R c) (ws : List (W × Token N))
    (hr : ∀ m, .par m ∈ ws.map (·.2) → m ∈ seen) (hf : Fits closed .any (ws.map (·.2))) (hcl : closed n = true → Closed closed (ws.map (·.2))) :
    ∃ c', (do if ← readTokens c (ws.map (·.2)) then insertEntryTokens s ws c else pure c : Res (Comp N W)) = .ok c' ∧
      ParStage s f closed seen n (fun x y => R x y ∨ Gv s (G s f) (ws.map (·.2)) x y) c' ∧ c'.secs = c.secs ∧ c'.sect = c.sect := by
  have hcn : ∀ m ∈ seen, c.current ≠ some m := by
    intro m hm e
    rw [h.cur] at e
    cases e
    exact hn hm
  rcases readTokens_spec s (h.inv _ h.ok (.refl _)).2.1 (ws.map (·.2)) hr hcn with ⟨hrt, -⟩ | ⟨hrt, hno⟩
  · obtain ⟨a', ha', hext, hspec⟩ := parTokens_spec s hacx closed (G s f) ws .any hf c.alphabet h.ok
    have hstep : ∀ A, Ok A → Ext a' A → ∃ C D, Tree (Bd A closed n) (KA A) (parOf n c.pars) C D ∧
        ∃ e' t', parTokens s ws c.alphabet c.pars (parOf n c.pars).initial (parOf n c.pars) = .ok (a', c.pars, e', t') ∧
          Does A (Bd A closed n) (parOf n c.pars) C D (parOf n c.pars).initial .none (Gv s (G s f) (ws.map (·.2))) t' e' ∧
          (∀ p fw, Final (parOf n c.pars) p fw → C p) ∧ (∀ x y, AccRel A (parOf n c.pars) (parOf n c.pars).initial x y ↔ R x y) := by
      intro A hA he
      obtain ⟨i1, i2, i3, C, D, i4, i5, i6, i7⟩ := h.inv A hA (hext.trans he)
      have hall : ∀ m, .par m ∈ (ws.map (·.2)) → ParOk A closed (G s f) c.pars m := by
        rcases readTokens_spec s i2 (ws.map (·.2)) hr hcn with ⟨-, h2⟩ | ⟨h1, -⟩
        · exact h2
        · rw [hrt] at h1; cases h1
      obtain ⟨e', t', k1, k2⟩ := hspec A hA he (Bd A closed n) c.pars i1 hall (fun m hm => hm.imp_left hcl) _ C D _ i4 i4.cinit (fun c _ hc0 => i4.dinit c hc0)
      exact ⟨C, D, i4, e', t', k1, k2, i5, i6⟩
    obtain ⟨-, -, -, e', t', k1, -⟩ := hstep a' ha' (.refl _)
    refine ⟨{ c with alphabet := a', pars := mapSet n (setFinal e' 0 true t') c.pars }, ?_, ⟨ha', h.tags.trans hext, h.cur, fun A hA he => ?_⟩, rfl, rfl⟩
    · rw [hrt]
      simp only [Res.bind_ok, if_true]
      unfold insertEntryTokens
      rw [h.cur]
      simp only
      rw [k1]
      rfl
    · obtain ⟨i1, i2, i3, -⟩ := h.inv A hA (hext.trans he)
      obtain ⟨C, D, i4, e'', t'', k1', ⟨C', D', X, m1, m2⟩, i5, i6⟩ := hstep A hA he
      rw [k1] at k1'
      cases k1'
      have hpar : parOf n (mapSet n (setFinal e' 0 true t') c.pars) = setFinal e' 0 true t' := by
        unfold parOf
        rw [mapFind_mapSet i1, if_pos rfl]; rfl
      simp only [hpar]
      have hlt := m1.tree.lt e' m1.cur
      refine ⟨mapSet_sorted i1 _ _, done_set i1 i2 hn _, fun m hm hne => ?_, C', D', m1.tree.setFinal hlt, ?_, ?_, ?_⟩
      · rw [mapFind_mapSet i1, if_neg hne]; exact i3 m hm hne
      · intro p fw hfin
        rcases (setFinal_final m1.tree.wf e' p 0).1 ⟨fw, hfin⟩ with rfl | ⟨fw', hfin⟩
        · exact m1.cur
        · unfold Final at hfin
          rw [m1.finals] at hfin
          exact m1.keeps.sub p (i5 p fw' hfin)
      · intro x y
        rw [← i6, ← m2]
        show AccRel A (setFinal e' 0 true t') t'.initial x y ↔ _
        unfold AccRel
        rw [m1.keeps.init]
        have hin : ∀ ls, Path (Edge t') (parOf n c.pars).initial ls e' ↔ X ls := by
          intro ls
          rw [m1.inn]
          constructor
          · rintro ⟨xs, ys, rfl, h1, h2⟩
            rw [i4.start xs h1]; exact h2
          · intro hX; exact ⟨[], ls, rfl, .nil _, hX⟩
        have hacc : ∀ ls, Acc (setFinal e' 0 true t') (parOf n c.pars).initial ls ↔ Acc (parOf n c.pars) (parOf n c.pars).initial ls ∨ X ls := by
          intro ls
          rw [setFinal_acc m1.tree.wf, m1.acc, hin]
        rw [rel_congr A hacc]
        unfold Rel
        simp only [or_and_right, exists_or]
      · intro h0
        have : ∃ fw, Final (setFinal e' 0 true t') e' fw := (setFinal_final m1.tree.wf e' e' 0).2 (.inl rfl)
        obtain ⟨fw, h1⟩ := this
        unfold Final at h1
        rw [h0] at h1
        simp at h1
  · refine ⟨c, by rw [hrt]; rfl, ⟨h.ok, h.tags, h.cur, ?_⟩, rfl, rfl⟩
    simpa only [hno, or_false] using h.inv

/-- An entry of a paradigm. -/
theorem parEntry (hacx : s.acx = []) {seen : List N} {n : N} (hn : n ∉ seen) {R : List Int → List Int → Prop} {c : Comp N W}
    (h : ParStage s f closed seen n R c) (e : CEntry N W)
    (hr : ∀ es, Visible s e.attrs ∧ e.content = some es → ∀ m, .par m ∈ es → m ∈ seen)
    (hf : ∀ es, Visible s e.attrs ∧ e.content = some es → Fits closed .any es)
    (hcl : closed n = true → ∀ es, Visible s e.attrs ∧ e.content = some es → Closed closed es) :
    ∃ c', procEntry s e c = .ok c' ∧ ParStage s f closed seen n (fun x y => R x y ∨ ERel1 s f e x y) c' ∧ c'.secs = c.secs ∧ c'.sect = c.sect := by
  by_cases hv : Visible s e.attrs
  case neg =>
    have : skipped s e.attrs = true := by
      rw [← Bool.not_eq_false, skipped_iff]; exact hv
    refine ⟨c, by rw [procEntry, if_pos this], ⟨h.ok, h.tags, h.cur, ?_⟩, rfl, rfl⟩
    have hE : ∀ x y, ¬ ERel1 s f e x y := by rintro x y ⟨es, ⟨h', -⟩, -⟩; exact hv h'
    simpa only [hE, or_false] using h.inv
  have hsk : skipped s e.attrs = false := (skipped_iff ..).2 hv
  cases hc : e.content with
  | none =>
    refine ⟨c, by rw [procEntry, hsk]; simp [hc], ⟨h.ok, h.tags, h.cur, ?_⟩, rfl, rfl⟩
    have hE : ∀ x y, ¬ ERel1 s f e x y := by rintro x y ⟨es, ⟨-, h'⟩, -⟩; rw [hc] at h'; cases h'
    simpa only [hE, or_false] using h.inv
  | some es =>
    have hE : ∀ x y, ERel1 s f e x y ↔ Gv s (G s f) es x y := by
      intro x y
      constructor
      · rintro ⟨es', ⟨-, h'⟩, h''⟩
        rw [hc] at h'; cases h'; exact h''
      · exact fun h => ⟨es, ⟨hv, hc⟩, h⟩
    have hr := hr es ⟨hv, hc⟩
    have hf := hf es ⟨hv, hc⟩
    have hcl := fun hb => hcl hb es ⟨hv, hc⟩
    obtain ⟨c', k1, k2, k3, k4⟩ := parContent hacx hn h (es.map (weigh e.weight e.junk)) (by rw [map_weigh]; exact hr) (by rw [map_weigh]; exact hf)
      (by rw [map_weigh]; exact hcl)
    rw [map_weigh] at k1 k2
    refine ⟨c', by rw [procEntry, hsk]; simpa [hc] using k1, ?_, k3, k4⟩
    simpa only [hE] using k2

theorem procNodes_append (s : Settings) (ns ms : List (Node N W)) (c c' : Comp N W) (h : procNodes s ns c = .ok c') :
    procNodes s (ns ++ ms) c = procNodes s ms c' := by
  induction ns generalizing c with
  | nil => cases h; rfl
  | cons n ns ih =>
    rw [procNodes] at h
    obtain ⟨c1, h1, h2⟩ := Res.bind_eq_ok.1 h
    rw [List.cons_append, procNodes, h1, Res.bind_ok]
    exact ih c1 h2

/-- The entries of a paradigm. -/
theorem parEntries (hacx : s.acx = []) {seen : List N} {n : N} (hn : n ∉ seen) (ents : List (CEntry N W)) {R : List Int → List Int → Prop} {c : Comp N W}
    (h : ParStage s f closed seen n R c)
    (hr : ∀ es, Uses s ents es → ∀ m, .par m ∈ es → m ∈ seen)
    (hf : ∀ es, Uses s ents es → Fits closed .any es)
    (hcl : closed n = true → ∀ es, Uses s ents es → Closed closed es) :
    ∃ c', procNodes s (ents.map .entry) c = .ok c' ∧ ParStage s f closed seen n (fun x y => R x y ∨ ERel s f ents x y) c' ∧
      c'.secs = c.secs ∧ c'.sect = c.sect := by
  induction ents generalizing R c with
  | nil =>
    refine ⟨c, rfl, ?_, rfl, rfl⟩
    simpa only [erel_nil, or_false] using h
  | cons e ents ih =>
    obtain ⟨c1, h1, h2, h3, h4⟩ := parEntry hacx hn h e (fun es he => hr es (uses_cons.2 (.inl he))) (fun es he => hf es (uses_cons.2 (.inl he)))
      (fun hb es he => hcl hb es (uses_cons.2 (.inl he)))
    obtain ⟨c2, k1, k2, k3, k4⟩ := ih h2 (fun es he => hr es (uses_cons.2 (.inr he))) (fun es he => hf es (uses_cons.2 (.inr he)))
      (fun hb es he => hcl hb es (uses_cons.2 (.inr he)))
    refine ⟨c2, ?_, ?_, k3.trans h3, k4.trans h4⟩
    · rw [List.map_cons, procNodes]
      show (procEntry s e c >>= fun x => procNodes s (ents.map .entry) x) = _
      rw [h1, Res.bind_ok]
      exact k1
    · simp only [erel_cons]
      simpa only [or_assoc] using k2

/-- The end of a paradigm. -/
theorem parEnd {seen : List N} {n : N} (hn : n ∉ seen) {c : Comp N W} (h : ParStage s f closed seen n (G s f n) c) :
    ∃ c', closePar c = .ok c' ∧ c'.alphabet = c.alphabet ∧ (∀ A, Ok A → Ext c.alphabet A → PInv A closed (G s f) (seen ++ [n]) c'.pars) ∧
      ((∃ x y, G s f n x y) → c'.current = none) ∧ c'.secs = c.secs ∧ c'.sect = c.sect := by
  by_cases h0 : (parOf n c.pars).finals = []
  · obtain ⟨i1, i2, i3, C, D, i4, i5, i6, i7⟩ := h.inv _ h.ok (.refl _)
    have he := i7 h0
    have hno : ∀ x y, ¬ G s f n x y := by
      intro x y hg
      obtain ⟨ls, h1, -⟩ := (i6 x y).2 hg
      rw [he] at h1
      exact acc_empty _ _ h1
    have hem : isEmpty (parOf n c.pars) = true := by rw [he]; rfl
    refine ⟨{ c with pars := mapSet n (parOf n c.pars) c.pars }, ?_, rfl, fun A hA hex => ?_, fun ⟨x, y, hg⟩ => absurd hg (hno x y), rfl, rfl⟩
    · unfold closePar
      rw [h.cur]
      simp only [hem, if_true]
    · obtain ⟨i1, i2, i3, -⟩ := h.inv A hA hex
      refine ⟨mapSet_sorted i1 _ _, ?_, ?_⟩
      · intro m hm
        rcases List.mem_append.1 hm with hm | hm
        · exact done_set i1 i2 hn _ m hm
        · obtain rfl : m = n := by simpa using hm
          exact .inr ⟨_, by rw [mapFind_mapSet i1, if_pos rfl], hem, hno⟩
      · intro m hm
        have hm' : m ∉ seen ∧ m ≠ n := by simpa using hm
        rw [mapFind_mapSet i1, if_neg hm'.2]
        exact i3 m hm'.1 hm'.2
  · have hem : isEmpty (parOf n c.pars) = false := by
      unfold isEmpty
      simp [h0]
    have hstep : ∀ A, Ok A → Ext c.alphabet A → ∃ t' o X, minimize 0 (parOf n c.pars) = .ok t' ∧ joinFinals 0 t' = .ok o ∧
        Part (Bd A closed n) (KA A) o X (fun _ => Bd (W := W) A closed n fun _ => true) ∧ ∀ x y, Rel A X x y ↔ G s f n x y := by
      intro A hA hex
      obtain ⟨i1, i2, i3, C, D, i4, i5, i6, i7⟩ := h.inv A hA hex
      obtain ⟨t', o, X, k1, k2, k3, k4⟩ := close_part hA i4 i5 h0
      exact ⟨t', o, X, k1, k2, k3, fun x y => (k4 x y).trans (i6 x y)⟩
    obtain ⟨t', o, -, k1, k2, -⟩ := hstep _ h.ok (.refl _)
    refine ⟨{ c with pars := mapSet n o c.pars, current := none }, ?_, rfl, fun A hA hex => ?_, fun _ => rfl, rfl, rfl⟩
    · unfold closePar
      rw [h.cur]
      simp only [hem, Bool.false_eq_true, if_false]
      rw [k1, Res.bind_ok, k2]
      rfl
    · obtain ⟨i1, i2, i3, -⟩ := h.inv A hA hex
      obtain ⟨t'', o', X, k1', k2', k3, k4⟩ := hstep A hA hex
      rw [k1] at k1'
      cases k1'
      rw [k2] at k2'
      cases k2'
      refine ⟨mapSet_sorted i1 _ _, ?_, ?_⟩
      · intro m hm
        rcases List.mem_append.1 hm with hm | hm
        · exact done_set i1 i2 hn _ m hm
        · obtain rfl : m = n := by simpa using hm
          refine .inl ⟨o, X, by rw [mapFind_mapSet i1, if_pos rfl], ⟨k3.wf, k3.known, ?_, k3.some, k3.bdd⟩, k4⟩
          obtain ⟨f', fw, h1, h2, h3⟩ := k3.ex
          refine ⟨f', fw, h1, fun c hc => h2 c ?_, h3⟩
          unfold folOf at hc
          split at hc
          · exact .inl ‹_›
          · exact hc.elim
      · intro m hm
        have hm' : m ∉ seen ∧ m ≠ n := by simpa using hm
        rw [mapFind_mapSet i1, if_neg hm'.2]
        exact i3 m hm'.1 hm'.2

/-- Between two paradigms. -/
structure Between (s : Settings) (f : File N W) (closed : N → Bool) (ps : List (N × List (CEntry N W))) (c : Comp N W) : Prop where
  ok : Ok c.alphabet
  tags : Ext (tagsOf f) c.alphabet
  inv : ∀ A, Ok A → Ext c.alphabet A → PInv A closed (G s f) (ps.map (·.1)) c.pars
  cur : (∀ qs p, ps = qs ++ [p] → ∃ x y, G s f p.1 x y) → c.current = none
  secs : c.secs = []

theorem nodup_split {ps qs : List (N × List (CEntry N W))} {p : N × List (CEntry N W)} (h : ((ps ++ p :: qs).map (·.1)).Nodup) :
    p.1 ∉ ps.map (·.1) := by
  rw [List.map_append, List.nodup_append, List.map_cons] at h
  exact fun hm => h.2.2 _ hm p.1 (by simp) rfl

/-- All paradigms. -/
theorem parAll (hreg : Regular s f closed) (qs ps : List (N × List (CEntry N W))) (hps : f.pars = ps ++ qs) {c : Comp N W}
    (h : Between s f closed ps c) : ∃ c', procNodes s (qs.flatMap parNodes) c = .ok c' ∧ Between s f closed f.pars c' := by
  induction qs generalizing ps c with
  | nil =>
    rw [List.append_nil] at hps
    exact ⟨c, rfl, hps ▸ h⟩
  | cons p qs ih =>
    obtain ⟨n, ents⟩ := p
    have hn : n ∉ ps.map (·.1) := nodup_split (p := (n, ents)) (hps ▸ hreg.names)
    have hmem : (n, ents) ∈ f.pars := by rw [hps]; simp
    have hst : ParStage s f closed (ps.map (·.1)) n (fun _ _ => False) { c with current := some n } := by
      refine ⟨h.ok, h.tags, rfl, fun A hA hex => ?_⟩
      have hp := h.inv A hA hex
      have hpar : parOf n c.pars = Fst.empty := by
        unfold parOf
        rw [hp.rest n hn]; rfl
      refine ⟨hp.sorted, hp.done, fun m hm _ => hp.rest m hm, ?_⟩
      simp only [hpar]
      refine ⟨_, _, tree_empty _ _, ?_, ?_, fun _ => trivial⟩
      · intro p fw hf
        rw [empty_eq] at hf; unfold Final at hf; simp at hf
      · intro x y
        simp only [iff_false]
        rintro ⟨ls, h1, -⟩
        exact acc_empty _ _ h1
    obtain ⟨c1, h1, h2, h3, h4⟩ := parEntries hreg.acx hn ents hst (hreg.order ps n ents qs hps) (hreg.parFits n ents hmem) (hreg.parClosed n ents hmem)
    have h2' : ParStage s f closed (ps.map (·.1)) n (G s f n) c1 := by
      have e : (fun x y => False ∨ ERel s f ents x y) = G s f n := by
        funext x y
        rw [false_or, propext (g_iff hreg.names hmem x y)]
      rw [← e]
      exact h2
    obtain ⟨c2, k1, k2, k3, k4, k5, k6⟩ := parEnd hn h2'
    have hb : Between s f closed (ps ++ [(n, ents)]) c2 := by
      refine ⟨k2 ▸ h2.ok, k2 ▸ h2.tags, fun A hA hex => ?_, fun hl => k4 (hl ps (n, ents) rfl), ?_⟩
      · rw [List.map_append]
        exact k3 A hA (k2 ▸ hex)
      · rw [k5, h3]; exact h.secs
    obtain ⟨c3, m1, m2⟩ := ih (ps ++ [(n, ents)]) (by rw [hps]; simp) hb
    refine ⟨c3, ?_, m2⟩
    rw [List.flatMap_cons, ← m1]
    refine procNodes_append _ _ _ _ _ ?_
    show (procNode s (.parOpen n) c >>= fun x => procNodes s (ents.map .entry ++ [.parClose]) x) = _
    rw [procNode, Res.bind_ok, procNodes_append _ _ _ _ _ h1]
    show (closePar c1 >>= fun x => procNodes s [] x) = _
    rw [k1]
    rfl

/-! ## Sections -/

/-- Between entries of sections; `S` are the pairs of each section so far. -/
structure SecStage (s : Settings) (f : File N W) (closed : N → Bool) (S : UString → List Int → List Int → Prop) (c : Comp N W) : Prop where
  ok : Ok c.alphabet
  tags : Ext (tagsOf f) c.alphabet
  cur : c.current = none
  sorted : SortedKeys c.secs
  none : ∀ k, mapFind k c.secs = none → ∀ x y, ¬ S k x y
  some : ∀ k x, mapFind k c.secs = some x → x.t.finals ≠ [] ∧ ∃ u v, S k u v
  inv : ∀ A, Ok A → Ext c.alphabet A → PInv A closed (G s f) (f.pars.map (·.1)) c.pars ∧
    ∀ k x, mapFind k c.secs = .some x → ∃ C D, SecInv A closed (G s f) x C D (S k)

theorem gv_some {A : Alphabet} {pars : List (N × Transducer W)} {G : N → List Int → List Int → Prop} (es : List (Token N))
    (hf : ∃ fo, Fits closed fo es) (h : ∀ m, .par m ∈ es → ParOk A closed G pars m) : ∃ x y, Gv s G es x y := by
  induction es with
  | nil => exact ⟨[], [], rfl, rfl⟩
  | cons k es ih =>
    obtain ⟨fo, hf⟩ := hf
    have hk : (∃ x y, Gv1 s G k x y) ∧ ∃ fo, Fits closed fo es := by
      cases k with
      | text l r => exact ⟨⟨_, _, rfl, rfl⟩, _, hf.2.2.2⟩
      | re er =>
        obtain ⟨⟨e, hv, rfl⟩, hf⟩ := hf
        obtain ⟨u, hu⟩ := Regex.Alt.some_means e hv
        exact ⟨⟨u, u, e, hv, rfl, hu, rfl⟩, _, hf⟩
      | par n =>
        obtain ⟨-, -, -, hg⟩ := (h n (by simp)).notEmpty
        exact ⟨hg, _, hf⟩
    obtain ⟨⟨x, y, h1⟩, hf'⟩ := hk
    obtain ⟨x', y', h2⟩ := ih hf' fun m hm => h m (List.mem_cons_of_mem _ hm)
    exact ⟨_, _, x, y, x', y', h1, h2, rfl, rfl⟩

theorem secInv_empty (A : Alphabet) (G : N → List Int → List Int → Prop) :
    SecInv A closed G ({} : Sec N W) (· = 0) (fun q c => q = 0 ∧ c ≠ 0) (fun _ _ => False) := by
  refine ⟨tree_empty _ _, .nil, .nil, ?_, ?_, fun m _ => ⟨0, fun ls h => absurd h (acc_empty _ _)⟩, fun u v => ?_⟩
  · intro n e he; cases he
  · intro n s p he; cases he
  simp only [iff_false]
  rintro ⟨ls, h1, -⟩
  exact acc_empty _ _ h1

theorem secInv_congr {A : Alphabet} {G : N → List Int → List Int → Prop} {x : Sec N W} {C : Nat → Prop} {D : Nat → Int → Prop}
    {R R' : List Int → List Int → Prop} (h : SecInv A closed G x C D R) (hR : ∀ u v, R u v ↔ R' u v) : SecInv A closed G x C D R' :=
  ⟨h.tree, h.presorted, h.sufsorted, h.pre, h.suf, h.bd, fun u v => (h.acc u v).trans (hR u v)⟩

/-- The elements of an entry of a section. -/
theorem secContent (hacx : s.acx = []) {S : UString → List Int → List Int → Prop} {c : Comp N W}
    (h : SecStage s f closed S c) (ws : List (W × Token N))
    (hr : ∀ m, .par m ∈ ws.map (·.2) → m ∈ f.pars.map (·.1)) (hf : Fits closed .any (ws.map (·.2))) :
    ∃ c', (do if ← readTokens c (ws.map (·.2)) then insertEntryTokens s ws c else pure c : Res (Comp N W)) = .ok c' ∧
      SecStage s f closed (fun k x y => S k x y ∨ (k = c.sect ∧ Gv s (G s f) (ws.map (·.2)) x y)) c' ∧ c'.sect = c.sect := by
  have hcn : ∀ m ∈ f.pars.map (·.1), c.current ≠ some m := by
    intro m hm e
    rw [h.cur] at e
    cases e
  rcases readTokens_spec s (h.inv _ h.ok (.refl _)).1.done (ws.map (·.2)) hr hcn with ⟨hrt, hgood⟩ | ⟨hrt, hno⟩
  case inr => exact ⟨c, by rw [hrt]; rfl, by simpa only [hno, and_false, or_false] using h, rfl⟩
  set x0 := (mapFind c.sect c.secs).getD {} with hx0
  obtain ⟨a', ha', hext, hspec⟩ := secTokens_spec s hacx closed (G s f) ws true .any hf c.alphabet h.ok
  have hinv0 : ∀ A, Ok A → Ext c.alphabet A → ∃ C D, SecInv A closed (G s f) x0 C D (S c.sect) := by
    intro A hA hex
    rw [hx0]
    cases hm : mapFind c.sect c.secs with
    | none =>
      refine ⟨_, _, secInv_congr (secInv_empty A (G s f)) fun u v => ?_⟩
      simp only [false_iff]
      exact h.none _ hm u v
    | some x => exact (h.inv A hA hex).2 _ _ hm
  have hstep : ∀ A, Ok A → Ext a' A → ∃ e' x' C D, secTokens s true ws c.alphabet c.pars x0.t.initial x0 = .ok (a', c.pars, e', x') ∧
      SecInv A closed (G s f) { x' with t := setFinal e' 0 true x'.t } C D (fun u v => S c.sect u v ∨ Gv s (G s f) (ws.map (·.2)) u v) := by
    intro A hA he
    have hp := (h.inv A hA (hext.trans he)).1
    obtain ⟨C, D, i⟩ := hinv0 A hA (hext.trans he)
    have hall : ∀ m, .par m ∈ (ws.map (·.2)) → ParOk A closed (G s f) c.pars m := by
      rcases readTokens_spec s hp.done (ws.map (·.2)) hr hcn with ⟨-, h2⟩ | ⟨h1, -⟩
      · exact h2
      · rw [hrt] at h1; cases h1
    obtain ⟨e', x', C', D', k1, k2⟩ := hspec A hA he c.pars hp.sorted hall x0 C D _ x0.t.initial _ i i.tree.cinit (fun c _ hc0 => i.tree.dinit c hc0)
      (inRel_init i.tree) fun _ => rfl
    exact ⟨e', x', C', D', k1, secInv_congr k2 fun u v => by rw [cat_nil_left]⟩
  obtain ⟨e', x', C, D, k1, k2⟩ := hstep a' ha' (.refl _)
  refine ⟨{ c with alphabet := a', secs := mapSet c.sect { x' with t := setFinal e' 0 true x'.t } c.secs }, ?_, ⟨ha', h.tags.trans hext, h.cur, mapSet_sorted h.sorted _ _, ?_, ?_, fun A hA hex => ⟨(h.inv A hA (hext.trans hex)).1, ?_⟩⟩, rfl⟩
  · rw [hrt]
    simp only [Res.bind_ok, if_true]
    unfold insertEntryTokens
    rw [h.cur]
    simp only
    rw [← hx0, k1]
    rfl
  · intro k hk x y
    simp only at hk
    rw [mapFind_mapSet h.sorted] at hk
    split at hk
    · cases hk
    · next hne => rintro (h' | ⟨h', -⟩); exact h.none k hk x y h'; exact hne h'
  · intro k x hk
    simp only at hk
    rw [mapFind_mapSet h.sorted] at hk
    split at hk
    · next heq =>
      cases hk
      subst heq
      refine ⟨?_, ?_⟩
      · have hl : (mapFind e' (mapInsert e' (0 : W) x'.t.finals)).isSome := by
          rw [mapFind_isSome_iff, mapInsert_eq_modify, mem_keys_modify]
          exact .inl rfl
        intro h0
        have h0 : mapInsert e' (0 : W) x'.t.finals = [] := h0
        rw [h0] at hl
        cases hl
      · obtain ⟨u, v, huv⟩ := gv_some (s := s) (ws.map (·.2)) ⟨_, hf⟩ hgood
        exact ⟨u, v, .inr ⟨rfl, huv⟩⟩
    · obtain ⟨h1, u, v, h2⟩ := h.some k x hk
      exact ⟨h1, u, v, .inl h2⟩
  · intro k x hk
    simp only at hk
    rw [mapFind_mapSet h.sorted] at hk
    split at hk
    · next heq =>
      cases hk
      subst heq
      obtain ⟨e'', x'', C, D, k1', k2⟩ := hstep A hA hex
      rw [k1] at k1'
      cases k1'
      exact ⟨C, D, secInv_congr k2 fun u v => by simp⟩
    · next hne =>
      obtain ⟨C, D, i⟩ := (h.inv A hA (hext.trans hex)).2 k x hk
      exact ⟨C, D, secInv_congr i fun u v => by simp [hne]⟩

/-- An entry of a section. -/
theorem secEntry (hacx : s.acx = []) {S : UString → List Int → List Int → Prop} {c : Comp N W}
    (h : SecStage s f closed S c) (e : CEntry N W)
    (hr : ∀ es, Visible s e.attrs ∧ e.content = some es → ∀ m, .par m ∈ es → m ∈ f.pars.map (·.1))
    (hf : ∀ es, Visible s e.attrs ∧ e.content = some es → Fits closed .any es) :
    ∃ c', procEntry s e c = .ok c' ∧ SecStage s f closed (fun k x y => S k x y ∨ (k = c.sect ∧ ERel1 s f e x y)) c' ∧ c'.sect = c.sect := by
  have hsame : (∀ x y, ¬ ERel1 s f e x y) → SecStage s f closed (fun k x y => S k x y ∨ (k = c.sect ∧ ERel1 s f e x y)) c := by
    intro hE
    simpa only [hE, and_false, or_false] using h
  by_cases hv : Visible s e.attrs
  case neg =>
    have : skipped s e.attrs = true := by
      rw [← Bool.not_eq_false, skipped_iff]; exact hv
    exact ⟨c, by rw [procEntry, if_pos this], hsame (by rintro x y ⟨es, ⟨h', -⟩, -⟩; exact hv h'), rfl⟩
  have hsk : skipped s e.attrs = false := (skipped_iff ..).2 hv
  cases hc : e.content with
  | none =>
    refine ⟨c, by rw [procEntry, hsk]; simp [hc], hsame ?_, rfl⟩
    rintro x y ⟨es, ⟨-, h'⟩, -⟩; rw [hc] at h'; cases h'
  | some es =>
    have hE : ∀ x y, ERel1 s f e x y ↔ Gv s (G s f) es x y := by
      intro x y
      constructor
      · rintro ⟨es', ⟨-, h'⟩, h''⟩
        rw [hc] at h'; cases h'; exact h''
      · exact fun h => ⟨es, ⟨hv, hc⟩, h⟩
    have hr := hr es ⟨hv, hc⟩
    have hf := hf es ⟨hv, hc⟩
    obtain ⟨c', k1, k2, k3⟩ := secContent hacx h (es.map (weigh e.weight e.junk)) (by rw [map_weigh]; exact hr) (by rw [map_weigh]; exact hf)
    rw [map_weigh] at k1 k2
    refine ⟨c', by rw [procEntry, hsk]; simpa [hc] using k1, ?_, k3⟩
    simpa only [hE] using k2

/-- The entries of a section. -/
theorem secEntries (hacx : s.acx = []) (ents : List (CEntry N W)) {S : UString → List Int → List Int → Prop} {c : Comp N W}
    (h : SecStage s f closed S c)
    (hr : ∀ es, Uses s ents es → ∀ m, .par m ∈ es → m ∈ f.pars.map (·.1)) (hf : ∀ es, Uses s ents es → Fits closed .any es) :
    ∃ c', procNodes s (ents.map .entry) c = .ok c' ∧ SecStage s f closed (fun k x y => S k x y ∨ (k = c.sect ∧ ERel s f ents x y)) c' := by
  induction ents generalizing S c with
  | nil =>
    refine ⟨c, rfl, ?_⟩
    simpa only [erel_nil, and_false, or_false] using h
  | cons e ents ih =>
    obtain ⟨c1, h1, h2, h3⟩ := secEntry hacx h e (fun es he => hr es (uses_cons.2 (.inl he))) (fun es he => hf es (uses_cons.2 (.inl he)))
    obtain ⟨c2, k1, k2⟩ := ih h2 (fun es he => hr es (uses_cons.2 (.inr he))) (fun es he => hf es (uses_cons.2 (.inr he)))
    refine ⟨c2, ?_, ?_⟩
    · rw [List.map_cons, procNodes]
      show (procEntry s e c >>= fun x => procNodes s (ents.map .entry) x) = _
      rw [h1, Res.bind_ok]
      exact k1
    · simp only [erel_cons]
      rw [h3] at k2
      simpa only [or_assoc, ← and_or_left] using k2

/-- All sections. -/
theorem secAll (hreg : Regular s f closed) (qs : List (UString × List (CEntry N W))) (hsub : ∀ p ∈ qs, p ∈ f.secs)
    {S : UString → List Int → List Int → Prop} {c : Comp N W} (h : SecStage s f closed S c) :
    ∃ c', procNodes s (qs.flatMap secNodes) c = .ok c' ∧
      SecStage s f closed (fun k x y => S k x y ∨ ∃ ents, (k, ents) ∈ qs ∧ ERel s f ents x y) c' := by
  induction qs generalizing S c with
  | nil =>
    refine ⟨c, rfl, ?_⟩
    simpa using h
  | cons p qs ih =>
    obtain ⟨k, ents⟩ := p
    have hmem := hsub (k, ents) (by simp)
    have h' : SecStage s f closed S { c with sect := k } := ⟨h.ok, h.tags, h.cur, h.sorted, h.none, h.some, h.inv⟩
    obtain ⟨c1, h1, h2⟩ := secEntries hreg.acx ents h' (hreg.refs k ents hmem) (hreg.secFits k ents hmem)
    have h2' : SecStage s f closed (fun k' x y => S k' x y ∨ (k' = k ∧ ERel s f ents x y)) { c1 with sect := [] } := ⟨h2.ok, h2.tags, h2.cur, h2.sorted, h2.none, h2.some, h2.inv⟩
    obtain ⟨c2, k1, k2⟩ := ih (fun p hp => hsub p (List.mem_cons_of_mem _ hp)) h2'
    refine ⟨c2, ?_, ?_⟩
    · rw [List.flatMap_cons, ← k1]
      refine procNodes_append _ _ _ _ _ ?_
      show (procNode s (.secOpen k) c >>= fun x => procNodes s (ents.map .entry ++ [.secClose]) x) = _
      rw [procNode, Res.bind_ok, procNodes_append _ _ _ _ _ h1]
      rfl
    · have e : (fun k' x y => S k' x y ∨ ∃ ents', (k', ents') ∈ (k, ents) :: qs ∧ ERel s f ents' x y) =
          fun k' x y => (S k' x y ∨ (k' = k ∧ ERel s f ents x y)) ∨ ∃ ents, (k', ents) ∈ qs ∧ ERel s f ents x y := by
        funext k' x y
        simp only [List.mem_cons, Prod.mk.injEq, or_and_right, exists_or, or_assoc, and_assoc, exists_and_left, exists_eq_left]
      rw [e]
      exact k2

/-! ## The whole file -/

/-- The pairs of a section in the order of the transducer. -/
def SecRel (s : Settings) (f : File N W) (k : UString) (x y : List Int) : Prop := SecGives s f k (sides s x y).1 (sides s x y).2

theorem secRel_iff {k : UString} {x y : List Int} : SecRel s f k x y ↔ ∃ ents, (k, ents) ∈ f.secs ∧ ERel s f ents x y := by
  unfold SecRel SecGives ERel
  simp only [gv_iff]

theorem tags_spec (ts : List UString) (c : Comp N W) (hc : Ok c.alphabet) :
    procNodes s (ts.map .sdef) c = .ok { c with alphabet := ts.foldl (fun a n => a.includeSymbol (0x3c :: n ++ [0x3e])) c.alphabet } ∧
      Ok (ts.foldl (fun a n => a.includeSymbol (0x3c :: n ++ [0x3e])) c.alphabet) := by
  induction ts generalizing c with
  | nil => exact ⟨rfl, hc⟩
  | cons n ts ih =>
    obtain ⟨h1, h2⟩ := ih { c with alphabet := c.alphabet.includeSymbol (0x3c :: n ++ [0x3e]) } (includeSymbol_spec hc _).1
    refine ⟨?_, h2⟩
    rw [List.map_cons, procNodes]
    show (Res.ok _ >>= fun x => procNodes s (ts.map .sdef) x) = _
    rw [Res.bind_ok, h1]
    rfl

/-- The state at the end of the file. -/
theorem nodes_spec (hreg : Regular s f closed) : ∃ c, procNodes s f.nodes ({} : Comp N W) = .ok c ∧ SecStage s f closed (SecRel s f) c := by
  obtain ⟨t1, t2⟩ := tags_spec (s := s) f.tags ({} : Comp N W) ok_empty
  have h0 : Between s f closed [] ({ alphabet := tagsOf f } : Comp N W) := by
    refine ⟨t2, .refl _, fun A hA hex => ⟨.nil, fun n hn => by simp at hn, fun n _ => rfl⟩, fun _ => rfl, rfl⟩
  obtain ⟨c, h1, h2⟩ := parAll hreg f.pars [] rfl h0
  have h3 : SecStage s f closed (fun _ _ _ => False) c := by
    refine ⟨h2.ok, h2.tags, h2.cur ?_, by rw [h2.secs]; exact .nil, fun _ _ _ _ => id, fun k x hk => ?_, fun A hA hex => ⟨h2.inv A hA hex, fun k x hk => ?_⟩⟩
    · rintro qs ⟨n, ents⟩ hq
      obtain ⟨l, r, hlr⟩ := hreg.last qs n ents hq
      refine ⟨(sides s l r).1, (sides s l r).2, ?_⟩
      unfold G
      rw [sides_sides]; exact hlr
    · rw [h2.secs] at hk; cases hk
    · rw [h2.secs] at hk; cases hk
  obtain ⟨c', k1, k2⟩ := secAll hreg f.secs (fun _ h => h) h3
  refine ⟨c', ?_, ?_⟩
  · rw [File.nodes, procNodes_append _ _ _ _ _ t1, ← k1]
    exact procNodes_append _ _ _ _ _ h1
  · have e : (fun k x y => False ∨ ∃ ents, (k, ents) ∈ f.secs ∧ ERel s f ents x y) = SecRel s f := by
      funext k x y
      rw [false_or, propext secRel_iff]
    rw [← e]
    exact k2

/-- All sections minimised. -/
theorem minimizeAll_spec {A : Alphabet} (hA : Ok A) (secs : List (UString × Sec N W)) (hs : SortedKeys secs)
    (h : ∀ e ∈ secs, e.2.t.finals ≠ [] ∧ (∃ C D R, SecInv A closed (G s f) e.2 C D R ∧ ∃ u v, R u v)) :
    ∃ ts, minimizeAll secs = .ok ts ∧ SortedKeys ts ∧ (∀ k, k ∈ ts.map (·.1) ↔ k ∈ secs.map (·.1)) ∧
      ∀ k t', (k, t') ∈ ts → ∃ x, (k, x) ∈ secs ∧ Minimal A x.t t' := by
  induction secs with
  | nil => exact ⟨[], rfl, .nil, fun _ => Iff.rfl, fun k t' h => by simp at h⟩
  | cons e secs ih =>
    obtain ⟨k, x⟩ := e
    obtain ⟨ts, h1, h2, h3, h4⟩ := ih hs.tail fun e he => h e (List.mem_cons_of_mem _ he)
    obtain ⟨hne, C, D, R, i, u, v, huv⟩ := h (k, x) (by simp)
    obtain ⟨ls, hls, -⟩ := (i.acc u v).2 huv
    obtain ⟨t', m1, m2⟩ := minimize_tree hA i.tree.wf i.tree.zero i.tree.known hne ⟨ls, hls⟩
    refine ⟨(k, t') :: ts, ?_, ?_, ?_, ?_⟩
    · rw [minimizeAll, m1, Res.bind_ok, h1]
      rfl
    · refine List.pairwise_cons.2 ⟨fun e he => ?_, h2⟩
      obtain ⟨e', he', e''⟩ := List.mem_map.1 ((h3 e.1).1 (List.mem_map_of_mem he))
      rw [← e'']
      exact (List.pairwise_cons.1 hs).1 e' he'
    · intro k'
      simp only [List.map_cons, List.mem_cons, h3]
    · intro k' t'' hm
      rcases List.mem_cons.1 hm with hm | hm
      · cases hm
        exact ⟨x, by simp, m2⟩
      · obtain ⟨x', hx', hm'⟩ := h4 k' t'' hm
        exact ⟨x', List.mem_cons_of_mem _ hx', hm'⟩

/-- The sections at the end of the file. -/
theorem stage_spec {c : Comp N W} (h2 : SecStage s f closed (SecRel s f) c) : ∃ ts, minimizeAll c.secs = .ok ts ∧ SortedKeys ts ∧
    (∀ k, k ∈ ts.map (·.1) ↔ ∃ x y, SecRel s f k x y) ∧
    ∀ k t, (k, t) ∈ ts → WF t ∧ Deterministic 0 t ∧ (∀ q < size t, (∃ ls, Path (Edge t) t.initial ls q) ∧ ∃ w, LangFrom 0 t q w) ∧
      (∀ q l p, Edge t q l p → KA c.alphabet l.1) ∧ AccBd c.alphabet t t.initial ∧ ∀ x y, AccRel c.alphabet t t.initial x y ↔ SecRel s f k x y := by
  obtain ⟨ts, k1, k2, k3, k4⟩ := minimizeAll_spec (s := s) (f := f) (closed := closed) h2.ok c.secs h2.sorted fun e he => by
    have hm := mapFind_of_mem h2.sorted (show (e.1, e.2) ∈ c.secs from he)
    obtain ⟨a1, a2⟩ := h2.some _ _ hm
    obtain ⟨C, D, i⟩ := (h2.inv _ h2.ok (.refl _)).2 _ _ hm
    exact ⟨a1, C, D, _, i, a2⟩
  refine ⟨ts, k1, k2, fun k => ?_, fun k t ht => ?_⟩
  · rw [k3, ← mapFind_isSome_iff]
    cases hm : mapFind k c.secs with
    | none => simp [h2.none k hm]
    | some x => simpa using (h2.some k x hm).2
  · obtain ⟨x, hx, m⟩ := k4 k t ht
    obtain ⟨C, D, i⟩ := (h2.inv _ h2.ok (.refl _)).2 _ _ (mapFind_of_mem h2.sorted hx)
    exact ⟨m.wf, m.det, m.useful, m.known, m.bd i.bd, fun x' y' => (m.rel x' y').trans (i.acc x' y')⟩

/-- Everything but the last check of `parse`. -/
theorem parse_spec (hreg : Regular s f closed) : ∃ A ts, Ok A ∧ Ext (tagsOf f) A ∧ parse s f.nodes = (if valid A ts then .ok (A, ts) else .exit) ∧ SortedKeys ts ∧
    (∀ k, k ∈ ts.map (·.1) ↔ ∃ x y, SecRel s f k x y) ∧
    ∀ k t, (k, t) ∈ ts → WF t ∧ Deterministic 0 t ∧ (∀ q < size t, (∃ ls, Path (Edge t) t.initial ls q) ∧ ∃ w, LangFrom 0 t q w) ∧
      (∀ q l p, Edge t q l p → KA A l.1) ∧ AccBd A t t.initial ∧ ∀ x y, AccRel A t t.initial x y ↔ SecRel s f k x y := by
  obtain ⟨c, h1, h2⟩ := nodes_spec hreg
  obtain ⟨ts, k1, k2, k3, k4⟩ := stage_spec h2
  refine ⟨c.alphabet, ts, h2.ok, h2.tags, ?_, k2, k3, k4⟩
  unfold parse
  rw [h1, Res.bind_ok, k1, Res.bind_ok]
  split <;> rfl

end

end Verif.Compiler
