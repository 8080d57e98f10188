import Verif.Chain.Lemmas
import Verif.Load.Demo

/-! # Examples for C78 -/

namespace Verif.Chain

open Verif.Fst Verif.Alphabet Verif.Compiler
open Verif.State (Arc Label Graph)
open Verif.Compression (Dbl)
open Verif.BinIO (TransExe)

/-! ## Graphs with few paths -/

section
variable {W : Type}

/-- The arcs of the transducers, beginning with the number `base`. -/
def arcsFrom (v : Dbl → W) : (base : Nat) → List (UString × TransExe) → List (Nat × Label W × Nat)
  | _, [] => []
  | base, e :: es =>
    (e.2.nodes.zipIdx.flatMap fun m => m.1.flatMap fun r => r.2.zipIdx.map fun d => (base + m.2, (r.1, d.2, d.1.1, v d.1.2.2), base + d.1.2.1)) ++
      arcsFrom v (base + e.2.nodes.length) es

/-- All arcs. -/
def arcsAll (v : Dbl → W) (ds : List (Int × Nat × W)) (es : List (UString × TransExe)) : List (Nat × Label W × Nat) :=
  (ds.zipIdx.map fun d => (0, (0, d.2, d.1.1, d.1.2.2), d.1.2.1)) ++ arcsFrom v 1 es

theorem mem_of_mapFind {κ α : Type} [LinearOrder κ] {k : κ} {m : List (κ × α)} {a : α} (h : mapFind k m = some a) : (k, a) ∈ m := by
  induction m with
  | nil => cases h
  | cons e m ih =>
    simp only [mapFind] at h
    split at h
    · rename_i hk
      cases h
      rw [← hk]
      exact List.mem_cons_self
    · exact List.mem_cons_of_mem _ (ih h)

theorem mem_arcsFrom {v : Dbl → W} {q p : Nat} {l : Label W} (es : List (UString × TransExe)) : ∀ base, Arc (Load.graphFrom v base es) q l p → (q, l, p) ∈ arcsFrom v base es := by
  induction es with
  | nil => rintro base ⟨ds, h, -⟩; cases h
  | cons e es ih =>
    rintro base ⟨ds, h1, h2⟩
    simp only [Load.graphFrom] at h1
    split at h1
    · cases h1
    · split at h1
      · rename_i hb hq
        rw [Option.map_eq_some_iff] at h1
        obtain ⟨ds0, h3, rfl⟩ := h1
        rw [List.getElem?_map, Option.map_eq_some_iff] at h2
        obtain ⟨d, h4, h5⟩ := h2
        have hlt : q - base < e.2.nodes.length := by omega
        refine List.mem_append_left _ (List.mem_flatMap.2 ⟨(e.2.nodes.getD (q - base) [], q - base), ?_, List.mem_flatMap.2 ⟨_, mem_of_mapFind h3, List.mem_map.2 ⟨(d, l.2.1), ?_, ?_⟩⟩⟩)
        · rw [List.mem_zipIdx_iff_getElem?]
          simp [hlt]
        · rw [List.mem_zipIdx_iff_getElem?]
          exact h4
        · simp only [Prod.mk.injEq] at h5
          obtain ⟨h5, h6, h7⟩ := h5
          simp only [h5, h6, h7]
          rw [show base + (q - base) = q from by omega]
      · exact List.mem_append_right _ (ih _ ⟨ds, h1, h2⟩)

theorem mem_arcsAll {v : Dbl → W} {ds : List (Int × Nat × W)} {es : List (UString × TransExe)} {q p : Nat} {l : Label W} (h : Arc (Load.joined v ds es) q l p) :
    (q, l, p) ∈ arcsAll v ds es := by
  obtain ⟨ds', h1, h2⟩ := h
  unfold Load.joined at h1
  split at h1
  · rename_i hq
    split at h1
    · rename_i hl
      cases h1
      refine List.mem_append_left _ (List.mem_map.2 ⟨((l.2.2.1, p, l.2.2.2), l.2.1), ?_, ?_⟩)
      · rw [List.mem_zipIdx_iff_getElem?]
        exact h2
      · rw [hq, ← hl.1]
    · cases h1
  · exact List.mem_append_right _ (mem_arcsFrom es 1 ⟨ds', h1, h2⟩)

/-- The paths with at most `k` arcs. -/
def walks (as : List (Nat × Label W × Nat)) : (k : Nat) → (q : Nat) → List (List (Label W) × Nat)
  | 0, q => [([], q)]
  | k + 1, q => ([], q) :: (as.filter fun a => a.1 = q).flatMap fun a => (walks as k a.2.2).map fun e => (a.2.1 :: e.1, e.2)

theorem mem_walks {g : Graph W} {as : List (Nat × Label W × Nat)} (ha : ∀ q l p, Arc g q l p → (q, l, p) ∈ as) {p : Nat} (ls : List (Label W)) :
    ∀ {k q : Nat}, Path (Arc g) q ls p → ls.length ≤ k → (ls, p) ∈ walks as k q := by
  induction ls with
  | nil =>
    intro k q h _
    cases h
    cases k <;> simp [walks]
  | cons l ls ih =>
    intro k q h hk
    obtain ⟨r, h1, h2⟩ := path_cons_iff.1 h
    obtain ⟨k, rfl⟩ : ∃ k', k = k' + 1 := ⟨k - 1, by simp at hk; omega⟩
    have := ih h2 (by simpa using hk)
    simp only [walks, List.mem_cons, List.mem_flatMap, List.mem_filter, List.mem_map]
    right
    exact ⟨(q, l, r), ⟨ha _ _ _ h1, by simp⟩, (ls, p), this, rfl⟩

theorem mem_walks_all {g : Graph W} {as : List (Nat × Label W × Nat)} (ha : ∀ q l p, Arc g q l p → (q, l, p) ∈ as) {k q p : Nat}
    (hk : ∀ e ∈ walks as k q, e.1.length ≠ k) {ls : List (Label W)} (h : Path (Arc g) q ls p) : (ls, p) ∈ walks as k q := by
  refine mem_walks ha ls h ?_
  by_contra hno
  have e : ls = ls.take k ++ ls.drop k := (List.take_append_drop k ls).symm
  rw [e] at h
  obtain ⟨r, h1, -⟩ := h.split
  have hlen : (ls.take k).length = k := by rw [List.length_take]; omega
  exact hk _ (mem_walks ha _ h1 (by omega)) hlen

/-- Whether all paths of the loaded graph have fewer than `k` arcs, and there are few of them. -/
def fewCheck (v : Dbl → W) (k : Nat) (bs : List UInt8) : Bool :=
  match BinIO.exeSet bs with
  | .ok ((_, _, es), _) => match Load.rootArcs v 1 es with
    | .ok ds => (walks (arcsAll v ds es) k 0).all (fun e => e.1.length != k) && decide ((walks (arcsAll v ds es) k 0).length < 65536)
    | _ => false
  | _ => false

theorem few_of_check {v : Dbl → W} {k : Nat} {bs : List UInt8} (h : fewCheck v k bs = true) {o σ : Proc.Setting W} (hσ : Load.loadAnalysis v o bs = .ok σ) : Proc.Few σ := by
  unfold fewCheck at h
  cases hx : BinIO.exeSet bs with
  | ok x =>
    obtain ⟨⟨ls, a, es⟩, rest⟩ := x
    rw [hx] at h
    simp only at h
    cases hd : Load.rootArcs v 1 es with
    | ok ds =>
      rw [hd] at h
      simp only [Bool.and_eq_true, decide_eq_true_eq, List.all_eq_true, bne_iff_ne] at h
      unfold Load.loadAnalysis at hσ
      simp only [hx, hd, Res.bind_ok] at hσ
      obtain ⟨c, -, hσ⟩ := Res.bind_eq_ok.1 hσ
      cases hσ
      intro xs _ L hn hL
      have h1 := (hn.subperm (fun e he => mem_walks_all (fun q l p => mem_arcsAll) h.1 (hL e he).1 : L ⊆ walks (arcsAll v ds es) k 0)).length_le
      omega
    | _ => rw [hd] at h; cases h
  | _ => rw [hx] at h; cases h

end

/-! ## A dictionary -/

/-- The tags `n` and `v`; `ab` is `ab<n>`, `abs` is `ab<n><v>` by a paradigm, `.` is `.<v>` in a section in which words need not end where letters end. -/
def demoFile : File Nat Nat where
  tags := [[0x6e], [0x76]]
  pars := [(0, [entry [.text [] [-1]], entry [.text [0x73] [-1, -2]]])]
  secs := [(0x6d :: Load.STANDARD, [entry [.text [0x61, 0x62] [0x61, 0x62], .par 0]]), (0x70 :: Load.INCONDITIONAL, [entry [.text [0x2e] [0x2e, -2]]])]

theorem demoFile_regular : Regular {} demoFile (fun _ => true) := by
  refine ⟨rfl, by decide, ?_, ?_, ?_, ?_, ?_, ?_⟩
  · intro ps n ents qs h es hu m hm
    have := uses_mem hu
    match ps, h with
    | [], h =>
      simp only [demoFile, List.nil_append, List.cons.injEq, Prod.mk.injEq] at h
      obtain ⟨⟨rfl, rfl⟩, -⟩ := h
      simp only [entry, List.map_cons, List.map_nil, List.mem_cons, Option.some.injEq, List.not_mem_nil, or_false] at this
      rcases this with rfl | rfl <;> simp at hm
    | _ :: _, h => simp [demoFile] at h
  · intro k ents hk es hu m hm
    have := uses_mem hu
    simp only [demoFile, List.mem_cons, List.not_mem_nil, or_false, Prod.mk.injEq] at hk
    rcases hk with ⟨rfl, rfl⟩ | ⟨rfl, rfl⟩ <;>
      simp only [entry, List.map_cons, List.map_nil, List.mem_cons, Option.some.injEq, List.not_mem_nil, or_false] at this <;> subst this <;> simp at hm
    subst hm; simp [demoFile]
  · intro n ents hn es hu
    have := uses_mem hu
    simp only [demoFile, List.mem_cons, List.not_mem_nil, or_false, Prod.mk.injEq] at hn
    obtain ⟨rfl, rfl⟩ := hn
    simp only [entry, List.map_cons, List.map_nil, List.mem_cons, Option.some.injEq, List.not_mem_nil, or_false] at this
    rcases this with rfl | rfl <;> simp [Fits, FitsText]
  · intro k ents hk es hu
    have := uses_mem hu
    simp only [demoFile, List.mem_cons, List.not_mem_nil, or_false, Prod.mk.injEq] at hk
    rcases hk with ⟨rfl, rfl⟩ | ⟨rfl, rfl⟩ <;>
      simp only [entry, List.map_cons, List.map_nil, List.mem_cons, Option.some.injEq, List.not_mem_nil, or_false] at this <;> subst this <;> simp [Fits, FitsText]
  · intro n ents hn _ es hu
    have := uses_mem hu
    simp only [demoFile, List.mem_cons, List.not_mem_nil, or_false, Prod.mk.injEq] at hn
    obtain ⟨rfl, rfl⟩ := hn
    simp only [entry, List.map_cons, List.map_nil, List.mem_cons, Option.some.injEq, List.not_mem_nil, or_false] at this
    rcases this with rfl | rfl <;> simp [Closed]
  · intro ps n ents h
    match ps, h with
    | [], h =>
      simp only [demoFile, List.nil_append, List.cons.injEq, Prod.mk.injEq] at h
      obtain ⟨⟨rfl, rfl⟩, -⟩ := h
      exact ⟨[], [-1], gives_par.2 ⟨_, _, List.mem_cons_self, ⟨_, List.mem_cons_self, visible_plain _, rfl⟩, Gives.text (l := []) (r := [-1]) .nil⟩⟩
    | _ :: _, h => simp [demoFile] at h

/-- The pairs of the dictionary. -/
theorem demo_says {k : UString} {x y : List Int} : Says {} demoFile k x y →
    (k = 0x6d :: Load.STANDARD ∧ (x = [0x61, 0x62] ∧ y = [0x61, 0x62, -1] ∨ x = [0x61, 0x62, 0x73] ∧ y = [0x61, 0x62, -1, -2])) ∨
      (k = 0x70 :: Load.INCONDITIONAL ∧ x = [0x2e] ∧ y = [0x2e, -2]) := by
  rintro ⟨ents, hk, es, hu, h⟩
  simp only [sides] at h
  have := uses_mem hu
  simp only [demoFile, List.mem_cons, List.not_mem_nil, or_false, Prod.mk.injEq] at hk
  rcases hk with ⟨rfl, rfl⟩ | ⟨rfl, rfl⟩
  · simp only [entry, List.map_cons, List.map_nil, List.mem_cons, Option.some.injEq, List.not_mem_nil, or_false] at this
    subst this
    obtain ⟨l1, r1, l2, r2, h1, h2, hx, hy⟩ := gives_cons h
    obtain ⟨rfl, rfl⟩ := gives_text h1
    obtain ⟨ents, es, hp, hu, h3⟩ := gives_par.1 h2
    simp only [demoFile, List.mem_cons, List.not_mem_nil, or_false, Prod.mk.injEq, true_and] at hp
    subst hp
    have := uses_mem hu
    simp only [entry, List.map_cons, List.map_nil, List.mem_cons, Option.some.injEq, List.not_mem_nil, or_false] at this
    refine .inl ⟨rfl, ?_⟩
    simp only [Bool.false_eq_true, if_false] at hx hy
    rcases this with rfl | rfl
    · obtain ⟨rfl, rfl⟩ := gives_text h3
      exact .inl ⟨hx, hy⟩
    · obtain ⟨rfl, rfl⟩ := gives_text h3
      exact .inr ⟨hx, hy⟩
  · simp only [entry, List.map_cons, List.map_nil, List.mem_cons, Option.some.injEq, List.not_mem_nil, or_false] at this
    subst this
    obtain ⟨hx, hy⟩ := gives_text h
    simp only [Bool.false_eq_true, if_false] at hx hy
    exact .inr ⟨rfl, hx, hy⟩

/-- What `parse` gives. -/
def demoAlpha : Alphabet where
  slexic := [([0x3c, 0x6e, 0x3e], -1), ([0x3c, 0x76, 0x3e], -2)]
  slexicinv := [[0x3c, 0x6e, 0x3e], [0x3c, 0x76, 0x3e]]
  spair := [(toLex (0, -2), 3), (toLex (0, -1), 1), (toLex (0, 0), 0), (toLex (0x2e, 0x2e), 6), (toLex (0x61, 0x61), 4), (toLex (0x62, 0x62), 5), (toLex (0x73, -1), 2)]
  spairinv := [(0, 0), (0, -1), (0x73, -1), (0, -2), (0x61, 0x61), (0x62, 0x62), (0x2e, 0x2e)]

def demoSecs : List (UString × Transducer Nat) :=
  [(0x6d :: Load.STANDARD, ⟨0, [(3, 0)], [(0, [(4, 1, 0)]), (1, [(5, 2, 0)]), (2, [(1, 3, 0), (2, 4, 0)]), (3, []), (4, [(3, 3, 0)])]⟩),
    (0x70 :: Load.INCONDITIONAL, ⟨0, [(2, 0)], [(0, [(6, 1, 0)]), (1, [(3, 2, 0)]), (2, [])]⟩)]

theorem demo_parse : parse {} demoFile.nodes = .ok (demoAlpha, demoSecs) := by decide +kernel

theorem range_of {t : Transducer Nat} (h1 : Fst.size t < 2 ^ 30) (h2 : ∀ r ∈ t.transitions, r.2.length < 2 ^ 30 ∧ ∀ a ∈ r.2, 0 ≤ a.1 ∧ a.1 < 2 ^ 30) :
    BinIO.InRange 0 (stored (fun _ => 0) t) := by
  refine ⟨by decide, ?_, ?_, ?_, ?_⟩
  · unfold Fst.size at h1 ⊢
    unfold stored
    simpa using h1
  · intro r hr
    obtain ⟨r, hr', rfl⟩ := List.mem_map.1 hr
    simpa using (h2 r hr').1
  · intro q c w p hE
    obtain ⟨v, hE, rfl⟩ := (edge_stored ..).1 hE
    unfold Edge row at hE
    cases hm : mapFind q t.transitions with
    | none => rw [hm] at hE; cases hE
    | some r =>
    rw [hm] at hE
    have := (h2 _ (mem_of_mapFind hm)).2 _ hE
    simp only at this
    exact ⟨by omega, by omega, .inl ⟨rfl, rfl⟩⟩
  · intro q w hF
    obtain ⟨v, hF, rfl⟩ := (final_stored ..).1 hF
    exact .inl ⟨rfl, rfl⟩

theorem demo_range : ∀ e ∈ demoSecs, e.1.length < 2 ^ 30 ∧ BinIO.InRange 0 (stored (fun _ => 0) e.2) := by
  intro e he
  simp only [demoSecs, List.mem_cons, List.not_mem_nil, or_false] at he
  rcases he with rfl | rfl
  · exact ⟨by decide, range_of (by decide) (by decide)⟩
  · exact ⟨by decide, range_of (by decide) (by decide)⟩

theorem demo_small : Small (fun _ => 0) [] demoAlpha demoSecs where
  letters := by decide
  writable := by
    refine ⟨?_, by decide, by decide, by decide⟩
    intro s hs
    simp only [demoAlpha, List.mem_cons, List.not_mem_nil, or_false] at hs
    rcases hs with rfl | rfl
    · exact ⟨⟨[0x6e], rfl⟩, by decide⟩
    · exact ⟨⟨[0x76], rfl⟩, by decide⟩
  sections := by decide
  range := demo_range

theorem demo_tame : Tame (Load.bare Proc.demo []) {} demoFile where
  start k c x y h := by
    rcases demo_says h with ⟨-, ⟨h, -⟩ | ⟨h, -⟩⟩ | ⟨-, h, -⟩ <;> cases h <;> exact ⟨rfl, fun _ => by decide⟩
  space k x y h := by
    rcases demo_says h with ⟨-, ⟨rfl, -⟩ | ⟨rfl, -⟩⟩ | ⟨-, rfl, -⟩ <;> decide
  upper c h := by
    simp only [Load.bare, Proc.demo, Proc.demoChars, Proc.Setting.isAlphabetic, decide_eq_true_eq, Bool.or_eq_true] at h ⊢
    exact .inl (.inr h)
  symbols k x y h := by
    rcases demo_says h with ⟨-, ⟨-, rfl⟩ | ⟨-, rfl⟩⟩ | ⟨-, -, rfl⟩ <;> decide
  kinds k x y h := by
    rcases demo_says h with ⟨rfl, -⟩ | ⟨rfl, -⟩
    · exact ⟨.standard, [0x6d], rfl⟩
    · exact ⟨.inconditional, [0x70], rfl⟩
  tags := by decide

theorem bare_regular {name name' : Int → UString} (h : Proc.Regular (Load.bare Proc.demo []) name) : Proc.Regular (Load.bare Proc.demo []) name' :=
  { h with names := fun q l p h => by obtain ⟨ds, h, -⟩ := h; cases h }

/-- `Abs. ab abc b.` and a newline. -/
def demoText : List Proc.Piece := Proc.plainText "Abs. ab abc b." ++ [⟨[], .ch 0x0a⟩]

theorem demo_starts {xs : List Int} (h : (lexicon (Load.bare Proc.demo []) (tagName demoFile) {} demoFile).starts xs) : ∀ c ∈ xs, c ≠ 0x0a := by
  rcases h with rfl | ⟨k, x, y, zs, h1, h2⟩
  · intro c hc; cases hc
  · intro c hc
    obtain ⟨d, hd, hf⟩ := Proc.forall₂_mem h2 hc
    have hd' : d ∈ x ++ zs := List.mem_append_left _ hd
    have h3 : d = 0x61 ∨ d = 0x62 ∨ d = 0x73 ∨ d = 0x2e := by
      rcases demo_says h1 with ⟨-, ⟨h, -⟩ | ⟨h, -⟩⟩ | ⟨-, h, -⟩ <;> rw [h] at hd' <;> simp at hd' <;> omega
    rcases hf with hf | ⟨hf, -⟩
    · omega
    · rintro rfl
      exact absurd hf (by decide)

theorem demo_fit : Fit (lexicon (Load.bare Proc.demo []) (tagName demoFile) {} demoFile) (Load.bare Proc.demo []) demoText where
  ok := by
    have hch : ∀ c : Nat, (c < 0xd800 ∧ c ≠ 0 ∧ (c : Int) ∉ Proc.escapedCps ∧ c ≠ 0xad) → Proc.Piece.Ok (Load.bare Proc.demo []) ⟨[], .ch c⟩ := by
      rintro c ⟨h1, h2, h3, h4⟩
      refine ⟨fun d hd => (by cases hd), .inl h1, h2, by omega, h3, ?_⟩
      intro _
      simpa [Load.bare, Proc.demo] using h4
    intro p hp
    rcases List.mem_append.1 hp with hp | hp
    · obtain ⟨c, hc, rfl⟩ := List.mem_map.1 hp
      have : ∀ c ∈ "Abs. ab abc b.".toList.map Char.toNat, c < 0xd800 ∧ c ≠ 0 ∧ (c : Int) ∉ Proc.escapedCps ∧ c ≠ 0xad := by decide +kernel
      exact hch _ (this _ (List.mem_map_of_mem hc))
    · rw [List.mem_singleton.1 hp]
      exact hch 0x0a (by decide)
  ends := by
    intro qs p e
    have hl : demoText.getLast? = some p := by rw [e]; simp
    obtain rfl : p = ⟨[], .ch 0x0a⟩ := by
      unfold demoText at hl
      rw [List.getLast?_concat, Option.some.injEq] at hl
      exact hl.symm
    exact ⟨rfl, fun xs hx hm => demo_starts hx _ hm rfl⟩
  short := by
    intro us ys zs q ws e _ _
    have h1 := congrArg List.length e
    have h2 : demoText.length = 15 := by decide +kernel
    simp only [List.length_append, List.length_cons] at h1 ⊢
    omega

/-- The file. -/
def demoBytes : List UInt8 :=
  match ltComp (fun _ => 0) (fun _ => false) {} [] demoFile.nodes with
  | .ok bs => bs
  | _ => []

theorem demo_few {σ : Proc.Setting Nat} (h : Load.loadAnalysis (fun _ => 0) Proc.demo demoBytes = .ok σ) : Proc.Few σ :=
  few_of_check (k := 7) (by decide +kernel) h

end Verif.Chain
