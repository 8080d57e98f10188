import Verif.Load.Demo
import Verif.Proc.Props
import Verif.Gen.Props

/-! # C77: what `lt-proc` loads is what `lt-comp` wrote -/

namespace Verif.Load

open Verif.State Verif.Fst Verif.BinIO
open Verif.Compression (Dbl)

variable {W : Type}

section
variable {letters : UString} {a : Alphabet} {ts : List (UString × Transducer Dbl)}

/-- The setting that is loaded. -/
theorem load_ok (v : Dbl → W) (o : Proc.Setting W) (h : Fits letters a ts) (hk : ∀ e ∈ ts, ∃ κ, HasKind e.1 κ) :
    ∃ bs es ds σ, writeSet letters a ts = .ok bs ∧ loadAnalysis v o bs = .ok σ ∧ Tie a ts es ∧
      (∀ d, d ∈ ds ↔ ∃ b e, Placed 1 es b e ∧ d = (0, b + e.2.initial, v 0)) ∧
      (∀ κ, SortedKeys (finalsOf σ κ) ∧ ∀ x, x ∈ finalsOf σ κ ↔ FinalAt v 1 es (HasKind · κ) x) ∧
      ∃ ls : List UInt32, (∀ c, c ∈ ls ↔ c ∈ Compression.vec32 letters) ∧ σ = { o with
        graph := joined v ds es, root := 0, standard := σ.standard, inconditional := σ.inconditional, postblank := σ.postblank, preblank := σ.preblank,
        alphabet := a.includeSymbol ANY_CHAR, letters := ls.map fun c => (c.toNat : Int) } := by
  obtain ⟨bs, ls, es, h1, h2, h3, h4⟩ := loaded_file h
  obtain ⟨ds, h5, h6⟩ := rootArcs_ok (v := v) h3.sound 1
  obtain ⟨k, h7, h8⟩ := classifyFinals_ok (v := v) h3.sound (fun e he => by
    obtain ⟨s, hs, hn, -⟩ := h3.right e he
    rw [hn]; exact hk s hs) 1 {} (fun κ => by cases κ <;> exact .nil) (fun κ => by cases κ <;> exact fun x hx => (by cases hx))
  have h9 := h4 []
  rw [List.append_nil] at h9
  obtain ⟨σ, hσ⟩ : ∃ σ : Proc.Setting W, σ = { o with
      graph := joined v ds es, root := 0, standard := k.standard, inconditional := k.inconditional, postblank := k.postblank, preblank := k.preblank,
      alphabet := a.includeSymbol ANY_CHAR, letters := ls.map fun c => (c.toNat : Int) } := ⟨_, rfl⟩
  refine ⟨bs, es, ds, σ, h1, by unfold loadAnalysis; rw [hσ]; simp only [h9, h5, h7, Res.bind_ok], h3, h6, fun κ => ?_, ls, h2, by rw [hσ]⟩
  have e : finalsOf σ κ = k.get κ := by rw [hσ]; cases κ <;> rfl
  rw [e]
  refine ⟨(h8 κ).1, fun x => ((h8 κ).2 x).trans ?_⟩
  have e0 : (({} : Kinds W).get κ) = [] := by cases κ <;> rfl
  rw [e0]
  simp

/-- **C77** What `lt-comp` writes, `lt-proc` loads: the runs of the loaded graph that end in final nodes of a kind are the runs of the sections
of that kind, what can be read is what some section can read, and no final node has two weights. -/
theorem C77_load (v : Dbl → W) (o : Proc.Setting W) (h : Fits letters a ts) (hk : ∀ e ∈ ts, ∃ κ, HasKind e.1 κ) :
    ∃ bs σ, writeSet letters a ts = .ok bs ∧ loadAnalysis v o bs = .ok σ ∧
      (∀ κ xs ys w, Accepts σ.graph σ.root (finalsOf σ κ) xs ys w ↔ Together v a ts (HasKind · κ) xs ys w) ∧
      (∀ xs, (∃ ls p, Path (Arc σ.graph) σ.root ls p ∧ inputs ls = xs) ↔ Begins a ts xs) ∧
      ∀ p w, σ.weight p = some w ↔ ∃ κ, (p, w) ∈ finalsOf σ κ := by
  obtain ⟨bs, es, ds, σ, h1, h2, h3, h4, h5, ls, -, h6⟩ := load_ok v o h hk
  have hg : σ.graph = joined v ds es := by rw [h6]
  have hr : σ.root = 0 := by rw [h6]
  refine ⟨bs, σ, h1, h2, ?_, ?_, ?_⟩
  · intro κ xs ys w
    unfold Accepts Together
    rw [hg, hr]
    exact runs_joined h3 h4 (HasKind · κ) (finalsOf σ κ) (h5 κ).2 xs ys w
  · intro xs
    unfold Begins
    rw [hg, hr]
    exact live_joined h3 h4 xs
  · intro p w
    have hone : ∀ κ κ' w w', (p, w) ∈ finalsOf σ κ → (p, w') ∈ finalsOf σ κ' → w = w' := by
      intro κ κ' w w' g g'
      obtain ⟨b, e, q, u, g1, g2, g3, g4⟩ := ((h5 κ).2 _).1 g
      obtain ⟨b', e', q', u', g1', g2', g3', g4'⟩ := ((h5 κ').2 _).1 g'
      rw [Prod.mk.injEq] at g4 g4'
      obtain ⟨rfl, rfl, rfl⟩ := g1.unique g1' ((h3.sound _ g1.mem).finals _ g3) ((h3.sound _ g1'.mem).finals _ g3') (g4.1.symm.trans g4'.1)
      have s := (h3.sound _ g1.mem).sorted
      rw [g4.2, g4'.2]
      congr 1
      have e1 := mapFind_of_mem s g3
      have e2 := mapFind_of_mem s g3'
      rw [e1] at e2
      exact Option.some.inj e2
    have hf : ∀ κ u, mapFind p (finalsOf σ κ) = some u ↔ (p, u) ∈ finalsOf σ κ := fun κ u => mapFind_iff (h5 κ).1
    have e : σ.weight p = (mapFind p (finalsOf σ .standard)).or ((mapFind p (finalsOf σ .inconditional)).or
      ((mapFind p (finalsOf σ .postblank)).or (mapFind p (finalsOf σ .preblank)))) := rfl
    constructor
    · intro hw
      rw [e, Option.or_eq_some_iff, Option.or_eq_some_iff, Option.or_eq_some_iff] at hw
      rcases hw with hw | ⟨-, hw | ⟨-, hw | ⟨-, hw⟩⟩⟩
      · exact ⟨_, (hf _ _).1 hw⟩
      · exact ⟨_, (hf _ _).1 hw⟩
      · exact ⟨_, (hf _ _).1 hw⟩
      · exact ⟨_, (hf _ _).1 hw⟩
    · rintro ⟨κ, hw⟩
      cases hc : σ.weight p with
      | none =>
        rw [e, Option.or_eq_none_iff, Option.or_eq_none_iff, Option.or_eq_none_iff] at hc
        have := (hf κ w).2 hw
        exfalso
        cases κ
        · rw [hc.2.1] at this; cases this
        · rw [hc.1] at this; cases this
        · rw [hc.2.2.1] at this; cases this
        · rw [hc.2.2.2] at this; cases this
      | some u =>
        congr 1
        rw [e, Option.or_eq_some_iff, Option.or_eq_some_iff, Option.or_eq_some_iff] at hc
        rcases hc with hc | ⟨-, hc | ⟨-, hc | ⟨-, hc⟩⟩⟩
        · exact hone _ _ _ _ ((hf _ _).1 hc) hw
        · exact hone _ _ _ _ ((hf _ _).1 hc) hw
        · exact hone _ _ _ _ ((hf _ _).1 hc) hw
        · exact hone _ _ _ _ ((hf _ _).1 hc) hw

/-- **C77** With a section of any other name, the analyser does not start; generation does not look at the names. -/
theorem C77_unsupported (v : Dbl → W) (o : Proc.Setting W) (h : Fits letters a ts) (hk : ∃ e ∈ ts, ∀ κ, ¬ HasKind e.1 κ) :
    ∃ bs, writeSet letters a ts = .ok bs ∧ loadAnalysis v o bs = .exit := by
  obtain ⟨bs, ls, es, h1, h2, h3, h4⟩ := loaded_file h
  obtain ⟨ds, h5, h6⟩ := rootArcs_ok (v := v) h3.sound 1
  refine ⟨bs, h1, ?_⟩
  have h9 := h4 []
  rw [List.append_nil] at h9
  unfold loadAnalysis
  simp only [h9, h5, Res.bind_ok]
  rw [classifyFinals_exit]
  · rfl
  · obtain ⟨e, he, hn⟩ := hk
    obtain ⟨x, hx, hx', -⟩ := h3.left e he
    exact ⟨x, hx, fun κ => by rw [hx']; exact hn κ⟩

/-- **C77** The same for generation: the runs of the loaded graph are those of all sections. -/
theorem C77_loadGeneration (v : Dbl → W) (o : Gen.Setting W) (h : Fits letters a ts) :
    ∃ bs σ, writeSet letters a ts = .ok bs ∧ loadGeneration v o bs = .ok σ ∧
      (∀ xs ys w, Accepts σ.graph σ.root σ.finals xs ys w ↔ Together v a ts (fun _ => True) xs ys w) ∧
      (∀ xs, (∃ ls p, Path (Arc σ.graph) σ.root ls p ∧ inputs ls = xs) ↔ Begins a ts xs) ∧ (σ.finals.map (·.1)).Nodup := by
  obtain ⟨bs, ls, es, h1, h2, h3, h4⟩ := loaded_file h
  obtain ⟨ds, h5, h6⟩ := rootArcs_ok (v := v) h3.sound 1
  have h9 := h4 []
  rw [List.append_nil] at h9
  obtain ⟨h7, h8⟩ := allFinals_ok (v := v) h3.sound 1 [] .nil (by simp)
  have hl : loadGeneration v o bs = .ok { o with graph := joined v ds es, root := 0, finals := allFinals v 1 es [], alphabet := a.includeSymbol ANY_CHAR } := by
    unfold loadGeneration
    simp only [h9, h5, Res.bind_ok]
  refine ⟨bs, _, h1, hl, ?_, ?_, ?_⟩
  · intro xs ys w
    exact runs_joined h3 h6 (fun _ => True) (allFinals v 1 es []) (fun x => (h8 x).trans (by simp)) xs ys w
  · exact fun xs => live_joined h3 h6 xs
  · unfold List.Nodup
    rw [List.pairwise_map]
    exact h7.imp fun hab => by omega

/-! ## Starting -/

theorem names_joined {v : Dbl → W} {es : List (UString × TransExe)} {ds : List (Int × Nat × W)} {name : Int → UString} (ha : a.Ok) (hn : Named a ts name)
    (ht : Tie a ts es) (hds : ∀ d, d ∈ ds ↔ ∃ b e, Placed 1 es b e ∧ d = (0, b + e.2.initial, v 0)) (q : Nat) (l : Label W) (p : Nat)
    (h : Arc (joined v ds es) q l p) : l.2.2.1 < 0x110000 ∧ (l.2.2.1 < 0 → (a.includeSymbol ANY_CHAR).tagText l.2.2.1 = .ok (name l.2.2.1)) := by
  rcases arc_symbols ht hds h with h0 | ⟨e, he, q, c, w, p, h1, h2⟩
  · rw [h0]
    exact ⟨by decide, fun h => absurd h (by decide)⟩
  · obtain ⟨h3, h4⟩ := hn e he q c w p h1 _ _ h2
    refine ⟨h3, fun hc => ?_⟩
    have := (Alphabet.tagText_iff hc).1 (h4 hc)
    exact (Alphabet.tagText_iff hc).2 (this.mono (Alphabet.includeSymbol_spec ha ANY_CHAR).2.1)

theorem start_regular [LinearOrder W] (v : Dbl → W) (o : Proc.Setting W) (h : Fits letters a ts) (hk : ∀ e ∈ ts, ∃ κ, HasKind e.1 κ)
    (hl : ∀ e ∈ ts, NoLoop a (cut e.2)) {name : Int → UString} (hn : Named a ts name) (hr : Proc.Regular (bare o letters) name) {bs : List UInt8}
    (hb : writeSet letters a ts = .ok bs) {σ : Proc.Setting W} (hσ : loadAnalysis v o bs = .ok σ) : Proc.Regular σ name := by
  obtain ⟨bs', es, ds, σ', h1, h2, h3, h4, h5, ls, h6, h7⟩ := load_ok v o h hk
  rw [hb] at h1
  cases h1
  rw [hσ] at h2
  cases h2
  have hg : σ.graph = joined v ds es := by rw [h7]
  have hle : ∀ c : Int, c ∈ σ.letters ↔ c ∈ (bare o letters).letters := by
    intro c
    rw [h7]
    simp only [bare, List.mem_map, h6]
  have hal : ∀ c, σ.isAlphabetic c = (bare o letters).isAlphabetic c := by
    intro c
    unfold Proc.Setting.isAlphabetic
    have e1 : σ.chars = (bare o letters).chars := by rw [h7]; rfl
    rw [e1]
    congr 1
    rw [Bool.eq_iff_iff, List.contains_iff_mem, List.contains_iff_mem]
    exact hle c
  refine ⟨?_, ?_, ?_, ?_, ?_, ?_, ?_, ?_, ?_, ?_, ?_, ?_, ?_, ?_, ?_, ?_, ?_, ?_, ?_, ?_⟩
  · rw [h7]; exact hr.noCompounds
  · rw [h7]; exact hr.noRestore
  · rw [h7]; exact hr.sortPerm
  · rw [h7]; exact hr.sortLe
  · rw [h7]; exact hr.manyAnalyses
  · rw [h7]; exact hr.manyClasses
  · rw [h7]; exact hr.space
  · intro c hc
    rw [hal]
    exact hr.spaceAlpha c (by rw [h7] at hc; exact hc)
  · rw [h7]; exact hr.zeroSpace
  · rw [hal]; exact hr.zeroAlpha
  · rw [h7]; exact hr.zeroUpper
  · rw [h7]; exact hr.lowerZero
  · rw [h7]; exact hr.upperZero
  · rw [h7]; exact hr.upperRange
  · rw [h7]; exact hr.lowerText
  · exact fun c hc => hr.letters c ((hle c).1 hc)
  · exact (h5 .standard).1
  · rw [hg]; exact joined_finite h3.sound h4
  · rw [hg]; exact noCycle_joined h3 h4 hl
  · rw [hg]
    have e : σ.alphabet = a.includeSymbol ANY_CHAR := by rw [h7]
    rw [e]
    exact names_joined h.alphabet hn h3 h4

/-- Whether the dictionary has an entry that is empty or starts with a space. -/
def Refused (v : Dbl → W) (a : Alphabet) (ts : List (UString × Transducer Dbl)) : Prop :=
  (∃ ys w, Together v a ts (fun _ => True) [] ys w) ∨ Begins a ts [0x20]

/-- **C77** `lt-proc -a` refuses a file with an entry that is empty or starts with a space. With any other file it analyses the text, with the loaded
sections, in a setting for which the properties of the analyser were proved. -/
theorem C77_start [AddMonoid W] [LinearOrder W] (v : Dbl → W) (o : Proc.Setting W) (h : Fits letters a ts) (hk : ∀ e ∈ ts, ∃ κ, HasKind e.1 κ)
    (hl : ∀ e ∈ ts, NoLoop a (cut e.2)) {name : Int → UString} (hn : Named a ts name) (hr : Proc.Regular (bare o letters) name) :
    ∃ bs σ, writeSet letters a ts = .ok bs ∧ loadAnalysis v o bs = .ok σ ∧ Proc.Regular σ name ∧ ∃ N, ∀ n ≥ N, ∀ text,
      (Refused v a ts → ltProcAnalysis v o n bs text = .exit) ∧ (¬ Refused v a ts → ltProcAnalysis v o n bs text = Proc.analysis σ n text) := by
  obtain ⟨bs, σ, h1, h2, h3, h4, h5⟩ := C77_load v o h hk
  have hreg := start_regular v o h hk hl hn hr h1 h2
  obtain ⟨k, hfin⟩ := hreg.finite
  obtain ⟨b, N, h6, h7⟩ := valid_ok (root := σ.root) (finals := σ.allFinals) hfin hreg.noCycle
  have hmem : ∀ p w, (p, w) ∈ σ.allFinals ↔ σ.weight p = some w := by
    intro p w
    rw [← Proc.find_allFinals hreg.standard p, mapFind_iff]
    have s0 : SortedKeys σ.standard := hreg.standard
    unfold Proc.Setting.allFinals
    exact (Proc.addNew_spec _ _ (Proc.addNew_spec _ _ (Proc.addNew_spec _ _ s0).1).1).1
  have hb : b = true ↔ ¬ Refused v a ts := by
    rw [h7, h4]
    unfold Refused
    rw [not_or]
    refine and_congr_left' (not_congr ?_)
    constructor
    · rintro ⟨ls, p, w, g1, g2, g3⟩
      obtain ⟨κ, g4⟩ := (h5 p w).1 ((hmem p w).1 g3)
      obtain ⟨e, he, -, g5⟩ := (h3 κ [] (written ls) w).1 ⟨ls, p, g1, g2, rfl, g4⟩
      exact ⟨written ls, w, e, he, trivial, g5⟩
    · rintro ⟨ys, w, e, he, -, g⟩
      obtain ⟨κ, hκ⟩ := hk e he
      obtain ⟨ls, p, g1, g2, g3, g4⟩ := (h3 κ [] ys w).2 ⟨e, he, hκ, g⟩
      exact ⟨ls, p, w, g1, g2, (hmem p w).2 ((h5 p w).2 ⟨κ, g4⟩)⟩
  refine ⟨bs, σ, h1, h2, hreg, N, fun n hn text => ⟨fun hf => ?_, fun hf => ?_⟩⟩
  · have : b = false := by
      cases b with
      | true => exact absurd hf (hb.1 rfl)
      | false => rfl
    unfold ltProcAnalysis
    rw [h2, Res.bind_ok, h6 n hn, this]
    rfl
  · unfold ltProcAnalysis
    rw [h2, Res.bind_ok, h6 n hn, hb.2 hf]
    rfl

/-- **C77** The same for generation. -/
theorem C77_startGeneration [AddMonoid W] [LinearOrder W] (v : Dbl → W) (o : Gen.Setting W) (mode : Gen.Mode) (h : Fits letters a ts)
    (hl : ∀ e ∈ ts, NoLoop a (cut e.2)) {name : Int → UString} (hn : Named a ts name) (hr : Gen.Regular (bareGen o) name) :
    ∃ bs σ, writeSet letters a ts = .ok bs ∧ loadGeneration v o bs = .ok σ ∧ Gen.Regular σ name ∧ ∃ N, ∀ n ≥ N, ∀ text,
      (Refused v a ts → ltProcGeneration v o n mode bs text = .exit) ∧
      (¬ Refused v a ts → ltProcGeneration v o n mode bs text = Gen.generation σ n mode text) := by
  obtain ⟨bs, ls, es, h1, h2, h3, h4⟩ := loaded_file h
  obtain ⟨ds, h5, h6⟩ := rootArcs_ok (v := v) h3.sound 1
  have h9 := h4 []
  rw [List.append_nil] at h9
  obtain ⟨σ, hσ⟩ : ∃ σ : Gen.Setting W, σ = { o with graph := joined v ds es, root := 0, finals := allFinals v 1 es [], alphabet := a.includeSymbol ANY_CHAR } := ⟨_, rfl⟩
  have hld : loadGeneration v o bs = .ok σ := by
    unfold loadGeneration
    rw [hσ]
    simp only [h9, h5, Res.bind_ok]
  obtain ⟨bs', σ', g1, g2, g3, g4, g5⟩ := C77_loadGeneration v o h
  rw [h1] at g1
  cases g1
  rw [hld] at g2
  cases g2
  have hreg : Gen.Regular σ name := by
    have hg : σ.graph = joined v ds es := by rw [hσ]
    refine ⟨?_, ?_, ?_, ?_, ?_, ?_, ?_, ?_, ?_, g5, ?_, ?_, ?_⟩
    · rw [hσ]; exact (Alphabet.includeSymbol_spec h.alphabet ANY_CHAR).1
    · rw [hσ]; exact hr.sortPerm
    · rw [hσ]; exact hr.sortLe
    · rw [hσ]; exact hr.manyAnalyses
    · rw [hσ]; exact hr.manyClasses
    · rw [hσ]; exact hr.zeroUpper
    · rw [hσ]; exact hr.lowerZero
    · rw [hσ]; exact hr.upperZero
    · rw [hσ]; exact hr.upperRange
    · rw [hg]; exact joined_finite h3.sound h6
    · rw [hg]; exact noCycle_joined h3 h6 hl
    · rw [hg]
      have e : σ.alphabet = a.includeSymbol ANY_CHAR := by rw [hσ]
      rw [e]
      exact names_joined h.alphabet hn h3 h6
  obtain ⟨k, hfin⟩ := hreg.finite
  obtain ⟨b, N, h7, h8⟩ := valid_ok (root := σ.root) (finals := σ.finals) hfin hreg.noCycle
  have hb : b = true ↔ ¬ Refused v a ts := by
    rw [h8, g4]
    unfold Refused
    rw [not_or]
    refine and_congr_left' (not_congr ?_)
    constructor
    · rintro ⟨ls, p, w, k1, k2, k3⟩
      exact ⟨written ls, w, (g3 _ _ _).1 ⟨ls, p, k1, k2, rfl, k3⟩⟩
    · rintro ⟨ys, w, k⟩
      obtain ⟨ls, p, k1, k2, k3, k4⟩ := (g3 _ _ _).2 k
      exact ⟨ls, p, w, k1, k2, k4⟩
  refine ⟨bs, σ, h1, hld, hreg, N, fun n hn text => ⟨fun hf => ?_, fun hf => ?_⟩⟩
  · have : b = false := by
      cases b with
      | true => exact absurd hf (hb.1 rfl)
      | false => rfl
    unfold ltProcGeneration
    rw [hld, Res.bind_ok, h7 n hn, this]
    rfl
  · unfold ltProcGeneration
    rw [hld, Res.bind_ok, h7 n hn, hb.2 hf]
    rfl

/-- **C77** From the sections that `lt-comp` writes to the output of `lt-proc -a`: the text is divided into tokens by longest match in the sections. -/
theorem C77_analysis [AddMonoid W] [LinearOrder W] (v : Dbl → W) (o : Proc.Setting W) (h : Fits letters a ts) (hk : ∀ e ∈ ts, ∃ κ, HasKind e.1 κ)
    (hl : ∀ e ∈ ts, NoLoop a (cut e.2)) {name : Int → UString} (hn : Named a ts name) (hr : Proc.Regular (bare o letters) name) :
    ∃ bs σ, writeSet letters a ts = .ok bs ∧ loadAnalysis v o bs = .ok σ ∧ ∀ {ps : List Proc.Piece}, Proc.Few σ → Proc.Plain σ → Proc.Fit σ ps →
      ∃ toks, Proc.Tokens σ name ps toks ∧
        ∃ N, ∀ n ≥ N, ltProcAnalysis v o n bs (Input.bytes (ps.flatMap Proc.Piece.text)) = .ok (toks.flatMap Proc.Token.render) := by
  obtain ⟨bs, σ, h1, h2, hreg, N, h3⟩ := C77_start v o h hk hl hn hr
  refine ⟨bs, σ, h1, h2, fun {ps} hf hp hfit => ?_⟩
  obtain ⟨toks, h4, N', h5⟩ := Proc.C71_analysis hreg hf hp hfit
  refine ⟨toks, h4, max N N', fun n hn => ?_⟩
  rw [((h3 n (by omega) _).2 ?_), h5 n (by omega)]
  obtain ⟨bs', σ', g1, g2, g3, g4, g5⟩ := C77_load v o h hk
  rw [h1] at g1
  cases g1
  rw [h2] at g2
  cases g2
  rintro (⟨ys, w, e, he, -, g⟩ | hb)
  · obtain ⟨κ, hκ⟩ := hk e he
    obtain ⟨ls, p, k1, k2, -, k4⟩ := (g3 κ [] ys w).2 ⟨e, he, hκ, g⟩
    refine hp.noEmpty ?_
    have hin : Proc.In σ (finalsOf σ κ) [] := ⟨ls, p, w, ⟨k1, by rw [k2]; exact .nil⟩, k4⟩
    cases κ
    · exact .inr (.inl hin)
    · exact .inl hin
    · exact .inr (.inr (.inl hin))
    · exact .inr (.inr (.inr hin))
  · obtain ⟨ls, p, k1, k2⟩ := (g4 _).2 hb
    have := hp.noSpaceStart 0x20 ⟨ls, p, k1, by rw [k2]; exact .cons (.inl rfl) .nil⟩
    rw [hreg.space] at this
    cases this

end

/-! ## Examples -/

open Verif.Alphabet (exAlpha)

/-- All the conditions of `C77_load`, `C77_start` and `C77_startGeneration` are met. -/
example : Fits [] exAlpha demoSections ∧ (∀ e ∈ demoSections, ∃ κ, HasKind e.1 κ) ∧ (∀ e ∈ demoSections, NoLoop exAlpha (cut e.2)) ∧
    Named exAlpha demoSections Proc.demoName ∧ Proc.Regular (bare Proc.demo []) Proc.demoName ∧ Gen.Regular (bareGen Gen.demo) Proc.demoName :=
  ⟨demo_fits, demo_kinds, demo_noLoop, demo_named, demo_bare, demo_bareGen _⟩

/-- What `lt-comp` writes and `lt-proc -a` makes of it and of a text. -/
def demoOut (ts : List (UString × Transducer Dbl)) (text : List Nat) (out : UString) : Bool :=
  match writeSet [] exAlpha ts with
  | .ok bs => match ltProcAnalysis (fun _ => 0) Proc.demo 300 bs (Input.bytes text) with
    | .ok o => decide (o = out)
    | _ => false
  | _ => false

/-- The inconditional section cuts `aa`, but both take the whole of `aaa`. -/
example : demoOut demoSections ("aaa aa b\n".toList.map Char.toNat) ("^aaa/a<n>a$ ^a/a$^a/a$ ^b/*b$\n".toList.map fun c => UInt16.ofNat c.toNat) = true := by
  decide +kernel

/-- Without it, `aa` is unknown. -/
example : demoOut [(STANDARD, exBin)] ("aaa aa b\n".toList.map Char.toNat) ("^aaa/a<n>a$ ^aa/*aa$ ^b/*b$\n".toList.map fun c => UInt16.ofNat c.toNat) = true := by
  decide +kernel

/-- A section with a name that has no kind. -/
example : Fits [] exAlpha [(STANDARD.tail, exBin)] ∧ ∃ e ∈ [(STANDARD.tail, exBin)], ∀ κ, ¬ HasKind e.1 κ := by
  refine ⟨{ demo_fits with
    sections := ⟨by simp, by decide, fun e he => by
      rw [List.mem_singleton] at he
      subst he
      exact ⟨by decide, exBin_wf, exBin_inRange⟩⟩
    labels := fun e he => by
      rw [List.mem_singleton] at he
      subst he
      exact exBin_labels }, _, List.mem_singleton_self _, fun κ ⟨r, hr⟩ => ?_⟩
  have hm : (0x40 : UInt16) ∈ r ++ κ.ending := List.mem_append_right _ (by cases κ <;> decide)
  rw [← hr] at hm
  exact absurd hm (by decide)

end Verif.Load
