import Verif.TmProc.Kept

/-! # The memory after loading -/

namespace Verif.TmProc

open Verif.Fst Verif.State Verif.BinIO
open Verif.Alphabet (Ok HasPair)
open Verif.Compiler (dec KA)
open Verif.Load (Placed joined allFinals rootArcs)
open Verif.Compression (Dbl cut30)

variable {W : Type}

/-- The pairs of symbols along a path. -/
def couples (ls : List (Label W)) : List Pair := ls.map fun l => (l.1, l.2.2.1)

/-- The graph has these words, each on one path; the first arc of the path leads from `root` to the initial node of the transducer. -/
structure Holds (Q : List (List Pair)) (τ : Setting W) : Prop where
  first : ∀ ls p w, Path (Arc τ.graph) τ.root ls p → (p, w) ∈ τ.finals → ∃ k x ls', ls = (0, k, 0, x) :: ls' ∧ couples ls' ∈ Q
  stored : ∀ ps ∈ Q, ∃ k x ls p w, Path (Arc τ.graph) τ.root ((0, k, 0, x) :: ls) p ∧ (p, w) ∈ τ.finals ∧ couples ls = ps
  one : ∀ ls p w ls' p' w', Path (Arc τ.graph) τ.root ls p → (p, w) ∈ τ.finals → Path (Arc τ.graph) τ.root ls' p' → (p', w') ∈ τ.finals →
    couples ls.tail = couples ls'.tail → ls = ls'
  goes : ∀ ls p, Path (Arc τ.graph) τ.root ls p → inputs ls = [] ∨ ∃ ps ∈ Q, inputs ls <+: (ps.map (·.1)).filter (· ≠ 0)

theorem outs_nodup {a : Alphabet} (ha : Ok a) (i : Int) {r : Row Dbl} (h : (r.map (·.1)).Nodup) : ((outs a i r).map (·.1)).Nodup := by
  unfold List.Nodup at h ⊢
  rw [List.pairwise_map] at h ⊢
  refine List.Pairwise.filterMap _ ?_ h
  intro x y hxy b hb b' hb' e
  have key : ∀ (x : Int × Nat × Dbl) (b : Int × Nat × Dbl), (match a.decode x.1 with
      | .ok pr => if pr.1 = i then some (pr.2, x.2.1, x.2.2) else none
      | _ => none) = some b → HasPair a x.1 (i, b.1) := by
    intro x b hb
    cases hd : a.decode x.1 with
    | ok pr =>
      rw [hd] at hb
      simp only at hb
      split at hb
      · next e =>
        cases hb
        rw [← e]
        exact Alphabet.decode_iff.1 hd
      · cases hb
    | _ => rw [hd] at hb; cases hb
  have h1 := key x b hb
  have h2 := key y b' hb'
  rw [e] at h1
  exact hxy (h1.code_unique ha h2)

theorem arc_one {te : TransExe} {q : Nat} {i o : Int} (h : ((dests te q i).map (·.1)).Nodup) {k k' : Nat} {w w' : Dbl} {p p' : Nat}
    (h1 : Arc (graphOf te) q (i, k, o, w) p) (h2 : Arc (graphOf te) q (i, k', o, w') p') : k = k' ∧ w = w' ∧ p = p' := by
  obtain ⟨ds, g1, g2⟩ := h1
  obtain ⟨ds', g3, g4⟩ := h2
  simp only at g1 g2 g3 g4
  rw [g1] at g3
  cases g3
  have e : dests te q i = ds := by
    unfold dests
    unfold graphOf at g1
    rw [g1]
    rfl
  rw [e] at h
  have hk : k = k' := by
    have e1 : (ds.map (·.1))[k]? = some o := by rw [List.getElem?_map, g2]; rfl
    have e2 : (ds.map (·.1))[k']? = some o := by rw [List.getElem?_map, g4]; rfl
    obtain ⟨b1, e1⟩ := List.getElem?_eq_some_iff.1 e1
    obtain ⟨b2, e2⟩ := List.getElem?_eq_some_iff.1 e2
    exact (h.getElem_inj_iff).1 (e1.trans e2.symm)
  subst hk
  rw [g2] at g4
  simp only [Option.some.injEq, Prod.mk.injEq] at g4
  exact ⟨rfl, g4.2.2, g4.2.1⟩

theorem path_one {te : TransExe} (h : ∀ q i, ((dests te q i).map (·.1)).Nodup) : ∀ {ls ls' : List (Label Dbl)} {q p p' : Nat},
    Path (Arc (graphOf te)) q ls p → Path (Arc (graphOf te)) q ls' p' → couples ls = couples ls' → ls = ls' := by
  intro ls
  induction ls with
  | nil =>
    intro ls' q p p' _ _ e
    cases ls' with
    | nil => rfl
    | cons => cases e
  | cons l ls ih =>
    intro ls' q p p' h1 h2 e
    cases ls' with
    | nil => cases e
    | cons l' ls' =>
      obtain ⟨i, k, o, w⟩ := l
      obtain ⟨i', k', o', w'⟩ := l'
      simp only [couples, List.map_cons, List.cons.injEq, Prod.mk.injEq] at e
      obtain ⟨⟨rfl, rfl⟩, e⟩ := e
      obtain ⟨m, g1, g2⟩ := path_cons_iff.1 h1
      obtain ⟨m', g3, g4⟩ := path_cons_iff.1 h2
      obtain ⟨rfl, rfl, rfl⟩ := arc_one (h q i) g1 g3
      rw [ih g2 g4 e]

theorem couples_pairs (ls : List (Label Dbl)) : (pairs ls).map (·.1) = couples ls := by
  unfold pairs couples
  rw [List.map_map]
  rfl

theorem couples_lift (v : Dbl → W) (ls : List (Label Dbl)) : couples (ls.map (Load.lift v)) = couples ls := by
  unfold couples
  rw [List.map_map]
  rfl

theorem inputs_couples (ls : List (Label W)) : inputs ls = ((couples ls).map (·.1)).filter (· ≠ 0) := by
  unfold inputs couples
  rw [List.map_map]
  rfl

/-- Loading. -/
theorem load_holds {V : Type} [AddCommMonoid V] [LinearOrder V] {Q : List (List Pair)} {a : Alphabet} {t : Transducer V} (ha : Ok a)
    (hk : ∀ q l p, Edge t q l p → KA a l.1) (h : Exact Q a t) (g : V → Dbl) (hf : Load.Fits [] a [([], Chain.stored g t)])
    (v : Dbl → W) (ch : Chars) (sp : Bool) : ∃ bs τ, writeSet [] a [([], Chain.stored g t)] = .ok bs ∧ loadTM v ch sp bs = .ok τ ∧ τ.chars = ch ∧ τ.spaces = sp ∧
      τ.alphabet = a.includeSymbol Load.ANY_CHAR ∧ (∃ k, Finite τ.graph k) ∧ (∀ q, NoEpsCycle τ.graph q) ∧ Holds Q τ := by
  obtain ⟨bs, ls, h1, -, -, -, h5⟩ := set_roundtrip [] a _ hf.letters hf.alphabet hf.writable hf.sections
  obtain ⟨es, h6, h7⟩ := h5 hf.labels
  cases h6 with
  | @cons _ x _ _ h6 h8 =>
  cases h8
  obtain ⟨nm, te⟩ := x
  obtain ⟨h6, hl⟩ := h6
  simp only at h6 hl
  subst h6
  have hsg : SameGraph a (cut (Chain.stored g t)) te := Load.Loaded.same hl fun q c w p hp =>
    let ⟨w', hp'⟩ := Load.cut_edge hp; hf.labels _ (List.mem_singleton.2 rfl) q c w' p hp'
  have hsound : Load.Sound te := Load.sound_of_loaded (hf.sections.2.2 _ (List.mem_singleton.2 rfl)).2.1 hl
  have hall : ∀ e ∈ [(([] : UString), te)], Load.Sound e.2 := by
    intro e he
    rw [List.mem_singleton.1 he]
    exact hsound
  have htie : Load.Tie a [([], Chain.stored g t)] [([], te)] := by
    refine ⟨?_, ?_, hall⟩
    · intro e he
      rw [List.mem_singleton.1 he]
      exact ⟨_, List.mem_singleton.2 rfl, rfl, hsg⟩
    · intro e he
      rw [List.mem_singleton.1 he]
      exact ⟨_, List.mem_singleton.2 rfl, rfl, hsg⟩
  obtain ⟨ds, d1, d2⟩ := Load.rootArcs_ok (v := v) hall 1
  have hds : ds = [(0, 1 + te.initial, v 0)] := by
    rw [rootArcs, if_pos hsound.initial] at d1
    simpa [rootArcs, eq_comm] using d1
  obtain ⟨f1, f2⟩ := Load.allFinals_ok (v := v) hall 1 [] .nil (by simp)
  have h9 := h7 []
  rw [List.append_nil] at h9
  refine ⟨bs, ⟨ch, joined v ds [([], te)], 0, allFinals v 1 [([], te)] [], a.includeSymbol Load.ANY_CHAR, ls.map fun c => (c.toNat : Int), sp⟩, h1, ?_, rfl, rfl,
    rfl, ?_, ?_, ?_⟩
  · unfold loadTM
    simp only [h9, d1, Res.bind_ok]
  · exact Load.joined_finite hall d2
  · refine fun q => Load.noCycle_joined htie d2 ?_ q
    intro e he
    rw [List.mem_singleton.1 he, Chain.cut_stored]
    exact h.noLoop _
  · -- the words
    have hplaced : ∀ b e, Placed 1 [(([] : UString), te)] b e → b = 1 ∧ e = ([], te) := by
      intro b e hp
      cases hp with
      | here => exact ⟨rfl, rfl⟩
      | there hp => cases hp
    have hroot : ∀ (ls : List (Label W)) (p : Nat), Path (Arc (joined v ds [([], te)])) 0 ls p ↔ (ls = [] ∧ p = 0) ∨
        ∃ ls0 p0, ls = (0, 0, 0, v 0) :: ls0.map (Load.lift v) ∧ p = 1 + p0 ∧ p0 < te.nodes.length ∧ Path (Arc (graphOf te)) te.initial ls0 p0 := by
      intro ls p
      rw [Load.path_root hall d2]
      refine or_congr_right ?_
      constructor
      · rintro ⟨b, e, k, ls0, p0, k1, k2, k3, k4, k5, k6⟩
        obtain ⟨rfl, rfl⟩ := hplaced b e k1
        have : k = 0 := by
          rw [hds] at k2
          cases k with
          | zero => rfl
          | succ k => simp at k2
        subst this
        exact ⟨ls0, p0, k3, k4, k5, k6⟩
      · rintro ⟨ls0, p0, k3, k4, k5, k6⟩
        exact ⟨1, ([], te), 0, ls0, p0, .here, by rw [hds]; rfl, k3, k4, k5, k6⟩
    have hpath : ∀ (ls0 : List (Label Dbl)) (p0 : Nat), Path (Arc (graphOf te)) te.initial ls0 p0 → ∃ ms, Path (Edge t) t.initial ms p0 ∧ couples ls0 = ms.map fun l => dec a l.1 := by
      intro ls0 p0 k
      have k := path_pairs hsg k
      rw [hsg.initial, Chain.cut_stored] at k
      obtain ⟨ms, k1, k2⟩ := (Chain.path_stored _ hk).1 k
      refine ⟨ms, k1, ?_⟩
      rw [← couples_pairs, k2]
      unfold Chain.spell
      rw [List.map_map]
      rfl
    have hfin : ∀ p w, (p, w) ∈ allFinals v 1 [([], te)] [] ↔ ∃ p0 w0, p = 1 + p0 ∧ w = v w0 ∧ (p0, w0) ∈ te.finals := by
      intro p w
      rw [f2]
      constructor
      · rintro (k | ⟨b, e, p0, w0, k1, -, k2, k3⟩)
        · cases k
        · obtain ⟨rfl, rfl⟩ := hplaced b e k1
          cases k3
          exact ⟨p0, w0, rfl, rfl, k2⟩
      · rintro ⟨p0, w0, rfl, rfl, k⟩
        exact .inr ⟨1, ([], te), p0, w0, .here, trivial, k, rfl⟩
    have hfin' : ∀ p0, (∃ w0, (p0, w0) ∈ te.finals) ↔ ∃ w, Final t p0 w := by
      intro p0
      rw [hsg.finals, Chain.cut_stored]
      constructor
      · rintro ⟨w0, k⟩
        obtain ⟨w, k, -⟩ := (Chain.final_stored ..).1 k
        exact ⟨w, k⟩
      · rintro ⟨w, k⟩
        exact ⟨_, (Chain.final_stored _ _ _ _).2 ⟨w, k, rfl⟩⟩
    have hacc : ∀ (ls : List (Label W)) p w, Path (Arc (joined v ds [([], te)])) 0 ls p → (p, w) ∈ allFinals v 1 [([], te)] [] →
        ∃ ls0 p0, ls = (0, 0, 0, v 0) :: ls0.map (Load.lift v) ∧ Path (Arc (graphOf te)) te.initial ls0 p0 ∧ couples ls0 ∈ Q := by
      intro ls p w k1 k2
      obtain ⟨p1, w1, rfl, -, k3⟩ := (hfin p w).1 k2
      rcases (hroot ls _).1 k1 with ⟨-, k⟩ | ⟨ls0, p0, rfl, k4, -, k5⟩
      · omega
      · obtain rfl : p1 = p0 := by omega
        obtain ⟨ms, k6, k7⟩ := hpath ls0 p1 k5
        obtain ⟨w2, k8⟩ := (hfin' p1).1 ⟨w1, k3⟩
        refine ⟨ls0, p1, rfl, k5, ?_⟩
        rw [k7]
        exact h.words ms p1 w2 k6 k8
    have hnd : ∀ q i, ((dests te q i).map (·.1)).Nodup := by
      intro q i
      rw [((hsg.arcs q i).map _).nodup_iff]
      refine outs_nodup ha i ?_
      rw [Chain.cut_stored, Chain.row_stored, List.map_map]
      exact h.one q
    refine ⟨?_, ?_, ?_, ?_⟩
    · intro ls p w k1 k2
      obtain ⟨ls0, p0, rfl, -, k3⟩ := hacc ls p w k1 k2
      exact ⟨0, v 0, _, rfl, by rw [couples_lift]; exact k3⟩
    · intro ps hps
      obtain ⟨ms, p0, w0, k1, k2, k3⟩ := h.stored ps hps
      have k4 := (Chain.path_stored (fun w => cut30 (g w)) hk).2 ⟨ms, k1, rfl⟩
      rw [← Chain.cut_stored] at k4
      obtain ⟨ls0, k5, k6⟩ := pairs_path hsg k4
      obtain ⟨w1, k7⟩ := (hfin' p0).2 ⟨w0, k2⟩
      refine ⟨0, v 0, ls0.map (Load.lift v), 1 + p0, v w1, (hroot _ _).2 (.inr ⟨ls0, p0, rfl, rfl, hsound.finals _ k7, ?_⟩), (hfin _ _).2 ⟨p0, w1, rfl, rfl, k7⟩, ?_⟩
      · rw [hsg.initial]
        exact k5
      · rw [couples_lift, ← couples_pairs, k6, ← k3]
        unfold Chain.spell
        rw [List.map_map]
        rfl
    · intro ls p w ls' p' w' k1 k2 k3 k4 e
      obtain ⟨ls0, p0, rfl, k5, -⟩ := hacc ls p w k1 k2
      obtain ⟨ls0', p0', rfl, k6, -⟩ := hacc ls' p' w' k3 k4
      rw [List.tail_cons, List.tail_cons, couples_lift, couples_lift] at e
      rw [path_one hnd k5 k6 e]
    · intro ls p k1
      rcases (hroot ls _).1 k1 with ⟨rfl, -⟩ | ⟨ls0, p0, rfl, -, -, k5⟩
      · exact .inl rfl
      · have e : inputs ((0, 0, 0, v 0) :: ls0.map (Load.lift v)) = ((couples ls0).map (·.1)).filter (· ≠ 0) := by
          rw [← couples_lift v, ← inputs_couples]
          unfold inputs
          simp
        rw [e]
        obtain ⟨ms, k6, k7⟩ := hpath ls0 p0 k5
        rcases h.goes ms p0 k6 with rfl | ⟨ms', f, fw, k8, k9⟩
        · exact .inl (by rw [k7]; rfl)
        · refine .inr ⟨_, h.words _ f fw (k6.append k8) k9, ?_⟩
          rw [k7, List.map_append, List.map_append, List.filter_append]
          exact List.prefix_append _ _

end Verif.TmProc
