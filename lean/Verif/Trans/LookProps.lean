import Verif.Trans.Lookup
import Verif.Trans.Props
import Verif.TmProc.Paths

/-! # C94: looking up a word -/

namespace Verif.Trans

open Verif.State Verif.Walk Verif.Gen
open Verif.Alphabet (Sym)

variable {W : Type} [AddMonoid W] [LinearOrder W] {σ : Setting W} {name : Int → UString}

omit [AddMonoid W] in
theorem lookupLoop_ok (hr : Gen.Regular σ name) (hf : Fewer σ.graph σ.root (flagWay σ) 65536) (ps : List UString) :
    ∀ (us : List Int) (st : List (Rec W)), Walk.Sound σ.graph σ.root (flagWay σ) us st →
      ∃ st', Walk.Sound σ.graph σ.root (flagWay σ) (us ++ ps.map (valOf σ.alphabet)) st' ∧ ∃ N, ∀ n ≥ N, lookupLoop σ n ps st = .ok st' := by
  induction ps with
  | nil => intro us st h; exact ⟨st, by simpa using h, 0, fun n _ => rfl⟩
  | cons p ps ih =>
    intro us st h
    obtain ⟨st1, h1, N1, e1⟩ := step_ok hr (fits_flag hf) h (valOf σ.alphabet p)
    obtain ⟨st2, h2, N2, e2⟩ := ih _ _ h1
    refine ⟨st2, by simpa using h2, max N1 N2, fun n hn => ?_⟩
    rw [lookupLoop, e1 n (by omega), Res.bind_ok, e2 n (by omega)]

/-- **C94** What `lookup` finds for a word of letters and tags: the outputs of the paths that read it, each once, the best first. Only a case-sensitive processor
reads anything at all, and it also reads any symbol by arcs for U+0001 (see `flagWay`). -/
theorem C94_lookup (hr : Gen.Regular σ name) (hf : Fewer σ.graph σ.root (flagWay σ) 65536) {ss : List Sym} (hne : ss ≠ []) (hw : ∀ x ∈ ss, x.Writable) :
    ∃ rs, Best (Trans σ name (flagWay σ) (ss.flatMap Sym.text) (ss.map (symOf σ.alphabet)) ss.length) rs ∧
      ∃ N, ∀ n ≥ N, lookup σ n (ss.flatMap Sym.text) = .ok (rs.map fun x => x.1 ++ σ.showWeight x.2) := by
  obtain ⟨st, h1, N, e1⟩ := init_ok hr (flagWay σ)
  have hps : Alphabet.pieces 0 (ss.flatMap Sym.text) = .ok (ss.map Sym.piece) := Alphabet.pieces_syms 0 (by decide) ss hw _ (le_refl _)
  have hval : (ss.map Sym.piece).map (valOf σ.alphabet) = ss.map (symOf σ.alphabet) := by
    rw [List.map_map]
    refine List.map_congr_left fun x hx => ?_
    have := hw x hx
    cases x with
    | letter u e => rfl
    | tag t =>
      obtain ⟨i, rfl, -⟩ := this
      cases i <;> rfl
  obtain ⟨st', h2, N', e2⟩ := lookupLoop_ok hr hf (ss.map Sym.piece) _ _ h1
  rw [hval, List.nil_append] at h2
  have hb : ss.flatMap Sym.text ≠ [] := by
    obtain ⟨x, ss', rfl⟩ := List.exists_cons_of_ne_nil hne
    simp [text_ne (hw x (by simp))]
  have hcs := cases_ok σ [] (ss.flatMap Sym.text) hb
  obtain ⟨rs, h3, h4⟩ := results_ok hr h2 (sound_length h2 hf) σ.alphabet (seq_names hr (fun _ _ => rfl) h2)
    (upperAt σ (ss.flatMap Sym.text) 0 && upperAt σ (ss.flatMap Sym.text) 1) (upperAt σ (ss.flatMap Sym.text) 0)
  refine ⟨rs, ?_, max N N', fun n hn => ?_⟩
  · unfold Trans
    rw [List.take_of_length_le (by simp)]
    exact h3
  · unfold lookup
    rw [e1 n (by omega)]
    have h5 : cases σ (ss.flatMap Sym.text) 0 = _ := hcs
    rw [h5, hps]
    simp only [ended, Res.bind_ok]
    rw [e2 n (by omega), Res.bind_ok]
    exact h4

/-- An entry of the dictionary for these symbols: what a path to a final node writes, with its weight. Each symbol counts as it is. -/
def Entry (σ : Setting W) (name : Int → UString) (xs : List Int) (t : UString) (w : W) : Prop :=
  ∃ ls p w0, Fst.Path (Arc σ.graph) σ.root ls p ∧ inputs ls = xs ∧ (p, w0) ∈ σ.finals ∧ w = w0 + ((written ls).map (·.2)).sum ∧
    t = mapText name id escapedCps (written ls)

omit [AddMonoid W] [LinearOrder W] in
/-- Without arcs for U+0001, what is read is what is there. -/
theorem walk_exact (hc : σ.caseSensitive = true) (h1 : ∀ q l p, Arc σ.graph q l p → l.1 ≠ 1) (xs : List Int) (h0 : 0 ∉ xs) (ls : List (Label W)) (wr : List (Int × W)) (ch : Bool)
    (p : Nat) : Walk σ.graph σ.root (flagWay σ) xs ls wr ch p ↔ Fst.Path (Arc σ.graph) σ.root ls p ∧ inputs ls = xs ∧ wr = written ls ∧ ch = false := by
  constructor
  · intro h
    induction h with
    | start => exact ⟨.nil _, rfl, rfl, rfl⟩
    | @empty xs ls wr ch p l p' _ e ha ih =>
      obtain ⟨k1, k2, k3, k4⟩ := ih h0
      refine ⟨k1.append (.cons ha (.nil _)), by rw [TmProc.inputs_snoc, if_pos e, k2], ?_, k4⟩
      rw [TmProc.written_snoc', k3]
      simp [e]
    | @read xs ls wr ch p l p' x _ e hy ha ih =>
      obtain ⟨k1, k2, k3, k4⟩ := ih (fun h => h0 (by simp [h]))
      have hx : l.1 = x := by
        rcases hy.2.2 with h | h
        · exact h
        · exact absurd h (h1 _ _ _ ha)
      refine ⟨k1.append (.cons ha (.nil _)), by rw [TmProc.inputs_snoc, if_neg e, k2, hx], ?_, by simp [k4, hx]⟩
      rw [TmProc.written_snoc', k3, if_neg (fun h => e h.1)]
      rfl
  · rintro ⟨k1, k2, rfl, rfl⟩
    induction ls using List.reverseRecOn generalizing xs p with
    | nil =>
      cases k1
      subst k2
      exact .start
    | append_singleton ls l ih =>
      obtain ⟨m, h3, h4⟩ := k1.split
      obtain ⟨m', h5, h6⟩ := Fst.path_cons_iff.1 h4
      rw [Fst.path_nil_iff] at h6
      subst h6
      rw [TmProc.inputs_snoc] at k2
      rw [TmProc.written_snoc']
      by_cases e : l.1 = 0
      · rw [if_pos e] at k2
        have := Walk.empty (ih xs h0 m h3 k2) e h5
        simpa [e] using this
      · rw [if_neg e] at k2
        subst k2
        have := Walk.read (y := flagWay σ) (x := l.1) (ih _ (fun h => h0 (by simp [h])) m h3 rfl) e ⟨hc, e, .inl rfl⟩ h5
        rw [if_neg (fun h => e h.1)]
        simpa [flagWay] using this

/-- **C94** A case-sensitive processor finds exactly the entries for a word of letters and known tags, if nothing in the dictionary reads U+0001. -/
theorem C94_exact (hr : Gen.Regular σ name) (hf : Fewer σ.graph σ.root (flagWay σ) 65536) (hc : σ.caseSensitive = true) (h1 : ∀ q l p, Arc σ.graph q l p → l.1 ≠ 1)
    {ss : List Sym} (hne : ss ≠ []) (hw : ∀ x ∈ ss, x.Writable) (hk : ∀ x ∈ ss, symOf σ.alphabet x ≠ 0) :
    ∃ rs, Best (Entry σ name (ss.map (symOf σ.alphabet))) rs ∧ ∃ N, ∀ n ≥ N, lookup σ n (ss.flatMap Sym.text) = .ok (rs.map fun x => x.1 ++ σ.showWeight x.2) := by
  obtain ⟨rs, h2, h3⟩ := C94_lookup hr hf hne hw
  refine ⟨rs, ?_, h3⟩
  have h0 : 0 ∉ ss.map (symOf σ.alphabet) := by
    intro h
    obtain ⟨x, hx, e⟩ := List.mem_map.1 h
    exact hk x hx e
  have : Trans σ name (flagWay σ) (ss.flatMap Sym.text) (ss.map (symOf σ.alphabet)) ss.length = Entry σ name (ss.map (symOf σ.alphabet)) := by
    funext t w
    unfold Trans Form Entry
    rw [List.take_of_length_le (by simp)]
    apply propext
    constructor
    · rintro ⟨ls, wr, ch, p, w0, k1, k2, k3, k4⟩
      obtain ⟨j1, j2, rfl, rfl⟩ := (walk_exact hc h1 _ h0 ls wr ch p).1 k1
      exact ⟨ls, p, w0, j1, j2, k2, k3, by simpa [formText] using k4⟩
    · rintro ⟨ls, p, w0, k1, k2, k3, k4, k5⟩
      exact ⟨ls, written ls, false, p, w0, (walk_exact hc h1 _ h0 ls _ _ p).2 ⟨k1, k2, rfl, rfl⟩, k3, k4, by simpa [formText] using k5⟩
  rw [← this]
  exact h2

/-! ## An example -/

/-- `ab<n>` -/
def abn : List Sym := [.letter 0x61 false, .letter 0x62 false, .tag [0x3c, 0x6e, 0x3e]]

theorem abn_writable : ∀ x ∈ abn, x.Writable := by
  intro x hx
  simp only [abn, List.mem_cons, List.not_mem_nil, or_false] at hx
  rcases hx with rfl | rfl | rfl
  · exact ⟨by decide, by decide, by decide⟩
  · exact ⟨by decide, by decide, by decide⟩
  · exact ⟨[0x6e], rfl, by decide⟩

example : Gen.Regular (demo true) demoName ∧ Fewer (demo true).graph (demo true).root (flagWay (demo true)) 65536 ∧ (demo true).caseSensitive = true ∧
    (∀ q l p, Arc (demo true).graph q l p → l.1 ≠ 1) ∧ abn ≠ [] ∧ (∀ x ∈ abn, x.Writable) ∧ (∀ x ∈ abn, symOf (demo true).alphabet x ≠ 0) ∧
    lookup (demo true) 100 (abn.flatMap Sym.text) = .ok [str "xy<n>"] := by
  refine ⟨(demo_regular true).base, demo_fewer _ true, rfl, ?_, by decide, abn_writable, by decide +kernel, by decide +kernel⟩
  have h1 : ∀ a ∈ Proc.arcsOf demoArcs, a.2.1.1 ≠ 1 := by decide
  exact fun q l p ha => h1 _ (Proc.mem_arcsOf ha)

/-! ## What does not hold -/

/-- **C94** Unless the processor is case-sensitive, which it is not by default, `lookup` finds no word whatsoever. -/
theorem C94_never_false (hr : Gen.Regular σ name) (hf : Fewer σ.graph σ.root (flagWay σ) 65536) (hc : σ.caseSensitive = false) {ss : List Sym} (hne : ss ≠ []) (hw : ∀ x ∈ ss, x.Writable) :
    ∃ N, ∀ n ≥ N, lookup σ n (ss.flatMap Sym.text) = .ok [] := by
  obtain ⟨rs, h2, h3⟩ := C94_lookup hr hf hne hw
  have : rs = [] := by
    by_contra hrs
    obtain ⟨⟨t, w⟩, rs', rfl⟩ := List.exists_cons_of_ne_nil hrs
    obtain ⟨⟨ls, wr, ch, p, w0, k1, -⟩, -⟩ := (h2.2.2 t w).1 (by simp)
    obtain ⟨x, ss', rfl⟩ := List.exists_cons_of_ne_nil hne
    have key : ∀ {xs ls wr ch p}, Walk σ.graph σ.root (flagWay σ) xs ls wr ch p → xs = [] := by
      intro xs ls wr ch p h
      induction h with
      | start => rfl
      | empty _ _ _ ih => exact ih
      | read _ _ hy _ _ => exact absurd (hc.symm.trans hy.1) (by decide)
    have := key k1
    simp at this
  rw [this] at h3
  exact h3

/-- `ab<n>` is a word of the dictionary, but it is not found. -/
example : Gen.Regular (demo false) demoName ∧ Fewer (demo false).graph (demo false).root (flagWay (demo false)) 65536 ∧ (demo false).caseSensitive = false ∧
    lookup (demo false) 100 (abn.flatMap Sym.text) = .ok [] :=
  ⟨(demo_regular false).base, demo_fewer _ false, rfl, by decide +kernel⟩

/-- U+1F600 is translated as `x`, and U+0001 as `y`. -/
def faces : Setting Nat := { demo true with
  graph := Proc.graphOf [((0, 0x1f600), [(0x78, 1, 0)]), ((0, 1), [(0x79, 1, 0)])]
  finals := [(1, 0)] }

/-- **C94** Letters beyond the basic plane are never found, and every other letter is found as U+0001. -/
theorem C94_letters_false : lookup faces 100 [0xd83d, 0xde00] = .ok [] ∧ lookup faces 100 (str "a") = .ok [str "y"] := by decide +kernel

end Verif.Trans
