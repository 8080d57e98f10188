import Verif.Trans.Run
import Verif.Trans.Demo

/-! # Properties of the functions that translate one unit -/

namespace Verif.Trans

open Verif.State Verif.Walk
open Verif.Gen (Setting Form slashed)
open Verif.Alphabet (Sym)

variable {W : Type} [AddMonoid W] [LinearOrder W] {σ : Setting W} {name : Int → UString}

/-- **C75** For a unit, `biltrans` returns the translations of the longest part at the start that has some, the best first, with a rest after each; or
the unit with the mark `@`. This is done with the unit without its last character, and the rest is what is after all that can be read. -/
theorem C75_biltrans (hr : Regular σ name) (hf : Fewer σ.graph σ.root (flagWay σ) 65536) {s : LexUnit} (hw : s.WF) (delim : Bool) :
    ∃ out, (∃ N, ∀ n ≥ N, biltrans σ n (s.text delim) delim = .ok out) ∧
      ((Lacks σ name (flagWay σ) (s.shown delim) (shorn s.syms) ∧ out = unknown s delim) ∨
        ∃ ts q, Finds σ name (flagWay σ) (s.shown delim) (shorn s.syms) ts q ∧ out = framed delim s.mark (ts.map (· ++ q))) := by
  obtain ⟨x, h0, out, h1, h2⟩ := answer_ok hr.base hf hw delim fun x rs queue => compose rs queue delim x.mark
  refine ⟨out, h1, ?_⟩
  rw [h0.mark] at h2
  simpa only [compose_eq] using h2

/-- **C75** `biltransWithoutQueue` returns the translations of a unit only if there is no rest. -/
theorem C75_without_queue (hr : Regular σ name) (hf : Fewer σ.graph σ.root (flagWay σ) 65536) {s : LexUnit} (hw : s.WF) (delim : Bool) :
    ∃ out, (∃ N, ∀ n ≥ N, biltransWithoutQueue σ n (s.text delim) delim = .ok out) ∧
      ((Lacks σ name (flagWay σ) (s.shown delim) (shorn s.syms) ∧ out = unknown s delim) ∨
        ∃ ts q, Finds σ name (flagWay σ) (s.shown delim) (shorn s.syms) ts q ∧ out = if q = [] then framed delim s.mark ts else unknown s delim) := by
  obtain ⟨x, h0, out, h1, h2⟩ := answer_ok hr.base hf hw delim fun x rs queue => if queue.isEmpty then compose rs [] delim x.mark else absent (s.text delim) delim
  refine ⟨out, h1, ?_⟩
  rw [h0.mark] at h2
  simpa only [compose_eq, absent_eq, List.append_nil, List.map_id', List.isEmpty_iff] using h2

/-- **C75** `biltransfull` returns the translations of a unit only if its text has at most four characters. -/
theorem C75_full (hr : Regular σ name) (hf : Fewer σ.graph σ.root (flagWay σ) 65536) {s : LexUnit} (hw : s.WF) (delim : Bool) :
    ∃ out, (∃ N, ∀ n ≥ N, biltransfull σ n (s.text delim) delim = .ok out) ∧
      ((Lacks σ name (flagWay σ) (s.shown delim) (shorn s.syms) ∧ out = unknown s delim) ∨
        ∃ ts q, Finds σ name (flagWay σ) (s.shown delim) (shorn s.syms) ts q ∧
          out = if s.body.length ≤ 4 ∧ 4 ≤ (s.front delim).length + s.body.length then framed delim s.mark (ts.map (· ++ q)) else [0x5e, 0x24]) := by
  obtain ⟨x, h0, out, h1, h2⟩ := answer_ok hr.base hf hw delim fun x rs queue => if x.start < x.stop - 3 then [0x5e, 0x24] else compose rs queue delim x.mark
  refine ⟨out, h1, ?_⟩
  have hb := List.length_pos_iff.2 (body_ne hw)
  have hl : s.body.length < 2 ^ 31 := by
    have h1 := hw.short
    have h2 : s.inner.length = (if s.mark then [0x3d] else [] : UString).length + s.body.length := List.length_append
    omega
  have hfl := front_length s delim
  have hc : x.start < x.stop - 3 ↔ ¬ (s.body.length ≤ 4 ∧ 4 ≤ (s.front delim).length + s.body.length) := by
    have h1 := h0.start
    have h2 := h0.stop
    rw [UInt32.lt_iff_toNat_lt, UInt32.toNat_sub]
    rw [show (3 : UInt32).toNat = 3 from rfl]
    have hs : (s.front delim).length ≤ 2 := by rw [hfl]; split <;> split <;> omega
    rcases Nat.lt_or_ge x.stop.toNat 3 with h | h
    · have : (2 ^ 32 - 3 + x.stop.toNat) % 2 ^ 32 = 2 ^ 32 - 3 + x.stop.toNat := Nat.mod_eq_of_lt (by omega)
      omega
    · have : (2 ^ 32 - 3 + x.stop.toNat) % 2 ^ 32 = x.stop.toNat - 3 := by
        rw [show 2 ^ 32 - 3 + x.stop.toNat = x.stop.toNat - 3 + 2 ^ 32 by omega, Nat.add_mod_right]
        exact Nat.mod_eq_of_lt (by omega)
      omega
  rw [h0.mark] at h2
  simp only [compose_eq, hc, ite_not] at h2
  exact h2

/-- The unit has a tag, or is the whole of an entry. -/
def Complete (σ : Setting W) (name : Int → UString) (y : Way) (t : UString) (ss : List Sym) : Prop :=
  (∃ g, Sym.tag g ∈ ss) ∨ ∃ o w, Trans σ name y t (ss.map (symOf σ.alphabet)) ss.length o w

/-- **C75** `biltransWithQueue` returns the same as `biltrans`, with the length of the rest. Upper-case letters are also read as lower-case letters, and units
without tags must be whole entries. If nothing was found but the unit is the start of an entry, it returns a unit without translations. -/
theorem C75_with_queue (hr : Regular σ name) (hf : Fewer σ.graph σ.root (Gen.way σ false) 65536) {s : LexUnit} (hw : s.WF) (delim : Bool) :
    ∃ out len, (∃ N, ∀ n ≥ N, biltransWithQueue σ n (s.text delim) delim = .ok (out, len)) ∧
      let y := Gen.way σ false
      let t := s.shown delim
      let ss := shorn s.syms
      ((∃ ts q, Finds σ name y t ss ts q ∧ Complete σ name y t ss ∧ out = framed delim s.mark (ts.map (· ++ q)) ∧ len = q.length) ∨
        (Lacks σ name y t ss ∧ Read σ y (ss.map (symOf σ.alphabet)) ∧ Complete σ name y t ss ∧ out = framed delim s.mark [] ∧ len = 0) ∨
        (((Lacks σ name y t ss ∧ ¬ Read σ y (ss.map (symOf σ.alphabet))) ∨ ¬ Complete σ name y t ss) ∧ out = unknown s delim ∧ len = 0)) := by
  obtain ⟨x, h1, h2⟩ := wordOf_ok σ hw delim
  obtain ⟨st, ⟨N0, h3⟩, r, ⟨N1, h4⟩, h5⟩ := found_ok hr.base (fits_case hr hf) hw (s.shown delim)
  have hp : Alphabet.pieces x.past x.text = .ok ((shorn s.syms).map Sym.piece) := by
    rw [h2.past, h2.text]
    exact pieces_shorn hw.nonempty hw.writable hw.last
  have htag : ((shorn s.syms).map Sym.piece).any (fun p => decide (p.length ≠ 1)) = true ↔ ∃ g, Sym.tag g ∈ shorn s.syms := by
    rw [List.any_eq_true]
    constructor
    · rintro ⟨p, hp, hl⟩
      obtain ⟨z, hz, rfl⟩ := List.mem_map.1 hp
      cases z with
      | letter u e => simp [Sym.piece] at hl
      | tag g => exact ⟨g, hz⟩
    · rintro ⟨g, hg⟩
      obtain ⟨i, rfl, -⟩ := hw.writable _ (mem_shorn hg)
      exact ⟨_, List.mem_map.2 ⟨_, hg, rfl⟩, by simp [Sym.piece]⟩
  have run : ∀ n ≥ max N0 N1, biltransWithQueue σ n (s.text delim) delim =
      queueAnswer σ (s.text delim) delim x (((shorn s.syms).map Sym.piece).any fun p => decide (p.length ≠ 1)) r := by
    intro n hn
    unfold biltransWithQueue
    rw [h1]
    simp only [Res.bind_ok]
    rw [h3 n (by omega), hp, h2.firstupper, h2.uppercase]
    simp only [Gen.ended, Res.bind_ok]
    rw [h4 n (by omega)]
    simp only [Res.bind_ok]
  match r, h5, run with
  | none, h5, run => exact ⟨_, _, ⟨_, run⟩, .inr (.inr ⟨.inl h5, absent_eq s delim, rfl⟩)⟩
  | some (st', res, q), h5, run =>
    obtain ⟨hs, h5⟩ := h5
    simp only [queueAnswer] at run
    -- what is said if the unit counts as complete, and if not
    have yes : Complete σ name (Gen.way σ false) (s.shown delim) (shorn s.syms) →
        (∃ N, ∀ n ≥ N, biltransWithQueue σ n (s.text delim) delim = .ok (compose res q delim s.mark, q.length)) →
        ∃ out len, (∃ N, ∀ n ≥ N, biltransWithQueue σ n (s.text delim) delim = .ok (out, len)) ∧
      ((∃ ts q, Finds σ name (Gen.way σ false) (s.shown delim) (shorn s.syms) ts q ∧ Complete σ name (Gen.way σ false) (s.shown delim) (shorn s.syms) ∧ out = framed delim s.mark (ts.map (· ++ q)) ∧ len = q.length) ∨
        (Lacks σ name (Gen.way σ false) (s.shown delim) (shorn s.syms) ∧ Read σ (Gen.way σ false) ((shorn s.syms).map (symOf σ.alphabet)) ∧ Complete σ name (Gen.way σ false) (s.shown delim) (shorn s.syms) ∧ out = framed delim s.mark [] ∧ len = 0) ∨
        (((Lacks σ name (Gen.way σ false) (s.shown delim) (shorn s.syms) ∧ ¬ Read σ (Gen.way σ false) ((shorn s.syms).map (symOf σ.alphabet))) ∨ ¬ Complete σ name (Gen.way σ false) (s.shown delim) (shorn s.syms)) ∧ out = unknown s delim ∧ len = 0)) := by
      intro hc hrun
      refine ⟨_, _, hrun, ?_⟩
      rcases h5 with ⟨-, g2⟩ | ⟨rfl, rfl, g3, g4⟩
      · exact .inl ⟨_, _, g2, hc, compose_eq .., rfl⟩
      · exact .inr (.inl ⟨g3, g4, hc, compose_eq .., rfl⟩)
    by_cases hg : ∃ g, Sym.tag g ∈ shorn s.syms
    · refine yes (.inl hg) ⟨max N0 N1, ?_⟩
      intro n hn
      rw [run n hn, queueEnd, if_pos (htag.2 hg), h2.mark]
    · have hlen : (shorn s.syms).length = ((shorn s.syms).map (symOf σ.alphabet)).length := by simp
      obtain ⟨bs, e1, e2⟩ := Gen.results_ok hr.base hs (sound_length hs hf) σ.alphabet (seq_names hr.base (fun _ _ => rfl) hs)
        (upperAt σ (s.shown delim) 0 && upperAt σ (s.shown delim) 1) (upperAt σ (s.shown delim) 0)
      have hnil := Gen.best_nil e1 (Gen.form_finite hr.base.finals hs _ _)
      have hrun : ∀ n ≥ max N0 N1, biltransWithQueue σ n (s.text delim) delim =
          .ok (if bs = [] then (unknown s delim, 0) else (compose res q delim s.mark, q.length)) := by
        intro n hn
        rw [run n hn, queueEnd, if_neg (fun h => hg (htag.1 h)), h2.mark, h2.firstupper, h2.uppercase]
        rw [show Gen.results σ _ _ st' = _ from e2]
        simp only [Res.bind_ok, List.isEmpty_iff, List.map_eq_nil_iff, absent_eq]
      by_cases hb : bs = []
      · simp only [hb, if_true] at hrun
        refine ⟨_, _, ⟨_, hrun⟩, .inr (.inr ⟨.inr ?_, rfl, rfl⟩)⟩
        rintro (h | ⟨o, w, h⟩)
        · exact hg h
        · rw [Trans, hlen, List.take_length] at h
          exact hnil.1 hb o w h
      · simp only [hb, if_false] at hrun
        refine yes (.inr ?_) ⟨_, hrun⟩
        rw [hlen]
        by_contra hno
        refine hb (hnil.2 fun o w h => hno ⟨o, w, ?_⟩)
        rw [Trans, List.take_length]
        exact h

/-- **C75** A unit that is marked with `*` as unknown is returned as it is, whatever else is in it. -/
theorem C75_star (t : UString) (delim : Bool) (n : Nat) (w : UString) (hw : w = if delim then 0x5e :: 0x2a :: t else 0x2a :: t) :
    biltrans σ n w delim = .ok w ∧ biltransfull σ n w delim = .ok w ∧ biltransWithoutQueue σ n w delim = .ok w ∧ biltransWithQueue σ n w delim = .ok (w, 0) := by
  have h : wordOf σ w delim = .ok none := by
    subst hw
    cases delim <;> simp [wordOf, points, unitAt]
  refine ⟨?_, ?_, ?_, ?_⟩ <;> simp only [biltrans, biltransfull, biltransWithoutQueue, biltransWithQueue, answer, h, Res.bind_ok]

omit [AddMonoid W] [LinearOrder W] in
/-- **C75** Nobody reads the last tag: what is read of a unit that ends with a tag is before it, unless the dictionary has entries with the letter `<`. -/
theorem C75_last_tag {y : Way} (hy : ∀ p z, y.allow p 0x3c z → ∀ l p', Arc σ.graph p l p' → l.1 ≠ z) {init : List Sym} {t : UString} (ht : (Sym.tag t).Writable) {d : Nat}
    (h : Reach σ y ((shorn (init ++ [.tag t])).map (symOf σ.alphabet)) d) : d ≤ init.length := by
  obtain ⟨i, rfl, -⟩ := ht
  have e : (shorn (init ++ [.tag (0x3c :: i ++ [0x3e])])).map (symOf σ.alphabet) = init.map (symOf σ.alphabet) ++ 0x3c :: i.map fun u => (u.toNat : Int) := by
    have ed : (0x3c :: i ++ [0x3e] : UString).dropLast = 0x3c :: i := List.dropLast_concat ..
    simp only [shorn, List.dropLast_concat, List.getLast?_concat, Option.elim, shornLast, ed, List.map_append, List.map_map, List.map_cons]
    rfl
  rw [e] at h
  by_contra hd
  have h1 := h.2.1
  rw [List.take_append, List.length_map, List.take_of_length_le (by simp; omega),
    show d - init.length = (d - init.length - 1) + 1 by omega, List.take_succ_cons, ← List.singleton_append, ← List.append_assoc] at h1
  obtain ⟨ls, wr, ch, p, hw⟩ := read_prefix h1
  generalize hv : init.map (symOf σ.alphabet) ++ [0x3c] = vs at hw
  clear h1 hd h
  induction hw with
  | start => simp at hv
  | empty _ _ _ ih => exact ih hv
  | read _ _ ha hb _ =>
    have := (List.append_inj' hv rfl).2
    simp only [List.cons.injEq, and_true] at this
    rw [← this] at ha
    exact hy _ _ ha _ _ hb rfl

/-! ## Examples -/

/-- `ab<n><m>` -/
def abnm : LexUnit := ⟨false, [.letter 0x61 false, .letter 0x62 false, .tag [0x3c, 0x6e, 0x3e], .tag [0x3c, 0x6d, 0x3e]]⟩

/-- `=ab\<` -/
def abx : LexUnit := ⟨true, [.letter 0x61 false, .letter 0x62 false, .letter 0x3c true]⟩

theorem abnm_wf : abnm.WF where
  nonempty := by simp [abnm]
  writable := by
    intro x hx
    simp only [abnm, List.mem_cons, List.not_mem_nil, or_false] at hx
    rcases hx with rfl | rfl | rfl | rfl
    · exact ⟨by decide, by decide, by decide⟩
    · exact ⟨by decide, by decide, by decide⟩
    · exact ⟨[0x6e], rfl, by decide⟩
    · exact ⟨[0x6d], rfl, by decide⟩
  last := by
    intro t ht
    simp [abnm] at ht
    subst ht
    simp only [PlainUnit]
    decide
  star := by simp [abnm]
  equals := by simp [abnm]
  short := by decide

theorem abx_wf : abx.WF where
  nonempty := by simp [abx]
  writable := by
    intro x hx
    simp only [abx, List.mem_cons, List.not_mem_nil, or_false] at hx
    rcases hx with rfl | rfl | rfl <;> exact ⟨by decide, by decide, by decide⟩
  last := by
    intro t ht
    simp [abx] at ht
  star := by simp [abx]
  equals := by simp [abx]
  short := by decide

example : Regular (demo true) demoName ∧ Fewer (demo true).graph (demo true).root (flagWay (demo true)) 65536 ∧
    Fewer (demo true).graph (demo true).root (Gen.way (demo true) false) 65536 ∧ abnm.WF ∧ abx.WF :=
  ⟨demo_regular true, demo_fewer _ true, demo_fewer _ true, abnm_wf, abx_wf⟩

example : (demo false).caseSensitive = false ∧ Fewer (demo false).graph (demo false).root (flagWay (demo false)) 65536 := ⟨rfl, demo_fewer _ false⟩

/-- The text of a string. -/
def str (s : String) : UString := s.toList.map fun c => UInt16.ofNat c.toNat

example : abnm.text true = str "^ab<n><m>$" ∧ abx.text false = str "=ab\\<" := by decide

/-- The function returns `out`. -/
def returns (r : Res UString) (out : String) : Bool :=
  match r with
  | .ok t => decide (t = str out)
  | _ => false

def returnsLen (r : Res (UString × Nat)) (out : String) (len : Nat) : Bool :=
  match r with
  | .ok t => decide (t = (str out, len))
  | _ => false

example : returns (biltrans (demo true) 100 (str "^ab<n>z$") true) "^xy<n>$" = true := by decide +kernel
example : returns (biltrans (demo true) 100 (str "=ab\\<") false) "=xy" = true := by decide +kernel
example : returns (biltrans (demo true) 100 (str "^=ab<q><r>$") true) "^=xy<q><r$" = true := by decide +kernel
example : returns (biltransWithoutQueue (demo true) 100 (str "^ab<q><r>$") true) "^@ab<q><r>$" = true := by decide +kernel
example : returnsLen (biltransWithQueue (demo false) 100 (str "^AB<n><q>z$") true) "^XY<n><q>$" 3 = true := by decide +kernel

example : ∀ p z, (flagWay (demo true)).allow p 0x3c z → ∀ l p', Arc (demo true).graph p l p' → l.1 ≠ z := by
  have h1 : ∀ a ∈ Proc.arcsOf demoArcs, a.2.1.1 ≠ 0x3c ∧ a.2.1.1 ≠ 1 := by decide
  rintro p z ⟨-, -, h⟩ l p' ha e
  have := h1 _ (Proc.mem_arcsOf ha)
  simp only at this
  rcases h with h | h <;> omega

/-! ## What does not hold -/

/-- **C75** Entries of the dictionary are not found, and translations are not well-formed units: the last character is cut off. -/
theorem C75_cut_false : returns (biltrans (demo true) 100 (str "^ce<n><m>$") true) "^@ce<n><m>$" = true ∧
    returns (biltrans (demo true) 100 (str "^ab<n>$") true) "^xy<n$" = true ∧
    returnsLen (biltransWithQueue (demo false) 100 (str "^ab$") true) "^@ab$" 0 = true := by decide +kernel

/-- **C75** Letters are lost: those after a translated part that are the start of a longer entry. -/
theorem C75_lost_false : returns (biltrans (demo true) 100 (str "^abcx$") true) "^xy$" = true := by decide +kernel

/-- **C75** A unit that is the start of an entry is replaced by an empty unit. -/
theorem C75_empty_false : returnsLen (biltransWithQueue (demo false) 100 (str "^ce<n>x$") true) "^$" 0 = true := by decide +kernel

/-- **C75** What can be translated is replaced by an empty unit, because it is not short. -/
theorem C75_full_false : returns (biltrans (demo true) 100 (str "^ab<n>z$") true) "^xy<n>$" = true ∧
    returns (biltransfull (demo true) 100 (str "^ab<n>z$") true) "^$" = true := by decide +kernel

/-- **C75** An empty unit is looked up as the letter `$`, and an empty text is not looked at without undefined behaviour. -/
theorem C75_tiny_false : returns (biltrans (demo true) 100 (str "^$") true) "^@$" = true ∧ biltrans (demo true) 100 [] true = .ub := by decide +kernel

/-- **C75** A letter before a backslash at the end of a text makes the functions throw. -/
theorem C75_backslash_false : biltrans (demo true) 100 (str "ab\\") false = .exception := by decide +kernel

/-- **C75** Unless the processor is case-sensitive, `biltrans` translates no unit whatsoever: the truth value that should tell whether cases count is taken for a
symbol, and the symbol 0 empties the set of states. Every text is returned with the mark `@`, or as it is if it has the mark `*`. -/
theorem C75_never_false (hc : σ.caseSensitive = false) (hf : Fewer σ.graph σ.root (flagWay σ) 65536) (n : Nat) (w : UString) (delim : Bool) (out : UString)
    (h : biltrans σ n w delim = .ok out ∨ biltransWithoutQueue σ n w delim = .ok out ∨ biltransfull σ n w delim = .ok out) :
    out = w ∨ out = if delim then 0x5e :: 0x40 :: w.drop 1 else 0x40 :: w := by
  have hstep : ∀ x r, stepBiltrans σ n x = .ok r → r = none := by
    intro x r h
    unfold stepBiltrans at h
    obtain ⟨st, h1, h⟩ := Res.bind_eq_ok.1 h
    obtain ⟨ps, h2, h⟩ := Res.bind_eq_ok.1 h
    obtain ⟨r', h3, h⟩ := Res.bind_eq_ok.1 h
    have hst : State.init σ.graph n σ.root = some st := by
      cases hi : State.init σ.graph n σ.root with
      | none => rw [hi] at h1; cases h1
      | some st' => rw [hi] at h1; simp only [Gen.ended, Res.ok.injEq] at h1; rw [h1]
    have hl := sound_length (sound_init (y := flagWay σ) hst) hf
    simp only [Res.ok.injEq] at h
    rw [← h]
    cases ps with
    | nil => simp only [transLoop, Res.ok.injEq] at h3; rw [← h3]; rfl
    | cons p ps =>
      rw [transLoop] at h3
      have hs : stepIf (flagStep σ n) (valOf σ.alphabet p) st = .ok [] := by
        unfold stepIf
        split
        · rename_i h0; rw [List.length_eq_zero_iff.1 h0]
        · have : σ.beCaseSensitive st = false := by simp [Gen.Setting.beCaseSensitive, hc, hl]
          unfold flagStep
          rw [this]
          simp [stepAlt, applyAlt, epsilonClosure, closureLoop.eq_def, Gen.ended]
      rw [hs] at h3
      simp only [Res.bind_ok, foundNow, isFinal, List.any_nil, Bool.false_eq_true, if_false, List.length_nil, if_true, List.isEmpty_nil, Res.ok.injEq] at h3
      rw [← h3]; rfl
  have key : ∀ f, answer σ n w delim f = .ok out → out = w ∨ out = if delim then 0x5e :: 0x40 :: w.drop 1 else 0x40 :: w := by
    intro f h
    unfold answer at h
    obtain ⟨x, -, h⟩ := Res.bind_eq_ok.1 h
    cases x with
    | none => simp only [Res.ok.injEq] at h; exact .inl h.symm
    | some x =>
      obtain ⟨r, h2, h⟩ := Res.bind_eq_ok.1 h
      rw [hstep x r h2] at h
      simp only [Res.ok.injEq] at h
      exact .inr h.symm
  rcases h with h | h | h <;> exact key _ h

end Verif.Trans
