import Verif.Sao.Whole

/-! # Texts without a newline at the end -/

namespace Verif.Sao

open Verif.State Verif.Stream Verif.Input Verif.Proc Verif.Merge
open Verif.Buffer (Buffer Rep)

variable {W : Type}

section
variable [AddMonoid W] [LinearOrder W] {σ : Setting W} {name : Int → UString}

theorem start_run {hr : Regular σ name} {n : Nat} {ps : List Piece} (hrd : Ready hr n ps) (hok : ∀ p ∈ ps, p.Ok) :
    ∃ a, Open σ a [] [] [] ps [] ∧ sao σ n (bytes (ps.flatMap Piece.text)) =
      (loop σ n (states σ name hr []) n a { cur := states σ name hr [] } >>= fun a => .ok a.out) := by
  have hinit : ended (State.init σ.graph n σ.root) = .ok (states σ name hr []) := by
    have := hrd.1 [] ⟨[], ps, by simp⟩
    simpa [vals, after_nil] using this
  obtain ⟨a, e, ho⟩ := start_ok (σ := σ) ps (text_scalar hok)
  refine ⟨a, ho, ?_⟩
  unfold sao
  rw [e, Res.bind_ok, hinit, Res.bind_ok]

/-- Reading on while there are entries that go on. -/
theorem run_ok (hr : Regular σ name) (hs : Small σ) (hpl : Plain σ name) {n : Nat} {ps : List Piece} (hrd : Ready hr n ps) (hok : ∀ p ∈ ps, p.Ok) (hnc : NoCdata ps)
    (hl : ps.length < 2047) (hn : ps.length ≤ n) (hlive : Live σ (vals ps)) (qs : List Piece) :
    ∀ (xs : List Piece) (a : An) (l : Loc W) (pend rest : List Piece), ps = xs ++ (pend ++ rest) → pend ++ rest = qs → Open σ a [] xs pend rest [] → Within hr ps 0 xs l →
      ∃ a' l', (∀ t, loop σ n (states σ name hr []) (t + qs.length) a l = loop σ n (states σ name hr []) t a' l') ∧ Open σ a' [] ps [] [] [] := by
  have hsh : Short σ ps := by
    intro us ys zs q ws e _ _
    have := congrArg List.length e
    simp only [List.length_append, List.length_cons] at this ⊢
    omega
  have hcl : Clear σ ps := by
    intro us ys cs ws e _
    exact absurd (by rw [e]; simp) (hnc cs)
  induction qs with
  | nil =>
    intro xs a l pend rest hR hq ho _
    rw [hq, List.append_nil] at hR
    obtain ⟨rfl, rfl⟩ := List.append_eq_nil_iff.1 hq
    subst hR
    exact ⟨a, l, fun t => rfl, ho⟩
  | cons p qs ih =>
    intro xs a l pend rest hR hq ho hw
    have hRp : ps = xs ++ p :: qs := by rw [hR, hq]
    have hlx : Live σ (vals (xs ++ [p])) := live_prefix (ys := vals qs) (by rw [← vals_append]; rw [hRp] at hlive; simpa using hlive)
    rcases turn_ok hr hs hpl hrd (List.infix_refl _) hok (fun h => absurd hlx h) hsh (fun h => absurd hlx h) hcl hn hR hq ho
        (live_prefix (ys := [(p.val : Int)]) (by simpa [vals] using hlx)) hw with
      ⟨a1, l1, pend1, rest1, e1, h1, h2, h3, h4⟩ | ⟨a1, l1, tok, pend1, rest1, hd, -⟩
    · obtain ⟨a', l', g1, g2⟩ := ih (xs ++ [p]) a1 l1 pend1 rest1 (by rw [hRp, h1]; simp) h1 h2 h4
      refine ⟨a', l', fun t => ?_, g2⟩
      rw [List.length_cons, ← Nat.add_assoc, e1, g1]
    · exact absurd hlx hd

/-- Nothing is written for a text that starts like an entry, with nothing after it. -/
theorem lost (hr : Regular σ name) (hs : Small σ) (hpl : Plain σ name) {ps : List Piece} (hok : ∀ p ∈ ps, p.Ok) (hnc : NoCdata ps) (hl : ps.length < 2047)
    (hlive : Live σ (vals ps)) : ∃ N, ∀ n ≥ N, sao σ n (bytes (ps.flatMap Piece.text)) = .ok [] := by
  obtain ⟨N, hN⟩ := ready_exists hr ps
  refine ⟨max N (ps.length + 1), fun n hn => ?_⟩
  obtain ⟨a, ho, e⟩ := start_run (hN n (by omega)) hok
  have hf : Fresh hr ({ cur := states σ name hr [] } : Loc W) := ⟨rfl, rfl, rfl, rfl, rfl⟩
  obtain ⟨a', l', h2, h4⟩ := run_ok hr hs hpl (hN n (by omega)) hok hnc hl (by omega) hlive ps [] a _ [] ps rfl rfl ho (hf.within ps)
  obtain ⟨t, rfl⟩ : ∃ t, n = t + 1 + ps.length := ⟨n - 1 - ps.length, by omega⟩
  have hem : Buffer.isEmpty a'.buf = true := by rw [isEmpty_pend h4.here]; rfl
  have hin : a'.inp = ⟨[], false, []⟩ := h4.here.inp.nil
  rw [e, h2, loop]
  unfold readSAO
  rw [hem, hin]
  simp only [Bool.not_true, Bool.false_eq_true, if_false, get_end, Res.bind_ok, if_true]
  rw [h4.here.blanks, h4.out, List.append_nil, blanksOf_none hnc]
  rfl

/-- The letter was read, and nothing is left in the file. -/
structure Stuck (v : Int) (a : An) : Prop where
  rep : Rep a.buf ⟨[v], 1, []⟩ []
  size : a.buf.size = 2048
  inp : ∃ e, a.inp = ⟨[], e, []⟩

/-- A letter that starts no entry is written again and again. -/
theorem again (hr : Regular σ name) (hs : Small σ) (hpl : Plain σ name) {n : Nat} {p : Piece} (hrd : Ready hr n [p]) (hn : 0 < n) (hok : p.Ok)
    (ha : σ.isAlphabetic (p.val : Int) = true) (hdead : ¬ Live σ [(p.val : Int)]) (t : Nat) :
    ∀ (a a1 : An) (l : Loc W), readSAO n a = .ok ((p.val : Int), a1) → Stuck (p.val : Int) a1 → Fresh hr l → loop σ n (states σ name hr []) t a l = .ub := by
  obtain ⟨hpsc, hp0⟩ := piece_val hok
  have hstep : stepFolded σ n (p.val : Int) (states σ name hr []) = .ok (states σ name hr [(p.val : Int)]) :=
    step_ready (xs := []) (hrd.1 [] ⟨[], [p], by simp⟩) (hrd.1 [p] (List.infix_refl _))
  have hemp : (states σ name hr [(p.val : Int)]).isEmpty = true := by
    cases h : (states σ name hr [(p.val : Int)]).isEmpty with
    | false => exact absurd ((sound_empty (states_sound hr hs (by simp; omega))).1 h) hdead
    | true => rfl
  have htx := symbolText_val σ.chars.toUpper σ.alphabet p.val hpsc hp0
  induction t with
  | zero => intro a a1 l _ _ _; rfl
  | succ t ih =>
    intro a a1 l h1 h2 hf
    obtain ⟨hrep, hz, e, hin⟩ := h2
    have hnote : note σ (p.val : Int) (Buffer.getPos a1.buf) l = .ok l := by
      unfold note
      rw [if_neg (by
        rw [hf.cur, sound_entry hr.standard (states_sound hr hs (by simp))]
        exact hpl.noEmpty), alpha_not_space hr ha]
      simp
    have hem1 : Buffer.isEmpty a1.buf = true := by rw [rep_isEmpty hrep]; rfl
    have hread : readSAO n a1 = .ok (0, { a1 with inp := ⟨[], true, []⟩ }) := by
      unfold readSAO
      rw [hem1, hin]
      simp [get_end]
    have hword : readWord σ n n (p.val : Int) [] a1 = .ok (surface [p], { a1 with inp := ⟨[], true, []⟩ }) := by
      obtain ⟨k, rfl⟩ : ∃ k, n = k + 1 := ⟨n - 1, by omega⟩
      rw [readWord]
      simp only [htx, Res.bind_ok, hread]
      simp [surface, enc]
    have hemit : emit σ n (p.val : Int) l a1 = .ok (unknown σ (surface [p]) { a1 with inp := ⟨[], true, []⟩ }) := by
      unfold emit goesOn
      rw [ha, hf.sf, hf.lf, hf.incond, hf.post, hword]
      simp
    rw [loop, h1]
    simp only [Res.bind_ok]
    rw [if_neg (by omega)]
    simp only [hnote, Res.bind_ok, hf.cur, hstep, hemp, Bool.not_true, Bool.false_eq_true, if_false, hemit]
    have hfirst := firstNotAlpha_letters (σ := σ) [p] (by simpa using hok) (by simpa using ha)
    have hback : (unknown σ (surface [p]) { a1 with inp := ⟨[], true, []⟩ }).buf = Buffer.back 1 (Buffer.setPos a1.buf.currentpos a1.buf) := by
      simp only [unknown, hfirst, Nat.sub_self, Nat.add_zero]
      exact back_setPos _ (by rw [hz]; decide) (by rw [hz]; decide) hrep.curLe
    have hrep0 : Rep (unknown σ (surface [p]) { a1 with inp := ⟨[], true, []⟩ }).buf ⟨[(p.val : Int)], 0, []⟩ [] := by
      rw [hback]
      exact rep_rewind hrep (k := 0) (by simp) (by rw [hz]; simp) (by simpa using hrep.curMod)
    have hz0 : (unknown σ (surface [p]) { a1 with inp := ⟨[], true, []⟩ }).buf.size = 2048 := by
      rw [hback]
      unfold Buffer.back
      split <;> exact hz
    obtain ⟨b', e1, k1, k2⟩ := rep_next hrep0 (v := (p.val : Int)) rfl
    refine ih _ { unknown σ (surface [p]) { a1 with inp := ⟨[], true, []⟩ } with buf := b' } _ ?_ ⟨k1, k2.trans hz0, true, rfl⟩ ⟨rfl, rfl, rfl, rfl, rfl⟩
    have hem0 : Buffer.isEmpty (unknown σ (surface [p]) { a1 with inp := ⟨[], true, []⟩ }).buf = false := by rw [rep_isEmpty hrep0]; rfl
    unfold readSAO
    rw [hem0]
    simp only [Bool.not_false, if_true, e1, Res.bind_ok]
    rfl

theorem endless (hr : Regular σ name) (hs : Small σ) (hpl : Plain σ name) {p : Piece} (hok : p.Ok)
    (ha : σ.isAlphabetic (p.val : Int) = true) (hdead : ¬ Live σ [(p.val : Int)]) : ∃ N, ∀ n ≥ N, sao σ n (bytes p.text) = .ub := by
  obtain ⟨N, hN⟩ := ready_exists hr [p]
  refine ⟨max N 1, fun n hn => ?_⟩
  have hrd := hN n (by omega)
  obtain ⟨a, ho, e⟩ := start_run hrd (by simpa using hok)
  simp only [List.flatMap_cons, List.flatMap_nil, List.append_nil] at e
  obtain ⟨a1, pend1, rest1, e1, h1, h2, -⟩ := ho.read (n := n) (p := p) (qs := []) rfl hok (hrd.2 p (by simp)) (by intro cs h; cases h) (by simp) (by simp)
  obtain ⟨rfl, rfl⟩ := List.append_eq_nil_iff.1 h2
  have hin : a1.inp = ⟨[], false, []⟩ := h1.here.inp.nil
  rw [e, again hr hs hpl hrd (by omega) hok ha hdead n a a1 _ e1 ⟨by simpa [vals] using h1.here.rep, h1.here.size, false, hin⟩ ⟨rfl, rfl, rfl, rfl, rfl⟩]
  rfl

end

/-- Once the file has ended, the end of a section is never found. -/
theorem readCdata_eof (str : UString) (f : InFile) (he : f.eof = true) (hs : cdataEnd.isSuffixOf str = false) (t : Nat) : readCdata t str f = .ub := by
  induction t with
  | zero => unfold readCdata; rw [hs]; rfl
  | succ t ih =>
    have h1 : readBlock '<'.toNat '>'.toNat f = .ok (utf16 '<'.toNat, f) := by
      unfold readBlock readBlockLoop
      rw [he]
      simp
    unfold readCdata
    rw [hs]
    simp only [Bool.false_eq_true, if_false, h1, Res.bind_ok]
    rw [show str ++ (utf16 '<'.toNat).drop 1 = str from (by rw [show (utf16 '<'.toNat).drop 1 = [] from rfl]; simp)]
    exact ih

end Verif.Sao
