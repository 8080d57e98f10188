import Verif.TmProc.Loop

/-! # The pieces of a text -/

namespace Verif.TmProc

open Verif.State Verif.Stream Verif.Input
open Verif.Buffer (Buffer Rep)
open Verif.Proc (escapedCps rep_add rep_next rep_isEmpty rep_rewind putc)

variable {W : Type} {τ : Setting W}

/-- The values of the tokens of a piece count as read. -/
theorem At.settle {tail : List Nat} {a : Tm} {old : List Int} {cur pend rest : List Token} (h : At tail a old cur pend rest) : At tail a (old ++ vals cur) [] pend rest := by
  refine ⟨?_, h.size, h.inp⟩
  have := h.rep
  simpa [vals_append, vals_length] using this

/-- The piece in which the loop begins again. -/
noncomputable def fresh (hr : Regular τ) (last : Nat) : Loc W := { st := states hr [], lf := [], sf := [], last := last }

/-- Another state with the same buffer and input. -/
theorem At.same {tail : List Nat} {a b : Tm} {old : List Int} {cur pend rest : List Token} (h : At tail a old cur pend rest) (h1 : b.buf = a.buf) (h2 : b.inp = a.inp) :
    At tail b old cur pend rest := ⟨by rw [h1]; exact h.rep, by rw [h1]; exact h.size, by rw [h2]; exact h.inp⟩

/-- Going back by a token, to begin again with it. -/
theorem Mid.again {hr : Regular τ} {tail : List Nat} {a b : Tm} {old : List Int} {cur rest : List Token} {t : Token} (h : At tail a old (cur ++ [t]) [] rest) (hb : Break τ t)
    (h1 : b.buf = Buffer.back 1 a.buf) (h2 : b.inp = a.inp) (h3 : b.blanks = blanksOf [t]) (h4 : b.numbers = []) (last : Nat) :
    Mid hr tail b (fresh hr last) (old ++ vals cur) [] [t] rest := by
  obtain ⟨k1, k2⟩ := h.back
  exact ⟨⟨by rw [h1]; exact k1, by rw [h1]; exact k2, by rw [h2]; exact h.inp⟩, h3, h4, rfl, rfl, rfl, .inr ⟨rfl, t, rfl, hb⟩⟩

theorem putc_ch (c : Nat) : putc (c : Int) = utf16 c := by
  unfold putc
  rw [if_neg (by omega)]
  rfl

/-- A space or punctuation mark that begins no segment. -/
theorem gap_ok {hr : Regular τ} (hs : Simple τ) {tail : List Nat} {a : Tm} {l : Loc W} {old : List Int} {pend rest qs : List Token} {t : Token}
    (h : Mid hr tail a l old [] pend rest) (e : pend ++ rest = t :: qs) (hg : Good τ (t :: qs)) {n : Nat} {zs : List Int} (hz : Ready hr n zs) (hi : vals [t] <:+: zs)
    (hb : Break τ t) (hl : ¬ Live τ (vals [t])) (k : Nat) :
    ∃ a' last, loop τ n (states hr []) (k + 1) a l = loop τ n (states hr []) k a' (fresh hr last) ∧ Mid hr tail a' (fresh hr last) (old ++ vals [t]) [] [] qs ∧
      a'.out = a.out ++ t.alone := by
  obtain ⟨a', e1, h1, h2, h3, h4, h5⟩ := h.read e hg
  rw [List.nil_append] at h1
  have hok := hg.ok t (by simp)
  have hbl : a'.blanks = t.blanks := by simpa [blanksOf] using h4
  have hn : ∃ last, note τ t.val a' l = .ok (a', { l with last := last }) := by
    have hsf : l.sf = [] := by rw [h.sf]; rfl
    unfold note
    rw [if_neg (by rw [h.st, isFinal_iff]; exact hs.empty)]
    split
    · exact ⟨Buffer.getPos a'.buf, by simp [h.lf, hsf]⟩
    · exact ⟨l.last, rfl⟩
  obtain ⟨last, hn⟩ := hn
  have hst := hz.step (xs := []) (x := t.val) hi
  have hem : ∃ b, emit τ n t.val a' { l with last := last } = .ok (false, b) ∧ b.buf = a'.buf ∧ b.inp = a'.inp ∧ b.blanks = [] ∧ b.out = a'.out ++ t.alone := by
    have hsf : l.sf = [] := by rw [h.sf]; rfl
    unfold emit
    rw [if_pos (by
      simp only [hsf, List.isEmpty_nil, Bool.and_true, Bool.or_eq_true]
      exact hb)]
    by_cases hsp : τ.chars.isSpace t.val = true
    · rw [if_pos hsp]
      unfold printSpace
      cases t with
      | ch c =>
        simp only [Token.blanks] at hbl
        refine ⟨_, rfl, ?_⟩
        simp [hbl, Token.alone, Token.copied, Token.val, putc_ch]
      | esc c => exact absurd (hok.2.2.symm.trans hsp) (by decide)
      | num ds => exact absurd rfl (not_num hr hb ds)
      | super ts =>
        simp only [Token.blanks] at hbl
        refine ⟨_, rfl, ?_⟩
        simp [hbl, Token.alone, Token.copied]
      | wb ts =>
        simp only [Token.blanks] at hbl
        refine ⟨_, rfl, ?_⟩
        simp [hbl, Token.alone, Token.copied]
    · rw [if_neg hsp]
      refine ⟨_, rfl, rfl, rfl, ?_⟩
      cases t with
      | ch c =>
        refine ⟨hbl, ?_⟩
        have hc := hok.2.2.1
        show a'.out ++ (if (c : Int) ∈ escapedCps then [0x5c] else []) ++ putc (c : Int) = a'.out ++ utf16 c
        rw [if_neg hc, List.append_nil, putc_ch]
      | esc c =>
        refine ⟨hbl, ?_⟩
        show a'.out ++ (if (c : Int) ∈ escapedCps then [0x5c] else []) ++ putc (c : Int) = a'.out ++ ((if (c : Int) ∈ escapedCps then [0x5c] else []) ++ utf16 c)
        rw [putc_ch, List.append_assoc]
      | num ds => exact absurd rfl (not_num hr hb ds)
      | super ts => exact absurd hr.space hsp
      | wb ts => exact absurd hr.space hsp
  obtain ⟨b, hem, b1, b2, b3, b4⟩ := hem
  refine ⟨{ b with numbers := [] }, last, ?_, ⟨((h1.same b1 b2).settle).same rfl rfl, b3, rfl, rfl, rfl, rfl, .inl rfl⟩, by rw [b4, h2]⟩
  rw [loop, e1, Res.bind_ok]
  have hst' : stepTM τ n t.val l.st = .ok (states hr (vals [t])) := by rw [h.st]; exact hst
  simp only [if_neg (val_ne hok), hn, Res.bind_ok, hst', isEmpty_dead hr hl, if_true, hem, Bool.false_eq_true, if_false]
  rfl

/-- A piece may be begun again with the token before which it ends. -/
theorem pend_nil {hr : Regular τ} {tail : List Nat} {a : Tm} {l : Loc W} {old : List Int} {cur pend rest : List Token} (h : Mid hr tail a l old cur pend rest)
    (hc : cur ≠ [] ∨ ∀ t ∈ pend, ¬ Break τ t) : pend = [] := by
  rcases h.pend with e | ⟨e, t, rfl, hb⟩
  · exact e
  · rcases hc with hc | hc
    · exact absurd e hc
    · exact absurd hb (hc t (by simp))

theorem infix_left {α : Type} {xs ys zs : List α} (h : xs ++ ys <:+: zs) : xs <:+: zs := (List.prefix_append _ _).isInfix.trans h

theorem takeWhile_all (txt : UString) (h : 0 ∉ txt) : txt.takeWhile (· ≠ 0) = txt := by
  induction txt with
  | nil => rfl
  | cons x xs ih =>
    simp only [List.mem_cons, not_or] at h
    rw [List.takeWhile_cons_of_pos (by simpa using fun e => h.1 e.symm), ih h.2]

/-- A segment. -/
theorem segment_ok {hr : Regular τ} (hs : Simple τ) (ha : Tmx.Ascii τ.tables) {tail : List Nat} {a : Tm} {l : Loc W} {old : List Int} {pend rest cs qs : List Token} {t : Token}
    (h : Mid hr tail a l old [] pend rest) (e : pend ++ rest = cs ++ t :: qs) (hg : Good τ (cs ++ t :: qs)) {n : Nat} {zs : List Int} (hz : Ready hr n zs)
    (hi : vals (cs ++ [t]) <:+: zs) (hne : cs ≠ []) (hseg : Segment τ (vals cs)) (hstop : Stop τ t.val) (hl : ¬ Live τ (vals (cs ++ [t]))) {txt : UString} (hw : Written τ cs t txt)
    (htx : txt ≠ []) (h0 : 0 ∉ txt) (k : Nat) :
    ∃ a' last, loop τ n (states hr []) (k + (cs.length + 1)) a l = loop τ n (states hr []) k a' (fresh hr last) ∧ Mid hr tail a' (fresh hr last) (old ++ vals cs) [] [t] qs ∧
      a'.out = a.out ++ (0x5b :: txt ++ [0x5d]) := by
  have hv : vals (cs ++ [t]) = vals cs ++ [t.val] := by simp [vals]
  rw [hv] at hi
  have hb := break_of_stop hstop
  obtain ⟨a1, l1, p1, r1, e1, h1, q1, o1⟩ := alive hs (init := states hr []) hz (t :: qs) cs a l [] pend rest h e hg (by simp) (infix_left hi) (segment_live hseg) (k + 1)
  rw [List.nil_append] at h1
  obtain rfl := pend_nil h1 (.inl hne)
  rw [List.nil_append] at q1
  subst q1
  have hok : ∀ x ∈ cs, x.Ok τ := fun x hx => hg.ok x (by simp [hx])
  have hgt : Good τ (t :: qs) := hg.suffix
  obtain ⟨a2, e2, h2, o2, m2, b2, lb2⟩ := h1.read (t := t) (qs := qs) rfl hgt
  rw [numbers_break hr hb, List.append_nil] at m2
  obtain ⟨ss, r, f1, f2⟩ := hw _ (targets_ok hr (vals cs))
  have b2' : a2.blanks = blanksOf (cs ++ [t]) := by rw [b2]; simp [blanksOf]
  have hfil := Tmx.C90_slots ha τ.alphabet f1 f2
  have hst := hz.step (xs := vals cs) (x := t.val) hi
  rw [← hv, ← h1.st] at hst
  have hn : note τ t.val a2 l1 = .ok ({ a2 with blanks := blanksOf [t], numbers := [] }, { l1 with lf := txt, last := Buffer.getPos a2.buf }) := by
    unfold note
    rw [h1.st, if_pos ((isFinal_iff hr _).2 hseg), if_pos (isStop_iff.2 hstop), b2', m2, hfil]
    rfl
  have htake : txt.takeWhile (· ≠ 0) = txt := takeWhile_all txt h0
  have hsf : l1.sf.isEmpty = false := by rw [h1.sf, copy_isEmpty hok]; simpa using hne
  have hgo : ∀ a' l', goesOn τ t.val a' l' = false := by
    intro a' l'
    unfold goesOn
    rcases hb with hb | hb <;> simp [hb]
  have hlf : txt.isEmpty = false := by simpa using htx
  obtain ⟨k1, k2⟩ := h2.back
  have hlen : (old ++ vals (cs ++ [t])).length = old.length + cs.length + 1 := by simp [vals_length, Nat.add_assoc]
  have hrw : Rep (Buffer.back 1 (Buffer.setPos (Buffer.getPos a2.buf) a2.buf)) ⟨old ++ vals (cs ++ [t]), old.length + cs.length, []⟩ [] := by
    have hrep := h2.rep
    rw [List.append_nil] at hrep
    refine rep_rewind hrep (k := old.length + cs.length) (by simp only [hlen]; omega) (by simp only [hlen, h2.size]; omega) ?_
    have := hrep.curMod
    simpa [Nat.add_assoc, Buffer.getPos] using this
  have hem : emit τ n t.val { a2 with blanks := blanksOf [t], numbers := [] } { l1 with lf := txt, last := Buffer.getPos a2.buf } =
      .ok (false, { a2 with blanks := blanksOf [t], numbers := [], out := a2.out ++ 0x5b :: txt ++ [0x5d], buf := Buffer.back 1 (Buffer.setPos (Buffer.getPos a2.buf) a2.buf) }) := by
    unfold emit
    rw [if_neg (by simp [hsf]), hgo]
    simp only [Bool.false_eq_true, if_false, hlf, htake]
  refine ⟨{ a2 with blanks := blanksOf [t], numbers := [], out := a2.out ++ 0x5b :: txt ++ [0x5d], buf := Buffer.back 1 (Buffer.setPos (Buffer.getPos a2.buf) a2.buf) }, Buffer.getPos a2.buf, ?_,
    ⟨⟨?_, ?_, h2.inp⟩, rfl, rfl, rfl, rfl, rfl, .inr ⟨rfl, t, rfl, hb⟩⟩, ?_⟩
  · rw [Nat.add_comm cs.length 1, ← Nat.add_assoc, e1, loop, e2, Res.bind_ok]
    simp only [if_neg (val_ne (hgt.ok t (by simp))), hn, Res.bind_ok, hst, isEmpty_dead hr hl, if_true, hem, Bool.false_eq_true, if_false]
    rfl
  · simpa [vals_append, vals_length] using hrw
  · show (Buffer.back 1 (Buffer.setPos (Buffer.getPos a2.buf) a2.buf)).size = 2048
    have : ∀ b : Buffer Int, (Buffer.back 1 b).size = b.size := by intro b; unfold Buffer.back; split <;> rfl
    rw [this]
    exact h2.size
  · simp [o2, o1]

/-- The beginning of a segment before the end of a word. -/
theorem part_ok {hr : Regular τ} (hs : Simple τ) {tail : List Nat} {a : Tm} {l : Loc W} {old : List Int} {pend rest cs qs : List Token} {t : Token}
    (h : Mid hr tail a l old [] pend rest) (e : pend ++ rest = cs ++ t :: qs) (hg : Good τ (cs ++ t :: qs)) {n : Nat} {zs : List Int} (hz : Ready hr n zs)
    (hi : vals (cs ++ [t]) <:+: zs) (hne : cs ≠ []) (hlv : Live τ (vals cs)) (hnot : ¬ (Segment τ (vals cs) ∧ Stop τ t.val)) (hb : Break τ t) (hl : ¬ Live τ (vals (cs ++ [t]))) (k : Nat) :
    ∃ a' last, loop τ n (states hr []) (k + (cs.length + 1)) a l = loop τ n (states hr []) k a' (fresh hr last) ∧ Mid hr tail a' (fresh hr last) (old ++ vals cs) [] [t] qs ∧
      a'.out = a.out ++ copy cs := by
  have hv : vals (cs ++ [t]) = vals cs ++ [t.val] := by simp [vals]
  rw [hv] at hi
  obtain ⟨a1, l1, p1, r1, e1, h1, q1, o1⟩ := alive hs (init := states hr []) hz (t :: qs) cs a l [] pend rest h e hg (by simp) (infix_left hi) hlv (k + 1)
  rw [List.nil_append] at h1
  obtain rfl := pend_nil h1 (.inl hne)
  rw [List.nil_append] at q1
  subst q1
  have hok : ∀ x ∈ cs, x.Ok τ := fun x hx => hg.ok x (by simp [hx])
  have hgt : Good τ (t :: qs) := hg.suffix
  obtain ⟨a2, e2, h2, o2, m2, b2, lb2⟩ := h1.read (t := t) (qs := qs) rfl hgt
  rw [if_pos rfl] at lb2
  have hst := hz.step (xs := vals cs) (x := t.val) hi
  rw [← hv, ← h1.st] at hst
  have hsf : l1.sf.isEmpty = false := by rw [h1.sf, copy_isEmpty hok]; simpa using hne
  have hn : note τ t.val a2 l1 = .ok (a2, l1) := by
    unfold note
    rw [h1.st]
    by_cases hf : isFinal τ.finals (states hr (vals cs)) = true
    · rw [if_pos hf, if_neg]
      intro hstop
      exact hnot ⟨(isFinal_iff hr _).1 hf, isStop_iff.1 hstop⟩
    · rw [if_neg hf, hsf]
      rfl
  have hgo : goesOn τ t.val a2 l1 = false := by
    unfold goesOn
    rcases hb with hb | hb <;> simp [hb]
  have hem : emit τ n t.val a2 l1 = .ok (false, { a2 with buf := Buffer.back 1 a2.buf, out := a2.out ++ l1.sf, blanks := dropBlanks a2 }) := by
    unfold emit
    rw [if_neg (by simp [hsf]), hgo]
    simp only [Bool.false_eq_true, if_false, h1.lf, List.isEmpty_nil, if_true]
  refine ⟨{ a2 with buf := Buffer.back 1 a2.buf, out := a2.out ++ l1.sf, blanks := dropBlanks a2, numbers := [] }, l1.last, ?_,
    ?_, by simp [o2, o1, h1.sf]⟩
  swap
  · refine Mid.again h2 hb ?_ ?_ ?_ ?_ _
    exacts [rfl, rfl, dropBlanks_ok lb2 b2, rfl]
  rw [Nat.add_comm cs.length 1, ← Nat.add_assoc, e1, loop, e2, Res.bind_ok]
  simp only [if_neg (val_ne (hgt.ok t (by simp))), hn, Res.bind_ok, hst, isEmpty_dead hr hl, if_true, hem, Bool.false_eq_true, if_false]
  rfl

/-! ## Words -/

/-- The state after the last token read. -/
structure Read (tail : List Nat) (a : Tm) (old : List Int) (cur : List Token) (w : Token) (rest : List Token) : Prop where
  at' : At tail a old (cur ++ [w]) [] rest
  numbers : a.numbers = numbersOf cur ++ w.numbers
  blanks : a.blanks = blanksOf cur ++ w.blanks
  last : a.lastBlank = w.isBlank

theorem Read.next (hr : Regular τ) {tail : List Nat} {a : Tm} {old : List Int} {cur qs : List Token} {w t : Token} (h : Read tail a old cur w (t :: qs)) (hg : Good τ (t :: qs)) :
    ∃ a', readTM τ a = .ok (t.val, a') ∧ Read tail a' old (cur ++ [w]) t qs ∧ a'.out = a.out := by
  obtain ⟨a', pend', rest', e1, h1, h2, h3⟩ := At.read hr h.at' rfl (hg.ok t (by simp)) hg.next
  obtain ⟨rfl, b1, b2, b3⟩ := h3.new rfl
  rw [List.nil_append] at h2
  subst h2
  refine ⟨a', e1, ⟨h1, by rw [b2, h.numbers]; simp [numbersOf], by rw [b1, h.blanks]; simp [blanksOf], b3⟩, h3.out⟩

/-- The rest of a word before a space or punctuation mark. -/
theorem readRest_ok (hr : Regular τ) {tail : List Nat} {old : List Int} {t : Token} {qs : List Token} (hb : Break τ t) :
    ∀ (ws : List Token) (w : Token) (turns : Nat) (a : Tm) (sf : UString) (cur : List Token), Read tail a old cur w (ws ++ t :: qs) → w.Ok τ → Good τ (ws ++ t :: qs) →
      (∀ x ∈ ws, ¬ Break τ x) → ws.length ≤ turns →
      ∃ a', readRest τ turns w.val sf a = .ok (t.val, sf ++ copy (w :: ws), a') ∧ Read tail a' old (cur ++ w :: ws) t qs ∧ a'.out = a.out := by
  intro ws
  induction ws with
  | nil =>
    intro w turns a sf cur h hw hg _ _
    obtain ⟨a', e1, h1, o1⟩ := h.next hr hg
    refine ⟨a', ?_, h1, o1⟩
    unfold readRest
    rw [shown_ok hw h.last h.numbers h.blanks, Res.bind_ok, e1, Res.bind_ok]
    simp only
    rw [if_neg]
    · simp [copy]
    · rintro ⟨-, h1, h2⟩
      rcases hb with hb | hb
      · exact absurd (h1.symm.trans hb) (by decide)
      · exact absurd (h2.symm.trans hb) (by decide)
  | cons x ws ih =>
    intro w turns a sf cur h hw hg hn ht
    obtain ⟨a', e1, h1, o1⟩ := h.next hr hg
    have hx := hn x (by simp)
    cases turns with
    | zero => simp at ht
    | succ turns =>
      obtain ⟨a2, e2, h2, o2⟩ := ih x turns a' (sf ++ w.copied) (cur ++ [w]) h1 (hg.ok x (by simp)) hg.tail (fun y hy => hn y (by simp [hy])) (by simpa using ht)
      refine ⟨a2, ?_, by simpa using h2, o2.trans o1⟩
      unfold readRest
      rw [shown_ok hw h.last h.numbers h.blanks, Res.bind_ok, e1, Res.bind_ok]
      simp only
      rw [if_pos ⟨val_ne (hg.ok x (by simp)), by simpa using fun k => hx (.inl k), by simpa using fun k => hx (.inr k)⟩, e2]
      simp [copy]

/-- What follows a part of the input. -/
def Ending (tail : List Nat) : Prop := tail = [] ∨ ∃ more, tail = 0 :: more

/-- The state after a part of the input. -/
structure Ended (tail : List Nat) (a : Tm) : Prop where
  buf : ∃ old : List Int, Rep a.buf ⟨old, old.length, []⟩ []
  size : a.buf.size = 2048
  blanks : a.blanks = []
  numbers : a.numbers = []
  eof : tail = [] → a.inp = ⟨[], true, []⟩
  more : ∀ more, tail = 0 :: more → Holds a.inp more

/-- Reading the end of a part. -/
theorem At.last (hr : Regular τ) {tail : List Nat} (ht : Ending tail) {a : Tm} {old : List Int} {cur : List Token} (h : At tail a old cur [] []) :
    ∃ a', readTM τ a = .ok (0, a') ∧ a'.out = a.out ∧ a'.blanks = a.blanks ∧ a'.numbers = a.numbers ∧
      ∀ b : Tm, b.buf = a'.buf → b.inp = a'.inp → b.blanks = [] → b.numbers = [] → Ended tail b := by
  have hrep := h.rep
  have el : old.length + cur.length = (old ++ vals cur).length := by simp [vals_length]
  rw [List.append_nil, el] at hrep
  rcases ht with rfl | ⟨more, rfl⟩
  · have hi : a.inp = ⟨[], false, []⟩ := Holds.nil h.inp
    refine ⟨_, read_end (by rw [isEmpty_pend h]; rfl) false hi, rfl, rfl, rfl, fun b b1 b2 b3 b4 => ⟨⟨_, by rw [b1]; exact hrep⟩, by rw [b1]; exact h.size, b3, b4, fun _ => b2, fun m e => by cases e⟩⟩
  · obtain ⟨f, e1, h1⟩ := h.nul (τ := τ) hr.nul
    obtain ⟨k1, k2⟩ := rep_add hrep 0
    refine ⟨_, e1, rfl, rfl, rfl, fun b b1 b2 b3 b4 => ⟨⟨old ++ vals cur ++ [0], ?_⟩, by rw [b1]; exact k2.trans h.size, b3, b4, (fun e => by cases e), fun m e => ?_⟩⟩
    · rw [b1]; simpa [Nat.add_assoc] using k1
    · rw [b2]; cases e; exact h1

/-- The rest of a word at the end. -/
theorem readRest_end (hr : Regular τ) {tail : List Nat} (htl : Ending tail) {old : List Int} :
    ∀ (ws : List Token) (w : Token) (turns : Nat) (a : Tm) (sf : UString) (cur : List Token), Read tail a old cur w ws → w.Ok τ → Good τ ws →
      (∀ x ∈ ws, ¬ Break τ x) → ws.length ≤ turns → numbersOf (cur ++ w :: ws) = [] → blanksOf (cur ++ w :: ws) = [] →
      ∃ a', readRest τ turns w.val sf a = .ok (0, sf ++ copy (w :: ws), a') ∧ a'.out = a.out ∧ ∀ b : Tm, b.buf = a'.buf → b.inp = a'.inp → b.blanks = a'.blanks → b.numbers = a'.numbers → Ended tail b := by
  intro ws
  induction ws with
  | nil =>
    intro w turns a sf cur h hw hg _ _ hn hb
    obtain ⟨a', e1, o1, b1, b2, hd⟩ := At.last hr htl h.at'
    refine ⟨a', ?_, o1, fun b c1 c2 c3 c4 => hd b c1 c2 ?_ ?_⟩
    · unfold readRest
      rw [shown_ok hw h.last h.numbers h.blanks, Res.bind_ok, e1, Res.bind_ok]
      simp [copy]
    · rw [c3, b1, h.blanks]; simpa [blanksOf] using hb
    · rw [c4, b2, h.numbers]; simpa [numbersOf] using hn
  | cons x ws ih =>
    intro w turns a sf cur h hw hg hn ht hn' hb'
    obtain ⟨a', e1, h1, o1⟩ := h.next hr hg
    have hx := hn x (by simp)
    cases turns with
    | zero => simp at ht
    | succ turns =>
      obtain ⟨a2, e2, o2, h2⟩ := ih x turns a' (sf ++ w.copied) (cur ++ [w]) h1 (hg.ok x (by simp)) hg.tail (fun y hy => hn y (by simp [hy])) (by simpa using ht)
        (by simpa using hn') (by simpa using hb')
      refine ⟨a2, ?_, o2.trans o1, h2⟩
      unfold readRest
      rw [shown_ok hw h.last h.numbers h.blanks, Res.bind_ok, e1, Res.bind_ok]
      simp only
      rw [if_pos ⟨val_ne (hg.ok x (by simp)), by simpa using fun k => hx (.inl k), by simpa using fun k => hx (.inr k)⟩, e2]
      simp [copy]

/-- The turn in which no segment goes on, at a token in a word. -/
theorem dead_ok {hr : Regular τ} (hs : Simple τ) {tail : List Nat} {a : Tm} {l : Loc W} {old : List Int} {pend rest pre qs : List Token} {w : Token}
    (h : Mid hr tail a l old [] pend rest) (e : pend ++ rest = pre ++ w :: qs) (hg : Good τ (pre ++ w :: qs)) {n : Nat} {zs : List Int} (hz : Ready hr n zs)
    (hi : vals (pre ++ [w]) <:+: zs) (hlv : Live τ (vals pre)) (hl : ¬ Live τ (vals (pre ++ [w]))) (hb : ¬ Break τ w) (k : Nat) :
    ∃ a', Read tail a' old pre w qs ∧ a'.out = a.out ∧ ∃ last, loop τ n (states hr []) (k + (pre.length + 1)) a l = (do
      let (v, sf, a) ← readRest τ n w.val (copy pre) a'
      let (done, a) ← if v = 0 then .ok (true, { a with out := a.out ++ sf }) else
        .ok (false, { a with buf := Buffer.back 1 a.buf, out := a.out ++ sf, blanks := dropBlanks a })
      if done then .ok a else loop τ n (states hr []) k { a with numbers := [] } (fresh hr last)) := by
  have hv : vals (pre ++ [w]) = vals pre ++ [w.val] := by simp [vals]
  rw [hv] at hi
  obtain ⟨a1, l1, p1, r1, e1, h1, q1, o1⟩ := alive hs (init := states hr []) hz (w :: qs) pre a l [] pend rest h e hg (by simp) (infix_left hi) hlv (k + 1)
  rw [List.nil_append] at h1
  have hp : p1 = [] := by
    rcases h1.pend with e | ⟨-, t, rfl, hbt⟩
    · exact e
    · simp only [List.cons_append, List.nil_append, List.cons.injEq] at q1
      rw [q1.1] at hbt
      exact absurd hbt hb
  subst hp
  rw [List.nil_append] at q1
  subst q1
  have hgt : Good τ (w :: qs) := hg.suffix
  obtain ⟨a2, e2, h2, o2, m2, b2, lb2⟩ := h1.read (t := w) (qs := qs) rfl hgt
  rw [if_pos rfl] at lb2
  have hst := hz.step (xs := vals pre) (x := w.val) hi
  rw [← hv, ← h1.st] at hst
  have hsp : τ.chars.isSpace w.val = false := by simpa using fun k => hb (.inl k)
  have hpu : τ.chars.isPunct w.val = false := by simpa using fun k => hb (.inr k)
  have hn : note τ w.val a2 l1 = .ok (a2, l1) := by
    unfold note Setting.isStop
    simp [hsp, hpu]
  have hgo : goesOn τ w.val a2 l1 = true := by
    unfold goesOn
    simp [hsp, hpu, h1.lf]
  refine ⟨a2, ⟨h2, m2, b2, lb2⟩, o2.trans o1, l1.last, ?_⟩
  rw [Nat.add_comm pre.length 1, ← Nat.add_assoc, e1, loop, e2, Res.bind_ok]
  simp only [if_neg (val_ne (hgt.ok w (by simp))), hn, Res.bind_ok, hst, isEmpty_dead hr hl, if_true]
  unfold emit
  rw [if_neg (by simp [hsp, hpu]), if_pos hgo, h1.sf]
  cases readRest τ n w.val (copy pre) a2 with
  | ok x =>
    obtain ⟨v, sf, a3⟩ := x
    simp only [Res.bind_ok]
    split <;> rfl
  | _ => rfl

/-- A word in which no segment goes on. -/
theorem word_ok {hr : Regular τ} (hs : Simple τ) {tail : List Nat} {a : Tm} {l : Loc W} {old : List Int} {pend rest pre ws qs : List Token} {w t : Token}
    (h : Mid hr tail a l old [] pend rest) (e : pend ++ rest = pre ++ w :: ws ++ t :: qs) (hg : Good τ (pre ++ w :: ws ++ t :: qs)) {n : Nat} {zs : List Int} (hz : Ready hr n zs)
    (hi : vals (pre ++ [w]) <:+: zs) (hlv : Live τ (vals pre)) (hl : ¬ Live τ (vals (pre ++ [w]))) (hw : ∀ x ∈ w :: ws, ¬ Break τ x) (hb : Break τ t) (hle : ws.length ≤ n) (k : Nat) :
    ∃ a' last, loop τ n (states hr []) (k + (pre.length + 1)) a l = loop τ n (states hr []) k a' (fresh hr last) ∧
      Mid hr tail a' (fresh hr last) (old ++ vals (pre ++ w :: ws)) [] [t] qs ∧ a'.out = a.out ++ copy (pre ++ w :: ws) := by
  have e' : pre ++ w :: ws ++ t :: qs = pre ++ w :: (ws ++ t :: qs) := by simp
  rw [e'] at e hg
  obtain ⟨a2, h2, o2, last, e2⟩ := dead_ok hs h e hg hz hi hlv hl (hw w (by simp)) k
  have hgw : Good τ (w :: (ws ++ t :: qs)) := hg.suffix
  obtain ⟨a3, e3, h3, o3⟩ := readRest_ok hr hb ws w n a2 (copy pre) pre h2 (hgw.ok w (by simp)) hgw.tail (fun x hx => hw x (by simp [hx])) hle
  have ht : t.Ok τ := hgw.ok t (by simp)
  refine ⟨{ a3 with buf := Buffer.back 1 a3.buf, out := a3.out ++ copy (pre ++ w :: ws), blanks := dropBlanks a3, numbers := [] }, last, ?_,
    ?_, by rw [o3, o2]⟩
  swap
  · refine Mid.again h3.at' hb ?_ ?_ ?_ ?_ _
    exacts [rfl, rfl, dropBlanks_ok h3.last h3.blanks, rfl]
  rw [e2, e3, Res.bind_ok]
  simp only [if_neg (val_ne ht), Res.bind_ok, Bool.false_eq_true, if_false, copy_append]

/-- A word at the end in which no segment goes on. -/
theorem final_ok {hr : Regular τ} (hs : Simple τ) {tail : List Nat} (htl : Ending tail) {a : Tm} {l : Loc W} {old : List Int} {pend rest pre ws : List Token} {w : Token}
    (h : Mid hr tail a l old [] pend rest) (e : pend ++ rest = pre ++ w :: ws) (hg : Good τ (pre ++ w :: ws)) {n : Nat} {zs : List Int} (hz : Ready hr n zs)
    (hi : vals (pre ++ [w]) <:+: zs) (hlv : Live τ (vals pre)) (hl : ¬ Live τ (vals (pre ++ [w]))) (hw : ∀ x ∈ w :: ws, ¬ Break τ x)
    (hn : numbersOf (pre ++ w :: ws) = []) (hbl : blanksOf (pre ++ w :: ws) = []) (hle : ws.length ≤ n) (k : Nat) :
    ∃ a', loop τ n (states hr []) (k + (pre.length + 1)) a l = .ok a' ∧ Ended tail a' ∧ a'.out = a.out ++ copy (pre ++ w :: ws) := by
  obtain ⟨a2, h2, o2, last, e2⟩ := dead_ok hs h e hg hz hi hlv hl (hw w (by simp)) k
  have hgw : Good τ (w :: ws) := hg.suffix
  obtain ⟨a3, e3, o3, h3⟩ := readRest_end hr htl ws w n a2 (copy pre) pre h2 (hgw.ok w (by simp)) hgw.tail (fun x hx => hw x (by simp [hx])) hle hn hbl
  refine ⟨{ a3 with out := a3.out ++ copy (pre ++ w :: ws) }, ?_, h3 _ rfl rfl rfl rfl, by rw [o3, o2]⟩
  rw [e2, e3, Res.bind_ok]
  simp only [if_true, Res.bind_ok, copy_append]

end Verif.TmProc
