import Verif.TmProc.Spec
import Verif.Proc.Reading
import Verif.Proc.Final

/-! # Reading tokens -/

namespace Verif.TmProc

open Verif.State Verif.Stream Verif.Input
open Verif.Buffer (Buffer Rep)
open Verif.Proc (escapedCps rep_add rep_next rep_isEmpty rep_rewind)

variable {W : Type} {τ : Setting W}

theorem vals_append (ps qs : List Token) : vals (ps ++ qs) = vals ps ++ vals qs := by simp [vals]
theorem vals_length (ps : List Token) : (vals ps).length = ps.length := by simp [vals]
theorem blanksOf_append (ps qs : List Token) : blanksOf (ps ++ qs) = blanksOf ps ++ blanksOf qs := by simp [blanksOf]
theorem numbersOf_append (ps qs : List Token) : numbersOf (ps ++ qs) = numbersOf ps ++ numbersOf qs := by simp [numbersOf]
theorem copy_append (ps qs : List Token) : copy (ps ++ qs) = copy ps ++ copy qs := by simp [copy]

/-- A blank in brackets. -/
def Token.isBlank : Token → Bool
  | .super _ => true
  | .wb _ => true
  | _ => false

/-- The values `old` and the tokens `cur` were read, the tokens `pend` were read and put back, the tokens `rest` were not read; then comes `tail`. -/
structure At (tail : List Nat) (a : Tm) (old : List Int) (cur pend rest : List Token) : Prop where
  rep : Rep a.buf ⟨old ++ vals (cur ++ pend), old.length + cur.length, []⟩ []
  size : a.buf.size = 2048
  inp : Holds a.inp (textOf rest ++ tail)

theorem isEmpty_pend {tail : List Nat} {a : Tm} {old : List Int} {cur pend rest : List Token} (h : At tail a old cur pend rest) :
    Buffer.isEmpty a.buf = decide (pend = []) := by
  rw [rep_isEmpty h.rep]
  simp only [List.length_append, vals_length]
  rw [decide_eq_decide]
  constructor
  · intro e
    exact List.length_eq_zero_iff.1 (by omega)
  · rintro rfl; simp

/-- A number up to its last digit. -/
theorem readDigits_ok (ch : Chars) {d' : Nat} (hd : ch.isDigit d' = false) (cs : List Nat) : ∀ (ds : List Nat) (turns c : Nat) (ws : UString) (f : InFile),
    (∀ d ∈ ds, ch.isDigit d = true) → ds.length ≤ turns → Holds f (ds ++ d' :: cs) →
    ∃ g, readDigits ch turns c ws f = .ok (ws ++ enc (c :: ds), g) ∧ Holds g (d' :: cs) := by
  intro ds
  induction ds with
  | nil =>
    intro turns c ws f _ _ hf
    obtain ⟨g, e1, h1, h2⟩ := hf.get
    have hb := hf.buf
    obtain ⟨g', e2, h3, -⟩ := h1.unget (hf.scalar d' (by simp)) (by omega)
    refine ⟨g', ?_, h3⟩
    unfold readDigits
    simp only [e1, Res.bind_ok, hd, Bool.false_eq_true, if_false, e2]
    simp [enc]
  | cons d ds ih =>
    intro turns c ws f hs ht hf
    obtain ⟨g, e1, h1, h2⟩ := hf.get
    cases turns with
    | zero => simp at ht
    | succ turns =>
      obtain ⟨g', e2, h3⟩ := ih turns d (ws ++ utf16 c) g (fun x hx => hs x (by simp [hx])) (by simpa using ht) h1
      refine ⟨g', ?_, h3⟩
      unfold readDigits
      simp only [e1, Res.bind_ok, hs d (by simp), if_true, e2]
      simp [enc]

/-- What comes after a number is not a digit. -/
theorem next_not_digit (hr : Regular τ) {t : Token} (ht : t.Ok τ) (hn : ∀ es, t ≠ .num es) : ∃ c cs, t.text = c :: cs ∧ τ.chars.isDigit c = false := by
  cases t with
  | ch c => exact ⟨c, [], rfl, ht.2.2.2⟩
  | esc c => exact ⟨_, _, rfl, hr.notDigit.1⟩
  | num es => exact absurd rfl (hn es)
  | super ts => exact ⟨_, _, rfl, hr.notDigit.2⟩
  | wb ts => exact ⟨_, _, rfl, hr.notDigit.2⟩

/-- What reading a token changes. -/
structure Moved (t : Token) (pend pend' : List Token) (a a' : Tm) : Prop where
  out : a'.out = a.out
  old : pend ≠ [] → pend' = pend.tail ∧ a'.blanks = a.blanks ∧ a'.numbers = a.numbers ∧ a'.lastBlank = false
  new : pend = [] → pend' = [] ∧ a'.blanks = a.blanks ++ t.blanks ∧ a'.numbers = a.numbers ++ t.numbers ∧ a'.lastBlank = t.isBlank

/-- Reading a token. -/
theorem At.read (hr : Regular τ) {tail : List Nat} {a : Tm} {old : List Int} {cur pend rest : List Token} {t : Token} {qs : List Token}
    (h : At tail a old cur pend rest) (e : pend ++ rest = t :: qs) (ht : t.Ok τ) (hap : ∀ ds, t = .num ds → ∃ t' v, qs = t' :: v ∧ t'.Ok τ ∧ ∀ es, t' ≠ .num es) :
    ∃ a' pend' rest', readTM τ a = .ok (t.val, a') ∧ At tail a' old (cur ++ [t]) pend' rest' ∧ pend' ++ rest' = qs ∧ Moved t pend pend' a a' := by
  cases pend with
  | cons p' pend =>
    simp only [List.cons_append, List.cons.injEq] at e
    obtain ⟨rfl, rfl⟩ := e
    have hv : (old ++ vals (cur ++ p' :: pend))[old.length + cur.length]? = some p'.val := by
      rw [List.getElem?_append_right (by omega), vals_append, List.getElem?_append_right (by rw [vals_length]; omega), vals_length]
      simp [vals]
    obtain ⟨b', e1, h1, h2⟩ := rep_next h.rep hv
    have e3 : cur ++ [p'] ++ pend = cur ++ p' :: pend := by simp
    refine ⟨{ a with buf := b', lastBlank := false }, pend, rest, ?_, ⟨?_, h2.trans h.size, h.inp⟩, rfl, ⟨rfl, fun _ => ⟨rfl, rfl, rfl, rfl⟩, fun e => by cases e⟩⟩
    · unfold readTM
      rw [isEmpty_pend h]
      simp only [reduceCtorEq, decide_false, Bool.not_false, if_true, e1, Res.bind_ok]
      rfl
    · rw [e3]
      simpa [Nat.add_assoc] using h1
  | nil =>
    rw [List.nil_append] at e
    subst e
    have hin := h.inp
    rw [textOf, List.flatMap_cons, ← textOf, List.append_assoc] at hin
    have hemp : (!Buffer.isEmpty a.buf) = false := by rw [isEmpty_pend h]; rfl
    have fin : ∀ (f : InFile) (bl ns : List UString) (lb : Bool), t.blanks = bl → t.numbers = ns → t.isBlank = lb → Holds f (textOf qs ++ tail) →
        readTM τ a = .ok (t.val, { a with inp := f, blanks := a.blanks ++ bl, numbers := a.numbers ++ ns, buf := Buffer.add t.val a.buf, lastBlank := lb }) →
        ∃ a' pend' rest', readTM τ a = .ok (t.val, a') ∧ At tail a' old (cur ++ [t]) pend' rest' ∧ pend' ++ rest' = qs ∧ Moved t [] pend' a a' := by
      rintro f bl ns lb rfl rfl rfl hh hread
      obtain ⟨k1, k2⟩ := rep_add h.rep t.val
      refine ⟨_, [], qs, hread, ⟨?_, k2.trans h.size, hh⟩, rfl, ⟨rfl, fun e => absurd rfl e, fun _ => ⟨rfl, rfl, rfl, rfl⟩⟩⟩
      simp only [List.append_nil, vals_append] at k1 ⊢
      have : vals [t] = [t.val] := rfl
      rw [this, ← List.append_assoc]
      simpa [vals_length, Nat.add_assoc] using k1
    cases t with
    | ch c =>
      obtain ⟨c1, c2, c3, c4⟩ := ht
      obtain ⟨f1, e1, h1, h2⟩ := Holds.get (c := c) (cs := textOf qs ++ tail) hin
      refine fin f1 [] [] false rfl rfl rfl h1 ?_
      unfold readTM
      rw [hemp]
      simp only [Bool.false_eq_true, if_false, e1, Res.bind_ok, h1.eof]
      rw [if_neg (by rintro (e | e); exacts [c3 e, by rw [c4] at e; cases e])]
      simp [Token.val]
    | esc c =>
      obtain ⟨c1, c2, c3⟩ := ht
      obtain ⟨f1, e1, h1, h2⟩ := Holds.get (c := '\\'.toNat) (cs := c :: (textOf qs ++ tail)) hin
      obtain ⟨f2, e5, e6, -⟩ := h1.get
      refine fin f2 [] [] false rfl rfl rfl e6 ?_
      unfold readTM
      rw [hemp]
      simp only [Bool.false_eq_true, if_false, e1, Res.bind_ok, h1.eof]
      rw [if_pos (.inl (by decide)), if_neg (by decide), if_neg (by decide), if_pos trivial]
      simp only [e5, Res.bind_ok]
      simp [Token.val]
    | num ds =>
      obtain ⟨⟨d, ds, rfl, d1, d2⟩, hall⟩ := ht
      obtain ⟨t', v, rfl, ht', hn'⟩ := hap _ rfl
      obtain ⟨c', cs', hc', hd'⟩ := next_not_digit hr ht' hn'
      have hin' : Holds a.inp (d :: (ds ++ c' :: (cs' ++ (textOf v ++ tail)))) := by
        have : Token.text (.num (d :: ds)) ++ (textOf (t' :: v) ++ tail) = d :: (ds ++ c' :: (cs' ++ (textOf v ++ tail))) := by
          simp only [textOf, List.flatMap_cons, hc']
          simp [Token.text]
        rwa [this] at hin
      have hq : textOf (t' :: v) ++ tail = c' :: (cs' ++ (textOf v ++ tail)) := by simp [textOf, hc']
      obtain ⟨f1, e1, h1, h2⟩ := hin'.get
      have htn := h1.turns
      obtain ⟨f2, e2, h3⟩ := readDigits_ok τ.chars hd' (cs' ++ (textOf v ++ tail)) ds (turnsOf f1) d [] f1 (fun x hx => (hall x (by simp [hx])).2)
        (by simp only [List.length_append] at htn; omega) h1
      refine fin f2 [] [enc (d :: ds)] false rfl rfl rfl (by rw [hq]; exact h3) ?_
      unfold readTM
      rw [hemp]
      simp only [Bool.false_eq_true, if_false, e1, Res.bind_ok, h1.eof]
      rw [if_pos (.inr (hr.digits d d1 d2)), if_neg (by have : '<'.toNat = 0x3c := rfl; omega), if_neg (by have : '['.toNat = 0x5b := rfl; omega),
        if_neg (by have : '\\'.toNat = 0x5c := rfl; omega), if_pos ⟨d1, d2⟩]
      simp only [e2, Res.bind_ok, hr.number]
      simp [Token.val]
    | super ts =>
      obtain ⟨c1, c2⟩ := ht
      have hin' : Holds a.inp ('['.toNat :: (toksText ts ++ ']'.toNat :: (textOf qs ++ tail))) := by
        simpa [Token.text, blockText] using hin
      obtain ⟨g, e1, e4, hgb⟩ := hin'.get
      have hb := h.inp.buf
      obtain ⟨x, xs, hx⟩ : ∃ x xs, toksText ts ++ ']'.toNat :: (textOf qs ++ tail) = x :: xs := by
        cases hts : toksText ts ++ ']'.toNat :: (textOf qs ++ tail) with
        | nil => simp at hts
        | cons x xs => exact ⟨x, xs, rfl⟩
      have hxb : x ≠ '['.toNat := by
        intro e
        subst e
        cases ts with
        | nil => simp [toksText] at hx
        | cons t ts =>
          cases t with
          | raw c =>
            simp only [toksText, List.flatMap_cons, Tok.text, List.cons_append, List.nil_append, List.cons.injEq] at hx
            rw [hx.1] at c2
            exact c2 rfl
          | esc c =>
            simp [toksText, Tok.text] at hx
      have heof := e4.eof
      rw [hx] at e4
      obtain ⟨g1, e5, e6, e7⟩ := e4.get
      have hsx : Scalar x := e4.scalar x (by simp)
      obtain ⟨g2, e8, e9, -⟩ := e6.unget hsx (by omega)
      rw [← hx] at e9
      obtain ⟨g3, e10, e11⟩ := readBlock_ok '['.toNat ']'.toNat (by decide) (by decide) _ ts g2 c1 e9
      refine fin g3 _ [] true rfl rfl rfl e11 ?_
      unfold readTM
      rw [hemp]
      simp only [Bool.false_eq_true, if_false, e1, Res.bind_ok, heof]
      rw [if_pos (.inl (by decide)), if_neg (by decide), if_pos trivial]
      simp only [e5, Res.bind_ok, if_neg hxb, e8, e10]
      simp [Token.val, Token.blanks]
    | wb ts =>
      have hin' : Holds a.inp ('['.toNat :: ('['.toNat :: (toksText ts ++ ']'.toNat :: ']'.toNat :: (textOf qs ++ tail)))) := by
        simpa [Token.text, wblankText] using hin
      obtain ⟨g, e1, e4, hgb⟩ := hin'.get
      obtain ⟨g1, e5, e6, e7⟩ := e4.get
      obtain ⟨g3, e10, e11⟩ := finishWBlank_ok _ ts g1 ht e6
      refine fin g3 _ [] true rfl rfl rfl e11 ?_
      unfold readTM
      rw [hemp]
      simp only [Bool.false_eq_true, if_false, e1, Res.bind_ok, e4.eof]
      rw [if_pos (.inl (by decide)), if_neg (by decide), if_pos trivial]
      simp only [e5, Res.bind_ok, if_true, e10]
      simp [Token.val, Token.blanks]

/-- Reading the NUL at the end of a part. -/
theorem At.nul {more : List Nat} {a : Tm} {old : List Int} {cur : List Token} (h : At (0 :: more) a old cur [] []) (h0 : τ.chars.isDigit 0 = false) :
    ∃ f, readTM τ a = .ok (0, { a with inp := f, buf := Buffer.add 0 a.buf, lastBlank := false }) ∧ Holds f more := by
  have hemp : (!Buffer.isEmpty a.buf) = false := by rw [isEmpty_pend h]; rfl
  have hin : Holds a.inp (0 :: more) := h.inp
  obtain ⟨g, e1, h1, -⟩ := hin.get
  refine ⟨g, ?_, h1⟩
  unfold readTM
  rw [hemp]
  simp only [Bool.false_eq_true, if_false, e1, Res.bind_ok, h1.eof]
  rw [if_neg (by rintro (e | e); exacts [absurd e (by decide), by rw [show ((0 : Nat) : Int) = 0 from rfl, h0] at e; cases e])]
  rfl

/-- Reading the end of the file. -/
theorem read_end {a : Tm} (he : Buffer.isEmpty a.buf = true) (b : Bool) (hi : a.inp = ⟨[], b, []⟩) : readTM τ a = .ok (0, { a with inp := ⟨[], true, []⟩, lastBlank := false }) := by
  unfold readTM
  rw [he, hi, Proc.get_end]
  rfl

end Verif.TmProc
