import Verif.TmProc.Reading
import Verif.TmProc.Steps
import Verif.Data.Utf16

/-! # The turns of the loop -/

namespace Verif.TmProc

open Verif.State Verif.Stream Verif.Input
open Verif.Buffer (Buffer Rep)
open Verif.Proc (escapedCps rep_add rep_next rep_isEmpty rep_rewind putc)

variable {W : Type} {τ : Setting W}

theorem break_of_stop {t : Token} (h : Stop τ t.val) : Break τ t := by
  rcases h with h | ⟨-, h⟩
  exacts [.inr h, .inl h]

theorem isStop_iff {x : Int} : τ.isStop x = true ↔ Stop τ x := by
  simp [Setting.isStop, Stop]

theorem not_num (hr : Regular τ) {t : Token} (h : Break τ t) : ∀ ds, t ≠ .num ds := by
  rintro ds rfl
  rcases h with h | h
  · exact absurd (hr.tag.1.symm.trans h) (by decide)
  · exact absurd (hr.tag.2.symm.trans h) (by decide)

theorem numbers_break (hr : Regular τ) {t : Token} (h : Break τ t) : t.numbers = [] := by
  have := not_num hr h
  cases t with
  | num ds => exact absurd rfl (this ds)
  | _ => rfl

theorem val_ne {t : Token} (h : t.Ok τ) : t.val ≠ 0 := by
  cases t with
  | ch c => have := h.2.1; simpa [Token.val] using this
  | esc c => have := h.2.1; simpa [Token.val] using this
  | num ds => simp [Token.val]
  | super ts => simp [Token.val]
  | wb ts => simp [Token.val]

theorem utf16_ne (c : Nat) : utf16 c ≠ [] := by
  unfold utf16; split <;> simp

theorem copied_ne {t : Token} (h : t.Ok τ) : t.copied ≠ [] := by
  cases t with
  | ch c => exact utf16_ne c
  | esc c => exact utf16_ne c
  | num ds =>
    obtain ⟨⟨d, e, rfl, -⟩, -⟩ := h
    simp [Token.copied, enc, utf16_ne]
  | super ts => simp [Token.copied, enc, blockText, utf16_ne]
  | wb ts => simp [Token.copied, enc, wblankText, utf16_ne]

theorem copy_isEmpty {cs : List Token} (h : ∀ t ∈ cs, t.Ok τ) : (copy cs).isEmpty = decide (cs = []) := by
  cases cs with
  | nil => rfl
  | cons t cs =>
    have := copied_ne (h t (by simp))
    simp [copy, this]

/-- The tokens of a text: each is well formed, and numbers are apart. -/
structure Good (τ : Setting W) (ts : List Token) : Prop where
  ok : ∀ t ∈ ts, t.Ok τ
  apart : Apart ts

theorem Good.suffix {us vs : List Token} (h : Good τ (us ++ vs)) : Good τ vs := by
  refine ⟨fun t ht => h.ok t (by simp [ht]), fun u ds v e => h.apart (us ++ u) ds v (by rw [e]; simp)⟩

theorem Good.tail {t : Token} {vs : List Token} (h : Good τ (t :: vs)) : Good τ vs := Good.suffix (us := [t]) h

theorem Good.next {t : Token} {vs : List Token} (h : Good τ (t :: vs)) : ∀ ds, t = .num ds → ∃ t' v, vs = t' :: v ∧ t'.Ok τ ∧ ∀ es, t' ≠ .num es := by
  rintro ds rfl
  obtain ⟨t', v, rfl, hn⟩ := h.apart [] ds vs rfl
  exact ⟨t', v, rfl, h.ok _ (by simp), hn⟩

theorem getLast?_some {α : Type} (xs : List α) (x : α) : (xs ++ [x]).getLast? = some x := by simp

/-- What is appended for a token. -/
theorem shown_ok {t : Token} (ht : t.Ok τ) {a : Tm} {ns bs : List UString} (h1 : a.lastBlank = t.isBlank) (h2 : a.numbers = ns ++ t.numbers) (h3 : a.blanks = bs ++ t.blanks) :
    shown τ t.val a = .ok t.copied := by
  have sym : ∀ c : Nat, Scalar c → c ≠ 0 → τ.alphabet.getSymbol (c : Int) = .ok (utf16 c) := by
    intro c hc h0
    unfold Alphabet.getSymbol
    have : c < 2 ^ 31 := by unfold Scalar at hc; omega
    rw [if_neg (by omega), if_neg (by omega), Int.toNat_natCast, Compression.unitsOf_utf16 c this]
  unfold shown
  cases t with
  | ch c =>
    rw [if_neg (by simp only [Token.val]; omega), h1, if_neg (by simp [Token.isBlank])]
    exact sym c ht.1 ht.2.1
  | esc c =>
    rw [if_neg (by simp only [Token.val]; omega), h1, if_neg (by simp [Token.isBlank])]
    exact sym c ht.1 ht.2.1
  | num ds =>
    rw [if_pos (by simp [Token.val]), h2]
    simp only [Token.numbers, getLast?_some]
    rfl
  | super ts =>
    rw [if_neg (by simp [Token.val]), h1, if_pos (by simp [Token.isBlank, Token.val]), h3]
    simp only [Token.blanks, getLast?_some]
    rfl
  | wb ts =>
    rw [if_neg (by simp [Token.val]), h1, if_pos (by simp [Token.isBlank, Token.val]), h3]
    simp only [Token.blanks, getLast?_some]
    rfl

/-- Only the blank that was just read is kept. -/
theorem dropBlanks_ok {t : Token} {a : Tm} {bs : List UString} (h1 : a.lastBlank = t.isBlank) (h3 : a.blanks = bs ++ t.blanks) : dropBlanks a = blanksOf [t] := by
  unfold dropBlanks
  rw [h1, h3]
  cases t <;> simp [Token.isBlank, Token.blanks, blanksOf]

/-- Going back by a token. -/
theorem At.back {tail : List Nat} {a : Tm} {old : List Int} {cur rest : List Token} {t : Token} (h : At tail a old (cur ++ [t]) [] rest) :
    Rep (Buffer.back 1 a.buf) ⟨(old ++ vals cur) ++ vals [t], (old ++ vals cur).length + 0, []⟩ [] ∧ (Buffer.back 1 a.buf).size = 2048 := by
  have hrep := h.rep
  rw [List.append_nil] at hrep
  have hl : (old ++ vals (cur ++ [t])).length = old.length + cur.length + 1 := by simp [vals_length, Nat.add_assoc]
  obtain ⟨b1, s1, e1, e2, e3⟩ := Buffer.exec_ok hrep (.back 1) (x := .nothing) (s1 := ⟨old ++ vals (cur ++ [t]), old.length + (cur ++ [t]).length - 1, []⟩)
    (by simp only [Buffer.abstract]; rw [if_pos (by simp; omega)]) (by simp only [hl, h.size, List.length_append, List.length_singleton]; omega)
    (by intro n _ e; simp only at e; rw [e] at hl; simp at hl) (by intro i e; cases e)
  simp only [Buffer.exec, Res.ok.injEq, Prod.mk.injEq] at e1
  obtain ⟨-, rfl, rfl⟩ := e1
  refine ⟨?_, e3.trans h.size⟩
  have : old.length + (cur ++ [t]).length - 1 = (old ++ vals cur).length + 0 := by simp [vals_length]
  rw [this] at e2
  simpa [vals_append] using e2

/-- In the middle of a piece: the tokens `cur` were read, and some segment begins so. -/
structure Mid (hr : Regular τ) (tail : List Nat) (a : Tm) (l : Loc W) (old : List Int) (cur pend rest : List Token) : Prop where
  at' : At tail a old cur pend rest
  blanks : a.blanks = blanksOf (cur ++ pend)
  numbers : a.numbers = numbersOf cur
  st : l.st = states hr (vals cur)
  sf : l.sf = copy cur
  lf : l.lf = []
  pend : pend = [] ∨ (cur = [] ∧ ∃ t, pend = [t] ∧ Break τ t)

/-- Reading the next token of a piece. -/
theorem Mid.read {hr : Regular τ} {tail : List Nat} {a : Tm} {l : Loc W} {old : List Int} {cur pend rest qs : List Token} {t : Token}
    (h : Mid hr tail a l old cur pend rest) (e : pend ++ rest = t :: qs) (hg : Good τ (t :: qs)) :
    ∃ a', readTM τ a = .ok (t.val, a') ∧ At tail a' old (cur ++ [t]) [] qs ∧ a'.out = a.out ∧ a'.numbers = numbersOf cur ++ t.numbers ∧
      a'.blanks = blanksOf cur ++ t.blanks ∧ a'.lastBlank = (if pend = [] then t.isBlank else false) := by
  obtain ⟨a', pend', rest', e1, h1, h2, h3⟩ := At.read hr h.at' e (hg.ok t (by simp)) hg.next
  rcases h.pend with rfl | ⟨rfl, t', rfl, hb⟩
  · obtain ⟨rfl, b1, b2, b3⟩ := h3.new rfl
    rw [List.nil_append] at h2
    subst h2
    refine ⟨a', e1, h1, h3.out, by rw [b2, h.numbers], by rw [b1, h.blanks]; simp, by simpa using b3⟩
  · obtain ⟨rfl, b1, b2, b3⟩ := h3.old (by simp)
    simp only [List.cons_append, List.nil_append, List.cons.injEq] at e
    obtain ⟨rfl, rfl⟩ := e
    rw [List.tail_cons, List.nil_append] at h2
    subst h2
    refine ⟨a', e1, h1, h3.out, by rw [b2, h.numbers, numbers_break hr hb]; simp, by rw [b1, h.blanks]; simp [blanksOf], by simp [b3]⟩

/-- A token with which a segment may go on. -/
theorem Mid.step {hr : Regular τ} (hs : Simple τ) {tail : List Nat} {a : Tm} {l : Loc W} {old : List Int} {cur pend rest qs : List Token} {t : Token}
    (h : Mid hr tail a l old cur pend rest) (e : pend ++ rest = t :: qs) (hg : Good τ (t :: qs)) (hc : ∀ x ∈ cur, x.Ok τ)
    {n : Nat} {init : List (Rec W)} {zs : List Int} (hz : Ready hr n zs) (hi : vals (cur ++ [t]) <:+: zs) (hl : Live τ (vals (cur ++ [t]))) (k : Nat) :
    ∃ a' l', loop τ n init (k + 1) a l = loop τ n init k a' l' ∧ Mid hr tail a' l' old (cur ++ [t]) [] qs ∧ a'.out = a.out := by
  obtain ⟨a', e1, h1, h2, h3, h4, h5⟩ := h.read e hg
  have hok := hg.ok t (by simp)
  have hv : vals (cur ++ [t]) = vals cur ++ [t.val] := by simp [vals]
  have hb : a'.lastBlank = t.isBlank := by
    rw [h5]
    split
    · rfl
    · rename_i hp
      rcases h.pend with rfl | ⟨rfl, t', rfl, hbr⟩
      · exact absurd rfl hp
      · simp only [List.cons_append, List.nil_append, List.cons.injEq] at e
        obtain ⟨rfl, rfl⟩ := e
        have := hs.start t'.val
        rw [List.nil_append] at hl
        cases t' with
        | super ts => exact absurd hl (this hr.space)
        | wb ts => exact absurd hl (this hr.space)
        | _ => rfl
  have hn : note τ t.val a' l = .ok (a', l) := by
    unfold note
    rw [h.st, h.sf]
    by_cases hf : isFinal τ.finals (states hr (vals cur)) = true
    · rw [if_pos hf, if_neg]
      intro hst
      exact hs.longer _ _ ((isFinal_iff hr _).1 hf) (isStop_iff.1 hst) (by rwa [← hv])
    · rw [if_neg hf, if_neg]
      intro hst
      rw [copy_isEmpty hc, Bool.and_eq_true, decide_eq_true_eq] at hst
      obtain ⟨rfl, hsp⟩ := hst
      exact hs.start _ hsp hl
  have hst := hz.step (xs := vals cur) (x := t.val) (by rwa [← hv])
  rw [← hv, ← h.st] at hst
  refine ⟨a', { l with st := states hr (vals (cur ++ [t])), sf := l.sf ++ t.copied }, ?_, ⟨h1, by rw [h4]; simp [blanksOf], by rw [h3]; simp [numbersOf], rfl, ?_, h.lf, .inl rfl⟩, h2⟩
  · rw [loop, e1, Res.bind_ok]
    simp only [if_neg (val_ne hok), hn, Res.bind_ok, hst, isEmpty_live hr hl, Bool.false_eq_true, if_false, shown_ok hok hb h3 h4]
  · simp [h.sf, copy]

/-- The tokens of the beginning of a segment. -/
theorem alive {hr : Regular τ} (hs : Simple τ) {tail : List Nat} {old : List Int} {n : Nat} {init : List (Rec W)} {zs : List Int} (hz : Ready hr n zs) (qs : List Token) :
    ∀ (cs : List Token) (a : Tm) (l : Loc W) (cur pend rest : List Token), Mid hr tail a l old cur pend rest → pend ++ rest = cs ++ qs → Good τ (cs ++ qs) →
      (∀ x ∈ cur, x.Ok τ) → vals (cur ++ cs) <:+: zs → Live τ (vals (cur ++ cs)) → ∀ k,
      ∃ a' l' pend' rest', loop τ n init (k + cs.length) a l = loop τ n init k a' l' ∧ Mid hr tail a' l' old (cur ++ cs) pend' rest' ∧ pend' ++ rest' = qs ∧ a'.out = a.out := by
  intro cs
  induction cs with
  | nil =>
    intro a l cur pend rest h e _ _ _ _ k
    exact ⟨a, l, pend, rest, rfl, by simpa using h, e, rfl⟩
  | cons t cs ih =>
    intro a l cur pend rest h e hg hc hi hl k
    have hv : cur ++ t :: cs = (cur ++ [t]) ++ cs := by simp
    rw [hv] at hi hl
    have hi' : vals (cur ++ [t]) <:+: zs := by
      rw [vals_append (cur ++ [t])] at hi
      exact (List.prefix_append _ _).isInfix.trans hi
    have hl' : Live τ (vals (cur ++ [t])) := by
      rw [vals_append (cur ++ [t])] at hl
      exact live_prefix hl
    obtain ⟨a1, l1, e1, h1, o1⟩ := h.step hs e hg hc (init := init) hz hi' hl' (k + cs.length)
    obtain ⟨a2, l2, p2, r2, e2, h2, q2, o2⟩ := ih a1 l1 (cur ++ [t]) [] (cs ++ qs) h1 rfl hg.tail
      (by intro x hx; rcases List.mem_append.1 hx with hx | hx
          · exact hc x hx
          · rw [List.mem_singleton.1 hx]; exact hg.ok t (by simp)) hi hl k
    refine ⟨a2, l2, p2, r2, ?_, by rw [hv]; exact h2, q2, o2.trans o1⟩
    rw [List.length_cons, ← Nat.add_assoc, e1, e2]

end Verif.TmProc
