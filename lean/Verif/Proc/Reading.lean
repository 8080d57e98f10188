import Verif.Proc.Words
import Verif.Buffer.Props
import Verif.Stream.Lemmas

/-! # Reading the text -/

namespace Verif.Proc

open Verif.State Verif.Stream Verif.Input
open Verif.Buffer (Buffer Rep Stream)

variable {W : Type}

/-! ## The buffer -/

theorem rep_seek {T : Type} {b : Buffer T} {s : Buffer.Stream T} {saved : List Nat} (h : Rep b s saved) {k c : Nat} (hk : k < s.items.length)
    (hn : s.items.length < k + b.size) (hc : c ≤ b.size) (hm : c ≡ k [MOD b.size]) :
    Rep { b with currentpos := c } { s with cursor := k } saved :=
  { h with
    curLe := hc
    curMod := hm
    curAt := hk.le
    near := hn
    atEnd := fun e => by simp only at e; omega }

theorem rep_setPos {T : Type} {b : Buffer T} {s : Buffer.Stream T} {saved : List Nat} (h : Rep b s saved) {k p : Nat} (hk : k < s.items.length)
    (hn : s.items.length < k + b.size) (hm : p ≡ k [MOD b.size]) : Rep (Buffer.setPos p b) { s with cursor := k } saved := by
  have := Nat.mod_lt p h.pos
  exact rep_seek h hk hn (Nat.le_of_lt this) ((Nat.mod_modEq _ _).trans hm)

theorem rep_rewind {T : Type} {b : Buffer T} {s : Buffer.Stream T} {saved : List Nat} (h : Rep b s saved) {k p : Nat} (hk : k < s.items.length)
    (hn : s.items.length < k + b.size) (hm : p ≡ k + 1 [MOD b.size]) : Rep (Buffer.back 1 (Buffer.setPos p b)) { s with cursor := k } saved := by
  have hlt := Nat.mod_lt p h.pos
  have hs := h.small
  have hpos := h.pos
  have hm2 : p % b.size ≡ k + 1 [MOD b.size] := (Nat.mod_modEq _ _).trans hm
  have e : Buffer.back 1 (Buffer.setPos p b) = { b with currentpos := if p % b.size > 1 then p % b.size - 1 else b.size + p % b.size - 1 } := by
    unfold Buffer.back Buffer.setPos
    simp only
    split
    · rfl
    · congr 1
      have e : b.size + 2 ^ 32 - (1 - p % b.size) = (b.size + p % b.size - 1) + 2 ^ 32 := by omega
      rw [e, Nat.add_mod_right]
      exact Nat.mod_eq_of_lt (by omega)
  rw [e]
  refine rep_seek h hk hn ?_ ?_
  · split <;> omega
  · split
    · refine Nat.ModEq.add_right_cancel' 1 ?_
      rw [Nat.sub_add_cancel (by omega)]
      exact hm2
    · refine Nat.ModEq.add_right_cancel' 1 ?_
      rw [Nat.sub_add_cancel (by omega)]
      have : b.size + p % b.size ≡ p % b.size [MOD b.size] := by simp [Nat.ModEq]
      exact this.trans hm2

theorem rep_add {T : Type} {b : Buffer T} {s : Buffer.Stream T} (h : Rep b s []) (v : T) :
    Rep (Buffer.add v b) { s with items := s.items ++ [v], cursor := s.items.length + 1 } [] ∧ (Buffer.add v b).size = b.size := by
  obtain ⟨b1, saved1, e1, h1, h2⟩ := Buffer.exec_ok h (.add v) (x := .nothing) (s1 := { s with items := s.items ++ [v], cursor := s.items.length + 1 }) rfl
    (by simp only [List.length_append, List.length_cons, List.length_nil]; have := h.pos; omega) (by simp) (by simp)
  simp only [Buffer.exec, Res.ok.injEq, Prod.mk.injEq, true_and] at e1
  obtain ⟨rfl, rfl⟩ := e1
  exact ⟨h1, h2⟩

theorem rep_next {T : Type} {b : Buffer T} {s : Buffer.Stream T} (h : Rep b s []) {v : T} (hv : s.items[s.cursor]? = some v) :
    ∃ b', Buffer.next b = .ok (v, b') ∧ Rep b' { s with cursor := s.cursor + 1 } [] ∧ b'.size = b.size := by
  have hlt := (List.getElem?_eq_some_iff.1 hv).1
  obtain ⟨b1, saved1, e1, h1, h2⟩ := Buffer.exec_ok h .next (x := .value v) (s1 := { s with cursor := s.cursor + 1 })
    (by simp only [Buffer.abstract, hv]) (by simp only; have := h.near; omega) (by simp) (by simp)
  simp only [Buffer.exec] at e1
  rw [Res.bind_eq_ok] at e1
  obtain ⟨⟨v', b'⟩, e2, e3⟩ := e1
  simp only [Res.pure_eq, Res.ok.injEq, Prod.mk.injEq, Buffer.Seen.value.injEq] at e3
  obtain ⟨rfl, rfl, rfl⟩ := e3
  exact ⟨_, e2, h1, h2⟩

theorem rep_isEmpty {T : Type} {b : Buffer T} {s : Buffer.Stream T} {saved : List Nat} (h : Rep b s saved) :
    Buffer.isEmpty b = decide (s.cursor = s.items.length) := by
  unfold Buffer.isEmpty
  rw [show decide (b.currentpos = b.lastpos) = decide (s.cursor = s.items.length) from decide_eq_decide.2 h.cur_ne]

/-! ## Where the analyser is -/

/-- The values `old` and the pieces `cur` were read, the pieces `pend` were read and put back, the pieces `rest` were not read; then comes `tail`. -/
structure At (tail : List Nat) (a : An) (old : List Int) (cur pend rest : List Piece) : Prop where
  rep : Rep a.buf ⟨old ++ vals (cur ++ pend), old.length + cur.length, []⟩ []
  size : a.buf.size = 2048
  inp : Holds a.inp (rest.flatMap Piece.text ++ tail)
  blanks : a.blanks = blanksOf (cur ++ pend)

theorem vals_append (ps qs : List Piece) : vals (ps ++ qs) = vals ps ++ vals qs := by simp [vals]
theorem vals_length (ps : List Piece) : (vals ps).length = ps.length := by simp [vals]
theorem blanksOf_append (ps qs : List Piece) : blanksOf (ps ++ qs) = blanksOf ps ++ blanksOf qs := by simp [blanksOf]

theorem skipIgnored_stop (σ : Setting W) (turns c : Nat) (f : InFile) (h : σ.useIgnored = true → c ∉ σ.ignored) :
    skipIgnored σ turns c f = .ok (c, f) := by
  unfold skipIgnored
  rw [if_neg]
  simp only [Bool.and_eq_true, List.contains_iff_mem]
  rintro ⟨h1, h2⟩
  exact h h1 h2

theorem skipIgnored_ok (σ : Setting W) (c : Nat) (hc : σ.useIgnored = true → c ∉ σ.ignored) (cs : List Nat) : ∀ (sk : List Nat) (c0 : Nat) (turns : Nat) (f : InFile)
    (rest : List Nat), (∀ c ∈ sk, σ.useIgnored = true ∧ c ∈ σ.ignored) → sk ++ [c] = c0 :: rest → sk.length ≤ turns → Holds f (rest ++ cs) →
    ∃ g, skipIgnored σ turns c0 f = .ok (c, g) ∧ Holds g cs ∧ g.buf.length ≤ f.buf.length := by
  intro sk
  induction sk with
  | nil =>
    intro c0 turns f rest _ e _ hf
    simp only [List.nil_append, List.cons.injEq] at e
    obtain ⟨rfl, rfl⟩ := e
    exact ⟨f, skipIgnored_stop σ turns c f hc, hf, le_rfl⟩
  | cons d sk ih =>
    intro c0 turns f rest hs e ht hf
    simp only [List.cons_append, List.cons.injEq] at e
    obtain ⟨rfl, rfl⟩ := e
    obtain ⟨h1, h2⟩ := hs d (by simp)
    cases turns with
    | zero => simp at ht
    | succ turns =>
      obtain ⟨x, xs, hx⟩ : ∃ x xs, sk ++ [c] = x :: xs := by
        cases sk with
        | nil => exact ⟨c, [], rfl⟩
        | cons y ys => exact ⟨y, ys ++ [c], rfl⟩
      rw [hx] at hf
      obtain ⟨g, e1, h3, h3'⟩ := hf.get
      obtain ⟨g', e2, h4, h5⟩ := ih x turns g xs (fun c hc => hs c (by simp [hc])) hx (by simpa using ht) h3
      refine ⟨g', ?_, h4, by omega⟩
      unfold skipIgnored
      rw [if_pos (by simp only [Bool.and_eq_true, List.contains_iff_mem]; exact ⟨h1, h2⟩)]
      simp only [e1, Res.bind_ok]
      exact e2

/-- The first character of a piece after those that are ignored. -/
theorem readFirst (σ : Setting W) (f : InFile) (sk : List Nat) (c : Nat) (cs : List Nat)
    (hs : ∀ c ∈ sk, Scalar c ∧ c ≠ 0 ∧ c ≠ 0xffff ∧ σ.useIgnored = true ∧ c ∈ σ.ignored) (hc : σ.useIgnored = true → c ∉ σ.ignored) (hcf : c ≠ 0xffff)
    (hf : Holds f (sk ++ c :: cs)) :
    ∃ c0 f1 g, get f = .ok (c0, f1) ∧ f1.eof = false ∧ skipIgnored σ (turnsOf f1) (if c0 = uEOF then 0 else c0) f1 = .ok (c, g) ∧ Holds g cs ∧
      g.buf.length ≤ 1 := by
  obtain ⟨x, xs, hx⟩ : ∃ x xs, sk ++ [c] = x :: xs := by
    cases sk with
    | nil => exact ⟨c, [], rfl⟩
    | cons y ys => exact ⟨y, ys ++ [c], rfl⟩
  have hf' : Holds f (x :: (xs ++ cs)) := by
    have : sk ++ c :: cs = (sk ++ [c]) ++ cs := by simp
    rw [this, hx] at hf
    exact hf
  obtain ⟨f1, e1, h1, h2⟩ := hf'.get
  have hx0 : x ≠ 0xffff := by
    have : x ∈ sk ++ [c] := by rw [hx]; simp
    rcases List.mem_append.1 this with h | h
    · exact (hs x h).2.2.1
    · rw [List.mem_singleton.1 h]; exact hcf
  have hb := hf.buf
  have ht := h1.turns
  obtain ⟨g, e2, h3, h4⟩ := skipIgnored_ok σ c hc cs sk x (turnsOf f1) f1 xs (fun d hd => ⟨(hs d hd).2.2.2.1, (hs d hd).2.2.2.2⟩) hx
    (by
      have hl := congrArg List.length hx
      simp only [List.length_append, List.length_cons, List.length_nil] at hl ht
      omega) h1
  exact ⟨x, f1, g, e1, h1.eof, by rw [if_neg (show x ≠ uEOF from hx0)]; exact e2, h3, by omega⟩

theorem isEmpty_pend {tail : List Nat} {a : An} {old : List Int} {cur pend rest : List Piece} (h : At tail a old cur pend rest) :
    Buffer.isEmpty a.buf = decide (pend = []) := by
  rw [rep_isEmpty h.rep]
  simp only [List.length_append, vals_length]
  rw [decide_eq_decide]
  constructor
  · intro e
    exact List.length_eq_zero_iff.1 (by omega)
  · rintro rfl; simp

/-- Reading a piece. -/
theorem At.read {σ : Setting W} {tail : List Nat} {a : An} {old : List Int} {cur pend rest : List Piece} {p : Piece} {qs : List Piece}
    (h : At tail a old cur pend rest) (e : pend ++ rest = p :: qs) (hp : p.Ok σ) :
    ∃ a' pend' rest', readAnalysis σ a = .ok ((p.val : Int), a') ∧ At tail a' old (cur ++ [p]) pend' rest' ∧ pend' ++ rest' = qs ∧ a'.out = a.out ∧
      (cur ++ [p] ++ pend' = cur ++ pend ∨ pend' = []) := by
  cases pend with
  | cons p' pend =>
    simp only [List.cons_append, List.cons.injEq] at e
    obtain ⟨rfl, rfl⟩ := e
    have hv : (old ++ vals (cur ++ p' :: pend))[old.length + cur.length]? = some (p'.val : Int) := by
      rw [List.getElem?_append_right (by omega), vals_append, List.getElem?_append_right (by rw [vals_length]; omega), vals_length]
      simp [vals]
    obtain ⟨b', e1, h1, h2⟩ := rep_next h.rep hv
    have e3 : cur ++ [p'] ++ pend = cur ++ p' :: pend := by simp
    refine ⟨{ a with buf := b' }, pend, rest, ?_, ⟨?_, h2.trans h.size, h.inp, ?_⟩, rfl, rfl, .inl e3⟩
    · unfold readAnalysis
      rw [isEmpty_pend h]
      simp only [reduceCtorEq, decide_false, Bool.not_false, if_true, e1, Res.bind_ok]
      rfl
    · rw [e3]
      simpa [Nat.add_assoc] using h1
    · rw [e3]; exact h.blanks
  | nil =>
    rw [List.nil_append] at e
    subst e
    have hin := h.inp
    rw [List.flatMap_cons, Piece.text, List.append_assoc, List.append_assoc] at hin
    obtain ⟨hs, hc⟩ := hp
    have hadd := fun v : Int => rep_add h.rep v
    have hemp : (!Buffer.isEmpty a.buf) = false := by rw [isEmpty_pend h]; rfl
    have fin : ∀ (b : UString × InFile) (bl : List UString), p.core.blank = bl → Holds b.2 (qs.flatMap Piece.text ++ tail) →
        At tail { a with inp := b.2, blanks := a.blanks ++ bl, buf := Buffer.add (p.val : Int) a.buf } old (cur ++ [p]) [] qs := by
      intro b bl hb hh
      obtain ⟨k1, k2⟩ := hadd (p.val : Int)
      refine ⟨?_, k2.trans h.size, hh, ?_⟩
      · simp only [List.append_nil, vals_append] at k1 ⊢
        have : vals [p] = [(p.val : Int)] := rfl
        rw [this, ← List.append_assoc]
        simpa [vals_length, Nat.add_assoc] using k1
      · simp only [h.blanks, List.append_nil, blanksOf_append]
        rw [← hb]
        simp [blanksOf]
    obtain ⟨sk, core⟩ := p
    cases core with
    | ch c =>
      obtain ⟨c1, c2, c3, c4, c5⟩ := hc
      obtain ⟨c0, f1, g, e1, e2, e3, e4, -⟩ := readFirst σ a.inp sk c (qs.flatMap Piece.text ++ tail) hs c5 c3 hin
      refine ⟨_, [], qs, ?_, fin ([], g) _ rfl e4, rfl, rfl, .inr rfl⟩
      unfold readAnalysis
      rw [hemp]
      simp only [Bool.false_eq_true, if_false, e1, Res.bind_ok, e2, e3]
      rw [if_neg c4]
      congr 3
      simp only [Core.blank]
      split <;> simp
    | esc c =>
      obtain ⟨c1, c2, c3, c4, c5⟩ := hc
      obtain ⟨c0, f1, g, e1, e2, e3, e4, -⟩ := readFirst σ a.inp sk '\\'.toNat (c :: (qs.flatMap Piece.text ++ tail)) hs c5 (by decide) (by simpa [Core.text] using hin)
      obtain ⟨g', e5, e6, -⟩ := e4.get
      refine ⟨_, [], qs, ?_, fin ([], g') _ rfl e6, rfl, rfl, .inr rfl⟩
      unfold readAnalysis
      rw [hemp]
      simp only [Bool.false_eq_true, if_false, e1, Res.bind_ok, e2, e3]
      rw [if_pos (by decide), if_neg (by decide), if_neg (by decide), if_pos trivial]
      simp only [e5, Res.bind_ok]
      simp [Core.blank, Piece.val, Core.val]
    | super ts =>
      obtain ⟨c1, c2, c3⟩ := hc
      obtain ⟨c0, f1, g, e1, e2, e3, e4, hgb⟩ := readFirst σ a.inp sk '['.toNat (toksText ts ++ ']'.toNat :: (qs.flatMap Piece.text ++ tail)) hs c3 (by decide)
        (by simpa [Core.text, blockText] using hin)
      obtain ⟨x, xs, hx⟩ : ∃ x xs, toksText ts ++ ']'.toNat :: (qs.flatMap Piece.text ++ tail) = x :: xs := by
        cases hts : toksText ts ++ ']'.toNat :: (qs.flatMap Piece.text ++ tail) with
        | nil => simp at hts
        | cons x xs => exact ⟨x, xs, rfl⟩
      have hxb : x ≠ '['.toNat := by
        intro e
        subst e
        cases ts with
        | nil => simp [toksText] at hx
        | cons t ts =>
          cases t with
          | raw c =>
            simp only [toksText, List.flatMap_cons, Tok.text, List.cons_append, List.nil_append, List.cons.injEq] at hx
            rw [hx.1] at c2
            exact c2 rfl
          | esc c =>
            simp [toksText, Tok.text] at hx
      rw [hx] at e4
      obtain ⟨g1, e5, e6, e7⟩ := e4.get
      have hsx : Scalar x := e4.scalar x (by simp)
      obtain ⟨g2, e8, e9, -⟩ := e6.unget hsx (by omega)
      rw [← hx] at e9
      obtain ⟨g3, e10, e11⟩ := readBlock_ok '['.toNat ']'.toNat (by decide) (by decide) _ ts g2 c1 e9
      refine ⟨_, [], qs, ?_, fin ([], g3) _ rfl e11, rfl, rfl, .inr rfl⟩
      unfold readAnalysis
      rw [hemp]
      simp only [Bool.false_eq_true, if_false, e1, Res.bind_ok, e2, e3]
      rw [if_pos (by decide), if_neg (by decide), if_pos trivial]
      simp only [e5, Res.bind_ok, if_neg hxb, e8, e10]
      simp [Core.blank, Piece.val, Core.val]
    | wb ts =>
      obtain ⟨c1, c3⟩ := hc
      obtain ⟨c0, f1, g, e1, e2, e3, e4, hgb⟩ := readFirst σ a.inp sk '['.toNat ('['.toNat :: (toksText ts ++ ']'.toNat :: ']'.toNat :: (qs.flatMap Piece.text ++ tail))) hs c3
        (by decide) (by simpa [Core.text, wblankText] using hin)
      obtain ⟨g1, e5, e6, e7⟩ := e4.get
      obtain ⟨g3, e10, e11⟩ := finishWBlank_ok _ ts g1 c1 e6
      refine ⟨_, [], qs, ?_, fin ([], g3) _ rfl e11, rfl, rfl, .inr rfl⟩
      unfold readAnalysis
      rw [hemp]
      simp only [Bool.false_eq_true, if_false, e1, Res.bind_ok, e2, e3]
      rw [if_pos (by decide), if_neg (by decide), if_pos trivial]
      simp only [e5, Res.bind_ok, if_true, e10]
      simp [Core.blank, Piece.val, Core.val]

end Verif.Proc
