import Verif.Sao.Notes

/-! # The loop -/

namespace Verif.Sao

open Verif.State Verif.Stream Verif.Input Verif.Proc
open Verif.Buffer (Buffer Rep)

variable {W : Type}

/-- Nothing was read after a section, and no space before it. -/
def Calm (σ : Setting W) (ps : List Piece) : Prop := ∀ u cs v, ps = u ++ Piece.cdata cs :: v → v = [] ∧ ∀ q ∈ u, σ.chars.isSpace (q.val : Int) = false

theorem calm_suffix {σ : Setting W} {ps qs : List Piece} (h : Calm σ (ps ++ qs)) : Calm σ qs := by
  intro u cs v e
  obtain ⟨h1, h2⟩ := h (ps ++ u) cs v (by rw [e]; simp)
  exact ⟨h1, fun q hq => h2 q (by simp [hq])⟩

def NoCdata (ps : List Piece) : Prop := ∀ cs, Piece.cdata cs ∉ ps

theorem calm_concat {σ : Setting W} {ps : List Piece} (p : Piece) (h : NoCdata ps) (hp : ∀ cs, p = .cdata cs → ∀ q ∈ ps, σ.chars.isSpace (q.val : Int) = false) :
    Calm σ (ps ++ [p]) := by
  intro u cs v e
  rcases List.eq_nil_or_concat v with rfl | ⟨v', x, rfl⟩
  · obtain ⟨rfl, e2⟩ := List.append_inj' e rfl
    simp only [List.cons.injEq, and_true] at e2
    exact ⟨rfl, hp cs e2⟩
  · exfalso
    have : ps = u ++ Piece.cdata cs :: v' := by
      have e' : ps ++ [p] = (u ++ Piece.cdata cs :: v') ++ [x] := by rw [e]; simp
      exact (List.append_inj' e' rfl).1
    exact h cs (by rw [this]; simp)

theorem blanksOf_none {ps : List Piece} (h : NoCdata ps) : blanksOf ps = [] := by
  unfold blanksOf
  refine List.flatMap_eq_nil_iff.2 fun p hp => ?_
  cases p with
  | ch c => rfl
  | esc c => rfl
  | cdata cs => exact absurd hp (h cs)

/-- Where the processor is, within a token. -/
structure Open (σ : Setting W) (a : An) (old : List Int) (cur pend rest : List Piece) (o : UString) : Prop where
  here : At a old cur pend rest
  calm : Calm σ (cur ++ pend)
  len : (cur ++ pend).length ≤ 2047
  out : a.out = o

theorem Open.read {n : Nat} {σ : Setting W} {a : An} {old : List Int} {cur pend rest : List Piece} {o : UString} {p : Piece} {qs : List Piece}
    (h : Open σ a old cur pend rest o) (e : pend ++ rest = p :: qs) (hp : p.Ok) (hn : p.text.length ≤ n) (hno : NoCdata cur)
    (hsp : ∀ cs, p = .cdata cs → ∀ q ∈ cur, σ.chars.isSpace (q.val : Int) = false) (hl : cur.length < 2047) :
    ∃ a' pend' rest', readSAO n a = .ok ((p.val : Int), a') ∧ Open σ a' old (cur ++ [p]) pend' rest' o ∧ pend' ++ rest' = qs ∧ 0 < a'.buf.currentpos := by
  obtain ⟨a', pend', rest', e1, h1, h2, h3, h5, h4⟩ := h.here.read e hp hn
  refine ⟨a', pend', rest', e1, ⟨h1, ?_, ?_, h3.trans h.out⟩, h2, h5⟩
  · rcases h4 with h4 | ⟨-, h4⟩
    · rw [h4]; exact h.calm
    · rw [h4, List.append_nil]; exact calm_concat p hno hsp
  · rcases h4 with h4 | ⟨-, h4⟩
    · rw [h4]; exact h.len
    · rw [h4]; simp; omega

/-- What was read is a token. -/
theorem Open.all {σ : Setting W} {a a' : An} {old : List Int} {cur pend rest : List Piece} {o o' : UString}
    (h : Open σ a old cur pend rest o) (h1 : a'.buf = a.buf) (h2 : a'.inp = a.inp) (h3 : a'.blanks = blanksOf pend) (h4 : a'.out = o') :
    Open σ a' (old ++ vals cur) [] pend rest o' := by
  refine ⟨⟨?_, by rw [h1]; exact h.here.size, by rw [h2]; exact h.here.inp, h3⟩, calm_suffix h.calm, ?_, h4⟩
  · rw [h1]
    have := h.here.rep
    rw [vals_append, ← List.append_assoc] at this
    simpa [vals_length] using this
  · have := h.len
    simp only [List.length_append, List.nil_append] at this ⊢
    omega

/-- A part of what was read is a token. -/
theorem Open.some {σ : Setting W} {a a' : An} {old : List Int} {ts us pend rest : List Piece} {o o' : UString} {q : Nat}
    (h : Open σ a old (ts ++ us) pend rest o) (hu : us ≠ [])
    (h1 : a'.buf = Buffer.back 1 (Buffer.setPos q a.buf) ∧ q ≡ old.length + ts.length + 1 [MOD 2048])
    (h2 : a'.inp = a.inp) (h3 : a'.blanks = blanksOf (us ++ pend)) (h4 : a'.out = o') :
    Open σ a' (old ++ vals ts) [] (us ++ pend) rest o' := by
  have hl := h.len
  have hup := List.length_pos_iff.2 hu
  simp only [List.length_append] at hl
  have e : (old ++ vals ts) ++ vals ([] ++ (us ++ pend)) = old ++ vals (ts ++ us ++ pend) := by simp [vals_append]
  have el : (old ++ vals (ts ++ us ++ pend)).length = old.length + (ts.length + us.length + pend.length) := by simp [vals_length]; omega
  have ec : (old ++ vals ts).length + ([] : List Piece).length = old.length + ts.length := by simp [vals_length]
  have hr := h.here.rep
  have hz := h.here.size
  obtain ⟨h1, hq⟩ := h1
  refine ⟨⟨?_, ?_, by rw [h2]; exact h.here.inp, h3⟩, ?_, ?_, h4⟩
  · rw [e, ec, h1]
    exact rep_rewind hr (by simp only [el]; omega) (by simp only [el, hz]; omega) (by rw [hz]; exact hq)
  · rw [h1]
    unfold Buffer.back
    split <;> exact hz
  · have := h.calm
    rw [List.append_assoc] at this
    exact calm_suffix this
  · simp only [List.nil_append, List.length_append]; omega

theorem back_setPos {T : Type} (b : Buffer T) (hp : 1 < b.size) (hs : b.size < 2 ^ 32) (h : b.currentpos ≤ b.size) :
    Buffer.back 1 b = Buffer.back 1 (Buffer.setPos b.currentpos b) := by
  rcases Nat.lt_or_ge b.currentpos b.size with hc | hc
  · unfold Buffer.setPos
    rw [Nat.mod_eq_of_lt hc]
  · have e : b.currentpos = b.size := by omega
    unfold Buffer.setPos Buffer.back
    rw [e, Nat.mod_self]
    simp only
    have h2 : (b.size + 2 ^ 32 - (1 - 0)) % 2 ^ 32 = b.size - 1 := by
      rw [show b.size + 2 ^ 32 - (1 - 0) = b.size - 1 + 2 ^ 32 by omega, Nat.add_mod_right]
      exact Nat.mod_eq_of_lt (by omega)
    rw [if_pos (by omega), if_neg (by omega), h2]

theorem alpha_not_space [LinearOrder W] {σ : Setting W} {name : Int → UString} (hr : Regular σ name) {p : Piece} (h : σ.isAlphabetic (p.val : Int) = true) :
    σ.chars.isSpace (p.val : Int) = false := by
  cases e : σ.chars.isSpace (p.val : Int) with
  | false => rfl
  | true => rw [hr.spaceAlpha _ e] at h; cases h

theorem alpha_noCdata [LinearOrder W] {σ : Setting W} {name : Int → UString} (hr : Regular σ name) {ps : List Piece}
    (h : ∀ p ∈ ps, σ.isAlphabetic (p.val : Int) = true) : NoCdata ps := by
  intro cs hc
  have := alpha_not_space hr (h _ hc)
  rw [show ((Piece.cdata cs).val : Int) = 0x20 from rfl, hr.space] at this
  cases this

section
variable [LinearOrder W] {σ : Setting W} {name : Int → UString}

/-- `Next` with the analyses that are computed. -/
def NextIs (hr : Regular σ name) (tok : Token) (rest : List Piece) : Prop :=
  let xs := vals (tok.pieces ++ rest)
  match tok with
  | .word after ps t => Word σ xs (vals ps) ∧ (∀ zs, Word σ xs zs → zs.length ≤ ps.length) ∧ (after = true ↔ Spaced σ xs) ∧
      ∃ s, filter σ (states σ name hr (vals ps)) (surface ps) = .ok (0x2f :: s) ∧ t = s.takeWhile (· ≠ 0x2f)
  | .unknown ps => (∀ zs, ¬ Word σ xs zs) ∧ LongestRun σ ps rest
  | .char p => (∀ zs, ¬ Word σ xs zs) ∧ σ.isAlphabetic (p.val : Int) = false

/-- Reading the letters that follow. -/
theorem readWord_ok (hr : Regular σ name) {n : Nat} {old : List Int} {o : UString} (qs : List Piece) :
    ∀ (turns : Nat) (us : List Piece) (p : Piece) (a : An) (pend rest : List Piece), Open σ a old (us ++ [p]) pend rest o → pend ++ rest = qs →
    (∀ q ∈ us ++ [p], q.Ok ∧ σ.isAlphabetic (q.val : Int) = true) → (∀ q ∈ qs, q.Ok ∧ q.text.length ≤ n) → (∃ q ∈ qs, σ.isAlphabetic (q.val : Int) = false) →
    (∀ zs q ws, qs = zs ++ q :: ws → (∀ z ∈ zs, σ.isAlphabetic (z.val : Int) = true) → (us ++ [p] ++ zs).length < 2047) → qs.length ≤ turns →
    ∃ zs q a' pend' rest', readWord σ n turns (p.val : Int) (surface us) a = .ok (surface (us ++ p :: zs), a') ∧
      (∀ z ∈ zs, σ.isAlphabetic (z.val : Int) = true) ∧ σ.isAlphabetic (q.val : Int) = false ∧
      Open σ a' old (us ++ p :: zs ++ [q]) pend' rest' o ∧ qs = zs ++ q :: (pend' ++ rest') := by
  induction qs with
  | nil => intro turns us p a pend rest _ _ _ _ h; obtain ⟨q, h, -⟩ := h; cases h
  | cons q qs ih =>
    intro turns us p a pend rest ho e hup hok hex hlen ht
    obtain ⟨t, rfl⟩ : ∃ t, turns = t + 1 := ⟨turns - 1, by simp at ht; omega⟩
    have hl0 := hlen [] q qs rfl (by simp)
    have hp : p.Ok := (hup p (by simp)).1
    obtain ⟨a', pend', rest', e1, h1, h2, -⟩ := ho.read (n := n) e (hok q (by simp)).1 (hok q (by simp)).2 (alpha_noCdata hr fun x hx => (hup x hx).2)
      (fun _ _ x hx => alpha_not_space hr (hup x hx).2) (by simpa using hl0)
    have htx := symbolText_val σ.chars.toUpper σ.alphabet p.val (piece_val hp).1 (piece_val hp).2
    have hsf : surface us ++ utf16 p.val = surface (us ++ [p]) := by rw [surface_append]; simp [surface, enc]
    have hq0 := (piece_val (hok q (by simp)).1).2
    rw [readWord]
    simp only [htx, Res.bind_ok, e1, hsf]
    cases ha : σ.isAlphabetic (q.val : Int) with
    | false =>
      rw [if_neg (by simp)]
      exact ⟨[], q, a', pend', rest', by simp, by simp, ha, by simpa using h1, by simp [h2]⟩
    | true =>
      rw [if_pos ⟨by omega, rfl⟩]
      obtain ⟨zs, q', a'', pend'', rest'', k1, k2, k3, k4, k5⟩ := ih t (us ++ [p]) q a' pend' rest' h1 h2
        (by
          intro x hx
          rcases List.mem_append.1 hx with hx | hx
          · exact hup x hx
          · rw [List.mem_singleton.1 hx]; exact ⟨(hok q (by simp)).1, ha⟩)
        (fun x hx => hok x (by simp [hx]))
        (by
          obtain ⟨x, hx, hxa⟩ := hex
          rcases List.mem_cons.1 hx with rfl | hx
          · rw [ha] at hxa; cases hxa
          · exact ⟨x, hx, hxa⟩)
        (by
          intro zs x ws ez hz
          have := hlen (q :: zs) x ws (by rw [ez]; rfl) (by
            intro z hz'
            rcases List.mem_cons.1 hz' with rfl | hz'
            · exact ha
            · exact hz z hz')
          simp only [List.length_append, List.length_cons, List.length_nil] at this ⊢
          omega)
        (by simp at ht; omega)
      refine ⟨q :: zs, q', a'', pend'', rest'', by simpa using k1, ?_, k3, by simpa using k4, by rw [k5]; rfl⟩
      intro z hz
      rcases List.mem_cons.1 hz with rfl | hz
      · exact ha
      · exact k2 z hz

/-- A word that is not known. -/
theorem unknown_ok (hr : Regular σ name) {R us pend rest : List Piece} {q : Piece} (hok : ∀ p ∈ R, p.Ok) (hR : R = us ++ q :: (pend ++ rest))
    {a : An} {old : List Int} {o : UString} (ho : Open σ a old (us ++ [q]) pend rest o) (hne : us ≠ []) (hua : ∀ p ∈ us, σ.isAlphabetic (p.val : Int) = true)
    (hq : σ.isAlphabetic (q.val : Int) = false) (hg : ∀ zs, ¬ Word σ (vals R) zs) :
    ∃ tok pend', tok.pieces ++ (pend' ++ rest) = R ∧ tok.pieces ≠ [] ∧ NextIs hr tok (pend' ++ rest) ∧
      Open σ (unknown σ (surface us) a) (old ++ vals tok.pieces) [] pend' rest (o ++ tok.render) := by
  have huok : ∀ p ∈ us, p.Ok := fun p hp => hok p (by rw [hR]; simp [hp])
  have hRR : us ++ ([q] ++ pend ++ rest) = R := by rw [hR]; simp
  refine ⟨.unknown us, [q] ++ pend, hRR, hne, ⟨?_, hne, ?_, q, pend ++ rest, by simp, hq⟩, ?_⟩
  · rw [show Token.pieces (.unknown us) ++ ([q] ++ pend ++ rest) = R from hRR]; exact hg
  · intro v hv
    obtain ⟨p, hp, rfl⟩ := List.mem_map.1 hv
    exact hua p hp
  · have hz := ho.here.size
    have hcur := ho.here.rep.curLe
    have hmod := ho.here.rep.curMod
    rw [hz] at hcur hmod
    refine ho.some (q := a.buf.currentpos) (by simp) ⟨?_, ?_⟩ rfl ?_ ?_
    · simp only [unknown, firstNotAlpha_letters us huok hua, Nat.sub_self, Nat.add_zero]
      exact back_setPos _ (by rw [hz]; decide) (by rw [hz]; decide) (by rw [hz]; exact hcur)
    · simpa [Nat.add_assoc, Token.pieces] using hmod
    · simp only [unknown, ho.here.blanks]
      rw [List.append_assoc, blanksOf_append, blanksOf_none (alpha_noCdata hr hua), List.nil_append]
    · have h0 : (surface us).takeWhile (· ≠ 0) = surface us := by
        have h : ∀ us : UString, (0 : UInt16) ∉ us → us.takeWhile (· ≠ 0) = us := by
          intro us
          induction us with
          | nil => intro _; rfl
          | cons u us ih =>
            intro hu
            simp only [List.mem_cons, not_or] at hu
            rw [List.takeWhile_cons_of_pos (by simpa using fun e => hu.1 e.symm), ih hu.2]
        exact h _ (surface_zero huok)
      simp only [unknown, h0, Token.render, ho.out, markStart, markEnd]
      simp

omit [LinearOrder W] in
theorem live_noCdata {R xs ws : List Piece} (hcl : Clear σ R) (hR : R = xs ++ ws) (h : Live σ (vals xs)) : NoCdata xs := by
  intro cs hc
  obtain ⟨u, v, rfl⟩ := List.append_of_mem hc
  have h1 : Live σ (vals u ++ [0x20]) := by
    refine live_prefix (ys := vals v) ?_
    rw [vals_append] at h
    simpa [vals, Piece.val] using h
  exact (hcl [] u cs (v ++ ws) (by rw [hR]; simp) (live_prefix h1)).2 h1

/-- A known word is written. -/
theorem word_ok (hr : Regular σ name) {R xs pend rest : List Piece} {p : Piece} (hcl : Clear σ R) (hR : R = xs ++ p :: (pend ++ rest)) (hlive : Live σ (vals xs))
    {a : An} {old : List Int} {o : UString} (ho : Open σ a old (xs ++ [p]) pend rest o) {i last : Nat}
    (hi : i < xs.length + 1) (hg : Gd σ (vals R) i) (hmax : ∀ j, Gd σ (vals R) j → j ≤ i) (hl : last ≡ old.length + i + 1 [MOD 2048]) {lf : UString}
    (hf : filter σ (states σ name hr (vals (R.take i))) (surface (R.take i)) = .ok lf) (hlf : ∃ s, lf = 0x2f :: s) (after : Bool) (ha : after = true ↔ Spaced σ (vals R)) :
    ∃ a', printWordSAO lf a = .ok a' ∧ ∃ tok pend', tok.pieces ++ (pend' ++ rest) = R ∧ tok.pieces ≠ [] ∧ NextIs hr tok (pend' ++ rest) ∧
      Open σ (rewind last { a' with out := a'.out ++ if after then [0x20] else [] }) (old ++ vals tok.pieces) [] pend' rest (o ++ tok.render) := by
  obtain ⟨ts, us, rfl, rfl⟩ : ∃ ts us, xs = ts ++ us ∧ ts.length = i := ⟨xs.take i, xs.drop i, by simp, by rw [List.length_take]; omega⟩
  obtain ⟨s, rfl⟩ := hlf
  have htake : R.take ts.length = ts := by rw [hR, List.append_assoc, List.take_left]
  rw [htake] at hf
  have hnc : NoCdata ts := live_noCdata hcl (ws := us ++ p :: (pend ++ rest)) (by rw [hR]; simp) (live_prefix (ys := vals us) (by rw [← vals_append]; exact hlive))
  have ho' : Open σ a old (ts ++ (us ++ [p])) pend rest o := by simpa using ho
  have hbl : a.blanks = blanksOf (us ++ [p] ++ pend) := by
    rw [ho'.here.blanks, List.append_assoc, blanksOf_append, blanksOf_none hnc, List.nil_append]
  have hpos : 0 < ts.length := hg.1
  have hRR : ts ++ (us ++ [p] ++ pend ++ rest) = R := by rw [hR]; simp
  refine ⟨_, rfl, .word after ts (s.takeWhile (· ≠ 0x2f)), us ++ [p] ++ pend, hRR, List.length_pos_iff.1 hpos, ⟨?_, ?_, ?_, s, hf, rfl⟩, ?_⟩
  · rw [show Token.pieces (.word after ts (s.takeWhile (· ≠ 0x2f))) ++ (us ++ [p] ++ pend ++ rest) = R from hRR, word_iff]
    rw [vals_length, vals_take, htake]
    exact ⟨rfl, hg⟩
  · rw [show Token.pieces (.word after ts (s.takeWhile (· ≠ 0x2f))) ++ (us ++ [p] ++ pend ++ rest) = R from hRR]
    intro zs hz
    exact hmax _ (word_iff.1 hz).2
  · rw [show Token.pieces (.word after ts (s.takeWhile (· ≠ 0x2f))) ++ (us ++ [p] ++ pend ++ rest) = R from hRR]; exact ha
  · refine ho'.some (q := last) (by simp) ⟨rfl, hl⟩ rfl hbl ?_
    simp only [rewind, ho.out, Token.render]
    simp

theorem diff_ok {b : Buffer Int} (hz : b.size = 2048) (hc : b.currentpos ≤ 2048) {base i k last : Nat} (h1 : b.currentpos ≡ base + k + 1 [MOD 2048])
    (h2 : last ≡ base + i + 1 [MOD 2048]) (h3 : 0 < last) (h4 : last ≤ 2048) (hik : i ≤ k) (hk : k < 2048) : Buffer.diffPrevPos last b = k - i := by
  unfold Buffer.diffPrevPos
  rw [hz]
  unfold Nat.ModEq at h1 h2
  split <;> omega

/-- What is written when no state is left. -/
theorem emit_ok (hr : Regular σ name) (hs : Small σ) (hpl : Plain σ name) {n : Nat} {R : List Piece}
    (hok : ∀ p ∈ R, p.Ok) (htl : ∀ p ∈ R, p.text.length ≤ n) (hen : Ends σ R) (hsh : Short σ R) (hti : Tidy σ R) (hcl : Clear σ R) (hn : R.length ≤ n)
    {a : An} {old : List Int} {xs pend rest : List Piece} {p : Piece} {o : UString} (hR : R = xs ++ p :: (pend ++ rest))
    (ho : Open σ a old (xs ++ [p]) pend rest o) (hlive : Live σ (vals xs)) (hdead : ¬ Live σ (vals (xs ++ [p])))
    {l : Loc W} (hsf : l.sf = surface xs) (hnoted : Noted hr R old.length (xs.length + 1) l) (hx : xs = [] → σ.isAlphabetic (p.val : Int) = true) :
    ∃ (a' : An) (tok : Token) (pend' rest' : List Piece), emit σ n (p.val : Int) l a = .ok a' ∧
      tok.pieces ++ (pend' ++ rest') = R ∧ tok.pieces ≠ [] ∧ NextIs hr tok (pend' ++ rest') ∧
      Open σ a' (old ++ vals tok.pieces) [] pend' rest' (o ++ tok.render) := by
  have hpok : p.Ok := hok p (by rw [hR]; simp)
  have hxok : ∀ p ∈ xs, p.Ok := fun q hq => hok q (by rw [hR]; simp [hq])
  have hk : ∀ j, Gd σ (vals R) j → j < xs.length + 1 := by
    intro j hj
    by_contra hc
    obtain ⟨-, v, -, he, -⟩ := hj
    have := live_take (i := xs.length + 1) (by omega) (live_of_entry he)
    rw [vals_take, show R.take (xs.length + 1) = xs ++ [p] by rw [hR]; simp [List.take_append]] at this
    exact hdead this
  have hlen := hsh [] xs [] p (pend ++ rest) (by rw [hR]; simp) hlive (by simp [vals])
  unfold emit
  rw [if_neg (by
    rw [hsf]
    intro h
    simp only [Bool.and_eq_true, Bool.not_eq_true', List.isEmpty_iff] at h
    by_cases hx0 : xs = []
    · rw [hx hx0] at h; exact absurd h.1 (by simp)
    · exact surface_ne_nil hx0 h.2)]
  rcases hnoted with ⟨h1, h2, h3, h4⟩ | ⟨i, hik, hg, hmax, hl, hf, hne, hpo, hic, hfl⟩
  · have hng : ∀ zs, ¬ Word σ (vals R) zs := fun zs hz => h1 _ (hk _ (word_iff.1 hz).2) (word_iff.1 hz).2
    have hxa : ∀ q ∈ xs, σ.isAlphabetic (q.val : Int) = true := fun q hq =>
      hti [] xs (p :: (pend ++ rest)) (by rw [hR]; rfl) hlive (by rw [← hR]; exact hng) _ (List.mem_map.2 ⟨q, hq, rfl⟩)
    rw [h3, h4]
    simp only [Bool.false_eq_true, if_false]
    unfold goesOn
    rw [h2]
    simp only [List.isEmpty_nil, Bool.or_true, Bool.and_true]
    cases ha : σ.isAlphabetic (p.val : Int) with
    | true =>
      simp only [if_true]
      obtain ⟨zs, q, a', pend', rest', k1, k2, k3, k4, k5⟩ := readWord_ok hr (n := n) (pend ++ rest) n xs p a pend rest ho rfl
        (by
          intro q hq
          rcases List.mem_append.1 hq with hq | hq
          · exact ⟨hxok q hq, hxa q hq⟩
          · rw [List.mem_singleton.1 hq]; exact ⟨hpok, ha⟩)
        (fun q hq => ⟨hok q (by rw [hR]; simp only [List.mem_append, List.mem_cons]; exact .inr (.inr (List.mem_append.1 hq))),
          htl q (by rw [hR]; simp only [List.mem_append, List.mem_cons]; exact .inr (.inr (List.mem_append.1 hq)))⟩)
        (by
          rcases List.eq_nil_or_concat (pend ++ rest) with e | ⟨qs, q, e⟩
          · have := (hen xs p (by rw [hR, e])).1
            rw [ha] at this; cases this
          · exact ⟨q, by rw [e]; simp, (hen (xs ++ p :: qs) q (by rw [hR, e]; simp)).1⟩)
        (by
          intro zs q ws e hz
          have := hsh [] xs (p :: zs) q ws (by rw [hR, e]; simp) hlive (by
            intro v hv
            obtain ⟨z, hz', rfl⟩ := List.mem_map.1 hv
            rcases List.mem_cons.1 hz' with rfl | hz'
            · exact ha
            · exact hz z hz')
          simpa using this)
        (by rw [hR] at hn; simp only [List.length_append, List.length_cons] at hn ⊢; omega)
      rw [hsf, k1, Res.bind_ok]
      obtain ⟨tok, pend'', m2, m3, m4, m5⟩ := unknown_ok hr hok (us := xs ++ p :: zs) (q := q) (pend := pend') (rest := rest')
        (by rw [hR, k5]; simp) k4 (by simp)
        (by
          intro r hr'
          simp only [List.mem_append, List.mem_cons] at hr'
          rcases hr' with hr' | rfl | hr'
          · exact hxa r hr'
          · exact ha
          · exact k2 r hr') k3 hng
      exact ⟨_, tok, pend'', rest', rfl, m2, m3, m4, m5⟩
    | false =>
      simp only [Bool.false_eq_true, if_false, if_true]
      have hx0 : xs ≠ [] := by intro h; rw [hx h] at ha; cases ha
      obtain ⟨tok, pend', m2, m3, m4, m5⟩ := unknown_ok hr hok hR ho hx0 hxa ha hng
      rw [hsf]
      exact ⟨_, tok, pend', rest, rfl, m2, m3, m4, m5⟩
  · have hmax' : ∀ j, Gd σ (vals R) j → j ≤ i := fun j hj => hmax j (hk j hj) hj
    have hA := hpo.trans (later_iff hk fun ys => In σ σ.postblank ys ∧ ¬ In σ σ.inconditional ys).symm
    have hB := hic.trans (later_iff hk (In σ σ.inconditional)).symm
    have hlf : ∃ s, l.lf = 0x2f :: s := by
      have hR2 : R.take i = xs.take i := by rw [hR]; exact List.take_append_of_le_length (by omega)
      have hok2 : ∀ p ∈ R.take i, p.Ok := fun q hq => hok q (List.mem_of_mem_take hq)
      have hi0 := hg.1
      have hne2 : R.take i ≠ [] := by
        intro e
        have := congrArg List.length e
        rw [hR2, List.length_take] at this
        simp only [List.length_nil] at this
        omega
      obtain ⟨-, v, -, he, -⟩ := hg
      rw [vals_take] at he
      obtain ⟨s, g1, -⟩ := filter_ok hr hpl (states_sound hr hs (vals_ne hok2)) (surface (R.take i)) (surface_ne_nil hne2) he
      rw [hf, Res.ok.injEq] at g1
      exact ⟨s, g1⟩
    have fin : ∀ after : Bool, (after = true ↔ Spaced σ (vals R)) → ∃ (a' : An) (tok : Token) (pend' rest' : List Piece),
        (do let a ← printWordSAO l.lf a
            Res.ok (rewind l.last { a with out := a.out ++ if after then [0x20] else [] })) = .ok a' ∧
        tok.pieces ++ (pend' ++ rest') = R ∧ tok.pieces ≠ [] ∧ NextIs hr tok (pend' ++ rest') ∧
        Open σ a' (old ++ vals tok.pieces) [] pend' rest' (o ++ tok.render) := by
      intro after hsp
      obtain ⟨a', e1, tok, pend', e2, e3, e4, e5⟩ := word_ok hr hcl hR hlive ho hik hg hmax' hl.1 hf hlf after hsp
      simp only [e1, Res.bind_ok]
      exact ⟨_, tok, pend', rest, rfl, e2, e3, e4, e5⟩
    cases hin : l.incond with
    | true =>
      rw [if_pos rfl]
      have := fin false ⟨fun h => (by cases h), fun h => absurd (hB.1 hin) h.2⟩
      simpa using this
    | false =>
      have hnb : ¬ Later σ (vals R) (In σ σ.inconditional) := fun h => by rw [hB.2 h] at hin; cases hin
      simp only [Bool.false_eq_true, if_false]
      cases hpost : l.post with
      | true =>
        simp only [if_true]
        have := fin true ⟨fun _ => ⟨hA.1 hpost, hnb⟩, fun _ => rfl⟩
        simpa using this
      | false =>
        have hna : ¬ Spaced σ (vals R) := fun h => by rw [hA.2 h.1] at hpost; cases hpost
        simp only [Bool.false_eq_true, if_false]
        have hsd : Sd σ (vals R) i := by
          rcases hfl with h | h | h
          · rw [hpost] at h; cases h
          · rw [hin] at h; cases h
          · exact h
        obtain ⟨⟨-, w, hw, -, hwa⟩, hns⟩ := hsd
        have hwb : σ.isAlphabetic w = false := hwa.resolve_left hns
        have hle : l.lf.isEmpty = false := by cases h : l.lf with
          | nil => exact absurd h hne
          | cons _ _ => rfl
        rw [if_neg, if_neg (by rw [hle]; simp)]
        · have := fin false ⟨fun h => (by cases h), fun h => absurd h hna⟩
          simpa using this
        · unfold goesOn
          rw [hle]
          simp only [Bool.or_false, Bool.and_eq_true, decide_eq_true_eq, not_and]
          intro ha
          rcases Nat.lt_or_ge i xs.length with hlt' | hge
          · have hmod := ho.here.rep.curMod
            have hcl' := ho.here.rep.curLe
            rw [ho.here.size] at hmod hcl'
            rw [diff_ok (base := old.length) (i := i) (k := xs.length) ho.here.size hcl' (by simpa [Nat.add_assoc] using hmod) hl.1 hl.2.1 hl.2.2 hlt'.le
              (by simp at hlen; omega)]
            obtain ⟨ts, r, us, rfl, rfl⟩ : ∃ ts r us, xs = ts ++ r :: us ∧ ts.length = i :=
              ⟨xs.take i, xs[i], xs.drop (i + 1), by rw [List.getElem_cons_drop, List.take_append_drop], by rw [List.length_take]; omega⟩
            have : (vals R)[ts.length]? = some (r.val : Int) := by rw [hR]; simp [vals]
            rw [hw, Option.some.injEq] at this
            have h1 := lastBlank_ge hr ts r (hxok r (by simp)) (by rw [← this]; exact hwb) us (fun p hp => hxok p (by simp [hp]))
            have h2 := surface_length (ts ++ r :: us)
            rw [hsf]
            have h3 : (ts ++ r :: us).length - ts.length = us.length + 1 := by simp
            rw [h3]
            have h4 : us.length + 1 ≤ (surface (ts ++ r :: us)).length := by simp at h2; omega
            rw [show (surface (ts ++ r :: us)).length + 2 ^ 64 - (us.length + 1) = ((surface (ts ++ r :: us)).length - (us.length + 1)) + 2 ^ 64 by omega,
              Nat.add_mod_right]
            have := Nat.mod_le ((surface (ts ++ r :: us)).length - (us.length + 1)) (2 ^ 64)
            omega
          · have e : i = xs.length := by omega
            have : (vals R)[i]? = some (p.val : Int) := by rw [hR, e]; simp [vals]
            rw [hw, Option.some.injEq] at this
            rw [← this, hwb] at ha; cases ha

/-- The variables at the start of a token. -/
structure Fresh (hr : Regular σ name) (l : Loc W) : Prop where
  cur : l.cur = states σ name hr []
  lf : l.lf = []
  sf : l.sf = []
  post : l.post = false
  incond : l.incond = false

/-- The variables within a token. -/
structure Within (hr : Regular σ name) (R : List Piece) (base : Nat) (xs : List Piece) (l : Loc W) : Prop where
  cur : l.cur = states σ name hr (vals xs)
  sf : l.sf = surface xs
  noted : Noted hr R base xs.length l

theorem Fresh.within {hr : Regular σ name} {base : Nat} {l : Loc W} (h : Fresh hr l) (R : List Piece) : Within hr R base [] l :=
  ⟨h.cur, h.sf, .inl ⟨fun i hi => by simp at hi, h.lf, h.post, h.incond⟩⟩

/-- A character that starts no entry and is no letter. -/
theorem printOther_ok (hr : Regular σ name) (hpl : Plain σ name) {a : An} {old : List Int} {pend rest : List Piece} {p : Piece} {o : UString} (hp : p.Ok)
    (ho : Open σ a old [p] pend rest o) (hd : ∀ zs, ¬ Word σ (vals ([p] ++ (pend ++ rest))) zs) (ha : σ.isAlphabetic (p.val : Int) = false) :
    NextIs hr (.char p) (pend ++ rest) ∧
      Open σ (printOther σ (p.val : Int) a) (old ++ vals (Token.pieces (.char p))) [] pend rest (o ++ (Token.char p).render) := by
  refine ⟨⟨hd, ha⟩, ?_⟩
  have hbl := ho.here.blanks
  rw [blanksOf_append] at hbl
  have hput : ∀ c : Nat, putc (c : Int) = utf16 c := by
    intro c
    unfold putc
    rw [if_neg (by omega), Int.toNat_natCast]
  unfold printOther
  cases hs : σ.chars.isSpace (p.val : Int) with
  | true =>
    rw [if_pos rfl]
    unfold printSpace
    have ordinary : (∀ cs, p ≠ .cdata cs) → blanksOf pend = [] := by
      intro _
      refine blanksOf_none fun cs hc => ?_
      obtain ⟨u, v, rfl⟩ := List.append_of_mem hc
      have := (ho.calm (p :: u) cs v rfl).2 p (by simp)
      rw [hs] at this; cases this
    cases p with
    | ch c =>
      have hb := ordinary (by simp)
      rw [hb] at hbl
      have hbl' : a.blanks = [] := hbl
      rw [if_pos (by rw [hbl']; rfl)]
      refine ho.all rfl rfl (by rw [hb]; exact hbl') ?_
      simp only [hput, ho.out, Token.render, Piece.text, Piece.val]
      simp [enc]
    | esc c =>
      have := hpl.escapedSpace _ hp
      rw [show ((Piece.esc c).val : Int) = (c : Int) from rfl, this] at hs; cases hs
    | cdata cs =>
      obtain ⟨rfl, -⟩ := ho.calm [] cs pend rfl
      have hbl' : a.blanks = [enc (Piece.text (.cdata cs))] := hbl
      rw [if_neg (by rw [hbl']; simp)]
      refine ho.all rfl rfl rfl ?_
      simp only [hbl', ho.out, Token.render]
      simp
  | false =>
    simp only [Bool.false_eq_true, if_false]
    cases p with
    | ch c =>
      refine ho.all rfl rfl hbl ?_
      rw [if_neg (show ((Piece.ch c).val : Int) ∉ escaped from hp.2.2)]
      simp only [hput, ho.out, Token.render, Piece.text, Piece.val]
      simp [enc]
    | esc c =>
      refine ho.all rfl rfl hbl ?_
      rw [if_pos (show ((Piece.esc c).val : Int) ∈ escaped from hp)]
      simp only [hput, ho.out, Token.render, Piece.text, Piece.val]
      simp [enc]
      rfl
    | cdata cs =>
      rw [show ((Piece.cdata cs).val : Int) = 0x20 from rfl, hr.space] at hs; cases hs

end

section
variable [Zero W] [Add W] [LinearOrder W] {σ : Setting W} {name : Int → UString}

/-- One turn: a character is added to the word, or a token is written. -/
theorem turn_ok (hr : Regular σ name) (hs : Small σ) (hpl : Plain σ name) {n : Nat} {ps R : List Piece} (hrd : Ready hr n ps) (hi : R <:+: ps)
    {a : An} {old : List Int} {xs pend rest : List Piece} {p : Piece} {qs : List Piece} {o : UString}
    (hok : ∀ p ∈ R, p.Ok) (hen : ¬ Live σ (vals (xs ++ [p])) → Ends σ R) (hsh : Short σ R) (hti : ¬ Live σ (vals (xs ++ [p])) → Tidy σ R) (hcl : Clear σ R)
    (hn : R.length ≤ n) (hR : R = xs ++ (pend ++ rest))
    (hq : pend ++ rest = p :: qs) (ho : Open σ a old xs pend rest o) (hlive : Live σ (vals xs)) {l : Loc W} (hw : Within hr R old.length xs l) :
    (∃ a' l' pend' rest', (∀ t, loop σ n (states σ name hr []) (t + 1) a l = loop σ n (states σ name hr []) t a' l') ∧ pend' ++ rest' = qs ∧
      Open σ a' old (xs ++ [p]) pend' rest' o ∧ Live σ (vals (xs ++ [p])) ∧ Within hr R old.length (xs ++ [p]) l') ∨
    ∃ (a' : An) (l' : Loc W) (tok : Token) (pend' rest' : List Piece), ¬ Live σ (vals (xs ++ [p])) ∧
      (∀ t, loop σ n (states σ name hr []) (t + 1) a l = loop σ n (states σ name hr []) t a' l') ∧ tok.pieces ++ (pend' ++ rest') = R ∧ tok.pieces ≠ [] ∧
      NextIs hr tok (pend' ++ rest') ∧ Open σ a' (old ++ vals tok.pieces) [] pend' rest' (o ++ tok.render) ∧ Fresh hr l' := by
  have hRp : R = xs ++ p :: qs := by rw [hR, hq]
  have hpok : p.Ok := hok p (by rw [hRp]; simp)
  have hxok : ∀ q ∈ xs, q.Ok := fun q h => hok q (by rw [hRp]; simp [h])
  have htl : ∀ p ∈ R, p.text.length ≤ n := fun q h => hrd.2 q (hi.subset h)
  obtain ⟨hpsc, hp0⟩ := piece_val hpok
  have hp0' : (p.val : Int) ≠ 0 := by omega
  have hlen := hsh [] xs [] p qs (by rw [hRp]; simp) hlive (by simp [vals])
  obtain ⟨a1, pend1, rest1, e1, h1, h2, hcp⟩ := ho.read (n := n) hq hpok (htl p (by rw [hRp]; simp)) (live_noCdata hcl hRp hlive)
    (by
      rintro cs rfl q hq'
      exact (hcl [] xs cs qs (by rw [hRp]; rfl) hlive).1 _ (List.mem_map.2 ⟨q, hq', rfl⟩)) (by simpa using hlen)
  have hR1 : R = xs ++ p :: (pend1 ++ rest1) := by rw [hRp, h2]
  have hpos : Buffer.getPos a1.buf ≡ old.length + xs.length + 1 [MOD 2048] ∧ 0 < Buffer.getPos a1.buf ∧ Buffer.getPos a1.buf ≤ 2048 := by
    have hm := h1.here.rep.curMod
    have hle := h1.here.rep.curLe
    rw [h1.here.size] at hm hle
    exact ⟨by simpa [Nat.add_assoc, Buffer.getPos] using hm, hcp, hle⟩
  have hvc : vals (xs ++ [p]) = vals xs ++ [(p.val : Int)] := by simp [vals]
  have hstep : ∀ l1 : Loc W, l1.cur = l.cur → stepFolded σ n (p.val : Int) l1.cur = .ok (states σ name hr (vals (xs ++ [p]))) := by
    intro l1 h
    rw [h, hw.cur, hvc]
    refine step_ready (hrd.1 xs (List.IsInfix.trans ⟨[], p :: qs, by rw [hRp]; simp⟩ hi)) ?_
    rw [← hvc]
    exact hrd.1 _ (List.IsInfix.trans ⟨[], qs, by rw [hRp]; simp⟩ hi)
  have hemp := sound_empty (states_sound hr hs (vals_ne (ps := xs ++ [p]) (fun q h => by
    rcases List.mem_append.1 h with h | h
    · exact hxok q h
    · rw [List.mem_singleton.1 h]; exact hpok)))
  have hnote : ∃ l1, note σ (p.val : Int) (Buffer.getPos a1.buf) l = .ok l1 ∧ l1.sf = l.sf ∧ l1.cur = l.cur ∧
      ((xs = [] ∧ σ.chars.isSpace (p.val : Int) = true) ∨ Noted hr R old.length (xs.length + 1) l1) := by
    by_cases hsp : xs = [] ∧ σ.chars.isSpace (p.val : Int) = true
    · obtain ⟨rfl, hsp⟩ := hsp
      unfold note
      rw [if_neg (by
        rw [hw.cur, sound_entry hr.standard (states_sound hr hs (by simp [vals]))]
        exact hpl.noEmpty)]
      split
      · exact ⟨_, rfl, rfl, rfl, .inl ⟨rfl, hsp⟩⟩
      · exact ⟨_, rfl, rfl, rfl, .inl ⟨rfl, hsp⟩⟩
    · obtain ⟨l1, g1, g2, g3, g4⟩ := note_ok hr hs hpl hRp hok hw.sf hw.cur
        (fun h => by
          cases hc : σ.chars.isSpace (p.val : Int) with
          | false => rfl
          | true => exact absurd ⟨h, hc⟩ hsp) hpos hw.noted
      exact ⟨l1, g1, g3, g4, .inr g2⟩
  obtain ⟨l1, n1, n2, n3, n6⟩ := hnote
  by_cases hl : Live σ (vals (xs ++ [p]))
  · left
    have hn6 : Noted hr R old.length (xs.length + 1) l1 := by
      rcases n6 with ⟨rfl, hsp⟩ | h
      · have := hpl.noSpaceStart (p.val : Int) (by simpa [vals] using hl)
        rw [hsp] at this; cases this
      · exact h
    have htx := symbolText_val σ.chars.toUpper σ.alphabet p.val hpsc hp0
    refine ⟨a1, { l1 with cur := states σ name hr (vals (xs ++ [p])), sf := l1.sf ++ utf16 p.val }, pend1, rest1, fun t => ?_, h2, h1, hl, ⟨rfl, ?_, ?_⟩⟩
    · rw [loop, e1]
      simp only [Res.bind_ok]
      rw [if_neg hp0']
      simp only [n1, Res.bind_ok, hstep l1 n3, hemp.2 hl, Bool.not_false, if_true, htx]
    · simp only [n2, hw.sf]
      rw [surface_append]
      simp [surface, enc]
    · simpa [Noted] using hn6
  · right
    have hemp' : (states σ name hr (vals (xs ++ [p]))).isEmpty = true := by
      cases h : (states σ name hr (vals (xs ++ [p]))).isEmpty with
      | false => exact absurd (hemp.1 h) hl
      | true => rfl
    have hturn : ∀ (a2 : An), emit σ n (p.val : Int) l1 a1 = .ok a2 → ∀ t,
        loop σ n (states σ name hr []) (t + 1) a l = loop σ n (states σ name hr []) t a2 { cur := states σ name hr [], last := l1.last } := by
      intro a2 he t
      rw [loop, e1]
      simp only [Res.bind_ok]
      rw [if_neg hp0']
      simp only [n1, Res.bind_ok, hstep l1 n3, hemp', Bool.not_true, Bool.false_eq_true, if_false, he]
    by_cases hx : xs = [] ∧ σ.isAlphabetic (p.val : Int) = false
    · obtain ⟨rfl, ha⟩ := hx
      have hd : ∀ zs, ¬ Word σ (vals ([p] ++ (pend1 ++ rest1))) zs := by
        rintro zs ⟨hz, v, ws, e, he, -⟩
        obtain ⟨z, zs', rfl⟩ : ∃ z zs', zs = z :: zs' := by
          cases zs with
          | nil => exact absurd rfl hz
          | cons z zs' => exact ⟨z, zs', rfl⟩
        simp only [vals, List.map_cons, List.cons_append, List.cons.injEq] at e
        have := live_prefix (xs := [z]) (ys := zs') (live_of_entry he)
        rw [← e.1] at this
        exact hl (by simpa [vals] using this)
      obtain ⟨k1, k2⟩ := printOther_ok hr hpl hpok h1 hd ha
      refine ⟨_, _, .char p, pend1, rest1, hl, hturn (printOther σ (p.val : Int) a1) ?_, by rw [hR1]; rfl, by simp [Token.pieces], k1, k2, ⟨rfl, rfl, rfl, rfl, rfl⟩⟩
      unfold emit
      rw [if_pos (by rw [n2, hw.sf, ha]; rfl)]
    · have hx' : xs = [] → σ.isAlphabetic (p.val : Int) = true := by
        intro h
        cases hc : σ.isAlphabetic (p.val : Int) with
        | true => rfl
        | false => exact absurd ⟨h, hc⟩ hx
      have hn6 : Noted hr R old.length (xs.length + 1) l1 := by
        rcases n6 with ⟨h, hsp⟩ | h
        · have := hx' h
          rw [hr.spaceAlpha _ hsp] at this; cases this
        · exact h
      obtain ⟨a2, tok, pend', rest', g2, g3, g4, g5, g6⟩ := emit_ok hr hs hpl hok htl (hen hl) hsh (hti hl) hcl hn hR1 h1 hlive hl (n2.trans hw.sf) hn6 hx'
      exact ⟨a2, _, tok, pend', rest', hl, hturn a2 g2, g3, g4, g5, g6, ⟨rfl, rfl, rfl, rfl, rfl⟩⟩

end

end Verif.Sao
