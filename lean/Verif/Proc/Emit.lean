import Verif.Proc.Notes

/-! # Writing a token -/

namespace Verif.Proc

open Verif.State Verif.Stream Verif.Input Verif.Merge

variable {W : Type}

/-- A space other than U+0020: it is not kept in the queue of blanks. -/
def Other (σ : Setting W) (p : Piece) : Prop := σ.chars.isSpace (p.val : Int) = true ∧ p.val ≠ 0x20

/-- Nothing was read after such a space. -/
def Calm (σ : Setting W) (ps : List Piece) : Prop := ∀ u p v, ps = u ++ p :: v → Other σ p → v = []

theorem calm_suffix {σ : Setting W} {ps qs : List Piece} (h : Calm σ (ps ++ qs)) : Calm σ qs :=
  fun u p v e ho => h (ps ++ u) p v (by rw [e]; simp) ho

theorem calm_concat {σ : Setting W} {ps : List Piece} (p : Piece) (h : ∀ q ∈ ps, ¬ Other σ q) : Calm σ (ps ++ [p]) := by
  intro u q v e ho
  rcases List.eq_nil_or_concat v with rfl | ⟨v', x, rfl⟩
  · rfl
  · exfalso
    have : ps = u ++ q :: v' := by
      have e' : ps ++ [p] = (u ++ q :: v') ++ [x] := by rw [e]; simp
      exact (List.append_inj' e' rfl).1
    exact h q (by rw [this]; simp) ho

/-- Where the analyser is, within a token. -/
structure Open (σ : Setting W) (tail : List Nat) (a : An) (old : List Int) (cur pend rest : List Piece) (o : UString) : Prop where
  here : At tail a old cur pend rest
  calm : Calm σ (cur ++ pend)
  len : (cur ++ pend).length ≤ 2047
  out : a.out = o

theorem Open.read {σ : Setting W} {tail : List Nat} {a : An} {old : List Int} {cur pend rest : List Piece} {o : UString} {p : Piece} {qs : List Piece}
    (h : Open σ tail a old cur pend rest o) (e : pend ++ rest = p :: qs) (hp : p.Ok σ) (hno : ∀ q ∈ cur, ¬ Other σ q) (hl : cur.length < 2047) :
    ∃ a' pend' rest', readAnalysis σ a = .ok ((p.val : Int), a') ∧ Open σ tail a' old (cur ++ [p]) pend' rest' o ∧ pend' ++ rest' = qs := by
  obtain ⟨a', pend', rest', e1, h1, h2, h3, h4⟩ := h.here.read e hp
  refine ⟨a', pend', rest', e1, ⟨h1, ?_, ?_, h3.trans h.out⟩, h2⟩
  · rcases h4 with h4 | h4
    · rw [h4]; exact h.calm
    · rw [h4, List.append_nil]; exact calm_concat p hno
  · rcases h4 with h4 | h4
    · rw [h4]; exact h.len
    · rw [h4]; simp; omega

/-- What was read is a token. -/
theorem Open.all {σ : Setting W} {tail : List Nat} {a a' : An} {old : List Int} {cur pend rest : List Piece} {o o' : UString}
    (h : Open σ tail a old cur pend rest o) (h1 : a'.buf = a.buf) (h2 : a'.inp = a.inp) (h3 : a'.blanks = blanksOf pend) (h4 : a'.out = o') :
    Open σ tail a' (old ++ vals cur) [] pend rest o' := by
  refine ⟨⟨?_, by rw [h1]; exact h.here.size, by rw [h2]; exact h.here.inp, h3⟩, calm_suffix h.calm, ?_, h4⟩
  · rw [h1]
    have := h.here.rep
    rw [vals_append, ← List.append_assoc] at this
    simpa [vals_length] using this
  · have := h.len
    simp only [List.length_append, List.nil_append] at this ⊢
    omega

/-- A part of what was read is a token. -/
theorem Open.some {σ : Setting W} {tail : List Nat} {a a' : An} {old : List Int} {ts us pend rest : List Piece} {o o' : UString} {q : Nat}
    (h : Open σ tail a old (ts ++ us) pend rest o) (hu : us ≠ [])
    (h1 : (a'.buf = Buffer.setPos q a.buf ∧ q ≡ old.length + ts.length [MOD 2048]) ∨
      (a'.buf = Buffer.back 1 (Buffer.setPos q a.buf) ∧ q ≡ old.length + ts.length + 1 [MOD 2048]))
    (h2 : a'.inp = a.inp) (h3 : a'.blanks = blanksOf (us ++ pend)) (h4 : a'.out = o') :
    Open σ tail a' (old ++ vals ts) [] (us ++ pend) rest o' := by
  have hl := h.len
  have hup := List.length_pos_iff.2 hu
  simp only [List.length_append] at hl
  have e : (old ++ vals ts) ++ vals ([] ++ (us ++ pend)) = old ++ vals (ts ++ us ++ pend) := by simp [vals_append]
  have el : (old ++ vals (ts ++ us ++ pend)).length = old.length + (ts.length + us.length + pend.length) := by simp [vals_length]; omega
  have ec : (old ++ vals ts).length + ([] : List Piece).length = old.length + ts.length := by simp [vals_length]
  have hr := h.here.rep
  have hz := h.here.size
  refine ⟨⟨?_, ?_, by rw [h2]; exact h.here.inp, h3⟩, ?_, ?_, h4⟩
  · rw [e, ec]
    rcases h1 with ⟨h1, hq⟩ | ⟨h1, hq⟩
    · rw [h1]
      exact rep_setPos hr (by simp only [el]; omega) (by simp only [el, hz]; omega) (by rw [hz]; exact hq)
    · rw [h1]
      exact rep_rewind hr (by simp only [el]; omega) (by simp only [el, hz]; omega) (by rw [hz]; exact hq)
  · rcases h1 with ⟨h1, -⟩ | ⟨h1, -⟩
    · rw [h1]; exact hz
    · rw [h1]
      unfold Buffer.back
      split <;> exact hz
  · have := h.calm
    rw [List.append_assoc] at this
    exact calm_suffix this
  · simp only [List.nil_append, List.length_append]; omega

theorem alpha_not_space [LinearOrder W] {σ : Setting W} {name : Int → UString} (hr : Regular σ name) {p : Piece} (h : σ.isAlphabetic (p.val : Int) = true) :
    σ.chars.isSpace (p.val : Int) = false := by
  cases e : σ.chars.isSpace (p.val : Int) with
  | false => rfl
  | true => rw [hr.spaceAlpha _ e] at h; cases h

theorem not_space_blank [LinearOrder W] {σ : Setting W} {name : Int → UString} (hr : Regular σ name) {p : Piece} (hp : p.Ok σ) (h : σ.chars.isSpace (p.val : Int) = false) :
    p.core.blank = [] := by
  rcases piece_blank hp with ⟨h1, -⟩ | ⟨-, h1⟩
  · rw [h1] at h
    have := hr.space
    simp only [Nat.cast_ofNat] at h
    rw [this] at h; cases h
  · exact h1

theorem blanksOf_none {ps : List Piece} (h : ∀ p ∈ ps, p.core.blank = []) : blanksOf ps = [] := by
  unfold blanksOf
  exact List.flatMap_eq_nil_iff.2 h

section
variable [AddMonoid W] [LinearOrder W] {σ : Setting W} {name : Int → UString}

/-- `Next` with the analyses that are computed. -/
def NextIs (hr : Regular σ name) (tok : Token) (rest : List Piece) : Prop :=
  let xs := vals (tok.pieces ++ rest)
  match tok with
  | .word before after ps lf => Good σ xs (vals ps) ∧ (∀ zs, Good σ xs zs → zs.length ≤ ps.length) ∧
      (after = true ↔ After σ xs) ∧ (before = true ↔ Before σ xs) ∧ filterFinals σ (states σ name hr (vals ps)) (surface ps) = .ok lf
  | .lowered ps lf => (∀ zs, ¬ Good σ xs zs) ∧ LongestRun σ ps rest ∧ Entry σ (loweredUnits σ ps) ∧
      filterFinals σ (states σ name hr (loweredUnits σ ps)) (σ.chars.lowerText (surface ps)) = .ok lf
  | .unknown ps => (∀ zs, ¬ Good σ xs zs) ∧ LongestRun σ ps rest ∧ ¬ Entry σ (loweredUnits σ ps)
  | .char p => (∀ zs, ¬ Good σ xs zs) ∧ σ.isAlphabetic (p.val : Int) = false

omit [AddMonoid W] in
theorem lowerLoop_ok (hr : Regular σ name) (hs : Small σ) {n : Nat} (us : UString) : ∀ (xs : List Int), (∀ u ∈ us, u ≠ 0) → (∀ x ∈ xs, x ≠ 0) →
    (∀ zs, zs <+: xs ++ us.map (fun u => (u.toNat : Int)) → after σ n zs = .ok (states σ name hr zs)) →
    lowerLoop σ n us (states σ name hr xs) = .ok (states σ name hr (xs ++ us.map fun u => (u.toNat : Int))) := by
  induction us with
  | nil => intro xs _ _ _; simp [lowerLoop]
  | cons u us ih =>
    intro xs hu hx ha
    have hu0 : (u.toNat : Int) ≠ 0 := by
      have := hu u (by simp)
      intro h
      exact this (UInt16.toNat_inj.1 (by simpa using h))
    have e : xs ++ (u :: us).map (fun u => (u.toNat : Int)) = (xs ++ [(u.toNat : Int)]) ++ us.map fun u => (u.toNat : Int) := by simp
    have hx' : ∀ x ∈ xs ++ [(u.toNat : Int)], x ≠ 0 := by
      intro x hm
      rcases List.mem_append.1 hm with h | h
      · exact hx x h
      · rw [List.mem_singleton.1 h]; exact hu0
    have hx'' : ∀ x ∈ xs ++ (u :: us).map (fun u => (u.toNat : Int)), x ≠ 0 := by
      intro x hm
      rcases List.mem_append.1 hm with h | h
      · exact hx x h
      · obtain ⟨v, hv, rfl⟩ := List.mem_map.1 h
        intro h0
        exact hu v hv (UInt16.toNat_inj.1 (by simpa using h0))
    rw [e] at ha
    have hst := step_ready (ha xs ⟨_, by rw [List.append_assoc]⟩) (ha (xs ++ [(u.toNat : Int)]) ⟨_, rfl⟩)
    rw [lowerLoop, hst, Res.bind_ok]
    cases hem : (states σ name hr (xs ++ [(u.toNat : Int)])).isEmpty with
    | false =>
      simp only [Bool.false_eq_true, if_false]
      rw [ih _ (fun v hv => hu v (by simp [hv])) hx' ha, e]
    | true =>
      have h1 := sound_empty (states_sound hr hs hx')
      have h2 := sound_empty (states_sound hr hs hx'')
      have hnl : ¬ Live σ (xs ++ (u :: us).map fun u => (u.toNat : Int)) := by
        intro h
        rw [e] at h
        have := h1.2 (live_prefix h)
        rw [hem] at this; cases this
      have h3 : (states σ name hr (xs ++ (u :: us).map fun u => (u.toNat : Int))).isEmpty = true := by
        cases he : (states σ name hr (xs ++ (u :: us).map fun u => (u.toNat : Int))).isEmpty with
        | false => exact absurd (h2.1 he) hnl
        | true => rfl
      rw [List.isEmpty_iff] at hem h3
      rw [h3, hem]
      rfl

theorem compoundOrLower_ok (hr : Regular σ name) (hs : Small σ) {n : Nat} {ps ts : List Piece} (hrd : Ready hr n ps) (hi : ts <:+: ps) (hne : ts ≠ []) (hok : ∀ p ∈ ts, p.Ok σ) :
    ∃ lf, compoundOrLower σ n (states σ name hr []) (surface ts) = .ok lf ∧
      filterFinals σ (states σ name hr (loweredUnits σ ts)) (σ.chars.lowerText (surface ts)) = .ok lf ∧ (lf = [] ↔ ¬ Entry σ (loweredUnits σ ts)) := by
  obtain ⟨hl1, hl2⟩ := hr.lowerText (surface ts) (surface_ne_nil hne) (surface_zero hok)
  have h1 := lowerLoop_ok hr hs (n := n) (σ.chars.lowerText (surface ts)) [] (fun u hu h => hl2 (h ▸ hu)) (by simp)
    (fun zs hz => hrd.2 ts hi zs (by simpa [loweredUnits] using hz))
  rw [List.nil_append] at h1
  have hnz : ∀ x ∈ loweredUnits σ ts, x ≠ 0 := by
    intro x hx
    obtain ⟨u, hu, rfl⟩ := List.mem_map.1 hx
    intro h0
    exact hl2 ((UInt16.toNat_inj.1 (show u.toNat = (0 : UInt16).toNat by simpa using h0)) ▸ hu)
  obtain ⟨lf, g1, -, g3⟩ := filterFinals_ok hr (states_sound hr hs hnz) (states_length hr hs hnz) _ hl1
  refine ⟨lf, ?_, g1, g3⟩
  unfold compoundOrLower
  rw [hr.noCompounds]
  simp only [Bool.false_eq_true, if_false, Res.bind_ok, ne_eq, not_true_eq_false, h1, pruned_eq hr]
  have g1' : filterFinals σ (states σ name hr ((σ.chars.lowerText (surface ts)).map fun u => (u.toNat : Int))) (σ.chars.lowerText (surface ts)) = .ok lf := g1
  rw [g1', Res.bind_ok]
  by_cases h : lf = []
  · rw [if_neg (by simpa using h), h]
  · rw [if_pos h]

/-- Reading the letters that follow. -/
theorem readWord_ok (hr : Regular σ name) {tail : List Nat} {old : List Int} {o : UString} (qs : List Piece) :
    ∀ (turns : Nat) (us : List Piece) (p : Piece) (a : An) (pend rest : List Piece), Open σ tail a old (us ++ [p]) pend rest o → pend ++ rest = qs →
    p.Ok σ → (∀ q ∈ qs, q.Ok σ) → (∃ q ∈ qs, σ.isAlphabetic (q.val : Int) = false) → (∀ q ∈ us ++ [p], ¬ Other σ q) →
    (∀ zs q ws, qs = zs ++ q :: ws → (∀ z ∈ zs, σ.isAlphabetic (z.val : Int) = true) → (us ++ [p] ++ zs).length < 2047) → qs.length ≤ turns →
    ∃ zs q a' pend' rest', readWord σ turns (p.val : Int) (surface us) a = .ok ((q.val : Int), surface (us ++ p :: zs), a') ∧
      (∀ z ∈ zs, σ.isAlphabetic (z.val : Int) = true) ∧ σ.isAlphabetic (q.val : Int) = false ∧
      Open σ tail a' old (us ++ p :: zs ++ [q]) pend' rest' o ∧ qs = zs ++ q :: (pend' ++ rest') := by
  induction qs with
  | nil => intro turns us p a pend rest _ _ _ _ h; obtain ⟨q, h, -⟩ := h; cases h
  | cons q qs ih =>
    intro turns us p a pend rest ho e hp hok hex hno hlen ht
    obtain ⟨t, rfl⟩ : ∃ t, turns = t + 1 := ⟨turns - 1, by simp at ht; omega⟩
    have hl0 := hlen [] q qs rfl (by simp)
    obtain ⟨a', pend', rest', e1, h1, h2⟩ := ho.read e (hok q (by simp)) hno (by simpa using hl0)
    have htx := symbolText_val σ.chars.toUpper σ.alphabet p.val (piece_val hp).1 (piece_val hp).2
    have hsf : surface us ++ utf16 p.val = surface (us ++ [p]) := by rw [surface_append]; simp [surface, enc]
    have hq0 := (piece_val (hok q (by simp))).2
    rw [readWord]
    simp only [htx, Res.bind_ok, e1, hsf]
    cases ha : σ.isAlphabetic (q.val : Int) with
    | false =>
      rw [if_neg (by simp)]
      exact ⟨[], q, a', pend', rest', by simp, by simp, ha, by simpa using h1, by simp [h2]⟩
    | true =>
      rw [if_pos ⟨by omega, rfl⟩]
      obtain ⟨zs, q', a'', pend'', rest'', k1, k2, k3, k4, k5⟩ := ih t (us ++ [p]) q a' pend' rest' h1 h2 (hok q (by simp)) (fun x hx => hok x (by simp [hx]))
        (by
          obtain ⟨x, hx, hxa⟩ := hex
          rcases List.mem_cons.1 hx with rfl | hx
          · rw [ha] at hxa; cases hxa
          · exact ⟨x, hx, hxa⟩)
        (by
          intro x hx
          rcases List.mem_append.1 hx with hx | hx
          · exact hno x hx
          · rw [List.mem_singleton.1 hx]
            rintro ⟨hs, -⟩
            rw [alpha_not_space hr ha] at hs; cases hs)
        (by
          intro zs x ws ez hz
          have := hlen (q :: zs) x ws (by rw [ez]; rfl) (by
            intro z hz'
            rcases List.mem_cons.1 hz' with rfl | hz'
            · exact ha
            · exact hz z hz')
          simp only [List.length_append, List.length_cons, List.length_nil] at this ⊢
          omega)
        (by simp at ht; omega)
      refine ⟨q :: zs, q', a'', pend'', rest'', by simpa using k1, ?_, k3, by simpa using k4, by rw [k5]; rfl⟩
      intro z hz
      rcases List.mem_cons.1 hz with rfl | hz
      · exact ha
      · exact k2 z hz

/-- No word is known here. -/
theorem unknownStart_ok (hr : Regular σ name) (hs : Small σ) {n : Nat} {ps R : List Piece} (hrd : Ready hr n ps) (hi : R <:+: ps) (hok : ∀ p ∈ R, p.Ok σ)
    {tail : List Nat} {a : An} {old : List Int} {us pend rest : List Piece} {q : Piece} {o : UString} (hR : R = us ++ q :: (pend ++ rest))
    (ho : Open σ tail a old (us ++ [q]) pend rest o) (hne : us ≠ []) (hq : σ.isAlphabetic (q.val : Int) = false)
    (hhead : ∀ r us', us = r :: us' → σ.isAlphabetic (r.val : Int) = false → r.val < 0x10000 ∧ σ.chars.isSpace (r.val : Int) = false)
    {lastStart : Nat} (hls : lastStart ≡ old.length [MOD 2048]) (hg : ∀ zs, ¬ Good σ (vals R) zs) :
    ∃ a' tok pend', unknownStart σ n (states σ name hr []) lastStart (surface us) a = .ok a' ∧ tok.pieces ++ (pend' ++ rest) = R ∧ tok.pieces ≠ [] ∧
      NextIs hr tok (pend' ++ rest) ∧ Open σ tail a' (old ++ vals tok.pieces) [] pend' rest (o ++ tok.render) := by
  have huok : ∀ p ∈ us, p.Ok σ := fun p hp => hok p (by rw [hR]; simp [hp])
  unfold unknownStart
  rw [firstNotAlpha_surface us huok]
  simp only
  by_cases h0 : us.takeWhile (fun p => σ.isAlphabetic (p.val : Int)) = []
  · rw [if_pos (by rw [h0]; rfl)]
    obtain ⟨r, us', rfl⟩ : ∃ r us', us = r :: us' := by
      cases us with
      | nil => exact absurd rfl hne
      | cons r us' => exact ⟨r, us', rfl⟩
    have hra : σ.isAlphabetic (r.val : Int) = false := by
      cases h : σ.isAlphabetic (r.val : Int) with
      | false => rfl
      | true => simp [h] at h0
    obtain ⟨hb, hsp⟩ := hhead r us' rfl hra
    have hbl := not_space_blank hr (huok r (by simp)) hsp
    refine ⟨_, .char r, us' ++ [q] ++ pend, rfl, by rw [hR]; simp [Token.pieces], by simp [Token.pieces], ?_, ?_⟩
    · refine ⟨?_, hra⟩
      rw [show Token.pieces (.char r) ++ (us' ++ [q] ++ pend ++ rest) = R by rw [hR]; simp [Token.pieces]]
      exact hg
    · have ho' : Open σ tail a old ([r] ++ (us' ++ [q])) pend rest o := by simpa using ho
      refine ho'.some (q := 1 + lastStart) (by simp) (.inl ⟨rfl, ?_⟩) rfl ?_ ?_
      · rw [Nat.add_comm]; exact hls.add_right 1
      · simp only [ho'.here.blanks]
        rw [List.append_assoc, blanksOf_append, blanksOf_none (ps := [r]) (by simpa using hbl), List.nil_append]
      · simp only [Token.render, hbl]
        rw [surface_cons, utf16_bmp hb, appendEscaped_eq, ho.out]
        simp
  · have hle : (us.takeWhile fun p => σ.isAlphabetic (p.val : Int)).length ≠ 0 := by simpa using h0
    rw [if_neg hle]
    obtain ⟨vs, hvs⟩ : ∃ vs, us = us.takeWhile (fun p => σ.isAlphabetic (p.val : Int)) ++ vs := ⟨us.dropWhile fun p => σ.isAlphabetic (p.val : Int), by simp⟩
    have halpha : ∀ p ∈ us.takeWhile (fun p => σ.isAlphabetic (p.val : Int)), σ.isAlphabetic (p.val : Int) = true := fun p hp => by
      have := List.all_takeWhile (p := fun p : Piece => σ.isAlphabetic (p.val : Int)) (l := us)
      exact List.all_eq_true.1 this p hp
    have hstop : ∀ r vs', vs = r :: vs' → σ.isAlphabetic (r.val : Int) = false := by
      intro r vs' e
      have hd : vs = us.dropWhile fun p => σ.isAlphabetic (p.val : Int) := by
        have h1 : us.takeWhile (fun p => σ.isAlphabetic (p.val : Int)) ++ vs = us.takeWhile (fun p => σ.isAlphabetic (p.val : Int)) ++ us.dropWhile (fun p => σ.isAlphabetic (p.val : Int)) := by
          rw [← hvs, List.takeWhile_append_dropWhile]
        exact (List.append_cancel_left h1)
      rw [e] at hd
      have := List.head?_dropWhile_not (fun p : Piece => σ.isAlphabetic (p.val : Int)) us
      rw [← hd] at this
      simpa using this
    generalize us.takeWhile (fun p => σ.isAlphabetic (p.val : Int)) = ts at hvs halpha h0
    subst hvs
    have htok : ∀ p ∈ ts, p.Ok σ := fun p hp => huok p (by simp [hp])
    have hbl : blanksOf ts = [] := blanksOf_none fun p hp => not_space_blank hr (htok p hp) (alpha_not_space hr (halpha p hp))
    rw [surface_take]
    obtain ⟨lf, g1, g2, g3⟩ := compoundOrLower_ok hr hs hrd (List.IsInfix.trans ⟨[], vs ++ q :: (pend ++ rest), by rw [hR]; simp⟩ hi) h0 htok
    rw [g1, Res.bind_ok]
    have ho' : Open σ tail a old (ts ++ (vs ++ [q])) pend rest o := by simpa using ho
    have hRR : ts ++ (vs ++ [q] ++ pend ++ rest) = R := by rw [hR]; simp
    have hrun : LongestRun σ ts (vs ++ [q] ++ pend ++ rest) := by
      refine ⟨h0, ?_, ?_⟩
      · intro v hv
        obtain ⟨p, hp, rfl⟩ := List.mem_map.1 hv
        exact halpha p hp
      · cases vs with
        | nil => exact ⟨q, pend ++ rest, by simp, hq⟩
        | cons r vs => exact ⟨r, vs ++ [q] ++ pend ++ rest, by simp, hstop r vs rfl⟩
    have hblk : a.blanks = blanksOf (vs ++ [q] ++ pend) := by
      rw [ho'.here.blanks, List.append_assoc, blanksOf_append, hbl, List.nil_append]
    by_cases hlf : lf = []
    · rw [if_neg (by simpa using hlf)]
      refine ⟨_, .unknown ts, vs ++ [q] ++ pend, rfl, hRR, h0, ⟨?_, hrun, g3.1 hlf⟩, ?_⟩
      · rw [show Token.pieces (.unknown ts) ++ (vs ++ [q] ++ pend ++ rest) = R from hRR]; exact hg
      · refine ho'.some (q := lastStart + ts.length) (by simp) (.inl ⟨rfl, hls.add_right _⟩) rfl hblk ?_
        simp only [printUnknownWord, Token.render, appendEscaped_eq, ho.out]
        simp
    · rw [if_pos hlf]
      refine ⟨_, .lowered ts lf, vs ++ [q] ++ pend, rfl, hRR, h0, ⟨?_, hrun, ?_, g2⟩, ?_⟩
      · rw [show Token.pieces (.lowered ts lf) ++ (vs ++ [q] ++ pend ++ rest) = R from hRR]; exact hg
      · exact Classical.not_not.1 fun h => hlf (g3.2 h)
      · refine ho'.some (q := lastStart + ts.length) (by simp) (.inl ⟨rfl, hls.add_right _⟩) rfl hblk ?_
        simp only [printWord, Token.render, appendEscaped_eq, ho.out]
        simp

end

end Verif.Proc
