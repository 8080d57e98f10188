import Verif.Proc.Emit

/-! # The loop -/

namespace Verif.Proc

open Verif.State Verif.Stream Verif.Input Verif.Merge

variable {W : Type}

theorem sd_std {σ : Setting W} {X : List Int} {m : Nat} (h : Sd σ X m) : Std σ X (X.take m) ∧ (X.take m).length = m :=
  ⟨⟨(good_take h.1).1, h.2⟩, (good_take h.1).2⟩

theorem std_sd {σ : Setting W} {X zs : List Int} (h : Std σ X zs) : Sd σ X zs.length := by
  obtain ⟨e, hg⟩ := good_iff.1 h.1
  exact ⟨hg, by rw [← e]; exact h.2⟩

theorem best_iff {σ : Setting W} {X : List Int} {k : Nat} (hk : ∀ j, Gd σ X j → j < k) (P : List Int → Prop) :
    (∃ ys, Good σ X ys ∧ P ys ∧ ∀ zs, Std σ X zs → zs.length < ys.length) ↔ ∃ j < k, Gd σ X j ∧ P (X.take j) ∧ ∀ m < k, Sd σ X m → m < j := by
  constructor
  · rintro ⟨ys, h1, h2, h3⟩
    obtain ⟨e, hg⟩ := good_iff.1 h1
    refine ⟨ys.length, hk _ hg, hg, by rw [← e]; exact h2, fun m _ hm => ?_⟩
    obtain ⟨k1, k2⟩ := sd_std hm
    have := h3 _ k1
    rwa [k2] at this
  · rintro ⟨j, -, h1, h2, h3⟩
    obtain ⟨k1, k2⟩ := good_take h1
    refine ⟨_, k1, h2, fun zs hz => ?_⟩
    rw [k2]
    exact h3 _ (hk _ (std_sd hz).1) (std_sd hz)

theorem after_iff {σ : Setting W} {X : List Int} {k : Nat} (hk : ∀ j, Gd σ X j → j < k) :
    After σ X ↔ ∃ j < k, Gd σ X j ∧ Po σ X j ∧ ∀ m < k, Sd σ X m → m < j := by
  unfold After Po
  rw [← best_iff hk fun ys => In σ σ.postblank ys ∧ ¬ In σ σ.inconditional ys]
  simp only [and_assoc]

theorem before_iff {σ : Setting W} {X : List Int} {k : Nat} (hk : ∀ j, Gd σ X j → j < k) :
    Before σ X ↔ ¬ After σ X ∧ ∃ j < k, Gd σ X j ∧ Pr σ X j ∧ ∀ m < k, Sd σ X m → m < j := by
  unfold Before Pr
  rw [← best_iff hk fun ys => In σ σ.preblank ys ∧ ¬ In σ σ.inconditional ys ∧ ¬ In σ σ.postblank ys]
  simp only [and_assoc]

section
variable [AddMonoid W] [LinearOrder W] {σ : Setting W} {name : Int → UString}

/-- A known word is written. -/
theorem word_ok (hr : Regular σ name) {R xs pend rest : List Piece} {p : Piece} (hok : ∀ p ∈ R, p.Ok σ) (hR : R = xs ++ p :: (pend ++ rest))
    {tail : List Nat} {a : An} {old : List Int} {o : UString} (ho : Open σ tail a old (xs ++ [p]) pend rest o) {i last : Nat}
    (hi : i < xs.length + 1) (hg : Gd σ (vals R) i) (hmax : ∀ j, Gd σ (vals R) j → j ≤ i) (hl : last ≡ old.length + i + 1 [MOD 2048]) {lf : UString}
    (hf : filterFinals σ (states σ name hr (vals (R.take i))) (surface (R.take i)) = .ok lf) (before after : Bool)
    (ha : after = true ↔ After σ (vals R)) (hb : before = true ↔ Before σ (vals R)) :
    ∃ a', (printWordPopBlank ((surface xs).take (surface (R.take i)).length) lf { a with out := a.out ++ if before then [0x20] else [] }) = .ok a' ∧
      ∃ tok pend', tok.pieces ++ (pend' ++ rest) = R ∧ tok.pieces ≠ [] ∧ NextIs hr tok (pend' ++ rest) ∧
        Open σ tail (rewind last { a' with out := a'.out ++ if after then [0x20] else [] }) (old ++ vals tok.pieces) [] pend' rest (o ++ tok.render) := by
  obtain ⟨ts, us, rfl, rfl⟩ : ∃ ts us, xs = ts ++ us ∧ ts.length = i := ⟨xs.take i, xs.drop i, by simp, by rw [List.length_take]; omega⟩
  have htake : R.take ts.length = ts := by rw [hR, List.append_assoc, List.take_left]
  rw [htake] at hf ⊢
  rw [surface_take]
  have hok' : ∀ p ∈ ts, p.Ok σ := fun q hq => hok q (by rw [hR]; simp [hq])
  have ho' : Open σ tail a old (ts ++ (us ++ [p])) pend rest o := by simpa using ho
  have hbl : a.blanks = blanksOf ts ++ blanksOf (us ++ [p] ++ pend) := by rw [ho'.here.blanks, List.append_assoc, blanksOf_append]
  have hpos : 0 < ts.length := hg.1
  have hRR : ts ++ (us ++ [p] ++ pend ++ rest) = R := by rw [hR]; simp
  rw [printWordPopBlank_ok ts hok' (blanksOf (us ++ [p] ++ pend)) lf { a with out := a.out ++ if before then [0x20] else [] } hbl]
  refine ⟨_, rfl, .word before after ts lf, us ++ [p] ++ pend, hRR, List.length_pos_iff.1 hpos, ⟨?_, ?_, ?_, ?_, hf⟩, ?_⟩
  · rw [show Token.pieces (.word before after ts lf) ++ (us ++ [p] ++ pend ++ rest) = R from hRR, good_iff]
    rw [vals_length, vals_take, htake]
    exact ⟨rfl, hg⟩
  · rw [show Token.pieces (.word before after ts lf) ++ (us ++ [p] ++ pend ++ rest) = R from hRR]
    intro zs hz
    exact hmax _ (good_iff.1 hz).2
  · rw [show Token.pieces (.word before after ts lf) ++ (us ++ [p] ++ pend ++ rest) = R from hRR]; exact ha
  · rw [show Token.pieces (.word before after ts lf) ++ (us ++ [p] ++ pend ++ rest) = R from hRR]; exact hb
  · refine ho'.some (q := last) (by simp) (.inr ⟨rfl, hl⟩) rfl rfl ?_
    simp only [rewind, ho.out, Token.render]
    simp

theorem live_no_other (hp : Plain σ) {xs : List Piece} (h : Live σ (vals xs)) : ∀ q ∈ xs, ¬ Other σ q := by
  rintro q hq ⟨h1, h2⟩
  have := hp.onlySpace _ h (q.val : Int) (List.mem_map.2 ⟨q, hq, rfl⟩) h1
  omega

/-- What is written when no state is left. -/
theorem emit_ok (hr : Regular σ name) (hs : Small σ) (hpl : Plain σ) {n : Nat} {ps R : List Piece} (hrd : Ready hr n ps) (hi : R <:+: ps)
    (hok : ∀ p ∈ R, p.Ok σ) (hen : Ends σ R) (hsh : Short σ R) (hn : R.length ≤ n)
    {tail : List Nat} {a : An} {old : List Int} {xs pend rest : List Piece} {p : Piece} {o : UString} (hR : R = xs ++ p :: (pend ++ rest))
    (ho : Open σ tail a old (xs ++ [p]) pend rest o) (hlive : Live σ (vals xs)) (hdead : ¬ Live σ (vals (xs ++ [p])))
    {l : Loc W} (hsf : l.sf = surface xs) (hls : l.lastStart ≡ old.length [MOD 2048]) (hnoted : Noted hr R old.length (xs.length + 1) l)
    (hx : xs = [] → σ.isAlphabetic (p.val : Int) = true) :
    ∃ (v : Nat) (a' : An) (tok : Token) (pend' rest' : List Piece), v ≠ 0 ∧ emit σ n (states σ name hr []) (p.val : Int) l [] a = .ok ((v : Int), a') ∧
      tok.pieces ++ (pend' ++ rest') = R ∧ tok.pieces ≠ [] ∧ NextIs hr tok (pend' ++ rest') ∧
      Open σ tail a' (old ++ vals tok.pieces) [] pend' rest' (o ++ tok.render) := by
  have hpok : p.Ok σ := hok p (by rw [hR]; simp)
  have hxok : ∀ p ∈ xs, p.Ok σ := fun q hq => hok q (by rw [hR]; simp [hq])
  have hv := (piece_val hpok).2
  have hk : ∀ j, Gd σ (vals R) j → j < xs.length + 1 := by
    intro j hj
    by_contra hc
    obtain ⟨-, v, -, he, -⟩ := hj
    have := live_take (i := xs.length + 1) (by omega) (live_of_entry he)
    rw [vals_take, show R.take (xs.length + 1) = xs ++ [p] by rw [hR]; simp [List.take_append]] at this
    exact hdead this
  have hhead : ∀ r us', xs = r :: us' → σ.isAlphabetic (r.val : Int) = false → r.val < 0x10000 ∧ σ.chars.isSpace (r.val : Int) = false := by
    rintro r us' rfl ha
    have hl : Live σ [(r.val : Int)] := live_prefix (ys := vals us') (by simpa [vals] using hlive)
    have := hpl.bmpStart _ hl ha
    exact ⟨by omega, hpl.noSpaceStart _ hl⟩
  have hlen : xs.length + 1 ≤ R.length := by rw [hR]; simp
  unfold emit
  rw [if_neg (by simp), if_neg (by
    rw [hsf]
    intro h
    simp only [Bool.and_eq_true, Bool.not_eq_true', List.isEmpty_iff] at h
    by_cases hx0 : xs = []
    · rw [hx hx0] at h; exact absurd h.1 (by simp)
    · exact surface_ne_nil hx0 h.2)]
  rcases hnoted with ⟨h1, h2, h3, h4, h5⟩ | ⟨i, hik, hg, hmax, hl, hz, hf, hne, hpo, hpr, hfl⟩
  · have hng : ∀ zs, ¬ Good σ (vals R) zs := fun zs hz => h1 _ (hk _ (good_iff.1 hz).2) (good_iff.1 hz).2
    rw [h3, h4, h5, h2]
    simp only [Bool.false_eq_true, if_false, List.isEmpty_nil, Bool.or_true, Bool.and_true, if_true]
    cases ha : σ.isAlphabetic (p.val : Int) with
    | true =>
      simp only [if_true]
      have hnp : ¬ Other σ p := by rintro ⟨h, -⟩; rw [alpha_not_space hr ha] at h; cases h
      obtain ⟨zs, q, a', pend', rest', k1, k2, k3, k4, k5⟩ := readWord_ok hr (pend ++ rest) n xs p a pend rest ho rfl hpok
        (fun q hq => hok q (by rw [hR]; simp only [List.mem_append, List.mem_cons]; exact .inr (.inr (List.mem_append.1 hq))))
        (by
          rcases List.eq_nil_or_concat (pend ++ rest) with e | ⟨qs, q, e⟩
          · have := (hen xs p (by rw [hR, e])).1
            rw [ha] at this; cases this
          · exact ⟨q, by rw [e]; simp, (hen (xs ++ p :: qs) q (by rw [hR, e]; simp)).1⟩)
        (by
          intro q hq
          rcases List.mem_append.1 hq with hq | hq
          · exact live_no_other hpl hlive q hq
          · rw [List.mem_singleton.1 hq]; exact hnp)
        (by
          intro zs q ws e hz
          have := hsh [] xs (p :: zs) q ws (by rw [hR, e]; simp) hlive (by
            intro v hv
            obtain ⟨z, hz', rfl⟩ := List.mem_map.1 hv
            rcases List.mem_cons.1 hz' with rfl | hz'
            · exact ha
            · exact hz z hz')
          simpa using this)
        (by rw [hR] at hn; simp only [List.length_append, List.length_cons] at hn ⊢; omega)
      rw [hsf, k1, Res.bind_ok]
      obtain ⟨a'', tok, pend'', m1, m2, m3, m4, m5⟩ := unknownStart_ok hr hs hrd hi hok (us := xs ++ p :: zs) (q := q) (pend := pend') (rest := rest')
        (by rw [hR, k5]; simp) k4 (by simp) k3
        (by
          intro r us' e hra
          cases xs with
          | nil =>
            simp only [List.nil_append, List.cons.injEq] at e
            rw [← e.1, ha] at hra; cases hra
          | cons x xs' =>
            simp only [List.cons_append, List.cons.injEq] at e
            obtain ⟨rfl, -⟩ := e
            exact hhead x xs' rfl hra)
        hls hng
      simp only [m1, Res.bind_ok]
      refine ⟨q.val, a'', tok, pend'', rest', ?_, rfl, m2, m3, m4, m5⟩
      exact (piece_val (hok q (by rw [hR, k5]; simp))).2
    | false =>
      simp only [Bool.false_eq_true, if_false]
      have hx0 : xs ≠ [] := by intro h; rw [hx h] at ha; cases ha
      obtain ⟨a', tok, pend', m1, m2, m3, m4, m5⟩ := unknownStart_ok hr hs hrd hi hok hR ho hx0 ha hhead hls hng
      rw [hsf, m1, Res.bind_ok]
      exact ⟨p.val, a', tok, pend', rest, hv, rfl, m2, m3, m4, m5⟩
  · have hmax' : ∀ j, Gd σ (vals R) j → j ≤ i := fun j hj => hmax j (hk j hj) hj
    have hA := hpo.trans (after_iff hk).symm
    have hB := before_iff hk
    rw [← hpr] at hB
    rw [hsf, hz]
    cases hpost : l.post with
    | true =>
      rw [if_pos rfl]
      obtain ⟨a', e1, tok, pend', e2, e3, e4, e5⟩ := word_ok hr hok hR ho hik hg hmax' hl hf false true (by simpa [hpost] using hA)
        (by rw [hB]; exact ⟨fun h => (by cases h), fun h => absurd (hA.1 hpost) h.1⟩)
      simp only [Bool.false_eq_true, if_false, List.append_nil] at e1
      simp only [e1, Res.bind_ok]
      exact ⟨p.val, _, tok, pend', rest, hv, rfl, e2, e3, e4, by simpa using e5⟩
    | false =>
      have hna : ¬ After σ (vals R) := fun h => by rw [hA.2 h] at hpost; cases hpost
      simp only [Bool.false_eq_true, if_false]
      cases hpre : l.pre with
      | true =>
        rw [if_pos rfl]
        obtain ⟨a', e1, tok, pend', e2, e3, e4, e5⟩ := word_ok hr hok hR ho hik hg hmax' hl hf true false
          ⟨fun h => (by cases h), fun h => absurd h hna⟩ (by rw [hB]; exact ⟨fun _ => ⟨hna, hpre⟩, fun _ => rfl⟩)
        simp only [if_true] at e1
        simp only [e1, Res.bind_ok]
        exact ⟨p.val, _, tok, pend', rest, hv, rfl, e2, e3, e4, by simpa using e5⟩
      | false =>
        simp only [Bool.false_eq_true, if_false]
        obtain ⟨a', e1, tok, pend', e2, e3, e4, e5⟩ := word_ok hr hok hR ho hik hg hmax' hl hf false false
          ⟨fun h => (by cases h), fun h => absurd h hna⟩ (by rw [hB]; exact ⟨fun h => (by cases h), fun h => by rw [hpre] at h; cases h.2⟩)
        simp only [Bool.false_eq_true, if_false, List.append_nil] at e1
        have fin : ∃ (v : Nat) (a' : An) (tok : Token) (pend' rest' : List Piece), v ≠ 0 ∧
            (do let a ← printWordPopBlank ((surface xs).take (surface (R.take i)).length) l.lf a
                Res.ok ((p.val : Int), rewind l.last a)) = .ok ((v : Int), a') ∧
            tok.pieces ++ (pend' ++ rest') = R ∧ tok.pieces ≠ [] ∧ NextIs hr tok (pend' ++ rest') ∧
            Open σ tail a' (old ++ vals tok.pieces) [] pend' rest' (o ++ tok.render) := by
          simp only [e1, Res.bind_ok]
          exact ⟨p.val, _, tok, pend', rest, hv, rfl, e2, e3, e4, by simpa using e5⟩
        cases hin : l.incond with
        | true => rw [if_pos rfl]; exact fin
        | false =>
          have hsd : Sd σ (vals R) i := by
            rcases hfl with h | h | h | h
            · rw [hpost] at h; cases h
            · rw [hpre] at h; cases h
            · rw [hin] at h; cases h
            · exact h
          obtain ⟨⟨-, w, hw, -, hwa⟩, hns⟩ := hsd
          have hwb : σ.isAlphabetic w = false := hwa.resolve_left hns
          have hle : l.lf.isEmpty = false := by cases h : l.lf with
            | nil => exact absurd h hne
            | cons _ _ => rfl
          simp only [Bool.false_eq_true, if_false]
          rw [if_neg, if_neg (by rw [hle]; simp)]
          · exact fin
          · rw [hle]
            simp only [Bool.or_false, Bool.and_eq_true, decide_eq_true_eq, not_and]
            intro ha hlt
            rcases Nat.lt_or_ge i xs.length with hlt' | hge
            · obtain ⟨ts, r, us, rfl, rfl⟩ : ∃ ts r us, xs = ts ++ r :: us ∧ ts.length = i :=
                ⟨xs.take i, xs[i], xs.drop (i + 1), by rw [List.getElem_cons_drop, List.take_append_drop], by rw [List.length_take]; omega⟩
              rw [show R.take ts.length = ts by rw [hR, List.append_assoc, List.take_left]] at hlt
              have h1 := letter_of_lastBlank hr (hxok r (by simp)) hlt
              have : (vals R)[ts.length]? = some (r.val : Int) := by rw [hR]; simp [vals]
              rw [hw, Option.some.injEq] at this
              rw [← this, hwb] at h1; cases h1
            · have e : i = xs.length := by omega
              have : (vals R)[i]? = some (p.val : Int) := by rw [hR, e]; simp [vals]
              rw [hw, Option.some.injEq] at this
              rw [← this, hwb] at ha; cases ha

/-- The variables at the start of a token. -/
structure Fresh (hr : Regular σ name) (base : Nat) (l : Loc W) : Prop where
  cur : l.cur = states σ name hr []
  lf : l.lf = []
  sf : l.sf = []
  seenL : l.seenL = false
  start : l.lastStart ≡ base [MOD 2048]
  post : l.post = false
  pre : l.pre = false
  incond : l.incond = false

/-- The variables within a token. -/
structure Within (hr : Regular σ name) (R : List Piece) (base : Nat) (xs : List Piece) (l : Loc W) : Prop where
  cur : l.cur = states σ name hr (vals xs)
  sf : l.sf = surface xs
  seenL : l.seenL = false
  start : l.lastStart ≡ base [MOD 2048]
  noted : Noted hr R base xs.length l

theorem Fresh.within {hr : Regular σ name} {base : Nat} {l : Loc W} (h : Fresh hr base l) (R : List Piece) : Within hr R base [] l :=
  ⟨h.cur, h.sf, h.seenL, h.start, .inl ⟨fun i hi => by simp at hi, h.lf, h.post, h.pre, h.incond⟩⟩

/-- A character that starts no entry and is no letter. -/
theorem printChar_ok (hr : Regular σ name) {tail : List Nat} {a : An} {old : List Int} {pend rest : List Piece} {p : Piece} {o : UString} (hp : p.Ok σ)
    (ho : Open σ tail a old [p] pend rest o) (hd : ∀ zs, ¬ Good σ (vals ([p] ++ (pend ++ rest))) zs) (ha : σ.isAlphabetic (p.val : Int) = false) :
    NextIs hr (.char p) (pend ++ rest) ∧
      Open σ tail (printChar σ (p.val : Int) a) (old ++ vals (Token.pieces (.char p))) [] pend rest (o ++ (Token.char p).render) := by
  refine ⟨⟨hd, ha⟩, ?_⟩
  have hbl := ho.here.blanks
  rw [blanksOf_append] at hbl
  have hput : putc (p.val : Int) = utf16 p.val := by
    unfold putc
    rw [if_neg (by omega), Int.toNat_natCast]
  obtain ⟨hsc, h0⟩ := piece_val hp
  unfold printChar
  cases hs : σ.chars.isSpace (p.val : Int) with
  | true =>
    rw [if_pos rfl]
    rcases piece_blank hp with ⟨h1, b, h2⟩ | ⟨h1, h2⟩
    · rw [show blanksOf [p] = [b] by simp [blanksOf, h2]] at hbl
      rw [hbl]
      exact ho.all rfl rfl rfl (by simp [Token.render, h2, ho.out])
    · have hcalm := ho.calm [] p pend rfl ⟨hs, h1⟩
      rw [show blanksOf [p] = [] by simp [blanksOf, h2], hcalm] at hbl
      simp only [blanksOf, List.flatMap_nil, List.append_nil] at hbl
      rw [hbl]
      have hesc : (p.val : Int) ∉ escapedCps := by
        obtain ⟨sk, core⟩ := p
        obtain ⟨-, hc⟩ := hp
        cases core with
        | ch c => exact hc.2.2.2.1
        | esc c =>
          have := hc.2.2.2.1
          rw [show ((Piece.val ⟨sk, .esc c⟩ : Nat) : Int) = (c : Int) from rfl, this] at hs; cases hs
        | super ts => simp [Core.blank] at h2
        | wb ts => simp [Core.blank] at h2
      refine ho.all rfl rfl ?_ ?_
      · rw [hcalm]; rfl
      · simp only [Token.render, h2, hput, ho.out]
        rw [escape_utf16 hsc, if_neg hesc, List.nil_append]
  | false =>
    simp only [Bool.false_eq_true, if_false]
    have h2 := not_space_blank hr hp hs
    rw [show blanksOf [p] = [] by simp [blanksOf, h2], List.nil_append] at hbl
    refine ho.all rfl rfl hbl ?_
    simp only [Token.render, h2]
    rw [if_pos (by omega), hput, escape_utf16 hsc, ho.out]
    split <;> simp

/-- One turn: a character is added to the word, or a token is written. -/
theorem turn_ok (hr : Regular σ name) (hs : Small σ) (hpl : Plain σ) {n : Nat} {ps R : List Piece} (hrd : Ready hr n ps) (hi : R <:+: ps)
    (hok : ∀ p ∈ R, p.Ok σ) (hen : Ends σ R) (hsh : Short σ R) (hn : R.length ≤ n)
    {tail : List Nat} {a : An} {old : List Int} {xs pend rest : List Piece} {p : Piece} {qs : List Piece} {o : UString} (hR : R = xs ++ (pend ++ rest))
    (hq : pend ++ rest = p :: qs) (ho : Open σ tail a old xs pend rest o) (hlive : Live σ (vals xs)) {l : Loc W} (hw : Within hr R old.length xs l) :
    (∃ a' l' pend' rest', turn σ n (states σ name hr []) a l = .ok ((p.val : Int), a', l') ∧ pend' ++ rest' = qs ∧
      Open σ tail a' old (xs ++ [p]) pend' rest' o ∧ Live σ (vals (xs ++ [p])) ∧ Within hr R old.length (xs ++ [p]) l') ∨
    ∃ (v : Nat) (a' : An) (l' : Loc W) (tok : Token) (pend' rest' : List Piece), v ≠ 0 ∧
      turn σ n (states σ name hr []) a l = .ok ((v : Int), a', l') ∧ tok.pieces ++ (pend' ++ rest') = R ∧ tok.pieces ≠ [] ∧
      NextIs hr tok (pend' ++ rest') ∧ Open σ tail a' (old ++ vals tok.pieces) [] pend' rest' (o ++ tok.render) ∧
      Fresh hr (old ++ vals tok.pieces).length l' := by
  have hRp : R = xs ++ p :: qs := by rw [hR, hq]
  have hpok : p.Ok σ := hok p (by rw [hRp]; simp)
  have hxok : ∀ q ∈ xs, q.Ok σ := fun q h => hok q (by rw [hRp]; simp [h])
  obtain ⟨hpsc, hp0⟩ := piece_val hpok
  have hp0' : (p.val : Int) ≠ 0 := by omega
  have hlen := hsh [] xs [] p qs (by rw [hRp]; simp) hlive (by simp [vals])
  obtain ⟨a1, pend1, rest1, e1, h1, h2⟩ := ho.read hq hpok (live_no_other hpl hlive) (by simpa using hlen)
  have hR1 : R = xs ++ p :: (pend1 ++ rest1) := by rw [hRp, h2]
  have hpos : Buffer.getPos a1.buf ≡ old.length + xs.length + 1 [MOD 2048] := by
    have := h1.here.rep.curMod
    rw [h1.here.size] at this
    simpa [Nat.add_assoc, Buffer.getPos] using this
  have hvc : vals (xs ++ [p]) = vals xs ++ [(p.val : Int)] := by simp [vals]
  have hstep : ∀ l1 : Loc W, l1.cur = l.cur → stepRestoring σ n (p.val : Int) l1.cur = .ok (states σ name hr (vals (xs ++ [p]))) := by
    intro l1 h
    rw [h, stepRestoring_eq hr, hw.cur, hvc]
    refine step_ready (hrd.1 xs (List.IsInfix.trans ⟨[], p :: qs, by rw [hRp]; simp⟩ hi)) ?_
    rw [← hvc]
    exact hrd.1 _ (List.IsInfix.trans ⟨[], qs, by rw [hRp]; simp⟩ hi)
  have hemp := sound_empty (states_sound hr hs (vals_ne (ps := xs ++ [p]) (fun q h => by
    rcases List.mem_append.1 h with h | h
    · exact hxok q h
    · rw [List.mem_singleton.1 h]; exact hpok)))
  have hfresh : ∀ (v : Nat) (a2 : An) (tok : Token) (pend' rest' : List Piece) (l1 : Loc W),
      Open σ tail a2 (old ++ vals tok.pieces) [] pend' rest' (o ++ tok.render) → 
      Fresh hr (old ++ vals tok.pieces).length ({ cur := states σ name hr [], lastStart := Buffer.getPos a2.buf, last := l1.last, lastSize := l1.lastSize } : Loc W) := by
    intro v a2 tok pend' rest' l1 h
    refine ⟨rfl, rfl, rfl, rfl, ?_, rfl, rfl, rfl⟩
    have := h.here.rep.curMod
    rw [h.here.size] at this
    simpa [Buffer.getPos] using this
  have hnote : ∃ l1, note σ (p.val : Int) (Buffer.getPos a1.buf) l = .ok l1 ∧ l1.sf = l.sf ∧ l1.cur = l.cur ∧ l1.seenL = l.seenL ∧ l1.lastStart = l.lastStart ∧
      ((xs = [] ∧ σ.chars.isSpace (p.val : Int) = true) ∨ Noted hr R old.length (xs.length + 1) l1) := by
    by_cases hsp : xs = [] ∧ σ.chars.isSpace (p.val : Int) = true
    · obtain ⟨rfl, hsp⟩ := hsp
      unfold note
      rw [if_neg (by
        rw [hw.cur, sound_entry hr.standard (states_sound hr hs (by simp [vals]))]
        exact hpl.noEmpty)]
      split
      · exact ⟨_, rfl, rfl, rfl, rfl, rfl, .inl ⟨rfl, hsp⟩⟩
      · exact ⟨_, rfl, rfl, rfl, rfl, rfl, .inl ⟨rfl, hsp⟩⟩
    · obtain ⟨l1, g1, g2, g3, g4, g5, g6⟩ := note_ok hr hs hpl.noEmpty hRp hok hw.sf hw.cur
        (fun h => by
          cases hc : σ.chars.isSpace (p.val : Int) with
          | false => rfl
          | true => exact absurd ⟨h, hc⟩ hsp) hpos hw.noted
      exact ⟨l1, g1, g3, g4, g5, g6, .inr g2⟩
  obtain ⟨l1, n1, n2, n3, n4, n5, n6⟩ := hnote
  by_cases hl : Live σ (vals (xs ++ [p]))
  · left
    have hn6 : Noted hr R old.length (xs.length + 1) l1 := by
      rcases n6 with ⟨rfl, hsp⟩ | h
      · have := hpl.noSpaceStart (p.val : Int) (by simpa [vals] using hl)
        rw [hsp] at this; cases this
      · exact h
    have htx := symbolText_val σ.chars.toUpper σ.alphabet p.val hpsc hp0
    refine ⟨a1, { l1 with cur := states σ name hr (vals (xs ++ [p])), sf := l1.sf ++ utf16 p.val }, pend1, rest1, ?_, h2, h1, hl, ⟨rfl, ?_, ?_, ?_, ?_⟩⟩
    · unfold turn
      simp only [e1, Res.bind_ok, n1, hstep l1 n3, hemp.2 hl, Bool.not_false, if_true]
      rw [if_pos hp0', htx]
      rfl
    · simp only [n2, hw.sf]
      rw [surface_append]
      simp [surface, enc]
    · exact n4.trans hw.seenL
    · simp only [n5]; exact hw.start
    · simpa [Noted] using hn6
  · right
    have hemp' : (states σ name hr (vals (xs ++ [p]))).isEmpty = true := by
      cases h : (states σ name hr (vals (xs ++ [p]))).isEmpty with
      | false => exact absurd (hemp.1 h) hl
      | true => rfl
    have hsc : spaceCompound σ n (states σ name hr []) (p.val : Int) l1 a1 = .ok ((p.val : Int), l1.sf, [], a1) := by
      unfold spaceCompound
      rw [n4, hw.seenL]
      simp
    have hturn : ∀ (v : Nat) (a2 : An), v ≠ 0 → emit σ n (states σ name hr []) (p.val : Int) l1 [] a1 = .ok ((v : Int), a2) →
        turn σ n (states σ name hr []) a l = .ok ((v : Int), a2, { cur := states σ name hr [], lastStart := Buffer.getPos a2.buf, last := l1.last, lastSize := l1.lastSize }) := by
      intro v a2 hv he
      unfold turn
      simp only [e1, Res.bind_ok, n1, hstep l1 n3, hemp', Bool.not_true, Bool.false_eq_true, if_false, hsc]
      rw [show ({ l1 with sf := l1.sf } : Loc W) = l1 from rfl, he]
      simp only [Res.bind_ok]
      rw [if_neg (by omega)]
    by_cases hx : xs = [] ∧ σ.isAlphabetic (p.val : Int) = false
    · obtain ⟨rfl, ha⟩ := hx
      have hd : ∀ zs, ¬ Good σ (vals ([p] ++ (pend1 ++ rest1))) zs := by
        rintro zs ⟨hz, v, ws, e, he, -⟩
        obtain ⟨z, zs', rfl⟩ : ∃ z zs', zs = z :: zs' := by
          cases zs with
          | nil => exact absurd rfl hz
          | cons z zs' => exact ⟨z, zs', rfl⟩
        simp only [vals, List.map_cons, List.cons_append, List.cons.injEq] at e
        have := live_prefix (xs := [z]) (ys := zs') (live_of_entry he)
        rw [← e.1] at this
        exact hl (by simpa [vals] using this)
      obtain ⟨k1, k2⟩ := printChar_ok hr hpok h1 hd ha
      refine ⟨p.val, _, _, .char p, pend1, rest1, hp0, hturn p.val (printChar σ (p.val : Int) a1) hp0 ?_, by rw [hR1]; rfl, by simp [Token.pieces], k1, k2, hfresh p.val _ (.char p) pend1 rest1 l1 k2⟩
      unfold emit
      rw [if_neg (by simp), if_pos (by rw [n2, hw.sf, ha]; rfl)]
    · have hx' : xs = [] → σ.isAlphabetic (p.val : Int) = true := by
        intro h
        cases hc : σ.isAlphabetic (p.val : Int) with
        | true => rfl
        | false => exact absurd ⟨h, hc⟩ hx
      have hn6 : Noted hr R old.length (xs.length + 1) l1 := by
        rcases n6 with ⟨h, hsp⟩ | h
        · have := hx' h
          rw [hr.spaceAlpha _ hsp] at this; cases this
        · exact h
      obtain ⟨v, a2, tok, pend', rest', g1, g2, g3, g4, g5, g6⟩ := emit_ok hr hs hpl hrd hi hok hen hsh hn hR1 h1 hlive hl (n2.trans hw.sf)
        (by rw [n5]; exact hw.start) hn6 hx'
      exact ⟨v, a2, _, tok, pend', rest', g1, hturn v a2 g1 g2, g3, g4, g5, g6, hfresh v a2 tok pend' rest' l1 g6⟩

end

end Verif.Proc
