import Verif.BinIO.Model
import Verif.Alphabet.Format
import Verif.Transducer.Lemmas
import Verif.Labels.Lemmas
import Verif.Compression.Props
import Mathlib.Data.List.Perm.Subperm

/-! # Lemmas about the binary formats of transducers -/

namespace Verif.BinIO

open Verif.Compression Verif.Fst Verif.Alphabet

theorem mapExt {κ ν : Type} [LinearOrder κ] {m m' : List (κ × ν)} (h : SortedKeys m) (h' : SortedKeys m')
    (e : ∀ k, mapFind k m = mapFind k m') : m = m' := by
  have nd : ∀ {m : List (κ × ν)}, SortedKeys m → m.Nodup := fun h =>
    List.Pairwise.imp (fun {a b} hab heq => by subst heq; exact lt_irrefl _ hab) h
  have hp : m.Perm m' := (List.perm_ext_iff_of_nodup (nd h) (nd h')).2 (by
    rintro ⟨k, c⟩
    rw [← mapFind_iff h, ← mapFind_iff h', e])
  refine hp.eq_of_pairwise (le := fun (a b : κ × ν) => a.1 < b.1) ?_ h h'
  intro a b _ _ hab hba
  exact absurd hab (lt_asymm hba)

theorem ofInt_natCast (n : Nat) : UInt32.ofInt (n : Int) = UInt32.ofNat n := by
  apply UInt32.toNat_inj.1
  simp [UInt32.ofInt]; omega

theorem mbi_ok (i : Int) (h0 : 0 ≤ i) (h : i < 2 ^ 30) :
    ∃ bs, mbi i = .ok bs ∧ ∀ rest, multibyteRead (bs ++ rest) = (UInt32.ofInt i, rest) := by
  refine mbw_ok _ ?_
  obtain ⟨n, rfl⟩ := Int.eq_ofNat_of_zero_le h0
  have hn : n < 2 ^ 30 := by omega
  have : UInt32.ofInt (n : Int) = UInt32.ofNat n := ofInt_natCast n
  rw [this, ofNat32 hn]; exact hn

theorem ofInt_toNat {n : Nat} (h : n < 2 ^ 30) : (UInt32.ofInt (n : Int)).toNat = n := by
  have : UInt32.ofInt (n : Int) = UInt32.ofNat n := ofInt_natCast n
  rw [this, ofNat32 h]

theorem lmw_ok (d : Dbl) (h : d.Normal) :
    ∃ bs, lmw d = .ok bs ∧ ∀ rest, longMultibyteRead (bs ++ rest) = (cut30 d, rest) := by
  obtain ⟨bs, hb, hr⟩ := C05_weight_roundtrip d h
  exact ⟨bs, by simp [lmw, hb], hr⟩

theorem cut30_zero : cut30 (0 : Dbl) = 0 := by decide

theorem wField_ok (ww : Bool) (d : Dbl) (h : d.Normal) (hz : ww = false → d = 0) :
    ∃ bs, wField ww d = .ok bs ∧ ∀ rest, readW ww (bs ++ rest) = (cut30 d, rest) := by
  cases ww with
  | true => simpa [wField, readW] using lmw_ok d h
  | false => exact ⟨[], rfl, fun rest => by simp [readW, hz rfl, cut30_zero]⟩

/-! ## Parsing without building -/

/-- The arcs of one state as they stand in the stream. -/
def parseArcs (rw : Bool) (decalage : Int) (base cur : Nat) :
    (n : Nat) → (tagbase : Int) → List UInt8 → Row Dbl × List UInt8
  | 0, _, s => ([], s)
  | n + 1, tagbase, s =>
    let (v, s) := multibyteRead s
    let tagbase := toInt32 (UInt32.ofInt tagbase + v - UInt32.ofInt decalage)
    let (v2, s) := multibyteRead s
    let state := (cur + v2.toNat) % base
    let (w, s) := readW rw s
    let (r, s) := parseArcs rw decalage base cur n tagbase s
    ((tagbase, (state, w)) :: r, s)

/-- The arcs of all states as they stand in the stream. -/
def parseRows (rw : Bool) (decalage : Int) (base : Nat) : (n cur : Nat) → List UInt8 → List (Row Dbl) × List UInt8
  | 0, _, s => ([], s)
  | n + 1, cur, s =>
    let (k, s) := multibyteRead s
    let (r, s) := parseArcs rw decalage base cur k.toNat 0 s
    let (rs, s) := parseRows rw decalage base n (cur + 1) s
    (r :: rs, s)

theorem parseRows_length (rw : Bool) (d : Int) (base n cur : Nat) (s : List UInt8) :
    (parseRows rw d base n cur s).1.length = n := by
  induction n generalizing cur s with
  | zero => rfl
  | succ n ih => simp [parseRows, ih]

theorem parseArcs_target (rw : Bool) (d : Int) (base cur : Nat) (hb : 0 < base) (n : Nat) (tb : Int) (s : List UInt8) :
    ∀ x ∈ (parseArcs rw d base cur n tb s).1, x.2.1 < base := by
  induction n generalizing tb s with
  | zero => simp [parseArcs]
  | succ n ih =>
    intro x hx
    simp only [parseArcs] at hx
    rcases List.mem_cons.1 hx with rfl | hx
    · exact Nat.mod_lt _ hb
    · exact ih _ _ x hx

theorem parseRows_target (rw : Bool) (d : Int) (base : Nat) (hb : 0 < base) (n cur : Nat) (s : List UInt8) :
    ∀ r ∈ (parseRows rw d base n cur s).1, ∀ x ∈ r, x.2.1 < base := by
  induction n generalizing cur s with
  | zero => simp [parseRows]
  | succ n ih =>
    intro r hr
    simp only [parseRows] at hr
    rcases List.mem_cons.1 hr with rfl | hr
    · exact parseArcs_target rw d base cur hb _ _ _
    · exact ih _ _ r hr

/-- A row from its arcs in stream order. -/
def buildRow (r : Row Dbl) (acc : Row Dbl) : Row Dbl := r.foldl (fun acc x => mmInsert x.1 x.2 acc) acc

/-- One arc put into the table, as `Transducer::read` does it. -/
def putArc (cur : Nat) (m : List (Nat × Row Dbl)) (x : Int × (Nat × Dbl)) : List (Nat × Row Dbl) :=
  mapModify [] cur (mmInsert x.1 x.2) (mapModify [] x.2.1 id m)

theorem readArcs_eq (rw : Bool) (d : Int) (base cur n : Nat) (tb : Int) (m : List (Nat × Row Dbl)) (s : List UInt8) :
    readArcs rw d base cur n tb m s =
      ((parseArcs rw d base cur n tb s).1.foldl (putArc cur) m, (parseArcs rw d base cur n tb s).2) := by
  induction n generalizing tb m s with
  | zero => rfl
  | succ n ih => simp only [readArcs, parseArcs, ih, List.foldl_cons]; rfl

theorem putArcs_spec (cur : Nat) (r : Row Dbl) (m : List (Nat × Row Dbl)) (hm : SortedKeys m) (r0 : Row Dbl)
    (h0 : mapFind cur m = some r0) :
    SortedKeys (r.foldl (putArc cur) m) ∧ mapFind cur (r.foldl (putArc cur) m) = some (buildRow r r0) ∧
    ∀ k, k ≠ cur → (mapFind k (r.foldl (putArc cur) m) = mapFind k m ∨
      (mapFind k m = none ∧ mapFind k (r.foldl (putArc cur) m) = some [] ∧ ∃ x ∈ r, x.2.1 = k)) := by
  induction r generalizing m r0 with
  | nil => exact ⟨hm, h0, fun k _ => .inl rfl⟩
  | cons x r ih =>
    have s1 : SortedKeys (mapModify [] x.2.1 id m) := sorted_modify hm _ _ _
    have s2 : SortedKeys (putArc cur m x) := sorted_modify s1 _ _ _
    have f1 : ∀ k, mapFind k (mapModify [] x.2.1 id m) = if k = x.2.1 then some ((mapFind x.2.1 m).getD []) else mapFind k m := by
      intro k; rw [mapFind_modify hm]; simp
    have f2 : ∀ k, mapFind k (putArc cur m x) = if k = cur then some (mmInsert x.1 x.2 r0) else
        if k = x.2.1 then some ((mapFind x.2.1 m).getD []) else mapFind k m := by
      intro k
      unfold putArc
      rw [mapFind_modify s1, f1 cur]
      by_cases hk : k = cur
      · by_cases hc : cur = x.2.1
        · simp [hk, hc, hc ▸ h0]
        · simp [hk, hc, h0]
      · simp only [hk, if_false]; exact f1 k
    obtain ⟨i1, i2, i3⟩ := ih (putArc cur m x) s2 (mmInsert x.1 x.2 r0) (by rw [f2]; simp)
    refine ⟨i1, i2, fun k hk => ?_⟩
    have fk := f2 k
    rw [if_neg hk] at fk
    rw [List.foldl_cons]
    rcases i3 k hk with h | ⟨h1, h2, y, hy, h3⟩
    · rw [h, fk]
      by_cases hx : k = x.2.1
      · rw [if_pos hx, ← hx]
        cases hf : mapFind k m with
        | none => exact .inr ⟨rfl, rfl, x, List.mem_cons_self, hx.symm⟩
        | some v => exact .inl rfl
      · rw [if_neg hx]; exact .inl rfl
    · rw [fk] at h1
      by_cases hx : k = x.2.1
      · rw [if_pos hx] at h1; cases h1
      · rw [if_neg hx] at h1
        exact .inr ⟨h1, h2, y, List.mem_cons_of_mem _ hy, h3⟩

/-- The table that `Transducer::read` builds. -/
theorem readRows_spec (rw : Bool) (d : Int) (base : Nat) (n cur : Nat) (hn : cur + n = base) (m : List (Nat × Row Dbl))
    (s : List UInt8) (hm : SortedKeys m) (h1 : ∀ k, cur ≤ k → (mapFind k m).getD [] = [])
    (h2 : ∀ k, base ≤ k → mapFind k m = none) :
    let p := parseRows rw d base n cur s
    ∃ m', readRows rw d base n cur m s = (m', p.2) ∧ SortedKeys m' ∧
      (∀ k r, k < cur → mapFind k m = some r → mapFind k m' = some r) ∧
      (∀ i r, p.1[i]? = some r → mapFind (cur + i) m' = some (buildRow r [])) ∧
      (∀ k, base ≤ k → mapFind k m' = none) := by
  intro p
  induction n generalizing cur m s with
  | zero => exact ⟨m, rfl, hm, fun k r _ h => h, by simp [p, parseRows], h2⟩
  | succ n ih =>
    have hb : 0 < base := by omega
    set k0 := (multibyteRead s).1
    set s1 := (multibyteRead s).2
    have hs1 : SortedKeys (mapModify [] cur id m) := sorted_modify hm _ _ _
    have hf : ∀ k, mapFind k (mapModify [] cur id m) = if k = cur then some [] else mapFind k m := by
      intro k; rw [mapFind_modify hm]; by_cases hk : k = cur
      · simp [hk, h1 cur (le_refl _)]
      · simp [hk]
    set r := (parseArcs rw d base cur k0.toNat 0 s1).1
    set s2 := (parseArcs rw d base cur k0.toNat 0 s1).2
    obtain ⟨g1, g2, g3⟩ := putArcs_spec cur r (mapModify [] cur id m) hs1 [] (by rw [hf]; simp)
    obtain ⟨m', j1, j2, j3, j4, j5⟩ := ih (cur + 1) (by omega) (r.foldl (putArc cur) (mapModify [] cur id m)) s2 g1
      (by
        intro k hk
        rcases g3 k (by omega) with h | ⟨_, h, _⟩
        · rw [h, hf, if_neg (by omega)]; exact h1 k (by omega)
        · rw [h]; rfl)
      (by
        intro k hk
        rcases g3 k (by omega) with h | ⟨_, _, x, hx, h⟩
        · rw [h, hf, if_neg (by omega)]; exact h2 k hk
        · have := parseArcs_target rw d base cur hb _ _ _ x hx
          omega)
    refine ⟨m', ?_, j2, ?_, ?_, j5⟩
    · simp only [readRows, readArcs_eq]
      exact j1
    · intro k r' hk hr'
      refine j3 k r' (by omega) ?_
      rcases g3 k (by omega) with h | ⟨h, _, _⟩
      · rw [h, hf, if_neg (by omega)]; exact hr'
      · rw [hf, if_neg (by omega)] at h; rw [h] at hr'; cases hr'
    · intro i r' hi
      cases i with
      | zero =>
        simp only [p, parseRows, List.getElem?_cons_zero, Option.some.injEq] at hi
        rw [← hi]
        exact j3 cur _ (by omega) g2
      | succ i =>
        simp only [p, parseRows, List.getElem?_cons_succ] at hi
        have := j4 i r' hi
        rwa [show cur + 1 + i = cur + (i + 1) by omega] at this

/-- `Transducer::read` in terms of the parse. -/
theorem read_spec (d : Int) (s : List UInt8) (t : Transducer Dbl) (rest : List UInt8) (h : read d s = .ok (t, rest)) :
    ∃ rw s0, readHeaderT s = .ok (rw, s0) ∧
      t.initial = (multibyteRead s0).1.toNat ∧
      let s1 := (multibyteRead s0).2
      let f := readFinals rw (multibyteRead s1).1.toNat 0 [] (multibyteRead s1).2
      let b := (multibyteRead f.2).1.toNat
      let p := parseRows rw d b b 0 (multibyteRead f.2).2
      t.finals = f.1 ∧ p.2 = rest ∧ SortedKeys t.transitions ∧ t.transitions.map (·.1) = List.range b ∧
      ∀ i r, p.1[i]? = some r → mapFind i t.transitions = some (buildRow r []) := by
  unfold read at h
  obtain ⟨⟨rw, s0⟩, h1, h2⟩ := Res.bind_eq_ok.1 h
  refine ⟨rw, s0, h1, ?_⟩
  simp only at h2
  set s1 := (multibyteRead s0).2
  set f := readFinals rw (multibyteRead s1).1.toNat 0 [] (multibyteRead s1).2
  set b := (multibyteRead f.2).1.toNat
  set p := parseRows rw d b b 0 (multibyteRead f.2).2
  obtain ⟨m', j1, j2, _, j4, j5⟩ := readRows_spec rw d b b 0 (by omega) [] (multibyteRead f.2).2 List.Pairwise.nil
    (by simp [mapFind]) (by simp [mapFind])
  rw [j1] at h2
  simp only [Res.pure_eq, Res.ok.injEq, Prod.mk.injEq] at h2
  obtain ⟨rfl, rfl⟩ := h2
  have j4' : ∀ i r, p.1[i]? = some r → mapFind i m' = some (buildRow r []) := by
    intro i r hi; have := j4 i r hi; rwa [Nat.zero_add] at this
  refine ⟨rfl, rfl, rfl, j2, ?_, j4'⟩
  have hk : (m'.map (·.1)).Pairwise (· < ·) := by
    rw [List.pairwise_map]; exact j2
  refine List.Perm.eq_of_pairwise (le := fun (x y : Nat) => x < y) ?_ hk List.pairwise_lt_range ?_
  · intro x y _ _ hab hba; omega
  · rw [List.perm_ext_iff_of_nodup (hk.imp fun h => ne_of_lt h) List.nodup_range]
    intro k
    rw [← mapFind_isSome_iff, List.mem_range]
    constructor
    · intro hk
      by_contra hn
      rw [j5 k (Nat.le_of_not_lt hn)] at hk
      cases hk
    · intro hk
      have hl : p.1.length = b := parseRows_length _ _ _ _ _ _
      rw [j4' k _ (List.getElem?_eq_getElem (lt_of_lt_of_eq hk hl.symm))]; rfl

/-- `Transducer::read` fails only by an unknown feature or inside the feature word. -/
theorem read_ok_iff (d : Int) (s : List UInt8) :
    (∃ r, read d s = .ok r) ↔ ∃ x, readHeaderT s = .ok x := by
  unfold read
  cases h : readHeaderT s with
  | ok x => simp
  | _ => simp

/-! ## Parsing what was written -/

theorem mbi_read {i : Int} {bs : List UInt8} (h : mbi i = .ok bs) :
    (UInt32.ofInt i).toNat < 2 ^ 30 ∧ ∀ rest, multibyteRead (bs ++ rest) = (UInt32.ofInt i, rest) := by
  have hb : multibyteWrite (UInt32.ofInt i) = some bs := by
    unfold mbi mbw at h
    split at h
    · rename_i e; cases h; exact e
    · cases h
  have hl := (multibyteWrite_isSome _).1 ⟨bs, hb⟩
  obtain ⟨bs', h1, h2⟩ := C01_multibyte_roundtrip _ hl
  rw [hb] at h1; cases h1
  exact ⟨hl, fun rest => (h2 rest).1⟩

theorem mbi_read_nat {n : Nat} (hn : n < 2 ^ 32) {bs : List UInt8} (h : mbi n = .ok bs) :
    (UInt32.ofInt (n : Int)).toNat = n ∧ ∀ rest, multibyteRead (bs ++ rest) = (UInt32.ofInt (n : Int), rest) := by
  refine ⟨?_, (mbi_read h).2⟩
  rw [ofInt_natCast, UInt32.toNat_ofNat']
  exact Nat.mod_eq_of_lt hn

/-- Only the process exits can go wrong in the writer. -/
theorem mbi_cases (i : Int) : (∃ bs, mbi i = .ok bs) ∨ mbi i = .exit := by
  unfold mbi mbw
  split
  · exact .inl ⟨_, rfl⟩
  · exact .inr rfl

/-- The differences between labels that the writer forms are writable. -/
def Gaps (d : Int) : Int → Row Dbl → Prop
  | _, [] => True
  | tb, x :: r => 0 ≤ x.1 - tb + d ∧ x.1 - tb + d < 2 ^ 30 ∧ Gaps d x.1 r

/-- A row with weights cut to what the format keeps. -/
def cutRow (r : Row Dbl) : Row Dbl := r.map fun x => (x.1, (x.2.1, cut30 x.2.2))

theorem label_back (tb c d : Int) (h1 : -2 ^ 31 ≤ c) (h2 : c < 2 ^ 31) :
    toInt32 (UInt32.ofInt tb + UInt32.ofInt (c - tb + d) - UInt32.ofInt d) = c := by
  have e : UInt32.ofInt tb + UInt32.ofInt (c - tb + d) = UInt32.ofInt c + UInt32.ofInt d := by
    rw [← UInt32.ofInt_add, ← UInt32.ofInt_add]; congr 1; omega
  rw [e, UInt32.add_sub_cancel, toInt32_ofInt c h1 h2]

theorem arcs_roundtrip (ww : Bool) (d : Int) (base q : Nat) (hb : base ≤ 2 ^ 31) (hq : q < base) (r : Row Dbl) (tb : Int)
    (ht : ∀ x ∈ r, x.2.1 < base ∧ -2 ^ 31 ≤ x.1 ∧ x.1 < 2 ^ 31)
    (hw : ∀ x ∈ r, x.2.2.Normal ∧ (ww = false → x.2.2 = 0)) (bs : List UInt8) (h : writeArcs ww d base q tb r = .ok bs)
    (rest : List UInt8) : parseArcs ww d base q r.length tb (bs ++ rest) = (cutRow r, rest) := by
  induction r generalizing tb bs with
  | nil => cases h; rfl
  | cons x r ih =>
    obtain ⟨c, p, w⟩ := x
    obtain ⟨hp, g3, g4⟩ := ht (c, (p, w)) List.mem_cons_self
    simp only at hp g3 g4
    have hw' := hw (c, (p, w)) List.mem_cons_self
    simp only [writeArcs] at h
    obtain ⟨b1, e1, h⟩ := Res.bind_eq_ok.1 h
    obtain ⟨b2, e2, h⟩ := Res.bind_eq_ok.1 h
    obtain ⟨b3, e3, h⟩ := Res.bind_eq_ok.1 h
    obtain ⟨b4, e4, h⟩ := Res.bind_eq_ok.1 h
    cases h
    have ev : (if q ≤ p then (p : Int) - q else p + base - q) = ((if q ≤ p then p - q else p + base - q : Nat) : Int) := by
      split <;> omega
    rw [ev] at e2
    obtain ⟨n2, r2⟩ := mbi_read_nat (by split <;> omega) e2
    have r1 := (mbi_read e1).2
    obtain ⟨b3', e3', r3⟩ := wField_ok ww w hw'.1 hw'.2
    rw [e3] at e3'; cases e3'
    have r4 := ih c (fun y hy => ht y (List.mem_cons_of_mem _ hy)) (fun y hy => hw y (List.mem_cons_of_mem _ hy)) b4 e4
    have hs : (q + (if q ≤ p then p - q else p + base - q)) % base = p := by
      split
      · rw [show q + (p - q) = p by omega]; exact Nat.mod_eq_of_lt hp
      · rw [show q + (p + base - q) = p + base by omega, Nat.add_mod_right]; exact Nat.mod_eq_of_lt hp
    simp only [List.length_cons, parseArcs, List.append_assoc, r1, r2, r3, label_back tb c d g3 g4, r4, n2, hs]
    rfl

theorem arcs_written (ww : Bool) (d : Int) (base q : Nat) (hb : base < 2 ^ 30) (hq : q < base) (r : Row Dbl) (tb : Int)
    (hg : Gaps d tb r) (ht : ∀ x ∈ r, x.2.1 < base) (hw : ∀ x ∈ r, x.2.2.Normal ∧ (ww = false → x.2.2 = 0)) :
    ∃ bs, writeArcs ww d base q tb r = .ok bs := by
  induction r generalizing tb with
  | nil => exact ⟨[], rfl⟩
  | cons x r ih =>
    obtain ⟨c, p, w⟩ := x
    obtain ⟨g1, g2, g5⟩ := hg
    simp only at g1 g2 g5
    have hp : p < base := ht (c, (p, w)) List.mem_cons_self
    have hw' := hw (c, (p, w)) List.mem_cons_self
    obtain ⟨b1, e1, -⟩ := mbi_ok (c - tb + d) g1 g2
    obtain ⟨b2, e2, -⟩ := mbi_ok (if q ≤ p then (p : Int) - q else p + base - q) (by split <;> omega) (by split <;> omega)
    obtain ⟨b3, e3, -⟩ := wField_ok ww w hw'.1 hw'.2
    obtain ⟨b4, e4⟩ := ih c g5 (fun y hy => ht y (List.mem_cons_of_mem _ hy))
      (fun y hy => hw y (List.mem_cons_of_mem _ hy))
    exact ⟨b1 ++ b2 ++ b3 ++ b4, by simp only [writeArcs, e1, e2, e3, e4, Res.bind_ok, Res.pure_eq]⟩

theorem arcs_exit (ww : Bool) (d : Int) (base q : Nat) (r : Row Dbl) (tb : Int)
    (hw : ∀ x ∈ r, x.2.2.Normal ∧ (ww = false → x.2.2 = 0)) :
    (∃ bs, writeArcs ww d base q tb r = .ok bs) ∨ writeArcs ww d base q tb r = .exit := by
  induction r generalizing tb with
  | nil => exact .inl ⟨[], rfl⟩
  | cons x r ih =>
    obtain ⟨c, p, w⟩ := x
    have hw' := hw (c, (p, w)) List.mem_cons_self
    simp only [writeArcs]
    obtain ⟨b3, e3, -⟩ := wField_ok ww w hw'.1 hw'.2
    rcases mbi_cases (c - tb + d) with ⟨b1, e1⟩ | e1 <;> rw [e1]
    · rcases mbi_cases (if q ≤ p then (p : Int) - q else p + base - q) with ⟨b2, e2⟩ | e2 <;> rw [e2]
      · rcases ih c (fun y hy => hw y (List.mem_cons_of_mem _ hy)) with ⟨b4, e4⟩ | e4 <;> rw [e3, e4]
        · exact .inl ⟨_, rfl⟩
        · exact .inr rfl
      · exact .inr rfl
    · exact .inr rfl

/-- What the writer needs to know about a row to be exact. -/
def RowFits (ww : Bool) (base : Nat) (r : Row Dbl) : Prop :=
  r.length < 2 ^ 32 ∧ (∀ x ∈ r, x.2.1 < base ∧ -2 ^ 31 ≤ x.1 ∧ x.1 < 2 ^ 31) ∧
  ∀ x ∈ r, x.2.2.Normal ∧ (ww = false → x.2.2 = 0)

theorem rows_roundtrip (ww : Bool) (d : Int) (base : Nat) (hb : base ≤ 2 ^ 31) (m : List (Nat × Row Dbl)) (cur : Nat)
    (hk : m.map (·.1) = List.range' cur m.length) (hc : cur + m.length = base)
    (hm : ∀ e ∈ m, RowFits ww base e.2) (bs : List UInt8) (h : writeRows ww d base m = .ok bs) (rest : List UInt8) :
    parseRows ww d base m.length cur (bs ++ rest) = (m.map (fun e => cutRow e.2), rest) := by
  induction m generalizing cur bs with
  | nil => cases h; rfl
  | cons e m ih =>
    obtain ⟨q, r⟩ := e
    simp only [List.map_cons, List.length_cons, List.range'_succ, List.cons.injEq] at hk hc
    obtain ⟨rfl, hk⟩ := hk
    obtain ⟨h1, h2, h3⟩ := hm (q, r) List.mem_cons_self
    simp only at h1 h2 h3
    simp only [writeRows] at h
    obtain ⟨b1, e1, h⟩ := Res.bind_eq_ok.1 h
    obtain ⟨b2, e2, h⟩ := Res.bind_eq_ok.1 h
    obtain ⟨b3, e3, h⟩ := Res.bind_eq_ok.1 h
    cases h
    obtain ⟨n1, r1⟩ := mbi_read_nat h1 e1
    have r2 := arcs_roundtrip ww d base q hb (by omega) r 0 h2 h3 b2 e2
    have r3 := ih (q + 1) hk (by omega) (fun e he => hm e (List.mem_cons_of_mem _ he)) b3 e3
    simp only [List.length_cons, parseRows, List.append_assoc, r1, n1, r2, r3]
    rfl

theorem rows_written (ww : Bool) (d : Int) (base : Nat) (hb : base < 2 ^ 30) (m : List (Nat × Row Dbl))
    (hm : ∀ e ∈ m, e.1 < base ∧ e.2.length < 2 ^ 30 ∧ Gaps d 0 e.2 ∧ RowFits ww base e.2) :
    ∃ bs, writeRows ww d base m = .ok bs := by
  induction m with
  | nil => exact ⟨[], rfl⟩
  | cons e m ih =>
    obtain ⟨q, r⟩ := e
    obtain ⟨h1, h2, h3, h4⟩ := hm (q, r) List.mem_cons_self
    simp only at h1 h2 h3 h4
    obtain ⟨b1, e1, -⟩ := mbi_ok (r.length : Int) (by omega) (by omega)
    obtain ⟨b2, e2⟩ := arcs_written ww d base q hb h1 r 0 h3 (fun x hx => (h4.2.1 x hx).1) h4.2.2
    obtain ⟨b3, e3⟩ := ih (fun e he => hm e (List.mem_cons_of_mem _ he))
    exact ⟨b1 ++ b2 ++ b3, by simp only [writeRows, e1, e2, e3, Res.bind_ok, Res.pure_eq]⟩

theorem rows_exit (ww : Bool) (d : Int) (base : Nat) (m : List (Nat × Row Dbl)) (hm : ∀ e ∈ m, RowFits ww base e.2) :
    (∃ bs, writeRows ww d base m = .ok bs) ∨ writeRows ww d base m = .exit := by
  induction m with
  | nil => exact .inl ⟨[], rfl⟩
  | cons e m ih =>
    obtain ⟨q, r⟩ := e
    have h4 := hm (q, r) List.mem_cons_self
    simp only [writeRows]
    rcases mbi_cases (r.length : Int) with ⟨b1, e1⟩ | e1 <;> rw [e1]
    · rcases arcs_exit ww d base q r 0 h4.2.2 with ⟨b2, e2⟩ | e2 <;> rw [Res.bind_ok, e2]
      · rcases ih (fun e he => hm e (List.mem_cons_of_mem _ he)) with ⟨b3, e3⟩ | e3 <;> rw [Res.bind_ok, e3]
        · exact .inl ⟨_, rfl⟩
        · exact .inr rfl
      · exact .inr rfl
    · exact .inr rfl

theorem finals_roundtrip (ww : Bool) (fs : List (Nat × Dbl)) (base : Nat) (n : Nat) (hn : n ≤ 2 ^ 31)
    (hs : SortedKeys fs) (hb : ∀ e ∈ fs, base ≤ e.1 ∧ e.1 < n)
    (hw : ∀ e ∈ fs, e.2.Normal ∧ (ww = false → e.2 = 0)) (bs : List UInt8) (h : writeFinals ww base fs = .ok bs)
    (m : List (Nat × Dbl)) (rest : List UInt8) (hm : ∀ e ∈ fs, ∀ x ∈ m, x.1 < e.1) :
    readFinals ww fs.length (UInt32.ofNat base) m (bs ++ rest) = (m ++ fs.map (fun e => (e.1, cut30 e.2)), rest) := by
  induction fs generalizing base m bs with
  | nil => cases h; simp [readFinals]
  | cons e fs ih =>
    obtain ⟨q, w⟩ := e
    have hq := hb (q, w) List.mem_cons_self
    simp only at hq
    obtain ⟨hs1, hs2⟩ := List.pairwise_cons.1 hs
    simp only [writeFinals] at h
    obtain ⟨b1, e1, h⟩ := Res.bind_eq_ok.1 h
    obtain ⟨b2, e2, h⟩ := Res.bind_eq_ok.1 h
    obtain ⟨b3, e3, h⟩ := Res.bind_eq_ok.1 h
    cases h
    have r1 := (mbi_read e1).2
    obtain ⟨hw1, hw2⟩ := hw (q, w) List.mem_cons_self
    obtain ⟨b2', e2', r2⟩ := wField_ok ww w hw1 hw2
    rw [e2] at e2'; cases e2'
    have r3 := ih q hs2 (fun e he => ⟨Nat.le_of_lt (hs1 e he), (hb e (List.mem_cons_of_mem _ he)).2⟩)
      (fun e he => hw e (List.mem_cons_of_mem _ he)) b3 e3
    have hsum : UInt32.ofNat base + UInt32.ofInt ((q : Int) - base) = UInt32.ofNat q := by
      rw [← ofInt_natCast, ← ofInt_natCast, ← UInt32.ofInt_add]; congr 1; omega
    have hqn : (UInt32.ofNat q).toNat = q := by
      rw [UInt32.toNat_ofNat']; exact Nat.mod_eq_of_lt (by omega)
    have hins : mapInsert q (cut30 w) m = m ++ [(q, cut30 w)] :=
      Serialiser.mapInsert_last (fun a b hab hba => by omega) q _ m (fun x hx => hm (q, w) List.mem_cons_self x hx)
    simp only [List.length_cons, readFinals, List.append_assoc, r1, r2, hsum, hqn, hins]
    rw [r3 _ (by
      intro e he x hx
      rcases List.mem_append.1 hx with hx | hx
      · exact hm e (List.mem_cons_of_mem _ he) x hx
      · simp only [List.mem_singleton] at hx; rw [hx]; exact hs1 e he)]
    simp

theorem finals_written (ww : Bool) (fs : List (Nat × Dbl)) (base : Nat) (n : Nat) (hn : n < 2 ^ 30)
    (hs : SortedKeys fs) (hb : ∀ e ∈ fs, base ≤ e.1 ∧ e.1 < n)
    (hw : ∀ e ∈ fs, e.2.Normal ∧ (ww = false → e.2 = 0)) : ∃ bs, writeFinals ww base fs = .ok bs := by
  induction fs generalizing base with
  | nil => exact ⟨[], rfl⟩
  | cons e fs ih =>
    obtain ⟨q, w⟩ := e
    have hq := hb (q, w) List.mem_cons_self
    simp only at hq
    obtain ⟨hs1, hs2⟩ := List.pairwise_cons.1 hs
    obtain ⟨b1, e1, -⟩ := mbi_ok ((q : Int) - base) (by omega) (by omega)
    obtain ⟨hw1, hw2⟩ := hw (q, w) List.mem_cons_self
    obtain ⟨b2, e2, -⟩ := wField_ok ww w hw1 hw2
    obtain ⟨b3, e3⟩ := ih q hs2 (fun e he => ⟨Nat.le_of_lt (hs1 e he), (hb e (List.mem_cons_of_mem _ he)).2⟩)
      (fun e he => hw e (List.mem_cons_of_mem _ he))
    exact ⟨b1 ++ b2 ++ b3, by simp only [writeFinals, e1, e2, e3, Res.bind_ok, Res.pure_eq]⟩

theorem finals_exit (ww : Bool) (fs : List (Nat × Dbl)) (base : Int)
    (hw : ∀ e ∈ fs, e.2.Normal ∧ (ww = false → e.2 = 0)) :
    (∃ bs, writeFinals ww base fs = .ok bs) ∨ writeFinals ww base fs = .exit := by
  induction fs generalizing base with
  | nil => exact .inl ⟨[], rfl⟩
  | cons e fs ih =>
    obtain ⟨q, w⟩ := e
    obtain ⟨hw1, hw2⟩ := hw (q, w) List.mem_cons_self
    obtain ⟨b2, e2, -⟩ := wField_ok ww w hw1 hw2
    simp only [writeFinals]
    rcases mbi_cases ((q : Int) - base) with ⟨b1, e1⟩ | e1 <;> rw [e1]
    · rw [Res.bind_ok, e2, Res.bind_ok]
      rcases ih q (fun e he => hw e (List.mem_cons_of_mem _ he)) with ⟨b3, e3⟩ | e3 <;> rw [e3]
      · exact .inl ⟨_, rfl⟩
      · exact .inr rfl
    · exact .inr rfl

theorem gaps_of_sorted (d : Int) (hd : 0 ≤ d) (r : Row Dbl) (hs : SortedRow r) (hr : ∀ x ∈ r, -d ≤ x.1 ∧ x.1 + 2 * d < 2 ^ 30)
    (tb : Int) (htb : (∀ x ∈ r, tb ≤ x.1) ∧ -d ≤ tb ∨ tb = 0) : Gaps d tb r := by
  induction r generalizing tb with
  | nil => trivial
  | cons x r ih =>
    obtain ⟨s1, s2⟩ := List.pairwise_cons.1 hs
    obtain ⟨h1, h2⟩ := hr x List.mem_cons_self
    refine ⟨?_, ?_, ih s2 (fun y hy => hr y (List.mem_cons_of_mem _ hy)) x.1 (.inl ⟨s1, h1⟩)⟩
    · rcases htb with ⟨h, _⟩ | h
      · have := h x List.mem_cons_self; omega
      · omega
    · rcases htb with ⟨_, h⟩ | h
      · omega
      · omega

theorem buildRow_sorted (r : Row Dbl) (hs : SortedRow r) : buildRow r [] = r := by
  have := Serialiser.foldl_mmInsert r [] (List.Pairwise.imp (fun h => not_lt.2 h) hs)
  simpa [buildRow] using this

theorem length_le_of_lt {ν : Type} (fs : List (Nat × ν)) (hs : SortedKeys fs) (n : Nat) (h : ∀ e ∈ fs, e.1 < n) :
    fs.length ≤ n := by
  have hp : (fs.map (·.1)).Pairwise (· < ·) := by rw [List.pairwise_map]; exact hs
  have hnd : (fs.map (·.1)).Nodup := hp.imp fun h => ne_of_lt h
  have := (hnd.subperm (l₂ := List.range n) (by
    intro k hk
    obtain ⟨e, he, rfl⟩ := List.mem_map.1 hk
    exact List.mem_range.2 (h e he))).length_le
  simpa using this

/-! ## The run-time loader -/

/-- One arc put into a node. -/
def putNode (a : Alphabet) (nd : Node) (x : Int × (Nat × Dbl)) : Node :=
  addTransition (pairOf a x.1).1 (pairOf a x.1).2 x.2.1 x.2.2 nd

theorem exeArcs_ok (rw : Bool) (a : Alphabet) (base cur n : Nat) (tb : Int) (nd : Node) (s : List UInt8)
    (h : ∀ x ∈ (parseArcs rw 0 base cur n tb s).1, ∃ pr, HasPair a x.1 pr) :
    exeArcs rw a base cur n tb nd s =
      .ok ((parseArcs rw 0 base cur n tb s).1.foldl (putNode a) nd, (parseArcs rw 0 base cur n tb s).2) := by
  induction n generalizing tb nd s with
  | zero => rfl
  | succ n ih =>
    have e : ∀ u v : UInt32, u + v - UInt32.ofInt 0 = u + v := fun u v => UInt32.sub_zero _
    simp only [parseArcs, e] at h
    obtain ⟨pr, hpr⟩ := h _ List.mem_cons_self
    simp only [exeArcs, decode_iff.2 hpr, Res.bind_ok]
    rw [ih _ _ _ (fun x hx => h x (List.mem_cons_of_mem _ hx))]
    simp only [parseArcs, e, List.foldl_cons, putNode, pairOf_eq hpr]

theorem exeArcs_fail (rw : Bool) (a : Alphabet) (base cur n : Nat) (tb : Int) (nd : Node) (s : List UInt8) :
    (∀ x ∈ (parseArcs rw 0 base cur n tb s).1, ∃ pr, HasPair a x.1 pr) ∨ exeArcs rw a base cur n tb nd s = .ub := by
  induction n generalizing tb nd s with
  | zero => exact .inl (by simp [parseArcs])
  | succ n ih =>
    have e : ∀ u v : UInt32, u + v - UInt32.ofInt 0 = u + v := fun u v => UInt32.sub_zero _
    simp only [exeArcs, parseArcs, e]
    cases hd : a.decode (toInt32 (UInt32.ofInt tb + (multibyteRead s).1)) with
    | ok pr =>
      rw [Res.bind_ok]
      rcases ih (toInt32 (UInt32.ofInt tb + (multibyteRead s).1)) (addTransition pr.1 pr.2
        ((cur + (multibyteRead (multibyteRead s).2).1.toNat) % base) (readW rw (multibyteRead (multibyteRead s).2).2).1 nd)
        (readW rw (multibyteRead (multibyteRead s).2).2).2 with h | h
      · refine .inl fun x hx => ?_
        rcases List.mem_cons.1 hx with rfl | hx
        · exact ⟨pr, decode_iff.1 hd⟩
        · exact h x hx
      · exact .inr h
    | ub => exact .inr rfl
    | exit => unfold Alphabet.decode at hd; (repeat' split at hd) <;> cases hd
    | exception => unfold Alphabet.decode at hd; (repeat' split at hd) <;> cases hd

theorem exeRows_ok (rw : Bool) (a : Alphabet) (base n cur : Nat) (s : List UInt8)
    (h : ∀ r ∈ (parseRows rw 0 base n cur s).1, ∀ x ∈ r, ∃ pr, HasPair a x.1 pr) :
    exeRows rw a base n cur s =
      .ok ((parseRows rw 0 base n cur s).1.map (fun r => r.foldl (putNode a) []), (parseRows rw 0 base n cur s).2) := by
  induction n generalizing cur s with
  | zero => rfl
  | succ n ih =>
    simp only [parseRows] at h
    simp only [exeRows, parseRows]
    rw [exeArcs_ok rw a base cur _ _ _ _ (fun x hx => h _ List.mem_cons_self x hx), Res.bind_ok,
      ih _ _ (fun r hr => h r (List.mem_cons_of_mem _ hr)), Res.bind_ok]
    rfl

theorem exeRows_fail (rw : Bool) (a : Alphabet) (base n cur : Nat) (s : List UInt8) :
    (∀ r ∈ (parseRows rw 0 base n cur s).1, ∀ x ∈ r, ∃ pr, HasPair a x.1 pr) ∨ exeRows rw a base n cur s = .ub := by
  induction n generalizing cur s with
  | zero => exact .inl (by simp [parseRows])
  | succ n ih =>
    simp only [exeRows, parseRows]
    rcases exeArcs_fail rw a base cur (multibyteRead s).1.toNat 0 [] (multibyteRead s).2 with h | h
    · rw [exeArcs_ok rw a base cur _ _ _ _ h, Res.bind_ok]
      rcases ih (cur + 1) (parseArcs rw 0 base cur (multibyteRead s).1.toNat 0 (multibyteRead s).2).2 with g | g
      · refine .inl fun r hr => ?_
        rcases List.mem_cons.1 hr with rfl | hr
        · exact h
        · exact g r hr
      · rw [g]; exact .inr rfl
    · rw [h]; exact .inr rfl

/-- What an arc contributes to the destinations of the input symbol `i`. -/
def destOf (a : Alphabet) (i : Int) (x : Int × (Nat × Dbl)) : Option (Int × Nat × Dbl) :=
  if (pairOf a x.1).1 = i then some ((pairOf a x.1).2, x.2.1, x.2.2) else none

theorem putNodes_spec (a : Alphabet) (r : Row Dbl) (nd : Node) (hs : SortedKeys nd) :
    SortedKeys (r.foldl (putNode a) nd) ∧
    ∀ i, (mapFind i (r.foldl (putNode a) nd)).getD [] = (mapFind i nd).getD [] ++ r.filterMap (destOf a i) := by
  induction r generalizing nd with
  | nil => exact ⟨hs, by simp⟩
  | cons x r ih =>
    have h1 : SortedKeys (putNode a nd x) := sorted_modify hs _ _ _
    obtain ⟨j1, j2⟩ := ih _ h1
    refine ⟨j1, fun i => ?_⟩
    rw [List.foldl_cons, j2 i]
    unfold putNode addTransition
    rw [mapFind_modify hs]
    by_cases hi : i = (pairOf a x.1).1
    · subst hi; simp [destOf]
    · have : ¬ (pairOf a x.1).1 = i := fun h => hi h.symm
      simp [hi, destOf, this]

theorem mmInsert_perm {κ ν : Type} [LT κ] [DecidableLT κ] (k : κ) (v : ν) (l : List (κ × ν)) :
    (mmInsert k v l).Perm ((k, v) :: l) := by
  induction l with
  | nil => exact List.Perm.refl _
  | cons e l ih =>
    simp only [mmInsert]
    split
    · exact List.Perm.refl _
    · exact (List.Perm.cons _ ih).trans (List.Perm.swap _ _ _)

theorem buildRow_perm (r acc : Row Dbl) : (buildRow r acc).Perm (r ++ acc) := by
  induction r generalizing acc with
  | nil => exact List.Perm.refl _
  | cons x r ih =>
    refine (ih _).trans ?_
    refine ((mmInsert_perm x.1 x.2 acc).append_left r).trans ?_
    exact List.perm_middle

end Verif.BinIO
