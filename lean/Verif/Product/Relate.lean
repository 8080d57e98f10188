import Verif.Product.Run
import Mathlib.Algebra.Group.Basic
import Mathlib.Tactic.Abel

/-! # Strings related by a product -/

namespace Verif.Product

open Verif.Fst Verif.Alphabet

variable {W : Type}

/-- One more symbol, unless it is the empty one. -/
def cons0 (x : Int) (xs : List Int) : List Int := if x = 0 then xs else x :: xs

@[simp] theorem cons0_zero (xs : List Int) : cons0 0 xs = xs := rfl

theorem cons0_ne {x : Int} (h : x ≠ 0) (xs : List Int) : cons0 x xs = x :: xs := if_neg h

theorem cons0_append (x : Int) (xs ys : List Int) : cons0 x xs ++ ys = cons0 x (xs ++ ys) := by
  unfold cons0; split <;> rfl

/-- Runs over arcs with an input and an output symbol. -/
inductive Tr {S : Type} [AddMonoid W] (E : S → Int → Int → W → S → Prop) : S → List Int → List Int → W → S → Prop
  | nil (q : S) : Tr E q [] [] 0 q
  | cons {q r p : S} {x y : Int} {w v : W} {xs ys : List Int} : E q x y w r → Tr E r xs ys v p → Tr E q (cons0 x xs) (cons0 y ys) (w + v) p

/-- The arcs of a transducer, with the sides swapped if `inverted`. -/
def dir (inverted : Bool) (a : Alphabet) (t : Transducer W) (q : Nat) (x y : Int) (w : W) (p : Nat) : Prop :=
  PairEdge a t q (mk inverted x y, w) p

def inp (inverted : Bool) (l : Pair × W) : Int := if inverted then l.1.2 else l.1.1
def out (inverted : Bool) (l : Pair × W) : Int := if inverted then l.1.1 else l.1.2

theorem mk_inp_out (inverted : Bool) (l : Pair × W) : mk inverted (inp inverted l) (out inverted l) = l.1 := by
  cases inverted <;> rfl

@[simp] theorem inp_mk (inverted : Bool) (x y : Int) (w : W) : inp inverted (mk inverted x y, w) = x := by cases inverted <;> rfl
@[simp] theorem out_mk (inverted : Bool) (x y : Int) (w : W) : out inverted (mk inverted x y, w) = y := by cases inverted <;> rfl

theorem filter_cons0 {α : Type} (g : α → Int) (l : α) (ls : List α) :
    ((l :: ls).map g).filter (· ≠ 0) = cons0 (g l) ((ls.map g).filter (· ≠ 0)) := by
  unfold cons0
  by_cases h : g l = 0 <;> simp [h]

section
variable [AddMonoid W]

theorem tr_path {inverted : Bool} {a : Alphabet} {t : Transducer W} {q p : Nat} {x y : List Int} {w : W} :
    Tr (dir inverted a t) q x y w p ↔ ∃ ls, Path (PairEdge a t) q ls p ∧ x = (ls.map (inp inverted)).filter (· ≠ 0) ∧
      y = (ls.map (out inverted)).filter (· ≠ 0) ∧ w = (ls.map (·.2)).sum := by
  constructor
  · intro h
    induction h with
    | nil q => exact ⟨[], .nil q, rfl, rfl, rfl⟩
    | @cons q r p x y w v xs ys he _ ih =>
      obtain ⟨ls, h1, rfl, rfl, rfl⟩ := ih
      refine ⟨(mk inverted x y, w) :: ls, .cons he h1, ?_, ?_, ?_⟩
      · rw [filter_cons0, inp_mk]
      · rw [filter_cons0, out_mk]
      · simp
  · rintro ⟨ls, h, rfl, rfl, rfl⟩
    induction h with
    | nil q => exact .nil q
    | @cons q r p l ls he _ ih =>
      rw [filter_cons0, filter_cons0, List.map_cons, List.sum_cons]
      refine .cons ?_ ih
      unfold dir
      rw [mk_inp_out]
      exact he

theorem relates_tr {inverted : Bool} {a : Alphabet} {t : Transducer W} {x y : List Int} {w : W} :
    RelatesDir inverted a t x y w ↔ ∃ p u v, Tr (dir inverted a t) t.initial x y u p ∧ Final t p v ∧ w = u + v := by
  have key : RelatesDir inverted a t x y w ↔ ∃ ls v, Spells a t ls v ∧ x = (ls.map (inp inverted)).filter (· ≠ 0) ∧
      y = (ls.map (out inverted)).filter (· ≠ 0) ∧ w = (ls.map (·.2)).sum + v := by
    unfold RelatesDir Relates
    cases inverted
    · exact Iff.rfl
    · constructor
      · rintro ⟨ls, v, h1, h2, h3, h4⟩; exact ⟨ls, v, h1, h3, h2, h4⟩
      · rintro ⟨ls, v, h1, h2, h3, h4⟩; exact ⟨ls, v, h1, h3, h2, h4⟩
  rw [key]
  constructor
  · rintro ⟨ls, v, ⟨p, h1, h2⟩, h3, h4, h5⟩
    exact ⟨p, _, v, tr_path.2 ⟨ls, h1, h3, h4, rfl⟩, h2, h5⟩
  · rintro ⟨p, u, v, h1, h2, h5⟩
    obtain ⟨ls, h6, h3, h4, rfl⟩ := tr_path.1 h1
    exact ⟨ls, v, ⟨p, h6, h2⟩, h3, h4, h5⟩

theorem Tr.append {S : Type} {E : S → Int → Int → W → S → Prop} {q r p : S} {x y x' y' : List Int} {w v : W} (h : Tr E q x y w r) (h' : Tr E r x' y' v p) :
    Tr E q (x ++ x') (y ++ y') (w + v) p := by
  induction h with
  | nil q => simpa using h'
  | cons he _ ih =>
    rw [cons0_append, cons0_append, add_assoc]
    exact .cons he (ih h')

theorem Tr.mono {S : Type} {E E' : S → Int → Int → W → S → Prop} (hE : ∀ q x y w p, E q x y w p → E' q x y w p) {q p : S} {x y : List Int} {w : W}
    (h : Tr E q x y w p) : Tr E' q x y w p := by
  induction h with
  | nil q => exact .nil q
  | cons he _ ih => exact .cons (hE _ _ _ _ _ he) ih

/-! ## Joined final states -/

theorem joined {t : Transducer W} (ht : WF t) (hn : t.finals ≠ []) (a : Alphabet) (ha : Ok a) :
    ∃ t', joinFinals 0 t = .ok t' ∧ WF t' ∧ t'.finals ≠ [] ∧
      (t' = t ∨ ∃ n, n = Fst.size t ∧ ∀ q l p, Edge t' q l p ↔ Edge t q l p ∨ (p = n ∧ l.1 = 0 ∧ Final t q l.2)) ∧
      ∀ inverted x y w, RelatesDir inverted a t' x y w ↔ RelatesDir inverted a t x y w := by
  by_cases h2 : 2 ≤ t.finals.length
  · obtain ⟨t', h1, hwf, hsz, hi, hf, hE⟩ := joinFinals_many ht 0 h2
    have h0 : a.decode 0 = .ok (0, 0) := decode_iff.2 ⟨0, ha.zero, rfl⟩
    refine ⟨t', h1, hwf, by rw [hf]; simp, .inr ⟨_, rfl, hE⟩, ?_⟩
    intro inverted x y w
    have hP : ∀ q l p, PairEdge a t' q l p ↔ PairEdge a t q l p ∨ (p = Fst.size t ∧ (l.1 = (0, 0) ∧ Final t q l.2)) := by
      intro q l p
      unfold PairEdge
      constructor
      · rintro ⟨c, g1, g2⟩
        rcases (hE _ _ _).1 g2 with g2 | ⟨rfl, g2, g3⟩
        · exact .inl ⟨c, g1, g2⟩
        · simp only at g2
          rw [g2, h0] at g1
          exact .inr ⟨rfl, (Res.ok.inj g1).symm, g3⟩
      · rintro (⟨c, g1, g2⟩ | ⟨rfl, g1, g2⟩)
        · exact ⟨c, g1, (hE _ _ _).2 (.inl g2)⟩
        · exact ⟨0, by rw [h0, g1], (hE _ _ _).2 (.inr ⟨rfl, rfl, g2⟩)⟩
    have hinit := ht.initial_lt
    have sink : ∀ ls p, Path (PairEdge a t') t.initial ls p ↔ _ := fun ls p => path_sink (E := PairEdge a t) (E' := PairEdge a t')
      (G := fun q l => l.1 = (0, 0) ∧ Final t q l.2) (n := Fst.size t) hP
      (fun l p ⟨c, _, he⟩ => by have := ht.source_lt he; omega)
      (fun l hl => by have := ht.finals_lt _ _ hl.2; omega)
      (fun q l ⟨c, _, he⟩ => by have := ht.target_lt _ _ _ he; omega) (q := t.initial) (p := p) (ls := ls) (by omega)
    rw [relates_tr, relates_tr]
    constructor
    · rintro ⟨p, u, v, g1, g2, rfl⟩
      have e : p = Fst.size t ∧ v = 0 := by
        unfold Final at g2
        rw [hf] at g2
        simpa using g2
      obtain ⟨ls, k1, rfl, rfl, rfl⟩ := tr_path.1 g1
      rw [hi, sink] at k1
      rcases k1 with ⟨k1, -⟩ | ⟨-, ls0, r, l, k1, ⟨k2, k3⟩, rfl⟩
      · exact absurd e.1 k1
      · refine ⟨r, (ls0.map (·.2)).sum, l.2, tr_path.2 ⟨ls0, k1, ?_, ?_, rfl⟩, k3, ?_⟩
        · simp only [List.map_append, List.filter_append, List.map_cons, List.map_nil]
          have : inp inverted l = 0 := by unfold inp; rw [k2]; cases inverted <;> rfl
          simp [this]
        · simp only [List.map_append, List.filter_append, List.map_cons, List.map_nil]
          have : out inverted l = 0 := by unfold out; rw [k2]; cases inverted <;> rfl
          simp [this]
        · simp [e.2]
    · rintro ⟨p, u, v, g1, g2, rfl⟩
      refine ⟨Fst.size t, u + v, 0, ?_, by unfold Final; rw [hf]; simp, by simp⟩
      obtain ⟨ls, k1, rfl, rfl, rfl⟩ := tr_path.1 g1
      refine tr_path.2 ⟨ls ++ [((0, 0), v)], ?_, ?_, ?_, by simp⟩
      · rw [hi, sink]
        exact .inr ⟨rfl, ls, p, _, k1, ⟨rfl, g2⟩, rfl⟩
      · cases inverted <;> simp [inp]
      · cases inverted <;> simp [out]
  · match hfs : t.finals with
    | [] => exact absurd hfs hn
    | [e] => exact ⟨t, joinFinals_single 0 hfs, ht, hn, .inl rfl, fun _ _ _ _ => Iff.rfl⟩
    | _ :: _ :: _ => rw [hfs] at h2; simp at h2

end

/-! ## The product of two transducers -/

section
variable [AddCommMonoid W] {fa ga : Alphabet} {f g : Transducer W}

theorem meets_ne_zero {a b : Alphabet} {x y : Int} (h : Meets a b x y) (hy : y ≠ 0) : x ≠ 0 := by
  rintro rfl
  rcases h with ⟨n, h1, h2⟩ | ⟨h1, h2⟩ | ⟨h1, h2⟩ | ⟨-, h⟩ | ⟨-, h⟩
  · rcases h1 with ⟨-, rfl⟩ | ⟨h1, -⟩
    · rcases h2 with ⟨h2, h3⟩ | ⟨h2, s, -, h3⟩
      · cases h3; exact hy rfl
      · cases h3
    · omega
  · rw [named_tag] at h1; exact absurd h1.1 (by omega)
  · rw [named_tag] at h1; exact absurd h1.1 (by omega)
  · omega
  · omega

/-- How `g` reads what `f` writes: `y` becomes `z`, both in the alphabet of `f`. -/
inductive GSide (fa ga : Alphabet) (g : Transducer W) (anywhere : Bool) : Nat → List Int → List Int → W → Nat → Prop
  | nil (q : Nat) : GSide fa ga g anywhere q [] [] 0 q
  | eps {q r p : Nat} {z : Int} {w v : W} {ys zs : List Int} : PairEdge ga g q ((0, z), w) r → GSide fa ga g anywhere r ys zs v p →
      GSide fa ga g anywhere q ys (cons0 (tr fa ga z) zs) (w + v) p
  | step {q r p : Nat} {o y z : Int} {w v : W} {ys zs : List Int} : PairEdge ga g q ((y, z), w) r → y ≠ 0 → Meets fa ga o y →
      GSide fa ga g anywhere r ys zs v p → GSide fa ga g anywhere q (o :: ys) (cons0 (tr fa ga z) zs) (w + v) p
  | keep {p : Nat} {o : Int} {v : W} {ys zs : List Int} : anywhere = true → o ≠ 0 → GSide fa ga g anywhere g.initial ys zs v p →
      GSide fa ga g anywhere g.initial (o :: ys) (o :: zs) v p

/-- The arcs of the product with inputs and outputs. -/
def PE (fa ga : Alphabet) (inverted : Bool) (f g : Transducer W) (anywhere : Bool) (n : Two) (x z : Int) (w : W) (m : Two) : Prop :=
  Arc fa ga inverted f g anywhere n (mk inverted x z) w m

theorem mk_inj {inverted : Bool} {x y x' y' : Int} (h : mk inverted x y = mk inverted x' y') : x = x' ∧ y = y' := by
  cases inverted <;> · simp [mk] at h; exact ⟨by tauto, by tauto⟩

theorem product_sound {inverted anywhere : Bool} {n m : Two} {x z : List Int} {w : W} (h : Tr (PE fa ga inverted f g anywhere) n x z w m) :
    ∃ y w1 w2, Tr (dir inverted fa f) (ofLex n).1 x y w1 (ofLex m).1 ∧ GSide fa ga g anywhere (ofLex n).2 y z w2 (ofLex m).2 ∧ w = w1 + w2 := by
  induction h with
  | nil q => exact ⟨[], 0, 0, .nil _, .nil _, by simp⟩
  | @cons q r p x0 z0 w v xs zs he _ ih =>
    obtain ⟨y, w1, w2, h1, h2, rfl⟩ := ih
    rcases he with ⟨z, r', k1, k2, rfl⟩ | ⟨x, o, v', r', k1, ⟨y', z, u, r'', k2, k3, k4, k5, rfl, rfl⟩ | ⟨k2, k3, rfl, rfl⟩⟩
    · obtain ⟨rfl, rfl⟩ := mk_inj k2
      exact ⟨y, w1, w + w2, h1, .eps k1 h2, by abel⟩
    · obtain ⟨rfl, rfl⟩ := mk_inj k5
      refine ⟨o :: y, v' + w1, u + w2, ?_, .step k2 k3 k4 h2, by abel⟩
      rw [← cons0_ne (meets_ne_zero k4 k3)]
      exact .cons k1 h1
    · obtain ⟨rfl, rfl⟩ := mk_inj k3
      by_cases h0 : z0 = 0
      · subst h0
        refine ⟨y, w + w1, w2, ?_, h2, by abel⟩
        exact .cons (y := 0) k1 h1
      · rcases k2 with ⟨k2, k4⟩ | k2
        · refine ⟨z0 :: y, w + w1, w2, ?_, ?_, by abel⟩
          · rw [← cons0_ne h0]; exact .cons k1 h1
          · rw [cons0_ne h0, k4]
            refine .keep k2 h0 ?_
            rw [← k4]; exact h2
        · exact absurd k2 h0

theorem product_complete {inverted anywhere : Bool} {p p' q q' : Nat} {x y z : List Int} {w1 w2 : W}
    (h : Tr (dir inverted fa f) p x y w1 p') (h' : GSide fa ga g anywhere q y z w2 q') :
    Tr (PE fa ga inverted f g anywhere) (two p q) x z (w1 + w2) (two p' q') := by
  induction h generalizing q z w2 with
  | nil p =>
    generalize hy : ([] : List Int) = y at h'
    induction h' with
    | nil q => simpa using Tr.nil (E := PE fa ga inverted f g anywhere) (two p q)
    | @eps q r q' z w v ys zs he _ ih =>
      have := ih hy
      rw [zero_add] at this ⊢
      exact .cons (x := 0) (.inl ⟨z, r, he, rfl, rfl⟩) this
    | step _ _ _ _ => cases hy
    | keep _ _ _ => cases hy
  | @cons p r p' x0 y0 w v xs ys he _ ih =>
    by_cases h0 : y0 = 0
    · subst h0
      have := ih h'
      have e : z = cons0 0 z := rfl
      rw [e, add_assoc]
      exact .cons (.inr ⟨x0, 0, w, r, he, .inr ⟨.inr rfl, rfl, rfl, rfl⟩⟩) this
    · rw [cons0_ne h0] at h'
      generalize hy : y0 :: ys = y at h'
      induction h' with
      | nil q => cases hy
      | @eps q r' q' z u v' ys' zs he' _ ih' =>
        have := ih' ih hy
        have e1 : cons0 x0 xs = cons0 0 (cons0 x0 xs) := rfl
        have e2 : w + v + (u + v') = u + (w + v + v') := by abel
        rw [e1, e2]
        exact .cons (.inl ⟨z, r', he', rfl, rfl⟩) this
      | @step q r' q' o y z u v' ys' zs he' hy0 hm hg _ =>
        cases hy
        have := ih hg
        have e2 : w + v + (u + v') = (w + u) + (v + v') := by abel
        rw [e2]
        exact .cons (.inr ⟨x0, y0, w, r, he, .inl ⟨y, z, u, r', he', hy0, hm, rfl, rfl, rfl⟩⟩) this
      | @keep q' o v' ys' zs ha ho hg _ =>
        cases hy
        have := ih hg
        rw [← cons0_ne ho, add_assoc]
        exact .cons (.inr ⟨x0, y0, w, r, he, .inr ⟨.inl ⟨ha, rfl⟩, rfl, rfl, rfl⟩⟩) this

/-! ## The side of the second transducer -/

omit [AddCommMonoid W] in
theorem same_tr (K : Known fa ga f g) {q r : Nat} {y z : Int} {w : W} (he : PairEdge ga g q ((y, z), w) r) : Same fa ga (tr fa ga z) z := by
  obtain ⟨-, n, hn⟩ := K.gtags _ _ _ he
  unfold tr
  rcases hn with ⟨h, rfl⟩ | ⟨h, s, hs, rfl⟩
  · rw [if_pos h]; exact ⟨.letter z, .inl ⟨h, rfl⟩, .inl ⟨h, rfl⟩⟩
  · rw [if_neg (by simpa using h), hs]
    obtain ⟨y', hy'⟩ := K.shared _ _ _ _ _ s he (.inr ⟨h, s, hs, rfl⟩)
    have hy := hy'
    rcases hy' with ⟨-, e⟩ | ⟨h', s', hs', e⟩
    · cases e
    · cases e
      have t1 := (tagText_iff h').1 hs'
      simp only [symCode_of_hasTag K.fok t1]
      exact ⟨.tag s, hy, .inr ⟨h, s, hs, rfl⟩⟩

theorem same_unique (hf : Ok fa) {x x' z : Int} (h : Same fa ga x z) (h' : Same fa ga x' z) : x = x' := by
  obtain ⟨n, h1, h2⟩ := h
  obtain ⟨m, h3, h4⟩ := h'
  obtain rfl := named_unique h2 h4
  rcases h1 with ⟨h1, rfl⟩ | ⟨h1, s, hs, rfl⟩
  · rcases h3 with ⟨h3, e⟩ | ⟨h3, s, hs, e⟩
    · cases e; rfl
    · cases e
  · rcases h3 with ⟨h3, e⟩ | ⟨h3, s', hs', e⟩
    · cases e
    · cases e
      exact ((tagText_iff h1).1 hs).code_unique hf ((tagText_iff h3).1 hs')

theorem same_ne_zero {x z : Int} (h : Same fa ga x z) (hz : z ≠ 0) : x ≠ 0 := meets_ne_zero (.inl h) hz

theorem tr_zero : tr fa ga 0 = 0 := rfl

/-- A run of `g` alone. -/
def Seg (fa ga : Alphabet) (g : Transducer W) (q : Nat) (y z : List Int) (w : W) (p : Nat) : Prop :=
  ∃ y' z', List.Forall₂ (Meets fa ga) y y' ∧ Tr (dir false ga g) q y' z' w p ∧ List.Forall₂ (Same fa ga) z z'

theorem Seg.nil (q : Nat) : Seg fa ga g q [] [] 0 q := ⟨[], [], .nil, .nil q, .nil⟩

theorem forall₂_cons0 {z : Int} {x : Int} {zs zs' : List Int} (h : Same fa ga x z) (h0 : z = 0 → x = 0) (hs : List.Forall₂ (Same fa ga) zs zs') :
    List.Forall₂ (Same fa ga) (cons0 x zs) (cons0 z zs') := by
  by_cases hz : z = 0
  · rw [h0 hz, hz]; exact hs
  · rw [cons0_ne hz, cons0_ne (same_ne_zero h hz)]
    exact .cons h hs

theorem Seg.eps (K : Known fa ga f g) {q r p : Nat} {z : Int} {w v : W} {ys zs : List Int} (he : PairEdge ga g q ((0, z), w) r)
    (h : Seg fa ga g r ys zs v p) : Seg fa ga g q ys (cons0 (tr fa ga z) zs) (w + v) p := by
  obtain ⟨y', z', h1, h2, h3⟩ := h
  exact ⟨y', cons0 z z', h1, .cons (x := 0) he h2, forall₂_cons0 (same_tr K he) (by rintro rfl; rfl) h3⟩

theorem Seg.step (K : Known fa ga f g) {q r p : Nat} {o y z : Int} {w v : W} {ys zs : List Int} (he : PairEdge ga g q ((y, z), w) r)
    (hy : y ≠ 0) (hm : Meets fa ga o y) (h : Seg fa ga g r ys zs v p) : Seg fa ga g q (o :: ys) (cons0 (tr fa ga z) zs) (w + v) p := by
  obtain ⟨y', z', h1, h2, h3⟩ := h
  refine ⟨y :: y', cons0 z z', .cons hm h1, ?_, forall₂_cons0 (same_tr K he) (by rintro rfl; rfl) h3⟩
  rw [← cons0_ne hy]
  exact .cons he h2

/-- A run of `g` alone is one way of reading. -/
theorem Seg.gside (K : Known fa ga f g) {q p : Nat} {y z : List Int} {w : W} (h : Seg fa ga g q y z w p) (anywhere : Bool) :
    GSide fa ga g anywhere q y z w p := by
  obtain ⟨y', z', h1, h2, h3⟩ := h
  induction h2 generalizing y z with
  | nil q => cases h1; cases h3; exact .nil q
  | @cons q r p y0 z0 w v ys zs he _ ih =>
    have hz : ∃ zr, z = cons0 (tr fa ga z0) zr ∧ List.Forall₂ (Same fa ga) zr zs := by
      by_cases h0 : z0 = 0
      · subst h0; exact ⟨z, rfl, h3⟩
      · rw [cons0_ne h0] at h3
        cases h3 with
        | cons h4 h5 =>
          obtain rfl := same_unique K.fok h4 (same_tr K he)
          exact ⟨_, (cons0_ne (same_ne_zero h4 h0) _).symm, h5⟩
    obtain ⟨zr, rfl, h6⟩ := hz
    by_cases h0 : y0 = 0
    · subst h0
      exact .eps he (ih h1 h6)
    · rw [cons0_ne h0] at h1
      cases h1 with
      | cons h4 h5 => exact .step he h0 h4 (ih h5 h6)

/-- Without `anywhere` there is no other. -/
theorem GSide.seg (K : Known fa ga f g) {q p : Nat} {y z : List Int} {w : W} (h : GSide fa ga g false q y z w p) : Seg fa ga g q y z w p := by
  induction h with
  | nil q => exact .nil q
  | eps he _ ih => exact ih.eps K he
  | step he hy hm _ ih => exact ih.step K he hy hm
  | keep h _ _ => cases h

theorem GSide.append {anywhere : Bool} {q r p : Nat} {y z y' z' : List Int} {w v : W} (h : GSide fa ga g anywhere q y z w r)
    (h' : GSide fa ga g anywhere r y' z' v p) : GSide fa ga g anywhere q (y ++ y') (z ++ z') (w + v) p := by
  induction h with
  | nil q => simpa using h'
  | eps he _ ih => rw [cons0_append, add_assoc]; exact .eps he (ih h')
  | step he hy hm _ ih => rw [cons0_append, add_assoc]; exact .step he hy hm (ih h')
  | keep h ho _ ih => exact .keep h ho (ih h')

/-- With `anywhere`: cut into pieces at the visits to the initial state where something was kept. -/
theorem GSide.cut (K : Known fa ga f g) {q p : Nat} {y z : List Int} {w v : W} (h : GSide fa ga g true q y z w p)
    (hv : Final g p v ∨ (p = g.initial ∧ (∀ u, ¬ Final g g.initial u) ∧ v = 0)) :
    (Seg fa ga g q y z w p ∧ Final g p v) ∨
    ∃ y1 y2 z1 z2 w1 w2, Seg fa ga g q y1 z1 w1 g.initial ∧ Anywhere fa ga g y2 z2 w2 ∧ y = y1 ++ y2 ∧ z = z1 ++ z2 ∧ w + v = w1 + w2 := by
  induction h with
  | nil q =>
    rcases hv with hv | ⟨rfl, h1, rfl⟩
    · exact .inl ⟨.nil q, hv⟩
    · exact .inr ⟨[], [], [], [], 0, 0, .nil _, .done h1, rfl, rfl, rfl⟩
  | eps he _ ih =>
    rcases ih hv with ⟨h1, h2⟩ | ⟨y1, y2, z1, z2, w1, w2, h1, h2, rfl, rfl, h3⟩
    · exact .inl ⟨h1.eps K he, h2⟩
    · refine .inr ⟨_, y2, _, z2, _, w2, h1.eps K he, h2, rfl, (cons0_append _ _ _).symm, ?_⟩
      rw [add_assoc, h3, add_assoc]
  | step he hy hm _ ih =>
    rcases ih hv with ⟨h1, h2⟩ | ⟨y1, y2, z1, z2, w1, w2, h1, h2, rfl, rfl, h3⟩
    · exact .inl ⟨h1.step K he hy hm, h2⟩
    · refine .inr ⟨_, y2, _, z2, _, w2, h1.step K he hy hm, h2, rfl, (cons0_append _ _ _).symm, ?_⟩
      rw [add_assoc, h3, add_assoc]
  | @keep p o u ys zs _ ho _ ih =>
    refine .inr ⟨[], _, [], _, 0, u + v, .nil _, .keep (c := o) ho ?_, rfl, rfl, (zero_add _).symm⟩
    rcases ih hv with ⟨⟨y', z', k1, k2, k3⟩, h2⟩ | ⟨y1, y2, z1, z2, w1, w2, ⟨y', z', k1, k2, k3⟩, h2, rfl, rfl, h3⟩
    · exact .last k1 ((relates_tr (inverted := false)).2 ⟨p, _, v, k2, h2, rfl⟩) k3
    · rw [h3]
      exact .loop k1 (tr_path.1 k2) k3 h2

theorem GSide.anywhere (K : Known fa ga f g) {p : Nat} {y z : List Int} {w v : W} (h : GSide fa ga g true g.initial y z w p)
    (hv : Final g p v ∨ (p = g.initial ∧ (∀ u, ¬ Final g g.initial u) ∧ v = 0)) : Anywhere fa ga g y z (w + v) := by
  rcases h.cut K hv with ⟨⟨y', z', k1, k2, k3⟩, h2⟩ | ⟨y1, y2, z1, z2, w1, w2, ⟨y', z', k1, k2, k3⟩, h2, rfl, rfl, h3⟩
  · exact .last k1 ((relates_tr (inverted := false)).2 ⟨p, _, v, k2, h2, rfl⟩) k3
  · rw [h3]
    exact .loop k1 (tr_path.1 k2) k3 h2

theorem Anywhere.gside (K : Known fa ga f g) {y z : List Int} {u : W} (h : Anywhere fa ga g y z u) :
    ∃ p w v, GSide fa ga g true g.initial y z w p ∧ (Final g p v ∨ (p = g.initial ∧ (∀ u, ¬ Final g g.initial u) ∧ v = 0)) ∧ u = w + v := by
  induction h with
  | done h => exact ⟨_, 0, 0, .nil _, .inr ⟨rfl, h, rfl⟩, (add_zero _).symm⟩
  | last h1 h2 h3 =>
    obtain ⟨p, u, v, k1, k2, rfl⟩ := (relates_tr (inverted := false)).1 h2
    exact ⟨p, u, v, Seg.gside K ⟨_, _, h1, k1, h3⟩ true, .inl k2, rfl⟩
  | keep h0 _ ih =>
    obtain ⟨p, w, v, h1, h2, rfl⟩ := ih
    exact ⟨p, w, v, .keep rfl h0 h1, h2, rfl⟩
  | loop h1 h2 h3 _ ih =>
    obtain ⟨p, w, v, k1, k2, rfl⟩ := ih
    exact ⟨p, _, v, (Seg.gside K ⟨_, _, h1, (tr_path (inverted := false)).2 h2, h3⟩ true).append k1, k2, by rw [add_assoc]⟩

end

end Verif.Product
