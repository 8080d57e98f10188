import Verif.Compiler.Text
import Verif.Compiler.Spec
import Verif.Regex.Labels
import Verif.Data.AssocLemmas

/-! # Putting the elements of an entry into a transducer -/

namespace Verif.Compiler

open Verif.Fst Verif.Alphabet

set_option linter.unusedSectionVars false

section
variable {W : Type}

/-- The pairs of strings that are read by the paths in `X`. -/
def Rel (A : Alphabet) (X : List (Int × W) → Prop) (x y : List Int) : Prop := ∃ ls, X ls ∧ lft A ls = x ∧ rgt A ls = y

/-- Pairs made of two pairs. -/
def Cat (P Q : List Int → List Int → Prop) (x y : List Int) : Prop :=
  ∃ x1 y1 x2 y2, P x1 y1 ∧ Q x2 y2 ∧ x = x1 ++ x2 ∧ y = y1 ++ y2

theorem cat_congr {P P' Q Q' : List Int → List Int → Prop} (h : ∀ x y, P x y ↔ P' x y) (h' : ∀ x y, Q x y ↔ Q' x y) (x y : List Int) :
    Cat P Q x y ↔ Cat P' Q' x y := by
  simp only [Cat, h, h']

theorem cat_assoc (P Q R : List Int → List Int → Prop) (x y : List Int) : Cat P (Cat Q R) x y ↔ Cat (Cat P Q) R x y := by
  constructor
  · rintro ⟨x1, y1, _, _, hp, ⟨x2, y2, x3, y3, hq, hr, rfl, rfl⟩, rfl, rfl⟩
    exact ⟨x1 ++ x2, y1 ++ y2, x3, y3, ⟨x1, y1, x2, y2, hp, hq, rfl, rfl⟩, hr, by simp, by simp⟩
  · rintro ⟨_, _, x3, y3, ⟨x1, y1, x2, y2, hp, hq, rfl, rfl⟩, hr, rfl, rfl⟩
    exact ⟨x1, y1, x2 ++ x3, y2 ++ y3, hp, ⟨x2, y2, x3, y3, hq, hr, rfl, rfl⟩, by simp, by simp⟩

theorem cat_nil_left (Q : List Int → List Int → Prop) (x y : List Int) : Cat (fun x y => x = [] ∧ y = []) Q x y ↔ Q x y := by
  constructor
  · rintro ⟨_, _, x2, y2, ⟨rfl, rfl⟩, hq, rfl, rfl⟩; exact hq
  · intro h; exact ⟨[], [], x, y, ⟨rfl, rfl⟩, h, rfl, rfl⟩

theorem cat_nil_right (P : List Int → List Int → Prop) (x y : List Int) : Cat P (fun x y => x = [] ∧ y = []) x y ↔ P x y := by
  constructor
  · rintro ⟨x1, y1, _, _, hq, ⟨rfl, rfl⟩, rfl, rfl⟩; simpa using hq
  · intro h; exact ⟨x, y, [], [], h, ⟨rfl, rfl⟩, by simp, by simp⟩

theorem rel_cat (A : Alphabet) (X Y : List (Int × W) → Prop) (x y : List Int) :
    Rel A (fun zs => ∃ xs ys, zs = xs ++ ys ∧ X xs ∧ Y ys) x y ↔ Cat (Rel A X) (Rel A Y) x y := by
  constructor
  · rintro ⟨_, ⟨xs, ys, rfl, hx, hy⟩, rfl, rfl⟩
    exact ⟨_, _, _, _, ⟨xs, hx, rfl, rfl⟩, ⟨ys, hy, rfl, rfl⟩, by simp, by simp⟩
  · rintro ⟨_, _, _, _, ⟨xs, hx, rfl, rfl⟩, ⟨ys, hy, rfl, rfl⟩, rfl, rfl⟩
    exact ⟨xs ++ ys, ⟨xs, ys, rfl, hx, hy⟩, by simp, by simp⟩

theorem rel_one (A : Alphabet) (zs : List (Int × W)) (x y : List Int) : Rel A (· = zs) x y ↔ x = lft A zs ∧ y = rgt A zs := by
  constructor
  · rintro ⟨_, rfl, rfl, rfl⟩; exact ⟨rfl, rfl⟩
  · rintro ⟨rfl, rfl⟩; exact ⟨zs, rfl, rfl, rfl⟩

theorem rel_congr (A : Alphabet) {X Y : List (Int × W) → Prop} (h : ∀ ls, X ls ↔ Y ls) (x y : List Int) : Rel A X x y ↔ Rel A Y x y := by
  simp only [Rel, h]

theorem rel_eps [Zero W] {A : Alphabet} (hA : Ok A) (w : W) (X : List (Int × W) → Prop) (x y : List Int) :
    Rel A (fun ys => ∃ zs, ys = (0, w) :: zs ∧ X zs) x y ↔ Rel A X x y := by
  constructor
  · rintro ⟨_, ⟨zs, rfl, h⟩, rfl, rfl⟩; exact ⟨zs, h, by simp [hA], by simp [hA]⟩
  · rintro ⟨zs, h, rfl, rfl⟩; exact ⟨_, ⟨zs, rfl, h⟩, by simp [hA], by simp [hA]⟩

/-! ## From labels to pairs of symbols -/

theorem dec_forall {a A : Alphabet} (he : Ext a A) {cs : List (Int × W)} {ls : List (Pair × W)}
    (h : List.Forall₂ (fun c l => a.decode c.1 = .ok l.1 ∧ c.2 = l.2) cs ls) :
    lft A cs = (ls.map (·.1.1)).filter (· ≠ 0) ∧ rgt A cs = (ls.map (·.1.2)).filter (· ≠ 0) ∧ cs.map (·.2) = ls.map (·.2) := by
  induction h with
  | nil => exact ⟨rfl, rfl, rfl⟩
  | @cons c l cs ls hcl _ ih =>
    have hp := (decode_iff.1 hcl.1).mono he
    obtain ⟨h1, h2, h3⟩ := ih
    unfold lft at h1 ⊢
    unfold rgt at h2 ⊢
    simp only [List.map_cons, List.filter_cons, dec_eq hp, h1, h2, h3, hcl.2, and_self]

theorem decode_path {a : Alphabet} {t : Transducer W} (hc : ∀ q l p, Edge t q l p → KA a l.1) {q p : Nat} {cs : List (Int × W)}
    (h : Path (Edge t) q cs p) : ∃ ls : List (Pair × W), Path (PairEdge a t) q ls p ∧
      List.Forall₂ (fun c l => a.decode c.1 = .ok l.1 ∧ c.2 = l.2) cs ls := by
  induction h with
  | nil q => exact ⟨[], .nil q, .nil⟩
  | @cons q r p c cs he _ ih =>
    obtain ⟨ls, h1, h2⟩ := ih
    obtain ⟨pr, hp⟩ := hc _ _ _ he
    have hd := decode_iff.2 hp
    exact ⟨(pr, c.2) :: ls, .cons ⟨c.1, hd, he⟩ h1, .cons ⟨hd, rfl⟩ h2⟩

/-- What a transducer relates, seen from its labels and from any later alphabet. -/
theorem relates_iff [AddMonoid W] [DecidableEq W] {a A : Alphabet} (he : Ext a A) {t : Transducer W} (hc : ∀ q l p, Edge t q l p → KA a l.1) (x y : List Int) (w : W) :
    Relates a t x y w ↔ ∃ ls p fw, Path (Edge t) t.initial ls p ∧ Final t p fw ∧ lft A ls = x ∧ rgt A ls = y ∧ w = (ls.map (·.2)).sum + fw := by
  constructor
  · rintro ⟨ls, fw, ⟨p, h1, h2⟩, h3, h4, h5⟩
    obtain ⟨cs, k1, k2⟩ := Regex.path_labels h1
    obtain ⟨d1, d2, d3⟩ := dec_forall he k2
    exact ⟨cs, p, fw, k1, h2, by rw [d1, h3], by rw [d2, h4], by rw [d3, h5]⟩
  · rintro ⟨cs, p, fw, k1, h2, h3, h4, h5⟩
    obtain ⟨ls, h1, k2⟩ := decode_path hc k1
    obtain ⟨d1, d2, d3⟩ := dec_forall he k2
    exact ⟨ls, fw, ⟨p, h1, h2⟩, by rw [← d1, h3], by rw [← d2, h4], by rw [← d3, h5]⟩

/-! ## Regular expressions -/

theorem aok_of_ok {a : Alphabet} (h : Ok a) : Regex.AOk a := ⟨h, 0, h.zero, rfl⟩

theorem path_mem {t : Transducer W} {q p : Nat} {ls : List (Int × W)} (h : Path (Edge t) q ls p) {l : Int × W} (hl : l ∈ ls) :
    ∃ q' p', Edge t q' l p' := by
  induction h with
  | nil => simp at hl
  | cons he _ ih =>
    rcases List.mem_cons.1 hl with rfl | hl
    · exact ⟨_, _, he⟩
    · exact ih hl

/-- The count leaves out the labels of regular expressions. -/
def Van [Zero W] (A : Alphabet) (m : Int × W → Bool) : Prop := ∀ c, Regex.IdOf A c → m (c, 0) = false

theorem regexp_part [AddMonoid W] [DecidableEq W] {a : Alphabet} (ha : Ok a) {e : Regex.Alt} (he : e.Valid) :
    ∃ r : Regex.St W, Regex.compile e.print (Regex.initialise a) = .ok r ∧ Ok r.alphabet ∧ Ext a r.alphabet ∧
      ∀ A, Ok A → Ext r.alphabet A → ∃ X, Part (Van A) (KA A) r.transducer X (fun c => ¬ Regex.IdOf A c) ∧
        ∀ x y, Rel A X x y ↔ x = y ∧ e.Means Regex.latinOthers x := by
  have hst := Regex.alt_starts e []
  rw [List.append_nil] at hst
  obtain ⟨s1, h1, -, h3⟩ := Regex.alt_ok (W := W) e (4 * e.print.length + 3) _ [] (Regex.good_initialise (aok_of_ok ha) e.print) rfl he
    (by simp) (.inl rfl) (by simp)
  have hcomp : Regex.compile e.print (Regex.initialise a) = .ok { s1 with transducer := setFinal s1.state 0 true s1.transducer } := by
    unfold Regex.compile
    split
    · next h => rw [h] at hst; exact absurd hst (by decide)
    · simp only
      rw [Regex.S, if_pos (by exact hst), h1]
      rfl
  obtain ⟨l1, l2, l3⟩ := Regex.compile_labels (aok_of_ok ha) hcomp
  refine ⟨_, hcomp, l1.ok, l2.ext, fun A hA hext => ?_⟩
  set t := setFinal s1.state 0 true s1.transducer with ht
  have hf : t.finals = [(s1.state, (0 : W))] := by
    show mapInsert s1.state 0 s1.transducer.finals = _
    rw [h3.good.finals]; rfl
  have hwf : WF t := setFinal_wf h3.good.wf h3.good.state_lt 0
  have hid : ∀ q l p, Edge t q l p → Regex.IdOf s1.alphabet l.1 := fun q l p hE => (Regex.LabT.edge hwf l3 hE).1
  have hka : ∀ q l p, Edge t q l p → KA s1.alphabet l.1 := fun q l p hE => let ⟨x, hx⟩ := hid q l p hE; ⟨_, hx⟩
  have hrel : ∀ x y, Rel A (fun ls => Path (Edge t) t.initial ls s1.state) x y ↔ x = y ∧ e.Means Regex.latinOthers x := by
    intro x y
    constructor
    · rintro ⟨ls, h4, h5, h6⟩
      have := (h3.relates x y _).1 ((relates_iff hext hka x y _).2 ⟨ls, s1.state, 0, h4, by unfold Final; rw [hf]; simp, h5, h6, rfl⟩)
      exact ⟨this.1, this.2.1⟩
    · rintro ⟨h4, h5⟩
      obtain ⟨ls, p, fw, k1, k2, k3, k4, -⟩ := (relates_iff hext hka x y _).1 ((h3.relates x y 0).2 ⟨h4, h5, rfl⟩)
      unfold Final at k2
      rw [hf] at k2
      simp only [List.mem_singleton, Prod.mk.injEq] at k2
      rw [k2.1] at k1
      exact ⟨ls, k1, k3, k4⟩
  refine ⟨_, ⟨hwf, ?_, ⟨s1.state, 0, hf, ?_, fun ls => Iff.rfl⟩, ?_, fun m hm => ⟨0, fun ls hls => ?_⟩⟩, hrel⟩
  · intro q l p hE
    obtain ⟨pr, hp⟩ := hka q l p hE
    exact ⟨pr, hp.mono hext⟩
  · intro c hc _ w p hE
    exact hc ((hid _ _ _ hE).mono hext)
  · obtain ⟨u, hu⟩ := Regex.Alt.some_means e he
    obtain ⟨ls, h4, -⟩ := (hrel u u).2 ⟨rfl, hu⟩
    exact ⟨ls, h4⟩
  · rw [Nat.le_zero, List.countP_eq_zero]
    intro l hl
    obtain ⟨q', p', hE⟩ := path_mem hls hl
    have h5 := hm l.1 ((hid _ _ _ hE).mono hext)
    rw [← (Regex.LabT.edge hwf l3 hE).2] at h5
    rw [h5]
    decide

end

/-! ## What follows what -/

def Fol.lab (A : Alphabet) : Fol → Int → Prop
  | .any, _ => True
  | .nonid, c => ¬ Regex.IdOf A c
  | .none, _ => False

variable {N : Type}

/-- The pairs that an element gives, `G` being those of the paradigms. -/
def Gv1 (s : Settings) (G : N → List Int → List Int → Prop) : Token N → List Int → List Int → Prop
  | .text l r, x, y => x = (sides s l r).1 ∧ y = (sides s l r).2
  | .par n, x, y => G n x y
  | .re er, x, y => ∃ e : Regex.Alt, e.Valid ∧ er = e.print ∧ e.Means Regex.latinOthers x ∧ x = y

/-- The pairs that a sequence of elements gives. -/
def Gv (s : Settings) (G : N → List Int → List Int → Prop) : List (Token N) → List Int → List Int → Prop
  | [], x, y => x = [] ∧ y = []
  | e :: es, x, y => Cat (Gv1 s G e) (Gv s G es) x y

section
variable {W : Type} [AddMonoid W] [DecidableEq W]

theorem fitsText_swap {f : Fol} {l r : List Int} (h : FitsText f l r) : FitsText f r l := by
  cases f with
  | any => trivial
  | nonid => exact h.imp Ne.symm And.symm
  | none => exact h.symm

/-- `matchTransduction` is the loop on the two sides in order, or a step for nothing. -/
theorem matchTransduction_eq (s : Settings) (hs : s.acx = []) (l r : List Int) (w : W) (a : Alphabet) (q : Nat) (t : Transducer W)
    (h : ¬ (l = [] ∧ r = [])) : matchTransduction s l r w a q t = matchLoop [] w (sides s l r).1 (sides s l r).2 a q t := by
  unfold matchTransduction sides
  rw [hs]
  cases l <;> cases r <;> first | exact absurd ⟨rfl, rfl⟩ h | (cases s.rl <;> rfl)

/-- What an element does from a cursor. -/
def Does (A : Alphabet) (B : (Int × W → Bool) → Prop) (t : Transducer W) (C : Nat → Prop) (D : Nat → Int → Prop) (q : Nat) (f' : Fol)
    (P : List Int → List Int → Prop) (t' : Transducer W) (e : Nat) : Prop :=
  ∃ C' D' X, Moves B (KA A) t C D q X (f'.lab A) t' C' D' e ∧ ∀ x y, Rel A X x y ↔ P x y

theorem first_nonid {A : Alphabet} {l r : List Int} {f : Fol} (hf : FitsText f l r) (hn : ¬ (l = [] ∧ r = [])) (hl : 0 ∉ l) (hr : 0 ∉ r) :
    ∃ p, firstPair l r = some p ∧ ∀ c, HasPair A c p → f.lab A c := by
  cases f with
  | any =>
    cases l <;> cases r
    · exact absurd ⟨rfl, rfl⟩ hn
    all_goals exact ⟨_, rfl, fun _ _ => trivial⟩
  | nonid =>
    have hh := hf.resolve_right hn
    have key : ∀ x y : Int, x ≠ y → ∀ c, HasPair A c (x, y) → ¬ Regex.IdOf A c := by
      rintro x y hxy c hc ⟨z, hz⟩
      have := HasPair.pair_unique hc hz
      simp only [Prod.mk.injEq] at this
      exact hxy (this.1.trans this.2.symm)
    cases l with
    | nil =>
      cases r with
      | nil => exact absurd ⟨rfl, rfl⟩ hn
      | cons y r => exact ⟨_, rfl, key _ _ fun h => hr (by simp [h])⟩
    | cons x l =>
      cases r with
      | nil => exact ⟨_, rfl, key _ _ fun h => hl (by simp [h])⟩
      | cons y r => exact ⟨_, rfl, key _ _ fun h => hh (by simp [h])⟩
  | none => exact absurd hf hn

theorem text_does (s : Settings) (hs : s.acx = []) (G : N → List Int → List Int → Prop) (w : W) (l r : List Int) (hl : 0 ∉ l) (hr : 0 ∉ r) (f : Fol)
    (hf : FitsText f l r) (a : Alphabet) (ha : Ok a) :
    ∃ a', Ok a' ∧ Ext a a' ∧ ∀ A, Ok A → Ext a' A → ∀ (B : (Int × W → Bool) → Prop) (t : Transducer W) C D q, Tree B (KA A) t C D → C q →
      (∀ c, f.lab A c → c ≠ 0 → D q c) →
      ∃ e t', matchTransduction s l r w a q t = .ok (a', e, t') ∧ Does A B t C D q .any (Gv1 s G (.text l r)) t' e := by
  by_cases hn : l = [] ∧ r = []
  · obtain ⟨rfl, rfl⟩ := hn
    refine ⟨a, ha, .refl a, fun A hA he B t C D q ht hq hD => ?_⟩
    obtain ⟨t', C', D', h1, -, h2, -⟩ := ht.skip hq (ka_zero hA) 0
    refine ⟨size t, t', ?_, C', D', _, h2, fun x y => ?_⟩
    · unfold matchTransduction
      rw [Regex.pc00 (aok_of_ok ha)]
      simp only [h1]
    · rw [rel_one]
      have h1 : lft A [((0 : Int), (0 : W))] = [] := by rw [lft_zero hA]; rfl
      have h2 : rgt A [((0 : Int), (0 : W))] = [] := by rw [rgt_zero hA]; rfl
      rw [h1, h2]
      simp [Gv1, sides]
  · obtain ⟨l', r', hlr, hf', hl', hr', hn'⟩ : ∃ l' r', sides s l r = (l', r') ∧ FitsText f l' r' ∧ 0 ∉ l' ∧ 0 ∉ r' ∧ ¬ (l' = [] ∧ r' = []) := by
      unfold sides
      cases s.rl
      · exact ⟨l, r, rfl, hf, hl, hr, hn⟩
      · exact ⟨r, l, rfl, fitsText_swap hf, hr, hl, fun h => hn h.symm⟩
    obtain ⟨p, hp, -⟩ := first_nonid (A := a) hf' hn' hl' hr'
    obtain ⟨a', h1, h2, h3⟩ := matches_first w l' r' hl' hr' a ha p hp
    refine ⟨a', h1, h2, fun A hA he B t C D q ht hq hD => ?_⟩
    obtain ⟨p', hp', hlab⟩ := first_nonid (A := A) hf' hn' hl' hr'
    rw [hp] at hp'
    cases hp'
    have hpne : p ≠ (0, 0) := by
      intro h
      subst h
      cases l' with
      | nil =>
        cases r' with
        | nil => cases hp
        | cons y r' => simp only [firstPair, Option.some.injEq, Prod.mk.injEq, true_and] at hp; exact hr' (by simp [hp])
      | cons x l' =>
        cases r' with
        | nil => simp only [firstPair, Option.some.injEq, Prod.mk.injEq, and_true] at hp; exact hl' (by simp [hp])
        | cons y r' => simp only [firstPair, Option.some.injEq, Prod.mk.injEq] at hp; exact hl' (by simp [hp.1])
    obtain ⟨e, t', C', D', zs, k1, k2, k3, k4⟩ := h3 A hA he B t C D q ht hq fun c hc => hD c (hlab c hc) (code_ne_zero hA hc hpne)
    refine ⟨e, t', ?_, C', D', _, k2, fun x y => ?_⟩
    · rw [matchTransduction_eq s hs l r w a q t hn, hlr]
      exact k1
    · rw [rel_one, k3, k4]
      simp only [Gv1, hlr]

theorem part_mono {B B' : (Int × W → Bool) → Prop} {K : Int → Prop} {o : Transducer W} {X : List (Int × W) → Prop} {Dn : Int → Prop} (h : Part B K o X Dn)
    (hb : ∀ m, B' m → B m) : Part B' K o X Dn := ⟨h.wf, h.known, h.ex, h.some, fun m hB => h.bdd m (hb m hB)⟩

theorem re_does (s : Settings) (G : N → List Int → List Int → Prop) (er : List Int) (her : ∃ e : Regex.Alt, e.Valid ∧ er = e.print) (a : Alphabet) (ha : Ok a) :
    ∃ a', Ok a' ∧ Ext a a' ∧ ∀ A, Ok A → Ext a' A → ∀ (B : (Int × W → Bool) → Prop) (t : Transducer W) C D q, (∀ m, B m → Van A m) → Tree B (KA A) t C D → C q →
      ∃ e t', insertRegexp er a q t = .ok (a', e, t') ∧ Does A B t C D q .nonid (Gv1 s G (.re er)) t' e := by
  obtain ⟨ex, hv, rfl⟩ := her
  obtain ⟨r, h1, h2, h3, h4⟩ := regexp_part (W := W) ha hv
  refine ⟨r.alphabet, h2, h3, fun A hA he B t C D q hBV ht hq => ?_⟩
  obtain ⟨X, p1, p2⟩ := h4 A hA he
  obtain ⟨e, t', C', D', k1, -, -, -, -, k2, -⟩ := ht.copy hq (ka_zero hA) (part_mono p1 hBV)
  refine ⟨e, t', ?_, C', D', _, k2, fun x y => ?_⟩
  · unfold insertRegexp
    rw [h1, Res.bind_ok]
    rw [Regex.pc00 (aok_of_ok h2)]
    simp only [k1, Res.bind_ok]
    rfl
  · rw [rel_eps hA, p2]
    constructor
    · rintro ⟨rfl, h⟩; exact ⟨ex, hv, rfl, h, rfl⟩
    · rintro ⟨e', hv', hp, h, rfl⟩
      refine ⟨rfl, ?_⟩
      obtain ⟨r', h1', h2', h3', h4'⟩ := regexp_part (W := W) ha hv'
      rw [← hp, h1] at h1'
      cases h1'
      obtain ⟨X', p1', p2'⟩ := h4' A hA he
      have hXX : ∀ ls, X ls ↔ X' ls := by
        obtain ⟨f, fw, q1, -, q2⟩ := p1.ex
        obtain ⟨f', fw', q1', -, q2'⟩ := p1'.ex
        rw [q1] at q1'
        simp only [List.cons.injEq, Prod.mk.injEq, and_true] at q1'
        intro ls
        rw [q2, q2', q1'.1]
      have := (p2' x x).2 ⟨rfl, h⟩
      rw [← rel_congr A hXX, p2] at this
      exact this.2

variable [LinearOrder N]

/-- All labels of paradigms without regular expressions may be counted. -/
def Bd (A : Alphabet) (closed : N → Bool) (n : N) (m : Int × W → Bool) : Prop := closed n = true ∨ Van A m

/-- What is known of a finished paradigm. -/
structure ParOk (A : Alphabet) (closed : N → Bool) (G : N → List Int → List Int → Prop) (pars : List (N × Transducer W)) (n : N) : Prop where
  ex : ∃ o X, mapFind n pars = some o ∧ Part (Bd A closed n) (KA A) o X ((folOf closed n).lab A) ∧ ∀ x y, Rel A X x y ↔ G n x y

theorem mapSet_self {ν : Type} {k : N} {v : ν} {m : List (N × ν)} (hs : SortedKeys m) (h : mapFind k m = some v) : mapSet k v m = m := by
  induction m with
  | nil => cases h
  | cons x m ih =>
    obtain ⟨k', v'⟩ := x
    simp only [mapFind] at h
    split at h
    · next hk =>
      subst hk
      cases h
      simp only [mapSet, lt_irrefl, if_false]
    · next hk =>
      have hlt : k' < k := by
        exact (List.pairwise_cons.1 hs).1 _ (mapFind_mem h)
      simp only [mapSet, not_lt_of_gt hlt, if_false, hlt, if_true]
      rw [ih hs.tail h]

theorem par_does (s : Settings) {A : Alphabet} (hA : Ok A) {closed : N → Bool} {G : N → List Int → List Int → Prop} {pars : List (N × Transducer W)}
    (hs : SortedKeys pars) {n : N} (hn : ParOk A closed G pars n) {B : (Int × W → Bool) → Prop} (hB : ∀ m, B m → Bd A closed n m) {t : Transducer W} {C : Nat → Prop}
    {D : Nat → Int → Prop} {q : Nat} (ht : Tree B (KA A) t C D) (hq : C q) :
    ∃ e t', insertPar n pars q t = .ok (pars, e, t') ∧ Does A B t C D q (folOf closed n) (Gv1 s G (.par n)) t' e := by
  obtain ⟨o, X, h1, h2, h3⟩ := hn.ex
  obtain ⟨e, t', C', D', k1, -, -, -, -, k2, -⟩ := ht.copy hq (ka_zero hA) (part_mono h2 hB)
  refine ⟨e, t', ?_, C', D', _, k2, fun x y => ?_⟩
  · unfold insertPar parOf
    rw [h1]
    simp only [Option.getD_some, k1, Res.bind_ok]
    rw [mapSet_self hs h1]
    rfl
  · rw [rel_eps hA, h3]
    rfl

theorem parTokens_spec (s : Settings) (hs : s.acx = []) (closed : N → Bool) (G : N → List Int → List Int → Prop) (ws : List (W × Token N)) (f : Fol)
    (hf : Fits closed f (ws.map (·.2))) (a : Alphabet) (ha : Ok a) :
    ∃ a', Ok a' ∧ Ext a a' ∧ ∀ A, Ok A → Ext a' A → ∀ (B : (Int × W → Bool) → Prop) (pars : List (N × Transducer W)), SortedKeys pars →
      (∀ n, .par n ∈ ws.map (·.2) → ParOk A closed G pars n) → (∀ m, B m → Closed closed (ws.map (·.2)) ∨ Van A m) → ∀ (t : Transducer W) C D q, Tree B (KA A) t C D → C q →
      (∀ c, f.lab A c → c ≠ 0 → D q c) →
      ∃ e t', parTokens s ws a pars q t = .ok (a', pars, e, t') ∧ Does A B t C D q .none (Gv s G (ws.map (·.2))) t' e := by
  induction ws generalizing f a with
  | nil =>
    refine ⟨a, ha, .refl a, fun A hA he B pars hp hpars hB t C D q ht hq hD => ⟨q, t, rfl, C, D, (· = []), ?_, fun x y => ?_⟩⟩
    · have := ht.stay hq
      exact ⟨this.keeps, this.tree, this.acc, this.cur, fun c h _ => h.elim, this.inn, rfl⟩
    · rw [rel_one]; rfl
  | cons k ws ih =>
    obtain ⟨w, k⟩ := k
    rw [List.map_cons] at hf
    simp only [List.map_cons]
    set es := ws.map (·.2) with hes
    have hB' : ∀ {A} {B : (Int × W → Bool) → Prop}, (∀ m, B m → Closed closed (k :: es) ∨ Van A m) → ∀ m, B m → Closed closed es ∨ Van A m :=
      fun h m b => (h m b).imp_left fun h e he => h e (List.mem_cons_of_mem _ he)
    cases k with
    | text l r =>
      obtain ⟨hl, hr, hft, hfs⟩ := hf
      obtain ⟨a1, i1, i2, i3⟩ := text_does (N := N) s hs G w l r hl hr f hft a ha
      obtain ⟨a2, j1, j2, j3⟩ := ih .any hfs a1 i1
      refine ⟨a2, j1, i2.trans j2, fun A hA he B pars hp hpars hB t C D q ht hq hD => ?_⟩
      obtain ⟨e1, t1, m1, m2⟩ := i3 A hA (j2.trans he) B t C D q ht hq hD
      obtain ⟨C1, D1, X, m3, m4⟩ := m2
      obtain ⟨e2, t2, n1, C2, D2, Y, n2, n3⟩ := j3 A hA he B pars hp (fun n hn => hpars n (List.mem_cons_of_mem _ hn)) (hB' hB) t1 C1 D1 e1 m3.tree m3.cur m3.dn
      refine ⟨e2, t2, ?_, C2, D2, _, m3.trans n2, fun x y => by rw [rel_cat]; exact cat_congr m4 n3 x y⟩
      rw [parTokens, m1, Res.bind_ok]
      exact n1
    | par n =>
      obtain ⟨a2, j1, j2, j3⟩ := ih (folOf closed n) hf a ha
      refine ⟨a2, j1, j2, fun A hA he B pars hp hpars hB t C D q ht hq hD => ?_⟩
      obtain ⟨e1, t1, m1, C1, D1, X, m3, m4⟩ := par_does s hA hp (hpars n (by simp)) (fun m b => (hB m b).imp_left fun h => h (.par n) (by simp)) ht hq
      obtain ⟨e2, t2, n1, C2, D2, Y, n2, n3⟩ := j3 A hA he B pars hp (fun n hn => hpars n (List.mem_cons_of_mem _ hn)) (hB' hB) t1 C1 D1 e1 m3.tree m3.cur m3.dn
      refine ⟨e2, t2, ?_, C2, D2, _, m3.trans n2, fun x y => by rw [rel_cat]; exact cat_congr m4 n3 x y⟩
      rw [parTokens, m1, Res.bind_ok]
      exact n1
    | re er =>
      obtain ⟨her, hfs⟩ := hf
      obtain ⟨a1, i1, i2, i3⟩ := re_does (N := N) (W := W) s G er her a ha
      obtain ⟨a2, j1, j2, j3⟩ := ih .nonid hfs a1 i1
      refine ⟨a2, j1, i2.trans j2, fun A hA he B pars hp hpars hB t C D q ht hq hD => ?_⟩
      have hBV : ∀ m, B m → Van A m := fun m b => (hB m b).resolve_left fun h => h (.re er) (by simp)
      obtain ⟨e1, t1, m1, C1, D1, X, m3, m4⟩ := i3 A hA (j2.trans he) B t C D q hBV ht hq
      obtain ⟨e2, t2, n1, C2, D2, Y, n2, n3⟩ := j3 A hA he B pars hp (fun n hn => hpars n (List.mem_cons_of_mem _ hn)) (hB' hB) t1 C1 D1 e1 m3.tree m3.cur m3.dn
      refine ⟨e2, t2, ?_, C2, D2, _, m3.trans n2, fun x y => by rw [rel_cat]; exact cat_congr m4 n3 x y⟩
      rw [parTokens, m1, Res.bind_ok]
      exact n1

end

end Verif.Compiler
