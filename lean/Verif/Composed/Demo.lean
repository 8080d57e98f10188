import Verif.Composed.Props
import Verif.Trim.Demo

/-! # C84: small files -/

namespace Verif.Composed

open Verif.Fst Verif.Alphabet Verif.Compiler
open Verif.Compression (Dbl)
open Verif.Chain (stored storedAll)
open Verif.Tools (Dictionary Has Kept Part)
open Verif.Unified (Pairs)
open Verif.Trim hiding Fits fitsCheck fits_of_check

/-- `a:a<n>`. -/
def firstSec : Transducer Dbl :=
  { initial := 0
    finals := [(2, 0)]
    transitions := [(0, [(1, (1, 0))]), (1, [(2, (2, 0))]), (2, [])] }

theorem firstSec_part : Part monoAlpha firstSec :=
  part_of_check (by decide) (by decide) (by simp [arcsOf, firstSec]) (by simp [firstSec]) (by decide) (by decide)

theorem firstFile : ∃ bs, Dictionary bs [0x61, 0x62] monoAlpha [(sec, firstSec)] := by
  obtain ⟨bs, -, h⟩ := Tools.written (L := [0x61, 0x62]) (a := monoAlpha) (ts := [(sec, firstSec)]) ⟨by decide, by decide, by decide⟩ monoAlpha_sane (by simp) (by decide)
    (by simpa using firstSec_part) (by decide) (by decide) (by decide)
  exact ⟨bs, h⟩

theorem first_has {bs : List UInt8} (h : Dictionary bs [0x61, 0x62] monoAlpha [(sec, firstSec)]) : Pairs bs sec [.letter 0x61] [.letter 0x61, .tag Trim.tagN] := by
  refine (pairs_iff h).2 ⟨firstSec, by simp, [0x61], [0x61, -1], ⟨[((0x61, 0x61), 0), ((0, -1), 0)], 0, ⟨2, ?_, by simp [Final, firstSec]⟩, by decide, by decide⟩, ?_, ?_⟩
  · refine Path.cons (r := 1) ⟨1, by decide, (edge_iff_arcs (by decide) _ _ _).2 ?_⟩ (Path.cons (r := 2) ⟨2, by decide, (edge_iff_arcs (by decide) _ _ _).2 ?_⟩ (.nil 2))
    all_goals simp [arcsOf, firstSec]
  · exact .cons (.inl ⟨by decide, rfl⟩) .nil
  · exact .cons (.inl ⟨by decide, rfl⟩) (.cons (.inr ⟨by decide, Trim.tagN, by decide, rfl⟩) .nil)

theorem joinable_of {t : Transducer Dbl} {L : List UInt32} {A : Alphabet} {first second : List UInt8} (hm : Dictionary first L A [(sec, t)])
    (hb : Dictionary second [0x61] biAlpha [(sec, biSec)]) (hs : ∃ X Y, Pairs first sec X Y) (hA : A.tagText (-1) = .ok Trim.tagN) :
    Joinable noWeight first second L [0x61] A biAlpha [(sec, t)] [(sec, biSec)] := by
  refine ⟨hm, hb, fun _ _ _ _ _ => rfl, fun _ _ _ _ _ => rfl, ?_, ?_, ?_, ?_⟩
  · intro k hk
    have : k = sec := by simpa using (Tools.has_iff hm.stored k).1 hk
    subst this
    exact hs
  · intro k hk
    have : k = sec := by simpa using (Tools.has_iff hb.stored k).1 hk
    subst this
    exact ⟨_, _, bi_has hb⟩
  · intro e he q l h
    have : e = (sec, biSec) := by simpa using he
    subst this
    rw [edge_iff_arcs (by decide)] at h
    simp [arcsOf, biSec] at h
  · intro e he q x z w r s _ hn
    have : s = Trim.tagN := by
      rcases hn with ⟨-, h⟩ | ⟨h1, s', h2, h3⟩
      · cases h
      · cases h3
        obtain ⟨j, hj, -⟩ := (tagText_iff h1).1 h2
        have := List.mem_of_getElem? hj
        rw [biAlpha_tags] at this
        simpa using this
    subst this
    exact ⟨-1, .inr ⟨by decide, Trim.tagN, hA, rfl⟩⟩

/-- Is the result small enough? -/
def fitsCheck {W : Type} (r : Res (Alphabet × List (UString × Transducer W))) : Bool :=
  match r with
  | .ok (a, rs) => decide (a.spairinv.length < 2 ^ 30) && rs.all fun e => decide (Fst.size e.2 < 2 ^ 30) && e.2.transitions.all fun x => decide (x.2.length < 2 ^ 30)
  | _ => true

theorem fits_of_check {W : Type} {r : Res (Alphabet × List (UString × Transducer W))} (h : fitsCheck r = true) : Fits r := by
  rintro a rs rfl
  unfold fitsCheck at h
  simp only [Bool.and_eq_true, decide_eq_true_eq] at h
  refine ⟨h.1, fun e he => ?_⟩
  have := List.all_eq_true.1 h.2 e he
  rw [Bool.and_eq_true, decide_eq_true_eq, List.all_eq_true] at this
  exact ⟨this.1, fun x hx => by simpa using this.2 x hx⟩

-- `a:a<n>` and `a<n>:x<n>` make `a:x<n>`, whose pair `a:x` is new to the alphabet
example : ∃ first second, Joinable noWeight first second [0x61, 0x62] [0x61] monoAlpha biAlpha [(sec, firstSec)] [(sec, biSec)] ∧
    Fits (composeSets false false monoAlpha (storedAll noWeight [(sec, firstSec)]) biAlpha (storedAll noWeight [(sec, biSec)])) ∧
    ∃ k X Y Z, Reads false first k X Y ∧ (X ≠ [] ∨ Y ≠ []) ∧ Made false second Y Z := by
  obtain ⟨first, hm⟩ := firstFile
  obtain ⟨second, hb⟩ := biFile
  refine ⟨first, second, joinable_of hm hb ⟨_, _, first_has hm⟩ (by decide), fits_of_check (by decide +kernel), sec, _, _, _, first_has hm, by simp, _, sec, ?_, bi_has hb⟩
  exact .cons (.inl rfl) (.cons (.inl rfl) .nil)

-- the other way round: `x<n>` is read by `a<n>:x<n>` from right to left, and that makes `x<n>:x<n>`
example : ∃ file, Joinable noWeight file file [0x61] [0x61] biAlpha biAlpha [(sec, biSec)] [(sec, biSec)] ∧
    Fits (composeSets true false biAlpha (storedAll noWeight [(sec, biSec)]) biAlpha (storedAll noWeight [(sec, biSec)])) ∧
    ∃ k X Y Z, Reads true file k X Y ∧ (X ≠ [] ∨ Y ≠ []) ∧ Made false file Y Z := by
  obtain ⟨file, hb⟩ := biFile
  refine ⟨file, joinable_of hb hb ⟨_, _, bi_has hb⟩ (by decide), fits_of_check (by decide +kernel), sec, _, _, _, bi_has hb, by simp, _, sec, ?_, bi_has hb⟩
  exact .cons (.inl rfl) (.cons (.inl rfl) .nil)

-- `b:b<n>` meets nothing
example : ∃ first second, Joinable noWeight first second [0x61, 0x62] [0x61] monoAlpha biAlpha [(sec, monoSec')] [(sec, biSec)] ∧
    ∀ k X Z, ¬ Through false false first second k X Z := by
  obtain ⟨first, hm⟩ := monoFile'
  obtain ⟨second, hb⟩ := biFile
  refine ⟨first, second, joinable_of hm hb ⟨_, _, mono'_has hm⟩ (by decide), ?_⟩
  rintro k X Z ⟨Y, h1, Y', k', h2, h3⟩
  obtain ⟨Y0, rfl⟩ := mono'_pairs hm h1
  obtain ⟨-, rfl⟩ := bi_pairs hb h3
  cases h2 with
  | cons g1 g2 => rcases g1 with g | ⟨g, -⟩ | ⟨g, -⟩ | ⟨g, -⟩ | ⟨g, -⟩ <;> simp at g

/-! ## `-a` -/

/-- `ab:a<n>b`. -/
def longSec : Transducer Dbl :=
  { initial := 0
    finals := [(3, 0)]
    transitions := [(0, [(1, (1, 0))]), (1, [(2, (2, 0))]), (2, [(4, (3, 0))]), (3, [])] }

theorem longSec_part : Part monoAlpha longSec :=
  part_of_check (by decide) (by decide) (by simp [arcsOf, longSec]) (by simp [longSec]) (by decide) (by decide)

theorem longFile : ∃ bs, Dictionary bs [0x61, 0x62] monoAlpha [(sec, longSec)] := by
  obtain ⟨bs, -, h⟩ := Tools.written (L := [0x61, 0x62]) (a := monoAlpha) (ts := [(sec, longSec)]) ⟨by decide, by decide, by decide⟩ monoAlpha_sane (by simp) (by decide)
    (by simpa using longSec_part) (by decide) (by decide) (by decide)
  exact ⟨bs, h⟩

theorem long_has {bs : List UInt8} (h : Dictionary bs [0x61, 0x62] monoAlpha [(sec, longSec)]) :
    Pairs bs sec [.letter 0x61, .letter 0x62] [.letter 0x61, .tag Trim.tagN, .letter 0x62] := by
  refine (pairs_iff h).2 ⟨longSec, by simp, [0x61, 0x62], [0x61, -1, 0x62], ⟨[((0x61, 0x61), 0), ((0, -1), 0), ((0x62, 0x62), 0)], 0, ⟨3, ?_, by simp [Final, longSec]⟩, by decide, by decide⟩, ?_, ?_⟩
  · refine Path.cons (r := 1) ⟨1, by decide, (edge_iff_arcs (by decide) _ _ _).2 ?_⟩ (Path.cons (r := 2) ⟨2, by decide, (edge_iff_arcs (by decide) _ _ _).2 ?_⟩
      (Path.cons (r := 3) ⟨4, by decide, (edge_iff_arcs (by decide) _ _ _).2 ?_⟩ (.nil 3)))
    all_goals simp [arcsOf, longSec]
  · exact .cons (.inl ⟨by decide, rfl⟩) (.cons (.inl ⟨by decide, rfl⟩) .nil)
  · exact .cons (.inl ⟨by decide, rfl⟩) (.cons (.inr ⟨by decide, Trim.tagN, by decide, rfl⟩) (.cons (.inl ⟨by decide, rfl⟩) .nil))

theorem long_edge {q p : Nat} {l : (Int × Int) × Dbl} (h : PairEdge monoAlpha longSec q l p) :
    (q = 0 ∧ p = 1 ∧ l.1 = (0x61, 0x61)) ∨ (q = 1 ∧ p = 2 ∧ l.1 = (0, -1)) ∨ (q = 2 ∧ p = 3 ∧ l.1 = (0x62, 0x62)) := by
  obtain ⟨c, h1, h2⟩ := h
  rw [edge_iff_arcs (by decide)] at h2
  have : (q = 0 ∧ c = 1 ∧ p = 1) ∨ (q = 1 ∧ c = 2 ∧ p = 2) ∨ (q = 2 ∧ c = 4 ∧ p = 3) := by
    have := by simpa [arcsOf, longSec] using h2
    rcases this with ⟨rfl, rfl, rfl, -⟩ | ⟨rfl, rfl, rfl, -⟩ | ⟨rfl, rfl, rfl, -⟩ <;> simp
  rcases this with ⟨rfl, rfl, rfl⟩ | ⟨rfl, rfl, rfl⟩ | ⟨rfl, rfl, rfl⟩
  · have e : monoAlpha.decode 1 = .ok (0x61, 0x61) := by decide
    rw [e] at h1
    have := Res.ok.inj h1
    simp [← this]
  · have e : monoAlpha.decode 2 = .ok (0, -1) := by decide
    rw [e] at h1
    have := Res.ok.inj h1
    simp [← this]
  · have e : monoAlpha.decode 4 = .ok (0x62, 0x62) := by decide
    rw [e] at h1
    have := Res.ok.inj h1
    simp [← this]

theorem long_pairs {bs : List UInt8} (h : Dictionary bs [0x61, 0x62] monoAlpha [(sec, longSec)]) {k : UString} {X Y : List Name} (hp : Pairs bs k X Y) :
    Y = [.letter 0x61, .tag Trim.tagN, .letter 0x62] := by
  obtain ⟨t, h1, x, y, ⟨ls, fw, ⟨p, h2, h3⟩, rfl, rfl⟩, -, h4⟩ := (pairs_iff h).1 hp
  have : k = sec ∧ t = longSec := by simpa using h1
  obtain ⟨rfl, rfl⟩ := this
  have : p = 3 ∧ fw = 0 := by simpa [Final, longSec] using h3
  obtain ⟨rfl, rfl⟩ := this
  cases h2 with
  | @cons _ p1 _ l1 ls1 e1 t1 =>
    rcases long_edge e1 with ⟨-, rfl, f1⟩ | ⟨h, -⟩ | ⟨h, -⟩
    · cases t1 with
      | @cons _ p2 _ l2 ls2 e2 t2 =>
        rcases long_edge e2 with ⟨h, -⟩ | ⟨-, rfl, f2⟩ | ⟨h, -⟩
        · omega
        · cases t2 with
          | @cons _ p3 _ l3 ls3 e3 t3 =>
            rcases long_edge e3 with ⟨h, -⟩ | ⟨h, -⟩ | ⟨-, rfl, f3⟩
            · omega
            · omega
            · cases t3 with
              | nil =>
                rw [List.map_cons, List.map_cons, List.map_cons, List.map_nil, f1, f2, f3] at h4
                simp only [ne_eq, decide_not, List.filter_cons, List.filter_nil] at h4
                norm_num at h4
                cases h4 with
                | cons g1 g2 =>
                  cases g2 with
                  | cons g2 g3 =>
                    cases g3 with
                    | cons g3 g4 =>
                      cases g4
                      rw [named_letter (by norm_num) g1, named_tagN (by decide) g2, named_letter (by norm_num) g3]
              | cons e4 _ => rcases long_edge e4 with ⟨h, -⟩ | ⟨h, -⟩ | ⟨h, -⟩ <;> omega
        · omega
    · cases h
    · cases h

theorem bi_right {bs : List UInt8} (h : Dictionary bs [0x61] biAlpha [(sec, biSec)]) {k : UString} {X Y : List Name} (hp : Pairs bs k X Y) :
    Y.length = 2 := by
  obtain ⟨t, h1, x, y, ⟨ls, fw, ⟨p, h2, h3⟩, rfl, rfl⟩, -, h4⟩ := (pairs_iff h).1 hp
  have : k = sec ∧ t = biSec := by simpa using h1
  obtain ⟨rfl, rfl⟩ := this
  have hp := bi_final h3
  subst hp
  rw [← h4.length_eq]
  cases h2 with
  | @cons _ p1 _ l1 ls1 e1 t1 =>
    rcases bi_edge e1 with ⟨-, rfl, f1⟩ | ⟨h, -⟩
    · cases t1 with
      | @cons _ p2 _ l2 ls2 e2 t2 =>
        rcases bi_edge e2 with ⟨h, -⟩ | ⟨-, rfl, f2⟩
        · omega
        · cases t2 with
          | nil => rw [List.map_cons, List.map_cons, List.map_nil, f1, f2]; rfl
          | cons e3 _ => rcases bi_edge e3 with ⟨h, -⟩ | ⟨h, -⟩ <;> omega
    · cases h

theorem bi_closed {bs : List UInt8} (h : Dictionary bs [0x61] biAlpha [(sec, biSec)]) : Closed bs := by
  intro U V hUV
  obtain ⟨k, hk⟩ := hUV _ _ _ (bi_has h)
  have h1 := congrArg List.length (bi_pairs h hk).2
  have h2 := bi_right h hk
  simp at h1 h2
  exact ⟨h1, h2⟩

-- `ab:a<n>b` and `a<n>:x<n>` with `-a`
example : ∃ first second, Joinable noWeight first second [0x61, 0x62] [0x61] monoAlpha biAlpha [(sec, longSec)] [(sec, biSec)] ∧ Closed second ∧
    Fits (composeSets false true monoAlpha (storedAll noWeight [(sec, longSec)]) biAlpha (storedAll noWeight [(sec, biSec)])) ∧
    ∃ k X Y Z, Reads false first k X Y ∧ (X ≠ [] ∨ Y ≠ []) ∧ Made true second Y Z := by
  obtain ⟨first, hm⟩ := longFile
  obtain ⟨second, hb⟩ := biFile
  exact ⟨first, second, joinable_of hm hb ⟨_, _, long_has hm⟩ (by decide), bi_closed hb, fits_of_check (by decide +kernel), sec, _, _, _, long_has hm, by simp, .inl rfl⟩

/-- **C84** The manual (lttoolbox/lt-compose.1:16-24) says that with `-a` the second file is read as if surrounded by `.*` on both sides. It is not:
after the second file has read something, nothing more is kept. With `ab:a<n>b` in the first file and `a<n>:x<n>` in the second, `ab:x<n>b` is not
in the result. -/
theorem C84_anywhere_false :
    ¬ ∀ (g : Nat → Dbl) (first second bs : List UInt8) (k k' : UString) (X K Y R Z : List Name),
      (∃ a ts, Dictionary first [0x61, 0x62] a ts) → (∃ b us, Dictionary second [0x61] b us) → (∀ w, Kept (g w)) →
      ltCompose noWeight g false true first second = .ok bs → Pairs first k X (K ++ Y ++ R) → Pairs second k' Y Z → Pairs bs k X (K ++ Z ++ R) := by
  intro hall
  obtain ⟨first, hm⟩ := longFile
  obtain ⟨second, hb⟩ := biFile
  have hJ := joinable_of hm hb ⟨_, _, long_has hm⟩ (by decide)
  obtain ⟨bs, a', rs, h1, -, -, h2, -⟩ := C84_compose_partial (fun _ => 0) (fun _ => kept_zero) hJ false true (fun _ => bi_closed hb) (fits_of_check (by decide +kernel))
    ⟨sec, _, _, _, long_has hm, by simp, .inl rfl⟩
  have h3 := hall (fun _ => 0) first second bs sec sec _ [] [.letter 0x61, .tag Trim.tagN] [.letter 0x62] _ ⟨_, _, hm⟩ ⟨_, _, hb⟩ (fun _ => kept_zero) h1 (long_has hm) (bi_has hb)
  obtain ⟨Y, g1, g2⟩ := h2 _ _ _ h3
  have hY := long_pairs hm g1
  subst hY
  rcases g2 with g2 | ⟨K, Y1, Z1, g2, -, Y', k', g3, g4⟩
  · simp at g2
  · obtain ⟨-, rfl⟩ := bi_pairs hb g4
    have hl := g3.length_eq
    have hl2 := congrArg List.length g2
    simp at hl hl2
    rcases K with _ | ⟨c, _ | ⟨d, K⟩⟩
    · simp at hl2; omega
    · simp only [List.cons_append, List.nil_append, List.cons.injEq] at g2
      obtain ⟨-, rfl⟩ := g2
      cases g3 with
      | cons g5 _ => rcases g5 with g | ⟨g, -⟩ | ⟨g, -⟩ | ⟨g, -⟩ | ⟨g, -⟩ <;> first | (simp at g; done) | (simp at g; exact absurd g (by decide))
    · simp at hl2; omega

end Verif.Composed
