import Verif.Product.Spec
import Verif.Product.Compose
import Verif.Transducer.Check

/-! # Checking the conditions for concrete transducers -/

namespace Verif.Product

open Verif.Fst Verif.Alphabet

variable {W : Type}

/-- All arcs with the pairs of their labels. -/
def pairArcs (a : Alphabet) (t : Transducer W) : List (Nat × (Pair × W) × Nat) :=
  (arcsOf t.transitions).filterMap fun e => match a.decode e.2.1 with
    | .ok pr => some (e.1, (pr, e.2.2.2), e.2.2.1)
    | _ => none

theorem pairEdge_iff {a : Alphabet} {t : Transducer W} (h : checkWF t = true) {q : Nat} {l : Pair × W} {p : Nat} :
    PairEdge a t q l p ↔ (q, l, p) ∈ pairArcs a t := by
  unfold PairEdge pairArcs
  simp only [edge_iff_arcs h, List.mem_filterMap]
  constructor
  · rintro ⟨c, h1, h2⟩
    exact ⟨_, h2, by simp [h1]⟩
  · rintro ⟨⟨q', c, p', w⟩, h1, h2⟩
    simp only at h2
    split at h2
    · next pr hd =>
      cases h2
      exact ⟨c, hd, h1⟩
    · cases h2

theorem named_of_le {a : Alphabet} {x : Int} (h : -(a.slexicinv.length : Int) ≤ x) : ∃ n, Named a x n := by
  by_cases hx : 0 ≤ x
  · exact ⟨.letter x, .inl ⟨hx, rfl⟩⟩
  · have hlt : (-x - 1).toNat < a.slexicinv.length := by omega
    refine ⟨.tag a.slexicinv[(-x - 1).toNat], named_tag.2 ⟨by omega, ?_⟩⟩
    rw [List.getElem?_eq_getElem hlt]

/-- All labels are codes, and all tags in them are known. -/
def checkCoded (a : Alphabet) (t : Transducer W) : Bool :=
  (arcsOf t.transitions).all fun e => match a.decode e.2.1 with
    | .ok pr => decide (-(a.slexicinv.length : Int) ≤ pr.1 ∧ -(a.slexicinv.length : Int) ≤ pr.2)
    | _ => false

theorem coded_of_check {a : Alphabet} {t : Transducer W} (h : checkWF t = true) (hc : checkCoded a t = true) : Coded a t ∧ TagsKnown a t := by
  unfold checkCoded at hc
  rw [List.all_eq_true] at hc
  constructor
  · intro q l p he
    rw [edge_iff_arcs h] at he
    have := hc _ he
    simp only at this
    split at this
    · next pr hd => exact ⟨pr, hd⟩
    · cases this
  · rintro q l p ⟨c, hd, he⟩
    rw [edge_iff_arcs h] at he
    have := hc _ he
    simp only [hd, decide_eq_true_eq] at this
    exact ⟨named_of_le this.1, named_of_le this.2⟩

theorem trimmable_of_check {a b : Alphabet} {t g : Transducer W} (ha : Reachable a) (hb : Reachable b) (h1 : checkWF t = true) (h2 : checkWF g = true)
    (h3 : checkCoded a t = true) (h4 : checkCoded b g = true) (h5 : t.finals ≠ []) : Trimmable a b t g :=
  ⟨ha.ok, hb.ok, wf_of_check h1, wf_of_check h2, (coded_of_check h1 h3).1, (coded_of_check h2 h4).1, (coded_of_check h1 h3).2, (coded_of_check h2 h4).2, h5⟩

/-- A path that is given with its states. -/
def checkPath [DecidableEq W] (a : Alphabet) (t : Transducer W) : Nat → List ((Pair × W) × Nat) → Nat → Bool
  | q, [], p => decide (q = p)
  | q, (l, r) :: ls, p => decide ((q, l, r) ∈ pairArcs a t) && checkPath a t r ls p

theorem path_of_check [DecidableEq W] {a : Alphabet} {t : Transducer W} (h : checkWF t = true) (ls : List ((Pair × W) × Nat)) (q p : Nat) (hp : checkPath a t q ls p = true) :
    Path (PairEdge a t) q (ls.map (·.1)) p := by
  induction ls generalizing q with
  | nil =>
    simp only [checkPath, decide_eq_true_eq] at hp
    subst hp; exact .nil _
  | cons l ls ih =>
    obtain ⟨l, r⟩ := l
    simp only [checkPath, Bool.and_eq_true, decide_eq_true_eq] at hp
    exact .cons ((pairEdge_iff h).2 hp.1) (ih r hp.2)

theorem relates_of_check [DecidableEq W] [AddMonoid W] {a : Alphabet} {t : Transducer W} (h : checkWF t = true) (ls : List ((Pair × W) × Nat)) (p : Nat) (fw : W)
    (hp : checkPath a t t.initial ls p = true) (hf : (p, fw) ∈ t.finals) {x y : List Int} {w : W} (hx : x = ((ls.map (·.1)).map (·.1.1)).filter (· ≠ 0))
    (hy : y = ((ls.map (·.1)).map (·.1.2)).filter (· ≠ 0)) (hw : w = ((ls.map (·.1)).map (·.2)).sum + fw) : Relates a t x y w :=
  ⟨ls.map (·.1), fw, ⟨p, path_of_check h ls _ _ hp, hf⟩, hx, hy, hw⟩

end Verif.Product
