import Verif.Product.Search
import Verif.Product.Spec

/-! # What one turn of `trim` does, as a list of steps -/

namespace Verif.Product

open Verif.Fst Verif.Alphabet

variable {W : Type}

inductive Step (W : Type)
  /-- an arc without a symbol -/
  | eps (n : Three) (label : Int) (w : W)
  | visit (n : Three) (label : Int) (w : W)
  /-- an arc to a state that becomes final -/
  | fin (n : Three) (label : Int) (w : W)
  /-- another name for the current state -/
  | again (n : Three)

def exec [Zero W] (src : Nat) : List (Step W) → Search Three W → Res (Search Three W)
  | [], s => .ok s
  | .eps n label w :: r, s => do exec src r (← link src n label w (if n ∈ s.seen then s else newId n { s with todo := n :: s.todo }))
  | .visit n label w :: r, s => do exec src r (← Product.visit src n label w s)
  | .fin n label w :: r, s => do
    let s ← Product.visit src n label w s
    exec src r { s with t := setFinal (idOf n s) 0 true s.t }
  | .again n :: r, s => exec src r { s with ids := mapInsert n src s.ids }

theorem exec_append [Zero W] (src : Nat) (xs ys : List (Step W)) (s : Search Three W) : exec src (xs ++ ys) s = exec src xs s >>= exec src ys := by
  induction xs generalizing s with
  | nil => rfl
  | cons x xs ih =>
    cases x with
    | eps n l w =>
      simp only [List.cons_append, exec]
      cases link src n l w (if n ∈ s.seen then s else newId n { s with todo := n :: s.todo }) <;> simp only [Res.bind_ok, ih] <;> rfl
    | visit n l w =>
      simp only [List.cons_append, exec]
      cases Product.visit src n l w s <;> simp only [Res.bind_ok, ih] <;> rfl
    | fin n l w =>
      simp only [List.cons_append, exec]
      cases Product.visit src n l w s <;> simp only [Res.bind_ok, ih] <;> rfl
    | again n => simp only [List.cons_append, exec, ih]

/-- Where the steps lead. -/
def Step.target : Step W → Option Three
  | .eps n _ _ => some n
  | .visit n _ _ => some n
  | .fin n _ _ => some n
  | .again _ => none

section
variable (t trimmer : Transducer W) (thisA trimmerA : Alphabet) (ε : Int)

def epsSteps (thisSrc trimmerSrc preplus : Nat) : Row W → Nat → List (Step W) × Nat
  | [], next => ([], next)
  | (label, trg, wt) :: arcs, next =>
    let next := if preplus = trimmerSrc then trg else next
    ((match trimmerA.decode label with
      | .ok p => if p.1 = 0 then [.eps (three thisSrc trg next) ε wt] else []
      | _ => []) ++ (epsSteps thisSrc trimmerSrc preplus arcs next).1, (epsSteps thisSrc trimmerSrc preplus arcs next).2)

def matchSteps (trimmerSrc preplus : Nat) (right label : Int) (thisTrg : Nat) (thisWt : W) : Row W → Nat → List (Step W) × Nat
  | [], next => ([], next)
  | (l, trg, _) :: arcs, next =>
    let next := if preplus = trimmerSrc then trg else next
    ((match trimmerA.decode l with
      | .ok p => if p.1 ≠ 0 ∧ thisA.sameSymbol right trimmerA p.1 true = .ok true then [.visit (three thisTrg trg next) label thisWt] else []
      | _ => []) ++ (matchSteps trimmerSrc preplus right label thisTrg thisWt arcs next).1,
      (matchSteps trimmerSrc preplus right label thisTrg thisWt arcs next).2)

/-- The steps for the special symbols, whether the rest is skipped, and the new value of `trimmer_preplus_next`. -/
def specialSteps (preplus trimmerSrc next : Nat) (right label : Int) (trg : Nat) (wt : W) : List (Step W) × Bool × Nat :=
  let next' := if preplus = trimmerSrc then trimmerSrc else next
  if right ∈ symWb thisA then
    let n := three trg trimmer.initial next'
    ([if right ∈ symLsx thisA ∧ isFinal t trg then .fin n label wt else .visit n label wt], decide (right ≠ 0x2b), next')
  else if right ∈ symCmpOrEps thisA then ([.visit (three trg trimmerSrc next') label wt], true, next')
  else ([], false, next)

def arcSteps (thisSrc preplus : Nat) : Row W → (trimmerSrc next : Nat) → List (Step W)
  | [], _, _ => []
  | (label, trg, wt) :: arcs, trimmerSrc, next =>
    match thisA.decode label with
    | .ok p =>
      let right := p.2
      let sp := specialSteps t trimmer thisA preplus trimmerSrc next right label trg wt
      if sp.2.1 then sp.1 ++ arcSteps thisSrc preplus arcs trimmerSrc sp.2.2
      else
        let back : Bool := right = 0x23 ∧ preplus ≠ trimmerSrc
        let src := if back then preplus else trimmerSrc
        let ms := matchSteps thisA trimmerA src preplus right label trg wt (row trimmer src) sp.2.2
        sp.1 ++ ((if back then [.again (three thisSrc preplus preplus)] else []) ++ (ms.1 ++ arcSteps thisSrc preplus arcs src ms.2))
    | _ => []

def steps (c : Three) : List (Step W) :=
  let p := (ofLex c).1
  let q := (ofLex (ofLex c).2).1
  let r := (ofLex (ofLex c).2).2
  let es := epsSteps trimmerA ε p q r (row trimmer q) r
  es.1 ++ arcSteps t trimmer thisA trimmerA p r (row t p) q es.2

end

/-! ## The program runs these steps -/

variable {t trimmer : Transducer W} {thisA trimmerA : Alphabet} {ε : Int}

theorem trimEps_eq [Zero W] (hg : Coded trimmerA trimmer) (thisSrc trimmerSrc preplus src : Nat) (arcs : Row W)
    (h : ∀ e ∈ arcs, e ∈ row trimmer trimmerSrc) (next : Nat) (s : Search Three W) :
    trimEps trimmerA ε thisSrc trimmerSrc preplus src arcs next s =
      (do pure ((epsSteps trimmerA ε thisSrc trimmerSrc preplus arcs next).2,
        ← exec src (epsSteps trimmerA ε thisSrc trimmerSrc preplus arcs next).1 s)) := by
  induction arcs generalizing next s with
  | nil => rfl
  | cons e arcs ih =>
    obtain ⟨label, trg, wt⟩ := e
    have he : Edge trimmer trimmerSrc (label, wt) trg := h _ (List.mem_cons_self ..)
    obtain ⟨p, hp⟩ := hg _ _ _ he
    have ih := ih fun e he => h e (List.mem_cons_of_mem _ he)
    rw [trimEps, epsSteps]
    simp only [hp, Res.bind_ok]
    by_cases h0 : p.1 = 0
    · rw [if_pos h0, if_pos h0]
      simp only [List.singleton_append, exec]
      cases link src (three thisSrc trg (if preplus = trimmerSrc then trg else next)) ε wt _ <;> simp only [Res.bind_ok, ih] <;> rfl
    · rw [if_neg h0, if_neg h0, ih]
      simp only [List.nil_append]

theorem trimMatch_eq [Zero W] (hg : Coded trimmerA trimmer) (htags : TagsKnown trimmerA trimmer) (trimmerSrc preplus src : Nat) (right : Int)
    (label : Int) (thisTrg : Nat) (thisWt : W) (arcs : Row W) (h : ∀ e ∈ arcs, e ∈ row trimmer trimmerSrc) (next : Nat) (s : Search Three W)
    (hsame : ∀ y m, Named trimmerA y m → ∃ b, thisA.sameSymbol right trimmerA y true = .ok b) :
    trimMatch thisA trimmerA trimmerSrc preplus src right label thisTrg thisWt arcs next s =
      (do pure ((matchSteps thisA trimmerA trimmerSrc preplus right label thisTrg thisWt arcs next).2,
        ← exec src (matchSteps thisA trimmerA trimmerSrc preplus right label thisTrg thisWt arcs next).1 s)) := by
  induction arcs generalizing next s with
  | nil => rfl
  | cons e arcs ih =>
    obtain ⟨l, trg, wt⟩ := e
    have he : Edge trimmer trimmerSrc (l, wt) trg := h _ (List.mem_cons_self ..)
    obtain ⟨p, hp⟩ := hg _ _ _ he
    obtain ⟨⟨m, hm⟩, -⟩ := htags _ (p, wt) _ ⟨l, hp, he⟩
    obtain ⟨b, hb⟩ := hsame _ m hm
    have ih := ih fun e he => h e (List.mem_cons_of_mem _ he)
    simp only at hb
    rw [trimMatch, matchSteps]
    simp only [hp, Res.bind_ok, hb]
    by_cases h0 : p.1 ≠ 0
    · cases b
      · simp [h0, ih]
      · simp only [h0, ne_eq, not_false_eq_true, if_true, and_self, List.singleton_append, exec]
        cases Product.visit src (three thisTrg trg (if preplus = trimmerSrc then trg else next)) label thisWt s <;> simp only [Res.bind_ok, ih] <;> rfl
    · simp [not_not.1 h0, ih]

theorem trimArcs_eq [Zero W] (hg : Coded trimmerA trimmer) (htags : TagsKnown trimmerA trimmer) (hf : Coded thisA t) (ftags : TagsKnown thisA t) (hgw : WF trimmer)
    (hsame : ∀ x n y m, Named thisA x n → Named trimmerA y m → ∃ b, thisA.sameSymbol x trimmerA y true = .ok b)
    (thisSrc preplus src : Nat) (hpre : preplus < Fst.size trimmer) (arcs : Row W) (h : ∀ e ∈ arcs, e ∈ row t thisSrc) (trimmerSrc next : Nat) (hsrc : trimmerSrc < Fst.size trimmer)
    (s : Search Three W) :
    trimArcs t trimmer thisA trimmerA thisSrc preplus src arcs trimmerSrc next s = exec src (arcSteps t trimmer thisA trimmerA thisSrc preplus arcs trimmerSrc next) s := by
  induction arcs generalizing trimmerSrc next s with
  | nil => rfl
  | cons e arcs ih =>
    obtain ⟨label, trg, wt⟩ := e
    have he : Edge t thisSrc (label, wt) trg := h _ (List.mem_cons_self ..)
    obtain ⟨p, hp⟩ := hf _ _ _ he
    obtain ⟨-, m, hm⟩ := ftags _ (p, wt) _ ⟨label, hp, he⟩
    simp only at hm
    have ih := ih fun e he => h e (List.mem_cons_of_mem _ he)
    rw [trimArcs, arcSteps]
    simp only [hp, Res.bind_ok]
    -- the first part is the special steps
    have hspec : trimSpecial t trimmer thisA preplus src trimmerSrc next p.2 label trg wt s = (do
          let s ← exec src (specialSteps t trimmer thisA preplus trimmerSrc next p.2 label trg wt).1 s
          pure ((specialSteps t trimmer thisA preplus trimmerSrc next p.2 label trg wt).2.1,
            (specialSteps t trimmer thisA preplus trimmerSrc next p.2 label trg wt).2.2, s) : Res (Bool × Nat × Search Three W)) := by
      unfold specialSteps trimSpecial
      by_cases h1 : p.2 ∈ symWb thisA
      · simp only [if_pos h1]
        by_cases h2 : p.2 ∈ symLsx thisA ∧ isFinal t trg = true
        · simp only [if_pos h2, exec]
          cases Product.visit src (three trg trimmer.initial (if preplus = trimmerSrc then trimmerSrc else next)) label wt s <;> rfl
        · simp only [if_neg h2, exec]
          cases Product.visit src (three trg trimmer.initial (if preplus = trimmerSrc then trimmerSrc else next)) label wt s <;> rfl
      · simp only [if_neg h1]
        by_cases h2 : p.2 ∈ symCmpOrEps thisA
        · simp only [if_pos h2, exec]
          cases Product.visit src (three trg trimmerSrc (if preplus = trimmerSrc then trimmerSrc else next)) label wt s <;> rfl
        · simp only [if_neg h2, exec, Res.bind_ok]
    rw [hspec]
    generalize specialSteps t trimmer thisA preplus trimmerSrc next p.2 label trg wt = sp
    obtain ⟨pre, special, next'⟩ := sp
    cases special
    · simp only [Bool.false_eq_true, if_false]
      rw [exec_append]
      cases exec src pre s with
      | ok s1 =>
        simp only [Res.bind_ok, Res.pure_eq]
        generalize decide (p.2 = 0x23 ∧ preplus ≠ trimmerSrc) = back
        have hb : (if back = true then preplus else trimmerSrc) < Fst.size trimmer := by split <;> assumption
        rw [if_pos ((exists_iff hgw _).2 hb),
          trimMatch_eq hg htags _ _ _ _ label trg wt _ (fun _ h => h) _ _ (fun y k => hsame _ _ _ _ hm), exec_append]
        cases back
        · simp only [Bool.false_eq_true, if_false, exec, Res.bind_ok]
          rw [exec_append]
          generalize exec (W := W) src _ _ = z
          cases z <;> simp [ih _ _ hsrc]
        · simp only [if_true, exec, Res.bind_ok]
          rw [exec_append]
          generalize exec (W := W) src _ _ = z
          cases z <;> simp [ih _ _ hpre]
      | _ => rfl
    · simp only [if_true]
      rw [exec_append]
      cases exec src pre s with
      | ok s1 => simp [ih _ _ hsrc]
      | _ => rfl

theorem trimTurn_eq [Zero W] (hg : Coded trimmerA trimmer) (htags : TagsKnown trimmerA trimmer) (hf : Coded thisA t) (ftags : TagsKnown thisA t) (hgw : WF trimmer)
    (hsame : ∀ x n y m, Named thisA x n → Named trimmerA y m → ∃ b, thisA.sameSymbol x trimmerA y true = .ok b)
    {c : Three} (hq : (ofLex (ofLex c).2).1 < Fst.size trimmer) (hr : (ofLex (ofLex c).2).2 < Fst.size trimmer) {i : Nat} (s : Search Three W) (hc : mapFind c s.ids = some i) :
    trimTurn t trimmer thisA trimmerA ε c s = exec i (steps t trimmer thisA trimmerA ε c) { s with seen := setInsert c s.seen } := by
  unfold trimTurn steps
  simp only [hc]
  rw [trimEps_eq hg _ _ _ _ _ (fun _ h => h), exec_append]
  cases exec i (epsSteps trimmerA ε (ofLex c).1 (ofLex (ofLex c).2).1 (ofLex (ofLex c).2).2 (row trimmer (ofLex (ofLex c).2).1) (ofLex (ofLex c).2).2).1 { s with seen := setInsert c s.seen } with
  | ok s1 =>
    simp only [Res.bind_ok, Res.pure_eq]
    exact trimArcs_eq hg htags hf ftags hgw hsame _ _ _ hr _ (fun _ h => h) _ _ hq _
  | _ => rfl

end Verif.Product
