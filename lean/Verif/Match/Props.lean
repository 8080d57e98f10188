import Verif.Match.Lemmas
import Verif.Transducer.Check
import Mathlib.Tactic.Use

/-! # Matching patterns -/

namespace Verif.Match

open Verif.Fst Verif.SortedVec

/-- The destinations under a symbol. -/
def succs (nodes : Nat → Table Nat) (p : Nat) (x : Int) : List Nat := ((nodes p).filter fun e => e.1 = x).map (·.2)

/-- What alive nodes become when one of the symbols `xs` is read. -/
def after (nodes : Nat → Table Nat) (xs : List Int) (l : List Nat) : List Nat := l.flatMap fun p => xs.flatMap (succs nodes p)

/-- `init` and then a `step` for each list of symbols, on a new object. -/
def run (nodes : Nat → Table Nat) (q : Nat) (ss : List (List Int)) : Res MatchState :=
  ss.foldl (fun s xs => s.bind (stepWith nodes xs)) (.ok (MatchState.new.init q))

/-- At every step the old and the new nodes together are at most 1024, and the new ones fewer. -/
def Fits (nodes : Nat → Table Nat) : List Nat → List (List Int) → Prop
  | _, [] => True
  | l, xs :: ss => l.length + (after nodes xs l).length ≤ 1024 ∧ (after nodes xs l).length < 1024 ∧ Fits nodes (after nodes xs l) ss

/-- `q` is reached from `q0` by reading one symbol of each list. -/
def Reached (nodes : Nat → Table Nat) (q0 : Nat) (ss : List (List Int)) (q : Nat) : Prop :=
  ∃ xs, List.Forall₂ (fun x s => x ∈ s) xs ss ∧ Path (fun q x p => (x, p) ∈ nodes q) q0 xs q

/-- `r` is the least allowed rule of the nodes in `S`, or -1. -/
def Least (S : Nat → Prop) (finals : List (Nat × Int)) (banned : List Int) (r : Int) : Prop :=
  (∃ p, S p ∧ mapFind p finals = some r ∧ r ∉ banned ∧ ∀ p' r', S p' → mapFind p' finals = some r' → r' ∉ banned → r ≤ r') ∨
  (r = -1 ∧ ∀ p' r', S p' → mapFind p' finals = some r' → r' ∈ banned)

/-! ## Lemmas -/

/-- What the binary search answers. -/
def found (nodes : Nat → Table Nat) (p : Nat) (x : Int) : Option Nat :=
  match search (nodes p) x with
  | .ok r => r
  | _ => none

theorem search_found {nodes : Nat → Table Nat} (hs : ∀ p, (nodes p).Pairwise fun a b => a.1 ≤ b.1) (p : Nat) (x : Int) :
    search (nodes p) x = .ok (found nodes p x) := by
  unfold found
  rcases C44_search (nodes p) x (hs p) with ⟨d, h, -⟩ | ⟨h, -⟩ <;> rw [h]

theorem found_mem {nodes : Nat → Table Nat} (hs : ∀ p, (nodes p).Pairwise fun a b => a.1 ≤ b.1) {p : Nat} {x : Int} {d : Nat}
    (h : found nodes p x = some d) : (x, d) ∈ nodes p := by
  rcases C44_search (nodes p) x (hs p) with ⟨d', h1, h2⟩ | ⟨h1, -⟩
  · rw [search_found hs, h] at h1
    cases h1
    exact h2
  · rw [search_found hs, h] at h1
    cases h1

theorem found_succs {nodes : Nat → Table Nat} (hs : ∀ p, (nodes p).Pairwise fun a b => a.1 < b.1) (p : Nat) (x : Int) :
    (found nodes p x).toList = succs nodes p x := by
  have hs' : ∀ p, (nodes p).Pairwise fun a b => a.1 ≤ b.1 := fun p => (hs p).imp fun h => Int.le_of_lt h
  have key : ∀ (t : Table Nat), t.Pairwise (fun a b => a.1 < b.1) → ∀ d, (x, d) ∈ t → (t.filter fun e => e.1 = x).map (·.2) = [d] := by
    intro t
    induction t with
    | nil => intro _ d h; simp at h
    | cons e t ih =>
      intro ht d hd
      rw [List.pairwise_cons] at ht
      rcases List.mem_cons.1 hd with rfl | hd
      · rw [List.filter_cons_of_pos (by simp)]
        have : t.filter (fun e => decide (e.1 = x)) = [] := by
          rw [List.filter_eq_nil_iff]
          intro e he
          have := ht.1 e he
          simp only [decide_eq_true_eq]
          simp only at this
          omega
        rw [this]
        rfl
      · have := ht.1 (x, d) hd
        rw [List.filter_cons_of_neg (by simp only [decide_eq_true_eq]; simp only at this; omega)]
        exact ih ht.2 d hd
  unfold succs
  rcases C44_search (nodes p) x (hs' p) with ⟨d, h, hm⟩ | ⟨h, hm⟩
  · rw [search_found hs'] at h
    rw [Res.ok.inj h, key _ (hs p) d hm]
    rfl
  · rw [search_found hs'] at h
    rw [Res.ok.inj h]
    have : (nodes p).filter (fun e => decide (e.1 = x)) = [] := by
      rw [List.filter_eq_nil_iff]
      rintro ⟨y, d⟩ he
      simp only [decide_eq_true_eq]
      rintro rfl
      exact hm d he
    rw [this]
    rfl

theorem moved_after {nodes : Nat → Table Nat} (hs : ∀ p, (nodes p).Pairwise fun a b => a.1 < b.1) (xs : List Int) (l : List Nat) :
    moved (found nodes) xs l = after nodes xs l := by
  unfold moved after
  congr 1
  funext p
  induction xs with
  | nil => rfl
  | cons x xs ih =>
    rw [List.flatMap_cons, ← ih, ← found_succs hs]
    cases hd : found nodes p x <;> simp [List.filterMap_cons, hd]

theorem ring_init (q : Nat) : Ring (MatchState.new.init q) [q] := by
  refine ⟨by simp [MatchState.init, MatchState.new], (by decide : 1 < bufLimit), bufLimit_pos, rfl, ?_⟩
  intro i p hi
  cases i with
  | zero =>
    simp only [List.getElem?_cons_zero, Option.some.injEq] at hi
    subst hi
    unfold MatchState.init MatchState.new
    simp only [Nat.zero_add, Nat.zero_mod]
    rw [List.getElem?_set_self (by rw [List.length_replicate]; exact bufLimit_pos)]
  | succ i => simp at hi

theorem foldl_bind_not_ok {A B : Type} (f : A → B → Res A) (r : Res A) (hr : ∀ a, r ≠ .ok a) (l : List B) :
    ∀ a, l.foldl (fun s x => s.bind fun s => f s x) r ≠ .ok a := by
  induction l generalizing r with
  | nil => exact hr
  | cons x l ih =>
    rw [List.foldl_cons]
    apply ih
    cases r with
    | ok a => exact absurd rfl (hr a)
    | _ => intro a h; cases h

theorem run_ring {nodes : Nat → Table Nat} (hs : ∀ p, (nodes p).Pairwise fun a b => a.1 < b.1) (ss : List (List Int)) :
    ∀ (s : MatchState) (l : List Nat), Ring s l → Fits nodes l ss →
      ∃ s', ss.foldl (fun s xs => s.bind (stepWith nodes xs)) (Res.ok s) = .ok s' ∧ Ring s' (ss.foldl (fun l xs => after nodes xs l) l) := by
  have hs' : ∀ p, (nodes p).Pairwise fun a b => a.1 ≤ b.1 := fun p => (hs p).imp fun h => Int.le_of_lt h
  induction ss with
  | nil => intro s l h _; exact ⟨s, rfl, h⟩
  | cons xs ss ih =>
    rintro s l h ⟨h1, h2, h3⟩
    obtain ⟨s1, e1, r1⟩ := stepWith_ok (search_found hs') h xs (by
        intro i p _
        have := moved_length_mono (δ := found nodes) xs l (i + 1)
        rw [moved_after hs] at this ⊢
        rw [moved_after hs] at this
        have h1' : l.length + (after nodes xs l).length ≤ bufLimit := h1
        omega) (by rw [moved_after hs]; exact h2)
    rw [moved_after hs] at r1
    rw [List.foldl_cons, List.foldl_cons]
    have : (Res.ok s).bind (stepWith nodes xs) = .ok s1 := e1
    rw [this]
    exact ih s1 _ r1 h3

theorem mem_after {nodes : Nat → Table Nat} (ss : List (List Int)) : ∀ (l : List Nat) (q : Nat),
    q ∈ ss.foldl (fun l xs => after nodes xs l) l ↔ ∃ p ∈ l, Reached nodes p ss q := by
  induction ss with
  | nil =>
    intro l q
    constructor
    · intro h
      exact ⟨q, h, [], .nil, .nil q⟩
    · rintro ⟨p, hp, xs, hx, hpath⟩
      cases hx
      cases hpath
      exact hp
  | cons s ss ih =>
    intro l q
    rw [List.foldl_cons, ih]
    constructor
    · rintro ⟨p, hp, xs, hx, hpath⟩
      unfold after succs at hp
      simp only [List.mem_flatMap, List.mem_map, List.mem_filter, decide_eq_true_eq] at hp
      obtain ⟨p0, hp0, x, hxs, ⟨y, d⟩, ⟨he, rfl⟩, rfl⟩ := hp
      exact ⟨p0, hp0, y :: xs, .cons hxs hx, .cons he hpath⟩
    · rintro ⟨p, hp, xs, hx, hpath⟩
      cases hx with
      | @cons x _ xs _ h1 h2 =>
        cases hpath with
        | cons he hpath =>
          refine ⟨_, ?_, xs, h2, hpath⟩
          unfold after succs
          simp only [List.mem_flatMap, List.mem_map, List.mem_filter, decide_eq_true_eq]
          exact ⟨p, hp, x, h1, (x, _), ⟨he, rfl⟩, rfl⟩

theorem classify_ring {s : MatchState} {l : List Nat} (h : Ring s l) (finals : List (Nat × Int)) (banned : List Int)
    (hmax : ∀ p r, mapFind p finals = some r → r < intMax) :
    ∃ r, classifyFinals finals banned s = .ok r ∧ Least (· ∈ l) finals banned r := by
  have e := classifyLoop_ok finals banned h l.length 0 bufLimit intMax (by omega) (by have := h.short; omega)
  rw [Nat.add_zero, Nat.mod_eq_of_lt h.first_lt, List.drop_zero] at e
  have key := classify_fold finals banned l intMax
  revert e key
  generalize l.foldl _ intMax = res
  intro e key
  obtain ⟨h1, h2, h3⟩ := key
  refine ⟨_, by unfold classifyFinals; rw [e]; rfl, ?_⟩
  by_cases hr : res < intMax
  · rw [if_pos hr]
    rcases h2 with h2 | ⟨p, hp, h4, h5⟩
    · omega
    · exact .inl ⟨p, hp, h4, h5, fun p' r' hp' hr' hb => h3 p' hp' r' hr' hb⟩
  · rw [if_neg hr]
    refine .inr ⟨rfl, ?_⟩
    intro p' r' hp' hr'
    by_contra hb
    have := h3 p' hp' r' hr' hb
    have := hmax p' r' hr'
    omega

/-! ## C46 -/

/-- **C46** After `init` and any steps that stay within the capacity the alive nodes are those reached by reading one of the
symbols of every step, `size` is their number, and `classifyFinals` is the least rule that is not banned among them, -1
if there is none. The tables have distinct sorted symbols (deterministic automaton). -/
theorem C46_run (nodes : Nat → Table Nat) (hs : ∀ p, (nodes p).Pairwise fun a b => a.1 < b.1) (q0 : Nat) (ss : List (List Int))
    (hf : Fits nodes [q0] ss) :
    ∃ s, run nodes q0 ss = .ok s ∧ s.size = (ss.foldl (fun l xs => after nodes xs l) [q0]).length ∧
      ∀ finals banned, (∀ p r, mapFind p finals = some r → r < 2147483647) →
        ∃ r, classifyFinals finals banned s = .ok r ∧ Least (Reached nodes q0 ss) finals banned r := by
  obtain ⟨s, e, hr⟩ := run_ring hs ss _ _ (ring_init q0) hf
  refine ⟨s, e, ?_, ?_⟩
  · unfold MatchState.size
    have h1 := hr.last_eq
    have h2 := hr.short
    have h3 := hr.first_lt
    generalize (ss.foldl (fun l xs => after nodes xs l) [q0]).length = n at h1 h2
    by_cases hlt : s.first + n < bufLimit
    · rw [Nat.mod_eq_of_lt hlt] at h1
      rw [if_pos (by omega)]
      omega
    · have : (s.first + n) % bufLimit = s.first + n - bufLimit := by
        rw [Nat.mod_eq_sub_mod (by omega), Nat.mod_eq_of_lt (by omega)]
      rw [this] at h1
      rw [if_neg (by omega)]
      omega
  · intro finals banned hmax
    obtain ⟨r, h1, h2⟩ := classify_ring hr finals banned hmax
    refine ⟨r, h1, ?_⟩
    have : (fun q => q ∈ ss.foldl (fun l xs => after nodes xs l) [q0]) = Reached nodes q0 ss := by
      funext q
      rw [mem_after]
      simp
    rw [← this]
    exact h2

/-- **C46** With single symbols the capacity is never exceeded: no condition is needed. -/
theorem C46_run_single (nodes : Nat → Table Nat) (hs : ∀ p, (nodes p).Pairwise fun a b => a.1 < b.1) (q0 : Nat) (ss : List (List Int))
    (h1 : ∀ xs ∈ ss, xs.length = 1) : Fits nodes [q0] ss := by
  have key : ∀ (ss : List (List Int)) (l : List Nat), (∀ xs ∈ ss, xs.length = 1) → l.length ≤ 1 → Fits nodes l ss := by
    intro ss
    induction ss with
    | nil => intro l _ _; trivial
    | cons xs ss ih =>
      intro l h1 hl
      have hx := h1 xs (by simp)
      obtain ⟨x, rfl⟩ := List.length_eq_one_iff.1 hx
      have hle : (after nodes [x] l).length ≤ 1 := by
        match l, hl with
        | [], _ => simp [after]
        | [p], _ =>
          unfold after
          simp only [List.flatMap_cons, List.flatMap_nil, List.append_nil]
          rw [← found_succs hs]
          cases found nodes p x <;> simp
      exact ⟨by omega, by omega, ih _ (fun ys hy => h1 ys (by simp [hy])) hle⟩
  exact key ss [q0] h1 (by simp)

/-- **C46** A single step moves every alive node, whatever their number (up to the capacity of the array, 1023): the array
is used correctly even when the new nodes overwrite old ones. -/
theorem C46_step (nodes : Nat → Table Nat) (hs : ∀ p, (nodes p).Pairwise fun a b => a.1 < b.1) (s : MatchState) (l : List Nat) (h : Ring s l) (x : Int) :
    ∃ s', step nodes x s = .ok s' ∧ Ring s' (l.flatMap fun p => succs nodes p x) := by
  have hs' : ∀ p, (nodes p).Pairwise fun a b => a.1 ≤ b.1 := fun p => (hs p).imp fun h => Int.le_of_lt h
  have hlen : ∀ l : List Nat, (moved (found nodes) [x] l).length ≤ l.length := by
    intro l
    induction l with
    | nil => simp [moved]
    | cons p l ih =>
      unfold moved at ih ⊢
      rw [List.flatMap_cons, List.length_append, List.length_cons]
      have : ([x].filterMap (found nodes p)).length ≤ 1 := by cases hd : found nodes p x <;> simp [hd]
      omega
  have hsh := h.short
  obtain ⟨s', e, r⟩ := stepWith_ok (search_found hs') h [x] (by
      intro i p hp
      have := hlen (l.take (i + 1))
      have hi := (List.getElem?_eq_some_iff.1 hp).1
      rw [List.length_take] at this
      omega) (by have := hlen l; omega)
  refine ⟨s', e, ?_⟩
  rw [moved_after hs] at r
  unfold after at r
  simpa using r

/-- Two nodes that go to each other: 0 under 1 and 2 goes to 1, 1 under 2 goes to 0; 1 is final. -/
def exNodes : Nat → Table Nat
  | 0 => [(1, 1), (2, 1)]
  | 1 => [(2, 0)]
  | _ => []

theorem exNodes_sorted : ∀ p, (exNodes p).Pairwise fun a b => a.1 < b.1 := by
  intro p
  match p with
  | 0 => decide
  | 1 => decide
  | _ + 2 => exact .nil

example : Fits exNodes [0] [[1, 2], [2], [1]] ∧ Reached exNodes 0 [[1, 2], [2], [1]] 1 := by
  refine ⟨by simp [Fits, after, succs, exNodes], [1, 2, 1], .cons (by simp) (.cons (by simp) (.cons (by simp) .nil)), ?_⟩
  exact .cons (show ((1 : Int), 1) ∈ exNodes 0 by decide) (.cons (show ((2 : Int), 0) ∈ exNodes 1 by decide) (.cons (show ((1 : Int), 1) ∈ exNodes 0 by decide) (.nil 1)))

example : Ring (MatchState.new.init 7) [7] := ring_init 7

/-- A node with two arcs to itself. -/
def exTwo : Nat → Table Nat := fun _ => [(1, 0), (2, 0)]

/-- The array after `c` nodes have been written in all. -/
def filled (c f : Nat) : MatchState :=
  { state := List.replicate (min c bufLimit) (some 0) ++ List.replicate (bufLimit - min c bufLimit) none, first := f, last := c % bufLimit }

theorem filled_write (c f : Nat) : ({ (filled c f) with state := (filled c f).state.set (filled c f).last (some 0), last := ((filled c f).last + 1) % bufLimit } : MatchState) =
    filled (c + 1) f := by
  unfold filled
  simp only [Nat.mod_add_mod, MatchState.mk.injEq, and_true]
  by_cases h : c < bufLimit
  · rw [Nat.mod_eq_of_lt h, Nat.min_eq_left (by omega), Nat.min_eq_left (by omega), List.set_append_right _ _ (by simp)]
    obtain ⟨k, hk⟩ : ∃ k, bufLimit - c = k + 1 := ⟨bufLimit - c - 1, by omega⟩
    have hk' : bufLimit - (c + 1) = k := by omega
    rw [hk, hk', List.length_replicate, Nat.sub_self, List.replicate_succ, List.set_cons_zero, List.replicate_succ', List.append_assoc]
    rfl
  · rw [Nat.min_eq_right (by omega), Nat.min_eq_right (by omega), Nat.sub_self, List.replicate_zero, List.append_nil, List.set_replicate_self]

theorem filled_read {c : Nat} (f i : Nat) (h : i < c) (hb : i < bufLimit) : (filled c f).state[i]? = some (some 0) := by
  unfold filled
  simp only
  rw [List.getElem?_append_left (by rw [List.length_replicate]; omega), List.getElem?_replicate_of_lt (by omega)]

theorem exTwo_apply (c f i : Nat) (h : i < c) (hb : i < bufLimit) : applySymbols exTwo i [1, 2] (filled c f) = .ok (filled (c + 2) f) := by
  have h1 : search (exTwo 0) 1 = .ok (some 0) := by decide +kernel
  have h2 : search (exTwo 0) 2 = .ok (some 0) := by decide +kernel
  unfold applySymbols
  rw [filled_read f i h hb]
  simp only
  unfold applySymbol
  rw [h1]
  simp only [Res.bind_ok, Res.pure_eq]
  rw [filled_write]
  unfold applySymbols
  rw [filled_read f i (by omega) hb]
  simp only
  unfold applySymbol
  rw [h2]
  simp only [Res.bind_ok, Res.pure_eq]
  rw [filled_write]
  rfl

theorem exTwo_loop (m f : Nat) (hm : m < bufLimit) : ∀ (k i c fuel : Nat), i + k = m → m ≤ c → k ≤ fuel → stepLoop exTwo [1, 2] m fuel i (filled c f) = .ok (filled (c + 2 * k) f) := by
  intro k
  induction k with
  | zero => intro i c fuel hi _ _; unfold stepLoop; rw [if_pos (by omega)]; rfl
  | succ k ih =>
    intro i c fuel hi hc hf
    obtain ⟨fuel, rfl⟩ : ∃ n, fuel = n + 1 := ⟨fuel - 1, by omega⟩
    unfold stepLoop
    rw [if_neg (by omega), exTwo_apply c f i (by omega) (by omega)]
    simp only [Res.bind_ok]
    rw [Nat.mod_eq_of_lt (by omega), ih (i + 1) (c + 2) fuel (by omega) (by omega) (by omega)]
    congr 2
    omega

theorem exTwo_step (c f : Nat) (hf : f ≤ c) (hc : c < bufLimit) : stepWith exTwo [1, 2] (filled c f) = .ok (filled (c + 2 * (c - f)) c) := by
  have hl : (filled c f).last = c := Nat.mod_eq_of_lt hc
  have hff : (filled c f).first = f := rfl
  unfold stepWith
  rw [hl, hff, exTwo_loop c f hc (c - f) f c bufLimit (by omega) (Nat.le_refl _) (by omega)]
  rfl

theorem exTwo_init : MatchState.new.init 0 = filled 1 0 := by
  have hb : bufLimit = 1024 := rfl
  rw [← filled_write 0 0]
  unfold MatchState.new MatchState.init filled
  simp only [Nat.zero_min, Nat.zero_mod, List.replicate_zero, List.nil_append, Nat.sub_zero]
  rw [Nat.mod_eq_of_lt (by omega)]

theorem exTwo_run (n : Nat) (hn : n ≤ 10) : run exTwo 0 (List.replicate n [1, 2]) = .ok (filled (2 ^ (n + 1) - 1) (2 ^ n - 1)) := by
  unfold run
  rw [exTwo_init]
  induction n with
  | zero => rfl
  | succ n ih =>
    have hb : bufLimit = 1024 := rfl
    have h1 : 2 ^ (n + 1) ≤ 2 ^ 10 := Nat.pow_le_pow_right (by omega) hn
    have h2 : 2 ^ (n + 1) = 2 * 2 ^ n := by rw [Nat.pow_succ, Nat.mul_comm]
    have h3 : 2 ^ (n + 1 + 1) = 2 * 2 ^ (n + 1) := by rw [Nat.pow_succ, Nat.mul_comm]
    have h4 : 0 < 2 ^ n := Nat.pow_pos (by omega)
    rw [List.replicate_succ', List.foldl_append, ih (by omega), List.foldl_cons, List.foldl_nil]
    refine (exTwo_step _ _ (by omega) (by omega)).trans ?_
    congr 2
    omega

/-- **C46** Beyond the capacity alive nodes are lost: after ten steps with two symbols 1024 nodes are alive, but the array
appears empty and no rule is found, although every alive node is final. -/
theorem C46_capacity_false : ∃ s, run exTwo 0 (List.replicate 10 [1, 2]) = .ok s ∧ s.size = 0 ∧ classifyFinals [(0, 5)] [] s = .ok (-1) ∧
    Reached exTwo 0 (List.replicate 10 [1, 2]) 0 := by
  have hb : bufLimit = 1024 := rfl
  refine ⟨filled 2047 1023, ?_, ?_, ?_, List.replicate 10 1, ?_, ?_⟩
  · exact exTwo_run 10 (by omega)
  · show (if 2047 % bufLimit ≥ 1023 then 2047 % bufLimit - 1023 else 2047 % bufLimit + bufLimit - 1023) = 0
    rw [hb]
    rfl
  · have h2 : (filled 2047 1023).first = (filled 2047 1023).last := by unfold filled; rw [hb]
    unfold classifyFinals classifyLoop
    rw [if_pos h2]
    simp only [Res.bind_ok, Res.pure_eq]
    rw [if_neg (by decide)]
  · simp [List.replicate]
  · have : ∀ n, Path (fun q x p => (x, p) ∈ exTwo q) 0 (List.replicate n (1 : Int)) 0 := by
      intro n
      induction n with
      | zero => exact .nil 0
      | succ n ih => exact .cons (show ((1 : Int), 0) ∈ exTwo 0 by decide) ih
    exact this 10

/-- **C46** With two transitions under one symbol only one of them is followed. -/
theorem C46_nondeterministic_false : ∃ s, run (fun _ => [(1, 0), (1, 1)]) 0 [[1]] = .ok s ∧ s.size = 1 ∧ classifyFinals [(1, 5)] [] s = .ok (-1) ∧
    Reached (fun _ => [(1, 0), (1, 1)]) 0 [[1]] 1 := by
  have hrun : (match run (fun _ => [(1, 0), (1, 1)]) 0 [[1]] with
    | .ok s => decide (s.size = 1) && decide (classifyFinals [(1, 5)] [] s = .ok (-1))
    | _ => false) = true := by decide +kernel
  cases hr : run (fun _ => [(1, 0), (1, 1)]) 0 [[1]] with
  | ok s =>
    rw [hr] at hrun
    simp only [Bool.and_eq_true, decide_eq_true_eq] at hrun
    refine ⟨s, rfl, hrun.1, hrun.2, [1], .cons (by simp) .nil, .cons ?_ (.nil 1)⟩
    simp
  | _ => rw [hr] at hrun; simp at hrun

/-! ## From the transducer -/

variable {W : Type}

theorem fillNodes_ok (n : Nat) (m : List (Nat × Row W)) : ∀ (nodes : List (Table Nat)), nodes.length = n →
    (∀ e ∈ m, e.1 < n ∧ ∀ a ∈ e.2, a.2.1 < n) → (m.map (·.1)).Nodup →
    ∃ nodes', fillNodes n m nodes = .ok nodes' ∧ ∀ q, nodes'.getD q [] = match mapFind q m with
      | some r => nodeOf r
      | none => nodes.getD q [] := by
  induction m with
  | nil => intro nodes _ _ _; exact ⟨nodes, rfl, fun q => rfl⟩
  | cons e m ih =>
    intro nodes hn hlt hd
    obtain ⟨q, r⟩ := e
    obtain ⟨hq, ha⟩ := hlt (q, r) (by simp)
    simp only at hq ha
    rw [List.map_cons, List.nodup_cons] at hd
    obtain ⟨nodes', e1, h1⟩ := ih (nodes.set q (nodeOf r)) (by simpa using hn) (fun e he => hlt e (by simp [he])) hd.2
    refine ⟨nodes', ?_, ?_⟩
    · unfold fillNodes
      rw [if_pos ⟨hq, by simpa using ha⟩]
      exact e1
    · intro p
      rw [h1 p]
      by_cases hp : q = p
      · subst hp
        have : mapFind q m = none := by
          rw [mapFind_eq_none_iff]
          exact hd.1
        rw [this]
        simp only [mapFind, if_true]
        rw [List.getD_eq_getElem?_getD, List.getElem?_set_self (by omega)]
        rfl
      · have : mapFind p ((q, r) :: m) = mapFind p m := by
          simp [mapFind, hp]
        rw [this]
        cases mapFind p m with
        | some r => rfl
        | none =>
          simp only
          rw [List.getD_eq_getElem?_getD, List.getElem?_set_ne hp, ← List.getD_eq_getElem?_getD]

/-- **C46** The automaton made from a well-formed deterministic transducer: after any steps within the capacity
`classifyFinals` is the least rule that is not banned among the rules of the states that the transducer reaches by
reading one of the symbols of every step. -/
theorem C46_from_transducer (t : Transducer W) (ht : WF t) (hdet : ∀ q, (row t q).Pairwise fun a b => a.1 < b.1)
    (finalType : List (Nat × Int)) (hft : ∀ e ∈ finalType, e.1 < size t) (hmax : ∀ p r, mapFind p finalType = some r → r < 2147483647) :
    ∃ m, MatchExe.make t finalType = .ok m ∧ ∀ ss, Fits m.table [t.initial] ss → ∀ banned,
      ∃ s, run m.table m.initial ss = .ok s ∧ ∃ r, classifyFinals m.finals banned s = .ok r ∧
        Least (fun p => ∃ ls : List (Int × W), List.Forall₂ (fun l s => l.1 ∈ s) ls ss ∧ Path (Edge t) t.initial ls p) finalType banned r := by
  have hnd : (t.transitions.map (·.1)).Nodup := by rw [ht.keys]; exact List.nodup_range
  have hsk : SortedKeys t.transitions := by
    have : (t.transitions.map (·.1)).Pairwise (· < ·) := by rw [ht.keys]; exact List.pairwise_lt_range
    exact List.pairwise_map.1 this
  have hrange : ∀ e ∈ t.transitions, e.1 < t.transitions.length ∧ ∀ a ∈ e.2, a.2.1 < t.transitions.length := by
    intro e he
    have h1 : e.1 < size t := by
      have : e.1 ∈ t.transitions.map (·.1) := List.mem_map.2 ⟨e, he, rfl⟩
      rw [ht.keys] at this
      exact List.mem_range.1 this
    refine ⟨h1, ?_⟩
    intro a ha
    have hrow : row t e.1 = e.2 := by
      unfold row
      have : mapFind e.1 t.transitions = some e.2 := mapFind_of_mem hsk he
      rw [this]
      rfl
    exact ht.target_lt e.1 (a.1, a.2.2) a.2.1 (by unfold Edge; rw [hrow]; exact ha)
  obtain ⟨nodes, e1, h1⟩ := fillNodes_ok t.transitions.length t.transitions (List.replicate t.transitions.length []) (by simp) hrange hnd
  refine ⟨{ nodes := nodes, finals := finalType, initial := t.initial }, ?_, ?_⟩
  · unfold MatchExe.make
    simp only
    rw [if_pos (by simpa [size] using hft), e1]
    rfl
  have htab : ∀ q, MatchExe.table { nodes := nodes, finals := finalType, initial := t.initial } q = nodeOf (row t q) := by
    intro q
    unfold MatchExe.table
    simp only
    rw [h1 q]
    unfold row
    cases mapFind q t.transitions with
    | some r => rfl
    | none =>
      simp only [Option.getD_none]
      rw [List.getD_eq_getElem?_getD]
      by_cases hq : q < t.transitions.length
      · rw [List.getElem?_replicate_of_lt hq]; rfl
      · rw [List.getElem?_eq_none (by simpa using hq)]; rfl
  intro ss hf banned
  have hs : ∀ p, (MatchExe.table { nodes := nodes, finals := finalType, initial := t.initial } p).Pairwise fun a b => a.1 < b.1 := by
    intro p
    rw [htab]
    unfold nodeOf
    rw [List.pairwise_map]
    exact hdet p
  obtain ⟨s, g1, -, g2⟩ := C46_run _ hs t.initial ss hf
  obtain ⟨r, g3, g4⟩ := g2 finalType banned hmax
  refine ⟨s, g1, r, g3, ?_⟩
  have hpath : ∀ (xs : List Int) (q p : Nat), Path (fun q x p => (x, p) ∈ MatchExe.table { nodes := nodes, finals := finalType, initial := t.initial } q) q xs p ↔
      ∃ ls : List (Int × W), ls.map (·.1) = xs ∧ Path (Edge t) q ls p := by
    intro xs
    induction xs with
    | nil =>
      intro q p
      constructor
      · intro h; cases h; exact ⟨[], rfl, .nil _⟩
      · rintro ⟨ls, h1, h2⟩
        rw [List.map_eq_nil_iff] at h1
        subst h1
        cases h2
        exact .nil _
    | cons x xs ih =>
      intro q p
      constructor
      · intro h
        cases h with
        | cons he hp =>
          rename_i q1
          rw [htab] at he
          unfold nodeOf at he
          obtain ⟨a, ha, hae⟩ := List.mem_map.1 he
          obtain ⟨ls, h2, h3⟩ := (ih _ _).1 hp
          simp only [Prod.mk.injEq] at hae
          refine ⟨(a.1, a.2.2) :: ls, by simp [hae.1, h2], .cons ?_ h3⟩
          unfold Edge
          rw [← hae.2]
          exact ha
      · rintro ⟨ls, h1, h2⟩
        cases ls with
        | nil => simp at h1
        | cons l ls =>
          simp only [List.map_cons, List.cons.injEq] at h1
          obtain ⟨rfl, rfl⟩ := h1
          cases h2 with
          | cons he hp =>
            refine .cons ?_ ((ih _ _).2 ⟨ls, rfl, hp⟩)
            rw [htab]
            unfold nodeOf
            exact List.mem_map.2 ⟨_, he, rfl⟩
  have hS : Reached (MatchExe.table { nodes := nodes, finals := finalType, initial := t.initial }) t.initial ss =
      fun p => ∃ ls : List (Int × W), List.Forall₂ (fun l s => l.1 ∈ s) ls ss ∧ Path (Edge t) t.initial ls p := by
    funext p
    unfold Reached
    apply propext
    constructor
    · rintro ⟨xs, h2, h3⟩
      obtain ⟨ls, rfl, h4⟩ := (hpath _ _ _).1 h3
      exact ⟨ls, (List.forall₂_map_left_iff).1 h2, h4⟩
    · rintro ⟨ls, h2, h3⟩
      exact ⟨ls.map (·.1), (List.forall₂_map_left_iff).2 h2, (hpath _ _ _).2 ⟨ls, rfl, h3⟩⟩
  rw [← hS]
  exact g4

/-- Patterns `1 2` (rule 4) and `1 3` (rule 2). -/
def exPat : Transducer Nat := { initial := 0, finals := [(2, 0), (3, 0)], transitions := [(0, [(1, (1, 0))]), (1, [(2, (2, 0)), (3, (3, 0))]), (2, []), (3, [])] }

example : WF exPat ∧ (∀ e ∈ [(2, (4 : Int)), (3, 2)], e.1 < size exPat) := ⟨wf_of_check (by decide), by decide⟩
example : ∃ m, MatchExe.make exPat [(2, 4), (3, 2)] = .ok m ∧ ∃ s, run m.table m.initial [[1], [2, 3]] = .ok s ∧ classifyFinals m.finals [] s = .ok 2 ∧
    classifyFinals m.finals [2] s = .ok 4 := ⟨_, rfl, _, rfl, by decide +kernel, by decide +kernel⟩

end Verif.Match
