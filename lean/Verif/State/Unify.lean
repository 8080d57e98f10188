import Verif.State.Loaded

/-! # Unifying the final nodes -/

namespace Verif.State

open Verif.Fst Verif.BinIO
open Verif.Compression (Dbl)

/-- A loaded transducer that makes sense: maps are in order and all nodes that are mentioned exist. -/
structure Sound (te : TransExe) : Prop where
  finals : SortedKeys te.finals
  inside : ∀ e ∈ te.finals, e.1 < te.nodes.length
  maps : ∀ n ∈ te.nodes, SortedKeys n
  arcs : ∀ n ∈ te.nodes, ∀ e ∈ n, ∀ d ∈ e.2, d.2.1 < te.nodes.length

theorem sound_addTransition {i o : Int} {d m : Nat} {w : Dbl} {n : Node} (h : SortedKeys n) (hd : d < m) (hn : ∀ e ∈ n, ∀ x ∈ e.2, x.2.1 < m) :
    SortedKeys (addTransition i o d w n) ∧ ∀ e ∈ addTransition i o d w n, ∀ x ∈ e.2, x.2.1 < m := by
  have hs : SortedKeys (addTransition i o d w n) := sorted_modify h _ _ _
  refine ⟨hs, ?_⟩
  intro e he x hx
  have hf := mapFind_of_mem hs (k := e.1) (v := e.2) he
  unfold addTransition at hf
  rw [mapFind_modify h] at hf
  split at hf
  · next hk =>
    cases hg : mapFind i n with
    | none =>
      rw [hg] at hf
      simp only [Option.getD_none, List.nil_append, Option.some.injEq] at hf
      rw [← hf] at hx
      rw [List.mem_singleton.1 hx]; exact hd
    | some ds =>
      rw [hg] at hf
      simp only [Option.getD_some, Option.some.injEq] at hf
      rw [← hf] at hx
      rcases List.mem_append.1 hx with hx | hx
      · exact hn _ (mapFind_mem hg) x hx
      · rw [List.mem_singleton.1 hx]; exact hd
  · exact hn _ (mapFind_mem hf) x hx

theorem sound_exeArcs (rw' : Bool) (a : Alphabet) (base cur : Nat) (hb : 0 < base) : ∀ n tb (node : Node) s node' s',
    SortedKeys node → (∀ e ∈ node, ∀ x ∈ e.2, x.2.1 < base) → exeArcs rw' a base cur n tb node s = .ok (node', s') →
    SortedKeys node' ∧ ∀ e ∈ node', ∀ x ∈ e.2, x.2.1 < base := by
  intro n
  induction n with
  | zero =>
    intro tb node s node' s' h1 h2 h
    cases Res.ok.inj h
    exact ⟨h1, h2⟩
  | succ n ih =>
    intro tb node s node' s' h1 h2 h
    unfold exeArcs at h
    simp only at h
    obtain ⟨pr, h3, h4⟩ := Res.bind_eq_ok.1 h
    have := sound_addTransition (i := pr.1) (o := pr.2) (w := (readW rw' (Compression.multibyteRead (Compression.multibyteRead s).2).2).1) h1
      (Nat.mod_lt (cur + (Compression.multibyteRead (Compression.multibyteRead s).2).1.toNat) hb) h2
    exact ih _ _ _ _ _ this.1 this.2 h4

theorem sound_exeRows (rw' : Bool) (a : Alphabet) (base : Nat) : ∀ n cur s nodes s', (n ≠ 0 → 0 < base) →
    exeRows rw' a base n cur s = .ok (nodes, s') →
    nodes.length = n ∧ ∀ node ∈ nodes, SortedKeys node ∧ ∀ e ∈ node, ∀ x ∈ e.2, x.2.1 < base := by
  intro n
  induction n with
  | zero =>
    intro cur s nodes s' _ h
    cases Res.ok.inj h
    exact ⟨rfl, by simp⟩
  | succ n ih =>
    intro cur s nodes s' hb h
    unfold exeRows at h
    simp only at h
    obtain ⟨⟨node, s1⟩, h1, h2⟩ := Res.bind_eq_ok.1 h
    obtain ⟨⟨nodes', s2⟩, h3, h4⟩ := Res.bind_eq_ok.1 h2
    cases Res.ok.inj h4
    obtain ⟨k1, k2⟩ := ih _ _ _ _ (fun _ => hb (by simp)) h3
    refine ⟨by rw [List.length_cons, k1], ?_⟩
    intro x hx
    rcases List.mem_cons.1 hx with rfl | hx
    · exact sound_exeArcs rw' a base cur (hb (by simp)) _ _ _ _ _ _ List.Pairwise.nil (by simp) h1
    · exact k2 x hx

theorem sound_readFinals (rw' : Bool) : ∀ n base m s, SortedKeys m → SortedKeys (readFinals rw' n base m s).1 := by
  intro n
  induction n with
  | zero => intro base m s h; exact h
  | succ n ih =>
    intro base m s h
    unfold readFinals
    exact ih _ _ _ (sorted_mapInsert h _ _)

/-- What the loader accepts makes sense. -/
theorem exeRead_sound (a : Alphabet) (s rest : List UInt8) (te : TransExe) (h : exeRead a s = .ok (te, rest)) : Sound te := by
  unfold exeRead at h
  obtain ⟨⟨rw', s1⟩, -, h⟩ := Res.bind_eq_ok.1 h
  simp only at h
  split at h
  · next hall =>
    obtain ⟨⟨nodes, s2⟩, h3, h4⟩ := Res.bind_eq_ok.1 h
    cases Res.ok.inj h4
    obtain ⟨k1, k2⟩ := sound_exeRows _ _ _ _ _ _ _ _ (fun h => Nat.pos_of_ne_zero h) h3
    refine ⟨sound_readFinals _ _ _ _ _ List.Pairwise.nil, ?_, fun n hn => (k2 n hn).1, ?_⟩
    · intro e he
      simp only at he ⊢
      rw [k1]
      exact of_decide_eq_true (List.all_eq_true.1 hall e he)
    · intro n hn
      simp only
      rw [k1]
      exact (k2 n hn).2
  · cases h

/-- There is an arc with this input, output and weight. -/
def Edge' (te : TransExe) (q : Nat) (l : (Int × Int) × Dbl) (p : Nat) : Prop := (l.1.2, p, l.2) ∈ dests te q l.1.1

theorem getD_foldl {te : TransExe} (h : Sound te) (n : Nat) : ∀ (fs : List (Nat × Dbl)) (ns : List Node), SortedKeys fs → (∀ e ∈ fs, e.1 < ns.length) →
    ∀ q, (fs.foldl (fun ns e => ns.modify e.1 (addTransition 0 0 n e.2)) ns).getD q [] =
      match mapFind q fs with
      | some w => addTransition 0 0 n w (ns.getD q [])
      | none => ns.getD q [] := by
  intro fs
  induction fs with
  | nil => intro ns _ _ q; rfl
  | cons e fs ih =>
    intro ns hs hin q
    have hs' : SortedKeys fs := (List.pairwise_cons.1 hs).2
    have hlt := (List.pairwise_cons.1 hs).1
    rw [List.foldl_cons, ih _ hs' (by
      intro x hx
      rw [List.length_modify]
      exact hin x (by simp [hx]))]
    have hl : e.1 < ns.length := hin e (by simp)
    by_cases hq : q = e.1
    · subst hq
      have h0 : mapFind e.1 fs = none := by
        rw [mapFind_eq_none_iff]
        intro hm
        obtain ⟨x, hx, hxe⟩ := List.mem_map.1 hm
        have := hlt x hx
        omega
      have h1 : mapFind e.1 (e :: fs) = some e.2 := mapFind_of_mem hs (by simp)
      rw [h0, h1]
      simp only [List.getD_eq_getElem?_getD, List.getElem?_modify, if_true, List.getElem?_eq_getElem hl]
      rfl
    · have h1 : mapFind q (e :: fs) = mapFind q fs := by
        cases hf : mapFind q fs with
        | none =>
          rw [mapFind_eq_none_iff] at hf ⊢
          simp only [List.map_cons, List.mem_cons, not_or]
          exact ⟨hq, hf⟩
        | some v => exact mapFind_of_mem hs (List.mem_cons_of_mem _ (mapFind_mem hf))
      rw [h1]
      have h2 : (ns.modify e.1 (addTransition 0 0 n e.2)).getD q [] = ns.getD q [] := by
        simp only [List.getD_eq_getElem?_getD, List.getElem?_modify, if_neg (Ne.symm hq)]
        simp
      rw [h2]

theorem edge_unify {te te' : TransExe} (h : Sound te) {room : Bool} (hu : unifyFinals room te = .ok te') (q : Nat) (l : (Int × Int) × Dbl) (p : Nat) :
    Edge' te' q l p ↔ Edge' te q l p ∨ (l.1 = (0, 0) ∧ p = te.nodes.length ∧ (q, l.2) ∈ te.finals) := by
  unfold unifyFinals at hu
  split at hu
  · cases hu
  · cases Res.ok.inj hu
    obtain ⟨⟨i, o⟩, w⟩ := l
    unfold Edge' dests
    simp only
    rw [getD_foldl h te.nodes.length te.finals (te.nodes ++ [[]]) h.finals (by
      intro e he
      have := h.inside e he
      simp; omega)]
    have hn : (te.nodes ++ [[]]).getD q [] = te.nodes.getD q [] := by
      simp only [List.getD_eq_getElem?_getD]
      rcases Nat.lt_trichotomy q te.nodes.length with h1 | h1 | h1
      · rw [List.getElem?_append_left h1]
      · subst h1
        simp
      · rw [List.getElem?_eq_none (by simp; omega), List.getElem?_eq_none (by omega)]
    have hsq : SortedKeys (te.nodes.getD q []) := by
      simp only [List.getD_eq_getElem?_getD]
      by_cases h1 : q < te.nodes.length
      · rw [List.getElem?_eq_getElem h1]
        exact h.maps _ (List.getElem_mem h1)
      · rw [List.getElem?_eq_none (by omega)]
        exact List.Pairwise.nil
    cases hf : mapFind q te.finals with
    | none =>
      simp only
      rw [hn]
      have : (q, w) ∉ te.finals := by
        intro hm
        rw [mapFind_of_mem h.finals hm] at hf
        cases hf
      simp [this]
    | some fw =>
      simp only
      rw [hn]
      unfold addTransition
      rw [mapFind_modify hsq]
      have hw : (q, w) ∈ te.finals ↔ w = fw := by
        rw [← mapFind_iff h.finals, hf]
        simp only [Option.some.injEq]
        exact eq_comm
      by_cases hi : i = 0
      · subst hi
        simp only [if_true, Option.getD_some, List.mem_append, List.mem_singleton, Prod.mk.injEq, true_and, hw]
      · rw [if_neg hi]
        simp [hi]

/-- **C62** With room for one more node, afterwards there is one final node, of weight 0, and the accepting paths are the
earlier ones prolonged by an empty arc with the weight of the final node they ended in. -/
theorem C62_unify_finals (te te' : TransExe) (h : Sound te) (hi : te.initial < te.nodes.length) (room : Bool) (hu : unifyFinals room te = .ok te') :
    te'.initial = te.initial ∧ te'.finals = [(te.nodes.length, 0)] ∧ Sound te' ∧
    ∀ ls, Path (Edge' te') te'.initial ls te.nodes.length ↔
      ∃ ls' p w, (p, w) ∈ te.finals ∧ Path (Edge' te) te.initial ls' p ∧ ls = ls' ++ [((0, 0), w)] := by
  have hE := fun q l p => edge_unify h hu q l p
  have hu' := hu
  unfold unifyFinals at hu'
  split at hu'
  · cases hu'
  next hroom =>
  have e := Res.ok.inj hu'
  have hi' : te'.initial = te.initial := by rw [← e]
  have hd : ∀ q l p, Edge' te q l p → q < te.nodes.length ∧ p < te.nodes.length := by
    intro q l p hq
    unfold Edge' dests at hq
    by_cases h1 : q < te.nodes.length
    · refine ⟨h1, ?_⟩
      cases hm : mapFind l.1.1 (te.nodes.getD q []) with
      | none => rw [hm] at hq; simp at hq
      | some ds =>
        rw [hm] at hq
        have := mapFind_mem hm
        rw [List.getD_eq_getElem?_getD, List.getElem?_eq_getElem h1] at this
        exact h.arcs _ (List.getElem_mem h1) _ this _ hq
    · rw [List.getD_eq_getElem?_getD, List.getElem?_eq_none (by omega)] at hq
      simp [mapFind] at hq
  have hlen : ∀ (fs : List (Nat × Dbl)) (ns : List Node), (fs.foldl (fun ns e => ns.modify e.1 (addTransition 0 0 te.nodes.length e.2)) ns).length = ns.length := by
    intro fs
    induction fs with
    | nil => intro ns; rfl
    | cons x fs ih => intro ns; rw [List.foldl_cons, ih, List.length_modify]
  have hnodes : ∀ (fs : List (Nat × Dbl)) (ns : List Node), (∀ n ∈ ns, SortedKeys n ∧ ∀ e ∈ n, ∀ d ∈ e.2, d.2.1 < te.nodes.length + 1) →
      ∀ n ∈ fs.foldl (fun ns e => ns.modify e.1 (addTransition 0 0 te.nodes.length e.2)) ns, SortedKeys n ∧ ∀ e ∈ n, ∀ d ∈ e.2, d.2.1 < te.nodes.length + 1 := by
    intro fs
    induction fs with
    | nil => intro ns hns; exact hns
    | cons x fs ih =>
      intro ns hns
      rw [List.foldl_cons]
      refine ih _ ?_
      intro n hn
      obtain ⟨k, hk⟩ := List.mem_iff_getElem?.1 hn
      rw [List.getElem?_modify] at hk
      cases hm : ns[k]? with
      | none => rw [hm] at hk; simp at hk
      | some n0 =>
        rw [hm] at hk
        have h0 := hns n0 (List.mem_of_getElem? hm)
        by_cases hx : x.1 = k
        · simp only [if_pos hx, Option.map_eq_map, Option.map_some, Option.some.injEq] at hk
          rw [← hk]
          exact sound_addTransition h0.1 (by omega) h0.2
        · simp only [if_neg hx, Option.map_eq_map, Option.map_some, Option.some.injEq] at hk
          rw [← hk]
          exact h0
  refine ⟨hi', by rw [← e], ?_, ?_⟩
  · rw [← e]
    have base : ∀ n ∈ te.nodes ++ [[]], SortedKeys n ∧ ∀ e ∈ n, ∀ d ∈ e.2, d.2.1 < te.nodes.length + 1 := by
      intro n hn
      rcases List.mem_append.1 hn with hn | hn
      · exact ⟨h.maps n hn, fun e he d hd => Nat.lt_succ_of_lt (h.arcs n hn e he d hd)⟩
      · rw [List.mem_singleton.1 hn]
        exact ⟨List.Pairwise.nil, by simp⟩
    have hall := hnodes te.finals _ base
    refine ⟨List.pairwise_singleton _ _, ?_, fun n hn => (hall n hn).1, ?_⟩
    · intro x hx
      simp only [List.mem_singleton] at hx
      subst hx
      simp only [hlen]
      simp
    · intro n hn
      simp only [hlen, List.length_append, List.length_singleton]
      exact (hall n hn).2
  · have fwd : ∀ ls q, q < te.nodes.length → Path (Edge' te') q ls te.nodes.length →
        ∃ ls' p w, (p, w) ∈ te.finals ∧ Path (Edge' te) q ls' p ∧ ls = ls' ++ [((0, 0), w)] := by
      intro ls
      induction ls with
      | nil =>
        intro q hq hp
        rw [path_nil_iff] at hp
        omega
      | cons l ls ih =>
        intro q hq hp
        obtain ⟨m, h1, h2⟩ := path_cons_iff.1 hp
        rcases (hE q l m).1 h1 with h1 | ⟨h3, h4, h5⟩
        · obtain ⟨ls', p, w, k1, k2, rfl⟩ := ih m (hd _ _ _ h1).2 h2
          exact ⟨l :: ls', p, w, k1, .cons h1 k2, rfl⟩
        · subst h4
          cases ls with
          | nil =>
            obtain ⟨pr, w⟩ := l
            simp only at h3 h5
            subst h3
            exact ⟨[], q, w, h5, .nil _, rfl⟩
          | cons l' ls =>
            obtain ⟨m', k1, -⟩ := path_cons_iff.1 h2
            rcases (hE _ _ _).1 k1 with k1 | ⟨-, -, k1⟩
            · have := (hd _ _ _ k1).1
              omega
            · have := h.inside _ k1
              simp only at this
              omega
    intro ls
    rw [hi']
    constructor
    · exact fwd ls _ hi
    · rintro ⟨ls', p, w, h1, h2, rfl⟩
      refine Path.append (h2.mono fun q l p hq => (hE q l p).2 (.inl hq)) (Path.single ?_)
      exact (hE _ _ _).2 (.inr ⟨rfl, rfl, h1⟩)

/-- **C62** Every transducer that the loader accepts is as in `C62_unify_finals`. -/
theorem C62_loaded (a : Alphabet) (s rest : List UInt8) (te : TransExe) (h : exeRead a s = .ok (te, rest)) :
    SortedKeys te.finals ∧ (∀ e ∈ te.finals, e.1 < te.nodes.length) ∧ (∀ n ∈ te.nodes, SortedKeys n) ∧
      ∀ n ∈ te.nodes, ∀ e ∈ n, ∀ d ∈ e.2, d.2.1 < te.nodes.length :=
  let s := exeRead_sound a s rest te h
  ⟨s.finals, s.inside, s.maps, s.arcs⟩

/-- Two nodes and an arc. -/
def exExe : TransExe := { initial := 0, nodes := [[(97, [(98, 1, 0)])], []], finals := [(1, 0)] }

example : Sound exExe ∧ ∃ te', unifyFinals true exExe = .ok te' := by
  refine ⟨⟨by simp [SortedKeys, exExe], by simp [exExe], ?_, ?_⟩, _, rfl⟩
  · intro n hn
    simp only [exExe, List.mem_cons, List.not_mem_nil, or_false] at hn
    rcases hn with rfl | rfl <;> simp [SortedKeys]
  · simp only [exExe, List.mem_cons, List.not_mem_nil, or_false]
    rintro n (rfl | rfl) e he d hd
    · simp only [List.mem_singleton] at he
      subst he
      simp only [List.mem_singleton] at hd
      subst hd
      simp
    · simp at he

/-- **C62** Without room the effect is undefined as soon as there is a final node. `TransExe::read` leaves no room. -/
theorem C62_no_room_false : unifyFinals false exExe = .ub := by decide +kernel

end Verif.State
