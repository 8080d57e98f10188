import Verif.State.Pool
import Verif.State.Props

/-! # The pool of sequences -/

namespace Verif.State

variable {W : Type}

/-! ## The list model of the same actions -/

/-- New states from one state. -/
def spawned (succ : Nat → Bool → List (Spawn W)) (r : Rec W) : List (Rec W) :=
  (succ r.node r.dirty).map fun x => { node := x.1, seq := x.2.1 r.seq, dirty := x.2.2 }

/-- The closure on lists. -/
def closureWith (succ : Nat → Bool → List (Spawn W)) : (fuel i : Nat) → List (Rec W) → Option (List (Rec W))
  | fuel, i, st =>
    match st[i]? with
    | none => some st
    | some r =>
      match fuel with
      | 0 => none
      | fuel + 1 => closureWith succ fuel (i + 1) (st ++ spawned succ r)

/-- What an action means for the list of states that own their sequences. -/
def meaning (x : Action W) (st other : List (Rec W)) : Option (List (Rec W)) :=
  match x with
  | .init q => some [{ node := q, seq := [], dirty := false }]
  | .apply succ => some (st.flatMap (spawned succ))
  | .closure succ fuel => closureWith succ fuel 0 st
  | .prune keep => some (st.filter keep)
  | .merge => some (merge st other)
  | .assign => some other
  | .destroy => some []

/-- The meaning of actions on two objects. -/
def meanings : List (Bool × Action W) → List (Rec W) → List (Rec W) → Option (List (Rec W) × List (Rec W))
  | [], st, tt => some (st, tt)
  | (first, x) :: xs, st, tt =>
    if first then (meaning x st tt).bind fun st => meanings xs st tt
    else (meaning x tt st).bind fun tt => meanings xs st tt

/-! ## Views -/

/-- The addresses have these contents. -/
def Holds (c : Cells W) (rs : List HRec) (st : List (Rec W)) : Prop :=
  List.Forall₂ (fun h r => h.node = r.node ∧ h.dirty = r.dirty ∧ c[h.addr]? = some (some r.seq)) rs st

/-- These addresses are allocated. -/
def Live (c : Cells W) (as : List Nat) : Prop := ∀ a ∈ as, ∃ s, c[a]? = some (some s)

/-- The addresses of an object. -/
def owned (s : HState) : List Nat := s.recs.map (·.addr) ++ s.pool

theorem Live.mono {c : Cells W} {as bs : List Nat} (h : Live c as) (hb : ∀ b ∈ bs, b ∈ as) : Live c bs := fun b hb' => h b (hb b hb')

theorem Live.lt {c : Cells W} {as : List Nat} (h : Live c as) {a : Nat} (ha : a ∈ as) : a < c.length := by
  obtain ⟨s, hs⟩ := h a ha
  exact (List.getElem?_eq_some_iff.1 hs).1

/-- One spawn. `keep` are addresses that are in use elsewhere. -/
theorem spawn_ok {c : Cells W} {pool keep : List Nat} {src : Nat} {s : Sequence W} (f : Sequence W → Sequence W)
    (hn : (keep ++ pool).Nodup) (hl : Live c (keep ++ pool)) (hs : src ∈ keep) (hc : c[src]? = some (some s)) :
    ∃ c' pool' a, spawn c pool src f = .ok (c', pool', a) ∧ ((a :: keep) ++ pool').Nodup ∧ Live c' ((a :: keep) ++ pool') ∧
      c'[a]? = some (some (f s)) ∧ (∀ b ∈ keep, c'[b]? = c[b]?) := by
  have hlt : src < c.length := (List.getElem?_eq_some_iff.1 hc).1
  unfold spawn newSequence
  cases hp : pool.getLast? with
  | none =>
    have : pool = [] := List.getLast?_eq_none_iff.1 hp
    subst this
    have h1 : (c ++ [some []])[src]? = some (some s) := by rw [List.getElem?_append_left hlt, hc]
    have h2 : (c ++ [some ([] : Sequence W)])[c.length]? = some (some []) := by simp
    simp only
    unfold cellGet cellSet
    rw [h1]
    simp only [Res.bind_ok, h2, Res.pure_eq]
    rw [List.append_nil] at hn hl
    have hout : c.length ∉ keep := fun h => absurd (hl.lt h) (by omega)
    refine ⟨_, _, _, rfl, by simp [hn, hout], ?_, by simp, ?_⟩
    · intro b hb
      simp only [List.append_nil, List.mem_cons] at hb
      rcases hb with rfl | hb
      · exact ⟨f s, by simp⟩
      · obtain ⟨x, hx⟩ := hl b hb
        refine ⟨x, ?_⟩
        have := hl.lt hb
        rw [List.getElem?_set_ne (by omega), List.getElem?_append_left this, hx]
    · intro b hb
      have := hl.lt hb
      rw [List.getElem?_set_ne (by omega), List.getElem?_append_left this]
  | some a =>
    obtain ⟨pre, rfl⟩ := List.getLast?_eq_some_iff.1 hp
    have ha : a ∈ keep ++ (pre ++ [a]) := by simp
    obtain ⟨x, hx⟩ := hl a ha
    simp only
    unfold cellGet cellSet
    rw [hc]
    simp only [Res.bind_ok, hx, Res.pure_eq]
    have hak : a ∉ keep := by
      intro h
      have := (List.nodup_append.1 hn).2.2 a h a (by simp)
      exact this rfl
    have hal := hl.lt ha
    refine ⟨_, _, _, rfl, ?_, ?_, by simp [hal], ?_⟩
    · rw [List.dropLast_concat]
      have : (keep ++ (pre ++ [a])).Perm ((a :: keep) ++ pre) := by
        rw [← List.append_assoc]
        exact (List.perm_append_singleton a (keep ++ pre))
      exact this.nodup_iff.1 hn
    · rw [List.dropLast_concat]
      intro b hb
      have hb' : b ∈ keep ++ (pre ++ [a]) := by
        simp only [List.cons_append, List.mem_cons, List.mem_append] at hb ⊢
        simp
        tauto
      by_cases hba : b = a
      · subst hba
        exact ⟨f s, by simp [hal]⟩
      · obtain ⟨y, hy⟩ := hl b hb'
        exact ⟨y, by rw [List.getElem?_set_ne (Ne.symm hba), hy]⟩
    · intro b hb
      rw [List.getElem?_set_ne]
      rintro rfl
      exact hak hb

theorem spawnAll_ok (l : List (Spawn W)) : ∀ {c : Cells W} {pool keep : List Nat} {src : Nat} {s : Sequence W},
    (keep ++ pool).Nodup → Live c (keep ++ pool) → src ∈ keep → c[src]? = some (some s) →
    ∃ c' pool' rs, spawnAll src l c pool = .ok (c', pool', rs) ∧ ((rs.map (·.addr) ++ keep) ++ pool').Nodup ∧
      Live c' ((rs.map (·.addr) ++ keep) ++ pool') ∧
      Holds c' rs (l.map fun x => { node := x.1, seq := x.2.1 s, dirty := x.2.2 }) ∧ (∀ b ∈ keep, c'[b]? = c[b]?) := by
  induction l with
  | nil =>
    intro c pool keep src s hn hl _ _
    exact ⟨c, pool, [], rfl, by simpa using hn, by simpa using hl, .nil, fun _ _ => rfl⟩
  | cons x l ih =>
    intro c pool keep src s hn hl hs hc
    obtain ⟨n, f, d⟩ := x
    obtain ⟨c1, p1, a, e1, hn1, hl1, ha1, hk1⟩ := spawn_ok f hn hl hs hc
    obtain ⟨c2, p2, rs, e2, hn2, hl2, hv2, hk2⟩ := ih (keep := a :: keep) hn1 hl1 (List.mem_cons_of_mem _ hs) (by rw [hk1 src hs, hc])
    have hperm : ((rs.map (·.addr) ++ a :: keep) ++ p2).Perm (((a :: rs.map (·.addr)) ++ keep) ++ p2) := by
      refine List.Perm.append_right _ ?_
      exact List.perm_middle
    refine ⟨c2, p2, { node := n, addr := a, dirty := d } :: rs, ?_, ?_, ?_, ?_, ?_⟩
    · unfold spawnAll
      rw [e1]
      simp only [Res.bind_ok]
      rw [e2]
      rfl
    · exact hperm.nodup_iff.1 hn2
    · exact hl2.mono fun b hb => hperm.mem_iff.2 hb
    · refine .cons ⟨rfl, rfl, ?_⟩ hv2
      rw [hk2 a (by simp), ha1]
    · intro b hb
      rw [hk2 b (by simp [hb]), hk1 b hb]

theorem Holds.append {c : Cells W} {rs rs' : List HRec} {st st' : List (Rec W)} (h : Holds c rs st) (h' : Holds c rs' st') :
    Holds c (rs ++ rs') (st ++ st') := List.rel_append h h'

theorem Holds.congr {c c' : Cells W} {rs : List HRec} {st : List (Rec W)} (h : Holds c rs st)
    (hc : ∀ b ∈ rs.map (·.addr), c'[b]? = c[b]?) : Holds c' rs st := by
  induction h with
  | nil => exact .nil
  | cons h0 h1 ih =>
    refine .cons ⟨h0.1, h0.2.1, ?_⟩ (ih fun b hb => hc b (by simp [hb]))
    rw [hc _ (by simp)]
    exact h0.2.2

theorem hApplyLoop_ok (succ : Nat → Bool → List (Spawn W)) (rs : List HRec) : ∀ {c : Cells W} {pool keep : List Nat} {st : List (Rec W)},
    (keep ++ (rs.map (·.addr) ++ pool)).Nodup → Live c (keep ++ (rs.map (·.addr) ++ pool)) → Holds c rs st →
    ∃ c' pool' new, hApplyLoop succ rs c pool = .ok (c', pool', new) ∧ (keep ++ (new.map (·.addr) ++ pool')).Nodup ∧
      Live c' (keep ++ (new.map (·.addr) ++ pool')) ∧ Holds c' new (st.flatMap (spawned succ)) ∧ (∀ b ∈ keep, c'[b]? = c[b]?) := by
  induction rs with
  | nil =>
    intro c pool keep st hn hl hv
    cases hv
    exact ⟨c, pool, [], rfl, hn, hl, .nil, fun _ _ => rfl⟩
  | cons r rs ih =>
    intro c pool keep st hn hl hv
    cases hv with
    | @cons _ q _ st h0 hv =>
      obtain ⟨e1, e2, e3⟩ := h0
      have p1 : (keep ++ ((r :: rs).map (·.addr) ++ pool)).Perm ((r.addr :: (keep ++ rs.map (·.addr))) ++ pool) := by
        simp only [List.map_cons, List.cons_append, List.append_assoc]
        exact List.perm_middle
      obtain ⟨c1, pool1, new1, s1, n1, l1, v1, k1⟩ := spawnAll_ok (succ r.node r.dirty) (keep := r.addr :: (keep ++ rs.map (·.addr))) (src := r.addr)
        (p1.nodup_iff.1 hn) (hl.mono fun b hb => p1.mem_iff.2 hb) (by simp) e3
      have p2 : ((new1.map (·.addr) ++ r.addr :: (keep ++ rs.map (·.addr))) ++ pool1).Perm
          ((keep ++ new1.map (·.addr)) ++ (rs.map (·.addr) ++ (pool1 ++ [r.addr]))) := by
        rw [List.perm_iff_count]
        intro b
        simp only [List.count_append, List.count_cons, List.count_nil]
        omega
      obtain ⟨c2, pool2, new2, s2, n2, l2, v2, k2⟩ := ih (c := c1) (pool := pool1 ++ [r.addr]) (keep := keep ++ new1.map (·.addr)) (st := st)
        (p2.nodup_iff.1 n1) (l1.mono fun b hb => p2.mem_iff.2 hb) (Holds.congr hv fun b hb => k1 b (by simp only [List.mem_cons, List.mem_append]; tauto))
      refine ⟨c2, pool2, new1 ++ new2, ?_, ?_, ?_, ?_, ?_⟩
      · unfold hApplyLoop
        rw [s1]
        simp only [Res.bind_ok]
        rw [s2]
        rfl
      · simpa only [List.map_append, List.append_assoc] using n2
      · simpa only [List.map_append, List.append_assoc] using l2
      · rw [List.flatMap_cons]
        refine Holds.append ?_ v2
        unfold spawned
        rw [← e1, ← e2]
        exact v1.congr fun b hb => k2 b (by simp only [List.mem_append]; tauto)
      · intro b hb
        rw [k2 b (by simp only [List.mem_append]; tauto), k1 b (by simp only [List.mem_cons, List.mem_append]; tauto)]

theorem Holds.length {c : Cells W} {rs : List HRec} {st : List (Rec W)} (h : Holds c rs st) : rs.length = st.length := List.Forall₂.length_eq h

theorem Holds.get {c : Cells W} {rs : List HRec} {st : List (Rec W)} (h : Holds c rs st) {i : Nat} {r : HRec} (hr : rs[i]? = some r) :
    ∃ q, st[i]? = some q ∧ r.node = q.node ∧ r.dirty = q.dirty ∧ c[r.addr]? = some (some q.seq) := by
  induction h generalizing i with
  | nil => simp at hr
  | cons h0 h1 ih =>
    cases i with
    | zero =>
      simp only [List.getElem?_cons_zero, Option.some.injEq] at hr
      subst hr
      exact ⟨_, rfl, h0⟩
    | succ i => exact ih (by simpa using hr)

theorem hClosureLoop_ok (succ : Nat → Bool → List (Spawn W)) (fuel : Nat) : ∀ (i : Nat) {c : Cells W} {s : HState} {keep : List Nat} {st : List (Rec W)},
    (keep ++ owned s).Nodup → Live c (keep ++ owned s) → Holds c s.recs st →
    (∀ st', closureWith succ fuel i st = some st' → ∃ c' s', hClosureLoop succ fuel i c s = some (.ok (c', s')) ∧ (keep ++ owned s').Nodup ∧
      Live c' (keep ++ owned s') ∧ Holds c' s'.recs st' ∧ (∀ b ∈ keep, c'[b]? = c[b]?)) ∧
    (closureWith succ fuel i st = none → hClosureLoop succ fuel i c s = none) := by
  induction fuel with
  | zero =>
    intro i c s keep st hn hl hv
    unfold closureWith hClosureLoop
    cases hi : s.recs[i]? with
    | none =>
      rw [List.getElem?_eq_none_iff, hv.length, ← List.getElem?_eq_none_iff] at hi
      rw [hi]
      simp only [Option.some.injEq]
      exact ⟨by rintro st' rfl; exact ⟨c, s, rfl, hn, hl, hv, fun _ _ => rfl⟩, by simp⟩
    | some r =>
      obtain ⟨q, hq, -⟩ := hv.get hi
      rw [hq]
      simp
  | succ fuel ih =>
    intro i c s keep st hn hl hv
    unfold closureWith hClosureLoop
    cases hi : s.recs[i]? with
    | none =>
      rw [List.getElem?_eq_none_iff, hv.length, ← List.getElem?_eq_none_iff] at hi
      rw [hi]
      simp only [Option.some.injEq]
      exact ⟨by rintro st' rfl; exact ⟨c, s, rfl, hn, hl, hv, fun _ _ => rfl⟩, by simp⟩
    | some r =>
      obtain ⟨q, hq, e1, e2, e3⟩ := hv.get hi
      rw [hq]
      simp only
      have hmem : r.addr ∈ s.recs.map (·.addr) := List.mem_map.2 ⟨r, List.mem_of_getElem? hi, rfl⟩
      have assoc : keep ++ owned s = (keep ++ s.recs.map (·.addr)) ++ s.pool := by simp [owned]
      obtain ⟨c1, pool1, new1, s1, n1, l1, v1, k1⟩ := spawnAll_ok (succ r.node r.dirty) (keep := keep ++ s.recs.map (·.addr)) (src := r.addr)
        (assoc ▸ hn) (assoc ▸ hl) (by simp only [List.mem_append]; tauto) e3
      have p2 : ((new1.map (·.addr) ++ (keep ++ s.recs.map (·.addr))) ++ pool1).Perm
          (keep ++ owned { recs := s.recs ++ new1, pool := pool1 }) := by
        rw [List.perm_iff_count]
        intro b
        simp only [owned, List.count_append, List.map_append]
        omega
      have := ih (i + 1) (c := c1) (s := { recs := s.recs ++ new1, pool := pool1 }) (keep := keep) (st := st ++ spawned succ q)
        (p2.nodup_iff.1 n1) (l1.mono fun b hb => p2.mem_iff.2 hb) (by
          refine Holds.append (hv.congr fun b hb => k1 b (by simp only [List.mem_append]; tauto)) ?_
          unfold spawned
          rw [← e1, ← e2]
          exact v1)
      rw [s1]
      simp only
      refine ⟨?_, this.2⟩
      intro st' h
      obtain ⟨c', s', g1, g2, g3, g4, g5⟩ := this.1 st' h
      refine ⟨c', s', g1, g2, g3, g4, ?_⟩
      intro b hb
      rw [g5 b hb, k1 b (by simp only [List.mem_append]; tauto)]

theorem cellDeletes_ok (as : List Nat) : ∀ {c : Cells W} {keep : List Nat}, (keep ++ as).Nodup → Live c (keep ++ as) →
    ∃ c', cellDeletes c as = .ok c' ∧ Live c' keep ∧ ∀ b ∈ keep, c'[b]? = c[b]? := by
  induction as with
  | nil =>
    intro c keep _ hl
    exact ⟨c, rfl, by simpa using hl, fun _ _ => rfl⟩
  | cons a as ih =>
    intro c keep hn hl
    obtain ⟨x, hx⟩ := hl a (by simp)
    have hsplit := List.nodup_append.1 hn
    have hak : a ∉ keep := fun h => hsplit.2.2 a h a (by simp) rfl
    have haas : a ∉ as := (List.nodup_cons.1 hsplit.2.1).1
    have hother : ∀ b, b ≠ a → (c.set a none)[b]? = c[b]? := fun b hb => List.getElem?_set_ne (Ne.symm hb)
    obtain ⟨c', e1, e2, e3⟩ := ih (c := c.set a none) (keep := keep) (by
        have : (keep ++ as).Sublist (keep ++ a :: as) := List.Sublist.append_left (List.sublist_cons_self _ _) _
        exact hn.sublist this) (by
        intro b hb
        have hba : b ≠ a := by
          rintro rfl
          rcases List.mem_append.1 hb with h | h
          · exact hak h
          · exact haas h
        rw [hother b hba]
        exact hl b (by
          rcases List.mem_append.1 hb with h | h
          · exact List.mem_append_left _ h
          · exact List.mem_append_right _ (List.mem_cons_of_mem _ h)))
    refine ⟨c', ?_, e2, ?_⟩
    · unfold cellDeletes cellDelete
      rw [hx]
      simp only [Res.bind_ok]
      exact e1
    · intro b hb
      rw [e3 b hb, hother b]
      rintro rfl
      exact hak hb

theorem hDestroy_ok {c : Cells W} {s : HState} {keep : List Nat} (hn : (keep ++ owned s).Nodup) (hl : Live c (keep ++ owned s)) :
    ∃ c', hDestroy c s = .ok (c', { recs := [], pool := [] }) ∧ Live c' keep ∧ ∀ b ∈ keep, c'[b]? = c[b]? := by
  have p : (keep ++ owned s).Perm ((keep ++ s.pool) ++ s.recs.map (·.addr)) := by
    rw [List.perm_iff_count]
    intro b
    simp only [owned, List.count_append]
    omega
  obtain ⟨c1, e1, l1, k1⟩ := cellDeletes_ok (s.recs.map (·.addr)) (keep := keep ++ s.pool) (p.nodup_iff.1 hn) (hl.mono fun b hb => p.mem_iff.2 hb)
  obtain ⟨c2, e2, l2, k2⟩ := cellDeletes_ok s.pool (c := c1) (keep := keep) ((List.nodup_append.1 (p.nodup_iff.1 hn)).1) l1
  refine ⟨c2, ?_, l2, ?_⟩
  · unfold hDestroy
    rw [e1]
    simp only [Res.bind_ok]
    rw [e2]
    rfl
  · intro b hb
    rw [k2 b hb, k1 b (by simp only [List.mem_append]; tauto)]

theorem hCopies_ok (rs : List HRec) : ∀ {c : Cells W} {pool keep : List Nat} {st : List (Rec W)},
    (keep ++ pool).Nodup → Live c (keep ++ pool) → (∀ r ∈ rs, r.addr ∈ keep) → Holds c rs st →
    ∃ c' pool' new, hCopies rs c pool = .ok (c', pool', new) ∧ ((new.map (·.addr) ++ keep) ++ pool').Nodup ∧
      Live c' ((new.map (·.addr) ++ keep) ++ pool') ∧ Holds c' new st ∧ (∀ b ∈ keep, c'[b]? = c[b]?) := by
  induction rs with
  | nil =>
    intro c pool keep st hn hl _ hv
    cases hv
    exact ⟨c, pool, [], rfl, by simpa using hn, by simpa using hl, .nil, fun _ _ => rfl⟩
  | cons r rs ih =>
    intro c pool keep st hn hl hk hv
    cases hv with
    | @cons _ q _ st h0 hv =>
      obtain ⟨e1, e2, e3⟩ := h0
      obtain ⟨c1, p1, a, s1, n1, l1, v1, k1⟩ := spawn_ok id hn hl (hk r (by simp)) e3
      obtain ⟨c2, p2, new, s2, n2, l2, v2, k2⟩ := ih (c := c1) (pool := p1) (keep := a :: keep) (st := st) n1 l1
        (fun r hr => List.mem_cons_of_mem _ (hk r (by simp [hr]))) (Holds.congr hv fun b hb => k1 b (by
          obtain ⟨x, hx, rfl⟩ := List.mem_map.1 hb
          exact hk x (by simp [hx])))
      have hperm : ((new.map (·.addr) ++ a :: keep) ++ p2).Perm (((a :: new.map (·.addr)) ++ keep) ++ p2) :=
        List.Perm.append_right _ List.perm_middle
      refine ⟨c2, p2, { r with addr := a } :: new, ?_, hperm.nodup_iff.1 n2, l2.mono fun b hb => hperm.mem_iff.2 hb, ?_, ?_⟩
      · unfold hCopies
        rw [s1]
        simp only [Res.bind_ok]
        rw [s2]
        rfl
      · refine .cons ⟨e1, e2, ?_⟩ v2
        rw [k2 a (by simp)]
        exact v1
      · intro b hb
        rw [k2 b (by simp [hb]), k1 b hb]

theorem hPrune_ok (keepIf : Rec W → Bool) (rs : List HRec) {c : Cells W} : ∀ {pool : List Nat} {st : List (Rec W)}, Holds c rs st →
    ∃ pool' new, hPrune keepIf rs c pool = .ok (pool', new) ∧ (new.map (·.addr) ++ pool').Perm (rs.map (·.addr) ++ pool) ∧ Holds c new (st.filter keepIf) := by
  induction rs with
  | nil =>
    intro pool st hv
    cases hv
    exact ⟨pool, [], rfl, List.Perm.refl _, .nil⟩
  | cons r rs ih =>
    intro pool st hv
    cases hv with
    | @cons _ q _ st h0 hv =>
      obtain ⟨e1, e2, e3⟩ := h0
      have hq : ({ node := r.node, seq := q.seq, dirty := r.dirty } : Rec W) = q := by rw [e1, e2]
      unfold hPrune cellGet
      rw [e3]
      simp only [Res.bind_ok, hq]
      by_cases hk : keepIf q = true
      · obtain ⟨p', new, g1, g2, g3⟩ := ih (pool := pool) hv
        refine ⟨p', r :: new, ?_, ?_, ?_⟩
        · rw [if_pos hk, g1]; rfl
        · simp only [List.map_cons, List.cons_append]
          exact g2.cons _
        · rw [List.filter_cons_of_pos hk]
          exact .cons ⟨e1, e2, e3⟩ g3
      · obtain ⟨p', new, g1, g2, g3⟩ := ih (pool := pool ++ [r.addr]) hv
        refine ⟨p', new, ?_, ?_, ?_⟩
        · rw [if_neg hk, g1]
        · refine g2.trans ?_
          rw [List.perm_iff_count]
          intro b
          simp only [List.count_append, List.map_cons, List.count_cons, List.count_nil]
          omega
        · rw [List.filter_cons_of_neg hk]
          exact g3

/-- The objects own different allocated vectors, with these contents. -/
structure Good (c : Cells W) (s t : HState) (st tt : List (Rec W)) : Prop where
  nodup : (owned s ++ owned t).Nodup
  live : Live c (owned s ++ owned t)
  first : Holds c s.recs st
  second : Holds c t.recs tt

theorem Good.swap {c : Cells W} {s t : HState} {st tt : List (Rec W)} (h : Good c s t st tt) : Good c t s tt st :=
  ⟨(List.perm_append_comm).nodup_iff.1 h.nodup, h.live.mono fun b hb => by simp only [List.mem_append] at hb ⊢; tauto, h.second, h.first⟩

theorem act_ok (x : Action W) {c : Cells W} {s t : HState} {st tt : List (Rec W)} (h : Good c s t st tt) :
    (∀ st', meaning x st tt = some st' → ∃ c' s', act x c s t = some (.ok (c', s')) ∧ Good c' s' t st' tt) ∧
    (meaning x st tt = none → act x c s t = none) := by
  have hp : (owned s ++ owned t).Perm (owned t ++ owned s) := List.perm_append_comm
  have hn := hp.nodup_iff.1 h.nodup
  have hl : Live c (owned t ++ owned s) := h.live.mono fun b hb => hp.mem_iff.2 hb
  have mk : ∀ (c' : Cells W) (s' : HState) (st' : List (Rec W)), (owned t ++ owned s').Nodup → Live c' (owned t ++ owned s') → Holds c' s'.recs st' →
      (∀ b ∈ owned t, c'[b]? = c[b]?) → Good c' s' t st' tt := by
    intro c' s' st' h1 h2 h3 h4
    refine ⟨List.perm_append_comm.nodup_iff.1 h1, h2.mono fun b hb => List.perm_append_comm.mem_iff.1 hb, h3, h.second.congr fun b hb => h4 b ?_⟩
    unfold owned
    exact List.mem_append_left _ hb
  cases x with
  | init q =>
    refine ⟨?_, by simp [meaning]⟩
    intro st' e
    cases e
    have hn0 : (owned t ++ s.pool).Nodup := by
      refine hn.sublist (List.Sublist.append_left ?_ _)
      exact List.sublist_append_right _ _
    have hl0 : Live c (owned t ++ s.pool) := hl.mono fun b hb => by
      simp only [owned, List.mem_append] at hb ⊢; tauto
    unfold act hInit newSequence
    cases hp : s.pool.getLast? with
    | none =>
      have hpe : s.pool = [] := List.getLast?_eq_none_iff.1 hp
      rw [hpe, List.append_nil] at hn0 hl0
      have hset : cellSet (c ++ [some ([] : Sequence W)]) c.length [] = .ok (c ++ [some []]) := by
        unfold cellSet
        simp
      simp only
      rw [hset]
      simp only [Res.bind_ok, Res.pure_eq]
      refine ⟨_, _, rfl, mk _ _ _ ?_ ?_ ?_ ?_⟩
      · simp only [owned, List.map_cons, List.map_nil, List.append_nil]
        have : c.length ∉ owned t := fun hh => absurd (hl0.lt hh) (by omega)
        exact (List.perm_append_singleton _ _).nodup_iff.2 (List.nodup_cons.2 ⟨this, hn0⟩)
      · intro b hb
        simp only [owned, List.map_cons, List.map_nil, List.append_nil] at hb
        rcases List.mem_append.1 hb with hb | hb
        · obtain ⟨y, hy⟩ := hl0 b hb
          exact ⟨y, by rw [List.getElem?_append_left (hl0.lt hb), hy]⟩
        · rw [List.mem_singleton.1 hb]
          exact ⟨[], by simp⟩
      · exact .cons ⟨rfl, rfl, by simp⟩ .nil
      · intro b hb
        rw [List.getElem?_append_left (hl0.lt hb)]
    | some a =>
      obtain ⟨pre, hpre⟩ := List.getLast?_eq_some_iff.1 hp
      rw [hpre] at hn0 hl0
      have ha : a ∈ owned t ++ (pre ++ [a]) := by simp
      obtain ⟨y, hy⟩ := hl0 a ha
      have hset : cellSet c a [] = .ok (c.set a (some [])) := by
        unfold cellSet
        rw [hy]
      simp only
      rw [hset]
      simp only [Res.bind_ok, Res.pure_eq]
      have hat : a ∉ owned t := fun hh => (List.nodup_append.1 hn0).2.2 a hh a (by simp) rfl
      have hal := hl0.lt ha
      refine ⟨_, _, rfl, mk _ _ _ ?_ ?_ ?_ ?_⟩
      · simp only [owned, List.map_cons, List.map_nil, hpre, List.dropLast_concat]
        refine List.Perm.nodup_iff ?_ |>.1 hn0
        rw [List.perm_iff_count]
        intro b
        simp only [owned, List.count_append, List.count_cons, List.count_nil]
        omega
      · intro b hb
        by_cases hba : b = a
        · subst hba
          exact ⟨[], by simp [hal]⟩
        · have hb' : b ∈ owned t ++ (pre ++ [a]) := by
            simp only [owned, List.map_cons, List.map_nil, hpre, List.dropLast_concat, List.mem_append, List.mem_cons, List.not_mem_nil, or_false] at hb ⊢
            tauto
          obtain ⟨z, hz⟩ := hl0 b hb'
          exact ⟨z, by rw [List.getElem?_set_ne (Ne.symm hba), hz]⟩
      · exact .cons ⟨rfl, rfl, by simp [hal]⟩ .nil
      · intro b hb
        rw [List.getElem?_set_ne]
        rintro rfl
        exact hat hb
  | apply succ =>
    refine ⟨?_, by simp [meaning]⟩
    intro st' e
    cases e
    obtain ⟨c', pool', new, g1, g2, g3, g4, g5⟩ := hApplyLoop_ok succ s.recs (pool := s.pool) (keep := owned t) hn hl h.first
    refine ⟨c', { recs := new, pool := pool' }, ?_, mk _ _ _ g2 g3 g4 g5⟩
    simp only [act, hApply, g1]
    rfl
  | closure succ fuel =>
    have := hClosureLoop_ok succ fuel 0 (c := c) (s := s) (keep := owned t) hn hl h.first
    refine ⟨?_, this.2⟩
    intro st' e
    obtain ⟨c', s', g1, g2, g3, g4, g5⟩ := this.1 st' e
    exact ⟨c', s', g1, mk _ _ _ g2 g3 g4 g5⟩
  | prune keep =>
    refine ⟨?_, by simp [meaning]⟩
    intro st' e
    cases e
    obtain ⟨pool', new, g1, g2, g3⟩ := hPrune_ok keep s.recs (pool := s.pool) h.first
    have hperm : (owned t ++ owned s).Perm (owned t ++ owned { recs := new, pool := pool' }) := by
      refine List.Perm.append_left _ ?_
      exact g2.symm
    refine ⟨c, { recs := new, pool := pool' }, ?_, mk _ _ _ (hperm.nodup_iff.1 hn) (hl.mono fun b hb => hperm.mem_iff.2 hb) g3 fun _ _ => rfl⟩
    simp only [act, g1]
    rfl
  | merge =>
    refine ⟨?_, by simp [meaning]⟩
    intro st' e
    cases e
    have assoc : owned t ++ owned s = (owned t ++ s.recs.map (·.addr)) ++ s.pool := by simp [owned]
    obtain ⟨c', pool', new, g1, g2, g3, g4, g5⟩ := hCopies_ok t.recs (c := c) (pool := s.pool) (keep := owned t ++ s.recs.map (·.addr)) (assoc ▸ hn) (assoc ▸ hl)
      (fun r hr => List.mem_append_left _ (List.mem_append_left _ (List.mem_map.2 ⟨r, hr, rfl⟩))) h.second
    have hperm : ((new.map (·.addr) ++ (owned t ++ s.recs.map (·.addr))) ++ pool').Perm (owned t ++ owned { recs := s.recs ++ new, pool := pool' }) := by
      rw [List.perm_iff_count]
      intro b
      simp only [owned, List.count_append, List.map_append]
      omega
    refine ⟨c', { recs := s.recs ++ new, pool := pool' }, ?_, mk _ _ _ (hperm.nodup_iff.1 g2) (g3.mono fun b hb => hperm.mem_iff.2 hb) ?_ ?_⟩
    · unfold act hMerge
      rw [g1]
      rfl
    · exact (h.first.congr fun b hb => g5 b (List.mem_append_right _ hb)).append g4
    · intro b hb
      exact g5 b (List.mem_append_left _ hb)
  | assign =>
    refine ⟨?_, by simp [meaning]⟩
    intro st' e
    cases e
    obtain ⟨c1, e1, l1, k1⟩ := hDestroy_ok (keep := owned t) hn hl
    obtain ⟨c', pool', new, g1, g2, g3, g4, g5⟩ := hCopies_ok t.recs (c := c1) (pool := []) (keep := owned t) (by
        rw [List.append_nil]; exact (List.nodup_append.1 hn).1) (by rw [List.append_nil]; exact l1)
      (fun r hr => List.mem_append_left _ (List.mem_map.2 ⟨r, hr, rfl⟩)) (h.second.congr fun b hb => k1 b (List.mem_append_left _ hb))
    have hperm : ((new.map (·.addr) ++ owned t) ++ pool').Perm (owned t ++ owned { recs := new, pool := pool' }) := by
      rw [List.perm_iff_count]
      intro b
      simp only [owned, List.count_append]
      omega
    refine ⟨c', { recs := new, pool := pool' }, ?_, mk _ _ _ (hperm.nodup_iff.1 g2) (g3.mono fun b hb => hperm.mem_iff.2 hb) g4 ?_⟩
    · unfold act hAssign
      rw [e1]
      simp only [Res.bind_ok]
      unfold hCopy
      simp only [List.map_nil, cellDeletes, Res.bind_ok]
      rw [g1]
      rfl
    · intro b hb
      rw [g5 b hb, k1 b hb]
  | destroy =>
    refine ⟨?_, by simp [meaning]⟩
    intro st' e
    cases e
    obtain ⟨c1, e1, l1, k1⟩ := hDestroy_ok (keep := owned t) hn hl
    refine ⟨c1, { recs := [], pool := [] }, by simp only [act, e1], mk _ _ _ ?_ ?_ .nil k1⟩
    · simp only [owned, List.map_nil, List.append_nil]
      exact (List.nodup_append.1 hn).1
    · simp only [owned, List.map_nil, List.append_nil] at l1 ⊢
      exact l1

theorem acts_ok (xs : List (Bool × Action W)) : ∀ {c : Cells W} {s t : HState} {st tt : List (Rec W)}, Good c s t st tt →
    (∀ st' tt', meanings xs st tt = some (st', tt') → ∃ c' s' t', acts xs c s t = some (.ok (c', s', t')) ∧ Good c' s' t' st' tt') ∧
    (meanings xs st tt = none → acts xs c s t = none) := by
  induction xs with
  | nil =>
    intro c s t st tt h
    refine ⟨?_, by simp [meanings]⟩
    intro st' tt' e
    cases e
    exact ⟨c, s, t, rfl, h⟩
  | cons x xs ih =>
    intro c s t st tt h
    obtain ⟨b, x⟩ := x
    unfold meanings acts
    cases b with
    | true =>
      simp only [if_true]
      have ha := act_ok x h
      cases hm : meaning x st tt with
      | none => rw [ha.2 hm]; simp
      | some st1 =>
        obtain ⟨c1, s1, e1, h1⟩ := ha.1 _ hm
        rw [e1]
        exact ih h1
    | false =>
      simp only [Bool.false_eq_true, if_false]
      have ha := act_ok x h.swap
      cases hm : meaning x tt st with
      | none => rw [ha.2 hm]; simp
      | some tt1 =>
        obtain ⟨c1, t1, e1, h1⟩ := ha.1 _ hm
        rw [e1]
        exact ih h1.swap

/-! ## C63 -/

/-- **C63** Two newly constructed objects, and any sequence of calls on them: nothing undefined happens; afterwards the
sequences of all alive states are different allocated vectors that are in no pool, and their contents are those of
the list model. A closure does not end in memory exactly if it does not end in the list model. -/
theorem C63_pool (xs : List (Bool × Action W)) :
    (∀ st tt, meanings xs [] [] = some (st, tt) → ∃ c s t, acts xs [] { recs := [], pool := [] } { recs := [], pool := [] } = some (.ok (c, s, t)) ∧
      (s.recs.map (·.addr) ++ s.pool ++ (t.recs.map (·.addr) ++ t.pool)).Nodup ∧
      List.Forall₂ (fun (h : HRec) (r : Rec W) => h.node = r.node ∧ h.dirty = r.dirty ∧ c[h.addr]? = some (some r.seq)) s.recs st ∧
      List.Forall₂ (fun (h : HRec) (r : Rec W) => h.node = r.node ∧ h.dirty = r.dirty ∧ c[h.addr]? = some (some r.seq)) t.recs tt) ∧
    (meanings xs ([] : List (Rec W)) [] = none → acts xs [] { recs := [], pool := [] } { recs := [], pool := [] } = none) := by
  have h0 : Good ([] : Cells W) { recs := [], pool := [] } { recs := [], pool := [] } [] [] :=
    ⟨by simp [owned], by simp [owned, Live], .nil, .nil⟩
  obtain ⟨h1, h2⟩ := acts_ok xs h0
  refine ⟨?_, h2⟩
  intro st tt e
  obtain ⟨c, s, t, e1, g⟩ := h1 st tt e
  exact ⟨c, s, t, e1, g.nodup, g.first, g.second⟩

/-- The new states of `apply_into` for the symbol `x`. -/
def arcSpawn (g : Graph W) (x : Int) (altered : Bool) (q : Nat) (d : Bool) : List (Spawn W) :=
  match g q x with
  | some ds => ds.map fun e => (e.2.1, (fun s => if x ≠ 0 then s ++ [(e.1, e.2.2)] else s), d || altered)
  | none => []

/-- The new states of `epsilonClosure`. -/
def epsSpawn (g : Graph W) (q : Nat) (d : Bool) : List (Spawn W) :=
  match g q 0 with
  | some ds => ds.map fun e => (e.2.1, (fun s => if e.1 ≠ (0 : Int) then s ++ [(e.1, e.2.2)] else s), d)
  | none => []

theorem spawned_arc (g : Graph W) (x : Int) (b : Bool) (r : Rec W) : spawned (arcSpawn g x b) r = (applyInto g x r b).1 := by
  unfold spawned arcSpawn applyInto
  cases g r.node x with
  | none => rfl
  | some ds =>
    simp only [List.map_map]
    rfl

theorem spawned_eps (g : Graph W) (r : Rec W) : spawned (epsSpawn g) r = epsSuccs g r := by
  unfold spawned epsSpawn epsSuccs
  cases g r.node 0 with
  | none => rfl
  | some ds =>
    simp only [List.map_map]
    rfl

theorem closureWith_eps (g : Graph W) (fuel : Nat) : ∀ i st, closureWith (epsSpawn g) fuel i st = closureLoop g fuel i st := by
  induction fuel with
  | zero => intro i st; unfold closureWith closureLoop; cases st[i]? <;> rfl
  | succ fuel ih =>
    intro i st
    unfold closureWith closureLoop
    cases st[i]? with
    | none => rfl
    | some r => simp only; rw [spawned_eps, ih]

/-- The new states of `apply_into_override`. -/
def overrideSpawn (g : Graph W) (x oldSym newSym : Int) (altered : Bool) (q : Nat) (d : Bool) : List (Spawn W) :=
  match g q x with
  | some ds => ds.map fun e => (e.2.1,
      (fun s => if x ≠ 0 then (if e.1 = oldSym then s ++ [(newSym, e.2.2)] else s ++ [(e.1, e.2.2)]) else s), d || altered)
  | none => []

theorem spawned_override (g : Graph W) (x o n : Int) (b : Bool) (r : Rec W) :
    spawned (overrideSpawn g x o n b) r = (applyIntoOverride g x o n r b).1 := by
  unfold spawned overrideSpawn applyIntoOverride
  cases g r.node x with
  | none => rfl
  | some ds =>
    simp only [List.map_map]
    rfl

theorem spawned_append (f g : Nat → Bool → List (Spawn W)) (r : Rec W) :
    spawned (fun q d => f q d ++ g q d) r = spawned f r ++ spawned g r := by simp [spawned]

theorem spawned_flatMap (l : List Int) (f : Int → Nat → Bool → List (Spawn W)) (r : Rec W) :
    spawned (fun q d => l.flatMap fun x => f x q d) r = l.flatMap fun x => spawned (f x) r := by
  simp [spawned, List.map_flatMap]

/-- **C63** Every `apply` function of the list model is the meaning of its loop in memory. -/
theorem C63_applies (g : Graph W) (x y z : Int) (alts : List Int) (st other : List (Rec W)) :
    (x ≠ 0 → meaning (.apply (arcSpawn g x false)) st other = some (apply g x st)) ∧
    (x ≠ 0 → y ≠ 0 → x ≠ y → meaning (.apply fun q d => arcSpawn g x false q d ++ arcSpawn g y true q d) st other = some (applyAlt g x y st)) ∧
    (x ≠ 0 → y ≠ 0 → meaning (.apply fun q d => if (g q x).isSome then arcSpawn g x false q d else arcSpawn g y true q d) st other =
      some (applyCareful g x y st)) ∧
    (x ≠ 0 → y ≠ 0 → z ≠ 0 → x ≠ y → x ≠ z →
      meaning (.apply fun q d => arcSpawn g x false q d ++ arcSpawn g y true q d ++ arcSpawn g z true q d) st other = some (applyAlts2 g x y z st)) ∧
    (x ≠ 0 → 0 ∉ alts → meaning (.apply fun q d => arcSpawn g x false q d ++ alts.flatMap fun a => if a = x then [] else arcSpawn g a true q d) st other =
      some (applySet g x alts st)) ∧
    (x ≠ 0 → y ≠ 0 → meaning (.apply fun q d => overrideSpawn g x y z false q d ++ overrideSpawn g y y z true q d) st other =
      some (applyOverride g x y z st)) ∧
    (x = 0 → meaning .destroy st other = some (apply g x st)) := by
  refine ⟨?_, ?_, ?_, ?_, ?_, ?_, ?_⟩
  · intro hx
    unfold meaning apply
    rw [if_neg hx]
    exact congrArg some (congrArg (fun f => st.flatMap f) (funext fun r => spawned_arc g x false r))
  · intro hx hy hxy
    unfold meaning applyAlt
    rw [if_neg (by tauto), if_neg hxy]
    refine congrArg some (congrArg (fun f => st.flatMap f) (funext fun r => ?_))
    simp only [spawned_append, spawned_arc]
  · intro hx hy
    unfold meaning applyCareful
    rw [if_neg (by tauto)]
    simp only [Option.some.injEq]
    congr 1
    funext r
    have hsome : (applyInto g x r false).2 = (g r.node x).isSome := by
      unfold applyInto
      cases g r.node x <;> rfl
    rw [hsome]
    rw [← spawned_arc, ← spawned_arc]
    unfold spawned
    cases hgs : (g r.node x).isSome <;> simp [hgs]
  · intro hx hy hz hxy hxz
    unfold meaning applyAlts2
    rw [if_neg (by tauto), if_neg hxy, if_neg hxz]
    refine congrArg some (congrArg (fun f => st.flatMap f) (funext fun r => ?_))
    simp only [spawned_append, spawned_arc]
  · intro hx h0
    unfold meaning applySet
    rw [if_neg (by tauto)]
    simp only [Option.some.injEq]
    congr 1
    funext r
    rw [spawned_append, spawned_arc, spawned_flatMap]
    congr 2
    funext a
    by_cases ha : a = x
    · simp [ha, spawned]
    · simp only [if_neg ha]
      exact spawned_arc g a true r
  · intro hx hy
    unfold meaning applyOverride
    rw [if_neg (by tauto)]
    refine congrArg some (congrArg (fun f => st.flatMap f) (funext fun r => ?_))
    simp only [spawned_append, spawned_override]
  · intro hx
    simp [meaning, apply, hx]

/-- The calls that `step` makes. -/
def stepActions (g : Graph W) (fuel : Nat) (x : Int) : List (Action W) := [.apply (arcSpawn g x false), .closure (epsSpawn g) fuel]

/-- **C63** The actions of `init` and `step` mean `init` and `step`: whole runs in memory have the results of the list
model. -/
theorem C63_run (g : Graph W) (fuel q : Nat) (xs : List Int) (hx : ∀ x ∈ xs, x ≠ 0) (st : List (Rec W)) (h : run g fuel q xs = some st) :
    ∃ c s t, acts (((.init q :: .closure (epsSpawn g) fuel :: xs.flatMap (stepActions g fuel)) : List (Action W)).map fun x => (true, x))
        [] { recs := [], pool := [] } { recs := [], pool := [] } = some (.ok (c, s, t)) ∧
      List.Forall₂ (fun (h : HRec) (r : Rec W) => h.node = r.node ∧ h.dirty = r.dirty ∧ c[h.addr]? = some (some r.seq)) s.recs st := by
  have hmean : ∀ (xs : List Int) (st0 : List (Rec W)) st, (∀ x ∈ xs, x ≠ 0) → xs.foldl (fun st x => st.bind (step g fuel x)) (some st0) = some st →
      meanings ((xs.flatMap (stepActions g fuel)).map fun x => (true, x)) st0 [] = some (st, []) := by
    intro xs
    induction xs with
    | nil =>
      intro st0 st _ h
      cases h
      rfl
    | cons x xs ih =>
      intro st0 st hx h
      have hx0 : x ≠ 0 := hx x (by simp)
      rw [List.foldl_cons] at h
      cases hs : step g fuel x st0 with
      | none =>
        exfalso
        have : ∀ l : List Int, l.foldl (fun st x => st.bind (step g fuel x)) (none : Option (List (Rec W))) = none := by
          intro l
          induction l with
          | nil => rfl
          | cons _ _ ih => rw [List.foldl_cons]; exact ih
        simp only [Option.bind_some, hs, this] at h
        cases h
      | some st1 =>
        simp only [Option.bind_some, hs] at h
        have h1 : meaning (.apply (arcSpawn g x false)) st0 [] = some (apply g x st0) := by
          unfold meaning apply
          rw [if_neg hx0]
          simp only [Option.some.injEq]
          congr 1
          funext r
          exact spawned_arc g x false r
        have h2 : meaning (.closure (epsSpawn g) fuel) (apply g x st0) [] = some st1 := by
          unfold meaning
          simp only
          rw [closureWith_eps]
          exact hs
        simp only [List.flatMap_cons, stepActions, List.cons_append, List.nil_append, List.map_cons]
        unfold meanings
        simp only [if_true, h1, Option.bind_some]
        unfold meanings
        simp only [if_true, h2, Option.bind_some]
        exact ih st1 st (fun y hy => hx y (by simp [hy])) h
  have hinit : ∃ st0, init g fuel q = some st0 := by
    cases hi : init g fuel q with
    | some s => exact ⟨s, rfl⟩
    | none =>
      exfalso
      have : ∀ l : List Int, l.foldl (fun st x => st.bind (step g fuel x)) (none : Option (List (Rec W))) = none := by
        intro l
        induction l with
        | nil => rfl
        | cons _ _ ih => rw [List.foldl_cons]; exact ih
      unfold run at h
      rw [hi, this] at h
      cases h
  obtain ⟨st0, hst0⟩ := hinit
  unfold run at h
  rw [hst0] at h
  have hm := hmean xs st0 st hx h
  have hall : meanings (((.init q :: .closure (epsSpawn g) fuel :: xs.flatMap (stepActions g fuel)) : List (Action W)).map fun x => (true, x)) [] [] =
      some (st, []) := by
    simp only [List.map_cons]
    unfold meanings
    simp only [if_true, meaning, Option.bind_some]
    unfold meanings
    simp only [if_true, meaning]
    rw [closureWith_eps]
    have : closureLoop g fuel 0 [({ node := q, seq := [], dirty := false } : Rec W)] = some st0 := hst0
    rw [this]
    exact hm
  obtain ⟨c, s, t, e, -, g1, -⟩ := (C63_pool _).1 st [] hall
  exact ⟨c, s, t, e, g1⟩

example : ∃ c s t, acts [(true, .init 0), (true, .closure (epsSpawn exG) 9), (true, .apply (arcSpawn exG 97 false)), (false, .assign), (true, .merge), (false, .prune fun _ => false)]
    [] { recs := [], pool := [] } { recs := [], pool := [] } = some (.ok (c, s, t)) ∧ s.recs.length = 4 ∧ t.pool.length = 2 :=
  ⟨_, _, _, rfl, rfl, rfl⟩

/-- **C63** `State::copy` called directly on an object whose pool is not empty (unlike by `operator=`, which empties it
first) uses deleted vectors: the claim fails for it. -/
theorem C63_copy_false : hCopy [some [], some [(97, 0)]] { recs := [], pool := [0] } { recs := [{ node := 0, addr := 1, dirty := false }], pool := [] } =
    (.ub : Res (Cells Nat × HState)) := by decide +kernel

end Verif.State
