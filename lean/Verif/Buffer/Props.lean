import Verif.Buffer.Model
import Mathlib.Data.Nat.ModEq
import Mathlib.Data.List.Basic

/-! # The circular buffer -/

namespace Verif.Buffer

variable {T : Type}

/-- What a program does with a buffer. `save` stores `getPos()`; `restore i` sets the position to the `i`-th stored one
(the last stored is 0). -/
inductive Op (T : Type) where
  | add (v : T)
  | next
  | peek
  | last
  | isEmpty
  | back (n : Nat)
  | save
  | restore (i : Nat)

/-- What the program sees. -/
inductive Seen (T : Type) where
  | value (v : T)
  | flag (b : Bool)
  | nothing
deriving DecidableEq

/-- One operation on the buffer with the stored positions. -/
def exec : Op T → Buffer T × List Nat → Res (Seen T × Buffer T × List Nat)
  | .add v, (b, s) => .ok (.nothing, add v b, s)
  | .next, (b, s) => do
    let (v, b) ← next b
    pure (.value v, b, s)
  | .peek, (b, s) => do
    let v ← peek b
    pure (.value v, b, s)
  | .last, (b, s) => do
    let v ← last b
    pure (.value v, b, s)
  | .isEmpty, (b, s) => .ok (.flag (isEmpty b), b, s)
  | .back n, (b, s) => .ok (.nothing, back n b, s)
  | .save, (b, s) => .ok (.nothing, b, getPos b :: s)
  | .restore i, (b, s) => .ok (.nothing, setPos (s.getD i 0) b, s)

/-- A history. -/
def execs : List (Op T) → Buffer T × List Nat → Res (List (Seen T) × Buffer T × List Nat)
  | [], (b, s) => .ok ([], b, s)
  | op :: ops, (b, s) => do
    let (x, b, s) ← exec op (b, s)
    let (xs, b, s) ← execs ops (b, s)
    pure (x :: xs, b, s)

/-- The abstract stream: everything that was added, the number of values before the cursor, the stored cursors. -/
structure Stream (T : Type) where
  items : List T
  cursor : Nat
  saved : List Nat

/-- One operation on the stream. The last item is seen at the end. -/
def abstract : Op T → Stream T → Option (Seen T × Stream T)
  | .add v, s => some (.nothing, { s with items := s.items ++ [v], cursor := s.items.length + 1 })
  | .next, s =>
    match s.items[s.cursor]? with
    | some v => some (.value v, { s with cursor := s.cursor + 1 })
    | none => s.items.getLast?.map fun v => (.value v, s)
  | .peek, s =>
    match s.items[s.cursor]? with
    | some v => some (.value v, s)
    | none => s.items.getLast?.map fun v => (.value v, s)
  | .last, s => s.items.getLast?.map fun v => (.value v, s)
  | .isEmpty, s => some (.flag (s.cursor = s.items.length), s)
  | .back n, s => if n ≤ s.cursor then some (.nothing, { s with cursor := s.cursor - n }) else none
  | .save, s => some (.nothing, { s with saved := s.cursor :: s.saved })
  | .restore i, s => (s.saved[i]?).map fun k => (.nothing, { s with cursor := k })

/-- A history of the stream in which the cursor always stays fewer than `size` items behind the end; going back is not
done on the empty stream, and a stored position that is the end is not restored when the number of items is a multiple
of `size`. -/
def Within (size : Nat) : List (Op T) → Stream T → List (Seen T) → Stream T → Prop
  | [], s, xs, s' => xs = [] ∧ s' = s
  | op :: ops, s, xs, s' => ∃ x s1 xs', abstract op s = some (x, s1) ∧ xs = x :: xs' ∧
      s1.items.length < s1.cursor + size ∧
      (∀ n, op = .back n → s.items ≠ []) ∧
      (∀ i, op = .restore i → s1.cursor = s.items.length → s.items = [] ∨ ¬ size ∣ s.items.length) ∧
      Within size ops s1 xs' s'

/-- The buffer stands for the stream. -/
structure Rep (b : Buffer T) (s : Stream T) (saved : List Nat) : Prop where
  pos : 0 < b.size
  small : b.size < 2 ^ 32
  len : b.buf.length = b.size
  lastLe : b.lastpos ≤ b.size
  lastMod : b.lastpos ≡ s.items.length [MOD b.size]
  lastPos : b.lastpos = 0 ↔ s.items = []
  curLe : b.currentpos ≤ b.size
  curMod : b.currentpos ≡ s.cursor [MOD b.size]
  curAt : s.cursor ≤ s.items.length
  near : s.items.length < s.cursor + b.size
  atEnd : s.cursor = s.items.length → b.currentpos = b.lastpos
  savedLen : saved.length = s.saved.length
  savedMod : ∀ (i k p : Nat), s.saved[i]? = some k → saved[i]? = some p → p ≡ k [MOD b.size] ∧ k ≤ s.items.length
  cells : ∀ (i : Nat) v, s.items[i]? = some v → s.items.length ≤ i + b.size → b.buf[i % b.size]? = some (some v)

theorem Rep.cur_ne {b : Buffer T} {s : Stream T} {saved : List Nat} (h : Rep b s saved) :
    b.currentpos = b.lastpos ↔ s.cursor = s.items.length := by
  refine ⟨?_, h.atEnd⟩
  intro he
  have h1 : s.cursor ≡ s.items.length [MOD b.size] := (h.curMod.symm.trans (he ▸ Nat.ModEq.refl _)).trans h.lastMod
  have hd := (Nat.modEq_iff_dvd' h.curAt).1 h1
  have := h.near
  have h0 : s.items.length - s.cursor = 0 := Nat.eq_zero_of_dvd_of_lt hd (by have := h.pos; omega)
  have := h.curAt
  omega

theorem Rep.at_cur {b : Buffer T} {s : Stream T} {saved : List Nat} (h : Rep b s saved) {v : T} (hv : s.items[s.cursor]? = some v) :
    at_ b (if b.currentpos = b.size then 0 else b.currentpos) = .ok v := by
  have hmod : (if b.currentpos = b.size then 0 else b.currentpos) = s.cursor % b.size := by
    have h2 := h.curMod
    unfold Nat.ModEq at h2
    rw [← h2]
    split
    · rename_i e; rw [e, Nat.mod_self]
    · have := h.curLe
      rw [Nat.mod_eq_of_lt (by omega)]
  rw [hmod]
  have hlt := (List.getElem?_eq_some_iff.1 hv).1
  unfold at_
  rw [h.cells s.cursor v hv (by have := h.near; omega)]

theorem Rep.last_ok {b : Buffer T} {s : Stream T} {saved : List Nat} (h : Rep b s saved) {v : T} (hv : s.items.getLast? = some v) :
    last b = .ok v := by
  have hne : s.items ≠ [] := by rintro e; rw [e] at hv; simp at hv
  have hp : 0 < s.items.length := List.length_pos_iff.2 hne
  have h0 : b.lastpos ≠ 0 := fun e => hne (h.lastPos.1 e)
  have hv' : s.items[s.items.length - 1]? = some v := by rw [← List.getLast?_eq_getElem?]; exact hv
  have hsz := h.pos
  unfold last
  rw [if_pos h0]
  have hmod : b.lastpos - 1 = (s.items.length - 1) % b.size := by
    have h1 : b.lastpos - 1 ≡ s.items.length - 1 [MOD b.size] := by
      have := h.lastMod
      have e1 : b.lastpos = (b.lastpos - 1) + 1 := by omega
      have e2 : s.items.length = (s.items.length - 1) + 1 := by omega
      rw [e1, e2] at this
      exact Nat.ModEq.add_right_cancel' 1 this
    unfold Nat.ModEq at h1
    rw [← h1, Nat.mod_eq_of_lt (by have := h.lastLe; omega)]
  rw [hmod]
  unfold at_
  rw [h.cells (s.items.length - 1) v hv' (by omega)]

theorem exec_ok {b : Buffer T} {s : Stream T} {saved : List Nat} (h : Rep b s saved) (op : Op T) {x : Seen T} {s1 : Stream T}
    (ha : abstract op s = some (x, s1)) (hn : s1.items.length < s1.cursor + b.size) (hb : ∀ n, op = .back n → s.items ≠ [])
    (hr : ∀ i, op = .restore i → s1.cursor = s.items.length → s.items = [] ∨ ¬ b.size ∣ s.items.length) :
    ∃ b1 saved1, exec op (b, saved) = .ok (x, b1, saved1) ∧ Rep b1 s1 saved1 ∧ b1.size = b.size := by
  have hsz := h.pos
  cases op with
  | add v =>
    simp only [abstract, Option.some.injEq, Prod.mk.injEq] at ha
    obtain ⟨rfl, rfl⟩ := ha
    refine ⟨_, _, rfl, ?_, rfl⟩
    have hl : (if b.lastpos = b.size then 0 else b.lastpos) = s.items.length % b.size := by
      have h2 := h.lastMod
      unfold Nat.ModEq at h2
      rw [← h2]
      split
      · rename_i e; rw [e, Nat.mod_self]
      · have := h.lastLe
        rw [Nat.mod_eq_of_lt (by omega)]
    have hlt := Nat.mod_lt s.items.length hsz
    have hmod : s.items.length % b.size + 1 ≡ s.items.length + 1 [MOD b.size] := Nat.ModEq.add_right 1 (Nat.mod_modEq _ _)
    unfold add
    simp only [hl]
    refine ⟨hsz, h.small, by simpa using h.len, hlt, by simpa using hmod, by simp, hlt, by simpa using hmod, by simp, by simp [hsz], by simp, h.savedLen, ?_, ?_⟩
    · intro i k p hk hp
      obtain ⟨g1, g2⟩ := h.savedMod i k p hk hp
      exact ⟨g1, by simp only [List.length_append]; omega⟩
    · intro i u hu hi
      simp only [List.length_append, List.length_cons, List.length_nil] at hi
      by_cases hii : i = s.items.length
      · subst hii
        simp only [List.getElem?_append_right (Nat.le_refl _), Nat.sub_self, List.getElem?_cons_zero, Option.some.injEq] at hu
        subst hu
        rw [List.getElem?_set_self (by rw [h.len]; exact hlt)]
      · have hi2 : i < s.items.length := by
          have := (List.getElem?_eq_some_iff.1 hu).1
          simp only [List.length_append, List.length_cons, List.length_nil] at this
          omega
        rw [List.getElem?_append_left hi2] at hu
        have hne : s.items.length % b.size ≠ i % b.size := by
          intro e
          have hd : b.size ∣ s.items.length - i := (Nat.modEq_iff_dvd' (by omega : i ≤ s.items.length)).1 (show i % b.size = s.items.length % b.size from e.symm)
          have := Nat.le_of_dvd (by omega) hd
          omega
        rw [List.getElem?_set_ne hne]
        exact h.cells i u hu (by omega)
  | next =>
    simp only [abstract] at ha
    cases hc : s.items[s.cursor]? with
    | some v =>
      rw [hc] at ha
      simp only [Option.some.injEq, Prod.mk.injEq] at ha
      obtain ⟨rfl, rfl⟩ := ha
      have hlt := (List.getElem?_eq_some_iff.1 hc).1
      have hne : b.currentpos ≠ b.lastpos := fun e => by have := h.cur_ne.1 e; omega
      have hat := h.at_cur hc
      refine ⟨{ b with currentpos := (if b.currentpos = b.size then 0 else b.currentpos) + 1 }, saved, ?_, ?_, rfl⟩
      · have : next b = .ok (v, { b with currentpos := (if b.currentpos = b.size then 0 else b.currentpos) + 1 }) := by
          unfold next
          rw [if_pos hne]
          simp only [hat]
          rfl
        simp only [exec, this]
        rfl
      · have hle : (if b.currentpos = b.size then 0 else b.currentpos) + 1 ≤ b.size := by
          have := h.curLe
          split <;> omega
        have hmod : (if b.currentpos = b.size then 0 else b.currentpos) + 1 ≡ s.cursor + 1 [MOD b.size] := by
          refine Nat.ModEq.add_right 1 ?_
          split
          · rename_i e
            have h2 := h.curMod
            rw [e] at h2
            exact ((Nat.modEq_zero_iff_dvd.2 (dvd_refl b.size)).symm.trans h2)
          · exact h.curMod
        refine ⟨hsz, h.small, h.len, h.lastLe, h.lastMod, h.lastPos, hle, hmod, hlt, hn, ?_, h.savedLen, h.savedMod, h.cells⟩
        intro e
        simp only at e ⊢
        -- both positions are between 1 and the size and congruent
        have h1 : (if b.currentpos = b.size then 0 else b.currentpos) + 1 ≡ b.lastpos [MOD b.size] := (hmod.trans (e ▸ Nat.ModEq.refl _)).trans h.lastMod.symm
        have hl0 : b.lastpos ≠ 0 := fun e0 => by
          have := h.lastPos.1 e0
          rw [this] at hlt
          simp at hlt
        have hl := h.lastLe
        generalize (if b.currentpos = b.size then 0 else b.currentpos) = c at hle h1 ⊢
        rcases Nat.le_total (c + 1) b.lastpos with hcl | hcl
        · have := Nat.eq_zero_of_dvd_of_lt ((Nat.modEq_iff_dvd' hcl).1 h1) (by omega)
          omega
        · have := Nat.eq_zero_of_dvd_of_lt ((Nat.modEq_iff_dvd' hcl).1 h1.symm) (by omega)
          omega
    | none =>
      rw [hc] at ha
      simp only [Option.map_eq_some_iff, Prod.mk.injEq] at ha
      obtain ⟨v, hv, rfl, rfl⟩ := ha
      have he : s.cursor = s.items.length := by
        have := List.getElem?_eq_none_iff.1 hc
        have := h.curAt
        omega
      refine ⟨b, saved, ?_, h, rfl⟩
      have : next b = .ok (v, b) := by
        unfold next
        rw [if_neg (by simpa using h.atEnd he), h.last_ok hv]
        rfl
      simp only [exec, this]
      rfl
  | peek =>
    simp only [abstract] at ha
    cases hc : s.items[s.cursor]? with
    | some v =>
      rw [hc] at ha
      simp only [Option.some.injEq, Prod.mk.injEq] at ha
      obtain ⟨rfl, rfl⟩ := ha
      have hlt := (List.getElem?_eq_some_iff.1 hc).1
      have hne : b.currentpos ≠ b.lastpos := fun e => by have := h.cur_ne.1 e; omega
      have hat := h.at_cur hc
      refine ⟨b, saved, ?_, h, rfl⟩
      have : peek b = .ok v := by
        unfold peek
        rw [if_pos hne]
        by_cases hs : b.currentpos = b.size
        · rw [if_pos hs] at hat ⊢
          exact hat
        · rw [if_neg hs] at hat ⊢
          exact hat
      simp only [exec, this]
      rfl
    | none =>
      rw [hc] at ha
      simp only [Option.map_eq_some_iff, Prod.mk.injEq] at ha
      obtain ⟨v, hv, rfl, rfl⟩ := ha
      have he : s.cursor = s.items.length := by
        have := List.getElem?_eq_none_iff.1 hc
        have := h.curAt
        omega
      refine ⟨b, saved, ?_, h, rfl⟩
      have : peek b = .ok v := by
        unfold peek
        rw [if_neg (by simpa using h.atEnd he), h.last_ok hv]
      simp only [exec, this]
      rfl
  | last =>
    simp only [abstract, Option.map_eq_some_iff, Prod.mk.injEq] at ha
    obtain ⟨v, hv, rfl, rfl⟩ := ha
    refine ⟨b, saved, ?_, h, rfl⟩
    simp only [exec, h.last_ok hv]
    rfl
  | isEmpty =>
    simp only [abstract, Option.some.injEq, Prod.mk.injEq] at ha
    obtain ⟨rfl, rfl⟩ := ha
    refine ⟨b, saved, ?_, h, rfl⟩
    simp only [exec, isEmpty]
    rw [show decide (b.currentpos = b.lastpos) = decide (s.cursor = s.items.length) from decide_eq_decide.2 h.cur_ne]
  | back n =>
    simp only [abstract] at ha
    split at ha
    case isFalse => cases ha
    rename_i hnk
    simp only [Option.some.injEq, Prod.mk.injEq] at ha
    obtain ⟨rfl, rfl⟩ := ha
    simp only at hn
    have hne := hb n rfl
    have hcl := h.curLe
    have hnl : n < b.size := by have := h.curAt; omega
    refine ⟨_, _, rfl, ?_, by unfold back; split <;> rfl⟩
    have hl0 : b.lastpos ≠ 0 := fun e0 => hne (h.lastPos.1 e0)
    have hval : (if b.currentpos > n then b.currentpos - n else b.size + b.currentpos - n) ≡ s.cursor - n [MOD b.size] := by
      have h2 := h.curMod
      split
      · rename_i hgt
        refine Nat.ModEq.add_right_cancel' n ?_
        rw [Nat.sub_add_cancel (by omega), Nat.sub_add_cancel hnk]
        exact h2
      · refine Nat.ModEq.add_right_cancel' n ?_
        rw [Nat.sub_add_cancel (by omega), Nat.sub_add_cancel hnk]
        have : b.size + b.currentpos ≡ b.currentpos [MOD b.size] := by simp [Nat.ModEq]
        exact this.trans h2
    have hpos : (back n b).currentpos = if b.currentpos > n then b.currentpos - n else b.size + b.currentpos - n := by
      unfold back
      have := h.small
      split
      · rfl
      · have e : b.size + 2 ^ 32 - (n - b.currentpos) = (b.size + b.currentpos - n) + 2 ^ 32 := by omega
        simp only [e, Nat.add_mod_right]
        exact Nat.mod_eq_of_lt (by omega)
    have hsize : (back n b).size = b.size := by unfold back; split <;> rfl
    have hbuf : (back n b).buf = b.buf := by unfold back; split <;> rfl
    have hlast : (back n b).lastpos = b.lastpos := by unfold back; split <;> rfl
    refine ⟨by rw [hsize]; exact hsz, by rw [hsize]; exact h.small, by rw [hsize, hbuf]; exact h.len, by rw [hlast, hsize]; exact h.lastLe,
      by rw [hlast, hsize]; exact h.lastMod, by rw [hlast]; exact h.lastPos, ?_, ?_, ?_, ?_, ?_, h.savedLen, ?_, ?_⟩
    · rw [hpos, hsize]; split <;> omega
    · rw [hpos, hsize]; exact hval
    · have := h.curAt; simp only; omega
    · rw [hsize]; exact hn
    · intro e
      simp only at e
      have h0 : n = 0 := by have := h.curAt; omega
      have hc : b.currentpos = b.lastpos := h.atEnd (by omega)
      rw [hpos, hlast, h0]
      rw [if_pos (by omega)]
      omega
    · rw [hsize]; exact h.savedMod
    · rw [hsize, hbuf]; exact h.cells
  | save =>
    simp only [abstract, Option.some.injEq, Prod.mk.injEq] at ha
    obtain ⟨rfl, rfl⟩ := ha
    refine ⟨_, _, rfl, ?_, rfl⟩
    refine { h with savedLen := by simp [h.savedLen], savedMod := ?_ }
    intro i k p hk hp
    cases i with
    | zero =>
      simp only [List.getElem?_cons_zero, Option.some.injEq] at hk hp
      subst hk hp
      exact ⟨h.curMod, h.curAt⟩
    | succ i => exact h.savedMod i k p (by simpa using hk) (by simpa using hp)
  | restore i =>
    simp only [abstract, Option.map_eq_some_iff, Prod.mk.injEq] at ha
    obtain ⟨k, hk, rfl, rfl⟩ := ha
    simp only at hn
    have hi : i < saved.length := by
      rw [h.savedLen]
      exact (List.getElem?_eq_some_iff.1 hk).1
    obtain ⟨g1, g2⟩ := h.savedMod i k saved[i] hk (List.getElem?_eq_getElem hi)
    have hp : saved.getD i 0 = saved[i] := by
      rw [List.getD_eq_getElem?_getD, List.getElem?_eq_getElem hi]; rfl
    have hlt := Nat.mod_lt saved[i] hsz
    refine ⟨_, _, rfl, ?_, rfl⟩
    rw [hp]
    unfold setPos
    refine ⟨hsz, h.small, h.len, h.lastLe, h.lastMod, h.lastPos, Nat.le_of_lt hlt, (Nat.mod_modEq _ _).trans g1, g2, hn, ?_, h.savedLen, h.savedMod, h.cells⟩
    intro e
    simp only at e ⊢
    have h1 : saved[i] % b.size ≡ b.lastpos [MOD b.size] := ((Nat.mod_modEq _ _).trans (e ▸ g1)).trans h.lastMod.symm
    rcases hr i rfl e with h0 | h0
    · have hl := h.lastPos.2 h0
      rw [hl] at h1 ⊢
      unfold Nat.ModEq at h1
      rwa [Nat.mod_mod, Nat.zero_mod] at h1
    · have hne : b.lastpos ≠ b.size := by
        intro e2
        apply h0
        have h3 := h.lastMod
        rw [e2] at h3
        exact Nat.modEq_zero_iff_dvd.1 (h3.symm.trans (Nat.modEq_zero_iff_dvd.2 (dvd_refl b.size)))
      unfold Nat.ModEq at h1
      rw [Nat.mod_mod, Nat.mod_eq_of_lt (by have := h.lastLe; omega : b.lastpos < b.size)] at h1
      exact h1

/-- **C45** A buffer of any size, and any history in which the reader stays fewer than `size` items behind the end
(see `Within`): the program sees exactly what it would see in an unbounded list with a cursor, and nothing undefined
happens. -/
theorem C45_stream (size : Nat) (h0 : 0 < size) (h32 : size < 2 ^ 32) (ops : List (Op T)) (xs : List (Seen T)) (s' : Stream T)
    (hw : Within size ops { items := [], cursor := 0, saved := [] } xs s') :
    ∃ b, new T size = .ok b ∧ ∃ b' saved, execs ops (b, []) = .ok (xs, b', saved) := by
  have main : ∀ (ops : List (Op T)) (b : Buffer T) (s : Stream T) (saved : List Nat) (xs : List (Seen T)), b.size = size → Rep b s saved →
      Within size ops s xs s' → ∃ b' saved', execs ops (b, saved) = .ok (xs, b', saved') := by
    intro ops
    induction ops with
    | nil =>
      rintro b s saved xs - - ⟨rfl, -⟩
      exact ⟨b, saved, rfl⟩
    | cons op ops ih =>
      rintro b s saved xs hs h ⟨x, s1, xs', h1, rfl, h2, h3, h4, h5⟩
      obtain ⟨b1, saved1, e1, r1, e2⟩ := exec_ok h op h1 (hs ▸ h2) h3 (hs ▸ h4)
      obtain ⟨b', saved', e3⟩ := ih b1 s1 saved1 xs' (e2.trans hs) r1 h5
      refine ⟨b', saved', ?_⟩
      unfold execs
      rw [e1]
      simp only [Res.bind_ok]
      rw [e3]
      rfl
  refine ⟨_, by unfold new; rw [if_neg (by omega)], ?_⟩
  refine main ops _ _ [] xs rfl ?_ hw
  exact ⟨h0, h32, by simp, by simp, Nat.ModEq.refl _, by simp, by simp, Nat.ModEq.refl _, by simp, by simpa using h0, by simp, rfl, by simp, by simp⟩

-- a history on a buffer of three places, with wrap-around, going back and a restored position
def exOps : List (Op Nat) := [.add 1, .add 2, .save, .add 3, .add 4, .restore 0, .next, .peek, .back 1, .next, .next, .isEmpty, .next]

example : Within 3 exOps { items := [], cursor := 0, saved := [] }
    [.nothing, .nothing, .nothing, .nothing, .nothing, .nothing, .value 3, .value 4, .nothing, .value 3, .value 4, .flag true, .value 4]
    { items := [1, 2, 3, 4], cursor := 4, saved := [2] } := by
  simp [exOps, Within, abstract]

/-- **C45** The number of values between a stored position and the cursor, when it is less than the size; false only
when the stored position is 0 and the current one is the size (which are the same place). -/
theorem C45_diff (size : Nat) (b : Buffer T) (hs : b.size = size) (p k k0 : Nat) (hp : p ≤ size) (hc : b.currentpos ≤ size)
    (hpk : p % size = k0 % size) (hck : b.currentpos % size = k % size) :
    (k0 ≤ k → k < k0 + size → ¬ (p = 0 ∧ b.currentpos = size) → diffPrevPos p b = k - k0) ∧
    (k ≤ k0 → k0 < k + size → ¬ (b.currentpos = 0 ∧ p = size) → diffPostPos p b = k0 - k) := by
  have key : ∀ (x y a c : Nat), x ≤ size → y ≤ size → x % size = a % size → y % size = c % size → a ≤ c → c < a + size →
      ¬ (x = 0 ∧ y = size) → (if x ≤ y then y - x else y + size - x) = c - a := by
    intro x y a c hx hy e1 e2 hac hlt hne
    have hmod : (if x ≤ y then y - x else y + size - x) ≡ c - a [MOD size] := by
      refine Nat.ModEq.add_right_cancel' x ?_
      have e3 : c - a + x ≡ c [MOD size] := by
        have : c - a + x ≡ c - a + a [MOD size] := Nat.ModEq.add_left _ e1
        rwa [Nat.sub_add_cancel hac] at this
      split
      · rw [Nat.sub_add_cancel (by assumption)]
        exact (show y ≡ c [MOD size] from e2).trans e3.symm
      · rw [Nat.sub_add_cancel (by omega)]
        refine Nat.ModEq.trans ?_ e3.symm
        have : y + size ≡ y [MOD size] := by simp [Nat.ModEq]
        exact this.trans e2
    have hlt2 : (if x ≤ y then y - x else y + size - x) < size := by
      split <;> omega
    have := hmod
    unfold Nat.ModEq at this
    rwa [Nat.mod_eq_of_lt hlt2, Nat.mod_eq_of_lt (by omega)] at this
  constructor
  · intro h1 h2 h3
    unfold diffPrevPos
    rw [hs]
    exact key p b.currentpos k0 k hp hc hpk hck h1 h2 h3
  · intro h1 h2 h3
    unfold diffPostPos
    rw [hs]
    exact key b.currentpos p k k0 hc hp hck hpk h1 h2 h3

example : diffPrevPos 3 ({ size := 3, buf := [some 4, some 2, some 3], currentpos := 1, lastpos := 1 } : Buffer Nat) = 4 - 3 := rfl

/-- **C45** Restoring a stored position that is the end of a just filled buffer makes old values appear as unread. -/
theorem C45_restore_false : ∃ b, new Nat 2 = .ok b ∧ ∃ b' s, execs [.add 1, .add 2, .save, .restore 0, .isEmpty, .next] (b, []) =
    .ok ([.nothing, .nothing, .nothing, .nothing, .flag false, .value 1], b', s) := ⟨_, rfl, _, _, rfl⟩

/-- **C45** Going back by the whole capacity makes the unread values disappear. -/
theorem C45_capacity_false : ∃ b, new Nat 2 = .ok b ∧ ∃ b' s, execs [.add 1, .add 2, .back 2, .isEmpty, .next] (b, []) =
    .ok ([.nothing, .nothing, .nothing, .flag true, .value 2], b', s) := ⟨_, rfl, _, _, rfl⟩

/-- **C45** `back(0)` on a new buffer leaves it claiming an unread value that was never added. -/
theorem C45_back_zero_false : ∃ b, new Nat 2 = .ok b ∧ execs [.back 0, .next] (b, []) = .ub ∧
    ∃ b' s, execs [.back 0, .isEmpty] (b, []) = .ok ([.nothing, .flag false], b', s) := ⟨_, rfl, rfl, _, _, rfl⟩

/-- **C45** A copy of a buffer has the contents when an element is one byte; with wider elements the copy of a filled buffer
always has places that were not copied. -/
theorem C45_copy_false (width : Nat) (b : Buffer T) (hl : b.buf.length = b.size) (hs : 0 < b.size) (hw : 1 < width)
    (hf : ∀ x ∈ b.buf, x ≠ none) : copy 1 b = b ∧ ∃ i, i < b.size ∧ (∃ v, at_ b i = .ok v) ∧ at_ (copy width b) i = .ub := by
  constructor
  · unfold copy
    rw [Nat.div_one, Nat.sub_self, List.replicate_zero, List.append_nil, List.take_of_length_le (by omega)]
  · have hq : b.size / width < b.size := Nat.div_lt_self hs hw
    refine ⟨b.size / width, hq, ?_, ?_⟩
    · unfold at_
      rw [List.getElem?_eq_getElem (by omega)]
      cases hx : b.buf[b.size / width]'(by omega) with
      | none => exact absurd hx (hf _ (List.getElem_mem _))
      | some v => exact ⟨v, rfl⟩
    · unfold at_ copy
      simp only
      rw [List.getElem?_append_right (by rw [List.length_take]; omega)]
      have : (b.buf.take (b.size / width)).length = b.size / width := by rw [List.length_take]; omega
      rw [this, Nat.sub_self, List.getElem?_replicate_of_lt (by omega)]

example : (copy 4 ({ size := 4, buf := [some 1, some 2, some 3, some 4], currentpos := 4, lastpos := 4 } : Buffer Nat)).buf = [some 1, none, none, none] := rfl

/-- **C45** `add(void)` does not add: on a new or just filled buffer it returns the place before the array, otherwise the
last value, and the cursor is at the end. -/
theorem C45_add_void_false (b : Buffer T) : (b.lastpos = 0 ∨ b.lastpos = b.size → addVoid b = .ub) ∧
    (b.lastpos ≠ 0 → b.lastpos ≠ b.size → addVoid b = .ok ({ b with currentpos := b.lastpos }, b.lastpos - 1)) := by
  unfold addVoid
  constructor
  · intro h
    by_cases hs : b.lastpos = b.size
    · simp [hs]
    · rcases h with h | h
      · simp [h]
      · exact absurd h hs
  · intro h1 h2
    simp [h1, h2]

end Verif.Buffer
