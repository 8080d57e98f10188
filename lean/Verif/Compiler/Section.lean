import Verif.Compiler.Tokens

/-! # Putting entries into a section -/

namespace Verif.Compiler

open Verif.Fst Verif.Alphabet

set_option linter.unusedSectionVars false

section
variable {W : Type} [Zero W]
variable {B : (Int × W → Bool) → Prop} {K : Int → Prop} {t t' : Transducer W} {C C' : Nat → Prop} {D D' : Nat → Int → Prop}

/-- The old cursors in a larger transducer. -/
theorem Tree.restrict (h : Tree B K t C D) (h' : Tree B K t' C' D') (hk : Keeps t C D t' C' D')
    (hnew : ∀ p l r, D p l.1 → Edge t' p l r → Edge t p l r) : Tree B K t' C D := by
  refine ⟨h'.wf, h'.zero, h'.known, ?_, ?_, h'.start, fun q hq => Nat.lt_of_lt_of_le (h.lt q hq) hk.size, h.dc, ?_,
    fun q c hd => h'.len q c (hk.dsub q c hd), ?_, ?_⟩
  · rw [hk.init]; exact h.cinit
  · intro c hc; rw [hk.init]; exact h.dinit c hc
  · intro q l p hd he
    have hCq := (h.dc _ _ hd).1
    obtain ⟨h1, h2, h3⟩ := h.step q l p hd (hnew _ _ _ hd he)
    refine ⟨h1, h2, fun ls hp => ?_⟩
    rw [hk.init] at hp ⊢
    obtain ⟨ls', rfl, h4⟩ := h3 ls ((hk.inn p h1 ls).1 hp)
    exact ⟨ls', rfl, (hk.inn q hCq ls').2 h4⟩
  · intro q hq
    obtain ⟨ls, hls⟩ := h.reach q hq
    rw [hk.init]
    exact ⟨ls, (hk.inn q hq ls).2 hls⟩
  · intro m hB q hq
    obtain ⟨n, hn⟩ := h.bdd m hB q hq
    refine ⟨n, fun ls hls => hn ls ?_⟩
    rw [hk.init] at hls
    exact (hk.inn q hq ls).1 hls

theorem Keeps.restrict (hk : Keeps t C D t' C' D') : Keeps t C D t' C D :=
  ⟨hk.init, hk.size, fun _ h => h, fun _ _ h => h, hk.inn, fun s hs hr =>
    ⟨fun q hq => (hk.out s hs hr).1 q (hk.sub q hq), (hk.out s hs hr).2⟩⟩

/-- An arc without symbols from a cursor to a state that does not lead back. -/
theorem Tree.link (h : Tree B K t C D) {q s : Nat} (hq : C q) (hs : s < size t) (hsC : ∀ p, C p → ∀ ls, ¬ Path (Edge t) s ls p) (hk0 : K 0) (j : W) :
    ∃ t' j', linkStates q s 0 j t = .ok t' ∧ Tree B K t' C D ∧ Keeps t C D t' C D ∧ t'.finals = t.finals ∧
      ∀ ls, Acc t' t.initial ls ↔ Acc t t.initial ls ∨ ∃ xs ys, ls = xs ++ (0, j') :: ys ∧ Path (Edge t) t.initial xs q ∧ Acc t s ys := by
  have hqlt := h.lt q hq
  have hil := h.wf.initial_lt
  have hx : exists_ t q = true := (exists_iff h.wf q).2 hqlt
  have hx' : exists_ t s = true := (exists_iff h.wf s).2 hs
  by_cases hany : (equalRange 0 (row t q)).any (fun e => e.1 = s) = true
  · obtain ⟨⟨p, v⟩, hm, hp⟩ := List.any_eq_true.1 hany
    simp only [decide_eq_true_eq] at hp
    subst hp
    have he : Edge t q (0, v) p := (mem_equalRange 0 _ p v).1 hm
    refine ⟨t, v, ?_, h, .refl _ _ _, rfl, fun ls => ⟨.inl, ?_⟩⟩
    · unfold linkStates; rw [hx, hx', hany]; rfl
    · rintro (h1 | ⟨xs, ys, rfl, h1, p', fw, h2, h3⟩)
      · exact h1
      · exact ⟨p', fw, h1.append (.cons he h2), h3⟩
  · have hE := fun p l r => addArc_edge h.wf q (0 : Int) s j p l r
    set t1 := addArc q 0 s j t with ht1
    have hz : size t1 = size t := addArc_size h.wf hqlt ..
    have hwf : WF t1 := addArc_wf h.wf hqlt _ hs _
    have hrow : ∀ p, row t1 p = if p = q then mmInsert 0 (s, j) (row t q) else row t p := fun p => addArc_row h.wf ..
    -- a path in the new transducer to a state that `s` does not reach is an old one
    have key : ∀ {p r : Nat} {ls : List (Int × W)}, Path (Edge t1) p ls r → Path (Edge t) p ls r ∨
        ∃ xs ys, ls = xs ++ (0, j) :: ys ∧ Path (Edge t) p xs q ∧ Path (Edge t1) s ys r := by
      intro p r ls hp
      induction hp with
      | nil => exact .inl (.nil _)
      | @cons p p' r l ls he hp ih =>
        rcases (hE _ _ _).1 he with he | ⟨rfl, rfl, rfl⟩
        · rcases ih with ih | ⟨xs, ys, rfl, i1, i2⟩
          · exact .inl (.cons he ih)
          · exact .inr ⟨_ :: xs, ys, rfl, .cons he i1, i2⟩
        · exact .inr ⟨[], ls, rfl, .nil _, hp⟩
    have hold : ∀ p l r, Edge t p l r → Edge t1 p l r := fun p l r he => (hE _ _ _).2 (.inl he)
    -- from `s` and from states that do not reach a cursor nothing is new
    have fromS : ∀ {s' r : Nat} {ls : List (Int × W)}, (∀ ls, ¬ Path (Edge t) s' ls q) → Path (Edge t1) s' ls r → Path (Edge t) s' ls r := by
      intro s' r ls hs' hp
      rcases key hp with hp | ⟨xs, ys, -, h1, -⟩
      · exact hp
      · exact absurd h1 (hs' _)
    have hin : ∀ p, C p → ∀ i ls, Path (Edge t1) i ls p ↔ Path (Edge t) i ls p := by
      intro p hp i ls
      refine ⟨fun hpath => ?_, fun hpath => hpath.mono hold⟩
      rcases key hpath with hpath | ⟨xs, ys, -, -, h2⟩
      · exact hpath
      · exact absurd (fromS (hsC q hq) h2) (hsC p hp _)
    have hkeep : Keeps t C D t1 C D := by
      refine ⟨rfl, by omega, fun _ h => h, fun _ _ h => h, fun p hp ls => hin p hp _ ls, fun s' hs' hr => ⟨fun p hp ls hpath => ?_, fun ls => ?_⟩⟩
      · exact hr p hp ls ((hin p hp _ _).1 hpath)
      · constructor
        · rintro ⟨p, fw, h1, h2⟩; exact ⟨p, fw, fromS (hr q hq) h1, h2⟩
        · rintro ⟨p, fw, h1, h2⟩; exact ⟨p, fw, h1.mono hold, h2⟩
    refine ⟨t1, j, ?_, ⟨hwf, h.zero, ?_, h.cinit, h.dinit, ?_, ?_, h.dc, ?_, ?_, ?_, ?_⟩, hkeep, rfl, fun ls => ?_⟩
    · unfold linkStates; rw [hx, hx']; simp only [Bool.and_self, if_true, if_neg hany]; rfl
    · intro p l r he
      rcases (hE _ _ _).1 he with he | ⟨-, rfl, -⟩
      · exact h.known _ _ _ he
      · exact hk0
    · intro ls hp
      exact h.start ls ((hin _ h.cinit _ _).1 hp)
    · intro p hp; rw [hz]; exact h.lt p hp
    · intro p l r hd he
      rcases (hE _ _ _).1 he with he | ⟨-, rfl, -⟩
      · obtain ⟨h1, h2, h3⟩ := h.step p l r hd he
        refine ⟨h1, h2, fun ls hp => ?_⟩
        obtain ⟨ls', rfl, h4⟩ := h3 ls ((hin r h1 _ _).1 hp)
        exact ⟨ls', rfl, h4.mono hold⟩
      · exact absurd rfl (h.dc _ _ hd).2
    · intro p c hd
      rw [hrow]
      split
      · next hpq =>
        subst hpq
        rw [equalRange_mmInsert, if_neg (Ne.symm (h.dc _ _ hd).2)]
        exact h.len p c hd
      · exact h.len p c hd
    · intro p hp
      obtain ⟨ls, hls⟩ := h.reach p hp
      exact ⟨ls, hls.mono hold⟩
    · intro m hB p hp
      obtain ⟨n, hn⟩ := h.bdd m hB p hp
      exact ⟨n, fun ls hls => hn ls ((hin p hp _ _).1 hls)⟩
    · constructor
      · rintro ⟨p, fw, h1, h2⟩
        rcases key h1 with h1 | ⟨xs, ys, rfl, h3, h4⟩
        · exact .inl ⟨p, fw, h1, h2⟩
        · exact .inr ⟨xs, ys, rfl, h3, p, fw, fromS (hsC q hq) h4, h2⟩
      · rintro (⟨p, fw, h1, h2⟩ | ⟨xs, ys, rfl, h3, p, fw, h4, h2⟩)
        · exact ⟨p, fw, h1.mono hold, h2⟩
        · exact ⟨p, fw, (h3.mono hold).append (.cons ((hE _ _ _).2 (.inr ⟨rfl, rfl, rfl⟩)) (h4.mono hold)), h2⟩

end

variable {W : Type} [AddMonoid W] [DecidableEq W] {N : Type} [LinearOrder N]

/-- The pairs on the paths from the initial state to `q`. -/
def InRel (A : Alphabet) (t : Transducer W) (q : Nat) : List Int → List Int → Prop := Rel A fun ls => Path (Edge t) t.initial ls q

/-- The pairs on the accepting paths from `q`. -/
def AccRel (A : Alphabet) (t : Transducer W) (q : Nat) : List Int → List Int → Prop := Rel A fun ls => Acc t q ls

/-- The accepting paths from `q` have boundedly many labels that are not those of regular expressions. -/
def AccBd (A : Alphabet) (t : Transducer W) (q : Nat) : Prop := ∀ m, Van A m → ∃ n, ∀ ls, Acc t q ls → ls.countP m ≤ n

/-- What holds of a section while entries are put into it; `R` are the pairs that it gives. -/
structure SecInv (A : Alphabet) (closed : N → Bool) (G : N → List Int → List Int → Prop) (x : Sec N W) (C : Nat → Prop) (D : Nat → Int → Prop)
    (R : List Int → List Int → Prop) : Prop where
  tree : Tree (Van A) (KA A) x.t C D
  presorted : SortedKeys x.pre
  sufsorted : SortedKeys x.suf
  pre : ∀ n e, mapFind n x.pre = some e → C e ∧ (∀ c, (folOf closed n).lab A c → c ≠ 0 → D e c) ∧ ∀ u v, InRel A x.t e u v ↔ G n u v
  suf : ∀ n s p, mapFind n x.suf = some (s, p) → s < size x.t ∧ (∃ fw, Final x.t p fw) ∧ (∀ q, C q → ∀ ls, ¬ Path (Edge x.t) s ls q) ∧
    (∀ u v, AccRel A x.t s u v ↔ G n u v) ∧ AccBd A x.t s
  bd : AccBd A x.t x.t.initial
  acc : ∀ u v, AccRel A x.t x.t.initial u v ↔ R u v

variable {A : Alphabet} {closed : N → Bool} {G : N → List Int → List Int → Prop} {x : Sec N W} {C C' : Nat → Prop} {D D' : Nat → Int → Prop}
  {R : List Int → List Int → Prop}

/-- The parts of the invariant about paradigms are kept. -/
theorem SecInv.keep (h : SecInv A closed G x C D R) {t' : Transducer W} (hk : Keeps x.t C D t' C' D') (ht : Tree (Van A) (KA A) t' C' D')
    (hf : ∀ p, (∃ fw, Final x.t p fw) → ∃ fw, Final t' p fw) {R' : List Int → List Int → Prop} (hbd : AccBd A t' x.t.initial) (hacc : ∀ u v, AccRel A t' x.t.initial u v ↔ R' u v) :
    SecInv A closed G { x with t := t' } C' D' R' := by
  refine ⟨ht, h.presorted, h.sufsorted, fun n e he => ?_, fun n s p he => ?_, ?_, fun u v => ?_⟩
  · obtain ⟨h1, h2, h3⟩ := h.pre n e he
    refine ⟨hk.sub e h1, fun c hc hc0 => hk.dsub e c (h2 c hc hc0), fun u v => ?_⟩
    rw [← h3]
    show Rel A (fun ls => Path (Edge t') t'.initial ls e) u v ↔ _
    rw [hk.init]
    exact rel_congr A (fun ls => hk.inn e h1 ls) u v
  · obtain ⟨h1, h2, h3, h4, h5⟩ := h.suf n s p he
    obtain ⟨k1, k2⟩ := hk.out s h1 h3
    refine ⟨Nat.lt_of_lt_of_le h1 hk.size, hf p h2, k1, fun u v => ?_, fun m hm => ?_⟩
    · rw [← h4]
      exact rel_congr A k2 u v
    · obtain ⟨b, hb⟩ := h5 m hm
      exact ⟨b, fun ls hls => hb ls ((k2 ls).1 hls)⟩
  · show AccBd A t' t'.initial
    rw [hk.init]
    exact hbd
  · show AccRel A t' t'.initial u v ↔ _
    rw [hk.init]
    exact hacc u v

/-- Moving on. -/
theorem SecInv.moves (h : SecInv A closed G x C D R) {t' : Transducer W} {q e : Nat} {X : List (Int × W) → Prop} {Dn : Int → Prop}
    (hm : Moves (Van A) (KA A) x.t C D q X Dn t' C' D' e) : SecInv A closed G { x with t := t' } C' D' R :=
  h.keep hm.keeps hm.tree (fun p hp => by unfold Final at hp ⊢; rwa [hm.finals])
    (fun m hv => let ⟨b, hb⟩ := h.bd m hv; ⟨b, fun ls hls => hb ls ((hm.acc ls).1 hls)⟩) fun u v => by
    rw [← h.acc]; exact rel_congr A hm.acc u v

theorem inRel_moves {t t' : Transducer W} {q e : Nat} {X : List (Int × W) → Prop} {Dn : Int → Prop} {B : (Int × W → Bool) → Prop} {K : Int → Prop}
    (hm : Moves B K t C D q X Dn t' C' D' e) (u v : List Int) : InRel A t' e u v ↔ Cat (InRel A t q) (Rel A X) u v := by
  unfold InRel
  rw [hm.keeps.init, rel_congr A hm.inn]
  rw [← rel_cat]

/-- Stopping at a cursor. -/
theorem SecInv.final (h : SecInv A closed G x C D R) {q : Nat} (hq : C q) {P : List Int → List Int → Prop} (hP : ∀ u v, InRel A x.t q u v ↔ P u v) :
    SecInv A closed G { x with t := setFinal q 0 true x.t } C D (fun u v => R u v ∨ P u v) := by
  have hw := h.tree.wf
  refine h.keep (t' := setFinal q 0 true x.t) (C' := C) (D' := D) ⟨rfl, Nat.le_refl _, fun _ h => h, fun _ _ h => h, fun _ _ _ => Iff.rfl, fun s hs hr => ⟨hr, fun ls => ?_⟩⟩
    (h.tree.setFinal (h.tree.lt q hq)) (fun p hp => (setFinal_final hw q p 0).2 (.inr hp)) (fun m hm => ?_) fun u v => ?_
  · rw [setFinal_acc hw]
    exact ⟨fun h => h.resolve_right (hr q hq ls), .inl⟩
  · obtain ⟨b, hb⟩ := h.bd m hm
    obtain ⟨b', hb'⟩ := h.tree.bdd m hm q hq
    refine ⟨b + b', fun ls hls => ?_⟩
    rcases (setFinal_acc hw q _ 0 ls).1 hls with hls | hls
    · have := hb ls hls; omega
    · have := hb' ls hls; omega
  · rw [← h.acc, ← hP]
    constructor
    · rintro ⟨ls, h1, h2, h3⟩
      exact ((setFinal_acc hw q _ 0 ls).1 h1).imp (fun h => ⟨ls, h, h2, h3⟩) (fun h => ⟨ls, h, h2, h3⟩)
    · rintro (⟨ls, h1, h2, h3⟩ | ⟨ls, h1, h2, h3⟩)
      · exact ⟨ls, (setFinal_acc hw q _ 0 ls).2 (.inl h1), h2, h3⟩
      · exact ⟨ls, (setFinal_acc hw q _ 0 ls).2 (.inr h1), h2, h3⟩

theorem finals_mapInsert_self {m : List (Nat × W)} (hs : SortedKeys m) {k : Nat} {v w : W} (h : (k, v) ∈ m) : mapInsert k w m = m := by
  induction m with
  | nil => simp at h
  | cons e m ih =>
    obtain ⟨k', v'⟩ := e
    have hs' := List.pairwise_cons.1 hs
    rcases List.mem_cons.1 h with h | h
    · cases h; simp [mapInsert]
    · have : k' < k := hs'.1 _ h
      simp only [mapInsert, not_lt_of_gt this, if_false, this, if_true, ih hs'.2 h]

/-- A paradigm at the end of an entry. -/
theorem suffix_spec (hA : Ok A) {pars : List (N × Transducer W)} (hs : SortedKeys pars) {n : N} (hn : ParOk A closed G pars n) (a : Alphabet) (ha : Ok a)
    (j : W) (h : SecInv A closed G x C D R) {q : Nat} (hq : C q) {P : List Int → List Int → Prop} (hP : ∀ u v, InRel A x.t q u v ↔ P u v) :
    ∃ e x' C' D', suffixPar j n a pars q x = .ok (a, pars, e, x') ∧
      SecInv A closed G { x' with t := setFinal e 0 true x'.t } C' D' (fun u v => R u v ∨ Cat P (G n) u v) := by
  unfold suffixPar
  rcases hf : mapFind n x.suf with _ | ⟨s, p⟩
  · simp only
    rw [Regex.pc00 (aok_of_ok ha)]
    simp only
    obtain ⟨t1, C1, D1, k1, k2, k3, k4⟩ := h.tree.skip hq (ka_zero hA) j
    obtain ⟨o, X, i1, i2, i3⟩ := hn.ex
    have i2' := part_mono (B' := Van A) i2 fun _ => .inr
    obtain ⟨e, t2, C2, D2, m1, m2, m3, m4, m5, m6, m7, m8⟩ := k3.tree.copy k3.cur (ka_zero hA) i2'
    have hsz : size t1 = size x.t + 1 := by
      have := (grow_newArc h.tree.wf (h.tree.lt q hq) 0 j).2.2.1
      rw [k1] at this; exact this
    have hg : Grow q x.t t2 := k2.trans m2 (.inl (Nat.le_refl _))
    have hmv := k3.trans m6
    have hslt : size x.t < size t1 := by omega
    -- the new states are no cursors
    have htree : Tree (Van A) (KA A) t2 C D := by
      refine h.tree.restrict hmv.tree hmv.keeps fun p l r hd he => ?_
      have hp := h.tree.lt p (h.tree.dc _ _ hd).1
      rcases m8 p l r (by omega) he with he | he
      · rcases k2.new p l r he with he' | ⟨hr, -⟩
        · exact he'
        · have hE := (grow_newArc h.tree.wf (h.tree.lt q hq) 0 j).2.2.2 p l r
          rw [k1] at hE
          rcases hE.1 he with he' | ⟨-, rfl, -⟩
          · exact he'
          · exact absurd rfl (h.tree.dc _ _ hd).2
      · exact absurd he (h.tree.dc _ _ hd).2
    have hkeep := hmv.keeps.restrict
    -- paths from the new start
    have hpathS : ∀ ls, Path (Edge t2) (size x.t) ls e ↔ ∃ zs, ls = (0, 0) :: zs ∧ X zs := by
      intro ls
      rw [m7 _ hslt]
      constructor
      · rintro ⟨xs, ys, rfl, h1, h2⟩
        have : xs = [] := by
          cases xs with
          | nil => rfl
          | cons l xs =>
            obtain ⟨r, he, -⟩ := path_cons_iff.1 h1
            exact absurd he (k4 _ _)
        subst this
        exact ⟨ys, rfl, h2⟩
      · rintro ⟨zs, rfl, h2⟩
        exact ⟨[], zs, rfl, .nil _, h2⟩
    have hnoC : ∀ p < size x.t, ∀ ls, ¬ Path (Edge t2) (size x.t) ls p := by
      intro p hp ls hpath
      have := (hg.path h.tree.wf hp).1 hpath
      cases ls with
      | nil => rw [path_nil_iff] at this; omega
      | cons l ls =>
        obtain ⟨r, he, -⟩ := path_cons_iff.1 this
        exact no_edge_out h.tree.wf (Nat.le_refl _) _ _ he
    have haccS : ∀ ls, Acc (setFinal e 0 true t2) (size x.t) ls ↔ ∃ zs, ls = (0, 0) :: zs ∧ X zs := by
      intro ls
      rw [setFinal_acc hg.wf, hpathS]
      refine ⟨fun h' => h'.resolve_left ?_, .inr⟩
      rintro ⟨p, fw, h1, h2⟩
      have h2' : Final x.t p fw := by unfold Final at h2 ⊢; rwa [hg.finals] at h2
      exact hnoC p (h.tree.wf.finals_lt _ _ h2') ls h1
    have hfinC : ∀ ls, ∀ s < size x.t, (∀ q, C q → ∀ ls, ¬ Path (Edge x.t) s ls q) → ¬ Path (Edge t2) s ls e := by
      intro ls s hs' hr hpath
      rw [m7 s (by omega)] at hpath
      obtain ⟨xs, ys, -, h1, -⟩ := hpath
      have hE := (grow_newArc h.tree.wf (h.tree.lt q hq) 0 j)
      obtain ⟨ls', -, h2⟩ := path_into (q := q) (l := (0, j)) (i := s) (s := size x.t) (by omega) (fun p l' he => by
        have hE' := hE.2.2.2 p l' (size x.t)
        rw [k1] at hE'
        rcases hE'.1 he with he | ⟨rfl, rfl, -⟩
        · exact absurd he (no_edge_in h.tree.wf (Nat.le_refl _) _ _)
        · exact ⟨rfl, rfl⟩) h1
      exact hr q hq ls' ((k2.path h.tree.wf (h.tree.lt q hq)).1 h2)
    refine ⟨e, { x with t := t2, suf := mapSet n (size x.t, e) x.suf }, C, D, ?_, ?_⟩
    · rw [k1]
      simp only
      unfold insertPar parOf
      rw [i1]
      simp only [Option.getD_some, m1, Res.bind_ok]
      rw [mapSet_self hs i1]
      rfl
    · have base := h.keep (t' := setFinal e 0 true t2) (C' := C) (D' := D) (R' := fun u v => R u v ∨ Cat P (G n) u v)
        ⟨hkeep.init, hkeep.size, hkeep.sub, hkeep.dsub, hkeep.inn, fun s hs' hr => ⟨(hkeep.out s hs' hr).1, fun ls => by
          rw [setFinal_acc hg.wf, (hkeep.out s hs' hr).2]
          exact ⟨fun h' => h'.resolve_right (hfinC ls s hs' hr), .inl⟩⟩⟩
        (htree.setFinal m4) (fun p hp => (setFinal_final hg.wf e p 0).2 (.inr (by
          obtain ⟨fw, hp⟩ := hp
          exact ⟨fw, by unfold Final at hp ⊢; rwa [hg.finals]⟩))) (fun m hm => by
          obtain ⟨b, hb⟩ := h.bd m hm
          obtain ⟨b', hb'⟩ := hmv.tree.bdd m hm e hmv.cur
          refine ⟨b + b', fun ls hls => ?_⟩
          rcases (setFinal_acc hg.wf e _ 0 ls).1 hls with hls | hls
          · have := hb ls ((hg.acc h.tree.wf _ _).1 hls); omega
          · have := hb' ls (by rw [hg.init]; exact hls); omega) (fun u v => by
          have hcat : ∀ u v, InRel A t2 e u v ↔ Cat P (G n) u v := by
            intro u v
            rw [inRel_moves hmv]
            refine cat_congr hP (fun u v => ?_) u v
            rw [rel_cat]
            have e1 : ∀ u v, Rel A (fun ls => ls = [((0 : Int), j)]) u v ↔ u = [] ∧ v = [] := by
              intro u v
              rw [rel_one, lft_zero hA, rgt_zero hA]; rfl
            have e2 : ∀ u v, Rel A (fun ys => ∃ zs, ys = ((0 : Int), (0 : W)) :: zs ∧ X zs) u v ↔ G n u v := by
              intro u v; rw [rel_eps hA, i3]
            rw [cat_congr e1 e2, cat_nil_left]
          rw [← h.acc, ← hcat]
          constructor
          · rintro ⟨ls, h1, h2, h3⟩
            rcases (setFinal_acc hg.wf e _ 0 ls).1 h1 with h1 | h1
            · exact .inl ⟨ls, (hg.acc h.tree.wf _ _).1 h1, h2, h3⟩
            · exact .inr ⟨ls, by rw [hg.init]; exact h1, h2, h3⟩
          · rintro (⟨ls, h1, h2, h3⟩ | ⟨ls, h1, h2, h3⟩)
            · exact ⟨ls, (setFinal_acc hg.wf e _ 0 ls).2 (.inl ((hg.acc h.tree.wf _ _).2 h1)), h2, h3⟩
            · rw [hg.init] at h1
              exact ⟨ls, (setFinal_acc hg.wf e _ 0 ls).2 (.inr h1), h2, h3⟩)
      refine ⟨base.tree, base.presorted, ?_, base.pre, fun m s p hm => ?_, base.bd, base.acc⟩
      · show SortedKeys (mapSet n (size x.t, e) x.suf)
        rw [mapSet_eq_modify]
        exact sorted_modify h.sufsorted _ _ _
      · have hm' : mapFind m (mapSet n (size x.t, e) x.suf) = some (s, p) := hm
        rw [mapSet_eq_modify, mapFind_modify h.sufsorted] at hm'
        split at hm'
        · next hmn =>
          subst hmn
          cases hm'
          refine ⟨?_, (setFinal_final hg.wf e e 0).2 (.inl rfl), fun p hp ls => hnoC p (h.tree.lt p hp) ls, fun u v => ?_, fun m hv => ?_⟩
          · show size x.t < size t2
            omega
          · unfold AccRel
            rw [rel_congr A haccS, rel_eps hA, i3]
          · obtain ⟨b, hb⟩ := i2'.bdd m hv
            refine ⟨b + 1, fun ls hls => ?_⟩
            obtain ⟨zs, rfl, hz⟩ := (haccS ls).1 hls
            have := hb zs hz
            rw [List.countP_cons]
            split <;> omega
        · exact base.suf m s p hm'
  · obtain ⟨h1, ⟨fw, h2⟩, h3, h4, h5⟩ := h.suf n s p hf
    obtain ⟨t', j', k1, k2, k3, k4, k5⟩ := h.tree.link hq h1 h3 (ka_zero hA) j
    refine ⟨p, { x with t := t' }, C, D, ?_, ?_⟩
    · simp only [k1, Res.bind_ok]; rfl
    · have hfp : Final t' p fw := by unfold Final at h2 ⊢; rwa [k4]
      have : setFinal p 0 true t' = t' := by
        unfold setFinal
        rw [if_pos rfl, finals_mapInsert_self k2.wf.finals_sorted hfp]
      show SecInv A closed G { x with t := setFinal p 0 true t' } C D _
      rw [this]
      refine h.keep k3 k2 (fun p hp => by unfold Final at hp ⊢; rwa [k4]) (fun m hm => ?_) fun u v => ?_
      · obtain ⟨b, hb⟩ := h.bd m hm
        obtain ⟨b', hb'⟩ := h.tree.bdd m hm q hq
        obtain ⟨b2, hb2⟩ := h5 m hm
        refine ⟨b + b' + b2 + 1, fun ls hls => ?_⟩
        rcases (k5 ls).1 hls with l1 | ⟨xs, ys, rfl, m1, m2⟩
        · have := hb ls l1; omega
        · have := hb' xs m1
          have := hb2 ys m2
          rw [List.countP_append, List.countP_cons]
          split <;> omega
      rw [← h.acc, ← cat_congr hP h4]
      constructor
      · rintro ⟨ls, l1, l2, l3⟩
        rcases (k5 ls).1 l1 with l1 | ⟨xs, ys, rfl, m1, m2⟩
        · exact .inl ⟨ls, l1, l2, l3⟩
        · refine .inr ⟨_, _, _, _, ⟨xs, m1, rfl, rfl⟩, ⟨ys, m2, rfl, rfl⟩, ?_, ?_⟩
          · rw [← l2, lft_append, lft_zero hA]
          · rw [← l3, rgt_append, rgt_zero hA]
      · rintro (⟨ls, l1, l2, l3⟩ | ⟨_, _, _, _, ⟨xs, m1, rfl, rfl⟩, ⟨ys, m2, rfl, rfl⟩, rfl, rfl⟩)
        · exact ⟨ls, (k5 ls).2 (.inl l1), l2, l3⟩
        · exact ⟨xs ++ (0, j') :: ys, (k5 _).2 (.inr ⟨xs, ys, rfl, m1, m2⟩), by rw [lft_append, lft_zero hA], by rw [rgt_append, rgt_zero hA]⟩

theorem inRel_init {t : Transducer W} {B : (Int × W → Bool) → Prop} {K : Int → Prop} (h : Tree B K t C D) (u v : List Int) :
    InRel A t t.initial u v ↔ u = [] ∧ v = [] := by
  constructor
  · rintro ⟨ls, h1, rfl, rfl⟩
    rw [h.start ls h1]
    exact ⟨rfl, rfl⟩
  · rintro ⟨rfl, rfl⟩
    exact ⟨[], .nil _, rfl, rfl⟩

/-- The elements of an entry of a section. -/
theorem secTokens_spec (s : Settings) (hs : s.acx = []) (closed : N → Bool) (G : N → List Int → List Int → Prop) (ws : List (W × Token N)) (first : Bool)
    (f : Fol) (hf : Fits closed f (ws.map (·.2))) (a : Alphabet) (ha : Ok a) :
    ∃ a', Ok a' ∧ Ext a a' ∧ ∀ A, Ok A → Ext a' A → ∀ (pars : List (N × Transducer W)), SortedKeys pars →
      (∀ n, .par n ∈ ws.map (·.2) → ParOk A closed G pars n) → ∀ (x : Sec N W) C D R q P, SecInv A closed G x C D R → C q →
      (∀ c, f.lab A c → c ≠ 0 → D q c) → (∀ u v, InRel A x.t q u v ↔ P u v) → (first = true → q = x.t.initial) →
      ∃ e x' C' D', secTokens s first ws a pars q x = .ok (a', pars, e, x') ∧
        SecInv A closed G { x' with t := setFinal e 0 true x'.t } C' D' (fun u v => R u v ∨ Cat P (Gv s G (ws.map (·.2))) u v) := by
  induction ws generalizing first f a with
  | nil =>
    refine ⟨a, ha, .refl a, fun A hA he pars hp hpars x C D R q P h hq hD hP hfst => ⟨q, x, C, D, by unfold secTokens; rfl, ?_⟩⟩
    have := h.final hq hP
    simp only [List.map_nil, Gv, cat_nil_right]
    exact this
  | cons k ws ih =>
    obtain ⟨w, k⟩ := k
    rw [List.map_cons] at hf
    simp only [List.map_cons]
    cases k with
    | text l r =>
      obtain ⟨hl, hr, hft, hfs⟩ := hf
      obtain ⟨a1, i1, i2, i3⟩ := text_does (N := N) s hs G w l r hl hr f hft a ha
      obtain ⟨a2, j1, j2, j3⟩ := ih false .any hfs a1 i1
      refine ⟨a2, j1, i2.trans j2, fun A hA he pars hp hpars x C D R q P h hq hD hP hfst => ?_⟩
      obtain ⟨e1, t1, m1, C1, D1, X, m3, m4⟩ := i3 A hA (j2.trans he) (Van A) x.t C D q h.tree hq hD
      obtain ⟨e2, x2, C2, D2, n1, n2⟩ := j3 A hA he pars hp (fun n hn => hpars n (List.mem_cons_of_mem _ hn)) { x with t := t1 } C1 D1 R e1
        (Cat P (Gv1 s G (.text l r))) (h.moves m3) m3.cur m3.dn (fun u v => by rw [inRel_moves m3]; exact cat_congr hP m4 u v) (fun h => by cases h)
      refine ⟨e2, x2, C2, D2, ?_, ?_⟩
      · rw [secTokens, m1, Res.bind_ok]
        exact n1
      · simp only [Gv, cat_assoc]
        exact n2
    | re er =>
      obtain ⟨her, hfs⟩ := hf
      obtain ⟨a1, i1, i2, i3⟩ := re_does (N := N) (W := W) s G er her a ha
      obtain ⟨a2, j1, j2, j3⟩ := ih false .nonid hfs a1 i1
      refine ⟨a2, j1, i2.trans j2, fun A hA he pars hp hpars x C D R q P h hq hD hP hfst => ?_⟩
      obtain ⟨e1, t1, m1, C1, D1, X, m3, m4⟩ := i3 A hA (j2.trans he) (Van A) x.t C D q (fun _ h => h) h.tree hq
      obtain ⟨e2, x2, C2, D2, n1, n2⟩ := j3 A hA he pars hp (fun n hn => hpars n (List.mem_cons_of_mem _ hn)) { x with t := t1 } C1 D1 R e1
        (Cat P (Gv1 s G (.re er))) (h.moves m3) m3.cur m3.dn (fun u v => by rw [inRel_moves m3]; exact cat_congr hP m4 u v) (fun h => by cases h)
      refine ⟨e2, x2, C2, D2, ?_, ?_⟩
      · rw [secTokens, m1, Res.bind_ok]
        exact n1
      · simp only [Gv, cat_assoc]
        exact n2
    | par n =>
      by_cases hes : ws = []
      · subst hes
        refine ⟨a, ha, .refl a, fun A hA he pars hp hpars x C D R q P h hq hD hP hfst => ?_⟩
        obtain ⟨e, x', C', D', k1, k2⟩ := suffix_spec hA hp (hpars n (by simp)) a ha w h hq hP
        refine ⟨e, x', C', D', ?_, ?_⟩
        · rw [secTokens]; exact k1
        · have e1 : ∀ u v, Gv s G [.par n] u v ↔ G n u v := fun u v => by
            show Cat _ _ u v ↔ _
            rw [show Gv s G ([] : List (Token N)) = fun x y => x = [] ∧ y = [] from rfl, cat_nil_right]
            rfl
          have e2 : (fun u v => R u v ∨ Cat P (Gv s G [.par n]) u v) = fun u v => R u v ∨ Cat P (G n) u v := by
            funext u v
            rw [propext (cat_congr (fun _ _ => Iff.rfl) e1 u v)]
          rw [List.map_nil, e2]
          exact k2
      · obtain ⟨a2, j1, j2, j3⟩ := ih false (folOf closed n) hf a ha
        refine ⟨a2, j1, j2, fun A hA he pars hp hpars x C D R q P h hq hD hP hfst => ?_⟩
        cases first with
        | false =>
          obtain ⟨e1, t1, m1, C1, D1, X, m3, m4⟩ := par_does s hA hp (hpars n (by simp)) (fun _ => .inr) h.tree hq
          obtain ⟨e2, x2, C2, D2, n1, n2⟩ := j3 A hA he pars hp (fun n hn => hpars n (List.mem_cons_of_mem _ hn)) { x with t := t1 } C1 D1 R e1
            (Cat P (Gv1 s G (.par n))) (h.moves m3) m3.cur m3.dn (fun u v => by rw [inRel_moves m3]; exact cat_congr hP m4 u v) (fun h => by cases h)
          refine ⟨e2, x2, C2, D2, ?_, ?_⟩
          · rw [secTokens, m1, Res.bind_ok]
            · exact n1
            · exact hes
          · simp only [Gv, cat_assoc]
            exact n2
        | true =>
          obtain rfl := hfst rfl
          have hP' : ∀ u v, P u v ↔ u = [] ∧ v = [] := fun u v => by rw [← hP, inRel_init h.tree]
          have goal_eq : (fun u v => R u v ∨ Cat P (Gv s G (.par n :: ws.map (·.2))) u v) = fun u v => R u v ∨ Cat (G n) (Gv s G (ws.map (·.2))) u v := by
            funext u v
            rw [propext (cat_congr hP' (fun _ _ => Iff.rfl) u v), propext (cat_nil_left _ u v)]
            rfl
          rw [goal_eq]
          rcases hpre : mapFind n x.pre with _ | e0
          · obtain ⟨e1, t1, m1, C1, D1, X, m3, m4⟩ := par_does s hA hp (hpars n (by simp)) (fun _ => .inr) h.tree hq
            have hin : ∀ u v, InRel A t1 e1 u v ↔ G n u v := fun u v => by
              rw [inRel_moves m3, cat_congr (fun u v => (hP u v).trans (hP' u v)) m4, cat_nil_left]
              rfl
            have hmv := h.moves m3
            have h1 : SecInv A closed G { x with t := t1, pre := mapSet n e1 x.pre } C1 D1 R := by
              refine ⟨hmv.tree, ?_, hmv.sufsorted, fun m e hm => ?_, hmv.suf, hmv.bd, hmv.acc⟩
              · show SortedKeys (mapSet n e1 x.pre)
                rw [mapSet_eq_modify]
                exact sorted_modify h.presorted _ _ _
              · have hm' : mapFind m (mapSet n e1 x.pre) = some e := hm
                rw [mapSet_eq_modify, mapFind_modify h.presorted] at hm'
                split at hm'
                · next hmn =>
                  subst hmn
                  cases hm'
                  exact ⟨m3.cur, m3.dn, hin⟩
                · exact hmv.pre m e hm'
            obtain ⟨e2, x2, C2, D2, n1, n2⟩ := j3 A hA he pars hp (fun n hn => hpars n (List.mem_cons_of_mem _ hn)) _ C1 D1 R e1
              (G n) h1 m3.cur m3.dn hin (fun h => by cases h)
            refine ⟨e2, x2, C2, D2, ?_, n2⟩
            rw [secTokens]
            · unfold prefixPar
              rw [hpre]
              simp only [m1, Res.bind_ok]
              exact n1
            · exact hes
          · obtain ⟨p1, p2, p3⟩ := h.pre n e0 hpre
            obtain ⟨e2, x2, C2, D2, n1, n2⟩ := j3 A hA he pars hp (fun n hn => hpars n (List.mem_cons_of_mem _ hn)) x C D R e0
              (G n) h p1 p2 p3 (fun h => by cases h)
            refine ⟨e2, x2, C2, D2, ?_, n2⟩
            rw [secTokens]
            · unfold prefixPar
              rw [hpre]
              simp only [Res.bind_ok]
              exact n1
            · exact hes

end Verif.Compiler
