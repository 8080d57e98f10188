import Verif.Acx.Read
import Verif.Tools.Props

/-! # `applyACX` on the sections of a compiled dictionary -/

namespace Verif.Acx

open Verif.Fst Verif.Tools
open Verif.Alphabet (HasPair HasTag Ext Ok decode_iff tagText_iff pairCode_spec)
open Verif.Compression (Dbl)

variable {W : Type}

/-- The pairs that `applyACX` may add for arcs with pairs of `S`. -/
def Added (acx : List (Int × List Int)) (S : List Pair) (p : Pair) : Prop := ∃ x, (x, p.2) ∈ S ∧ Equiv' acx x p.1

theorem acxSyms_pairs (y : Int) (e : Nat × W) (zs : List Int) (a : Alphabet) (ins : Row W) (h : Ok a) :
    (acxSyms y e zs a ins).1.slexicinv = a.slexicinv ∧ (∀ p ∈ (acxSyms y e zs a ins).1.spairinv, p ∈ a.spairinv ∨ (p.2 = y ∧ p.1 ∈ zs)) ∧
      (acxSyms y e zs a ins).2.length = ins.length + zs.length := by
  induction zs generalizing a ins with
  | nil => exact ⟨rfl, fun p hp => .inl hp, rfl⟩
  | cons z zs ih =>
    obtain ⟨g1, g2, g3, g4, g5, g6⟩ := pairCode_spec h z y
    obtain ⟨k1, k2, k3⟩ := ih (a.pairCode z y).2 (ins ++ [((a.pairCode z y).1, e)]) g1
    refine ⟨k1.trans g4, fun p hp => ?_, ?_⟩
    · rcases k2 p hp with h | ⟨h1, h2⟩
      · rw [g6] at h
        split at h
        · exact .inl h
        · rcases List.mem_append.1 h with h | h
          · exact .inl h
          · rw [List.mem_singleton] at h
            subst h
            exact .inr ⟨rfl, List.mem_cons_self⟩
      · exact .inr ⟨h1, List.mem_cons_of_mem _ h2⟩
    · have : (acxSyms y e (z :: zs) a ins).2.length = (ins ++ [((a.pairCode z y).1, e)]).length + zs.length := k3
      rw [this]; simp; omega

theorem acxCollect_pairs {acx : List (Int × List Int)} {M : Nat} (hM : ∀ x zs, mapFind x acx = some zs → zs.length ≤ M) {S : List Pair}
    (r : Row W) (a a' : Alphabet) (ins ins' : Row W) (h : Ok a) (hc : ∀ e ∈ r, ∃ p ∈ S, HasPair a e.1 p) (hr : acxCollect acx r a ins = .ok (a', ins')) :
    a'.slexicinv = a.slexicinv ∧ (∀ p ∈ a'.spairinv, p ∈ a.spairinv ∨ Added acx S p) ∧ ins'.length ≤ ins.length + M * r.length := by
  induction r generalizing a ins with
  | nil =>
    simp only [acxCollect, Res.ok.injEq, Prod.mk.injEq] at hr
    obtain ⟨rfl, rfl⟩ := hr
    exact ⟨rfl, fun p hp => .inl hp, by simp⟩
  | cons e r ih =>
    obtain ⟨c, e⟩ := e
    obtain ⟨p, hp0, hp⟩ := hc (c, e) List.mem_cons_self
    simp only [acxCollect, decode_iff.2 hp, Res.bind_ok] at hr
    have hc' : ∀ d ∈ r, ∃ p ∈ S, HasPair a d.1 p := fun d hd => hc d (List.mem_cons_of_mem _ hd)
    have hlen : M * ((c, e) :: r).length = M * r.length + M := by rw [List.length_cons, Nat.mul_succ]
    split at hr
    · obtain ⟨k1, k2, k3⟩ := ih a ins h hc' hr
      exact ⟨k1, k2, by rw [hlen]; omega⟩
    · rename_i zs hz
      obtain ⟨j1, j2, j3⟩ := acxSyms_pairs p.2 e zs a ins h
      obtain ⟨a1, ins1, q1, q2, q3, -⟩ := acxSyms_spec p.2 e zs a ins h
      rw [q1] at hr j1 j2 j3
      simp only at hr j1 j2 j3
      obtain ⟨k1, k2, k3⟩ := ih a1 ins1 q2 (fun d hd => by
        obtain ⟨x, hx0, hx⟩ := hc' d hd
        exact ⟨x, hx0, hx.mono q3⟩) hr
      refine ⟨k1.trans j1, fun p' hp' => ?_, ?_⟩
      · rcases k2 p' hp' with h1 | h1
        · rcases j2 p' h1 with h2 | ⟨h2, h3⟩
          · exact .inl h2
          · exact .inr ⟨p.1, by rw [h2]; exact hp0, zs, hz, h3⟩
        · exact .inr h1
      · have := hM _ _ hz
        rw [hlen]; omega

theorem length_foldl_insert (ins r : Row W) : (ins.foldl (fun r e => mmInsert e.1 e.2 r) r).length = r.length + ins.length := by
  induction ins generalizing r with
  | nil => rfl
  | cons e ins ih => rw [List.foldl_cons, ih, length_mmInsert, List.length_cons]; omega

theorem acxRows_pairs {acx : List (Int × List Int)} {M : Nat} (hM : ∀ x zs, mapFind x acx = some zs → zs.length ≤ M) {S : List Pair}
    (m m' : List (Nat × Row W)) (a a' : Alphabet) (h : Ok a) (hc : ∀ e ∈ m, ∀ d ∈ e.2, ∃ p ∈ S, HasPair a d.1 p) (hr : acxRows acx m a = .ok (a', m')) :
    a'.slexicinv = a.slexicinv ∧ (∀ p ∈ a'.spairinv, p ∈ a.spairinv ∨ Added acx S p) ∧ ∀ e' ∈ m', ∃ e ∈ m, e'.2.length ≤ (M + 1) * e.2.length := by
  induction m generalizing a m' with
  | nil =>
    simp only [acxRows, Res.ok.injEq, Prod.mk.injEq] at hr
    obtain ⟨rfl, rfl⟩ := hr
    exact ⟨rfl, fun p hp => .inl hp, by simp⟩
  | cons e m ih =>
    obtain ⟨q, r⟩ := e
    have hc0 : ∀ d ∈ r, ∃ p ∈ S, HasPair a d.1 p := fun d hd => hc (q, r) List.mem_cons_self d hd
    obtain ⟨a1, ins, k1, k2, k3, -⟩ := acxCollect_spec acx r a [] h (fun d hd => by
      obtain ⟨p, -, hp⟩ := hc0 d hd
      exact ⟨p, hp⟩)
    obtain ⟨j1, j2, j3⟩ := acxCollect_pairs hM r a a1 [] ins h hc0 k1
    simp only [acxRows, k1, Res.bind_ok] at hr
    obtain ⟨⟨a2, m2⟩, h1, h2⟩ := Res.bind_eq_ok.1 hr
    simp only [Res.pure_eq, Res.ok.injEq, Prod.mk.injEq] at h2
    obtain ⟨rfl, rfl⟩ := h2
    obtain ⟨l1, l2, l3⟩ := ih m2 a1 k2 (fun d hd x hx => by
      obtain ⟨p, hp0, hp⟩ := hc d (List.mem_cons_of_mem _ hd) x hx
      exact ⟨p, hp0, hp.mono k3⟩) h1
    refine ⟨l1.trans j1, fun p hp => ?_, fun e' he' => ?_⟩
    · rcases l2 p hp with h3 | h3
      · exact j2 p h3
      · exact .inr h3
    · rcases List.mem_cons.1 he' with rfl | he'
      · refine ⟨(q, r), List.mem_cons_self, ?_⟩
        simp only [length_foldl_insert]
        simp only [List.length_nil, Nat.zero_add] at j3
        rw [Nat.succ_mul]; omega
      · obtain ⟨e, he, hl⟩ := l3 e' he'
        exact ⟨e, List.mem_cons_of_mem _ he, hl⟩

theorem bound_pairs {acx : List (Int × List Int)} {M : Nat} (hM : ∀ x zs, mapFind x acx = some zs → zs.length ≤ M) {l l' : List Pair} (h : l'.Nodup)
    (hs : ∀ p ∈ l', p ∈ l ∨ Added acx l p) : l'.length ≤ (M + 1) * l.length := by
  have h1 := length_le_of_subset (l' := l ++ l.flatMap fun p => ((mapFind p.1 acx).getD []).map fun z => (z, p.2)) h (fun p hp => by
    rcases hs p hp with h | ⟨x, h1, zs, h2, h3⟩
    · exact List.mem_append_left _ h
    · refine List.mem_append_right _ (List.mem_flatMap.2 ⟨_, h1, ?_⟩)
      rw [h2]
      exact List.mem_map.2 ⟨p.1, h3, rfl⟩)
  have h2 : (l.flatMap fun p => ((mapFind p.1 acx).getD []).map fun z => (z, p.2)).length ≤ M * l.length := by
    clear h1 hs h
    induction l with
    | nil => simp
    | cons p l ih =>
      rw [List.flatMap_cons, List.length_append, List.length_map, List.length_cons, Nat.mul_succ]
      have : ((mapFind p.1 acx).getD []).length ≤ M := by
        cases e : mapFind p.1 acx with
        | none => simp
        | some zs => exact hM _ _ e
      omega
  rw [List.length_append] at h1
  rw [Nat.succ_mul]; omega

/-- The two sides of a relation along a path with names. -/
theorem names_variant {a b : Alphabet} {acx : List (Int × List Int)} {E : Nat → Nat → Prop} (hE : ∀ x z : Int, Equiv' acx x z ↔ ∃ m n : Nat, x = m ∧ z = n ∧ E m n)
    (hb : Sane b) (hab : Ext a b) (ha : Sane a) {t : Transducer Dbl} (ht : Coded a t) (ls : List ((Name × Name) × Dbl)) (fw : Dbl) :
    (∃ ps, (∃ ps', Spells a t ps' fw ∧ List.Forall₂ (fun l' l => l.2 = l'.2 ∧ l.1.2 = l'.1.2 ∧ (l.1.1 = l'.1.1 ∨ Equiv' acx l'.1.1 l.1.1)) ps' ps) ∧
      List.Forall₂ (NamedPair b) ps ls) ↔ ∃ ls', SpellsNames a t ls' fw ∧ List.Forall₂ (Variant E) ls' ls := by
  have hk : ∀ ps' : List (Pair × Dbl), Spells a t ps' fw → ∀ l ∈ ps', (∃ n, Named a l.1.1 n) ∧ ∃ n, Named a l.1.2 n := by
    rintro ps' ⟨p, hp, -⟩
    have := tagsKnown ha.symbols t
    clear ht hE
    generalize t.initial = q at hp
    induction hp with
    | nil => simp
    | cons he _ ih =>
      intro l hl
      rcases List.mem_cons.1 hl with rfl | hl
      · exact this _ _ _ he
      · exact ih l hl
  constructor
  · rintro ⟨ps, ⟨ps', h1, h2⟩, h3⟩
    have hn := hk ps' h1
    have key : ∃ ls', List.Forall₂ (NamedPair a) ps' ls' ∧ List.Forall₂ (Variant E) ls' ls := by
      clear h1
      induction h2 generalizing ls with
      | nil => cases h3; exact ⟨[], .nil, .nil⟩
      | @cons l' l ps' ps h4 _ ih =>
        rcases h3 with _ | ⟨h5, h6⟩
        rename_i n ls
        obtain ⟨ls', g1, g2⟩ := ih ls h6 (fun l hl => hn l (List.mem_cons_of_mem _ hl))
        obtain ⟨⟨n1, hn1⟩, n2, hn2⟩ := hn l' List.mem_cons_self
        obtain ⟨e1, e2, e3⟩ := h4
        obtain ⟨f1, f2, f3⟩ := h5
        refine ⟨((n1, n2), l'.2) :: ls', .cons ⟨hn1, hn2, rfl⟩ g1, .cons ⟨?_, ?_, ?_⟩ g2⟩
        · show n.2 = l'.2
          rw [f3, e1]
        · rw [e2] at f2
          exact named_unique f2 (named_mono hab hn2)
        · rcases e3 with e3 | e3
          · rw [e3] at f1
            exact .inl (named_unique f1 (named_mono hab hn1))
          · obtain ⟨x, z, hx, hz, he⟩ := (hE _ _).1 e3
            refine .inr ⟨x, z, ?_, ?_, he⟩
            · exact named_unique hn1 (.inl ⟨by omega, by rw [hx]⟩)
            · exact named_unique f1 (.inl ⟨by omega, by rw [hz]⟩)
    obtain ⟨ls', h4, h5⟩ := key
    exact ⟨ls', spellsNames_iff.2 ⟨ps', h1, h4⟩, h5⟩
  · rintro ⟨ls', h1, h2⟩
    obtain ⟨ps', h3, h4⟩ := spellsNames_iff.1 h1
    have key : ∃ ps, List.Forall₂ (fun (l' l : Pair × Dbl) => l.2 = l'.2 ∧ l.1.2 = l'.1.2 ∧ (l.1.1 = l'.1.1 ∨ Equiv' acx l'.1.1 l.1.1)) ps' ps ∧
        List.Forall₂ (NamedPair b) ps ls := by
      clear h1 h3
      induction h2 generalizing ps' with
      | nil => cases h4; exact ⟨[], .nil, .nil⟩
      | @cons n' n ls' ls h5 _ ih =>
        rcases h4 with _ | ⟨h6, h7⟩
        rename_i l' ps'
        obtain ⟨ps, g1, g2⟩ := ih ps' h7
        obtain ⟨e1, e2, e3⟩ := h5
        obtain ⟨f1, f2, f3⟩ := h6
        rcases e3 with e3 | ⟨x, z, hx, hz, he⟩
        · exact ⟨l' :: ps, .cons ⟨rfl, rfl, .inl rfl⟩ g1, .cons ⟨by rw [e3]; exact named_mono hab f1, by rw [e2]; exact named_mono hab f2, by rw [e1]; exact f3⟩ g2⟩
        · have hx' : l'.1.1 = x := by
            rw [hx] at f1
            exact named_inj ha.ok f1 (.inl ⟨by omega, rfl⟩)
          refine ⟨(((z : Int), l'.1.2), l'.2) :: ps, .cons ⟨rfl, rfl, .inr ((hE _ _).2 ⟨x, z, hx', rfl, he⟩)⟩ g1,
            .cons ⟨by rw [hz]; exact .inl ⟨by simp, rfl⟩, by rw [e2]; exact named_mono hab f2, by rw [e1]; exact f3⟩ g2⟩
    obtain ⟨ps, h5, h6⟩ := key
    exact ⟨ps, ⟨ps', h3, h5⟩, h6⟩

/-- One section gets its variants. `S` are the pairs of the alphabet the section was written with. -/
theorem apply_part {acx : List (Int × List Int)} {M : Nat} (hM : ∀ x zs, mapFind x acx = some zs → zs.length ≤ M)
    (hE : ∀ x z : Int, Equiv' acx x z ↔ ∃ m n : Nat, x = m ∧ z = n ∧ E m n) (hlt : ∀ m n, E m n → n < 2 ^ 29)
    {a0 a : Alphabet} {t : Transducer Dbl} (ha : Sane a) (h0 : Ext a0 a) (ht0 : Coded a0 t) (hs0 : Sane a0) (ht : Part a t)
    (hrow : ∀ e ∈ t.transitions, (M + 1) * e.2.length < 2 ^ 30) :
    ∃ a' t', applyACX a acx t = .ok (a', t') ∧ Sane a' ∧ a'.slexicinv = a.slexicinv ∧ (∀ p ∈ a'.spairinv, p ∈ a.spairinv ∨ Added acx a0.spairinv p) ∧
      Ext a a' ∧ Part a' t' ∧ ∀ ls fw, SpellsNames a' t' ls fw ↔ ∃ ls', SpellsNames a t ls' fw ∧ List.Forall₂ (Variant E) ls' ls := by
  have hc := ht.coded
  have hwf := ht.wf
  obtain ⟨b, m, k1, k2, k3, k5, k4⟩ := acxRows_spec acx t.transitions a ha.ok (coded_rows hwf hc)
  obtain ⟨r1, r2, r3⟩ := acxRows_pairs hM (S := a0.spairinv) t.transitions m a b ha.ok (fun e he d hd => by
    obtain ⟨p, hp⟩ := coded_rows hwf ht0 e he d hd
    exact ⟨p, mem_of_hasPair hp, hp.mono h0⟩) k1
  have hrel := k4 b k2 (Ext.refl _)
  have h00 : (SortedRow ([] : Row Dbl) → SortedRow ([] : Row Dbl)) ∧
        ∀ x, x ∈ ([] : Row Dbl) ↔ x ∈ ([] : Row Dbl) ∨ ∃ e ∈ ([] : Row Dbl), ∃ p z, HasPair b e.1 p ∧ Equiv' acx p.1 z ∧
        HasPair b x.1 (z, p.2) ∧ x.2 = e.2 := by simp
  let t' : Transducer Dbl := { t with transitions := m }
  have hEd : ∀ q l p, Edge t' q l p ↔ Edge t q l p ∨ ∃ c pr z, Edge t q (c, l.2) p ∧ HasPair b c pr ∧ Equiv' acx pr.1 z ∧
      HasPair b l.1 (z, pr.2) := by
    intro q l p
    unfold Edge
    rw [(RowsRel.row (t := t) (t' := t') hrel h00 q).2]
    constructor
    · rintro (h | ⟨e, he, pr, z, h1, h2, h3, h4⟩)
      · exact .inl h
      · refine .inr ⟨e.1, pr, z, ?_, h1, h2, h3⟩
        simp only at h4
        rw [h4]; exact he
    · rintro (h | ⟨c, pr, z, he, h1, h2, h3⟩)
      · exact .inl h
      · exact .inr ⟨_, he, pr, z, h1, h2, h3, rfl⟩
  have hwf' : WF t' := RowsRel.wf (t := t) hrel h00 rfl rfl hwf (fun r r' h => h.1) (fun r r' h e he => by
    rcases (h.2 e).1 he with h1 | ⟨d, hd, _, _, _, _, _, h2⟩
    · exact ⟨e, h1, rfl⟩
    · exact ⟨d, hd, by rw [h2]⟩)
  have hcoded : Coded b t' := by
    intro q l p he
    rcases (hEd _ _ _).1 he with h | ⟨_, pr, z, _, _, _, h⟩
    · obtain ⟨pr, hp⟩ := hc _ _ _ h
      exact ⟨pr, decode_iff.2 ((decode_iff.1 hp).mono k3)⟩
    · exact ⟨_, decode_iff.2 h⟩
  have hsane : Sane b := by
    refine ⟨k2, by rw [r1]; exact ha.tags, fun p hp => ?_⟩
    rcases r2 p hp with h | ⟨x, h1, h2⟩
    · exact ⟨(ha.symbols p h).1.mono k3, (ha.symbols p h).2.mono k3⟩
    · obtain ⟨m', n, -, hz, he⟩ := (hE _ _).1 h2
      have := hlt _ _ he
      refine ⟨.inl ⟨by omega, by omega⟩, ?_⟩
      exact ((hs0.symbols _ h1).2.mono h0).mono k3
  have hpart : Part b t' := by
    refine ⟨hwf', hcoded, ?_, fun e he => ?_, fun q l p he => ?_, fun q w hf => ht.finals q w hf⟩
    · have hk := congrArg List.length hrel.keys
      have hs := ht.size
      unfold Fst.size at hs ⊢
      simp only [List.length_map] at hk
      rw [show t'.transitions = m from rfl, hk]
      exact hs
    · obtain ⟨e', he', hl⟩ := r3 e he
      exact Nat.lt_of_le_of_lt hl (hrow e' he')
    · rcases (hEd _ _ _).1 he with h | ⟨c, _, _, h, -⟩
      · exact ht.arcs _ _ _ h
      · exact ht.arcs _ (c, l.2) _ h
  refine ⟨b, t', by simp only [applyACX, k1, Res.bind_ok, Res.pure_eq]; rfl, hsane, r1, r2, k3, hpart, fun ls fw => ?_⟩
  rw [spellsNames_iff, ← names_variant hE hsane k3 ha hc]
  refine exists_congr fun ps => and_congr_left fun _ => ?_
  have hPE : ∀ q l p, PairEdge b t' q l p ↔ ∃ l', PairEdge a t q l' p ∧ (l.2 = l'.2 ∧ l.1.2 = l'.1.2 ∧ (l.1.1 = l'.1.1 ∨ Equiv' acx l'.1.1 l.1.1)) := by
    intro q l p
    constructor
    · rintro ⟨c, h1, h2⟩
      rcases (hEd _ _ _).1 h2 with h | ⟨d, pr, z, h3, h4, h5, h6⟩
      · obtain ⟨pr, hp⟩ := hc _ _ _ h
        have := (decode_iff.1 h1).pair_unique ((decode_iff.1 hp).mono k3)
        exact ⟨(pr, l.2), ⟨c, hp, h⟩, rfl, by rw [this], .inl (by rw [this])⟩
      · obtain ⟨pr', hp⟩ := hc _ _ _ h3
        obtain rfl := h4.pair_unique ((decode_iff.1 hp).mono k3)
        have := (decode_iff.1 h1).pair_unique h6
        exact ⟨(pr, l.2), ⟨d, hp, h3⟩, rfl, by rw [this], .inr (by rw [this]; exact h5)⟩
    · rintro ⟨l', ⟨c, h1, h2⟩, h3, h4, h5⟩
      have hp := (decode_iff.1 h1).mono k3
      rcases h5 with h5 | h5
      · refine ⟨c, decode_iff.2 ?_, (hEd _ _ _).2 (.inl (by rw [h3]; exact h2))⟩
        have : l.1 = l'.1 := Prod.ext h5 h4
        rw [this]; exact hp
      · obtain ⟨c', hc'⟩ := k5 _ (row_mem hwf (hwf.source_lt h2)) _ h2 _ _ (decode_iff.1 h1) h5
        refine ⟨c', decode_iff.2 ?_, (hEd _ _ _).2 (.inr ⟨c, l'.1, l.1.1, by rw [h3]; exact h2, hp, h5, hc'⟩)⟩
        have : l.1 = (l.1.1, l'.1.2) := Prod.ext rfl h4
        rw [this]; exact hc'
  unfold Spells
  constructor
  · rintro ⟨p, hp, hf⟩
    obtain ⟨ls', h1, h2⟩ := (Path.rel hPE).1 hp
    exact ⟨ls', ⟨p, h1, hf⟩, h2⟩
  · rintro ⟨ls', ⟨p, h1, hf⟩, h2⟩
    exact ⟨p, (Path.rel hPE).2 ⟨ls', h1, h2⟩, hf⟩

theorem apply_all {acx : List (Int × List Int)} {M : Nat} (hM : ∀ x zs, mapFind x acx = some zs → zs.length ≤ M)
    (hE : ∀ x z : Int, Equiv' acx x z ↔ ∃ m n : Nat, x = m ∧ z = n ∧ E m n) (hlt : ∀ m n, E m n → n < 2 ^ 29)
    {a : Alphabet} {ts : List (UString × Transducer Dbl)} (ha : Sane a) (ht : ∀ e ∈ ts, Part a e.2)
    (hrow : ∀ e ∈ ts, ∀ r ∈ e.2.transitions, (M + 1) * r.2.length < 2 ^ 30) :
    ∃ a' ts', eachSection (fun a t => applyACX a acx t) ts a = .ok (a', ts') ∧ Sane a' ∧ a'.slexicinv = a.slexicinv ∧
      a'.spairinv.length ≤ (M + 1) * a.spairinv.length ∧
      List.Forall₂ (fun e e' => e'.1 = e.1 ∧ Part a' e'.2 ∧ ∀ ls fw, SpellsNames a' e'.2 ls fw ↔
        ∃ ls', SpellsNames a e.2 ls' fw ∧ List.Forall₂ (Variant E) ls' ls) ts ts' := by
  obtain ⟨a', ts', g1, g2, -, g4⟩ := eachSection_spec (op := fun a t => applyACX a acx t)
    (fun b => Sane b ∧ b.slexicinv = a.slexicinv ∧ Ext a b ∧ ∀ p ∈ b.spairinv, p ∈ a.spairinv ∨ Added acx a.spairinv p)
    (fun b t => Part b t ∧ Coded a t ∧ ∀ r ∈ t.transitions, (M + 1) * r.2.length < 2 ^ 30)
    (fun b t c t' => Part c t' ∧ ∀ ls fw, SpellsNames c t' ls fw ↔ ∃ ls', SpellsNames b t ls' fw ∧ List.Forall₂ (Variant E) ls' ls)
    (fun b t hb hq => by
      obtain ⟨b', t', k1, k2, k3, k4, k5, k6, k7⟩ := apply_part hM hE hlt hb.1 hb.2.2.1 hq.2.1 ha hq.1 hq.2.2
      refine ⟨b', t', k1, ⟨k2, k3.trans hb.2.1, hb.2.2.1.trans k5, fun p hp => ?_⟩, k5, k6, k7⟩
      rcases k4 p hp with h | h
      · exact hb.2.2.2 p h
      · exact .inr h)
    (fun b c t h hq => ⟨hq.1.mono h, hq.2⟩)
    (fun b c t d t' hb hc hq hr => ⟨hr.1, fun ls fw => by
      rw [hr.2]
      exact exists_congr fun ls' => and_congr_left fun _ => spellsNames_ext hc hq.1.coded (tagsKnown hb.1.symbols t) ls' fw⟩)
    (fun b t c t' d hc hd hr => ⟨hr.1.mono hd, fun ls fw => by rw [spellsNames_ext hd hr.1.coded (tagsKnown hc.1.symbols t'), hr.2]⟩)
    ts a ⟨ha, rfl, Ext.refl a, fun p hp => .inl hp⟩ (fun e he => ⟨ht e he, (ht e he).coded, hrow e he⟩)
  exact ⟨a', ts', g1, g2.1, g2.2.1, bound_pairs hM (nodup_pairs g2.1.ok) g2.2.2.2, g4⟩

end Verif.Acx
