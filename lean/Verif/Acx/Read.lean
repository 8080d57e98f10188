import Verif.Acx.Spec
import Verif.Compression.Lemmas
import Verif.Data.AssocLemmas
import Verif.Alphabet.Props
import Verif.Labels.Lemmas

/-! # What `readACX` reads -/

namespace Verif.Acx

open Verif.Fst (Equiv')
open Verif.Compression (vec32 unitsOf unitsOf_utf16 unitsOf_vec32 vec32_lt)

theorem vec32_utf16 (c : Nat) (h : c < 0x110000) : vec32 (utf16 c) = [UInt32.ofNat c] := by
  have hn : (UInt32.ofNat c).toNat = c := by
    rw [UInt32.toNat_ofNat']; exact Nat.mod_eq_of_lt (by omega)
  unfold utf16
  split
  · rw [vec32]
    refine congrArg (· :: []) ?_
    rw [← UInt32.toNat_inj, UInt16.toNat_toUInt32, UInt16.toNat_ofNat', hn]
    exact Nat.mod_eq_of_lt (by omega)
  · have h1 : (UInt16.ofNat (0xd800 + (c - 0x10000) / 1024)).toNat = 0xd800 + (c - 0x10000) / 1024 := by
      rw [UInt16.toNat_ofNat']; exact Nat.mod_eq_of_lt (by omega)
    have h2 : (UInt16.ofNat (0xdc00 + c % 1024)).toNat = 0xdc00 + c % 1024 := by
      rw [UInt16.toNat_ofNat']; exact Nat.mod_eq_of_lt (by omega)
    have hl : Compression.isLead (UInt16.ofNat (0xd800 + (c - 0x10000) / 1024)) = true := by
      rw [Compression.isLead_iff, h1]; omega
    have ht : Compression.isTrail (UInt16.ofNat (0xdc00 + c % 1024)) = true := by
      rw [Compression.isTrail_iff, h2]; omega
    rw [vec32, hl, ht]
    simp only [Bool.and_self, if_true, vec32]
    refine congrArg (· :: []) ?_
    rw [← UInt32.toNat_inj, hn]
    have := Compression.supplementary_toNat _ _ hl ht
    rw [h1, h2] at this
    omega

theorem Single.unique {v : Option UString} {c d : Nat} (h : Single v c) (h' : Single v d) : c = d := by
  have e : utf16 c = utf16 d := by
    have := h.2.symm.trans h'.2
    exact Option.some.inj this
  have := congrArg vec32 e
  rw [vec32_utf16 c h.1, vec32_utf16 d h'.1] at this
  simp only [List.cons.injEq, and_true] at this
  have := congrArg UInt32.toNat this
  rw [UInt32.toNat_ofNat', UInt32.toNat_ofNat'] at this
  have h1 := h.1
  have h2 := h'.1
  omega

theorem getVal_single {v : Option UString} {c : Nat} (h : Single v c) : getVal v = .ok (c : Int) := by
  obtain ⟨h1, rfl⟩ := h
  have h0 : utf16 c ≠ [] := by unfold utf16; split <;> simp
  have e : ((UInt32.ofNat c).toNat : Int) = c := by
    rw [UInt32.toNat_ofNat']; congr 1; exact Nat.mod_eq_of_lt (by omega)
  simp only [getVal, Option.getD_some, h0, if_false, vec32_utf16 c h1, List.length_singleton, lt_irrefl, e]

theorem getVal_other {v : Option UString} (h : ∀ c, ¬ Single v c) : getVal v = .exit := by
  cases v with
  | none => rfl
  | some s =>
    have h1 : s ≠ [] → vec32 s ≠ [] := fun h0 e => by
      have := unitsOf_vec32 s
      rw [e] at this
      exact h0 this.symm
    by_cases h0 : s = []
    · simp [getVal, h0]
    · have h2 : 1 < (vec32 s).length := by
        rcases hv : vec32 s with _ | ⟨c, _ | ⟨d, cs⟩⟩
        · exact absurd hv (h1 h0)
        · exfalso
          have hc := vec32_lt s c (by rw [hv]; exact List.mem_cons_self)
          have := unitsOf_vec32 s
          rw [hv] at this
          simp only [List.flatMap_cons, List.flatMap_nil, List.append_nil] at this
          refine h c.toNat ⟨hc, ?_⟩
          rw [← this]
          have e := unitsOf_utf16 c.toNat (by omega)
          rw [UInt32.ofNat_toNat] at e
          rw [e]
        · simp
      simp [getVal, h0, h2]

theorem outer_eq : charNode = outer := by decide +kernel
theorem inner_eq : equivNode = inner := by decide +kernel

theorem readEquivs_good (es : List Leaf) (vec : List Int) (h : ∀ e ∈ es, e.name = inner ∧ ∃ z, Single e.value z) :
    ∃ vec', readEquivs es vec = .ok vec' ∧ (∀ x : Int, x ∈ vec' ↔ x ∈ vec ∨ ∃ z : Nat, x = z ∧ ∃ e ∈ es, Single e.value z) ∧
      vec'.length ≤ vec.length + es.length ∧ (vec' = [] ↔ vec = [] ∧ es = []) := by
  induction es generalizing vec with
  | nil => exact ⟨vec, rfl, by simp, by simp, by simp⟩
  | cons e es ih =>
    obtain ⟨h1, z, h2⟩ := h e List.mem_cons_self
    obtain ⟨vec', g1, g2, g3, g4⟩ := ih (setInsert (z : Int) vec) fun e he => h e (List.mem_cons_of_mem _ he)
    have hlen : (setInsert (z : Int) vec).length ≤ vec.length + 1 := by
      clear * -
      induction vec with
      | nil => simp [setInsert]
      | cons x v ih =>
        unfold setInsert
        split
        · simp
        · split <;> simp; omega
    refine ⟨vec', by simp only [readEquivs, h1, inner_eq, outer_eq, ne_eq, not_true_eq_false, if_false, getVal_single h2, Res.bind_ok, g1], fun x => ?_, by
      simp only [List.length_cons]; omega, ?_⟩
    · rw [g2, mem_setInsert]
      constructor
      · rintro ((rfl | h3) | ⟨z', rfl, d, hd, h4⟩)
        · exact .inr ⟨z, rfl, e, List.mem_cons_self, h2⟩
        · exact .inl h3
        · exact .inr ⟨z', rfl, d, List.mem_cons_of_mem _ hd, h4⟩
      · rintro (h3 | ⟨z', rfl, d, hd, h4⟩)
        · exact .inl (.inr h3)
        · rcases List.mem_cons.1 hd with rfl | hd
          · exact .inl (.inl (by rw [h4.unique h2]))
          · exact .inr ⟨z', rfl, d, hd, h4⟩
    · rw [g4]
      have : setInsert (z : Int) vec ≠ [] := fun e => by
        have := (mem_setInsert (z : Int) vec z).2 (.inl rfl)
        rw [e] at this; cases this
      simp [this]

theorem readEquivs_bad (es : List Leaf) (vec : List Int) (h : ¬ ∀ e ∈ es, e.name = inner ∧ ∃ z, Single e.value z) :
    readEquivs es vec = .exit := by
  induction es generalizing vec with
  | nil => exact absurd (by simp) h
  | cons e es ih =>
    unfold readEquivs
    by_cases h1 : e.name = inner
    · simp only [h1, inner_eq, outer_eq, ne_eq, not_true_eq_false, if_false]
      by_cases h2 : ∃ z, Single e.value z
      · obtain ⟨z, h2⟩ := h2
        rw [getVal_single h2, Res.bind_ok]
        refine ih _ fun h3 => h fun d hd => ?_
        rcases List.mem_cons.1 hd with rfl | hd
        · exact ⟨h1, z, h2⟩
        · exact h3 d hd
      · rw [getVal_other (by simpa using h2)]; rfl
    · simp [inner_eq, outer_eq, h1]

theorem mapFind_mapSet_new {m : List (Int × List Int)} {k : Int} {v : List Int} (h : mapFind k m = none) (k' : Int) :
    mapFind k' (mapSet k v m) = if k' = k then some v else mapFind k' m := by
  induction m with
  | nil => simp [mapSet, mapFind, eq_comm]
  | cons e m ih =>
    obtain ⟨x, w⟩ := e
    have hx : x ≠ k := by rintro rfl; simp [mapFind] at h
    have hm : mapFind k m = none := by simpa [mapFind, hx] using h
    unfold mapSet
    split
    · simp only [mapFind]
      by_cases e : k = k'
      · subst e; simp
      · have e' : ¬ k' = k := fun h => e h.symm
        simp [e, e']
    · split
      · simp only [mapFind, ih hm]
        by_cases e : x = k'
        · subst e; simp [hx]
        · simp [e]
      · exact absurd (by omega) hx

theorem Effective.cons {c : Node} {cs : List Node} {x z : Nat} :
    Effective (c :: cs) x z ↔ (Single c.value x ∧ ∃ e ∈ c.below, Single e.value z) ∨ ((Single c.value x → c.below = []) ∧ Effective cs x z) := by
  constructor
  · rintro ⟨pre, d, post, h1, h2, h3, h4⟩
    cases pre with
    | nil =>
      simp only [List.nil_append, List.cons.injEq] at h1
      obtain ⟨rfl, rfl⟩ := h1
      exact .inl ⟨h2, h3⟩
    | cons p pre =>
      simp only [List.cons_append, List.cons.injEq] at h1
      obtain ⟨rfl, rfl⟩ := h1
      exact .inr ⟨h4 _ List.mem_cons_self, pre, d, post, rfl, h2, h3, fun d hd => h4 d (List.mem_cons_of_mem _ hd)⟩
  · rintro (⟨h1, h2⟩ | ⟨h1, pre, d, post, rfl, h3, h4, h5⟩)
    · exact ⟨[], c, cs, rfl, h1, h2, by simp⟩
    · refine ⟨c :: pre, d, post, rfl, h3, h4, fun d hd => ?_⟩
      rcases List.mem_cons.1 hd with rfl | hd
      · exact h1
      · exact h5 d hd

theorem readNodes_good (cs : List Node) (acx : List (Int × List Int)) (h : Good cs) {M : Nat} (hM : ∀ c ∈ cs, c.below.length ≤ M)
    (hacx : ∀ x zs, mapFind x acx = some zs → zs ≠ [] ∧ zs.length ≤ M) :
    ∃ acx', readNodes cs acx = .ok acx' ∧ (∀ x zs, mapFind x acx' = some zs → zs ≠ [] ∧ zs.length ≤ M) ∧
      ∀ x z : Int, Equiv' acx' x z ↔ Equiv' acx x z ∨ (mapFind x acx = none ∧ ∃ m n : Nat, x = m ∧ z = n ∧ Effective cs m n) := by
  induction cs generalizing acx with
  | nil =>
    refine ⟨acx, rfl, hacx, fun x z => ⟨.inl, ?_⟩⟩
    rintro (h | ⟨-, m, n, -, -, pre, c, post, h, -⟩)
    · exact h
    · simp at h
  | cons c cs ih =>
    obtain ⟨h1, ⟨k, h2⟩, h3⟩ := h c List.mem_cons_self
    obtain ⟨vec, g1, g2, g3, g4⟩ := readEquivs_good c.below [] h3
    have hlen := hM c List.mem_cons_self
    have hrun : readNodes (c :: cs) acx = readNodes cs (if vec = [] then acx else tableInsert k vec acx) := by
      simp only [readNodes, h1, inner_eq, outer_eq, ne_eq, not_true_eq_false, if_false, getVal_single h2, Res.bind_ok, g1]
    rw [hrun]
    have hcs : Good cs := fun d hd => h d (List.mem_cons_of_mem _ hd)
    have hMs : ∀ d ∈ cs, d.below.length ≤ M := fun d hd => hM d (List.mem_cons_of_mem _ hd)
    have hsv : ∀ z : Int, z ∈ vec ↔ ∃ n : Nat, z = n ∧ ∃ e ∈ c.below, Single e.value n := fun z => by simpa using g2 z
    -- nothing is put into the table
    have hsame : (vec = [] ∨ ∃ zs, mapFind (k : Int) acx = some zs) → (if vec = [] then acx else tableInsert k vec acx) = acx := by
      rintro (h | ⟨zs, h⟩)
      · simp [h]
      · simp [tableInsert, h]
    by_cases hcase : vec = [] ∨ ∃ zs, mapFind (k : Int) acx = some zs
    · rw [hsame hcase]
      obtain ⟨acx', j1, j2, j3⟩ := ih acx hcs hMs hacx
      refine ⟨acx', j1, j2, fun x z => ?_⟩
      rw [j3]
      refine or_congr_right (and_congr_right fun hn => exists_congr fun m => exists_congr fun n => ?_)
      constructor
      · rintro ⟨rfl, rfl, he⟩
        refine ⟨rfl, rfl, Effective.cons.2 (.inr ⟨fun hs => ?_, he⟩)⟩
        obtain rfl := hs.unique h2
        rcases hcase with hcase | ⟨zs, hz⟩
        · exact (g4.1 hcase).2
        · rw [hn] at hz; cases hz
      · rintro ⟨rfl, rfl, he⟩
        refine ⟨rfl, rfl, ?_⟩
        rcases Effective.cons.1 he with ⟨hs, e, he1, he2⟩ | ⟨-, he⟩
        · exfalso
          obtain rfl := hs.unique h2
          rcases hcase with hcase | ⟨zs, hz⟩
          · rw [(g4.1 hcase).2] at he1; cases he1
          · rw [hn] at hz; cases hz
        · exact he
    · rw [not_or] at hcase
      obtain ⟨hv, hz⟩ := hcase
      have hz : mapFind (k : Int) acx = none := by
        cases e : mapFind (k : Int) acx with
        | none => rfl
        | some zs => exact absurd ⟨zs, e⟩ hz
      have e1 : (if vec = [] then acx else tableInsert k vec acx) = mapSet (k : Int) vec acx := by simp [hv, tableInsert, hz]
      rw [e1]
      have hf := mapFind_mapSet_new (v := vec) hz
      obtain ⟨acx', j1, j2, j3⟩ := ih (mapSet (k : Int) vec acx) hcs hMs (fun x zs hx => by
        rw [hf] at hx
        split at hx
        · cases hx
          refine ⟨hv, ?_⟩
          simp only [List.length_nil, Nat.zero_add] at g3
          omega
        · exact hacx x zs hx)
      refine ⟨acx', j1, j2, fun x z => ?_⟩
      rw [j3]
      unfold Equiv'
      simp only [hf]
      by_cases hx : x = k
      · subst hx
        simp only [if_true, hz]
        constructor
        · rintro (⟨zs, h5, h6⟩ | ⟨h5, -⟩)
          · cases h5
            obtain ⟨n, rfl, h7⟩ := (hsv z).1 h6
            exact .inr ⟨trivial, k, n, rfl, rfl, Effective.cons.2 (.inl ⟨h2, h7⟩)⟩
          · cases h5
        · rintro (⟨zs, h5, -⟩ | ⟨-, m, n, h5, rfl, h6⟩)
          · cases h5
          · obtain rfl : k = m := by exact_mod_cast h5
            rcases Effective.cons.1 h6 with ⟨-, h7⟩ | ⟨h7, -⟩
            · exact .inl ⟨vec, rfl, (hsv n).2 ⟨n, rfl, h7⟩⟩
            · exact absurd (g4.2 ⟨rfl, h7 h2⟩) hv
      · simp only [hx, if_false]
        refine or_congr_right (and_congr_right fun hn => exists_congr fun m => exists_congr fun n => and_congr_right fun hm => and_congr_right fun _ => ?_)
        rw [Effective.cons]
        have hns : ¬ Single c.value m := fun hs => hx (by rw [hm, hs.unique h2])
        simp [hns]

theorem readNodes_bad (cs : List Node) (acx : List (Int × List Int)) (h : ¬ Good cs) : readNodes cs acx = .exit := by
  induction cs generalizing acx with
  | nil => exact absurd (fun c hc => by cases hc) h
  | cons c cs ih =>
    unfold readNodes
    by_cases h1 : c.name = outer
    · simp only [h1, inner_eq, outer_eq, ne_eq, not_true_eq_false, if_false]
      by_cases h2 : ∃ z, Single c.value z
      · obtain ⟨z, h2⟩ := h2
        rw [getVal_single h2, Res.bind_ok]
        by_cases h3 : ∀ e ∈ c.below, e.name = inner ∧ ∃ z, Single e.value z
        · obtain ⟨vec, g1, -⟩ := readEquivs_good c.below [] h3
          rw [g1, Res.bind_ok]
          refine ih _ fun h4 => h fun d hd => ?_
          rcases List.mem_cons.1 hd with rfl | hd
          · exact ⟨h1, ⟨z, h2⟩, h3⟩
          · exact h4 d hd
        · rw [readEquivs_bad _ _ h3]; rfl
      · rw [getVal_other (by simpa using h2)]; rfl
    · simp [inner_eq, outer_eq, h1]

end Verif.Acx
