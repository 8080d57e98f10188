import Verif.Proc.Words

/-! # How many states there are -/

namespace Verif.Proc

open Verif.State

variable {W : Type}

/-- The state before anything was read. -/
def based (d : Bool) : Rec W := { node := 0, seq := [], dirty := d }

/-- The extensions of a path by an arc for another letter. -/
def extAlt (g : Graph W) (y : Int) (e : PE Bool W) : List (PE Bool W) := (ext g y e).map fun e' => (true, e'.2)

theorem mem_extAlt {g : Graph W} {y : Int} {e e' : PE Bool W} (h : e' ∈ extAlt g y e) :
    ∃ l : Label W, l.1 = y ∧ Arc g e.2.2 l e'.2.2 ∧ e'.1 = true ∧ e'.2.1 = e.2.1 ++ [l] := by
  obtain ⟨e1, h1, rfl⟩ := List.mem_map.1 h
  obtain ⟨l, h2, h3, -, h4⟩ := mem_ext.1 h1
  exact ⟨l, h2, h3, rfl, h4⟩

theorem nodup_extAlt (g : Graph W) (y : Int) (e : PE Bool W) : (extAlt g y e).Nodup := by
  unfold extAlt
  rw [List.Nodup, List.pairwise_map]
  refine List.Pairwise.imp_of_mem ?_ (nodup_ext g y e)
  intro a b ha hb hab he
  apply hab
  obtain ⟨-, -, -, h1, -⟩ := mem_ext.1 ha
  obtain ⟨-, -, -, h2, -⟩ := mem_ext.1 hb
  simp only [Prod.mk.injEq, true_and] at he
  exact Prod.ext (h1.trans h2.symm) he

theorem applyInto_extAlt (g : Graph W) {y : Int} (hy : y ≠ 0) (e : PE Bool W) :
    (applyInto g y (recOf based e) true).1 = (extAlt g y e).map (recOf based) := by
  unfold applyInto extAlt ext
  obtain ⟨a, ls, p⟩ := e
  simp only [recOf]
  cases hg : g p y with
  | none => simp
  | some ds =>
    simp only [Option.getD_some, List.map_map]
    rw [← List.zipIdx_map_fst 0 ds, List.map_map]
    simp only [List.zipIdx_map_fst]
    refine List.map_congr_left ?_
    rintro ⟨⟨o, d, w⟩, j⟩ _
    simp [recOf, written, hy, based]

theorem after_paths {σ : Setting W} (hf : Few σ) (hl : ∀ c, σ.chars.toLower c = 0 → c = 0) {n : Nat} (xs : List Int) (hx : ∀ x ∈ xs, x ≠ 0) :
    ∀ {st : List (Rec W)}, after σ n xs = .ok st → ∃ ps : List (PE Bool W), ps.Nodup ∧ (∀ e ∈ ps, Reads σ xs e.2.1 e.2.2 ∧ e.1 = decide (inputs e.2.1 ≠ xs)) ∧
      st = ps.map (recOf based) := by
  induction xs using List.reverseRecOn with
  | nil =>
    intro st h
    rw [after_nil, ended_ok] at h
    have h' : epsilonClosure σ.graph n ([((false, [], σ.root) : PE Bool W)].map (recOf based)) = some st := h
    obtain ⟨ps, h1, h2⟩ := closure_of_paths σ.graph _ n _ h'
    obtain ⟨k1, k2, k3⟩ := closureP_spec (root := fun _ => σ.root) (P := [((false, [], σ.root) : PE Bool W)]) (by
      intro e he ls l hl
      rw [List.mem_singleton.1 he] at hl
      simp at hl) (by simp) (by
      intro e he
      rw [List.mem_singleton.1 he]
      exact .nil _) h1
    refine ⟨ps, k1, fun e he => ?_, h2⟩
    obtain ⟨e0, h0, ls, h3, h4, h5⟩ := (k3 e).1 he
    rw [List.mem_singleton.1 h0] at h3 h4 h5
    simp only [List.nil_append] at h3 h4 h5
    rw [h5, h4, inputs_eps h3.2]
    refine ⟨⟨h3.1, ?_⟩, by simp⟩
    rw [inputs_eps h3.2]
    exact .nil
  | append_singleton xs x ih =>
    intro st h
    rw [after_concat, res_bind_ok] at h
    obtain ⟨st1, h1, h2⟩ := h
    have hx0 : x ≠ 0 := hx x (by simp)
    have hxs : ∀ y ∈ xs, y ≠ 0 := fun y hy => hx y (by simp [hy])
    obtain ⟨ps, k1, k2, rfl⟩ := ih hxs h1
    have hlen : (ps.map (recOf based)).length < 65536 := by
      have := hf xs hxs (ps.map (·.2)) (by
        rw [List.Nodup, List.pairwise_map]
        refine List.Pairwise.imp_of_mem ?_ k1
        intro a b ha hb hab he
        exact hab (Prod.ext (by rw [(k2 a ha).2, (k2 b hb).2, he]) he)) (by
        intro e he
        obtain ⟨e1, h1, rfl⟩ := List.mem_map.1 he
        exact (k2 e1 h1).1)
      simpa using this
    unfold stepFolded at h2
    rw [ended_ok, show σ.beCaseSensitive (ps.map (recOf based)) = σ.caseSensitive by simp [Setting.beCaseSensitive] at hlen ⊢; omega] at h2
    -- the paths before the closure
    have key : ∃ P : List (PE Bool W), epsilonClosure σ.graph n (P.map (recOf based)) = some st ∧ P.Nodup ∧
        ∀ e ∈ P, ∃ e0 ∈ ps, ∃ l : Label W, l.1 ≠ 0 ∧ Folds σ x l.1 ∧ Arc σ.graph e0.2.2 l e.2.2 ∧ e.2.1 = e0.2.1 ++ [l] ∧ e.1 = (e0.1 || decide (l.1 ≠ x)) := by
      have hdet : ∀ a ∈ ps, ∀ b ∈ ps, a.2.1 = b.2.1 → a = b := by
        intro a ha b hb e
        have e1 : a.1 = b.1 := by rw [(k2 a ha).2, (k2 b hb).2, e]
        exact real_unique (root := fun _ => σ.root) (k2 a ha).1.1 (k2 b hb).1.1 e1 e
      have hpw : ps.Pairwise (fun a b => a ∈ ps ∧ b ∈ ps ∧ a ≠ b) := by
        rw [List.Nodup] at k1
        exact (List.Pairwise.and_mem.1 k1).imp (fun ⟨a, b, c⟩ => ⟨a, b, c⟩)
      have hap : apply σ.graph x (ps.map (recOf based)) = (ps.flatMap (ext σ.graph x)).map (recOf based) := by
        unfold apply
        rw [if_neg hx0, List.flatMap_map, List.map_flatMap]
        congr 1
        funext e
        exact applyInto_ext σ.graph hx0 _ e
      have plain : epsilonClosure σ.graph n ((ps.flatMap (ext σ.graph x)).map (recOf based)) = some st → ∃ P : List (PE Bool W), epsilonClosure σ.graph n (P.map (recOf based)) = some st ∧ P.Nodup ∧
        ∀ e ∈ P, ∃ e0 ∈ ps, ∃ l : Label W, l.1 ≠ 0 ∧ Folds σ x l.1 ∧ Arc σ.graph e0.2.2 l e.2.2 ∧ e.2.1 = e0.2.1 ++ [l] ∧ e.1 = (e0.1 || decide (l.1 ≠ x)) := by
        intro h
        refine ⟨_, h, ?_, ?_⟩
        · rw [List.nodup_flatMap]
          refine ⟨fun e _ => nodup_ext _ x e, hpw.imp ?_⟩
          rintro a b ⟨ha, hb, hab⟩ e hea heb
          obtain ⟨l, -, -, -, l2⟩ := mem_ext.1 hea
          obtain ⟨m, -, -, -, m2⟩ := mem_ext.1 heb
          rw [l2] at m2
          exact hab (hdet a ha b hb (List.append_inj' m2 rfl).1)
        · intro e he
          obtain ⟨e0, h0, he⟩ := List.mem_flatMap.1 he
          obtain ⟨l, l1, l2, l3, l4⟩ := mem_ext.1 he
          exact ⟨e0, h0, l, by rw [l1]; exact hx0, by rw [l1]; exact .inl rfl, l2, l4, by simp [l3, l1]⟩
      unfold stepCase at h2
      split at h2
      · unfold step at h2
        rw [hap] at h2
        exact plain h2
      · rename_i hcase
        simp only [Bool.or_eq_true, Bool.not_eq_true', not_or, Bool.not_eq_false, Bool.not_eq_true] at hcase
        have hy0 : σ.chars.toLower x ≠ 0 := fun h => hx0 (hl x h)
        unfold stepAlt applyAlt at h2
        rw [if_neg (by rintro (h | h); exacts [hx0 h, hy0 h])] at h2
        split at h2
        · rw [hap] at h2
          exact plain h2
        · rename_i hne
          have e1 : ((ps.map (recOf based)).flatMap fun r => (applyInto σ.graph x r false).1 ++ (applyInto σ.graph (σ.chars.toLower x) r true).1) =
              (ps.flatMap fun e => ext σ.graph x e ++ extAlt σ.graph (σ.chars.toLower x) e).map (recOf based) := by
            rw [List.flatMap_map, List.map_flatMap]
            congr 1
            funext e
            rw [List.map_append, applyInto_ext σ.graph hx0, applyInto_extAlt σ.graph hy0]
          rw [e1] at h2
          have hmem : ∀ e0 e, e ∈ ext σ.graph x e0 ++ extAlt σ.graph (σ.chars.toLower x) e0 → ∃ l : Label W, (l.1 = x ∨ l.1 = σ.chars.toLower x) ∧
              Arc σ.graph e0.2.2 l e.2.2 ∧ e.2.1 = e0.2.1 ++ [l] ∧ e.1 = (e0.1 || decide (l.1 ≠ x)) := by
            intro e0 e he
            rcases List.mem_append.1 he with he | he
            · obtain ⟨l, l1, l2, l3, l4⟩ := mem_ext.1 he
              exact ⟨l, .inl l1, l2, l4, by simp [l3, l1]⟩
            · obtain ⟨l, l1, l2, l3, l4⟩ := mem_extAlt he
              exact ⟨l, .inr l1, l2, l4, by rw [l3, l1]; simp [Ne.symm hne]⟩
          refine ⟨_, h2, ?_, ?_⟩
          · rw [List.nodup_flatMap]
            refine ⟨fun e _ => ?_, hpw.imp ?_⟩
            · rw [List.nodup_append]
              refine ⟨nodup_ext _ x e, nodup_extAlt _ _ e, ?_⟩
              intro a ha b hb e1
              subst e1
              obtain ⟨l, l1, -, -, l4⟩ := mem_ext.1 ha
              obtain ⟨m, m1, -, -, m4⟩ := mem_extAlt hb
              rw [l4] at m4
              have := (List.append_inj' m4 rfl).2
              simp only [List.cons.injEq, and_true] at this
              exact hne (l1.symm.trans ((congrArg Prod.fst this).trans m1))
            · rintro a b ⟨ha, hb, hab⟩ e hea heb
              obtain ⟨l, -, -, l2, -⟩ := hmem _ _ hea
              obtain ⟨m, -, -, m2, -⟩ := hmem _ _ heb
              rw [l2] at m2
              exact hab (hdet a ha b hb (List.append_inj' m2 rfl).1)
          · intro e he
            obtain ⟨e0, h0, he⟩ := List.mem_flatMap.1 he
            obtain ⟨l, l1, l2, l3, l4⟩ := hmem _ _ he
            refine ⟨e0, h0, l, ?_, ?_, l2, l3, l4⟩
            · rcases l1 with l1 | l1 <;> rw [l1]
              · exact hx0
              · exact hy0
            · rcases l1 with l1 | l1
              · exact .inl l1
              · exact .inr ⟨hcase.1, hcase.2, l1⟩
    obtain ⟨P, g1, g2, g3⟩ := key
    obtain ⟨ps', p1, p2⟩ := closure_of_paths σ.graph _ n _ g1
    obtain ⟨j1, j2, j3⟩ := closureP_spec (root := fun _ => σ.root) (P := P) (by
      intro e he ls l hl
      obtain ⟨e0, -, l', m1, -, -, m4, -⟩ := g3 e he
      rw [m4] at hl
      have := (List.append_inj' hl rfl).2
      simp only [List.cons.injEq, and_true] at this
      rw [← this]; exact m1) g2 (by
      intro e he
      obtain ⟨e0, h0, l, -, -, m3, m4, -⟩ := g3 e he
      have := (k2 e0 h0).1.1.append (Fst.Path.cons m3 (.nil _))
      unfold Real
      rw [m4]; exact this) p1
    refine ⟨ps', j1, fun e he => ?_, p2⟩
    obtain ⟨e1, h1, ls, h3, h4, h5⟩ := (j3 e).1 he
    obtain ⟨e0, h0, l, m1, m2, m3, m4, m5⟩ := g3 e1 h1
    have hr0 := k2 e0 h0
    have hrd : Reads σ (xs ++ [x]) (e0.2.1 ++ l :: ls) e.2.2 := reads_snoc hr0.1 m2 m1 m3 h3
    have e5 : e.2.1 = e0.2.1 ++ l :: ls := by rw [h5, m4]; simp
    rw [e5]
    refine ⟨hrd, ?_⟩
    rw [h4, m5, hr0.2, inputs_snoc m1 h3.2]
    by_cases ha : inputs e0.2.1 = xs
    · by_cases hb : l.1 = x <;> simp [ha, hb]
    · have : inputs e0.2.1 ++ [l.1] ≠ xs ++ [x] := fun h => ha (List.append_inj' h rfl).1
      simp [ha, this]

theorem small_of_few {σ : Setting W} (hf : Few σ) (hl : ∀ c, σ.chars.toLower c = 0 → c = 0) : Small σ := by
  intro n xs st hx h
  obtain ⟨ps, k1, k2, rfl⟩ := after_paths hf hl xs hx h
  have := hf xs hx (ps.map (·.2)) (by
    rw [List.Nodup, List.pairwise_map]
    refine List.Pairwise.imp_of_mem ?_ k1
    intro a b ha hb hab he
    exact hab (Prod.ext (by rw [(k2 a ha).2, (k2 b hb).2, he]) he)) (by
    intro e he
    obtain ⟨e1, h1, rfl⟩ := List.mem_map.1 he
    exact (k2 e1 h1).1)
  simpa using this

end Verif.Proc
