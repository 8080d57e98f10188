import Verif.State.Props
import Verif.SortedVec.Props
import Verif.Data.Utf16

/-! # Properties of the selection of analyses and of compounds -/

namespace Verif.State

variable {W : Type}

/-! ## C41 -/

section
variable [Zero W] [LinearOrder W]

theorem nFinalsLoop_prefix (ma mc : Int) (s : List (UString × W)) :
    ∃ n, nFinalsLoop ma mc s = s.take n ∧ n ≤ ma.toNat ∧ ∀ i, i < s.length → (i < n ↔ (i : Int) < ma ∧ ((s.take i).countP (fun x => x.2 ≠ 0) : Int) < mc) := by
  induction s generalizing ma mc with
  | nil => exact ⟨0, rfl, Nat.zero_le _, by simp⟩
  | cons x s ih =>
    unfold nFinalsLoop
    split
    · next hc =>
      obtain ⟨n, h1, h2, h3⟩ := ih (ma - 1) (if (0 : W) ≠ x.2 then mc - 1 else mc)
      refine ⟨n + 1, by rw [h1, List.take_succ_cons], by omega, ?_⟩
      intro i hi
      cases i with
      | zero => simp; exact hc
      | succ i =>
        have := h3 i (by simpa using hi)
        rw [Nat.add_lt_add_iff_right, this, List.take_succ_cons, List.countP_cons]
        by_cases h0 : x.2 = 0
        · simp [h0]; omega
        · simp [h0, Ne.symm h0]; omega
    · next hc =>
      refine ⟨0, by simp, Nat.zero_le _, ?_⟩
      intro i hi
      constructor
      · intro h; omega
      · rintro ⟨h1, h2⟩
        exact absurd ⟨by omega, by omega⟩ hc

/-- **C41** The analyses returned are the first ones of the sorted analyses, at most as many as asked for; nothing
omitted is lighter than something returned. -/
theorem C41_best (lf : List (UString × W)) (ma mc : Int) (res : List (UString × W)) (h : NFinals lf ma mc res) :
    ∃ omitted, (res ++ omitted).Perm lf ∧ (res ++ omitted).Pairwise (fun a b => a.2 ≤ b.2) ∧ res.length ≤ ma.toNat ∧
      ∀ x ∈ res, ∀ y ∈ omitted, x.2 ≤ y.2 := by
  obtain ⟨s, h1, h2, rfl⟩ := h
  obtain ⟨n, e, h3, -⟩ := nFinalsLoop_prefix ma mc s
  rw [e]
  refine ⟨s.drop n, by rw [List.take_append_drop]; exact h1, by rw [List.take_append_drop]; exact h2, ?_, ?_⟩
  · rw [List.length_take]; omega
  · have := h2
    rw [← List.take_append_drop n s, List.pairwise_append] at this
    exact this.2.2

/-- **C41** Without a limit on the weight classes, as many as asked for are returned. -/
theorem C41_count (lf : List (UString × W)) (ma mc : Int) (res : List (UString × W)) (h : NFinals lf ma mc res)
    (hc : (lf.length : Int) ≤ mc) : res.length = min ma.toNat lf.length := by
  obtain ⟨s, h1, h2, rfl⟩ := h
  obtain ⟨n, e, h3, h4⟩ := nFinalsLoop_prefix ma mc s
  rw [e, List.length_take, ← h1.length_eq]
  rw [← h1.length_eq] at hc
  rcases Nat.lt_or_ge n s.length with hn | hn
  · have := h4 n hn
    have hcnt : ((s.take n).countP (fun x => x.2 ≠ 0)) ≤ n := le_trans List.countP_le_length (by simp)
    have : ¬ (n : Int) < ma := by
      intro hlt
      have := this.2 ⟨hlt, by omega⟩
      omega
    omega
  · omega

/-- **C41** How many are returned: the analysis at position `i` of the sorted list is returned exactly if fewer than
`ma` are before it and fewer than `mc` with a weight that is not zero. -/
theorem C41_exactly (lf : List (UString × W)) (ma mc : Int) (res : List (UString × W)) (h : NFinals lf ma mc res) :
    ∃ s : List (UString × W), s.Perm lf ∧ s.Pairwise (fun a b => a.2 ≤ b.2) ∧ res = s.take res.length ∧
      ∀ i, i < s.length → (i < res.length ↔ (i : Int) < ma ∧ ((s.take i).countP (fun x => x.2 ≠ 0) : Int) < mc) := by
  obtain ⟨s, h1, h2, rfl⟩ := h
  obtain ⟨n, e, h3, h4⟩ := nFinalsLoop_prefix ma mc s
  refine ⟨s, h1, h2, ?_, ?_⟩
  · rw [e]
    rw [List.length_take]
    rcases Nat.le_total n s.length with hn | hn
    · rw [Nat.min_eq_left hn]
    · rw [Nat.min_eq_right hn, List.take_of_length_le hn, List.take_length]
  · intro i hi
    rw [← h4 i hi, e, List.length_take]
    omega

/-- **C41** The number of weight classes is the limit only where no analysis has weight zero and no two have the same
weight. -/
theorem C41_classes_partial (lf : List (UString × W)) (ma mc : Int) (res : List (UString × W)) (h : NFinals lf ma mc res)
    (hd : (lf.map (·.2)).Nodup) (h0 : ∀ x ∈ lf, x.2 ≠ 0) (hma : (lf.length : Int) ≤ ma) :
    ((res.map (·.2)).dedup.length : Nat) = min mc.toNat (lf.map (·.2)).dedup.length := by
  obtain ⟨s, h1, h2, e, h3⟩ := C41_exactly lf ma mc res h
  have hs : (s.map (·.2)).Nodup := (h1.map _).nodup_iff.2 hd
  have hres : (res.map (·.2)).Nodup := by
    rw [e]
    exact hs.sublist ((List.take_sublist _ _).map _)
  rw [hres.dedup, hd.dedup, List.length_map, List.length_map, ← h1.length_eq]
  have hle : res.length ≤ s.length := by
    conv_lhs => rw [e]
    rw [List.length_take]; omega
  have hcnt : ∀ i, i ≤ s.length → (s.take i).countP (fun x => x.2 ≠ 0) = i := by
    intro i hi
    rw [List.countP_eq_length.2, List.length_take, Nat.min_eq_left hi]
    intro a ha
    simpa using h0 a (h1.mem_iff.1 (List.mem_of_mem_take ha))
  have hl := h1.length_eq
  rcases Nat.lt_or_ge res.length s.length with hlt | hge
  · have k := h3 res.length hlt
    rw [hcnt _ hle] at k
    have : ¬ (res.length : Int) < mc := by
      intro hc
      have := k.2 ⟨by omega, hc⟩
      omega
    rcases Nat.eq_zero_or_pos res.length with hz | hp
    · omega
    · have k' := h3 (res.length - 1) (by omega)
      rw [hcnt _ (by omega)] at k'
      have := (k'.1 (by omega)).2
      omega
  · rcases Nat.eq_zero_or_pos res.length with hz | hp
    · omega
    · have k' := h3 (res.length - 1) (by omega)
      rw [hcnt _ (by omega)] at k'
      have := (k'.1 (by omega)).2
      omega

end

example : NFinals [([97], 3), ([98], 1), ([99], 2)] 5 2 [([98], 1), ([99], 2)] :=
  ⟨[([98], 1), ([99], 2), ([97], 3)], by decide +kernel, by decide +kernel, by decide +kernel⟩

/-- **C41** The limit on weight classes does not count distinct weights: of three analyses of one weight only one is
returned for a limit of one class, and of three classes beginning with zero two are. -/
theorem C41_classes_false :
    (∀ res, NFinals [([97], 1), ([98], 1), ([99], 1)] 9 1 res → res.length = 1) ∧
    NFinals [([97], 0), ([98], 1), ([99], 2)] 9 1 [([97], 0), ([98], 1)] := by
  refine ⟨?_, [([97], 0), ([98], 1), ([99], 2)], by decide +kernel, by decide +kernel, by decide +kernel⟩
  intro res h
  obtain ⟨s, h1, -, e, h3⟩ := C41_exactly _ _ _ _ h
  have hl : s.length = 3 := h1.length_eq
  have hw : ∀ x ∈ s, x.2 ≠ 0 := by
    intro x hx
    have := h1.mem_iff.1 hx
    simp only [List.mem_cons, List.not_mem_nil, or_false] at this
    rcases this with rfl | rfl | rfl <;> decide
  have k0 := (h3 0 (by omega)).2 ⟨by decide, by simp⟩
  have k1 := h3 1 (by omega)
  have hc : (s.take 1).countP (fun x => x.2 ≠ 0) = 1 := by
    rw [List.countP_eq_length.2]
    · simp [hl]
    · intro a ha
      simpa using hw a (List.mem_of_mem_take ha)
  rw [hc] at k1
  have : ¬ 1 < res.length := fun hh => absurd (k1.1 hh).2 (by decide)
  omega

theorem dedup_spec (sw : W → UString) (l : List (UString × W)) : ∀ seen : List UString, SortedVec.SSorted seen →
    ∃ d : List (UString × W), d.Sublist l ∧ (d.map (·.1)).Nodup ∧ (∀ t ∈ d.map (·.1), t ∉ seen) ∧
      (∀ t, t ∈ d.map (·.1) ↔ t ∈ l.map (·.1) ∧ t ∉ seen) ∧
      (∀ x ∈ d, ∃ pre post, l = pre ++ x :: post ∧ x.1 ∉ pre.map (·.1)) ∧
      dedup sw seen l = d.map fun x => x.1 ++ sw x.2 := by
  induction l with
  | nil => intro seen _; exact ⟨[], List.Sublist.refl _, by simp, by simp, by simp, by simp, rfl⟩
  | cons x l ih =>
    intro seen hs
    obtain ⟨t, w⟩ := x
    obtain ⟨i1, i2, i3⟩ := SortedVec.insert_spec t seen hs
    unfold dedup
    generalize hins : SortedVec.insert t seen = ins at i1 i2 i3 ⊢
    obtain ⟨seen', k, new⟩ := ins
    simp only at i1 i2 i3 ⊢
    obtain ⟨d, d1, d2, d3, d4, d5, d6⟩ := ih seen' i1
    have hnew : new = true ↔ t ∉ seen := i3.1
    by_cases ht : t ∈ seen
    · have hn : new = false := by
        cases new
        · rfl
        · exact absurd ht (hnew.1 rfl)
      rw [hn]
      simp only [Bool.not_false, if_true]
      have hsame : ∀ u, u ∈ seen' ↔ u ∈ seen := by
        intro u
        rw [i2]
        constructor
        · rintro (rfl | h)
          · exact ht
          · exact h
        · exact .inr
      refine ⟨d, d1.cons _, d2, fun u hu => (hsame u).not.1 (d3 u hu), ?_, ?_, d6⟩
      · intro u
        rw [d4, hsame, List.map_cons, List.mem_cons]
        constructor
        · rintro ⟨h1, h2⟩
          exact ⟨.inr h1, h2⟩
        · rintro ⟨rfl | h1, h2⟩
          · exact absurd ht h2
          · exact ⟨h1, h2⟩
      · intro x hx
        obtain ⟨pre, post, e, hp⟩ := d5 x hx
        refine ⟨(t, w) :: pre, post, by rw [e]; rfl, ?_⟩
        rw [List.map_cons, List.mem_cons]
        rintro (rfl | h)
        · exact d3 _ (List.mem_map.2 ⟨x, hx, rfl⟩) ((hsame _).2 ht)
        · exact hp h
    · have hn : new = true := hnew.2 ht
      rw [hn]
      simp only [Bool.not_true, Bool.false_eq_true, if_false]
      refine ⟨(t, w) :: d, d1.cons_cons _, ?_, ?_, ?_, ?_, ?_⟩
      · rw [List.map_cons, List.nodup_cons]
        exact ⟨fun h => d3 _ h ((i2 _).2 (.inl rfl)), d2⟩
      · intro u hu
        rw [List.map_cons, List.mem_cons] at hu
        rcases hu with rfl | hu
        · exact ht
        · exact fun h => d3 u hu ((i2 u).2 (.inr h))
      · intro u
        rw [List.map_cons, List.mem_cons, List.map_cons, List.mem_cons, d4, i2]
        constructor
        · rintro (rfl | ⟨h1, h2⟩)
          · exact ⟨.inl rfl, ht⟩
          · exact ⟨.inr h1, fun h => h2 (.inr h)⟩
        · rintro ⟨rfl | h1, h2⟩
          · exact .inl rfl
          · by_cases e : u = t
            · exact .inl e
            · exact .inr ⟨h1, fun h => h.elim e h2⟩
      · intro x hx
        rcases List.mem_cons.1 hx with rfl | hx
        · exact ⟨[], l, rfl, by simp⟩
        · obtain ⟨pre, post, e, hp⟩ := d5 x hx
          refine ⟨(t, w) :: pre, post, by rw [e]; rfl, ?_⟩
          rw [List.map_cons, List.mem_cons]
          rintro (h | h)
          · exact d3 _ (List.mem_map.2 ⟨x, hx, rfl⟩) ((i2 _).2 (.inl h))
          · exact hp h
      · rw [d6]; rfl

/-- **C41** Of the selected analyses each text is printed once, where it occurs first (so with its smallest weight),
and none is left out. -/
theorem C41_no_duplicates (sw : W → UString) (best : List (UString × W)) :
    ∃ d : List (UString × W), d.Sublist best ∧ (d.map (·.1)).Nodup ∧ (∀ t, t ∈ d.map (·.1) ↔ t ∈ best.map (·.1)) ∧
      (∀ x ∈ d, ∃ pre post, best = pre ++ x :: post ∧ x.1 ∉ pre.map (·.1)) ∧
      dedup sw [] best = d.map fun x => x.1 ++ sw x.2 := by
  obtain ⟨d, d1, d2, -, d4, d5, d6⟩ := dedup_spec sw best [] (SortedVec.SSorted.nil)
  exact ⟨d, d1, d2, fun t => by simpa using d4 t, d5, d6⟩

/-- **C41** When weights are not shown, what is printed has no duplicates. -/
theorem C41_printed (best : List (UString × W)) : (dedup (fun _ : W => []) [] best).Nodup ∧
    ∀ t, t ∈ dedup (fun _ : W => []) [] best ↔ t ∈ best.map (·.1) := by
  obtain ⟨d, -, d2, d3, -, d5⟩ := C41_no_duplicates (fun _ : W => []) best
  have : dedup (fun _ : W => []) [] best = d.map (·.1) := by rw [d5]; simp
  rw [this]
  exact ⟨d2, d3⟩

example : dedup (fun w : Nat => [UInt16.ofNat (48 + w)]) [] [([97], 1), ([98], 1), ([97], 2)] = [[97, 49], [98, 49]] := by decide +kernel

/-- **C41** The limit on the number of analyses does not count distinct analyses: here two are asked for and there are
two different ones, but one is printed. -/
theorem C41_distinct_false : ∀ best, NFinals [([97], 1), ([97], 1), ([98], 2)] 2 9 best → dedup (fun _ : Nat => []) [] best = [[97]] := by
  intro best h
  obtain ⟨s, h1, h2, rfl⟩ := h
  have hl : s.length = 3 := h1.length_eq
  obtain ⟨a, b, c, rfl⟩ : ∃ a b c, s = [a, b, c] := by
    match s, hl with
    | [a, b, c], _ => exact ⟨a, b, c, rfl⟩
  have hm : ∀ x ∈ [a, b, c], x = ([97], 1) ∨ x = ([98], 2) := by
    intro x hx
    have := h1.mem_iff.1 hx
    revert this
    simp
  have hc : [a, b, c].count ([98], 2) = 1 := by
    rw [h1.count_eq]; decide
  rcases hm a (by simp) with rfl | rfl <;> rcases hm b (by simp) with rfl | rfl <;> rcases hm c (by simp) with rfl | rfl <;>
    revert hc h2 <;> decide +kernel

/-- The text of a symbol: nothing, the name of a tag, or a letter in UTF-16. -/
def symText (name : Int → UString) (s : Int) : UString := if s = 0 then [] else if s < 0 then name s else utf16 s.toNat

/-- The text of a sequence, with a backslash before the symbols of a set. -/
def text (name : Int → UString) (escaped : List Int) (seq : List (Int × W)) : UString :=
  seq.flatMap fun x => (if x.1 ∈ escaped then [0x5c] else []) ++ symText name x.1

theorem seqText_eq [AddMonoid W] (up : Int → Int) (a : Alphabet) (name : Int → UString) (escaped : List Int) (seq : List (Int × W))
    (hn : ∀ x ∈ seq, x.1 < 0 → a.tagText x.1 = .ok (name x.1)) (hl : ∀ x ∈ seq, x.1 < 0x110000) (temp : UString) (cost : W) :
    seqText up a escaped false seq temp cost = .ok (temp ++ text name escaped seq, cost + (seq.map (·.2)).sum) := by
  induction seq generalizing temp cost with
  | nil => simp [seqText, text]
  | cons x seq ih =>
    obtain ⟨s, w⟩ := x
    have hs : symbolText up a s false = .ok (symText name s) := by
      unfold symbolText symText
      by_cases h0 : s = 0
      · simp [h0]
      · by_cases h1 : s < 0
        · rw [if_neg h0, if_pos h1, if_neg h0, if_pos h1, hn (s, w) (by simp) h1]
        · have := hl (s, w) (by simp)
          simp only at this
          rw [if_neg h0, if_neg h1, if_neg h0, if_neg h1, if_neg (by simp), Compression.unitsOf_utf16 _ (by omega)]
    rw [seqText, hs]
    simp only [Res.bind_ok]
    rw [ih (fun x hx => hn x (by simp [hx])) (fun x hx => hl x (by simp [hx]))]
    simp only [text, List.flatMap_cons, List.map_cons, List.sum_cons, ← add_assoc]
    congr 2
    split <;> simp

/-- **C41** The analyses that are collected, without case changes: for every alive state at a final node, in order, its
text, and the weight of the final node plus the weights of its sequence. -/
theorem C41_collected [AddMonoid W] (up : Int → Int) (finals : List (Nat × W)) (a : Alphabet) (name : Int → UString) (escaped : List Int)
    (firstchar : Nat) (st : List (Rec W)) (hn : ∀ r ∈ st, ∀ x ∈ r.seq, x.1 < 0 → a.tagText x.1 = .ok (name x.1))
    (hl : ∀ r ∈ st, ∀ x ∈ r.seq, x.1 < 0x110000) :
    responses up finals a escaped false false firstchar st =
      .ok (st.filterMap fun r => (mapFind r.node finals).map fun w => (text name escaped r.seq, w + (r.seq.map (·.2)).sum)) := by
  induction st with
  | nil => rfl
  | cons r st ih =>
    have ih := ih (fun r hr => hn r (by simp [hr])) (fun r hr => hl r (by simp [hr]))
    rw [responses, ih]
    cases hf : mapFind r.node finals with
    | none => simp [hf]
    | some fw =>
      simp only [Bool.and_false]
      rw [seqText_eq up a name escaped r.seq (hn r (by simp)) (hl r (by simp))]
      simp [hf]

example : responses id [(3, 1)] Verif.Alphabet.empty [98] false false 0 [⟨1, [(98, 2)], false⟩, ⟨3, [(98, 2), (0, 4), (97, 3)], true⟩] =
    .ok [([0x5c, 98, 97], 10)] := by decide +kernel

/-- The text of a sequence with the letters mapped by `f`. -/
def mapText (name : Int → UString) (f : Int → Int) (escaped : List Int) (seq : List (Int × W)) : UString :=
  seq.flatMap fun x => (if x.1 ∈ escaped then [0x5c] else []) ++
    (if x.1 = 0 then [] else if x.1 < 0 then name x.1 else utf16 (f x.1).toNat)

/-- `t'` is `t` with the letter at position `k` mapped, or the one after it if there is a `~` at position `k`. -/
def Capital (f : Int → Int) (k : Nat) (t t' : UString) : Prop :=
  (∃ pre c post, pre.length = k ∧ c ≠ 0x7e ∧ t = pre ++ c :: post ∧ t' = pre ++ UInt16.ofNat (f (c.toNat : Int)).toNat :: post) ∨
  (∃ pre c post, pre.length = k ∧ t = pre ++ 0x7e :: c :: post ∧ t' = pre ++ 0x7e :: UInt16.ofNat (f (c.toNat : Int)).toNat :: post)

theorem seqText_map [AddMonoid W] (up : Int → Int) (a : Alphabet) (name : Int → UString) (escaped : List Int) (b : Bool) (seq : List (Int × W))
    (hn : ∀ x ∈ seq, x.1 < 0 → a.tagText x.1 = .ok (name x.1)) (hup : ∀ c, c < 0x110000 → up c < 0x110000) (hl : ∀ x ∈ seq, x.1 < 0x110000)
    (temp : UString) (cost : W) :
    seqText up a escaped b seq temp cost = .ok (temp ++ mapText name (if b then up else id) escaped seq, cost + (seq.map (·.2)).sum) := by
  induction seq generalizing temp cost with
  | nil => simp [seqText, mapText]
  | cons x seq ih =>
    obtain ⟨s, w⟩ := x
    have hs : symbolText up a s b = .ok (if s = 0 then [] else if s < 0 then name s else utf16 ((if b then up else id) s).toNat) := by
      unfold symbolText
      by_cases h0 : s = 0
      · simp [h0]
      · by_cases h1 : s < 0
        · rw [if_neg h0, if_pos h1, if_neg h0, if_pos h1, hn (s, w) (by simp) h1]
        · have h2 := hl (s, w) (by simp)
          have h3 := hup s h2
          simp only at h2
          rw [if_neg h0, if_neg h1, if_neg h0, if_neg h1]
          cases b
          · rw [if_neg (by simp), Compression.unitsOf_utf16 _ (by omega)]; rfl
          · rw [if_pos rfl, Compression.unitsOf_utf16 _ (by omega)]; rfl
    rw [seqText, hs]
    simp only [Res.bind_ok]
    rw [ih (fun x hx => hn x (by simp [hx])) (fun x hx => hl x (by simp [hx]))]
    simp only [mapText, List.flatMap_cons, List.map_cons, List.sum_cons, ← add_assoc]
    congr 2
    split <;> simp

theorem upperFirst_spec (up : Int → Int) (k : Nat) (t : UString) (h1 : k < t.length) (h2 : t[k]? = some 0x7e → k + 1 < t.length) :
    ∃ t', upperFirst up k t = .ok t' ∧ Capital up k t t' := by
  have split : ∀ (i : Nat) (hi : i < t.length), t = t.take i ++ t[i] :: t.drop (i + 1) := by
    intro i hi
    rw [List.getElem_cons_drop, List.take_append_drop]
  have setAt : ∀ (i : Nat) (hi : i < t.length) (c : UInt16), t.set i c = t.take i ++ c :: t.drop (i + 1) := by
    intro i hi c
    rw [List.set_eq_take_append_cons_drop, if_pos hi]
  unfold upperFirst
  rw [if_neg (by omega)]
  simp only
  by_cases hk : t[k]? = some 0x7e
  · have h2 := h2 hk
    rw [if_pos hk, List.getElem?_eq_getElem h2]
    refine ⟨_, rfl, .inr ⟨t.take k, t[k + 1], t.drop (k + 2), by rw [List.length_take]; omega, ?_, ?_⟩⟩
    · have hk' : t[k] = 0x7e := by rw [List.getElem?_eq_getElem h1] at hk; exact Option.some.inj hk
      rw [← hk', List.getElem_cons_drop, List.getElem_cons_drop, List.take_append_drop]
    · have hk' : t[k] = 0x7e := by rw [List.getElem?_eq_getElem h1] at hk; exact Option.some.inj hk
      rw [setAt (k + 1) h2, ← List.take_concat_get (h := h1), hk']
      simp
  · rw [if_neg hk, List.getElem?_eq_getElem h1]
    refine ⟨_, rfl, .inl ⟨t.take k, t[k], t.drop (k + 1), by rw [List.length_take]; omega, ?_, split k h1, setAt k h1 _⟩⟩
    intro hc
    exact hk (by rw [List.getElem?_eq_getElem h1, hc])

/-- **C41** The analyses that are collected, with case changes: only the alive states that were reached through a changed
letter are affected; with `uppercase` all their letters are mapped, and with `firstupper` the first one, or the one after
`~`. The first letter must exist. -/
theorem C41_case [AddMonoid W] (up : Int → Int) (finals : List (Nat × W)) (a : Alphabet) (name : Int → UString) (escaped : List Int)
    (uppercase firstupper : Bool) (k : Nat) (st : List (Rec W)) (hn : ∀ r ∈ st, ∀ x ∈ r.seq, x.1 < 0 → a.tagText x.1 = .ok (name x.1))
    (hup : ∀ c, c < 0x110000 → up c < 0x110000) (hl : ∀ r ∈ st, ∀ x ∈ r.seq, x.1 < 0x110000)
    (hlen : ∀ r ∈ st, (mapFind r.node finals).isSome → r.dirty = true → firstupper = true →
      let t := mapText name (if uppercase then up else id) escaped r.seq
      k < t.length ∧ (t[k]? = some 0x7e → k + 1 < t.length)) :
    ∃ resp, responses up finals a escaped uppercase firstupper k st = .ok resp ∧
      List.Forall₂ (fun r x => ∃ w, mapFind r.node finals = some w ∧ x.2 = w + (r.seq.map (·.2)).sum ∧
        if r.dirty = true then
          (if firstupper then Capital up k (mapText name (if uppercase then up else id) escaped r.seq) x.1
           else x.1 = mapText name (if uppercase then up else id) escaped r.seq)
        else x.1 = mapText name id escaped r.seq) (st.filter fun r => (mapFind r.node finals).isSome) resp := by
  induction st with
  | nil => exact ⟨[], rfl, .nil⟩
  | cons r st ih =>
    obtain ⟨resp, e, h⟩ := ih (fun r hr => hn r (by simp [hr])) (fun r hr => hl r (by simp [hr])) (fun r hr => hlen r (by simp [hr]))
    rw [responses, e]
    cases hf : mapFind r.node finals with
    | none =>
      refine ⟨resp, rfl, ?_⟩
      rw [List.filter_cons_of_neg (by simp [hf])]
      exact h
    | some fw =>
      have hlr := hlen r (by simp) (by simp [hf])
      simp only
      rw [seqText_map up a name escaped _ r.seq (hn r (by simp)) hup (hl r (by simp))]
      simp only [Res.bind_ok, List.nil_append]
      rw [List.filter_cons_of_pos (by simp [hf])]
      cases hd : r.dirty with
      | false =>
        refine ⟨(mapText name id escaped r.seq, fw + (r.seq.map (·.2)).sum) :: resp, by simp, .cons ⟨fw, hf, rfl, by simp [hd]⟩ h⟩
      | true =>
        cases firstupper with
        | false =>
          refine ⟨(mapText name (if uppercase then up else id) escaped r.seq, fw + (r.seq.map (·.2)).sum) :: resp, by simp, .cons ⟨fw, hf, rfl, by simp [hd]⟩ h⟩
        | true =>
          obtain ⟨h1, h2⟩ := hlr hd rfl
          obtain ⟨t', e', hc⟩ := upperFirst_spec up k _ h1 h2
          refine ⟨(t', fw + (r.seq.map (·.2)).sum) :: resp, by simp [e'], .cons ⟨fw, hf, rfl, by simp [hd]; exact hc⟩ h⟩

/-- Upper case of the ASCII letters. -/
def exUp (x : Int) : Int := if 97 ≤ x ∧ x ≤ 122 then x - 32 else x

example : responses exUp [(3, 1)] Verif.Alphabet.empty [] false true 0 [⟨3, [(126, 0), (98, 2), (97, 3)], true⟩, ⟨3, [(98, 2), (97, 3)], false⟩] =
    .ok [([126, 66, 97], 6), ([98, 97], 6)] := by decide +kernel

/-- **C41** The printed form: each analysis after a `/`. It can be split again when no analysis contains one. -/
theorem C41_output (rs : List UString) (h : ∀ r ∈ rs, (0x2f : UInt16) ∉ r) : (joinResults rs).splitOn 0x2f = [] :: rs := by
  have e : joinResults rs = [0x2f].intercalate ([] :: rs) := by
    unfold joinResults
    induction rs with
    | nil => rfl
    | cons r rs ih =>
      rw [List.flatMap_cons, ih (fun x hx => h x (by simp [hx]))]
      cases rs with
      | nil => simp [List.intercalate]
      | cons r' rs => simp [List.intercalate]
  rw [e]
  refine List.splitOn_intercalate 0x2f ?_ (by simp)
  intro l hl
  rcases List.mem_cons.1 hl with rfl | hl
  · simp
  · exact h l hl

example : joinResults [[97], [], [98, 99]] = [0x2f, 97, 0x2f, 0x2f, 98, 99] := by decide

example : seqText id Verif.Alphabet.empty [] false [(0x1f600, (1 : Nat))] [] 0 = .ok ([0xd83d, 0xde00], 1) := by decide +kernel

/-! ## C42 -/

/-- **C42** The last part has the symbol: it is somewhere with no separator after it. -/
theorem C42_last_part (seq : List (Int × W)) (required separation : Int) :
    lastPartHasRequiredSymbol seq required separation = true ↔
      ∃ pre x post, seq = pre ++ x :: post ∧ x.1 = required ∧ ∀ y ∈ post, y.1 ≠ separation := by
  have key : ∀ l : List (Int × W), lastPartLoop required separation l = true ↔
      ∃ pre x post, l = pre ++ x :: post ∧ x.1 = required ∧ ∀ y ∈ pre, y.1 ≠ separation := by
    intro l
    induction l with
    | nil => simp [lastPartLoop]
    | cons a l ih =>
      obtain ⟨s, w⟩ := a
      unfold lastPartLoop
      split
      · next h => exact ⟨fun _ => ⟨[], (s, w), l, rfl, h, by simp⟩, fun _ => rfl⟩
      · next h =>
        split
        · next h' =>
          simp only [Bool.false_eq_true, false_iff]
          rintro ⟨pre, x, post, e, hx, hp⟩
          cases pre with
          | nil =>
            simp only [List.nil_append, List.cons.injEq] at e
            rw [← e.1] at hx
            exact h hx
          | cons b pre =>
            simp only [List.cons_append, List.cons.injEq] at e
            exact hp b (by simp) (by rw [← e.1]; exact h')
        · next h' =>
          rw [ih]
          constructor
          · rintro ⟨pre, x, post, e, hx, hp⟩
            refine ⟨(s, w) :: pre, x, post, by rw [e]; rfl, hx, ?_⟩
            intro y hy
            rcases List.mem_cons.1 hy with rfl | hy
            · exact h'
            · exact hp y hy
          · rintro ⟨pre, x, post, e, hx, hp⟩
            cases pre with
            | nil =>
              simp only [List.nil_append, List.cons.injEq] at e
              rw [← e.1] at hx
              exact absurd hx h
            | cons b pre =>
              simp only [List.cons_append, List.cons.injEq] at e
              exact ⟨pre, x, post, e.2, hx, fun y hy => hp y (by simp [hy])⟩
  unfold lastPartHasRequiredSymbol
  rw [key]
  constructor
  · rintro ⟨pre, x, post, e, hx, hp⟩
    refine ⟨post.reverse, x, pre.reverse, ?_, hx, fun y hy => hp y (by simpa using hy)⟩
    rw [← List.reverse_reverse seq, e]
    simp
  · rintro ⟨pre, x, post, e, hx, hp⟩
    refine ⟨post.reverse, x, pre.reverse, ?_, hx, fun y hy => hp y (by simpa using hy)⟩
    rw [e]
    simp

/-- The number of separators strictly inside a sequence. -/
def separators (separation : Int) (seq : List (Int × W)) : Nat := ((seq.drop 1).dropLast.map (·.1)).count separation

theorem countSeparators_eq (seq : List (Int × W)) (sep : Int) : ∀ j, j + 1 ≤ seq.length → countSeparators seq sep j = (((seq.take (j + 1)).drop 1).map (·.1)).count sep := by
  intro j
  induction j with
  | zero => intro h; simp [countSeparators]
  | succ j ih =>
    intro h
    rw [countSeparators, ih (by omega)]
    have hj : j + 1 < seq.length := by omega
    have : (seq.take (j + 1 + 1)).drop 1 = (seq.take (j + 1)).drop 1 ++ [seq[j + 1]] := by
      rw [List.take_succ_eq_append_getElem hj, List.drop_append_of_le_length (by simp; omega)]
    rw [this, List.map_append, List.count_append, List.getElem?_eq_getElem hj]
    simp only [Option.map_some, Option.some.injEq, List.map_cons, List.map_nil, List.count_singleton, beq_iff_eq]
    omega

theorem countSeparators_all (seq : List (Int × W)) (sep : Int) : countSeparators seq sep (seq.length - 2) = separators sep seq := by
  unfold separators
  match seq with
  | [] => rfl
  | [a] => rfl
  | a :: b :: t =>
    have hd : (a :: b :: t).drop 1 = b :: t := rfl
    rw [countSeparators_eq _ _ _ (by simp), hd, List.dropLast_eq_take, List.drop_take]
    simp

/-- **C42** `pruneCompounds` keeps, in order, exactly the states whose last part has the required symbol and that have
the smallest number of separators inside, if that is not over the limit. -/
theorem C42_prune (required separation maxElements : Int) (hmax : maxElements < 2147483647) (st : List (Rec W)) :
    ∃ keep : Rec W → Bool, pruneCompounds required separation maxElements st = st.filter keep ∧
      ∀ r ∈ st, (keep r = true ↔ lastPartHasRequiredSymbol r.seq required separation = true ∧
        (separators separation r.seq : Int) ≤ maxElements ∧
        ∀ r' ∈ st, lastPartHasRequiredSymbol r'.seq required separation = true → separators separation r.seq ≤ separators separation r'.seq) := by
  have key : ∀ (l : List (Rec W)) (m : Int), m ≤ maxElements →
      let res := l.foldl (fun m r =>
        if lastPartHasRequiredSymbol r.seq required separation then
          (if m < compoundElements required separation r then m else compoundElements required separation r)
        else m) m
      res ≤ maxElements ∧ ∀ n : Int, n ≤ res ↔ n ≤ m ∧ ∀ r' ∈ l, lastPartHasRequiredSymbol r'.seq required separation = true → n ≤ (separators separation r'.seq : Int) := by
    intro l
    induction l with
    | nil => intro m hm; simpa using hm
    | cons r l ih =>
      intro m hm
      simp only [List.foldl_cons]
      by_cases hr : lastPartHasRequiredSymbol r.seq required separation = true
      · have he : compoundElements required separation r = (separators separation r.seq : Int) := by
          unfold compoundElements
          rw [if_pos hr, countSeparators_all]
        rw [if_pos hr, he]
        obtain ⟨h1, h2⟩ := ih (if m < (separators separation r.seq : Int) then m else (separators separation r.seq : Int)) (by split <;> omega)
        refine ⟨h1, ?_⟩
        intro n
        rw [h2 n]
        constructor
        · rintro ⟨h3, h4⟩
          refine ⟨by split at h3 <;> omega, ?_⟩
          intro r' hr' hq
          rcases List.mem_cons.1 hr' with rfl | hr'
          · split at h3 <;> omega
          · exact h4 r' hr' hq
        · rintro ⟨h3, h4⟩
          refine ⟨?_, fun r' hr' => h4 r' (by simp [hr'])⟩
          have := h4 r (by simp) hr
          split <;> omega
      · rw [if_neg hr]
        obtain ⟨h1, h2⟩ := ih m hm
        refine ⟨h1, ?_⟩
        intro n
        rw [h2 n]
        constructor
        · rintro ⟨h3, h4⟩
          refine ⟨h3, ?_⟩
          intro r' hr' hq
          rcases List.mem_cons.1 hr' with rfl | hr'
          · exact absurd hq hr
          · exact h4 r' hr' hq
        · rintro ⟨h3, h4⟩
          exact ⟨h3, fun r' hr' => h4 r' (by simp [hr'])⟩
  obtain ⟨h1, h2⟩ := key st maxElements le_rfl
  refine ⟨_, rfl, ?_⟩
  intro r hr
  simp only [decide_eq_true_eq, not_lt]
  by_cases hq : lastPartHasRequiredSymbol r.seq required separation = true
  · have he : compoundElements required separation r = (separators separation r.seq : Int) := by
      unfold compoundElements
      rw [if_pos hq, countSeparators_all]
    rw [he, h2]
    simp only [hq, true_and]
    refine and_congr_right fun _ => forall_congr' fun r' => forall_congr' fun _ => forall_congr' fun _ => ?_
    exact Int.ofNat_le
  · have he : compoundElements required separation r = 2147483647 := by
      unfold compoundElements
      rw [if_neg hq]; rfl
    rw [he]
    constructor
    · intro h; omega
    · rintro ⟨h, -⟩; exact absurd h hq

example : pruneCompounds 1 2 4 [(⟨0, [(5, 0), (2, 0), (1, 0)], false⟩ : Rec Nat), ⟨0, [(1, 0), (5, 0)], false⟩, ⟨0, [(5, 0), (6, 0)], false⟩] =
    [⟨0, [(1, 0), (5, 0)], false⟩] := by decide +kernel

/-- **C42** With the limit at the largest `int`, states without the required symbol may stay. -/
theorem C42_limit_false : pruneCompounds 1 2 2147483647 [(⟨0, [(5, 0)], false⟩ : Rec Nat)] = [⟨0, [(5, 0)], false⟩] ∧
    lastPartHasRequiredSymbol [((5 : Int), (0 : Nat))] 1 2 = false := by decide +kernel

/-- **C42** Separators at the ends of a sequence do not count as compound elements. -/
theorem C42_ends_false : pruneCompounds 1 2 0 [(⟨0, [(2, 0), (1, 0)], false⟩ : Rec Nat)] = [⟨0, [(2, 0), (1, 0)], false⟩] := by decide +kernel

/-- **C42** `pruneStatesWithForbiddenSymbol` keeps, in order, exactly the states whose sequence does not have the symbol. -/
theorem C42_forbidden (forbidden : Int) (st : List (Rec W)) :
    (pruneForbidden forbidden st).Sublist st ∧ (∀ r, r ∈ pruneForbidden forbidden st ↔ r ∈ st ∧ ∀ w, (forbidden, w) ∉ r.seq) ∧
      hasSymbol forbidden (pruneForbidden forbidden st) = false := by
  have hm : ∀ r, r ∈ pruneForbidden forbidden st ↔ r ∈ st ∧ ∀ w, (forbidden, w) ∉ r.seq := by
    intro r
    unfold pruneForbidden
    rw [List.mem_filter]
    refine and_congr_right fun _ => ?_
    simp only [List.any_eq_true, decide_eq_true_eq, not_exists, not_and]
    constructor
    · intro h w hw
      exact h _ hw rfl
    · rintro h ⟨s, w⟩ hx rfl
      exact h w hx
  refine ⟨List.filter_sublist, hm, ?_⟩
  unfold hasSymbol
  rw [List.any_eq_false]
  intro r hr
  simp only [List.any_eq_true, decide_eq_true_eq, not_exists, not_and]
  rintro ⟨s, w⟩ hx rfl
  exact ((hm r).1 hr).2 w hx

/-- The restarted copies of a state. -/
def restarts [Zero W] (restart : List (Rec W)) (separation : Int) (r : Rec W) : List (Rec W) :=
  restart.map fun s => ⟨s.node, r.seq ++ [(separation, 0)], r.dirty⟩

/-- **C42** `restartFinals` adds, for every alive state at a final node whose last part has the required symbol, one
state for every initial state, and nothing else, if the two symbols differ. -/
theorem C42_restart [Zero W] (finals : List (Nat × W)) (required separation : Int) (hne : required ≠ separation) (restart st : List (Rec W)) :
    ∃ fuel, restartFinals finals required restart separation fuel st =
      some (st ++ (st.filter fun r => (mapFind r.node finals).isSome && lastPartHasRequiredSymbol r.seq required separation).flatMap
        (restarts restart separation)) := by
  let ok : Rec W → Bool := fun r => (mapFind r.node finals).isSome && lastPartHasRequiredSymbol r.seq required separation
  have hno : ∀ r s, s ∈ restarts restart separation r → ok s = false := by
    intro r s hs
    obtain ⟨s0, -, rfl⟩ := List.mem_map.1 hs
    have : lastPartHasRequiredSymbol (r.seq ++ [(separation, (0 : W))]) required separation = false := by
      unfold lastPartHasRequiredSymbol
      rw [List.reverse_append]
      simp only [List.reverse_cons, List.reverse_nil, List.nil_append, List.singleton_append, lastPartLoop]
      rw [if_neg (Ne.symm hne), if_pos trivial]
    simp [ok, this]
  have tail : ∀ fuel i (l : List (Rec W)), (∀ s ∈ l.drop i, ok s = false) → l.length - i ≤ fuel → restartLoop finals required restart separation fuel i l = some l := by
    intro fuel
    induction fuel with
    | zero =>
      intro i l _ h
      unfold restartLoop
      rw [List.getElem?_eq_none (by omega)]
    | succ fuel ih =>
      intro i l hl h
      unfold restartLoop
      by_cases hi : i < l.length
      · rw [List.getElem?_eq_getElem hi]
        simp only
        have : ok l[i] = false := hl _ (by rw [List.drop_eq_getElem_cons hi]; exact List.mem_cons_self)
        have h' : ¬ ((mapFind l[i].node finals).isSome && lastPartHasRequiredSymbol l[i].seq required separation) = true := by
          intro hh
          rw [show ok l[i] = true from hh] at this
          cases this
        rw [if_neg h']
        refine ih _ _ ?_ (by omega)
        intro s hs
        refine hl s ?_
        rw [List.drop_eq_getElem_cons hi]
        exact List.mem_cons_of_mem _ hs
      · rw [List.getElem?_eq_none (by omega)]
  have main : ∀ (rest done added : List (Rec W)), (∀ s ∈ added, ok s = false) →
      ∃ fuel, restartLoop finals required restart separation fuel done.length (done ++ rest ++ added) =
        some (done ++ rest ++ added ++ (rest.filter ok).flatMap (restarts restart separation)) := by
    intro rest
    induction rest with
    | nil =>
      intro done added hadd
      refine ⟨added.length, ?_⟩
      rw [List.append_nil]
      simp only [List.filter_nil, List.flatMap_nil, List.append_nil]
      refine tail _ _ _ ?_ (by simp)
      rw [List.drop_left']
      · exact hadd
      · rfl
    | cons r rest ih =>
      intro done added hadd
      have hget : (done ++ r :: rest ++ added)[done.length]? = some r := by
        rw [List.append_assoc, List.getElem?_append_right le_rfl]
        simp
      by_cases hr : ok r = true
      · obtain ⟨fuel, hf⟩ := ih (done ++ [r]) (added ++ restarts restart separation r) (by
          intro s hs
          rcases List.mem_append.1 hs with hs | hs
          · exact hadd s hs
          · exact hno r s hs)
        refine ⟨fuel + 1, ?_⟩
        unfold restartLoop
        rw [hget]
        simp only
        rw [if_pos hr]
        simp only [List.length_append, List.length_cons, List.length_nil, List.append_assoc, List.cons_append, List.nil_append, Nat.zero_add] at hf ⊢
        rw [List.filter_cons_of_pos hr, List.flatMap_cons]
        exact hf
      · obtain ⟨fuel, hf⟩ := ih (done ++ [r]) added hadd
        refine ⟨fuel + 1, ?_⟩
        unfold restartLoop
        rw [hget]
        simp only
        rw [if_neg hr, List.filter_cons_of_neg hr]
        simp only [List.length_append, List.length_cons, List.length_nil, List.append_assoc, List.cons_append, List.nil_append, Nat.zero_add] at hf ⊢
        exact hf
  obtain ⟨fuel, h⟩ := main st [] [] (by simp)
  refine ⟨fuel, ?_⟩
  simp only [List.nil_append, List.append_nil, List.length_nil] at h
  exact h

example : restartFinals [(3, 0)] 1 [(⟨7, [], false⟩ : Rec Nat), ⟨8, [], false⟩] 2 9 [⟨3, [(1, 4)], true⟩, ⟨4, [(1, 4)], true⟩] =
    some [⟨3, [(1, 4)], true⟩, ⟨4, [(1, 4)], true⟩, ⟨7, [(1, 4), (2, 0)], true⟩, ⟨8, [(1, 4), (2, 0)], true⟩] := by decide +kernel

/-- **C42** If the required symbol were the separator, `restartFinals` would not end. -/
theorem C42_restart_false : ∀ fuel, restartFinals [(0, 0)] 1 [(⟨0, [], false⟩ : Rec Nat)] 1 fuel [⟨0, [(1, 0)], false⟩] = none := by
  have key : ∀ fuel i (l : List (Rec Nat)), i < l.length → (∀ s ∈ l, s.node = 0 ∧ s.seq ≠ [] ∧ ∀ x ∈ s.seq, x.1 = 1) →
      restartLoop [(0, 0)] 1 [(⟨0, [], false⟩ : Rec Nat)] 1 fuel i l = none := by
    intro fuel
    induction fuel with
    | zero =>
      intro i l h _
      unfold restartLoop
      rw [List.getElem?_eq_getElem h]
    | succ fuel ih =>
      intro i l h hl
      unfold restartLoop
      rw [List.getElem?_eq_getElem h]
      simp only
      obtain ⟨h1, h2, h3⟩ := hl _ (List.getElem_mem h)
      have hq : ((mapFind l[i].node [(0, 0)]).isSome && lastPartHasRequiredSymbol l[i].seq 1 1) = true := by
        rw [h1]
        simp only [Bool.and_eq_true]
        refine ⟨rfl, ?_⟩
        rw [C42_last_part]
        refine ⟨l[i].seq.dropLast, l[i].seq.getLast h2, [], (List.dropLast_append_getLast h2).symm, h3 _ (List.getLast_mem h2), by simp⟩
      rw [if_pos hq]
      refine ih _ _ (by simp; omega) ?_
      intro s hs
      rcases List.mem_append.1 hs with hs | hs
      · exact hl s hs
      · rw [List.map_cons, List.map_nil, List.mem_singleton] at hs
        subst hs
        refine ⟨rfl, by simp, ?_⟩
        intro x hx
        rcases List.mem_append.1 hx with hx | hx
        · exact h3 x hx
        · rw [List.mem_singleton.1 hx]
  intro fuel
  exact key fuel 0 _ (by simp) (by simp)

end Verif.State
