import Verif.Post.Out
import Verif.Post.Source

/-! # The loop -/

namespace Verif.Post

open Verif.State Verif.Stream Verif.Walk

variable {W : Type} {σ : Setting W} {name : Int → UString}

/-! ## Cases -/

/-- The symbols `xs` have been read since the last start. -/
structure Seen (σ : Setting W) (xs : List Int) (l : Loc W) : Prop where
  cur : Sound σ xs l.cur
  haveFirst : l.haveFirst = !(caps σ xs).isEmpty
  haveSecond : l.haveSecond = ((caps σ xs)[0]? == some false || decide (2 ≤ (caps σ xs).length))
  firstupper : l.firstupper = first σ xs
  uppercase : l.uppercase = upper σ xs

theorem caps_concat (xs : List Int) (x : Int) : caps σ (xs ++ [x]) = caps σ xs ++ if σ.isAlphabetic x then [σ.isUpper x] else [] := by
  unfold caps
  rw [List.filter_append, List.map_append]
  congr 1
  by_cases h : σ.isAlphabetic x <;> simp [h]

theorem cases_seen {xs : List Int} {l : Loc W} (h : Seen σ xs l) (x : Int) {st : List (Rec W)} (hst : Sound σ (xs ++ [x]) st) :
    Seen σ (xs ++ [x]) { cases σ x l with cur := st } := by
  obtain ⟨-, h1, h2, h3, h4⟩ := h
  unfold upper at h4
  unfold first at h3 h4
  refine ⟨hst, ?_, ?_, ?_, ?_⟩
  all_goals
    unfold cases
    simp only [first, upper, caps_concat]
    rw [h1, h2]
    generalize caps σ xs = cs at *
    cases ha : σ.isAlphabetic x
    · simp_all
    · match cs with
      | [] => cases hu : σ.isUpper x <;> simp_all
      | [true] => cases hu : σ.isUpper x <;> simp_all
      | [false] => cases hu : σ.isUpper x <;> simp_all
      | true :: c :: cs => cases hu : σ.isUpper x <;> simp_all
      | false :: c :: cs => cases hu : σ.isUpper x <;> simp_all

/-! ## The queue -/

/-- As many blanks as spaces, and one before the word. -/
structure Normal (σ : Setting W) (name : Int → UString) (diff : Int) (f : Front) : Prop where
  blanks : f.blanks ≠ []
  spaces : (spaces f.word : Int) = f.blanks.length - 1 + diff
  known : ∀ x ∈ f.word, Known σ name x

theorem frontOf_normal [LinearOrder W] (hr : Regular σ name) {w : Word} (h : w.WF σ) : Normal σ name 0 (frontOf σ.alphabet w) ∧ (frontOf σ.alphabet w).word ≠ [] := by
  refine ⟨⟨by simp [frontOf], ?_, front_known hr h.parts⟩, ?_⟩
  · have := front_spaces hr h.parts
    simp only [frontOf, List.length_cons]
    rw [this]
    push_cast
    omega
  · simp only [frontOf, ne_eq, List.map_eq_nil_iff]
    exact h.nonempty

theorem join_normal {diff : Int} {f g : Front} (hf : Normal σ name diff f) (hg : Normal σ name 0 g) : Normal σ name diff (join f g) := by
  refine ⟨?_, ?_, ?_⟩
  · simp only [join, ne_eq, List.append_eq_nil_iff]
    exact fun h => hf.blanks h.1
  · have h1 := hf.spaces
    have h2 := hg.spaces
    simp only [join, Post.spaces, List.count_append, List.count_cons_self, List.length_append] at h1 h2 ⊢
    push_cast
    omega
  · intro x hx
    simp only [join, List.mem_append, List.mem_cons] at hx
    rcases hx with hx | rfl | hx
    · exact hf.known x hx
    · exact .inr (.inl ⟨by omega, by omega⟩)
    · exact hg.known x hx

theorem gather_normal {diff : Int} (n : Nat) (f : Front) (qs : List Front) (hf : Normal σ name diff f) (hq : ∀ q ∈ qs, Normal σ name 0 q ∧ q.word ≠ []) :
    Normal σ name diff (gather n f qs).1 ∧ (∀ q ∈ (gather n f qs).2, Normal σ name 0 q ∧ q.word ≠ []) ∧ f.word.length ≤ (gather n f qs).1.word.length := by
  induction qs generalizing f with
  | nil => exact ⟨hf, by simp [gather], Nat.le_refl _⟩
  | cons q qs ih =>
    by_cases hn : n ≤ f.word.length
    · rw [gather_id hn]
      exact ⟨hf, hq, Nat.le_refl _⟩
    · rw [gather_more (by omega)]
      obtain ⟨h1, h2, h3⟩ := ih (join f q) (join_normal hf (hq q (by simp)).1) fun q hq' => hq q (by simp [hq'])
      refine ⟨h1, h2, ?_⟩
      simp only [join, List.length_append] at h3 ⊢
      omega

/-- The words in the queue, and what has not been read. -/
structure Held (σ : Setting W) (name : Int → UString) (last : Blank) (tail : Option (List Nat)) (fs : List Front) (us : List Word) (extra : List UString) (t : Tl) : Prop where
  queue : t.queue = fs.map Front.word
  wblanks : t.wblanks = fs.map fun f => markText f.mark
  blanks : t.blanks = fs.flatMap Front.blanks ++ extra
  src : Src σ last tail us t.inp extra

/-! ## Matches -/

section
variable [Add W] [Zero W] [LE W]

/-- The longest match with fewer than `b` symbols: what is kept of it. -/
inductive Found (σ : Setting W) (name : Int → UString) (f : Front) (s : Nat) (rest : List Front) (b : Nat) : UString → Nat → Front → List Front → Prop
  | none {mp} (h : ∀ j < b, ∀ m, ¬ Match σ (((ahead f rest).drop s).take j) m) : Found σ name f s rest b [] mp f rest
  | within {k m} (hk : k < b) (hm : Match σ (((ahead f rest).drop s).take k) m) (hg : ∀ y ∈ m, Good σ name y)
    (h : ∀ j, k < j → j < b → ∀ m', ¬ Match σ (((ahead f rest).drop s).take j) m') (he : ¬ Edge f s rest k m) :
    Found σ name f s rest b (0x2f :: text name m) (s + k) (gather (s + k) f rest).1 (gather (s + k) f rest).2
  | upto {k m} (hk : k < b) (hm : Match σ (((ahead f rest).drop s).take k) m) (hg : ∀ y ∈ m, Good σ name y)
    (h : ∀ j, k < j → j < b → ∀ m', ¬ Match σ (((ahead f rest).drop s).take j) m') (he : Edge f s rest k m) :
    Found σ name f s rest b (0x2f :: text name m.dropLast) (s + (k - 1)) (gather (s + (k - 1)) f rest).1 (gather (s + (k - 1)) f rest).2

theorem Found.gathered {f : Front} {s : Nat} {rest : List Front} {b : Nat} {last : UString} {mp : Nat} {g : Front} {R : List Front}
    (h : Found σ name f s rest b last mp g R) : ∃ n, n ≤ s + (b - 1) ∧ (g, R) = gather n f rest := by
  cases h with
  | none h => exact ⟨0, by omega, by rw [gather_id (by omega)]⟩
  | within hk => exact ⟨s + _, by omega, rfl⟩
  | upto hk => exact ⟨s + (_ - 1), by omega, rfl⟩

/-- No match of this length. -/
theorem Found.skip {f : Front} {s : Nat} {rest : List Front} {b : Nat} {last : UString} {mp : Nat} {g : Front} {R : List Front}
    (h : Found σ name f s rest b last mp g R) (hb : ∀ m, ¬ Match σ (((ahead f rest).drop s).take b) m) : Found σ name f s rest (b + 1) last mp g R := by
  have key : ∀ j, ¬ j < b → j < b + 1 → ∀ m', ¬ Match σ (((ahead f rest).drop s).take j) m' := by
    intro j h1 h2
    rw [show j = b by omega]
    exact hb
  cases h with
  | none h => exact .none fun j hj => if h1 : j < b then h j h1 else key j h1 hj
  | within hk hm hg h he => exact .within (by omega) hm hg (fun j h1 h2 => if h3 : j < b then h j h1 h3 else key j h3 h2) he
  | upto hk hm hg h he => exact .upto (by omega) hm hg (fun j h1 h2 => if h3 : j < b then h j h1 h3 else key j h3 h2) he

/-- The search from position `s` of a word has come `k` symbols far, and matches with fewer than `b` symbols have been found. -/
structure Place (σ : Setting W) (name : Int → UString) (last : Blank) (tail : Option (List Nat)) (f : Front) (s : Nat) (rest : List Front)
    (g : Front) (qs : List Front) (us : List Word) (extra : List UString) (k b : Nat) (t : Tl) (l : Loc W) : Prop where
  held : Held σ name last tail (g :: qs) us extra t
  found : Found σ name f s rest b l.last l.matchPos g (qs ++ us.map (frontOf σ.alphabet))
  valid : Valid ((g :: qs).map Front.word) l.curWord l.curPos
  off : offset ((g :: qs).map Front.word) l.curWord l.curPos = s + k
  start : l.startPos = s
  inside : s < f.word.length
  front : Normal σ name l.diff g
  others : ∀ q ∈ qs, Normal σ name 0 q ∧ q.word ≠ []

theorem Place.ahead {last : Blank} {tail : Option (List Nat)} {f : Front} {s : Nat} {rest : List Front} {g : Front} {qs : List Front} {us : List Word}
    {extra : List UString} {k b : Nat} {t : Tl} {l : Loc W} (h : Place σ name last tail f s rest g qs us extra k b t l) :
    Post.ahead f rest = flat ((g :: qs).map Front.word) ++ (us.map (frontOf σ.alphabet)).flatMap fun g => 0x20 :: g.word := by
  obtain ⟨n, -, h1⟩ := h.found.gathered
  have h2 := ahead_gather n f rest
  rw [← h1] at h2
  simp only at h2
  rw [← h2, ahead_append, ahead_flat]

theorem gather_grows (n : Nat) (f : Front) (qs : List Front) : f.word.length ≤ (gather n f qs).1.word.length := by
  induction qs generalizing f with
  | nil => exact Nat.le_refl _
  | cons q qs ih =>
    by_cases hn : n ≤ f.word.length
    · rw [gather_id hn]
    · rw [gather_more (by omega)]
      have := ih (join f q)
      simp only [join, List.length_append] at this ⊢
      omega

theorem Place.le {last : Blank} {tail : Option (List Nat)} {f : Front} {s : Nat} {rest : List Front} {g : Front} {qs : List Front} {us : List Word}
    {extra : List UString} {k b : Nat} {t : Tl} {l : Loc W} (h : Place σ name last tail f s rest g qs us extra k b t l) :
    s < g.word.length ∧ s + k ≤ (flat ((g :: qs).map Front.word)).length ∧ (flat ((g :: qs).map Front.word)).length ≤ (Post.ahead f rest).length := by
  refine ⟨?_, ?_, ?_⟩
  · obtain ⟨n, -, h1⟩ := h.found.gathered
    have := gather_grows n f rest
    rw [← h1] at this
    simp only at this
    have := h.inside
    omega
  · rw [← h.off]
    exact offset_le h.valid
  · rw [h.ahead, List.length_append]
    omega

end

section
variable [AddMonoid W] [LinearOrder W]

theorem note_ok (hr : Regular σ name) {last : Blank} {tail : Option (List Nat)} {f : Front} {s : Nat} {rest : List Front} {g : Front} {qs : List Front} {us : List Word}
    {extra : List UString} {k : Nat} {t : Tl} {l : Loc W} (h : Place σ name last tail f s rest g qs us extra k k t l)
    (hs : Seen σ (((ahead f rest).drop s).take k) l) :
    ∃ t' l' g' qs', note σ t l = .ok (t', l') ∧ Place σ name last tail f s rest g' qs' us extra k (k + 1) t' l' ∧
      Seen σ (((ahead f rest).drop s).take k) l' ∧ t'.out = t.out := by
  unfold note
  by_cases hfin : isFinal σ.finals l.cur = true
  · rw [if_pos hfin]
    obtain ⟨m, h1, h2, h3⟩ := results_ok hr hs.cur hfin
    rw [hs.firstupper, hs.uppercase, h3]
    simp only [Res.bind_ok]
    have e1 : joinResults [text name m] = 0x2f :: text name m := by simp [joinResults]
    rw [e1, h.held.queue, h.held.wblanks]
    obtain ⟨j1, j2, j3⟩ := joinWords_ok l.curWord g qs l.curPos l.matchPos (0x2f :: text name m) (by simp) h.valid
    simp only [h.off] at j1 j2 j3
    obtain ⟨hsg, hsk, hsa⟩ := h.le
    obtain ⟨n, hn, hgr⟩ := h.found.gathered
    have hcomp : ∀ i, n ≤ i → i ≤ s + k → gather i f rest = ((gather i g qs).1, (gather i g qs).2 ++ us.map (frontOf σ.alphabet)) := by
      intro i hi hi2
      have e2 := gather_gather hi f rest
      rw [← hgr] at e2
      simp only at e2
      rw [← e2, gather_append]
      rw [ahead_flat]
      omega
    have hedge : (0 < l.curWord ∧ l.curPos = 0 ∧ (0x2f :: text name m).getLast? = some 0x20) ↔ Edge f s rest k m := by
      rw [text_space h2]
      have hpos : 0 < l.curWord → 0 < k := by
        intro h0
        have := h.off
        obtain ⟨c, hc⟩ := Nat.exists_eq_succ_of_ne_zero (Nat.ne_of_gt h0)
        rw [hc] at this
        simp only [List.map_cons, offset] at this
        omega
      constructor
      · rintro ⟨h4, h5, h6⟩
        have hk := hpos h4
        refine ⟨hk, ?_, h6⟩
        rw [hcomp _ (by omega) (by omega)]
        exact (j1 ⟨h4, h5, (text_space h2).2 h6⟩).1
      · rintro ⟨h4, h5, h6⟩
        rw [hcomp _ (by omega) (by omega)] at h5
        simp only at h5
        rcases Nat.eq_zero_or_pos l.curWord with h0 | h0
        · exfalso
          obtain ⟨w, hv1, hv2⟩ := h.valid
          have ho := h.off
          rw [h0] at hv1 ho
          simp only [List.map_cons, List.getElem?_cons_zero, Option.some.injEq] at hv1
          subst hv1
          have ho : l.curPos = s + k := by rw [← ho]; simp [offset]
          rw [gather_id (by omega)] at h5
          simp only at h5
          omega
        · refine ⟨h0, ?_, h6⟩
          rcases Nat.eq_zero_or_pos l.curPos with h7 | h7
          · exact h7
          · exact absurd h5 (j3 h0 h7)
    by_cases he : Edge f s rest k m
    · obtain ⟨h4, h5, h6, h7⟩ := j1 (hedge.2 he)
      have hk := he.1
      have e3 : s + k - 1 = s + (k - 1) := by omega
      rw [h6]
      simp only [Res.bind_ok]
      refine ⟨_, _, (gather (s + k - 1) g qs).1, (gather (s + k - 1) g qs).2, rfl, ?_, ?_, rfl⟩
      · obtain ⟨n1, n2, n3⟩ := gather_normal (s + k - 1) g qs h.front h.others
        have hg := hcomp (s + k - 1) (by omega) (by omega)
        refine ⟨⟨rfl, rfl, ?_, h.held.src⟩, ?_, ?_, ?_, h.start, h.inside, n1, n2⟩
        · show t.blanks = _
          rw [gather_blanks, h.held.blanks]
        · have := Found.upto (σ := σ) (name := name) (b := k + 1) (by omega) h1 h2 (fun j h8 h9 => by omega) he
          rw [← e3, hg] at this
          rw [text_dropLast he.2.2]
          exact this
        · obtain ⟨q, qs', hq⟩ := List.exists_cons_of_ne_nil h7
          exact ⟨q.word, by simp [hq], by simp⟩
        · simp only [List.map_cons, offset]
          rw [h4]
          have : ∀ ws : List (List Int), offset ws 0 0 = 0 := fun ws => by cases ws <;> rfl
          rw [this]
          omega
      · exact ⟨hs.cur, hs.haveFirst, hs.haveSecond, rfl, rfl⟩
    · have h6 := j2 (fun h => he (hedge.1 h))
      rw [h6]
      simp only [Res.bind_ok]
      refine ⟨_, _, (gather (s + k) g qs).1, (gather (s + k) g qs).2, rfl, ?_, ?_, rfl⟩
      · obtain ⟨n1, n2, n3⟩ := gather_normal (s + k) g qs h.front h.others
        have hg := hcomp (s + k) (by omega) (by omega)
        refine ⟨⟨rfl, rfl, ?_, h.held.src⟩, ?_, ?_, ?_, h.start, h.inside, n1, n2⟩
        · show t.blanks = _
          rw [gather_blanks, h.held.blanks]
        · have := Found.within (σ := σ) (name := name) (b := k + 1) (by omega) h1 h2 (fun j h8 h9 => by omega) he
          rw [hg] at this
          exact this
        · refine ⟨(gather (s + k) g qs).1.word, by simp, ?_⟩
          have e4 : s + k ≤ (Post.ahead g qs).length := by rw [ahead_flat]; exact hsk
          exact gather_length e4
        · simp [offset]
      · exact ⟨hs.cur, hs.haveFirst, hs.haveSecond, rfl, rfl⟩
  · rw [if_neg hfin]
    refine ⟨t, l, g, qs, rfl, ⟨h.held, h.found.skip ?_, h.valid, h.off, h.start, h.inside, h.front, h.others⟩, hs, rfl⟩
    intro m hm
    exact hfin ((isFinal_match hr hs.cur).2 ⟨m, hm⟩)

theorem flat_append (g : Front) (qs us : List Front) :
    flat ((g :: (qs ++ us)).map Front.word) = flat ((g :: qs).map Front.word) ++ us.flatMap fun g => 0x20 :: g.word := by
  simp [flat, List.flatMap_map]

theorem nextSym_ok (hr : Regular σ name) {last : Blank} {tail : Option (List Nat)} {f : Front} {s : Nat} {rest : List Front} {g : Front} {qs : List Front} {us : List Word}
    {extra : List UString} {k : Nat} {t : Tl} {l : Loc W} (h : Place σ name last tail f s rest g qs us extra k (k + 1) t l) :
    (∃ x t' cw cp qs' us' extra', ((ahead f rest).drop s)[k]? = some x ∧ nextSym σ t l = .ok (x, false, t', { l with curWord := cw, curPos := cp }) ∧
      Place σ name last tail f s rest g qs' us' extra' (k + 1) (k + 1) t' { l with curWord := cw, curPos := cp } ∧ t'.out = t.out) ∨
    (∃ t' extra', ((ahead f rest).drop s).length = k ∧ us = [] ∧ nextSym σ t l = .ok (0, true, t', l) ∧
      Place σ name last tail f s rest g qs us extra' k (k + 1) t' l ∧ t'.out = t.out) := by
  obtain ⟨w, hv1, hv2⟩ := h.valid
  obtain ⟨hsg, hsk, hsa⟩ := h.le
  have ha := h.ahead
  unfold nextSym
  rw [h.held.queue, hv1]
  simp only
  rcases Nat.lt_or_eq_of_le hv2 with hlt | heq
  · left
    have hx : w[l.curPos]? = some w[l.curPos] := List.getElem?_eq_getElem hlt
    have ho := offset_get hv1 hx
    rw [h.off] at ho
    refine ⟨w[l.curPos], t, l.curWord, l.curPos + 1, qs, us, extra, ?_, ?_, ⟨h.held, h.found, ⟨w, hv1, hlt⟩, ?_, h.start, h.inside, h.front, h.others⟩, rfl⟩
    · rw [List.getElem?_drop, ha, List.getElem?_append_left (by
        obtain ⟨h1, -⟩ := List.getElem?_eq_some_iff.1 ho
        exact h1)]
      exact ho
    · rw [hx]
    · have hadd : ∀ (ws : List (List Int)) (cw cp : Nat), offset ws cw (cp + 1) = offset ws cw cp + 1 := by
        intro ws cw cp
        induction cw generalizing ws with
        | zero => cases ws <;> rfl
        | succ cw ih => cases ws with
          | nil => rfl
          | cons w ws => simp only [offset, ih]; omega
      rw [hadd, h.off]
      omega
  · rw [heq, List.getElem?_eq_none (Nat.le_refl _)]
    simp only
    have hoff := h.off
    rw [heq] at hoff
    by_cases hlast : l.curWord + 1 = ((g :: qs).map Front.word).length
    · rw [if_pos hlast]
      have hol := offset_last hv1 hlast
      cases us with
      | nil =>
        right
        obtain ⟨i, extra', h1, h2, h3⟩ := Src.none hr.spaces t h.held.src
        rw [h3]
        simp only [Res.bind_ok]
        refine ⟨{ t with inp := i, blanks := t.blanks ++ extra' }, extra ++ extra', ?_, trivial, by simp, ⟨⟨h.held.queue, h.held.wblanks, ?_, .read h1 h2⟩, h.found, h.valid, h.off, h.start, h.inside, h.front, h.others⟩, rfl⟩
        · rw [List.length_drop, ha]
          simp only [List.map_nil, List.flatMap_nil, List.append_nil]
          omega
        · show t.blanks ++ extra' = _
          rw [h.held.blanks, List.append_assoc]
      | cons v us =>
        left
        obtain ⟨he, hwf, i, h1, h2⟩ := Src.word hr.spaces t h.held.src
        rw [h2]
        simp only [Res.bind_ok]
        subst he
        refine ⟨0x20, _, l.curWord + 1, 0, qs ++ [frontOf σ.alphabet v], us, [], ?_, rfl, ⟨⟨?_, ?_, ?_, h1⟩, ?_, ?_, ?_, h.start, h.inside, h.front, ?_⟩, rfl⟩
        · rw [List.getElem?_drop, ha, List.getElem?_append_right (by omega)]
          rw [← hoff, hol]
          simp
        · show t.queue ++ _ = _
          rw [h.held.queue]
          simp
        · show t.wblanks ++ _ = _
          rw [h.held.wblanks]
          simp
        · show t.blanks ++ _ = _
          rw [h.held.blanks]
          simp
        · have := h.found
          simpa using this
        · refine ⟨(frontOf σ.alphabet v).word, ?_, Nat.zero_le _⟩
          have e : ((g :: (qs ++ [frontOf σ.alphabet v])).map Front.word) = ((g :: qs).map Front.word) ++ [(frontOf σ.alphabet v).word] := by simp
          rw [e, hlast, List.getElem?_append_right (Nat.le_refl _)]
          simp
        · have e : ((g :: (qs ++ [frontOf σ.alphabet v])).map Front.word) = ((g :: qs).map Front.word) ++ [(frontOf σ.alphabet v).word] := by simp
          have hv3 : ((g :: (qs ++ [frontOf σ.alphabet v])).map Front.word)[l.curWord]? = some w := by
            rw [e, List.getElem?_append_left (by omega)]
            exact hv1
          obtain ⟨-, h5, -⟩ := offset_end hv3 (by rw [e, List.length_append]; simp only [List.length_singleton]; omega)
          rw [show ({ l with curWord := l.curWord + 1, curPos := 0 } : Loc W).curWord = l.curWord + 1 from rfl,
            show ({ l with curWord := l.curWord + 1, curPos := 0 } : Loc W).curPos = 0 from rfl, h5]
          have hext : ∀ (ws vs : List (List Int)) (cw cp : Nat), cw < ws.length → offset (ws ++ vs) cw cp = offset ws cw cp := by
            intro ws vs cw cp
            induction cw generalizing ws with
            | zero => intro h; cases ws with
              | nil => simp at h
              | cons a ws => rfl
            | succ cw ih => intro h; cases ws with
              | nil => simp at h
              | cons a ws =>
                simp only [List.cons_append, offset]
                rw [ih ws (by simpa using h)]
          rw [e, hext _ _ _ _ (by omega), hoff]
          omega
        · intro q hq
          rw [List.mem_append, List.mem_singleton] at hq
          rcases hq with hq | rfl
          · exact h.others q hq
          · exact frontOf_normal hr hwf
    · rw [if_neg hlast]
      left
      have hlen : l.curWord < ((g :: qs).map Front.word).length := by
        obtain ⟨h1, -⟩ := List.getElem?_eq_some_iff.1 hv1
        exact h1
      obtain ⟨h4, h5, h6⟩ := offset_end hv1 (by omega)
      rw [hoff] at h4 h5
      refine ⟨0x20, t, l.curWord + 1, 0, qs, us, extra, ?_, rfl, ⟨h.held, h.found, h6, ?_, h.start, h.inside, h.front, h.others⟩, rfl⟩
      · rw [List.getElem?_drop, ha, List.getElem?_append_left (by
          obtain ⟨h1, -⟩ := List.getElem?_eq_some_iff.1 h4
          exact h1)]
        exact h4
      · rw [h5]
        omega

/-! ## Replacing -/

/-- Between two words. -/
structure Between (σ : Setting W) (name : Int → UString) (last : Blank) (tail : Option (List Nat)) (rest : List Front) (t : Tl) : Prop where
  held : ∃ qs us extra, Held σ name last tail qs us extra t ∧ rest = qs ++ us.map (frontOf σ.alphabet) ∧ ∀ q ∈ qs, Normal σ name 0 q ∧ q.word ≠ []

theorem Found.step {f : Front} {s : Nat} {rest : List Front} {b : Nat} {lst : UString} {mp : Nat} {g : Front} {R : List Front} (h : Found σ name f s rest b lst mp g R)
    (hb : ∀ j, b ≤ j → j ≤ ((ahead f rest).drop s).length → ∀ m, ¬ Match σ (((ahead f rest).drop s).take j) m)
    (hlen : b ≤ ((ahead f rest).drop s).length + 1) (hs : s ≤ (ahead f rest).length) :
    (lst = [] ∧ g = f ∧ R = rest ∧ Step σ f s rest (f, s + 1, rest)) ∨
    (∃ k m, lst = 0x2f :: text name m ∧ (∀ y ∈ m, Good σ name y) ∧ mp = s + k ∧ (g, R) = gather (s + k) f rest ∧ s + k ≤ g.word.length ∧
      Step σ f s rest (replaced f s rest k m)) := by
  rw [List.length_drop] at hb hlen
  cases h with
  | none h =>
    left
    refine ⟨rfl, rfl, rfl, .none fun j hj => ?_⟩
    rw [List.length_drop] at hj
    by_cases h1 : j < b
    · exact h j h1
    · exact hb j (by omega) hj
  | @within k m hk hm hg h he =>
    right
    refine ⟨k, m, rfl, hg, rfl, rfl, gather_length (by omega), .within ⟨by rw [List.length_drop]; omega, hm, fun j h1 h2 => ?_⟩ he⟩
    rw [List.length_drop] at h2
    by_cases h3 : j < b
    · exact h j h1 h3
    · exact hb j (by omega) h2
  | @upto k m hk hm hg h he =>
    right
    refine ⟨k - 1, m.dropLast, rfl, fun y hy => hg y (List.dropLast_subset _ hy), rfl, rfl, gather_length (by omega), .upto ⟨by rw [List.length_drop]; omega, hm, fun j h1 h2 => ?_⟩ he⟩
    rw [List.length_drop] at h2
    by_cases h3 : j < b
    · exact h j h1 h3
    · exact hb j (by omega) h2

/-- The search starts again, or the word is written. -/
theorem finish_ok (hr : Regular σ name) {last : Blank} {tail : Option (List Nat)} {f : Front} {s : Nat} {rest : List Front} {g : Front} {qs : List Front} {us : List Word}
    {extra : List UString} {k b : Nat} {t : Tl} {l : Loc W} (h : Place σ name last tail f s rest g qs us extra k b t l) {init : List (Rec W)}
    (hi : Sound σ [] init) (hlen : b ≤ ((ahead f rest).drop s).length + 1)
    (hb : ∀ j, b ≤ j → j ≤ ((ahead f rest).drop s).length → ∀ m, ¬ Match σ (((ahead f rest).drop s).take j) m) :
    ∃ t' l' f' s' rest', finish σ init t l = .ok (t', l') ∧ Step σ f s rest (f', s', rest') ∧
      ((s' < f'.word.length ∧ (∃ qs' us' extra', Place σ name last tail f' s' rest' f' qs' us' extra' 0 0 t' l') ∧ Seen σ [] l' ∧ t'.out = t.out) ∨
      (f'.word.length ≤ s' ∧ Between σ name last tail rest' t' ∧ l' = { cur := init } ∧ t'.out = t.out ++ f'.out σ name)) := by
  have hseen : ∀ s' d', Seen σ [] ({ cur := init, startPos := s', curPos := s', diff := d' } : Loc W) := fun s' d' => ⟨hi, rfl, rfl, rfl, rfl⟩
  -- what remains to be done once the word has been rewritten
  have key : ∀ (t1 : Tl) (f' : Front) (s' : Nat) (d' : Int) (qs us extra), t1.out = t.out → Held σ name last tail (f' :: qs) us extra t1 → Normal σ name d' f' →
      (∀ q ∈ qs, Normal σ name 0 q ∧ q.word ≠ []) →
      ∃ t' l', (if s' ≥ f'.word.length then do
          let t ← writeWord σ d' t1
          .ok (t, ({ cur := init } : Loc W))
        else .ok (t1, { cur := init, startPos := s', curPos := s', diff := d' })) = .ok (t', l') ∧
      ((s' < f'.word.length ∧ (∃ qs' us' extra', Place σ name last tail f' s' (qs ++ us.map (frontOf σ.alphabet)) f' qs' us' extra' 0 0 t' l') ∧ Seen σ [] l' ∧ t'.out = t.out) ∨
      (f'.word.length ≤ s' ∧ Between σ name last tail (qs ++ us.map (frontOf σ.alphabet)) t' ∧ l' = { cur := init } ∧ t'.out = t.out ++ f'.out σ name)) := by
    intro t1 f' s' d' qs us extra ho hh hn hq
    by_cases hs' : s' ≥ f'.word.length
    · rw [if_pos hs']
      have h1 := writeWord_ok (σ := σ) (name := name) (f := f') (diff := d') (t := t1) (more := qs.flatMap Front.blanks ++ extra) (ws := qs.map fun f : Front => markText f.mark)
        (q := qs.map Front.word) (by rw [hh.blanks]; simp) hn.blanks hh.wblanks hh.queue hn.spaces hn.known
      rw [h1]
      simp only [Res.bind_ok]
      refine ⟨_, _, rfl, .inr ⟨hs', ⟨qs, us, extra, ⟨rfl, rfl, rfl, hh.src⟩, rfl, hq⟩, rfl, ?_⟩⟩
      rw [← ho]
    · rw [if_neg hs']
      refine ⟨_, _, rfl, .inl ⟨by omega, ⟨qs, us, extra, ⟨hh, .none (fun j hj => by omega), ⟨f'.word, by simp, by show s' ≤ _; omega⟩, by simp [offset], rfl, by omega, hn, hq⟩⟩, hseen _ _, ho⟩⟩
  have hsa : s ≤ (ahead f rest).length := by
    have := h.le
    omega
  unfold finish replace
  rcases h.found.step hb hlen hsa with ⟨h1, rfl, h2, h3⟩ | ⟨k', m, h1, h2, h3, h4, h5, h6⟩
  · rw [if_pos h1]
    simp only [Res.bind_ok]
    obtain ⟨t', l', k1, k2⟩ := key t g (l.startPos + 1) l.diff qs us extra rfl h.held h.front h.others
    rw [h2, h.start] at k2
    refine ⟨t', l', g, s + 1, rest, ?_, h3, k2⟩
    rw [h.held.queue]
    exact k1
  · rw [if_neg (by rw [h1]; simp), h.held.queue]
    simp only [List.map_cons]
    have e1 : Gen.substr1 l.last = .ok (text name m) := by rw [h1]; rfl
    rw [e1]
    simp only [Res.bind_ok, tokenize_text hr h2]
    rw [if_neg (show ¬ (l.matchPos > g.word.length ∨ l.startPos > l.matchPos) by rw [h3, h.start]; omega)]
    simp only [Res.bind_ok]
    rw [h3, h.start, overlap_eq]
    have e2 : (g.word.take (s + k')).drop s = (g.word.drop s).take k' := by rw [List.drop_take, Nat.add_sub_cancel_left]
    rw [e2]
    have hle := overlap_le m ((g.word.drop s).take k')
    have hle2 : ((g.word.drop s).take k').length ≤ k' := by rw [List.length_take]; omega
    have e3 : (if s + k' - overlap m ((g.word.drop s).take k') = s then s + k' - overlap m ((g.word.drop s).take k') + 1
        else s + k' - overlap m ((g.word.drop s).take k')) = max (s + 1) (s + k' - overlap m ((g.word.drop s).take k')) := by
      split <;> omega
    rw [e3]
    have hg1 : (gather (s + k') f rest).1 = g := by rw [← h4]
    have hg2 : (gather (s + k') f rest).2 = qs ++ us.map (frontOf σ.alphabet) := by rw [← h4]
    have e4 : replaced f s rest k' m = ({ g with word := g.word.take s ++ m ++ g.word.drop (s + k') }, max (s + 1) (s + k' - overlap m ((g.word.drop s).take k')),
        qs ++ us.map (frontOf σ.alphabet)) := by
      unfold replaced
      simp only [hg1, hg2]
    rw [e4] at h6
    have hsplit : g.word = g.word.take s ++ ((g.word.take (s + k')).drop s ++ g.word.drop (s + k')) := by
      conv_lhs => rw [← List.take_append_drop (s + k') g.word, ← List.take_append_drop s (g.word.take (s + k'))]
      rw [List.take_take, Nat.min_eq_left (by omega), List.append_assoc]
    obtain ⟨t', l', k1, k2⟩ := key { t with queue := (g.word.take s ++ m ++ g.word.drop (s + k')) :: qs.map Front.word } { g with word := g.word.take s ++ m ++ g.word.drop (s + k') }
      (max (s + 1) (s + k' - overlap m ((g.word.drop s).take k')))
      (l.diff + ((Post.spaces (g.word.take s ++ m ++ g.word.drop (s + k')) : Int) - (Post.spaces g.word : Int))) qs us extra rfl
      ⟨by simp, h.held.wblanks, h.held.blanks, h.held.src⟩ ⟨h.front.blanks, by
        have := h.front.spaces
        simp only
        omega, by
        intro x hx
        simp only [List.mem_append] at hx
        rcases hx with (hx | hx) | hx
        · exact h.front.known x (List.take_subset _ _ hx)
        · exact (h2 x hx).known
        · exact h.front.known x (List.drop_subset _ _ hx)⟩ h.others
    exact ⟨t', l', _, _, _, k1, h6, k2⟩

/-- One turn. -/
theorem turn_ok (hr : Regular σ name) (hf : Few σ) {last : Blank} {tail : Option (List Nat)} {f : Front} {s : Nat} {rest : List Front} {g : Front} {qs : List Front} {us : List Word}
    {extra : List UString} {k : Nat} {t : Tl} {l : Loc W} (h : Place σ name last tail f s rest g qs us extra k k t l)
    (hs : Seen σ (((ahead f rest).drop s).take k) l) {init : List (Rec W)} (hi : Sound σ [] init) :
    ∃ t' l', (∀ n, turn σ n init t l = .ub ∨ turn σ n init t l = .ok (t', l')) ∧ (∃ N, ∀ n ≥ N, turn σ n init t l = .ok (t', l')) ∧
      ((k < ((ahead f rest).drop s).length ∧ (∃ g' qs' us' extra', Place σ name last tail f s rest g' qs' us' extra' (k + 1) (k + 1) t' l') ∧
        Seen σ (((ahead f rest).drop s).take (k + 1)) l' ∧ t'.out = t.out) ∨
      ∃ f' s' rest', Step σ f s rest (f', s', rest') ∧
        ((s' < f'.word.length ∧ (∃ qs' us' extra', Place σ name last tail f' s' rest' f' qs' us' extra' 0 0 t' l') ∧ Seen σ [] l' ∧ t'.out = t.out) ∨
        (f'.word.length ≤ s' ∧ Between σ name last tail rest' t' ∧ l' = { cur := init } ∧ t'.out = t.out ++ f'.out σ name))) := by
  obtain ⟨t1, l1, g1, qs1, n1, n2, n3, n4⟩ := note_ok hr h hs
  unfold turn
  simp only [n1, Res.bind_ok]
  have comes : ∀ (x : Int) (st : List (Rec W)) (R : Res (Tl × Loc W)) (F : List (Rec W) → Res (Tl × Loc W)) (st' : List (Rec W)),
      Comes (fun n => stepCaseOverride σ.isUpper σ.toLower σ.graph n x (σ.beCaseSensitive st) st) st' → F st' = R →
      (∀ n, (do let cur ← Gen.ended (stepCaseOverride σ.isUpper σ.toLower σ.graph n x (σ.beCaseSensitive st) st); F cur) = .ub ∨
        (do let cur ← Gen.ended (stepCaseOverride σ.isUpper σ.toLower σ.graph n x (σ.beCaseSensitive st) st); F cur) = R) ∧
      ∃ N, ∀ n ≥ N, (do let cur ← Gen.ended (stepCaseOverride σ.isUpper σ.toLower σ.graph n x (σ.beCaseSensitive st) st); F cur) = R := by
    rintro x st R F st' ⟨c1, N, c2⟩ rfl
    refine ⟨fun n => ?_, N, fun n hn => ?_⟩
    · rcases c1 n with c | c
      · left; simp only at c; rw [c]; rfl
      · right; simp only at c; rw [c]; rfl
    · have c := c2 n hn
      simp only at c; rw [c]; rfl
  have ecur : ∀ (x : Int) (l : Loc W), (cases σ x l).cur = l.cur := by
    intro x l
    unfold cases
    split
    · split
      · split <;> rfl
      · split <;> rfl
    · rfl
  rcases nextSym_ok hr n2 with ⟨x, t2, cw, cp, qs2, us2, extra2, x1, x2, x3, x4⟩ | ⟨t2, extra2, x1, x2, x3, x4, x5⟩
  · simp only [x2, Res.bind_ok, Bool.or_false]
    have hk : k < ((ahead f rest).drop s).length := by
      obtain ⟨h1, -⟩ := List.getElem?_eq_some_iff.1 x1
      exact h1
    have etake : ((ahead f rest).drop s).take (k + 1) = ((ahead f rest).drop s).take k ++ [x] := by
      rw [List.take_add_one, x1]
      rfl
    obtain ⟨st', s1, s2⟩ := step_comes hr hf n3.cur x
    have hseen : Seen σ (((ahead f rest).drop s).take k ++ [x]) { cases σ x { l1 with curWord := cw, curPos := cp } with cur := st' } :=
      cases_seen (l := { l1 with curWord := cw, curPos := cp }) ⟨n3.cur, n3.haveFirst, n3.haveSecond, n3.firstupper, n3.uppercase⟩ x s1
    have ecases : ∀ l : Loc W, ∃ fu up hf hs, cases σ x l = { l with firstupper := fu, uppercase := up, haveFirst := hf, haveSecond := hs } := by
      intro l
      unfold cases
      split
      · split
        · split
          · exact ⟨true, l.uppercase, true, l.haveSecond, rfl⟩
          · exact ⟨false, l.uppercase, true, true, rfl⟩
        · split
          · exact ⟨l.firstupper, σ.isUpper x, l.haveFirst, true, rfl⟩
          · exact ⟨l.firstupper, l.uppercase, l.haveFirst, l.haveSecond, rfl⟩
      · exact ⟨l.firstupper, l.uppercase, l.haveFirst, l.haveSecond, rfl⟩
    obtain ⟨fu, up, hf', hs', ec⟩ := ecases { l1 with curWord := cw, curPos := cp }
    have hplace : Place σ name last tail f s rest g1 qs2 us2 extra2 (k + 1) (k + 1) t2 (cases σ x { l1 with curWord := cw, curPos := cp }) := by
      rw [ec]
      exact ⟨x3.held, x3.found, x3.valid, x3.off, x3.start, x3.inside, x3.front, x3.others⟩
    by_cases he : st' = []
    · subst he
      obtain ⟨t', l', f', s', rest', f1, f2, f3⟩ := finish_ok hr hplace hi (by omega) (by
        intro j h1 h2 m hm
        obtain ⟨ls, wr, ch, p, hw⟩ := match_walk hm
        have : ((ahead f rest).drop s).take j = (((ahead f rest).drop s).take k ++ [x]) ++ ((((ahead f rest).drop s).take j).drop (k + 1)) := by
          rw [← etake]
          conv_lhs => rw [← List.take_append_drop (k + 1) (((ahead f rest).drop s).take j)]
          rw [List.take_take, Nat.min_eq_left h1]
        rw [this] at hw
        exact s1.dead _ hw)
      refine ⟨t', l', ?_⟩
      have := comes x l1.cur (.ok (t', l')) (fun cur => if cur.isEmpty = true then finish σ init t2 (cases σ x { l1 with curWord := cw, curPos := cp })
        else .ok (t2, { cases σ x { l1 with curWord := cw, curPos := cp } with cur })) [] s2 (by simpa using f1)
      rw [ecur]
      refine ⟨this.1, this.2, .inr ⟨f', s', rest', f2, ?_⟩⟩
      rw [← n4, ← x4]
      exact f3
    · have := comes x l1.cur (.ok (t2, { cases σ x { l1 with curWord := cw, curPos := cp } with cur := st' }))
        (fun cur => if cur.isEmpty = true then finish σ init t2 (cases σ x { l1 with curWord := cw, curPos := cp })
        else .ok (t2, { cases σ x { l1 with curWord := cw, curPos := cp } with cur })) st' s2 (by simp [he])
      rw [ecur]
      refine ⟨_, _, this.1, this.2, .inl ⟨hk, ⟨g1, qs2, us2, extra2, ?_⟩, ?_, by rw [x4, n4]⟩⟩
      · exact ⟨hplace.held, hplace.found, hplace.valid, hplace.off, hplace.start, hplace.inside, hplace.front, hplace.others⟩
      · rw [etake]
        exact hseen
  · simp only [x3, Res.bind_ok, Bool.or_true, if_true]
    obtain ⟨st', s1, s2⟩ := step_comes hr hf n3.cur 0
    have hplace : Place σ name last tail f s rest g1 qs1 us extra2 k (k + 1) t2 (cases σ 0 l1) := by
      have : ∃ fu up hf hs, cases σ 0 l1 = { l1 with firstupper := fu, uppercase := up, haveFirst := hf, haveSecond := hs } := by
        unfold cases
        split
        · split
          · split
            · exact ⟨true, l1.uppercase, true, l1.haveSecond, rfl⟩
            · exact ⟨false, l1.uppercase, true, true, rfl⟩
          · split
            · exact ⟨l1.firstupper, σ.isUpper 0, l1.haveFirst, true, rfl⟩
            · exact ⟨l1.firstupper, l1.uppercase, l1.haveFirst, l1.haveSecond, rfl⟩
        · exact ⟨l1.firstupper, l1.uppercase, l1.haveFirst, l1.haveSecond, rfl⟩
      obtain ⟨fu, up, hf', hs', ec⟩ := this
      rw [ec]
      exact ⟨x4.held, x4.found, x4.valid, x4.off, x4.start, x4.inside, x4.front, x4.others⟩
    obtain ⟨t', l', f', s', rest', f1, f2, f3⟩ := finish_ok hr hplace hi (by omega) (by intro j h1 h2; omega)
    have := comes 0 l1.cur (.ok (t', l')) (fun _ => finish σ init t2 (cases σ 0 l1)) st' s2 f1
    rw [ecur]
    refine ⟨t', l', this.1, this.2, .inr ⟨f', s', rest', f2, ?_⟩⟩
    rw [← n4, ← x5]
    exact f3

end

end Verif.Post
