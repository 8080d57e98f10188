import Verif.Tmx.Align

/-! # Space and marks -/

namespace Verif.Tmx

variable {ch : Chars}

theorem dropWhile_head {p : Int → Bool} {l : List Int} {c : Int} {e : List Int} (h : l.dropWhile p = c :: e) : p c = false := by
  have := List.head?_dropWhile_not (p := p) (l := l)
  rw [h] at this
  simpa using this

theorem dropWhile_all {p : Int → Bool} {a : List Int} (h : ∀ c ∈ a, p c = true) (b : List Int) : (a ++ b).dropWhile p = b.dropWhile p := by
  induction a with
  | nil => rfl
  | cons c a ih =>
    rw [List.cons_append, List.dropWhile_cons, if_pos (h c (List.mem_cons_self ..))]
    exact ih fun x hx => h x (List.mem_cons_of_mem _ hx)

theorem trim_spec (v : List Int) : Trimmed ch v (trim ch v) := by
  unfold trim
  obtain ⟨b, h1, h2⟩ := dropWhile_split (p := ch.isSpace) v.reverse
  generalize hx : v.reverse.dropWhile ch.isSpace = x at h1 ⊢
  obtain ⟨a, h3, h4⟩ := dropWhile_split (p := ch.isSpace) x.reverse
  generalize ht : x.reverse.dropWhile ch.isSpace = t at h3 ⊢
  refine ⟨a, b.reverse, ?_, ?_, ?_, ?_⟩
  · have := congrArg List.reverse h1
    rw [List.reverse_reverse, List.reverse_append, h3] at this
    exact this
  · intro c hc
    rcases List.mem_append.1 hc with hc | hc
    · exact h4 c hc
    · exact h2 c (by simpa using hc)
  · rintro c e rfl
    exact dropWhile_head ht
  · rintro e c rfl
    have : x = c :: (e.reverse ++ a.reverse) := by
      have := congrArg List.reverse h3
      simpa using this
    rw [this] at hx
    exact dropWhile_head hx

theorem trim_unique {s t : List Int} (h : Trimmed ch s t) : trim ch s = t := by
  obtain ⟨a, b, rfl, h1, h2, h3⟩ := h
  unfold trim
  have hb : ∀ c ∈ b.reverse, ch.isSpace c = true := fun c hc => h1 c (List.mem_append_right _ (by simpa using hc))
  have ha : ∀ c ∈ a, ch.isSpace c = true := fun c hc => h1 c (List.mem_append_left _ hc)
  rw [List.reverse_append, dropWhile_all hb, List.reverse_append]
  rcases List.eq_nil_or_concat' t with rfl | ⟨e, c, rfl⟩
  · rw [List.reverse_nil, List.nil_append]
    have : ∀ c ∈ a.reverse, ch.isSpace c = true := fun c hc => ha c (by simpa using hc)
    have := dropWhile_all this []
    rw [List.append_nil] at this
    rw [this]; rfl
  · have hc := h3 e c rfl
    rw [List.reverse_append, List.reverse_singleton, List.singleton_append, List.cons_append, List.dropWhile_cons, if_neg (by simp [hc])]
    have : (c :: (e.reverse ++ a.reverse)).reverse = a ++ (e ++ [c]) := by simp
    rw [this, dropWhile_all ha]
    cases hd : e ++ [c] with
    | nil => rfl
    | cons x y =>
      rw [List.dropWhile_cons, if_neg]
      rw [h2 x y hd]; simp

theorem trimmed_iff {s t : List Int} : Trimmed ch s t ↔ trim ch s = t :=
  ⟨trim_unique, fun h => h ▸ trim_spec s⟩

theorem forall2_trimmed {ps qs : List (List Int)} : List.Forall₂ (Trimmed ch) ps qs ↔ ps.map (trim ch) = qs := by
  constructor
  · intro h
    induction h with
    | nil => rfl
    | cons h _ ih => rw [List.map_cons, trim_unique h, ih]
  · rintro rfl
    induction ps with
    | nil => exact .nil
    | cons p ps ih => exact .cons (trim_spec p) ih

theorem inter_cons {s : List Int} {p : List Int} {ps : List (List Int)} (h : ps ≠ []) : s.intercalate (p :: ps) = p ++ s ++ s.intercalate ps := by
  cases ps with
  | nil => exact absurd rfl h
  | cons q ps => simp [List.intercalate, List.intersperse]

theorem inter_one {s p : List Int} : s.intercalate [p] = p := by simp [List.intercalate]

theorem split_done (sym : Int) (done : List (List Int)) (cur : Option (List Int)) (v : List Int) :
    splitLoop sym done cur v = done ++ splitLoop sym [] cur v := by
  induction v generalizing done cur with
  | nil => simp [splitLoop]
  | cons c v ih =>
    rw [splitLoop, splitLoop]
    split
    · rw [ih (done ++ [cur.getD []]), ih ([] ++ [cur.getD []])]; simp
    · exact ih ..

theorem split_loop (v : List Int) (cur : Option (List Int)) (hc : ∀ u, cur = some u → u ≠ [] ∧ -2 ∉ u) : Parts (cur.getD [] ++ v) (splitLoop (-2) [] cur v) := by
  induction v generalizing cur with
  | nil =>
    rw [splitLoop]
    cases cur with
    | none => exact ⟨by simp, .inl ⟨by simp, by simp⟩⟩
    | some u =>
      obtain ⟨h1, h2⟩ := hc u rfl
      exact ⟨by simpa using h2, .inl ⟨by simp, by simpa using h1⟩⟩
  | cons c v ih =>
    rw [splitLoop]
    have hg : -2 ∉ cur.getD [] := by
      cases cur with
      | none => simp
      | some u => exact (hc u rfl).2
    split
    · next h =>
      subst h
      rw [split_done]
      obtain ⟨h1, h2⟩ := ih none (by simp)
      rw [Option.getD_none, List.nil_append] at h2
      generalize splitLoop (-2) [] none v = ps at h1 h2 ⊢
      refine ⟨?_, ?_⟩
      · intro p hp
        simp only [List.nil_append, List.singleton_append, List.mem_cons] at hp
        rcases hp with rfl | hp
        · exact hg
        · exact h1 p hp
      · simp only [List.nil_append, List.singleton_append]
        by_cases hps : ps = []
        · subst hps
          rcases h2 with ⟨rfl, -⟩ | ⟨-, h⟩
          · right
            simp
          · exact absurd rfl h
        · rw [inter_cons hps]
          rcases h2 with ⟨rfl, h⟩ | ⟨rfl, h⟩
          · left
            refine ⟨by simp, ?_⟩
            rwa [List.getLast?_cons_of_ne_nil hps]
          · right
            simp
    · next h =>
      have := ih (some (cur.getD [] ++ [c])) (by
        rintro u ⟨⟩
        refine ⟨by simp, ?_⟩
        rw [List.mem_append, List.mem_singleton]
        rintro (h' | h')
        · exact hg h'
        · exact h h'.symm)
      simpa using this

theorem split_spec (v : List Int) : Parts v (split v blankTag) := by
  have := split_loop v none (by simp)
  unfold split
  rw [blankTag_eq]
  simpa using this

theorem split_run {u : List Int} (h : -2 ∉ u) (w : List Int) (cur : Option (List Int)) (hu : u ≠ []) :
    splitLoop (-2) [] cur (u ++ w) = splitLoop (-2) [] (some (cur.getD [] ++ u)) w := by
  induction u generalizing cur with
  | nil => exact absurd rfl hu
  | cons c u ih =>
    rw [List.cons_append, splitLoop]
    rw [if_neg (fun hc => h (by rw [hc]; exact List.mem_cons_self ..))]
    by_cases hn : u = []
    · subst hn; rfl
    · rw [ih (fun hm => h (List.mem_cons_of_mem _ hm)) _ hn]
      simp

theorem split_part {u : List Int} (h : -2 ∉ u) (w : List Int) : splitLoop (-2) [] none (u ++ -2 :: w) = u :: splitLoop (-2) [] none w := by
  by_cases hu : u = []
  · subst hu
    rw [List.nil_append, splitLoop]
    simp only [if_true, Option.getD_none]
    rw [split_done]; rfl
  · rw [split_run h _ _ hu, splitLoop]
    simp only [if_true, Option.getD_some, Option.getD_none]
    rw [split_done]; rfl

theorem split_unique {v : List Int} {ps : List (List Int)} (h : Parts v ps) : split v blankTag = ps := by
  unfold split
  rw [blankTag_eq]
  obtain ⟨h1, h2⟩ := h
  induction ps generalizing v with
  | nil =>
    rcases h2 with ⟨rfl, -⟩ | ⟨-, h⟩
    · rfl
    · exact absurd rfl h
  | cons p ps ih =>
    have hp := h1 p (List.mem_cons_self ..)
    by_cases hps : ps = []
    · subst hps
      rw [inter_one] at h2
      rcases h2 with ⟨e, h⟩ | ⟨rfl, -⟩
      · rw [e]
        have hne : p ≠ [] := by simpa using h
        have := split_run hp [] none hne
        rw [List.append_nil] at this
        rw [this]; rfl
      · rw [split_part hp]; rfl
    · rw [inter_cons hps] at h2
      rw [List.getLast?_cons_of_ne_nil hps] at h2
      have key : ∃ w, v = p ++ -2 :: w ∧ (w = [-2].intercalate ps ∧ ps.getLast? ≠ some [] ∨ w = [-2].intercalate ps ++ [-2] ∧ ps ≠ []) := by
        rcases h2 with ⟨rfl, h⟩ | ⟨rfl, -⟩
        · exact ⟨_, by simp, .inl ⟨rfl, h⟩⟩
        · exact ⟨_, by simp, .inr ⟨rfl, hps⟩⟩
      obtain ⟨w, rfl, hw⟩ := key
      rw [split_part hp, ih (fun q hq => h1 q (List.mem_cons_of_mem _ hq)) hw]

theorem parts_iff {v : List Int} {ps : List (List Int)} : Parts v ps ↔ split v blankTag = ps :=
  ⟨split_unique, fun h => h ▸ split_spec v⟩

theorem join_eq (s : Int) (ps : List (List Int)) : join s ps = [s].intercalate ps := by
  induction ps with
  | nil => simp [join, List.intercalate]
  | cons p ps ih =>
    cases ps with
    | nil => rw [inter_one]; rfl
    | cons q ps =>
      rw [inter_cons (by simp), join, ih]
      simp

theorem opened_eq (ps : List (List Int)) : join 0x29 (opened ch ps) = [0x28, 0x23, 0x29].intercalate (ps.map (trim ch)) := by
  induction ps with
  | nil => simp [opened, join, List.intercalate]
  | cons p ps ih =>
    cases ps with
    | nil => rw [List.map_singleton, inter_one]; rfl
    | cons q ps =>
      rw [List.map_cons, inter_cons (by simp), opened, ← ih]
      cases hq : opened ch (q :: ps) with
      | nil =>
        cases ps with
        | nil => cases hq
        | cons => cases hq
      | cons x xs =>
        rw [join]
        simp

/-- What a unit becomes. -/
theorem normal_iff {o m o' m' : List Int} (hf : Few ch (trim ch o)) :
    Normal ch o m o' m' ↔ ∃ o2 m2, align ch (trim ch o) (trim ch m) = .ok (o2, m2) ∧ alignBlanks ch o2 m2 = (o', m') := by
  obtain ⟨o2, m2, h1, h2⟩ := align_spec (trim ch o) (trim ch m) hf
  constructor
  · rintro ⟨o1, m1, o2', m2', po, pm, po', pm', k1, k2, k3, k4, k5, k6, k7, rfl, rfl⟩
    rw [trimmed_iff] at k1 k2
    subst k1; subst k2
    obtain ⟨rfl, rfl⟩ := aligned_unique k3 h2
    refine ⟨_, _, h1, ?_⟩
    rw [parts_iff] at k4 k5
    rw [forall2_trimmed] at k6 k7
    subst k4; subst k5; subst k6; subst k7
    unfold alignBlanks
    rw [join_eq, opened_eq]
  · rintro ⟨o3, m3, k1, k2⟩
    rw [h1] at k1
    cases k1
    unfold alignBlanks at k2
    rw [join_eq, opened_eq] at k2
    cases k2
    exact ⟨_, _, _, _, _, _, _, _, trim_spec _, trim_spec _, h2, split_spec _, split_spec _, forall2_trimmed.2 rfl, forall2_trimmed.2 rfl, rfl, rfl⟩

end Verif.Tmx
