import Verif.Str.Model
import Verif.Data.Utf16
import Mathlib.Data.List.Induction

/-! # Properties of the string functions -/

namespace Verif.Str

open Verif.Compression (isLead isTrail supplementary isLead_iff isTrail_iff supplementary_toNat)

/-- The pieces of a string between the occurrences of `d`, each time cut at the leftmost one. -/
inductive Pieces (d : UString) : UString → List UString → Prop
  | last {s : UString} (h : ¬ d <:+: s) : Pieces d s [s]
  | cut {a b : UString} {ps : List UString} (h : ∀ x y, a ++ d ++ b = x ++ d ++ y → a.length ≤ x.length) (hb : Pieces d b ps) :
      Pieces d (a ++ d ++ b) (a :: ps)

/-! ## Lemmas -/

theorem findIn_none {d s : UString} (h : findIn d s = none) : ¬ d <:+: s := by
  induction s with
  | nil =>
    unfold findIn at h
    split at h
    · cases h
    · next hn =>
      intro hi
      have := List.infix_nil.1 hi
      exact hn (by rw [this]; rfl)
  | cons u s ih =>
    unfold findIn at h
    split at h
    · cases h
    · next hn =>
      rw [Option.map_eq_none_iff] at h
      intro hi
      rcases List.infix_cons_iff.1 hi with hp | hi
      · exact hn (List.isPrefixOf_iff_prefix.2 hp)
      · exact ih h hi

theorem findIn_some {d s : UString} {k : Nat} (h : findIn d s = some k) :
    ∃ a b, s = a ++ d ++ b ∧ a.length = k ∧ ∀ x y, s = x ++ d ++ y → k ≤ x.length := by
  induction s generalizing k with
  | nil =>
    unfold findIn at h
    split at h
    · next hp =>
      cases h
      obtain ⟨b, hb⟩ := List.isPrefixOf_iff_prefix.1 hp
      exact ⟨[], b, by simpa using hb.symm, rfl, fun _ _ _ => Nat.zero_le _⟩
    · cases h
  | cons u s ih =>
    unfold findIn at h
    split at h
    · next hp =>
      cases h
      obtain ⟨b, hb⟩ := List.isPrefixOf_iff_prefix.1 hp
      exact ⟨[], b, by simpa using hb.symm, rfl, fun _ _ _ => Nat.zero_le _⟩
    · next hn =>
      rw [Option.map_eq_some_iff] at h
      obtain ⟨k', h, rfl⟩ := h
      obtain ⟨a, b, e, hl, hm⟩ := ih h
      refine ⟨u :: a, b, by rw [e]; simp, by simp [hl], ?_⟩
      intro x y hxy
      cases x with
      | nil =>
        exact absurd (List.isPrefixOf_iff_prefix.2 ⟨y, by simpa using hxy.symm⟩) hn
      | cons v x =>
        simp only [List.cons_append, List.cons.injEq] at hxy
        have := hm x y hxy.2
        rw [List.length_cons]
        omega

theorem find_none {pre s d : UString} (h : ¬ d <:+: s) : find (pre ++ s) d pre.length = none := by
  unfold find
  rw [if_neg (by rw [List.length_append]; omega), List.drop_left]
  cases hf : findIn d s with
  | none => rfl
  | some k =>
    obtain ⟨a, b, e, -⟩ := findIn_some hf
    exact absurd ⟨a, b, e.symm⟩ h

theorem find_some {pre a b d : UString} (h : ∀ x y, a ++ d ++ b = x ++ d ++ y → a.length ≤ x.length) :
    find (pre ++ (a ++ d ++ b)) d pre.length = some (pre.length + a.length) := by
  unfold find
  rw [if_neg (by rw [List.length_append]; omega), List.drop_left]
  cases hf : findIn d (a ++ d ++ b) with
  | none => exact absurd ⟨a, b, rfl⟩ (findIn_none hf)
  | some k =>
    obtain ⟨a', b', e, hl, hm⟩ := findIn_some hf
    have h1 := h a' b' e
    have h2 := hm a b rfl
    have : k = a.length := by omega
    rw [this]
    rfl

theorem pieces_ne_nil {d s : UString} {ps : List UString} (h : Pieces d s ps) : ps ≠ [] := by cases h <;> simp

/-! ## C51 -/

/-- **C51** Every string has pieces (for a delimiter that is not empty). -/
theorem C51_pieces_exist (d s : UString) (hd : d ≠ []) : ∃ ps, Pieces d s ps := by
  have hdl : 0 < d.length := by cases d with
    | nil => exact absurd rfl hd
    | cons => simp
  induction hn : s.length using Nat.strongRecOn generalizing s with
  | _ n ih =>
    cases hf : findIn d s with
    | none => exact ⟨[s], .last (findIn_none hf)⟩
    | some k =>
      obtain ⟨a, b, e, hl, hm⟩ := findIn_some hf
      subst e
      obtain ⟨ps, hps⟩ := ih b.length (by simp only [List.length_append] at hn; omega) b rfl
      exact ⟨a :: ps, .cut (fun x y hxy => by rw [hl]; exact hm x y hxy) hps⟩

/-- **C51** And only one list of them. -/
theorem C51_pieces_unique (d s : UString) (ps ps' : List UString) (h : Pieces d s ps) (h' : Pieces d s ps') : ps = ps' := by
  induction h generalizing ps' with
  | last hn =>
    cases h' with
    | last => rfl
    | cut _ _ => exact absurd ⟨_, _, rfl⟩ hn
  | @cut a b ps hm hb ih =>
    generalize hs : a ++ d ++ b = s at h'
    cases h' with
    | last hn => exact absurd ⟨a, b, hs⟩ hn
    | @cut a' b' ps' hm' hb' =>
      have h1 := hm _ _ hs
      have h2 := hm' _ _ hs.symm
      have hl : a.length = a'.length := by omega
      obtain ⟨e1, e2⟩ := List.append_inj (by simpa using hs : a ++ (d ++ b) = a' ++ (d ++ b')) hl
      have e3 := List.append_cancel_left e2
      subst e1 e3
      rw [ih ps' hb']

/-- **C51** The pieces joined with the delimiter are the string, and none of them contains it. -/
theorem C51_pieces_sound (d s : UString) (hd : d ≠ []) (ps : List UString) (h : Pieces d s ps) :
    d.intercalate ps = s ∧ ∀ p ∈ ps, ¬ d <:+: p := by
  induction h with
  | last hn => exact ⟨by simp [List.intercalate], by simpa using hn⟩
  | @cut a b ps hm hb ih =>
    obtain ⟨p, ps', rfl⟩ : ∃ p ps', ps = p :: ps' := by
      cases ps with
      | nil => exact absurd rfl (pieces_ne_nil hb)
      | cons p ps' => exact ⟨p, ps', rfl⟩
    refine ⟨?_, ?_⟩
    · rw [← ih.1]
      simp [List.intercalate]
    · intro p hp
      rcases List.mem_cons.1 hp with rfl | hp
      · rintro ⟨x, y, e⟩
        have := hm x (y ++ d ++ b) (by rw [← e]; simp)
        rw [← e] at this
        simp only [List.length_append] at this
        cases d with
        | nil => exact hd rfl
        | cons => simp at this; omega
      · exact ih.2 p hp

theorem splitLoop_eq (d : UString) (hd : d ≠ []) {s : UString} {ps : List UString} (h : Pieces d s ps) :
    ∀ (pre : UString) (turns : Nat), s.length ≤ turns → splitLoop (pre ++ s) d turns pre.length = some (ps.filter (· ≠ [])) := by
  have hdl : 0 < d.length := by cases d with
    | nil => exact absurd rfl hd
    | cons => simp
  induction h with
  | @last s hn =>
    intro pre turns ht
    unfold splitLoop
    cases s with
    | nil => simp
    | cons u s =>
      obtain ⟨turns, rfl⟩ : ∃ k, turns = k + 1 := ⟨turns - 1, by simp at ht; omega⟩
      rw [if_pos (by simp)]
      simp only
      rw [find_none hn]
      simp only [Option.getD_none]
      rw [if_pos (by simp)]
      unfold splitLoop
      rw [if_neg (by simp)]
      simp
  | @cut a b ps hm hb ih =>
    intro pre turns ht
    simp only [List.length_append] at ht
    obtain ⟨turns, rfl⟩ : ∃ k, turns = k + 1 := ⟨turns - 1, by omega⟩
    unfold splitLoop
    rw [if_pos (by simp only [List.length_append]; omega)]
    simp only
    rw [find_some hm]
    simp only [Option.getD_some]
    have e : pre ++ (a ++ d ++ b) = (pre ++ a ++ d) ++ b := by simp
    have el : pre.length + a.length + d.length = (pre ++ a ++ d).length := by simp only [List.length_append]
    rw [el]
    have := ih (pre ++ a ++ d) turns (by omega)
    rw [← e] at this
    rw [this]
    have hd' : (pre ++ (a ++ d ++ b)).drop pre.length = a ++ d ++ b := List.drop_left
    rw [hd']
    cases a with
    | nil => simp
    | cons u a =>
      rw [if_pos (by simp)]
      have : pre.length + (u :: a).length - pre.length = (u :: a).length := by omega
      rw [this, List.append_assoc (u :: a) d b, List.take_left]
      simp

/-- **C51** `split` returns the pieces that are not empty, in order. -/
theorem C51_split (d s : UString) (hd : d ≠ []) (ps : List UString) (h : Pieces d s ps) : split s d = some (ps.filter (· ≠ [])) := by
  have := splitLoop_eq d hd h [] s.length (Nat.le_refl _)
  simpa [split] using this

example : Pieces [32, 32] [97, 32, 32, 32, 32, 32, 98] [[97], [], [32, 98]] := by
  refine Pieces.cut (d := [32, 32]) (a := [97]) (b := [32, 32, 32, 98]) ?_ (Pieces.cut (d := [32, 32]) (a := []) (b := [32, 98]) ?_ (Pieces.last ?_))
  · intro x y h
    cases x with
    | nil => simp at h
    | cons u x => simp
  · intro x y _; exact Nat.zero_le _
  · decide

/-- **C51** With an empty delimiter the loop does not end. -/
theorem C51_empty_delimiter_false (s : UString) (h : s ≠ []) (turns : Nat) : splitLoop s [] turns 0 = none := by
  have hf : find s [] 0 = some 0 := by
    unfold find
    rw [if_neg (by omega), List.drop_zero]
    cases s <;> simp [findIn]
  induction turns with
  | zero =>
    unfold splitLoop
    rw [if_pos (List.length_pos_iff.2 h)]
  | succ turns ih =>
    unfold splitLoop
    rw [if_pos (List.length_pos_iff.2 h)]
    simp only
    rw [hf]
    simp only [Option.getD_some, List.length_nil, Nat.add_zero]
    rw [ih]
    rfl

/-- **C51** `join` puts the delimiter between the pieces, after leaving out the empty ones at the front. -/
theorem C51_join (vec : List UString) (d : UString) : join vec d = d.intercalate (vec.dropWhile (· = [])) := by
  have key : ∀ (vec : List UString) (s : UString), s ≠ [] →
      vec.foldl (fun s piece => (if s ≠ [] then s ++ d else s) ++ piece) s = d.intercalate (s :: vec) := by
    intro vec
    induction vec with
    | nil => intro s _; simp [List.intercalate]
    | cons p vec ih =>
      intro s hs
      rw [List.foldl_cons, if_pos hs, ih _ (by simp [hs])]
      cases vec with
      | nil => simp [List.intercalate]
      | cons q vec => simp [List.intercalate]
  unfold join
  induction vec with
  | nil => simp [List.intercalate]
  | cons p vec ih =>
    rw [List.foldl_cons, if_neg (by simp), List.nil_append]
    by_cases hp : p = []
    · subst hp
      rw [ih, List.dropWhile_cons_of_pos (by simp)]
    · rw [key vec p hp, List.dropWhile_cons_of_neg (by simpa using hp)]

/-- The delimiter is found in `p` followed by it only at the end. -/
def Clean (d p : UString) : Prop := ∀ x y, p ++ d = x ++ d ++ y → y = []

theorem clean_unit (u : UInt16) (p : UString) (h : u ∉ p) : Clean [u] p := by
  intro x y e
  by_contra hy
  obtain ⟨y', v, rfl⟩ := List.eq_nil_or_concat y |>.resolve_left hy
  have : p = x ++ [u] ++ y' := by
    have e' : p ++ [u] = (x ++ [u] ++ y') ++ [v] := by rw [e]; simp
    exact (List.append_inj' e' rfl).1
  exact h (by rw [this]; simp)

theorem pieces_clean (d : UString) (hd : d ≠ []) (ps : List UString) (hne : ps ≠ []) (h : ∀ p ∈ ps, Clean d p) :
    Pieces d (d.intercalate ps) ps := by
  induction ps with
  | nil => exact absurd rfl hne
  | cons p ps ih =>
    have hp := h p (by simp)
    cases ps with
    | nil =>
      have : d.intercalate [p] = p := by simp [List.intercalate]
      rw [this]
      refine .last ?_
      rintro ⟨x, y, e⟩
      have := hp x (y ++ d) (by rw [← e]; simp)
      simp only [List.append_eq_nil_iff] at this
      exact hd this.2
    | cons q ps =>
      have e : d.intercalate (p :: q :: ps) = p ++ d ++ d.intercalate (q :: ps) := by simp [List.intercalate]
      rw [e]
      refine .cut ?_ (ih (by simp) fun r hr => h r (by simp [hr]))
      intro x y exy
      by_contra hlt
      have hlt : x.length < p.length := by omega
      obtain ⟨z, hz⟩ : ∃ z, p ++ d = x ++ d ++ z := by
        have h1 : x ++ d <+: p ++ d ++ d.intercalate (q :: ps) := ⟨y, exy.symm⟩
        have h2 : p ++ d <+: p ++ d ++ d.intercalate (q :: ps) := ⟨_, rfl⟩
        obtain ⟨z, hz⟩ := List.prefix_of_prefix_length_le h1 h2 (by simp only [List.length_append]; omega)
        exact ⟨z, hz.symm⟩
      have := hp x z hz
      subst this
      have := congrArg List.length hz
      simp only [List.length_append, List.length_nil] at this
      omega

/-- **C51** Splitting what was joined gives the pieces back, if they are not empty and the delimiter occurs neither in them
nor across their end. -/
theorem C51_join_split (d : UString) (hd : d ≠ []) (ps : List UString) (h : ∀ p ∈ ps, p ≠ [] ∧ Clean d p) : split (join ps d) d = some ps := by
  have hdw : ps.dropWhile (· = []) = ps := by
    cases ps with
    | nil => rfl
    | cons p ps => rw [List.dropWhile_cons_of_neg (by simpa using (h p (by simp)).1)]
  rw [C51_join, hdw]
  by_cases hne : ps = []
  · subst hne
    rfl
  · rw [C51_split d _ hd ps (pieces_clean d hd ps hne fun p hp => (h p hp).2)]
    congr 1
    rw [List.filter_eq_self]
    intro p hp
    simpa using (h p hp).1

/-- **C51** In particular for a delimiter of one unit that is in none of the pieces. -/
theorem C51_join_split_unit (u : UInt16) (ps : List UString) (h : ∀ p ∈ ps, p ≠ [] ∧ u ∉ p) : split (join ps [u]) [u] = some ps :=
  C51_join_split [u] (by simp) ps fun p hp => ⟨(h p hp).1, clean_unit u p (h p hp).2⟩

example : ∀ p ∈ [[97, 98], [99]], p ≠ [] ∧ (32 : UInt16) ∉ p := by decide
example : split (join [[97, 98], [99]] [32]) [32] = some [[97, 98], [99]] := by decide

/-- **C51** Empty pieces are not restored, and a longer delimiter may be found across the end of a piece. -/
theorem C51_join_split_false : split (join [[97], [], [98]] [32]) [32] ≠ some [[97], [], [98]] ∧ join [[], [97]] [32] = join [[97]] [32] ∧
    split (join [[97, 32], [98]] [32, 32]) [32, 32] ≠ some [[97, 32], [98]] := by decide

theorem substituteLoop_eq (olds news : UString) (hd : olds ≠ []) {s : UString} {ps : List UString} (h : Pieces olds s ps) :
    ∀ (pre : UString) (turns : Nat), s.length ≤ turns → substituteLoop olds news turns (pre ++ s) pre.length = some (pre ++ news.intercalate ps) := by
  have hdl : 0 < olds.length := by cases olds with
    | nil => exact absurd rfl hd
    | cons => simp
  induction h with
  | @last s hn =>
    intro pre turns _
    unfold substituteLoop
    rw [find_none hn]
    simp [List.intercalate]
  | @cut a b ps hm hb ih =>
    intro pre turns ht
    simp only [List.length_append] at ht
    obtain ⟨turns, rfl⟩ : ∃ k, turns = k + 1 := ⟨turns - 1, by omega⟩
    unfold substituteLoop
    rw [find_some hm]
    simp only
    have e1 : (pre ++ (a ++ olds ++ b)).take (pre.length + a.length) = pre ++ a := by
      have : pre ++ (a ++ olds ++ b) = (pre ++ a) ++ (olds ++ b) := by simp
      rw [this, ← List.length_append, List.take_left]
    have e2 : (pre ++ (a ++ olds ++ b)).drop (pre.length + a.length + olds.length) = b := by
      have : pre ++ (a ++ olds ++ b) = (pre ++ a ++ olds) ++ b := by simp
      rw [this, ← List.length_append, ← List.length_append, List.drop_left]
    rw [e1, e2]
    have := ih (pre ++ a ++ news) turns (by omega)
    simp only [List.length_append] at this
    rw [this]
    obtain ⟨p, ps', rfl⟩ : ∃ p ps', ps = p :: ps' := by
      cases ps with
      | nil => exact absurd rfl (pieces_ne_nil hb)
      | cons p ps' => exact ⟨p, ps', rfl⟩
    simp [List.intercalate]

/-- **C51** `substitute` puts the new text between the pieces: exactly the leftmost occurrences that do not overlap are
replaced, the replacement is not searched again. -/
theorem C51_substitute (s olds news : UString) (hd : olds ≠ []) (ps : List UString) (h : Pieces olds s ps) :
    substitute s olds news = some (news.intercalate ps) := by
  have := substituteLoop_eq olds news hd h [] s.length (Nat.le_refl _)
  simpa [substitute] using this

example : substitute [97, 97, 98, 97] [97] [97, 97] = some [97, 97, 97, 97, 98, 97, 97] := by decide

/-- **C51** With nothing to be replaced the loop does not end. -/
theorem C51_substitute_empty_false (s news : UString) (turns : Nat) : substituteLoop [] news turns s 0 = none := by
  have key : ∀ (turns : Nat) (s : UString) (p : Nat), p ≤ s.length → substituteLoop [] news turns s p = none := by
    intro turns
    induction turns with
    | zero =>
      intro s p hp
      have hf : find s [] p = some p := by
        unfold find
        rw [if_neg (by omega)]
        cases hs : s.drop p <;> simp [findIn]
      unfold substituteLoop
      rw [hf]
    | succ turns ih =>
      intro s p hp
      have hf : find s [] p = some p := by
        unfold find
        rw [if_neg (by omega)]
        cases hs : s.drop p <;> simp [findIn]
      unfold substituteLoop
      rw [hf]
      simp only
      apply ih
      simp only [List.length_append, List.length_take, List.length_drop, List.length_nil]
      omega
  exact key turns s 0 (Nat.zero_le _)

/-- A string as units that are escaped and units that are not; a backslash at the end stands alone. -/
def tokens : UString → List UString
  | [] => []
  | [u] => [[u]]
  | u :: v :: s => if u = 0x5c then [u, v] :: tokens s else [u] :: tokens (v :: s)

theorem tokens_flatten (s : UString) : (tokens s).flatten = s := by
  fun_induction tokens s <;> simp_all

/-- The pieces of a list of tokens between the tokens `d`. -/
def cutTokens (d : UString) (ts : List UString) : List UString := (ts.splitOn d).map List.flatten

theorem cutTokens_ne {d t : UString} (ts : List UString) (h : t ≠ d) : cutTokens d (t :: ts) = (cutTokens d ts).modifyHead (t ++ ·) := by
  unfold cutTokens
  rw [List.splitOn_cons_eq_if_modifyHead, if_neg (by simpa using h)]
  cases ts.splitOn d <;> simp

theorem cutTokens_eq (d : UString) (ts : List UString) : cutTokens d (d :: ts) = [] :: cutTokens d ts := by
  unfold cutTokens
  rw [List.splitOn_cons_eq_if_modifyHead, if_pos (by simp)]
  rfl

/-- The end of `splitEscaped`. -/
def finish (str : UString) (r : List UString × Nat) : List UString := if r.2 < str.length then r.1 ++ [str.drop r.2] else r.1

theorem finish_append (str : UString) (a b : List UString) (k : Nat) : finish str (a ++ b, k) = a ++ finish str (b, k) := by
  unfold finish
  simp only
  split <;> simp

theorem splitEscapedLoop_eq (delim : UInt16) (h5 : delim ≠ 0x5c) (s : UString) : ∀ (pre cur : UString) (turns : Nat), s.length < turns →
    finish (pre ++ cur ++ s) (splitEscapedLoop (pre ++ cur ++ s) delim turns (pre.length + cur.length) pre.length) =
      ((cutTokens [delim] (tokens s)).modifyHead (cur ++ ·)).filter (· ≠ []) := by
  have at0 : ∀ (pre cur s : UString) (u : UInt16), (pre ++ cur ++ u :: s)[pre.length + cur.length]? = some u := by
    intro pre cur s u
    rw [← List.length_append, List.getElem?_append_right (Nat.le_refl _), Nat.sub_self]
    rfl
  have stop : ∀ (str : UString) (turns i start : Nat), str.length ≤ i → splitEscapedLoop str delim turns i start = ([], start) := by
    intro str turns i start hi
    cases turns with
    | zero => rfl
    | succ turns =>
      unfold splitEscapedLoop
      rw [List.getElem?_eq_none hi]
  have final : ∀ (pre cur : UString), finish (pre ++ cur) ([], pre.length) = [cur].filter (· ≠ []) := by
    intro pre cur
    unfold finish
    simp only
    rw [List.drop_left]
    cases cur <;> simp
  have cutNil : cutTokens [delim] [] = [[]] := by simp [cutTokens]
  -- one unit that is not a backslash
  have one : ∀ (u : UInt16) (s : UString), u ≠ 0x5c → (∀ (pre cur : UString) (turns : Nat), s.length < turns →
      finish (pre ++ cur ++ s) (splitEscapedLoop (pre ++ cur ++ s) delim turns (pre.length + cur.length) pre.length) =
        ((cutTokens [delim] (tokens s)).modifyHead (cur ++ ·)).filter (· ≠ [])) →
      ∀ (pre cur : UString) (turns : Nat), (u :: s).length < turns →
      finish (pre ++ cur ++ u :: s) (splitEscapedLoop (pre ++ cur ++ u :: s) delim turns (pre.length + cur.length) pre.length) =
        ((cutTokens [delim] ([u] :: tokens s)).modifyHead (cur ++ ·)).filter (· ≠ []) := by
    intro u s hu ih pre cur turns ht
    obtain ⟨turns, rfl⟩ : ∃ k, turns = k + 1 := ⟨turns - 1, by omega⟩
    rw [List.length_cons] at ht
    unfold splitEscapedLoop
    rw [at0]
    simp only
    rw [if_neg hu]
    by_cases hd : u = delim
    · subst hd
      rw [if_pos rfl, cutTokens_eq, finish_append]
      have := ih (pre ++ cur ++ [u]) [] turns (by omega)
      simp only [List.append_nil, List.length_append, List.length_cons, List.length_nil, Nat.add_zero, Nat.zero_add] at this
      have e : pre ++ cur ++ [u] ++ s = pre ++ cur ++ u :: s := by simp
      rw [e] at this
      rw [this]
      have hid : ((cutTokens [u] (tokens s)).modifyHead fun x => [] ++ x) = cutTokens [u] (tokens s) := by
        cases cutTokens [u] (tokens s) <;> simp
      rw [hid]
      have hdrop : (pre ++ cur ++ u :: s).drop pre.length = cur ++ u :: s := by rw [List.append_assoc, List.drop_left]
      have hlen : pre.length + cur.length - pre.length = cur.length := by omega
      rw [hdrop, hlen, List.take_left]
      cases cur <;> simp
    · rw [if_neg hd, cutTokens_ne _ (by simpa using hd)]
      have := ih pre (cur ++ [u]) turns (by omega)
      have e : pre ++ (cur ++ [u]) ++ s = pre ++ cur ++ u :: s := by simp
      rw [e, List.length_append, List.length_cons, List.length_nil] at this
      rw [← Nat.add_assoc] at this
      rw [this]
      cases cutTokens [delim] (tokens s) <;> simp
  fun_induction tokens s with
  | case1 =>
    intro pre cur turns ht
    simp only [List.append_nil]
    rw [stop _ _ _ _ (by rw [List.length_append]), final, cutNil]
    simp
  | case2 u =>
    by_cases hu : u = 0x5c
    · intro pre cur turns ht
      obtain ⟨turns, rfl⟩ : ∃ k, turns = k + 1 := ⟨turns - 1, by omega⟩
      unfold splitEscapedLoop
      rw [at0]
      simp only
      rw [if_pos hu, stop _ _ _ _ (by simp only [List.length_append, List.length_cons, List.length_nil]; omega), List.append_assoc, final,
        cutTokens_ne _ (by rw [hu]; simpa using fun h => h5 h.symm), cutNil]
      simp
    · have := one u [] hu (by
        intro pre cur turns ht
        simp only [List.append_nil]
        rw [stop _ _ _ _ (by rw [List.length_append]), final]
        simp [tokens, cutNil])
      exact this
  | case3 v s ih =>
    intro pre cur turns ht
    obtain ⟨turns, rfl⟩ : ∃ k, turns = k + 1 := ⟨turns - 1, by omega⟩
    simp only [List.length_cons] at ht
    unfold splitEscapedLoop
    rw [at0]
    simp only [if_true]
    rw [cutTokens_ne _ (by simp)]
    have := ih pre (cur ++ [0x5c, v]) turns (by omega)
    have e : pre ++ (cur ++ [0x5c, v]) ++ s = pre ++ cur ++ 0x5c :: v :: s := by simp
    rw [e, List.length_append, List.length_cons, List.length_cons, List.length_nil, ← Nat.add_assoc] at this
    rw [this]
    cases cutTokens [delim] (tokens s) <;> simp
  | case4 u v s hu ih => exact one u (v :: s) hu ih

/-- **C51** `split_escaped` cuts at the delimiters that are not escaped and returns the pieces that are not empty, with
their escapes. -/
theorem C51_split_escaped (s : UString) (delim : UInt16) (h5 : delim ≠ 0x5c) :
    splitEscaped s delim = (cutTokens [delim] (tokens s)).filter (· ≠ []) := by
  have := splitEscapedLoop_eq delim h5 s [] [] (s.length + 1) (by omega)
  simp only [List.nil_append, List.length_nil, Nat.zero_add] at this
  have hid : ((cutTokens [delim] (tokens s)).modifyHead fun x => x) = cutTokens [delim] (tokens s) := by
    cases cutTokens [delim] (tokens s) <;> simp
  rw [hid] at this
  rw [← this]
  rfl

/-- Backslashes before the delimiters and the backslashes of a text. -/
def escape (delim : UInt16) (p : UString) : UString := p.flatMap fun u => if u = delim ∨ u = 0x5c then [0x5c, u] else [u]

theorem tokens_escape (delim : UInt16) (p rest : UString) :
    tokens (escape delim p ++ rest) = (p.map fun u => if u = delim ∨ u = 0x5c then [0x5c, u] else [u]) ++ tokens rest := by
  induction p with
  | nil => rfl
  | cons u p ih =>
    have e : escape delim (u :: p) ++ rest = (if u = delim ∨ u = 0x5c then [0x5c, u] else [u]) ++ (escape delim p ++ rest) := by
      simp [escape]
    rw [e, List.map_cons, List.cons_append, ← ih]
    split
    · simp [tokens]
    · next h =>
      have h5 : u ≠ 0x5c := fun h' => h (.inr h')
      cases hr : escape delim p ++ rest with
      | nil => simp [tokens]
      | cons v r => simp [tokens, h5]

/-- **C51** Texts that are escaped, joined with the delimiter and split again are the escaped texts. -/
theorem C51_escape_split (delim : UInt16) (h5 : delim ≠ 0x5c) (ps : List UString) (h : ∀ p ∈ ps, p ≠ []) :
    splitEscaped (join (ps.map (escape delim)) [delim]) delim = ps.map (escape delim) := by
  have hne : ∀ p : UString, p ≠ [] → escape delim p ≠ [] := by
    intro p hp
    cases p with
    | nil => exact absurd rfl hp
    | cons u p => simp only [escape, List.flatMap_cons]; split <;> simp
  have hdw : (ps.map (escape delim)).dropWhile (· = []) = ps.map (escape delim) := by
    cases ps with
    | nil => rfl
    | cons p ps => rw [List.map_cons, List.dropWhile_cons_of_neg (by simpa using hne p (h p (by simp)))]
  have cutMap : ∀ (p : UString) (ts : List UString), cutTokens [delim] ((p.map fun u => if u = delim ∨ u = 0x5c then [0x5c, u] else [u]) ++ ts) =
      (cutTokens [delim] ts).modifyHead (escape delim p ++ ·) := by
    intro p ts
    induction p with
    | nil => cases hc : cutTokens [delim] ts <;> simp [escape, hc]
    | cons u p ih =>
      rw [List.map_cons, List.cons_append, cutTokens_ne _ (by
        split
        · simp
        · next h' => simpa using fun e => h' (.inl e)), ih]
      cases cutTokens [delim] ts <;> simp [escape]
  have tokCons : ∀ s : UString, tokens (delim :: s) = [delim] :: tokens s := by
    intro s
    cases s <;> simp [tokens, h5]
  rw [C51_split_escaped _ _ h5, C51_join, hdw]
  induction ps with
  | nil => simp [List.intercalate, tokens, cutTokens]
  | cons p ps ih =>
    have hp := hne p (h p (by simp))
    cases ps with
    | nil =>
      have e : ([delim] : UString).intercalate ([p].map (escape delim)) = escape delim p ++ [] := by simp [List.intercalate]
      rw [e, tokens_escape, cutMap]
      simp [tokens, cutTokens, hp]
    | cons q ps =>
      have e : ([delim] : UString).intercalate ((p :: q :: ps).map (escape delim)) =
          escape delim p ++ (delim :: ([delim] : UString).intercalate ((q :: ps).map (escape delim))) := by simp [List.intercalate]
      have hd2 : ((q :: ps).map (escape delim)).dropWhile (· = []) = (q :: ps).map (escape delim) := by
        rw [List.map_cons, List.dropWhile_cons_of_neg (by simpa using hne q (h q (by simp)))]
      have ih := ih (fun p hp => h p (by simp [hp])) hd2
      rw [e, tokens_escape, cutMap, tokCons, cutTokens_eq]
      simp only [List.modifyHead_cons, List.append_nil]
      rw [List.filter_cons_of_pos (by simpa using hp), ih]
      rfl

example : splitEscaped [97, 0x5c, 32, 98, 32, 32, 0x5c, 0x5c, 32, 99] 32 = [[97, 0x5c, 32, 98], [0x5c, 0x5c], [99]] := by decide

/-! ## C52 -/

/-- **C52** `startswith`. -/
theorem C52_startswith (s p : UString) : ∃ b, startswith s p = .ok b ∧ (b = true ↔ ∃ r, s = p ++ r) := by
  unfold startswith
  split
  · next h =>
    refine ⟨_, by simp [substr]; rfl, ?_⟩
    simp only [beq_iff_eq]
    constructor
    · intro e
      have h2 := List.take_append_drop p.length s
      rw [e] at h2
      exact ⟨_, h2.symm⟩
    · rintro ⟨r, rfl⟩
      simp
  · next h =>
    refine ⟨false, rfl, ?_⟩
    simp only [Bool.false_eq_true, false_iff]
    rintro ⟨r, rfl⟩
    exact h (by rw [List.length_append]; omega)

/-- **C52** `endswith`. -/
theorem C52_endswith (s p : UString) : ∃ b, endswith s p = .ok b ∧ (b = true ↔ ∃ r, s = r ++ p) := by
  unfold endswith
  split
  · next h =>
    refine ⟨_, by unfold substr; rw [if_neg (by omega)]; rfl, ?_⟩
    rw [beq_iff_eq, List.take_of_length_le (by rw [List.length_drop]; omega)]
    constructor
    · intro e
      have h2 := List.take_append_drop (s.length - p.length) s
      rw [e] at h2
      exact ⟨_, h2.symm⟩
    · rintro ⟨r, rfl⟩
      simp
  · next h =>
    refine ⟨false, rfl, ?_⟩
    simp only [Bool.false_eq_true, false_iff]
    rintro ⟨r, rfl⟩
    exact h (by rw [List.length_append]; omega)

example : startswith [1, 2, 3] [1, 2] = .ok true ∧ startswith [1] [1, 2] = .ok false ∧ endswith [1, 2, 3] [2, 3] = .ok true ∧
    endswith [1, 2, 3] [1, 2] = .ok false := by decide

/-! ## C64: word-bound blanks -/

/-- A word-bound blank with this content. -/
def wblank (x : UString) : UString := [0x5b, 0x5b] ++ x ++ [0x5d, 0x5d]

/-- **C64** Merging word-bound blanks joins their contents with `; `; an empty string changes nothing. -/
theorem C64_merge (x y : UString) : mergeWblanks (wblank x) (wblank y) = .ok (wblank (x ++ [0x3b, 0x20] ++ y)) ∧
    mergeWblanks [] (wblank y) = .ok (wblank y) ∧ mergeWblanks (wblank x) [] = .ok (wblank x) := by
  have hx : ∀ x, wblank x ≠ [] := fun x => by simp [wblank]
  refine ⟨?_, ?_, ?_⟩
  · unfold mergeWblanks
    rw [if_neg (hx x), if_neg (hx y)]
    have hl : (wblank x).length = x.length + 4 := by simp [wblank]
    have hl2 : (wblank y).length = y.length + 4 := by simp [wblank]
    unfold substr
    rw [if_neg (by omega), if_neg (by omega : ¬ 2 > (wblank y).length)]
    simp only [Res.bind_ok, Res.pure_eq]
    rw [if_neg (by omega), hl, hl2]
    have e1 : ((wblank x).drop 0).take (x.length + 4 - 2) = [0x5b, 0x5b] ++ x := by
      unfold wblank
      rw [List.drop_zero]
      have : x.length + 4 - 2 = ([0x5b, 0x5b] ++ x : UString).length := by simp
      rw [this, List.take_left]
    have e2 : ((wblank y).drop 2).take (y.length + 4) = y ++ [0x5d, 0x5d] := by
      unfold wblank
      rw [List.take_of_length_le (by simp)]
      rfl
    rw [e1, e2]
    simp [wblank]
  · unfold mergeWblanks
    rw [if_pos rfl]
  · unfold mergeWblanks
    rw [if_neg (hx x), if_pos rfl]

/-- **C64** Merging is associative. -/
theorem C64_assoc (x y z : UString) : (mergeWblanks (wblank x) (wblank y)).bind (mergeWblanks · (wblank z)) =
    (mergeWblanks (wblank y) (wblank z)).bind (mergeWblanks (wblank x)) := by
  have h1 := (C64_merge x y).1
  have h2 := (C64_merge y z).1
  rw [h1, h2]
  show mergeWblanks _ _ = mergeWblanks _ _
  rw [(C64_merge _ z).1, (C64_merge x _).1]
  simp

/-- **C64** Strings that are not word-bound blanks: one unit in the second place throws, one in the first is kept. -/
theorem C64_short (u : UInt16) (y : UString) : mergeWblanks (wblank y) [u] = .exception ∧
    mergeWblanks [u] (wblank y) = .ok ([u] ++ [0x3b, 0x20] ++ y ++ [0x5d, 0x5d]) := by
  have hl : (wblank y).length = y.length + 4 := by simp [wblank]
  have hne : wblank y ≠ [] := by simp [wblank]
  refine ⟨?_, ?_⟩
  · unfold mergeWblanks
    rw [if_neg hne, if_neg (by simp)]
    unfold substr
    have e1 : ([u] : UString).length = 1 := rfl
    rw [if_neg (by omega), if_pos (by omega : 2 > ([u] : UString).length)]
    rfl
  · unfold mergeWblanks
    rw [if_neg (by simp), if_neg hne]
    unfold substr
    rw [if_neg (by simp), if_neg (by omega : ¬ 2 > (wblank y).length), List.take_of_length_le (by simp : ((wblank y).drop 2).length ≤ (wblank y).length)]
    simp [wblank]

/-! ## C65: removing space at the ends -/

theorem ofNat_toNat {n : Nat} (h : n < 65536) : (UInt16.ofNat n).toNat = n := by rw [UInt16.toNat_ofNat']; omega

theorem utf16_shape {c : Nat} (h : Scalar c) :
    (∃ u, utf16 c = [u] ∧ isLead u = false ∧ isTrail u = false ∧ u.toNat = c) ∨
    (∃ u v, utf16 c = [u, v] ∧ isLead u = true ∧ isTrail v = true ∧ isTrail u = false ∧ isLead v = false ∧ (supplementary u v).toNat = c) := by
  unfold utf16
  by_cases h1 : c < 0x10000
  · refine .inl ⟨_, if_pos h1, ?_, ?_, ofNat_toNat h1⟩
    · rw [Bool.eq_false_iff, Ne, isLead_iff, ofNat_toNat h1]; unfold Scalar at h; omega
    · rw [Bool.eq_false_iff, Ne, isTrail_iff, ofNat_toNat h1]; unfold Scalar at h; omega
  · have hc : c < 0x110000 := by unfold Scalar at h; omega
    have e1 : (UInt16.ofNat (0xd800 + (c - 0x10000) / 1024)).toNat = 0xd800 + (c - 0x10000) / 1024 := ofNat_toNat (by omega)
    have e2 : (UInt16.ofNat (0xdc00 + c % 1024)).toNat = 0xdc00 + c % 1024 := ofNat_toNat (by omega)
    have l1 : isLead (UInt16.ofNat (0xd800 + (c - 0x10000) / 1024)) = true := by rw [isLead_iff, e1]; omega
    have l2 : isTrail (UInt16.ofNat (0xdc00 + c % 1024)) = true := by rw [isTrail_iff, e2]; omega
    refine .inr ⟨_, _, if_neg h1, l1, l2, ?_, ?_, ?_⟩
    · rw [Bool.eq_false_iff, Ne, isTrail_iff, e1]; omega
    · rw [Bool.eq_false_iff, Ne, isLead_iff, e2]; omega
    · rw [supplementary_toNat _ _ l1 l2, e1, e2]; omega

theorem unit_at (a b : UString) (u : UInt16) : unit (a ++ u :: b) a.length = .ok u := by
  unfold unit
  rw [List.getElem?_append_right (Nat.le_refl _), Nat.sub_self]
  rfl

theorem unit_at' (a b : UString) (u : UInt16) (i : Nat) (hi : i = a.length) : unit (a ++ u :: b) i = .ok u := hi ▸ unit_at a b u

theorem enc_append (a b : List Nat) : enc (a ++ b) = enc a ++ enc b := by simp [enc]
theorem enc_cons (c : Nat) (b : List Nat) : enc (c :: b) = utf16 c ++ enc b := by simp [enc]
theorem utf16_pos (c : Nat) : 0 < (utf16 c).length := by unfold utf16; split <;> simp

theorem get_at (a : UString) (c : Nat) (b after : UString) (hc : Scalar c) :
    u16get (a ++ utf16 c ++ b ++ after) 0 a.length (a ++ utf16 c ++ b).length = .ok c := by
  rcases utf16_shape hc with ⟨u, e, h1, h2, h3⟩ | ⟨u, v, e, h1, h2, h3, h4, h5⟩
  · unfold u16get
    rw [e]
    have : a ++ [u] ++ b ++ after = a ++ u :: (b ++ after) := by simp
    rw [this, unit_at]
    simp only [Res.bind_ok]
    rw [h1, h2]
    simp [h3]
  · unfold u16get
    rw [e]
    have : a ++ [u, v] ++ b ++ after = a ++ u :: (v :: b ++ after) := by simp
    have e2 : a ++ [u, v] ++ b ++ after = (a ++ [u]) ++ v :: (b ++ after) := by simp
    rw [this, unit_at]
    simp only [Res.bind_ok]
    rw [h1, if_pos rfl, if_pos (by simp only [List.length_append, List.length_cons, List.length_nil]; omega), ← this, e2,
      unit_at' (a ++ [u]) _ v _ (by simp)]
    simp [h2, h5]

theorem fwd_at (a : UString) (c : Nat) (b after : UString) (hc : Scalar c) :
    u16fwd (a ++ utf16 c ++ b ++ after) a.length (a ++ utf16 c ++ b).length = .ok (a ++ utf16 c).length := by
  rcases utf16_shape hc with ⟨u, e, h1, h2, h3⟩ | ⟨u, v, e, h1, h2, h3, h4, h5⟩
  · unfold u16fwd
    rw [e]
    have : a ++ [u] ++ b ++ after = a ++ u :: (b ++ after) := by simp
    rw [this, unit_at]
    simp [h1]
  · unfold u16fwd
    rw [e]
    have : a ++ [u, v] ++ b ++ after = a ++ u :: (v :: b ++ after) := by simp
    have e2 : a ++ [u, v] ++ b ++ after = (a ++ [u]) ++ v :: (b ++ after) := by simp
    rw [this, unit_at]
    simp only [Res.bind_ok]
    rw [h1, if_pos (by simp only [Bool.true_and, List.length_append, List.length_cons, List.length_nil, decide_eq_true_eq]; omega), ← this, e2,
      unit_at' (a ++ [u]) _ v _ (by simp)]
    simp [h2]

theorem back_at (a : UString) (c start : Nat) (b : UString) (hc : Scalar c) (hs : start ≤ a.length) :
    u16back (a ++ utf16 c ++ b) start (a ++ utf16 c).length = .ok a.length := by
  unfold u16back
  rw [if_neg (by have := utf16_pos c; rw [List.length_append]; omega)]
  rcases utf16_shape hc with ⟨u, e, h1, h2, h3⟩ | ⟨u, v, e, h1, h2, h3, h4, h5⟩
  · rw [e]
    have : a ++ [u] ++ b = a ++ u :: b := by simp
    rw [this, unit_at' a b u _ (by simp)]
    simp [h2]
  · rw [e]
    have e1 : a ++ [u, v] ++ b = (a ++ [u]) ++ v :: b := by simp
    have e2 : a ++ [u, v] ++ b = a ++ u :: (v :: b) := by simp
    rw [e1, unit_at' (a ++ [u]) b v _ (by simp)]
    simp only [Res.bind_ok]
    rw [h2, if_pos (by simp only [Bool.true_and, List.length_append, List.length_cons, List.length_nil, decide_eq_true_eq]; omega), ← e1, e2,
      unit_at' a _ u _ (by simp)]
    simp [h1]

theorem trimFront_ok (sp : Nat → Bool) (c : Nat) (hc : Scalar c) (hcs : sp c = false) (post : List Nat) (after : UString) (pre : List Nat) :
    ∀ (done : List Nat) (turns : Nat), (∀ x ∈ pre, Scalar x ∧ sp x = true) → pre.length < turns →
      trimFront sp (enc (done ++ pre ++ c :: post) ++ after) (enc (done ++ pre ++ c :: post)).length turns (enc done).length =
        .ok (enc (done ++ pre)).length := by
  induction pre with
  | nil =>
    intro done turns _ ht
    obtain ⟨turns, rfl⟩ : ∃ k, turns = k + 1 := ⟨turns - 1, by simp at ht; omega⟩
    have e : enc (done ++ [] ++ c :: post) = enc done ++ utf16 c ++ enc post := by simp [enc_append, enc_cons]
    unfold trimFront
    rw [e, get_at _ c _ _ hc]
    simp [hcs]
  | cons x pre ih =>
    intro done turns hx ht
    obtain ⟨turns, rfl⟩ : ∃ k, turns = k + 1 := ⟨turns - 1, by simp at ht; omega⟩
    have e : enc (done ++ (x :: pre) ++ c :: post) = enc done ++ utf16 x ++ enc (pre ++ c :: post) := by simp [enc_append, enc_cons]
    unfold trimFront
    rw [e, get_at _ x _ _ (hx x (by simp)).1]
    simp only [Res.bind_ok, (hx x (by simp)).2, Bool.not_true, Bool.false_eq_true, if_false]
    rw [fwd_at _ x _ _ (hx x (by simp)).1]
    simp only [Res.bind_ok]
    have := ih (done ++ [x]) turns (fun y hy => hx y (by simp [hy])) (by simp at ht; omega)
    have e2 : enc (done ++ [x] ++ pre ++ c :: post) = enc done ++ utf16 x ++ enc (pre ++ c :: post) := by simp [enc_append, enc_cons]
    have e3 : (enc (done ++ [x])).length = (enc done ++ utf16 x).length := by simp [enc_append, enc]
    rw [e2, e3] at this
    rw [this]
    simp

theorem trimBack_ok (sp : Nat → Bool) (c : Nat) (hc : Scalar c) (hcs : sp c = false) (pre : List Nat) (after : UString) (begin : Nat)
    (hb : begin ≤ (enc pre).length) (post : List Nat) :
    ∀ (x : Nat) (tail : List Nat) (turns e : Nat), (∀ y ∈ post, Scalar y ∧ sp y = true) → Scalar x → e > begin → post.length + 1 < turns →
      trimBack sp (enc (pre ++ [c] ++ post ++ x :: tail) ++ after) (enc (pre ++ [c] ++ post ++ x :: tail)).length begin turns e (enc (pre ++ [c] ++ post)).length =
        .ok (enc (pre ++ [c])).length := by
  induction post using List.reverseRec with
  | nil =>
    intro x tail turns e _ hx he ht
    obtain ⟨turns, rfl⟩ : ∃ k, turns = k + 1 := ⟨turns - 1, by omega⟩
    unfold trimBack
    rw [if_pos he]
    have e1 : enc (pre ++ [c] ++ [] ++ x :: tail) = enc pre ++ utf16 c ++ enc (x :: tail) := by simp [enc_append, enc_cons]
    have e2 : (enc (pre ++ [c] ++ [])).length = (enc pre ++ utf16 c).length := by simp [enc_append, enc]
    have e3 : enc pre ++ utf16 c ++ enc (x :: tail) ++ after = enc pre ++ utf16 c ++ (enc (x :: tail) ++ after) := by simp
    rw [e1, e2, e3, back_at _ c 0 _ hc (Nat.zero_le _)]
    simp only [Res.bind_ok]
    rw [← e3, get_at _ c _ _ hc]
    simp [hcs, enc_append, enc]
  | append_singleton post y ih =>
    intro x tail turns e hp hx he ht
    obtain ⟨turns, rfl⟩ : ∃ k, turns = k + 1 := ⟨turns - 1, by omega⟩
    have hy := hp y (by simp)
    unfold trimBack
    rw [if_pos he]
    have e1 : enc (pre ++ [c] ++ (post ++ [y]) ++ x :: tail) = enc (pre ++ [c] ++ post) ++ utf16 y ++ enc (x :: tail) := by simp [enc_append, enc_cons]
    have e2 : (enc (pre ++ [c] ++ (post ++ [y]))).length = (enc (pre ++ [c] ++ post) ++ utf16 y).length := by simp [enc_append, enc]
    have e3 : enc (pre ++ [c] ++ post) ++ utf16 y ++ enc (x :: tail) ++ after = enc (pre ++ [c] ++ post) ++ utf16 y ++ (enc (x :: tail) ++ after) := by simp
    rw [e1, e2, e3, back_at _ y 0 _ hy.1 (Nat.zero_le _)]
    simp only [Res.bind_ok]
    rw [← e3, get_at _ y _ _ hy.1]
    simp only [Res.bind_ok, hy.2, Bool.not_true, Bool.false_eq_true, if_false]
    have := ih y (x :: tail) turns (enc (pre ++ [c] ++ post) ++ utf16 y).length (fun z hz => hp z (by simp [hz])) hy.1 (by
      have := utf16_pos y
      simp only [enc_append, List.length_append]
      omega) (by simp at ht; omega)
    have e4 : enc (pre ++ [c] ++ post ++ y :: x :: tail) = enc (pre ++ [c] ++ post) ++ utf16 y ++ enc (x :: tail) := by simp [enc_append, enc_cons]
    rw [e4] at this
    exact this

/-- **C65** `trim` of a text that has something else than space: the text without the space at both ends, whatever is
behind it in memory. -/
theorem C65_trim (sp : Nat → Bool) (pre mid post : List Nat) (after : UString) (hs : ∀ x ∈ pre ++ mid ++ post, Scalar x)
    (hpre : ∀ x ∈ pre, sp x = true) (hpost : ∀ x ∈ post, sp x = true) (hfirst : ∃ c ∈ mid.head?, sp c = false) (hlast : ∃ c ∈ mid.getLast?, sp c = false) :
    trim sp (enc (pre ++ mid ++ post)) after = .ok (enc mid) := by
  obtain ⟨f, hf, hfs⟩ := hfirst
  obtain ⟨l, hl, hls⟩ := hlast
  obtain ⟨m1, rfl⟩ : ∃ m1, mid = f :: m1 := by
    cases mid with
    | nil => simp at hf
    | cons x m => simp at hf; exact ⟨m, by rw [hf]⟩
  obtain ⟨m2, hm2⟩ : ∃ m2, f :: m1 = m2 ++ [l] := by
    rcases List.eq_nil_or_concat (f :: m1) with h | ⟨m2, x, h⟩
    · simp at h
    · rw [h, List.concat_eq_append, List.getLast?_append] at hl
      simp at hl
      exact ⟨m2, by rw [h, hl]; simp⟩
  have hfS : Scalar f := hs f (by simp)
  have hlS : Scalar l := hs l (by rw [hm2]; simp)
  have hpreS : ∀ x ∈ pre, Scalar x ∧ sp x = true := fun x hx => ⟨hs x (by simp [hx]), hpre x hx⟩
  have hlen : ∀ cs : List Nat, cs.length ≤ (enc cs).length := by
    intro cs
    induction cs with
    | nil => simp
    | cons c cs ih => rw [enc_cons, List.length_append, List.length_cons]; have := utf16_pos c; omega
  have hne : enc (pre ++ f :: m1 ++ post) ≠ [] := by
    intro h
    have := hlen (pre ++ f :: m1 ++ post)
    rw [h] at this
    simp at this
  unfold trim
  rw [if_neg hne]
  have hfront := trimFront_ok sp f hfS hfs (m1 ++ post) after pre [] ((enc (pre ++ f :: m1 ++ post) ++ after).length + 1) hpreS (by
    have := hlen (pre ++ f :: m1 ++ post)
    simp only [List.length_append, List.length_cons] at this ⊢
    omega)
  have e0 : pre ++ f :: m1 ++ post = [] ++ pre ++ f :: (m1 ++ post) := by simp
  rw [← e0] at hfront
  have h0 : (enc []).length = 0 := rfl
  rw [h0] at hfront
  simp only [List.nil_append] at hfront
  simp only
  rw [hfront]
  simp only [Res.bind_ok]
  have hdrop : (enc (pre ++ f :: m1 ++ post)).drop (enc pre).length = enc (f :: m1 ++ post) := by
    rw [List.append_assoc, enc_append, List.drop_left]
  have hle : (enc pre).length ≤ (enc (pre ++ f :: m1 ++ post)).length := by simp only [enc_append, List.length_append]; omega
  rcases List.eq_nil_or_concat post with rfl | ⟨post', y, hpost'⟩
  · -- the last code point is not a space
    have e1 : enc (pre ++ f :: m1 ++ []) = enc (pre ++ m2) ++ utf16 l ++ [] := by rw [hm2]; simp [enc_append, enc]
    have hb := back_at (enc (pre ++ m2)) l 0 ([] ++ after) hlS (Nat.zero_le _)
    have hg := get_at (enc (pre ++ m2)) l [] after hlS
    rw [← List.append_assoc] at hb
    have e2 : (enc (pre ++ m2) ++ utf16 l).length = (enc (pre ++ f :: m1 ++ [])).length := by rw [e1]; simp
    rw [e2] at hb
    rw [← e1] at hb hg
    rw [hb]
    simp only [Res.bind_ok]
    rw [hg]
    simp only [Res.bind_ok, hls, Bool.not_false, if_true]
    by_cases hp : (enc pre).length = 0
    · have : pre = [] := by
        have := hlen pre
        cases pre with
        | nil => rfl
        | cons => simp at this; omega
      subst this
      rw [if_pos hp]
      simp
    · rw [if_neg hp]
      unfold substr
      rw [if_neg (by omega), hdrop, List.take_of_length_le (by
        simp only [enc_append, List.length_append]; omega)]
      simp
  · rw [List.concat_eq_append] at hpost'
    subst hpost'
    have hyS : Scalar y := hs y (by simp)
    have hys : sp y = true := hpost y (by simp)
    have e1 : enc (pre ++ f :: m1 ++ (post' ++ [y])) = enc (pre ++ f :: m1 ++ post') ++ utf16 y ++ [] := by simp [enc_append, enc]
    have hb := back_at (enc (pre ++ f :: m1 ++ post')) y 0 ([] ++ after) hyS (Nat.zero_le _)
    have hg := get_at (enc (pre ++ f :: m1 ++ post')) y [] after hyS
    rw [← List.append_assoc] at hb
    have e2 : (enc (pre ++ f :: m1 ++ post') ++ utf16 y).length = (enc (pre ++ f :: m1 ++ (post' ++ [y]))).length := by rw [e1]; simp
    rw [e2] at hb
    rw [← e1] at hb hg
    rw [hb]
    simp only [Res.bind_ok]
    rw [hg]
    simp only [Res.bind_ok, hys, Bool.not_true, Bool.false_eq_true, if_false]
    have hbk := trimBack_ok sp l hlS hls (pre ++ m2) after (enc pre).length (by simp only [enc_append, List.length_append]; omega) post' y []
      ((enc (pre ++ f :: m1 ++ (post' ++ [y]))).length + 1) (enc (pre ++ f :: m1 ++ (post' ++ [y]))).length
      (fun z hz => ⟨hs z (by simp [hz]), hpost z (by simp [hz])⟩) hyS (by
        have := utf16_pos f
        simp only [enc_append, enc_cons, List.length_append]
        omega) (by
        have := hlen (pre ++ f :: m1 ++ (post' ++ [y]))
        simp only [List.length_append, List.length_cons, List.length_nil] at this
        omega)
    have e3 : pre ++ m2 ++ [l] ++ post' ++ y :: [] = pre ++ f :: m1 ++ (post' ++ [y]) := by rw [hm2]; simp
    have e4 : pre ++ m2 ++ [l] ++ post' = pre ++ f :: m1 ++ post' := by rw [hm2]; simp
    have e5 : pre ++ m2 ++ [l] = pre ++ f :: m1 := by rw [hm2]; simp
    rw [e3, e4, e5] at hbk
    rw [hbk]
    simp only [Res.bind_ok]
    have e6 : (enc (pre ++ f :: m1)).length = (enc pre).length + (enc (f :: m1)).length := by rw [enc_append, List.length_append]
    rw [if_neg (by omega)]
    unfold substr
    rw [if_neg (by omega), hdrop, e6]
    have e7 : (enc pre).length + (enc (f :: m1)).length - (enc pre).length = (enc (f :: m1)).length := by omega
    rw [e7, enc_append, List.take_left]

/-- **C65** Of the empty text it is the text, and of a text of space only the empty text, if a null unit follows. -/
theorem C65_trim_space (sp : Nat → Bool) (h0 : sp 0 = false) (cs : List Nat) (hs : ∀ x ∈ cs, Scalar x ∧ sp x = true) (after : UString) :
    trim sp (enc cs) (0 :: after) = .ok [] := by
  rcases List.eq_nil_or_concat cs with rfl | ⟨init, y, hc⟩
  · rfl
  · rw [List.concat_eq_append] at hc
    have hlen : ∀ cs : List Nat, cs.length ≤ (enc cs).length := by
      intro cs
      induction cs with
      | nil => simp
      | cons c cs ih => rw [enc_cons, List.length_append, List.length_cons]; have := utf16_pos c; omega
    -- the first loop stops at the null unit
    have hfront : ∀ (rest done : List Nat) (turns : Nat), done ++ rest = cs → rest.length < turns →
        trimFront sp (enc cs ++ 0 :: after) (enc cs).length turns (enc done).length = .ok (enc cs).length := by
      intro rest
      induction rest with
      | nil =>
        intro done turns hd ht
        obtain ⟨turns, rfl⟩ : ∃ k, turns = k + 1 := ⟨turns - 1, by simp at ht; omega⟩
        rw [List.append_nil] at hd
        subst hd
        unfold trimFront u16get
        rw [unit_at]
        have z1 : isLead (0 : UInt16) = false := by decide
        have z2 : isTrail (0 : UInt16) = false := by decide
        have z3 : (0 : UInt16).toNat = 0 := rfl
        simp [z1, z2, z3, h0]
      | cons x rest ih =>
        intro done turns hd ht
        obtain ⟨turns, rfl⟩ : ∃ k, turns = k + 1 := ⟨turns - 1, by simp at ht; omega⟩
        have hx := hs x (by rw [← hd]; simp)
        have e : enc cs = enc done ++ utf16 x ++ enc rest := by rw [← hd]; simp [enc_append, enc_cons]
        have := ih (done ++ [x]) turns (by rw [← hd]; simp) (by simp at ht; omega)
        have e3 : (enc (done ++ [x])).length = (enc done ++ utf16 x).length := by simp [enc_append, enc]
        rw [e3] at this
        have hg := get_at (enc done) x (enc rest) (0 :: after) hx.1
        have hf := fwd_at (enc done) x (enc rest) (0 :: after) hx.1
        rw [← e] at hg hf
        unfold trimFront
        rw [hg]
        simp only [Res.bind_ok, hx.2, Bool.not_true, Bool.false_eq_true, if_false]
        rw [hf]
        exact this
    have hy := hs y (by rw [hc]; simp)
    unfold trim
    rw [if_neg (by
      intro h
      have := hlen cs
      rw [h, hc] at this
      simp at this)]
    simp only
    have h1 := hfront cs [] ((enc cs ++ 0 :: after).length + 1) rfl (by
      have := hlen cs
      simp only [List.length_append]
      omega)
    have hz : (enc []).length = 0 := rfl
    rw [hz] at h1
    rw [h1]
    simp only [Res.bind_ok]
    have e1 : enc cs = enc init ++ utf16 y ++ [] := by rw [hc]; simp [enc_append, enc]
    have hb := back_at (enc init) y 0 ([] ++ 0 :: after) hy.1 (Nat.zero_le _)
    have hg := get_at (enc init) y [] (0 :: after) hy.1
    rw [← List.append_assoc] at hb
    have e2 : (enc init ++ utf16 y).length = (enc cs).length := by rw [e1]; simp
    rw [e2] at hb
    rw [← e1] at hb hg
    rw [hb]
    simp only [Res.bind_ok]
    rw [hg]
    simp only [Res.bind_ok, hy.2, Bool.not_true, Bool.false_eq_true, if_false]
    unfold trimBack
    rw [if_neg (by omega)]
    simp only [Res.bind_ok]
    unfold substr
    rw [if_neg (by omega), if_neg (by omega), Nat.sub_self]
    simp

/-- Space as in ASCII. -/
def exSpace (c : Nat) : Bool := c == 32

example : trim exSpace (enc [32, 32, 97, 32, 0x1f600, 32]) [] = .ok (enc [97, 32, 0x1f600]) := by decide +kernel

/-- **C65** A text of space only is read beyond its end: undefined if nothing is known to follow, and an exception if
more space follows. -/
theorem C65_trim_false : trim exSpace [32] [] = .ub ∧ trim exSpace [32] [32, 97] = .exception := by decide +kernel

/-! ## C66: the case pattern of a word -/

/-- **C66** `getcase`: the first letter says whether the first code point is upper case; the second whether the last one is
too, for words of more than one code point that begin with upper case. -/
theorem C66_getcase (up : Nat → Bool) (c : Nat) (cs : List Nat) (hs : ∀ x ∈ c :: cs, Scalar x) :
    ∃ b1 b2, getcase up (enc (c :: cs)) = .ok [if b1 then 0x41 else 0x61, if b2 then 0x41 else 0x61] ∧
      (b1 = true ↔ up c = true) ∧ (b2 = true ↔ up c = true ∧ ∃ l ∈ cs.getLast?, up l = true) := by
  have hc := hs c (by simp)
  have e : enc (c :: cs) = [] ++ utf16 c ++ enc cs := by simp [enc_cons]
  have hg := get_at [] c (enc cs) [] hc
  have hf := fwd_at [] c (enc cs) [] hc
  rw [List.append_nil, ← e] at hg hf
  have hne : enc (c :: cs) ≠ [] := by
    rw [enc_cons]
    have := utf16_pos c
    intro h
    have := congrArg List.length h
    rw [List.length_append, List.length_nil] at this
    omega
  unfold getcase
  rw [if_neg hne]
  simp only
  have z : ([] : UString).length = 0 := rfl
  rw [z] at hg hf
  rw [hg]
  simp only [Res.bind_ok]
  rw [hf]
  simp only [Res.bind_ok, List.nil_append]
  cases hu : up c with
  | false => exact ⟨false, false, by simp, by simp, by simp⟩
  | true =>
    simp only [if_true]
    rcases List.eq_nil_or_concat cs with rfl | ⟨init, y, hcs⟩
    · rw [if_neg (by simp [enc])]
      exact ⟨true, false, by simp, by simp, by simp⟩
    · rw [List.concat_eq_append] at hcs
      subst hcs
      have hy := hs y (by simp)
      rw [if_pos (by
        have := utf16_pos y
        simp only [enc_cons, enc_append, List.length_append]
        omega)]
      have e1 : enc (c :: (init ++ [y])) = enc (c :: init) ++ utf16 y ++ [] := by simp [enc_append, enc]
      have hb := back_at (enc (c :: init)) y (utf16 c).length [] hy (by rw [enc_cons, List.length_append]; omega)
      have hg2 := get_at (enc (c :: init)) y [] [] hy
      have e2 : (enc (c :: init) ++ utf16 y).length = (enc (c :: (init ++ [y]))).length := by rw [e1]; simp
      rw [e2, ← e1] at hb
      rw [List.append_nil, ← e1] at hg2
      rw [hb]
      simp only [Res.bind_ok]
      rw [hg2]
      simp only [Res.bind_ok]
      cases hv : up y with
      | false => exact ⟨true, false, by simp, by simp, by simp [hv]⟩
      | true => exact ⟨true, true, by simp, by simp, by simp [hv]⟩

example : getcase (fun c => 65 ≤ c && c ≤ 90) (enc [65, 98, 0x1f600, 67]) = .ok [0x41, 0x41] := by decide +kernel

end Verif.Str
