import Verif.CharFiles.Props
import Verif.Proc.Props

/-!
# C105 for the analyser

The settings of the model of analysis (`Proc`) that the files give.
-/

namespace Verif.CharFiles

open Verif.Proc

variable {W : Type}

/-- The analyser with the data members of `Chars` (fst_processor.cc:197-200, 888-891). -/
def withChars (σ : Setting W) (s : Chars) : Setting W :=
  { σ with
    useIgnored := s.useIgnored || s.useDefault
    ignored := s.ignored
    useRestore := s.useRestore
    restore := s.restore.map fun e => ((e.1 : Int), e.2.map fun r : Nat => (r : Int)) }

/-- **C105** What the analyser may pass over between two characters of the text (C71) is what the options say: characters that a file lists, and the soft hyphen. -/
theorem C105_analyser (σ : Setting W) (nd : Bool) (icx rcx : List File) (s : Chars) (h : configure nd icx rcx = .ok s) (p : Piece) (hp : p.Ok (withChars σ s)) :
    ∀ c ∈ p.skipped, (∃ e ∈ all icx, e.name = .char ∧ ∃ u t, e.value = some (u :: t) ∧ u.toNat = c) ∨ (c = 173 ∧ (icx ≠ [] ∨ (nd = false ∧ rcx = []))) := by
  intro c hc
  obtain ⟨-, h0, -, hu, hi⟩ := hp.1 c hc
  have hg : ignores s c = true := by
    simp only [ignores, Bool.and_eq_true, List.contains_iff_mem]
    exact ⟨hu, hi⟩
  rcases (C105_ignored nd icx rcx s h c).1 hg with ⟨e, he, hn, hs | hs⟩ | hd
  · exact .inl ⟨e, he, hn, hs⟩
  · exact absurd hs.2 h0
  · exact .inr hd

/-- **C105** The condition for null flushing (`C71_flushing`) holds exactly if no file lists the null character, which it does by a `char` without a value. -/
theorem C105_null (σ : Setting W) (nd : Bool) (icx rcx : List File) (s : Chars) (h : configure nd icx rcx = .ok s) :
    ((withChars σ s).useIgnored = true → 0 ∉ (withChars σ s).ignored) ↔
      ∀ e ∈ all icx, e.name = .char → ∃ u t, e.value = some (u :: t) ∧ u ≠ 0 := by
  have hg := C105_ignored nd icx rcx s h 0
  have e1 : ((withChars σ s).useIgnored = true → 0 ∉ (withChars σ s).ignored) ↔ ¬ ignores s 0 = true := by
    simp only [ignores, Bool.and_eq_true, List.contains_iff_mem, not_and]
    rfl
  rw [e1, hg]
  constructor
  · intro hn e he hc
    obtain ⟨n, v⟩ := e
    match v with
    | none => exact absurd (.inl ⟨_, he, hc, .inr ⟨.inl rfl, rfl⟩⟩) hn
    | some [] => exact absurd (.inl ⟨_, he, hc, .inr ⟨.inr rfl, rfl⟩⟩) hn
    | some (u :: t) => exact ⟨u, t, rfl, fun h0 => hn (.inl ⟨_, he, hc, .inl ⟨u, t, rfl, by rw [h0]; rfl⟩⟩)⟩
  · rintro hall (⟨e, he, hc, hs⟩ | ⟨h0, -⟩)
    · obtain ⟨u, t, hv, hu⟩ := hall e he hc
      rcases hs with ⟨u', t', hv', h0⟩ | ⟨h1 | h1, -⟩
      · rw [hv] at hv'
        cases hv'
        exact hu (UInt16.toNat_inj.1 h0)
      · rw [hv] at h1; cases h1
      · rw [hv] at h1; cases h1
    · cases h0

/-- The files of the examples give settings with these properties. -/
example : ∃ s, configure true [exIcx] [exRcx] = .ok s ∧ (withChars demo s).useIgnored = true ∧ 0x2019 ∈ (withChars demo s).ignored ∧
    (⟨[0x2019], .ch 0x61⟩ : Piece).Ok (withChars demo s) :=
  ⟨_, rfl, by decide, by decide, fun c hc => by
    rw [List.mem_singleton.1 hc]
    exact ⟨by unfold Verif.Scalar; omega, by decide, by decide, by decide, by decide⟩, ⟨by unfold Verif.Scalar; omega, by decide, by decide, by decide, fun _ => by decide⟩⟩

/-! ## Reading with restored characters -/

theorem mapFind_cast (c : Nat) (m : List (Nat × List Nat)) :
    mapFind (c : Int) (m.map fun e => ((e.1 : Int), e.2.map fun r : Nat => (r : Int))) = (mapFind c m).map fun l => l.map fun r : Nat => (r : Int) := by
  induction m with
  | nil => rfl
  | cons e m ih =>
    obtain ⟨k, v⟩ := e
    simp only [List.map_cons, mapFind]
    by_cases h : k = c
    · simp [h]
    · rw [if_neg (by omega), if_neg h, ih]

/-- **C105** A character that is not upper case, or any with `-c`, is read as itself or as one of those that the files of `-r` list for it, and as nothing else. -/
theorem C105_read [AddMonoid W] [LinearOrder W] (σ : Setting W) (nd : Bool) (icx rcx : List File) (s : Chars) (h : configure nd icx rcx = .ok s) (n c : Nat) (hc : c ≠ 0)
    (hp : ∃ y, Puts (all rcx) c y) (h0 : ¬ Puts (all rcx) c 0) (st st' : List (State.Rec W))
    (hu : σ.chars.isUpper c = false ∨ (withChars σ s).beCaseSensitive st = true) (hs : stepRestoring (withChars σ s) n c st = .ok st') (r' : State.Rec W) :
    r' ∈ st' ↔ ∃ r ∈ st, State.Took σ.graph r c false r' ∨ ∃ y : Nat, Puts (all rcx) c y ∧ y ≠ c ∧ State.Took σ.graph r y true r' := by
  have hr := C105_restored nd icx rcx s h c
  obtain ⟨y0, hy0⟩ := hp
  have hy := (hr y0).2 hy0
  unfold restores at hr hy
  have huse : s.useRestore = true := by
    by_contra hn
    rw [if_neg hn] at hy
    cases hy
  rw [if_pos huse] at hr hy
  cases hm : mapFind c s.restore with
  | none => rw [hm] at hy; cases hy
  | some l =>
    rw [hm, Option.getD_some] at hr
    have hf : (if (withChars σ s).useRestore then mapFind (c : Int) (withChars σ s).restore else none) = some (l.map fun r : Nat => (r : Int)) := by
      rw [if_pos (show (withChars σ s).useRestore = true from huse)]
      exact (mapFind_cast c s.restore).trans (by rw [hm]; rfl)
    unfold stepRestoring at hs
    rw [hf] at hs
    simp only at hs
    rw [if_pos (by
      rcases hu with hu | hu
      · rw [show (withChars σ s).chars.isUpper c = false from hu]; rfl
      · rw [hu]; simp)] at hs
    have hs' : State.stepSet σ.graph n c (l.map fun r : Nat => (r : Int)) st = some st' := by
      change ended (State.stepSet σ.graph n c (l.map fun r : Nat => (r : Int)) st) = _ at hs
      cases he : State.stepSet σ.graph n c (l.map fun r : Nat => (r : Int)) st with
      | none => rw [he] at hs; cases hs
      | some x => rw [he] at hs; cases hs; rfl
    have hl0 : (0 : Int) ∉ l.map fun r : Nat => (r : Int) := by
      intro hm0
      obtain ⟨x, hx, hx0⟩ := List.mem_map.1 hm0
      have : x = 0 := by omega
      exact h0 ((hr 0).1 (this ▸ hx))
    rw [State.C40_step_set σ.graph n c _ (by omega) hl0 st st' hs' r']
    refine exists_congr fun r => and_congr_right fun _ => or_congr Iff.rfl ?_
    constructor
    · rintro ⟨y, hy, hne, ht⟩
      obtain ⟨x, hx, rfl⟩ := List.mem_map.1 hy
      exact ⟨x, (hr x).1 hx, by omega, ht⟩
    · rintro ⟨x, hx, hne, ht⟩
      exact ⟨x, List.mem_map.2 ⟨x, (hr x).2 hx, rfl⟩, by omega, ht⟩

theorem mem_inserted (l m : List Int) (x : Int) : x ∈ m.foldl (fun s x => setInsert x s) l ↔ x ∈ m ∨ x ∈ l := by
  induction m generalizing l with
  | nil => simp
  | cons a m ih =>
    rw [List.foldl_cons, ih, mem_setInsert, List.mem_cons]
    tauto

/-- **C105** An upper case letter of which both libraries give the same lower case letter is read as itself, as the lower case letter, or as one of those that the files of `-r`
list for either of the two, and as nothing else. -/
theorem C105_read_upper [AddMonoid W] [LinearOrder W] (σ : Setting W) (nd : Bool) (icx rcx : List File) (s : Chars) (h : configure nd icx rcx = .ok s) (n c d : Nat)
    (hc : c ≠ 0) (hd : d ≠ 0) (hp : ∃ y, Puts (all rcx) c y) (h0 : ¬ Puts (all rcx) c 0) (h0' : ¬ Puts (all rcx) d 0) (st st' : List (State.Rec W))
    (hu : σ.chars.isUpper c = true) (hcs : (withChars σ s).beCaseSensitive st = false) (hl : σ.chars.toLower c = d) (hl' : σ.chars.cToLower c = d)
    (hs : stepRestoring (withChars σ s) n c st = .ok st') (r' : State.Rec W) :
    r' ∈ st' ↔ ∃ r ∈ st, State.Took σ.graph r c false r' ∨ ∃ y : Nat, (Puts (all rcx) c y ∨ y = d ∨ Puts (all rcx) d y) ∧ y ≠ c ∧ State.Took σ.graph r y true r' := by
  have hr := C105_restored nd icx rcx s h c
  have hr' := C105_restored nd icx rcx s h d
  obtain ⟨y0, hy0⟩ := hp
  have hy := (hr y0).2 hy0
  unfold restores at hr hr' hy
  have huse : s.useRestore = true := by
    by_contra hn
    rw [if_neg hn] at hy
    cases hy
  rw [if_pos huse] at hy
  simp only [if_pos huse] at hr hr'
  cases hm : mapFind c s.restore with
  | none => rw [hm] at hy; cases hy
  | some l =>
    rw [hm, Option.getD_some] at hr
    have hf : (if (withChars σ s).useRestore then mapFind (c : Int) (withChars σ s).restore else none) = some (l.map fun r : Nat => (r : Int)) := by
      rw [if_pos (show (withChars σ s).useRestore = true from huse)]
      exact (mapFind_cast c s.restore).trans (by rw [hm]; rfl)
    have hfd : mapFind (d : Int) (withChars σ s).restore = (mapFind d s.restore).map fun l => l.map fun r : Nat => (r : Int) := mapFind_cast d s.restore
    unfold stepRestoring at hs
    rw [hf] at hs
    simp only at hs
    rw [if_neg (by rw [show (withChars σ s).chars.isUpper c = true from hu, hcs]; simp), show (withChars σ s).chars.toLower c = d from hl,
      show (withChars σ s).chars.cToLower c = d from hl', hfd] at hs
    -- the letters that the step is given
    have key : ∃ alts : List Int, State.stepSet σ.graph n c alts st = some st' ∧ ∀ x : Int, x ∈ alts ↔ ∃ y : Nat, x = y ∧ (Puts (all rcx) c y ∨ y = d ∨ Puts (all rcx) d y) := by
      have conv : ∀ o : Option (List (State.Rec W)), ended o = .ok st' → o = some st' := by
        intro o ho
        cases o with
        | none => cases ho
        | some x => cases ho; rfl
      have hin : ∀ x : Int, x ∈ (l.map fun r : Nat => (r : Int)) ↔ ∃ y : Nat, x = y ∧ Puts (all rcx) c y := by
        intro x
        rw [List.mem_map]
        constructor
        · rintro ⟨y, hy, rfl⟩; exact ⟨y, rfl, (hr y).1 hy⟩
        · rintro ⟨y, rfl, hy⟩; exact ⟨y, (hr y).2 hy, rfl⟩
      cases hmd : mapFind d s.restore with
      | none =>
        rw [hmd] at hs hr'
        refine ⟨_, conv _ hs, fun x => ?_⟩
        rw [mem_setInsert, hin]
        constructor
        · rintro (rfl | ⟨y, rfl, hy⟩)
          · exact ⟨d, rfl, .inr (.inl rfl)⟩
          · exact ⟨y, rfl, .inl hy⟩
        · rintro ⟨y, rfl, hy | rfl | hy⟩
          · exact .inr ⟨y, rfl, hy⟩
          · exact .inl rfl
          · have := (hr' y).2 hy; cases this
      | some m =>
        rw [hmd, Option.getD_some] at hr'
        rw [hmd] at hs
        refine ⟨_, conv _ hs, fun x => ?_⟩
        rw [mem_inserted, mem_setInsert, hin, List.mem_map]
        constructor
        · rintro (⟨y, hy, rfl⟩ | rfl | ⟨y, rfl, hy⟩)
          · exact ⟨y, rfl, .inr (.inr ((hr' y).1 hy))⟩
          · exact ⟨d, rfl, .inr (.inl rfl)⟩
          · exact ⟨y, rfl, .inl hy⟩
        · rintro ⟨y, rfl, hy | rfl | hy⟩
          · exact .inr (.inr ⟨y, rfl, hy⟩)
          · exact .inr (.inl rfl)
          · exact .inl ⟨y, (hr' y).2 hy, rfl⟩
    obtain ⟨alts, hst, ha⟩ := key
    have ha0 : (0 : Int) ∉ alts := by
      rw [ha]
      rintro ⟨y, hy, hq⟩
      have : y = 0 := by omega
      subst this
      rcases hq with hq | hq | hq
      · exact h0 hq
      · exact hd hq.symm
      · exact h0' hq
    rw [State.C40_step_set σ.graph n c alts (by omega) ha0 st st' hst r']
    refine exists_congr fun r => and_congr_right fun _ => or_congr Iff.rfl ?_
    constructor
    · rintro ⟨x, hx, hne, ht⟩
      obtain ⟨y, rfl, hy⟩ := (ha x).1 hx
      exact ⟨y, hy, by omega, ht⟩
    · rintro ⟨y, hy, hne, ht⟩
      exact ⟨y, (ha y).2 ⟨y, rfl, hy⟩, by omega, ht⟩

/-- The dictionary has `š`. -/
def exAscii : Setting Nat := { demo with graph := graphOf [((0, 0x161), [(0x161, 2, 0)]), ((2, 0), [(-1, 4, 0)])] }

/-- A file that says that `S` may stand for `Š` and `s` for `š`. -/
def exBoth : File := some [⟨.char, some [0x53]⟩, ⟨.restoreChar, some [0x160]⟩, ⟨.char, some [0x73]⟩, ⟨.restoreChar, some [0x161]⟩]

/-- The conditions of `C105_read_upper` are met: `S` is read as `š`. -/
example : ∃ s, configure false [] [exBoth] = .ok s ∧ (∃ y, Puts (all [exBoth]) 0x53 y) ∧ ¬ Puts (all [exBoth]) 0x53 0 ∧ ¬ Puts (all [exBoth]) 0x73 0 ∧
    exAscii.chars.isUpper 0x53 = true ∧ (withChars exAscii s).beCaseSensitive [⟨0, [], false⟩] = false ∧ exAscii.chars.toLower 0x53 = 0x73 ∧ exAscii.chars.cToLower 0x53 = 0x73 ∧
    stepRestoring (withChars exAscii s) 300 0x53 [⟨0, [], false⟩] = .ok [⟨2, [(0x161, 0)], true⟩, ⟨4, [(0x161, 0), (-1, 0)], true⟩] := by
  refine ⟨_, rfl, ⟨0x160, ?_⟩, ?_, ?_, by decide, by decide +kernel, by decide, by decide, by decide +kernel⟩
  · exact (C105_restored false [] [exBoth] _ rfl 0x53 0x160).1 (by decide +kernel)
  · exact fun h => absurd ((C105_restored false [] [exBoth] _ rfl 0x53 0).2 h) (by decide +kernel)
  · exact fun h => absurd ((C105_restored false [] [exBoth] _ rfl 0x73 0).2 h) (by decide +kernel)

/-- The dictionary has `čš`, and `Č` is the upper case letter of `č`; `tolower` of the C library knows neither. -/
def exFold : Setting Nat :=
  { demo with
    chars := { demoChars with
      isAlnum := fun c => decide (c = 0x10c ∨ c = 0x10d ∨ c = 0x73 ∨ c = 0x161)
      isUpper := fun c => decide (c = 0x10c)
      toLower := fun c => if c = 0x10c then 0x10d else c
      toUpper := fun c => if c = 0x10d then 0x10c else c
      lowerText := fun s => s.map fun u => if u = 0x10c then 0x10d else u }
    graph := graphOf [((0, 0x10d), [(0x10d, 1, 0)]), ((1, 0x161), [(0x161, 2, 0)]), ((2, 0), [(-1, 4, 0)])] }

/-- A file that says that `s` may stand for `š`. -/
def exLower : File := some [⟨.restoreChars, none⟩, ⟨.char, some [0x73]⟩, ⟨.restoreChar, some [0x161]⟩, ⟨.restoreChars, none⟩]

/-- A file that says that `Č` may stand for `Ć`. -/
def exUpper : File := some [⟨.restoreChars, none⟩, ⟨.char, some [0x10c]⟩, ⟨.restoreChar, some [0x106]⟩, ⟨.restoreChars, none⟩]

/-- **C105** To list one more character can make a word unknown that was known before. With `s` listed `Čs` is read as `čš`; with `Č` listed as well it is unknown, because for
a listed character the analyser asks the C library for the lower case letter, which knows the letters of ASCII only. -/
theorem C105_fold_false : ∃ s s', configure false [] [exLower] = .ok s ∧ configure false [] [exLower, exUpper] = .ok s' ∧
    writes (withChars exFold s) 300 [0x10c, 0x73, 0x0a] [0x5e, 0x10c, 0x73, 0x2f, 0x10c, 0x161, 0x3c, 0x6e, 0x3e, 0x24, 0x0a] = true ∧
    writes (withChars exFold s') 300 [0x10c, 0x73, 0x0a] [0x5e, 0x10c, 0x73, 0x2f, 0x2a, 0x10c, 0x73, 0x24, 0x0a] = true :=
  ⟨_, _, rfl, rfl, by decide +kernel, by decide +kernel⟩

/-- The conditions of `C105_read` are met after `č`: `s` is read as `š`. -/
example : ∃ s, configure false [] [exLower] = .ok s ∧ (∃ y, Puts (all [exLower]) 0x73 y) ∧ ¬ Puts (all [exLower]) 0x73 0 ∧ exFold.chars.isUpper 0x73 = false ∧
    stepRestoring (withChars exFold s) 300 0x73 [⟨1, [(0x10d, 0)], false⟩] = .ok [⟨2, [(0x10d, 0), (0x161, 0)], true⟩, ⟨4, [(0x10d, 0), (0x161, 0), (-1, 0)], true⟩] := by
  refine ⟨_, rfl, ⟨0x161, ?_⟩, ?_, rfl, by decide +kernel⟩
  · exact (C105_restored false [] [exLower] _ rfl 0x73 0x161).1 (by decide +kernel)
  · exact fun h => absurd ((C105_restored false [] [exLower] _ rfl 0x73 0).2 h) (by decide +kernel)

end Verif.CharFiles
