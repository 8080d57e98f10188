import Verif.CharFiles.Model
import Verif.Data.AssocLemmas
import Mathlib.Data.List.Induction

/-!
# C105: the characters that lt-proc ignores and restores
-/

namespace Verif.CharFiles

/-- The events of all files. -/
def all (fs : List File) : List Event := fs.flatMap fun f => f.getD []

/-- An event names a character: by the first unit of its value, or the null character if there is none. -/
def Says (e : Event) (c : Nat) : Prop := (∃ u t, e.value = some (u :: t) ∧ u.toNat = c) ∨ ((e.value = none ∨ e.value = some []) ∧ c = 0)

theorem says_iff (e : Event) (c : Nat) : unit e.value = c ↔ Says e c := by
  obtain ⟨n, v⟩ := e
  cases v with
  | none => simp [Says, unit, eq_comm]
  | some v => cases v <;> simp [Says, unit, eq_comm]

/-- The names that a file for `-i` may have. -/
def okI (e : Event) : Prop := e.name ∈ [Name.text, .comment, .ignoredChars, .char]

/-- The names that a file for `-r` may have. -/
def okR (e : Event) : Prop := e.name ∈ [Name.text, .comment, .restoreChars, .char, .restoreChar]

theorem icxNodes_ok (es : List Event) (s s' : Chars) : icxNodes es s = .ok s' ↔
    (∀ e ∈ es, okI e) ∧ ∃ l, s' = { s with ignored := l } ∧ icxNodes es s = .ok { s with ignored := l } ∧
      ∀ c, c ∈ l ↔ c ∈ s.ignored ∨ ∃ e ∈ es, e.name = .char ∧ Says e c := by
  constructor
  · induction es generalizing s with
    | nil =>
      intro h
      cases h
      exact ⟨by simp, s'.ignored, rfl, rfl, by simp⟩
    | cons e es ih =>
      intro h
      obtain ⟨n, v⟩ := e
      have keep : ∀ m, m ≠ .char → (∀ s, icxNode ⟨m, v⟩ s = .ok s) → okI ⟨m, v⟩ → icxNodes (⟨m, v⟩ :: es) s = .ok s' →
          (∀ e ∈ ⟨m, v⟩ :: es, okI e) ∧ ∃ l, s' = { s with ignored := l } ∧ icxNodes (⟨m, v⟩ :: es) s = .ok { s with ignored := l } ∧
            ∀ c, c ∈ l ↔ c ∈ s.ignored ∨ ∃ e ∈ (⟨m, v⟩ :: es : List Event), e.name = .char ∧ Says e c := by
        intro m hm hk ho h
        have hs : icxNodes (⟨m, v⟩ :: es) s = icxNodes es s := by rw [icxNodes, hk]; rfl
        rw [hs] at h ⊢
        obtain ⟨h1, l, h2, h3, h4⟩ := ih s h
        refine ⟨fun e he => ?_, l, h2, h3, fun c => ?_⟩
        · rcases List.mem_cons.1 he with rfl | he
          · exact ho
          · exact h1 e he
        · rw [h4]; simp [hm]
      cases n with
      | text => exact keep _ (by simp) (fun _ => rfl) (by simp [okI]) h
      | comment => exact keep _ (by simp) (fun _ => rfl) (by simp [okI]) h
      | ignoredChars => exact keep _ (by simp) (fun _ => rfl) (by simp [okI]) h
      | char =>
        have hs : icxNodes (⟨.char, v⟩ :: es) s = icxNodes es { s with ignored := setInsert (unit v) s.ignored } := rfl
        rw [hs] at h ⊢
        obtain ⟨h1, l, h2, h3, h4⟩ := ih _ h
        refine ⟨fun e he => ?_, l, h2, h3, fun c => ?_⟩
        · rcases List.mem_cons.1 he with rfl | he
          · simp [okI]
          · exact h1 e he
        · have := says_iff ⟨.char, v⟩ c
          simp only at this
          rw [h4, mem_setInsert]
          simp only [List.mem_cons, exists_eq_or_imp, true_and, ← this, eq_comm (a := c)]
          tauto
      | restoreChars => cases h
      | restoreChar => cases h
      | other => cases h
  · rintro ⟨-, l, rfl, h, -⟩
    exact h

theorem icxNodes_total (es : List Event) (s : Chars) (h : ∀ e ∈ es, okI e) : ∃ s', icxNodes es s = .ok s' := by
  induction es generalizing s with
  | nil => exact ⟨s, rfl⟩
  | cons e es ih =>
    obtain ⟨n, v⟩ := e
    have h0 := h ⟨n, v⟩ (by simp)
    have h1 := fun s => ih s fun e he => h e (by simp [he])
    cases n <;> first | exact h1 _ | simp [okI] at h0

theorem each_icx (fs : List File) (s s' : Chars) (hu : s.useIgnored = true) (hd : 173 ∈ s.ignored) (h : each parseICX fs s = .ok s') :
    (∀ f ∈ fs, ∃ es, f = some es ∧ ∀ e ∈ es, okI e) ∧ ∃ l, s' = { s with ignored := l } ∧
      ∀ c, c ∈ l ↔ c ∈ s.ignored ∨ ∃ e ∈ all fs, e.name = .char ∧ Says e c := by
  induction fs generalizing s with
  | nil => cases h; exact ⟨by simp, s'.ignored, rfl, by simp [all]⟩
  | cons f fs ih =>
    rw [each] at h
    obtain ⟨s1, h1, h2⟩ := Res.bind_eq_ok.1 h
    unfold parseICX at h1
    rw [if_pos hu] at h1
    cases f with
    | none => cases h1
    | some es =>
      obtain ⟨s2, h3, h4⟩ := Res.bind_eq_ok.1 h1
      obtain ⟨g1, l, rfl, -, g2⟩ := (icxNodes_ok es s s2).1 h3
      have hl : 173 ∈ l := (g2 173).2 (.inl hd)
      have e4 : s1 = { s with ignored := l } := by
        have : ¬ (l = []) := fun e => by rw [e] at hl; cases hl
        simp only [this, if_false] at h4
        cases h4; rfl
      subst e4
      obtain ⟨k1, l', k2, k3⟩ := ih { s with ignored := l } hu hl h2
      refine ⟨fun f hf => ?_, l', k2, fun c => ?_⟩
      · rcases List.mem_cons.1 hf with rfl | hf
        · exact ⟨es, rfl, g1⟩
        · exact k1 f hf
      · rw [k3]
        simp only [g2, all, List.flatMap_cons, Option.getD_some, List.mem_append]
        constructor
        · rintro ((h | ⟨e, h, h'⟩) | ⟨e, h, h'⟩)
          · exact .inl h
          · exact .inr ⟨e, .inl h, h'⟩
          · exact .inr ⟨e, .inr h, h'⟩
        · rintro (h | ⟨e, h | h, h'⟩)
          · exact .inl (.inl h)
          · exact .inl (.inr ⟨e, h, h'⟩)
          · exact .inr ⟨e, h, h'⟩

theorem each_icx_total (fs : List File) (s : Chars) (hu : s.useIgnored = true) (hd : 173 ∈ s.ignored) (h : ∀ f ∈ fs, ∃ es, f = some es ∧ ∀ e ∈ es, okI e) :
    ∃ s', each parseICX fs s = .ok s' := by
  induction fs generalizing s with
  | nil => exact ⟨s, rfl⟩
  | cons f fs ih =>
    obtain ⟨es, rfl, he⟩ := h f (by simp)
    obtain ⟨s1, h1⟩ := icxNodes_total es s he
    obtain ⟨-, l, rfl, -, g2⟩ := (icxNodes_ok es s s1).1 h1
    have hl : 173 ∈ l := (g2 173).2 (.inl hd)
    have e4 : parseICX (some es) s = .ok { s with ignored := l } := by
      have : ¬ (l = []) := fun e => by rw [e] at hl; cases hl
      unfold parseICX
      rw [if_pos hu]
      simp only [h1]
      show Res.ok (if l = [] then _ else _) = _
      rw [if_neg this]
    rw [each, e4]
    exact ih { s with ignored := l } hu hl fun f hf => h f (by simp [hf])

/-! ## Restoring -/

/-- The character of the last `char` among events. -/
def LastChar (es : List Event) (c : Nat) : Prop := ∃ p e q, es = p ++ e :: q ∧ e.name = .char ∧ Says e c ∧ ∀ x ∈ q, x.name ≠ .char

/-- The files put `r` among what `c` is restored to: there is a `restore-char` for `r`, and the last `char` before it is for `c`. -/
def Puts (es : List Event) (c r : Nat) : Prop := ∃ p e q, es = p ++ e :: q ∧ e.name = .restoreChar ∧ Says e r ∧ LastChar p c

structure Inv (pre : List Event) (s : Chars) : Prop where
  current : ∀ c, s.current = some c ↔ LastChar pre c
  sorted : SortedKeys s.restore
  put : ∀ c r, r ∈ (mapFind c s.restore).getD [] ↔ Puts pre c r

theorem split_last {α : Type} {pre p q : List α} {x y : α} : pre ++ [x] = p ++ y :: q ↔ (q = [] ∧ pre = p ∧ x = y) ∨ ∃ q', q = q' ++ [x] ∧ pre = p ++ y :: q' := by
  constructor
  · intro h
    rcases List.eq_nil_or_concat q with rfl | ⟨q', z, rfl⟩
    · left
      have := List.append_inj' h rfl
      simp only [List.cons.injEq, and_true] at this
      exact ⟨rfl, this.1, this.2⟩
    · right
      have h' : pre ++ [x] = (p ++ y :: q') ++ [z] := by simpa using h
      have := List.append_inj' h' rfl
      simp only [List.cons.injEq, and_true] at this
      exact ⟨q', by rw [this.2]; simp, this.1⟩
  · rintro (⟨rfl, rfl, rfl⟩ | ⟨q', rfl, rfl⟩) <;> simp

theorem lastChar_snoc (pre : List Event) (e : Event) (c : Nat) : LastChar (pre ++ [e]) c ↔ if e.name = .char then Says e c else LastChar pre c := by
  constructor
  · rintro ⟨p, y, q, h, h1, h2, h3⟩
    rcases split_last.1 h with ⟨-, -, rfl⟩ | ⟨q', rfl, h4⟩
    · rw [if_pos h1]; exact h2
    · rw [if_neg (h3 e (by simp))]
      exact ⟨p, y, q', h4, h1, h2, fun x hx => h3 x (by simp [hx])⟩
  · intro h
    by_cases he : e.name = .char
    · rw [if_pos he] at h
      exact ⟨pre, e, [], rfl, he, h, by simp⟩
    · rw [if_neg he] at h
      obtain ⟨p, y, q, rfl, h1, h2, h3⟩ := h
      refine ⟨p, y, q ++ [e], by simp, h1, h2, fun x hx => ?_⟩
      rcases List.mem_append.1 hx with hx | hx
      · exact h3 x hx
      · rw [List.mem_singleton.1 hx]; exact he

theorem puts_snoc (pre : List Event) (e : Event) (c r : Nat) : Puts (pre ++ [e]) c r ↔ Puts pre c r ∨ (e.name = .restoreChar ∧ Says e r ∧ LastChar pre c) := by
  constructor
  · rintro ⟨p, y, q, h, h1, h2, h3⟩
    rcases split_last.1 h with ⟨-, rfl, rfl⟩ | ⟨q', rfl, h4⟩
    · exact .inr ⟨h1, h2, h3⟩
    · exact .inl ⟨p, y, q', h4, h1, h2, h3⟩
  · rintro (⟨p, y, q, rfl, h1, h2, h3⟩ | ⟨h1, h2, h3⟩)
    · exact ⟨p, y, q ++ [e], by simp, h1, h2, h3⟩
    · exact ⟨pre, e, [], rfl, h1, h2, h3⟩

theorem rcxNode_inv {pre : List Event} {s s' : Chars} (hi : Inv pre s) (e : Event) (h : rcxNode e s = .ok s') :
    Inv (pre ++ [e]) s' ∧ okR e ∧ (e.name = .restoreChar → ∃ c, LastChar pre c) ∧ s' = { s with current := s'.current, restore := s'.restore } := by
  obtain ⟨n, v⟩ := e
  have keep : n ≠ .char → n ≠ .restoreChar → s' = s → okR ⟨n, v⟩ →
      Inv (pre ++ [⟨n, v⟩]) s' ∧ okR ⟨n, v⟩ ∧ (n = .restoreChar → ∃ c, LastChar pre c) ∧ s' = { s with current := s'.current, restore := s'.restore } := by
    rintro h1 h2 rfl h3
    refine ⟨⟨fun c => ?_, hi.sorted, fun c r => ?_⟩, h3, fun h => absurd h h2, rfl⟩
    · rw [lastChar_snoc, if_neg h1]; exact hi.current c
    · rw [puts_snoc, hi.put]; simp [h2]
  cases n with
  | text => cases h; exact keep (by simp) (by simp) rfl (by simp [okR])
  | comment => cases h; exact keep (by simp) (by simp) rfl (by simp [okR])
  | restoreChars => cases h; exact keep (by simp) (by simp) rfl (by simp [okR])
  | ignoredChars => cases h
  | other => cases h
  | char =>
    cases h
    refine ⟨⟨fun c => ?_, hi.sorted, fun c r => ?_⟩, by simp [okR], by simp, rfl⟩
    · rw [lastChar_snoc, if_pos rfl, ← says_iff]; simp
    · rw [puts_snoc]; simpa using hi.put c r
  | restoreChar =>
    simp only [rcxNode] at h
    cases hc : s.current with
    | none => rw [hc] at h; cases h
    | some k =>
      rw [hc] at h
      cases h
      have hk := (hi.current k).1 hc
      have huniq : ∀ c, LastChar pre c ↔ k = c := fun c => by rw [← hi.current c, hc]; simp
      refine ⟨⟨fun c => ?_, sorted_modify hi.sorted _ _ _, fun c r => ?_⟩, by simp [okR], fun _ => ⟨k, hk⟩, rfl⟩
      · rw [lastChar_snoc, if_neg (by simp), ← hi.current c, hc]
      · rw [puts_snoc, mapFind_modify hi.sorted, ← hi.put, huniq, ← says_iff]
        by_cases hck : c = k
        · subst hck
          simp only [if_true, Option.getD_some, mem_setInsert, true_and, and_true]
          constructor
          · rintro (rfl | h)
            · exact .inr rfl
            · exact .inl h
          · rintro (h | h)
            · exact .inr h
            · exact .inl h.symm
        · rw [if_neg hck]
          simp [Ne.symm hck]

theorem rcxNode_total {pre : List Event} {s : Chars} (hi : Inv pre s) (e : Event) (h1 : okR e) (h2 : e.name = .restoreChar → ∃ c, LastChar pre c) :
    ∃ s', rcxNode e s = .ok s' := by
  obtain ⟨n, v⟩ := e
  cases n with
  | restoreChar =>
    obtain ⟨c, hc⟩ := h2 rfl
    have := (hi.current c).2 hc
    exact ⟨{ s with restore := mapModify [] c (setInsert (unit v)) s.restore }, by simp only [rcxNode, this]⟩
  | ignoredChars => simp [okR] at h1
  | other => simp [okR] at h1
  | _ => exact ⟨_, rfl⟩

theorem rcxNodes_ok (es : List Event) {pre : List Event} {s : Chars} (hi : Inv pre s) :
    (∀ s', rcxNodes es s = .ok s' → Inv (pre ++ es) s' ∧ s' = { s with current := s'.current, restore := s'.restore }) ∧
    ((∃ s', rcxNodes es s = .ok s') ↔ (∀ e ∈ es, okR e) ∧ ∀ p e q, es = p ++ e :: q → e.name = .restoreChar → ∃ c, LastChar (pre ++ p) c) := by
  induction es generalizing pre s with
  | nil =>
    refine ⟨fun s' h => ?_, by simp [rcxNodes]⟩
    cases h
    exact ⟨by simpa using hi, rfl⟩
  | cons e es ih =>
    constructor
    · intro s' h
      obtain ⟨s1, h1, h2⟩ := Res.bind_eq_ok.1 h
      obtain ⟨g1, -, -, g4⟩ := rcxNode_inv hi e h1
      obtain ⟨k1, k2⟩ := (ih g1).1 s' h2
      refine ⟨by simpa using k1, ?_⟩
      rw [k2, g4]
    · constructor
      · rintro ⟨s', h⟩
        obtain ⟨s1, h1, h2⟩ := Res.bind_eq_ok.1 h
        obtain ⟨g1, g2, g3, -⟩ := rcxNode_inv hi e h1
        obtain ⟨k1, k2⟩ := (ih g1).2.1 ⟨s', h2⟩
        refine ⟨fun x hx => ?_, fun p x q hp hx => ?_⟩
        · rcases List.mem_cons.1 hx with rfl | hx
          · exact g2
          · exact k1 x hx
        · cases p with
          | nil =>
            simp only [List.nil_append, List.cons.injEq] at hp
            obtain ⟨rfl, -⟩ := hp
            simpa using g3 hx
          | cons y p =>
            simp only [List.cons_append, List.cons.injEq] at hp
            obtain ⟨rfl, hp⟩ := hp
            simpa using k2 p x q hp hx
      · rintro ⟨h1, h2⟩
        obtain ⟨s1, e1⟩ := rcxNode_total hi e (h1 e (by simp)) (fun hx => by simpa using h2 [] e es rfl hx)
        obtain ⟨g1, -, -, -⟩ := rcxNode_inv hi e e1
        obtain ⟨s2, e2⟩ := (ih g1).2.2 ⟨fun x hx => h1 x (by simp [hx]), fun p x q hp hx => by
          have := h2 (e :: p) x q (by rw [hp]; rfl) hx
          simpa using this⟩
        exact ⟨s2, by rw [rcxNodes, e1]; exact e2⟩

theorem rcxNodes_use (es : List Event) (s : Chars) (hs : s.useRestore = true) (s' : Chars) (h : rcxNodes es s = .ok s') : s'.useRestore = true := by
  induction es generalizing s with
  | nil => cases h; exact hs
  | cons e es ih =>
    obtain ⟨s1, h1, h2⟩ := Res.bind_eq_ok.1 h
    refine ih s1 ?_ h2
    obtain ⟨n, v⟩ := e
    cases n with
    | restoreChar =>
      simp only [rcxNode] at h1
      split at h1
      · cases h1
      · cases h1; exact hs
    | ignoredChars => cases h1
    | other => cases h1
    | _ => cases h1; exact hs

theorem each_none (fs : List File) (s : Chars) (hu : s.useRestore = true) (hn : none ∈ fs) (s' : Chars) : each parseRCX fs s ≠ .ok s' := by
  induction fs generalizing s with
  | nil => cases hn
  | cons f fs ih =>
    intro h
    obtain ⟨s1, h1, h2⟩ := Res.bind_eq_ok.1 h
    unfold parseRCX at h1
    rw [if_pos hu] at h1
    cases f with
    | none => cases h1
    | some es => exact ih s1 (rcxNodes_use es s hu s1 h1) (by simpa using hn) h2

theorem each_rcx (fs : List File) (s : Chars) (hu : s.useRestore = true) :
    each parseRCX fs s = if none ∈ fs then each parseRCX fs s else rcxNodes (all fs) s := by
  split
  · rfl
  · rename_i h
    induction fs generalizing s with
    | nil => rfl
    | cons f fs ih =>
      cases f with
      | none => simp at h
      | some es =>
        have happ : ∀ (es es' : List Event) (s : Chars), rcxNodes (es ++ es') s = (rcxNodes es s).bind (rcxNodes es') := by
          intro es es'
          induction es with
          | nil => intro s; rfl
          | cons e es ih =>
            intro s
            rw [List.cons_append, rcxNodes, rcxNodes]
            show (rcxNode e s).bind _ = ((rcxNode e s).bind _).bind _
            cases rcxNode e s with
            | ok a => exact ih a
            | _ => rfl
        have ha : all (some es :: fs) = es ++ all fs := by simp [all]
        rw [each, ha, happ]
        unfold parseRCX
        rw [if_pos hu]
        show (rcxNodes es s).bind _ = (rcxNodes es s).bind _
        cases hr : rcxNodes es s with
        | ok a => exact ih a (rcxNodes_use es s hu a hr) (fun hn => h (by simp [hn]))
        | _ => rfl

theorem lastChar_exists (p : List Event) : (∃ c, LastChar p c) ↔ ∃ x ∈ p, x.name = .char := by
  constructor
  · rintro ⟨c, a, e, b, rfl, h, -⟩
    exact ⟨e, by simp, h⟩
  · intro h
    induction p using List.reverseRecOn with
    | nil => simp at h
    | append_singleton p e ih =>
      by_cases he : e.name = .char
      · exact ⟨unit e.value, (lastChar_snoc p e _).2 (by rw [if_pos he]; exact (says_iff e _).1 rfl)⟩
      · obtain ⟨c, hc⟩ := ih (by
          obtain ⟨x, hx, hx'⟩ := h
          rcases List.mem_append.1 hx with hx | hx
          · exact ⟨x, hx, hx'⟩
          · rw [List.mem_singleton.1 hx] at hx'; exact absurd hx' he)
        exact ⟨c, (lastChar_snoc p e c).2 (by rw [if_neg he]; exact hc)⟩

theorem inv_start (s : Chars) (h1 : s.current = none) (h2 : s.restore = []) : Inv [] s := by
  refine ⟨fun c => ?_, by rw [h2]; exact List.Pairwise.nil, fun c r => ?_⟩
  · rw [h1]
    constructor
    · intro h; cases h
    · rintro ⟨p, e, q, h, -⟩; simp at h
  · rw [h2]
    constructor
    · intro h; simp [mapFind] at h
    · rintro ⟨p, e, q, h, -⟩; simp at h

/-! ## The options of lt-proc -/

/-- The files can be opened and have no elements but those for them, and each `restore-char` has a `char` before it. -/
def Fine (icx rcx : List File) : Prop :=
  (∀ f ∈ icx, ∃ es, f = some es ∧ ∀ e ∈ es, okI e) ∧ (∀ f ∈ rcx, ∃ es, f = some es ∧ ∀ e ∈ es, okR e) ∧
    ∀ p e q, all rcx = p ++ e :: q → e.name = .restoreChar → ∃ x ∈ p, x.name = .char

/-- What the options come to. -/
theorem first_part (nd : Bool) (icx : List File) (s : Chars)
    (h : (if icx = [] then .ok { useDefault := !nd } else each parseICX icx { useDefault := !nd, useIgnored := true } : Res Chars) = .ok s) :
    (∀ f ∈ icx, ∃ es, f = some es ∧ ∀ e ∈ es, okI e) ∧ ∃ l, s = { useDefault := !nd, useIgnored := decide (icx ≠ []), ignored := l } ∧
      ∀ c, c ∈ l ↔ c = 173 ∨ ∃ e ∈ all icx, e.name = .char ∧ Says e c := by
  by_cases hi : icx = []
  · subst hi
    rw [if_pos rfl] at h
    cases h
    exact ⟨by simp, [173], rfl, by simp [all]⟩
  · rw [if_neg hi] at h
    obtain ⟨h1, l, h2, h3⟩ := each_icx icx _ s rfl (by simp) h
    exact ⟨h1, l, by rw [h2]; simp [hi], fun c => by rw [h3]; simp⟩

theorem files_rcx (rcx : List File) (s s' : Chars) (hu : s.useRestore = true) (h1 : s.current = none) (h2 : s.restore = []) :
    (each parseRCX rcx s = .ok s' → (Inv (all rcx) s' ∧ s' = { s with current := s'.current, restore := s'.restore }) ∧ Fine [] rcx) ∧
    (Fine [] rcx → ∃ s', each parseRCX rcx s = .ok s') := by
  have hi := inv_start s h1 h2
  obtain ⟨k1, k2⟩ := rcxNodes_ok (all rcx) hi
  simp only [List.nil_append, lastChar_exists] at k1 k2
  have hmem : ∀ e, e ∈ all rcx ↔ ∃ es, some es ∈ rcx ∧ e ∈ es := by
    intro e
    simp only [all, List.mem_flatMap]
    constructor
    · rintro ⟨f, hf, he⟩
      cases f with
      | none => simp at he
      | some es => exact ⟨es, hf, he⟩
    · rintro ⟨es, hf, he⟩; exact ⟨some es, hf, he⟩
  constructor
  · intro h
    have hn : none ∉ rcx := fun hn => each_none rcx s hu hn s' h
    rw [each_rcx rcx s hu, if_neg hn] at h
    obtain ⟨g1, g2⟩ := k2.1 ⟨s', h⟩
    refine ⟨k1 s' h, by simp, fun f hf => ?_, g2⟩
    cases f with
    | none => exact absurd hf hn
    | some es => exact ⟨es, rfl, fun e he => g1 e ((hmem e).2 ⟨es, hf, he⟩)⟩
  · rintro ⟨-, g1, g2⟩
    have hn : none ∉ rcx := fun hn => by obtain ⟨es, h, -⟩ := g1 none hn; cases h
    rw [each_rcx rcx s hu, if_neg hn]
    refine k2.2 ⟨fun e he => ?_, g2⟩
    obtain ⟨es, hf, he⟩ := (hmem e).1 he
    obtain ⟨es', h, h'⟩ := g1 _ hf
    cases h
    exact h' e he

theorem configure_ok (nd : Bool) (icx rcx : List File) (s : Chars) (h : configure nd icx rcx = .ok s) :
    Fine icx rcx ∧ s.useIgnored = decide (icx ≠ []) ∧ s.useDefault = (!nd && decide (rcx = [])) ∧ s.useRestore = decide (rcx ≠ []) ∧
      (∀ c, c ∈ s.ignored ↔ c = 173 ∨ ∃ e ∈ all icx, e.name = .char ∧ Says e c) ∧ ∀ c r, r ∈ (mapFind c s.restore).getD [] ↔ Puts (all rcx) c r := by
  unfold configure at h
  obtain ⟨s1, h1, h2⟩ := Res.bind_eq_ok.1 h
  obtain ⟨g1, l, rfl, g2⟩ := first_part nd icx s1 h1
  by_cases hr : rcx = []
  · subst hr
    rw [if_pos rfl] at h2
    cases h2
    refine ⟨⟨g1, by simp, fun p e q h => by simp [all] at h⟩, rfl, by simp, by simp, g2, fun c r => ?_⟩
    exact (inv_start _ rfl rfl).put c r
  · rw [if_neg hr] at h2
    obtain ⟨⟨k1, k2⟩, -, k3, k4⟩ := (files_rcx rcx _ s rfl rfl rfl).1 h2
    refine ⟨⟨g1, k3, k4⟩, by rw [k2], by rw [k2]; simp [hr], by rw [k2]; simp [hr], by rw [k2]; exact g2, k1.put⟩

/-- **C105** The files are taken exactly if they can be opened and have only the elements for them, each `restore-char` after a `char`. -/
theorem C105_taken (nd : Bool) (icx rcx : List File) : (∃ s, configure nd icx rcx = .ok s) ↔ Fine icx rcx := by
  constructor
  · rintro ⟨s, h⟩; exact (configure_ok nd icx rcx s h).1
  · rintro ⟨h1, h2⟩
    obtain ⟨s1, e1⟩ : ∃ s1, (if icx = [] then .ok { useDefault := !nd } else each parseICX icx { useDefault := !nd, useIgnored := true } : Res Chars) = .ok s1 := by
      by_cases hi : icx = []
      · rw [if_pos hi]; exact ⟨_, rfl⟩
      · rw [if_neg hi]; exact each_icx_total icx _ rfl (by simp) h1
    obtain ⟨-, l, rfl, -⟩ := first_part nd icx s1 e1
    by_cases hr : rcx = []
    · refine ⟨{ useDefault := !nd, useIgnored := decide (icx ≠ []), ignored := l }, ?_⟩
      unfold configure
      refine Res.bind_eq_ok.2 ⟨_, e1, ?_⟩
      rw [if_pos hr]
    · obtain ⟨s2, e2⟩ := (files_rcx rcx { useDefault := false, useIgnored := decide (icx ≠ []), ignored := l, useRestore := true } {} rfl rfl rfl).2 ⟨by simp, h2⟩
      refine ⟨s2, ?_⟩
      unfold configure
      refine Res.bind_eq_ok.2 ⟨_, e1, ?_⟩
      rw [if_neg hr]
      exact e2

/-- **C105** Exactly these characters are ignored: those that the files of `-i` list, and the soft hyphen if `-i` is given, or if neither `-I` nor `-r` is. -/
theorem C105_ignored (nd : Bool) (icx rcx : List File) (s : Chars) (h : configure nd icx rcx = .ok s) (c : Nat) :
    ignores s c = true ↔ (∃ e ∈ all icx, e.name = .char ∧ Says e c) ∨ (c = 173 ∧ (icx ≠ [] ∨ (nd = false ∧ rcx = []))) := by
  obtain ⟨-, h1, h2, -, h3, -⟩ := configure_ok nd icx rcx s h
  simp only [ignores, h1, h2, Bool.and_eq_true, Bool.or_eq_true, decide_eq_true_eq, List.contains_iff_mem, h3, Bool.not_eq_true']
  have : (∃ e ∈ all icx, e.name = .char ∧ Says e c) → icx ≠ [] := by
    rintro ⟨e, he, -⟩ rfl
    simp [all] at he
  generalize (∃ e ∈ all icx, e.name = .char ∧ Says e c) = P at this
  by_cases hi : icx = []
  · have : ¬ P := fun h => this h hi
    simp only [hi, this, ne_eq, not_true_eq_false, false_or, or_false]
    tauto
  · simp only [hi, ne_eq, not_false_eq_true, true_or, true_and, and_true]
    tauto

/-- **C105** Exactly these characters are what a character is restored to: those of each `restore-char` for which the last `char` before it, in this file or an earlier one,
is for that character. -/
theorem C105_restored (nd : Bool) (icx rcx : List File) (s : Chars) (h : configure nd icx rcx = .ok s) (c r : Nat) :
    r ∈ restores s c ↔ Puts (all rcx) c r := by
  obtain ⟨-, -, -, h1, -, h2⟩ := configure_ok nd icx rcx s h
  unfold restores
  by_cases hr : rcx = []
  · rw [if_neg (by rw [h1]; simp [hr]), hr]
    constructor
    · intro h; cases h
    · rintro ⟨p, e, q, h, -⟩; simp [all] at h
  · rw [if_pos (by rw [h1]; simp [hr])]
    exact h2 c r

/-- **C105** With `-i` the option `-I` has no effect on the characters: the soft hyphen is ignored although the user has asked for the opposite and no file lists it. -/
theorem C105_no_default_false (icx rcx : List File) (hi : icx ≠ []) (s s' : Chars) (h : configure true icx rcx = .ok s) (h' : configure false icx rcx = .ok s') :
    ignores s 173 = true ∧ ∀ c, ignores s c = ignores s' c := by
  have k := C105_ignored true icx rcx s h
  have k' := C105_ignored false icx rcx s' h'
  refine ⟨(k 173).2 (.inr ⟨rfl, .inl hi⟩), fun c => ?_⟩
  rw [Bool.eq_iff_iff, k, k']
  simp [hi]

/-- **C105** Characters outside the basic plane cannot be listed: whatever the files say, they are neither ignored nor restored. -/
theorem C105_outside_false (nd : Bool) (icx rcx : List File) (s : Chars) (h : configure nd icx rcx = .ok s) (c : Nat) (hc : 0x10000 ≤ c) :
    ignores s c = false ∧ restores s c = [] := by
  have key : ∀ e : Event, ¬ Says e c := by
    rintro e (⟨u, t, -, hu⟩ | ⟨-, h0⟩)
    · have := u.toNat_lt
      omega
    · omega
  constructor
  · rw [Bool.eq_false_iff]
    intro hg
    rcases (C105_ignored nd icx rcx s h c).1 hg with ⟨e, -, -, hs⟩ | ⟨h0, -⟩
    · exact key e hs
    · omega
  · refine List.eq_nil_iff_forall_not_mem.2 fun r hr => ?_
    obtain ⟨p, e, q, -, -, -, p', e', q', -, -, hs, -⟩ := (C105_restored nd icx rcx s h c r).1 hr
    exact key e' hs

/-- **C105** A `char` without a value is not refused: from then on the null character, which ends a part of the input with `-z`, is ignored. -/
theorem C105_no_value_false (nd : Bool) (icx rcx : List File) (s : Chars) (h : configure nd icx rcx = .ok s) (he : ⟨.char, none⟩ ∈ all icx) : ignores s 0 = true :=
  (C105_ignored nd icx rcx s h 0).2 (.inl ⟨_, he, rfl, .inr ⟨.inl rfl, rfl⟩⟩)

/-- **C105** A `restore-char` before any `char` is undefined behaviour: the character that is read has not been set. -/
theorem C105_order_false (nd : Bool) (v : Option (List UInt16)) (es : List Event) (rcx : List File) :
    configure nd [] (some (⟨.restoreChar, v⟩ :: es) :: rcx) = .ub := rfl

/-- A file for `-i` with an apostrophe and an emoji, and one for `-r` in which `c` is restored to `č` and `ć`. -/
def exIcx : File := some [⟨.ignoredChars, none⟩, ⟨.text, none⟩, ⟨.char, some [0x2019]⟩, ⟨.char, some [0xd83d, 0xde00]⟩, ⟨.ignoredChars, none⟩]
def exRcx : File := some [⟨.restoreChars, none⟩, ⟨.char, some [0x63]⟩, ⟨.restoreChar, some [0x10d]⟩, ⟨.restoreChar, some [0x107]⟩, ⟨.char, some [0x63]⟩, ⟨.restoreChars, none⟩]

example : ∃ s, configure true [exIcx] [exRcx] = .ok s ∧ ignores s 0x2019 = true ∧ ignores s 173 = true ∧ ignores s 0x1f600 = false ∧ restores s 0x63 = [0x107, 0x10d] :=
  ⟨_, rfl, by decide, by decide, by decide, by decide⟩

example : (∃ s, configure false [some [⟨.char, none⟩]] [] = .ok s) ∧ configure false [some [⟨.restoreChar, none⟩]] [] = .exit ∧ configure false [none] [] = .exit :=
  ⟨⟨_, rfl⟩, rfl, rfl⟩

end Verif.CharFiles
