import Verif.TmxCli.Model

/-!
# C103: the command line of lt-tmxcomp
-/

namespace Verif.TmxCli

open Verif.Cli (Str str)

/-- Not an option: a hyphen alone, or no hyphen at the beginning. -/
def Plain (a : Str) : Prop := a = [0x2d] ∨ a.head? ≠ some 0x2d

/-- Something that begins with a hyphen is first. -/
def Dashed (g : Got) : Prop := ∃ w ws, g.front = (0x2d :: w) :: ws

theorem scan_dashed (n : Nat) (args : List Str) (hn : args.length ≤ n) (g : Got) (h : Dashed g) {g' : Got} (e : scan args g = some g') : Dashed g' := by
  induction n generalizing args g with
  | zero =>
    obtain rfl : args = [] := List.length_eq_zero_iff.1 (by omega)
    rw [scan] at e
    cases e; exact h
  | succ n ih =>
    obtain ⟨w, ws, hw⟩ := h
    have hset : ∀ (xs : List Str) c v, Dashed (({ g with front := g.front ++ xs } : Got).set c v) := fun xs c v => by
      cases c <;> exact ⟨w, ws ++ xs, by simp [Got.set, hw]⟩
    unfold scan at e
    split at e
    · cases e; exact ⟨w, ws, hw⟩
    · rename_i name args
      simp only [List.length_cons] at hn
      split at e
      · cases e; exact ⟨w, ws ++ [[0x2d, 0x2d]], by simp [hw]⟩
      · split at e
        · cases e
        · split at e
          · exact ih _ (by omega) _ (hset _ _ _) e
          · split at e
            · cases e
            · rename_i v args _
              simp only [List.length_cons] at hn
              exact ih _ (by omega) _ (hset _ _ _) e
    · rename_i l v args _
      simp only [List.length_cons] at hn
      split at e
      · cases e
      · split at e
        · exact ih _ (by omega) _ (hset _ _ _) e
        · split at e
          · cases e
          · rename_i v args _
            simp only [List.length_cons] at hn
            exact ih _ (by omega) _ (hset _ _ _) e
    · rename_i a args _ _
      simp only [List.length_cons] at hn
      exact ih args (by omega) { g with skipped := g.skipped ++ [a] } ⟨w, ws, hw⟩ e

/-- Either all arguments are files, or an option comes first afterwards. -/
theorem scan_cases (args : List Str) (sk : List Str) {g' : Got} (e : scan args { skipped := sk } = some g') :
    Dashed g' ∨ ((∀ a ∈ args, Plain a) ∧ g' = { skipped := sk ++ args }) := by
  induction args generalizing sk with
  | nil =>
    rw [scan] at e
    cases e; exact .inr ⟨by simp, by simp⟩
  | cons a args ih =>
    have hset : ∀ (x : Str) (xs : List Str) c v, Dashed (({ ({ skipped := sk } : Got) with front := ({ skipped := sk } : Got).front ++ (0x2d :: x) :: xs } : Got).set c v) :=
      fun x xs c v => by cases c <;> exact ⟨x, xs, by simp [Got.set]⟩
    unfold scan at e
    split at e
    · rename_i h; cases h
    · rename_i name args' h
      left
      split at e
      · cases e; exact ⟨[0x2d], [], by simp⟩
      · split at e
        · cases e
        · split at e
          · exact scan_dashed _ _ (Nat.le_refl _) _ (hset _ _ _ _) e
          · split at e
            · cases e
            · exact scan_dashed _ _ (Nat.le_refl _) _ (hset _ _ _ _) e
    · rename_i l v args' _ h
      left
      split at e
      · cases e
      · split at e
        · exact scan_dashed _ _ (Nat.le_refl _) _ (hset _ _ _ _) e
        · split at e
          · cases e
          · exact scan_dashed _ _ (Nat.le_refl _) _ (hset _ _ _ _) e
    · rename_i a' args' h1 h2 h
      obtain ⟨rfl, rfl⟩ := List.cons.inj h
      have hp : Plain a := by
        by_cases hd : a.head? = some 0x2d
        · left
          cases a with
          | nil => cases hd
          | cons c cs =>
            obtain rfl : c = 0x2d := by simpa using hd
            cases cs with
            | nil => rfl
            | cons l v => exact absurd rfl (h2 l v)
        · exact .inr hd
      rcases ih (sk ++ [a]) e with hd | ⟨h3, h4⟩
      · exact .inl hd
      · refine .inr ⟨fun b hb => ?_, by rw [h4]; simp⟩
        rcases List.mem_cons.1 hb with rfl | hb
        · exact hp
        · exact h3 b hb

theorem scan_plain (args sk : List Str) (h : ∀ a ∈ args, Plain a) : scan args { skipped := sk } = some { skipped := sk ++ args } := by
  induction args generalizing sk with
  | nil => rw [scan, List.append_nil]
  | cons a args ih =>
    have hp := h a (by simp)
    have e : scan (a :: args) { skipped := sk } = scan args { skipped := sk ++ [a] } := by
      rw [scan]
      · intro name e
        subst e
        rcases hp with hp | hp
        · cases hp
        · exact hp rfl
      · intro l v e
        subst e
        rcases hp with hp | hp
        · cases hp
        · exact hp rfl
    rw [e, ih _ fun a ha => h a (by simp [ha])]
    simp

theorem takeWhile_hyphen {a : Str} : a.takeWhile (· ≠ 0x2d) = [] ↔ a = [] ∨ a.head? = some 0x2d := by
  cases a with
  | nil => simp
  | cons c a =>
    by_cases hc : c = 0x2d <;> simp [hc]

theorem split_hyphen (lo lm : Str) (h : 0x2d ∉ lo) : (lo ++ 0x2d :: lm).takeWhile (· ≠ 0x2d) = lo ∧ ((lo ++ 0x2d :: lm).dropWhile (· ≠ 0x2d)).drop 1 = lm := by
  induction lo with
  | nil => simp
  | cons c lo ih =>
    have hc : c ≠ 0x2d := fun e => h (by simp [e])
    obtain ⟨h1, h2⟩ := ih fun h' => h (by simp [h'])
    constructor
    · simpa [List.takeWhile_cons, hc] using h1
    · simpa [List.dropWhile_cons, hc] using h2

theorem no_hyphen {a : Str} (h : 0x2d ∉ a) : a.takeWhile (· ≠ 0x2d) = a := by
  induction a with
  | nil => rfl
  | cons c a ih =>
    have hc : c ≠ 0x2d := fun e => h (by simp [e])
    have := ih fun h' => h (by simp [h'])
    simpa [List.takeWhile_cons, hc] using this

theorem first_hyphen (a : Str) : (∃ x y, a = x ++ 0x2d :: y ∧ 0x2d ∉ x) ∨ 0x2d ∉ a := by
  induction a with
  | nil => exact .inr (by simp)
  | cons c a ih =>
    by_cases hc : c = 0x2d
    · exact .inl ⟨[], a, by simp [hc], by simp⟩
    · rcases ih with ⟨x, y, rfl, hx⟩ | h
      · exact .inl ⟨c :: x, y, rfl, by simp [hx, Ne.symm hc]⟩
      · exact .inr (by simp [h, Ne.symm hc])

/-- The languages that a pair of languages names: around its first hyphen, or twice the same if there is none. -/
def Names (a lo lm : Str) : Prop := lo ≠ [] ∧ lm ≠ [] ∧ 0x2d ∉ lo ∧ (a = lo ++ 0x2d :: lm ∨ (a = lo ∧ lm = lo))

theorem names_iff (a lo lm : Str) :
    Names a lo lm ↔ a.takeWhile (· ≠ 0x2d) = lo ∧ afterHyphen a = lm ∧ lo ≠ [] ∧ lm ≠ [] := by
  constructor
  · rintro ⟨h1, h2, h3, rfl | ⟨rfl, rfl⟩⟩
    · obtain ⟨e1, e2⟩ := split_hyphen lo lm h3
      exact ⟨e1, by rw [afterHyphen, if_pos (by simp), e2], h1, h2⟩
    · exact ⟨no_hyphen h3, by rw [afterHyphen, if_neg h3], h1, h2⟩
  · rintro ⟨e1, e2, h1, h2⟩
    rcases first_hyphen a with ⟨x, y, rfl, hx⟩ | hm
    · obtain ⟨g1, g2⟩ := split_hyphen x y hx
      rw [g1] at e1
      rw [afterHyphen, if_pos (by simp), g2] at e2
      subst e1 e2
      exact ⟨h1, h2, hx, .inl rfl⟩
    · rw [no_hyphen hm] at e1
      rw [afterHyphen, if_neg hm] at e2
      subst e1 e2
      exact ⟨h1, h1, hm, .inr ⟨rfl, rfl⟩⟩

/-- **C103** lt-tmxcomp goes on exactly if it is given two languages and two files and nothing else. Then neither option is set: the options of the program, which
are in its usage message, cannot be used. -/
theorem C103_start (args : List Str) (lo lm input output : Str) (origin target : Option Str) :
    start args = .run lo lm input output origin target ↔
      ∃ a, args = [a, input, output] ∧ Names a lo lm ∧ Plain input ∧ Plain output ∧ origin = none ∧ target = none := by
  constructor
  · intro h
    unfold start at h
    split at h
    · cases h
    · rename_i hl
      split at h
      · cases h
      · rename_i g e
        simp only at h
        split at h
        · cases h
        · rename_i hne
          obtain ⟨hne1, hne2⟩ := not_or.1 hne
          rcases scan_cases args [] e with ⟨w, ws, hd⟩ | ⟨h1, h2⟩
          · refine absurd ?_ hne1
            rw [hd]; simp
          · obtain ⟨a, b, c, rfl⟩ : ∃ a b c, args = [a, b, c] := by
              match args, hl with
              | [a, b, c], _ => exact ⟨a, b, c, rfl⟩
              | [], hl => simp at hl
              | [_], hl => simp at hl
              | [_, _], hl => simp at hl
              | _ :: _ :: _ :: _ :: _, hl => simp at hl
            subst h2
            simp only [List.nil_append, List.getD_cons_zero, List.getD_cons_succ, Start.run.injEq] at h hne1 hne2
            obtain ⟨rfl, rfl, rfl, rfl, rfl, rfl⟩ := h
            exact ⟨a, rfl, (names_iff _ _ _).2 ⟨rfl, rfl, hne1, hne2⟩, h1 b (by simp), h1 c (by simp), rfl, rfl⟩
  · rintro ⟨a, rfl, hn, hb, hc, rfl, rfl⟩
    have ha : Plain a := by
      right
      intro hd
      obtain ⟨h1, h2, h3, h4⟩ := hn
      obtain ⟨x, lo', rfl⟩ := List.exists_cons_of_ne_nil h1
      have : x = 0x2d := by rcases h4 with rfl | ⟨rfl, -⟩ <;> simpa using hd
      exact h3 (by simp [this])
    have hs : scan [a, input, output] {} = some { skipped := [a, input, output] } :=
      scan_plain [a, input, output] [] (by
        intro x hx
        simp only [List.mem_cons, List.not_mem_nil, or_false] at hx
        rcases hx with rfl | rfl | rfl <;> assumption)
    obtain ⟨e1, e2, e3, e4⟩ := (names_iff a lo lm).1 hn
    unfold start
    rw [if_neg (by simp), hs]
    simp only [List.nil_append, List.getD_cons_zero, List.getD_cons_succ]
    rw [if_neg (by rw [e1, e2]; exact not_or.2 ⟨e3, e4⟩), e1, e2]

/-- In particular no command line sets the code of a language. -/
theorem C103_options_false (args : List Str) {lo lm input output : Str} {origin target : Option Str} (h : start args = .run lo lm input output origin target) :
    origin = none ∧ target = none := by
  obtain ⟨a, -, -, -, -, h1, h2⟩ := (C103_start ..).1 h
  exact ⟨h1, h2⟩

/-- One language in place of two is not refused: the memory is then from that language to itself. -/
theorem C103_one_language_false (a input output : Str) (ha : a ≠ []) (hh : 0x2d ∉ a) (h1 : Plain input) (h2 : Plain output) :
    start [a, input, output] = .run a a input output none none :=
  (C103_start ..).2 ⟨a, rfl, ⟨ha, ha, hh, .inr ⟨rfl, rfl⟩⟩, h1, h2, rfl, rfl⟩

example : start [str "en-es", str "a.tmx", str "a.bin"] = .run (str "en") (str "es") (str "a.tmx") (str "a.bin") none none ∧
    start [str "-o", str "eng", str "en-es", str "a.tmx", str "a.bin"] = .usage ∧ start [str "--origin-code=eng", str "en-es", str "a.tmx"] = .usage ∧
    start [str "en", str "a.tmx", str "a.bin"] = .run (str "en") (str "en") (str "a.tmx") (str "a.bin") none none ∧
    start [str "en-", str "a.tmx", str "a.bin"] = .usage ∧
    scan [str "-o", str "eng", str "en-es", str "a.tmx", str "--meta=spa", str "a.bin"] {} =
      some { front := [str "-o", str "eng", str "--meta=spa"], skipped := [str "en-es", str "a.tmx", str "a.bin"], origin := some (str "eng"), target := some (str "spa") } := by
  decide +kernel

end Verif.TmxCli
