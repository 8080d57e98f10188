import Verif.CompCli.Model
import Verif.Modes.Props

/-!
# C104: what lt-comp compiles for its command line
-/

namespace Verif.CompCli

open Verif.Cli Verif.Modes

/-- The first value of an option on a command line. -/
def first (is : List Item) (name : Str) : Option Str := ((is.flatMap Item.values).find? fun e => e.1.long = name).map (·.2)

/-- An option without a value is on a command line. -/
def on (is : List Item) (name : Str) : Bool := (is.flatMap Item.flags).any fun o => o.long = name

/-- The value of `LT_MAX_SECTION_ENTRIES`, if it is set, is a number that lt-comp can use: spaces, a sign, digits, and anything else after them. -/
def Readable (env : Option Str) : Prop :=
  ∀ s, env = some s → ∃ (sp : Str) (sign : Str) (ds : List (Fin 10)) (rest : Str), s = sp ++ sign ++ shown ds ++ rest ∧ (∀ c ∈ sp, c ∈ [(0x20 : UInt8), 9, 10, 11, 12, 13]) ∧
    (sign = [] ∨ sign = [0x2d] ∨ sign = [0x2b]) ∧ ds ≠ [] ∧ (∀ c, rest.head? = some c → ¬ (0x30 ≤ c ∧ c ≤ 0x39)) ∧
    (if sign = [0x2d] then meant ds ≤ 2 ^ 63 else meant ds < 2 ^ 63)

theorem first_eq (is : List Item) (name : Str) : ((settings is).strs name).head? = first is name := by
  simp only [settings, first, List.head?_map, List.head?_filter]

theorem on_eq (is : List Item) (name : Str) : (settings is).bools name = on is name := by
  rw [Bool.eq_iff_iff]
  simp only [settings, on, decide_eq_true_eq, List.any_eq_true, List.mem_map]

/-- The settings of the compiler for a command line. -/
def wished (is : List Item) (jobs : Bool) (limit : Nat) : DixSettings where
  variant := first is (str "var")
  alt := first is (str "alt")
  left := first is (str "var-left")
  right := first is (str "var-right")
  debug := on is (str "debug")
  keep := on is (str "keep-boundaries")
  verbose := on is (str "verbose")
  jobs := jobs
  limit := limit

theorem start_eq (file : Str → Input) (je me : Option Str) (is : List Item) (hi : ∀ i ∈ is, i.Ok compCli.opts) (hq : ∀ i ∈ is, i.Quiet) (after : Option (List Str))
    (opc input output : Str) (acx : List Str) (hf : filesOf is after = opc :: input :: output :: acx) (ha : acx.length ≤ 1) :
    ltCompStart file je me (line is after) =
      match limit (on is (str "jobs") || jobsVar je) me with
      | none => .exception
      | some m =>
        let s := wished is (on is (str "jobs") || jobsVar je) m
        let att (rl : Bool) : Job := .att rl (on is (str "hfst")) (!on is (str "no-split"))
        match file input with
        | .missing => .refused
        | ttype =>
          if opc = str "lr" then
            if (first is (str "var-left")).isSome then .usage false
            else .run (if ttype = .other then att false else .dix .lr (acx.head?.filter (· ≠ [])) s) input output
          else if opc = str "rl" then
            if (first is (str "var-right")).isSome then .usage false
            else .run (if ttype = .other then att true else .dix .rl none s) input output
          else if opc = str "u" then .run (if ttype = .other then att false else .dix .u none s) input output
          else .usage false := by
  have hp := C99_parse (C99_tools compCli (by simp [tools])).1 is hi hq after compCli.lo compCli.hi
  rw [if_pos (by rw [hf]; simp only [List.length_cons, compCli]; omega), hf] at hp
  unfold ltCompStart
  rw [hp]
  simp only [compile, on_eq, first_eq]
  have hacx : (let a := (opc :: input :: output :: acx ++ List.replicate (compCli.hi - (opc :: input :: output :: acx).length) []).getD 3 []
      if a = [] then none else some a) = acx.head?.filter (· ≠ []) := by
    match acx, ha with
    | [], _ => rfl
    | [a], _ => by_cases h : a = [] <;> simp [h, compCli, Option.filter]
  simp only at hacx
  rw [hacx]
  rfl

/-! ## Numbers -/

theorem shown_head (ds : List (Fin 10)) (hne : ds ≠ []) (rest : Str) : ∃ c, (shown ds ++ rest).head? = some c ∧ digit c = true ∧ space c = false ∧ c ≠ 0x2d ∧ c ≠ 0x2b := by
  obtain ⟨d, ds', rfl⟩ := List.exists_cons_of_ne_nil hne
  obtain ⟨h1, h2, -, h3, h4⟩ := shown_digit d
  exact ⟨0x30 + d.1.toUInt8, rfl, h1, h2, h3, h4⟩

theorem stol_shown {sp sign : Str} {ds : List (Fin 10)} {rest : Str} (hsp : ∀ c ∈ sp, c ∈ [(0x20 : UInt8), 9, 10, 11, 12, 13])
    (hsg : sign = [] ∨ sign = [0x2d] ∨ sign = [0x2b]) (hne : ds ≠ []) (hr : ∀ c, rest.head? = some c → ¬ (0x30 ≤ c ∧ c ≤ 0x39)) :
    stol (sp ++ sign ++ shown ds ++ rest) =
      if sign = [0x2d] then (if meant ds ≤ 2 ^ 63 then some (-(meant ds : Int)) else none) else if meant ds < 2 ^ 63 then some (meant ds : Int) else none := by
  have hv := value_shown ds (fun c hc => not_digit_of (hr c hc))
  have hsp' : ∀ c ∈ sp, space c = true := fun c hc => space_of (hsp c hc)
  obtain ⟨c, hc, hd, hs, hm, hp⟩ := shown_head ds hne rest
  generalize hw : shown ds ++ rest = w at hv hc
  obtain ⟨t, rfl⟩ : ∃ t, w = c :: t := by
    cases w with
    | nil => cases hc
    | cons x t => exact ⟨t, by simp only [List.head?_cons, Option.some.injEq] at hc; rw [hc]⟩
  rw [List.append_assoc, List.append_assoc, hw]
  generalize meant ds = n at hv
  have e0 : ¬ (([] : Str) = [0x2d]) := by decide
  have e1 : ¬ (([0x2b] : Str) = [0x2d]) := by decide
  have e2 : ¬ ((0x2b : UInt8) = 0x2d) := by decide
  rcases hsg with rfl | rfl | rfl
  · rw [List.nil_append]
    unfold stol
    rw [dropWhile_spaces hsp' (fun x hx => by cases hx; exact hs)]
    simp only [hm, hp, or_self, if_false, List.head?_cons, Option.any_some, hd, if_true, signed, hv, e0]
    by_cases hn : n < 2 ^ 63
    · rw [if_pos hn, if_neg (by push Not; constructor <;> omega)]
    · rw [if_neg hn, if_pos (.inr (by omega))]
  · rw [List.singleton_append]
    unfold stol
    rw [dropWhile_spaces hsp' (fun x hx => by cases hx; decide +kernel)]
    simp only [true_or, if_true, List.head?_cons, Option.any_some, hd, signed, hv]
    by_cases hn : n ≤ 2 ^ 63
    · rw [if_pos hn, if_neg (by push Not; constructor <;> omega)]
    · rw [if_neg hn, if_pos (.inl (by omega))]
  · rw [List.singleton_append]
    unfold stol
    rw [dropWhile_spaces hsp' (fun x hx => by cases hx; decide +kernel)]
    simp only [or_true, if_true, List.head?_cons, Option.any_some, hd, signed, hv, e1, e2, if_false]
    by_cases hn : n < 2 ^ 63
    · rw [if_pos hn, if_neg (by push Not; constructor <;> omega)]
    · rw [if_neg hn, if_pos (.inr (by omega))]

theorem space_iff {c : UInt8} (h : space c = true) : c ∈ [(0x20 : UInt8), 9, 10, 11, 12, 13] := by
  by_contra hn
  rw [not_space_of hn] at h
  cases h

theorem digit_iff {c : UInt8} (h : digit c = true) : ∃ d : Fin 10, 0x30 + d.1.toUInt8 = c := by
  have key : ∀ n : Fin 256, digit (UInt8.ofNat n.1) = true → ∃ d : Fin 10, 0x30 + d.1.toUInt8 = UInt8.ofNat n.1 := by decide +kernel
  have := key ⟨c.toNat, c.toNat_lt⟩
  simp only [UInt8.ofNat_toNat] at this
  exact this h

theorem digits_split (w : Str) (h : w.head?.any digit = true) :
    ∃ ds : List (Fin 10), ∃ rest, w = shown ds ++ rest ∧ ds ≠ [] ∧ ∀ c, rest.head? = some c → ¬ (0x30 ≤ c ∧ c ≤ 0x39) := by
  induction w with
  | nil => cases h
  | cons c w ih =>
    obtain ⟨d, hd⟩ := digit_iff (show digit c = true from h)
    by_cases hw : w.head?.any digit = true
    · obtain ⟨ds, rest, h1, -, h3⟩ := ih hw
      exact ⟨d :: ds, rest, by rw [h1, ← hd]; rfl, by simp, h3⟩
    · refine ⟨[d], w, by rw [← hd]; rfl, by simp, fun x hx hx' => hw ?_⟩
      rw [hx]
      simp only [Option.any_some, digit, decide_eq_true_eq]
      exact hx'

/-- `stol` gives a number exactly for the texts that are described as readable. -/
theorem stol_isSome (s : Str) : (stol s).isSome = true ↔ Readable (some s) := by
  constructor
  · intro h s' hs'
    cases hs'
    have hsplit : s = s.takeWhile space ++ s.dropWhile space := List.takeWhile_append_dropWhile.symm
    have hsp : ∀ c ∈ s.takeWhile space, c ∈ [(0x20 : UInt8), 9, 10, 11, 12, 13] := fun c hc => space_iff (List.all_eq_true.1 List.all_takeWhile c hc)
    obtain ⟨sign, w, hw, hsg, hd⟩ : ∃ sign w, s.dropWhile space = sign ++ w ∧ (sign = [] ∨ sign = [0x2d] ∨ sign = [0x2b]) ∧ w.head?.any digit = true := by
      unfold stol at h
      generalize s.dropWhile space = t at h
      cases t with
      | nil => simp at h
      | cons c cs =>
        simp only at h
        by_cases hc : c = 0x2d ∨ c = 0x2b
        · rw [if_pos hc] at h
          refine ⟨[c], cs, rfl, ?_, ?_⟩
          · rcases hc with rfl | rfl <;> simp
          · by_contra hn; rw [if_neg hn] at h; cases h
        · rw [if_neg hc] at h
          refine ⟨[], c :: cs, rfl, .inl rfl, ?_⟩
          by_contra hn; rw [if_neg hn] at h; cases h
    obtain ⟨ds, rest, rfl, hne, hr⟩ := digits_split w hd
    have e : s = s.takeWhile space ++ sign ++ shown ds ++ rest := by rw [List.append_assoc, List.append_assoc, ← hw]; exact hsplit
    refine ⟨_, sign, ds, rest, e, hsp, hsg, hne, hr, ?_⟩
    rw [e, stol_shown hsp hsg hne hr] at h
    by_cases hm : sign = [0x2d]
    · rw [if_pos hm] at h ⊢
      by_contra hn; rw [if_neg hn] at h; cases h
    · rw [if_neg hm] at h ⊢
      by_contra hn; rw [if_neg hn] at h; cases h
  · intro h
    obtain ⟨sp, sign, ds, rest, rfl, hsp, hsg, hne, hr, hn⟩ := h s rfl
    rw [stol_shown hsp hsg hne hr]
    by_cases hm : sign = [0x2d]
    · rw [if_pos hm] at hn ⊢
      rw [if_pos hn]; rfl
    · rw [if_neg hm] at hn ⊢
      rw [if_pos hn]; rfl

theorem limit_isSome (jobs : Bool) (env : Option Str) : (limit jobs env).isSome = true ↔ Readable env := by
  cases env with
  | none => simp [limit, Readable]
  | some s => rw [← stol_isSome]; simp [limit]

theorem jobsVar_iff (je : Option Str) : jobsVar je = true ↔ ∃ s, je = some s ∧ ∀ t, s ≠ 0x6e :: t := by
  cases je with
  | none => simp [jobsVar]
  | some s =>
    cases s with
    | nil => simp [jobsVar]
    | cons c t => simp [jobsVar]

/-! ## The command line -/

variable (file : Str → Input) (je me : Option Str) (is : List Item) (hi : ∀ i ∈ is, i.Ok compCli.opts) (hq : ∀ i ∈ is, i.Quiet) (after : Option (List Str))
  (opc input output : Str) (acx : List Str) (hf : filesOf is after = opc :: input :: output :: acx) (ha : acx.length ≤ 1)

include hi hq hf ha

/-- **C104** For every command line of options and three or four files, compilation begins exactly if the file can be opened, the direction is one of the three, there is no
variant for the side that is not wanted, and the variable with the size of sections is not set or a number. -/
theorem C104_runs :
    (∃ j, ltCompStart file je me (line is after) = .run j input output) ↔
      Readable me ∧ file input ≠ .missing ∧
        ((opc = str "lr" ∧ first is (str "var-left") = none) ∨ (opc = str "rl" ∧ first is (str "var-right") = none) ∨ opc = str "u") := by
  rw [start_eq file je me is hi hq after opc input output acx hf ha, ← limit_isSome (on is (str "jobs") || jobsVar je)]
  have d1 : str "rl" ≠ str "lr" := by decide +kernel
  have d2 : str "u" ≠ str "lr" := by decide +kernel
  have d3 : str "u" ≠ str "rl" := by decide +kernel
  cases limit (on is (str "jobs") || jobsVar je) me with
  | none => simp
  | some m =>
    cases file input <;> simp only [Option.isSome_some, true_and, ne_eq, not_true_eq_false, false_and, reduceCtorEq, not_false_eq_true, exists_false]
    all_goals
      by_cases h1 : opc = str "lr"
      · subst h1
        cases first is (str "var-left") <;> simp [d1.symm, d2.symm]
      · by_cases h2 : opc = str "rl"
        · subst h2
          cases first is (str "var-right") <;> simp [d1, d3.symm]
        · by_cases h3 : opc = str "u"
          · subst h3; simp [d2, d3]
          · simp [h1, h2, h3]

/-- **C104** What begins is the compilation in the direction that is asked for, with the first value of each option, and each other setting by its own option. A file that does
not begin as XML is taken for the format of AT&T. -/
theorem C104_settings (j : Job) (hj : ltCompStart file je me (line is after) = .run j input output) :
    if file input = .xml then ∃ d a m threads, j = .dix d a
        { variant := first is (str "var"), alt := first is (str "alt"), left := first is (str "var-left"), right := first is (str "var-right")
          debug := on is (str "debug"), keep := on is (str "keep-boundaries"), verbose := on is (str "verbose")
          jobs := threads, limit := m } ∧
      (threads = true ↔ on is (str "jobs") = true ∨ ∃ s, je = some s ∧ ∀ t, s ≠ 0x6e :: t) ∧
      opc = (match d with | .lr => str "lr" | .rl => str "rl" | .u => str "u") ∧
      a = (if opc = str "lr" then acx.head?.filter (· ≠ []) else none) ∧
      (me = none → m = if threads then 50000 else 0) ∧ limit threads me = some m
    else j = .att (opc = str "rl") (on is (str "hfst")) (!on is (str "no-split")) := by
  rw [start_eq file je me is hi hq after opc input output acx hf ha] at hj
  have d1 : str "rl" ≠ str "lr" := by decide +kernel
  have d2 : str "u" ≠ str "lr" := by decide +kernel
  have d3 : str "u" ≠ str "rl" := by decide +kernel
  have hjobs : (on is (str "jobs") || jobsVar je) = true ↔ on is (str "jobs") = true ∨ ∃ s, je = some s ∧ ∀ t, s ≠ 0x6e :: t := by
    rw [Bool.or_eq_true, jobsVar_iff]
  cases hl : limit (on is (str "jobs") || jobsVar je) me with
  | none => rw [hl] at hj; cases hj
  | some m =>
    have hm : me = none → m = if on is (str "jobs") || jobsVar je then 50000 else 0 := by
      rintro rfl
      exact (Option.some.inj hl).symm
    rw [hl] at hj
    simp only at hj
    cases hfile : file input with
    | missing => rw [hfile] at hj; cases hj
    | xml =>
      rw [hfile] at hj
      simp only [reduceCtorEq, if_false] at hj
      rw [if_pos rfl]
      by_cases h1 : opc = str "lr"
      · subst h1
        rw [if_pos rfl] at hj
        split at hj
        · cases hj
        · cases hj
          exact ⟨.lr, _, m, _, rfl, hjobs, rfl, (if_pos rfl).symm, hm, hl⟩
      · rw [if_neg h1] at hj
        by_cases h2 : opc = str "rl"
        · subst h2
          rw [if_pos rfl] at hj
          split at hj
          · cases hj
          · cases hj
            exact ⟨.rl, _, m, _, rfl, hjobs, rfl, (if_neg h1).symm, hm, hl⟩
        · rw [if_neg h2] at hj
          by_cases h3 : opc = str "u"
          · subst h3
            rw [if_pos rfl] at hj
            cases hj
            exact ⟨.u, _, m, _, rfl, hjobs, rfl, (if_neg h1).symm, hm, hl⟩
          · rw [if_neg h3] at hj; cases hj
    | other =>
      rw [hfile] at hj
      simp only [if_true] at hj
      rw [if_neg (by simp)]
      by_cases h1 : opc = str "lr"
      · subst h1
        rw [if_pos rfl] at hj
        split at hj
        · cases hj
        · cases hj; simp [d1.symm]
      · rw [if_neg h1] at hj
        by_cases h2 : opc = str "rl"
        · subst h2
          rw [if_pos rfl] at hj
          split at hj
          · cases hj
          · cases hj; simp
        · rw [if_neg h2] at hj
          by_cases h3 : opc = str "u"
          · subst h3
            rw [if_pos rfl] at hj
            cases hj; simp [d3]
          · rw [if_neg h3] at hj; cases hj

/-- **C104** Without a command to compile the program ends in an orderly way, unless the variable cannot be read. -/
theorem C104_refused (hr : Readable me) : (∃ j, ltCompStart file je me (line is after) = .run j input output) ∨
    ltCompStart file je me (line is after) = (if file input = .missing then .refused else .usage false) := by
  rw [start_eq file je me is hi hq after opc input output acx hf ha]
  rw [← limit_isSome (on is (str "jobs") || jobsVar je)] at hr
  cases hl : limit (on is (str "jobs") || jobsVar je) me with
  | none => rw [hl] at hr; cases hr
  | some m =>
    simp only
    cases file input with
    | missing => exact .inr (if_pos rfl).symm
    | _ =>
      simp only [reduceCtorEq, if_false, if_true]
      split
      · split
        · exact .inr rfl
        · exact .inl ⟨_, rfl⟩
      · split
        · split
          · exact .inr rfl
          · exact .inl ⟨_, rfl⟩
        · split
          · exact .inl ⟨_, rfl⟩
          · exact .inr rfl

/-- **C104** A value of `LT_MAX_SECTION_ENTRIES` that is not a number ends lt-comp with an exception that nothing catches, for every command line. -/
theorem C104_variable_false (hr : ¬ Readable me) : ltCompStart file je me (line is after) = .exception := by
  rw [start_eq file je me is hi hq after opc input output acx hf ha]
  rw [← limit_isSome (on is (str "jobs") || jobsVar je)] at hr
  cases hl : limit (on is (str "jobs") || jobsVar je) me with
  | none => rfl
  | some m => rw [hl] at hr; exact absurd rfl hr

omit hi hq hf ha in
/-- **C104** The file with equivalent characters is used for the direction `lr` and a dictionary in XML only; everywhere else it is ignored without a message, and need not exist. -/
theorem C104_acx_false (hi : ∀ i ∈ is, i.Ok compCli.opts) (hq : ∀ i ∈ is, i.Quiet) (a : Str) (h : opc ≠ str "lr" ∨ file input ≠ .xml)
    (hf : is.flatMap Item.files = []) :
    ltCompStart file je me (line is (some [opc, input, output, a])) = ltCompStart file je me (line is (some [opc, input, output])) := by
  rw [start_eq file je me is hi hq _ opc input output [a] (by simp [filesOf, hf]) (by simp),
    start_eq file je me is hi hq _ opc input output [] (by simp [filesOf, hf]) (by simp)]
  cases limit (on is (str "jobs") || jobsVar je) me with
  | none => rfl
  | some m =>
    simp only
    rcases h with h | h
    · simp only [h, if_false]
    · cases hfile : file input with
      | missing => rfl
      | xml => exact absurd hfile h
      | other => rfl

omit hi hq hf ha in
/-- **C104** The size of sections is the number in the variable, with or without threads; a negative number is taken as that of the type `size_t`. -/
theorem C104_limit (jobs : Bool) (sp : Str) (hsp : ∀ c ∈ sp, c ∈ [(0x20 : UInt8), 9, 10, 11, 12, 13]) (ds : List (Fin 10)) (hne : ds ≠ []) (rest : Str)
    (hr : ∀ c, rest.head? = some c → ¬ (0x30 ≤ c ∧ c ≤ 0x39)) (hn : meant ds < 2 ^ 63) :
    limit jobs (some (sp ++ shown ds ++ rest)) = some (meant ds) ∧
    (meant ds ≠ 0 → limit jobs (some (sp ++ [0x2d] ++ shown ds ++ rest)) = some (2 ^ 64 - meant ds)) := by
  have h1 := stol_shown (sign := []) hsp (.inl rfl) hne hr
  have h2 := stol_shown (sign := [0x2d]) hsp (.inr (.inl rfl)) hne hr
  rw [if_neg (by decide), if_pos hn, List.append_nil] at h1
  rw [if_pos rfl, if_pos (by omega)] at h2
  constructor
  · rw [limit, h1, Option.map_some]
    congr 1
    omega
  · intro h0
    rw [limit, h2, Option.map_some]
    congr 1
    omega

/-- **C104** So for a dictionary in XML the size of sections is the number in the variable, whatever the options are. -/
theorem C104_size (d : Dir) (a : Option Str) (s : DixSettings) (hj : ltCompStart file je me (line is after) = .run (.dix d a s) input output)
    (sp : Str) (hsp : ∀ c ∈ sp, c ∈ [(0x20 : UInt8), 9, 10, 11, 12, 13]) (ds : List (Fin 10)) (hne : ds ≠ []) (rest : Str)
    (hr : ∀ c, rest.head? = some c → ¬ (0x30 ≤ c ∧ c ≤ 0x39)) (hn : meant ds < 2 ^ 63) (hme : me = some (sp ++ shown ds ++ rest)) : s.limit = meant ds := by
  have h := C104_settings file je me is hi hq after opc input output acx hf ha _ hj
  split at h
  · obtain ⟨d', a', m, t, e, -, -, -, -, hl⟩ := h
    cases e
    rw [hme, (C104_limit t sp hsp ds hne rest hr hn).1] at hl
    exact (Option.some.inj hl).symm
  · cases h

omit hi hq hf ha in
/-- **C104** The variable `LT_JOBS` asks for threads unless its value begins with `n`: `0`, `false` and the empty text ask for them too. -/
theorem C104_jobs_false (s : Str) (hs : ∀ t, s ≠ 0x6e :: t) : jobsVar (some s) = true := by
  cases s with
  | nil => rfl
  | cons c t =>
    have : c ≠ 0x6e := fun h => hs t (by rw [h])
    simp [jobsVar, this]

/-- A command line of lt-comp: `-m -v eu -v oc rl a.dix a.bin`. -/
def exComp : List Item := [.letters ⟨0x6d, str "keep-boundaries", true⟩ [], .separate [] ⟨0x76, str "var", false⟩ (str "eu"), .separate [] ⟨0x76, str "var", false⟩ (str "oc")]

example : (∀ i ∈ exComp, i.Ok compCli.opts) ∧ (∀ i ∈ exComp, i.Quiet) ∧ filesOf exComp (some [str "rl", str "a.dix", str "a.bin"]) = [str "rl", str "a.dix", str "a.bin"] ∧
    exComp.flatMap Item.files = [] ∧ first exComp (str "var") = some (str "eu") ∧ on exComp (str "keep-boundaries") = true := by
  refine ⟨fun i hi => ?_, fun i hi => ?_, by decide +kernel, by decide +kernel, by decide +kernel, by decide +kernel⟩
  · simp only [exComp, List.mem_cons, List.not_mem_nil, or_false] at hi
    rcases hi with rfl | rfl | rfl
    · exact ⟨by decide +kernel, by decide +kernel, trivial⟩
    · exact ⟨by decide +kernel, by decide +kernel, trivial⟩
    · exact ⟨by decide +kernel, by decide +kernel, trivial⟩
  · have key : ∀ o ∈ i.flags ++ i.values.map (·.1), o.short ≠ 0x68 ∧ ¬ (o.short = 0x76 ∧ o.long = [0x76, 0x65, 0x72, 0x73, 0x69, 0x6f, 0x6e]) := by
      simp only [exComp, List.mem_cons, List.not_mem_nil, or_false] at hi
      rcases hi with rfl | rfl | rfl <;> decide +kernel
    exact fun o ho => key o (List.mem_append.2 ho)

/-- The conditions of the theorems for this command line, and what comes of it. -/
example : ltCompStart (fun _ => .xml) (some (str "false")) (some (str "70 words")) [str "-m", str "-v", str "eu", str "-v", str "oc", str "rl", str "a.dix", str "a.bin", str "x.acx"] =
      .run (.dix .rl none { variant := some (str "eu"), alt := none, left := none, right := none, debug := false, keep := true, verbose := false, jobs := true, limit := 70 })
        (str "a.dix") (str "a.bin") ∧
    ltCompStart (fun _ => .xml) none (some (str "many")) [str "lr", str "a.dix", str "a.bin"] = .exception ∧
    ltCompStart (fun _ => .xml) none none [str "lr", str "-l", str "eu", str "a.dix", str "a.bin"] = .usage false := by
  decide +kernel

end Verif.CompCli
