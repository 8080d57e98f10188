import Verif.Modes.Spec
import Verif.Cli.Props

/-!
# C102: what lt-proc does for its options
-/

namespace Verif.Modes

open Verif.Cli

/-- The options by which `commands` decides, as values. -/
def pick (a b o k g e p x t s : Bool) : Str → Bool := fun n =>
  if n = str "analysis" then a else if n = str "bilingual" then b else if n = str "surf-bilingual" then o else if n = str "surf-bilingual-keep" then k
  else if n = str "generation" then g else if n = str "decompose-nouns" then e else if n = str "post-generation" then p
  else if n = str "inter-generation" then x else if n = str "transliteration" then t else if n = str "sao" then s else false

/-- The commands for all choices of options. -/
def Decided (has : Str → Bool) : Prop := commands has =
    if 2 ≤ (asked has).length then none else some
      { cmd := match asked has with
          | [.analysis] => some .a
          | [.transfer] => if transfer has then some .b else some .g
          | [.decomposition] => some .e
          | [.postgeneration] => some .p
          | [.transliteration] => some .t
          | [.sao] => some .s
          | _ => none
        bilmode := if transfer has && has (str "generation") then .bilgen else .unknown
        surface := has (str "surf-bilingual")
        keep := has (str "surf-bilingual-keep") }

instance (has : Str → Bool) : Decidable (Decided has) := by unfold Decided; infer_instance

theorem decided_pick : ∀ a b o k g e p x t s, Decided (pick a b o k g e p x t s) := by decide +kernel

theorem commands_spec (has : Str → Bool) : Decided has := by
  have h := decided_pick (has (str "analysis")) (has (str "bilingual")) (has (str "surf-bilingual")) (has (str "surf-bilingual-keep")) (has (str "generation"))
    (has (str "decompose-nouns")) (has (str "post-generation")) (has (str "inter-generation")) (has (str "transliteration")) (has (str "sao"))
  generalize hp : pick (has (str "analysis")) (has (str "bilingual")) (has (str "surf-bilingual")) (has (str "surf-bilingual-keep")) (has (str "generation"))
    (has (str "decompose-nouns")) (has (str "post-generation")) (has (str "inter-generation")) (has (str "transliteration")) (has (str "sao")) = f at h
  have e : ∀ n ∈ [str "analysis", str "bilingual", str "surf-bilingual", str "surf-bilingual-keep", str "generation", str "decompose-nouns", str "post-generation",
      str "inter-generation", str "transliteration", str "sao"], f n = has n := by
    intro n hn
    rw [← hp]
    simp only [List.mem_cons, List.not_mem_nil, or_false] at hn
    unfold pick
    split; · rename_i h; rw [h]
    split; · rename_i h; rw [h]
    split; · rename_i h; rw [h]
    split; · rename_i h; rw [h]
    split; · rename_i h; rw [h]
    split; · rename_i h; rw [h]
    split; · rename_i h; rw [h]
    split; · rename_i h; rw [h]
    split; · rename_i h; rw [h]
    split; · rename_i h; rw [h]
    simp_all
  have e1 := e (str "analysis") (by simp)
  have e2 := e (str "bilingual") (by simp)
  have e3 := e (str "surf-bilingual") (by simp)
  have e4 := e (str "surf-bilingual-keep") (by simp)
  have e5 := e (str "generation") (by simp)
  have e6 := e (str "decompose-nouns") (by simp)
  have e7 := e (str "post-generation") (by simp)
  have e8 := e (str "inter-generation") (by simp)
  have e9 := e (str "transliteration") (by simp)
  have e10 := e (str "sao") (by simp)
  have ha : asked f = asked has := by
    have e' : ∀ g : Family, g.options.any f = g.options.any has := by
      intro g
      cases g <;> simp only [Family.options, List.any_cons, List.any_nil, e1, e2, e3, e4, e5, e6, e7, e8, e9, e10]
    simp only [asked, List.filter_cons, e', List.filter_nil]
  have ht : transfer f = transfer has := by simp only [transfer, e2, e3, e4]
  have hc : commands f = commands has := by simp only [commands, e1, e2, e3, e4, e5, e6, e7, e8, e9, e10]
  unfold Decided at h ⊢
  rw [hc, ha, ht, e3, e4, e5] at h
  exact h

theorem generations_spec (has : Str → Bool) (v : Vars) : generations has v =
    { v with cmd := if wanted has = [] then v.cmd else some (v.cmd.getD .g), bilmode := (wanted has).getLast?.getD v.bilmode } := by
  obtain ⟨cmd, m, sf, kp⟩ := v
  simp only [generations, wanted, kinds, List.filter_cons, List.filter_nil]
  cases has (str "debugged-gen") <;> cases has (str "tagged-gen") <;> cases has (str "tagged-nm-gen") <;> cases has (str "non-marked-gen") <;>
    cases has (str "careful-case") <;> simp [marks, orElse]

/-- **C102** The usage message comes exactly if options of two families are given. Otherwise lt-proc does what the family says, generates if there is only an option for a
kind of generation, and analyses if there is none. -/
theorem C102_task (has : Str → Bool) : (commands has).map (fun v => (generations has v).call) = if 2 ≤ (asked has).length then none else some (task has) := by
  rw [show commands has = _ from commands_spec has]
  split
  · rfl
  · rename_i hl
    rw [Option.map_some, generations_spec]
    simp only [Vars.call, task, kind]
    have : asked has = [] ∨ ∃ f, asked has = [f] := by
      match h : asked has with
      | [] => exact .inl rfl
      | [f] => exact .inr ⟨f, rfl⟩
      | _ :: _ :: _ => rw [h] at hl; simp at hl
    rcases this with h | ⟨f, h⟩
    · rw [h]
      by_cases hw : wanted has = [] <;> simp [hw]
    · rw [h]
      by_cases hw : wanted has = [] <;> cases ht : transfer has <;> cases f <;> simp [hw]

/-- **C102** The options for the kind of generation are without effect on everything but generation and transfer, and are not refused there. -/
theorem C102_kinds (has : Str → Bool) (f : Family) (hf : asked has = [f]) (h : f ≠ .transfer) (names : List Str) (hn : ∀ n ∈ names, n ∈ kinds.map (·.1)) :
    let has' := fun n => has n || decide (n ∈ names)
    commands has' ≠ none ∧ (commands has').map (fun v => (generations has' v).call) = (commands has).map (fun v => (generations has v).call) := by
  intro has'
  have hk : ∀ n ∉ kinds.map (·.1), has' n = has n := fun n hno => by
    have : n ∉ names := fun h => hno (hn n h)
    simp [has', this]
  have ha : asked has' = asked has := by
    have e : ∀ g : Family, g.options.any has' = g.options.any has := by
      intro g
      have hd : ∀ n ∈ g.options, n ∉ kinds.map (·.1) := by revert g; intro g; cases g <;> decide +kernel
      rw [Bool.eq_iff_iff, List.any_eq_true, List.any_eq_true]
      exact exists_congr fun n => and_congr_right fun hm => by rw [hk n (hd n hm)]
    simp only [asked, List.filter_cons, e, List.filter_nil]
  have h1 := C102_task has'
  have h2 := C102_task has
  rw [ha, hf] at h1
  rw [hf] at h2
  simp only [List.length_singleton, show ¬ (2 ≤ 1) by omega, if_false] at h1 h2
  refine ⟨fun e => ?_, ?_⟩
  · rw [e] at h1; cases h1
  · rw [h1, h2]
    simp only [task, ha, hf]
    cases f <;> first | rfl | exact absurd rfl h

/-! ## From the command line -/

/-- **C102** What lt-proc has been told when it opens its files, for every command line of options and files: the task, and each other setting by its own option. -/
theorem C102_line (is : List Item) (hi : ∀ i ∈ is, i.Ok procCli.opts) (hq : ∀ i ∈ is, i.Quiet) (after : Option (List Str))
    (hf : 1 ≤ (filesOf is after).length ∧ (filesOf is after).length ≤ 3) :
    let has := (settings is).bools
    let values := (settings is).strs
    ltProcStart (line is after) =
      if 2 ≤ (asked has).length then .usage false
      else match number (values (str "analyses")), number (values (str "weight-classes")), number (values (str "compound-max-elements")) with
        | .go n, .go l, .go m => .run
            { call := task has, surface := has (str "surf-bilingual"), keep := has (str "surf-bilingual-keep")
              caseSensitive := has (str "case-sensitive")
              defaultIgnored := !has (str "no-default-ignore") && (values (str "restore-chars")).isEmpty
              weights := has (str "show-weights"), nullFlush := has (str "null-flush"), dictionaryCase := has (str "dictionary-case")
              ignored := values (str "ignored-chars"), restored := values (str "restore-chars"), analyses := n, classes := l, elements := m }
            (filesOf is after ++ List.replicate (3 - (filesOf is after).length) [])
        | .go _, .go _, r => if r = .ub then .ub else .refused
        | .go _, r, _ => if r = .ub then .ub else .refused
        | r, _, _ => if r = .ub then .ub else .refused := by
  intro has values
  have hp := C99_parse (C99_tools procCli (by simp [tools])).1 is hi hq after procCli.lo procCli.hi
  rw [if_pos (show procCli.lo ≤ _ ∧ _ ≤ procCli.hi from hf)] at hp
  unfold ltProcStart
  rw [hp]
  simp only [configure]
  have ht := C102_task has
  have hc := commands_spec has
  unfold Decided at hc
  by_cases hl : 2 ≤ (asked has).length
  · rw [if_pos hl] at hc ⊢
    rw [show commands (settings is).bools = none from hc]
  · rw [if_neg hl] at hc ht ⊢
    obtain ⟨v, hv, h1, h2⟩ : ∃ v, commands has = some v ∧ v.surface = has (str "surf-bilingual") ∧ v.keep = has (str "surf-bilingual-keep") := ⟨_, hc, rfl, rfl⟩
    rw [hv] at ht
    have h3 : (generations has v).call = task has := Option.some.inj ht
    have h4 : (generations has v).surface = has (str "surf-bilingual") := by rw [generations_spec]; exact h1
    have h5 : (generations has v).keep = has (str "surf-bilingual-keep") := by rw [generations_spec]; exact h2
    rw [show commands (settings is).bools = some v from hv]
    simp only
    rw [show generations (settings is).bools v = generations has v from rfl, h3, h4, h5]
    cases number (values (str "analyses")) <;> cases number (values (str "weight-classes")) <;> cases number (values (str "compound-max-elements")) <;> rfl

/-- A command line of lt-proc: `-gw -N 3 --null-flush dictionary`. -/
def exProc : List Item := [.letters ⟨0x67, str "generation", true⟩ [⟨0x77, str "dictionary-case", true⟩], .separate [] ⟨0x4e, str "analyses", false⟩ (str "3"),
  .long ⟨0x7a, str "null-flush", true⟩, .file (str "a.bin")]

example : (∀ i ∈ exProc, i.Ok procCli.opts) ∧ (∀ i ∈ exProc, i.Quiet) ∧ (filesOf exProc none).length = 1 ∧
    line exProc none = [str "-gw", str "-N", str "3", str "--null-flush", str "a.bin"] := by
  refine ⟨fun i hi => ?_, fun i hi => ?_, by decide +kernel, by decide +kernel⟩
  · simp only [exProc, List.mem_cons, List.not_mem_nil, or_false] at hi
    rcases hi with rfl | rfl | rfl | rfl
    · exact ⟨by decide +kernel, by decide +kernel, trivial⟩
    · exact ⟨by decide +kernel, by decide +kernel, trivial⟩
    · exact ⟨by decide +kernel, by decide +kernel, trivial⟩
    · exact ⟨by decide +kernel, by decide +kernel, .inr (by decide +kernel)⟩
  · have key : ∀ o ∈ i.flags ++ i.values.map (·.1), o.short ≠ 0x68 ∧ ¬ (o.short = 0x76 ∧ o.long = [0x76, 0x65, 0x72, 0x73, 0x69, 0x6f, 0x6e]) := by
      simp only [exProc, List.mem_cons, List.not_mem_nil, or_false] at hi
      rcases hi with rfl | rfl | rfl | rfl <;> decide +kernel
    exact fun o ho => key o (List.mem_append.2 ho)

/-- `-g` with `-d` and `-n` in any order: generation without marks. `-b -g`: transfer without tags that are left over. `-a -n`: analysis. -/
example : task (fun n => n ∈ [str "generation", str "debugged-gen", str "non-marked-gen"]) = .generation .clean ∧
    task (fun n => n ∈ [str "bilingual", str "generation"]) = .bilingual .bilgen ∧ task (fun n => n ∈ [str "analysis", str "non-marked-gen"]) = .analysis ∧
    asked (fun n => n ∈ [str "analysis", str "non-marked-gen"]) = [.analysis] ∧ (asked fun n => n ∈ [str "analysis", str "generation"]).length = 2 ∧
    task (fun n => n ∈ [str "surf-bilingual"]) = .bilingual .unknown ∧ task (fun n => n ∈ [str "tagged-gen"]) = .generation .tagged ∧ task (fun _ => false) = .analysis := by
  decide +kernel

/-- **C102** `-v` and `--version` give the version, `-h` and `--help` the usage message as for help, whatever comes after; other options before them are read but without effect.
Letters that lt-proc does not know give the usage message as for an error. -/
theorem C102_version_help (is : List Item) (hi : ∀ i ∈ is, i.Ok procCli.opts) (hq : ∀ i ∈ is, i.Quiet) (args : List Str) :
    (∀ a ∈ [str "-v", str "--version"], ltProcStart (is.flatMap Item.words ++ a :: args) = .version) ∧
    (∀ a ∈ [str "-h", str "--help"], ltProcStart (is.flatMap Item.words ++ a :: args) = .usage true) ∧
    ∀ c ∉ (str "abcdegiIhlLmMnNoOprstvwxWzC-"), ∀ cs, ltProcStart (is.flatMap Item.words ++ (0x2d :: c :: cs) :: args) = .usage false := by
  have hc := (C99_tools procCli (by simp [tools])).1
  have hv := C99_version hc is hi hq (by decide +kernel) args procCli.lo procCli.hi
  have hh := C99_help hc is hi hq ⟨0x68, str "help", true⟩ (by decide +kernel) rfl rfl args procCli.lo procCli.hi
  have e1 : str "-h" = [0x2d, 0x68] := by decide +kernel
  have e2 : str "--help" = 0x2d :: 0x2d :: str "help" := by decide +kernel
  refine ⟨fun a ha => ?_, fun a ha => ?_, fun c hn cs => ?_⟩
  · simp only [List.mem_cons, List.not_mem_nil, or_false] at ha
    unfold ltProcStart
    rcases ha with rfl | rfl
    · rw [hv.1]
    · rw [hv.2]
  · simp only [List.mem_cons, List.not_mem_nil, or_false] at ha
    unfold ltProcStart
    rcases ha with rfl | rfl
    · rw [e1, hh.1]
    · rw [e2, hh.2]
  · have hl : ∀ o ∈ procCli.opts, o.short ∈ str "abcdegiIhlLmMnNoOprstvwxWzC-" ∧ o.short ≠ 0x3f := by decide +kernel
    unfold ltProcStart
    rw [C99_unknown_letter hc is hi hq c (fun e => hn (by rw [e]; decide +kernel)) (fun o ho => ⟨fun e => hn (e ▸ (hl o ho).1), (hl o ho).2⟩) cs args]

/-- The manual has `--decompose-compounds` (lt-proc.1:114), which the program does not know; it then reads outside its table of options. -/
theorem C102_manual_false (is : List Item) (hi : ∀ i ∈ is, i.Ok procCli.opts) (hq : ∀ i ∈ is, i.Quiet) (args : List Str) :
    ltProcStart (is.flatMap Item.words ++ str "--decompose-compounds" :: args) = .ub := by
  have h := C99_unknown_long_false (C99_tools procCli (by simp [tools])).1 (by simp [procCli]) is hi hq (str "decompose-compounds") (by decide +kernel)
    (by decide +kernel) args procCli.lo procCli.hi
  rw [show str "--decompose-compounds" = 0x2d :: 0x2d :: str "decompose-compounds" by decide +kernel]
  unfold ltProcStart
  rw [h]

/-! ## Numbers -/

theorem value_append (n : Nat) (s rest : Str) (hs : ∀ c ∈ s, digit c = true) : value n (s ++ rest) = value (s.foldl (fun n c => 10 * n + (c.toNat - 0x30)) n) rest := by
  induction s generalizing n with
  | nil => rfl
  | cons c s ih =>
    rw [List.cons_append, value, if_pos (hs c (by simp)), ih _ fun c hc => hs c (by simp [hc])]
    rfl

theorem value_stop (n : Nat) {rest : Str} (hr : ∀ c, rest.head? = some c → digit c = false) : value n rest = n := by
  cases rest with
  | nil => rfl
  | cons c rest => rw [value, if_neg (by rw [hr c rfl]; simp)]

theorem dropWhile_spaces {sp s : Str} (hsp : ∀ c ∈ sp, space c = true) (hs : ∀ c, s.head? = some c → space c = false) : (sp ++ s).dropWhile space = s := by
  induction sp with
  | nil =>
    cases s with
    | nil => rfl
    | cons c s => rw [List.nil_append, List.dropWhile_cons, if_neg (by rw [hs c rfl]; simp)]
  | cons c sp ih => rw [List.cons_append, List.dropWhile_cons, if_pos (hsp c (by simp)), ih fun c hc => hsp c (by simp [hc])]

theorem signed_plain {s : Str} (hs : ∀ c, s.head? = some c → c ≠ 0x2d ∧ c ≠ 0x2b) : signed s = value 0 s := by
  cases s with
  | nil => rfl
  | cons c s => rw [signed, if_neg (hs c rfl).1, if_neg (hs c rfl).2]

theorem space_of {c : UInt8} (h : c ∈ [(0x20 : UInt8), 9, 10, 11, 12, 13]) : space c = true := by
  simp only [List.mem_cons, List.not_mem_nil, or_false] at h
  rcases h with rfl | rfl | rfl | rfl | rfl | rfl <;> decide

theorem not_space_of {c : UInt8} (h : c ∉ [(0x20 : UInt8), 9, 10, 11, 12, 13]) : space c = false := by
  have key : ∀ n : Fin 256, UInt8.ofNat n.1 ∉ [(0x20 : UInt8), 9, 10, 11, 12, 13] → space (UInt8.ofNat n.1) = false := by decide +kernel
  have := key ⟨c.toNat, c.toNat_lt⟩
  rw [UInt8.ofNat_toNat] at this
  exact this h

theorem not_digit_of {c : UInt8} (h : ¬ (0x30 ≤ c ∧ c ≤ 0x39)) : digit c = false := by
  simp only [digit, h, decide_false]

/-- The number that digits stand for. -/
def meant (ds : List (Fin 10)) : Nat := ds.foldl (fun (n : Nat) (d : Fin 10) => 10 * n + d.1) 0

/-- The digits as bytes. -/
def shown (ds : List (Fin 10)) : Str := ds.map fun d => 0x30 + d.1.toUInt8

theorem shown_digit (d : Fin 10) : digit (0x30 + d.1.toUInt8) = true ∧ space (0x30 + d.1.toUInt8) = false ∧ (0x30 + d.1.toUInt8).toNat - 0x30 = d.1 ∧
    0x30 + d.1.toUInt8 ≠ 0x2d ∧ 0x30 + d.1.toUInt8 ≠ 0x2b := by
  revert d; decide +kernel

/-- **C102** Options with numbers: the last value counts, and it counts if it is a positive number that is an `int`; zero is refused. Spaces before the number and anything
after it are ignored, so that `-N 3x` is `-N 3`. -/
theorem C102_number (before : List Str) (spaces : Str) (hsp' : ∀ c ∈ spaces, c ∈ [(0x20 : UInt8), 9, 10, 11, 12, 13]) (ds : List (Fin 10)) (hne : ds ≠ []) (rest : Str)
    (hr' : ∀ c, rest.head? = some c → ¬ (0x30 ≤ c ∧ c ≤ 0x39)) :
    number (before ++ [spaces ++ shown ds ++ rest]) =
      if meant ds = 0 then .refused else if meant ds < 2 ^ 31 then .go (some (meant ds)) else .ub := by
  have hsp : ∀ c ∈ spaces, space c = true := fun c hc => space_of (hsp' c hc)
  have hr : ∀ c, rest.head? = some c → digit c = false := fun c hc => not_digit_of (hr' c hc)
  obtain ⟨d, ds', rfl⟩ := List.exists_cons_of_ne_nil hne
  have hv : value 0 (shown (d :: ds') ++ rest) = meant (d :: ds') := by
    rw [value_append _ _ _ (fun c hc => by
      obtain ⟨x, -, rfl⟩ := List.mem_map.1 hc
      exact (shown_digit x).1), value_stop _ hr, shown, List.foldl_map, meant]
    congr 1
    funext n x
    rw [(shown_digit x).2.2.1]
  have ha : atoi (spaces ++ shown (d :: ds') ++ rest) = if (meant (d :: ds') : Int) < -2 ^ 31 ∨ 2 ^ 31 ≤ (meant (d :: ds') : Int) then none else some (meant (d :: ds') : Int) := by
    unfold atoi
    rw [List.append_assoc, dropWhile_spaces hsp (fun c hc => by
      have : 0x30 + d.1.toUInt8 = c := by simpa [shown] using hc
      rw [← this]; exact (shown_digit d).2.1)]
    rw [signed_plain (fun c hc => by
      have : 0x30 + d.1.toUInt8 = c := by simpa [shown] using hc
      rw [← this]; exact (shown_digit d).2.2.2), hv]
  unfold number
  rw [List.getLast?_append, List.getLast?_singleton]
  simp only [Option.some_or, ha]
  generalize meant (d :: ds') = n
  by_cases h0 : n = 0
  · subst h0; simp
  · by_cases hn : n < 2 ^ 31
    · rw [if_neg (by push Not; constructor <;> omega)]
      simp only [h0, hn, if_true, if_false]
      rw [if_neg (by omega)]
      simp
    · rw [if_pos (.inr (by omega))]
      simp [h0, hn]

theorem value_shown (ds : List (Fin 10)) {rest : Str} (hr : ∀ c, rest.head? = some c → digit c = false) : value 0 (shown ds ++ rest) = meant ds := by
  rw [value_append _ _ _ (fun c hc => by
    obtain ⟨x, -, rfl⟩ := List.mem_map.1 hc
    exact (shown_digit x).1), value_stop _ hr, shown, List.foldl_map, meant]
  congr 1
  funext n x
  rw [(shown_digit x).2.2.1]

/-- Numbers with a sign: with a minus sign they are refused; a plus sign changes nothing. -/
theorem C102_signed (before : List Str) (spaces : Str) (hsp' : ∀ c ∈ spaces, c ∈ [(0x20 : UInt8), 9, 10, 11, 12, 13]) (ds : List (Fin 10)) (rest : Str)
    (hr' : ∀ c, rest.head? = some c → ¬ (0x30 ≤ c ∧ c ≤ 0x39)) :
    number (before ++ [spaces ++ 0x2d :: (shown ds ++ rest)]) = (if meant ds ≤ 2 ^ 31 then .refused else .ub) ∧
    number (before ++ [spaces ++ 0x2b :: (shown ds ++ rest)]) =
      if meant ds = 0 then .refused else if meant ds < 2 ^ 31 then .go (some (meant ds)) else .ub := by
  have hsp : ∀ c ∈ spaces, space c = true := fun c hc => space_of (hsp' c hc)
  have hr : ∀ c, rest.head? = some c → digit c = false := fun c hc => not_digit_of (hr' c hc)
  have hv := value_shown ds hr
  have h1 : signed ((spaces ++ 0x2d :: (shown ds ++ rest)).dropWhile space) = -(meant ds : Int) := by
    rw [dropWhile_spaces hsp (fun c hc => by cases hc; decide +kernel), signed, if_pos rfl, hv]
  have h2 : signed ((spaces ++ 0x2b :: (shown ds ++ rest)).dropWhile space) = (meant ds : Int) := by
    rw [dropWhile_spaces hsp (fun c hc => by cases hc; decide +kernel), signed, if_neg (by decide), if_pos rfl, hv]
  unfold number atoi
  simp only [List.getLast?_append, List.getLast?_singleton, Option.some_or, h1, h2]
  generalize meant ds = n
  constructor
  · by_cases hn : n ≤ 2 ^ 31
    · rw [if_neg (by push Not; constructor <;> omega), if_pos hn]
      simp only
      rw [if_pos (by omega)]
    · rw [if_pos (.inl (by omega)), if_neg hn]
  · by_cases h0 : n = 0
    · subst h0; simp
    · by_cases hn : n < 2 ^ 31
      · rw [if_neg (by push Not; constructor <;> omega)]
        simp only [h0, hn, if_true, if_false]
        rw [if_neg (by omega)]
        simp
      · rw [if_pos (.inr (by omega))]
        simp [h0, hn]

/-- A value that begins with something else than a space, a sign or a digit is refused, and so is an empty one. -/
theorem C102_no_number (before : List Str) (s : Str) (hs' : ∀ c, s.head? = some c → c ∉ [(0x20 : UInt8), 9, 10, 11, 12, 13, 0x2d, 0x2b] ∧ ¬ (0x30 ≤ c ∧ c ≤ 0x39)) :
    number (before ++ [s]) = .refused := by
  have hs : ∀ c, s.head? = some c → space c = false ∧ digit c = false ∧ c ≠ 0x2d ∧ c ≠ 0x2b := fun c hc => by
    obtain ⟨h1, h2⟩ := hs' c hc
    refine ⟨not_space_of fun h => h1 ?_, not_digit_of h2, fun h => h1 (by simp [h]), fun h => h1 (by simp [h])⟩
    simp only [List.mem_cons, List.not_mem_nil, or_false] at h ⊢
    tauto
  have ha : atoi s = some 0 := by
    unfold atoi
    rw [show s.dropWhile space = s from dropWhile_spaces (sp := []) (by simp) (fun c hc => (hs c hc).1)]
    rw [signed_plain fun c hc => (hs c hc).2.2, value_stop 0 fun c hc => (hs c hc).2.1]
    rfl
  unfold number
  rw [List.getLast?_append, List.getLast?_singleton]
  simp only [Option.some_or, ha]
  rfl

example : number [str "7", str " 12x"] = .go (some 12) ∧ number [str "0"] = .refused ∧ number [str "-3"] = .refused ∧ number [str "+3"] = .go (some 3) ∧ number [str "many"] = .refused ∧ number [] = .go none := by decide +kernel

end Verif.Modes
