import Verif.Cli.Tools

/-!
# Model of the start of `lt-proc`

`main` of `lt_proc.cc` between reading the command line (`Cli`) and opening the files.
-/

namespace Verif.Modes

open Verif.Cli

/-- `GenerationMode` (fst_processor.h:41-50). -/
inductive Gen where
  | clean | unknown | all | bilgen | tagged | taggedNm | carefulcase
  deriving DecidableEq

/-- `cmd`, with `none` for the value 0 (lt_proc.cc:69). -/
inductive Cmd where
  | a | b | g | e | p | t | s
  deriving DecidableEq

/-- The local variables `cmd` and `bilmode`, and the two members that are set on the way (lt_proc.cc:67-69, 79-88). -/
structure Vars where
  cmd : Option Cmd := none
  bilmode : Gen := .unknown
  surface : Bool := false
  keep : Bool := false
  deriving DecidableEq

/-- `if (args[..]) { if (cmd) cli.print_usage(); cmd = c; }` (lt_proc.cc:75-78, 94-109); `none` is the end with the usage message. -/
def only (on : Bool) (c : Cmd) (v : Vars) : Option Vars :=
  if on then (if v.cmd.isSome then none else some { v with cmd := some c }) else some v

/-- The beginning of the cases for `-o`, `-O` and `-g` (lt_proc.cc:79-93): `if (cmd && cmd != 'b') cli.print_usage();`. -/
def withB (on : Bool) (f : Vars → Vars) (v : Vars) : Option Vars :=
  if on then (if v.cmd.isSome && v.cmd ≠ some .b then none else some (f v)) else some v

/-- `if (!cmd) cmd = c;` -/
def orElse (c : Cmd) (v : Vars) : Vars := { v with cmd := some (v.cmd.getD c) }

/-- The choice of the command (lt_proc.cc:71-109). -/
def commands (has : Str → Bool) : Option Vars :=
  (some (if has (str "analysis") then { cmd := some .a } else {} : Vars)).bind fun v =>
  (only (has (str "bilingual")) .b v).bind fun v =>
  (withB (has (str "surf-bilingual")) (fun v => { orElse .b v with surface := true }) v).bind fun v =>
  (withB (has (str "surf-bilingual-keep")) (fun v => { orElse .b v with keep := true }) v).bind fun v =>
  (withB (has (str "generation")) (fun v => if v.cmd.isNone then { v with cmd := some .g } else if v.cmd = some .b then { v with bilmode := .bilgen } else v) v).bind fun v =>
  (only (has (str "decompose-nouns")) .e v).bind fun v =>
  (only (has (str "post-generation")) .p v).bind fun v =>
  (only (has (str "inter-generation") || has (str "transliteration")) .t v).bind fun v =>
  only (has (str "sao")) .s v

/-- One of the cases of lt_proc.cc:111-130. -/
def marks (on : Bool) (m : Gen) (v : Vars) : Vars := if on then { orElse .g v with bilmode := m } else v

/-- The options for generation (lt_proc.cc:111-130). -/
def generations (has : Str → Bool) (v : Vars) : Vars :=
  marks (has (str "careful-case")) .carefulcase (marks (has (str "non-marked-gen")) .clean (marks (has (str "tagged-nm-gen")) .taggedNm
    (marks (has (str "tagged-gen")) .tagged (marks (has (str "debugged-gen")) .all v))))

/-- What is called for the text (lt_proc.cc:188-235), with the initialisation before it. -/
inductive Call where
  /-- `initGeneration`, `generation` -/
  | generation (m : Gen)
  /-- `initPostgeneration`, `postgeneration` -/
  | postgeneration
  /-- `initAnalysis`, `SAO` -/
  | sao
  /-- `initPostgeneration`, `transliteration` -/
  | transliteration
  /-- `initBiltrans`, `bilingual` -/
  | bilingual (m : Gen)
  /-- `initDecomposition`, `analysis` -/
  | decomposition
  /-- `initAnalysis`, `analysis` -/
  | analysis
  deriving DecidableEq

/-- The `switch` (lt_proc.cc:188-235). -/
def Vars.call (v : Vars) : Call :=
  match v.cmd with
  | some .g => .generation v.bilmode
  | some .p => .postgeneration
  | some .s => .sao
  | some .t => .transliteration
  | some .b => .bilingual v.bilmode
  | some .e => .decomposition
  | some .a => .analysis
  | none => .analysis

/-! ## Numbers -/

/-- `isspace` in the C locale. -/
def space (c : UInt8) : Bool := c = 0x20 ∨ (9 ≤ c ∧ c ≤ 13)

/-- `isdigit`. -/
def digit (c : UInt8) : Bool := 0x30 ≤ c ∧ c ≤ 0x39

/-- The digits at the beginning. -/
def value (n : Nat) : Str → Nat
  | [] => n
  | c :: cs => if digit c then value (10 * n + (c.toNat - 0x30)) cs else n

/-- The number after a sign, if there is one. -/
def signed : Str → Int
  | [] => 0
  | c :: s => if c = 0x2d then -(value 0 s : Int) else if c = 0x2b then value 0 s else value 0 (c :: s)

/-- `atoi` (ISO C): spaces, a sign, digits. `none` is a number that is no `int`, for which the behaviour is undefined. -/
def atoi (s : Str) : Option Int :=
  let n := signed (s.dropWhile space)
  if n < -2 ^ 31 ∨ 2 ^ 31 ≤ n then none else some n

/-- How an option with a number ends: the program goes on with or without a number, it ends with `EXIT_FAILURE`, or its behaviour is undefined. -/
inductive Num where
  | go (n : Option Nat)
  | refused
  | ub
  deriving DecidableEq

/-- The cases of lt_proc.cc:153-176: the last value counts. -/
def number (values : List Str) : Num :=
  match values.getLast? with
  | none => .go none
  | some s => match atoi s with
    | none => .ub
    | some n => if n < 1 then .refused else .go (some n.toNat)

/-! ## All together -/

/-- What has been set when the files are opened (lt_proc.cc:79-88, 132-176). -/
structure Setup where
  call : Call
  surface : Bool
  keep : Bool
  caseSensitive : Bool
  defaultIgnored : Bool
  weights : Bool
  nullFlush : Bool
  dictionaryCase : Bool
  ignored : List Str
  restored : List Str
  analyses : Option Nat
  classes : Option Nat
  elements : Option Nat
  deriving DecidableEq

/-- The ends of `main` before the files are opened. -/
inductive Start where
  | run (s : Setup) (files : List Str)
  /-- with `EXIT_FAILURE` -/
  | usage (help : Bool)
  | version
  /-- a message and `EXIT_FAILURE` -/
  | refused
  | ub
  deriving DecidableEq

/-- `main` after `parse_args` (lt_proc.cc:67-176). The files of `-i` and `-r` are read by `parseICX` and `parseRCX`, which are not part of this model. -/
def configure (g : Got) (files : List Str) : Start :=
  match commands g.bools with
  | none => .usage false
  | some v =>
    let v := generations g.bools v
    match number (g.strs (str "analyses")) with
    | .refused => .refused
    | .ub => .ub
    | .go n => match number (g.strs (str "weight-classes")) with
      | .refused => .refused
      | .ub => .ub
      | .go l => match number (g.strs (str "compound-max-elements")) with
        | .refused => .refused
        | .ub => .ub
        | .go m =>
          .run { call := v.call, surface := v.surface, keep := v.keep
                 caseSensitive := g.bools (str "case-sensitive")
                 defaultIgnored := !g.bools (str "no-default-ignore") && (g.strs (str "restore-chars")).isEmpty
                 weights := g.bools (str "show-weights")
                 nullFlush := g.bools (str "null-flush")
                 dictionaryCase := g.bools (str "dictionary-case")
                 ignored := g.strs (str "ignored-chars")
                 restored := g.strs (str "restore-chars")
                 analyses := n, classes := l, elements := m } files

/-- `main` of lt-proc up to the opening of the files (lt_proc.cc:30-176). -/
def ltProcStart (args : List Str) : Start :=
  match parseArgs procCli.opts procCli.lo procCli.hi args with
  | .run g files => configure g files
  | .usage h => .usage h
  | .version => .version
  | .ub => .ub

end Verif.Modes
