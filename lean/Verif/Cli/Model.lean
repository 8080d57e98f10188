import Verif.Base

/-!
# Model of `CLI` in `lttoolbox/cli.cc`

`getopt_long` is modelled as glibc has it, with permutation (`POSIXLY_CORRECT` is not set) and for option strings whose short options are letters: none is a
hyphen, a plus sign, a colon or a semicolon. The build files define `HAVE_GETOPT_LONG` (CMakeLists.txt:126-136). Its messages are not modelled. Strings are lists of bytes without zeros.
-/

namespace Verif.Cli

abbrev Str := List UInt8

/-- `CLIOption` (cli.h:25-31) without the texts for the usage message. -/
structure Opt where
  short : UInt8
  long : Str
  isBool : Bool
  deriving DecidableEq

/-- The members `bools` and `strs` (cli.h:41-42). The maps are functions here: a name that is not in `bools` is false, one that is not in `strs` has no values. -/
structure Got where
  bools : Str → Bool := fun _ => false
  strs : Str → List Str := fun _ => []

/-- What `parse_args` leads to: the program goes on with options and files; it ends with the usage message and `EXIT_FAILURE` (on the standard output if `help`);
it ends with its version and `EXIT_SUCCESS`; undefined behaviour. -/
inductive Outcome
  | run (g : Got) (files : List Str)
  | usage (help : Bool)
  | version
  | ub

/-- What `getopt_long` keeps between calls: the rest of the letters after a hyphen (`nextchar`), the arguments that are left, and those that are no options
and have been passed over. -/
structure Scan where
  cluster : Str := []
  args : List Str
  skipped : List Str := []

/-- What `getopt_long` returns: -1, and then the arguments from `optind` on are these; a letter with `optarg`; or it reads memory that is not there. -/
inductive Ret
  | done (files : List Str)
  | opt (c : UInt8) (arg : Option Str) (st : Scan)
  | ub

/-- `getopt_long` at the letter `c`, with `cs` after it in the same argument. The option string is made in cli.cc:129-138. -/
def shortOpt (os : List Opt) (c : UInt8) (cs : Str) (args skipped : List Str) : Ret :=
  match os.find? (·.short = c) with
  | none => .opt 0x3f none ⟨cs, args, skipped⟩
  | some o =>
    if o.isBool then .opt c none ⟨cs, args, skipped⟩
    else if cs ≠ [] then .opt c (some cs) ⟨[], args, skipped⟩
    else match args with
      | [] => .opt 0x3f none ⟨[], [], skipped⟩
      | a :: args => .opt c (some a) ⟨[], args, skipped⟩

/-- `getopt_long` at `--s`. The vector of long options (cli.cc:126, 132-137) has no element with a null pointer at its end, which `getopt_long` looks for: if no
name is equal to the one in the argument, it reads beyond the vector. The pointer to an empty vector is null, and then there are no long options at all. -/
def longOpt (os : List Opt) (s : Str) (args skipped : List Str) : Ret :=
  if os = [] then .opt 0x3f none ⟨s, args, skipped⟩ else
  let name := s.takeWhile (· ≠ 0x3d)
  match os.find? (·.long = name) with
  | none => .ub
  | some o =>
    match s.drop name.length with
    | _ :: v => if o.isBool then .opt 0x3f none ⟨[], args, skipped⟩ else .opt o.short (some v) ⟨[], args, skipped⟩
    | [] =>
      if o.isBool then .opt o.short none ⟨[], args, skipped⟩
      else match args with
        | [] => .opt 0x3f none ⟨[], [], skipped⟩
        | a :: args => .opt o.short (some a) ⟨[], args, skipped⟩

/-- `getopt_long` at the beginning of an argument. `-` and arguments without a hyphen are passed over, `--` ends the options. -/
def nextArg (os : List Opt) : (args skipped : List Str) → Ret
  | [], skipped => .done skipped
  | a :: args, skipped =>
    match a with
    | x :: y :: s =>
      if x = 0x2d then
        if y = 0x2d then (if s = [] then .done (skipped ++ args) else longOpt os s args skipped)
        else shortOpt os y s args skipped
      else nextArg os args (skipped ++ [a])
    | a => nextArg os args (skipped ++ [a])

/-- `getopt_long`. -/
def getopt (os : List Opt) (st : Scan) : Ret :=
  match st.cluster with
  | [] => nextArg os st.args st.skipped
  | c :: cs => shortOpt os c cs st.args st.skipped

/-- `version` (cli.cc:156). -/
def versionName : Str := [0x76, 0x65, 0x72, 0x73, 0x69, 0x6f, 0x6e]

/-- `bools[name] = true` and `strs[name].push_back(v)` (cli.cc:160-164). -/
def Got.flag (g : Got) (name : Str) : Got := { g with bools := fun n => if n = name then true else g.bools n }
def Got.push (g : Got) (name v : Str) : Got := { g with strs := fun n => if n = name then g.strs n ++ [v] else g.strs n }

/-- The loop of `parse_args` (cli.cc:141-175), at most the given number of turns. A value that is a null pointer is undefined behaviour. -/
def loop (os : List Opt) : Nat → Scan → Got → Outcome
  | 0, _, _ => .ub
  | n + 1, st, g =>
    match getopt os st with
    | .done files => .run g files
    | .ub => .ub
    | .opt c arg st =>
      match os.find? (·.short = c) with
      | none => .usage false
      | some o =>
        if o.short = 0x76 ∧ o.long = versionName then .version
        else if o.isBool then (if c = 0x68 then .usage true else loop os n st (g.flag o.long))
        else match arg with
          | none => .ub
          | some v => if c = 0x68 then .usage true else loop os n st (g.push o.long v)

/-- `CLI::parse_args` (cli.cc:120-185) for the arguments after the name of the program; `lo` is `min_file_args` and `hi` the number of file arguments. There is at
most one turn for each byte. -/
def parseArgs (os : List Opt) (lo hi : Nat) (args : List Str) : Outcome :=
  match loop os ((args.map fun a => a.length + 1).sum + 1) { args } {} with
  | .run g files =>
    if files.length < lo ∨ hi < files.length then .usage false else .run g (files ++ List.replicate (hi - files.length) [])
  | o => o

/-- A file to read from, and one to write to; `none` is the standard input or output. -/
structure Streams where
  input : Option Str
  output : Option Str
  deriving DecidableEq

/-- Which files `main` of lt-merge uses (lt_merge.cc:36-40, file_utils.cc:24-36): `none` is the standard input or output. -/
def mergeStreams (files : List Str) : Streams where
  input := if files.getD 1 [] ≠ [] then some (files.getD 0 []) else none
  output := if files.getD 1 [] = [] ∨ files.getD 1 [] = [0x2d] then none else some (files.getD 1 [])

end Verif.Cli
