import Verif.Modes.Model

/-!
# Model of the start of `lt-comp`

`main` of `lt_comp.cc`: what is called, with which settings, for a command line (`Cli`), two environment variables and the kind of the file to read. Strings are
bytes; the code converts the values of options to UTF-16.
-/

namespace Verif.CompCli

open Verif.Cli Verif.Modes

/-- What happens if a file is opened and the first event is read (lt_comp.cc:103-122): it cannot be opened, it begins as XML, or it does not. -/
inductive Input where
  | missing | xml | other
  deriving DecidableEq

/-- The direction for the compiler (`COMPILER_RESTRICTION_LR_VAL` and so on). -/
inductive Dir where
  | lr | rl | u
  deriving DecidableEq

/-- What is set in the `Compiler` (lt_comp.cc:61-96). -/
structure DixSettings where
  variant : Option Str
  alt : Option Str
  left : Option Str
  right : Option Str
  debug : Bool
  keep : Bool
  verbose : Bool
  jobs : Bool
  limit : Nat
  deriving DecidableEq

/-- The calls of `parseACX` and `parse` (lt_comp.cc:125-169). -/
inductive Job where
  | dix (d : Dir) (acx : Option Str) (s : DixSettings)
  | att (rl hfst split : Bool)
  deriving DecidableEq

/-- The ends of `main` before the compilation begins. -/
inductive Start where
  | run (j : Job) (input output : Str)
  /-- with `EXIT_FAILURE` -/
  | usage (help : Bool)
  | version
  /-- a message and `EXIT_FAILURE` -/
  | refused
  /-- an exception that nothing catches -/
  | exception
  | ub
  deriving DecidableEq

/-- `std::stol`: as `atoi` for `long`, but without digits, or with a number that is no `long`, it throws (`none`). -/
def stol (s : Str) : Option Int :=
  let s := s.dropWhile space
  let ds := match s with
    | [] => []
    | c :: cs => if c = 0x2d ∨ c = 0x2b then cs else c :: cs
  if ds.head?.any digit then
    let n := signed s
    if n < -2 ^ 63 ∨ 2 ^ 63 ≤ n then none else some n
  else none

/-- `LT_JOBS != NULL && LT_JOBS[0] != 'n'` (lt_comp.cc:85-86). -/
def jobsVar (env : Option Str) : Bool :=
  match env with
  | none => false
  | some s => s.head? ≠ some 0x6e

/-- `setMaxSectionEntries` (lt_comp.cc:86-96): the argument is a `size_t`. -/
def limit (jobs : Bool) (env : Option Str) : Option Nat :=
  match env with
  | none => some (if jobs then 50000 else 0)
  | some s => (stol s).map fun n => (n % 2 ^ 64).toNat

/-- `main` after `parse_args` (lt_comp.cc:56-170). -/
def compile (file : Str → Input) (jobsEnv maxEnv : Option Str) (g : Got) (files : List Str) : Start :=
  let jobs := g.bools (str "jobs") || jobsVar jobsEnv
  match limit jobs maxEnv with
  | none => .exception
  | some m =>
    let opc := files.getD 0 []
    let infile := files.getD 1 []
    let outfile := files.getD 2 []
    let acxfile := files.getD 3 []
    let s : DixSettings :=
      { variant := (g.strs (str "var")).head?, alt := (g.strs (str "alt")).head?, left := (g.strs (str "var-left")).head?, right := (g.strs (str "var-right")).head?
        debug := g.bools (str "debug"), keep := g.bools (str "keep-boundaries"), verbose := g.bools (str "verbose"), jobs := jobs, limit := m }
    let att (rl : Bool) : Job := .att rl (g.bools (str "hfst")) (!g.bools (str "no-split"))
    match file infile with
    | .missing => .refused
    | ttype =>
      if opc = str "lr" then
        if s.left.isSome then .usage false
        else .run (if ttype = .other then att false else .dix .lr (if acxfile = [] then none else some acxfile) s) infile outfile
      else if opc = str "rl" then
        if s.right.isSome then .usage false
        else .run (if ttype = .other then att true else .dix .rl none s) infile outfile
      else if opc = str "u" then .run (if ttype = .other then att false else .dix .u none s) infile outfile
      else .usage false

/-- `main` of lt-comp up to the compilation (lt_comp.cc:35-170). -/
def ltCompStart (file : Str → Input) (jobsEnv maxEnv : Option Str) (args : List Str) : Start :=
  match parseArgs compCli.opts compCli.lo compCli.hi args with
  | .run g files => compile file jobsEnv maxEnv g files
  | .usage h => .usage h
  | .version => .version
  | .ub => .ub

end Verif.CompCli
