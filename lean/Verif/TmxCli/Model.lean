import Verif.Cli.Tools

/-!
# Model of the command line of `lt-tmxcomp`

`lt_tmxcomp.cc` calls `getopt_long` itself. As in `Cli`, this is that of glibc with permutation: options are moved to the front of `argv`, in their order. Names of long
options can be cut off; the two that there are begin with different letters, so that any beginning stands for one of them. Strings are bytes; the code converts
them to UTF-16 before it looks for the hyphen, which changes nothing for valid UTF-8.
-/

namespace Verif.TmxCli

open Verif.Cli (Str str)

/-- What has been read: the arguments that are options or their values, those that are not, and the two codes. -/
structure Got where
  front : List Str := []
  skipped : List Str := []
  origin : Option Str := none
  target : Option Str := none
  deriving DecidableEq

/-- The two options (lt_tmxcomp.cc:63-68). -/
inductive Code where
  | origin | target
  deriving DecidableEq

/-- `setOriginLanguageCode`, `setMetaLanguageCode` (lt_tmxcomp.cc:81-87). -/
def Got.set (g : Got) (c : Code) (v : Str) : Got :=
  match c with
  | .origin => { g with origin := some v }
  | .target => { g with target := some v }

/-- The option string `o:m:` (lt_tmxcomp.cc:70). -/
def short (c : UInt8) : Option Code := if c = 0x6f then some .origin else if c = 0x6d then some .target else none

/-- `long_options` (lt_tmxcomp.cc:63-68); the empty beginning stands for both and is an error. -/
def long (name : Str) : Option Code :=
  if name = [] then none
  else if name <+: str "origin-code" then some .origin
  else if name <+: str "meta-code" then some .target
  else none

/-- The loop over the options (lt_tmxcomp.cc:59-93); `none` is `endProgram`. -/
def scan : List Str → Got → Option Got
  | [], g => some g
  | (0x2d :: 0x2d :: name) :: args, g =>
    if name = [] then some { g with front := g.front ++ [[0x2d, 0x2d]], skipped := g.skipped ++ args }
    else match long (name.takeWhile (· ≠ 0x3d)) with
      | none => none
      | some c =>
        if 0x3d ∈ name then
          scan args ({ g with front := g.front ++ [0x2d :: 0x2d :: name] }.set c ((name.dropWhile (· ≠ 0x3d)).drop 1))
        else match args with
          | [] => none
          | v :: args => scan args ({ g with front := g.front ++ [0x2d :: 0x2d :: name, v] }.set c v)
  | (0x2d :: l :: v) :: args, g =>
    match short l with
    | none => none
    | some c =>
      if v ≠ [] then scan args ({ g with front := g.front ++ [0x2d :: l :: v] }.set c v)
      else match args with
        | [] => none
        | v :: args => scan args ({ g with front := g.front ++ [[0x2d, l], v] }.set c v)
  | a :: args, g => scan args { g with skipped := g.skipped ++ [a] }

/-- What the program does: the two languages, the file to read and the one to write, and the codes that options have set; or the usage message and `EXIT_FAILURE`. -/
inductive Start where
  | run (lo lm input output : Str) (origin target : Option Str)
  | usage
  deriving DecidableEq

/-- `opc.substr(opc.find('-')+1)`: if there is no hyphen, `find` is the largest number and one more is zero (lt_tmxcomp.cc:97). -/
def afterHyphen (s : Str) : Str := if 0x2d ∈ s then (s.dropWhile (· ≠ 0x2d)).drop 1 else s

/-- `main` up to `parse` (lt_tmxcomp.cc:47-103), for the arguments after the name of the program. -/
def start (args : List Str) : Start :=
  if args.length ≠ 3 then .usage
  else match scan args {} with
    | none => .usage
    | some g =>
      let argv := g.front ++ g.skipped
      let opc := argv.getD 0 []
      let lo := opc.takeWhile (· ≠ 0x2d)
      let lm := afterHyphen opc
      if lo = [] ∨ lm = [] then .usage else .run lo lm (argv.getD 1 []) (argv.getD 2 []) g.origin g.target

end Verif.TmxCli
