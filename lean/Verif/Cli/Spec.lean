import Verif.Cli.Model

/-! # What a command line means -/

namespace Verif.Cli

/-- Options that can be told apart: no two have the same letter or the same name, letters are no hyphens, names are not empty and have no `=`. -/
structure Clear (os : List Opt) : Prop where
  shorts : ∀ o ∈ os, ∀ o' ∈ os, o.short = o'.short → o = o'
  longs : ∀ o ∈ os, ∀ o' ∈ os, o.long = o'.long → o = o'
  letter : ∀ o ∈ os, o.short ≠ 0x2d
  name : ∀ o ∈ os, o.long ≠ [] ∧ 0x3d ∉ o.long

/-- What a user writes. -/
inductive Item
  /-- `-abc` -/
  | letters (o : Opt) (fs : List Opt)
  /-- `-abcvalue` -/
  | attached (fs : List Opt) (o : Opt) (v : Str)
  /-- `-abc value` -/
  | separate (fs : List Opt) (o : Opt) (v : Str)
  /-- `--name` -/
  | long (o : Opt)
  /-- `--name=value` -/
  | longEq (o : Opt) (v : Str)
  /-- `--name value` -/
  | longSep (o : Opt) (v : Str)
  | file (s : Str)

namespace Item

/-- The arguments. -/
def words : Item → List Str
  | letters o fs => [0x2d :: o.short :: fs.map Opt.short]
  | attached fs o v => [0x2d :: (fs.map Opt.short ++ o.short :: v)]
  | separate fs o v => [0x2d :: (fs.map Opt.short ++ [o.short]), v]
  | long o => [0x2d :: 0x2d :: o.long]
  | longEq o v => [0x2d :: 0x2d :: (o.long ++ 0x3d :: v)]
  | longSep o v => [0x2d :: 0x2d :: o.long, v]
  | file s => [s]

/-- The options without values and those with values. -/
def flags : Item → List Opt
  | letters o fs => o :: fs
  | attached fs _ _ => fs
  | separate fs _ _ => fs
  | long o => [o]
  | _ => []
def values : Item → List (Opt × Str)
  | attached _ o v => [(o, v)]
  | separate _ o v => [(o, v)]
  | longEq o v => [(o, v)]
  | longSep o v => [(o, v)]
  | _ => []
def files : Item → List Str
  | file s => [s]
  | _ => []

/-- The options are those of the program, with values if they take one; a value that is attached to its letter is not empty; a file does not look like an option. -/
def Ok (os : List Opt) (i : Item) : Prop :=
  (∀ o ∈ i.flags, o ∈ os ∧ o.isBool = true) ∧ (∀ e ∈ i.values, e.1 ∈ os ∧ e.1.isBool = false) ∧
  match i with
  | attached _ _ v => v ≠ []
  | file s => s = [0x2d] ∨ s.head? ≠ some 0x2d
  | _ => True

/-- The item does not ask for help or for the version. -/
def Quiet (i : Item) : Prop :=
  ∀ o, o ∈ i.flags ∨ o ∈ i.values.map (·.1) → o.short ≠ 0x68 ∧ ¬ (o.short = 0x76 ∧ o.long = [0x76, 0x65, 0x72, 0x73, 0x69, 0x6f, 0x6e])

end Item

/-- The arguments of a command line. After `--` come files whatever they look like. -/
def line (is : List Item) (after : Option (List Str)) : List Str :=
  is.flatMap Item.words ++ (match after with | none => [] | some fs => [0x2d, 0x2d] :: fs)

/-- What the options of a command line set: options without values that occur, and all values of an option in order. -/
def settings (is : List Item) : Got where
  bools := fun n => decide (n ∈ (is.flatMap Item.flags).map Opt.long)
  strs := fun n => ((is.flatMap Item.values).filter fun e => e.1.long = n).map (·.2)

/-- The files of a command line. -/
def filesOf (is : List Item) (after : Option (List Str)) : List Str := is.flatMap Item.files ++ after.getD []

end Verif.Cli
