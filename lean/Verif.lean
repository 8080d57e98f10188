import Verif.Compression.Props
import Verif.Serialiser.Props
import Verif.SortedVec.Props
import Verif.Alphabet.Props
import Verif.Labels.Props
import Verif.Transducer.PropsDet
import Verif.BinIO.Props
import Verif.Regex.Props
import Verif.State.Select
import Verif.State.Unify
import Verif.State.PoolProps
import Verif.Buffer.Props
import Verif.Match.Props
import Verif.Str.Props
import Verif.Input.Props
import Verif.Stream.Props
import Verif.Pattern.Tags
import Verif.Att.Number
import Verif.Expander.Props
import Verif.Merge.Props
import Verif.Compiler.Props
import Verif.Product.Props
import Verif.Product.TrimProps
import Verif.Att.Model
import Verif.Att.Spec
import Verif.Att.Text
import Verif.Att.Build
import Verif.Att.Paths
import Verif.Att.Lines
import Verif.Att.Extract
import Verif.Att.Whole
import Verif.Att.Classify
import Verif.Att.Props
import Verif.Proc.Model
import Verif.Proc.Spec
import Verif.Proc.Words
import Verif.Proc.Reading
import Verif.Proc.Text
import Verif.Proc.Notes
import Verif.Proc.Emit
import Verif.Proc.Loop
import Verif.Proc.Whole
import Verif.Proc.Final
import Verif.Proc.Few
import Verif.Proc.Demo
import Verif.Proc.Props
import Verif.Walk.Spec
import Verif.Walk.Lemmas
import Verif.Gen.Model
import Verif.Gen.Spec
import Verif.Gen.Lemmas
import Verif.Gen.Demo
import Verif.Gen.Props
import Verif.Bil.Model
import Verif.Bil.Spec
import Verif.Bil.Lemmas
import Verif.Bil.Demo
import Verif.Bil.Props
import Verif.Post.Model
import Verif.Post.Spec
import Verif.Post.Read
import Verif.Post.States
import Verif.Post.Source
import Verif.Post.Queue
import Verif.Post.Out
import Verif.Post.Run
import Verif.Post.Loop
import Verif.Post.Same
import Verif.Post.Demo
import Verif.Post.Props
import Verif.Trans.Model
import Verif.Trans.Spec
import Verif.Trans.Lemmas
import Verif.Trans.Run
import Verif.Trans.Demo
import Verif.Trans.Props
import Verif.Print.Model
import Verif.Print.Spec
import Verif.Print.Lemmas
import Verif.Print.Rows
import Verif.Print.Props
import Verif.Print.Demo
import Verif.Load.Model
import Verif.Load.Spec
import Verif.Load.Graph
import Verif.Load.Lemmas
import Verif.Load.Demo
import Verif.Load.Props
import Verif.Chain.Model
import Verif.Chain.Spec
import Verif.Chain.Sections
import Verif.Chain.Lexicon
import Verif.Chain.Lemmas
import Verif.Chain.Demo
import Verif.Chain.Props
import Verif.Chain.FormSpec
import Verif.Chain.Forms
import Verif.Chain.FormDemo
import Verif.Chain.FormProps
import Verif.Tools.Model
import Verif.Tools.Spec
import Verif.Tools.Lemmas
import Verif.Tools.Props
import Verif.Tools.Restrict
import Verif.Tools.Files
import Verif.Unified.Model
import Verif.Unified.Alphabets
import Verif.Unified.Spec
import Verif.Unified.Entries
import Verif.Unified.Stages
import Verif.Unified.Marks
import Verif.Unified.Gives
import Verif.Unified.Paths
import Verif.Unified.Demo
import Verif.Unified.Props
import Verif.Trim.Model
import Verif.Trim.Spec
import Verif.Trim.Union
import Verif.Trim.Move
import Verif.Trim.Dots
import Verif.Trim.Sections
import Verif.Trim.Names
import Verif.Trim.Whole
import Verif.Trim.File
import Verif.Trim.Props
import Verif.Trim.Demo
import Verif.Trim.After
import Verif.Trim.Joins
import Verif.Composed.Model
import Verif.Composed.Spec
import Verif.Composed.Sections
import Verif.Composed.Props
import Verif.Composed.Demo
import Verif.Patterns.Model
import Verif.Patterns.Spec
import Verif.Patterns.Places
import Verif.Patterns.Tree
import Verif.Patterns.Ends
import Verif.Patterns.User
import Verif.Patterns.Props
import Verif.Patterns.Labels
import Verif.Patterns.Demo
import Verif.Patterns.File
import Verif.Tmx.Props
import Verif.Tmx.Demo
import Verif.Paradigm.Model
import Verif.Paradigm.Spec
import Verif.Paradigm.Build
import Verif.Paradigm.Pattern
import Verif.Paradigm.Expand
import Verif.Paradigm.Sections
import Verif.Paradigm.Tool
import Verif.Paradigm.Props
import Verif.Paradigm.Demo
import Verif.TmProc.Model
import Verif.TmProc.Spec
import Verif.TmProc.Steps
import Verif.TmProc.Reading
import Verif.TmProc.Loop
import Verif.TmProc.Chunks
import Verif.TmProc.Run
import Verif.TmProc.Paths
import Verif.TmProc.Demo
import Verif.TmProc.Props
import Verif.TmProc.Kept
import Verif.TmProc.Loaded
import Verif.TmProc.EndSpec
import Verif.TmProc.EndLemmas
import Verif.TmProc.End
import Verif.TmProc.EndProps
import Verif.Trans.Lookup
import Verif.Trans.LookProps
import Verif.Sao.Model
import Verif.Sao.Spec
import Verif.Sao.Reading
import Verif.Sao.Notes
import Verif.Sao.Loop
import Verif.Sao.Whole
import Verif.Sao.Demo
import Verif.Sao.Odd
import Verif.Sao.Props
import Verif.Acx.Model
import Verif.Acx.Spec
import Verif.Acx.Read
import Verif.Acx.Apply
import Verif.Acx.Props
import Verif.Split.Model
import Verif.Split.Spec
import Verif.Split.Lemmas
import Verif.Split.Props
import Verif.Sep.Model
import Verif.Sep.Spec
import Verif.Sep.Lemmas
import Verif.Sep.Section
import Verif.Sep.File
import Verif.Sep.Parse
import Verif.Sep.Props
import Verif.Cli.Model
import Verif.Cli.Spec
import Verif.Cli.Tools
import Verif.Cli.Lemmas
import Verif.Cli.Props
import Verif.Minimised.Model
import Verif.Minimised.Spec
import Verif.Minimised.Lemmas
import Verif.Minimised.Props
import Verif.Shared.Model
import Verif.Shared.Props
import Verif.Tools.Single
import Verif.Modes.Model
import Verif.Modes.Spec
import Verif.Modes.Props
import Verif.TmxCli.Model
import Verif.TmxCli.Props
import Verif.CompCli.Model
import Verif.CompCli.Props
import Verif.CharFiles.Model
import Verif.CharFiles.Props
import Verif.CharFiles.Link
