import Verif.Iterator.Model
import Verif.Iterator.Spec
import Verif.Iterator.Drain
import Verif.Iterator.Lemmas
import Verif.Iterator.Refine
import Verif.Iterator.Extra
import Verif.Iterator.Eval
import Verif.Iterator.Props
import Verif.Iterator.Exact
import Verif.Iterator.ExactProps
import Verif.Iterator.Local
import Verif.Iterator.Depth
import Verif.Iterator.Physical
import Verif.Regex.Basic
import Verif.Regex.Lemmas
import Verif.Regex.Lang
import Verif.Tokenizer.Model
import Verif.Tokenizer.Spec
import Verif.Tokenizer.Recog
import Verif.Tokenizer.Noise
import Verif.Tokenizer.Lemmas
import Verif.Tokenizer.Words
import Verif.Tokenizer.Shape
import Verif.Tokenizer.Local
import Verif.Tokenizer.Props
import Verif.Index.Model
import Verif.Index.Spec
import Verif.Index.Lemmas
import Verif.Index.Search
import Verif.Index.Float
import Verif.Index.Props
import Verif.Index.F32
import Verif.Index.F32Props
import Verif.Process.Model
import Verif.Process.Spec
import Verif.Process.Flush
import Verif.Process.Read
import Verif.Process.Runs
import Verif.Process.General
import Verif.Process.Train
import Verif.Process.Full
import Verif.Process.Toy
import Verif.Process.Props
import Verif.Process.Witness
import Verif.Process.Indexes
import Verif.Report.Model
import Verif.Report.Spec
import Verif.Report.Lemmas
import Verif.Report.Runs
import Verif.Report.Train
import Verif.Report.Props
import Verif.Report.Witness
import Verif.Paths.Model
import Verif.Paths.Spec
import Verif.Paths.Lemmas
import Verif.Paths.Props
import Verif.Crawler.Model
import Verif.Crawler.Spec
import Verif.Crawler.Lemmas
import Verif.Crawler.Props
import Verif.Crawler.Walk
import Verif.Crawler.Load
import Verif.Codec.Model
import Verif.Codec.Props
import Verif.Codec.Kinds
import Verif.Codec.Damaged
import Verif.Codec.Matrices
import Verif.Cache.Model
import Verif.Cache.Spec
import Verif.Cache.Lemmas
import Verif.Cache.Props
import Verif.Zuul.Model
import Verif.Zuul.Spec
import Verif.Zuul.Lemmas
import Verif.Zuul.Text
import Verif.Zuul.Props
import Verif.Output.Model
import Verif.Output.Spec
import Verif.Output.Lemmas
import Verif.Output.Props
import Verif.Output.Console
import Verif.Output.Live
import Verif.Output.Page
import Verif.Output.Document
import Verif.Output.Attributes
import Verif.Generate.Model
import Verif.Generate.Spec
import Verif.Generate.Props
import Verif.Cli.Model
import Verif.Cli.Spec
import Verif.Cli.Props
import Verif.Cli.Status
import Verif.Cli.Dataset
import Verif.Cli.DatasetSpec
import Verif.Cli.DatasetProps
import Verif.Whole.Model
import Verif.Whole.Spec
import Verif.Whole.Bytes
import Verif.Whole.Props
import Verif.Whole.Text
import Verif.Whole.Toy
import Verif.Python.Bits
import Verif.Python.Memory
import Verif.Python.Model
import Verif.Python.Spec
import Verif.Python.Props
import Verif.Saved.Model
import Verif.Saved.Lemmas
import Verif.Saved.Spec
import Verif.Saved.Props
import Verif.Saved.Runs
import Verif.Saved.Toy
import Verif.Render.Path
import Verif.Render.PathProps
import Verif.Render.Model
import Verif.Render.Lemmas
import Verif.Render.Props
import Verif.Render.Toy
import Verif.Program.Model
import Verif.Program.Spec
import Verif.Program.Texts
import Verif.Program.Props
import Verif.Program.Modes
import Verif.Program.LocalModel
import Verif.Program.LocalSpec
import Verif.Program.LocalProps
import Verif.Program.Toy
import Verif.Program.Announce
import Verif.Program.AgreeToy
import Verif.Remote.Model
import Verif.Remote.Consume
import Verif.Remote.Spec
import Verif.Remote.Lemmas
import Verif.Remote.Again
import Verif.Remote.Lift
import Verif.Remote.Grows
import Verif.Remote.Copy
import Verif.Remote.Same
import Verif.Remote.SameLift
import Verif.Remote.Witness
import Verif.Remote.Fresh
import Verif.Remote.Props
import Verif.Remote.Names
import Verif.Remote.WebProps
import Verif.Remote.WebFails
import Verif.Remote.WebAgainProps
import Verif.Tokenizer.Rules
import Verif.Tokenizer.RulesProps
import Verif.Report.Relate
import Verif.Report.Listing
import Verif.Paths.Below
import Verif.Paths.Exact
import Verif.Whole.Moved
import Verif.Zuul.Builds
import Verif.Render.Links
import Verif.Render.Titles
import Verif.Shared.Props
import Verif.Saved.Live
import Verif.Program.Tools
import Verif.Output.Resources
import Verif.Output.ClickProps
import Verif.Render.Scripts
import Verif.Program.Usage
import Verif.Program.UsageProps
import Verif.Process.Exact
import Verif.Process.ExactProps
import Verif.Process.Shown
import Verif.Process.ShownProps
import Verif.Report.Exact
import Verif.Report.ExactProps
import Verif.Whole.Exact
import Verif.Report.Learned
import Verif.Whole.Trees
import Verif.Output.Exact
import Verif.Output.Rows
import Verif.Output.Reduction
import Verif.Process.Small
import Verif.Program.Exact
import Verif.Program.ExactToy
import Verif.Process.More
import Verif.Report.More
import Verif.Whole.More
import Verif.Output.Hidden
import Verif.Output.Browser
import Verif.Render.Clicks
import Verif.Report.Kinds
import Verif.Whole.Kinds
import Verif.Process.Grown
import Verif.Process.Alike
import Verif.Iterator.Grown
import Verif.Report.Grown
import Verif.Whole.Grown
import Verif.Report.Known
import Verif.Report.Alike
import Verif.Whole.Known
import Verif.Whole.Listed
import Verif.Whole.Alike
import Verif.Report.Rotated
import Verif.Iterator.Cut
import Verif.Whole.Rotated
import Verif.Process.Once
import Verif.Report.Once
import Verif.Program.Debug
import Verif.Program.DebugToy
import Verif.Index.Words
import Verif.Program.Words
import Verif.Program.WordsToy
import Verif.Report.Secret
import Verif.Saved.Secret
import Verif.Whole.Secret
import Verif.Report.Broken
import Verif.Report.Lost
import Verif.Whole.Broken
import Verif.Whole.Lost
import Verif.Whole.Replay
import Verif.Remote.Direct
import Verif.Remote.Mirror
import Verif.Remote.Online
import Verif.Remote.Orders
import Verif.Remote.Requests
import Verif.Remote.Received
import Verif.Iterator.Work
