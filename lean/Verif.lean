import Verif.Model.Robustness
import Verif.Props.Container
import Verif.Props.Slopes
import Verif.Props.SignalOps
import Verif.Props.Synchronize
import Verif.Props.Boolean
import Verif.Props.Temporal
import Verif.Props.Until
import Verif.Props.Totality
import Verif.Props.Soundness
import Verif.Props.Constants
import Verif.Props.Shift
import Verif.Props.Ast
import Verif.Props.Wedge
import Verif.Props.Binary64
import Verif.Props.Parser
import Verif.Props.Print
import Verif.Props.PrintParsed
import Verif.Props.Start
import Verif.Props.AnyRound
import Verif.Props.Lattice
import Verif.Props.Verdict
import Verif.Props.Units
import Verif.Props.Resample
import Verif.Props.Geometry
import Verif.Props.Equality
import Verif.Props.WedgeCost
import Verif.Props.Future
import Verif.Props.Polarity
import Verif.Props.Rename
import Verif.Props.EndToEnd
import Verif.Props.Extend
import Verif.Props.Sampling
import Verif.Props.Grammar
import Verif.Props.Python
import Verif.Props.Size
import Verif.Props.Window
import Verif.Props.Rounding
import Verif.Props.Rewrite
import Verif.Props.Keep
import Verif.Props.Laws
import Verif.Props.UntilConst
import Verif.Props.Swap
import Verif.Props.Layout
import Verif.Props.Errors
import Verif.Props.ParserErrors
import Verif.Props.Plug
import Verif.Props.Define
import Verif.Props.Relax
import Verif.Props.Accuracy
import Verif.Props.Margin
import Verif.Props.Numeral
import Verif.Props.TextRound
import Verif.Props.Invariant
import Verif.Props.Seq
import Verif.Props.Derived
import Verif.Props.Machine
import Verif.Props.ParserCost
import Verif.Props.SampleCount
import Verif.Props.EvalCost
import Verif.Props.ParserMessages
import Verif.Props.Heap
import Verif.Props.SignedZero
import Verif.Props.Safe
import Verif.Props.Peg
import Verif.Props.PegStack
import Verif.Props.Position
import Verif.Props.AccuracySync
import Verif.Props.AccuracyNest
import Verif.Props.PegTime
import Verif.Props.File
import Verif.Props.PyAst
import Verif.Props.NoThrow
import Verif.Props.Flag
import Verif.Props.SignalB64
import Verif.Props.UntilB64
import Verif.Props.OneSided
import Verif.Props.Transfer
import Verif.Props.Actual
import Verif.Props.ActualB64
import Verif.Props.VerdictB64
import Verif.Props.Entail
import Verif.Props.Recordings
import Verif.Props.Prefix
import Verif.Props.Monitor
import Verif.Props.TextError
import Verif.Props.TextActual
import Verif.Props.Utils
import Verif.Props.OverUntil
import Verif.Tests.Append
import Verif.Tests.Parse
import Verif.Tests.Examples
