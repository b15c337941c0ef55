import Verif.Core
import Verif.Float
import Verif.Blob
import Verif.Print
import Verif.Arith
import Verif.Oracle
import Verif.DictData
import Verif.Dict
import Verif.Galley
import Verif.Graph
import Verif.Conformance
import Verif.Conformance2
import Verif.Conformance3
import Verif.Spec.Blob
import Verif.Lemmas.Blob
import Verif.Lemmas.BlobHist
import Verif.Lemmas.Sim
import Verif.Props.Blob
import Verif.Spec.Numeral
import Verif.Spec.Arith
import Verif.Lemmas.Numeral
import Verif.Lemmas.FloatText
import Verif.Lemmas.Arith
import Verif.Lemmas.Oracle
import Verif.Props.Arith
import Verif.Props.Oracle
import Verif.Props.Owner
import Verif.Spec.Stamp
import Verif.Lemmas.Dict
import Verif.Lemmas.Surj
import Verif.Lemmas.Fuel
import Verif.Props.Dict
import Verif.Spec.Galley
import Verif.Lemmas.FloatErr
import Verif.Lemmas.GalleyVec
import Verif.Lemmas.GalleyUnb
import Verif.Props.GalleyVec
import Verif.Lemmas.SetStream
import Verif.Lemmas.GalleySet
import Verif.Lemmas.GalleySetRun
import Verif.Lemmas.GalleySetMain
import Verif.Lemmas.GalleySetSpec
import Verif.Lemmas.SetSuccess
import Verif.Props.GalleySet
import Verif.Lemmas.Keep
import Verif.Lemmas.Invert
import Verif.Lemmas.Returns
import Verif.Spec.Wiring
import Verif.Lemmas.Sizes
import Verif.Props.Format
import Verif.Props.Lottery
import Verif.Lemmas.SizeEqs
import Verif.Lemmas.Least
import Verif.Lemmas.SizeBound
import Verif.Props.Picker
import Verif.Props.Recursion
import Verif.Lemmas.Safe
import Verif.Lemmas.Terminate
import Verif.Props.Safety
import Verif.Lemmas.Enough
import Verif.Props.Enough
import Verif.Spec.Json
import Verif.Lemmas.Infix
import Verif.Lemmas.Stays
import Verif.Props.Json
import Verif.Load
import Verif.Spec.Load
import Verif.Props.Load
import Verif.Shared
import Verif.Spec.Shared
import Verif.Props.Shared
import Verif.Props.Apart
import Verif.Hexdump
import Verif.Spec.Hexdump
import Verif.Props.Hexdump
import Verif.Bin
import Verif.Spec.Bin
import Verif.Props.Bin
import Verif.Spec.FloatText
import Verif.Lemmas.FloatShape
import Verif.Props.FloatText
import Verif.LongDouble
import Verif.Lifetime
import Verif.Spec.Lifetime
import Verif.Props.JsonOut
import Verif.Props.LongDouble
import Verif.Props.Lifetime
import Verif.Props.DictWords
import Verif.Props.Short
import Verif.Lemmas.UnbExact
import Verif.Lemmas.UnbRuns
import Verif.Spec.JsonTree
import Verif.Props.JsonLang
import Verif.Props.JsonLong
import Verif.Props.Sizes
import Verif.Props.VecRuns
import Verif.Order
import Verif.Console
import Verif.Spec.Chars
import Verif.Props.Order
import Verif.Props.Chars
import Verif.Props.Console
import Verif.Record
import Verif.Spec.Compose
import Verif.Spec.Record
import Verif.Props.Compose
import Verif.Props.Record
import Verif.Lemmas.SetExact
import Verif.Props.SetAny
import Verif.Props.Rounding
import Verif.Expr
import Verif.Spec.Expr
import Verif.Props.Expr
import Verif.Spec.Share
import Verif.Lemmas.Share
import Verif.Props.Share
import Verif.Spec.Depth
import Verif.Lemmas.Depth
import Verif.Props.Depth
import Verif.Spec.Derive
import Verif.Props.Derive
import Verif.Experiment
import Verif.Props.FitSizes
import Verif.Props.VariantPick
import Verif.Props.Experiment
import Verif.TestChars
import Verif.Spec.TestChars
import Verif.Props.TestChars
import Verif.Lemmas.UnbDivide
import Verif.Props.VecAny
import Verif.Spec.JsonSpace
import Verif.Props.JsonWide
import Verif.Spec.Nesting
import Verif.Props.JsonDepth
import Verif.Spec.Greed
import Verif.Props.Greed
import Verif.Spec.Proportion
import Verif.Lemmas.Proportion
import Verif.Props.Proportion
import Verif.Spec.Fixed
import Verif.Lemmas.Fixed
import Verif.Props.Fixed
import Verif.Spec.Variated
import Verif.Lemmas.Variated
import Verif.Props.Variated
import Verif.Spec.Ample
import Verif.Lemmas.Ample
import Verif.Props.Ample
import Verif.Spec.Ask
import Verif.Lemmas.Ask
import Verif.Props.Ask
import Verif.Calls
import Verif.Spec.Calls
import Verif.Lemmas.Calls
import Verif.Props.Calls
import Verif.Spec.Work
import Verif.Lemmas.Work
import Verif.Props.Work
import Verif.Spec.Length
import Verif.Lemmas.Length
import Verif.Props.Length
import Verif.Asking
import Verif.Spec.Asking
import Verif.Lemmas.Asking
import Verif.Props.Asking
import Verif.Lemmas.AskRuns
import Verif.Lemmas.AskCost
import Verif.Spec.Total
import Verif.Lemmas.Total
import Verif.Props.Total
import Verif.Spec.Swap
import Verif.Lemmas.Swap
import Verif.Lemmas.SwapRun
import Verif.Props.Swap
import Verif.Spec.Copy
import Verif.Lemmas.Copy
import Verif.Lemmas.CopySize
import Verif.Lemmas.CopyGrammar
import Verif.Props.Copy
import Verif.Spec.Shuffle
import Verif.Lemmas.Shuffle
import Verif.Props.Shuffle
import Verif.Spec.Grow
import Verif.Props.Grow
import Verif.Spec.Blind
import Verif.Lemmas.Blind
import Verif.Props.Blind
import Verif.Spec.Count
import Verif.Props.Count
import Verif.Spec.Truthful
import Verif.Lemmas.Truthful
import Verif.Props.Truthful
import Verif.Spec.Room
import Verif.Lemmas.Room
import Verif.Props.Room
import Verif.Threads
import Verif.Spec.Threads
import Verif.Lemmas.Threads
import Verif.Props.Threads
import Verif.Props.Tidy
import Verif.Props.Taken
import Verif.Props.Alike
import Verif.Props.Double
import Verif.Props.Exact
import Verif.Props.SetOver
import Verif.Props.SetFew
import Verif.Props.LotAny
