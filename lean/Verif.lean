import Verif.Props.Structure
import Verif.Props.Graph
import Verif.Props.Params
import Verif.Props.Importer
import Verif.Props.EndToEnd
import Verif.Props.Ctpc
import Verif.Props.CtpcTest
import Verif.Props.CtpcReturns
import Verif.Props.Indep
import Verif.Props.FamScore
import Verif.Props.Search
import Verif.Props.ScoreEst
import Verif.Props.EstGraph
import Verif.Props.NetGen
import Verif.Props.TrajGen
import Verif.Props.Export
import Verif.Props.SampleFlow
import Verif.Props.SampleEnd
import Verif.Props.SampleDemo
import Verif.Props.Json
import Verif.Props.Boundary
import Verif.Props.Pipeline
import Verif.Props.Exact
import Verif.Props.SearchExact
import Verif.Props.CtpcExact
import Verif.Props.ScoreExact
import Verif.Props.TabuExact
import Verif.Props.UnboundExact
import Verif.Props.RerunExact
import Verif.Props.NetGenExact
import Verif.Props.Oracle
import Verif.Props.Ranking
import Verif.Props.TimeUnit
import Verif.Props.RowOrder
import Verif.Props.RawExact
import Verif.Props.KnownExact
import Verif.Props.ReturnExact
import Verif.Props.MarginalExact
import Verif.Props.Recode
import Verif.Props.TabuQueue
import Verif.Props.Walk
import Verif.Props.LocalOpt
import Verif.Props.JsonText
import Verif.Props.CtpcData
import Verif.Props.CtpcRecode
import Verif.Props.RatTest
import Verif.Props.CtpcLevel
import Verif.Props.CtpcSens
import Verif.Props.CtpcExamples
import Verif.Props.Consistency
import Verif.Props.ConsistencyDemo
import Verif.Props.HeapShare
import Verif.Props.HeapDemo
import Verif.Props.TotalMoves
import Verif.Props.Float
import Verif.Props.FloatExact
import Verif.Props.AfterRun
import Verif.Props.FloatTest
import Verif.Props.ScoreConsistency
import Verif.Props.ScoreGrowth
import Verif.Props.ReadBack
import Verif.Props.FloatImport
import Verif.Props.FloatSample
import Verif.Props.FloatScore
import Verif.Props.SampleLaw
import Verif.Props.TimeKey
import Verif.Props.ChiExact
import Verif.Props.SampleBridge
import Verif.Props.Rename
import Verif.Props.HillProb
import Verif.Props.HillEstimate
import Verif.Props.LongRun
import Verif.Props.ScoreRecovery
import Verif.Props.SampleValid
import Verif.Props.SampleRecovery
import Verif.Props.SampleCtpc
import Verif.Props.HillRecovery
import Verif.Props.EndRows
import Verif.Props.PooledRows
import Verif.Props.ManyLong
import Verif.Props.Forked
import Verif.Props.PooledSearch
import Verif.Props.StampRounding
import Verif.Props.LonePair
import Verif.Props.PooledCtpc
import Verif.Props.Ascii
import Verif.Props.Possible
import Verif.Props.PossibleDemo
import Verif.Props.MissingLast
import Verif.Props.SampledExact
import Verif.Props.SampledExactDemo
import Verif.Props.CtpcShape
import Verif.Props.ScipyQuantiles
import Verif.Props.ScipyDemo
import Verif.Props.CtpcTestIff
import Verif.Props.FloatRawExact
import Verif.Props.ExactRecovery
import Verif.Props.StrongConsistency
import Verif.Props.Exponential
import Verif.Props.Rates
import Verif.Props.TrajShape
import Verif.Props.FromThenOn
import Verif.Props.FixedLevels
import Verif.Props.HalfInit
import Verif.Props.TableRead
import Verif.Props.GenFromFile
