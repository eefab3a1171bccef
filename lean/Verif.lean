import Verif.RoundUp
import Verif.Props.RoundUp
import Verif.Spsc
import Verif.SpscLemmas
import Verif.Props.Spsc
import Verif.Mpsc
import Verif.MpscLemmas
import Verif.Props.Mpsc
import Verif.Growable
import Verif.GrowableLemmas
import Verif.Props.Growable
import Verif.Props.Capacity
import Verif.Ids
import Verif.IdsLemmas
import Verif.Props.Ids
import Verif.Bitmap
import Verif.BitmapLemmas
import Verif.Props.Bitmap
import Verif.PQ
import Verif.PQLemmas
import Verif.Props.PQ
import Verif.Sorting
import Verif.Props.Sorting
import Verif.Io
import Verif.IoLemmas
import Verif.Props.Io
import Verif.Rbo
import Verif.Props.Rbo
import Verif.Atomics
import Verif.Props.Atomics
import Verif.Watch
import Verif.Props.Watch
import Verif.Deque
import Verif.DequeLemmas
import Verif.DequeOps
import Verif.Props.Deque
import Verif.Receive
import Verif.Props.Receive
import Verif.Loader
import Verif.Props.Loader
import Verif.Pipeline
import Verif.PipelineInv
import Verif.Props.Pipeline
import Verif.Props.PipelineLive
import Verif.StableSort
import Verif.Enact
import Verif.EnactLemmas
import Verif.EnactThread
import Verif.EnactWindow
import Verif.EnactCounts
import Verif.Props.Enact
import Verif.Props.EndToEnd
import Verif.Inject
import Verif.Props.Inject
import Verif.EdgeTools
import Verif.Props.EdgeTools
import Verif.Async
import Verif.AsyncInv
import Verif.AsyncSupport
import Verif.Props.Async
import Verif.MinLabel
import Verif.MinLabelInv
import Verif.Props.MinLabel
import Verif.MsgPath
import Verif.MsgPathInv
import Verif.Props.MsgPath
import Verif.PageRank
import Verif.PageRankInv
import Verif.Props.PageRank
import Verif.PageRankFinish
import Verif.Props.PageRankFinish
import Verif.Colouring
import Verif.ColouringInv
import Verif.Props.Colouring
import Verif.Terminate
import Verif.TerminateInv
import Verif.TerminateInv2
import Verif.TerminateInv3
import Verif.Props.Terminate
import Verif.TerminateLive
import Verif.Props.TerminateLive
import Verif.Sync
import Verif.SyncInv
import Verif.SyncSim
import Verif.Props.Sync
import Verif.SendCapacity
import Verif.Props.SendCapacity
import Verif.Props.SyncQueue
import Verif.SyncLive
import Verif.MinLabelInit
import Verif.Props.SyncLive
import Verif.Query
import Verif.QueryInv
import Verif.Props.Query
import Verif.Props.QueryLive
import Verif.Triangles
import Verif.TrianglesInv
import Verif.TrianglesCount
import Verif.TrianglesFinal
import Verif.Props.Triangles
import Verif.TempPaths
import Verif.TempPathsMail
import Verif.TempPathsInv
import Verif.Props.TempPaths
import Verif.Work
import Verif.MinLabelConv
import Verif.Props.Converge
import Verif.TerminateAll
import Verif.Engine
import Verif.EngineInv
import Verif.Props.Engine
import Verif.EngineLive
import Verif.Props.EngineLive
import Verif.Props.EngineCase
import Verif.WorkInit
import Verif.PageRankConv
import Verif.PageRankSync
import Verif.Props.PageRankConv
import Verif.Downhill
import Verif.ColouringConv
import Verif.Pump
import Verif.Props.ColouringConv
import Verif.ColouringWait
import Verif.ColouringWaitInv
import Verif.ColouringWaitRun
import Verif.Props.ColouringWait
import Verif.Props.TrianglesConv
import Verif.ColouringMsg
import Verif.ColouringMsgInv
import Verif.ColouringMsgWait
import Verif.ColouringMsgConv
import Verif.Props.ColouringMsg
import Verif.Compare
import Verif.Props.Compare
import Verif.BackOff
import Verif.Props.BackOff
import Verif.SuperStep
import Verif.SuperStepInv
import Verif.Props.SuperStep
import Verif.Props.Series
import Verif.Table
import Verif.Props.Table
import Verif.Stats
import Verif.Props.Stats
import Verif.OracleCopy
import Verif.Props.OracleCopy
import Verif.OracleRace
import Verif.Props.OracleRace
import Verif.Check
import Verif.Props.Check
import Verif.Props.CheckPaths
import Verif.Props.CheckRank
import Verif.TempPathsConv
import Verif.Props.TempPathsConv
import Verif.Props.TempPathsEngine
import Verif.Options
import Verif.Props.Options
import Verif.Built
import Verif.Props.Answer
import Verif.Props.AnswerCase
import Verif.EnactAny
import Verif.GraphStats
import Verif.Props.GraphStats
import Verif.Buckets
import Verif.Props.Buckets
import Verif.ResultFile
import Verif.Props.ResultFile
import Verif.Launch
import Verif.Props.Launch
import Verif.Asks
import Verif.Props.Asks
import Verif.Props.AnswerRanks
import Verif.Props.AnswerRanksCase
import Verif.SameGraph
import Verif.Props.SameGraph
import Verif.Props.SameGraphCase
import Verif.EdgeProps
import Verif.Props.EdgeProps
import Verif.Props.AnswerTimes
import Verif.Props.AnswerTimesCase
import Verif.Weights
import Verif.Props.Weights
import Verif.Props.AnswerWeights
import Verif.Props.AnswerWeightsCase
import Verif.Pace
import Verif.Props.Pace
import Verif.Props.AnswerSync
import Verif.Props.AnswerSyncCase
import Verif.Props.AnswerSyncRanks
import Verif.Props.AnswerSyncRanksCase
import Verif.IndexQueue
import Verif.Props.IndexQueue
import Verif.MsgPathConv
import Verif.Props.MsgPathConv
import Verif.Timers
import Verif.Props.Timers
import Verif.QuerySteps
import Verif.Props.QuerySteps
import Verif.EnactRange
import Verif.Props.EnactRange
import Verif.PullLoop
import Verif.Props.PullLoop
import Verif.Props.AnswerGreedy
import Verif.Props.AnswerGreedyCase
import Verif.Props.AnswerTriangles
import Verif.Props.AnswerTrianglesCase
import Verif.Looks
import Verif.Props.Looks
import Verif.Assume
import Verif.Props.Assume
