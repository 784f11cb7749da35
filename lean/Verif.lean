import Verif.Props.Arrays
import Verif.Props.Queue
import Verif.Props.PiecewiseLinear
import Verif.Props.RightConstant
import Verif.Props.FlowRates
import Verif.Props.DynamicFlow
import Verif.Props.Graph
import Verif.Props.Dijkstra
import Verif.Props.FlowBuilder
import Verif.Props.Collections
import Verif.Props.Predictors
import Verif.Props.PredictorsTime
import Verif.Props.PredictedDelay
import Verif.Props.Combine
import Verif.Props.Merge
import Verif.Props.Neighbors
import Verif.Props.AvgTravelTime
import Verif.Props.Conservation
import Verif.Props.Dataset
import Verif.Props.DatasetShape
import Verif.Props.FileLock
import Verif.Props.Compose
import Verif.Props.Minimum
import Verif.Props.BellmanFord
import Verif.Props.Horizon
import Verif.Props.Drained
import Verif.Props.Evaluate
import Verif.Props.MeanError
import Verif.Props.SingleRun
import Verif.Props.Terminates
import Verif.Props.Regression
import Verif.Props.Demands
import Verif.Props.TrainingFlows
import Verif.Props.Statistics
import Verif.Props.Importer
import Verif.Props.EvalCommodities
import Verif.Props.Earliest
import Verif.Props.Workers
import Verif.Props.ActiveEdges
import Verif.Props.Expanded
import Verif.Props.Evaluation
import Verif.Props.Resume
import Verif.Props.Training
import Verif.Props.NetworkFile
import Verif.Props.SampleStudy
import Verif.Props.Reproducible
import Verif.Props.ReproducibleBuild
import Verif.Props.Caches
import Verif.Props.ManyBuilders
import Verif.Props.Causal
import Verif.Props.Renamed
import Verif.Props.Json
import Verif.Props.SavedFlow
import Verif.Props.Compare
import Verif.Props.Accepted
import Verif.Props.Redomained
import Verif.Props.Scenarios
import Verif.Props.RenamedNodes
import Verif.Props.Observers
import Verif.Props.PrintInfo
import Verif.Props.ModelInputs
import Verif.Props.GenerateQueues
import Verif.Props.DepletionQueue
