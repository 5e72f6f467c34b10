import Verif.Props.BoyerMoore
import Verif.Props.ListUtils
import Verif.Props.TupleUtils
import Verif.Props.SetSimilarity
import Verif.Props.TwoWayDict
import Verif.Props.LCS
import Verif.Props.Levenshtein
import Verif.Props.PrimeFactors
import Verif.Props.Statistics
import Verif.Props.Lru
import Verif.Props.Mdl
import Verif.Props.Parallel
import Verif.Props.EventLog
import Verif.Props.Noise
import Verif.Props.IntGraph
import Verif.Props.Dfg
import Verif.Props.DfgQueries
import Verif.Props.PrefixTree
import Verif.Props.Lts
import Verif.Props.NestedGraph
import Verif.Props.Patterns
import Verif.Props.SuffixTree
import Verif.Props.Petri
import Verif.Props.PetriWf
import Verif.Props.Dataset
import Verif.Props.TargetDatasets
import Verif.Props.Transformer
import Verif.Props.Quantile
import Verif.Props.SequenceNoise
import Verif.Props.Queries
import Verif.Props.Clustering
import Verif.Props.Console
import Verif.Props.ResultCache
import Verif.Props.Transactions
import Verif.Props.ResultCollector
import Verif.Props.KMedoid
import Verif.Props.FuzzyKMedoid
import Verif.Props.PetriPrune
import Verif.Props.ActivityPattern
import Verif.Props.PatternBasics
import Verif.Props.ChoiceList
import Verif.Props.PatternExamples
import Verif.Props.NestedQueries
import Verif.Props.LogTable
import Verif.Props.LogExport
import Verif.Props.LogStatistics
import Verif.Props.EventLogHeap
import Verif.Props.Arff
import Verif.Props.ArffTargets
import Verif.Props.Pm4py
import Verif.Props.Hash
import Verif.Props.DfgPlot
import Verif.Props.Utils
import Verif.Props.Timeout
import Verif.Props.QBins
import Verif.Props.Plots
import Verif.Props.FuzzyTermination
import Verif.Props.ActivityKMedoid
import Verif.Props.Converter
import Verif.Props.Ray
import Verif.Props.TraceClustering
import Verif.Props.SavePlots
import Verif.Props.Frame
import Verif.Props.Guard
import Verif.Props.GraphPlots
import Verif.Props.PetriWfRuns
import Verif.Props.CInt
import Verif.Props.DfgMachine
import Verif.Props.PlotContext
import Verif.Props.StatisticsFloat
import Verif.Props.StatisticsFloatVar
import Verif.Props.StatisticsCounter
import Verif.Props.MdlMachine
import Verif.Props.StaleHash
import Verif.Props.PruneSingle
import Verif.Props.DfgSimulation
import Verif.Props.Errors
import Verif.Props.FloatOps
import Verif.Props.LevenshteinWeights
import Verif.Props.ErrorKinds
import Verif.Props.ArffText
import Verif.Props.ParallelCrash
import Verif.Props.PatternSound
import Verif.Props.Lazy
import Verif.Props.CacheRace
import Verif.Props.PatternPrune
import Verif.Props.EditMetric
import Verif.Props.LogModels
import Verif.Props.LogOrder
import Verif.Props.LogNames
import Verif.Props.Kraft
import Verif.Props.Prequential
import Verif.Props.MdlRounded
import Verif.Props.PetriRun
import Verif.Props.LogAlgebra
import Verif.Props.LogSum
import Verif.Props.PatternAlgebra
import Verif.Props.TransformerAlgebra
import Verif.Props.DfgAlgebra
import Verif.Props.SetMetric
import Verif.Props.NoiseLaw
import Verif.Props.WalkLaw
import Verif.Props.SequenceNoiseLaw
import Verif.Props.LtsAbstraction
import Verif.Props.StatisticsLaws
import Verif.Props.FairParts
import Verif.Props.PetriSimRun
import Verif.Props.WalkEnds
import Verif.Props.Rediscovery
import Verif.Props.NoiseDistance
import Verif.Props.RepeatBounds
import Verif.Props.SequenceNoiseDistance
import Verif.Props.PetriSimLaw
import Verif.Props.TransformerLocal
import Verif.Props.MdlRoundedMore
import Verif.Props.LogDurations
import Verif.Props.ArffTargetText
import Verif.Props.TransactionFiles
import Verif.Props.TimeoutCalls
import Verif.Props.NoiseHeap
import Verif.Props.DurationsHeap
import Verif.Props.CsvSave
import Verif.Props.AppendFiles
import Verif.Props.LogShare
import Verif.Props.TrainTest
import Verif.Props.RealCode
import Verif.Props.HalfDone
import Verif.Props.JoinExc
import Verif.Props.ParallelState
import Verif.Props.ArffCut
import Verif.Props.ProcState
import Verif.Props.PetriFail
import Verif.Props.DfgRename
import Verif.Props.DfgJoin
import Verif.Props.QueryLaws
import Verif.Props.ClassTransform
import Verif.Props.SeqInstance
import Verif.Props.ChoiceLaw
import Verif.Props.RayState
import Verif.Props.PrefixTreeExc
import Verif.Props.NestedGraphExc
import Verif.Props.TwoWayDictHeap
import Verif.Props.IntGraphMem
import Verif.Props.NoiseMean
import Verif.Props.DfgLanguage
import Verif.Props.NoiseStatistics
import Verif.Props.DfgFramed
