import Verif.Props.C24
import Verif.Props.C06
import Verif.Props.Process
import Verif.Props.Births
import Verif.Props.Threads
import Verif.Props.Combine
import Verif.Props.DeadBirth
import Verif.Props.Weights
import Verif.Props.Estimators
import Verif.Props.Bootstrap
import Verif.Props.ErrorAnalysis
import Verif.Props.Interval
import Verif.Props.Distances
import Verif.Props.Multinest
import Verif.Props.Dynesty
import Verif.Props.Count
import Verif.Props.Stats
import Verif.Props.Parallel
import Verif.Props.Cache
import Verif.Props.Pandas
import Verif.Props.DummyData
import Verif.Model.Diagnostics
import Verif.Proofs.FrameBootstrap
import Verif.Props.Diagnostics
import Verif.Props.Summary
import Verif.Props.SummaryExamples
import Verif.Props.LabelOrder
import Verif.Props.LatexName
import Verif.Props.Kde
import Verif.Props.PlotData
import Verif.Props.NliveFigure
import Verif.Props.PlotRng
import Verif.Props.PlotBs
import Verif.Model.WriteRun
import Verif.Props.WriteRun
import Verif.Props.WritePost
import Verif.Props.WriteStats
import Verif.Model.Alias
import Verif.Props.Alias
import Verif.Model.Paper
import Verif.Props.Paper
import Verif.Model.KdePlot
import Verif.Props.KdePlot
import Verif.Props.Shrinkage
import Verif.Props.BootstrapLaw
import Verif.Model.Rounding
import Verif.Model.CacheConc
import Verif.Model.Distances
import Verif.Props.SampleDistances
import Verif.Props.CacheConc
import Verif.Props.EndToEnd
import Verif.Props.Rounding
import Verif.Props.RoundingExamples
import Verif.Props.Stability
import Verif.Model.RoundingMean
import Verif.Props.Accuracy
import Verif.Props.Binary64
import Verif.Props.ArrayDict
import Verif.Props.Reparam
import Verif.Props.ReparamValues
import Verif.Props.Sampler
import Verif.Props.MergeArrays
import Verif.Props.Monotone
import Verif.Props.MonotoneValues
import Verif.Props.Kwargs
import Verif.Props.VolumesBase
import Verif.Props.Volumes
import Verif.Spec.Adaptive
import Verif.Props.AdaptiveBase
import Verif.Props.Adaptive
import Verif.Props.AdaptiveMean
import Verif.Props.Blind
import Verif.Props.SideBySide
import Verif.Props.CombinedLaw
import Verif.Props.Consistency
import Verif.Props.AdaptiveConsistency
import Verif.Props.AdaptiveEvidence
import Verif.Props.EvidenceExamples
import Verif.Spec.Posterior
import Verif.Props.PosteriorRun
import Verif.Props.PosteriorMean
import Verif.Props.PosteriorLimit
import Verif.Props.Posterior
import Verif.Props.QuantileBounds
import Verif.Props.PosteriorEstimates
import Verif.Props.PosteriorExamples
import Verif.Props.StatsLayout
import Verif.Spec.Simulated
import Verif.Props.SimulatedVolumes
import Verif.Props.SimulatedLimit
import Verif.Props.SimulatedIntegral
import Verif.Props.SimulatedEvidence
import Verif.Props.SimulatedMean
import Verif.Props.SimulatedEstimates
import Verif.Props.SimulatedExamples
import Verif.Props.RoundingMean
import Verif.Props.BootstrapShape
import Verif.Props.BootstrapFlat
import Verif.Props.BootstrapLevels
import Verif.Props.BootstrapEvidence
import Verif.Props.BootstrapRun
import Verif.Props.StaticShape
import Verif.Props.StaticBirths
import Verif.Props.StaticThreads
import Verif.Props.StaticDepth
import Verif.Props.StaticEnergy
import Verif.Props.StaticMeasurable
import Verif.Props.StaticBootstrap
import Verif.Props.StaticExample
import Verif.Props.StaticErrors
import Verif.Props.StaticErrorsExample
import Verif.Model.PlotsKwargs
import Verif.Props.PlotsKwargs
import Verif.Props.SimulatedErrors
import Verif.Props.SimulatedErrorsExample
import Verif.Props.SummaryErrors
import Verif.Props.SummaryErrorsExample
import Verif.Model.Multi
import Verif.Props.Multi
import Verif.Props.MultiExample
import Verif.Model.KwargsWrite
import Verif.Props.KwargsWrite
import Verif.Spec.Several
import Verif.Props.SeveralTrace
import Verif.Props.SeveralRun
import Verif.Props.SeveralCombined
import Verif.Props.Several
import Verif.Props.SeveralSimulated
import Verif.Props.SeveralExamples
import Verif.Props.Errors
import Verif.Model.ParamInd
import Verif.Props.ParamInd
import Verif.Model.RoundingMoments
import Verif.Proofs.AccuracyMoments
import Verif.Props.AccuracyMoments
import Verif.Proofs.AccuracySimulated
import Verif.Props.AccuracySimulated
import Verif.Model.Nan
import Verif.Props.Nan
import Verif.Model.NanTheta
import Verif.Props.NanTheta
import Verif.Props.AnySamples
import Verif.Props.AnyErrors
import Verif.Props.AnyEstimates
import Verif.Props.AnyStatic
import Verif.Props.CacheExt
import Verif.Props.ImpSeed
import Verif.Props.NanMultinest
