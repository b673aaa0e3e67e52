import Verif.Budget.Props
import Verif.Budget.Scopes
import Verif.Budget.Aggregations
import Verif.Budget.Pld
import Verif.Bounding.Props
import Verif.Engine.CombinersProps
import Verif.Engine.SensitivityProps
import Verif.Engine.ReleaseProps
import Verif.Engine.MeanVariance
import Verif.Engine.Partitions
import Verif.Engine.Exact
import Verif.Engine.Vector
import Verif.Validation.Props
import Verif.Histogram.Bins
import Verif.Histogram.Props
import Verif.Histogram.Quantiles
import Verif.Histogram.Ratio
import Verif.Histogram.Estimator
import Verif.Histogram.EstimatorCreate
import Verif.Histogram.PreAgg
import Verif.Histogram.Sum
import Verif.Histogram.Compare
import Verif.PrivateBounds.Exponential
import Verif.PrivateBounds.L0
import Verif.Backend.Labels
import Verif.Backend.KeyFilter
import Verif.Backend.Sampling
import Verif.Backend.MultiProc
import Verif.Analysis.Poisson
import Verif.Analysis.PerPartition
import Verif.Analysis.Compound
import Verif.Analysis.CrossPartition
import Verif.Analysis.Config
import Verif.Analysis.Tuning
import Verif.Analysis.Reports
import Verif.Analysis.Summary
import Verif.Engine.Mechanism
import Verif.Analysis.Strategy
import Verif.Engine.AddNoise
import Verif.Engine.Report
import Verif.Engine.Readable
import Verif.Private.Collection
import Verif.Private.DataFrame
import Verif.Private.Query
import Verif.Private.QueryFails
import Verif.EndToEnd.Model
import Verif.EndToEnd.Spec
import Verif.EndToEnd.Lemmas
import Verif.EndToEnd.Query
import Verif.EndToEnd.Props
import Verif.EndToEnd.Runs
import Verif.EndToEnd.Probability
import Verif.EndToEnd.Approx
import Verif.EndToEnd.Contracts
import Verif.EndToEnd.CallsExample
import Verif.EndToEnd.CallsCover
import Verif.EndToEnd.CallsRuns
import Verif.EndToEnd.Thresholding
import Verif.EndToEnd.CallsProps
import Verif.EndToEnd.CallsBudget
import Verif.EndToEnd.CallSelect
import Verif.EndToEnd.CallAggregate
import Verif.EndToEnd.CallPair
import Verif.EndToEnd.CallGates
import Verif.EndToEnd.CallNumbers
import Verif.EndToEnd.Mask
import Verif.EndToEnd.CallsSpec
import Verif.EndToEnd.Calls
import Verif.EndToEnd.Shares
import Verif.EndToEnd.Documented
import Verif.EndToEnd.Releases
import Verif.EndToEnd.ReleasesExample
import Verif.Analysis.Sampling
import Verif.Analysis.Engine
import Verif.Analysis.EngineRuns
import Verif.Analysis.Predicts
import Verif.Analysis.PredictsSelection
import Verif.Analysis.Perform
import Verif.Analysis.PerformNoise
import Verif.Analysis.PerformReports
import Verif.Analysis.PerformDocumented
import Verif.Analysis.PerformFails
import Verif.Analysis.LocalRuns
import Verif.Analysis.Normal
import Verif.Analysis.NormalProps
import Verif.Backend.SparkUniform
import Verif.EndToEnd.ChosenBound
import Verif.EndToEnd.PldModel
import Verif.EndToEnd.PldNumbers
import Verif.EndToEnd.PldCall
import Verif.EndToEnd.PldProps
import Verif.EndToEnd.PldRuns
import Verif.EndToEnd.Adaptive
import Verif.EndToEnd.AdaptiveProps
import Verif.EndToEnd.Collections
import Verif.EndToEnd.CollectionsProps
import Verif.EndToEnd.Groups
import Verif.EndToEnd.Frames
import Verif.EndToEnd.Mixed
import Verif.EndToEnd.MixedProps
import Verif.EndToEnd.AdaptiveMixed
import Verif.EndToEnd.Session
import Verif.EndToEnd.Veil
import Verif.EndToEnd.Custom
import Verif.EndToEnd.CustomCall
import Verif.EndToEnd.CustomProps
import Verif.EndToEnd.CustomMore
import Verif.EndToEnd.CustomExample
import Verif.EndToEnd.Percentiles
import Verif.EndToEnd.PercentilesCall
import Verif.EndToEnd.PercentilesProps
import Verif.EndToEnd.PercentilesMore
import Verif.EndToEnd.PercentilesExample
import Verif.Analysis.Tune
import Verif.Analysis.TuneProps
import Verif.Analysis.TuneMain
import Verif.Backend.Spark
import Verif.Backend.SparkRows
import Verif.EndToEnd.SparkSum
import Verif.EndToEnd.SparkGap
import Verif.EndToEnd.SparkExample
import Verif.Backend.Combine
import Verif.EndToEnd.Vector
import Verif.EndToEnd.VectorProps
import Verif.EndToEnd.VectorMore
import Verif.EndToEnd.Loss
import Verif.EndToEnd.LossProps
import Verif.EndToEnd.Unselected
import Verif.EndToEnd.LossExample
import Verif.Engine.OneShot
import Verif.EndToEnd.OneShotLaw
import Verif.Engine.Serialise
import Verif.EndToEnd.Accepted
import Verif.EndToEnd.AcceptedPercentiles
import Verif.EndToEnd.PublicGaps
import Verif.EndToEnd.PublicThresholding
import Verif.EndToEnd.Explained
import Verif.EndToEnd.ExplainedExample
import Verif.EndToEnd.Accuracy
import Verif.EndToEnd.AccuracyAll
import Verif.EndToEnd.AccuracyExample
import Verif.EndToEnd.Unbiased
import Verif.EndToEnd.UnbiasedExample
import Verif.EndToEnd.NoiseAccuracy
import Verif.EndToEnd.VectorAccuracy
import Verif.Backend.Annotations
import Verif.Engine.ReportBounds
import Verif.Analysis.MonteCarlo
import Verif.Engine.VectorAlias
import Verif.EndToEnd.Weights
