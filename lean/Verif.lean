import Verif.Props.Analytic
import Verif.Props.AutoUnfold
import Verif.Props.BestIndices
import Verif.Props.Bounds
import Verif.Props.Brody
import Verif.Props.BrodyConsistency
import Verif.Props.BrodyFit
import Verif.Props.BrodyMle
import Verif.Props.BrodyMlePoisson
import Verif.Props.BrodyPoisson
import Verif.Props.Cells
import Verif.Props.Compare
import Verif.Props.CompareMetric
import Verif.Props.ComputedEdges
import Verif.Props.ComputedModes
import Verif.Props.ComputedSemicircle
import Verif.Props.ComputedSeries
import Verif.Props.ComputedTrimmed
import Verif.Props.ComputedUnfold
import Verif.Props.Conformance
import Verif.Props.Consistency
import Verif.Props.ConstantSeries
import Verif.Props.Convert
import Verif.Props.Delta3
import Verif.Props.Detrend
import Verif.Props.DistinctLevels
import Verif.Props.EigVals
import Verif.Props.Eigenvalues
import Verif.Props.Ensemble
import Verif.Props.EnsembleCompare
import Verif.Props.Exponential
import Verif.Props.Exponentials
import Verif.Props.Fence
import Verif.Props.Figures
import Verif.Props.Files
import Verif.Props.Generate
import Verif.Props.GenerateArgs
import Verif.Props.GridError
import Verif.Props.Helpers
import Verif.Props.Imports
import Verif.Props.InexactGue
import Verif.Props.InexactSpectra
import Verif.Props.Invariance
import Verif.Props.Iters
import Verif.Props.LevelBounds
import Verif.Props.LevelVariance
import Verif.Props.MarchenkoPastur
import Verif.Props.MatrixInput
import Verif.Props.Mean3
import Verif.Props.Memory
import Verif.Props.MissingValues
import Verif.Props.Moments
import Verif.Props.NoiseLowerEdge
import Verif.Props.NoisePolyLimits
import Verif.Props.NoiseSpectra
import Verif.Props.NoiseSpectrumEdge
import Verif.Props.Objects
import Verif.Props.ObservableStability
import Verif.Props.Pipeline
import Verif.Props.PlotData
import Verif.Props.Plots
import Verif.Props.PoissonCompare
import Verif.Props.PoissonCurves
import Verif.Props.PoissonEdge
import Verif.Props.PoissonLimits
import Verif.Props.PolyLimits
import Verif.Props.PolyMeanLimit
import Verif.Props.PolyMeanSpacing
import Verif.Props.PolyRecovery
import Verif.Props.PolyUnfold
import Verif.Props.PolyUniform
import Verif.Props.Progress
import Verif.Props.ReportApi
import Verif.Props.ReportMemory
import Verif.Props.RigidityLoop
import Verif.Props.RigiditySample
import Verif.Props.Rounded
import Verif.Props.RoundedDensity
import Verif.Props.RoundedSample
import Verif.Props.RoundedSeries
import Verif.Props.RoundedSign
import Verif.Props.SampleSize
import Verif.Props.Semicircle
import Verif.Props.SeriesInvariance
import Verif.Props.SeriesRank
import Verif.Props.Session
import Verif.Props.SessionDraws
import Verif.Props.SignalModes
import Verif.Props.SpacingLimits
import Verif.Props.SpacingMeans
import Verif.Props.SpacingMoments
import Verif.Props.Sparse
import Verif.Props.SpectralEdge
import Verif.Props.Stability
import Verif.Props.Step
import Verif.Props.StepCost
import Verif.Props.StoppingRule
import Verif.Props.Stored
import Verif.Props.Summary
import Verif.Props.Termination
import Verif.Props.TimeSeries
import Verif.Props.TridiagonalLaw
import Verif.Props.Trim
import Verif.Props.TrimInvariance
import Verif.Props.TrimmedLimits
import Verif.Props.TrimmedNearly
import Verif.Props.TrimmedNoise
import Verif.Props.TwoLevel
import Verif.Props.Unfolding
import Verif.Props.Utils
