import Verif.Lemmas.Bank
import Verif.Lemmas.BankNorm
import Verif.Lemmas.BiContinuity
import Verif.Lemmas.BiCumulants
import Verif.Lemmas.BiRelative
import Verif.Lemmas.BiTame
import Verif.Lemmas.BiTypical
import Verif.Lemmas.Binary
import Verif.Lemmas.Bivariate
import Verif.Lemmas.Cholesky
import Verif.Lemmas.Closed
import Verif.Lemmas.Cme
import Verif.Lemmas.Continuity
import Verif.Lemmas.ContinuityPos
import Verif.Lemmas.CumShift
import Verif.Lemmas.Cumulants
import Verif.Lemmas.DataIndep
import Verif.Lemmas.Decay
import Verif.Lemmas.Dft
import Verif.Lemmas.Dft2
import Verif.Lemmas.Embed
import Verif.Lemmas.Ergodic
import Verif.Lemmas.FgnCov
import Verif.Lemmas.Filtering
import Verif.Lemmas.Fl
import Verif.Lemmas.FromTypical
import Verif.Lemmas.GaussMoments
import Verif.Lemmas.Gaussian
import Verif.Lemmas.Gebelein
import Verif.Lemmas.Homogeneous
import Verif.Lemmas.IdealBank
import Verif.Lemmas.LeadLoop
import Verif.Lemmas.LeaderMoments
import Verif.Lemmas.Leaders
import Verif.Lemmas.Master
import Verif.Lemmas.Memory
import Verif.Lemmas.Missing
import Verif.Lemmas.MrwKernel
import Verif.Lemmas.MrwLln
import Verif.Lemmas.MrwMoments
import Verif.Lemmas.MrwWindow
import Verif.Lemmas.Noise
import Verif.Lemmas.NoiseKernel
import Verif.Lemmas.NonNeg
import Verif.Lemmas.NormalEq
import Verif.Lemmas.Ortho
import Verif.Lemmas.PLeaderMoments
import Verif.Lemmas.PairMoments
import Verif.Lemmas.Path
import Verif.Lemmas.Pattern
import Verif.Lemmas.Perturb
import Verif.Lemmas.PolyBank
import Verif.Lemmas.Polya
import Verif.Lemmas.PyEq
import Verif.Lemmas.Range
import Verif.Lemmas.Rate
import Verif.Lemmas.Reductions
import Verif.Lemmas.RegBound
import Verif.Lemmas.Regression
import Verif.Lemmas.Rounded
import Verif.Lemmas.RoundedArrays
import Verif.Lemmas.RoundedBivariate
import Verif.Lemmas.RoundedBounds
import Verif.Lemmas.RoundedClosed
import Verif.Lemmas.RoundedColumn
import Verif.Lemmas.RoundedEntries
import Verif.Lemmas.RoundedFamily
import Verif.Lemmas.RoundedLoop
import Verif.Lemmas.RoundedPLeaders
import Verif.Lemmas.RoundedPairs
import Verif.Lemmas.RoundedRel
import Verif.Lemmas.RoundedSizes
import Verif.Lemmas.RoundedSlope
import Verif.Lemmas.RoundedStats
import Verif.Lemmas.RoundedWavelet
import Verif.Lemmas.Scaling
import Verif.Lemmas.Selfsim
import Verif.Lemmas.SlopeDiff
import Verif.Lemmas.Spectral
import Verif.Lemmas.Spectrum
import Verif.Lemmas.Stats
import Verif.Lemmas.StrongLaw
import Verif.Lemmas.SubsetMean
import Verif.Lemmas.Tame
import Verif.Lemmas.ToeplitzPos
import Verif.Lemmas.Typical
import Verif.Lemmas.VecErgodic
import Verif.Lemmas.VecGebelein
import Verif.Lemmas.WaveletTop
import Verif.Lemmas.Wick
import Verif.Lemmas.WideRange
import Verif.Model.Attributes
import Verif.Model.Binary
import Verif.Model.Bivariate
import Verif.Model.Cumulants
import Verif.Model.Estimation
import Verif.Model.Fl
import Verif.Model.LogPlot
import Verif.Model.MRQ
import Verif.Model.Mfa
import Verif.Model.NumPy
import Verif.Model.Plot
import Verif.Model.Psd
import Verif.Model.Rounded
import Verif.Model.RoundedBivariate
import Verif.Model.RoundedLevel
import Verif.Model.RoundedWavelet
import Verif.Model.Signal
import Verif.Model.Simul
import Verif.Model.Simul2d
import Verif.Model.Spectrum
import Verif.Model.StructureFunction
import Verif.Model.Utils
import Verif.Model.Viz
import Verif.Model.Wavelet
import Verif.Props.Attributes
import Verif.Props.BetaHurst
import Verif.Props.BiAnalysis
import Verif.Props.BiCompat
import Verif.Props.BiConsistency
import Verif.Props.BiContinuity
import Verif.Props.BiDegenerate
import Verif.Props.BiDemo
import Verif.Props.BiGrowing
import Verif.Props.BiItself
import Verif.Props.BiLeaders
import Verif.Props.BiMissing
import Verif.Props.BiPLeaderScaling
import Verif.Props.BiPLeaders
import Verif.Props.BiPairs
import Verif.Props.BiPlot
import Verif.Props.BiRate
import Verif.Props.BiRelative
import Verif.Props.BiScaling
import Verif.Props.BiStructure
import Verif.Props.Binary
import Verif.Props.Bivariate
import Verif.Props.Coherence
import Verif.Props.CoherenceRate
import Verif.Props.Columns
import Verif.Props.Consistency
import Verif.Props.Continuity
import Verif.Props.ContinuityExplicit
import Verif.Props.ContinuityP
import Verif.Props.Cumulants
import Verif.Props.Data
import Verif.Props.Decorrelation
import Verif.Props.Demo
import Verif.Props.Dominance
import Verif.Props.EndToEnd
import Verif.Props.Estimators
import Verif.Props.Expectation
import Verif.Props.FilterBank
import Verif.Props.Frac2d
import Verif.Props.Fragile
import Verif.Props.Full
import Verif.Props.FullPLeaders
import Verif.Props.Gaps
import Verif.Props.GaussMarkov
import Verif.Props.Growing
import Verif.Props.GrowingNoise
import Verif.Props.Histories
import Verif.Props.HurstEstimation
import Verif.Props.LargeNumbers
import Verif.Props.LeaderScaling
import Verif.Props.Leaders
import Verif.Props.LogPlot
import Verif.Props.LongMemory
import Verif.Props.Longer
import Verif.Props.Methods
import Verif.Props.Mfa
import Verif.Props.Missed
import Verif.Props.Missing
import Verif.Props.Moments
import Verif.Props.MonteCarlo
import Verif.Props.Mrw2d
import Verif.Props.Mrw2dMoments
import Verif.Props.MrwChol
import Verif.Props.MrwEstimation
import Verif.Props.NoiseEstimation
import Verif.Props.NoiseRobust
import Verif.Props.Outlier
import Verif.Props.PLeaderScaling
import Verif.Props.PLeaders
import Verif.Props.Plot
import Verif.Props.Psd
import Verif.Props.PsdDifference
import Verif.Props.PsdPlot
import Verif.Props.Ranges
import Verif.Props.Rate
import Verif.Props.Regression
import Verif.Props.Robust
import Verif.Props.RoundedLevel
import Verif.Props.Rounding
import Verif.Props.RoundingBivariate
import Verif.Props.RoundingBounds
import Verif.Props.RoundingDouble
import Verif.Props.RoundingExact
import Verif.Props.RoundingOrder
import Verif.Props.RoundingPLeaders
import Verif.Props.RoundingSignal
import Verif.Props.Selfsimilar
import Verif.Props.Signal
import Verif.Props.SignalAssign
import Verif.Props.SignalDemo
import Verif.Props.SignalLaws
import Verif.Props.Simul
import Verif.Props.SimulArgs
import Verif.Props.SimulChol
import Verif.Props.SimulDemo
import Verif.Props.SimulFgn
import Verif.Props.SimulGauss
import Verif.Props.SimulMrw
import Verif.Props.SimulMrwLaw
import Verif.Props.SimulSkew
import Verif.Props.SpectrumPlot
import Verif.Props.Stability
import Verif.Props.StabilityAll
import Verif.Props.Structure
import Verif.Props.SuppliedNoise
import Verif.Props.Taylor
import Verif.Props.Utils
import Verif.Props.Viz
import Verif.Props.Wavelet
import Verif.Props.WaveletNoise
import Verif.Spec.Basic
import Verif.Spec.BiClose
import Verif.Spec.BiSpectrum
import Verif.Spec.BiWithin
import Verif.Spec.Bivariate
import Verif.Spec.Close
import Verif.Spec.Cumulants
import Verif.Spec.FilterBank
import Verif.Spec.Fourier2d
import Verif.Spec.Gaussian
import Verif.Spec.Missing
import Verif.Spec.Mixture
import Verif.Spec.Mrw
import Verif.Spec.Mrw2d
import Verif.Spec.Noise
import Verif.Spec.Orthonormal
import Verif.Spec.PLeader
import Verif.Spec.Pairs
import Verif.Spec.Perturbed
import Verif.Spec.Pooled
import Verif.Spec.PowerLaw
import Verif.Spec.Psd
import Verif.Spec.Recording
import Verif.Spec.Regular
import Verif.Spec.RoundErr
import Verif.Spec.RoundWavelet
import Verif.Spec.Select
import Verif.Spec.Simul
import Verif.Spec.Spoiled
import Verif.Spec.TotalErr
import Verif.Spec.Tree
import Verif.Spec.Viz
