import Verif.Py
import Verif.Spec
import Verif.Model.UtilsArrays
import Verif.Model.UtilsCheb
import Verif.Model.UtilsSphere
import Verif.Model.Prior
import Verif.Model.Skrock
import Verif.Model.Measurements
import Verif.Model.Forward
import Verif.Model.McmcBase
import Verif.Model.Sampler
import Verif.Lemmas.Loop
import Verif.Lemmas.Schedule
import Verif.Lemmas.Chain
import Verif.Lemmas.Mala
import Verif.Lemmas.MalaVec
import Verif.Props.Threshold
import Verif.Props.Packing
import Verif.Props.Chebyshev
import Verif.Props.Areas
import Verif.Props.Quadrature
import Verif.Props.Prior
import Verif.Props.Skrock
import Verif.Props.Measurements
import Verif.Props.Forward
import Verif.Props.Myula
import Verif.Props.MyulaRows
import Verif.Props.Mala
import Verif.Props.MalaTrace
import Verif.Props.MalaBalance
import Verif.Props.MalaExamples
import Verif.Model.MalaFloat
import Verif.Props.MalaFloat
import Verif.Props.ChainLaw
import Verif.Props.ChainStable
import Verif.Model.Uncertainty
import Verif.Lemmas.Quantile
import Verif.Props.Uncertainty
import Verif.Model.Saving
import Verif.Props.Saving
import Verif.Model.Transforms
import Verif.Props.Transforms
import Verif.Model.Plotting
import Verif.Props.Plotting
import Verif.Model.Stdout
import Verif.Props.Stdout
import Verif.Model.Reader
import Verif.Props.Reader
import Verif.Props.Noise
import Verif.Props.Envelope
import Verif.Model.Operators
import Verif.Props.Operators
import Verif.Model.Experiments
import Verif.Props.Scripts
import Verif.Props.Experiments
import Verif.Props.PlotExamples
import Verif.Props.Independence
import Verif.Model.Construct
import Verif.Props.Denoising
import Verif.Lemmas.Gauss
import Verif.Props.GaussLaw
import Verif.Model.ParamObjects
import Verif.Props.ParamObjects
import Verif.Lemmas.Ergodic
import Verif.Props.Ergodic
import Verif.Props.SoftAlgebra
import Verif.Lemmas.Tuning
import Verif.Props.Tuning
import Verif.Model.Scripts
import Verif.Props.PathCache
import Verif.Props.MassSheet
import Verif.Props.Summaries
import Verif.Model.PlotScripts
import Verif.Props.PlotScripts
import Verif.Props.SkrockStable
import Verif.Props.Averages
import Verif.Lemmas.QuantileLimit
import Verif.Props.CredibleLimit
import Verif.Props.DenoiseLimit
import Verif.Model.Results
import Verif.Props.Results
import Verif.Lemmas.LevelLaw
import Verif.Props.RegionLimit
import Verif.Lemmas.MalaFlux
import Verif.Props.MalaInvariance
import Verif.Lemmas.Avoid
import Verif.Lemmas.Recur
import Verif.Lemmas.MalaRecur
import Verif.Props.MalaTerminates
import Verif.Lemmas.GaussDensity
import Verif.Lemmas.Bias
import Verif.Lemmas.LangevinBias
import Verif.Lemmas.RealForm
import Verif.Lemmas.Compare
import Verif.Lemmas.Target
import Verif.Props.PosteriorBias
import Verif.Lemmas.SkrockExpand
import Verif.Lemmas.Expanding
import Verif.Props.SkrockDiverges
import Verif.Model.Download
import Verif.Props.Download
import Verif.Props.BurnIn
import Verif.Props.MoreExamples
import Verif.Props.Shapes
import Verif.Props.Accuracy
import Verif.Lemmas.Coupling
import Verif.Lemmas.ThresholdChain
import Verif.Lemmas.ClipMap
import Verif.Props.MyulaFlat
import Verif.Model.PowerPrior
import Verif.Props.PowerWeights
import Verif.Lemmas.ComplexAR
import Verif.Props.ComplexDenoise
import Verif.Props.MyulaComplex
import Verif.Props.Recompute
import Verif.Props.Progress
import Verif.Props.ComplexErgodic
import Verif.Props.UniqueMap
import Verif.Lemmas.Smoothing
import Verif.Props.Events
import Verif.Props.SavedBias
import Verif.Props.SavedLaplace
import Verif.Model.TopoBlock
import Verif.Props.TopoBlock
import Verif.Lemmas.MeanErgodic
import Verif.Lemmas.ReachAverages
import Verif.Lemmas.SavedAverages
import Verif.Props.SavedAverages
import Verif.Model.TruthFiles
import Verif.Props.TruthFiles
import Verif.Model.Units
import Verif.Lemmas.Units
import Verif.Props.Units
import Verif.Props.UnitsRefuted
import Verif.Model.Listing
import Verif.Lemmas.Listing
import Verif.Props.Listing
import Verif.Props.Extra
import Verif.Model.Mirror
import Verif.Lemmas.Mirror
import Verif.Props.Mirror
import Verif.Model.Joined
import Verif.Lemmas.Joined
import Verif.Props.Joined
import Verif.Lemmas.Resume
import Verif.Props.Resume
import Verif.Model.Reorder
import Verif.Lemmas.Reorder
import Verif.Props.Reorder
import Verif.Model.ScaleMaps
import Verif.Props.ScaleMaps
import Verif.Model.AlgoChoice
import Verif.Props.AlgoChoice
import Verif.Model.Conjugate
import Verif.Lemmas.Conjugate
import Verif.Props.Conjugate
import Verif.Model.Meridian
import Verif.Props.Meridian
import Verif.Model.SkyMask
import Verif.Props.SkyMask
import Verif.Model.Orthonormal
import Verif.Props.Orthonormal
import Verif.Model.CommandLine
import Verif.Props.CommandLine
import Verif.Lemmas.Birkhoff
import Verif.Lemmas.PathAverages
import Verif.Props.CredibleFlat
import Verif.Lemmas.FlatLevels
import Verif.Props.RegionFlat
import Verif.Model.Calls
import Verif.Props.Calls
import Verif.Model.Custom
import Verif.Props.Custom
import Verif.Model.RunHeap
import Verif.Props.RunHeap
import Verif.Props.Draws
import Verif.Lemmas.Thinning
import Verif.Props.Thinning
import Verif.Model.Missing
import Verif.Props.Missing
import Verif.Model.MissingSkrock
import Verif.Props.MissingSkrock
import Verif.Props.Robust
import Verif.Props.Rounded
import Verif.Props.RoundedOps
import Verif.Props.RoundedSummaries
import Verif.Props.RoundedPosterior
import Verif.Props.PosteriorMean
import Verif.Props.RoundedLimit
import Verif.Props.SoftStretch
