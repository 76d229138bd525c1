import Verif.Model.Adam
import Verif.Model.Affine
import Verif.Model.AnnealMain
import Verif.Model.Annealing
import Verif.Model.Apg
import Verif.Model.ApgCli
import Verif.Model.ApgEval
import Verif.Model.ApgGrad
import Verif.Model.ApgKeys
import Verif.Model.ApgLoop
import Verif.Model.ApgLoss
import Verif.Model.ApgNets
import Verif.Model.ApgTensor
import Verif.Model.ApgTrain
import Verif.Model.ApgWeak
import Verif.Model.Cli
import Verif.Model.Comp
import Verif.Model.Core
import Verif.Model.Dict
import Verif.Model.Display
import Verif.Model.FloatMetrics
import Verif.Model.FloatPath
import Verif.Model.FloatPixels
import Verif.Model.FloatResampler
import Verif.Model.FloatSim
import Verif.Model.GmmSample
import Verif.Model.Ieee
import Verif.Model.Inference
import Verif.Model.Kernel
import Verif.Model.Metrics
import Verif.Model.NviTrain
import Verif.Model.Objectives
import Verif.Model.Out
import Verif.Model.Paper
import Verif.Model.Path
import Verif.Model.Program
import Verif.Model.Propagate
import Verif.Model.Resampler
import Verif.Model.Shapes
import Verif.Model.SimFrames
import Verif.Model.SimMain
import Verif.Model.Simulator
import Verif.Model.Store
import Verif.Model.Tabulate
import Verif.Model.Tensor
import Verif.Model.TensorMetrics
import Verif.Model.TensorResampler
import Verif.Model.TestAnnealing
import Verif.Model.TestSuite
import Verif.Model.Utils
import Verif.Model.Viz
import Verif.Proofs.AnnealChain
import Verif.Proofs.AnnealNames
import Verif.Proofs.AnnealPop
import Verif.Proofs.AnnealStats
import Verif.Proofs.AnnealStl
import Verif.Proofs.Annealing
import Verif.Proofs.Apg
import Verif.Proofs.ApgGibbs
import Verif.Proofs.ApgIncrement
import Verif.Proofs.ApgKernels
import Verif.Proofs.ApgLanes
import Verif.Proofs.ApgLaw
import Verif.Proofs.ApgNets
import Verif.Proofs.ApgStep
import Verif.Proofs.ApgWeak
import Verif.Proofs.ApgWeights
import Verif.Proofs.Batch
import Verif.Proofs.ChainLaw
import Verif.Proofs.Combinators
import Verif.Proofs.Debug
import Verif.Proofs.Draws
import Verif.Proofs.Exec
import Verif.Proofs.FloatArith
import Verif.Proofs.FloatPath
import Verif.Proofs.Ieee
import Verif.Proofs.Independent
import Verif.Proofs.LaneLaw
import Verif.Proofs.LargeNumbers
import Verif.Proofs.Laws
import Verif.Proofs.Measurable
import Verif.Proofs.MeasurableDiscrete
import Verif.Proofs.Paper
import Verif.Proofs.PaperTempered
import Verif.Proofs.PaperWalk
import Verif.Proofs.Parts
import Verif.Proofs.Population
import Verif.Proofs.PopulationLaw
import Verif.Proofs.Program
import Verif.Proofs.Repeated
import Verif.Proofs.Resample
import Verif.Proofs.Safe
import Verif.Proofs.SampleSize
import Verif.Proofs.Scope
import Verif.Proofs.Strings
import Verif.Proofs.Systematic
import Verif.Proofs.Tensor
import Verif.Proofs.TensorOps
import Verif.Proofs.Trace
import Verif.Proofs.Typing
import Verif.Proofs.UpperLaw
import Verif.Proofs.WeakNode
import Verif.Proofs.Weighting
import Verif.Proofs.WeightingNode
import Verif.Proofs.WeightingRun
import Verif.Props.Adam
import Verif.Props.Affine
import Verif.Props.AnnealChains
import Verif.Props.AnnealKl
import Verif.Props.AnnealMain
import Verif.Props.AnnealPrograms
import Verif.Props.Annealing
import Verif.Props.Apg
import Verif.Props.ApgCli
import Verif.Props.ApgEval
import Verif.Props.ApgFrames
import Verif.Props.ApgKeys
import Verif.Props.ApgLoop
import Verif.Props.ApgLoss
import Verif.Props.ApgNets
import Verif.Props.ApgParticles
import Verif.Props.ApgPrograms
import Verif.Props.ApgReport
import Verif.Props.ApgTensor
import Verif.Props.ApgTrain
import Verif.Props.ApgTrained
import Verif.Props.ApgVariance
import Verif.Props.ApgWeak
import Verif.Props.ApgWeights
import Verif.Props.Batch
import Verif.Props.ChainsConverge
import Verif.Props.Cli
import Verif.Props.CliInt
import Verif.Props.Combinators
import Verif.Props.Debug
import Verif.Props.Display
import Verif.Props.EssLimits
import Verif.Props.Evidence
import Verif.Props.FloatAccuracy
import Verif.Props.FloatEvidence
import Verif.Props.FloatMetrics
import Verif.Props.FloatPath
import Verif.Props.FloatPixels
import Verif.Props.FloatResampler
import Verif.Props.FloatSim
import Verif.Props.GmmSample
import Verif.Props.Gradients
import Verif.Props.Independent
import Verif.Props.Kernel
import Verif.Props.Laws
import Verif.Props.Metrics
import Verif.Props.Nests
import Verif.Props.NviTrain
import Verif.Props.ObjectiveChain
import Verif.Props.ObjectiveKl
import Verif.Props.Objectives
import Verif.Props.Out
import Verif.Props.Paper
import Verif.Props.PaperVariance
import Verif.Props.PaperVarianceSteps
import Verif.Props.Path
import Verif.Props.Population
import Verif.Props.PopulationNormal
import Verif.Props.PopulationObserved
import Verif.Props.ProgramEvents
import Verif.Props.Programs
import Verif.Props.Propagate
import Verif.Props.Repeated
import Verif.Props.Resample
import Verif.Props.ResampleError
import Verif.Props.ResampleWeights
import Verif.Props.Scoping
import Verif.Props.Shapes
import Verif.Props.SimCli
import Verif.Props.SimFrames
import Verif.Props.SimMain
import Verif.Props.SimStart
import Verif.Props.SimTies
import Verif.Props.SimVelocity
import Verif.Props.Simulator
import Verif.Props.Store
import Verif.Props.Systematic
import Verif.Props.Tabulate
import Verif.Props.TensorMetrics
import Verif.Props.TensorResampler
import Verif.Props.TestAnnealing
import Verif.Props.TestResamplers
import Verif.Props.TestSuite
import Verif.Props.Toy
import Verif.Props.Traces
import Verif.Props.Typing
import Verif.Props.Unbiased
import Verif.Props.Utils
import Verif.Props.Viz
import Verif.Props.Weighting
import Verif.Props.WeightingNormal
import Verif.Spec.AnnealChains
import Verif.Spec.AnnealPath
import Verif.Spec.AnnealPop
import Verif.Spec.Annealing
import Verif.Spec.Apg
import Verif.Spec.ApgIncrement
import Verif.Spec.ApgLanes
import Verif.Spec.ApgLaw
import Verif.Spec.ApgLoop
import Verif.Spec.ApgLoss
import Verif.Spec.ApgNets
import Verif.Spec.ApgTrained
import Verif.Spec.ApgWeights
import Verif.Spec.Batch
import Verif.Spec.Combinators
import Verif.Spec.Events
import Verif.Spec.Evidence
import Verif.Spec.Gradients
import Verif.Spec.KlStep
import Verif.Spec.Lanes
import Verif.Spec.Laws
import Verif.Spec.Lexical
import Verif.Spec.Measurable
import Verif.Spec.Nests
import Verif.Spec.NviTrain
import Verif.Spec.Paper
import Verif.Spec.Parts
import Verif.Spec.Population
import Verif.Spec.Program
import Verif.Spec.Repeated
import Verif.Spec.Tabulate
import Verif.Spec.TensorMetrics
import Verif.Spec.Trace
import Verif.Spec.Typing
import Verif.Spec.Weighting
