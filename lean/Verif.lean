import Verif.Model.Py
import Verif.Model.Mpi
import Verif.Spec.Samples
import Verif.Lemmas.Mpi
import Verif.Lemmas.MpiProto
import Verif.Props.Mpi
import Verif.Model.ExactSampler
import Verif.Model.Proposers
import Verif.Model.MCSampler
import Verif.Model.McmcSampling
import Verif.Spec.Basis
import Verif.Lemmas.ExactSampler
import Verif.Props.ExactSampler
import Verif.Spec.Configs
import Verif.Lemmas.Proposers
import Verif.Props.Proposers
import Verif.Lemmas.MCSampler
import Verif.Props.MCSampler
import Verif.Spec.Keys
import Verif.Props.Keys
import Verif.Spec.Markov
import Verif.Props.Markov
import Verif.Lemmas.Ergodic
import Verif.Props.Ergodic
import Verif.Model.Vqs
import Verif.Spec.Wave
import Verif.Lemmas.Vqs
import Verif.Props.Vqs
import Verif.Model.BranchFree
import Verif.Model.Operator
import Verif.Spec.Operators
import Verif.Lemmas.BranchFree
import Verif.Lemmas.BranchFreeArgs
import Verif.Props.BranchFree
import Verif.Lemmas.Operator
import Verif.Props.Operator
import Verif.Model.Povm
import Verif.Spec.Povm
import Verif.Lemmas.Povm
import Verif.Lemmas.PovmSic
import Verif.Props.Povm
import Verif.Model.PovmOperator
import Verif.Lemmas.PovmOperator
import Verif.Lemmas.PovmCompile
import Verif.Lemmas.PovmRegistry
import Verif.Props.PovmOperator
import Verif.Model.Stats
import Verif.Lemmas.Stats
import Verif.Props.Stats
import Verif.Model.Measure
import Verif.Props.Measure
import Verif.Props.PovmObs
import Verif.Spec.Tdvp
import Verif.Model.Tdvp
import Verif.Lemmas.Tdvp
import Verif.Props.Tdvp
import Verif.Spec.MinSR
import Verif.Model.MinSR
import Verif.Lemmas.MinSR
import Verif.Props.MinSR
import Verif.Model.Stepper
import Verif.Spec.Stepper
import Verif.Lemmas.Stepper
import Verif.Props.Stepper
import Verif.Model.GroundState
import Verif.Spec.GroundState
import Verif.Props.GroundState
import Verif.Model.H5
import Verif.Model.OutputManager
import Verif.Spec.OutputManager
import Verif.Lemmas.OutputManager
import Verif.Lemmas.OutputHistory
import Verif.Lemmas.OutputRead
import Verif.Props.OutputManager
import Verif.Model.Symmetries
import Verif.Spec.Symmetries
import Verif.Lemmas.Symmetries
import Verif.Props.Symmetries
import Verif.Model.SymNet
import Verif.Spec.SymNet
import Verif.Lemmas.SymNet
import Verif.Props.SymNet
import Verif.Model.Rbm
import Verif.Props.Rbm
import Verif.Model.Cnn
import Verif.Spec.Cnn
import Verif.Lemmas.Cnn
import Verif.Props.Cnn
import Verif.Model.Rnn
import Verif.Spec.Rnn
import Verif.Lemmas.Rnn
import Verif.Lemmas.RnnSym
import Verif.Props.Rnn
import Verif.Model.Pipeline
import Verif.Spec.Variational
import Verif.Lemmas.Variational
import Verif.Lemmas.Pipeline
import Verif.Lemmas.TdvpFlow
import Verif.Props.Variational
import Verif.Model.MeanGrad
import Verif.Lemmas.MeanGrad
import Verif.Props.MeanGrad
import Verif.Model.NetBuild
import Verif.Props.NetBuild
import Verif.Props.CnnFormula
import Verif.Model.Ffn
import Verif.Props.Ffn
import Verif.Props.Activation
import Verif.Lemmas.Converge
import Verif.Props.Converge
import Verif.Model.SamplerCache
import Verif.Props.SamplerCache
import Verif.Model.Initializers
import Verif.Props.Initializers
import Verif.Props.PlainNet
import Verif.Spec.Projection
import Verif.Lemmas.TdvpOptimal
import Verif.Props.TdvpOptimal
import Verif.Spec.Holo
import Verif.Lemmas.HoloTdvp
import Verif.Props.HoloTdvp
import Verif.Model.RnnCells
import Verif.Spec.RnnCells
import Verif.Spec.RnnGates
import Verif.Lemmas.RnnCells
import Verif.Props.RnnCells
import Verif.Model.DirectSampling
import Verif.Spec.Statistics
import Verif.Lemmas.DirectSampling
import Verif.Lemmas.McmcSampling
import Verif.Props.DirectSampling
import Verif.Props.McmcSampling
import Verif.Spec.Draws
import Verif.Props.McmcDraws
import Verif.Spec.Lindblad
import Verif.Lemmas.PovmMany
import Verif.Model.PovmStandard
import Verif.Props.PovmMany
import Verif.Props.Gauge
import Verif.Spec.Ode
import Verif.Model.Trajectory
import Verif.Lemmas.Convergence
import Verif.Props.Convergence
import Verif.Spec.Fidelity
import Verif.Lemmas.Fidelity
import Verif.Props.Accuracy
import Verif.Spec.Spectrum
import Verif.Props.Spectrum
import Verif.Model.Script
import Verif.Lemmas.OutputCrash
import Verif.Spec.Resume
import Verif.Props.Resume
import Verif.Model.MeasureAll
import Verif.Spec.MeasureAll
import Verif.Lemmas.MeasureAll
import Verif.Props.MeasureAll
import Verif.Spec.MasterTdvp
import Verif.Props.MasterTdvp
import Verif.Model.Spmd
import Verif.Model.SpmdCode
import Verif.Spec.Spmd
import Verif.Lemmas.Spmd
import Verif.Lemmas.SpmdCode
import Verif.Lemmas.SpmdTdvp
import Verif.Lemmas.SpmdCall
import Verif.Lemmas.SpmdMore
import Verif.Props.Spmd
import Verif.Spec.Layout
import Verif.Lemmas.Layout
import Verif.Props.Layout
import Verif.Spec.NearBorn
import Verif.Lemmas.NearBorn
import Verif.Props.SampledTdvp
import Verif.Model.SpmdRun
import Verif.Spec.SpmdRun
import Verif.Lemmas.SpmdRun
import Verif.Props.SpmdRun
import Verif.Props.SpmdMeasured
import Verif.Props.Exactly
import Verif.Props.DirectSym
import Verif.Spec.Proposals
import Verif.Props.ProposalLaw
import Verif.Props.NetFactors
import Verif.Spec.Smooth
import Verif.Lemmas.Runs
import Verif.Props.EvolutionRuns
import Verif.Lemmas.Descent
import Verif.Props.Descent
import Verif.Props.Converges
import Verif.Model.MinsrSearch
import Verif.Lemmas.MinsrSearch
import Verif.Props.MinsrSearch
import Verif.Props.SymMeasure
import Verif.Props.EnergyDrift
import Verif.Props.InitWeights
import Verif.Props.GradMode
import Verif.Props.Metric
import Verif.Props.ProductState
import Verif.Props.Fermions
import Verif.Spec.DissipativeRuns
import Verif.Lemmas.DissipativeRuns
import Verif.Props.DissipativeRuns
import Verif.Model.SpmdMinsr
import Verif.Lemmas.SpmdMinsr
import Verif.Props.SpmdMinsr
import Verif.Model.Nodes
import Verif.Lemmas.Nodes
import Verif.Props.Nodes
import Verif.Model.FloatRange
import Verif.Lemmas.FloatRange
import Verif.Spec.FloatRange
import Verif.Props.FloatRange
import Verif.Spec.ZeroMag
import Verif.Props.ZeroMag
import Verif.Props.SectorTdvp
import Verif.Model.ParamTypes
import Verif.Props.ParamTypes
import Verif.Props.StatChain
import Verif.Props.ParamVectors
import Verif.Model.Calls
import Verif.Spec.Calls
import Verif.Lemmas.Calls
import Verif.Props.Calls
import Verif.Model.Rounding
import Verif.Spec.Rounding
import Verif.Lemmas.Rounding
import Verif.Props.Rounding
import Verif.Props.SymFermions
import Verif.Model.SearchFile
import Verif.Spec.SearchFile
import Verif.Lemmas.SearchFile
import Verif.Props.SearchFile
import Verif.Model.Evolve
import Verif.Lemmas.Evolve
import Verif.Props.Evolve
import Verif.Model.ParamDict
import Verif.Spec.ParamDict
import Verif.Lemmas.ParamDict
import Verif.Props.ParamDict
import Verif.Model.SiteIndex
import Verif.Lemmas.SiteIndex
import Verif.Props.SiteIndex
import Verif.Model.PovmSites
import Verif.Lemmas.PovmSites
import Verif.Props.PovmSites
import Verif.Model.NanSteps
import Verif.Lemmas.NanSteps
import Verif.Props.NanSteps
import Verif.Model.SymNames
import Verif.Spec.SymNames
import Verif.Props.SymNames
import Verif.Model.StepRounding
import Verif.Spec.StepRounding
import Verif.Lemmas.StepRounding
import Verif.Props.StepRounding
import Verif.Props.StepEnds
import Verif.Model.ChainRounding
import Verif.Spec.ChainRounding
import Verif.Lemmas.ChainRounding
import Verif.Props.ChainRounding
import Verif.Model.LocalRounding
import Verif.Spec.LocalRounding
import Verif.Lemmas.LocalRounding
import Verif.Props.LocalRounding
import Verif.Model.DirectRounding
import Verif.Spec.DirectRounding
import Verif.Lemmas.DirectRounding
import Verif.Props.DirectRounding
import Verif.Model.CovarRounding
import Verif.Spec.CovarRounding
import Verif.Lemmas.CovarRounding
import Verif.Props.CovarRounding
import Verif.Model.Ising
import Verif.Spec.Ising
import Verif.Lemmas.Ising
import Verif.Props.Ising
import Verif.Model.MinsrRounding
import Verif.Spec.MinsrRounding
import Verif.Lemmas.MinsrRounding
import Verif.Props.MinsrRounding
import Verif.Model.CustomOp
import Verif.Spec.CustomOp
import Verif.Lemmas.CustomOp
import Verif.Props.CustomOp
import Verif.Model.LindbladEx
import Verif.Spec.LindbladEx
import Verif.Lemmas.LindbladEx
import Verif.Props.LindbladEx
import Verif.Lemmas.MinsrUnique
import Verif.Props.MinsrUnique
import Verif.Model.Dissipate
import Verif.Spec.Dissipate
import Verif.Lemmas.Dissipate
import Verif.Props.Dissipate
import Verif.Model.MyNet
import Verif.Props.MyNet
import Verif.Model.SearchEx
import Verif.Props.IsingEnergy
import Verif.Props.SearchEx
import Verif.Model.RbmRounding
import Verif.Spec.RbmRounding
import Verif.Props.RbmRounding
import Verif.Props.RbmChain
import Verif.Model.AdaptiveRounding
import Verif.Spec.AdaptiveRounding
import Verif.Lemmas.AdaptiveRounding
import Verif.Props.AdaptiveRounding
import Verif.Props.AdaptiveEvolution
import Verif.Props.AdaptiveLoop
import Verif.Model.SymRounding
import Verif.Spec.SymRounding
import Verif.Props.SymRounding
import Verif.Props.SymRbm
import Verif.Props.SymSep
import Verif.Props.SymChain
