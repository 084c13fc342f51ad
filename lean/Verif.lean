import Verif.Model.XR
import Verif.Model.Checkpoint
import Verif.Spec.Loop
import Verif.Lemmas.Loop
import Verif.Lemmas.LoopCkpt
import Verif.Props.Loop
import Verif.Spec.Running
import Verif.Lemmas.Running
import Verif.Lemmas.Best
import Verif.Props.Best
import Verif.Model.ThreadedWriter
import Verif.Lemmas.ThreadedWriter
import Verif.Props.ThreadedWriter
import Verif.Model.IO
import Verif.Spec.IO
import Verif.Lemmas.IO
import Verif.Props.IO
import Verif.Model.Metropolis
import Verif.Spec.Metropolis
import Verif.Lemmas.Metropolis
import Verif.Props.Metropolis
import Verif.Lemmas.Invariance
import Verif.Props.Invariance
import Verif.Model.XRSum
import Verif.Model.Statistics
import Verif.Spec.Statistics
import Verif.Lemmas.Fft
import Verif.Lemmas.Statistics
import Verif.Props.Statistics
import Verif.Model.Energy
import Verif.Spec.Energy
import Verif.Lemmas.Energy
import Verif.Props.Energy
import Verif.Props.Gradient
import Verif.Model.Slog
import Verif.Spec.Slog
import Verif.Lemmas.Slog
import Verif.Props.Slog
import Verif.Model.Physics
import Verif.Spec.Physics
import Verif.Lemmas.Physics
import Verif.Props.Potential
import Verif.Lemmas.LocalEnergy
import Verif.Props.LocalEnergy
import Verif.Model.Examples
import Verif.Lemmas.Cone
import Verif.Props.Hydrogen
import Verif.Model.Spin
import Verif.Spec.Spin
import Verif.Spec.SpinOperators
import Verif.Props.Spin
import Verif.Lemmas.Oscillator
import Verif.Props.Oscillator
import Verif.Model.Antisymmetry
import Verif.Lemmas.Antisymmetry
import Verif.Props.Antisymmetry
import Verif.Model.Split
import Verif.Props.Split
import Verif.Model.SignSymmetry
import Verif.Props.SignSymmetry
import Verif.Model.Network
import Verif.Props.Equivariance
import Verif.Props.FermiNet
import Verif.Model.Antiequivariance
import Verif.Props.Antiequivariance
import Verif.Model.Jastrow
import Verif.Props.Jastrow
import Verif.Model.Nets
import Verif.Props.Nets
import Verif.Model.Updates
import Verif.Spec.Updates
import Verif.Lemmas.CG
import Verif.Lemmas.CGDescent
import Verif.Lemmas.Fisher
import Verif.Props.NaturalGradient
import Verif.Props.Spring
import Verif.Props.Updates
import Verif.Props.Optimizers
import Verif.Model.Config
import Verif.Model.Runner
import Verif.Spec.Config
import Verif.Spec.Runner
import Verif.Props.Config
import Verif.Props.Runner
import Verif.Model.ResNet
import Verif.Props.ResNet
import Verif.Spec.Variational
import Verif.Lemmas.IntegrateByParts
import Verif.Props.Unbiased
import Verif.Spec.Quantum
import Verif.Lemmas.Quantum
import Verif.Props.Ibp
import Verif.Model.Setup
import Verif.Spec.Keys
import Verif.Props.Keys
import Verif.Props.InitialPositions
import Verif.Lemmas.Race
import Verif.Props.InitialSelection
import Verif.Props.Setup
import Verif.Model.EvalKeys
import Verif.Props.EvalKeys
import Verif.Model.Weights
import Verif.Model.Construct
import Verif.Spec.Construct
import Verif.Props.Construct
import Verif.Props.ConstructEval
import Verif.Props.ConstructOptions
import Verif.Props.Translation
import Verif.Spec.ConstructValue
import Verif.Props.ConstructValue
import Verif.Props.ConstructUnique
import Verif.Props.FloatNet
import Verif.Props.Dual
import Verif.Props.Smooth
import Verif.Props.EvalStats
import Verif.Spec.Decay
import Verif.Spec.ParamPath
import Verif.Lemmas.ParamPath
import Verif.Lemmas.Tame
import Verif.Lemmas.Coulomb
import Verif.Lemmas.Bounds
import Verif.Props.DecayLayers
import Verif.Props.DecayEnvelopes
import Verif.Props.DecayDets
import Verif.Props.Decay
import Verif.Props.Normalisable
import Verif.Props.Converge
import Verif.Props.Evaluation
import Verif.Props.EvalVariance
import Verif.Lemmas.Node
import Verif.Props.NodeVariance
import Verif.Props.ParamGradient
import Verif.Props.RandomGradient
import Verif.Props.Adaptive
import Verif.Props.Devices
import Verif.Props.Records
import Verif.Lemmas.NodeGradient
import Verif.Props.ClippedGradient
import Verif.Props.NodeGradient
import Verif.Props.GenericGradient
import Verif.Props.Resume
import Verif.Model.Curvature
import Verif.Spec.Curvature
import Verif.Props.Curvature
import Verif.Props.CGLimit
import Verif.Props.Sampling
import Verif.Props.Descent
import Verif.Props.SmoothJoint
import Verif.Props.JointEnergy
import Verif.Model.LogTree
import Verif.Props.LogTree
import Verif.Props.Interruptions
import Verif.Props.StochasticApproximation
import Verif.Model.Arrays
import Verif.Model.Batched
import Verif.Lemmas.Arrays
import Verif.Lemmas.Batched
import Verif.Props.Batched
import Verif.Lemmas.ArrayViews
import Verif.Lemmas.ArrayViewsSplit
import Verif.Lemmas.ArrayViewsBackflow
import Verif.Lemmas.ArrayViewsOrbitals
import Verif.Lemmas.ArrayViewsDets
import Verif.Lemmas.ArrayViewsNet
import Verif.Props.BatchedRefines
import Verif.Model.BatchedNets
import Verif.Lemmas.BatchedNets
import Verif.Lemmas.ArrayViewsEmbedded
import Verif.Lemmas.ArrayViewsExtended
import Verif.Props.BatchedNets
import Verif.Model.BatchedAntieq
import Verif.Lemmas.BatchedAntieq
import Verif.Lemmas.ArrayViewsAntieq
import Verif.Lemmas.ArrayViewsAntieqNet
import Verif.Props.BatchedAntieq
import Verif.Model.BatchedExplicit
import Verif.Lemmas.BatchedExplicit
import Verif.Lemmas.ArrayViewsJastrow
import Verif.Lemmas.ArrayViewsFactorized
import Verif.Lemmas.ArrayViewsGeneric
import Verif.Lemmas.ArrayViewsExplicit
import Verif.Props.BatchedExplicit
import Verif.Model.BatchedPotential
import Verif.Model.BatchedEnergy
import Verif.Lemmas.BatchedPotential
import Verif.Props.BatchedPotential
import Verif.Props.BatchedModel
import Verif.Props.BatchedEnergy
import Verif.Model.BatchedSampling
import Verif.Props.BatchedSampling
import Verif.Model.BatchedEpoch
import Verif.Model.BatchedTypes
import Verif.Model.BatchedDevices
import Verif.Props.BatchedEpoch
import Verif.Props.BatchedTypes
import Verif.Props.BatchedDevices
import Verif.Model.BatchedTraining
import Verif.Model.BatchedSpin
import Verif.Model.BatchedGeneric
import Verif.Model.BatchedGenericDevices
import Verif.Model.BatchedAdaptive
import Verif.Model.BatchedTrainingDevices
import Verif.Model.BatchedEvaluationDevices
import Verif.Model.BatchedBurnedTraining
import Verif.Props.BatchedTraining
import Verif.Props.BatchedSpin
import Verif.Props.SpinExpectation
import Verif.Props.SpinOperators
import Verif.Props.BatchedGeneric
import Verif.Props.BatchedGenericDevices
import Verif.Props.BatchedAdaptive
import Verif.Props.BatchedTrainingDevices
import Verif.Props.BatchedEvaluationDevices
import Verif.Props.BatchedBurnedTraining
