import Verif.Props.Bits
import Verif.Props.Wavefunction
import Verif.Props.Lift
import Verif.Props.Builtin
import Verif.Props.Gates
import Verif.Props.Circuit
import Verif.Props.BuiltinMeaning
import Verif.Props.Layouts
import Verif.Props.Generators
import Verif.Props.Decompositions
import Verif.Props.Serde
import Verif.Props.Distribution
import Verif.Props.Measurement
import Verif.Props.Sampling
import Verif.Props.Discretize
import Verif.Props.QubitOp
import Verif.Props.SymOp
import Verif.Props.Ising
import Verif.Props.JordanWigner
import Verif.Props.NormalOrder
import Verif.Props.Hermitian
import Verif.Props.ReverseJW
import Verif.Props.BravyiKitaev
import Verif.Props.Reorder
import Verif.Props.Grouping
import Verif.Props.ContextSelection
import Verif.Props.Estimation
import Verif.Props.Averaging
import Verif.Props.Evolution
import Verif.Props.EvolutionDerivatives
import Verif.Props.Recorder
import Verif.Props.Tracker
import Verif.Props.Backend
import Verif.Props.Sorting
import Verif.Props.Ansatz
import Verif.Props.Sparse
import Verif.Props.PauliDecomp
import Verif.Props.PolyTensor
import Verif.Props.TensorConversion
import Verif.Props.Diagonal
import Verif.Props.TensorHeap
import Verif.Props.ArraySerde
import Verif.Props.OpSerde
import Verif.Props.Graph
import Verif.Props.Gradient
import Verif.Props.Optimizer
import Verif.Props.CostFunction
import Verif.Props.Expectation
import Verif.Props.Symbolic
import Verif.Props.Tapering
import Verif.Props.Hubbard
import Verif.Props.JWInteraction
import Verif.Props.OpString
import Verif.Props.Commutator
import Verif.Props.NumberConserving
import Verif.Props.Norms
import Verif.Props.Equality
import Verif.Props.ResultSerde
import Verif.Props.UnitaryCC
import Verif.Props.UnitaryChecks
import Verif.Props.Rdm
import Verif.Props.Molecule
import Verif.Props.ActiveSpace
import Verif.Props.TensorTools
import Verif.Props.Chemist
import Verif.Props.SectorMatrix
import Verif.Props.BKExcitation
import Verif.Props.BKInteraction
import Verif.Props.GroundState
import Verif.Props.GroundRdm
import Verif.Props.Spectrum
import Verif.Props.Inactive
import Verif.Props.OpFiles
import Verif.Props.Files
import Verif.Props.MolStore
import Verif.Props.MolName
import Verif.Props.Attr
import Verif.Props.Trotter
import Verif.Props.Statistics
import Verif.Props.Pipeline
import Verif.Props.Precision
import Verif.Props.Budget
import Verif.Props.Born
import Verif.Props.OpHeap
import Verif.Props.RandomGraph
import Verif.Props.CreateObject
import Verif.Props.Steps
import Verif.Props.OperatorSteps
import Verif.Props.RandomOps
import Verif.Props.CircuitSteps
import Verif.Props.Compat
import Verif.Props.Contract
import Verif.Props.Nested
import Verif.Props.WfHeap
import Verif.Props.Workflow
import Verif.Props.Variational
import Verif.Props.OptimizeStep
import Verif.Props.PauliCircuits
import Verif.Props.AnalysisStep
import Verif.Props.GroupingOrder
import Verif.Props.ModeOrder
import Verif.Props.OperatorEdit
import Verif.Props.GraphSteps
import Verif.Props.BuildSteps
import Verif.Props.GeneralHubbard
import Verif.Props.Geometry
import Verif.Props.ExampleFunctions
import Verif.Props.OpLaws
import Verif.Props.OutcomeDistribution
import Verif.Props.Representing
import Verif.Props.DistanceMinimum
import Verif.Props.MolHeap
import Verif.Props.LikelihoodSampling
import Verif.Props.LowestState
import Verif.Props.SameUnitary
import Verif.Props.Confidence
import Verif.Props.CustomGates
import Verif.Props.EnergyGradient
import Verif.Props.GradientBound
import Verif.Props.Version
import Verif.Props.MeasuredGradient
import Verif.Props.WavefunctionBind
import Verif.Props.GradientConfidence
import Verif.Props.SeededGradient
import Verif.Props.AngleBound
import Verif.Props.GradientAngles
import Verif.Props.Renumber
import Verif.Props.Register
import Verif.Props.Conserved
import Verif.Props.ResultEq
import Verif.Props.BasisMoves
import Verif.Props.Reversal
import Verif.Props.Totals
