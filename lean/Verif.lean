import Verif.Props.AutoReg
import Verif.Props.Bose
import Verif.Props.BoseBuf
import Verif.Props.Callbacks
import Verif.Props.CharTable
import Verif.Props.CommonLattices
import Verif.Props.Config
import Verif.Props.Conjugacy
import Verif.Props.Constrained
import Verif.Props.Conv
import Verif.Props.CustomRule
import Verif.Props.Dataclass
import Verif.Props.DataclassInit
import Verif.Props.DenseGeneral
import Verif.Props.Deprecation
import Verif.Props.Descent
import Verif.Props.Direct
import Verif.Props.Driver
import Verif.Props.DriverLog
import Verif.Props.Eigenstate
import Verif.Props.EquivLinear
import Verif.Props.Ergodic
import Verif.Props.ErrorBars
import Verif.Props.Estimate
import Verif.Props.ExactDiag
import Verif.Props.ExactDynamics
import Verif.Props.Expect
import Verif.Props.ExpectStats
import Verif.Props.FftSetup
import Verif.Props.Flip
import Verif.Props.FloatBins
import Verif.Props.Gradient
import Verif.Props.Graph
import Verif.Props.GraphAlgo
import Verif.Props.GraphConn
import Verif.Props.GraphOperator
import Verif.Props.GridGroup
import Verif.Props.GridSpace
import Verif.Props.GridTable
import Verif.Props.Group
import Verif.Props.GroupClasses
import Verif.Props.GroupNames
import Verif.Props.HamSymmetry
import Verif.Props.HamiltonianRule
import Verif.Props.HashArray
import Verif.Props.Hilbert
import Verif.Props.HilbertAlgebra
import Verif.Props.HilbertEq
import Verif.Props.History
import Verif.Props.HistoryAttr
import Verif.Props.HistoryTree
import Verif.Props.IrrepComplete
import Verif.Props.IrrepMatrices
import Verif.Props.Ising
import Verif.Props.JitRule
import Verif.Props.JsonDefault
import Verif.Props.JsonLog
import Verif.Props.Keys
import Verif.Props.Lattice
import Verif.Props.LatticeArgs
import Verif.Props.LatticeConn
import Verif.Props.LatticeGraph
import Verif.Props.LayerCtor
import Verif.Props.Lazy
import Verif.Props.LazyArith
import Verif.Props.LegacyCustom
import Verif.Props.LegacyDensity
import Verif.Props.LegacyDriver
import Verif.Props.LegacyGrad
import Verif.Props.LegacyJastrow
import Verif.Props.LegacyJax
import Verif.Props.LegacyJaxMps
import Verif.Props.LegacyJaxSR
import Verif.Props.LegacyJaxSampler
import Verif.Props.LegacyLog
import Verif.Props.LegacyOpt
import Verif.Props.LegacyPt
import Verif.Props.LegacyRbm
import Verif.Props.LegacySR
import Verif.Props.LegacySampler
import Verif.Props.LegacyTorch
import Verif.Props.LegacyTree
import Verif.Props.Liouvillian
import Verif.Props.LoadVars
import Verif.Props.LocalOpConn
import Verif.Props.LocalOpHeap
import Verif.Props.LocalOperator
import Verif.Props.LocalValues
import Verif.Props.LogPdf
import Verif.Props.MPS
import Verif.Props.Machines
import Verif.Props.Masked
import Verif.Props.MaskedValues
import Verif.Props.Metropolis
import Verif.Props.MixedState
import Verif.Props.ModuleTools
import Verif.Props.MpiPrim
import Verif.Props.Numba4jax
import Verif.Props.Optax
import Verif.Props.Padded
import Verif.Props.ParallelTempering
import Verif.Props.PauliStrings
import Verif.Props.PointGroup
import Verif.Props.PointGroupsAxial
import Verif.Props.PointGroupsCubic
import Verif.Props.PointGroupsDeviations
import Verif.Props.PointGroupsOps
import Verif.Props.PointGroupsPlanar
import Verif.Props.PointGroupsScrew
import Verif.Props.Ptrace
import Verif.Props.PyTree
import Verif.Props.QGT
import Verif.Props.QGTMpi
import Verif.Props.QGTTree
import Verif.Props.RandomBatch
import Verif.Props.RandomLaw
import Verif.Props.RandomState
import Verif.Props.Rules
import Verif.Props.SR
import Verif.Props.SRInvariance
import Verif.Props.SRStep
import Verif.Props.SamplerCounts
import Verif.Props.SamplerCtor
import Verif.Props.SamplerLoop
import Verif.Props.Semigroup
import Verif.Props.SpaceGroup
import Verif.Props.SpaceIrreps
import Verif.Props.SpaceIrrepsDev
import Verif.Props.Sparse
import Verif.Props.SparseOutside
import Verif.Props.SpecialLazy
import Verif.Props.SpecialMatrix
import Verif.Props.SpinBoson
import Verif.Props.StateCtor
import Verif.Props.StateLog
import Verif.Props.Stats
import Verif.Props.StatsRepr
import Verif.Props.SteadyCost
import Verif.Props.SteadyDescent
import Verif.Props.SteadyIter
import Verif.Props.SteadyState
import Verif.Props.SymmFFT
import Verif.Props.SymmLinear
import Verif.Props.Targets
import Verif.Props.TensorHilbert
import Verif.Props.ToArray
import Verif.Props.Tools
import Verif.Props.TreeOps
import Verif.Props.VMC
import Verif.Props.VState
