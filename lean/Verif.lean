import Verif.Lemmas.Again
import Verif.Lemmas.Apart
import Verif.Lemmas.ApartOperator
import Verif.Lemmas.AstArith
import Verif.Lemmas.AstCoupled
import Verif.Lemmas.CircuitArbor
import Verif.Lemmas.CircuitBias
import Verif.Lemmas.CircuitCap
import Verif.Lemmas.CircuitForest
import Verif.Lemmas.CircuitInv
import Verif.Lemmas.CircuitLoops
import Verif.Lemmas.CircuitResponse
import Verif.Lemmas.CircuitSettled
import Verif.Lemmas.Collection
import Verif.Lemmas.Construct
import Verif.Lemmas.DiGraph
import Verif.Lemmas.Expand
import Verif.Lemmas.ExpressionFlow
import Verif.Lemmas.Expressions
import Verif.Lemmas.Gauge
import Verif.Lemmas.Good
import Verif.Lemmas.Graph
import Verif.Lemmas.Grid
import Verif.Lemmas.Interlace
import Verif.Lemmas.LevelCount
import Verif.Lemmas.Loaded
import Verif.Lemmas.LoadedUse
import Verif.Lemmas.Loops
import Verif.Lemmas.MGraph
import Verif.Lemmas.MutualUse
import Verif.Lemmas.Netlist
import Verif.Lemmas.NetlistLoaded
import Verif.Lemmas.NetlistMutual
import Verif.Lemmas.NetlistOp
import Verif.Lemmas.Numerical
import Verif.Lemmas.OperatorMap
import Verif.Lemmas.Operators
import Verif.Lemmas.Parallel
import Verif.Lemmas.Paths
import Verif.Lemmas.Pinv
import Verif.Lemmas.Redraw
import Verif.Lemmas.Response
import Verif.Lemmas.Sweep
import Verif.Lemmas.SweepArray
import Verif.Lemmas.SweepDict
import Verif.Lemmas.SweepMulti
import Verif.Lemmas.SweepResult
import Verif.Lemmas.SweepUse
import Verif.Lemmas.SymbolicCap
import Verif.Lemmas.SymbolicInd
import Verif.Lemmas.Symbols
import Verif.Lemmas.TempData
import Verif.Lemmas.Units
import Verif.Lemmas.Update
import Verif.Lemmas.Weyl
import Verif.Model.Assembly
import Verif.Model.AstEngine
import Verif.Model.Circuit
import Verif.Model.Classical
import Verif.Model.Collection
import Verif.Model.CollectionBulk
import Verif.Model.Construct
import Verif.Model.Derived
import Verif.Model.DiGraph
import Verif.Model.Energies
import Verif.Model.Engine
import Verif.Model.Expressions
import Verif.Model.Hamiltonian
import Verif.Model.Latex
import Verif.Model.Loaded
import Verif.Model.Lookup
import Verif.Model.Loops
import Verif.Model.Machine
import Verif.Model.MultiGraph
import Verif.Model.Numerical
import Verif.Model.NumericalSet
import Verif.Model.Operators
import Verif.Model.Param
import Verif.Model.Potential
import Verif.Model.Quantum
import Verif.Model.ResUnits
import Verif.Model.Resonator
import Verif.Model.Sweep
import Verif.Model.SweepArray
import Verif.Model.Symbolic
import Verif.Model.TempData
import Verif.Model.Units
import Verif.Model.Util
import Verif.Prelude.Dict
import Verif.Prelude.NDArray
import Verif.Prelude.Py
import Verif.Props.Apart
import Verif.Props.ApartCircuit
import Verif.Props.Assembly
import Verif.Props.ChargeBias
import Verif.Props.Circuit
import Verif.Props.CircuitBias
import Verif.Props.CircuitLoops
import Verif.Props.CircuitResponse
import Verif.Props.Classical
import Verif.Props.ClassicalMutual
import Verif.Props.Collection
import Verif.Props.Collection2
import Verif.Props.CollectionBulk
import Verif.Props.Configure
import Verif.Props.Construct
import Verif.Props.ConstructAgain
import Verif.Props.ConstructClean
import Verif.Props.CooperPair
import Verif.Props.CooperPairSym
import Verif.Props.Currents
import Verif.Props.CurrentsMutual
import Verif.Props.Derived
import Verif.Props.Elements
import Verif.Props.Energies
import Verif.Props.Expansion
import Verif.Props.ExpressionExamples
import Verif.Props.Expressions
import Verif.Props.HalfQuantum
import Verif.Props.Hamiltonian
import Verif.Props.Latex
import Verif.Props.Loaded
import Verif.Props.LoadedSweep
import Verif.Props.LoadedSweepExamples
import Verif.Props.LoadedUse
import Verif.Props.LoadedUseExamples
import Verif.Props.Lookup
import Verif.Props.Loops
import Verif.Props.Machine
import Verif.Props.MachineExamples
import Verif.Props.Mixture
import Verif.Props.Moved
import Verif.Props.MutualUse
import Verif.Props.MutualUseExamples
import Verif.Props.NetlistLoaded
import Verif.Props.NetlistMutual
import Verif.Props.NetlistMutualExamples
import Verif.Props.NetlistOp
import Verif.Props.NoCurrent
import Verif.Props.Numerical
import Verif.Props.NumericalExamples
import Verif.Props.NumericalSet
import Verif.Props.Observables
import Verif.Props.Operators
import Verif.Props.OperatorsGrid
import Verif.Props.Parallel
import Verif.Props.ParallelCircuit
import Verif.Props.Param
import Verif.Props.Pauli
import Verif.Props.PhysicalUnits
import Verif.Props.Potential
import Verif.Props.Quantum
import Verif.Props.Redraw
import Verif.Props.RedrawCircuit
import Verif.Props.ResUnits
import Verif.Props.Resonator
import Verif.Props.Response
import Verif.Props.Reversal
import Verif.Props.ReversalFlux
import Verif.Props.Selection
import Verif.Props.Sweep
import Verif.Props.SweepArray
import Verif.Props.SweepDict
import Verif.Props.SweepPoints
import Verif.Props.SweepRequests
import Verif.Props.SweepResponse
import Verif.Props.SweepResult
import Verif.Props.SweepState
import Verif.Props.SweepUse
import Verif.Props.SweepUseExamples
import Verif.Props.SymbolicBias
import Verif.Props.SymbolicCap
import Verif.Props.SymbolicCos
import Verif.Props.SymbolicInd
import Verif.Props.SymbolicModes
import Verif.Props.Symbols
import Verif.Props.TempData
import Verif.Props.Truncation
import Verif.Props.Units
import Verif.Props.UnitsBare
import Verif.Props.Util
import Verif.Props.Util2
import Verif.Props.Util3
import Verif.Spec.Apart
import Verif.Spec.Circuit
import Verif.Spec.CircuitHistory
import Verif.Spec.CircuitResponse
import Verif.Spec.Classical
import Verif.Spec.ClassicalMutual
import Verif.Spec.Collection
import Verif.Spec.Construct
import Verif.Spec.CooperPair
import Verif.Spec.Currents
import Verif.Spec.CurrentsMutual
import Verif.Spec.Derived
import Verif.Spec.Energies
import Verif.Spec.Expressions
import Verif.Spec.Levels
import Verif.Spec.Loaded
import Verif.Spec.LoadedSweep
import Verif.Spec.LoadedUse
import Verif.Spec.Lookup
import Verif.Spec.Loops
import Verif.Spec.Machine
import Verif.Spec.Mixture
import Verif.Spec.Moved
import Verif.Spec.MutualUse
import Verif.Spec.Netlist
import Verif.Spec.NetlistLoaded
import Verif.Spec.NetlistMutual
import Verif.Spec.NetlistOp
import Verif.Spec.Numerical
import Verif.Spec.NumericalSet
import Verif.Spec.Parallel
import Verif.Spec.Param
import Verif.Spec.Pauli
import Verif.Spec.Potential
import Verif.Spec.Redraw
import Verif.Spec.ResUnits
import Verif.Spec.Response
import Verif.Spec.Reversal
import Verif.Spec.Sweep
import Verif.Spec.SweepUse
import Verif.Spec.Symbolic
import Verif.Spec.TempData
import Verif.Spec.Units
import Verif.Tests.Circuit
