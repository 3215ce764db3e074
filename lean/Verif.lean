import Verif.AngleLemmas
import Verif.AnnealLaw
import Verif.AppendLemmas
import Verif.Backend
import Verif.BornLemmas
import Verif.Calls
import Verif.ChainLemmas
import Verif.Circuit
import Verif.DaggerLemmas
import Verif.DiagLemmas
import Verif.DoubleLemmas
import Verif.Examples
import Verif.Experimental
import Verif.FallbackGates
import Verif.FallbackLemmas
import Verif.FallbackOps
import Verif.FloatIeee
import Verif.FloatKernels
import Verif.FloatKit
import Verif.FloatLemmas
import Verif.FloatMeasure
import Verif.FloatPhase
import Verif.FloatPhaseLemmas
import Verif.FloatRefine
import Verif.FloatRun
import Verif.FloatShots
import Verif.Gate
import Verif.Ibmq
import Verif.NbFloat
import Verif.NbFloatCache
import Verif.NbFloatLemmas
import Verif.NbFloatRefine
import Verif.NbFloatShots
import Verif.NbFloatSource
import Verif.NbodyLemmas
import Verif.NormLemmas
import Verif.NpArray
import Verif.NpArrayLemmas
import Verif.NpCache
import Verif.NpCreg
import Verif.NpFloat
import Verif.NpFloatCache
import Verif.NpFloatPlain
import Verif.NpKernels
import Verif.NpPlain
import Verif.NpPrefix
import Verif.NpRun
import Verif.NpShared
import Verif.NpShots
import Verif.Numba
import Verif.NumbaCache
import Verif.NumbaIndex
import Verif.NumbaKernels
import Verif.NumbaLoops
import Verif.NumbaRefine
import Verif.Numpy
import Verif.NumpyRefine
import Verif.OpsNames
import Verif.Pauli
import Verif.PauliAlgFloat
import Verif.PauliAlgFloatLemmas
import Verif.PauliCircuit
import Verif.PauliCommFloatLemmas
import Verif.PauliCommute
import Verif.PauliEvolution
import Verif.PauliFloat
import Verif.PauliFloatLemmas
import Verif.PauliFormula
import Verif.PauliIndep
import Verif.PauliKron
import Verif.PauliLemmas
import Verif.PauliMatrix
import Verif.PauliMatrixLemmas
import Verif.PauliMatrixOps
import Verif.PauliMatrixRefine
import Verif.PauliObj
import Verif.PauliReduced
import Verif.PauliRepr
import Verif.PauliSimplify
import Verif.PauliTyped
import Verif.Program
import Verif.Props.Anneal
import Verif.Props.Backend
import Verif.Props.Born
import Verif.Props.BornCounts
import Verif.Props.Calls
import Verif.Props.Chain
import Verif.Props.Circuit
import Verif.Props.Compose
import Verif.Props.DaggerCache
import Verif.Props.DaggerExact
import Verif.Props.Dbms
import Verif.Props.Diagonal
import Verif.Props.Energy
import Verif.Props.EnergyFloat
import Verif.Props.Examples
import Verif.Props.Expect
import Verif.Props.Experimental
import Verif.Props.Factoring
import Verif.Props.Fallback
import Verif.Props.FloatCache
import Verif.Props.FloatPhase
import Verif.Props.Generated
import Verif.Props.Ibmq
import Verif.Props.InRange
import Verif.Props.Ising
import Verif.Props.Leftover
import Verif.Props.MoreExact
import Verif.Props.Names
import Verif.Props.NbFloat
import Verif.Props.Nbody
import Verif.Props.Negative
import Verif.Props.NpCache
import Verif.Props.NpFloat
import Verif.Props.NumPartition
import Verif.Props.Numba
import Verif.Props.NumbaCache
import Verif.Props.Numpy
import Verif.Props.OpsNames
import Verif.Props.Optm
import Verif.Props.Pauli
import Verif.Props.PauliAlgFloat
import Verif.Props.PauliChars
import Verif.Props.PauliCircuit
import Verif.Props.PauliCommFloat
import Verif.Props.PauliCommute
import Verif.Props.PauliExact
import Verif.Props.PauliFloat
import Verif.Props.PauliIdentity
import Verif.Props.PauliMatrix
import Verif.Props.PauliObj
import Verif.Props.PauliRepr
import Verif.Props.PauliTyped
import Verif.Props.Program
import Verif.Props.ProgramBorn
import Verif.Props.Qaoa
import Verif.Props.QaoaFloat
import Verif.Props.Qasm
import Verif.Props.Qgate
import Verif.Props.QgateOps
import Verif.Props.QgatePool
import Verif.Props.QiskitExact
import Verif.Props.QiskitSampler
import Verif.Props.QnToQubo
import Verif.Props.QuantumChain
import Verif.Props.QuboBuilders
import Verif.Props.Rbm
import Verif.Props.Registry
import Verif.Props.Repr
import Verif.Props.Runs
import Verif.Props.RunsExact
import Verif.Props.RunsText
import Verif.Props.Sampler
import Verif.Props.SamplerExact
import Verif.Props.Slicing
import Verif.Props.Sqa
import Verif.Props.StateVectorSampler
import Verif.Props.SymGate
import Verif.Props.SymPoly
import Verif.Props.Sympy
import Verif.Props.SympyAngle
import Verif.Props.SympyOnce
import Verif.Props.Tables
import Verif.Props.Targets
import Verif.Props.Utils
import Verif.Props.VqeResult
import Verif.Props.VqeRun
import Verif.Props.WqNames
import Verif.Props.WqOpt
import Verif.Props.WqPauli
import Verif.Props.WqQaoa
import Verif.Props.WrapPrograms
import Verif.Props.Wrapper
import Verif.Py
import Verif.PyDict
import Verif.Qaoa
import Verif.QaoaFloat
import Verif.QaoaFloatLemmas
import Verif.QaoaLemmas
import Verif.Qasm
import Verif.QasmBackend
import Verif.QasmLemmas
import Verif.QasmMeaning
import Verif.QasmParse
import Verif.Qgate
import Verif.QiskitSampler
import Verif.QuantumLemmas
import Verif.Qubo
import Verif.QuboLemmas
import Verif.Rbm
import Verif.Registry
import Verif.Repr
import Verif.ReprLemmas
import Verif.Slicing
import Verif.SlicingLemmas
import Verif.Spec.Angles
import Verif.Spec.Anneal
import Verif.Spec.Append
import Verif.Spec.Born
import Verif.Spec.Calls
import Verif.Spec.Chain
import Verif.Spec.Circuit
import Verif.Spec.Dagger
import Verif.Spec.Diagonal
import Verif.Spec.Double
import Verif.Spec.EnergyFloat
import Verif.Spec.Evolution
import Verif.Spec.Examples
import Verif.Spec.Generated
import Verif.Spec.Ibmq
import Verif.Spec.InRange
import Verif.Spec.Kept
import Verif.Spec.Matrix
import Verif.Spec.Multinomial
import Verif.Spec.Names
import Verif.Spec.Negative
import Verif.Spec.Once
import Verif.Spec.Overwritten
import Verif.Spec.Parallel
import Verif.Spec.Pauli
import Verif.Spec.PauliAlgFloat
import Verif.Spec.PauliChars
import Verif.Spec.PauliCommFloat
import Verif.Spec.PauliFloat
import Verif.Spec.PauliMatrix
import Verif.Spec.PauliRepr
import Verif.Spec.PauliSupport
import Verif.Spec.Phase
import Verif.Spec.Program
import Verif.Spec.Qaoa
import Verif.Spec.QaoaFloat
import Verif.Spec.Qasm
import Verif.Spec.Qgate
import Verif.Spec.QgateOps
import Verif.Spec.QiskitSampler
import Verif.Spec.Quantum
import Verif.Spec.Qubo
import Verif.Spec.Rbm
import Verif.Spec.Repr
import Verif.Spec.Rounding
import Verif.Spec.RoundingNumba
import Verif.Spec.Run
import Verif.Spec.RunFloat
import Verif.Spec.RunNumba
import Verif.Spec.Shots
import Verif.Spec.Slice
import Verif.Spec.SymExpr
import Verif.Spec.SymPoly
import Verif.Spec.SymValue
import Verif.Spec.Targets
import Verif.Spec.Vqe
import Verif.Spec.VqeRun
import Verif.Spec.World
import Verif.Spec.WqOpt
import Verif.Spec.Wrapper
import Verif.SqaLaw
import Verif.SymExpr
import Verif.SymGate
import Verif.SymGateLemmas
import Verif.SymPoly
import Verif.SymPolyLemmas
import Verif.Sympy
import Verif.SympyAngle
import Verif.SympyLemmas
import Verif.TargetsLemmas
import Verif.Utils
import Verif.Vqe
import Verif.VqeFloat
import Verif.VqeFloatLemmas
import Verif.VqeRun
import Verif.WorldInv
import Verif.WorldLemmas
import Verif.WqNames
import Verif.WqOpt
import Verif.WqQaoa
import Verif.Wrapper
