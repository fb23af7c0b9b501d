import Verif.Quantum.State
import Verif.Model.Fundamentals
import Verif.Model.Clifford
import Verif.Model.Measurement
import Verif.Spec.Parity
import Verif.Proofs.Clifford
import Verif.Proofs.Measurement
import Verif.Props.Clifford
import Verif.Props.Measurement
import Verif.PyDict
import Verif.Model.Command
import Verif.Model.Pattern
import Verif.Spec.Semantics
import Verif.Spec.Runnable
import Verif.Proofs.Runnable
import Verif.Proofs.Signals
import Verif.Props.Pattern
import Verif.Props.Standardize
import Verif.Model.SpaceMin
import Verif.Proofs.SpaceMin
import Verif.Props.SpaceMin
import Verif.Proofs.Reindex
import Verif.Props.Compose
import Verif.Model.Simplify
import Verif.Proofs.Rewrite
import Verif.Props.Simplify
import Verif.Model.PauliPushing
import Verif.Props.PauliPushing
import Verif.Spec.Register
import Verif.Model.Statevec
import Verif.Model.Simulator
import Verif.Proofs.Statevec
import Verif.Proofs.StatevecAbs
import Verif.Props.NodeIndex
import Verif.Props.Statevec
import Verif.Props.Simulator
import Verif.Spec.Linalg
import Verif.Model.Linalg
import Verif.Proofs.Linalg
import Verif.Props.Linalg
import Verif.Model.Parameter
import Verif.Props.Parameter
import Verif.Model.Channels
import Verif.Props.Channels
import Verif.Model.Noise
import Verif.Props.Noise
import Verif.Props.Selector
import Verif.Spec.PartialOrder
import Verif.Model.PartialOrder
import Verif.Props.PartialOrder
import Verif.Model.OpenGraph
import Verif.Model.Flow
import Verif.Spec.Flow
import Verif.Proofs.FlowCheck
import Verif.Proofs.FlowCheck2
import Verif.Props.FlowCheck
import Verif.Spec.OpenGraphMap
import Verif.Proofs.LocalOps
import Verif.Proofs.Determinism
import Verif.Props.XZPattern
import Verif.Props.Determinism
import Verif.Model.FlowOrder
import Verif.Props.FlowOrder
import Verif.Model.Circuit
import Verif.Spec.Circuit
import Verif.Props.Circuit
import Verif.Props.CircuitBasis
import Verif.Model.Transpile
import Verif.Proofs.Transpile
import Verif.Proofs.TranspileFlow
import Verif.Props.Transpile
import Verif.Props.Swaps
import Verif.Model.FindCflow
import Verif.Props.FindCflow
import Verif.Model.FindGpflow
import Verif.Proofs.FindGpflow
import Verif.Proofs.FindGpflowMat
import Verif.Props.FindGpflow
import Verif.Model.CircExt
import Verif.Spec.Pauli
import Verif.Props.PauliString
import Verif.Proofs.Pauli
import Verif.Proofs.Berg
import Verif.Props.Berg
import Verif.Props.Pexp
import Verif.Model.ToPauliFlow
import Verif.Props.ToPauliFlow
import Verif.Props.StdOpenGraph
import Verif.Model.ToPattern
import Verif.Props.ToPattern
import Verif.Proofs.PathPattern
import Verif.Proofs.RemoveClifford
import Verif.Props.RemoveClifford
import Verif.Spec.GraphState
import Verif.Model.GraphSim
import Verif.Proofs.GraphState
import Verif.Proofs.CliffordKet
import Verif.Proofs.GraphSim
import Verif.Props.GraphSim
import Verif.Model.RemovePauli
import Verif.Proofs.StdSem
import Verif.Proofs.RemovePauli
import Verif.Proofs.RemovePauliStep
import Verif.Proofs.RemovePauliRemove
import Verif.Proofs.RemovePauliLoop
import Verif.Proofs.RemovePauliIso
import Verif.Proofs.RemovePauliInit
import Verif.Proofs.RemovePauliEnd
import Verif.Proofs.NeverZero
import Verif.Props.RemovePauli
import Verif.Model.Fusion
import Verif.Spec.Fusion
import Verif.Props.Fusion
import Verif.Spec.Wires
import Verif.Spec.Focused
import Verif.Model.Extract
import Verif.Proofs.Extract
import Verif.Proofs.ExtractPs
import Verif.Proofs.ExtractMap
import Verif.Proofs.ExtractWire
import Verif.Proofs.ExtractFlow
import Verif.Proofs.ExtractExt
import Verif.Proofs.ExtractOk
import Verif.Proofs.Unique
import Verif.Proofs.ExtractEnd
import Verif.Props.Extract
import Verif.Model.Mc
import Verif.Props.Mc
import Verif.Model.Parallelize
import Verif.Props.Parallelize
import Verif.Model.Tensor
import Verif.Proofs.Tensor
import Verif.Model.DensityMatrix
import Verif.Proofs.DensityMatrix
import Verif.Spec.Density
import Verif.Props.DensityMatrix
import Verif.Proofs.DensityTrace
import Verif.Props.DensityMeasure
import Verif.Spec.NoisySem
import Verif.Props.DensitySim
import Verif.Props.DensityRun
import Verif.Props.DensityNoise
import Verif.Props.SimHistory
import Verif.Props.BackendsAgree
import Verif.Model.CircSim
import Verif.Proofs.CircSim
import Verif.Spec.CircRun
import Verif.Proofs.CircRun
import Verif.Proofs.CircRunDM
import Verif.Props.CircSim
import Verif.Props.CircSimDM
import Verif.Proofs.EndToEnd
import Verif.Proofs.BranchProb
import Verif.Props.EndToEnd
import Verif.Props.TotalRun
import Verif.Model.Readout
import Verif.Props.Readout
import Verif.Model.PatternFlow
import Verif.Props.PatternFlow
import Verif.Proofs.StdPatternCmds
import Verif.Props.FlowRoundTrip
import Verif.Props.DetSim
import Verif.Model.OgCompose
import Verif.Spec.OgMerge
import Verif.Proofs.OgCompose
import Verif.Props.OgCompose
import Verif.Proofs.OgComposeSem
import Verif.Props.OgComposeSem
import Verif.Props.OgComposeFlow
import Verif.Props.OgComposeEx
import Verif.Model.TensorNet
import Verif.Proofs.TensorNet
import Verif.Proofs.TensorNetStep
import Verif.Proofs.TensorNetRead
import Verif.Proofs.TensorNetRun
import Verif.Proofs.TensorNetGraph
import Verif.Props.TensorNet
import Verif.Props.TensorNetAgree
import Verif.Props.TensorNetEx
import Verif.Spec.Inner
import Verif.Proofs.TensorNetOp
import Verif.Proofs.TensorNetExp
import Verif.Props.TensorNetOps
import Verif.Spec.Qasm
import Verif.Model.Qasm
import Verif.Spec.QasmRun
import Verif.Proofs.Qasm
import Verif.Proofs.QasmPattern
import Verif.Props.Qasm
import Verif.Proofs.QasmCircuit
import Verif.Props.QasmCircuit
import Verif.Model.PatternMap
import Verif.Model.ParamStd
import Verif.Proofs.PatternMap
import Verif.Props.PatternMap
import Verif.Props.PatternParam
import Verif.Props.ParamStd
import Verif.Model.RandomObjects
import Verif.Props.RandomCircuit
import Verif.Props.RandomMatrices
import Verif.Model.ParamCircuit
import Verif.Proofs.ParamCircuit
import Verif.Props.ParamCircuit
import Verif.Model.OgMap
import Verif.Proofs.OgMap
import Verif.Props.OgMap
import Verif.Model.PatternMin
import Verif.Props.PatternMin
import Verif.Model.PatternViews
import Verif.Props.PatternViews
import Verif.Model.PrettyPrint
import Verif.Spec.PrintedNumber
import Verif.Props.PrettyPrint
import Verif.Model.PrintState
import Verif.Spec.PrintedState
import Verif.Props.PrintState
import Verif.Model.PrintPattern
import Verif.Spec.PrintedPattern
import Verif.Props.PrintPattern
import Verif.Model.CliffordMatrix
import Verif.Props.CliffordMatrix
import Verif.Model.FlowViews
import Verif.Props.FlowViews
import Verif.Model.Eigenstate
import Verif.Spec.PauliText
import Verif.Props.Eigenstate
import Verif.Model.PatternRepr
import Verif.Spec.PythonText
import Verif.Props.PatternRepr
import Verif.Model.CircuitRepr
import Verif.Spec.CircuitText
import Verif.Props.CircuitRepr
import Verif.Model.Workflow
import Verif.Spec.Workflow
import Verif.Proofs.Workflow
import Verif.Props.Workflow
import Verif.Props.WorkflowCircuit
import Verif.Props.WorkflowDensity
import Verif.Model.PrintDensity
import Verif.Spec.PrintedMatrix
import Verif.Props.PrintDensity
import Verif.Spec.PrintedText
import Verif.Props.PrintText
import Verif.Model.NoiseObjects
import Verif.Props.NoiseObjects
import Verif.Model.AngleText
import Verif.Spec.AngleText
import Verif.Props.AngleText
