import Verif.Py
import Verif.Spec
import Verif.Radix
import Verif.Mat
import Verif.Gates
import Verif.Circuit
import Verif.Semantics
import Verif.Moments
import Verif.Lemmas.States
import Verif.Lemmas.Radix
import Verif.Lemmas.Layers
import Verif.Lemmas.GateMats
import Verif.Lemmas.Toffoli
import Verif.Lemmas.Flow
import Verif.Lemmas.Step
import Verif.Lemmas.Emit
import Verif.Lemmas.Emit2
import Verif.Lemmas.Exec
import Verif.Lemmas.Refine
import Verif.Lemmas.Run
import Verif.Sparse
import Verif.Lemmas.Backend
import Verif.Lemmas.Script
import Verif.Lemmas.Moments
import Verif.Lemmas.Measuring
import Verif.Lemmas.Algebra
import Verif.Lemmas.Local
import Verif.Lemmas.Norm
import Verif.Lemmas.Any
import Verif.Props.Sample
import Verif.Props.Sequential
import Verif.Lemmas.Poison
import Verif.Props.Gates
import Verif.Exact
import Verif.Props.Numeric
import Verif.Props.Probability
import Verif.Props.Hadamard
import Verif.Props.RootOrder
import Verif.Props.Codec
import Verif.Props.Labels
import Verif.Props.Construct
import Verif.Props.Pair
import Verif.Objects
import Verif.Lemmas.Objects
import Verif.Props.Sessions
import Verif.Props.Measure
import Verif.Lemmas.Layering
import Verif.Props.Layers
import Verif.Draw
import Verif.Lemmas.Draw
import Verif.Props.Draw
import Verif.Props.DrawMpl
import Verif.Qasm
import Verif.QasmSpec
import Verif.Lemmas.Qasm
import Verif.Lemmas.Qasm2
import Verif.Lemmas.Qasm3
import Verif.Props.Qasm
import Verif.QasmForms
import Verif.Props.QasmForms
import Verif.Tree
import Verif.Lemmas.Tree
import Verif.Lemmas.Tree2
import Verif.Lemmas.Tree3
import Verif.Props.Tree
import Verif.Tools
import Verif.Walk
import Verif.Lemmas.Tools
import Verif.Props.Tools
import Verif.Props.Walk
import Verif.Props.Laws
import Verif.Props.Laws2
import Verif.Lemmas.Parts
import Verif.Props.Parts
import Verif.Lemmas.Large
import Verif.Float
import Verif.Lemmas.Rounding
import Verif.Lemmas.History
import Verif.Lemmas.Picks
import Verif.Lemmas.Approx
import Verif.Props.Rounding
import Verif.Props.Precision
import Verif.Props.Large
import Verif.Props.Moments
import Verif.Props.Measuring
import Verif.Tolerance
import Verif.Lemmas.Tolerance
import Verif.Props.Tolerance
import Verif.Pages
import Verif.Props.Pages
import Verif.Amplitude
import Verif.Lemmas.Linear
import Verif.Lemmas.Product
import Verif.Props.Algorithms
import Verif.Props.Algorithms2
import Verif.Props.Grover
import Verif.Share
import Verif.Lemmas.Share
import Verif.Props.Share
import Verif.Props.Leak
import Verif.Lemmas.Outs
import Verif.Props.Registers
import Verif.TreeTests
import Verif.QasmFile
import Verif.Props.Order
import Verif.Props.Reverse
import Verif.Props.TreeTests
import Verif.Props.QasmFile
import Verif.Crash
import Verif.GateClass
import Verif.Props.Crash
import Verif.Props.GateClass
import Verif.Props.Placing
import Verif.Interrupt
import Verif.Props.Interrupt
import Verif.Threads
import Verif.Lemmas.Threads
import Verif.Props.Threads
import Verif.Debug
import Verif.Props.Debug
import Verif.Readers
import Verif.Props.Readers
import Verif.InfoWhile
import Verif.Props.InfoWhile
import Verif.StrWhile
import Verif.Props.StrWhile
import Verif.MplWhile
import Verif.Props.MplWhile
import Verif.Several
import Verif.Props.Several
import Verif.Props.Quiet
import Verif.Props.TreeStates
import Verif.Props.QasmErrors
import Verif.Props.RepoTests
import Verif.Lemmas.Reversible
import Verif.Props.Reversible
import Verif.Glob
import Verif.Runs
import Verif.Access
import Verif.BatchFail
import Verif.Batch
import Verif.Lemmas.Glob
import Verif.Props.Glob
import Verif.Props.Batch
import Verif.Props.Custom
import Verif.Props.Qubits
import Verif.Props.Testing
import Verif.Accessors
import Verif.Props.Accessors
import Verif.Lemmas.QasmFile
import Verif.Report
import Verif.Props.Report
import Verif.Props.QasmAny
import Verif.Props.Saved
import Verif.Props.AtOnce
import Verif.Props.Copying
import Verif.Props.Protocols
import Verif.Props.Access
import Verif.Props.BatchFail
import Verif.Props.Outcomes
import Verif.Props.ShowFail
