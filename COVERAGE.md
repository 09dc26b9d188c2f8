# Functions of the repository and the modules that model them

Generated by `tools/coverage.py` from the citations in the comments of the Lean files. 146 of 205 functions are cited; for each of the others the reason is given.

## experimental.py

| lines | function | cited in |
|---|---|---|
| 11-63 | `arguments` | `Batch`, `BatchFail`, `Glob` |
| 65-91 | `main` | `Batch`, `BatchFail`, `Crash`, `Glob`, `Runs`, `Tools` |
| 93-122 | `routine` | `Batch`, `BatchFail`, `Glob`, `Tools` |

## noxfile.py

| lines | function | cited in |
|---|---|---|
| 40-45 | `tests` | — configuration of the test runner |
| 49-56 | `lint` | — configuration of the test runner |
| 60-69 | `formatting` | — configuration of the test runner |

## scripts/license-headers.py

| lines | function | cited in |
|---|---|---|
| 84-96 | `find_files_to_fix` | `Access`, `Walk` |
| 99-122 | `does_file_need_fix` | `Access`, `Tools`, `Walk` |
| 125-136 | `add_header_to_file` | `Access`, `Report`, `Tools`, `Walk` |
| 139-159 | `main` | `Access`, `Crash`, `Report`, `Runs`, `Tools`, `Walk` |

## src/qudiet/circuit_library/__init__.py

| lines | function | cited in |
|---|---|---|
| 40-51 | `ArbitaryGate.__init__` | `Gates`, `Moments` |
| 54-59 | `ArbitaryGate.is_controlled` | `Accessors` |
| 62-67 | `ArbitaryGate.is_single_qudit` | `Accessors` |
| 70-94 | `ArbitaryGate.unitary` | `Gates`, `Py` |
| 97-102 | `ArbitaryGate.acting_on` | — one line each, all in `GateObj.actingOn` (`Gates`) |

## src/qudiet/circuit_library/standard_gates/cx.py

| lines | function | cited in |
|---|---|---|
| 40-60 | `CXGate.__init__` | `GateClass`, `Gates` |
| 63-64 | `CXGate.dims` | — nothing reads it |
| 67-73 | `CXGate.is_controlled` | `Accessors` |
| 76-82 | `CXGate.is_single_qudit` | `Accessors` |
| 85-139 | `CXGate.unitary` | `Gates`, `Sparse` |
| 142-159 | `CXGate.update` | `Gates` |
| 162-168 | `CXGate.acting_on` | — one line each, all in `GateObj.actingOn` (`Gates`) |

## src/qudiet/circuit_library/standard_gates/h.py

| lines | function | cited in |
|---|---|---|
| 39-47 | `HGate.__init__` | `Gates` |
| 50-55 | `HGate.is_controlled` | `Accessors` |
| 58-64 | `HGate.is_single_qudit` | `Accessors` |
| 67-84 | `HGate.unitary` | `Exact`, `Gates` |
| 87-92 | `HGate.acting_on` | — one line each, all in `GateObj.actingOn` (`Gates`) |

## src/qudiet/circuit_library/standard_gates/i.py

| lines | function | cited in |
|---|---|---|
| 36-44 | `IGate.__init__` | `Gates` |
| 47-52 | `IGate.is_controlled` | `Accessors` |
| 55-60 | `IGate.is_single_qudit` | `Accessors` |
| 63-68 | `IGate.unitary` | `Gates` |
| 71-76 | `IGate.acting_on` | — one line each, all in `GateObj.actingOn` (`Gates`) |

## src/qudiet/circuit_library/standard_gates/measurement.py

| lines | function | cited in |
|---|---|---|
| 33-34 | `Measurement.__init__` | `Gates` |
| 37-42 | `Measurement.is_controlled` | `Accessors` |
| 45-50 | `Measurement.is_single_qudit` | `Accessors` |
| 53-58 | `Measurement.unitary` | `Gates`, `Moments`, `Readers` |
| 61-66 | `Measurement.acting_on` | — one line each, all in `GateObj.actingOn` (`Gates`) |

## src/qudiet/circuit_library/standard_gates/quantum_gate.py

| lines | function | cited in |
|---|---|---|
| 39-44 | `QuantumGate.is_controlled` | — abstract base class |
| 48-53 | `QuantumGate.is_single_qudit` | — abstract base class |
| 57-62 | `QuantumGate.unitary` | — abstract base class |
| 66-71 | `QuantumGate.acting_on` | — abstract base class |

## src/qudiet/circuit_library/standard_gates/toffoli_utility.py

| lines | function | cited in |
|---|---|---|
| 12-14 | `generate_combinations` | `GateClass`, `Radix` |
| 16-77 | `toffoli_dm` | `Gates` |
| 80-85 | `Toffoli.__init__` | `Accessors`, `Circuit`, `GateClass`, `Gates`, `Moments` |

## src/qudiet/circuit_library/standard_gates/x.py

| lines | function | cited in |
|---|---|---|
| 38-47 | `XGate.__init__` | `GateClass`, `Gates` |
| 50-55 | `XGate.is_controlled` | `Accessors` |
| 58-63 | `XGate.is_single_qudit` | `Accessors` |
| 66-75 | `XGate.unitary` | `Gates` |
| 78-83 | `XGate.acting_on` | — one line each, all in `GateObj.actingOn` (`Gates`) |

## src/qudiet/circuit_library/standard_gates/z.py

| lines | function | cited in |
|---|---|---|
| 37-45 | `ZGate.__init__` | `Gates` |
| 48-53 | `ZGate.is_controlled` | `Accessors` |
| 56-62 | `ZGate.is_single_qudit` | `Accessors` |
| 65-77 | `ZGate.unitary` | `Gates` |
| 80-85 | `ZGate.acting_on` | — one line each, all in `GateObj.actingOn` (`Gates`) |

## src/qudiet/core/backend/CUDABackend.py

| lines | function | cited in |
|---|---|---|
| 41-44 | `CUDABackend.__getattribute__` | — needs CUDA; covered by C24 to the extent that it implements the same operations |
| 47-48 | `CUDABackend.kron` | — needs CUDA; covered by C24 to the extent that it implements the same operations |
| 51-52 | `CUDABackend.dot` | — needs CUDA; covered by C24 to the extent that it implements the same operations |
| 55-56 | `CUDABackend.eye` | — needs CUDA; covered by C24 to the extent that it implements the same operations |
| 59-65 | `CUDABackend.matrix` | — needs CUDA; covered by C24 to the extent that it implements the same operations |
| 68-69 | `CUDABackend.nonzero` | — needs CUDA; covered by C24 to the extent that it implements the same operations |
| 72-73 | `CUDABackend.is_unitary` | — needs CUDA; covered by C24 to the extent that it implements the same operations |

## src/qudiet/core/backend/CUDASparseBackend.py

| lines | function | cited in |
|---|---|---|
| 41-44 | `CUDASparseBackend.__getattribute__` | — needs CUDA; covered by C24 to the extent that it implements the same operations |
| 47-48 | `CUDASparseBackend.kron` | — needs CUDA; covered by C24 to the extent that it implements the same operations |
| 51-52 | `CUDASparseBackend.dot` | — needs CUDA; covered by C24 to the extent that it implements the same operations |
| 55-56 | `CUDASparseBackend.eye` | — needs CUDA; covered by C24 to the extent that it implements the same operations |
| 59-62 | `CUDASparseBackend.matrix` | — needs CUDA; covered by C24 to the extent that it implements the same operations |
| 65-66 | `CUDASparseBackend.nonzero` | — needs CUDA; covered by C24 to the extent that it implements the same operations |
| 69-70 | `CUDASparseBackend.is_unitary` | — needs CUDA; covered by C24 to the extent that it implements the same operations |

## src/qudiet/core/backend/NumpyBackend.py

| lines | function | cited in |
|---|---|---|
| 33-34 | `NumpyBackend.kron` | `Float`, `Mat` |
| 37-38 | `NumpyBackend.dot` | `Float`, `Mat` |
| 41-42 | `NumpyBackend.eye` | `Float`, `Mat` |
| 45-50 | `NumpyBackend.matrix` | `Float`, `Mat` |
| 53-54 | `NumpyBackend.nonzero` | `Float`, `Mat` |
| 57-58 | `NumpyBackend.is_unitary` | `Float`, `Mat`, `Tolerance` |

## src/qudiet/core/backend/SparseBackend.py

| lines | function | cited in |
|---|---|---|
| 33-34 | `SparseBackend.kron` | `Float`, `Sparse` |
| 37-38 | `SparseBackend.dot` | `Float`, `Sparse` |
| 41-42 | `SparseBackend.eye` | `Float`, `Sparse` |
| 45-46 | `SparseBackend.matrix` | `Float`, `Sparse` |
| 49-50 | `SparseBackend.nonzero` | `Float`, `Sparse` |
| 53-54 | `SparseBackend.is_unitary` | `Float`, `Mat`, `Tolerance` |

## src/qudiet/core/backend/core.py

| lines | function | cited in |
|---|---|---|
| 28-29 | `Backend.__init__` | — abstract base class; the interface is the structure `Backend` in `Mat` |
| 31-32 | `Backend.__call__` | — abstract base class; the interface is the structure `Backend` in `Mat` |
| 35-36 | `Backend.kron` | — abstract base class; the interface is the structure `Backend` in `Mat` |
| 39-40 | `Backend.dot` | — abstract base class; the interface is the structure `Backend` in `Mat` |
| 43-44 | `Backend.eye` | — abstract base class; the interface is the structure `Backend` in `Mat` |
| 47-48 | `Backend.matrix` | — abstract base class; the interface is the structure `Backend` in `Mat` |
| 51-52 | `Backend.nonzero` | — abstract base class; the interface is the structure `Backend` in `Mat` |

## src/qudiet/core/init_states.py

| lines | function | cited in |
|---|---|---|
| 34-54 | `InitState.__init__` | `Accessors`, `Gates` |
| 61-62 | `InitState.get_init_states` | `Accessors` |
| 65-66 | `InitState.unitary` | `Accessors`, `Gates` |

## src/qudiet/core/moment.py

| lines | function | cited in |
|---|---|---|
| 40-62 | `Moment.__init__` | `Debug`, `Share` |
| 67-68 | `Moment.prev_pointer` | — nothing reads the pointers |
| 71-72 | `Moment.prev_pointer` | — nothing reads the pointers |
| 75-76 | `Moment.next_pointer` | — nothing reads the pointers |
| 78-88 | `Moment.get_qreg_moment` | `Circuit`, `Threads` |
| 91-92 | `Moment.next_pointer` | — nothing reads the pointers |
| 94-111 | `Moment.__populate_list` | — copies the list of operators into a list; a `Moment` is that list in the model |
| 113-120 | `Moment.__push_list` | — copies the list of operators into a list; a `Moment` is that list in the model |
| 122-133 | `Moment.check_igate_at_qreg` | — nothing calls it |
| 135-149 | `Moment.replace_igate` | `Circuit`, `Interrupt`, `Objects`, `Threads` |
| 151-157 | `Moment.peek_list` | `Share` |
| 159-197 | `Moment.__insert_placeholder_identity` | — nothing calls it |
| 199-213 | `Moment.exec` | `Circuit`, `Moments`, `Readers` |
| 215-216 | `Moment.preprocess` | — empty; `run` calls it for each layer |
| 218-219 | `Moment.postprocess` | — empty; `run` calls it for each layer |

## src/qudiet/core/operator_flow.py

| lines | function | cited in |
|---|---|---|
| 42-59 | `OperatorFlow.__init__` | `Circuit`, `Several` |
| 61-66 | `OperatorFlow.peek` | `Several` |
| 68-148 | `OperatorFlow.populate_opflow` | `Moments`, `Several`, `Share` |
| 150-229 | `OperatorFlow.populate_opflow_test` | `Circuit`, `Debug`, `Gates`, `Interrupt`, `Moments`, `Objects`, `Several`, `Share`, `Threads` |
| 231-241 | `OperatorFlow.__detect_measurement_and_add_count` | `Circuit`, `Interrupt`, `Moments`, `Objects`, `Several`, `Share`, `Threads` |
| 243-284 | `OperatorFlow.exec` | `Circuit`, `Moments`, `Objects`, `Readers`, `Several`, `Share` |
| 286-311 | `OperatorFlow.__placeholder_identity` | — nothing calls it |

## src/qudiet/core/output.py

| lines | function | cited in |
|---|---|---|
| 44-52 | `Output.__init__` | `Circuit` |
| 54-76 | `Output.__call__` | `Circuit`, `Mat`, `Sparse` |
| 78-81 | `Output.distribution` | — empty |
| 83-86 | `Output.value` | — empty |

## src/qudiet/core/quantum_circuit.py

| lines | function | cited in |
|---|---|---|
| 60-123 | `QuantumCircuit.__init__` | `Circuit`, `Debug`, `Objects` |
| 126-143 | `QuantumCircuit.get_circuit_config` | `Circuit`, `StrWhile` |
| 145-160 | `QuantumCircuit.__validate_gate_inputs` | `Circuit` |
| 162-197 | `QuantumCircuit.__add_moment_to_opflow` | `Circuit`, `Debug`, `Objects`, `Threads` |
| 199-212 | `QuantumCircuit.h` | `Interrupt`, `Objects`, `Threads` |
| 214-230 | `QuantumCircuit.x` | `Interrupt`, `Objects`, `Threads` |
| 232-245 | `QuantumCircuit.z` | `Interrupt`, `Objects`, `Threads` |
| 247-285 | `QuantumCircuit.toffoli` | `Interrupt`, `Objects`, `Props/RepoTests`, `Threads` |
| 287-312 | `QuantumCircuit.cx` | `Interrupt`, `Objects`, `Threads` |
| 314-333 | `QuantumCircuit.gate` | `GateClass`, `Interrupt`, `Objects`, `Threads` |
| 335-343 | `QuantumCircuit.measure` | `Interrupt`, `Objects`, `Threads` |
| 345-361 | `QuantumCircuit.measure_all` | `Debug`, `Interrupt`, `Objects`, `Threads` |
| 363-380 | `QuantumCircuit.__initialize_states` | `Circuit` |
| 382-389 | `QuantumCircuit.run` | `Circuit`, `Interrupt`, `Moments`, `Objects`, `Readers`, `Several`, `Share` |
| 391-394 | `QuantumCircuit.print_opflow_list` | — prints the layers |
| 396-447 | `QuantumCircuit.draw` | — calls one of the two drawings, which are modelled |
| 449-509 | `QuantumCircuit.__str__` | `Draw`, `Several`, `StrWhile` |
| 511-562 | `QuantumCircuit.get_circuit_info` | `Circuit`, `InfoWhile`, `Several` |

## src/qudiet/qasm/qasm_parser.py

| lines | function | cited in |
|---|---|---|
| 35-38 | `parse_qasm` | `QasmFile` |
| 41-123 | `circuit_from_qasm` | `Qasm` |

## src/qudiet/utility/circuit_draw.py

| lines | function | cited in |
|---|---|---|
| 16-49 | `_draw_cgate` | `Draw`, `Pages` |
| 51-63 | `_draw_qubit_cnot_gate` | `Draw`, `Pages` |
| 65-92 | `_draw_single_qudit_gate` | `Draw`, `Pages` |
| 94-114 | `_draw_custom_gate` | `Draw`, `Pages` |
| 116-124 | `_draw_qudit` | `Pages` |
| 125-171 | `_draw_states` | `Pages` |
| 172-177 | `_draw_toffoli_gate` | `Draw` |
| 179-186 | `_draw_cnot_gate` | `Draw` |
| 187-189 | `_draw_x_gate` | `Draw` |
| 191-193 | `_draw_h_gate` | `Draw` |
| 194-196 | `_draw_z_gate` | `Draw` |
| 197-205 | `_draw_arbitary_gate` | `Draw` |
| 206-208 | `_draw_measure_gate` | `Draw` |
| 210-229 | `_draw_layer` | `Draw`, `MplWhile`, `Pages` |
| 231-281 | `draw_circuit_mpl` | `Draw`, `MplWhile`, `Pages`, `Several` |

## src/qudiet/utils/debug.py

| lines | function | cited in |
|---|---|---|
| 3-9 | `moment_to_repr` | `Debug` |
| 11-17 | `weak_compare` | `Debug` |

## src/qudiet/utils/linalg.py

| lines | function | cited in |
|---|---|---|
| 29-30 | `clip` | — nothing calls it |
| 33-34 | `isiterable` | — tells an integer from a list of registers: the constructors of `RegArg` (`Gates`) |
| 37-88 | `ttg` | `Radix` |

## src/qudiet/utils/numpy.py

| lines | function | cited in |
|---|---|---|
| 29-32 | `get_index` | `Radix` |
| 35-44 | `bin_to_Nbase` | `Radix` |
| 47-58 | `Nbase_to_bin` | `Radix` |

## test/test_backend.py

| lines | function | cited in |
|---|---|---|
| 34-87 | `test_Numpy_backend` | — a test that asserts nothing |
| 93-146 | `test_Sparse_backend` | — a test that asserts nothing |
| 152-205 | `test_CUDA_backend` | — a test that asserts nothing |
| 209-262 | `test_CUDASparse_backend` | — a test that asserts nothing |

## test/test_bin.py

| lines | function | cited in |
|---|---|---|
| 29-44 | `test_bin_to_Nbase` | `Props/RepoTests` |
| 47-61 | `test_Nbase_to_bin` | `Props/RepoTests` |

## test/test_circuit.py

| lines | function | cited in |
|---|---|---|
| 36-44 | `test_qudit_init` | `Props/RepoTests` |
| 47-56 | `test_qudit_test` | `Props/RepoTests` |
| 58-67 | `test_qudit_cx` | `Props/RepoTests` |
| 70-79 | `test_qudit_reverse_cx` | `Props/RepoTests` |
| 82-94 | `test_circuit_config` | `Props/RepoTests` |
| 97-107 | `test_qudit_hadamard` | `Props/RepoTests` |
| 110-119 | `test_qudit_toffoli` | `Props/RepoTests` |
| 122-133 | `test_qudit_multi_controlled_toffoli` | `Props/RepoTests` |
| 136-152 | `test_arbitary_gate` | `Props/RepoTests` |
| 138-141 | `test_arbitary_gate.GateXYZ.__init__` | `Props/RepoTests` |

## test/test_qasm.py

| lines | function | cited in |
|---|---|---|
| 31-36 | `test_qasm_1` | `Props/RepoTests` |
| 38-102 | `test_parser_1` | — a test that asserts nothing |
| 104-139 | `test_parser_2` | `Props/RepoTests` |

## test_circuit/circuit.py

| lines | function | cited in |
|---|---|---|
| 17-32 | `Gate.__init__` | `Tree` |
| 34-40 | `Gate.flip` | `Tree` |
| 42-43 | `Gate.__str__` | — nothing calls it |
| 49-50 | `Q.__init__` | `Tree` |
| 52-53 | `Q.enqueue` | `Tree` |
| 55-56 | `Q.dequeue` | `Tree` |
| 58-59 | `Q.is_empty` | `Tree` |
| 61-62 | `Q.is_not_empty` | `Tree` |
| 64-65 | `Q.size` | `Tree` |
| 67-69 | `Q.enqueue_children` | `Tree` |
| 94-113 | `Circuit.__init__` | `Tree` |
| 115-124 | `Circuit.check_id` | `Tree` |
| 126-135 | `Circuit.check_gpll` | `Tree` |
| 137-145 | `Circuit.gpll_has_right_grandchild` | `Tree` |
| 147-156 | `Circuit.check_sd` | `Tree` |
| 158-307 | `Circuit.simulate` | `Tree` |
| 309-334 | `Circuit.get_reflection` | `Tree` |
| 336-355 | `Circuit.make_gates` | `Tree` |
| 357-374 | `Circuit.inorder_traversal` | `Tree` |
| 358-365 | `Circuit.inorder_traversal.generate_inorder` | `Tree` |

## test_circuit/main.py

| lines | function | cited in |
|---|---|---|
| 10-24 | `mathematical_expectation` | `Tree` |
| 27-82 | `runner` | `Tree` |

## test_circuit/test_useQudiet.py

| lines | function | cited in |
|---|---|---|
| 5-64 | `generateTestCases` | `TreeTests` |
| 70-75 | `generateTest` | `TreeTests` |
| 71-73 | `generateTest.test` | `TreeTests` |

## test_circuit/useQudiet.py

| lines | function | cited in |
|---|---|---|
| 5-63 | `RUN_CIRC` | `Tree` |
| 66-73 | `make_CNOT_gate` | `Tree` |
