{"id": "C01", "title": "run() is the sequential product of the gate calls", "statement": "For a circuit QuantumCircuit(qregs=dims, init_states=init) on which a sequence of valid gate calls (h, x, z, cx, toffoli, gate) is made, followed by measure_all(), run() returns exactly the non-zero amplitudes of the state obtained by starting in the basis state |init> and applying the gates one after the other, in call order, each to the registers it names and to no other. The packing of gates into shared layers is invisible.", "quantifier": "all register-dimension lists, all valid initial states, all finite sequences of valid gate calls", "why_tests_cant": "the layer packing, Kronecker and matrix products interact with every circuit shape; tests sample a handful of circuits", "anchors": ["src/qudiet/core/quantum_circuit.py::QuantumCircuit.run", "src/qudiet/core/operator_flow.py::OperatorFlow.populate_opflow_test", "src/qudiet/core/operator_flow.py::OperatorFlow.exec", "src/qudiet/core/moment.py::Moment.exec", "src/qudiet/core/moment.py::Moment.replace_igate"]}
{"id": "C02", "title": "Classical circuits have one outcome computed by modular arithmetic", "statement": "A circuit made only of x, cx and toffoli calls (valid registers) yields from run() exactly one entry, with amplitude 1, whose label is the list of register levels obtained by doing the increments modulo each register's dimension on the initial levels.", "quantifier": "all dimension lists, initial levels and sequences of x/cx/toffoli calls", "why_tests_cant": "infinitely many circuits; the tests check five literals", "anchors": ["src/qudiet/core/quantum_circuit.py::QuantumCircuit.x", "src/qudiet/core/quantum_circuit.py::QuantumCircuit.cx", "src/qudiet/core/quantum_circuit.py::QuantumCircuit.toffoli", "src/qudiet/core/quantum_circuit.py::QuantumCircuit.run"]}
{"id": "C03", "title": "x(q, plus) adds plus modulo the dimension, for -d <= plus < d only", "statement": "x(q, plus) with -d <= plus < d maps every basis state |..k..> to |..(k+plus) mod d..> on register q of dimension d and changes nothing else; with any other plus the call is accepted but every later run() of that circuit raises.", "quantifier": "all dimensions, all integers plus, all states, all circuits containing the call", "why_tests_cant": "unbounded plus and dimension; failure is delayed to run()", "anchors": ["src/qudiet/circuit_library/standard_gates/x.py::XGate.unitary", "src/qudiet/core/quantum_circuit.py::QuantumCircuit.x"]}
{"id": "C04", "title": "cx((c,t), plus) increments t exactly when c is at its top level", "statement": "For distinct in-range registers c and t, in either order and any distance apart, cx adds plus (any integer, modulo the target dimension) to register t on exactly the basis states where register c is at level dim(c)-1, and leaves every other register, including those in between, alone.", "quantifier": "all dimension lists, register pairs, integers plus and basis states", "why_tests_cant": "all spans/orders/dimensions; the matrix is built by table lookup", "anchors": ["src/qudiet/circuit_library/standard_gates/cx.py::CXGate.unitary", "src/qudiet/circuit_library/standard_gates/cx.py::CXGate.update", "src/qudiet/utils/linalg.py::ttg", "src/qudiet/utils/numpy.py::get_index"]}
{"id": "C05", "title": "toffoli fires exactly when every control is at its top level", "statement": "toffoli((controls, t), plus) whose registers span at least three positions adds plus modulo dim(t) to register t exactly on the basis states in which every control register is at its top level, for any number and order of controls (target not a control), and leaves the other registers alone.", "quantifier": "all dimension lists, control lists, targets, increments and basis states", "why_tests_cant": "unbounded number of controls and span", "anchors": ["src/qudiet/circuit_library/standard_gates/toffoli_utility.py::toffoli_dm", "src/qudiet/circuit_library/standard_gates/toffoli_utility.py::Toffoli", "src/qudiet/core/quantum_circuit.py::QuantumCircuit.toffoli"]}
{"id": "C06", "title": "A toffoli whose registers span exactly two positions can never be run", "statement": "A user expects toffoli(([c], t)) on neighbouring registers to behave like cx((c,t)). The code instead compares a tuple with a list, so every run() of a circuit containing such an accepted call raises; with a distance of two or more it does behave like cx.", "quantifier": "all dimension lists, neighbouring control/target pairs, surrounding circuits", "why_tests_cant": "must hold for every surrounding circuit; the failure is in a delayed assertion", "anchors": ["src/qudiet/circuit_library/__init__.py::ArbitaryGate.unitary", "src/qudiet/circuit_library/standard_gates/toffoli_utility.py::Toffoli"]}
{"id": "C07", "title": "h gives the uniform superposition from level 0, and every h column is normalised", "statement": "Applied to a register of dimension d at level 0, h produces every level with amplitude 1/sqrt(d); applied to any level it produces amplitudes whose squared moduli sum to one. For qubits and qutrits h is unitary and equals the Fourier matrix (up to the order of the non-trivial roots).", "quantifier": "all dimensions d >= 2, every order in which the root finder may return the roots with 1 last", "why_tests_cant": "unbounded dimension and unspecified root order", "anchors": ["src/qudiet/circuit_library/standard_gates/h.py::HGate.unitary"]}
{"id": "C08", "title": "h preserves total probability on every register dimension (false from dimension 4 on)", "statement": "A user relies on h being unitary for every dimension. Whether it is depends on the order in which the root finder lists the d-th roots of unity: circuits whose other gates are unitary have output probabilities that sum to one exactly if the list without its last element 1 is uncorrelated with all its rotations; otherwise h twice from some level gives probabilities that sum to more than one. In the order of np.roots (conjugate pairs by increasing real part), and in the order of angles, h is not unitary for any dimension d >= 4; for dimension 4 it is not unitary in any order; for each prime dimension some other order makes it unitary.", "quantifier": "all dimensions, all orders of the roots of unity with 1 last, all circuits", "why_tests_cant": "needs exact complex arithmetic and all root orders", "anchors": ["src/qudiet/circuit_library/standard_gates/h.py::HGate.unitary"]}
{"id": "C09", "title": "z only changes phases, has order d, fixes the top level and not level 0", "statement": "z(q) multiplies each basis state by a d-th root of unity that depends only on the level of q, different for different levels; d applications are the identity; amplitudes' moduli never change. With the roots in the root finder's order (1 last) the level whose phase is 1 is d-1, not 0.", "quantifier": "all dimensions, all root orders with 1 last, all states", "why_tests_cant": "unbounded dimension and unspecified root order", "anchors": ["src/qudiet/circuit_library/standard_gates/z.py::ZGate.unitary"]}
{"id": "C10", "title": "Total probability is one", "statement": "For every valid circuit whose gates are x, z, cx (control != target), toffoli, custom gates with exactly unitary matrices, and h on registers of dimension 2 or 3, the squared moduli of the amplitudes returned by run() sum to one.", "quantifier": "all such circuits, any size and depth", "why_tests_cant": "unbounded circuits; requires exact arithmetic", "anchors": ["src/qudiet/core/quantum_circuit.py::QuantumCircuit.run", "src/qudiet/core/output.py::Output.__call__"]}
{"id": "C11", "title": "run() lists each basis state with non-zero amplitude once, in lexicographic order", "statement": "The list returned by run() contains one single-key dictionary per basis state of non-zero amplitude, in increasing lexicographic order of the register levels with register 0 most significant, with the amplitude as value, and nothing else.", "quantifier": "all dimension lists and all state vectors", "why_tests_cant": "all vectors and all mixed radices", "anchors": ["src/qudiet/core/output.py::Output.__call__", "src/qudiet/utils/numpy.py::Nbase_to_bin"]}
{"id": "C12", "title": "Printed labels identify the state unless two registers have more than ten levels", "statement": "With every register dimension at most 10 the characters of a '|...>' label are the levels. Two different basis states have the same label exactly if two registers have more than ten levels each and the first of them has more than eleven or there is a register between them (so on [12, 11] and [11, 2, 11], but not on [11, 12]). If there are no such registers, two circuits that print the same result give the same result in every output format; if there are, two lists of initial levels print the same.", "quantifier": "all dimension lists, pairs of basis states, circuits of valid calls and output formats", "why_tests_cant": "all pairs of states; the ambiguity needs large dimensions", "anchors": ["src/qudiet/core/output.py::Output.__call__"]}
{"id": "C13", "title": "Probability output is the square of the amplitude", "statement": "With OutputMethod.probability the value is amplitude**2. For real amplitudes it is non-negative and, on circuits as in C10, sums to one. For complex amplitudes it is not the probability: on one qutrit, after h and z, the values sum to 0.", "quantifier": "all states with real amplitudes; a complex witness", "why_tests_cant": "all circuits", "anchors": ["src/qudiet/core/output.py::Output.__call__", "src/qudiet/core/output.py::OutputMethod"]}
{"id": "C14", "title": "Nbase_to_bin and bin_to_Nbase are inverse mixed-radix codecs", "statement": "bin_to_Nbase(Nbase_to_bin(v, base), base) = v for every v below the product of the bases; Nbase_to_bin(bin_to_Nbase(s, base), base) = s for every digit list s within base; Nbase_to_bin always returns exactly len(base) digits each below its base; it raises IndexError for every v at or above the product; bin_to_Nbase raises AssertionError exactly on a length mismatch; both are strictly monotone for the lexicographic order.", "quantifier": "all bases with positive entries, all values, all digit lists", "why_tests_cant": "unbounded values and radices", "anchors": ["src/qudiet/utils/numpy.py::bin_to_Nbase", "src/qudiet/utils/numpy.py::Nbase_to_bin"]}
{"id": "C15", "title": "ttg and generate_combinations enumerate all digit lists in lexicographic order", "statement": "ttg(dims) and generate_combinations(dims) both list every digit list within dims exactly once, in lexicographic order, so row i is the mixed-radix expansion of i; get_index of a valid row is its position and of any other list of the same length is None.", "quantifier": "all non-empty dimension lists with positive entries", "why_tests_cant": "unbounded tables", "anchors": ["src/qudiet/utils/linalg.py::ttg", "src/qudiet/circuit_library/standard_gates/toffoli_utility.py::generate_combinations", "src/qudiet/utils/numpy.py::get_index"]}
{"id": "C16", "title": "Measurement is required before run() and closes the circuit", "statement": "run() raises AssertionError until measure_all() has been called. After measure_all() no gate call changes the result of run() or the reported depth; h, x, z, cx and gate then return False (toffoli and measure_all still return True although nothing is added).", "quantifier": "all circuits with at least one register, all call sequences before and after measure_all()", "why_tests_cant": "all histories", "anchors": ["src/qudiet/core/operator_flow.py::OperatorFlow.populate_opflow_test", "src/qudiet/core/operator_flow.py::OperatorFlow.exec", "src/qudiet/core/quantum_circuit.py::QuantumCircuit.measure_all", "src/qudiet/core/quantum_circuit.py::QuantumCircuit.toffoli"]}
{"id": "C17", "title": "run() is repeatable", "statement": "Calling run() any number of times, before or after further calls, returns the same result each time the circuit is unchanged, and run() never changes what later calls do.", "quantifier": "all sessions with any number of circuits, all interleavings of run() with other calls, in which no list is changed after a circuit was given it as qregs", "why_tests_cant": "all histories (the source carries a FIXIT about this)", "anchors": ["src/qudiet/core/quantum_circuit.py::QuantumCircuit.run", "src/qudiet/core/operator_flow.py::OperatorFlow.exec"]}
{"id": "C18", "title": "Register bounds of single-register gates", "statement": "On n registers, h/x/z(q) raises ValueError for q >= n and IndexError for q < -n, leaving the circuit unchanged; for 0 <= q < n it acts on register q; for -n <= q < 0 it is accepted (returns True), adds a layer, and has no effect on run()'s result: negative indices are silently dropped, not resolved.", "quantifier": "all integers q, all circuits (for negative q: none of whose calls is one of the exceptions of C53, which run only together with a call of the wrong size)", "why_tests_cant": "all integers and all circuits", "anchors": ["src/qudiet/core/quantum_circuit.py::QuantumCircuit.__validate_gate_inputs", "src/qudiet/core/quantum_circuit.py::QuantumCircuit.__add_moment_to_opflow"]}
{"id": "C19", "title": "Register bounds of cx", "statement": "cx((c,t)) never raises for an out-of-range register at call time. If the interval between c and t misses the circuit entirely the call is a no-op on run()'s result; if it only partly overlaps the circuit every later run() raises.", "quantifier": "all integer pairs and all circuits (for the no-op: none of whose calls is one of the exceptions of C53)", "why_tests_cant": "all integers and all circuits; failure is delayed or absent", "anchors": ["src/qudiet/core/quantum_circuit.py::QuantumCircuit.cx", "src/qudiet/core/quantum_circuit.py::QuantumCircuit.__add_moment_to_opflow", "src/qudiet/circuit_library/standard_gates/cx.py::CXGate.unitary"]}
{"id": "C20", "title": "Construction accepts exactly the valid initial states", "statement": "QuantumCircuit(dims, init_states=s) succeeds exactly when every dimension is at least 2, s is not longer than dims, and each s[i] satisfies -dims[i] <= s[i] < dims[i]; missing states are 0; a state equal to its dimension raises IndexError (not the ValueError of larger ones). The built circuit measured and run immediately returns the single label of those states with amplitude 1.", "quantifier": "all integer dimension lists and state lists", "why_tests_cant": "all integer inputs", "anchors": ["src/qudiet/core/quantum_circuit.py::QuantumCircuit.__init__", "src/qudiet/core/init_states.py::InitState.__init__"]}
{"id": "C21", "title": "QuantumCircuit((n, d)) behaves like QuantumCircuit([d]*n) (false)", "statement": "The documentation promises that the tuple form builds n registers of dimension d. The state evolves as for the list form, but run() labels every state with exactly two digits in radices (n, d), or raises IndexError, so results agree with the list form only in special cases. toffoli reads the pair as the list of dimensions: it raises IndexError on registers beyond the second; otherwise a toffoli with controls makes run() raise, and one without works on register 1, and on register 0 if n = d.", "quantifier": "all n, d and circuits", "why_tests_cant": "all sizes", "anchors": ["src/qudiet/core/quantum_circuit.py::QuantumCircuit.__init__", "src/qudiet/core/output.py::Output.__call__", "src/qudiet/utils/numpy.py::Nbase_to_bin"]}
{"id": "C22", "title": "Layering and depth", "statement": "Each single-register h/x/z call goes into the newest layer when that layer is idle on the register and is not the initial layer, otherwise it opens one new layer; every cx, toffoli and custom gate (and every single-register call with a negative index) opens one new layer; a new gate may join such a layer where it is idle. get_circuit_config()['depth'] is the number of gate layers, measured or not, never exceeds the number of accepted gate calls, and never decreases.", "quantifier": "all circuits and call sequences", "why_tests_cant": "all histories", "anchors": ["src/qudiet/core/operator_flow.py::OperatorFlow.populate_opflow_test", "src/qudiet/core/quantum_circuit.py::QuantumCircuit.get_circuit_config"]}
{"id": "C23", "title": "Gate counts", "statement": "get_circuit_info() reports, per gate kind, exactly the number of accepted gate calls made before measure_all() that name at least one existing register, omits kinds with count zero, and gate_count is their sum. For registers given as a list its depth agrees with get_circuit_config() and 'qudit' is the number of registers; for the pair form 'qudit' is always 2 and the depth is one too high exactly for a measured circuit on one register.", "quantifier": "all circuits and call sequences", "why_tests_cant": "all histories; merging must not lose or duplicate gates", "anchors": ["src/qudiet/core/quantum_circuit.py::QuantumCircuit.get_circuit_info"]}
{"id": "C24", "title": "The result does not depend on the backend", "statement": "Any two backends whose kron, dot, eye and matrix operations represent the same matrices give the same run() result (or raise the same error) on every circuit; in particular the dense one and a coordinate-list sparse one.", "quantifier": "all circuits, all backends meeting the matrix contract", "why_tests_cant": "all circuits on all backends", "anchors": ["src/qudiet/core/backend/NumpyBackend.py::NumpyBackend", "src/qudiet/core/backend/SparseBackend.py::SparseBackend", "src/qudiet/core/moment.py::Moment.exec", "src/qudiet/core/operator_flow.py::OperatorFlow.exec"]}
{"id": "C25", "title": "Gates on disjoint registers commute", "statement": "Exchanging two adjacent gate calls that touch disjoint register sets does not change run()'s result, although it may change the layers.", "quantifier": "all circuits, all adjacent pairs of calls on disjoint registers, all output formats", "why_tests_cant": "all circuits and positions", "anchors": ["src/qudiet/core/quantum_circuit.py::QuantumCircuit.run", "src/qudiet/core/operator_flow.py::OperatorFlow.populate_opflow_test"]}
{"id": "C26", "title": "Every layer covers every register exactly once", "statement": "After any call sequence (out-of-range, rejected and failing calls included), each layer reported by op_flow.peek() is a list of operators which, read left to right, occupy registers 0,1,...,n-1 exactly once each.", "quantifier": "all circuits and call sequences", "why_tests_cant": "an invariant over all histories", "anchors": ["src/qudiet/core/moment.py::Moment", "src/qudiet/core/quantum_circuit.py::QuantumCircuit.__add_moment_to_opflow", "src/qudiet/core/moment.py::Moment.replace_igate"]}
{"id": "C27", "title": "QASM text means the corresponding API calls", "statement": "circuit_from_qasm of a well-formed program text (header line, .qudit count, one 'qudit xi (d)' / 'qubit xi' / 'qutrit xi' line per register, .begin, X/H/Z/CX/CNOT lines, .end) builds the same circuit as the constructor and the corresponding sequence of API calls followed by measure_all(), or raises what that sequence raises first. Registers are numbered in the order of their declarations; the numbers in their names and the announced count are not used, and neither is text before the first marker or after .end. Running the circuit of a program with valid calls returns the state after these calls; a one-register or Toffoli line that names an undeclared register makes the reader raise. Lines with Toffoli are as in C29.", "quantifier": "all register lists and all instruction lists, with ignored lines anywhere", "why_tests_cant": "all programs", "anchors": ["src/qudiet/qasm/qasm_parser.py::circuit_from_qasm"]}
{"id": "C28", "title": "Unrecognised QASM lines are skipped silently", "statement": "A gate-section line that does not start with X, RX..180, H, Z, CX, CNOT or Toffoli (including lower-case gate names and comments) has no effect on the circuit and raises nothing.", "quantifier": "all programs, all such lines at all positions", "why_tests_cant": "all texts", "anchors": ["src/qudiet/qasm/qasm_parser.py::circuit_from_qasm"]}
{"id": "C29", "title": "QASM Toffoli enlarges its middle register and so cannot fire on declared levels", "statement": "If the program contains 'Toffoli xa, xb, xc' lines, every register named as a middle control is built with one level more than declared, once, however many Toffolis use it; the gate then triggers only at a level that the declared register does not have, so a qubit program with both controls at 1 leaves the target unchanged.", "quantifier": "all programs with three-operand Toffoli lines", "why_tests_cant": "all programs", "anchors": ["src/qudiet/qasm/qasm_parser.py::circuit_from_qasm", "src/qudiet/circuit_library/standard_gates/toffoli_utility.py::toffoli_dm"]}
{"id": "C30", "title": "QASM texts without three section markers at line starts are rejected", "statement": "circuit_from_qasm raises IndexError on every text that has fewer than three section markers each preceded by a newline: in particular a missing header line, a missing .end, or an indented program (as in the README example).", "quantifier": "all texts", "why_tests_cant": "all texts", "anchors": ["src/qudiet/qasm/qasm_parser.py::circuit_from_qasm"]}
{"id": "C31", "title": "QASM 'RX xq 180' is X with increment 180", "statement": "A line 'RX xq 180' is translated to x(q, plus=180); run() therefore raises for every circuit containing it whose register q has dimension at most 180. 'RX' with another angle is dropped.", "quantifier": "all programs containing such a line", "why_tests_cant": "all programs", "anchors": ["src/qudiet/qasm/qasm_parser.py::circuit_from_qasm", "src/qudiet/circuit_library/standard_gates/x.py::XGate.unitary"]}
{"id": "C32", "title": "The text drawing shows every gate where it acts", "statement": "For a circuit with registers given as a list, str(circuit) has one row per register: '(dim)|state>', one cell per layer and a last cell '--M--' if the circuit is measured, '-----' otherwise; then the depth and the width. The cell of register q in layer j shows what the gate of that layer does there: 'H', 'Z', 'X(plus)', '*' for controls, 'X(plus)' for targets, '|' for registers that a cx or toffoli passes over, dashes when the register is idle or under a custom gate (custom gates are not shown). Cells are five characters wide unless the text is longer. Circuits built from a pair (n, d) have this drawing only for n = 2; for n >= 3 str raises IndexError. A cx with one register beyond the circuit makes str raise IndexError; a toffoli that reaches from negative numbers into the circuit is left out.", "quantifier": "all list-register and pair-register circuits, all call histories", "why_tests_cant": "all circuits", "anchors": ["src/qudiet/core/quantum_circuit.py::QuantumCircuit.__str__"]}
{"id": "C33", "title": "draw('mpl') handles every circuit (false)", "statement": "The matplotlib drawing looks up dimensions of a cx by absolute register number in a list that starts at the lower of the two registers. It raises exactly when the circuit has no layer after the initial states, or some cx does not involve register 0, or some toffoli has a target greater than the distance between its lowest and highest registers, or no controls. The error is IndexError, unless there is a toffoli without controls (ValueError). When it does not raise it draws every gate once, in its layer; but the dimension on a toffoli is that of register lowest + target, and a cx between two qubits is drawn without its increment.", "quantifier": "all circuits with registers given as a list, all call histories in which cx and toffoli lie within the circuit or wholly outside it", "why_tests_cant": "all circuits", "anchors": ["src/qudiet/utility/circuit_draw.py::_draw_cnot_gate", "src/qudiet/utility/circuit_draw.py::_draw_toffoli_gate", "src/qudiet/utility/circuit_draw.py::draw_circuit_mpl"]}
{"id": "C34", "title": "The tree decomposition computes the multi-controlled NOT", "statement": "RUN_CIRC(n, bits) for every n >= 3 and every list of n bits returns the label of bits with the last bit flipped when all the other bits are 1 and unchanged otherwise; intermediate registers are restored.", "quantifier": "all n >= 3, all 2^n inputs", "why_tests_cant": "exponentially many inputs per size, unbounded sizes", "anchors": ["test_circuit/circuit.py::Circuit.simulate", "test_circuit/useQudiet.py::RUN_CIRC"]}
{"id": "C35", "title": "Decomposition gate counts match the closed formula", "statement": "For every n >= 3 the tern and quat counters of Circuit(n).simulate() equal mathematical_expectation(n); the sets of qubits/qutrits/ququads partition the n lines; the qutrit formula over-counts by one exactly for even control counts.", "quantifier": "all n >= 3", "why_tests_cant": "unbounded n; the shipped check uses 'and' and never fires", "anchors": ["test_circuit/circuit.py::Circuit.simulate", "test_circuit/main.py::mathematical_expectation"]}
{"id": "C36", "title": "x, cx and toffoli are undone by the opposite increment", "statement": "Appending x(q,-p) after x(q,p), cx(.., -p) after cx(.., p) or toffoli(.., -p) after toffoli(.., p) leaves run()'s result as if neither call had been made (valid calls; the control of cx is not its target).", "quantifier": "all circuits, registers and increments, all output formats", "why_tests_cant": "all circuits", "anchors": ["src/qudiet/core/quantum_circuit.py::QuantumCircuit.x", "src/qudiet/core/quantum_circuit.py::QuantumCircuit.cx", "src/qudiet/core/quantum_circuit.py::QuantumCircuit.toffoli"]}
{"id": "C37", "title": "A gate smaller than its register makes run() fail rather than give a wrong answer", "statement": "h/x/z(q, dims=k) with k larger than the register is rejected with ValueError; with k smaller (and non-zero) it is accepted and every later run() raises.", "quantifier": "all circuits with otherwise in-range calls", "why_tests_cant": "all circuits, delayed failure", "anchors": ["src/qudiet/core/quantum_circuit.py::QuantumCircuit.__validate_gate_inputs", "src/qudiet/core/operator_flow.py::OperatorFlow.exec"]}
{"id": "C38", "title": "Custom gates: matrices that fail the unitarity check never reach the result", "statement": "gate(G, q) with a matrix that fails the backend's unitarity check or is not d x d is accepted but every run() raises; with a d x d matrix that passes the check it acts on register q as that matrix. gate(G, [q1, q2]) always fails at run().", "quantifier": "all circuits, all matrices", "why_tests_cant": "all matrices and circuits", "anchors": ["src/qudiet/circuit_library/__init__.py::ArbitaryGate.unitary", "src/qudiet/core/quantum_circuit.py::QuantumCircuit.gate"]}
{"id": "C39", "title": "A raising call leaves the circuit unchanged", "statement": "Whenever a circuit method raises, the circuit's later behaviour (layers, depth, counts, run()) is as if the call had not been made.", "quantifier": "all circuits, all calls", "why_tests_cant": "all histories with failing calls", "anchors": ["src/qudiet/core/quantum_circuit.py::QuantumCircuit"]}
{"id": "C40", "title": "The constructor changes the caller's list", "statement": "A non-empty init_states list shorter than the register count is extended in place with zeros, so reusing the list for a smaller circuit afterwards raises IndexError although it was valid before; an absent or empty list is not touched.", "quantifier": "all init lists and register counts", "why_tests_cant": "aliasing history", "anchors": ["src/qudiet/core/quantum_circuit.py::QuantumCircuit.__init__"]}
{"id": "C41", "title": "Batch experiment outputs never collide", "statement": "One invocation of experimental.py over files stem.ext leaves in stem-suffix.pkl the result of that circuit file as it was at the start (or leaves it untouched if the circuit failed), whichever other files fail; result files of distinct circuit files are distinct; no circuit file and no other file is touched.", "quantifier": "all sets of input paths with the same extension, all failure patterns", "why_tests_cant": "all file sets", "anchors": ["experimental.py::routine", "experimental.py::main"]}
{"id": "C42", "title": "License header fixing is idempotent and sufficient", "statement": "'fix' inserts the header exactly once into each listed file that 'check' would report, after the leading encoding/interpreter lines, keeps all original lines in order and touches nothing else; afterwards 'check' reports nothing and a second 'fix' changes nothing. How lines end (line feed, carriage return or both) does not matter for 'check'; 'fix' turns all line ends of the files it changes into line feeds and leaves those of the others.", "quantifier": "all file contents, all lists of paths (with repetitions), all years", "why_tests_cant": "all file contents", "anchors": ["scripts/license-headers.py::does_file_need_fix", "scripts/license-headers.py::add_header_to_file"]}
{"id": "C43", "title": "A gate does not influence the other registers' statistics", "statement": "Appending a unitary gate call on some registers leaves the outcome probabilities of every other register unchanged.", "quantifier": "all circuits over complex amplitudes and all valid calls of unitary gates on any registers", "why_tests_cant": "all circuits", "anchors": ["src/qudiet/core/quantum_circuit.py::QuantumCircuit.run"]}
{"id": "C44", "title": "Circuits are isolated from each other", "statement": "In a session with several circuits, constructed in any order and possibly from the same caller lists, what each call, run() or report on one circuit returns does not depend on the calls made on the other circuits, provided no list is changed once it has been passed as qregs (by the caller, or by a constructor that gets it as init_states).", "quantifier": "all sessions: any number of circuits, shared lists, any interleaving of calls, runs and reports", "why_tests_cant": "all histories and all aliasing patterns", "anchors": ["src/qudiet/core/quantum_circuit.py::QuantumCircuit", "src/qudiet/core/operator_flow.py::OperatorFlow", "src/qudiet/core/moment.py::Moment"]}
{"id": "C45", "title": "Initial levels are the same as leading x calls", "statement": "A circuit constructed with init_states gives the same result as one constructed without them that begins with x(i, init_states[i]) for every entry.", "quantifier": "all register lists, all valid initial levels, all lists of valid calls, all output formats", "why_tests_cant": "all circuits and initial levels", "anchors": ["src/qudiet/core/quantum_circuit.py::QuantumCircuit.__init__", "src/qudiet/core/quantum_circuit.py::QuantumCircuit.x"]}
{"id": "C46", "title": "Uncomputing restores the circuit", "statement": "Any list of x, cx (on two registers) and toffoli calls followed by the calls with opposite increments in reverse order leaves the result as if none of them had been made, wherever it occurs in a circuit; as a whole circuit it ends in the initial levels.", "quantifier": "all circuits around it, all lists of classical calls of any length, all output formats", "why_tests_cant": "all lists of calls", "anchors": ["src/qudiet/core/quantum_circuit.py::QuantumCircuit.x", "src/qudiet/core/quantum_circuit.py::QuantumCircuit.cx", "src/qudiet/core/quantum_circuit.py::QuantumCircuit.toffoli"]}
{"id": "C47", "title": "Only the set of controls, the target and the increment modulo the dimension matter", "statement": "Two x/cx/toffoli calls with the same set of controls (in any order, with repetitions), the same target and increments equal modulo the target's dimension are interchangeable in every circuit; repeated calls add up their increments, and disappear when the sum is a multiple of the dimension.", "quantifier": "all circuits, all controlled increments, all repetition counts, all output formats", "why_tests_cant": "all circuits, unbounded increments and repetition counts", "anchors": ["src/qudiet/core/quantum_circuit.py::QuantumCircuit.cx", "src/qudiet/core/quantum_circuit.py::QuantumCircuit.toffoli", "src/qudiet/utils/linalg.py::ttg"]}
{"id": "C48", "title": "Calls that share registers commute when they only read them", "statement": "Adjacent x/cx/toffoli calls may be exchanged when neither adds to a control of the other; z and diagonal custom gates on one register commute with each other and with every controlled increment whose target they are not on.", "quantifier": "all circuits, all pairs of such calls at any position, all output formats", "why_tests_cant": "all circuits; depends on how calls are packed into layers", "anchors": ["src/qudiet/core/quantum_circuit.py::QuantumCircuit", "src/qudiet/core/operator_flow.py::OperatorFlow.populate_opflow_test"]}
{"id": "C49", "title": "Increments relabel outcomes, diagonal gates change phases only", "statement": "Appending x, cx or toffoli moves each outcome by the increment with its amplitude unchanged; appending z or a diagonal custom gate on one register, with invertible factors, keeps the outcomes and their order and multiplies each amplitude by the factor for its register's level, a d-th root of unity for z.", "quantifier": "all circuits, all such calls", "why_tests_cant": "all circuits", "anchors": ["src/qudiet/core/quantum_circuit.py::QuantumCircuit.run", "src/qudiet/core/quantum_circuit.py::QuantumCircuit.z"]}
{"id": "C50", "title": "Registers that no call touches keep their level", "statement": "In every outcome that run() returns, a register that no call touches is in its initial level.", "quantifier": "all circuits, all untouched registers, all outcomes", "why_tests_cant": "all circuits and outcomes", "anchors": ["src/qudiet/core/quantum_circuit.py::QuantumCircuit.run", "src/qudiet/core/operator_flow.py::OperatorFlow.exec"]}
{"id": "C51", "title": "Independent parts of a circuit multiply", "statement": "When the calls on the first registers and those on the remaining ones share no gate, the outcomes of the whole circuit are exactly the pairs of outcomes of the two parts run as circuits of their own, with the product of the amplitudes, however the calls are interleaved; appending unused registers only appends their initial levels.", "quantifier": "all splits of a register list, all pairs of call lists, all interleavings", "why_tests_cant": "all circuits and interleavings", "anchors": ["src/qudiet/core/quantum_circuit.py::QuantumCircuit.run", "src/qudiet/core/operator_flow.py::OperatorFlow.exec"]}
{"id": "C52", "title": "QASM: what of a line is read, and what is not", "statement": "Only the beginning of the gate name and the first number of each operand count, and any blanks separate words: 'Hadamard y[07] # note' is 'H x7'. The sign of a CX increment is dropped, that of an X increment is not. The text before the header, the kind and number in the header, the names of declared registers and the text after the end never matter. A gate line with a missing operand or an operand without a number makes the reader raise; it is an IndexError if the program could be read without that line, unless it is an X line of three words.", "quantifier": "all program texts, all lines", "why_tests_cant": "all texts", "anchors": ["src/qudiet/qasm/qasm_parser.py::circuit_from_qasm"]}
{"id": "C53", "title": "A matrix too large for its registers never runs", "statement": "A toffoli that mixes negative register numbers with existing ones, and a custom gate on a list of registers whose matrix has more columns than the registers from the lowest to the highest one have states, are accepted, and every later run() raises, whatever the other calls, provided that no later h, x or z is given another dimension than its register's and that no matrix of a custom gate has more rows than columns. Without the proviso it fails: a gate of dimension 1 makes the sizes fit again and the toffoli acts on other registers than those named.", "quantifier": "all circuits, all register lists, all matrices, all other calls", "why_tests_cant": "all circuits, sizes and call histories", "anchors": ["src/qudiet/core/quantum_circuit.py::QuantumCircuit.toffoli", "src/qudiet/core/quantum_circuit.py::QuantumCircuit.gate", "src/qudiet/core/operator_flow.py::OperatorFlow.exec"]}
{"id": "C54", "title": "Rounding cannot change circuits that only permute levels", "statement": "Whatever the precision of the arithmetic, a circuit on which only x, cx, toffoli and the measurements are called, with any arguments, gives exactly the dictionaries or the exception that exact arithmetic gives: the single outcome of a circuit of increments has amplitude exactly 1.", "quantifier": "all lists of such calls, all register lists and initial levels, all precisions, both backends' order of summation", "why_tests_cant": "all circuits and all roundings; the products have exponentially many terms", "anchors": ["src/qudiet/core/backend/NumpyBackend.py::NumpyBackend", "src/qudiet/core/backend/SparseBackend.py::SparseBackend", "src/qudiet/core/operator_flow.py::OperatorFlow.exec", "src/qudiet/core/quantum_circuit.py::QuantumCircuit.run"]}
{"id": "C55", "title": "Rounding errors are bounded", "statement": "With arithmetic of relative precision u, the amplitudes that run() shows differ from the exact ones, summed over all basis states, by at most (1+u)^K - 1 times the product of the square roots of the dimensions of the registers on which h is called and of the largest sums of absolute values in a column of the matrices of custom gates, where K = 3m + n(m+1) + (D+1)m for m calls, n registers and D basis states. In particular every outcome whose exact amplitude exceeds this bound is listed, and every entry listed is an outcome whose exact amplitude is within the bound of the one shown.", "quantifier": "all circuits of valid calls, all precisions, all roundings of roots, products and sums in any order", "why_tests_cant": "all circuits and all roundings", "anchors": ["src/qudiet/core/backend/NumpyBackend.py::NumpyBackend", "src/qudiet/core/backend/SparseBackend.py::SparseBackend", "src/qudiet/core/operator_flow.py::OperatorFlow.exec", "src/qudiet/core/quantum_circuit.py::QuantumCircuit.run"]}
{"id": "C56", "title": "Layers made by hand", "statement": "A user can build layers of gate objects, each with one operator for every register that no other operator of it takes, and hand several at once to the circuit's operator flow. If no layer leaves idle the register of the first h, x or z of the layer after it, all gates take effect as if called one by one. Otherwise that one gate is moved into the layer before, and the other gates of its layer and all further layers of the call are dropped without notice. A measured circuit refuses layers.", "quantifier": "all register lists and initial levels, all lists of layers of valid gates, all ways to divide them over calls", "why_tests_cant": "all circuits and layers; losing gates depends on the layer before", "anchors": ["src/qudiet/core/operator_flow.py::OperatorFlow.populate_opflow", "src/qudiet/core/moment.py::Moment"]}
{"id": "C57", "title": "Registers cannot be measured one by one", "statement": "A user who hands layers of their own to the operator flow, mixed with any method calls, gets a result from run() only if all registers were measured at once: by measure_all(), or by one layer with a measurement at every position. Registers measured in different layers make every run() raise, although the circuit counts as measured. The one exception: a layer that consists of a single measurement and nothing else may be passed over.", "quantifier": "all register lists, all lists of method calls and of layers of any operators, both backends", "why_tests_cant": "all circuits and histories", "anchors": ["src/qudiet/core/operator_flow.py::OperatorFlow.exec", "src/qudiet/core/operator_flow.py::OperatorFlow.populate_opflow", "src/qudiet/core/moment.py::Moment.exec", "src/qudiet/core/quantum_circuit.py::QuantumCircuit.run"]}
{"id": "C58", "title": "What the tolerance of the unitarity check costs", "statement": "Custom gates need only be unitary up to the tolerance of the backend's check. If the check lets the products of rows be off by at most t, then the probabilities that run() shows sum to one up to the product of (1 + n t) over the custom gates, n being the size of each, minus one; with rounding, the errors of C55 are added. With numpy's tolerances t is 0.00001002; unitary matrices pass, matrices that are off by more never run. The errors do add up: the identity matrix times 1.000001 passes, and repeating it makes the total exceed any bound.", "quantifier": "all valid circuits of unitary and custom gates, all matrices, all tolerances and precisions", "why_tests_cant": "all matrices and circuits; the bound is about all vectors", "anchors": ["src/qudiet/core/backend/NumpyBackend.py::NumpyBackend.is_unitary", "src/qudiet/circuit_library/__init__.py::ArbitaryGate.unitary", "src/qudiet/core/quantum_circuit.py::QuantumCircuit.gate", "src/qudiet/core/quantum_circuit.py::QuantumCircuit.run"]}
{"id": "C59", "title": "The figures of draw('mpl')", "statement": "draw('mpl', compress) shows the layers of the circuit in order, each exactly once, spread over figures numbered 1, 2, ... The first figure shows the dimension and the initial level of every register, the others do not. In each figure the layers stand side by side with an inch between them, every layer begins before the lines end, and all but the last also end before. Only the last figure can be empty (and it can). No two shapes of a layer are drawn over each other on a register's line, if registers are given as a list and all cx and toffoli name existing registers. A larger compress never gives more figures.", "quantifier": "all circuits and call histories, all values of compress, all widths in which texts may be rendered, as long as the labels leave room on the first figure", "why_tests_cant": "page breaks depend on the history, the fonts and all widths so far", "anchors": ["src/qudiet/utility/circuit_draw.py::draw_circuit_mpl", "src/qudiet/utility/circuit_draw.py::_draw_layer", "src/qudiet/core/quantum_circuit.py::QuantumCircuit.draw"]}
{"id": "C60", "title": "Amplitudes are sums over paths", "statement": "The amplitude that run() shows for an outcome after a list of calls ks1 followed by ks2 is the sum, over all intermediate level lists t, of the amplitude that a circuit of ks1 shows for t times the amplitude that a circuit of ks2 started in t shows for the outcome. So two lists of calls that agree from every starting level can replace each other anywhere in any circuit.", "quantifier": "all register lists, initial levels, valid calls before and after, all outcomes", "why_tests_cant": "all circuits; the law relates three circuits for every intermediate state", "anchors": ["src/qudiet/core/quantum_circuit.py::QuantumCircuit.run", "src/qudiet/core/operator_flow.py::OperatorFlow.exec", "src/qudiet/core/init_states.py::InitState"]}
{"id": "C61", "title": "h on every register gives all outcomes the same amplitude", "statement": "After h on every register of a circuit that starts at level 0, run() shows every level list with amplitude one over the square root of the number of level lists, whatever the dimensions of the registers.", "quantifier": "all numbers of registers and all dimensions", "why_tests_cant": "all register lists; the number of outcomes is exponential", "anchors": ["src/qudiet/core/quantum_circuit.py::QuantumCircuit.h", "src/qudiet/core/quantum_circuit.py::QuantumCircuit.run", "src/qudiet/circuit_library/standard_gates/h.py::HGate.unitary"]}
{"id": "C62", "title": "Phase kickback, Bernstein-Vazirani, Deutsch-Jozsa", "statement": "n qubits at level 0 and one at level 1; h on all, any calls that add f(x) to the last qubit, h on all. run() shows the last qubit at 1 and the others at y with amplitude 2^-n times the sum over x of (-1)^(f(x) + x.y). So for f(x) = a.x + c there is exactly one outcome, a with amplitude (-1)^c; for constant f it is all-0; for balanced f all-0 is not observed.", "quantifier": "all numbers of qubits, all functions, all lists of valid calls that compute them, all output formats", "why_tests_cant": "all functions and all sizes", "anchors": ["src/qudiet/core/quantum_circuit.py::QuantumCircuit.h", "src/qudiet/core/quantum_circuit.py::QuantumCircuit.cx", "src/qudiet/core/quantum_circuit.py::QuantumCircuit.toffoli", "src/qudiet/core/quantum_circuit.py::QuantumCircuit.run"]}
{"id": "C63", "title": "A chain of cx entangles all registers", "statement": "Registers at level 0, h on register 0, then cx from each register to the next, adding the next register's top level. The outcomes are register 0 at any level below its top and the rest at 0, and all registers at their top levels, with amplitude one over the square root of register 0's dimension each. On qubits (plus=1) this is the GHZ state.", "quantifier": "all numbers of registers and all dimensions", "why_tests_cant": "all register lists", "anchors": ["src/qudiet/core/quantum_circuit.py::QuantumCircuit.h", "src/qudiet/core/quantum_circuit.py::QuantumCircuit.cx", "src/qudiet/core/quantum_circuit.py::QuantumCircuit.run"]}
{"id": "C64", "title": "Three cx exchange two qubits", "statement": "cx(a,b), cx(b,a), cx(a,b) on two qubits of any circuit exchange them: every amplitude moves to the outcome with the two levels exchanged. (On qutrits they do not, because cx acts at the top level only.)", "quantifier": "all register lists, all pairs of qubits in them, all calls before", "why_tests_cant": "all circuits and states", "anchors": ["src/qudiet/core/quantum_circuit.py::QuantumCircuit.cx", "src/qudiet/core/quantum_circuit.py::QuantumCircuit.run"]}
{"id": "C65", "title": "Teleportation", "statement": "Any three qubits p, q, r of a circuit with any other registers, and any calls before that leave q and r at level 0. After the teleportation calls h(q), cx(q,r), cx(p,q), h(p), cx(q,r), h(r), cx(p,r), h(r) (the corrections as controlled gates) what p held is in r, with all its correlations with the other registers: each outcome has half the amplitude that the outcome with p at the level of r, and q and r at 0, had before.", "quantifier": "all registers beside the qubits and all positions of these, all initial levels, all preparations by any valid calls, all outcomes, all backends that represent matrices faithfully", "why_tests_cant": "all (uncountably many) states of a qubit, entangled with any number of other registers", "anchors": ["src/qudiet/core/quantum_circuit.py::QuantumCircuit.h", "src/qudiet/core/quantum_circuit.py::QuantumCircuit.cx", "src/qudiet/core/quantum_circuit.py::QuantumCircuit.run"]}
{"id": "C66", "title": "Grover's search", "statement": "Grover's algorithm on n >= 2 qubits and one for the oracle, which is any list of calls that adds f(x) to it, with a toffoli on all n qubits for the reflection. After k iterations the probability of a solution in what run() shows is sin^2((2k+1)t), where sin^2 t is the share of solutions, and all solutions have the same amplitude, as have all others.", "quantifier": "all numbers of qubits and iterations, all functions and all lists of valid calls that compute them", "why_tests_cant": "all functions, sizes and iteration counts", "anchors": ["src/qudiet/core/quantum_circuit.py::QuantumCircuit.h", "src/qudiet/core/quantum_circuit.py::QuantumCircuit.x", "src/qudiet/core/quantum_circuit.py::QuantumCircuit.toffoli", "src/qudiet/core/quantum_circuit.py::QuantumCircuit.run", "src/qudiet/circuit_library/standard_gates/toffoli_utility.py"]}
{"id": "C67", "title": "A layer handed over several times stays one object", "statement": "In a session with several circuits and hand-made Moments: if only the user's own Moments are handed to circuits, and each one with an idle register at most once, then everything seen is what would be seen if every hand-over copied the Moment, and nothing done to one circuit shows in another. Otherwise it does: when one idle Moment is handed over several times, a single-register gate called once on one of the circuits takes effect in every circuit as often as the Moment was handed to it, and the Moment the user holds changes.", "quantifier": "all sessions: all interleavings of statements on any number of circuits, layers and lists", "why_tests_cant": "all sessions", "anchors": ["src/qudiet/core/operator_flow.py::OperatorFlow.populate_opflow", "src/qudiet/core/operator_flow.py::OperatorFlow.peek", "src/qudiet/core/moment.py::Moment", "src/qudiet/core/moment.py::Moment.replace_igate"]}
{"id": "C68", "title": "What a circuit keeps of the lists it was given", "statement": "Changing a list after it was passed as init_states, or any list that is not the qregs of a circuit, is invisible to every circuit. The list passed as qregs is kept, not copied: if the caller changes it between the last gate call and run(), run() labels the outcomes (or raises IndexError) as an output processor over the new list would, the reports give the new width, and if a dimension was lowered, a later h, x or z on that register makes run() raise.", "quantifier": "all register lists before and after, all calls, all sessions", "why_tests_cant": "all aliasing histories", "anchors": ["src/qudiet/core/quantum_circuit.py::QuantumCircuit.__init__", "src/qudiet/core/quantum_circuit.py::QuantumCircuit.run", "src/qudiet/core/quantum_circuit.py::QuantumCircuit.get_circuit_config", "src/qudiet/core/output.py::Output"]}
{"id": "C69", "title": "An output processor over other registers", "statement": "If the output processor given to a circuit is over other registers than the circuit's, the k-th basis state of the circuit is shown with the k-th label of the processor's registers and its own amplitude; if an outcome has no such label run() raises IndexError. With as many basis states as the circuit's, every outcome is shown, each with its own label.", "quantifier": "all register lists of circuit and processor, all valid calls", "why_tests_cant": "all circuits and processors", "anchors": ["src/qudiet/core/output.py::Output", "src/qudiet/core/quantum_circuit.py::QuantumCircuit.run"]}
{"id": "C70", "title": "Only the order on each register matters", "statement": "Two programs whose calls are the same and in the same order on every register give the same result of run(). More generally calls may be reordered as long as two calls that are not free to be exchanged keep their order; free are calls that share no register; two of x, cx and toffoli when neither adds to a control of the other; two diagonal calls such as z; and a diagonal call with one of x, cx and toffoli that has another target. The order does matter otherwise, and the reported depth depends on it even for free calls.", "quantifier": "all register lists, initial states, lists of valid calls and permutations of them, all output formats", "why_tests_cant": "all programs and all reorderings", "anchors": ["src/qudiet/core/quantum_circuit.py::QuantumCircuit.run", "src/qudiet/core/operator_flow.py::OperatorFlow.populate_opflow_test"]}
{"id": "C71", "title": "Circuits are reversible maps", "statement": "With unitary gates, the amplitudes of two runs of the same calls from different initial levels are orthogonal, and for every outcome the squared moduli over all initial levels sum to one. A circuit of x, cx (on two registers) and toffoli calls maps lists of levels to lists of levels one to one and onto.", "quantifier": "all register lists, all lists of valid unitary calls, all pairs of initial levels", "why_tests_cant": "all pairs of inputs of all circuits", "anchors": ["src/qudiet/core/quantum_circuit.py::QuantumCircuit.run"]}
{"id": "C72", "title": "Every circuit can be undone", "statement": "For calls of x, z, cx, toffoli and, on qubits and qutrits, h there are further calls of the same kind, made after them in reverse order, such that the rest of the program gives the same result as if none of them had been made; at the end of a circuit they give back the initial levels with certainty.", "quantifier": "all register lists, initial states and lists of such calls, before and after any valid calls, all output formats", "why_tests_cant": "all circuits", "anchors": ["src/qudiet/core/quantum_circuit.py::QuantumCircuit.run", "src/qudiet/core/quantum_circuit.py::QuantumCircuit.h", "src/qudiet/core/quantum_circuit.py::QuantumCircuit.x", "src/qudiet/core/quantum_circuit.py::QuantumCircuit.z", "src/qudiet/core/quantum_circuit.py::QuantumCircuit.cx", "src/qudiet/core/quantum_circuit.py::QuantumCircuit.toffoli"]}
{"id": "C73", "title": "Generated tests pass whatever is drawn", "statement": "generateTestCases makes the number of random test cases asked for and two for each size from low to high, and if low is at least 3 every one of them passes, whatever the random draws are. From low = 2 or less on, some of them fails.", "quantifier": "all ranges of sizes, all outcomes of the random generator", "why_tests_cant": "all random draws of all sizes", "anchors": ["test_circuit/test_useQudiet.py::generateTestCases", "test_circuit/useQudiet.py", "test_circuit/circuit.py"]}
{"id": "C74", "title": "Line ends of QASM files", "statement": "parse_qasm of a file gives the same circuit whichever of the three line ends (LF, CR LF, CR) is used for each line, so a program file means the circuit of its declarations and calls on every system. This does not hold for circuit_from_qasm on strings: with CR LF in the string, an RX line is dropped silently.", "quantifier": "all texts, all choices of line ends for each line", "why_tests_cant": "all files", "anchors": ["src/qudiet/qasm/qasm_parser.py::parse_qasm", "src/qudiet/qasm/qasm_parser.py::circuit_from_qasm"]}
{"id": "C75", "title": "Scripts stopped at any point", "statement": "Wherever license-headers.py fix is stopped, every file is as it was or as the complete run would leave it, but for at most one of the listed files, which holds a beginning of its new contents; running it again completes all the others. That one file can be lost: it can be left with nothing but the first line of the header, which check accepts and a second run leaves so. Wherever a batch of experimental.py is stopped, no circuit file is touched, at most one result file is incomplete, and running the batch again completes all results.", "quantifier": "all lists of files and contents, all years, all points at which the script is stopped, including in the middle of writing", "why_tests_cant": "all crash points", "anchors": ["scripts/license-headers.py::_add_header", "scripts/license-headers.py::fix", "experimental.py"]}
{"id": "C76", "title": "gate with the classes of the library", "statement": "gate(HGate, q) and gate(ZGate, q) have the effect of h(q) and z(q). gate(IGate, q) returns True and has no effect on the result of run(), but raises the reported depth by one. gate with XGate, CXGate, the toffoli gate or Measurement raises TypeError and leaves the circuit as it was.", "quantifier": "all register lists, initial states and scripts that mix such calls with the others", "why_tests_cant": "all scripts", "anchors": ["src/qudiet/core/quantum_circuit.py::QuantumCircuit.gate", "src/qudiet/circuit_library/standard_gates/i.py::IGate"]}
{"id": "C77", "title": "Choice and order of registers", "statement": "A circuit built for some registers can be placed on any registers of a larger circuit with the same dimensions, in any order: the amplitude of every outcome is that of the small circuit if all other registers keep their initial levels, and 0 otherwise. In particular the order in which registers are listed does not matter. Custom gates on a list of registers are excluded, and toffoli with a single control, which runs or raises depending on whether the two registers are neighbours.", "quantifier": "all register lists, all choices and orders of registers, all initial states, outcomes and scripts", "why_tests_cant": "all placements of all scripts", "anchors": ["src/qudiet/core/quantum_circuit.py::QuantumCircuit._get_moment_data", "src/qudiet/circuit_library/standard_gates/toffoli_utility.py", "src/qudiet/circuit_library/standard_gates/cx.py::CXGate"]}
{"id": "C78", "title": "Running backward", "statement": "The script of inverse calls in reverse order takes level list t to level list s with the complex conjugate of the amplitude with which the script takes s to t, so both have the same probability.", "quantifier": "all registers, all scripts of reversible calls, all initial and final level lists", "why_tests_cant": "all scripts", "anchors": ["src/qudiet/core/quantum_circuit.py::QuantumCircuit.run", "src/qudiet/circuit_library/standard_gates/h.py::HGate", "src/qudiet/circuit_library/standard_gates/z.py::ZGate"]}
{"id": "C79", "title": "Interrupted calls", "statement": "A method call or run() may be interrupted at any point, for example by Ctrl-C. If run() later returns a result, the circuit is the one that results when some of the calls are made completely and the others not at all. This holds for all calls but measure_all() in any case; an interrupted measure_all() can leave a circuit on which run() raises whatever is called afterwards.", "quantifier": "all circuits, all sequences of calls and runs, all points of interruption in each of them", "why_tests_cant": "all crash points in all histories", "anchors": ["src/qudiet/core/operator_flow.py::OperatorFlow.populate_opflow_test", "src/qudiet/core/quantum_circuit.py::QuantumCircuit.measure_all", "src/qudiet/core/quantum_circuit.py::QuantumCircuit.run"]}
{"id": "C80", "title": "Threads", "statement": "Several threads may build one circuit at the same time if no register is used by two of them: when all have finished, measure_all() and run() give the result of the threads' calls made one thread after the other, whatever the schedule. No thread waits for another, so all finish. If two threads use the same register, a gate can be lost without any exception.", "quantifier": "all register lists, initial states, numbers of threads, programs of the threads, and all schedules that can switch between any two accesses to shared objects", "why_tests_cant": "all schedules", "anchors": ["src/qudiet/core/operator_flow.py::OperatorFlow.populate_opflow_test", "src/qudiet/core/moment.py::Moment.replace_igate", "src/qudiet/core/quantum_circuit.py::QuantumCircuit.__add_moment_to_opflow"]}
{"id": "C81", "title": "Comparing circuits with weak_compare", "statement": "weak_compare(qc1, qc2) never reports a layer that comes from calls which both circuits have in common, and never tells a circuit built by valid calls from one that goes on with further calls. If after common calls each circuit opens a layer with a gate of another class, and the numbers of layers differ in the end, exactly that layer is reported. That nothing is reported does not mean that the circuits agree: circuits with equally many layers are not compared at all, and gates that joined an existing layer are not seen, so circuits with different layers and different results pass. With NumpyBackend it raises AttributeError whenever the numbers of layers differ, and so it does when one circuit is measured and the other one has gone on.", "quantifier": "all register lists, initial states, pairs of call histories and backends", "why_tests_cant": "all pairs of call histories", "anchors": ["src/qudiet/utils/debug.py::weak_compare", "src/qudiet/utils/debug.py::moment_to_repr", "src/qudiet/core/moment.py::Moment.__init__"]}
{"id": "C82", "title": "Running a circuit while others build it", "statement": "Let several threads build one circuit, no register being used by two of them before they call measure_all(), and let run() be called after some measure_all() has returned, while the other threads go on. Then run() raises, or it returns the result of one script: some of each thread's calls before its measure_all(), in order and without gaps, including all calls that had returned before any measure_all() began and all calls that the thread whose measure_all() took effect made before it. If no thread is within a call when measure_all() is called, and no thread does anything until it has returned, run() does not raise and its result is that of exactly the calls made before. run() never waits for other threads. A call interleaved with measure_all() can indeed make it raise for ever. run() called before any measure_all() has returned may return a wrong result, with a layer of gates missing. When no other thread does anything, it behaves as described elsewhere.", "quantifier": "all non-empty register lists, initial states, numbers of threads, programs of the threads, and all schedules that can switch between any two accesses to shared objects, before and during run()", "why_tests_cant": "all schedules", "anchors": ["src/qudiet/core/operator_flow.py::OperatorFlow.exec", "src/qudiet/core/moment.py::Moment.exec", "src/qudiet/core/quantum_circuit.py::QuantumCircuit.run", "src/qudiet/core/quantum_circuit.py::QuantumCircuit.measure_all"]}
{"id": "C83", "title": "States written on the gates of the decomposition", "statement": "Every gate that test_circuit's Circuit(n).simulate() makes says at which state of the control it acts and how many states of the target it uses. The state of the control is the highest level of the register that RUN_CIRC gives to the control, which is where QuDiet's cx acts, and the target's register has at least as many levels as written. There is one exception: if n - 1 is at least 4 and leaves remainder 0 or 1 when divided by 4, the gates to and from the right child of node (n - 1) // 4 say that it is a ququad, though its register is a qutrit.", "quantifier": "all numbers of lines n >= 3, all gates of the network", "why_tests_cant": "all numbers of lines", "anchors": ["test_circuit/circuit.py::Circuit.make_gates", "test_circuit/circuit.py::Circuit.simulate", "test_circuit/useQudiet.py::RUN_CIRC"]}
{"id": "C84", "title": "The licence script covers exactly the visible Python files below its arguments", "statement": "Run from a directory with any arguments (relative, absolute, with '.', '..' and repeated slashes, naming files or directories, overlapping), 'check' exits with status 0 if every .py or .pyi file that is an argument or lies below one, and none of whose directories up to the root of the disk begins with '.' or '__', has the header, and with status 1 otherwise; it changes nothing. 'fix' inserts the header into exactly the files 'check' complains about, once each, and creates or removes nothing; afterwards 'check' passes and 'fix' changes nothing. Arguments that name nothing are ignored in silence. In a working directory that is hidden or lies below a hidden directory, and if no argument leads out of it, both do nothing and report success. Without a mode IndexError, with another mode AssertionError.", "quantifier": "all directory trees, all working directories, all argument lists, all file contents, all years", "why_tests_cant": "directory trees of every shape and depth; a test has one checkout in one place", "anchors": ["scripts/license-headers.py::main", "scripts/license-headers.py::find_files_to_fix", "scripts/license-headers.py::does_file_need_fix", "scripts/license-headers.py::add_header_to_file"]}
{"id": "C85", "title": "What x, cx and toffoli can compute", "statement": "On two or more registers of which at least one has an even dimension, every one-to-one function of the registers' levels is computed by some circuit of x, cx and toffoli calls: started in any levels and measured, it returns the function's value as the only outcome, with amplitude one. If all dimensions are odd, exactly the even permutations of the lists of levels are computed by such circuits; in particular none exchanges two lists of levels and leaves all others as they are. On a single register exactly the cyclic shifts are computed.", "quantifier": "all register lists, all one-to-one functions of the levels, all circuits of these calls", "why_tests_cant": "the claim is about all circuits at once, of every length, and about all functions", "anchors": ["src/qudiet/core/quantum_circuit.py::QuantumCircuit.x", "src/qudiet/core/quantum_circuit.py::QuantumCircuit.cx", "src/qudiet/core/quantum_circuit.py::QuantumCircuit.toffoli", "src/qudiet/core/quantum_circuit.py::QuantumCircuit.run"]}
{"id": "C86", "title": "The batch script covers exactly the visible circuit files below its argument", "statement": "experimental.py -m txt (or qasm) -b BACKEND PATH, run in any working directory with a path that leads to a directory (relative, absolute, with '.', '..' and any slashes, but no wildcard characters), processes exactly the files stem.txt below that directory such that neither the file nor a directory on the way down begins with a dot. The result of each that does not fail is then in stem-BACKEND.pkl beside it, unless that is a directory. No other file is written, created or removed, no circuit file is changed, and directories stay as they were. An empty path means the root of the disk. If the path does not lead to a directory, or with a mode other than txt, qasm, pkl and pickle, nothing is changed and nothing raised. An unknown backend raises Exception, a CUDA backend without CUDA AssertionError, before anything is written.", "quantifier": "all directory trees, working directories and paths, all file contents, all patterns of failing circuits", "why_tests_cant": "directory trees of every shape and depth", "anchors": ["experimental.py::arguments", "experimental.py::main", "experimental.py::routine"]}
{"id": "C87", "title": "What the batch script saves", "statement": "After experimental.py -m txt (or qasm) -b BACKEND PATH, every visible circuit file below the path that holds a well-formed program on registers of at least two levels with valid calls, with any mixture of line ends, has beside it a result with exactly the non-zero amplitudes of the state after these calls in the order of the lines, the number of registers and the number of layers. A circuit file that cannot be read or run gets no result, and an old result of that name stays there unchanged. After a dense and a sparse run, in either order, the two results of every circuit file, whatever it contains, have the same value, width and depth, or neither run wrote one.", "quantifier": "all directory trees and paths, all programs and file contents, all backends that represent matrices faithfully, all ways in which results are written as bytes, all run times", "why_tests_cant": "programs and directory trees of every size", "anchors": ["experimental.py::routine", "experimental.py::main", "src/qudiet/qasm/qasm_parser.py::parse_qasm", "src/qudiet/core/quantum_circuit.py::QuantumCircuit.run", "src/qudiet/core/quantum_circuit.py::QuantumCircuit.get_circuit_config"]}
{"id": "C88", "title": "Laws of custom gates", "statement": "circuit.gate(matrix, registers) obeys the rules of matrix calculation. Only the lowest and highest register of the list count, not the order, repetitions or gaps. Two gates in a row on the same registers are one gate with the product matrix (later gate on the left). The identity matrix is accepted and does nothing. A matrix U with U U* = 1 and its conjugate transpose undo each other in both orders. Gates on neighbouring groups of registers are one gate with the Kronecker product. Any circuit of valid calls equals one gate on all registers whose columns are the results of the circuit for each initial state. Every one-to-one function of the levels is one gate with a matrix of zeros and ones, also where x, cx and toffoli cannot compute it. A gate on two registers, which never runs with the list of the two, runs when one of them is named twice.", "quantifier": "all dimensions of the registers, all matrices the check accepts, all register arguments, all initial levels, all calls before and after, all backends that represent matrices faithfully, all output formats", "why_tests_cant": "matrices, register lists and surrounding circuits range over infinite sets", "anchors": ["src/qudiet/core/quantum_circuit.py::QuantumCircuit.gate", "src/qudiet/circuit_library/__init__.py::ArbitaryGate.unitary", "src/qudiet/core/quantum_circuit.py::QuantumCircuit.run"]}
{"id": "C89", "title": "What operators say about themselves", "statement": "After any calls, accepted or refused, the operators in the layers of a circuit that answer is_controlled with True are exactly those of the accepted cx calls that reach an existing register, one for each call, and the same operators are the ones that answer is_single_qudit with False. So toffoli and custom gates are misreported: each accepted toffoli or gate call that reaches an existing register, however many registers it is on, has an operator in the layers that says it is on one register and not controlled.", "quantifier": "all dimensions, initial levels, output formats and lists of calls, valid or not", "why_tests_cant": "call sequences and circuits of every size", "anchors": ["src/qudiet/core/operator_flow.py::OperatorFlow.peek", "src/qudiet/circuit_library/standard_gates/cx.py::CXGate.is_controlled", "src/qudiet/circuit_library/__init__.py::ArbitaryGate.is_controlled", "src/qudiet/circuit_library/__init__.py::ArbitaryGate.is_single_qudit"]}
{"id": "C90", "title": "What the licence script reports", "statement": "'check' prints 'All files had license header' if no file is to be reported, and otherwise a heading and one line per file, repeated for each argument that leads to the file or to a directory above it. 'fix' prints one line for each file it changes, once however many arguments lead to it, and nothing else. Each line ends with a relative path that leads from the working directory to the file, wherever the file lies on the disk.", "quantifier": "all directory trees, all working directories, all argument lists, all file contents, all years", "why_tests_cant": "directory trees of every shape and depth; a test has one checkout in one place", "anchors": ["scripts/license-headers.py::main", "scripts/license-headers.py::add_header_to_file"]}
{"id": "C91", "title": "Any text that is accepted as QASM", "statement": "Whatever text circuit_from_qasm is given, well-formed or not: if it does not raise, the circuit is one made by the constructor and calls of x, h, z, cx and toffoli with registers that are not negative, without dims, then measure_all(), none of which raises. If the text does not contain the word Toffoli, a program text as in C27 means the same. Conversely the constructor and any such calls without toffoli are the meaning of some text.", "quantifier": "all texts; all register lists and lists of such calls", "why_tests_cant": "arbitrary texts", "anchors": ["src/qudiet/qasm/qasm_parser.py::circuit_from_qasm"]}
{"id": "C92", "title": "Which runs tell two circuits apart", "statement": "Two lists of valid calls can be exchanged for each other in every circuit (whatever valid calls come before and after, and for all initial levels and output formats) if and only if, run alone, they show the same amplitudes from each list of initial levels. Printed amplitudes are enough unless the labels are ambiguous (C12). None of these runs can be left out: for each list of initial levels there is a unitary custom gate that cannot be told from no gate by the runs from all the other levels. Squares are not enough: with OutputMethod.probability a z at the end on a qubit never shows, but h, z, h shows other values than h, h.", "quantifier": "all dimensions of the registers, all pairs of lists of valid calls, all initial levels, all calls before and after, all backends that represent matrices faithfully, all output formats", "why_tests_cant": "one claim about all circuits around the calls, reduced to finitely many runs", "anchors": ["src/qudiet/core/quantum_circuit.py::QuantumCircuit.run", "src/qudiet/core/quantum_circuit.py::QuantumCircuit.__init__", "src/qudiet/core/quantum_circuit.py::QuantumCircuit.measure_all"]}
{"id": "C93", "title": "Laws of h, x, z and cx on qubits and qutrits", "statement": "In every circuit of valid calls, with exact arithmetic: on a qubit or qutrit there is a d-th root of unity w other than 1 (on a qubit -1), the same for all circuits, such that x then z is w times z then x, h then z is w times x then h, and z then h is w times h then the inverse of x (times: all listed amplitudes come out multiplied). On a qubit h, z, h is x and h, x, h is z, with all amplitudes negated, because z has its phase 1 at the top level. On two qubits, cx between h on both is cx with control and target exchanged, and cx between h on its target does not change when control and target are exchanged.", "quantifier": "all dimensions of the other registers, all positions of the qubits, all initial levels, all calls before and after, all backends that represent matrices faithfully, the output types of C13 with amplitudes (for the exact laws all formats)", "why_tests_cant": "registers, surrounding circuits and real amplitudes range over infinite sets", "anchors": ["src/qudiet/core/quantum_circuit.py::QuantumCircuit.h", "src/qudiet/core/quantum_circuit.py::QuantumCircuit.x", "src/qudiet/core/quantum_circuit.py::QuantumCircuit.z", "src/qudiet/core/quantum_circuit.py::QuantumCircuit.cx", "src/qudiet/core/quantum_circuit.py::QuantumCircuit.run"]}
{"id": "C94", "title": "The batch script shows saved results again", "statement": "experimental.py -m pkl PATH (or pickle) goes through the visible entries named *.pkl below the directory that the path leads to, each once, and shows the last name and the saved result of one after the other, until one is a directory or cannot be read; then it raises. If all can be read it shows all of them. It never changes the disk. So one incomplete result, as a stopped batch leaves it, makes it raise. If there was no such entry before, then after experimental.py -m txt -b BACKEND PATH it shows the results of exactly the circuit files that did not fail, each once, as they were computed.", "quantifier": "all directory trees, working directories and paths, all file contents, all patterns of unreadable files and failing circuits, all ways in which results are written and read", "why_tests_cant": "directory trees of every shape and depth, every pattern of failures", "anchors": ["experimental.py::main", "experimental.py::arguments", "experimental.py::routine"]}
{"id": "C95", "title": "The scripts running at the same time", "statement": "Any number of invocations of license-headers.py (fix and check) and experimental.py run at the same time, the operating system interleaving their reads and writes, piece by piece, in any way. If no two get into each other's way (a file that one fix gives a header is not listed by another fix or check, and no two batches share a result file; a sparse and a dense batch never do, and a batch never disturbs fix or check), every check reports what it reports alone, and in the end the files are as if the invocations had run one after the other, in whatever order. If all are stopped at any moment, the files are as each of them would leave them if it were stopped while running alone. Even if they do get into each other's way, a file that needs no header is never changed or reported, and circuit files are never changed. But two fix runs on the same file in need of a header can end with nothing in it but the header, and check then accepts it.", "quantifier": "all numbers of invocations, all lists of files and contents, all interleavings of their steps, all sizes of the pieces read and written, all moments of stopping", "why_tests_cant": "the interleavings are infinitely many and a test sees the one that the machine happens to choose", "anchors": ["scripts/license-headers.py::main", "scripts/license-headers.py::does_file_need_fix", "scripts/license-headers.py::add_header_to_file", "experimental.py::main", "experimental.py::routine"]}
{"id": "C96", "title": "Levels can be copied, superpositions cannot", "statement": "The calls x(p, plus=d-1-j), cx(p, q, plus=j), x(p, plus=j+1-d) for each level j copy the level of a register of d levels into any register at level 0 that has at least as many, and change nothing else. Any calls that copy all levels give, after any circuit that leaves q at level 0, only outcomes in which the two registers agree, each with the amplitude it had before the copying. So no circuit that copies the levels copies the superposition that h makes of them: its result differs from that of h on both registers.", "quantifier": "all dimensions of the registers, all initial levels, all circuits before, all lists of valid calls tried as copiers, all backends that represent matrices faithfully", "why_tests_cant": "a statement that no circuit of any length exists", "anchors": ["src/qudiet/core/quantum_circuit.py::QuantumCircuit.x", "src/qudiet/core/quantum_circuit.py::QuantumCircuit.cx", "src/qudiet/core/quantum_circuit.py::QuantumCircuit.h", "src/qudiet/core/quantum_circuit.py::QuantumCircuit.run"]}
{"id": "C97", "title": "Dense coding", "statement": "In every circuit, with exact arithmetic, whatever the circuit before does as long as it leaves qubits p and q at level 0: the calls h(p), cx(p,q), then x(p) if b and z(p) if a, then cx(p,q), h(p) put p at level a and q at level b and leave the other registers as they were; all amplitudes are negated if a is 1.", "quantifier": "all registers beside the two qubits and all positions of these, all initial levels, all circuits before, all backends that represent matrices faithfully", "why_tests_cant": "the other registers are in one of infinitely many states", "anchors": ["src/qudiet/core/quantum_circuit.py::QuantumCircuit.h", "src/qudiet/core/quantum_circuit.py::QuantumCircuit.x", "src/qudiet/core/quantum_circuit.py::QuantumCircuit.z", "src/qudiet/core/quantum_circuit.py::QuantumCircuit.cx", "src/qudiet/core/quantum_circuit.py::QuantumCircuit.run"]}
{"id": "C98", "title": "The license header script when files cannot be read or written", "statement": "Directories that cannot be listed are skipped without notice; a file is reached if the directories from a named one to it can be listed. check never changes a file; it raises if and only if a reached file in scope cannot be read, with the error of such a file, and otherwise its status is 0 if and only if all reached files in scope have the header. fix raises if and only if a reached file in scope cannot be read, or has no header and cannot be read in full or written, with the error of such a file; however it ends, a file is as it was or has got the header, and only files that were reached, in scope, without header and readable and writable get it; if it does not raise all of these have got it. The order in which the files are dealt with does not depend on which of them fail, and follows the arguments: check and fix raise the error of the first file that stops them, and fix has then given the header to the files before it that had none, and to no others. Once the permissions are repaired, running fix again gives the disk that it would have given in the first place.", "quantifier": "all directory trees, working directories and arguments, all file contents, all sets of unlistable directories and of files that cannot be read, read in full or written, all errors", "why_tests_cant": "every pattern of failures in trees of every shape", "anchors": ["scripts/license-headers.py::main", "scripts/license-headers.py::find_files_to_fix", "scripts/license-headers.py::does_file_need_fix", "scripts/license-headers.py::add_header_to_file"]}
{"id": "C99", "title": "The batch script when results cannot be saved", "statement": "experimental.py -m txt -b BACKEND PATH (or qasm) passes over directories that cannot be listed and does not raise if results cannot be saved. For every circuit file that does not fail, in a directory it comes to, the result is afterwards in the result file beside it; if that file cannot be opened it is as before, and if writing it fails it holds a beginning of the result; no other file is touched, so the results of other circuits are not affected. Running the script again when nothing fails leaves the same files as if nothing had failed the first time. But the batch does not tell that a result is incomplete: showing the results with -m pkl raises then, if the incomplete result cannot be read.", "quantifier": "all directory trees, working directories and paths, all patterns of unlistable directories, failing circuits and results that cannot be opened or are cut off after any number of characters", "why_tests_cant": "every pattern of failures in trees of every shape", "anchors": ["experimental.py::main", "experimental.py::routine"]}
{"id": "C100", "title": "How many outcomes a circuit lists", "statement": "run() never lists more outcomes than the product, over all calls of h and of custom gates, of the number of levels (for several registers: of combinations of levels) of what the gate acts on, and never more than the registers have combinations of levels; x, cx, toffoli and z add none, and x, cx on two different registers and toffoli leave the number exactly as it is. From any point of a program, further calls multiply the number at most by the product for these calls. A program for qubits with n calls of h and no custom gate lists at most 2^n outcomes, however many other calls it makes. The bound is reached by calling h once on each register.", "quantifier": "all registers, initial levels, programs of valid calls, backends and output formats", "why_tests_cant": "the bound is about programs of every length on registers of every size", "anchors": ["src/qudiet/core/quantum_circuit.py::QuantumCircuit.run", "src/qudiet/core/output.py", "src/qudiet/core/operator_flow.py"]}
{"id": "C101", "title": "Showing saved results when files or directories cannot be accessed", "statement": "experimental.py -m pkl PATH (or pickle), where directories may refuse to be listed and files to be opened or read: it goes through the visible entries with that ending in the directories it can come to, each once, and shows name and result of one after the other until one cannot be opened or read; then it raises what opening or reading that one raises. So one such file that it comes to makes it raise. Results in directories that cannot be come to are left out without an exception, and the others are all shown if they can be read. Where every access works it shows and ends as in C94.", "quantifier": "all directory trees, working directories and paths, all patterns of unlistable directories and of files that cannot be opened or read, all errors", "why_tests_cant": "every pattern of failures in trees of every shape", "anchors": ["experimental.py::main"]}
{"id": "C102", "title": "get_circuit_info() while other threads build the circuit", "statement": "Threads apply valid gates to one circuit, no two to a common register, and one thread calls get_circuit_info() while they go on. Once they stop the call comes to an end. For every kind of gate, and in total, it reports at least as many gates as calls had returned when get_circuit_info() was called, and at most as many as calls had been begun when it was done. 'qudit' is the number of registers. 'depth' is that of the circuit when get_circuit_info() was called, so it can be too small for the gates that are reported. With no other thread at work the report is the usual one.", "quantifier": "all register lists, initial levels, programs of any number of threads and interleavings of their accesses to the circuit", "why_tests_cant": "A race shows only for particular interleavings; tests see a few of them.", "anchors": ["src/qudiet/core/quantum_circuit.py::QuantumCircuit.get_circuit_info", "src/qudiet/core/operator_flow.py::OperatorFlow.populate_opflow_test"]}
{"id": "C103", "title": "str(circuit) while other threads build the circuit", "statement": "Threads apply valid gates to one circuit, no two to a common register, and one thread calls str(circuit) while they go on. Once they stop the call comes to an end. If it returns, the text has as many rows and columns as the drawing of the circuit when it was called; every symbol of that drawing is at the same place, and every symbol shown is at the same place of the drawing of the circuit when the call is done. The depth in the last line lies between the two depths. It can raise, but only IndexError and only if the depth has grown by at least two since the call. With no other thread at work the text is the usual one.", "quantifier": "all register lists, initial levels, programs of any number of threads and interleavings of their accesses to the circuit", "why_tests_cant": "A race shows only for particular interleavings; tests see a few of them.", "anchors": ["src/qudiet/core/quantum_circuit.py::QuantumCircuit.__str__", "src/qudiet/core/quantum_circuit.py::QuantumCircuit.get_circuit_config", "src/qudiet/core/operator_flow.py::OperatorFlow.populate_opflow_test"]}
{"id": "C104", "title": "draw('mpl') while other threads build the circuit", "statement": "Threads apply valid gates to one circuit, no two to a common register, and one thread calls draw('mpl') while they go on. Once they stop the call comes to an end. If it returns, the layers drawn are those with the same numbers that draw('mpl') of the circuit when it was called draws, with at least its shapes, and those that draw('mpl') of the circuit when the call is done draws, with at most its shapes, in the same order. The figures are numbered from 1 on and show these layers one after the other; there are at least as many as for the circuit when draw was called and at most as many as for the circuit when the call is done. If it raises, then no layer had been added when it was called, and the exception is IndexError, or draw('mpl') of the circuit when the call is done raises too. If no layer had been added when it was called it raises IndexError, whatever is added after that. With no other thread at work the drawing is the usual one.", "quantifier": "all register lists, initial levels, programs of any number of threads and interleavings of their accesses to the circuit", "why_tests_cant": "A race shows only for particular interleavings; tests see a few of them.", "anchors": ["src/qudiet/utility/circuit_draw.py::draw_circuit_mpl", "src/qudiet/utility/circuit_draw.py::_draw_layer", "src/qudiet/core/operator_flow.py::OperatorFlow.populate_opflow_test"]}
{"id": "C105", "title": "Threads that run, print and draw a circuit beside one another", "statement": "Let any number of threads build one circuit while any number of others call run(), get_circuit_info(), str(circuit) or draw('mpl') on it. The circuit that is built is the one that the builders alone would have built. What get_circuit_info(), str(circuit) and draw('mpl') return or raise is what they would without the other calls, with the same interleaving with the builders; so C102, C103 and C104 hold of each of them. The same holds of run() if it is the only call of run(). Of several, each that raises raises what it would alone, and each that returns returns the result of one of them, but not always its own: run() returns the attribute circuit_output, which another run() may have set in between. If the builders have stopped before the calls begin, each run() that ends returns or raises what run() does on the circuit that was built. Each call comes to an end once the other threads stop.", "quantifier": "all circuits, programs of any number of threads, numbers of calls of these methods and interleavings of the accesses to the circuit", "why_tests_cant": "A race shows only for particular interleavings; tests see a few of them.", "anchors": ["src/qudiet/core/quantum_circuit.py::QuantumCircuit.run", "src/qudiet/core/quantum_circuit.py::QuantumCircuit.get_circuit_info", "src/qudiet/core/quantum_circuit.py::QuantumCircuit.__str__", "src/qudiet/utility/circuit_draw.py::draw_circuit_mpl"]}
