import json
P=[]
def p(id,title,statement,quantifier,why,anchors):
    P.append(dict(id=id,title=title,statement=statement,quantifier=quantifier,why_tests_cant=why,anchors=anchors))
QC="src/qudiet/core/quantum_circuit.py"; OF="src/qudiet/core/operator_flow.py"; MO="src/qudiet/core/moment.py"
OUT="src/qudiet/core/output.py"; INIT="src/qudiet/core/init_states.py"; NP="src/qudiet/utils/numpy.py"; LA="src/qudiet/utils/linalg.py"
G="src/qudiet/circuit_library/standard_gates/"; TOF=G+"toffoli_utility.py"; QA="src/qudiet/qasm/qasm_parser.py"; ARB="src/qudiet/circuit_library/__init__.py"
DRAW="src/qudiet/utility/circuit_draw.py"; TC="test_circuit/"
p("C01","run() is the sequential product of the gate calls",
  "For a circuit QuantumCircuit(qregs=dims, init_states=init) on which a sequence of valid gate calls (h, x, z, cx, toffoli, gate) is made, followed by measure_all(), run() returns exactly the non-zero amplitudes of the state obtained by starting in the basis state |init> and applying the gates one after the other, in call order, each to the registers it names and to no other. The packing of gates into shared layers is invisible.",
  "all register-dimension lists, all valid initial states, all finite sequences of valid gate calls",
  "the layer packing, Kronecker and matrix products interact with every circuit shape; tests sample a handful of circuits",
  [QC+"::QuantumCircuit.run",OF+"::OperatorFlow.populate_opflow_test",OF+"::OperatorFlow.exec",MO+"::Moment.exec",MO+"::Moment.replace_igate"])
p("C02","Classical circuits have one outcome computed by modular arithmetic",
  "A circuit made only of x, cx and toffoli calls (valid registers) yields from run() exactly one entry, with amplitude 1, whose label is the list of register levels obtained by doing the increments modulo each register's dimension on the initial levels.",
  "all dimension lists, initial levels and sequences of x/cx/toffoli calls",
  "infinitely many circuits; the tests check five literals",
  [QC+"::QuantumCircuit.x",QC+"::QuantumCircuit.cx",QC+"::QuantumCircuit.toffoli",QC+"::QuantumCircuit.run"])
p("C03","x(q, plus) adds plus modulo the dimension, for -d <= plus < d only",
  "x(q, plus) with -d <= plus < d maps every basis state |..k..> to |..(k+plus) mod d..> on register q of dimension d and changes nothing else; with any other plus the call is accepted but every later run() of that circuit raises.",
  "all dimensions, all integers plus, all states, all circuits containing the call",
  "unbounded plus and dimension; failure is delayed to run()",
  [G+"x.py::XGate.unitary",QC+"::QuantumCircuit.x"])
p("C04","cx((c,t), plus) increments t exactly when c is at its top level",
  "For distinct in-range registers c and t, in either order and any distance apart, cx adds plus (any integer, modulo the target dimension) to register t on exactly the basis states where register c is at level dim(c)-1, and leaves every other register, including those in between, alone.",
  "all dimension lists, register pairs, integers plus and basis states",
  "all spans/orders/dimensions; the matrix is built by table lookup",
  [G+"cx.py::CXGate.unitary",G+"cx.py::CXGate.update",LA+"::ttg",NP+"::get_index"])
p("C05","toffoli fires exactly when every control is at its top level",
  "toffoli((controls, t), plus) whose registers span at least three positions adds plus modulo dim(t) to register t exactly on the basis states in which every control register is at its top level, for any number and order of controls (target not a control), and leaves the other registers alone.",
  "all dimension lists, control lists, targets, increments and basis states",
  "unbounded number of controls and span",
  [TOF+"::toffoli_dm",TOF+"::Toffoli",QC+"::QuantumCircuit.toffoli"])
p("C06","A toffoli whose registers span exactly two positions can never be run",
  "A user expects toffoli(([c], t)) on neighbouring registers to behave like cx((c,t)). The code instead compares a tuple with a list, so every run() of a circuit containing such an accepted call raises; with a distance of two or more it does behave like cx.",
  "all dimension lists, neighbouring control/target pairs, surrounding circuits",
  "must hold for every surrounding circuit; the failure is in a delayed assertion",
  [ARB+"::ArbitaryGate.unitary",TOF+"::Toffoli"])
p("C07","h gives the uniform superposition from level 0, and every h column is normalised",
  "Applied to a register of dimension d at level 0, h produces every level with amplitude 1/sqrt(d); applied to any level it produces amplitudes whose squared moduli sum to one. For qubits and qutrits h is unitary and equals the Fourier matrix (up to the order of the non-trivial roots).",
  "all dimensions d >= 2, every order in which the root finder may return the roots with 1 last",
  "unbounded dimension and unspecified root order",
  [G+"h.py::HGate.unitary"])
p("C08","h preserves total probability on every register dimension (false from dimension 4 on)",
  "A user relies on h being unitary for every dimension. Whether it is depends on the order in which the root finder lists the d-th roots of unity: circuits whose other gates are unitary have output probabilities that sum to one exactly if the list without its last element 1 is uncorrelated with all its rotations; otherwise h twice from some level gives probabilities that sum to more than one. In the order of np.roots (conjugate pairs by increasing real part), and in the order of angles, h is not unitary for any dimension d >= 4; for dimension 4 it is not unitary in any order; for each prime dimension some other order makes it unitary.",
  "all dimensions, all orders of the roots of unity with 1 last, all circuits",
  "needs exact complex arithmetic and all root orders",
  [G+"h.py::HGate.unitary"])
p("C09","z only changes phases, has order d, fixes the top level and not level 0",
  "z(q) multiplies each basis state by a d-th root of unity that depends only on the level of q, different for different levels; d applications are the identity; amplitudes' moduli never change. With the roots in the root finder's order (1 last) the level whose phase is 1 is d-1, not 0.",
  "all dimensions, all root orders with 1 last, all states",
  "unbounded dimension and unspecified root order",
  [G+"z.py::ZGate.unitary"])
p("C10","Total probability is one",
  "For every valid circuit whose gates are x, z, cx (control != target), toffoli, custom gates with exactly unitary matrices, and h on registers of dimension 2 or 3, the squared moduli of the amplitudes returned by run() sum to one.",
  "all such circuits, any size and depth",
  "unbounded circuits; requires exact arithmetic",
  [QC+"::QuantumCircuit.run",OUT+"::Output.__call__"])
p("C11","run() lists each basis state with non-zero amplitude once, in lexicographic order",
  "The list returned by run() contains one single-key dictionary per basis state of non-zero amplitude, in increasing lexicographic order of the register levels with register 0 most significant, with the amplitude as value, and nothing else.",
  "all dimension lists and all state vectors",
  "all vectors and all mixed radices",
  [OUT+"::Output.__call__",NP+"::Nbase_to_bin"])
p("C12","Printed labels identify the state unless two registers have more than ten levels",
  "With every register dimension at most 10 the characters of a '|...>' label are the levels. Two different basis states have the same label exactly if two registers have more than ten levels each and the first of them has more than eleven or there is a register between them (so on [12, 11] and [11, 2, 11], but not on [11, 12]). If there are no such registers, two circuits that print the same result give the same result in every output format; if there are, two lists of initial levels print the same.",
  "all dimension lists, pairs of basis states, circuits of valid calls and output formats",
  "all pairs of states; the ambiguity needs large dimensions",
  [OUT+"::Output.__call__"])
p("C13","Probability output is the square of the amplitude",
  "With OutputMethod.probability the value is amplitude**2. For real amplitudes it is non-negative and, on circuits as in C10, sums to one. For complex amplitudes it is not the probability: on one qutrit, after h and z, the values sum to 0.",
  "all states with real amplitudes; a complex witness",
  "all circuits",
  [OUT+"::Output.__call__",OUT+"::OutputMethod"])
p("C14","Nbase_to_bin and bin_to_Nbase are inverse mixed-radix codecs",
  "bin_to_Nbase(Nbase_to_bin(v, base), base) = v for every v below the product of the bases; Nbase_to_bin(bin_to_Nbase(s, base), base) = s for every digit list s within base; Nbase_to_bin always returns exactly len(base) digits each below its base; it raises IndexError for every v at or above the product; bin_to_Nbase raises AssertionError exactly on a length mismatch; both are strictly monotone for the lexicographic order.",
  "all bases with positive entries, all values, all digit lists",
  "unbounded values and radices",
  [NP+"::bin_to_Nbase",NP+"::Nbase_to_bin"])
p("C15","ttg and generate_combinations enumerate all digit lists in lexicographic order",
  "ttg(dims) and generate_combinations(dims) both list every digit list within dims exactly once, in lexicographic order, so row i is the mixed-radix expansion of i; get_index of a valid row is its position and of any other list of the same length is None.",
  "all non-empty dimension lists with positive entries",
  "unbounded tables",
  [LA+"::ttg",TOF+"::generate_combinations",NP+"::get_index"])
p("C16","Measurement is required before run() and closes the circuit",
  "run() raises AssertionError until measure_all() has been called. After measure_all() no gate call changes the result of run() or the reported depth; h, x, z, cx and gate then return False (toffoli and measure_all still return True although nothing is added).",
  "all circuits with at least one register, all call sequences before and after measure_all()",
  "all histories",
  [OF+"::OperatorFlow.populate_opflow_test",OF+"::OperatorFlow.exec",QC+"::QuantumCircuit.measure_all",QC+"::QuantumCircuit.toffoli"])
p("C17","run() is repeatable",
  "Calling run() any number of times, before or after further calls, returns the same result each time the circuit is unchanged, and run() never changes what later calls do.",
  "all sessions with any number of circuits, all interleavings of run() with other calls, in which no list is changed after a circuit was given it as qregs",
  "all histories (the source carries a FIXIT about this)",
  [QC+"::QuantumCircuit.run",OF+"::OperatorFlow.exec"])
p("C18","Register bounds of single-register gates",
  "On n registers, h/x/z(q) raises ValueError for q >= n and IndexError for q < -n, leaving the circuit unchanged; for 0 <= q < n it acts on register q; for -n <= q < 0 it is accepted (returns True), adds a layer, and has no effect on run()'s result: negative indices are silently dropped, not resolved.",
  "all integers q, all circuits (for negative q: none of whose calls is one of the exceptions of C53, which run only together with a call of the wrong size)",
  "all integers and all circuits",
  [QC+"::QuantumCircuit.__validate_gate_inputs",QC+"::QuantumCircuit.__add_moment_to_opflow"])
p("C19","Register bounds of cx",
  "cx((c,t)) never raises for an out-of-range register at call time. If the interval between c and t misses the circuit entirely the call is a no-op on run()'s result; if it only partly overlaps the circuit every later run() raises.",
  "all integer pairs and all circuits (for the no-op: none of whose calls is one of the exceptions of C53)",
  "all integers and all circuits; failure is delayed or absent",
  [QC+"::QuantumCircuit.cx",QC+"::QuantumCircuit.__add_moment_to_opflow",G+"cx.py::CXGate.unitary"])
p("C20","Construction accepts exactly the valid initial states",
  "QuantumCircuit(dims, init_states=s) succeeds exactly when every dimension is at least 2, s is not longer than dims, and each s[i] satisfies -dims[i] <= s[i] < dims[i]; missing states are 0; a state equal to its dimension raises IndexError (not the ValueError of larger ones). The built circuit measured and run immediately returns the single label of those states with amplitude 1.",
  "all integer dimension lists and state lists",
  "all integer inputs",
  [QC+"::QuantumCircuit.__init__",INIT+"::InitState.__init__"])
p("C21","QuantumCircuit((n, d)) behaves like QuantumCircuit([d]*n) (false)",
  "The documentation promises that the tuple form builds n registers of dimension d. The state evolves as for the list form, but run() labels every state with exactly two digits in radices (n, d), or raises IndexError, so results agree with the list form only in special cases. toffoli reads the pair as the list of dimensions: it raises IndexError on registers beyond the second; otherwise a toffoli with controls makes run() raise, and one without works on register 1, and on register 0 if n = d.",
  "all n, d and circuits",
  "all sizes",
  [QC+"::QuantumCircuit.__init__",OUT+"::Output.__call__",NP+"::Nbase_to_bin"])
p("C22","Layering and depth",
  "Each single-register h/x/z call goes into the newest layer when that layer is idle on the register and is not the initial layer, otherwise it opens one new layer; every cx, toffoli and custom gate (and every single-register call with a negative index) opens one new layer; a new gate may join such a layer where it is idle. get_circuit_config()['depth'] is the number of gate layers, measured or not, never exceeds the number of accepted gate calls, and never decreases.",
  "all circuits and call sequences",
  "all histories",
  [OF+"::OperatorFlow.populate_opflow_test",QC+"::QuantumCircuit.get_circuit_config"])
p("C23","Gate counts",
  "get_circuit_info() reports, per gate kind, exactly the number of accepted gate calls made before measure_all() that name at least one existing register, omits kinds with count zero, and gate_count is their sum. For registers given as a list its depth agrees with get_circuit_config() and 'qudit' is the number of registers; for the pair form 'qudit' is always 2 and the depth is one too high exactly for a measured circuit on one register.",
  "all circuits and call sequences",
  "all histories; merging must not lose or duplicate gates",
  [QC+"::QuantumCircuit.get_circuit_info"])
p("C24","The result does not depend on the backend",
  "Any two backends whose kron, dot, eye and matrix operations represent the same matrices give the same run() result (or raise the same error) on every circuit; in particular the dense one and a coordinate-list sparse one.",
  "all circuits, all backends meeting the matrix contract",
  "all circuits on all backends",
  ["src/qudiet/core/backend/NumpyBackend.py::NumpyBackend","src/qudiet/core/backend/SparseBackend.py::SparseBackend",MO+"::Moment.exec",OF+"::OperatorFlow.exec"])
p("C25","Gates on disjoint registers commute",
  "Exchanging two adjacent gate calls that touch disjoint register sets does not change run()'s result, although it may change the layers.",
  "all circuits, all adjacent pairs of calls on disjoint registers, all output formats",
  "all circuits and positions",
  [QC+"::QuantumCircuit.run",OF+"::OperatorFlow.populate_opflow_test"])
p("C26","Every layer covers every register exactly once",
  "After any call sequence (out-of-range, rejected and failing calls included), each layer reported by op_flow.peek() is a list of operators which, read left to right, occupy registers 0,1,...,n-1 exactly once each.",
  "all circuits and call sequences",
  "an invariant over all histories",
  [MO+"::Moment",QC+"::QuantumCircuit.__add_moment_to_opflow",MO+"::Moment.replace_igate"])
p("C27","QASM text means the corresponding API calls",
  "circuit_from_qasm of a well-formed program text (header line, .qudit count, one 'qudit xi (d)' / 'qubit xi' / 'qutrit xi' line per register, .begin, X/H/Z/CX/CNOT lines, .end) builds the same circuit as the constructor and the corresponding sequence of API calls followed by measure_all(), or raises what that sequence raises first. Registers are numbered in the order of their declarations; the numbers in their names and the announced count are not used, and neither is text before the first marker or after .end. Running the circuit of a program with valid calls returns the state after these calls; a one-register or Toffoli line that names an undeclared register makes the reader raise. Lines with Toffoli are as in C29.",
  "all register lists and all instruction lists, with ignored lines anywhere",
  "all programs",
  [QA+"::circuit_from_qasm"])
p("C28","Unrecognised QASM lines are skipped silently",
  "A gate-section line that does not start with X, RX..180, H, Z, CX, CNOT or Toffoli (including lower-case gate names and comments) has no effect on the circuit and raises nothing.",
  "all programs, all such lines at all positions",
  "all texts",
  [QA+"::circuit_from_qasm"])
p("C29","QASM Toffoli enlarges its middle register and so cannot fire on declared levels",
  "If the program contains 'Toffoli xa, xb, xc' lines, every register named as a middle control is built with one level more than declared, once, however many Toffolis use it; the gate then triggers only at a level that the declared register does not have, so a qubit program with both controls at 1 leaves the target unchanged.",
  "all programs with three-operand Toffoli lines",
  "all programs",
  [QA+"::circuit_from_qasm",TOF+"::toffoli_dm"])
p("C30","QASM texts without three section markers at line starts are rejected",
  "circuit_from_qasm raises IndexError on every text that has fewer than three section markers each preceded by a newline: in particular a missing header line, a missing .end, or an indented program (as in the README example).",
  "all texts",
  "all texts",
  [QA+"::circuit_from_qasm"])
p("C31","QASM 'RX xq 180' is X with increment 180",
  "A line 'RX xq 180' is translated to x(q, plus=180); run() therefore raises for every circuit containing it whose register q has dimension at most 180. 'RX' with another angle is dropped.",
  "all programs containing such a line",
  "all programs",
  [QA+"::circuit_from_qasm",G+"x.py::XGate.unitary"])
p("C32","The text drawing shows every gate where it acts",
  "For a circuit with registers given as a list, str(circuit) has one row per register: '(dim)|state>', one cell per layer and a last cell '--M--' if the circuit is measured, '-----' otherwise; then the depth and the width. The cell of register q in layer j shows what the gate of that layer does there: 'H', 'Z', 'X(plus)', '*' for controls, 'X(plus)' for targets, '|' for registers that a cx or toffoli passes over, dashes when the register is idle or under a custom gate (custom gates are not shown). Cells are five characters wide unless the text is longer. Circuits built from a pair (n, d) have this drawing only for n = 2; for n >= 3 str raises IndexError. A cx with one register beyond the circuit makes str raise IndexError; a toffoli that reaches from negative numbers into the circuit is left out.",
  "all list-register and pair-register circuits, all call histories",
  "all circuits",
  [QC+"::QuantumCircuit.__str__"])
p("C33","draw('mpl') handles every circuit (false)",
  "The matplotlib drawing looks up dimensions of a cx by absolute register number in a list that starts at the lower of the two registers. It raises exactly when the circuit has no layer after the initial states, or some cx does not involve register 0, or some toffoli has a target greater than the distance between its lowest and highest registers, or no controls. The error is IndexError, unless there is a toffoli without controls (ValueError). When it does not raise it draws every gate once, in its layer; but the dimension on a toffoli is that of register lowest + target, and a cx between two qubits is drawn without its increment.",
  "all circuits with registers given as a list, all call histories in which cx and toffoli lie within the circuit or wholly outside it",
  "all circuits",
  [DRAW+"::_draw_cnot_gate",DRAW+"::_draw_toffoli_gate",DRAW+"::draw_circuit_mpl"])
p("C34","The tree decomposition computes the multi-controlled NOT",
  "RUN_CIRC(n, bits) for every n >= 3 and every list of n bits returns the label of bits with the last bit flipped when all the other bits are 1 and unchanged otherwise; intermediate registers are restored.",
  "all n >= 3, all 2^n inputs",
  "exponentially many inputs per size, unbounded sizes",
  [TC+"circuit.py::Circuit.simulate",TC+"useQudiet.py::RUN_CIRC"])
p("C35","Decomposition gate counts match the closed formula",
  "For every n >= 3 the tern and quat counters of Circuit(n).simulate() equal mathematical_expectation(n); the sets of qubits/qutrits/ququads partition the n lines; the qutrit formula over-counts by one exactly for even control counts.",
  "all n >= 3",
  "unbounded n; the shipped check uses 'and' and never fires",
  [TC+"circuit.py::Circuit.simulate",TC+"main.py::mathematical_expectation"])
p("C36","x, cx and toffoli are undone by the opposite increment",
  "Appending x(q,-p) after x(q,p), cx(.., -p) after cx(.., p) or toffoli(.., -p) after toffoli(.., p) leaves run()'s result as if neither call had been made (valid calls; the control of cx is not its target).",
  "all circuits, registers and increments, all output formats",
  "all circuits",
  [QC+"::QuantumCircuit.x",QC+"::QuantumCircuit.cx",QC+"::QuantumCircuit.toffoli"])
p("C37","A gate smaller than its register makes run() fail rather than give a wrong answer",
  "h/x/z(q, dims=k) with k larger than the register is rejected with ValueError; with k smaller (and non-zero) it is accepted and every later run() raises.",
  "all circuits with otherwise in-range calls",
  "all circuits, delayed failure",
  [QC+"::QuantumCircuit.__validate_gate_inputs",OF+"::OperatorFlow.exec"])
p("C38","Custom gates: matrices that fail the unitarity check never reach the result",
  "gate(G, q) with a matrix that fails the backend's unitarity check or is not d x d is accepted but every run() raises; with a d x d matrix that passes the check it acts on register q as that matrix. gate(G, [q1, q2]) always fails at run().",
  "all circuits, all matrices",
  "all matrices and circuits",
  [ARB+"::ArbitaryGate.unitary",QC+"::QuantumCircuit.gate"])
p("C39","A raising call leaves the circuit unchanged",
  "Whenever a circuit method raises, the circuit's later behaviour (layers, depth, counts, run()) is as if the call had not been made.",
  "all circuits, all calls",
  "all histories with failing calls",
  [QC+"::QuantumCircuit"])
p("C40","The constructor changes the caller's list",
  "A non-empty init_states list shorter than the register count is extended in place with zeros, so reusing the list for a smaller circuit afterwards raises IndexError although it was valid before; an absent or empty list is not touched.",
  "all init lists and register counts",
  "aliasing history",
  [QC+"::QuantumCircuit.__init__"])
p("C41","Batch experiment outputs never collide",
  "One invocation of experimental.py over files stem.ext leaves in stem-suffix.pkl the result of that circuit file as it was at the start (or leaves it untouched if the circuit failed), whichever other files fail; result files of distinct circuit files are distinct; no circuit file and no other file is touched.",
  "all sets of input paths with the same extension, all failure patterns",
  "all file sets",
  ["experimental.py::routine","experimental.py::main"])
p("C42","License header fixing is idempotent and sufficient",
  "'fix' inserts the header exactly once into each listed file that 'check' would report, after the leading encoding/interpreter lines, keeps all original lines in order and touches nothing else; afterwards 'check' reports nothing and a second 'fix' changes nothing. How lines end (line feed, carriage return or both) does not matter for 'check'; 'fix' turns all line ends of the files it changes into line feeds and leaves those of the others.",
  "all file contents, all lists of paths (with repetitions), all years",
  "all file contents",
  ["scripts/license-headers.py::does_file_need_fix","scripts/license-headers.py::add_header_to_file"])
p("C43","A gate does not influence the other registers' statistics",
  "Appending a unitary gate call on some registers leaves the outcome probabilities of every other register unchanged.",
  "all circuits over complex amplitudes and all valid calls of unitary gates on any registers",
  "all circuits",
  [QC+"::QuantumCircuit.run"])
p("C44","Circuits are isolated from each other",
  "In a session with several circuits, constructed in any order and possibly from the same caller lists, what each call, run() or report on one circuit returns does not depend on the calls made on the other circuits, provided no list is changed once it has been passed as qregs (by the caller, or by a constructor that gets it as init_states).",
  "all sessions: any number of circuits, shared lists, any interleaving of calls, runs and reports",
  "all histories and all aliasing patterns",
  [QC+"::QuantumCircuit",OF+"::OperatorFlow",MO+"::Moment"])
p("C45","Initial levels are the same as leading x calls",
  "A circuit constructed with init_states gives the same result as one constructed without them that begins with x(i, init_states[i]) for every entry.",
  "all register lists, all valid initial levels, all lists of valid calls, all output formats",
  "all circuits and initial levels",
  [QC+"::QuantumCircuit.__init__",QC+"::QuantumCircuit.x"])
p("C46","Uncomputing restores the circuit",
  "Any list of x, cx (on two registers) and toffoli calls followed by the calls with opposite increments in reverse order leaves the result as if none of them had been made, wherever it occurs in a circuit; as a whole circuit it ends in the initial levels.",
  "all circuits around it, all lists of classical calls of any length, all output formats",
  "all lists of calls",
  [QC+"::QuantumCircuit.x",QC+"::QuantumCircuit.cx",QC+"::QuantumCircuit.toffoli"])
p("C47","Only the set of controls, the target and the increment modulo the dimension matter",
  "Two x/cx/toffoli calls with the same set of controls (in any order, with repetitions), the same target and increments equal modulo the target's dimension are interchangeable in every circuit; repeated calls add up their increments, and disappear when the sum is a multiple of the dimension.",
  "all circuits, all controlled increments, all repetition counts, all output formats",
  "all circuits, unbounded increments and repetition counts",
  [QC+"::QuantumCircuit.cx",QC+"::QuantumCircuit.toffoli",LA+"::ttg"])
p("C48","Calls that share registers commute when they only read them",
  "Adjacent x/cx/toffoli calls may be exchanged when neither adds to a control of the other; z and diagonal custom gates on one register commute with each other and with every controlled increment whose target they are not on.",
  "all circuits, all pairs of such calls at any position, all output formats",
  "all circuits; depends on how calls are packed into layers",
  [QC+"::QuantumCircuit",OF+"::OperatorFlow.populate_opflow_test"])
p("C49","Increments relabel outcomes, diagonal gates change phases only",
  "Appending x, cx or toffoli moves each outcome by the increment with its amplitude unchanged; appending z or a diagonal custom gate on one register, with invertible factors, keeps the outcomes and their order and multiplies each amplitude by the factor for its register's level, a d-th root of unity for z.",
  "all circuits, all such calls",
  "all circuits",
  [QC+"::QuantumCircuit.run",QC+"::QuantumCircuit.z"])
p("C50","Registers that no call touches keep their level",
  "In every outcome that run() returns, a register that no call touches is in its initial level.",
  "all circuits, all untouched registers, all outcomes",
  "all circuits and outcomes",
  [QC+"::QuantumCircuit.run",OF+"::OperatorFlow.exec"])
p("C51","Independent parts of a circuit multiply",
  "When the calls on the first registers and those on the remaining ones share no gate, the outcomes of the whole circuit are exactly the pairs of outcomes of the two parts run as circuits of their own, with the product of the amplitudes, however the calls are interleaved; appending unused registers only appends their initial levels.",
  "all splits of a register list, all pairs of call lists, all interleavings",
  "all circuits and interleavings",
  [QC+"::QuantumCircuit.run",OF+"::OperatorFlow.exec"])
p("C52","QASM: what of a line is read, and what is not",
  "Only the beginning of the gate name and the first number of each operand count, and any blanks separate words: 'Hadamard y[07] # note' is 'H x7'. The sign of a CX increment is dropped, that of an X increment is not. The text before the header, the kind and number in the header, the names of declared registers and the text after the end never matter. A gate line with a missing operand or an operand without a number makes the reader raise; it is an IndexError if the program could be read without that line, unless it is an X line of three words.",
  "all program texts, all lines",
  "all texts",
  [QA+"::circuit_from_qasm"])
p("C53","A matrix too large for its registers never runs",
  "A toffoli that mixes negative register numbers with existing ones, and a custom gate on a list of registers whose matrix has more columns than the registers from the lowest to the highest one have states, are accepted, and every later run() raises, whatever the other calls, provided that no later h, x or z is given another dimension than its register's and that no matrix of a custom gate has more rows than columns. Without the proviso it fails: a gate of dimension 1 makes the sizes fit again and the toffoli acts on other registers than those named.",
  "all circuits, all register lists, all matrices, all other calls",
  "all circuits, sizes and call histories",
  [QC+"::QuantumCircuit.toffoli",QC+"::QuantumCircuit.gate",OF+"::OperatorFlow.exec"])
p("C54","Rounding cannot change circuits that only permute levels",
  "Whatever the precision of the arithmetic, a circuit on which only x, cx, toffoli and the measurements are called, with any arguments, gives exactly the dictionaries or the exception that exact arithmetic gives: the single outcome of a circuit of increments has amplitude exactly 1.",
  "all lists of such calls, all register lists and initial levels, all precisions, both backends' order of summation",
  "all circuits and all roundings; the products have exponentially many terms",
  ["src/qudiet/core/backend/NumpyBackend.py::NumpyBackend","src/qudiet/core/backend/SparseBackend.py::SparseBackend",OF+"::OperatorFlow.exec",QC+"::QuantumCircuit.run"])
p("C55","Rounding errors are bounded",
  "With arithmetic of relative precision u, the amplitudes that run() shows differ from the exact ones, summed over all basis states, by at most (1+u)^K - 1 times the product of the square roots of the dimensions of the registers on which h is called and of the largest sums of absolute values in a column of the matrices of custom gates, where K = 3m + n(m+1) + (D+1)m for m calls, n registers and D basis states. In particular every outcome whose exact amplitude exceeds this bound is listed, and every entry listed is an outcome whose exact amplitude is within the bound of the one shown.",
  "all circuits of valid calls, all precisions, all roundings of roots, products and sums in any order",
  "all circuits and all roundings",
  ["src/qudiet/core/backend/NumpyBackend.py::NumpyBackend","src/qudiet/core/backend/SparseBackend.py::SparseBackend",OF+"::OperatorFlow.exec",QC+"::QuantumCircuit.run"])
p("C56","Layers made by hand",
  "A user can build layers of gate objects, each with one operator for every register that no other operator of it takes, and hand several at once to the circuit's operator flow. If no layer leaves idle the register of the first h, x or z of the layer after it, all gates take effect as if called one by one. Otherwise that one gate is moved into the layer before, and the other gates of its layer and all further layers of the call are dropped without notice. A measured circuit refuses layers.",
  "all register lists and initial levels, all lists of layers of valid gates, all ways to divide them over calls",
  "all circuits and layers; losing gates depends on the layer before",
  [OF+"::OperatorFlow.populate_opflow",MO+"::Moment"])
p("C57","Registers cannot be measured one by one",
  "A user who hands layers of their own to the operator flow, mixed with any method calls, gets a result from run() only if all registers were measured at once: by measure_all(), or by one layer with a measurement at every position. Registers measured in different layers make every run() raise, although the circuit counts as measured. The one exception: a layer that consists of a single measurement and nothing else may be passed over.",
  "all register lists, all lists of method calls and of layers of any operators, both backends",
  "all circuits and histories",
  [OF+"::OperatorFlow.exec",OF+"::OperatorFlow.populate_opflow",MO+"::Moment.exec",QC+"::QuantumCircuit.run"])
p("C58","What the tolerance of the unitarity check costs",
  "Custom gates need only be unitary up to the tolerance of the backend's check. If the check lets the products of rows be off by at most t, then the probabilities that run() shows sum to one up to the product of (1 + n t) over the custom gates, n being the size of each, minus one; with rounding, the errors of C55 are added. With numpy's tolerances t is 0.00001002; unitary matrices pass, matrices that are off by more never run. The errors do add up: the identity matrix times 1.000001 passes, and repeating it makes the total exceed any bound.",
  "all valid circuits of unitary and custom gates, all matrices, all tolerances and precisions",
  "all matrices and circuits; the bound is about all vectors",
  ["src/qudiet/core/backend/NumpyBackend.py::NumpyBackend.is_unitary",ARB+"::ArbitaryGate.unitary",QC+"::QuantumCircuit.gate",QC+"::QuantumCircuit.run"])
p("C59","The figures of draw('mpl')",
  "draw('mpl', compress) shows the layers of the circuit in order, each exactly once, spread over figures numbered 1, 2, ... The first figure shows the dimension and the initial level of every register, the others do not. In each figure the layers stand side by side with an inch between them, every layer begins before the lines end, and all but the last also end before. Only the last figure can be empty (and it can). No two shapes of a layer are drawn over each other on a register's line, if registers are given as a list and all cx and toffoli name existing registers. A larger compress never gives more figures.",
  "all circuits and call histories, all values of compress, all widths in which texts may be rendered, as long as the labels leave room on the first figure",
  "page breaks depend on the history, the fonts and all widths so far",
  [DRAW+"::draw_circuit_mpl",DRAW+"::_draw_layer",QC+"::QuantumCircuit.draw"])
p("C60","Amplitudes are sums over paths",
  "The amplitude that run() shows for an outcome after a list of calls ks1 followed by ks2 is the sum, over all intermediate level lists t, of the amplitude that a circuit of ks1 shows for t times the amplitude that a circuit of ks2 started in t shows for the outcome. So two lists of calls that agree from every starting level can replace each other anywhere in any circuit.",
  "all register lists, initial levels, valid calls before and after, all outcomes",
  "all circuits; the law relates three circuits for every intermediate state",
  [QC+"::QuantumCircuit.run",OF+"::OperatorFlow.exec",INIT+"::InitState"])
p("C61","h on every register gives all outcomes the same amplitude",
  "After h on every register of a circuit that starts at level 0, run() shows every level list with amplitude one over the square root of the number of level lists, whatever the dimensions of the registers.",
  "all numbers of registers and all dimensions",
  "all register lists; the number of outcomes is exponential",
  [QC+"::QuantumCircuit.h",QC+"::QuantumCircuit.run",G+"h.py::HGate.unitary"])
p("C62","Phase kickback, Bernstein-Vazirani, Deutsch-Jozsa",
  "n qubits at level 0 and one at level 1; h on all, any calls that add f(x) to the last qubit, h on all. run() shows the last qubit at 1 and the others at y with amplitude 2^-n times the sum over x of (-1)^(f(x) + x.y). So for f(x) = a.x + c there is exactly one outcome, a with amplitude (-1)^c; for constant f it is all-0; for balanced f all-0 is not observed.",
  "all numbers of qubits, all functions, all lists of valid calls that compute them, all output formats",
  "all functions and all sizes",
  [QC+"::QuantumCircuit.h",QC+"::QuantumCircuit.cx",QC+"::QuantumCircuit.toffoli",QC+"::QuantumCircuit.run"])
p("C63","A chain of cx entangles all registers",
  "Registers at level 0, h on register 0, then cx from each register to the next, adding the next register's top level. The outcomes are register 0 at any level below its top and the rest at 0, and all registers at their top levels, with amplitude one over the square root of register 0's dimension each. On qubits (plus=1) this is the GHZ state.",
  "all numbers of registers and all dimensions",
  "all register lists",
  [QC+"::QuantumCircuit.h",QC+"::QuantumCircuit.cx",QC+"::QuantumCircuit.run"])
p("C64","Three cx exchange two qubits",
  "cx(a,b), cx(b,a), cx(a,b) on two qubits of any circuit exchange them: every amplitude moves to the outcome with the two levels exchanged. (On qutrits they do not, because cx acts at the top level only.)",
  "all register lists, all pairs of qubits in them, all calls before",
  "all circuits and states",
  [QC+"::QuantumCircuit.cx",QC+"::QuantumCircuit.run"])
p("C65","Teleportation",
  "Any three qubits p, q, r of a circuit with any other registers, and any calls before that leave q and r at level 0. After the teleportation calls h(q), cx(q,r), cx(p,q), h(p), cx(q,r), h(r), cx(p,r), h(r) (the corrections as controlled gates) what p held is in r, with all its correlations with the other registers: each outcome has half the amplitude that the outcome with p at the level of r, and q and r at 0, had before.",
  "all registers beside the qubits and all positions of these, all initial levels, all preparations by any valid calls, all outcomes, all backends that represent matrices faithfully",
  "all (uncountably many) states of a qubit, entangled with any number of other registers",
  [QC+"::QuantumCircuit.h",QC+"::QuantumCircuit.cx",QC+"::QuantumCircuit.run"])
p("C66","Grover's search",
  "Grover's algorithm on n >= 2 qubits and one for the oracle, which is any list of calls that adds f(x) to it, with a toffoli on all n qubits for the reflection. After k iterations the probability of a solution in what run() shows is sin^2((2k+1)t), where sin^2 t is the share of solutions, and all solutions have the same amplitude, as have all others.",
  "all numbers of qubits and iterations, all functions and all lists of valid calls that compute them",
  "all functions, sizes and iteration counts",
  [QC+"::QuantumCircuit.h",QC+"::QuantumCircuit.x",QC+"::QuantumCircuit.toffoli",QC+"::QuantumCircuit.run",TOF])
p("C67","A layer handed over several times stays one object",
  "In a session with several circuits and hand-made Moments: if only the user's own Moments are handed to circuits, and each one with an idle register at most once, then everything seen is what would be seen if every hand-over copied the Moment, and nothing done to one circuit shows in another. Otherwise it does: when one idle Moment is handed over several times, a single-register gate called once on one of the circuits takes effect in every circuit as often as the Moment was handed to it, and the Moment the user holds changes.",
  "all sessions: all interleavings of statements on any number of circuits, layers and lists",
  "all sessions",
  [OF+"::OperatorFlow.populate_opflow",OF+"::OperatorFlow.peek",MO+"::Moment",MO+"::Moment.replace_igate"])
p("C68","What a circuit keeps of the lists it was given",
  "Changing a list after it was passed as init_states, or any list that is not the qregs of a circuit, is invisible to every circuit. The list passed as qregs is kept, not copied: if the caller changes it between the last gate call and run(), run() labels the outcomes (or raises IndexError) as an output processor over the new list would, the reports give the new width, and if a dimension was lowered, a later h, x or z on that register makes run() raise.",
  "all register lists before and after, all calls, all sessions",
  "all aliasing histories",
  [QC+"::QuantumCircuit.__init__",QC+"::QuantumCircuit.run",QC+"::QuantumCircuit.get_circuit_config",OUT+"::Output"])
p("C69","An output processor over other registers",
  "If the output processor given to a circuit is over other registers than the circuit's, the k-th basis state of the circuit is shown with the k-th label of the processor's registers and its own amplitude; if an outcome has no such label run() raises IndexError. With as many basis states as the circuit's, every outcome is shown, each with its own label.",
  "all register lists of circuit and processor, all valid calls",
  "all circuits and processors",
  [OUT+"::Output",QC+"::QuantumCircuit.run"])
p("C70","Only the order on each register matters",
  "Two programs whose calls are the same and in the same order on every register give the same result of run(). More generally calls may be reordered as long as two calls that are not free to be exchanged keep their order; free are calls that share no register; two of x, cx and toffoli when neither adds to a control of the other; two diagonal calls such as z; and a diagonal call with one of x, cx and toffoli that has another target. The order does matter otherwise, and the reported depth depends on it even for free calls.",
  "all register lists, initial states, lists of valid calls and permutations of them, all output formats",
  "all programs and all reorderings",
  [QC+"::QuantumCircuit.run",OF+"::OperatorFlow.populate_opflow_test"])
p("C71","Circuits are reversible maps",
  "With unitary gates, the amplitudes of two runs of the same calls from different initial levels are orthogonal, and for every outcome the squared moduli over all initial levels sum to one. A circuit of x, cx (on two registers) and toffoli calls maps lists of levels to lists of levels one to one and onto.",
  "all register lists, all lists of valid unitary calls, all pairs of initial levels",
  "all pairs of inputs of all circuits",
  [QC+"::QuantumCircuit.run"])
p("C72","Every circuit can be undone",
  "For calls of x, z, cx, toffoli and, on qubits and qutrits, h there are further calls of the same kind, made after them in reverse order, such that the rest of the program gives the same result as if none of them had been made; at the end of a circuit they give back the initial levels with certainty.",
  "all register lists, initial states and lists of such calls, before and after any valid calls, all output formats",
  "all circuits",
  [QC+"::QuantumCircuit.run",QC+"::QuantumCircuit.h",QC+"::QuantumCircuit.x",QC+"::QuantumCircuit.z",QC+"::QuantumCircuit.cx",QC+"::QuantumCircuit.toffoli"])
p("C73","Generated tests pass whatever is drawn",
  "generateTestCases makes the number of random test cases asked for and two for each size from low to high, and if low is at least 3 every one of them passes, whatever the random draws are. From low = 2 or less on, some of them fails.",
  "all ranges of sizes, all outcomes of the random generator",
  "all random draws of all sizes",
  ["test_circuit/test_useQudiet.py::generateTestCases","test_circuit/useQudiet.py","test_circuit/circuit.py"])
p("C74","Line ends of QASM files",
  "parse_qasm of a file gives the same circuit whichever of the three line ends (LF, CR LF, CR) is used for each line, so a program file means the circuit of its declarations and calls on every system. This does not hold for circuit_from_qasm on strings: with CR LF in the string, an RX line is dropped silently.",
  "all texts, all choices of line ends for each line",
  "all files",
  ["src/qudiet/qasm/qasm_parser.py::parse_qasm","src/qudiet/qasm/qasm_parser.py::circuit_from_qasm"])
p("C75","Scripts stopped at any point",
  "Wherever license-headers.py fix is stopped, every file is as it was or as the complete run would leave it, but for at most one of the listed files, which holds a beginning of its new contents; running it again completes all the others. That one file can be lost: it can be left with nothing but the first line of the header, which check accepts and a second run leaves so. Wherever a batch of experimental.py is stopped, no circuit file is touched, at most one result file is incomplete, and running the batch again completes all results.",
  "all lists of files and contents, all years, all points at which the script is stopped, including in the middle of writing",
  "all crash points",
  ["scripts/license-headers.py::_add_header","scripts/license-headers.py::fix","experimental.py"])
p("C76","gate with the classes of the library",
  "gate(HGate, q) and gate(ZGate, q) have the effect of h(q) and z(q). gate(IGate, q) returns True and has no effect on the result of run(), but raises the reported depth by one. gate with XGate, CXGate, the toffoli gate or Measurement raises TypeError and leaves the circuit as it was.",
  "all register lists, initial states and scripts that mix such calls with the others",
  "all scripts",
  [QC+"::QuantumCircuit.gate",G+"i.py::IGate"])
p("C77","Choice and order of registers",
  "A circuit built for some registers can be placed on any registers of a larger circuit with the same dimensions, in any order: the amplitude of every outcome is that of the small circuit if all other registers keep their initial levels, and 0 otherwise. In particular the order in which registers are listed does not matter. Custom gates on a list of registers are excluded, and toffoli with a single control, which runs or raises depending on whether the two registers are neighbours.",
  "all register lists, all choices and orders of registers, all initial states, outcomes and scripts",
  "all placements of all scripts",
  [QC+"::QuantumCircuit._get_moment_data",TOF,G+"cx.py::CXGate"])
p("C78","Running backward",
  "The script of inverse calls in reverse order takes level list t to level list s with the complex conjugate of the amplitude with which the script takes s to t, so both have the same probability.",
  "all registers, all scripts of reversible calls, all initial and final level lists",
  "all scripts",
  [QC+"::QuantumCircuit.run",G+"h.py::HGate",G+"z.py::ZGate"])
p("C79","Interrupted calls",
  "A method call or run() may be interrupted at any point, for example by Ctrl-C. If run() later returns a result, the circuit is the one that results when some of the calls are made completely and the others not at all. This holds for all calls but measure_all() in any case; an interrupted measure_all() can leave a circuit on which run() raises whatever is called afterwards.",
  "all circuits, all sequences of calls and runs, all points of interruption in each of them",
  "all crash points in all histories",
  [OF+"::OperatorFlow.populate_opflow_test",QC+"::QuantumCircuit.measure_all",QC+"::QuantumCircuit.run"])
p("C80","Threads",
  "Several threads may build one circuit at the same time if no register is used by two of them: when all have finished, measure_all() and run() give the result of the threads' calls made one thread after the other, whatever the schedule. No thread waits for another, so all finish. If two threads use the same register, a gate can be lost without any exception.",
  "all register lists, initial states, numbers of threads, programs of the threads, and all schedules that can switch between any two accesses to shared objects",
  "all schedules",
  [OF+"::OperatorFlow.populate_opflow_test",MO+"::Moment.replace_igate",QC+"::QuantumCircuit.__add_moment_to_opflow"])
p("C81","Comparing circuits with weak_compare",
  "weak_compare(qc1, qc2) never reports a layer that comes from calls which both circuits have in common, and never tells a circuit built by valid calls from one that goes on with further calls. If after common calls each circuit opens a layer with a gate of another class, and the numbers of layers differ in the end, exactly that layer is reported. That nothing is reported does not mean that the circuits agree: circuits with equally many layers are not compared at all, and gates that joined an existing layer are not seen, so circuits with different layers and different results pass. With NumpyBackend it raises AttributeError whenever the numbers of layers differ, and so it does when one circuit is measured and the other one has gone on.",
  "all register lists, initial states, pairs of call histories and backends",
  "all pairs of call histories",
  ["src/qudiet/utils/debug.py::weak_compare","src/qudiet/utils/debug.py::moment_to_repr",MO+"::Moment.__init__"])
p("C82","Running a circuit while others build it",
  "Let several threads build one circuit, no register being used by two of them before they call measure_all(), and let run() be called after some measure_all() has returned, while the other threads go on. Then run() raises, or it returns the result of one script: some of each thread's calls before its measure_all(), in order and without gaps, including all calls that had returned before any measure_all() began and all calls that the thread whose measure_all() took effect made before it. If no thread is within a call when measure_all() is called, and no thread does anything until it has returned, run() does not raise and its result is that of exactly the calls made before. run() never waits for other threads. A call interleaved with measure_all() can indeed make it raise for ever. run() called before any measure_all() has returned may return a wrong result, with a layer of gates missing. When no other thread does anything, it behaves as described elsewhere.",
  "all non-empty register lists, initial states, numbers of threads, programs of the threads, and all schedules that can switch between any two accesses to shared objects, before and during run()",
  "all schedules",
  [OF+"::OperatorFlow.exec",MO+"::Moment.exec",QC+"::QuantumCircuit.run",QC+"::QuantumCircuit.measure_all"])
p("C83","States written on the gates of the decomposition",
  "Every gate that test_circuit's Circuit(n).simulate() makes says at which state of the control it acts and how many states of the target it uses. The state of the control is the highest level of the register that RUN_CIRC gives to the control, which is where QuDiet's cx acts, and the target's register has at least as many levels as written. There is one exception: if n - 1 is at least 4 and leaves remainder 0 or 1 when divided by 4, the gates to and from the right child of node (n - 1) // 4 say that it is a ququad, though its register is a qutrit.",
  "all numbers of lines n >= 3, all gates of the network",
  "all numbers of lines",
  [TC+"circuit.py::Circuit.make_gates",TC+"circuit.py::Circuit.simulate",TC+"useQudiet.py::RUN_CIRC"])
p("C84","The licence script covers exactly the visible Python files below its arguments",
  "Run from a directory with any arguments (relative, absolute, with '.', '..' and repeated slashes, naming files or directories, overlapping), 'check' exits with status 0 if every .py or .pyi file that is an argument or lies below one, and none of whose directories up to the root of the disk begins with '.' or '__', has the header, and with status 1 otherwise; it changes nothing. 'fix' inserts the header into exactly the files 'check' complains about, once each, and creates or removes nothing; afterwards 'check' passes and 'fix' changes nothing. Arguments that name nothing are ignored in silence. In a working directory that is hidden or lies below a hidden directory, and if no argument leads out of it, both do nothing and report success. Without a mode IndexError, with another mode AssertionError.",
  "all directory trees, all working directories, all argument lists, all file contents, all years",
  "directory trees of every shape and depth; a test has one checkout in one place",
  ["scripts/license-headers.py::main","scripts/license-headers.py::find_files_to_fix","scripts/license-headers.py::does_file_need_fix","scripts/license-headers.py::add_header_to_file"])
p("C85","What x, cx and toffoli can compute",
  "On two or more registers of which at least one has an even dimension, every one-to-one function of the registers' levels is computed by some circuit of x, cx and toffoli calls: started in any levels and measured, it returns the function's value as the only outcome, with amplitude one. If all dimensions are odd, exactly the even permutations of the lists of levels are computed by such circuits; in particular none exchanges two lists of levels and leaves all others as they are. On a single register exactly the cyclic shifts are computed.",
  "all register lists, all one-to-one functions of the levels, all circuits of these calls",
  "the claim is about all circuits at once, of every length, and about all functions",
  [QC+"::QuantumCircuit.x",QC+"::QuantumCircuit.cx",QC+"::QuantumCircuit.toffoli",QC+"::QuantumCircuit.run"])
p("C86","The batch script covers exactly the visible circuit files below its argument",
  "experimental.py -m txt (or qasm) -b BACKEND PATH, run in any working directory with a path that leads to a directory (relative, absolute, with '.', '..' and any slashes, but no wildcard characters), processes exactly the files stem.txt below that directory such that neither the file nor a directory on the way down begins with a dot. The result of each that does not fail is then in stem-BACKEND.pkl beside it, unless that is a directory. No other file is written, created or removed, no circuit file is changed, and directories stay as they were. An empty path means the root of the disk. If the path does not lead to a directory, or with a mode other than txt, qasm, pkl and pickle, nothing is changed and nothing raised. An unknown backend raises Exception, a CUDA backend without CUDA AssertionError, before anything is written.",
  "all directory trees, working directories and paths, all file contents, all patterns of failing circuits",
  "directory trees of every shape and depth",
  ["experimental.py::arguments","experimental.py::main","experimental.py::routine"])
p("C87","What the batch script saves",
  "After experimental.py -m txt (or qasm) -b BACKEND PATH, every visible circuit file below the path that holds a well-formed program on registers of at least two levels with valid calls, with any mixture of line ends, has beside it a result with exactly the non-zero amplitudes of the state after these calls in the order of the lines, the number of registers and the number of layers. A circuit file that cannot be read or run gets no result, and an old result of that name stays there unchanged. After a dense and a sparse run, in either order, the two results of every circuit file, whatever it contains, have the same value, width and depth, or neither run wrote one.",
  "all directory trees and paths, all programs and file contents, all backends that represent matrices faithfully, all ways in which results are written as bytes, all run times",
  "programs and directory trees of every size",
  ["experimental.py::routine","experimental.py::main","src/qudiet/qasm/qasm_parser.py::parse_qasm","src/qudiet/core/quantum_circuit.py::QuantumCircuit.run","src/qudiet/core/quantum_circuit.py::QuantumCircuit.get_circuit_config"])
p("C88","Laws of custom gates",
  "circuit.gate(matrix, registers) obeys the rules of matrix calculation. Only the lowest and highest register of the list count, not the order, repetitions or gaps. Two gates in a row on the same registers are one gate with the product matrix (later gate on the left). The identity matrix is accepted and does nothing. A matrix U with U U* = 1 and its conjugate transpose undo each other in both orders. Gates on neighbouring groups of registers are one gate with the Kronecker product. Any circuit of valid calls equals one gate on all registers whose columns are the results of the circuit for each initial state. Every one-to-one function of the levels is one gate with a matrix of zeros and ones, also where x, cx and toffoli cannot compute it. A gate on two registers, which never runs with the list of the two, runs when one of them is named twice.",
  "all dimensions of the registers, all matrices the check accepts, all register arguments, all initial levels, all calls before and after, all backends that represent matrices faithfully, all output formats",
  "matrices, register lists and surrounding circuits range over infinite sets",
  ["src/qudiet/core/quantum_circuit.py::QuantumCircuit.gate",ARB+"::ArbitaryGate.unitary",QC+"::QuantumCircuit.run"])
p("C89","What operators say about themselves",
  "After any calls, accepted or refused, the operators in the layers of a circuit that answer is_controlled with True are exactly those of the accepted cx calls that reach an existing register, one for each call, and the same operators are the ones that answer is_single_qudit with False. So toffoli and custom gates are misreported: each accepted toffoli or gate call that reaches an existing register, however many registers it is on, has an operator in the layers that says it is on one register and not controlled.",
  "all dimensions, initial levels, output formats and lists of calls, valid or not",
  "call sequences and circuits of every size",
  ["src/qudiet/core/operator_flow.py::OperatorFlow.peek","src/qudiet/circuit_library/standard_gates/cx.py::CXGate.is_controlled","src/qudiet/circuit_library/__init__.py::ArbitaryGate.is_controlled","src/qudiet/circuit_library/__init__.py::ArbitaryGate.is_single_qudit"])
p("C90","What the licence script reports",
  "'check' prints 'All files had license header' if no file is to be reported, and otherwise a heading and one line per file, repeated for each argument that leads to the file or to a directory above it. 'fix' prints one line for each file it changes, once however many arguments lead to it, and nothing else. Each line ends with a relative path that leads from the working directory to the file, wherever the file lies on the disk.",
  "all directory trees, all working directories, all argument lists, all file contents, all years",
  "directory trees of every shape and depth; a test has one checkout in one place",
  ["scripts/license-headers.py::main","scripts/license-headers.py::add_header_to_file"])
p("C91","Any text that is accepted as QASM",
  "Whatever text circuit_from_qasm is given, well-formed or not: if it does not raise, the circuit is one made by the constructor and calls of x, h, z, cx and toffoli with registers that are not negative, without dims, then measure_all(), none of which raises. If the text does not contain the word Toffoli, a program text as in C27 means the same. Conversely the constructor and any such calls without toffoli are the meaning of some text.",
  "all texts; all register lists and lists of such calls",
  "arbitrary texts",
  ["src/qudiet/qasm/qasm_parser.py::circuit_from_qasm"])
p("C92","Which runs tell two circuits apart",
  "Two lists of valid calls can be exchanged for each other in every circuit (whatever valid calls come before and after, and for all initial levels and output formats) if and only if, run alone, they show the same amplitudes from each list of initial levels. Printed amplitudes are enough unless the labels are ambiguous (C12). None of these runs can be left out: for each list of initial levels there is a unitary custom gate that cannot be told from no gate by the runs from all the other levels. Squares are not enough: with OutputMethod.probability a z at the end on a qubit never shows, but h, z, h shows other values than h, h.",
  "all dimensions of the registers, all pairs of lists of valid calls, all initial levels, all calls before and after, all backends that represent matrices faithfully, all output formats",
  "one claim about all circuits around the calls, reduced to finitely many runs",
  [QC+"::QuantumCircuit.run",QC+"::QuantumCircuit.__init__",QC+"::QuantumCircuit.measure_all"])
p("C93","Laws of h, x, z and cx on qubits and qutrits",
  "In every circuit of valid calls, with exact arithmetic: on a qubit or qutrit there is a d-th root of unity w other than 1 (on a qubit -1), the same for all circuits, such that x then z is w times z then x, h then z is w times x then h, and z then h is w times h then the inverse of x (times: all listed amplitudes come out multiplied). On a qubit h, z, h is x and h, x, h is z, with all amplitudes negated, because z has its phase 1 at the top level. On two qubits, cx between h on both is cx with control and target exchanged, and cx between h on its target does not change when control and target are exchanged.",
  "all dimensions of the other registers, all positions of the qubits, all initial levels, all calls before and after, all backends that represent matrices faithfully, the output types of C13 with amplitudes (for the exact laws all formats)",
  "registers, surrounding circuits and real amplitudes range over infinite sets",
  [QC+"::QuantumCircuit.h",QC+"::QuantumCircuit.x",QC+"::QuantumCircuit.z",QC+"::QuantumCircuit.cx",QC+"::QuantumCircuit.run"])
p("C94","The batch script shows saved results again",
  "experimental.py -m pkl PATH (or pickle) goes through the visible entries named *.pkl below the directory that the path leads to, each once, and shows the last name and the saved result of one after the other, until one is a directory or cannot be read; then it raises. If all can be read it shows all of them. It never changes the disk. So one incomplete result, as a stopped batch leaves it, makes it raise. If there was no such entry before, then after experimental.py -m txt -b BACKEND PATH it shows the results of exactly the circuit files that did not fail, each once, as they were computed.",
  "all directory trees, working directories and paths, all file contents, all patterns of unreadable files and failing circuits, all ways in which results are written and read",
  "directory trees of every shape and depth, every pattern of failures",
  ["experimental.py::main","experimental.py::arguments","experimental.py::routine"])
p("C95","The scripts running at the same time",
  "Any number of invocations of license-headers.py (fix and check) and experimental.py run at the same time, the operating system interleaving their reads and writes, piece by piece, in any way. If no two get into each other's way (a file that one fix gives a header is not listed by another fix or check, and no two batches share a result file; a sparse and a dense batch never do, and a batch never disturbs fix or check), every check reports what it reports alone, and in the end the files are as if the invocations had run one after the other, in whatever order. If all are stopped at any moment, the files are as each of them would leave them if it were stopped while running alone. Even if they do get into each other's way, a file that needs no header is never changed or reported, and circuit files are never changed. But two fix runs on the same file in need of a header can end with nothing in it but the header, and check then accepts it.",
  "all numbers of invocations, all lists of files and contents, all interleavings of their steps, all sizes of the pieces read and written, all moments of stopping",
  "the interleavings are infinitely many and a test sees the one that the machine happens to choose",
  ["scripts/license-headers.py::main","scripts/license-headers.py::does_file_need_fix","scripts/license-headers.py::add_header_to_file","experimental.py::main","experimental.py::routine"])
p("C96","Levels can be copied, superpositions cannot",
  "The calls x(p, plus=d-1-j), cx(p, q, plus=j), x(p, plus=j+1-d) for each level j copy the level of a register of d levels into any register at level 0 that has at least as many, and change nothing else. Any calls that copy all levels give, after any circuit that leaves q at level 0, only outcomes in which the two registers agree, each with the amplitude it had before the copying. So no circuit that copies the levels copies the superposition that h makes of them: its result differs from that of h on both registers.",
  "all dimensions of the registers, all initial levels, all circuits before, all lists of valid calls tried as copiers, all backends that represent matrices faithfully",
  "a statement that no circuit of any length exists",
  [QC+"::QuantumCircuit.x",QC+"::QuantumCircuit.cx",QC+"::QuantumCircuit.h",QC+"::QuantumCircuit.run"])
p("C97","Dense coding",
  "In every circuit, with exact arithmetic, whatever the circuit before does as long as it leaves qubits p and q at level 0: the calls h(p), cx(p,q), then x(p) if b and z(p) if a, then cx(p,q), h(p) put p at level a and q at level b and leave the other registers as they were; all amplitudes are negated if a is 1.",
  "all registers beside the two qubits and all positions of these, all initial levels, all circuits before, all backends that represent matrices faithfully",
  "the other registers are in one of infinitely many states",
  [QC+"::QuantumCircuit.h",QC+"::QuantumCircuit.x",QC+"::QuantumCircuit.z",QC+"::QuantumCircuit.cx",QC+"::QuantumCircuit.run"])
p("C98","The license header script when files cannot be read or written",
  "Directories that cannot be listed are skipped without notice; a file is reached if the directories from a named one to it can be listed. check never changes a file; it raises if and only if a reached file in scope cannot be read, with the error of such a file, and otherwise its status is 0 if and only if all reached files in scope have the header. fix raises if and only if a reached file in scope cannot be read, or has no header and cannot be read in full or written, with the error of such a file; however it ends, a file is as it was or has got the header, and only files that were reached, in scope, without header and readable and writable get it; if it does not raise all of these have got it. The order in which the files are dealt with does not depend on which of them fail, and follows the arguments: check and fix raise the error of the first file that stops them, and fix has then given the header to the files before it that had none, and to no others. Once the permissions are repaired, running fix again gives the disk that it would have given in the first place.",
  "all directory trees, working directories and arguments, all file contents, all sets of unlistable directories and of files that cannot be read, read in full or written, all errors",
  "every pattern of failures in trees of every shape",
  ["scripts/license-headers.py::main","scripts/license-headers.py::find_files_to_fix","scripts/license-headers.py::does_file_need_fix","scripts/license-headers.py::add_header_to_file"])
p("C99","The batch script when results cannot be saved",
  "experimental.py -m txt -b BACKEND PATH (or qasm) passes over directories that cannot be listed and does not raise if results cannot be saved. For every circuit file that does not fail, in a directory it comes to, the result is afterwards in the result file beside it; if that file cannot be opened it is as before, and if writing it fails it holds a beginning of the result; no other file is touched, so the results of other circuits are not affected. Running the script again when nothing fails leaves the same files as if nothing had failed the first time. But the batch does not tell that a result is incomplete: showing the results with -m pkl raises then, if the incomplete result cannot be read.",
  "all directory trees, working directories and paths, all patterns of unlistable directories, failing circuits and results that cannot be opened or are cut off after any number of characters",
  "every pattern of failures in trees of every shape",
  ["experimental.py::main","experimental.py::routine"])
p("C100","How many outcomes a circuit lists",
  "run() never lists more outcomes than the product, over all calls of h and of custom gates, of the number of levels (for several registers: of combinations of levels) of what the gate acts on, and never more than the registers have combinations of levels; x, cx, toffoli and z add none, and x, cx on two different registers and toffoli leave the number exactly as it is. From any point of a program, further calls multiply the number at most by the product for these calls. A program for qubits with n calls of h and no custom gate lists at most 2^n outcomes, however many other calls it makes. The bound is reached by calling h once on each register.",
  "all registers, initial levels, programs of valid calls, backends and output formats",
  "the bound is about programs of every length on registers of every size",
  ["src/qudiet/core/quantum_circuit.py::QuantumCircuit.run","src/qudiet/core/output.py","src/qudiet/core/operator_flow.py"])
p("C101","Showing saved results when files or directories cannot be accessed",
  "experimental.py -m pkl PATH (or pickle), where directories may refuse to be listed and files to be opened or read: it goes through the visible entries with that ending in the directories it can come to, each once, and shows name and result of one after the other until one cannot be opened or read; then it raises what opening or reading that one raises. So one such file that it comes to makes it raise. Results in directories that cannot be come to are left out without an exception, and the others are all shown if they can be read. Where every access works it shows and ends as in C94.",
  "all directory trees, working directories and paths, all patterns of unlistable directories and of files that cannot be opened or read, all errors",
  "every pattern of failures in trees of every shape",
  ["experimental.py::main"])
p("C102","get_circuit_info() while other threads build the circuit",
  "Threads apply valid gates to one circuit, no two to a common register, and one thread calls get_circuit_info() while they go on. Once they stop the call comes to an end. For every kind of gate, and in total, it reports at least as many gates as calls had returned when get_circuit_info() was called, and at most as many as calls had been begun when it was done. 'qudit' is the number of registers. 'depth' is that of the circuit when get_circuit_info() was called, so it can be too small for the gates that are reported. With no other thread at work the report is the usual one.",
  "all register lists, initial levels, programs of any number of threads and interleavings of their accesses to the circuit",
  "A race shows only for particular interleavings; tests see a few of them.",
  [QC+"::QuantumCircuit.get_circuit_info",OF+"::OperatorFlow.populate_opflow_test"])

p("C103","str(circuit) while other threads build the circuit",
  "Threads apply valid gates to one circuit, no two to a common register, and one thread calls str(circuit) while they go on. Once they stop the call comes to an end. If it returns, the text has as many rows and columns as the drawing of the circuit when it was called; every symbol of that drawing is at the same place, and every symbol shown is at the same place of the drawing of the circuit when the call is done. The depth in the last line lies between the two depths. It can raise, but only IndexError and only if the depth has grown by at least two since the call. With no other thread at work the text is the usual one.",
  "all register lists, initial levels, programs of any number of threads and interleavings of their accesses to the circuit",
  "A race shows only for particular interleavings; tests see a few of them.",
  [QC+"::QuantumCircuit.__str__",QC+"::QuantumCircuit.get_circuit_config",OF+"::OperatorFlow.populate_opflow_test"])

p("C104","draw('mpl') while other threads build the circuit",
  "Threads apply valid gates to one circuit, no two to a common register, and one thread calls draw('mpl') while they go on. Once they stop the call comes to an end. If it returns, the layers drawn are those with the same numbers that draw('mpl') of the circuit when it was called draws, with at least its shapes, and those that draw('mpl') of the circuit when the call is done draws, with at most its shapes, in the same order. The figures are numbered from 1 on and show these layers one after the other; there are at least as many as for the circuit when draw was called and at most as many as for the circuit when the call is done. If it raises, then no layer had been added when it was called, and the exception is IndexError, or draw('mpl') of the circuit when the call is done raises too. If no layer had been added when it was called it raises IndexError, whatever is added after that. With no other thread at work the drawing is the usual one.",
  "all register lists, initial levels, programs of any number of threads and interleavings of their accesses to the circuit",
  "A race shows only for particular interleavings; tests see a few of them.",
  [DRAW+"::draw_circuit_mpl",DRAW+"::_draw_layer",OF+"::OperatorFlow.populate_opflow_test"])

p("C105","Threads that run, print and draw a circuit beside one another",
  "Let any number of threads build one circuit while any number of others call run(), get_circuit_info(), str(circuit) or draw('mpl') on it. The circuit that is built is the one that the builders alone would have built. What get_circuit_info(), str(circuit) and draw('mpl') return or raise is what they would without the other calls, with the same interleaving with the builders; so C102, C103 and C104 hold of each of them. The same holds of run() if it is the only call of run(). Of several, each that raises raises what it would alone, and each that returns returns the result of one of them, but not always its own: run() returns the attribute circuit_output, which another run() may have set in between. If the builders have stopped before the calls begin, each run() that ends returns or raises what run() does on the circuit that was built. Each call comes to an end once the other threads stop.",
  "all circuits, programs of any number of threads, numbers of calls of these methods and interleavings of the accesses to the circuit",
  "A race shows only for particular interleavings; tests see a few of them.",
  [QC+"::QuantumCircuit.run",QC+"::QuantumCircuit.get_circuit_info",QC+"::QuantumCircuit.__str__",DRAW+"::draw_circuit_mpl"])

with open("/verif/properties.jsonl","w") as f:
    for x in P: f.write(json.dumps(x)+"\n")
print(len(P))
