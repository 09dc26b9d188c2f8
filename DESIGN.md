# Formal model of QuDiet in Lean 4 — design

Everything is under `lean/Verif/`. Model files mirror the Python function by function and cite file and lines.
Specification files (`Spec`, `QasmSpec`, the definitions at the top of the `Props` files) use no model helper.
`Lemmas/` holds proofs. `Props/` holds the property theorems, each followed by an `example` that meets its hypotheses.
`properties.jsonl` is the English list (generated by `tools/mkprops.py`), `MANIFEST.json` maps it to theorem names,
`seeded/LOG.jsonl` records the wrong programs the theorems were tried against. There `declarations_failed` lists what no longer checks after the edit (with its proof
replaced, so that later modules are still checked), and `theorems_failed` the property theorems that are among these or whose proofs use
them. When only a helper lemma fails directly, this shows that the proof does not go through, not yet that the statement is false.

## Model modules

| module | models |
|---|---|
| `Py` | list indexing and slicing with negative indices, `range`, `min`/`max`, exceptions as values (`Except Err`) |
| `Radix` | `utils/numpy.py`, `utils/linalg.py::ttg`, `toffoli_utility.py::generate_combinations` |
| `Mat` | numpy matrices as (rows, cols, entry function) over any commutative star ring; the backend interface; `NumpyBackend` |
| `Sparse` | `SparseBackend` on coordinate lists |
| `Gates` | gate objects and their `unitary`, `acting_on`; `InitState`; `toffoli_dm`; `ArbitaryGate` |
| `Circuit` | `QuantumCircuit`, `Moment`, `OperatorFlow`, `Output` as a state machine over values: constructor, `h/x/z/cx/toffoli/gate/measure/measure_all/run`, `get_circuit_config`, `get_circuit_info` |
| `Objects` | the same methods on mutable objects in a shared memory, statement by statement: aliasing of caller lists, of the layer list and of `Moment` objects, several circuits in one session, exceptions that keep earlier effects |
| `Moments` | `OperatorFlow.populate_opflow` with any number of hand-made `Moment`s of any length |
| `Share` | sessions as in `Objects` in which the user also makes `Moment` objects and hands the same object over several times, or one taken from another circuit |
| `Draw` | `QuantumCircuit.__str__`; which shapes `utility/circuit_draw.py` puts where |
| `Pages` | how `draw_circuit_mpl` distributes the layers over figures |
| `Qasm` | `circuit_from_qasm` on character lists, each regular expression as an explicit scanner |
| `Tree` | `test_circuit/circuit.py`, `useQudiet.py`, `main.py::mathematical_expectation` |
| `TreeTests` | `test_circuit/test_useQudiet.py`: the test generator and the test, for any random draws |
| `QasmFile` | `parse_qasm`: reading a file with universal line ends |
| `Tools` | `experimental.py` (file naming and loop), `scripts/license-headers.py` |
| `Walk` | `scripts/license-headers.py` from the command line: `os.path.abspath`, `os.walk`, files on a disk with directories, exit status. Not: links, files that cannot be read; what is printed is in `Report` |
| `Runs` | invocations of both scripts as programs of file accesses, and their interleaving. The names of the files are given; no file is removed |
| `Glob` | `experimental.py` from the command line: `glob.glob`, the choice of the backend, result files on a disk with directories. With the modes `pkl` and `pickle`, which read saved results and show them. Not: paths with wildcard characters, what else is printed, names with `[`, which rich may take for markup and raise |
| `Batch` | what `experimental.py` computes and saves for one circuit file. Not: the bytes that `pickle` writes, the times |
| `Crash` | the same two scripts stopped at any point, also while a file is being written |
| `Interrupt` | calls and runs interrupted at any point |
| `Threads` | threads that call methods of one circuit, step by step |
| `Readers` | `run` as a thread beside others, one access to a layer at a time |
| `InfoWhile` | `get_circuit_info` as a thread beside others, one access to a layer at a time |
| `StrWhile` | `str(circuit)` as a thread beside others, one access to a layer at a time |
| `MplWhile` | `draw('mpl')` as a thread beside others, one access to a layer at a time |
| `Several` | any number of threads with `run`, `get_circuit_info`, `str` and `draw('mpl')` beside those that build; the attribute `circuit_output` |
| `Accessors` | the properties `is_controlled` and `is_single_qudit` of the gates |
| `Report` | what `scripts/license-headers.py` prints, with `os.path.relpath` |
| `Debug` | `utils/debug.py`, and the operators that each layer was made with |
| `GateClass` | `gate` called with the gate classes of the library |

| specification module | contents |
|---|---|
| `Spec` | basis states, amplitudes as functions on digit lists, "what each gate call means" |
| `Semantics` | which calls are valid, what a history of calls means, poisoned histories |
| `Exact` | what is assumed of `np.roots` and `math.sqrt` when amplitudes matter (with a witness that it can be met) |
| `Float` | what is assumed of a backend that rounds (C54, C55), and an instance that rounds to p bits after each operation |
| `Tolerance` | the unitarity check with the tolerances of `np.allclose`, and how far off the matrices it accepts can be |
| `Amplitude` | the amplitude of one outcome, read off what `run()` returns; `h` on the first registers (C60–C66) |
| `QasmSpec` | program texts: a program as data and how it is written |
| `QasmForms` | the ways in which a line of gates can be written, and malformed lines |

## Trusted base

* Lean's kernel. Axioms: every theorem of the manifest depends on at most `propext`, `Classical.choice`,
  `Quot.sound`; the list per theorem is below (regenerate with `tools/axioms.py`). No axioms are added, there is no
  `sorry`, `native_decide` or `bv_decide`.
* The reading of the Python code by the model (comments cite the lines) and of the English in `properties.jsonl` by
  the theorem statements.
* numpy/scipy primitives have their documented meaning: `np.kron`, `np.dot`, `np.eye`, `circulant`, `np.repeat`,
  `np.tile`, `itertools.product`, `nonzero`. `np.roots(x^d - 1)` and `1/math.sqrt(d)` are parameters
  (`Numerics`); theorems state what they assume of them. numpy below version 2 is assumed where the code relies
  on its integer conversions.
* Regular expressions, `str.split`, `int()` act as on ASCII text; no limit on the number of digits of an integer.

## Check against the repository's tests

`Props/RepoTests` states the tests of `test/test_circuit.py`, `test/test_bin.py` and `test/test_qasm.py` that assert values,
of the model. All hold except `test_qudit_toffoli`, whose expectation belongs to the version of `toffoli` that is
commented out in quantum_circuit.py:248-276: with the present code the control on register 2 (four levels, at level 2)
is not active, in the model and in the text of `toffoli_dm`. `test_backend.py` and `test_parser_1` assert nothing. The examples of
`README.md` are stated too: the first places a gate other than the one described beside it, and the QASM program given as an
indented string raises IndexError.

## Simplifications and what is not modelled

`COVERAGE.md` (written by `tools/coverage.py`) lists every function of the repository with the modules that cite it, or the
reason why none does.

* Floating point: amplitudes are elements of an exact commutative star ring (ℂ when moduli matter), except in C54 and
  C55, which are about backends that round. There, what IEEE arithmetic, numpy and scipy guarantee is the hypothesis
  `Backend.Rounds`: relative error `u` for each product, the usual bound for sums of products in any order, exact
  multiplication by 1 and addition of 0; overflow and underflow are not modelled. `nonzero()` is exact.
* The unitarity check of custom gates and of the toffoli matrix is a parameter (`UnitaryCheck`), assumed only to accept
  0-1-matrices with orthonormal rows and to reject 0-1-matrices with a row of zeros. `isUnitary` in theorems is its
  answer; C58 says what follows for checks with a tolerance and for numpy's. The product inside the check is not
  rounded.
* 64-bit overflow of numpy integers, memory and time limits.
* CUDA backends (they are covered by C24 to the extent that they implement the same operations). Storage formats of
  scipy matrices.
* Negative `dims=` arguments, registers or states that are not integers, `cregs` other than an integer.
* Lists are shared by reference and may be changed by the caller at any time (`Objects`), but the sessions of C68 with
  a changed `qregs` list have one circuit. Negative entries written into that list are read as 0.
* `get_index` broadcasting for rows of the wrong length.
* In the matplotlib drawing: colours, vertical positions, and how wide texts are rendered (a parameter of C59; lengths
  are exact rationals).
* Names of gates and layers, `prev`/`next` pointers and the debugger, which nothing modelled reads.
* `QuantumGate` (abstract base class), packaging.
* `test_circuit/circuit.py`: `floor(log(c, 2))` is the exact logarithm (floating point agrees for c < 2^47).
* `scripts/license-headers.py`: every listed path exists; except in C98 it can be read and written, and in C98 a write that fails fails on
  opening, so the file is as before. `experimental.py`: except in C99 and C101 writing a
  result file succeeds and directories can be listed; a circuit file's result is an arbitrary function of its name and contents (except in C87). When one of them is
  stopped (C75), a beginning of the text has reached the file being written and other files are not affected.
* Threads (C80): accesses to the circuit are atomic steps as in CPython; a layer's operators are looked at in one step.
  Changing a circuit's registers while other threads build is not modelled.
* `get_circuit_info` beside other threads (C102): taking the length of the list of layers and asking for the next layer or the next operator are single steps. `str` (C103) goes through the layers in the same way; each `get_circuit_config` of it is one step. `draw('mpl')` (C104) looks for a second layer in one step and then goes through the layers in the same way and draws each of them where `paginate` (C59) says; the labels of the lines are read from the initial layer, which never changes.
* Readers (C82): `run` copies the list of layers in one step, looks at the last layer in one step, and copies one layer's operators in one step once it has its first operator.
  For one-register circuits, where `Moment.exec` takes no product and so does not raise for a measurement, the value is `Rc.valueOne`; `C82_spoiled` and `C82_too_early` are about two registers.

## Properties and proofs

The core is one refinement theorem (C01): for every register list, initial state and call history, `run` equals
listing the non-zero amplitudes of a state (a function from digit lists to amplitudes) transformed call by call.
Proof: (1) mixed-radix codec lemmas (`Lemmas/Radix`, `States`); (2) the matrix of a layer acts block by block on digit
lists, by induction on the layer (`Layers`); (3) replacing an identity block by a gate equals applying that gate
after the layer, which makes packing sound (`Flow`, `Step`, `Emit`, `Emit2`); (4) an invariant over call histories
(`Exec`, `Refine`, `Run`, `Script`). `Lemmas/Objects` shows that sessions on mutable objects behave like circuits
as values, so that all theorems transfer to sessions.

| property | modelled | proof |
|---|---|---|
| C01, C02, C25, C36 | Circuit, Gates | refinement theorem; each gate's matrix computed from the table-building code; algebra of the specification steps |
| C03–C05 | Gates, Radix | entries of `circulant`, of the cx table and of the toffoli table (`GateMats`, `Toffoli`) |
| C06, C19, C37, C38 | Circuit, Gates | "poisoned layer" invariant: a layer whose evaluation raises or has the wrong size stays so, hence `run` raises (`Poison`, `Any`) |
| C07–C09 | Gates, Exact | sums of roots of unity over ℂ, root order universally quantified; C08: h is unitary exactly for uncorrelated root orders (Gram matrix of a bordered circulant, trace of the square), refuted for the order of np.roots for every d ≥ 4 and for every order when d = 4, met by some order for every prime d |
| C10, C13, C43 | Semantics, Exact | each specification step preserves the Hermitian form / the marginal of the other registers (`Norm`, `Local`); refuting witnesses for C13 |
| C11, C12 | Circuit (output) | listing of rows = lexicographic listing of digit lists; label arithmetic; decimal texts in a row are decoded from the left, by induction over the registers (`Props/Labels`) |
| C14, C15 | Radix | induction on the list of dimensions |
| C16, C18, C20–C23, C26 | Circuit | invariants over the call state machine (`Layering`); C21 is a refutation plus what does hold |
| C17, C39, C40, C44 | Objects | simulation between sessions and values (`Lemmas/Objects`) |
| C24 | Mat, Sparse | simulation between backends (`Backend`) |
| C27–C31 | Qasm, QasmSpec | scanners on written programs, induction over the lines (`Qasm`, `Qasm2`, `Qasm3`) |
| C53 | Circuit, Gates | no operator but the preparation has more rows than columns (for custom gates an assumption, which follows from the check if that is exact), so a layer with more columns than the state has entries makes the product raise; h/x/z of the register's own dimension keep the layer's width (`Lemmas/Large`) |
| C54 | Float, Circuit, Gates | each operator's matrix has a single 1 in each column; Kronecker products and products of such matrices are computed exactly by any backend that rounds (`Lemmas/Picks`); every operator of a circuit comes from one of the calls (`Lemmas/History`) |
| C55 | Float, Circuit, Gates | relative errors and column sums through Kronecker products and products of matrices (`Lemmas/Approx`), gate matrices by Cauchy–Schwarz, at most one layer per call (`Lemmas/History`) |
| C56 | Moments | the block matrix of a layer applies its gates one after the other (`blockAct_first`, `layerFrom_ok`); the invariant of C01 with the idle registers of the newest layer (`Handed`). Specification: `taken`, `takenAll`, `Ascending`, `covers` |
| C57 | Measuring | every layer with measurements has an origin: `measure_all`, or a layer handed over with the same measurements (`Trace`, by induction over the deeds); a measurement before the last layer has no matrix, so `run` raises (`momentExec_meas`, `flowLoopAny_error`). `C57_runAny_is_run`: for circuits built by methods this `run` is the one of the other theorems. Specification: `MeasAt`, `Deed.measuresAll`, `Deed.lone` |
| C58 | Tolerance, Float, Circuit | from `A A* ≈ 1`: the adjoint almost preserves lengths (Cauchy–Schwarz), hence so does `A` (it is onto when the error is small); lifted to blocks of registers (`Lemmas/Tolerance`), then an induction over the calls |
| C59 | Pages, Draw | invariant of the figure under construction (`Page.Open`); greedy argument for `compress`; the layers of C33 consist of calls on disjoint registers. Specification: `Page.Good`, `Spaced`, `Shape.covers`, `Apart` |
| C60 | Circuit (through C01) | every valid call is linear (kernel form of `meaning_local`), hence so is a list of calls (`Lemmas/Linear`); states as sums of basis states. Specification: `amplitude`, `asInit` |
| C61 | as C60 | `h` on the first `m` registers acts factor by factor (`Lemmas/Product`, induction on `m`); first column of the matrix |
| C62 | as C60 | sum over paths through the oracle, entries ±1/√2 of the qubit matrix; sums of signs by induction on the number of qubits. Specification: `dot`, `AddsInto`; `maskOracle` meets it for every `a`, `c` |
| C63 | as C60 | the chain takes levels to levels (C02); its effect on `k, 0, …, 0` by induction along the chain |
| C64 | as C60 | the three calls take levels to levels and are their own inverse up to order |
| C65 | as C60 | amplitudes after each stage, on the eight level lists, for any amplitudes before; among any other registers in Protocols (`at3`). Specification: `teleportCalls`, `amplitude` |
| C66 | as C60 | invariant "the last qubit is in `|0⟩-|1⟩`, the others have amplitudes φ" (`Kicked`); the reflection is itself an oracle (`reflect_adds`); rotation by `2θ` by induction on the iterations. Specification: `groverSteps`, `diffusion`, `solutions`, `groverAngle` |
| C67 | Share | simulation as in C44 with the memory invariant weakened to layers with an idle register (`Lemmas/Objects`, `Lemmas/Share`); refutation by running the session for any dimensions and any list of hand-overs (`Props/Leak`). Specification: `Careful`, `Table.observe`, `oneLayer` |
| C68, C69 | Objects | two desks that differ in one list (positive part); memory with one circuit, whose value is re-read from the changed list; later gates are gates with a `dims` argument (`Props/Registers`). Specification: `states`, `value`, `script` |
| C70 | as C01 | exchanging two neighbouring free calls (C25 and the commutation laws of diagonal and controlled calls), then sorting one list into the other by induction. Specification: `Call.Free`, `filter` per register |
| C71 | as C01 | calls keep the inner product of two states (`overlap_after`, induction over calls); square matrix with orthonormal rows has orthonormal columns |
| C72 | as C01 | each call followed by its inverse is the identity on states; induction over the calls. Specification: `Call.inverse`, `undoAll` |
| C73 | TreeTests | C34 and C35 for any bits; sizes below three by computing the two fixed cases |
| C74 | QasmFile | induction over the relation `Written` (a text and a file with its line ends); refutation for strings by computing one text |
| C75 | Crash, Tools | induction over the point at which the script is stopped; what the scripts do to a file depends on this file only, and doing it twice is doing it once |
| C76 | GateClass | an identity gate appends a layer equal to an idle one; then the invariant of C01 over mixed scripts |
| C77 | as C01 | an invariant between the state of the small and of the large circuit (`Placed`), kept by every call. Specification: `pick`, `Call.onto` |
| C78 | as C01 | C72 on states, and calls keep inner products (C71) |
| C79 | Interrupt | invariant: all or no measurements are counted, or a layer of measurements stays that makes `run` raise; induction over the tasks |
| C80 | Threads | invariant over all schedules: each layer does what a list of calls does, the calls of each thread take effect in its order, a position that a thread is about to write stays an identity; then the order per register (C70); a rank that decreases with every step of a thread; a schedule that loses a gate |
| C81 | Debug | a call adds at most one record of a layer, so histories with common calls have a common beginning of records; the layer of a valid call is one gate with a matrix among identities; witness computed |
| C82 | Readers | invariants over all schedules: which layers can still change, what a layer does at the moment it is read, which calls it contains; calls that had returned before are in a layer for good; refutations by schedules that spoil a measurement or lose a layer |
| C83 | Tree | the gates of a node are known from the invariant of the loop (C34), so are the registers; case distinction on the place of the node |
| C84 | Walk | `abspath` of an argument is one or two slashes and the names the argument resolves to; the walk finds exactly the files below (induction over the tree); writing a file keeps the shape of the tree, so the walk is the same throughout `fix`; fold over the files with C42. The code applies the hidden-directory test to the absolute path: stated as `C84_hidden` |
| C85 | Circuit (through C01) | the permutations of level vectors that calls compute are a finite, hence inverse-closed, group. It contains every increment controlled on given levels of all other registers (conjugation by `x`); commutators of two of these with different targets are 3-cycles, and the 3-cycles connect all pairs of vectors, so all even permutations are there. A fully controlled increment of a register of even dimension is odd; a controlled increment of a register of odd dimension has odd order, so is even (`Lemmas/Reversible`). Specification: `Levels`, `Reversible`, `Computes` |
| C86 | Glob | paths are followed name by name (`Dir.follow`); `glob` returns exactly the visible entries below (induction over the tree) under names that lead to them; writing a file keeps directories and all other files, so paths mean the same throughout; induction over the files as in C41 (`Lemmas/Glob`). Specification: `Leads`, `Shown`, `CircuitFile`, `resultPath` |
| C87 | Batch (on top of C86, C27, C74, C01, C22, C24) | composition: the circuit read from the file is the one built by the calls, `run` and the configuration from C01 and C22; result files are told apart by their last six letters. Specification: `Program`, `Written`, `meaning`, `layering`, `CircuitFile`, `resultPath` |
| C88 | Custom (on top of C01, C38, C85) | a custom gate is its matrix on a block of registers (`gate_block`); the laws are laws of sums over the states of the block. Specification: `RegArg.Spans`, `SameResults`, `entry`, `Mat.adjoint`, `Mat.kron`, `amplitude`, `Computes` |
| C89 | Accessors (on top of C22) | the operators of the layers are those of the accepted calls (`C22_layers`), filtered by what `is_controlled` and `is_single_qudit` return. Specification: `accepted`, `Call.occupies`, `Call.kind`, `Call.drawn` |
| C90 | Report (on top of C84) | `relpath` goes up to the common directory and down again, so resolving it from the working directory gives the file; the walk lists no file twice; induction over the files fixed, each of which needs no fixing afterwards. Specification: `resolve`, `InScope`, `Headed`, `Covered` as for C84, `List.count`. |
| C91 | Qasm (on top of C27) | a line gives no call, an exception, or a call of one of five forms; the sections and their lines are parts of the text, up to the substitutions, which introduce no `Toffoli`; from the calls a program is written down. Specification: `Readable` (the five forms), `build` and `Program` as for C27. |
| C92 | Custom, Labels, Probability | a circuit is linear, so it is determined by what it does to the basis states (`applyAll_expand`); a diagonal matrix with one entry -1 shows that no run can be left out; C93 for `h`, `z`, `h`. Specification: `SameResults`, `asInit`, `flipAt` |
| C93 | Numeric, Probability, Custom | laws of 2 × 2 and 3 × 3 matrices on one register (`onReg_onReg`), with the roots of `Numerics.Exact`; for two qubits the state is read at the four levels of the two (`at2`). Specification: `SameUpTo`, `SameResults`, `amplitude` |
| C94 | Glob | the entries shown are a first part of a list without repetition of all visible entries (`glob` does not repeat: induction over the tree); the disk after a batch from C86. Specification: `Entry.Below`, `readBack`, `CircuitFile` |
| C95 | Runs | each invocation as a small program of reads and writes, refined to the functions of C41 and C42 (`run_fix`, `run_check`, `run_batch`) and of C75 (`stopped_fix`, `stopped_batch_prog`); by induction over the interleaving, each one has taken the same steps alone on files that are the same as far as it uses them (`atOnce_inv`). Specification: `AtOnce`, `Job`, `Clash`, `Job.effect`, `FixStopped` |
| C96 | Numeric, Laws2 | the circuit is linear in the state before it, so what it does to the levels fixes what it does to a superposition (`applyAll_expand`); the copying calls by `classical_fold`. Specification: `CopiesLevel`, `copyCalls`, `amplitude` |
| C97 | Numeric, Qubits | the state is read at the four levels of the qubits (`at2`) and each call is a small linear map on these. Specification: `denseCalls`, `amplitude` |
| C98 | Access, Walk | an invariant over the list of files says that the disk is the one after fixing the files before the first that fails; what is listed is what the tree without the closed directories lists. Specification: `Reached`, `StopsFix`, `InScope`, `Headed` |
| C99 | BatchFail, Glob | failing to save is moved into the computation of the result (`faulty`), which C86 leaves arbitrary; `glob` as in C86 on the tree without the closed directories (`mem_globIf`). Specification: `Listable`, `savedAs`, `CircuitFile`, `resultPath` |
| C100 | Semantics, Spec | every outcome after a call is one of a bounded number of variants of an outcome before it (`outcome_variants`), so the number grows at most by that factor; induction over the calls. C49 gives the equality for increments and C61 that the bound is reached. Specification: `Call.branches` |
| C101 | BatchFail, Glob | as C94, on the list of files of C99, which is a sublist of the one without failures (`globIf_sublist`), so nothing comes twice. Specification: `readIf`, `Entry.Met`, `Listable` |
| C102 | InfoWhile, Threads | invariant over all schedules: layers only grow and only identities are replaced (`Grows`), the layers hold exactly the gates of the calls that have taken effect, and what has been read lies between the layers at the call and the layers now (`Reads`); a witness for the depth. Specification: `Returned`, `Begun`, `callsOf`, `Info.of` |
| C103 | StrWhile, InfoWhile, Draw | the invariant of C102; every operator marks only registers between those that it names (`Neat`), so two operators of a layer never mark the same one (`MarksApart`) and a layer that grows keeps what it shows (`Grows.shows`); exact condition for the exception; a schedule that raises. Specification: `Circuit.table`, `Grid.Within` |
| C104 | MplWhile, InfoWhile, Draw, Pages | the invariant of C102; a layer that grows can be drawn only if it could before, and its shapes before are a sublist (`drawLayer_below`); wider layers never take fewer figures (`paginate_grows`). Specification: `PartOf`, `Circuit.drawMpl` and `Circuit.drawPages` |
| C105 | Several, Readers, InfoWhile, StrWhile, MplWhile | projection of a run of all threads to the builders and one of the others (`several_reader`), with states that differ only in `circuit_output` (`SameBare`); for several `run()` an invariant about the attribute (`several_results`); after the builders every result is the one of C82_run_alone (`runWhile_after`); each call ends when the others stop (projection and C82, C102, C103, C104); a schedule in which `run()` returns another's result. Specification: `builders`, `onlyReader`, `Circuit.bare` |
| C52 | Qasm, QasmForms | words and first numbers of a line; lines with the same reading can be exchanged; the first exception of a line (`Props/QasmErrors`) |
| C32, C33 | Draw | writes to the grid of distinct cells, by the tiling of C26; exact condition for the exception |
| C34, C35 | Tree | breadth-first loop normalised to a loop over nodes 1..c/2; invariant over processed nodes; reflection as running the invariant backwards (`Tree`, `Tree2`, `Tree3`) |
| C41, C42 | Tools | splitting at dots and line ends; folds over files |
| C45–C50 | Circuit (through C01) | replacing a list of calls by one with the same effect on every state; algebra of controlled increments and diagonal gates (`Props/Laws`, `Laws2`) |
| C51 | Circuit (through C01) | a call on some registers acts on the state with the other registers held fixed (`Lemmas/Parts`); induction over the interleaved calls |

Properties that are false of the code are kept in `properties.jsonl` in the form a user expects, together with what
the code does instead; the theorems prove the refutation with a witness and the exact behaviour (C06, C08, C12, C13,
C21, C29, C31, C33, C41, C42, C67, C68).

## Axioms

- propext: C82_result_one_register
- propext, Classical.choice, Quot.sound: C01_run_sequential, C01_run_total, C01_session_is_script, C02_classical_single_outcome, C03_x_adds, C03_x_out_of_range, C04_cx_controlled, C05_toffoli_controlled, C06_adjacent_toffoli_never_runs, C06_distant_toffoli_is_cx, C07_h_four_times_qutrit, C07_h_is_fourier, C07_h_spreads, C07_h_twice_qubit, C08_h_grows, C08_h_not_unitary, C08_h_not_unitary_dim_four, C08_prime_order, C08_uncorrelated_total, C08_unitary_iff, C09_z_order, C09_z_phases, C100_at_most, C100_growth, C100_kept, C100_qubits, C100_reached, C102_counts, C102_depth, C102_gate_count, C102_registers, C103_alone, C103_between, C103_ends, C103_may_raise, C103_raises, C104_alone, C104_between, C104_ends, C104_figures, C104_figures_alone, C104_figures_show, C104_raises, C104_too_early, C105_mpl, C105_others_end, C105_run_ends, C105_run_may_return_another, C105_str, C10_total_probability_one, C11_output_listing, C11_run_listing, C12_ambiguous_iff, C12_label_digits, C12_labels_collide, C12_labels_collide_eleven, C12_print_decides, C12_print_misleads, C13_not_probabilities, C13_probability_is_square, C13_real_probabilities, C14_decode_encode, C14_encode_decode, C14_length_mismatch, C14_monotone, C15_get_index, C15_tables, C16_answers_after, C16_answers_before, C16_closed, C16_run_needs_measure_all, C17_run_leaves_no_trace, C17_run_repeatable, C18_missing_register, C18_negative_register_ignored, C19_cx_never_raises, C19_cx_outside_is_noop, C19_cx_overlap_never_runs, C20_constructor_accepts, C20_prepared_state, C21_pair_differs, C21_pair_labels, C21_pair_toffoli, C22_depth, C22_depth_bounds, C22_depth_monotone, C22_layers, C23_counts, C23_depth_agrees, C23_pair_reports, C24_backend_independent, C24_numpy_eq_sparse, C25_disjoint_calls_commute, C26_layers_tile, C32_cx_outside, C32_pair_of_two, C32_pair_raises, C32_text_drawing, C33_mpl, C36_opposite_increment_undoes, C37_oversized_rejected, C37_undersized_never_runs, C38_bad_custom_gate_never_runs, C38_custom_gate_acts, C38_two_register_gate_never_runs, C39_raising_call_leaves_no_trace, C40_caller_list_padded, C40_caller_list_padded_list, C40_reuse_raises, C43_no_signalling, C44_circuits_are_isolated, C45_initial_levels_are_x_calls, C46_back_to_start, C46_uncompute, C47_controls_target_increment, C47_increments_add, C47_repetition, C48_diagonal_commutes_with_controls, C48_diagonals_commute, C48_increments_commute, C49_diagonal_multiplies, C49_increments_relabel, C49_z_changes_phases_only, C50_untouched_keeps_level, C51_independent_parts, C51_unused_registers, C53_mixed_toffoli_never_runs, C53_oversized_gate_never_runs, C54_classical_single_outcome, C54_permutations_are_exact, C55_error_bound, C55_linear_bound, C55_no_outcome_lost, C56_gate_lost, C56_layers_act, C56_rest_is_dropped, C56_what_takes_effect, C57_lone_measurement, C57_measured_at_once, C57_runAny_is_run, C58_far_never_runs, C58_gain, C58_numpy_drifts, C58_numpy_total, C58_numpy_unitary_acts, C58_rounded_total, C58_total_of_scalars, C58_total_within, C59_compress, C59_empty_figure, C59_no_overlap, C59_pages, C60_paths, C60_replace, C61_uniform, C62_balanced, C62_bernstein_vazirani, C62_bernstein_vazirani_mask, C62_constant, C62_deutsch_jozsa, C62_kickback, C63_chain, C63_ghz, C64_swap, C65_teleport, C65_teleport_anywhere, C66_grover, C66_success, C67_care_is_needed, C67_isolated, C67_layers_as_values, C67_shared_layer_changes, C67_shared_layer_leaks, C68_changed_registers_classical, C68_changed_registers_relabel, C68_changed_registers_reports, C68_gate_after_change, C68_other_lists_are_free, C69_processor_over_other_registers, C69_same_size, C70_order_matters, C70_order_per_register, C70_reordering, C71_classical_bijection, C71_every_outcome, C71_orthogonal, C72_back_to_start, C72_undo_all, C76_gate_classes, C76_identity_depth, C77_any_order, C77_placing, C77_single_control, C77_valid, C78_backward, C79_all_or_nothing, C79_gates_all_or_nothing, C79_measurement_lost, C80_alone, C80_finishes, C80_lost, C80_lost_result, C80_threads, C81_common_calls, C81_extension, C81_found, C81_measured, C81_missed, C81_numpy, C81_same_depth, C82_measured_alone, C82_one_register, C82_run_finishes, C82_run_while_building, C82_spoiled, C82_too_early, C85_every_function, C85_no_exchange, C85_odd_dimensions, C85_one_register, C88_circuit_as_gate, C88_every_permutation, C88_extent, C88_identity, C88_kron, C88_product, C88_repeat_to_run, C88_undo, C89_controlled, C89_misreported, C92_every_run_needed, C92_initial_levels_decide, C92_print_decides, C92_squares_do_not_decide, C93_between_h, C93_cx_reversed, C93_h_x_z, C96_copied, C96_levels_copied, C96_no_copy, C97_dense_coding, Qasm.C27_missing_register, Qasm.C27_program, Qasm.C27_run, Qasm.C28_ignored_line, Qasm.C29_dims, Qasm.C29_toffoli_line, Qasm.C29_toffolis_do_nothing, Qasm.C30_enough_markers, Qasm.C30_missing_markers, Qasm.C30_no_line_starts_with_dot, Qasm.C31_other_angles_dropped, Qasm.C31_rx_is_x, Qasm.C31_rx_never_runs, Qasm.C52_cx_sign, Qasm.C52_line_forms, Qasm.C52_malformed_kind, Qasm.C52_malformed_line, Qasm.C52_unread_parts, Qasm.C74_crlf_in_strings, Qasm.C74_line_ends, Qasm.C74_program, Qasm.C74_written, Qasm.C91_any_text, Qasm.C91_plain_form, Qasm.C91_written, Tools.C101_all, Tools.C101_left_out, Tools.C101_raises, Tools.C101_shows, Tools.C41_batch, Tools.C41_collision_across_invocations, Tools.C41_result_name, Tools.C42_all_kept, Tools.C42_check, Tools.C42_fix, Tools.C42_header_inserted, Tools.C42_header_position, Tools.C42_line_ends, Tools.C42_new_year, Tools.C42_truncated_header_accepted, Tools.C75_batch, Tools.C75_file_lost, Tools.C75_run_again, Tools.C75_stopped, Tools.C84_check, Tools.C84_fix, Tools.C84_hidden, Tools.C84_missing, Tools.C84_modes, Tools.C86_backend, Tools.C86_batch, Tools.C86_nothing, Tools.C87_backends_agree, Tools.C87_results, Tools.C90_check, Tools.C90_fix, Tools.C90_same_disk, Tools.C94_after_batch, Tools.C94_incomplete, Tools.C94_shows, Tools.C95_any_order, Tools.C95_lost, Tools.C95_safe, Tools.C95_stopped, Tools.C98_all, Tools.C98_check, Tools.C98_fix, Tools.C98_order, Tools.C98_repaired, Tools.C99_again, Tools.C99_batch, Tools.C99_none, Tools.C99_shown, Tree.C34_default_input, Tree.C34_multi_controlled_not, Tree.C34_too_few_lines, Tree.C35_formula, Tree.C35_labels, Tree.C35_partition, Tree.C73_generated_tests_pass, Tree.C73_small_sizes_fail, Tree.C83_control_states, Tree.C83_target_states, Tree.C83_wrong_state
- propext, Quot.sound: C102_alone, C102_depth_may_be_too_small, C102_ends, C105_circuit, C105_info, C105_one_run, C105_run, C105_run_after, C12_labels_differ, C14_too_large, C20_constructor_raises, C20_too_many_levels, C21_pair_is_list, C21_pair_toffoli_alone, C21_two_qubits, C33_cnot_loses_increment, C33_mpl_raises, C33_toffoli_wrong_dimension, C39_raising_call_changes_nothing, C53_small_gate_makes_up, C56_closed, C64_qutrits, C70_depth_depends_on_order, C76_gate_is_method, C76_gate_raises, C82_run_alone, Qasm.C27_declared_dims
