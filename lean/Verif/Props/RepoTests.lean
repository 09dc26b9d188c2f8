import Verif.Props.Qasm
import Verif.Props.Codec
import Verif.Props.Layers
import Verif.Props.QasmFile
import Verif.Props.Numeric
import Mathlib.Tactic.IntervalCases

/-! # The tests of the repository, in the model

A check of the model against what the authors expect: each test of `test/test_circuit.py`, `test/test_bin.py` and `test/test_qasm.py`
that asserts something about values, stated of the model. They hold in the model with one exception: `test_qudit_toffoli`. Its
expectation dates from the version of `toffoli` that is now a comment (quantum_circuit.py:248-276); the controls of the present
one are active at their top level only, and register 2 has four levels and is at level 2. -/

namespace QuDiet

namespace RepoTests

open Spec Qasm

section
variable {R : Type} [CommRing R] [StarRing R] [DecidableEq R] [UnitaryCheck R] [Nontrivial R]
variable {N : Numerics R} (hN : N.Sized) {B : Backend R} (hB : B.Lawful)
include hN hB

/-- test/test_circuit.py:36-44. -/
example : script N B (.list ([2, 2, 3, 3, 3, 2, 2, 2, 2, 2, 2, 2, 2].map Int.ofNat)) [1, 1, 1, 0, 1, 0, 0, 0, 0, 0, 0, 0, 0] none
    ([] ++ [.measureAll]) = .ok [(.str "|1110100000000>".toList, 1)] := by
  rw [C02_classical_single_outcome hN hB (by simp) (validStart_of rfl) (by simp) (by simp)]
  rfl

/-- test/test_circuit.py:58-67. -/
example : script N B (.list ([2, 3, 3, 3, 2].map Int.ofNat)) [1, 1, 1, 2, 1] none ([.cx 0 3 1] ++ [.measureAll]) =
    .ok [(.str "|11101>".toList, 1)] := by
  rw [C02_classical_single_outcome hN hB (by simp) (validStart_of rfl) (by simp [Call.Valid, InRange])
    (by simp [Call.Classical])]
  rfl

/-- test/test_circuit.py:70-79. -/
example : script N B (.list ([2, 3, 3, 3, 2].map Int.ofNat)) [1, 1, 1, 2, 1] none ([.cx 3 1 1] ++ [.measureAll]) =
    .ok [(.str "|12121>".toList, 1)] := by
  rw [C02_classical_single_outcome hN hB (by simp) (validStart_of rfl) (by simp [Call.Valid, InRange])
    (by simp [Call.Classical])]
  rfl

/-- test/test_circuit.py:110-119: the value is `|12201>`, and not the `|12211>` of the assertion. -/
example : script N B (.list ([2, 3, 4, 3, 2].map Int.ofNat)) [1, 2, 2, 0, 1] none ([.toffoli [1, 2] 3 1] ++ [.measureAll]) =
    .ok [(.str "|12201>".toList, 1)] := by
  rw [C02_classical_single_outcome hN hB (by simp) (validStart_of rfl) (by simp [Call.Valid, InRange, spanOf])
    (by simp [Call.Classical])]
  rfl

/-- test/test_circuit.py:122-133. -/
example : script N B (.list ([2, 3, 4, 3, 2].map Int.ofNat)) [1, 2, 3, 0, 1] none ([.toffoli [0, 1, 2] 3 1] ++ [.measureAll]) =
    .ok [(.str "|12311>".toList, 1)] := by
  rw [C02_classical_single_outcome hN hB (by simp) (validStart_of rfl) (by simp [Call.Valid, InRange, spanOf])
    (by simp [Call.Classical])]
  rfl

end

/-- test/test_circuit.py:82-94. -/
example : ∃ x, reports (R := ℤ) (.list [2, 3, 3, 3, 2]) [1, 1, 1, 2, 1] none [.cx 3 1 1, .h 0 none, .cx 1 2 1, .measureAll] =
    .ok (.num 5, 2, x) := ⟨_, rfl⟩

/-- test/test_circuit.py:47-56 (`assert result`): four states, each with squared amplitude 1/4. -/
example {N : Numerics ℂ} (hN : N.Exact) {B : Backend ℂ} (hB : B.Lawful) : ∃ amp : Nat → ℂ,
    script N B (.list [4]) [3] none [.h 0 none, .measureAll] =
      .ok [(.str "|0>".toList, amp 0), (.str "|1>".toList, amp 1), (.str "|2>".toList, amp 2), (.str "|3>".toList, amp 3)] ∧
    ∀ k < 4, Complex.normSq (amp k) = 1 / 4 := by
  obtain ⟨amp, h, ha, _⟩ := C07_h_spreads hN hB (dims := [4]) (by simp) (init := [3]) (validStart_of rfl) (pre := []) (by simp)
    (by simp) (q := 0) (by simp) rfl
  exact ⟨amp, h, by simpa using ha⟩

/-- test/test_circuit.py:136-152. -/
example {B : Backend ℤ} (hB : B.Lawful) : script sampleN B (.list ([2, 3, 4, 3, 2].map Int.ofNat)) [1, 2, 2, 0, 1] none
    ([.gate (Mat.eye 3) (.int 3) none] ++ [.measureAll]) = .ok [(.str "|12201>".toList, 1)] := by
  rw [C01_run_sequential sampleN_sized hB (by simp) (validStart_of rfl) (by
    intro k hk
    rw [List.mem_singleton.1 hk]
    exact ⟨by decide, .inl rfl, by decide +kernel, rfl, rfl⟩)]
  have : EqOn [2, 3, 4, 3, 2] (meaning sampleN [2, 3, 4, 3, 2] (.gate (Mat.eye 3) (.int 3) none) (basis [1, 2, 2, 0, 1]))
      (basis [1, 2, 2, 0, 1] : State ℤ) := by
    intro s hs
    obtain ⟨a, b, c, d, e, rfl⟩ : ∃ a b c d e, s = [a, b, c, d, e] := by
      match s, hs.1 with
      | [a, b, c, d, e], _ => exact ⟨a, b, c, d, e, rfl⟩
    have hd : d < 3 := hs.2 3 (by simp) (by simp)
    show onReg 3 3 (Mat.eye 3).e _ _ = _
    unfold onReg
    interval_cases d <;> simp [Mat.eye, List.range_succ, basis]
  show Except.ok (shown _ (meaning sampleN [2, 3, 4, 3, 2] (.gate (Mat.eye 3) (.int 3) none) (basis [1, 2, 2, 0, 1]))) = _
  rw [shown_congr this, shown, outcome_basis (s := [1, 2, 2, 0, 1]) (startLevels_fits (dims := [2, 3, 4, 3, 2]) (init := [1, 2, 2, 0, 1]) (validStart_of rfl))]
  rfl

/-- test/test_circuit.py:97-107, with exact numbers. -/
example {N : Numerics ℂ} (hN : N.Exact) {B : Backend ℂ} (hB : B.Lawful) :
    script N B (.list ([2, 3].map Int.ofNat)) [0, 0] none ([.h 0 none, .cx 0 1 1] ++ [.measureAll]) =
      .ok [(.str "|00>".toList, ((1 / Real.sqrt 2 : ℝ) : ℂ)), (.str "|11>".toList, ((1 / Real.sqrt 2 : ℝ) : ℂ))] := by
  rw [C01_run_sequential hN.sized hB (by simp) (validStart_of rfl) (by simp [Call.Valid, InRange, DimOK])]
  have hc : N.invSqrt 2 ≠ 0 := by
    rw [hN.invSqrt 2 (by simp)]
    simp
  have h2 : ((1 / Real.sqrt 2 : ℝ) : ℂ) = N.invSqrt 2 := by
    rw [hN.invSqrt 2 (by simp)]
    norm_num
  have e : ∀ s ∈ states [2, 3], ([.h 0 none, .cx 0 1 1] : List (Call ℂ)).foldl (fun ψ k => meaning N [2, 3] k ψ)
      (basis (startLevels [2, 3] [0, 0])) s = if s = [0, 0] ∨ s = [1, 1] then N.invSqrt 2 else 0 := by
    have hst : states [2, 3] = [[0, 0], [0, 1], [0, 2], [1, 0], [1, 1], [1, 2]] := by decide
    have hs0 : startLevels [2, 3] [0, 0] = [0, 0] := by decide
    intro s hs
    show move [2, 3] (controlled [2, 3] [0] 1 1) (onReg 2 0 (hadamard (N.roots 2) (N.invSqrt 2) 2) (basis (startLevels [2, 3] [0, 0]))) s = _
    have hm : ∀ t ∈ states [2, 3], onReg 2 0 (hadamard (N.roots 2) (N.invSqrt 2) 2) (basis (startLevels [2, 3] [0, 0])) t =
        if t = [0, 0] ∨ t = [1, 0] then N.invSqrt 2 else 0 := by
      rw [hst, hs0]
      intro t ht
      unfold onReg hadamard basis
      fin_cases ht <;> simp [List.range_succ]
    rw [hst] at hs
    unfold move
    fin_cases hs
    all_goals
      rw [List.map_congr_left (g := fun t => if t = [0, 0] ∨ t = [1, 0] then N.invSqrt 2 else 0)
        (fun t ht => hm t (List.mem_of_mem_filter ht))]
      simp [hst, controlled, atTop, bump]
  have e' : EqOn [2, 3] (([.h 0 none, .cx 0 1 1] : List (Call ℂ)).foldl (fun ψ k => meaning N [2, 3] k ψ)
      (basis (startLevels [2, 3] [0, 0]))) fun s => if s = [0, 0] ∨ s = [1, 1] then N.invSqrt 2 else 0 :=
    fun s hs => e s (mem_states.2 hs)
  rw [shown_congr e', h2]
  have hst : states [2, 3] = [[0, 0], [0, 1], [0, 2], [1, 0], [1, 1], [1, 2]] := by decide
  unfold shown outcome
  rw [hst]
  simp [hc, label]
  rfl

/-- The file test.qasm. -/
def testQasm : Program where
  first := lit "# rev_tof_1 for two 3 qudit registers"
  more := [lit "# developed by Amit Saha"]
  word := .qudit
  count := 3
  blanks := 1
  decls := [.note [], .note [], .qudit 0 2, .qudit 1 3, .qudit 2 2, .note [], .note []]
  instrs := [.x 0, .cx 0 1, .cx 1 2, .cx 0 1]
  tail := ['\n']

/-- test/test_qasm.py:31-36. -/
example {R : Type} [CommRing R] [StarRing R] [DecidableEq R] [UnitaryCheck R] [Nontrivial R]
    {N : Numerics R} (hN : N.Sized) {B : Backend R} (hB : B.Lawful) :
    runText N B testQasm.text = .ok [(.str "|120>".toList, 1)] := by
  have hv : ∀ k ∈ testQasm.calls (R := R), k.Valid testQasm.dims := by
    intro k hk
    have : k ∈ [.x 0 none 1, .cx 0 1 1, .cx 1 2 1, .cx 0 1 1] := hk
    have hd : testQasm.dims = [2, 3, 2] := rfl
    rw [hd]
    fin_cases this <;> simp [Call.Valid, InRange, DimOK]
  rw [runText_accepted (ok_of (by decide +kernel)) (by decide) (by decide)
    (fun k hk => by rw [(hv k hk).applied (by decide)]; simp),
    C02_classical_single_outcome hN hB (by decide) (validStart_of rfl) hv]
  · have hd : testQasm.dims = [2, 3, 2] := rfl
    have hc : testQasm.calls (R := R) = [.x 0 none 1, .cx 0 1 1, .cx 1 2 1, .cx 0 1 1] := rfl
    rw [hd, hc]
    have : [Call.x 0 none 1, .cx 0 1 1, .cx 1 2 1, .cx 0 1 1].foldl (fun s (k : Call R) => classicalStep [2, 3, 2] k s)
      (startLevels [2, 3, 2] []) = [1, 2, 0] := rfl
    rw [this]
    rfl
  · intro k hk
    have : k ∈ [.x 0 none 1, .cx 0 1 1, .cx 1 2 1, .cx 0 1 1] := hk
    fin_cases this <;> trivial

/-- The text is that of the file. -/
example : testQasm.text = lit "# rev_tof_1 for two 3 qudit registers
# developed by Amit Saha
.qudit 3 


qudit x0 (2)
qudit x1 (3)
qudit x2 (2)


.begin
X x0
CX x0 x1
CX x1 x2
CX x0 x1
.end
" := by decide +kernel

/-- The program of test/test_qasm.py:105-124. -/
def parser2 : Program where
  first := lit "# Toffoli test circuit"
  more := []
  word := .qubit
  count := 11
  blanks := 0
  decls := [.note [], .qudit 0 2, .qudit 1 3, .qudit 2 3, .qudit 3 3, .qudit 4 2, .note []]
  instrs := [.note (lit "# Marking with oracle evaluation"), .x 0, .xPlus 1 2, .xPlus 2 2, .x 4, .note [], .toffoli 1 2 3]
  tail := []

/-- test/test_qasm.py:104-139. -/
example {R : Type} [CommRing R] [StarRing R] [DecidableEq R] [UnitaryCheck R] [Nontrivial R]
    {N : Numerics R} (hN : N.Sized) {B : Backend R} (hB : B.Lawful) :
    runText N B parser2.text =
      script N B (.list ([2, 3, 4, 3, 2].map Int.ofNat)) [1, 2, 2, 0, 1] none ([.toffoli [1, 2] 3 1] ++ [.measureAll]) := by
  have hd : parser2.dims = [2, 3, 4, 3, 2] := by decide +kernel
  have hc : parser2.calls (R := R) = [.x 0 none 1, .x 1 none 2, .x 2 none 2, .x 4 none 1, .toffoli [1, 2] 3 1] := rfl
  have hv : ∀ k ∈ parser2.calls (R := R), k.Valid parser2.dims := by
    intro k hk
    rw [hc] at hk
    rw [hd]
    fin_cases hk <;> simp [Call.Valid, InRange, DimOK, spanOf]
  have h2 : ∀ d ∈ parser2.dims, 2 ≤ d := by rw [hd]; decide
  rw [runText_accepted (ok_of (by decide +kernel)) (by rw [hd]; simp) h2
    (fun k hk => by rw [(hv k hk).applied h2]; simp), hd,
    C02_classical_single_outcome hN hB (by simp) (validStart_of rfl) (hd ▸ hv) (by
      intro k hk
      rw [hc] at hk
      fin_cases hk <;> trivial),
    C02_classical_single_outcome hN hB (by simp) (validStart_of rfl) (by simp [Call.Valid, InRange, spanOf])
      (by simp [Call.Classical]), hc]
  have e1 : [Call.x 0 none 1, .x 1 none 2, .x 2 none 2, .x 4 none 1, .toffoli [1, 2] 3 1].foldl
      (fun s (k : Call R) => classicalStep [2, 3, 4, 3, 2] k s) (startLevels [2, 3, 4, 3, 2] []) = [1, 2, 2, 0, 1] := rfl
  have e2 : [Call.toffoli [1, 2] 3 1].foldl
      (fun s (k : Call R) => classicalStep [2, 3, 4, 3, 2] k s) (startLevels [2, 3, 4, 3, 2] [1, 2, 2, 0, 1]) = [1, 2, 2, 0, 1] := rfl
  rw [e1, e2]

/-- test/test_bin.py:29-44. -/
example : binToNbase [1, 1, 1, 0, 1, 0, 0, 0, 0, 0, 0, 0, 0] (.list [2, 2, 3, 3, 3, 2, 2, 2, 2, 2, 2, 2, 2]) = .ok 23296 := by decide +kernel
example : binToNbase [1, 0, 0, 1] (.list [2, 3, 2, 2]) = .ok 13 := by decide +kernel
example : binToNbase [1, 1, 1, 2, 0, 0, 0, 0, 0, 0, 0, 0, 0] (.list [2, 2, 3, 3, 3, 2, 2, 2, 2, 2, 2, 2, 2]) = .ok 24576 := by decide +kernel

/-- test/test_bin.py:47-61. -/
example : nbaseToBin 65 [2, 2, 2, 3, 2, 2] = .ok [1, 0, 1, 1, 0, 1] := by decide +kernel
example : nbaseToBin 64 [2, 2, 2, 3, 2, 2] = .ok [1, 0, 1, 1, 0, 0] := by decide +kernel
example : nbaseToBin 187 [4, 3, 2, 2, 4] = .ok [3, 2, 1, 0, 3] := by decide +kernel
example : nbaseToBin 140 [4, 3, 2, 2, 3] = .ok [3, 2, 1, 0, 2] := by decide +kernel
example : nbaseToBin 689 [3, 2, 5, 4, 2, 3] = .ok [2, 1, 3, 2, 1, 2] := by decide +kernel
example : nbaseToBin 23296 [2, 2, 3, 3, 3, 2, 2, 2, 2, 2, 2, 2, 2] = .ok [1, 1, 1, 0, 1, 0, 0, 0, 0, 0, 0, 0, 0] := by
  decide +kernel

/-! ### README.md -/

section
variable {R : Type} [CommRing R] [StarRing R] [DecidableEq R] [UnitaryCheck R] [Nontrivial R]
variable {N : Numerics R} (hN : N.Sized) {B : Backend R} (hB : B.Lawful)
include hN hB

/-- README.md:39-66, the first example. -/
example : script N B (.list ([2, 3, 3].map Int.ofNat)) [0, 0, 0] none ([.cx 0 1 2] ++ [.measureAll]) =
    .ok [(.str "|000>".toList, 1)] := by
  rw [C02_classical_single_outcome hN hB (by simp) (validStart_of rfl) (by simp [Call.Valid, InRange]) (by simp [Call.Classical])]
  rfl

/-- It is not, as README.md:56 says, a gate with the controls 0 and 1 and the target 2: with both at their top level, register 1
moves, and register 2 does not. -/
example : script N B (.list ([2, 3, 3].map Int.ofNat)) [1, 2, 0] none ([.cx 0 1 2] ++ [.measureAll]) =
    .ok [(.str "|110>".toList, 1)] := by
  rw [C02_classical_single_outcome hN hB (by simp) (validStart_of rfl) (by simp [Call.Valid, InRange]) (by simp [Call.Classical])]
  rfl

end

/-- README.md:107-125, a file. -/
def readmeFile : Program where
  first := lit "# This is the File Header"
  more := [lit "# The File Header section is compulsory", [], lit "# Defining a 3 Qudit circuit"]
  word := .qubit
  count := 3
  blanks := 0
  decls := [.qudit 0 2, .qudit 1 3, .qudit 2 3, .note [], .note (lit "# The Gate composition will go in this"),
    .note (lit "# section, between the .begin and the .end")]
  instrs := [.note [], .note (lit "# Your Gates Here ..."), .toffoli 0 1 2, .note []]
  tail := []

/-- README.md:133-150, the program in a string. -/
def readmeString : Text := lit "
    # This is the File Header
    
    .qubit 3
    qudit x0 (2)
    qudit x1 (3)
    qudit x2 (3)

    .begin
    Toffoli x0, x1, x2
    .end
    "

/-- It cannot be read: the lines are indented. -/
example {R : Type} [CommRing R] : circuitFromQasm (R := R) readmeString = .error .index :=
  C30_missing_markers (by decide +kernel)

example : readmeFile.text = lit "# This is the File Header
# The File Header section is compulsory

# Defining a 3 Qudit circuit
.qubit 3
qudit x0 (2)
qudit x1 (3)
qudit x2 (3)

# The Gate composition will go in this
# section, between the .begin and the .end
.begin

# Your Gates Here ...
Toffoli x0, x1, x2

.end" := by decide +kernel

/-- The file can be read and run. -/
example {R : Type} [CommRing R] [StarRing R] [DecidableEq R] [UnitaryCheck R] [Nontrivial R]
    {N : Numerics R} (hN : N.Sized) {B : Backend R} (hB : B.Lawful) :
    runText N B readmeFile.text = .ok [(.str "|000>".toList, 1)] := by
  have hd : readmeFile.dims = [2, 4, 3] := by decide +kernel
  have hc : readmeFile.calls (R := R) = [.toffoli [0, 1] 2 1] := rfl
  have hv : ∀ k ∈ readmeFile.calls (R := R), k.Valid readmeFile.dims := by
    intro k hk
    rw [hc] at hk
    rw [hd]
    fin_cases hk
    simp [Call.Valid, InRange, spanOf]
  have h2 : ∀ d ∈ readmeFile.dims, 2 ≤ d := by rw [hd]; decide
  rw [runText_accepted (ok_of (by decide +kernel)) (by rw [hd]; simp) h2
    (fun k hk => by rw [(hv k hk).applied h2]; simp), hd,
    C02_classical_single_outcome hN hB (by simp) (validStart_of rfl) (hd ▸ hv) (by
      intro k hk
      rw [hc] at hk
      fin_cases hk
      trivial), hc]
  rfl

end RepoTests

end QuDiet
