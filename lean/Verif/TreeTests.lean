import Verif.Tree

/-!
# The generated tests of the decomposition

test_circuit/test_useQudiet.py. What `random` returns is a parameter: the numbers of lines drawn, and for each of
them a list of bits of that length.
-/

namespace QuDiet.Tree

/-- test_useQudiet.py:35-37: a test case is a number of lines, the input and the expected label. -/
structure TestCase where
  n : Nat
  inp : List Nat
  exp : List Char
  deriving DecidableEq, Repr

/-- test_useQudiet.py:18 `flip`. -/
def flip (b : Nat) : Nat := if b = 1 then 0 else 1

/-- test_useQudiet.py:25-38: the test case for the bits drawn. Without lines, line 30 raises an `IndexError`. -/
def drawnCase (bits : List Nat) : PyM TestCase :=
  if 0 ∉ bits.dropLast then
    match bits.getLast? with
    | none => .error .index
    | some b => .ok ⟨bits.length, bits, label (bits.set (bits.length - 1) (flip b))⟩
  else .ok ⟨bits.length, bits, label bits⟩

/-- test_useQudiet.py:43-62: the two test cases for a number of lines. -/
def fixedCases (n : Nat) : List TestCase :=
  [⟨n, List.replicate n 1, label (List.replicate (n - 1) 1 ++ [0])⟩,
   ⟨n, List.replicate (n - 1) 1 ++ [0], label (List.replicate n 1)⟩]

/-- test_useQudiet.py:5-64 `generateTestCases`. -/
def generateTestCases (draws : List (List Nat)) (low high : Nat) : PyM (List TestCase) := do
  let drawn ← draws.mapM drawnCase
  .ok (drawn ++ (List.range' low (high + 1 - low)).flatMap fixedCases)

/-- test_useQudiet.py:70-75: the test passes. An exception of `RUN_CIRC` makes it fail. -/
def TestCase.passes {R : Type} [CommRing R] [StarRing R] [DecidableEq R] [UnitaryCheck R] (N : Numerics R)
    (B : Backend R) (c : TestCase) : Prop :=
  runCirc N B c.n (some (c.inp.map Int.ofNat)) = .ok (.str c.exp)

end QuDiet.Tree
