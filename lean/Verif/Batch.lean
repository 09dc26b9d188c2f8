import Verif.Glob
import Verif.QasmFile
import Verif.Sparse

/-!
# What the batch runner computes

experimental.py:93-112, the part of `routine` that `Glob` leaves open: read the circuit, run it, ask for its configuration,
save all of that. Simplifications: how `pickle` writes the value as bytes, and how long reading and running take, are a
parameter.
-/

namespace QuDiet.Tools
open QuDiet.Qasm

/-- experimental.py:101-106: the saved dictionary, without the two times. -/
structure Saved (R : Type) where
  /-- `'value'` -/
  value : List (Key × R)
  /-- `'config'`, its `'width'` -/
  width : Width
  /-- `'config'`, its `'depth'` -/
  depth : Int

variable {R : Type} [CommRing R] [StarRing R] [DecidableEq R] [UnitaryCheck R]

/-- experimental.py:94-106: the dictionary for a circuit file with these contents, or an exception. -/
def experiment (N : Numerics R) (B : Backend R) (file : Text) : PyM (Saved R) := do
  let c ← parseQasm (R := R) file
  let r := c.run N B
  let value ← r.2
  .ok ⟨value, r.1.width, r.1.depth⟩

/-- experimental.py:46-61: the backend for an option. Without CUDA the script does not get that far (`batchMain`). -/
def chosen (cudaB sparseCudaB : Backend R) (option : Text) : Backend R :=
  if option = lit "sparse" then sparseBackend R
  else if option = lit "numpy" then numpyBackend R
  else if option = lit "cuda" then cudaB
  else sparseCudaB

/-- experimental.py:11-122 with the circuits that the files describe. `pickle option file` is how the dictionary is
written in this run of the script, and `load` how a saved one is read and printed. -/
def experimentMain (N : Numerics R) (cudaB sparseCudaB : Backend R) (pickle : Text → Text → Saved R → Text)
    (load : Text → PyM Text) (cuda : Bool) (cwd : List Text) (mode option path : Text) (disk : Dir) : PyM Dir :=
  batchMain (fun option file text => do
    .ok (pickle option file (← experiment N (chosen cudaB sparseCudaB option) text))) load cuda cwd mode option path disk

end QuDiet.Tools
