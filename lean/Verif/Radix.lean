import Verif.Py

/-!
# Mixed-radix helpers

Models `src/qudiet/utils/numpy.py`, `src/qudiet/utils/linalg.py::ttg` and
`src/qudiet/circuit_library/standard_gates/toffoli_utility.py::generate_combinations`.
Integers are unbounded (numpy's 64-bit wrap-around is not modelled).
-/

namespace QuDiet

/-- utils/numpy.py:29-32 `get_index(src, trgt)`: position of the first equal row, `None` if absent. -/
def getIndex (src : List (List Nat)) (trgt : List Nat) : Option Nat :=
  src.findIdx? (· == trgt)

/-- The `base` argument of `bin_to_Nbase`: an `int` or a list. -/
inductive BaseArg where
  | int (b : Nat)
  | list (bs : List Nat)

/-- `np.array(l).cumprod()` with running product `acc`. -/
def cumprodFrom (acc : Nat) : List Nat → List Nat
  | [] => []
  | a :: l => (acc * a) :: cumprodFrom (acc * a) l

/-- utils/numpy.py:35-44 `bin_to_Nbase(target, base)`. Digits are natural numbers. -/
def binToNbase (target : List Nat) (base : BaseArg) : PyM Nat :=
  -- lines 36-39
  match (match base with
    | .int b => .ok (List.replicate target.length b)
    | .list bs => if target.length = bs.length then .ok bs else .error .assertion : PyM (List Nat)) with
  | .error e => .error e
  | .ok bs =>
    -- lines 42-44
    let scale := cumprodFrom 1 bs.reverse
    let scale := 1 :: scale.dropLast
    .ok ((List.zipWith (· * ·) scale.reverse target).sum)

/-- utils/numpy.py:50-53, the `while _repr` loop: `base` is what is left of the reversed base,
`digits` the digits so far. Running out of base raises `IndexError`; a zero base raises
`ZeroDivisionError` (as for a Python `int`). -/
def nbaseLoop : List Nat → Nat → List Nat → PyM (List Nat)
  | base, r, digits =>
    if r = 0 then .ok digits else
    match base with
    | [] => .error .index
    | b :: bs => if b = 0 then .error .zeroDiv else nbaseLoop bs (r / b) (digits ++ [r % b])

/-- utils/numpy.py:47-58 `Nbase_to_bin(_repr, base)`, for a non-negative `_repr`. -/
def nbaseToBin (r : Nat) (base : List Nat) : PyM (List Nat) :=
  match nbaseLoop base.reverse r [] with
  | .error e => .error e
  | .ok digits => .ok (digits ++ List.replicate (base.length - digits.length) 0).reverse

/-- utils/linalg.py:77-84: column `i` of the truth table: `0..q-1`, each repeated
`prod(qreg[i+1:])` times, the whole tiled `prod(qreg[:i])` times. -/
def ttgCol (qreg : List Nat) (i : Nat) (q : Nat) : List Nat :=
  let rept := (qreg.drop (i + 1)).prod
  let times := (qreg.take i).prod
  let col := (List.range q).flatMap fun x => List.replicate rept x
  (List.replicate times col).flatten

/-- utils/linalg.py:37-88 `ttg(qreg)`. The final `swapaxes` is a transposition; all columns have
length `prod(qreg)`. (`np.prod([])` is the float `1.0`, which `np.repeat` takes as 1.) -/
def ttg (qreg : List Nat) : List (List Nat) :=
  let cols := (List.range qreg.length).map fun i => ttgCol qreg i (qreg.getD i 0)
  (List.range qreg.prod).map fun r => cols.map fun c => c.getD r 0

/-- toffoli_utility.py:12-14 `generate_combinations`: `itertools.product` of ranges, by the
loop that Python's documentation gives for it: `result = [x+[y] for x in result for y in pool]`. -/
def generateCombinations (bases : List Nat) : List (List Nat) :=
  bases.foldl (fun result b => result.flatMap fun x => (List.range b).map fun y => x ++ [y]) [[]]

end QuDiet
