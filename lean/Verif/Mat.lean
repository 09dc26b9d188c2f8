import Mathlib.Algebra.Star.Basic
import Mathlib.Algebra.BigOperators.Group.List.Basic
import Verif.Py

/-!
# Matrices

A numpy matrix is modelled as its shape and an entry function; entries outside the shape are
never observed. Amplitudes live in an arbitrary commutative star ring `R` (exact arithmetic:
floating point rounding is not modelled).
-/

namespace QuDiet

/-- A 2-dimensional array. -/
structure Mat (R : Type) where
  rows : Nat
  cols : Nat
  e : Nat → Nat → R

/-- Same shape and same entries inside the shape. -/
def Mat.Same {R} (A B : Mat R) : Prop :=
  A.rows = B.rows ∧ A.cols = B.cols ∧ ∀ i < A.rows, ∀ j < A.cols, A.e i j = B.e i j

section
variable {R : Type} [CommRing R]

/-- `np.kron(a, b)`: entry `(i, j)` is `a[i // rb, j // cb] * b[i % rb, j % cb]`. -/
def Mat.kron (a b : Mat R) : Mat R where
  rows := a.rows * b.rows
  cols := a.cols * b.cols
  e i j := a.e (i / b.rows) (j / b.cols) * b.e (i % b.rows) (j % b.cols)

/-- `np.dot(a, b)` of two matrices: `ValueError` unless the inner sizes agree. -/
def Mat.dot (a b : Mat R) : PyM (Mat R) :=
  if a.cols = b.rows then
    .ok { rows := a.rows, cols := b.cols,
          e := fun i j => ((List.range a.cols).map fun k => a.e i k * b.e k j).sum }
  else .error .value

/-- `np.eye(n)` / `np.identity(n)`. -/
def Mat.eye (n : Nat) : Mat R where
  rows := n
  cols := n
  e i j := if i = j then 1 else 0

/-- `a.transpose()`. -/
def Mat.transpose (a : Mat R) : Mat R where
  rows := a.cols
  cols := a.rows
  e i j := a.e j i

/-- `scipy.linalg.circulant(c)` of a vector: entry `(i, j)` is `c[(i - j) mod n]`. -/
def circulant (c : List R) : Mat R where
  rows := c.length
  cols := c.length
  e i j := c.getD ((i + c.length - j) % c.length) 0

/-- `np.diag(v)`. -/
def diagMat (v : List R) : Mat R where
  rows := v.length
  cols := v.length
  e i j := if i = j then v.getD i 0 else 0

/-- Entry `(i, j)` of `a.dot(a.T.conj())`. -/
def Mat.gram [StarRing R] (a : Mat R) (i j : Nat) : R :=
  ((List.range a.cols).map fun k => a.e i k * star (a.e j k)).sum

/-- The rows are orthonormal: `a.dot(a.T.conj())` is the identity matrix. -/
def Mat.Unitary [StarRing R] (a : Mat R) : Prop :=
  ∀ i < a.rows, ∀ j < a.rows, a.gram i j = if i = j then 1 else 0

/-- Every entry is 0 or 1. -/
def Mat.ZeroOne (a : Mat R) : Prop := ∀ i < a.rows, ∀ j < a.cols, a.e i j = 0 ∨ a.e i j = 1

end

/-- `backend.is_unitary(a)` (NumpyBackend.py:55-57, SparseBackend.py:51-53):
`np.allclose(np.eye(len(a)), a.dot(a.T.conj()))`. How large the tolerance of `allclose` is and how the product is
rounded is left open; the only things assumed are that a matrix of zeros and ones passes if its rows are
orthonormal and fails if it has a row of zeros. Instances: exact equality (`exactCheck`), and numpy's tolerance
(`allcloseCheck` in `Tolerance`). -/
class UnitaryCheck (R : Type) [CommRing R] [StarRing R] where
  accepts : Mat R → Bool
  yes : ∀ a : Mat R, a.ZeroOne → a.Unitary → accepts a = true
  no : ∀ a : Mat R, a.ZeroOne → (∃ i < a.rows, ∀ j < a.cols, a.e i j = 0) → accepts a = false

section
variable {R : Type} [CommRing R]

/-- The answer of `backend.is_unitary(a)`. -/
def Mat.isUnitary [StarRing R] [UnitaryCheck R] (a : Mat R) : Bool := UnitaryCheck.accepts a

/-- The check without tolerance. -/
@[reducible] def exactCheck [StarRing R] [DecidableEq R] [Nontrivial R] : UnitaryCheck R where
  accepts a := (List.range a.rows).all fun i => (List.range a.rows).all fun j =>
    decide (a.gram i j = if i = j then 1 else 0)
  yes a _ h := by
    simp only [List.all_eq_true, List.mem_range, decide_eq_true_eq]
    exact h
  no a _ h := by
    obtain ⟨i, hi, h0⟩ := h
    rw [Bool.eq_false_iff]
    intro hc
    simp only [List.all_eq_true, List.mem_range, decide_eq_true_eq] at hc
    have := hc i hi i hi
    rw [if_pos rfl, Mat.gram, List.sum_eq_zero] at this
    · exact zero_ne_one this
    · intro x hx
      obtain ⟨k, hk, rfl⟩ := List.mem_map.1 hx
      rw [h0 k (List.mem_range.1 hk), zero_mul]

/-- The check accepts nothing but unitary matrices. -/
def UnitaryCheck.Strict (R : Type) [CommRing R] [StarRing R] [UnitaryCheck R] : Prop :=
  ∀ a : Mat R, a.isUnitary = true → a.Unitary

instance : UnitaryCheck ℤ := exactCheck

end

/-- The interface of `core/backend/core.py::Backend`, as used by gates, moments and the operator
flow. `toarray` is what `Output.__call__` (output.py:55-56) applies to a result. -/
structure Backend (R : Type) where
  /-- the backend's matrix type -/
  M : Type
  matrix : Mat R → M
  eye : Nat → M
  kron : M → M → M
  dot : M → M → PyM M
  transpose : M → M
  toarray : M → Mat R

/-- core/backend/NumpyBackend.py:31-58. (`matrix` only reshapes one-dimensional arrays, which
never reach it: every caller passes a matrix.) -/
def numpyBackend (R : Type) [CommRing R] : Backend R where
  M := Mat R
  matrix := id
  eye := Mat.eye
  kron := Mat.kron
  dot := Mat.dot
  transpose := Mat.transpose
  toarray := id

end QuDiet
