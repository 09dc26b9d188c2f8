import Mathlib.Analysis.Complex.Basic
import Verif.Gates

/-! # Arithmetic with rounding

What is assumed of a backend that computes with floating point numbers. The matrices of such a backend hold
machine numbers; `toarray` gives the numbers they stand for. Overflow and underflow are not modelled. -/

namespace QuDiet

/-- A backend whose arithmetic has the relative precision `u` (2⁻⁵³ for real double precision, a small multiple
of it for complex numbers). Models the numpy and scipy operations that `core/backend/NumpyBackend.py:31-58` and
`core/backend/SparseBackend.py:31-54` call: entries are rounded when an array is built, each product is rounded, and
a sum of `n` products, in whatever order it is formed, is off by at most `(1+u)^(n+1) - 1` times the sum of the
absolute values. Multiplying by 1 and adding 0 are exact. -/
structure Backend.Rounds (B : Backend ℂ) (u : ℝ) : Prop where
  nonneg : 0 ≤ u
  matrixShape : ∀ m, (B.toarray (B.matrix m)).rows = m.rows ∧ (B.toarray (B.matrix m)).cols = m.cols
  matrix : ∀ m, ∀ i < m.rows, ∀ j < m.cols,
    ‖(B.toarray (B.matrix m)).e i j - m.e i j‖ ≤ u * ‖m.e i j‖ ∧
    (m.e i j = 1 → (B.toarray (B.matrix m)).e i j = 1)
  eye : ∀ n, (B.toarray (B.eye n)).Same (Mat.eye n)
  kronShape : ∀ a b, (B.toarray (B.kron a b)).rows = (B.toarray a).rows * (B.toarray b).rows ∧
    (B.toarray (B.kron a b)).cols = (B.toarray a).cols * (B.toarray b).cols
  kron : ∀ a b, ∀ i < (B.toarray (B.kron a b)).rows, ∀ j < (B.toarray (B.kron a b)).cols,
    let x := (B.toarray a).e (i / (B.toarray b).rows) (j / (B.toarray b).cols)
    let y := (B.toarray b).e (i % (B.toarray b).rows) (j % (B.toarray b).cols)
    ‖(B.toarray (B.kron a b)).e i j - x * y‖ ≤ u * ‖x * y‖ ∧
    (x = 1 → (B.toarray (B.kron a b)).e i j = y)
  dotError : ∀ a b, (B.toarray a).cols ≠ (B.toarray b).rows → B.dot a b = .error .value
  dot : ∀ a b, (B.toarray a).cols = (B.toarray b).rows → ∃ c, B.dot a b = .ok c ∧
    (B.toarray c).rows = (B.toarray a).rows ∧ (B.toarray c).cols = (B.toarray b).cols ∧
    ∀ i < (B.toarray a).rows, ∀ j < (B.toarray b).cols,
      ‖(B.toarray c).e i j - ∑ k ∈ Finset.range (B.toarray a).cols, (B.toarray a).e i k * (B.toarray b).e k j‖ ≤
        ((1 + u) ^ ((B.toarray a).cols + 1) - 1) *
          ∑ k ∈ Finset.range (B.toarray a).cols, ‖(B.toarray a).e i k‖ * ‖(B.toarray b).e k j‖ ∧
      ∀ k < (B.toarray a).cols, (B.toarray b).e k j = 1 →
        (∀ l < (B.toarray a).cols, l ≠ k → (B.toarray b).e l j = 0) → (B.toarray c).e i j = (B.toarray a).e i k
  transpose : ∀ a, (B.toarray (B.transpose a)).Same (B.toarray a).transpose

/-- The roots and square roots that the numeric libraries return have the relative precision `u`. -/
structure Numerics.Near (N' N : Numerics ℂ) (u : ℝ) : Prop where
  length : ∀ d, 1 ≤ d → (N'.roots d).length = (N.roots d).length
  roots : ∀ d, 1 ≤ d → ∀ i, ‖(N'.roots d).getD i 0 - (N.roots d).getD i 0‖ ≤ u * ‖(N.roots d).getD i 0‖
  invSqrt : ∀ d, 1 ≤ d → ‖N'.invSqrt d - N.invSqrt d‖ ≤ u * ‖N.invSqrt d‖

/-- By how much a matrix can multiply the sum of the absolute values of the amplitudes: the largest sum of absolute
values in a column, or 1 if that is larger. -/
noncomputable def Mat.spread (U : Mat ℂ) : ℝ :=
  (List.range U.cols).foldr (fun j m => max (∑ i ∈ Finset.range U.rows, ‖U.e i j‖) m) 1

/-! ### An instance -/

/-- A function that rounds to the nearest machine number, or one next to it. -/
structure Rounding (fl : ℂ → ℂ) (u : ℝ) : Prop where
  nonneg : 0 ≤ u
  near : ∀ x, ‖fl x - x‖ ≤ u * ‖x‖
  idem : ∀ x, fl (fl x) = fl x
  one : fl 1 = 1

/-- The backend that rounds every result with `fl` and adds up from the left. -/
def roundBackend (fl : ℂ → ℂ) (h0 : fl 0 = 0) (h1 : fl 1 = 1) (hi : ∀ x, fl (fl x) = fl x) : Backend ℂ where
  M := { m : Mat ℂ // ∀ i j, fl (m.e i j) = m.e i j }
  matrix m := ⟨{ m with e := fun i j => fl (m.e i j) }, fun _ _ => hi _⟩
  eye n := ⟨Mat.eye n, fun i j => by simp only [Mat.eye]; split <;> assumption⟩
  kron a b := ⟨{ a.1.kron b.1 with e := fun i j => fl ((a.1.kron b.1).e i j) }, fun _ _ => hi _⟩
  dot a b := if a.1.cols = b.1.rows then
      .ok ⟨{ rows := a.1.rows, cols := b.1.cols, e := fun i j =>
          (List.range a.1.cols).foldl (fun s k => fl (s + fl (a.1.e i k * b.1.e k j))) 0 }, fun i j => by
        change fl ((List.range a.1.cols).foldl (fun s k => fl (s + fl (a.1.e i k * b.1.e k j))) 0) =
          (List.range a.1.cols).foldl (fun s k => fl (s + fl (a.1.e i k * b.1.e k j))) 0
        cases a.1.cols with
        | zero => exact h0
        | succ n => rw [List.range_succ, List.foldl_append, List.foldl_cons, List.foldl_nil, hi]⟩
    else .error .value
  transpose a := ⟨a.1.transpose, fun i j => a.2 j i⟩
  toarray a := a.1

end QuDiet
