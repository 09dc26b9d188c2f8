import Verif.Mat

/-!
# The sparse backend

`core/backend/SparseBackend.py` delegates to scipy's sparse matrices. They are modelled by their
coordinate lists (duplicates allowed, summed up when read), which is the common meaning of the
formats that `sparse.kron`, `csr_matrix` and `.dot` pass around. Storage formats (csr, bsr, coo)
are not distinguished.
-/

namespace QuDiet

/-- A sparse matrix: shape and list of `(row, column, value)`. -/
structure Coo (R : Type) where
  rows : Nat
  cols : Nat
  entries : List (Nat × Nat × R)

section
variable {R : Type} [CommRing R] [DecidableEq R]

/-- `a.toarray()` (output.py:55-56). -/
def Coo.toarray (a : Coo R) : Mat R where
  rows := a.rows
  cols := a.cols
  e i j := ((a.entries.filter fun t => t.1 = i ∧ t.2.1 = j).map fun t => t.2.2).sum

/-- SparseBackend.py:44-46 `sparse.csr_matrix(a)`: the non-zero entries, row by row. -/
def Coo.ofDense (m : Mat R) : Coo R where
  rows := m.rows
  cols := m.cols
  entries := (List.range m.rows).flatMap fun i =>
    ((List.range m.cols).filter fun j => m.e i j ≠ 0).map fun j => (i, j, m.e i j)

/-- SparseBackend.py:40-42 `sparse.eye(n, m)`. -/
def Coo.eye (n : Nat) : Coo R where
  rows := n
  cols := n
  entries := (List.range n).map fun i => (i, i, 1)

/-- SparseBackend.py:32-34 `sparse.kron(a, b)`. -/
def Coo.kron (a b : Coo R) : Coo R where
  rows := a.rows * b.rows
  cols := a.cols * b.cols
  entries := a.entries.flatMap fun s => b.entries.map fun t =>
    (s.1 * b.rows + t.1, s.2.1 * b.cols + t.2.1, s.2.2 * t.2.2)

/-- SparseBackend.py:36-38 `sparse.csr_matrix.dot(a, b)`: `ValueError` on a shape mismatch. -/
def Coo.dot (a b : Coo R) : PyM (Coo R) :=
  if a.cols = b.rows then
    .ok { rows := a.rows, cols := b.cols,
          entries := a.entries.flatMap fun s =>
            (b.entries.filter fun t => s.2.1 = t.1).map fun t => (s.1, t.2.1, s.2.2 * t.2.2) }
  else .error .value

/-- `a.transpose()` (cx.py:139). -/
def Coo.transpose (a : Coo R) : Coo R where
  rows := a.cols
  cols := a.rows
  entries := a.entries.map fun t => (t.2.1, t.1, t.2.2)

/-- Every entry lies inside the shape (an invariant of scipy's matrices). -/
def Coo.WF (a : Coo R) : Prop := ∀ t ∈ a.entries, t.1 < a.rows ∧ t.2.1 < a.cols

theorem Coo.wf_ofDense (m : Mat R) : (Coo.ofDense m).WF := by
  intro t ht
  obtain ⟨i, hi, ht⟩ := List.mem_flatMap.1 ht
  obtain ⟨j, hj, rfl⟩ := List.mem_map.1 ht
  exact ⟨List.mem_range.1 hi, List.mem_range.1 (List.mem_filter.1 hj).1⟩

theorem Coo.wf_eye (n : Nat) : (Coo.eye (R := R) n).WF := by
  intro t ht
  obtain ⟨i, hi, rfl⟩ := List.mem_map.1 ht
  exact ⟨List.mem_range.1 hi, List.mem_range.1 hi⟩

theorem lt_mul_add {a b c d : Nat} (h : a < b) (h' : c < d) : a * d + c < b * d := by
  have : (a + 1) * d ≤ b * d := Nat.mul_le_mul_right d h
  rw [Nat.add_mul, Nat.one_mul] at this
  omega

theorem Coo.wf_kron {a b : Coo R} (ha : a.WF) (hb : b.WF) : (Coo.kron a b).WF := by
  intro t ht
  obtain ⟨s, hs, ht⟩ := List.mem_flatMap.1 ht
  obtain ⟨u, hu, rfl⟩ := List.mem_map.1 ht
  exact ⟨lt_mul_add (ha s hs).1 (hb u hu).1, lt_mul_add (ha s hs).2 (hb u hu).2⟩

theorem Coo.wf_dot {a b c : Coo R} (ha : a.WF) (hb : b.WF) (h : Coo.dot a b = .ok c) : c.WF := by
  unfold Coo.dot at h
  split at h
  · injection h with h
    subst h
    intro t ht
    obtain ⟨s, hs, ht⟩ := List.mem_flatMap.1 ht
    obtain ⟨u, hu, rfl⟩ := List.mem_map.1 ht
    exact ⟨(ha s hs).1, (hb u (List.mem_filter.1 hu).1).2⟩
  · cases h

theorem Coo.wf_transpose {a : Coo R} (ha : a.WF) : (Coo.transpose a).WF := by
  intro t ht
  obtain ⟨u, hu, rfl⟩ := List.mem_map.1 ht
  exact ⟨(ha u hu).2, (ha u hu).1⟩

end

/-- core/backend/SparseBackend.py:31-50, on well-formed coordinate lists. -/
def sparseBackend (R : Type) [CommRing R] [DecidableEq R] : Backend R where
  M := { a : Coo R // a.WF }
  matrix m := ⟨Coo.ofDense m, Coo.wf_ofDense m⟩
  eye n := ⟨Coo.eye n, Coo.wf_eye n⟩
  kron a b := ⟨Coo.kron a.1 b.1, Coo.wf_kron a.2 b.2⟩
  dot a b := match h : Coo.dot a.1 b.1 with
    | .ok c => .ok ⟨c, Coo.wf_dot a.2 b.2 h⟩
    | .error e => .error e
  transpose a := ⟨Coo.transpose a.1, Coo.wf_transpose a.2⟩
  toarray a := a.1.toarray

end QuDiet
