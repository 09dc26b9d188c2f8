import Mathlib.Algebra.Order.Chebyshev
import Verif.Exact
import Verif.Lemmas.Large
import Verif.Lemmas.Picks

/-! # How far rounding errors can go -/

namespace QuDiet
open Spec

/-- `A'` is `A` up to relative errors: `Ā` bounds the absolute values of the entries of `A` (and of everything that
was added up to find them), the errors are at most `a - 1` times `Ā`, and the columns of `Ā` sum to at most `ρ`. -/
def Approx (a ρ : ℝ) (A' A : Mat ℂ) : Prop :=
  A'.rows = A.rows ∧ A'.cols = A.cols ∧ ∃ Ā : Nat → Nat → ℝ,
    (∀ i < A.rows, ∀ j < A.cols, ‖A.e i j‖ ≤ Ā i j ∧ ‖A'.e i j - A.e i j‖ ≤ (a - 1) * Ā i j) ∧
    ∀ j < A.cols, ∑ i ∈ Finset.range A.rows, Ā i j ≤ ρ

theorem Approx.mono {a b ρ σ : ℝ} {A' A : Mat ℂ} (h : Approx a ρ A' A) (hab : a ≤ b) (hρ : ρ ≤ σ) :
    Approx b σ A' A := by
  obtain ⟨h1, h2, Ā, h3, h4⟩ := h
  refine ⟨h1, h2, Ā, fun i hi j hj => ⟨(h3 i hi j hj).1, (h3 i hi j hj).2.trans ?_⟩, fun j hj => (h4 j hj).trans hρ⟩
  have := (norm_nonneg _).trans (h3 i hi j hj).1
  exact mul_le_mul_of_nonneg_right (by linarith) this

/-- The error of a product of two numbers with errors. -/
theorem mul_error {x x' y y' : ℂ} {X Y a b : ℝ} (hx : ‖x‖ ≤ X) (hy : ‖y‖ ≤ Y) (ha : 1 ≤ a) (hb : 1 ≤ b)
    (hx' : ‖x' - x‖ ≤ (a - 1) * X) (hy' : ‖y' - y‖ ≤ (b - 1) * Y) :
    ‖x' * y' - x * y‖ ≤ (a * b - 1) * (X * Y) ∧ ‖x'‖ ≤ a * X ∧ ‖y'‖ ≤ b * Y ∧ ‖x'‖ * ‖y'‖ ≤ a * b * (X * Y) := by
  have hX := (norm_nonneg _).trans hx
  have hY := (norm_nonneg _).trans hy
  have h1 : ‖x'‖ ≤ a * X := by
    calc ‖x'‖ = ‖(x' - x) + x‖ := by rw [sub_add_cancel]
      _ ≤ ‖x' - x‖ + ‖x‖ := norm_add_le _ _
      _ ≤ a * X := by linarith
  have h2 : ‖y'‖ ≤ b * Y := by
    calc ‖y'‖ = ‖(y' - y) + y‖ := by rw [sub_add_cancel]
      _ ≤ ‖y' - y‖ + ‖y‖ := norm_add_le _ _
      _ ≤ b * Y := by linarith
  refine ⟨?_, h1, h2, ?_⟩
  · calc ‖x' * y' - x * y‖ = ‖(x' - x) * y' + x * (y' - y)‖ := by ring_nf
      _ ≤ ‖x' - x‖ * ‖y'‖ + ‖x‖ * ‖y' - y‖ := by
        rw [← norm_mul, ← norm_mul]
        exact norm_add_le _ _
      _ ≤ ((a - 1) * X) * (b * Y) + X * ((b - 1) * Y) := by
        apply add_le_add
        · exact mul_le_mul hx' h2 (norm_nonneg _) (mul_nonneg (by linarith) hX)
        · exact mul_le_mul hx hy' (norm_nonneg _) hX
      _ = (a * b - 1) * (X * Y) := by ring
  · calc ‖x'‖ * ‖y'‖ ≤ (a * X) * (b * Y) := mul_le_mul h1 h2 (norm_nonneg _) (mul_nonneg (by linarith) hX)
      _ = a * b * (X * Y) := by ring

variable [UnitaryCheck ℂ] {B : Backend ℂ} {u : ℝ}

theorem sum_divmod {n m : Nat} (f : Nat → ℝ) (g : Nat → ℝ) :
    ∑ i ∈ Finset.range (n * m), f (i / m) * g (i % m) = (∑ i ∈ Finset.range n, f i) * ∑ j ∈ Finset.range m, g j := by
  rcases Nat.eq_zero_or_pos m with rfl | hm
  · simp
  induction n with
  | zero => simp
  | succ n ih =>
    rw [Nat.succ_mul, Finset.sum_range_add, ih, Finset.sum_range_succ, add_mul]
    congr 1
    rw [Finset.mul_sum]
    apply Finset.sum_congr rfl
    intro j hj
    have hj := Finset.mem_range.1 hj
    rw [Nat.mul_comm, Nat.mul_add_div hm, Nat.div_eq_of_lt hj, Nat.mul_add_mod, Nat.mod_eq_of_lt hj, add_zero]

theorem approx_kron (hB : B.Rounds u) {x y : B.M} {X Y : Mat ℂ} {a b ρ σ : ℝ} (ha : 1 ≤ a) (hb : 1 ≤ b)
    (hρ : 0 ≤ ρ) (hx : Approx a ρ (B.toarray x) X) (hy : Approx b σ (B.toarray y) Y) :
    Approx (a * b * (1 + u)) (ρ * σ) (B.toarray (B.kron x y)) (X.kron Y) := by
  obtain ⟨h1, h2, Ā, h3, h4⟩ := hx
  obtain ⟨k1, k2, Ē, k3, k4⟩ := hy
  have hu := hB.nonneg
  have hab : 1 ≤ a * b := by nlinarith
  obtain ⟨s1, s2⟩ := hB.kronShape x y
  refine ⟨by rw [s1, h1, k1]; rfl, by rw [s2, h2, k2]; rfl,
    fun i j => Ā (i / Y.rows) (j / Y.cols) * Ē (i % Y.rows) (j % Y.cols), ?_, ?_⟩
  · intro i hi j hj
    simp only [Mat.kron] at hi hj ⊢
    have hb : 0 < Y.rows := Nat.pos_of_ne_zero fun h => by simp [h] at hi
    have hb' : 0 < Y.cols := Nat.pos_of_ne_zero fun h => by simp [h] at hj
    have i1 : i / Y.rows < X.rows := Nat.div_lt_of_lt_mul (by rwa [Nat.mul_comm])
    have j1 : j / Y.cols < X.cols := Nat.div_lt_of_lt_mul (by rwa [Nat.mul_comm])
    obtain ⟨p1, p2⟩ := h3 _ i1 _ j1
    obtain ⟨q1, q2⟩ := k3 _ (Nat.mod_lt i hb) _ (Nat.mod_lt j hb')
    have hr := (hB.kron x y i (by rw [s1, h1, k1]; exact hi) j (by rw [s2, h2, k2]; exact hj)).1
    rw [k1, k2] at hr
    obtain ⟨e1, _, _, e2⟩ := mul_error p1 q1 ha ‹_› p2 q2
    have hX := (norm_nonneg _).trans p1
    have hY := (norm_nonneg _).trans q1
    refine ⟨by rw [norm_mul]; exact mul_le_mul p1 q1 (norm_nonneg _) hX, ?_⟩
    set c := (B.toarray (B.kron x y)).e i j
    set z := (B.toarray x).e (i / Y.rows) (j / Y.cols) * (B.toarray y).e (i % Y.rows) (j % Y.cols)
    set w := X.e (i / Y.rows) (j / Y.cols) * Y.e (i % Y.rows) (j % Y.cols)
    have hz : ‖z‖ ≤ a * b * (Ā (i / Y.rows) (j / Y.cols) * Ē (i % Y.rows) (j % Y.cols)) := by
      rw [norm_mul]; exact e2
    calc ‖c - w‖ = ‖(c - z) + (z - w)‖ := by rw [sub_add_sub_cancel]
      _ ≤ ‖c - z‖ + ‖z - w‖ := norm_add_le _ _
      _ ≤ u * (a * b * (Ā (i / Y.rows) (j / Y.cols) * Ē (i % Y.rows) (j % Y.cols))) +
          (a * b - 1) * (Ā (i / Y.rows) (j / Y.cols) * Ē (i % Y.rows) (j % Y.cols)) :=
        add_le_add (hr.trans (mul_le_mul_of_nonneg_left hz hu)) e1
      _ = _ := by ring
  · intro j hj
    simp only [Mat.kron] at hj ⊢
    have hb' : 0 < Y.cols := Nat.pos_of_ne_zero fun h => by simp [h] at hj
    have j1 : j / Y.cols < X.cols := Nat.div_lt_of_lt_mul (by rwa [Nat.mul_comm])
    rw [sum_divmod (fun i => Ā i (j / Y.cols)) (fun i => Ē i (j % Y.cols))]
    refine mul_le_mul (h4 _ j1) (k4 _ (Nat.mod_lt j hb')) ?_ hρ
    exact Finset.sum_nonneg fun i hi => (norm_nonneg _).trans
      (k3 i (Finset.mem_range.1 hi) _ (Nat.mod_lt j hb')).1

theorem approx_dot (hB : B.Rounds u) {x y : B.M} {X Y Z : Mat ℂ} {a b ρ σ : ℝ} (ha : 1 ≤ a) (hb : 1 ≤ b)
    (hρ : 0 ≤ ρ) (hx : Approx a ρ (B.toarray x) X) (hy : Approx b σ (B.toarray y) Y) (hd : X.dot Y = .ok Z) :
    ∃ z, B.dot x y = .ok z ∧ Approx (a * b * (1 + u) ^ (X.cols + 1)) (ρ * σ) (B.toarray z) Z := by
  obtain ⟨h1, h2, Ā, h3, h4⟩ := hx
  obtain ⟨k1, k2, Ē, k3, k4⟩ := hy
  have hu := hB.nonneg
  have hc : X.cols = Y.rows := by
    by_contra hc
    rw [Mat.dot, if_neg hc] at hd
    cases hd
  rw [dot_eq hc] at hd
  cases hd
  obtain ⟨z, hz, z1, z2, z3⟩ := hB.dot x y (by rw [h2, k1, hc])
  refine ⟨z, hz, by rw [z1, h1], by rw [z2, k2], fun i j => ∑ k ∈ Finset.range X.cols, Ā i k * Ē k j, ?_, ?_⟩
  · intro i hi j hj
    simp only at hi hj ⊢
    change ‖∑ k ∈ Finset.range X.cols, X.e i k * Y.e k j‖ ≤ _ ∧
      ‖(B.toarray z).e i j - ∑ k ∈ Finset.range X.cols, X.e i k * Y.e k j‖ ≤ _
    have key : ∀ k ∈ Finset.range X.cols, _ := fun k hk =>
      mul_error (h3 i hi k (Finset.mem_range.1 hk)).1 (k3 k (by rw [← hc]; exact Finset.mem_range.1 hk) j hj).1 ha hb
        (h3 i hi k (Finset.mem_range.1 hk)).2 (k3 k (by rw [← hc]; exact Finset.mem_range.1 hk) j hj).2
    constructor
    · refine (norm_sum_le _ _).trans (Finset.sum_le_sum fun k hk => ?_)
      rw [norm_mul]
      have := h3 i hi k (Finset.mem_range.1 hk)
      exact mul_le_mul this.1 (k3 k (by rw [← hc]; exact Finset.mem_range.1 hk) j hj).1 (norm_nonneg _)
        ((norm_nonneg _).trans this.1)
    · have hr := (z3 i (by rw [h1]; exact hi) j (by rw [k2]; exact hj)).1
      rw [h2] at hr
      set S := ∑ k ∈ Finset.range X.cols, Ā i k * Ē k j
      set p := ∑ k ∈ Finset.range X.cols, (B.toarray x).e i k * (B.toarray y).e k j
      set w := ∑ k ∈ Finset.range X.cols, X.e i k * Y.e k j
      have e1 : ∑ k ∈ Finset.range X.cols, ‖(B.toarray x).e i k‖ * ‖(B.toarray y).e k j‖ ≤ a * b * S := by
        rw [Finset.mul_sum]
        exact Finset.sum_le_sum fun k hk => (key k hk).2.2.2
      have e2 : ‖p - w‖ ≤ (a * b - 1) * S := by
        rw [← Finset.sum_sub_distrib, Finset.mul_sum]
        exact (norm_sum_le _ _).trans (Finset.sum_le_sum fun k hk => (key k hk).1)
      have e3 : 0 ≤ (1 + u) ^ (X.cols + 1) - 1 := by
        have := one_le_pow₀ (show (1 : ℝ) ≤ 1 + u by linarith) (n := X.cols + 1)
        linarith
      calc ‖(B.toarray z).e i j - w‖ = ‖((B.toarray z).e i j - p) + (p - w)‖ := by rw [sub_add_sub_cancel]
        _ ≤ ‖(B.toarray z).e i j - p‖ + ‖p - w‖ := norm_add_le _ _
        _ ≤ ((1 + u) ^ (X.cols + 1) - 1) * (a * b * S) + (a * b - 1) * S :=
          add_le_add (hr.trans (mul_le_mul_of_nonneg_left e1 e3)) e2
        _ = _ := by ring
  · intro j hj
    simp only at hj ⊢
    rw [Finset.sum_comm]
    calc ∑ k ∈ Finset.range X.cols, ∑ i ∈ Finset.range X.rows, Ā i k * Ē k j
        = ∑ k ∈ Finset.range X.cols, (∑ i ∈ Finset.range X.rows, Ā i k) * Ē k j :=
          Finset.sum_congr rfl fun k _ => by rw [Finset.sum_mul]
      _ ≤ ∑ k ∈ Finset.range X.cols, ρ * Ē k j := by
          apply Finset.sum_le_sum
          intro k hk
          have hk' := Finset.mem_range.1 hk
          exact mul_le_mul_of_nonneg_right (h4 k hk') ((norm_nonneg _).trans (k3 k (by omega) j hj).1)
      _ = ρ * ∑ k ∈ Finset.range Y.rows, Ē k j := by rw [Finset.mul_sum, hc]
      _ ≤ ρ * σ := mul_le_mul_of_nonneg_left (k4 j hj) hρ

/-! ### Operators -/

/-- Factor of the relative errors in the matrix of an operator. -/
def GateObj.err (u : ℝ) : GateObj ℂ → ℝ
  | .h .. => (1 + u) ^ 3
  | .z .. => (1 + u) ^ 2
  | .arb .. => 1 + u
  | _ => 1

/-- Bound of the sums of absolute values in the columns of the matrix of an operator. -/
noncomputable def GateObj.amp : GateObj ℂ → ℝ
  | .h _ d => max 1 (Real.sqrt d)
  | .arb _ _ U => U.spread
  | _ => 1

/-- What is used of the operators. -/
def GateObj.Tame : GateObj ℂ → Prop
  | .h _ d => 1 ≤ d
  | .z _ d => 1 ≤ d
  | .arb _ _ U => U.rows = U.cols
  | .toffoli _ _ _ _ U _ => U.Picks ∧ U.rows = U.cols
  | _ => True

theorem GateObj.Tame.wide [UnitaryCheck ℂ] {g : GateObj ℂ} (h : g.Tame) : g.Wide := by
  cases g with
  | arb q ds U => exact fun _ => (show U.rows = U.cols from h).le
  | toffoli cs t a ds U p => exact h.2.le
  | _ => trivial

theorem Mat.one_le_spread (U : Mat ℂ) : 1 ≤ U.spread := by
  unfold Mat.spread
  induction List.range U.cols with
  | nil => exact le_rfl
  | cons j l ih => exact ih.trans (le_max_right _ _)

theorem Mat.le_spread (U : Mat ℂ) {j : Nat} (hj : j < U.cols) :
    ∑ i ∈ Finset.range U.rows, ‖U.e i j‖ ≤ U.spread := by
  unfold Mat.spread
  have : j ∈ List.range U.cols := List.mem_range.2 hj
  revert this
  induction List.range U.cols with
  | nil => simp
  | cons k l ih =>
    intro this
    rcases List.mem_cons.1 this with rfl | h
    · exact le_max_left _ _
    · exact (ih h).trans (le_max_right _ _)

theorem Mat.spread_le {U : Mat ℂ} {b : ℝ} (h1 : 1 ≤ b)
    (h : ∀ j < U.cols, ∑ i ∈ Finset.range U.rows, ‖U.e i j‖ ≤ b) : U.spread ≤ b := by
  unfold Mat.spread
  have : ∀ j ∈ List.range U.cols, ∑ i ∈ Finset.range U.rows, ‖U.e i j‖ ≤ b :=
    fun j hj => h j (List.mem_range.1 hj)
  revert this
  induction List.range U.cols with
  | nil => exact fun _ => h1
  | cons k l ih =>
    intro this
    exact max_le (this k (by simp)) (ih fun j hj => this j (by simp [hj]))

theorem one_le_err (hu : 0 ≤ u) (g : GateObj ℂ) : 1 ≤ g.err u := by
  have h : (1 : ℝ) ≤ 1 + u := by linarith
  cases g <;> simp only [GateObj.err] <;> first | exact le_rfl | exact h | exact one_le_pow₀ h

theorem one_le_amp (g : GateObj ℂ) : 1 ≤ g.amp := by
  cases g <;> simp only [GateObj.amp] <;> first | exact le_rfl | exact le_max_left _ _ | exact Mat.one_le_spread _

theorem approx_of_exactly {x : B.M} {X : (numpyBackend ℂ).M} (h : Exactly B x X) :
    Approx 1 1 (B.toarray x) X := by
  refine ⟨h.1.1, h.1.2.1, fun i j => ‖Mat.e (R := ℂ) X i j‖, ?_, ?_⟩
  · intro i hi j hj
    refine ⟨le_rfl, ?_⟩
    rw [h.1.2.2 i (by rw [h.1.1]; exact hi) j (by rw [h.1.2.1]; exact hj)]
    simp
  · intro j hj
    obtain ⟨r, hr, h1⟩ := h.2 j hj
    rw [Finset.sum_congr rfl (g := fun i => if i = r then (1 : ℝ) else 0)]
    · rw [Finset.sum_ite_eq', if_pos (Finset.mem_range.2 hr)]
    · intro i hi
      change ‖Mat.e (R := ℂ) X i j‖ = _
      rw [h1 i (Finset.mem_range.1 hi)]
      by_cases e : i = r <;> simp [e]

/-- A matrix whose entries are given with errors, rounded once more. -/
theorem approx_matrix (hB : B.Rounds u) {m' m : Mat ℂ} {a ρ : ℝ} (ha : 1 ≤ a)
    (h : Approx a ρ m' m) : Approx (a * (1 + u)) ρ (B.toarray (B.matrix m')) m := by
  obtain ⟨h1, h2, Ā, h3, h4⟩ := h
  refine ⟨by rw [(hB.matrixShape m').1, h1], by rw [(hB.matrixShape m').2, h2], Ā, ?_, h4⟩
  intro i hi j hj
  obtain ⟨p1, p2⟩ := h3 i hi j hj
  refine ⟨p1, ?_⟩
  have hr := (hB.matrix m' i (by rw [h1]; exact hi) j (by rw [h2]; exact hj)).1
  have hn : ‖m'.e i j‖ ≤ a * Ā i j := by
    calc ‖m'.e i j‖ = ‖(m'.e i j - m.e i j) + m.e i j‖ := by rw [sub_add_cancel]
      _ ≤ ‖m'.e i j - m.e i j‖ + ‖m.e i j‖ := norm_add_le _ _
      _ ≤ a * Ā i j := by linarith
  calc ‖(B.toarray (B.matrix m')).e i j - m.e i j‖
      = ‖((B.toarray (B.matrix m')).e i j - m'.e i j) + (m'.e i j - m.e i j)‖ := by rw [sub_add_sub_cancel]
    _ ≤ ‖(B.toarray (B.matrix m')).e i j - m'.e i j‖ + ‖m'.e i j - m.e i j‖ := norm_add_le _ _
    _ ≤ u * (a * Ā i j) + (a - 1) * Ā i j :=
      add_le_add (hr.trans (mul_le_mul_of_nonneg_left hn hB.nonneg)) p2
    _ = _ := by ring

theorem approx_refl {m : Mat ℂ} {ρ : ℝ} (h : ∀ j < m.cols, ∑ i ∈ Finset.range m.rows, ‖m.e i j‖ ≤ ρ) :
    Approx 1 ρ m m :=
  ⟨rfl, rfl, fun i j => ‖m.e i j‖, fun i _ j _ => ⟨le_rfl, by simp⟩, h⟩

/-- The absolute values in a column of a unitary matrix. -/
theorem column_sum {n : Nat} {U : Nat → Nat → ℂ} (h : Columns n U) {j : Nat} (hj : j < n) :
    ∑ i ∈ Finset.range n, ‖U i j‖ ≤ Real.sqrt n := by
  apply Real.le_sqrt_of_sq_le
  have h1 := sq_sum_le_card_mul_sum_sq (s := Finset.range n) (f := fun i => ‖U i j‖)
  have h2 : ∑ i ∈ Finset.range n, ‖U i j‖ ^ 2 = 1 := by
    have := h j hj j hj
    rw [if_pos rfl] at this
    change ∑ i ∈ Finset.range n, U i j * star (U i j) = 1 at this
    have e : ∑ i ∈ Finset.range n, U i j * star (U i j) = ((∑ i ∈ Finset.range n, ‖U i j‖ ^ 2 : ℝ) : ℂ) := by
      push_cast
      apply Finset.sum_congr rfl
      intro i _
      rw [Complex.star_def, Complex.mul_conj, Complex.normSq_eq_norm_sq]
      push_cast
      rfl
    rw [e] at this
    exact_mod_cast this
  rw [h2, mul_one, Finset.card_range] at h1
  exact h1


theorem root_norm {N : Numerics ℂ} (hN : N.Exact) {d : Nat} (hd : 1 ≤ d) (i : Nat) : ‖(N.roots d).getD i 0‖ ≤ 1 := by
  by_cases hi : i < d
  · exact (Complex.norm_eq_one_of_pow_eq_one (hN.root hi) (by omega)).le
  · rw [List.getD_eq_getElem?_getD, List.getElem?_eq_none (by rw [hN.length d hd]; omega)]
    simp

theorem dropLast_getD {α : Type} (l : List α) (a : α) (i : Nat) :
    l.dropLast.getD i a = if i < l.length - 1 then l.getD i a else a := by
  rw [List.getD_eq_getElem?_getD, List.getElem?_dropLast]
  split
  · rw [List.getD_eq_getElem?_getD]
  · rfl

theorem approx_hMat {N N' : Numerics ℂ} (hN : N.Exact) (hu : 0 ≤ u) (hN' : N'.Near N u) {d : Nat} (hd : 1 ≤ d) :
    Approx ((1 + u) * (1 + u)) (Real.sqrt d) (hMat N' d) (hMat N d) := by
  have hlen := hN'.length d hd
  have hl := hN.length d hd
  have hd' : (0 : ℝ) < d := by exact_mod_cast hd
  have hs : ‖N.invSqrt d‖ = 1 / Real.sqrt d := by
    rw [hN.invSqrt d hd, Complex.norm_real, Real.norm_eq_abs, abs_of_nonneg (by positivity)]
  refine ⟨by simp [hMat, hlen], by simp [hMat, hlen], fun _ _ => 1 / Real.sqrt d * 1, ?_, ?_⟩
  · intro i hi j hj
    have h1 : (1 : ℝ) ≤ 1 + u := by linarith
    have hroot : ∀ y' y : ℂ, ‖y‖ ≤ 1 → ‖y' - y‖ ≤ (1 + u - 1) * 1 →
        ‖N.invSqrt d * y‖ ≤ 1 / Real.sqrt d * 1 ∧
        ‖N'.invSqrt d * y' - N.invSqrt d * y‖ ≤ ((1 + u) * (1 + u) - 1) * (1 / Real.sqrt d * 1) := by
      intro y' y hy hy'
      constructor
      · rw [norm_mul, hs]
        exact mul_le_mul_of_nonneg_left hy (by positivity)
      · apply (mul_error hs.le hy h1 h1 _ hy').1
        have := hN'.invSqrt d hd
        rw [hs] at this
        linarith
    have hone := hroot 1 1 (by simp) (by simpa using hu)
    simp only [hMat]
    by_cases hj0 : j = 0
    · rw [if_pos hj0, if_pos hj0]; exact hone
    · by_cases hi0 : i = 0
      · rw [if_neg hj0, if_pos hi0, if_neg hj0, if_pos hi0]; exact hone
      · rw [if_neg hj0, if_neg hi0, if_neg hj0, if_neg hi0]
        simp only [circulant, List.length_dropLast, hlen, dropLast_getD]
        split
        · apply hroot
          · exact root_norm hN hd _
          · have := hN'.roots d hd ((i - 1 + ((N.roots d).length - 1) - (j - 1)) % ((N.roots d).length - 1))
            have h2 := root_norm hN hd ((i - 1 + ((N.roots d).length - 1) - (j - 1)) % ((N.roots d).length - 1))
            nlinarith
        · exact hroot 0 0 (by simp) (by simpa using hu)
  · intro j _
    have : (hMat N d).rows = d := by simp [hMat, hl]; omega
    rw [this, Finset.sum_const, Finset.card_range, nsmul_eq_mul, mul_one]
    have h2 : Real.sqrt d ≠ 0 := (Real.sqrt_pos.2 hd').ne'
    rw [mul_one_div, div_le_iff₀ (Real.sqrt_pos.2 hd'), Real.mul_self_sqrt hd'.le]

theorem approx_zMat {N N' : Numerics ℂ} (hN : N.Exact) (hu : 0 ≤ u) (hN' : N'.Near N u) {d : Nat} (hd : 1 ≤ d) :
    Approx (1 + u) 1 (zMat N' d) (zMat N d) := by
  have hlen := hN'.length d hd
  refine ⟨by simp [zMat, diagMat, hlen], by simp [zMat, diagMat, hlen], fun i j => if i = j then 1 else 0, ?_, ?_⟩
  · intro i _ j _
    simp only [zMat, diagMat, List.reverse_reverse]
    by_cases h : i = j
    · simp only [if_pos h]
      have h1 := root_norm hN hd i
      have h2 := hN'.roots d hd i
      refine ⟨h1, ?_⟩
      nlinarith
    · simp [if_neg h]
  · intro j hj
    rw [Finset.sum_ite_eq']
    split <;> norm_num

theorem approx_unitary (hB : B.Rounds u) {N N' : Numerics ℂ} (hN : N.Exact) (hN' : N'.Near N u) {g : GateObj ℂ}
    (hg : g.Tame) {M : Mat ℂ} (h : g.unitary N (numpyBackend ℂ) = .ok M) :
    ∃ x, g.unitary N' B = .ok x ∧ Approx (g.err u) g.amp (B.toarray x) M := by
  have hu := hB.nonneg
  have h1 : (1 : ℝ) ≤ 1 + u := by linarith
  have dig : g.Digital → ∃ x, g.unitary N' B = .ok x ∧ Approx 1 1 (B.toarray x) M := by
    intro hd
    rcases rounds_unitary hB N N' hd with ⟨e, _, h2⟩ | ⟨x, X, h2, h3, h4⟩
    · rw [h2] at h; cases h
    · rw [h3] at h
      cases h
      exact ⟨x, h2, approx_of_exactly h4⟩
  cases g with
  | h q d =>
    cases h
    refine ⟨_, rfl, ?_⟩
    refine (approx_matrix hB (by nlinarith) (approx_hMat hN hu hN' hg)).mono ?_ (le_max_right _ _)
    simp only [GateObj.err]
    ring_nf
    rfl
  | z q d =>
    cases h
    refine ⟨_, rfl, ?_⟩
    refine (approx_matrix hB h1 (approx_zMat hN hu hN' hg)).mono ?_ le_rfl
    simp only [GateObj.err]
    ring_nf
    rfl
  | arb q ds U =>
    simp only [GateObj.unitary] at h ⊢
    cases hm : arbMat ds U with
    | error e => rw [hm] at h; cases h
    | ok A =>
      rw [hm] at h
      cases h
      obtain ⟨rfl, hun⟩ := arbMat_ok hm
      refine ⟨_, rfl, ?_⟩
      refine (approx_matrix hB le_rfl (approx_refl (ρ := A.spread) ?_)).mono ?_ le_rfl
      · intro j hj
        exact A.le_spread hj
      · simp [GateObj.err]
  | init => exact dig trivial
  | ident => exact dig trivial
  | x => exact dig trivial
  | cx => exact dig trivial
  | toffoli => exact dig hg.1
  | meas => exact dig trivial

theorem prod_one_le {l : List ℝ} (h : ∀ x ∈ l, 1 ≤ x) : 1 ≤ l.prod := by
  induction l with
  | nil => simp
  | cons a l ih =>
    rw [List.prod_cons]
    have h1 := h a (by simp)
    have h2 := ih fun x hx => h x (by simp [hx])
    nlinarith

theorem prod_err (hu : 0 ≤ u) (m : List (GateObj ℂ)) : 1 ≤ (m.map (GateObj.err u)).prod :=
  prod_one_le fun x hx => by obtain ⟨g, _, rfl⟩ := List.mem_map.1 hx; exact one_le_err hu g

theorem prod_amp (m : List (GateObj ℂ)) : 1 ≤ (m.map GateObj.amp).prod :=
  prod_one_le fun x hx => by obtain ⟨g, _, rfl⟩ := List.mem_map.1 hx; exact one_le_amp g

theorem approx_moment (hB : B.Rounds u) {N N' : Numerics ℂ} (hN : N.Exact) (hN' : N'.Near N u)
    {m : List (GateObj ℂ)} (hm : ∀ g ∈ m, g.Tame) {n : Nat} (hn : m.length ≤ n) {M : Mat ℂ}
    (h : momentExec N (numpyBackend ℂ) m = .ok M) :
    ∃ x, momentExec N' B m = .ok x ∧
      Approx ((m.map (GateObj.err u)).prod * (1 + u) ^ n) (m.map GateObj.amp).prod (B.toarray x) M := by
  have hu := hB.nonneg
  have h1 : (1 : ℝ) ≤ 1 + u := by linarith
  cases m with
  | nil => cases h
  | cons g m =>
    rw [momentExec] at h ⊢
    cases hg : g.unitary N (numpyBackend ℂ) with
    | error e => rw [hg] at h; cases h
    | ok M0 =>
      rw [hg] at h
      obtain ⟨x0, hx0, hA⟩ := approx_unitary hB hN hN' (hm g (by simp)) hg
      rw [hx0]
      change m.foldlM _ _ = _ at h
      change ∃ x, m.foldlM _ _ = _ ∧ _
      have hm' : ∀ g ∈ m, g.Tame := fun g hg => hm g (by simp [hg])
      rw [List.map_cons, List.prod_cons, List.map_cons, List.prod_cons]
      have key : ∀ (l : List (GateObj ℂ)), (∀ g ∈ l, g.Tame) → ∀ (x : B.M) (X : (numpyBackend ℂ).M) (a ρ : ℝ), 1 ≤ a → 0 ≤ ρ →
          Approx a ρ (B.toarray x) X →
          l.foldlM (m := PyM) (fun (acc : (numpyBackend ℂ).M) g => do
            let z ← g.unitary N (numpyBackend ℂ)
            pure ((numpyBackend ℂ).kron acc z)) X = .ok M →
          ∃ y, l.foldlM (m := PyM) (fun (acc : B.M) g => do
            let z ← g.unitary N' B
            pure (B.kron acc z)) x = .ok y ∧
          Approx (a * ((l.map (GateObj.err u)).prod * (1 + u) ^ l.length)) (ρ * (l.map GateObj.amp).prod)
            (B.toarray y) M := by
        intro l
        induction l with
        | nil =>
          intro _ x X a ρ _ _ hA h
          cases h
          exact ⟨x, rfl, by simpa using hA⟩
        | cons g l ih =>
          intro hl x X a ρ ha hρ hA h
          rw [List.foldlM_cons] at h
          cases hg : g.unitary N (numpyBackend ℂ) with
          | error e => rw [hg] at h; cases h
          | ok Y =>
            rw [hg] at h
            obtain ⟨y, hy, hAy⟩ := approx_unitary hB hN hN' (hl g (by simp)) hg
            have hk := approx_kron hB ha (one_le_err hu g) hρ hA hAy
            have he := one_le_err hu g
            have ham := one_le_amp g
            obtain ⟨z, hz, hAz⟩ := ih (fun g hg => hl g (by simp [hg])) (B.kron x y) ((numpyBackend ℂ).kron X Y) _ _
              (by have : 1 ≤ a * g.err u := by nlinarith
                  nlinarith) (mul_nonneg hρ (by linarith)) hk h
            refine ⟨z, ?_, ?_⟩
            · rw [List.foldlM_cons, hy]
              exact hz
            · convert hAz using 1
              · rw [List.map_cons, List.prod_cons, List.length_cons, pow_succ]; ring
              · rw [List.map_cons, List.prod_cons]; ring
      obtain ⟨y, hy, hAy⟩ := key m hm' x0 M0 (g.err u) g.amp (one_le_err hu g) (by linarith [one_le_amp g]) hA h
      refine ⟨y, hy, hAy.mono ?_ le_rfl⟩
      rw [mul_assoc]
      apply mul_le_mul_of_nonneg_left _ (by linarith [one_le_err hu g])
      apply mul_le_mul_of_nonneg_left _ (by linarith [prod_err hu m])
      exact pow_le_pow_right₀ h1 (by simp at hn; omega)

/-- The factor for a list of layers of at most `n` operators, and `k` products over at most `D` terms. -/
def flowErr (u : ℝ) (n D : Nat) (ms : List (List (GateObj ℂ))) (k : Nat) : ℝ :=
  weight (GateObj.err u) ms * (1 + u) ^ (n * ms.length + (D + 1) * k)

theorem approx_flow (hB : B.Rounds u) {N N' : Numerics ℂ} (hN : N.Exact) (hN' : N'.Near N u) {n D : Nat}
    {initM : List (GateObj ℂ)} {v : Mat ℂ} (hv : momentExec N (numpyBackend ℂ) initM = .ok v) (hvD : v.rows = D)
    (hiT : ∀ g ∈ initM, g.Tame) (hin : initM.length ≤ n) (rs : List (List (GateObj ℂ)))
    (hT : ∀ m ∈ rs, (∀ g ∈ m, g.Tame) ∧ m.length ≤ n ∧ ∀ g ∈ m, g.isInit = false) (x : B.M) (X : Mat ℂ) (a ρ : ℝ)
    (ha : 1 ≤ a) (hρ : 0 ≤ ρ) (hA : Approx a ρ (B.toarray x) X) (w : Mat ℂ)
    (h : flowLoop N (numpyBackend ℂ) (rs ++ [initM]) (some X) = .ok (some w)) :
    ∃ y, flowLoop N' B (rs ++ [initM]) (some x) = .ok (some y) ∧
      Approx (a * flowErr u n D (rs ++ [initM]) (rs ++ [initM]).length) (ρ * weight GateObj.amp (rs ++ [initM]))
        (B.toarray y) w := by
  have hu := hB.nonneg
  have h1 : (1 : ℝ) ≤ 1 + u := by linarith
  have step : ∀ (m : List (GateObj ℂ)) (ms : List (List (GateObj ℂ))) (x : B.M) (X : Mat ℂ) (a ρ : ℝ),
      1 ≤ a → 0 ≤ ρ → Approx a ρ (B.toarray x) X → (∀ g ∈ m, g.Tame) → m.length ≤ n → X.cols ≤ D →
      flowLoop N (numpyBackend ℂ) (m :: ms) (some X) = .ok (some w) →
      ∃ y Y, flowLoop N' B (m :: ms) (some x) = flowLoop N' B ms (some y) ∧
        flowLoop N (numpyBackend ℂ) (m :: ms) (some X) = flowLoop N (numpyBackend ℂ) ms (some Y) ∧
        Approx (a * ((m.map (GateObj.err u)).prod * (1 + u) ^ (n + (D + 1)))) (ρ * (m.map GateObj.amp).prod)
          (B.toarray y) Y := by
    intro m ms x X a ρ ha hρ hA hmT hmn hXD h
    rw [flowLoop] at h
    cases hm : momentExec N (numpyBackend ℂ) m with
    | error e => rw [hm] at h; cases h
    | ok Y =>
      rw [hm] at h
      obtain ⟨y, hy, hAy⟩ := approx_moment hB hN hN' hmT hmn hm
      change ((X.dot Y) >>= _) = _ at h
      cases hd : X.dot Y with
      | error e => rw [hd] at h; cases h
      | ok Z =>
        obtain ⟨z, hz, hAz⟩ := approx_dot hB ha
          (by have := prod_err hu m; have := one_le_pow₀ h1 (n := n); nlinarith) hρ hA hAy hd
        refine ⟨z, Z, ?_, ?_, hAz.mono ?_ le_rfl⟩
        · rw [flowLoop, hy]
          change (B.dot x y >>= _) = _
          rw [hz]
          rfl
        · rw [flowLoop, hm]
          change ((X.dot Y) >>= _) = _
          rw [hd]
          rfl
        · have e : (1 + u) ^ (X.cols + 1) ≤ (1 + u) ^ (D + 1) := pow_le_pow_right₀ h1 (by omega)
          rw [pow_add (1 + u) n (D + 1)]
          have h2 := prod_err hu m
          have h3 := one_le_pow₀ h1 (n := n)
          calc a * ((m.map (GateObj.err u)).prod * (1 + u) ^ n) * (1 + u) ^ (X.cols + 1)
              ≤ a * ((m.map (GateObj.err u)).prod * (1 + u) ^ n) * (1 + u) ^ (D + 1) :=
                mul_le_mul_of_nonneg_left e (by positivity)
            _ = _ := by ring
  induction rs generalizing x X a ρ with
  | nil =>
    rw [List.nil_append] at h ⊢
    have hXD := (flowLoop_wide hv hvD [] (by simp) X _ h).1
    obtain ⟨y, Y, e1, e2, hAy⟩ := step initM [] x X a ρ ha hρ hA hiT hin hXD h
    rw [h] at e2
    rw [e1]
    cases e2
    refine ⟨y, rfl, ?_⟩
    convert hAy using 1
    · simp [flowErr, weight]
    · simp [weight]
  | cons m rs ih =>
    rw [List.cons_append] at h ⊢
    obtain ⟨t1, t2, t3⟩ := hT m (by simp)
    have hXD := (flowLoop_wide hv hvD (m :: rs)
      (fun m' hm' M hM => (moment_shape (fun g hg => ⟨(hT m' hm').2.2 g hg, ((hT m' hm').1 g hg).wide⟩) hM).1) X _ (by rw [List.cons_append]; exact h)).1
    obtain ⟨y, Y, e1, e2, hAy⟩ := step m (rs ++ [initM]) x X a ρ ha hρ hA t1 t2 hXD h
    have h2 := prod_err hu m
    have h3 := one_le_pow₀ h1 (n := n + (D + 1))
    have h4 := prod_amp m
    obtain ⟨z, hz, hAz⟩ := ih (fun m hm => hT m (by simp [hm])) y Y _ _
      (by have : 1 ≤ (m.map (GateObj.err u)).prod * (1 + u) ^ (n + (D + 1)) := by nlinarith
          nlinarith) (mul_nonneg hρ (by linarith)) hAy (by rw [← e2, h])
    rw [e1]
    refine ⟨z, hz, ?_⟩
    convert hAz using 1
    · simp only [flowErr, weight, List.map_cons, List.prod_cons, List.length_cons]
      rw [show n * ((rs ++ [initM]).length + 1) + (D + 1) * ((rs ++ [initM]).length + 1)
        = (n + (D + 1)) + (n * (rs ++ [initM]).length + (D + 1) * (rs ++ [initM]).length) by ring, pow_add (1 + u) (n + (D + 1))]
      ring
    · simp only [weight, List.map_cons, List.prod_cons]
      ring

end QuDiet
