import Verif.Exact

/-! # The tolerance of the unitarity check -/

namespace QuDiet

/-- `np.allclose(np.eye(len(a)), a.dot(a.T.conj()), rtol, atol)` (NumpyBackend.py:55-57,
SparseBackend.py:51-53): `|eye - p| <= atol + rtol * |p|` in every entry, `p` being the product. The product is
not rounded here. -/
def Mat.Close (rtol atol : ℝ) (a : Mat ℂ) : Prop :=
  ∀ i < a.rows, ∀ j < a.rows, ‖(if i = j then 1 else 0) - a.gram i j‖ ≤ atol + rtol * ‖a.gram i j‖

open Classical in
/-- `backend.is_unitary` with the tolerances `rtol` and `atol`. -/
@[reducible] noncomputable def allcloseCheck (rtol atol : ℝ) (hr : 0 ≤ rtol) (ha : 0 ≤ atol) (ha1 : atol < 1) :
    UnitaryCheck ℂ where
  accepts a := decide (a.Close rtol atol)
  yes a _ h := by
    rw [decide_eq_true_eq]
    intro i hi j hj
    rw [h i hi j hj, sub_self, norm_zero]
    positivity
  no a _ h := by
    obtain ⟨i, hi, h0⟩ := h
    rw [decide_eq_false_iff_not]
    intro hc
    have := hc i hi i hi
    rw [if_pos rfl, Mat.gram, List.sum_eq_zero] at this
    · simp at this
      linarith
    · intro x hx
      obtain ⟨k, hk, rfl⟩ := List.mem_map.1 hx
      rw [h0 k (List.mem_range.1 hk), zero_mul]

/-- `backend.is_unitary` with numpy's default tolerances, which the code leaves as they are. -/
@[reducible] noncomputable def numpyCheck : UnitaryCheck ℂ :=
  allcloseCheck (1 / 100000) (1 / 100000000) (by norm_num) (by norm_num) (by norm_num)

/-- The check accepts only matrices whose products `⟨row i, row j⟩` are off by at most `τ`. -/
def UnitaryCheck.Within (τ : ℝ) (C : UnitaryCheck ℂ) : Prop :=
  ∀ a : Mat ℂ, C.accepts a = true → ∀ i < a.rows, ∀ j < a.rows, ‖a.gram i j - if i = j then 1 else 0‖ ≤ τ

/-- How much the tolerances of `allclose` let the products be off. -/
theorem allcloseCheck_within {rtol atol : ℝ} (hr : 0 ≤ rtol) (ha : 0 ≤ atol) (ha1 : atol < 1) (hr1 : rtol < 1) :
    UnitaryCheck.Within ((atol + rtol) / (1 - rtol)) (allcloseCheck rtol atol hr ha ha1) := by
  intro a h i hi j hj
  have h := @of_decide_eq_true _ (Classical.propDecidable _) h i hi j hj
  have hd : ‖(if i = j then (1 : ℂ) else 0)‖ ≤ 1 := by split <;> simp
  have h1 : ‖a.gram i j‖ ≤ ‖a.gram i j - if i = j then 1 else 0‖ + 1 := by
    have := norm_add_le (a.gram i j - if i = j then (1 : ℂ) else 0) (if i = j then 1 else 0)
    rw [sub_add_cancel] at this
    linarith
  rw [norm_sub_rev] at h
  rw [le_div_iff₀ (by linarith)]
  nlinarith [mul_le_mul_of_nonneg_left h1 hr]

/-- With numpy's tolerances the products are off by at most 0.00001002. -/
theorem numpyCheck_within : UnitaryCheck.Within (1002 / 100000000) numpyCheck := by
  intro a h i hi j hj
  refine (allcloseCheck_within (by norm_num) (by norm_num) (by norm_num) (by norm_num) a h i hi j hj).trans ?_
  norm_num

/-- The check without tolerance. -/
theorem exactCheck_within : UnitaryCheck.Within 0 exactCheck := by
  intro a h i hi j hj
  have h : ∀ i < a.rows, ∀ j < a.rows, a.gram i j = if i = j then 1 else 0 := by
    intro i hi j hj
    have h := List.all_eq_true.1 (List.all_eq_true.1 h i (List.mem_range.2 hi)) j (List.mem_range.2 hj)
    simpa using h
  rw [h i hi j hj, sub_self, norm_zero]

end QuDiet
