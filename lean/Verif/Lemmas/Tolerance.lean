import Mathlib.LinearAlgebra.Matrix.NonsingularInverse
import Mathlib.Analysis.Complex.Basic
import Mathlib.Algebra.Order.Chebyshev
import Verif.Tolerance

/-! # Almost unitary matrices almost preserve lengths -/

namespace QuDiet
open Spec

section
variable {n : Nat}

/-- The squared length of a vector. -/
noncomputable def sq (v : Fin n → ℂ) : ℝ := ∑ i, Complex.normSq (v i)

theorem sq_nonneg' (v : Fin n → ℂ) : 0 ≤ sq v := Finset.sum_nonneg fun _ _ => Complex.normSq_nonneg _

theorem sq_eq_zero {v : Fin n → ℂ} (h : sq v = 0) : v = 0 := by
  funext i
  have := (Finset.sum_eq_zero_iff_of_nonneg fun i _ => Complex.normSq_nonneg (v i)).1 h i (Finset.mem_univ i)
  simpa using this

/-- `⟨u, v⟩`. -/
noncomputable def inp (u v : Fin n → ℂ) : ℂ := ∑ i, u i * star (v i)

theorem inp_self (v : Fin n → ℂ) : inp v v = (sq v : ℂ) := by
  simp only [inp, sq, Complex.ofReal_sum]
  exact Finset.sum_congr rfl fun i _ => by rw [Complex.star_def, Complex.mul_conj]

theorem norm_inp_le (u v : Fin n → ℂ) : ‖inp u v‖ ^ 2 ≤ sq u * sq v := by
  have h1 : ‖inp u v‖ ≤ ∑ i, ‖u i‖ * ‖v i‖ := by
    refine (norm_sum_le _ _).trans (Finset.sum_le_sum fun i _ => ?_)
    rw [norm_mul, norm_star]
  have h2 := Finset.sum_mul_sq_le_sq_mul_sq Finset.univ (fun i => ‖u i‖) (fun i => ‖v i‖)
  calc ‖inp u v‖ ^ 2 ≤ (∑ i, ‖u i‖ * ‖v i‖) ^ 2 := by gcongr
    _ ≤ _ := h2
    _ = _ := by simp [sq, Complex.normSq_eq_norm_sq]

theorem inp_mulVec (A : Matrix (Fin n) (Fin n) ℂ) (u v : Fin n → ℂ) :
    inp (A.mulVec u) v = inp u (A.conjTranspose.mulVec v) := by
  simp only [inp, Matrix.mulVec, dotProduct, star_sum, Finset.mul_sum, Finset.sum_mul, Matrix.conjTranspose_apply]
  rw [Finset.sum_comm]
  refine Finset.sum_congr rfl fun i _ => Finset.sum_congr rfl fun j _ => ?_
  rw [star_mul, star_star]
  ring

/-- A matrix with small entries. -/
theorem norm_inp_small {E : Matrix (Fin n) (Fin n) ℂ} {τ : ℝ} (h : ∀ i j, ‖E i j‖ ≤ τ) (v : Fin n → ℂ) :
    ‖inp (E.mulVec v) v‖ ≤ n * τ * sq v := by
  rcases Nat.eq_zero_or_pos n with rfl | hn
  · simp [inp]
  have hτ : 0 ≤ τ := (norm_nonneg _).trans (h ⟨0, hn⟩ ⟨0, hn⟩)
  have h1 : ‖inp (E.mulVec v) v‖ ≤ τ * (∑ i, ‖v i‖) ^ 2 := by
    rw [inp, pow_two, Finset.mul_sum, Finset.mul_sum]
    refine (norm_sum_le _ _).trans (Finset.sum_le_sum fun i _ => ?_)
    rw [norm_mul, norm_star]
    rw [← mul_assoc]
    refine mul_le_mul_of_nonneg_right ?_ (norm_nonneg _)
    rw [Matrix.mulVec, dotProduct, Finset.mul_sum]
    refine (norm_sum_le _ _).trans (Finset.sum_le_sum fun j _ => ?_)
    rw [norm_mul]
    exact mul_le_mul_of_nonneg_right (h i j) (norm_nonneg _)
  have h2 : (∑ i, ‖v i‖) ^ 2 ≤ n * sq v := by
    have := sq_sum_le_card_mul_sum_sq (s := Finset.univ) (f := fun i => ‖v i‖)
    simpa [sq, Complex.normSq_eq_norm_sq] using this
  calc _ ≤ _ := h1
    _ ≤ τ * (n * sq v) := by gcongr
    _ = _ := by ring

/-- If the rows of `A` are almost orthonormal then `A` changes squared lengths by at most the factor `n * τ`. -/
theorem sq_mulVec_close {A : Matrix (Fin n) (Fin n) ℂ} {τ : ℝ}
    (h : ∀ i j, ‖(A * A.conjTranspose) i j - (1 : Matrix (Fin n) (Fin n) ℂ) i j‖ ≤ τ) (v : Fin n → ℂ) :
    |sq (A.mulVec v) - sq v| ≤ n * τ * sq v := by
  rcases Nat.eq_zero_or_pos n with rfl | hn
  · simp [sq]
  have hτ : 0 ≤ τ := (norm_nonneg _).trans (h ⟨0, hn⟩ ⟨0, hn⟩)
  have hδ : 0 ≤ n * τ := by positivity
  -- the adjoint
  have key : ∀ w : Fin n → ℂ, |sq (A.conjTranspose.mulVec w) - sq w| ≤ n * τ * sq w := by
    intro w
    have e1 : ((sq (A.conjTranspose.mulVec w) : ℝ) : ℂ) = inp ((A * A.conjTranspose).mulVec w) w := by
      rw [← Matrix.mulVec_mulVec, inp_mulVec, inp_self]
    have e2 : ((sq (A.conjTranspose.mulVec w) - sq w : ℝ) : ℂ)
        = inp ((A * A.conjTranspose - 1).mulVec w) w := by
      rw [Matrix.sub_mulVec, Matrix.one_mulVec, Complex.ofReal_sub, e1, ← inp_self]
      simp only [inp, Pi.sub_apply, sub_mul, Finset.sum_sub_distrib]
    have := norm_inp_small (E := A * A.conjTranspose - 1) (fun i j => by rw [Matrix.sub_apply]; exact h i j) w
    rwa [← e2, Complex.norm_real, Real.norm_eq_abs] at this
  generalize (n : ℝ) * τ = δ at *
  have hA0 := sq_nonneg' (A.mulVec v)
  have hv0 := sq_nonneg' v
  rw [abs_le]
  constructor
  · -- from below
    by_cases hd : 1 ≤ δ
    · nlinarith
    have hd := not_le.1 hd
    have hinj : Function.Injective A.conjTranspose.mulVec := by
      intro a b hab
      have h0 : A.conjTranspose.mulVec (a - b) = 0 := by rw [Matrix.mulVec_sub, hab, sub_self]
      have hk := abs_le.1 (key (a - b))
      rw [h0] at hk
      have hz : sq (0 : Fin n → ℂ) = 0 := by simp [sq]
      have hge := sq_nonneg' (a - b)
      have : sq (a - b) = 0 := by nlinarith [hk.1]
      exact sub_eq_zero.1 (sq_eq_zero this)
    have hunit := Matrix.mulVec_injective_iff_isUnit.1 hinj
    obtain ⟨w, rfl⟩ := Matrix.mulVec_surjective_iff_isUnit.2 hunit v
    have k1 := (abs_le.1 (key w)).1
    have hw0 := sq_nonneg' w
    generalize hv : A.conjTranspose.mulVec w = v at *
    have c : sq v ^ 2 ≤ sq (A.mulVec v) * sq w := by
      have := norm_inp_le (A.mulVec v) w
      rw [inp_mulVec, hv, inp_self, Complex.norm_real, Real.norm_eq_abs, sq_abs] at this
      exact this
    by_cases hz : sq v = 0
    · rw [hz]; nlinarith
    have hvp : 0 < sq v := lt_of_le_of_ne hv0 (Ne.symm hz)
    -- sq v ^ 2 ≤ sq (A v) * sq w and (1 - δ) * sq w ≤ sq v
    have : sq v * ((1 - δ) * sq v) ≤ sq v * sq (A.mulVec v) := by
      calc sq v * ((1 - δ) * sq v) = (1 - δ) * sq v ^ 2 := by ring
        _ ≤ (1 - δ) * (sq (A.mulVec v) * sq w) := mul_le_mul_of_nonneg_left c (by linarith)
        _ = ((1 - δ) * sq w) * sq (A.mulVec v) := by ring
        _ ≤ sq v * sq (A.mulVec v) := mul_le_mul_of_nonneg_right (by nlinarith) hA0
    have := le_of_mul_le_mul_left this hvp
    linarith
  · -- from above
    have c : sq (A.mulVec v) ^ 2 ≤ sq (A.conjTranspose.mulVec (A.mulVec v)) * sq v := by
      have := norm_inp_le v (A.conjTranspose.mulVec (A.mulVec v))
      rw [← inp_mulVec, inp_self, Complex.norm_real, Real.norm_eq_abs, sq_abs, mul_comm] at this
      exact this
    have k2 := (abs_le.1 (key (A.mulVec v))).2
    by_cases hz : sq (A.mulVec v) = 0
    · rw [hz]; nlinarith
    have hp : 0 < sq (A.mulVec v) := lt_of_le_of_ne hA0 (Ne.symm hz)
    have : sq (A.mulVec v) * sq (A.mulVec v) ≤ sq (A.mulVec v) * ((1 + δ) * sq v) := by
      calc _ = sq (A.mulVec v) ^ 2 := by ring
        _ ≤ _ := c
        _ ≤ ((1 + δ) * sq (A.mulVec v)) * sq v := mul_le_mul_of_nonneg_right (by linarith) hv0
        _ = _ := by ring
    have := le_of_mul_le_mul_left this hp
    linarith

end

/-- `U` changes the squared lengths of vectors of size `n` by at most the factor `δ`. -/
def Nearly (n : Nat) (δ : ℝ) (U : Nat → Nat → ℂ) : Prop :=
  ∀ v : Nat → ℂ, |((List.range n).map fun i =>
      Complex.normSq ((List.range n).map fun j => U i j * v j).sum).sum
    - ((List.range n).map fun j => Complex.normSq (v j)).sum|
    ≤ δ * ((List.range n).map fun j => Complex.normSq (v j)).sum

theorem nearly_of_gram {U : Mat ℂ} {n : Nat} {τ : ℝ} (hr : U.rows = n) (hc : U.cols = n)
    (h : ∀ i < n, ∀ j < n, ‖U.gram i j - if i = j then 1 else 0‖ ≤ τ) : Nearly n (n * τ) U.e := by
  intro v
  let A : Matrix (Fin n) (Fin n) ℂ := fun i j => U.e i j
  have hA : ∀ i j, ‖(A * A.conjTranspose) i j - (1 : Matrix (Fin n) (Fin n) ℂ) i j‖ ≤ τ := by
    intro i j
    have := h i i.2 j j.2
    rw [Mat.gram, hc, list_range_sum] at this
    rw [Matrix.mul_apply, Matrix.one_apply]
    simp only [Matrix.conjTranspose_apply, A, Fin.ext_iff]
    exact this
  have := sq_mulVec_close hA fun j : Fin n => v j
  rw [list_range_sum, list_range_sum n fun j => Complex.normSq (v j)]
  simp only [list_range_sum]
  exact this

/-- The sum of the squared moduli. -/
noncomputable def mass (dims : List Nat) (ψ : State ℂ) : ℝ := ((states dims).map fun s => Complex.normSq (ψ s)).sum

theorem mass_weigh (dims : List Nat) (ψ : State ℂ) : ((mass dims ψ : ℝ) : ℂ) = weigh (fun _ => 1) dims ψ := by
  unfold mass weigh
  induction states dims with
  | nil => simp
  | cons s l ih =>
    simp only [List.map_cons, List.sum_cons, Complex.ofReal_add, ih, one_mul]
    rw [Complex.star_def, Complex.mul_conj]

theorem mass_nonneg (dims : List Nat) (ψ : State ℂ) : 0 ≤ mass dims ψ := by
  apply List.sum_nonneg
  intro x hx
  obtain ⟨s, _, rfl⟩ := List.mem_map.1 hx
  exact Complex.normSq_nonneg _

theorem nearly_states {ds : List Nat} {δ : ℝ} {U : Nat → Nat → ℂ} (h : Nearly ds.prod δ U) (v : List Nat → ℂ) :
    |((states ds).map fun a => Complex.normSq ((states ds).map fun m => U (value ds a) (value ds m) * v m).sum).sum
      - ((states ds).map fun m => Complex.normSq (v m)).sum|
      ≤ δ * ((states ds).map fun m => Complex.normSq (v m)).sum := by
  have e : ∀ m ∈ states ds, v ((states ds).getD (value ds m) []) = v m := by
    intro m hm
    obtain ⟨i, hi, rfl⟩ := List.mem_iff_getElem.1 hm
    rw [value_getElem hi, List.getD_eq_getElem?_getD, List.getElem?_eq_getElem hi, Option.getD_some]
  have := h fun j => v ((states ds).getD j [])
  simp only [sum_range_prod] at this
  rw [map_congr_sum (f := fun m => Complex.normSq (v ((states ds).getD (value ds m) [])))
    (g := fun m => Complex.normSq (v m)) fun m hm => by rw [e m hm]] at this
  rw [map_congr_sum (f := fun a => Complex.normSq ((states ds).map fun m =>
      U (value ds a) (value ds m) * v ((states ds).getD (value ds m) [])).sum)
    (g := fun a => Complex.normSq ((states ds).map fun m => U (value ds a) (value ds m) * v m).sum)
    fun a _ => congrArg Complex.normSq (map_congr_sum fun m hm => by rw [e m hm])] at this
  exact this

theorem abs_sum_sub_le {α : Type} {f g : α → ℝ} {δ : ℝ} (l : List α) (h : ∀ a ∈ l, |f a - g a| ≤ δ * g a) :
    |(l.map f).sum - (l.map g).sum| ≤ δ * (l.map g).sum := by
  induction l with
  | nil => simp
  | cons a l ih =>
    have h1 := abs_le.1 (h a (by simp))
    have h2 := abs_le.1 (ih fun b hb => h b (by simp [hb]))
    simp only [List.map_cons, List.sum_cons]
    rw [abs_le]
    constructor <;> linarith [h1.1, h1.2, h2.1, h2.2]

theorem mass_onBlock {dims : List Nat} {lb len : Nat} (hle : lb + len ≤ dims.length)
    {δ : ℝ} {U : Nat → Nat → ℂ} (hU : Nearly (slice dims lb len).prod δ U) (ψ : State ℂ) :
    |mass dims (onBlock dims lb len U ψ) - mass dims ψ| ≤ δ * mass dims ψ := by
  have hl1 : (dims.take lb).length = lb := by simp; omega
  have hl2 := slice_length hle
  have hsplit := dims_split dims lb len
  generalize dims.take lb = pre at *
  generalize slice dims lb len = ds at *
  generalize dims.drop (lb + len) = post at *
  subst hsplit hl1 hl2
  unfold mass
  rw [sum_states_append, sum_states_append, sum_states_append, sum_states_append]
  apply abs_sum_sub_le
  intro p hp
  rw [sum_comm, sum_comm (states ds)]
  apply abs_sum_sub_le
  intro q hq
  have hp' := mem_states.1 hp
  rw [map_congr_sum (f := fun a =>
      Complex.normSq (onBlock (pre ++ ds ++ post) pre.length ds.length U ψ (p ++ a ++ q)))
    (g := fun a => Complex.normSq ((states ds).map fun m => U (value ds a) (value ds m) * ψ (p ++ m ++ q)).sum)
    fun a ha => by rw [onBlock_apply hp'.1 (mem_states.1 ha).1]]
  exact nearly_states hU fun m => ψ (p ++ m ++ q)

theorem mass_congr {dims : List Nat} {ψ φ : State ℂ} (h : EqOn dims ψ φ) : mass dims ψ = mass dims φ := by
  unfold mass
  exact map_congr_sum fun s hs => by rw [h s (mem_states.1 hs)]

theorem mass_onReg {dims : List Nat} {q : Nat} (hq : q < dims.length) {δ : ℝ} {G : Nat → Nat → ℂ}
    (hG : Nearly (dims.getD q 0) δ G) (ψ : State ℂ) :
    |mass dims (onReg (dims.getD q 0) q G ψ) - mass dims ψ| ≤ δ * mass dims ψ := by
  rw [mass_congr (onReg_onBlock hq G ψ)]
  apply mass_onBlock (by omega)
  rw [slice_one hq, List.prod_cons, List.prod_nil, Nat.mul_one]
  rwa [show dims[q] = dims.getD q 0 by simp [List.getD_eq_getElem?_getD, hq]]

end QuDiet
