import Mathlib.RingTheory.RootsOfUnity.Complex
import Mathlib.Analysis.Complex.Basic
import Verif.Lemmas.Norm

/-! # Exact numerics

The idealisation of `np.roots` and `math.sqrt` used by the statements about amplitudes: complex numbers,
no rounding. -/

namespace QuDiet
open Spec

noncomputable instance : UnitaryCheck ℂ := exactCheck

/-- What the numeric libraries are assumed to return, up to rounding: `np.roots` finds the `d` different
`d`-th roots of unity in some order with `1` last (h.py:75 relies on that), and `1 / math.sqrt(d)` is
what it says. -/
structure Numerics.Exact (N : Numerics ℂ) : Prop where
  length : ∀ d, 1 ≤ d → (N.roots d).length = d
  nodup : ∀ d, 1 ≤ d → (N.roots d).Nodup
  pow : ∀ d, 1 ≤ d → ∀ x ∈ N.roots d, x ^ d = 1
  last : ∀ d, 1 ≤ d → (N.roots d).getLast? = some 1
  invSqrt : ∀ d, 1 ≤ d → N.invSqrt d = ((1 / Real.sqrt d : ℝ) : ℂ)

theorem Numerics.Exact.sized {N : Numerics ℂ} (h : N.Exact) : N.Sized := h.length

/-- Roots in the order of their angles, counted from the first one after 1. -/
noncomputable def standardN : Numerics ℂ where
  roots d := (List.range d).map fun k => Complex.exp (2 * Real.pi * Complex.I / d) ^ (k + 1)
  invSqrt d := ((1 / Real.sqrt d : ℝ) : ℂ)

/-- The assumptions of `Exact` can be met. -/
theorem standardN_exact : standardN.Exact where
  length d _ := by simp [standardN]
  nodup d hd := by
    have hp := Complex.isPrimitiveRoot_exp d (by omega)
    simp only [standardN]
    apply List.Nodup.map_on _ List.nodup_range
    intro x hx y hy h
    rw [List.mem_range] at hx hy
    rw [pow_succ, pow_succ] at h
    exact hp.pow_inj hx hy (mul_right_cancel₀ (hp.ne_zero (by omega)) h)
  pow d hd x hx := by
    have hp := Complex.isPrimitiveRoot_exp d (by omega)
    simp only [standardN, List.mem_map] at hx
    obtain ⟨k, _, rfl⟩ := hx
    rw [← pow_mul, Nat.mul_comm, pow_mul, hp.pow_eq_one, one_pow]
  last d hd := by
    have hp := Complex.isPrimitiveRoot_exp d (by omega)
    obtain ⟨e, rfl⟩ : ∃ e, d = e + 1 := ⟨d - 1, by omega⟩
    simp only [standardN, List.range_succ, List.map_append, List.map_cons, List.map_nil,
      List.getLast?_append, List.getLast?_singleton]
    rw [hp.pow_eq_one]
    rfl
  invSqrt d hd := rfl

variable {N : Numerics ℂ}

/-- A root of unity times its conjugate. -/
theorem root_mul_star {d : Nat} (hd : 1 ≤ d) {x : ℂ} (hx : x ^ d = 1) : x * star x = 1 := by
  have := Complex.norm_eq_one_of_pow_eq_one hx (by omega)
  rw [Complex.star_def, Complex.mul_conj, Complex.normSq_eq_norm_sq, this]
  simp

theorem Numerics.Exact.root {d i : Nat} (h : N.Exact) (hi : i < d) :
    (N.roots d).getD i 0 ^ d = 1 := by
  have hl := h.length d (by omega)
  apply h.pow d (by omega)
  rw [List.getD_eq_getElem?_getD, List.getElem?_eq_getElem (by omega), Option.getD_some]
  exact List.getElem_mem _

theorem Numerics.Exact.root_star {d i : Nat} (h : N.Exact) (hi : i < d) :
    (N.roots d).getD i 0 * star ((N.roots d).getD i 0) = 1 :=
  root_mul_star (by omega) (h.root hi)

theorem Numerics.Exact.root_last {d : Nat} (h : N.Exact) (hd : 1 ≤ d) : (N.roots d).getD (d - 1) 0 = 1 := by
  have hl := h.length d hd
  have := h.last d hd
  rw [List.getLast?_eq_getElem?, hl] at this
  rw [List.getD_eq_getElem?_getD, this]
  rfl

theorem Numerics.Exact.root_inj {d i j : Nat} (h : N.Exact) (hi : i < d) (hj : j < d)
    (he : (N.roots d).getD i 0 = (N.roots d).getD j 0) : i = j := by
  have hl := h.length d (by omega)
  rw [List.getD_eq_getElem?_getD, List.getD_eq_getElem?_getD, List.getElem?_eq_getElem (by omega),
    List.getElem?_eq_getElem (by omega), Option.getD_some, Option.getD_some] at he
  exact (h.nodup d (by omega)).getElem_inj_iff.1 he

theorem Numerics.Exact.root_ne_one {d i : Nat} (h : N.Exact) (hi : i + 1 < d) :
    (N.roots d).getD i 0 ≠ 1 := by
  rw [← h.root_last (d := d) (by omega)]
  intro he
  have := h.root_inj (by omega) (by omega) he
  omega

theorem Numerics.Exact.invSqrt_sq {d : Nat} (h : N.Exact) (hd : 1 ≤ d) :
    N.invSqrt d * star (N.invSqrt d) = 1 / (d : ℂ) := by
  rw [h.invSqrt d hd, Complex.star_def, Complex.conj_ofReal, ← Complex.ofReal_mul]
  have h1 : (0 : ℝ) ≤ d := by positivity
  have : (1 / Real.sqrt d) * (1 / Real.sqrt d) = 1 / (d : ℝ) := by
    rw [div_mul_div_comm, Real.mul_self_sqrt h1, one_mul]
  rw [this]
  push_cast
  rfl

/-! ### Hadamard matrices -/

/-- Every entry of the Hadamard matrix has squared modulus `1/d`. -/
theorem hadamard_entry (h : N.Exact) {d i j : Nat} (hd : 2 ≤ d) :
    hadamard (N.roots d) (N.invSqrt d) d i j * star (hadamard (N.roots d) (N.invSqrt d) d i j) = 1 / (d : ℂ) := by
  unfold hadamard
  rw [star_mul']
  have key : ∀ x : ℂ, x * star x = 1 →
      N.invSqrt d * x * (star (N.invSqrt d) * star x) = 1 / (d : ℂ) := by
    intro x hx
    rw [mul_mul_mul_comm, hx, mul_one, h.invSqrt_sq (by omega)]
  apply key
  split
  · simp
  · have : (i + (d - 1) - j) % (d - 1) < d - 1 := Nat.mod_lt _ (by omega)
    exact h.root_star (by omega)

theorem range_two : List.range 2 = [0, 1] := rfl
theorem range_three : List.range 3 = [0, 1, 2] := rfl
theorem range_four : List.range 4 = [0, 1, 2, 3] := rfl

/-- The only non-trivial square root of 1. -/
theorem Numerics.Exact.root_two (h : N.Exact) : (N.roots 2).getD 0 0 = -1 := by
  have h1 := h.root (d := 2) (i := 0) (by omega)
  have h2 := h.root_ne_one (d := 2) (i := 0) (by omega)
  have h3 : ((N.roots 2).getD 0 0 - 1) * ((N.roots 2).getD 0 0 + 1) = 0 := by ring_nf; rw [h1]; ring
  rcases mul_eq_zero.1 h3 with h4 | h4
  · exact absurd (sub_eq_zero.1 h4) h2
  · exact eq_neg_of_add_eq_zero_left h4

/-- The two non-trivial cube roots of 1 are `w` and `w²`. -/
theorem Numerics.Exact.root_three (h : N.Exact) :
    (N.roots 3).getD 1 0 = (N.roots 3).getD 0 0 ^ 2 ∧
      1 + (N.roots 3).getD 0 0 + (N.roots 3).getD 0 0 ^ 2 = 0 := by
  have h1 := h.root (d := 3) (i := 0) (by omega)
  have h2 := h.root_ne_one (d := 3) (i := 0) (by omega)
  have h3 := h.root (d := 3) (i := 1) (by omega)
  have h4 := h.root_ne_one (d := 3) (i := 1) (by omega)
  have h5 : (N.roots 3).getD 0 0 ≠ (N.roots 3).getD 1 0 := fun he => by
    have := h.root_inj (d := 3) (by omega) (by omega) he
    omega
  generalize (N.roots 3).getD 0 0 = a at *
  generalize (N.roots 3).getD 1 0 = b at *
  have q : ∀ x : ℂ, x ^ 3 = 1 → x ≠ 1 → 1 + x + x ^ 2 = 0 := by
    intro x hx hn
    have : (x - 1) * (1 + x + x ^ 2) = 0 := by ring_nf; rw [hx]; ring
    rcases mul_eq_zero.1 this with h | h
    · exact absurd (sub_eq_zero.1 h) hn
    · exact h
  have qa := q a h1 h2
  have qb := q b h3 h4
  have : (a - b) * (a + b + 1) = 0 := by linear_combination qa - qb
  rcases mul_eq_zero.1 this with h | h
  · exact absurd (sub_eq_zero.1 h) h5
  · exact ⟨by linear_combination h - qa, qa⟩

theorem hadamard_two (h : N.Exact) {i j : Nat} (hi : i < 2) (hj : j < 2) :
    hadamard (N.roots 2) (N.invSqrt 2) 2 i j = N.invSqrt 2 * (-1) ^ (i * j) := by
  have hr := h.root_two
  unfold hadamard
  congr 1
  have hi' : i = 0 ∨ i = 1 := by omega
  have hj' : j = 0 ∨ j = 1 := by omega
  rcases hi' with rfl | rfl <;> rcases hj' with rfl | rfl <;> norm_num
  exact hr

theorem hadamard_columns_two (h : N.Exact) : Columns 2 (hadamard (N.roots 2) (N.invSqrt 2) 2) := by
  have hc := h.invSqrt_sq (d := 2) (by omega)
  intro a ha b hb
  have : ((List.range 2).map fun i => hadamard (N.roots 2) (N.invSqrt 2) 2 i a *
      star (hadamard (N.roots 2) (N.invSqrt 2) 2 i b)).sum
      = ((List.range 2).map fun i => 1 / (2 : ℂ) * ((-1) ^ (i * a) * (-1) ^ (i * b))).sum := by
    apply map_congr_sum
    intro i hi
    rw [List.mem_range] at hi
    rw [hadamard_two h hi ha, hadamard_two h hi hb, star_mul', mul_mul_mul_comm, hc, star_pow, star_neg, star_one]
    norm_num
  rw [this]
  have ha' : a = 0 ∨ a = 1 := by omega
  have hb' : b = 0 ∨ b = 1 := by omega
  rcases ha' with rfl | rfl <;> rcases hb' with rfl | rfl <;>
    simp only [range_two, List.map_cons, List.map_nil, List.sum_cons, List.sum_nil] <;> norm_num

theorem hadamard_three (h : N.Exact) {i j : Nat} (hi : i < 3) (hj : j < 3) :
    hadamard (N.roots 3) (N.invSqrt 3) 3 i j = N.invSqrt 3 * (N.roots 3).getD 0 0 ^ (i * j) := by
  obtain ⟨hb, _⟩ := h.root_three
  have h1 := h.root (d := 3) (i := 0) (by omega)
  unfold hadamard
  congr 1
  have h4 : (N.roots 3).getD 0 0 ^ 4 = (N.roots 3).getD 0 0 := by rw [pow_succ, h1, one_mul]
  have hi' : i = 0 ∨ i = 1 ∨ i = 2 := by omega
  have hj' : j = 0 ∨ j = 1 ∨ j = 2 := by omega
  rcases hi' with rfl | rfl | rfl <;> rcases hj' with rfl | rfl | rfl <;> norm_num
  · exact hb
  · exact hb
  · exact h4.symm

theorem hadamard_columns_three (h : N.Exact) : Columns 3 (hadamard (N.roots 3) (N.invSqrt 3) 3) := by
  obtain ⟨_, hq⟩ := h.root_three
  have h1 := h.root (d := 3) (i := 0) (by omega)
  have hs := h.root_star (d := 3) (i := 0) (by omega)
  have hc := h.invSqrt_sq (d := 3) (by omega)
  have hst : star ((N.roots 3).getD 0 0) = (N.roots 3).getD 0 0 ^ 2 := by
    have : (N.roots 3).getD 0 0 ^ 3 * star ((N.roots 3).getD 0 0) = (N.roots 3).getD 0 0 ^ 2 := by
      rw [pow_succ, mul_assoc, hs, mul_one]
    rwa [h1, one_mul] at this
  intro a ha b hb
  have : ((List.range 3).map fun i => hadamard (N.roots 3) (N.invSqrt 3) 3 i a *
      star (hadamard (N.roots 3) (N.invSqrt 3) 3 i b)).sum
      = ((List.range 3).map fun i => 1 / (3 : ℂ) * ((N.roots 3).getD 0 0 ^ (i * a) * (N.roots 3).getD 0 0 ^ (2 * (i * b)))).sum := by
    apply map_congr_sum
    intro i hi
    rw [List.mem_range] at hi
    rw [hadamard_three h hi ha, hadamard_three h hi hb, star_mul', mul_mul_mul_comm, hc, star_pow, hst, ← pow_mul]
    norm_num
  rw [this]
  generalize (N.roots 3).getD 0 0 = w at *
  have wm : ∀ n, w ^ (n + 3) = w ^ n := by intro n; rw [pow_add, h1, mul_one]
  have hsum : ((List.range 3).map fun i => 1 / (3 : ℂ) * (w ^ (i * a) * w ^ (2 * (i * b)))).sum
      = 1 / (3 : ℂ) * (1 + w ^ (a + 2 * b) + w ^ (2 * a + 4 * b)) := by
    simp only [range_three, List.map_cons, List.map_nil, List.sum_cons, List.sum_nil, ← pow_add]
    ring_nf
  rw [hsum]
  have w3 := wm 0
  have w4 := wm 1
  have w5 := wm 2
  have w6 := wm 3
  have w8 := wm 5
  have w10 := wm 7
  have w12 := wm 9
  have w7 := wm 4
  have w9 := wm 6
  norm_num at w3 w4 w5 w6 w7 w8 w9 w10 w12
  have ha' : a = 0 ∨ a = 1 ∨ a = 2 := by omega
  have hb' : b = 0 ∨ b = 1 ∨ b = 2 := by omega
  rcases ha' with rfl | rfl | rfl <;> rcases hb' with rfl | rfl | rfl <;>
    norm_num [w12, w10, w9, w8, w7, w6, w5, w4, w3] <;> linear_combination hq

end QuDiet
