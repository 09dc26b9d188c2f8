import Mathlib.Analysis.SpecialFunctions.Log.Base
import Mathlib.Data.Int.Log
import Mathlib.Tactic.Linarith
import Mathlib.Tactic.Positivity
import Mathlib.Tactic.Ring
import Mathlib.Tactic.Push
import Verif.Float

/-! # A backend that rounds

`roundBackend` meets `Backend.Rounds` for every rounding function, and rounding to a given number of binary digits is
one. -/

namespace QuDiet

variable {fl : ℂ → ℂ} {u : ℝ}

theorem Rounding.zero (h : Rounding fl u) : fl 0 = 0 := by
  have := h.near 0
  simpa using this

theorem sum_range_succ_list (f : Nat → ℂ) (s0 : ℂ) (g : ℂ → ℂ → ℂ) (n : Nat) :
    (List.range (n + 1)).foldl (fun s k => g s (f k)) s0 =
      g ((List.range n).foldl (fun s k => g s (f k)) s0) (f n) := by
  rw [List.range_succ, List.foldl_append, List.foldl_cons, List.foldl_nil]

/-- The error of a sum that is rounded after each step. -/
theorem Rounding.sum (h : Rounding fl u) (f : Nat → ℂ) (n : Nat) :
    ‖(List.range n).foldl (fun s k => fl (s + fl (f k))) 0 - ∑ k ∈ Finset.range n, f k‖ ≤
      ((1 + u) ^ (n + 1) - 1) * ∑ k ∈ Finset.range n, ‖f k‖ := by
  have hu := h.nonneg
  induction n with
  | zero => simp
  | succ n ih =>
    rw [sum_range_succ_list f 0 (fun s x => fl (s + fl x)), Finset.sum_range_succ, Finset.sum_range_succ]
    set s := (List.range n).foldl (fun s k => fl (s + fl (f k))) 0
    set S := ∑ k ∈ Finset.range n, f k
    set T := ∑ k ∈ Finset.range n, ‖f k‖ with hT
    set p := f n
    set E := (1 + u) ^ (n + 1) with hE
    have hT0 : 0 ≤ T := Finset.sum_nonneg fun _ _ => norm_nonneg _
    have hST : ‖S‖ ≤ T := norm_sum_le _ _
    have hE1 : 1 + u ≤ E := by
      rw [hE, pow_succ]
      have : (1 : ℝ) ≤ (1 + u) ^ n := one_le_pow₀ (by linarith)
      nlinarith
    have e1 := h.near (s + fl p)
    have e2 := h.near p
    have e3 : ‖s‖ ≤ E * T := by
      have : ‖s‖ ≤ ‖s - S‖ + ‖S‖ := by
        have := norm_add_le (s - S) S
        simpa using this
      have : ‖s - S‖ + ‖S‖ ≤ (E - 1) * T + T := by linarith
      linarith
    have e4 : ‖fl p‖ ≤ (1 + u) * ‖p‖ := by
      have : ‖fl p‖ ≤ ‖fl p - p‖ + ‖p‖ := by
        have := norm_add_le (fl p - p) p
        simpa using this
      linarith
    have e5 : ‖s + fl p‖ ≤ E * T + (1 + u) * ‖p‖ := (norm_add_le _ _).trans (by linarith)
    have e6 : fl (s + fl p) - (S + p) = (fl (s + fl p) - (s + fl p)) + ((s - S) + (fl p - p)) := by ring
    rw [e6]
    have e7 := (norm_add_le (fl (s + fl p) - (s + fl p)) ((s - S) + (fl p - p)))
    have e8 := norm_add_le (s - S) (fl p - p)
    have e9 : (1 + u) ^ (n + 1 + 1) = (1 + u) * E := by rw [hE, pow_succ]; ring
    rw [e9]
    have hp := norm_nonneg p
    have e10 : u * ‖s + fl p‖ ≤ u * (E * T + (1 + u) * ‖p‖) := mul_le_mul_of_nonneg_left e5 hu
    have e11 : (1 + u) * (1 + u) * ‖p‖ ≤ (1 + u) * E * ‖p‖ :=
      mul_le_mul_of_nonneg_right (mul_le_mul_of_nonneg_left hE1 (by linarith)) hp
    nlinarith

theorem roundBackend_rounds (h : Rounding fl u) : (roundBackend fl h.zero h.one h.idem).Rounds u where
  nonneg := h.nonneg
  matrixShape m := ⟨rfl, rfl⟩
  matrix m i _ j _ := ⟨h.near _, fun e => by
    change fl (m.e i j) = 1
    rw [e, h.one]⟩
  eye n := ⟨rfl, rfl, fun _ _ _ _ => rfl⟩
  kronShape a b := ⟨rfl, rfl⟩
  kron a b i _ j _ := ⟨h.near _, fun e => by
    change fl (a.1.e (i / b.1.rows) (j / b.1.cols) * b.1.e (i % b.1.rows) (j % b.1.cols)) = _
    change a.1.e (i / b.1.rows) (j / b.1.cols) = 1 at e
    rw [e, one_mul, b.2]
    rfl⟩
  dotError a b hne := by
    exact if_neg hne
  dot a b he := by
    have e : (roundBackend fl h.zero h.one h.idem).dot a b = _ := if_pos he
    refine ⟨_, e, rfl, rfl, ?_⟩
    intro i hi j hj
    refine ⟨?_, ?_⟩
    · have := h.sum (fun k => a.1.e i k * b.1.e k j) a.1.cols
      simp only [norm_mul] at this
      exact this
    · intro k hk hk1 hl
      change b.1.e k j = 1 at hk1
      change ∀ l < a.1.cols, l ≠ k → b.1.e l j = 0 at hl
      change (List.range a.1.cols).foldl (fun s k => fl (s + fl (a.1.e i k * b.1.e k j))) 0 = a.1.e i k
      change k < a.1.cols at hk
      have key : ∀ n ≤ a.1.cols, (List.range n).foldl (fun s k => fl (s + fl (a.1.e i k * b.1.e k j))) 0 =
          if k < n then a.1.e i k else 0 := by
        intro n hn
        induction n with
        | zero => rfl
        | succ n ih =>
          rw [sum_range_succ_list (fun k => a.1.e i k * b.1.e k j) 0 (fun s x => fl (s + fl x)), ih (by omega)]
          by_cases hkn : k = n
          · subst hkn
            rw [if_neg (by omega), if_pos (by omega), hk1, mul_one, a.2, zero_add, a.2]
          · rw [hl n (by omega) (fun h => hkn h.symm), mul_zero, h.zero, add_zero]
            by_cases hlt : k < n
            · rw [if_pos hlt, if_pos (by omega), a.2]
            · rw [if_neg hlt, if_neg (by omega), h.zero]
      rw [key _ (le_refl _), if_pos hk]
  transpose a := ⟨rfl, rfl, fun _ _ _ _ => rfl⟩

/-! ### Rounding to binary digits -/

/-- The number with `p + 1` significant binary digits nearest to `x`. -/
noncomputable def roundBits (p : Nat) (x : ℝ) : ℝ :=
  if x = 0 then 0 else
    round (x * 2 ^ ((p : Int) - Int.log 2 |x|)) * (2 : ℝ) ^ (Int.log 2 |x| - (p : Int))

theorem roundBits_near (p : Nat) (x : ℝ) : |roundBits p x - x| ≤ (1 / 2) ^ (p + 1) * |x| := by
  unfold roundBits
  by_cases hx : x = 0
  · simp [hx]
  rw [if_neg hx]
  set e := Int.log 2 |x| with he
  have hpow : (0 : ℝ) < 2 ^ (e - (p : Int)) := by positivity
  have h1 : x = x * 2 ^ ((p : Int) - e) * 2 ^ (e - (p : Int)) := by
    rw [mul_assoc, ← zpow_add₀ (by norm_num)]
    simp
  have h2 : (round (x * 2 ^ ((p : Int) - e)) : ℝ) * 2 ^ (e - (p : Int)) - x =
      (round (x * 2 ^ ((p : Int) - e)) - x * 2 ^ ((p : Int) - e)) * 2 ^ (e - (p : Int)) := by
    rw [sub_mul, ← h1]
  rw [h2, abs_mul, abs_of_pos hpow]
  have h3 : |(round (x * 2 ^ ((p : Int) - e)) : ℝ) - x * 2 ^ ((p : Int) - e)| ≤ 1 / 2 := by
    rw [abs_sub_comm]
    exact abs_sub_round _
  have h4 : (2 : ℝ) ^ e ≤ |x| := by
    have := Int.zpow_log_le_self (R := ℝ) (b := 2) (by norm_num) (abs_pos.2 hx)
    simpa [he] using this
  calc _ ≤ 1 / 2 * (2 : ℝ) ^ (e - (p : Int)) := mul_le_mul_of_nonneg_right h3 hpow.le
    _ = (1 / 2) ^ (p + 1) * 2 ^ e := by
      rw [zpow_sub₀ (by norm_num), zpow_natCast, pow_succ, one_div, inv_pow]
      ring
    _ ≤ _ := mul_le_mul_of_nonneg_left h4 (by positivity)

/-- Numbers with `p + 1` digits are kept. -/
theorem roundBits_fixed (p : Nat) (k j : Int) (hk : |k| ≤ 2 ^ (p + 1)) :
    roundBits p ((k : ℝ) * 2 ^ j) = (k : ℝ) * 2 ^ j := by
  have h2 : (2 : ℝ) ≠ 0 := by norm_num
  by_cases hy : (k : ℝ) * 2 ^ j = 0
  · rw [hy]; simp [roundBits]
  have hk0 : k ≠ 0 := by rintro rfl; simp at hy
  set y := (k : ℝ) * 2 ^ j with hyd
  set e := Int.log 2 |y| with he
  have h4 : (2 : ℝ) ^ e ≤ |y| := by
    have := Int.zpow_log_le_self (R := ℝ) (b := 2) (by norm_num) (abs_pos.2 hy)
    simpa [he] using this
  have hya : |y| = |(k : ℝ)| * 2 ^ j := by
    rw [hyd, abs_mul, abs_of_pos (by positivity : (0 : ℝ) < 2 ^ j)]
  have hkr : |(k : ℝ)| ≤ 2 ^ (p + 1) := by
    rw [← Int.cast_abs]
    exact_mod_cast hk
  have h6 : (2 : ℝ) ^ e ≤ 2 ^ ((p : Int) + 1 + j) := by
    refine h4.trans ?_
    rw [hya, zpow_add₀ h2]
    refine mul_le_mul_of_nonneg_right (hkr.trans_eq ?_) (by positivity)
    rw [← zpow_natCast]
    norm_cast
  have h7 : e ≤ (p : Int) + 1 + j := (zpow_le_zpow_iff_right₀ (by norm_num)).1 h6
  have hint : ∃ m : Int, y * 2 ^ ((p : Int) - e) = m := by
    have hz : y * 2 ^ ((p : Int) - e) = (k : ℝ) * 2 ^ (j + ((p : Int) - e)) := by
      rw [hyd, mul_assoc, ← zpow_add₀ h2]
    rw [hz]
    by_cases hs : 0 ≤ j + ((p : Int) - e)
    · obtain ⟨n, hn⟩ := Int.eq_ofNat_of_zero_le hs
      refine ⟨k * 2 ^ n, ?_⟩
      rw [hn]
      push_cast
      rw [zpow_natCast]
    · have h8 : e = (p : Int) + 1 + j := by omega
      have h9 : (2 : ℝ) ^ (p + 1) ≤ |(k : ℝ)| := by
        rw [h8, hya, zpow_add₀ h2] at h4
        have := le_of_mul_le_mul_right h4 (by positivity)
        refine le_trans (le_of_eq ?_) this
        rw [← zpow_natCast]
        norm_cast
      have h10 : |(k : ℝ)| = 2 ^ (p + 1) := le_antisymm hkr h9
      have h11 : j + ((p : Int) - e) = -1 := by omega
      rw [h11]
      rcases abs_eq (by positivity : (0 : ℝ) ≤ 2 ^ (p + 1)) |>.1 h10 with h | h
      · refine ⟨2 ^ p, ?_⟩
        rw [h, pow_succ, zpow_neg_one]
        push_cast
        field_simp
      · refine ⟨-2 ^ p, ?_⟩
        rw [h, pow_succ, zpow_neg_one]
        push_cast
        field_simp
  obtain ⟨m, hm⟩ := hint
  unfold roundBits
  rw [if_neg hy, ← he, hm, round_intCast, ← hm, mul_assoc, ← zpow_add₀ h2]
  simp

theorem roundBits_idem (p : Nat) (x : ℝ) : roundBits p (roundBits p x) = roundBits p x := by
  by_cases hx : x = 0
  · simp [roundBits, hx]
  have e1 : roundBits p x = round (x * 2 ^ ((p : Int) - Int.log 2 |x|)) * (2 : ℝ) ^ (Int.log 2 |x| - (p : Int)) := by
    unfold roundBits
    rw [if_neg hx]
  set e := Int.log 2 |x| with he
  have h5 : |x| < (2 : ℝ) ^ (e + 1) := by
    have := Int.lt_zpow_succ_log_self (R := ℝ) (b := 2) (by norm_num) |x|
    simpa [he] using this
  have hz : |x * 2 ^ ((p : Int) - e)| < 2 ^ (p + 1) := by
    rw [abs_mul, abs_of_pos (by positivity : (0 : ℝ) < 2 ^ ((p : Int) - e))]
    calc |x| * 2 ^ ((p : Int) - e) < 2 ^ (e + 1) * 2 ^ ((p : Int) - e) :=
          mul_lt_mul_of_pos_right h5 (by positivity)
      _ = 2 ^ (p + 1) := by
        rw [← zpow_add₀ (by norm_num), ← zpow_natCast]
        congr 1
        push_cast
        ring
  have hr : |(round (x * 2 ^ ((p : Int) - e)) : ℝ)| < 2 ^ (p + 1) + 1 := by
    have h1 := abs_sub_round (x * 2 ^ ((p : Int) - e))
    have h2 : |(round (x * 2 ^ ((p : Int) - e)) : ℝ)| ≤
        |x * 2 ^ ((p : Int) - e) - round (x * 2 ^ ((p : Int) - e))| + |x * 2 ^ ((p : Int) - e)| := by
      have := abs_sub (x * 2 ^ ((p : Int) - e)) (x * 2 ^ ((p : Int) - e) - round (x * 2 ^ ((p : Int) - e)))
      rw [sub_sub_cancel] at this
      linarith
    linarith
  have hk : |round (x * 2 ^ ((p : Int) - e))| ≤ 2 ^ (p + 1) := by
    have : |round (x * 2 ^ ((p : Int) - e))| < 2 ^ (p + 1) + 1 := by
      rw [← Int.cast_abs] at hr
      exact_mod_cast hr
    omega
  rw [e1]
  exact roundBits_fixed p _ _ hk

/-- Complex numbers are rounded part by part. -/
noncomputable def roundComplex (p : Nat) (z : ℂ) : ℂ := ⟨roundBits p z.re, roundBits p z.im⟩

/-- Rounding to `p + 1` binary digits is a rounding function of relative precision `2⁻⁽ᵖ⁺¹⁾`. -/
theorem roundComplex_rounding (p : Nat) : Rounding (roundComplex p) ((1 / 2) ^ (p + 1)) where
  nonneg := by positivity
  near z := by
    have hc : (0 : ℝ) ≤ (1 / 2) ^ (p + 1) := by positivity
    have h1 := roundBits_near p z.re
    have h2 := roundBits_near p z.im
    set c : ℝ := (1 / 2) ^ (p + 1)
    apply abs_le_of_sq_le_sq' _ (by positivity) |>.2
    rw [mul_pow, Complex.sq_norm, Complex.sq_norm, Complex.normSq_apply, Complex.normSq_apply]
    simp only [roundComplex, Complex.sub_re, Complex.sub_im]
    have h3 : (roundBits p z.re - z.re) ^ 2 ≤ (c * |z.re|) ^ 2 := sq_le_sq' (by linarith [neg_abs_le (roundBits p z.re - z.re)]) (le_trans (le_abs_self _) h1)
    have h4 : (roundBits p z.im - z.im) ^ 2 ≤ (c * |z.im|) ^ 2 := sq_le_sq' (by linarith [neg_abs_le (roundBits p z.im - z.im)]) (le_trans (le_abs_self _) h2)
    rw [mul_pow, sq_abs] at h3 h4
    nlinarith
  idem z := by simp only [roundComplex, roundBits_idem]
  one := by
    have h1 : roundBits p 1 = 1 := by
      have := roundBits_fixed p 1 0 (by simp; exact_mod_cast Nat.one_le_two_pow)
      simpa using this
    have h0 : roundBits p 0 = 0 := by simp [roundBits]
    apply Complex.ext <;> simp [roundComplex, h0, h1]

end QuDiet
