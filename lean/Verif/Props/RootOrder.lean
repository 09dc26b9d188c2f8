import Mathlib.Analysis.SpecialFunctions.Complex.CircleAddChar
import Mathlib.RingTheory.IntegralDomain
import Verif.Props.Hadamard

/-! # C08: orders of the roots of unity

Which orders of the roots make `h` unitary: not the order in which `np.roots` lists them from dimension
4 on, not the order of their angles, but for each prime dimension some order. -/

namespace QuDiet
open Spec

variable [UnitaryCheck ℂ] {N : Numerics ℂ}

/-- The order of the angles: `w, w², …, w^d = 1`. -/
noncomputable def angleOrder (w : ℂ) (d : Nat) : List ℂ := (List.range d).map fun k => w ^ (k + 1)

/-- The order in which `np.roots` is seen to list the roots of `x^d - 1`: pairs of conjugates, by increasing
real part, the one with positive imaginary part first; `w = exp(2πi/d)`. Read from the end this is
`1, w⁻¹, w, w⁻², w², …`, up to `-1` if `d` is even. -/
noncomputable def pairOrder (w : ℂ) (d : Nat) : List ℂ :=
  ((List.range d).map fun t => if t % 2 = 1 then w⁻¹ ^ ((t + 1) / 2) else w ^ (t / 2)).reverse

theorem star_eq_inv {d : Nat} (hd : 1 ≤ d) {w : ℂ} (hw : w ^ d = 1) : star w = w⁻¹ :=
  eq_inv_of_mul_eq_one_right (root_mul_star hd hw)

theorem corr_one {d : Nat} (hd : 3 ≤ d) (r : List ℂ) :
    corr d r 1 = ∑ k ∈ Finset.range (d - 2), r.getD k 0 * star (r.getD (k + 1) 0)
      + r.getD (d - 2) 0 * star (r.getD 0 0) := by
  unfold corr
  obtain ⟨e, rfl⟩ : ∃ e, d = e + 2 := ⟨d - 2, by omega⟩
  simp only [show e + 2 - 1 = e + 1 by omega, show e + 2 - 2 = e by omega]
  rw [Finset.sum_range_succ, Nat.mod_self]
  congr 1
  apply Finset.sum_congr rfl
  intro k hk
  rw [Nat.mod_eq_of_lt (by have := Finset.mem_range.1 hk; omega)]

theorem Uncorrelated.one {d : Nat} (hd : 3 ≤ d) {r : List ℂ} (h : Uncorrelated d r) : corr d r 1 = -1 := by
  have := h 1 (by omega) (by omega)
  rwa [sum_range_list] at this

/-- The order of the angles is correlated from dimension 4 on. -/
theorem angleOrder_correlated {d : Nat} (hd : 4 ≤ d) {w : ℂ} (hw : IsPrimitiveRoot w d) :
    ¬ Uncorrelated d (angleOrder w d) := by
  intro h
  have h := h.one (by omega)
  have hst := star_eq_inv (by omega) hw.pow_eq_one
  have hw0 : w ≠ 0 := hw.ne_zero (by omega)
  have hg : ∀ k, k < d → (angleOrder w d).getD k 0 = w ^ (k + 1) := by
    intro k hk
    simp [angleOrder, hk]
  have hnorm : ‖w‖ = 1 := Complex.norm_eq_one_of_pow_eq_one hw.pow_eq_one (by omega)
  rw [corr_one (by omega), Finset.sum_congr rfl (g := fun _ => w⁻¹) (by
    intro k hk
    have := Finset.mem_range.1 hk
    rw [hg k (by omega), hg (k + 1) (by omega), star_pow, hst]
    rw [pow_succ w⁻¹, ← mul_assoc, ← mul_pow, mul_inv_cancel₀ hw0, one_pow, one_mul]),
    hg _ (by omega), hg _ (by omega), star_pow, hst, pow_one] at h
  rw [Finset.sum_const, Finset.card_range, nsmul_eq_mul] at h
  have hlast : w ^ (d - 2 + 1) = w⁻¹ := by
    apply eq_inv_of_mul_eq_one_left
    rw [← pow_succ, show d - 2 + 1 + 1 = d by omega, hw.pow_eq_one]
  rw [hlast] at h
  have hw2 : w⁻¹ ^ 2 ≠ 1 := by
    intro e
    have : w ^ 2 = 1 := by rw [inv_pow, inv_eq_one] at e; exact e
    have := hw.dvd_of_pow_eq_one 2 this
    have := Nat.le_of_dvd (by omega) this
    omega
  have hv : ‖w⁻¹‖ = 1 := by rw [norm_inv, hnorm, inv_one]
  generalize w⁻¹ = v at *
  -- `(d - 2) v = -1 - v²`
  have e1 : ((d - 2 : Nat) : ℂ) * v = -(1 + v ^ 2) := by linear_combination h
  have e2 : ((d - 2 : Nat) : ℝ) = ‖1 + v ^ 2‖ := by
    have := congrArg norm e1
    rwa [norm_mul, hv, mul_one, norm_neg, Complex.norm_natCast] at this
  have e3 : ‖1 + v ^ 2‖ ≤ 2 := by
    refine (norm_add_le _ _).trans ?_
    rw [norm_one, norm_pow, hv]
    norm_num
  rw [← e2] at e3
  have hd4 : d = 4 := by
    have : d - 2 ≤ 2 := by exact_mod_cast e3
    omega
  subst hd4
  norm_num at e1
  have : (v + 1) ^ 2 = 0 := by linear_combination e1
  have hv1 : v = -1 := eq_neg_of_add_eq_zero_left (pow_eq_zero_iff (by norm_num) |>.1 this)
  apply hw2
  rw [hv1]
  norm_num

theorem pairOrder_getD {w : ℂ} {d k : Nat} (hk : k < d) : (pairOrder w d).getD (d - 1 - k) 0
    = if k % 2 = 1 then w⁻¹ ^ ((k + 1) / 2) else w ^ (k / 2) := by
  unfold pairOrder
  rw [List.getD_eq_getElem?_getD, List.getElem?_reverse (by simp; omega)]
  simp only [List.length_map, List.length_range]
  rw [show d - 1 - (d - 1 - k) = k by omega]
  simp [hk]

theorem sum_range_double (n : Nat) (f : Nat → ℂ) :
    ∑ t ∈ Finset.range (2 * n), f t = ∑ k ∈ Finset.range n, f (2 * k) + ∑ k ∈ Finset.range n, f (2 * k + 1) := by
  induction n with
  | zero => simp
  | succ n ih =>
    rw [Nat.mul_succ, Finset.sum_range_succ, Finset.sum_range_succ, ih, Finset.sum_range_succ, Finset.sum_range_succ]
    ring

theorem geom_even (w : ℂ) (c n : Nat) : (∑ k ∈ Finset.range n, w ^ (2 * k + c)) * (w ^ 2 - 1) = w ^ (2 * n + c) - w ^ c := by
  induction n with
  | zero => simp
  | succ n ih =>
    rw [Finset.sum_range_succ, add_mul, ih]
    ring

/-- The order of `np.roots` is correlated from dimension 4 on. -/
theorem pairOrder_correlated {d : Nat} (hd : 4 ≤ d) {w : ℂ} (hw : IsPrimitiveRoot w d) :
    ¬ Uncorrelated d (pairOrder w d) := by
  intro h
  have h := h.one (by omega)
  have hw0 : w ≠ 0 := hw.ne_zero (by omega)
  have hst := star_eq_inv (by omega) hw.pow_eq_one
  have hst' : star w⁻¹ = w := by rw [← hst, star_star]
  have hg : ∀ t, t + 2 < d → (pairOrder w d).getD (d - 1 - (t + 2)) 0 * star ((pairOrder w d).getD (d - 1 - (t + 1)) 0)
      = if t % 2 = 1 then w⁻¹ ^ (t + 2) else w ^ (t + 2) := by
    intro t ht
    rw [pairOrder_getD ht, pairOrder_getD (by omega)]
    by_cases e : t % 2 = 1
    · rw [if_pos (by omega), if_neg (by omega), if_pos e, star_pow, hst, ← pow_add]
      congr 1
      omega
    · rw [if_neg (by omega), if_pos (by omega), if_neg e, star_pow, hst', ← pow_add]
      congr 1
      omega
  have hsum : ∑ k ∈ Finset.range (d - 2), (pairOrder w d).getD k 0 * star ((pairOrder w d).getD (k + 1) 0)
      = ∑ t ∈ Finset.range (d - 2), if t % 2 = 1 then w⁻¹ ^ (t + 2) else w ^ (t + 2) := by
    rw [← Finset.sum_range_reflect]
    apply Finset.sum_congr rfl
    intro t ht
    have ht := Finset.mem_range.1 ht
    rw [← hg t (by omega), show d - 2 - 1 - t + 1 = d - 1 - (t + 1) by omega,
      show d - 2 - 1 - t = d - 1 - (t + 2) by omega]
  have hq1 : (pairOrder w d).getD (d - 2) 0 = w⁻¹ := by
    have := pairOrder_getD (w := w) (d := d) (k := 1) (by omega)
    rw [show d - 1 - 1 = d - 2 by omega] at this
    rw [this]
    simp
  have hq0 : (pairOrder w d).getD 0 0 = if (d - 1) % 2 = 1 then w⁻¹ ^ (d / 2) else w ^ (d / 2) := by
    have := pairOrder_getD (w := w) (d := d) (k := d - 1) (by omega)
    rw [Nat.sub_self] at this
    rw [this]
    split
    · congr 2
      omega
    · congr 1
      omega
  rw [corr_one (by omega), hsum, hq1, hq0] at h
  have hv : w⁻¹ * w = 1 := inv_mul_cancel₀ hw0
  have hd1 := hw.pow_eq_one
  have hne : ∀ n, 0 < n → n < d → w ^ n ≠ 1 := by
    intro n h0 hn e
    have := Nat.le_of_dvd h0 (hw.dvd_of_pow_eq_one n e)
    omega
  have hvd : w⁻¹ ^ d = 1 := by rw [inv_pow, hd1, inv_one]
  have hvne : ∀ n, 0 < n → n < d → w⁻¹ ^ n ≠ 1 := by
    intro n h0 hn e
    rw [inv_pow, inv_eq_one] at e
    exact hne n h0 hn e
  have hw2 : w ^ 2 - 1 ≠ 0 := sub_ne_zero.2 (hne 2 (by omega) (by omega))
  have hv2 : w⁻¹ ^ 2 - 1 ≠ 0 := sub_ne_zero.2 (hvne 2 (by omega) (by omega))
  have hE : ∀ n, ∑ k ∈ Finset.range n, (if 2 * k % 2 = 1 then w⁻¹ ^ (2 * k + 2) else w ^ (2 * k + 2))
      = ∑ k ∈ Finset.range n, w ^ (2 * k + 2) := by
    intro n
    apply Finset.sum_congr rfl
    intro k _
    rw [if_neg (by omega)]
  have hO : ∀ n, ∑ k ∈ Finset.range n, (if (2 * k + 1) % 2 = 1 then w⁻¹ ^ (2 * k + 1 + 2) else w ^ (2 * k + 1 + 2))
      = ∑ k ∈ Finset.range n, w⁻¹ ^ (2 * k + 3) := by
    intro n
    apply Finset.sum_congr rfl
    intro k _
    rw [if_pos (by omega)]
  rcases Nat.even_or_odd' d with ⟨m, rfl | rfl⟩
  · -- even
    rw [show 2 * m - 2 = 2 * (m - 1) by omega, sum_range_double, hE, hO, if_pos (by omega),
      show 2 * m / 2 = m by omega, star_pow, hst'] at h
    have hX := geom_even w 2 (m - 1)
    have hY := geom_even w⁻¹ 3 (m - 1)
    rw [show 2 * (m - 1) + 2 = 2 * m by omega, hd1] at hX
    rw [show 2 * (m - 1) + 3 = 2 * m + 1 by omega, pow_succ w⁻¹ (2 * m), hvd, one_mul] at hY
    have hm := hne m (by omega) (by omega)
    generalize ∑ k ∈ Finset.range (m - 1), w ^ (2 * k + 2) = X at *
    generalize ∑ k ∈ Finset.range (m - 1), w⁻¹ ^ (2 * k + 3) = Y at *
    generalize w⁻¹ = v at *
    have hX' : X = -1 := by
      apply mul_right_cancel₀ hw2
      linear_combination hX
    have hY' : Y = -v := by
      apply mul_right_cancel₀ hv2
      linear_combination hY
    rw [hX', hY'] at h
    have : v * (w ^ m - 1) = 0 := by linear_combination h
    rcases mul_eq_zero.1 this with e | e
    · rw [e, zero_mul] at hv
      exact zero_ne_one hv
    · exact hm (sub_eq_zero.1 e)
  · -- odd
    rw [show 2 * m + 1 - 2 = 2 * (m - 1) + 1 by omega, Finset.sum_range_succ, sum_range_double, hE, hO,
      if_neg (by omega), if_neg (by omega), show (2 * m + 1) / 2 = m by omega, star_pow, hst] at h
    have hX := geom_even w 2 (m - 1)
    have hY := geom_even w⁻¹ 3 (m - 1)
    rw [show 2 * (m - 1) + 2 = 2 * m by omega] at hX h
    rw [show 2 * (m - 1) + 3 = 2 * m + 1 by omega, hvd] at hY
    have h6 : w⁻¹ ^ 3 ≠ 1 := hvne 3 (by omega) (by omega)
    generalize ∑ k ∈ Finset.range (m - 1), w ^ (2 * k + 2) = X at *
    generalize ∑ k ∈ Finset.range (m - 1), w⁻¹ ^ (2 * k + 3) = Y at *
    have hv' : w = (w⁻¹)⁻¹ := by rw [inv_inv]
    have hθ : (w⁻¹ ^ (m + 1)) ^ 2 = w⁻¹ := by
      rw [← pow_mul, show (m + 1) * 2 = (2 * m + 1) + 1 by omega, pow_succ, hvd, one_mul]
    have hwm : w ^ (2 * m) = w⁻¹ := by
      apply eq_inv_of_mul_eq_one_left
      rw [← pow_succ, hd1]
    have hpm : w⁻¹ * w⁻¹ ^ m = w⁻¹ ^ (m + 1) := by rw [pow_succ, mul_comm]
    rw [hpm] at h
    rw [hwm] at hX h
    have hw1 : w - 1 ≠ 0 := sub_ne_zero.2 (by simpa using hne 1 (by omega) (by omega))
    have hv1 : w⁻¹ - 1 ≠ 0 := sub_ne_zero.2 (by simpa using hvne 1 (by omega) (by omega))
    clear hE hO hw2 hv2 hsum hq0 hq1 hg hst hst' hvne hne hvd hd1 hwm hpm hv'
    generalize w⁻¹ ^ (m + 1) = θ at *
    generalize w⁻¹ = v at *
    have hX' : (X + v) * (w + 1) = -w := by
      apply mul_right_cancel₀ hw1
      linear_combination hX + w * hv
    have hY' : Y * (v + 1) = -(1 + v + v ^ 2) := by
      apply mul_right_cancel₀ hv1
      linear_combination hY
    have e1 : θ * (w + 1) = w + v := by
      linear_combination (w + 1) * h - hX' - w * hY' + (Y + 1 + v) * hv
    have e2 : (θ - 1) * (θ ^ 3 - 1) = 0 := by
      linear_combination (-θ ^ 2) * e1 + (θ ^ 2 + w * θ - w) * hθ + (θ - 1) * hv
    apply h6
    rw [← hθ]
    rcases mul_eq_zero.1 e2 with e | e
    · rw [sub_eq_zero.1 e]
      ring
    · have : θ ^ 3 = 1 := sub_eq_zero.1 e
      linear_combination (θ ^ 3 + 1) * this

/-- **C08** (refuted from dimension 4 on). If the roots come in the order in which `np.roots` is seen to
list them, or in the order of their angles, then on a register of any dimension `d ≥ 4` `h` is not
unitary: from some level, `h` and `h` again give amplitudes whose squared moduli sum to more than one. -/
theorem C08_h_not_unitary (hN : N.Exact) {B : Backend ℂ} (hB : B.Lawful) {d : Nat} (hd : 4 ≤ d)
    {w : ℂ} (hw : IsPrimitiveRoot w d) (hr : N.roots d = pairOrder w d ∨ N.roots d = angleOrder w d) :
    ∃ l : Nat, l < d ∧ ∃ r, script N B (.list [(d : Int)]) [(l : Int)] none [.h 0 none, .h 0 none, .measureAll] = .ok r ∧
      1 < total r := by
  apply C08_h_grows hN hB (by omega)
  rcases hr with hr | hr <;> rw [hr]
  · exact pairOrder_correlated hd hw
  · exact angleOrder_correlated hd hw

/-! ### Numerics in the order of `np.roots` -/

theorem pairOrder_length (w : ℂ) (d : Nat) : (pairOrder w d).length = d := by simp [pairOrder]

/-- The roots in the order of `np.roots`. -/
noncomputable def numpyN : Numerics ℂ where
  roots d := pairOrder (Complex.exp (2 * Real.pi * Complex.I / d)) d
  invSqrt d := ((1 / Real.sqrt d : ℝ) : ℂ)

/-- That order satisfies the assumptions of `Exact`. -/
theorem numpyN_exact : numpyN.Exact where
  length d _ := pairOrder_length _ d
  nodup d hd := by
    have hp := Complex.isPrimitiveRoot_exp d (by omega)
    simp only [numpyN, pairOrder, List.nodup_reverse]
    generalize Complex.exp (2 * Real.pi * Complex.I / d) = w at hp
    have hw0 : w ≠ 0 := hp.ne_zero (by omega)
    have hinv : ∀ n, n ≤ d → w⁻¹ ^ n = w ^ (d - n) := by
      intro n hn
      rw [inv_pow]
      symm
      apply eq_inv_of_mul_eq_one_left
      rw [← pow_add, Nat.sub_add_cancel hn, hp.pow_eq_one]
    apply List.Nodup.map_on _ List.nodup_range
    intro x hx y hy h
    rw [List.mem_range] at hx hy
    by_cases h1 : x % 2 = 1 <;> by_cases h2 : y % 2 = 1
    · rw [if_pos h1, if_pos h2, hinv _ (by omega), hinv _ (by omega)] at h
      have := hp.pow_inj (by omega) (by omega) h
      omega
    · rw [if_pos h1, if_neg h2, hinv _ (by omega)] at h
      have := hp.pow_inj (by omega) (by omega) h
      omega
    · rw [if_neg h1, if_pos h2, hinv _ (by omega)] at h
      have := hp.pow_inj (by omega) (by omega) h
      omega
    · rw [if_neg h1, if_neg h2] at h
      have := hp.pow_inj (by omega) (by omega) h
      omega
  pow d hd x hx := by
    have hp := Complex.isPrimitiveRoot_exp d (by omega)
    simp only [numpyN, pairOrder, List.mem_reverse, List.mem_map] at hx
    obtain ⟨k, _, rfl⟩ := hx
    split
    · rw [← pow_mul, Nat.mul_comm, pow_mul, inv_pow, hp.pow_eq_one, inv_one, one_pow]
    · rw [← pow_mul, Nat.mul_comm, pow_mul, hp.pow_eq_one, one_pow]
  last d hd := by
    obtain ⟨e, rfl⟩ : ∃ e, d = e + 1 := ⟨d - 1, by omega⟩
    simp only [numpyN, pairOrder, List.getLast?_reverse, List.range_succ_eq_map, List.map_cons, List.head?_cons]
    simp
  invSqrt d hd := rfl

/-- The hypotheses of `C08_h_not_unitary`, with the order of `np.roots` and dimension 7. -/
example := C08_h_not_unitary numpyN_exact numpy_lawful (d := 7) (by decide)
  (Complex.isPrimitiveRoot_exp 7 (by decide)) (.inl rfl)

/-- In dimension 4 the order is `-1, i, -i, 1`. -/
example {w : ℂ} : pairOrder w 4 = [w⁻¹ ^ 2, w, w⁻¹, 1] := by
  simp [pairOrder, List.range_succ]

/-! ### Prime dimensions -/

/-- **C08.** That `h` is not unitary is due to the order of the roots: for each prime dimension `p` there is
an order with 1 last (by powers of a primitive root modulo `p`) that is uncorrelated, so that by
`C08_unitary_iff` every circuit with `h` on registers of dimension `p` has total probability one. -/
theorem C08_prime_order (p : Nat) (hp : p.Prime) :
    ∃ N : Numerics ℂ, N.Exact ∧ Uncorrelated p (N.roots p) := by
  have : Fact p.Prime := ⟨hp⟩
  obtain ⟨g, hg⟩ := IsCyclic.exists_generator (α := (ZMod p)ˣ)
  have hord : orderOf g = p - 1 := by
    rw [orderOf_eq_card_of_forall_mem_zpowers hg, Nat.card_eq_fintype_card, ZMod.card_units]
  have hp2 := hp.two_le
  let e : AddChar (ZMod p) ℂ := ZMod.stdAddChar
  have he : ∀ x : ZMod p, e x ^ p = 1 := by
    intro x
    rw [← AddChar.map_nsmul_eq_pow]
    simp
  have hinj : Function.Injective e := ZMod.injective_stdAddChar
  let L : List ℂ := (List.range (p - 1)).map (fun k => e ((g ^ k : (ZMod p)ˣ) : ZMod p)) ++ [1]
  refine ⟨⟨fun d => if d = p then L else standardN.roots d, fun d => ((1 / Real.sqrt d : ℝ) : ℂ)⟩, ?_, ?_⟩
  · refine ⟨?_, ?_, ?_, ?_, fun d _ => rfl⟩ <;> intro d hd <;> simp only <;> by_cases h : d = p
    · rw [if_pos h]
      simp only [L, List.length_append, List.length_map, List.length_range, List.length_singleton]
      omega
    · rw [if_neg h]
      exact standardN_exact.length d hd
    · rw [if_pos h]
      simp only [L]
      rw [List.nodup_append]
      refine ⟨?_, List.nodup_singleton _, ?_⟩
      · apply List.Nodup.map_on _ List.nodup_range
        intro x hx y hy h
        rw [List.mem_range] at hx hy
        exact pow_injOn_Iio_orderOf (by rw [hord]; exact hx) (by rw [hord]; exact hy) (Units.ext (hinj h))
      · intro a ha b hb hab
        rw [List.mem_singleton] at hb
        obtain ⟨k, _, rfl⟩ := List.mem_map.1 ha
        rw [hb, ← e.map_zero_eq_one] at hab
        exact Units.ne_zero _ (hinj hab)
    · rw [if_neg h]
      exact standardN_exact.nodup d hd
    · rw [if_pos h, h]
      intro x hx
      rcases List.mem_append.1 hx with hx | hx
      · obtain ⟨k, _, rfl⟩ := List.mem_map.1 hx
        exact he _
      · rw [List.mem_singleton.1 hx, one_pow]
    · rw [if_neg h]
      exact standardN_exact.pow d hd
    · rw [if_pos h]
      simp [L]
    · rw [if_neg h]
      exact standardN_exact.last d hd
  · intro s hs hsp
    simp only [if_true]
    have hget : ∀ k, k < p - 1 → L.getD k 0 = e ((g ^ k : (ZMod p)ˣ) : ZMod p) := by
      intro k hk
      simp only [L]
      rw [List.getD_eq_getElem?_getD, List.getElem?_append_left (by simpa using hk)]
      simp [hk]
    have hmod : ∀ n, g ^ (n % (p - 1)) = g ^ n := by
      intro n
      rw [← hord, pow_mod_orderOf]
    have hc : (1 - ((g ^ s : (ZMod p)ˣ) : ZMod p)) ≠ 0 := by
      intro h
      have h1 : g ^ s = 1 := Units.ext (sub_eq_zero.1 h).symm
      have := Nat.le_of_dvd hs (orderOf_dvd_of_pow_eq_one h1)
      omega
    rw [sum_range_list, Finset.sum_congr rfl (g := fun k =>
      e (((g ^ k : (ZMod p)ˣ) : ZMod p) * (1 - ((g ^ s : (ZMod p)ˣ) : ZMod p)))) (by
        intro k hk
        have hk := Finset.mem_range.1 hk
        rw [hget k hk, hget _ (Nat.mod_lt _ (by omega)), hmod, Complex.star_def, ← AddChar.map_neg_eq_conj,
          ← AddChar.map_add_eq_mul]
        congr 1
        rw [pow_add, Units.val_mul]
        ring)]
    have h1 := AddChar.sum_mulShift (1 - ((g ^ s : (ZMod p)ˣ) : ZMod p)) (ZMod.isPrimitive_stdAddChar p)
    rw [if_neg hc] at h1
    rw [← Finset.sum_image (s := Finset.range (p - 1)) (g := fun k => g ^ k)
      (f := fun u : (ZMod p)ˣ => e ((u : ZMod p) * (1 - ((g ^ s : (ZMod p)ˣ) : ZMod p)))) (by
        intro x hx y hy h
        simp only [Finset.coe_range, Set.mem_Iio] at hx hy
        exact pow_injOn_Iio_orderOf (by rw [hord]; exact hx) (by rw [hord]; exact hy) h),
      ← hord, IsCyclic.image_range_orderOf hg]
    rw [← Finset.add_sum_erase _ _ (Finset.mem_univ (0 : ZMod p)), zero_mul, AddChar.map_zero_eq_one] at h1
    have h2 : ∑ u : (ZMod p)ˣ, e ((u : ZMod p) * (1 - ((g ^ s : (ZMod p)ˣ) : ZMod p)))
        = ∑ x ∈ Finset.univ.erase (0 : ZMod p), e (x * (1 - ((g ^ s : (ZMod p)ˣ) : ZMod p))) := by
      refine Finset.sum_bij (fun u _ => (u : ZMod p)) ?_ ?_ ?_ ?_
      · intro u _
        simp
      · intro u _ v _ h
        exact Units.ext h
      · intro x hx
        exact ⟨Units.mk0 x (Finset.ne_of_mem_erase hx), Finset.mem_univ _, rfl⟩
      · intro u _
        rfl
    rw [h2]
    push_cast at h1
    exact eq_neg_of_add_eq_zero_right h1

/-- The hypotheses of `C08_uncorrelated_total` and `C08_unitary_iff` can be met beyond dimension 3: two
registers of dimension 5 and one of dimension 4 that `h` does not touch. -/
example : ∃ N : Numerics ℂ, ∃ r, script N (numpyBackend ℂ) (.list [5, 4, 5]) [] none
    [.h 0 none, .cx 0 1 1, .h 2 none, .h 0 none, .measureAll] = .ok r ∧ total r = 1 := by
  obtain ⟨N, hN, hu⟩ := C08_prime_order 5 (by decide)
  exact ⟨N, (C08_unitary_iff hN numpy_lawful (d := 5) (by decide)).1 hu (dims := [5, 4, 5]) (by decide) (init := [])
    (validStart_of rfl) (ks := [.h 0 none, .cx 0 1 1, .h 2 none, .h 0 none])
    (by simp [Call.Valid, InRange, DimOK]) (by simp)⟩

end QuDiet
