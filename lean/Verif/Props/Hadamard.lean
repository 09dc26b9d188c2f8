import Mathlib.LinearAlgebra.Matrix.Trace
import Mathlib.LinearAlgebra.Matrix.ConjTranspose
import Mathlib.RingTheory.RootsOfUnity.PrimitiveRoots
import Verif.Props.Probability

/-! # C08: when `h` is unitary

`h` on a register of dimension `d` multiplies by a bordered circulant matrix made of the `d`-th roots of
unity in the order in which `np.roots` lists them. -/

namespace QuDiet
open Spec

variable [UnitaryCheck ℂ] {N : Numerics ℂ}

/-- The list of roots is uncorrelated with each of its rotations: the last root (which is 1) left out,
the sum of each root times the conjugate of the root `s` places later, cyclically, is -1. -/
def Uncorrelated (d : Nat) (r : List ℂ) : Prop :=
  ∀ s, 0 < s → s < d - 1 →
    ((List.range (d - 1)).map fun k => r.getD k 0 * star (r.getD ((k + s) % (d - 1)) 0)).sum = -1

/-! ### Sums -/

theorem sum_range_list (n : Nat) (f : Nat → ℂ) : ((List.range n).map f).sum = ∑ i ∈ Finset.range n, f i := rfl

/-- A sum round a cycle may begin anywhere. -/
theorem sum_rotate {n : Nat} (f : Nat → ℂ) (c : Nat) :
    ∑ i ∈ Finset.range n, f ((i + c) % n) = ∑ i ∈ Finset.range n, f i := by
  rcases Nat.eq_zero_or_pos n with rfl | hn
  · rfl
  refine Finset.sum_nbij (fun i => (i + c) % n) ?_ ?_ ?_ ?_
  · intro i _
    simpa using Nat.mod_lt _ hn
  · intro i hi j hj h
    simp only [Finset.coe_range, Set.mem_Iio] at hi hj
    have h : (i + c) ≡ (j + c) [MOD n] := h
    have := Nat.ModEq.add_right_cancel' c h
    exact Nat.ModEq.eq_of_lt_of_lt this hi hj
  · intro i hi
    simp only [Finset.coe_range, Set.mem_Iio] at hi
    refine ⟨(i + (n - c % n)) % n, ?_, ?_⟩
    · simpa using Nat.mod_lt _ hn
    · simp only
      rw [Nat.mod_add_mod]
      have hc := Nat.mod_lt c hn
      have e : i + (n - c % n) + c = i + n * (1 + c / n) := by
        have := Nat.mod_add_div c n
        rw [Nat.mul_add, Nat.mul_one]
        omega
      rw [e, Nat.add_mul_mod_self_left, Nat.mod_eq_of_lt hi]
  · intro i _
    rfl

/-- The correlation of the roots with the roots `s` places later. -/
noncomputable def corr (d : Nat) (r : List ℂ) (s : Nat) : ℂ :=
  ∑ k ∈ Finset.range (d - 1), r.getD k 0 * star (r.getD ((k + s) % (d - 1)) 0)

theorem roots_sum (hN : N.Exact) {d : Nat} (hd : 2 ≤ d) :
    ∑ k ∈ Finset.range d, (N.roots d).getD k 0 = 0 := by
  have hp := Complex.isPrimitiveRoot_exp d (by omega)
  have : NeZero d := ⟨by omega⟩
  have h1 : ∑ k ∈ Finset.range d, (N.roots d).getD k 0 = (N.roots d).sum := by
    have hl := hN.length d (by omega)
    rw [← sum_range_list]
    congr 1
    apply List.ext_getElem
    · simp [hl]
    · intro i h1 h2
      simp [List.getElem?_eq_getElem h2]
  have h2 : (N.roots d).Perm (standardN.roots d) := by
    apply List.Subperm.perm_of_length_le
    · apply List.subperm_of_subset (hN.nodup d (by omega))
      intro x hx
      obtain ⟨i, hi, rfl⟩ := hp.eq_pow_of_pow_eq_one (hN.pow d (by omega) x hx)
      simp only [standardN, List.mem_map, List.mem_range]
      rcases Nat.eq_zero_or_pos i with rfl | hi0
      · exact ⟨d - 1, by omega, by rw [Nat.sub_add_cancel (by omega), hp.pow_eq_one, pow_zero]⟩
      · exact ⟨i - 1, by omega, by rw [Nat.sub_add_cancel hi0]⟩
    · rw [hN.length d (by omega), standardN_exact.length d (by omega)]
  rw [h1, h2.sum_eq]
  simp only [standardN]
  rw [sum_range_list]
  simp only [pow_succ]
  rw [← Finset.sum_mul, hp.geom_sum_eq_zero (by omega), zero_mul]

theorem core_sum (hN : N.Exact) {d : Nat} (hd : 2 ≤ d) :
    ∑ k ∈ Finset.range (d - 1), (N.roots d).getD k 0 = -1 := by
  have := roots_sum hN hd
  obtain ⟨e, rfl⟩ : ∃ e, d = e + 1 := ⟨d - 1, by omega⟩
  rw [Finset.sum_range_succ] at this
  have hl := hN.root_last (d := e + 1) (by omega)
  simp only [Nat.add_sub_cancel] at hl ⊢
  rw [hl] at this
  exact eq_neg_of_add_eq_zero_left this

/-! ### The matrix -/

/-- The Hadamard matrix without its factor. -/
noncomputable def had (r : List ℂ) (d i j : Nat) : ℂ :=
  if i = 0 ∨ j = 0 then 1 else r.getD ((i + (d - 1) - j) % (d - 1)) 0

theorem hadamard_had (r : List ℂ) (c : ℂ) (d i j : Nat) : hadamard r c d i j = c * had r d i j := rfl

/-- Inner products of the columns and of the rows are the same: 0 with the first one, `1 + corr` for others. -/
noncomputable def inner (d : Nat) (r : List ℂ) (a b : Nat) : ℂ :=
  if a = b then d else if a = 0 ∨ b = 0 then 0 else 1 + corr d r ((b + (d - 1) - a) % (d - 1))

theorem sum_succ_front {d : Nat} (hd : 1 ≤ d) (f : Nat → ℂ) :
    ∑ i ∈ Finset.range d, f i = f 0 + ∑ i ∈ Finset.range (d - 1), f (i + 1) := by
  obtain ⟨e, rfl⟩ : ∃ e, d = e + 1 := ⟨d - 1, by omega⟩
  rw [Finset.sum_range_succ', add_comm]
  rfl

theorem had_star (hN : N.Exact) {d i j : Nat} (hd : 2 ≤ d) :
    had (N.roots d) d i j * star (had (N.roots d) d i j) = 1 := by
  unfold had
  split
  · simp
  · have : (i + (d - 1) - j) % (d - 1) < d - 1 := Nat.mod_lt _ (by omega)
    exact hN.root_star (by omega)

theorem cols (hN : N.Exact) {d a b : Nat} (hd : 2 ≤ d) (ha : a < d) (hb : b < d) :
    ∑ i ∈ Finset.range d, had (N.roots d) d i b * star (had (N.roots d) d i a) = inner d (N.roots d) a b := by
  unfold inner
  by_cases hab : a = b
  · subst hab
    rw [if_pos rfl, Finset.sum_congr rfl fun i _ => had_star hN hd]
    simp
  rw [if_neg hab, sum_succ_front (by omega)]
  have h0 : ∀ j, had (N.roots d) d 0 j = 1 := by simp [had]
  have h0' : ∀ i, had (N.roots d) d i 0 = 1 := by simp [had]
  have hcol : ∀ c, 0 < c → c < d →
      ∑ i ∈ Finset.range (d - 1), had (N.roots d) d (i + 1) c = -1 := by
    intro c hc hcd
    rw [← core_sum hN hd, ← sum_rotate (fun k => (N.roots d).getD k 0) (d - c)]
    apply Finset.sum_congr rfl
    intro i _
    unfold had
    rw [if_neg (by omega)]
    congr 2
    omega
  rw [h0, h0]
  by_cases h : a = 0 ∨ b = 0
  · rw [if_pos h]
    rcases h with rfl | rfl
    · simp only [h0', star_one, mul_one]
      rw [hcol b (by omega) hb]
      ring
    · simp only [h0', one_mul]
      rw [← star_sum, hcol a (by omega) ha]
      simp
  · rw [if_neg h, star_one, mul_one]
    congr 1
    unfold corr
    rw [← sum_rotate (fun k => (N.roots d).getD k 0 *
      star ((N.roots d).getD ((k + (b + (d - 1) - a) % (d - 1)) % (d - 1)) 0)) (d - b)]
    apply Finset.sum_congr rfl
    intro i _
    unfold had
    rw [if_neg (by omega), if_neg (by omega)]
    congr 2
    · congr 2
      omega
    · congr 1
      rw [← Nat.add_mod, show i + (d - b) + (b + (d - 1) - a) = i + 1 + (d - 1) - a + (d - 1) by omega,
        Nat.add_mod_right]

theorem rows (hN : N.Exact) {d a b : Nat} (hd : 2 ≤ d) (ha : a < d) (hb : b < d) :
    ∑ j ∈ Finset.range d, had (N.roots d) d a j * star (had (N.roots d) d b j) = inner d (N.roots d) a b := by
  unfold inner
  by_cases hab : a = b
  · subst hab
    rw [if_pos rfl, Finset.sum_congr rfl fun i _ => had_star hN hd]
    simp
  rw [if_neg hab, sum_succ_front (by omega)]
  have h0 : ∀ j, had (N.roots d) d 0 j = 1 := by simp [had]
  have h0' : ∀ i, had (N.roots d) d i 0 = 1 := by simp [had]
  have hback : ∀ i, i < d - 1 → ∀ c, 0 < c → c < d →
      had (N.roots d) d c (d - 1 - 1 - i + 1) = (N.roots d).getD ((i + c) % (d - 1)) 0 := by
    intro i hi c hc hcd
    unfold had
    rw [if_neg (by omega)]
    congr 2
    omega
  have hrow : ∀ c, 0 < c → c < d →
      ∑ i ∈ Finset.range (d - 1), had (N.roots d) d c (i + 1) = -1 := by
    intro c hc hcd
    rw [← core_sum hN hd, ← sum_rotate (fun k => (N.roots d).getD k 0) c,
      ← Finset.sum_range_reflect]
    apply Finset.sum_congr rfl
    intro i hi
    exact hback i (Finset.mem_range.1 hi) c hc hcd
  rw [h0', h0']
  by_cases h : a = 0 ∨ b = 0
  · rw [if_pos h]
    rcases h with rfl | rfl
    · simp only [h0, one_mul]
      rw [← star_sum, hrow b (by omega) hb]
      simp
    · simp only [h0, star_one, mul_one]
      rw [hrow a (by omega) ha]
      ring
  · rw [if_neg h, star_one, mul_one]
    congr 1
    unfold corr
    rw [← sum_rotate (fun k => (N.roots d).getD k 0 *
      star ((N.roots d).getD ((k + (b + (d - 1) - a) % (d - 1)) % (d - 1)) 0)) a,
      ← Finset.sum_range_reflect]
    apply Finset.sum_congr rfl
    intro i hi
    have hi := Finset.mem_range.1 hi
    rw [hback i hi a (by omega) ha, hback i hi b (by omega) hb, ← Nat.add_mod,
      show i + a + (b + (d - 1) - a) = i + b + (d - 1) by omega, Nat.add_mod_right]

theorem Uncorrelated.inner {d : Nat} {r : List ℂ} (h : Uncorrelated d r) {a b : Nat} (ha : a < d) (hb : b < d) :
    inner d r a b = if a = b then (d : ℂ) else 0 := by
  unfold QuDiet.inner
  by_cases hab : a = b
  · rw [if_pos hab, if_pos hab]
  rw [if_neg hab, if_neg hab]
  by_cases h0 : a = 0 ∨ b = 0
  · rw [if_pos h0]
  rw [if_neg h0]
  have := h ((b + (d - 1) - a) % (d - 1)) (by
    by_cases hlt : b < a
    · rw [Nat.mod_eq_of_lt (by omega)]
      omega
    · rw [show b + (d - 1) - a = b - a + (d - 1) by omega, Nat.add_mod_right, Nat.mod_eq_of_lt (by omega)]
      omega) (Nat.mod_lt _ (by omega))
  rw [sum_range_list] at this
  unfold corr
  rw [this]
  ring

theorem uncorrelated_of_inner {d : Nat} {r : List ℂ}
    (h : ∀ a < d, ∀ b < d, a ≠ b → inner d r a b = 0) : Uncorrelated d r := by
  intro s hs hsd
  have := h 1 (by omega) (1 + s) (by omega) (by omega)
  unfold inner corr at this
  rw [if_neg (by omega), if_neg (by omega), show 1 + s + (d - 1) - 1 = s + (d - 1) by omega,
    Nat.add_mod_right, Nat.mod_eq_of_lt hsd] at this
  rw [sum_range_list]
  exact eq_neg_of_add_eq_zero_right this

theorem hadamard_star (hN : N.Exact) {d : Nat} (hd : 2 ≤ d) (i j k l : Nat) :
    hadamard (N.roots d) (N.invSqrt d) d i j * star (hadamard (N.roots d) (N.invSqrt d) d k l)
      = 1 / (d : ℂ) * (had (N.roots d) d i j * star (had (N.roots d) d k l)) := by
  rw [hadamard_had, hadamard_had, star_mul', mul_mul_mul_comm, hN.invSqrt_sq (by omega)]

theorem Uncorrelated.columns (hN : N.Exact) {d : Nat} (hd : 2 ≤ d) (h : Uncorrelated d (N.roots d)) :
    Columns d (hadamard (N.roots d) (N.invSqrt d) d) := by
  intro a ha b hb
  have hd0 : (d : ℂ) ≠ 0 := by exact_mod_cast (by omega : d ≠ 0)
  rw [sum_range_list, Finset.sum_congr rfl fun i _ => hadamard_star hN hd i a i b, ← Finset.mul_sum,
    cols hN hd hb ha, h.inner hb ha]
  by_cases hab : a = b
  · rw [if_pos hab, if_pos hab.symm]
    field_simp
  · rw [if_neg hab, if_neg (Ne.symm hab), mul_zero]

/-! ### `h` twice -/

/-- The matrix of `h`. -/
noncomputable def hmat (N : Numerics ℂ) (d : Nat) : Matrix (Fin d) (Fin d) ℂ :=
  Matrix.of fun i j => hadamard (N.roots d) (N.invSqrt d) d i j

open Matrix in
theorem hmat_gram (hN : N.Exact) {d : Nat} (hd : 2 ≤ d) :
    (hmat N d)ᴴ * hmat N d = Matrix.of fun a b : Fin d => 1 / (d : ℂ) * inner d (N.roots d) a b := by
  ext a b
  simp only [mul_apply, conjTranspose_apply, hmat, of_apply]
  rw [Fin.sum_univ_eq_sum_range (fun i => star (hadamard (N.roots d) (N.invSqrt d) d i a) *
    hadamard (N.roots d) (N.invSqrt d) d i b), ← cols hN hd a.2 b.2, Finset.mul_sum]
  apply Finset.sum_congr rfl
  intro i _
  rw [mul_comm, hadamard_star hN hd]

open Matrix in
theorem hmat_gram' (hN : N.Exact) {d : Nat} (hd : 2 ≤ d) :
    hmat N d * (hmat N d)ᴴ = Matrix.of fun a b : Fin d => 1 / (d : ℂ) * inner d (N.roots d) a b := by
  ext a b
  simp only [mul_apply, conjTranspose_apply, hmat, of_apply]
  rw [Fin.sum_univ_eq_sum_range (fun i => hadamard (N.roots d) (N.invSqrt d) d a i *
    star (hadamard (N.roots d) (N.invSqrt d) d b i)), ← rows hN hd a.2 b.2, Finset.mul_sum]
  apply Finset.sum_congr rfl
  intro i _
  rw [hadamard_star hN hd]

open Matrix in
theorem trace_normSq {d : Nat} (M : Matrix (Fin d) (Fin d) ℂ) :
    trace (Mᴴ * M) = ((∑ j, ∑ k, Complex.normSq (M k j) : ℝ) : ℂ) := by
  simp only [trace, diag, mul_apply, conjTranspose_apply, Complex.ofReal_sum, normSq_ofReal]
  apply Finset.sum_congr rfl
  intro j _
  apply Finset.sum_congr rfl
  intro k _
  rw [mul_comm]

open Matrix in
/-- The squared norms of the columns of the square add up to the squared norm of the Gram matrix. -/
theorem hmat_square (hN : N.Exact) {d : Nat} (hd : 2 ≤ d) :
    ∑ j, ∑ k, Complex.normSq ((hmat N d * hmat N d) k j)
      = ∑ j, ∑ k, Complex.normSq (((hmat N d)ᴴ * hmat N d) k j) := by
  have e : (hmat N d)ᴴ * hmat N d = hmat N d * (hmat N d)ᴴ := by rw [hmat_gram hN hd, hmat_gram' hN hd]
  have h1 := trace_normSq (hmat N d * hmat N d)
  have h2 := trace_normSq ((hmat N d)ᴴ * hmat N d)
  have : trace ((hmat N d * hmat N d)ᴴ * (hmat N d * hmat N d))
      = trace (((hmat N d)ᴴ * hmat N d)ᴴ * ((hmat N d)ᴴ * hmat N d)) := by
    rw [conjTranspose_mul, conjTranspose_mul, conjTranspose_conjTranspose]
    calc trace ((hmat N d)ᴴ * (hmat N d)ᴴ * (hmat N d * hmat N d))
        = trace ((hmat N d)ᴴ * (((hmat N d)ᴴ * hmat N d) * hmat N d)) := by simp only [Matrix.mul_assoc]
      _ = trace (((hmat N d)ᴴ * hmat N d) * (hmat N d * (hmat N d)ᴴ)) := by
          rw [trace_mul_comm]
          simp only [Matrix.mul_assoc]
      _ = _ := by rw [← e]
  rw [this, h2] at h1
  exact_mod_cast h1.symm

theorem start_single {d l : Nat} (hd : 2 ≤ d) (hl : l < d) : ValidStart ([d].map Int.ofNat) [(l : Int)] := by
  refine ⟨by simpa using hd, by simp, fun i hi hi' => ?_⟩
  have hi0 : i = 0 := by simpa using hi
  subst hi0
  simp only [List.map_cons, List.map_nil, List.getElem_cons_zero, Int.ofNat_eq_natCast]
  omega

/-- `h` twice, from level `l` of a register on its own. -/
theorem total_twice (hN : N.Exact) {B : Backend ℂ} (hB : B.Lawful) {d : Nat} (hd : 2 ≤ d) (l : Fin d) :
    ∃ r, script N B (.list [(d : Int)]) [(l : Int)] none [.h 0 none, .h 0 none, .measureAll] = .ok r ∧
      total r = ∑ k, Complex.normSq ((hmat N d * hmat N d) k l) := by
  have hv : ∀ k ∈ [Call.h (R := ℂ) 0 none, .h 0 none], k.Valid [d] := by
    simp [Call.Valid, InRange, DimOK]
  have hs : ValidStart ([d].map Int.ofNat) [(l : Int)] := start_single hd l.2
  refine ⟨_, script_valid hN.sized hB (by simp) hs (out := none) (by simp) hv [], ?_⟩
  have ht := total_listing (o := format [d] none) rfl [d]
    (stateAfter N [d] [(l : Int)] [.h 0 none, .h 0 none])
  have hk : ∀ k : Fin d, stateAfter N [d] [(l : Int)] [.h 0 none, .h 0 none] [(k : Nat)]
      = (hmat N d * hmat N d) k l := by
    intro k
    have hst : startLevels [d] [(l : Int)] = [(l : Nat)] := by
      have := l.2
      simp only [startLevels, List.length_singleton, List.range_one, List.map_cons, List.map_nil, List.getD_cons_zero]
      rw [Int.emod_eq_of_lt (by omega) (by omega), Int.toNat_natCast]
    simp only [stateAfter, List.foldl_cons, List.foldl_nil, hst]
    change onReg d 0 _ (onReg d 0 _ (basis [(l : Nat)])) [(k : Nat)] = _
    conv_lhs => unfold onReg
    rw [Matrix.mul_apply, sum_range_list, Finset.sum_range]
    apply Finset.sum_congr rfl
    intro j _
    exact congrArg _ (onReg_single l.2 _ j.2)
  have hw : weigh (fun _ => 1) [d] (stateAfter N [d] [(l : Int)] [.h 0 none, .h 0 none])
      = ((∑ k, Complex.normSq ((hmat N d * hmat N d) k l) : ℝ) : ℂ) := by
    unfold weigh
    rw [states_singleton, List.map_map, sum_range_list, Finset.sum_range, Complex.ofReal_sum]
    apply Finset.sum_congr rfl
    intro k _
    simp only [Function.comp, hk, one_mul, normSq_ofReal]
  rw [hw] at ht
  exact_mod_cast ht

/-- **C08.** If the order of the roots is not uncorrelated, then `h` on a register of dimension `d` is
not unitary: from some level, `h` and `h` again give amplitudes whose squared moduli sum to more than one. -/
theorem C08_h_grows (hN : N.Exact) {B : Backend ℂ} (hB : B.Lawful) {d : Nat} (hd : 2 ≤ d)
    (h : ¬ Uncorrelated d (N.roots d)) :
    ∃ l : Nat, l < d ∧ ∃ r, script N B (.list [(d : Int)]) [(l : Int)] none [.h 0 none, .h 0 none, .measureAll] = .ok r ∧
      1 < total r := by
  by_contra hcon
  apply h
  have hd0 : (d : ℂ) ≠ 0 := by exact_mod_cast (by omega : d ≠ 0)
  have hle : ∀ l : Fin d, ∑ k, Complex.normSq ((hmat N d * hmat N d) k l) ≤ 1 := by
    intro l
    obtain ⟨r, hr, ht⟩ := total_twice hN hB hd l
    rw [← ht]
    by_contra hgt
    exact hcon ⟨l, l.2, r, hr, not_le.1 hgt⟩
  have hsum : ∑ j, ∑ k, Complex.normSq (((hmat N d).conjTranspose * hmat N d) k j) ≤ ∑ j : Fin d, (1 : ℝ) := by
    rw [← hmat_square hN hd]
    exact Finset.sum_le_sum fun l _ => hle l
  rw [hmat_gram hN hd] at hsum
  simp only [Matrix.of_apply] at hsum
  have hdiag : ∀ j : Fin d, (1 : ℝ) ≤ ∑ k : Fin d, Complex.normSq (1 / (d : ℂ) * inner d (N.roots d) k j) := by
    intro j
    have h1 : Complex.normSq (1 / (d : ℂ) * inner d (N.roots d) j j) = 1 := by
      unfold inner
      rw [if_pos rfl, one_div, inv_mul_cancel₀ hd0, map_one]
    rw [← h1]
    exact Finset.single_le_sum (f := fun k : Fin d => Complex.normSq (1 / (d : ℂ) * inner d (N.roots d) k j))
      (fun _ _ => Complex.normSq_nonneg _) (Finset.mem_univ j)
  apply uncorrelated_of_inner
  intro a ha b hb hab
  have heq := (Finset.sum_eq_sum_iff_of_le fun j _ => hdiag j).1
    (le_antisymm (Finset.sum_le_sum fun j _ => hdiag j) hsum) ⟨b, hb⟩ (Finset.mem_univ _)
  by_contra hne
  have h1 : Complex.normSq (1 / (d : ℂ) * inner d (N.roots d) b b) = 1 := by
    unfold inner
    rw [if_pos rfl, one_div, inv_mul_cancel₀ hd0, map_one]
  have h2 : 0 < Complex.normSq (1 / (d : ℂ) * inner d (N.roots d) a b) := by
    rw [Complex.normSq_pos]
    exact mul_ne_zero (one_div_ne_zero hd0) hne
  have h3 : Complex.normSq (1 / (d : ℂ) * inner d (N.roots d) a b) + Complex.normSq (1 / (d : ℂ) * inner d (N.roots d) b b)
      ≤ ∑ k : Fin d, Complex.normSq (1 / (d : ℂ) * inner d (N.roots d) k b) := by
    have := Finset.sum_le_sum_of_subset_of_nonneg (f := fun k : Fin d => Complex.normSq (1 / (d : ℂ) * inner d (N.roots d) k b))
      (Finset.subset_univ {⟨a, ha⟩, ⟨b, hb⟩}) (fun _ _ _ => Complex.normSq_nonneg _)
    rw [Finset.sum_pair (by simpa using hab)] at this
    exact this
  rw [← heq] at h3
  linarith

/-- The calls that are unitary when `h` is, on the dimensions of the registers it is used on: all but
`cx` with equal control and target, and custom gates whose matrix is not unitary. -/
def Call.UnitaryFor (N : Numerics ℂ) (dims : List Nat) : Call ℂ → Prop
  | .h q _ => Uncorrelated (dims.getD q.toNat 0) (N.roots (dims.getD q.toNat 0))
  | .cx c t _ => c ≠ t
  | .gate U _ _ => U.Unitary
  | _ => True

theorem Call.UnitaryFor.isometric (hN : N.Exact) {dims : List Nat} (hd : ∀ d ∈ dims, 2 ≤ d) {k : Call ℂ}
    (hv : k.Valid dims) (hu : k.UnitaryFor N dims) : k.Isometric N dims := by
  cases k with
  | h q k =>
    have hq := hv.1
    have hlt : q.toNat < dims.length := by have := hq.1; have := hq.2; omega
    refine Uncorrelated.columns hN (hd _ ?_) hu
    rw [List.getD_eq_getElem?_getD, List.getElem?_eq_getElem hlt]
    exact List.getElem_mem _
  | cx c t p => exact hu
  | gate U q k => exact hu
  | _ => trivial

theorem two_le_dims {dims : List Nat} {init : List Int} (h : ValidStart (dims.map Int.ofNat) init) :
    ∀ d ∈ dims, 2 ≤ d := by
  intro d hd
  have := h.1 d (List.mem_map.2 ⟨d, hd, rfl⟩)
  omega

/-- **C08.** If the order of the roots is uncorrelated for each dimension on which `h` is used, the
amplitudes of every valid circuit have squared moduli that sum to one. -/
theorem C08_uncorrelated_total (hN : N.Exact) {B : Backend ℂ} (hB : B.Lawful)
    {dims : List Nat} (hne : dims ≠ []) {init : List Int} (h : ValidStart (dims.map Int.ofNat) init)
    {ks : List (Call ℂ)} (hks : ∀ k ∈ ks, k.Valid dims) (hu : ∀ k ∈ ks, k.UnitaryFor N dims) :
    ∃ r, script N B (.list (dims.map Int.ofNat)) init none (ks ++ [.measureAll]) = .ok r ∧ total r = 1 := by
  refine ⟨_, script_valid hN.sized hB hne h (out := none) (by simp) hks [], ?_⟩
  have := total_listing (o := format dims none) rfl dims (stateAfter N dims init ks)
  rw [stateAfter, weigh_after hN hks (fun k hk => (hu k hk).isometric hN (two_le_dims h) (hks k hk)),
    weigh_basis (startLevels_fits h)] at this
  exact_mod_cast this

/-- **C08.** `h` is unitary on registers of dimension `d` exactly if the order in which the `d`-th roots
of unity are listed is uncorrelated: then all circuits have total probability one, and otherwise there
is a circuit of two `h` that does not. -/
theorem C08_unitary_iff (hN : N.Exact) {B : Backend ℂ} (hB : B.Lawful) {d : Nat} (hd : 2 ≤ d) :
    Uncorrelated d (N.roots d) ↔
      ∀ {dims : List Nat}, dims ≠ [] → ∀ {init : List Int}, ValidStart (dims.map Int.ofNat) init →
      ∀ {ks : List (Call ℂ)}, (∀ k ∈ ks, k.Valid dims) →
      (∀ k ∈ ks, match k with
        | .h q _ => dims.getD q.toNat 0 = d
        | .cx c t _ => c ≠ t
        | .gate U _ _ => U.Unitary
        | _ => True) →
      ∃ r, script N B (.list (dims.map Int.ofNat)) init none (ks ++ [.measureAll]) = .ok r ∧ total r = 1 := by
  constructor
  · intro h dims hne init hs ks hks hu
    refine C08_uncorrelated_total hN hB hne hs hks fun k hk => ?_
    have := hu k hk
    cases k with
    | h q k =>
      have this : dims.getD q.toNat 0 = d := this
      change Uncorrelated (dims.getD q.toNat 0) (N.roots (dims.getD q.toNat 0))
      rw [this]
      exact h
    | cx c t p => exact this
    | gate U q k => exact this
    | _ => trivial
  · intro h
    by_contra hn
    obtain ⟨l, hl, r, hr, ht⟩ := C08_h_grows hN hB hd hn
    obtain ⟨r', hr', ht'⟩ := h (dims := [d]) (by simp) (init := [(l : Int)]) (start_single hd hl)
      (ks := [.h 0 none, .h 0 none]) (by simp [Call.Valid, InRange, DimOK]) (by simp)
    cases Except.ok.inj (hr.symm.trans hr')
    rw [ht'] at ht
    exact lt_irrefl _ ht

end QuDiet
