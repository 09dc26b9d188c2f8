import Mathlib.Analysis.SpecialFunctions.Trigonometric.Inverse
import Verif.Props.Algorithms2

/-! # C66: Grover's search, for every number of qubits, every set of solutions and every number of iterations -/

namespace QuDiet
open Spec

/-- `x` on the first `n` registers. -/
def xOnFirst {R : Type} (n : Nat) : List (Call R) := (List.range n).map fun i => .x (Int.ofNat i) none 1

/-- The reflection of Grover's algorithm on `n` qubits, with qubit `n` as the target of the phase kickback. -/
def diffusion (n : Nat) : List (Call ℂ) :=
  hOnFirst n ++ (xOnFirst n ++ [.toffoli ((List.range n).map Int.ofNat) (Int.ofNat n) 1] ++ xOnFirst n) ++ hOnFirst n

/-- `k` iterations. -/
def groverSteps (oracle : List (Call ℂ)) (n : Nat) : Nat → List (Call ℂ)
  | 0 => []
  | k + 1 => groverSteps oracle n k ++ (oracle ++ diffusion n)

section
variable [UnitaryCheck ℂ] {N : Numerics ℂ}

/-! ### The reflection about all-0 is an oracle -/

theorem xOnFirst_fold {n m : Nat} (hm : m ≤ n) {s : List Nat} (hs : s.length = n + 1) :
    ((xOnFirst m : List (Call ℂ)).foldl (fun s k => classicalStep (List.replicate (n + 1) 2) k s) s).length = n + 1 ∧
    ∀ j, ((xOnFirst m : List (Call ℂ)).foldl (fun s k => classicalStep (List.replicate (n + 1) 2) k s) s).getD j 0 =
      if j < m then (s.getD j 0 + 1) % 2 else s.getD j 0 := by
  induction m with
  | zero => exact ⟨hs, fun j => rfl⟩
  | succ m ih =>
    obtain ⟨h1, h2⟩ := ih (by omega)
    have e : (xOnFirst (m + 1) : List (Call ℂ)) = xOnFirst m ++ [.x (Int.ofNat m) none 1] := by
      simp [xOnFirst, List.range_succ]
    rw [e, List.foldl_append]
    generalize ((xOnFirst m : List (Call ℂ)).foldl (fun s k => classicalStep (List.replicate (n + 1) 2) k s) s) = u at h1 h2
    simp only [List.foldl_cons, List.foldl_nil, classicalStep, Int.ofNat_eq_natCast, Int.toNat_natCast]
    unfold bump
    refine ⟨by simp [h1], ?_⟩
    intro j
    rw [getD_replicate' (show m < n + 1 by omega)]
    by_cases hj : j = m
    · subst hj
      rw [getD_set_self (by omega), if_pos (by omega), h2, if_neg (by omega)]
      omega
    · rw [getD_set_ne (Ne.symm hj), h2]
      by_cases hlt : j < m
      · rw [if_pos hlt, if_pos (by omega)]
      · rw [if_neg hlt, if_neg (by omega)]

theorem xOnFirst_valid {n m : Nat} (hm : m ≤ n) : ∀ k ∈ (xOnFirst m : List (Call ℂ)), k.Valid (List.replicate (n + 1) 2) := by
  intro k hk
  obtain ⟨i, hi, rfl⟩ := List.mem_map.1 hk
  have := List.mem_range.1 hi
  have h2 := getD_replicate' (show i < n + 1 by omega) (a := 2)
  simp only [Call.Valid, InRange, DimOK, Int.ofNat_eq_natCast, Int.toNat_natCast, h2]
  refine ⟨⟨by omega, by simp; omega⟩, by simp, by omega, by omega⟩

/-- The calls between the two layers of `h` in `diffusion`. -/
def reflect (n : Nat) : List (Call ℂ) :=
  xOnFirst n ++ [.toffoli ((List.range n).map Int.ofNat) (Int.ofNat n) 1] ++ xOnFirst n

theorem spanOf_range (n : Nat) : (spanOf ((List.range n).map Int.ofNat ++ [Int.ofNat n])).2 = n + 1 := by
  have e : (List.range n).map Int.ofNat ++ [Int.ofNat n] = (List.range (n + 1)).map Int.ofNat := by
    simp [List.range_succ]
  have hh : ((List.range (n + 1)).map Int.ofNat).headD 0 = 0 := by
    simp [List.range_succ_eq_map]
  have hmax : ∀ m, ((List.range (m + 1)).map Int.ofNat).foldl max 0 = (m : Int) := by
    intro m
    induction m with
    | zero => rfl
    | succ m ih =>
      rw [List.range_succ, List.map_append, List.foldl_append, ih]
      simp
  have hmin : ∀ m, ((List.range m).map Int.ofNat).foldl min 0 = 0 := by
    intro m
    induction m with
    | zero => rfl
    | succ m ih =>
      rw [List.range_succ, List.map_append, List.foldl_append, ih]
      simp
  rw [e]
  simp only [spanOf, hh, hmax, hmin]
  omega

theorem reflect_valid {n : Nat} (hn : 2 ≤ n) : ∀ k ∈ reflect n, k.Valid (List.replicate (n + 1) 2) := by
  intro k hk
  rcases List.mem_append.1 hk with hk | hk
  · rcases List.mem_append.1 hk with hk | hk
    · exact xOnFirst_valid (le_refl _) k hk
    · rw [List.mem_singleton.1 hk]
      refine ⟨by simp [InRange], ?_, ?_, ?_⟩
      · intro c hc
        obtain ⟨i, hi, rfl⟩ := List.mem_map.1 hc
        have := List.mem_range.1 hi
        simp [InRange]
        omega
      · simp
      · rw [spanOf_range]
        omega
  · exact xOnFirst_valid (le_refl _) k hk

theorem reflect_classical (n : Nat) : ∀ k ∈ reflect n, k.Classical := by
  intro k hk
  rcases List.mem_append.1 hk with hk | hk
  · rcases List.mem_append.1 hk with hk | hk
    · obtain ⟨i, -, rfl⟩ := List.mem_map.1 hk
      trivial
    · rw [List.mem_singleton.1 hk]
      trivial
  · obtain ⟨i, -, rfl⟩ := List.mem_map.1 hk
    trivial

theorem ext_getD {s t : List Nat} (hl : s.length = t.length) (h : ∀ j < s.length, s.getD j 0 = t.getD j 0) : s = t := by
  apply List.ext_getElem hl
  intro i h1 h2
  have := h i h1
  simpa [h1, h2] using this

/-- The solution of the reflection is all-0. -/
def isZero (x : List Nat) : Nat := if ∀ a ∈ x, a = 0 then 1 else 0

theorem reflect_fold {n b : Nat} {x : List Nat} (hx : Fits (List.replicate n 2) x) (hb : b < 2) :
    (reflect n).foldl (fun s k => classicalStep (List.replicate (n + 1) 2) k s) (x ++ [b]) =
      x ++ [(b + isZero x) % 2] := by
  have hxl : x.length = n := by simpa using hx.1
  have hbit : ∀ j, j < n → x.getD j 0 < 2 := by
    intro j hj
    have := fits_getD_lt hx j (by simpa using hj)
    rwa [getD_replicate' hj] at this
  obtain ⟨h1, h2⟩ := xOnFirst_fold (le_refl n) (s := x ++ [b]) (by simp [hxl])
  unfold reflect
  rw [List.foldl_append, List.foldl_append]
  generalize ((xOnFirst n : List (Call ℂ)).foldl (fun s k => classicalStep (List.replicate (n + 1) 2) k s) (x ++ [b])) = u
    at h1 h2
  have hxj : ∀ c j, j < n → (x ++ [c]).getD j 0 = x.getD j 0 := by
    intro c j hj
    simp [List.getElem?_append_left (show j < x.length by omega)]
  have hxn : ∀ c, (x ++ [c]).getD n 0 = c := by
    intro c
    simp [← hxl]
  have hu : ∀ j, j < n → u.getD j 0 = (x.getD j 0 + 1) % 2 := by
    intro j hj
    rw [h2, if_pos hj, hxj b j hj]
  have hun : u.getD n 0 = b := by rw [h2, if_neg (by omega), hxn]
  have hall : (∀ c ∈ ((List.range n).map Int.ofNat).map Int.toNat, atTop (List.replicate (n + 1) 2) c u) ↔
      ∀ a ∈ x, a = 0 := by
    constructor
    · intro h a ha
      obtain ⟨j, hj, rfl⟩ := List.mem_iff_getElem.1 ha
      have := h j (by simp; omega)
      unfold atTop at this
      rw [getD_replicate' (by omega), hu j (by omega)] at this
      have h3 := hbit j (by omega)
      have h4 : x.getD j 0 = x[j] := by simp [hj]
      omega
    · intro h c hc
      simp only [List.map_map, List.mem_map, List.mem_range, Function.comp] at hc
      obtain ⟨j, hj, rfl⟩ := hc
      simp only [Int.ofNat_eq_natCast, Int.toNat_natCast]
      unfold atTop
      have h4 : x.getD j 0 = x[j] := by simp [hxl, hj]
      have := h x[j] (List.getElem_mem _)
      rw [getD_replicate' (by omega), hu j hj]
      omega
  have hstep : ([.toffoli ((List.range n).map Int.ofNat) (Int.ofNat n) 1] : List (Call ℂ)).foldl
      (fun s k => classicalStep (List.replicate (n + 1) 2) k s) u = u.set n ((b + isZero x) % 2) := by
    simp only [List.foldl_cons, List.foldl_nil, classicalStep]
    unfold controlled isZero
    by_cases h : ∀ a ∈ x, a = 0
    · rw [if_pos (hall.2 h), if_pos h]
      unfold bump
      simp only [Int.ofNat_eq_natCast, Int.toNat_natCast]
      rw [hun, getD_replicate' (by omega)]
      congr 1
    · rw [if_neg (fun h' => h (hall.1 h')), if_neg h, Nat.add_zero, Nat.mod_eq_of_lt hb]
      apply ext_getD (by simp)
      intro j hj
      by_cases hjn : j = n
      · subst hjn
        rw [getD_set_self (by omega), hun]
      · rw [getD_set_ne (Ne.symm hjn)]
  rw [hstep]
  obtain ⟨h3, h4⟩ := xOnFirst_fold (le_refl n) (s := u.set n ((b + isZero x) % 2)) (by simp [h1])
  apply ext_getD (by rw [h3]; simp [hxl])
  intro j hj
  rw [h3] at hj
  rw [h4]
  by_cases hjn : j = n
  · subst hjn
    rw [if_neg (by omega), getD_set_self (by omega), hxn]
  · rw [if_pos (by omega), getD_set_ne (Ne.symm hjn), hu j (by omega), hxj _ j (by omega)]
    have := hbit j (by omega)
    omega

theorem reflect_adds (hN : N.Sized) {B : Backend ℂ} (hB : B.Lawful) {n : Nat} (hn : 2 ≤ n) :
    AddsInto N B n (reflect n) isZero :=
  classical_addsInto hN hB (reflect_valid hn) (reflect_classical n) fun x hx b hb => reflect_fold (mem_states.1 hx) hb

/-! ### States in which the last qubit is in the state `|0⟩ - |1⟩` -/

/-- The first `n` qubits have the amplitudes `φ`, the last one is in the state `(|0⟩ - |1⟩)/√2`. -/
def Kicked (N : Numerics ℂ) (n : Nat) (ψ : State ℂ) (φ : List Nat → ℂ) : Prop :=
  ∀ x, Fits (List.replicate n 2) x → ∀ b < 2, ψ (x ++ [b]) = N.invSqrt 2 * (-1) ^ b * φ x

/-- An oracle turns into signs. -/
theorem Kicked.oracle (hN : N.Sized) {B : Backend ℂ} (hB : B.Lawful) {n : Nat} {oracle : List (Call ℂ)}
    {f : List Nat → Nat} (hv : ∀ k ∈ oracle, k.Valid (List.replicate (n + 1) 2)) (hf : AddsInto N B n oracle f)
    {ψ : State ℂ} {φ : List Nat → ℂ} (h : Kicked N n ψ φ) :
    Kicked N n (applyAll N (List.replicate (n + 1) 2) oracle ψ) fun x => (-1) ^ f x * φ x := by
  intro y hy b hb
  have h2 : ∀ d ∈ List.replicate (n + 1) 2, 2 ≤ d := by
    intro d hd
    rw [List.eq_of_mem_replicate hd]
  have ho : ∀ x ∈ states (List.replicate n 2), ∀ c < 2, applyAll N (List.replicate (n + 1) 2) oracle (basis (x ++ [c]))
      (y ++ [b]) = if y ++ [b] = x ++ [(c + f x) % 2] then 1 else 0 := by
    intro x hx c hc
    have hxc := fits_bits_append (mem_states.1 hx) hc
    rw [← hf x hx c hc, amplitude_eq hN hB (by simp) (validStart_asInit h2 hxc) hv (fits_bits_append hy hb),
      stateAfter_eq, startLevels_asInit hxc]
  rw [applyAll_expand N hv ψ (fits_bits_append hy hb), sum_bits]
  have : ((states (List.replicate n 2)).map fun x =>
      ψ (x ++ [0]) * applyAll N (List.replicate (n + 1) 2) oracle (basis (x ++ [0])) (y ++ [b]) +
      ψ (x ++ [1]) * applyAll N (List.replicate (n + 1) 2) oracle (basis (x ++ [1])) (y ++ [b])) =
      (states (List.replicate n 2)).map fun x => if y = x then N.invSqrt 2 * (-1) ^ b * ((-1) ^ f x * φ x) else 0 := by
    apply List.map_congr_left
    intro x hx
    rw [ho x hx 0 (by omega), ho x hx 1 (by omega), h x (mem_states.1 hx) 0 (by omega), h x (mem_states.1 hx) 1 (by omega)]
    by_cases hyx : y = x
    · subst hyx
      simp only [List.append_cancel_left_eq, List.cons.injEq, and_true, if_true]
      have hb' : b = 0 ∨ b = 1 := by omega
      rcases Nat.even_or_odd (f y) with he | he
      · have := Nat.even_iff.1 he
        rw [he.neg_one_pow, show (0 + f y) % 2 = 0 by omega, show (1 + f y) % 2 = 1 by omega]
        rcases hb' with rfl | rfl <;> simp
      · have := Nat.odd_iff.1 he
        rw [he.neg_one_pow, show (0 + f y) % 2 = 1 by omega, show (1 + f y) % 2 = 0 by omega]
        rcases hb' with rfl | rfl <;> simp
    · have hne : ∀ c, y ++ [b] ≠ x ++ [c] := fun c h => hyx (List.append_inj_left' h rfl)
      rw [if_neg (hne _), if_neg (hne _), if_neg hyx]
      simp
  rw [this, sum_ite_eq _ (nodup_states _) y (mem_states.2 hy)]

/-- `h` on the first `n` qubits. -/
theorem Kicked.h (hN : N.Exact) {n : Nat} {ψ : State ℂ} {φ : List Nat → ℂ} (h : Kicked N n ψ φ) :
    Kicked N n (applyAll N (List.replicate (n + 1) 2) (hOnFirst n) ψ) fun y =>
      N.invSqrt 2 ^ n * ((states (List.replicate n 2)).map fun x => (-1) ^ dot y x * φ x).sum := by
  intro y hy b hb
  have hv : ∀ k ∈ (hOnFirst n : List (Call ℂ)), k.Valid (List.replicate (n + 1) 2) := hOnFirst_valid (by simp)
  have hyl : y.length = n := by simpa using hy.1
  have ho : ∀ x ∈ states (List.replicate n 2), ∀ c < 2, applyAll N (List.replicate (n + 1) 2) (hOnFirst n)
      (basis (x ++ [c])) (y ++ [b]) = N.invSqrt 2 ^ n * (-1) ^ dot y x * if b = c then 1 else 0 := by
    intro x hx c hc
    have hx := mem_states.1 hx
    have hxl : x.length = n := by simpa using hx.1
    rw [applyAll_hOnFirst N (by simp) (fits_bits_append hx hc) (fits_bits_append hy hb),
      ← prod_signs _ hxl hyl, ← hyl, List.drop_left, hyl, ← hxl, List.drop_left, hxl]
    simp only [List.cons.injEq, and_true]
    congr 2
    apply List.map_congr_left
    intro i hi
    have hi := List.mem_range.1 hi
    have h2 : (List.replicate (n + 1) 2).getD i 0 = 2 := getD_replicate' (by omega)
    have h3 := fits_getD_lt hx i (by simpa using hi)
    have h4 := fits_getD_lt hy i (by simpa using hi)
    rw [getD_replicate' hi] at h3 h4
    have e1 : (x ++ [c]).getD i 0 = x.getD i 0 := by
      simp [List.getElem?_append_left (show i < x.length by omega)]
    have e2 : (y ++ [b]).getD i 0 = y.getD i 0 := by
      simp [List.getElem?_append_left (show i < y.length by omega)]
    unfold hEntry
    rw [h2, e1, e2, hadamard_two hN h4 h3]
  rw [applyAll_expand N hv ψ (fits_bits_append hy hb), sum_bits]
  beta_reduce
  rw [← List.sum_map_mul_left, ← List.sum_map_mul_left]
  apply map_congr_sum
  intro x hx
  rw [ho x hx 0 (by omega), ho x hx 1 (by omega), h x (mem_states.1 hx) 0 (by omega), h x (mem_states.1 hx) 1 (by omega)]
  have hb' : b = 0 ∨ b = 1 := by omega
  rcases hb' with rfl | rfl <;> simp <;> ring

theorem dot_comm (x y : List Nat) : dot x y = dot y x := by
  unfold dot
  rw [List.zipWith_comm]
  simp only [mul_comm]

theorem isZero_sign {n : Nat} {x : List Nat} (hx : x ∈ states (List.replicate n 2)) :
    (-1 : ℂ) ^ isZero x = 1 - 2 * if List.replicate n 0 = x then 1 else 0 := by
  have hl : x.length = n := by simpa using (mem_states.1 hx).1
  have : (∀ a ∈ x, a = 0) ↔ List.replicate n 0 = x := by
    rw [eq_comm, List.eq_replicate_iff]
    exact ⟨fun h => ⟨hl, h⟩, fun h => h.2⟩
  unfold isZero
  by_cases h : ∀ a ∈ x, a = 0
  · rw [if_pos h, if_pos (this.1 h)]
    norm_num
  · rw [if_neg h, if_neg (fun h' => h (this.2 h'))]
    norm_num

theorem sum_map_sub {α : Type} (l : List α) (F G : α → ℂ) :
    (l.map fun x => F x - G x).sum = (l.map F).sum - (l.map G).sum := by
  induction l with
  | nil => simp
  | cons a l ih =>
    rw [List.map_cons, List.sum_cons, ih, List.map_cons, List.sum_cons, List.map_cons, List.sum_cons]
    ring

/-- The two layers of `h` and the reflection between them. -/
theorem diffuse_sum (hN : N.Exact) {n : Nat} (χ : List Nat → ℂ) {y : List Nat} (hy : Fits (List.replicate n 2) y) :
    N.invSqrt 2 ^ n * ((states (List.replicate n 2)).map fun x => (-1) ^ dot y x * ((-1) ^ isZero x *
      (N.invSqrt 2 ^ n * ((states (List.replicate n 2)).map fun u => (-1) ^ dot x u * χ u).sum))).sum =
      χ y - 2 / 2 ^ n * ((states (List.replicate n 2)).map χ).sum := by
  have hr : N.invSqrt 2 ^ n * N.invSqrt 2 ^ n = 1 / 2 ^ n := by
    rw [← mul_pow, invSqrt_two_sq hN, div_pow, one_pow]
  have hz : Fits (List.replicate n 2) (List.replicate n 0) := by
    refine ⟨by simp, ?_⟩
    intro i _ _
    simp
  have e1 : ∀ x ∈ states (List.replicate n 2), (-1 : ℂ) ^ dot y x * ((-1) ^ isZero x *
      (N.invSqrt 2 ^ n * ((states (List.replicate n 2)).map fun u => (-1) ^ dot x u * χ u).sum)) =
      N.invSqrt 2 ^ n * (((states (List.replicate n 2)).map fun u => χ u * (-1) ^ (dot u x + dot y x)).sum -
        2 * if List.replicate n 0 = x then ((states (List.replicate n 2)).map χ).sum else 0) := by
    intro x hx
    rw [isZero_sign hx]
    by_cases h0 : List.replicate n 0 = x
    · subst h0
      rw [if_pos rfl, if_pos rfl]
      simp only [dot_zero, zero_dot]
      simp
      ring
    · rw [if_neg h0, if_neg h0]
      have : ((states (List.replicate n 2)).map fun u => χ u * (-1) ^ (dot u x + dot y x)).sum =
          (-1) ^ dot y x * ((states (List.replicate n 2)).map fun u => (-1) ^ dot x u * χ u).sum := by
        rw [← List.sum_map_mul_left]
        apply map_congr_sum
        intro u _
        rw [dot_comm x u]
        ring
      rw [this]
      ring
  rw [List.map_congr_left e1, List.sum_map_mul_left, ← mul_assoc, hr]
  have e2 : ((states (List.replicate n 2)).map fun x =>
      ((states (List.replicate n 2)).map fun u => χ u * (-1) ^ (dot u x + dot y x)).sum -
        2 * if List.replicate n 0 = x then ((states (List.replicate n 2)).map χ).sum else 0).sum =
      ((states (List.replicate n 2)).map fun x =>
        ((states (List.replicate n 2)).map fun u => χ u * (-1) ^ (dot u x + dot y x)).sum).sum -
      2 * ((states (List.replicate n 2)).map fun x =>
        if List.replicate n 0 = x then ((states (List.replicate n 2)).map χ).sum else 0).sum := by
    rw [← List.sum_map_mul_left]
    exact sum_map_sub _ _ _
  rw [e2, sum_comm, sum_ite_eq _ (nodup_states _) _ (mem_states.2 hz)]
  have e3 : ((states (List.replicate n 2)).map fun u =>
      ((states (List.replicate n 2)).map fun x => χ u * (-1) ^ (dot u x + dot y x)).sum) =
      (states (List.replicate n 2)).map fun u => if y = u then χ u * 2 ^ n else 0 := by
    apply List.map_congr_left
    intro u hu
    rw [List.sum_map_mul_left, sum_signs (mem_states.1 hu) hy]
    split <;> simp
  rw [e3, sum_ite_eq _ (nodup_states _) y (mem_states.2 hy)]
  have : (2 : ℂ) ^ n ≠ 0 := pow_ne_zero _ two_ne_zero
  field_simp

/-- One iteration. -/
theorem Kicked.step (hN : N.Exact) {B : Backend ℂ} (hB : B.Lawful) {n : Nat} (hn : 2 ≤ n) {oracle : List (Call ℂ)}
    {f : List Nat → Nat} (hv : ∀ k ∈ oracle, k.Valid (List.replicate (n + 1) 2)) (hf : AddsInto N B n oracle f)
    {ψ : State ℂ} {φ : List Nat → ℂ} (h : Kicked N n ψ φ) :
    Kicked N n (applyAll N (List.replicate (n + 1) 2) (oracle ++ diffusion n) ψ) fun y =>
      (-1) ^ f y * φ y - 2 / 2 ^ n * ((states (List.replicate n 2)).map fun u => (-1) ^ f u * φ u).sum := by
  have h1 := h.oracle hN.sized hB hv hf
  have h2 := h1.h hN
  have h3 := h2.oracle hN.sized hB (reflect_valid hn) (reflect_adds hN.sized hB hn)
  have h4 := h3.h hN
  intro y hy b hb
  have := h4 y hy b hb
  beta_reduce at this
  rw [diffuse_sum hN (fun u => (-1) ^ f u * φ u) hy] at this
  rw [← this, applyAll_append, diffusion, applyAll_append, applyAll_append]
  rfl

theorem length_bits (n : Nat) : (states (List.replicate n 2)).length = 2 ^ n := by
  rw [length_states, List.prod_replicate]

theorem sum_two (f : List Nat → Nat) (a b : ℂ) (l : List (List Nat)) :
    (l.map fun u => (-1) ^ f u * if f u % 2 = 1 then a else b).sum =
      -(l.countP (fun u => f u % 2 = 1) : ℂ) * a + ((l.length : ℂ) - l.countP fun u => f u % 2 = 1) * b := by
  induction l with
  | nil => simp
  | cons x l ih =>
    rw [List.map_cons, List.sum_cons, ih, List.countP_cons, List.length_cons]
    rcases Nat.even_or_odd (f x) with h | h
    · have h2 := Nat.even_iff.1 h
      rw [h.neg_one_pow]
      simp [h2]
      ring
    · have h2 := Nat.odd_iff.1 h
      rw [h.neg_one_pow]
      simp [h2]
      ring

/-- The real number that an iteration gives, for solutions and for non-solutions. -/
theorem rotation {m r M S C s2 c2 : ℝ} (hm : 0 ≤ m) (hr : 0 ≤ r) (hM : M = m + r) (hM0 : 0 < M)
    (hs : s2 = 2 * Real.sqrt m * Real.sqrt r / M) (hc : c2 = (r - m) / M) :
    (0 < m → -(S / Real.sqrt m) - 2 / M * (-m * (S / Real.sqrt m) + r * (C / Real.sqrt r)) =
      -((S * c2 + C * s2) / Real.sqrt m)) ∧
    (0 < r → C / Real.sqrt r - 2 / M * (-m * (S / Real.sqrt m) + r * (C / Real.sqrt r)) =
      -((C * c2 - S * s2) / Real.sqrt r)) := by
  have h1 : ∀ {x y : ℝ}, 0 ≤ x → x * (y / Real.sqrt x) = Real.sqrt x * y := by
    intro x y hx
    by_cases h : x = 0
    · simp [h]
    · have : 0 < Real.sqrt x := Real.sqrt_pos.2 (lt_of_le_of_ne hx (Ne.symm h))
      have h2 := Real.mul_self_sqrt hx
      field_simp
      linear_combination (-y) * h2
  have em := Real.mul_self_sqrt hm
  have er := Real.mul_self_sqrt hr
  rw [neg_mul, h1 hm, h1 hr, hs, hc]
  constructor
  · intro h
    have hp := Real.sqrt_pos.2 h
    rw [hM] at *
    field_simp
    linear_combination 2 * S * em
  · intro h
    have hp := Real.sqrt_pos.2 h
    rw [hM] at *
    field_simp
    linear_combination (-2 * C) * er

/-- The number of solutions: level lists of `n` qubits for which `f` is odd. -/
def solutions (n : Nat) (f : List Nat → Nat) : Nat := (states (List.replicate n 2)).countP fun x => f x % 2 = 1

/-- The angle of Grover's rotation: its sine is the square root of the share of solutions. -/
noncomputable def groverAngle (n : Nat) (f : List Nat → Nat) : ℝ := Real.arcsin (Real.sqrt (solutions n f / 2 ^ n))

/-- The amplitude of each solution, or of each other level list, after `k` iterations. -/
noncomputable def groverAmp (n : Nat) (f : List Nat → Nat) (k : Nat) (x : List Nat) : ℝ :=
  (-1) ^ k * if f x % 2 = 1 then Real.sin ((2 * k + 1) * groverAngle n f) / Real.sqrt (solutions n f)
    else Real.cos ((2 * k + 1) * groverAngle n f) / Real.sqrt (2 ^ n - solutions n f)

theorem solutions_le (n : Nat) (f : List Nat → Nat) : solutions n f ≤ 2 ^ n := by
  rw [← length_bits n]
  exact List.countP_le_length

theorem angle_facts (n : Nat) (f : List Nat → Nat) :
    Real.sin (groverAngle n f) = Real.sqrt (solutions n f) / Real.sqrt (2 ^ n) ∧
    Real.cos (groverAngle n f) = Real.sqrt (2 ^ n - solutions n f) / Real.sqrt (2 ^ n) := by
  have h0 : (0 : ℝ) < 2 ^ n := by positivity
  have h1 : (solutions n f : ℝ) ≤ 2 ^ n := by exact_mod_cast solutions_le n f
  have h2 : (solutions n f : ℝ) / 2 ^ n ≤ 1 := (div_le_one h0).2 h1
  have h3 : (0 : ℝ) ≤ solutions n f / 2 ^ n := by positivity
  have h4 := Real.sqrt_nonneg ((solutions n f : ℝ) / 2 ^ n)
  constructor
  · unfold groverAngle
    rw [Real.sin_arcsin (by linarith) (by rw [← Real.sqrt_one]; exact Real.sqrt_le_sqrt h2), Real.sqrt_div (by positivity)]
  · unfold groverAngle
    rw [Real.cos_arcsin, Real.sq_sqrt h3, ← Real.sqrt_div (by linarith)]
    congr 1
    field_simp

theorem angle_double (n : Nat) (f : List Nat → Nat) :
    Real.sin (2 * groverAngle n f) =
      2 * Real.sqrt (solutions n f) * Real.sqrt (2 ^ n - solutions n f) / 2 ^ n ∧
    Real.cos (2 * groverAngle n f) = ((2 ^ n - solutions n f) - solutions n f) / 2 ^ n := by
  obtain ⟨h1, h2⟩ := angle_facts n f
  have h0 : (0 : ℝ) < 2 ^ n := by positivity
  have hq := Real.mul_self_sqrt h0.le
  have hp := Real.sqrt_pos.2 h0
  have hs : (0 : ℝ) ≤ solutions n f := by positivity
  have hm := Real.mul_self_sqrt hs
  constructor
  · rw [Real.sin_two_mul, h1, h2]
    have : ∀ a b c : ℝ, c * c = 2 ^ n → 0 < c → 2 * (a / c) * (b / c) = 2 * a * b / 2 ^ n := by
      intro a b c hc hc0
      rw [← hc]
      field_simp
    exact this _ _ _ hq hp
  · rw [Real.cos_two_mul, h2]
    have hr : (0 : ℝ) ≤ 2 ^ n - solutions n f := by
      have : (solutions n f : ℝ) ≤ 2 ^ n := by exact_mod_cast solutions_le n f
      linarith
    rw [div_pow, Real.sq_sqrt hr, Real.sq_sqrt h0.le]
    field_simp
    ring

theorem grover_step (n : Nat) (f : List Nat → Nat) (k : Nat) {y : List Nat} (hy : y ∈ states (List.replicate n 2)) :
    (-1) ^ f y * (groverAmp n f k y : ℂ) -
      2 / 2 ^ n * ((states (List.replicate n 2)).map fun u => (-1) ^ f u * (groverAmp n f k u : ℂ)).sum =
    (groverAmp n f (k + 1) y : ℂ) := by
  obtain ⟨hs, hc⟩ := angle_double n f
  have h0 : (0 : ℝ) < 2 ^ n := by positivity
  have hle : (solutions n f : ℝ) ≤ 2 ^ n := by exact_mod_cast solutions_le n f
  have rot := rotation (S := Real.sin ((2 * k + 1) * groverAngle n f)) (C := Real.cos ((2 * k + 1) * groverAngle n f))
    (m := solutions n f) (r := 2 ^ n - solutions n f) (M := 2 ^ n) (by positivity) (by linarith) (by ring) h0 hs hc
  have hang : ((2 * ((k + 1 : Nat) : ℝ) + 1) * groverAngle n f) = (2 * k + 1) * groverAngle n f + 2 * groverAngle n f := by
    push_cast
    ring
  rw [← Real.sin_add, ← Real.cos_add, ← hang] at rot
  have hsum : ((states (List.replicate n 2)).map fun u => (-1) ^ f u * (groverAmp n f k u : ℂ)).sum =
      (((-1) ^ k * (-(solutions n f : ℝ) * (Real.sin ((2 * k + 1) * groverAngle n f) / Real.sqrt (solutions n f)) +
        (2 ^ n - solutions n f) * (Real.cos ((2 * k + 1) * groverAngle n f) / Real.sqrt (2 ^ n - solutions n f))) : ℝ) : ℂ) := by
    have := sum_two f (((-1) ^ k * (Real.sin ((2 * k + 1) * groverAngle n f) / Real.sqrt (solutions n f)) : ℝ) : ℂ)
      (((-1) ^ k * (Real.cos ((2 * k + 1) * groverAngle n f) / Real.sqrt (2 ^ n - solutions n f)) : ℝ) : ℂ)
      (states (List.replicate n 2))
    rw [length_bits] at this
    have e : ((states (List.replicate n 2)).map fun u => (-1) ^ f u * (groverAmp n f k u : ℂ)) =
        (states (List.replicate n 2)).map fun u => (-1) ^ f u * if f u % 2 = 1 then
          (((-1) ^ k * (Real.sin ((2 * k + 1) * groverAngle n f) / Real.sqrt (solutions n f)) : ℝ) : ℂ) else
          (((-1) ^ k * (Real.cos ((2 * k + 1) * groverAngle n f) / Real.sqrt (2 ^ n - solutions n f)) : ℝ) : ℂ) := by
      apply List.map_congr_left
      intro u _
      unfold groverAmp
      split <;> rfl
    rw [e, this]
    change -((solutions n f : Nat) : ℂ) * _ + _ = _
    rw [show (List.countP (fun u => decide (f u % 2 = 1)) (states (List.replicate n 2))) = solutions n f from rfl]
    push_cast
    ring
  rw [hsum]
  have hexp : ((-1 : ℂ) ^ f y) = (((-1) ^ f y : ℝ) : ℂ) := by push_cast; rfl
  rw [hexp, show (2 / 2 ^ n : ℂ) = ((2 / 2 ^ n : ℝ) : ℂ) by push_cast; rfl, ← Complex.ofReal_mul, ← Complex.ofReal_mul,
    ← Complex.ofReal_sub]
  congr 1
  unfold groverAmp
  by_cases hf : f y % 2 = 1
  · have hpos : 0 < solutions n f := List.countP_pos_iff.2 ⟨y, hy, by simpa using hf⟩
    have := rot.1 (by exact_mod_cast hpos)
    rw [(Nat.odd_iff.2 hf).neg_one_pow, if_pos hf, if_pos hf, pow_succ]
    linear_combination (-1) ^ k * this
  · have hlt : solutions n f < 2 ^ n := by
      rw [← length_bits n]
      apply List.countP_lt_length_iff.2
      exact ⟨y, hy, by simpa using hf⟩
    have := rot.2 (by have : (solutions n f : ℝ) < 2 ^ n := by exact_mod_cast hlt
                      linarith)
    rw [(Nat.even_iff.2 (by omega)).neg_one_pow, if_neg hf, if_neg hf, pow_succ]
    linear_combination (-1) ^ k * this

theorem sqrt_two_pow (n : Nat) : Real.sqrt (2 ^ n) = Real.sqrt 2 ^ n := by
  induction n with
  | zero => simp
  | succ n ih => rw [pow_succ, pow_succ, Real.sqrt_mul (by positivity), ih]

theorem groverAmp_zero (hN : N.Exact) (n : Nat) (f : List Nat → Nat) {x : List Nat}
    (hx : x ∈ states (List.replicate n 2)) : N.invSqrt 2 ^ n = (groverAmp n f 0 x : ℂ) := by
  obtain ⟨h1, h2⟩ := angle_facts n f
  rw [hN.invSqrt 2 (by omega), ← Complex.ofReal_pow]
  congr 1
  have e : (1 / Real.sqrt ((2 : Nat) : ℝ)) ^ n = 1 / Real.sqrt (2 ^ n) := by
    rw [div_pow, one_pow]
    congr 1
    push_cast
    exact (sqrt_two_pow n).symm
  rw [e]
  unfold groverAmp
  have h0 : (0 : ℝ) < 2 ^ n := by positivity
  have hp := Real.sqrt_pos.2 h0
  simp only [pow_zero, one_mul, CharP.cast_eq_zero, mul_zero, zero_add]
  rw [h1, h2]
  by_cases hf : f x % 2 = 1
  · have hpos : 0 < solutions n f := List.countP_pos_iff.2 ⟨x, hx, by simpa using hf⟩
    have : 0 < Real.sqrt (solutions n f) := Real.sqrt_pos.2 (by exact_mod_cast hpos)
    rw [if_pos hf]
    field_simp
  · have hlt : solutions n f < 2 ^ n := by
      rw [← length_bits n]
      apply List.countP_lt_length_iff.2
      exact ⟨x, hx, by simpa using hf⟩
    have : 0 < Real.sqrt (2 ^ n - solutions n f) := Real.sqrt_pos.2 (by
      have : (solutions n f : ℝ) < 2 ^ n := by exact_mod_cast hlt
      linarith)
    rw [if_neg hf]
    field_simp

theorem groverSteps_valid {n : Nat} (hn : 2 ≤ n) {oracle : List (Call ℂ)}
    (hv : ∀ k ∈ oracle, k.Valid (List.replicate (n + 1) 2)) (k : Nat) :
    ∀ c ∈ groverSteps oracle n k, c.Valid (List.replicate (n + 1) 2) := by
  induction k with
  | zero => simp [groverSteps]
  | succ k ih =>
    intro c hc
    have hh : ∀ k ∈ (hOnFirst n : List (Call ℂ)), k.Valid (List.replicate (n + 1) 2) := hOnFirst_valid (by simp)
    rcases List.mem_append.1 hc with hc | hc
    · exact ih c hc
    · rcases List.mem_append.1 hc with hc | hc
      · exact hv c hc
      · rcases List.mem_append.1 hc with hc | hc
        · rcases List.mem_append.1 hc with hc | hc
          · exact hh c hc
          · exact reflect_valid hn c hc
        · exact hh c hc

theorem grover_state (hN : N.Exact) {B : Backend ℂ} (hB : B.Lawful) {n : Nat} (hn : 2 ≤ n) {oracle : List (Call ℂ)}
    {f : List Nat → Nat} (hv : ∀ k ∈ oracle, k.Valid (List.replicate (n + 1) 2)) (hf : AddsInto N B n oracle f)
    (k : Nat) :
    Kicked N n (applyAll N (List.replicate (n + 1) 2) (hOnFirst (n + 1) ++ groverSteps oracle n k)
      (basis (List.replicate n 0 ++ [1]))) fun x => (groverAmp n f k x : ℂ) := by
  induction k with
  | zero =>
    intro x hx b hb
    beta_reduce
    have hz : Fits (List.replicate n 2) (List.replicate n 0) := by
      refine ⟨by simp, ?_⟩
      intro i _ _
      simp
    rw [groverSteps, List.append_nil, hOnFirst_qubits hN (fits_bits_append hz (by omega)) (fits_bits_append hx hb),
      dot_append (by simpa using hx.1), dot_zero, ← groverAmp_zero hN n f (mem_states.2 hx)]
    simp only [zero_add, mul_one]
    ring
  | succ k ih =>
    intro x hx b hb
    have := ih.step hN hB hn hv hf x hx b hb
    rw [groverSteps, ← List.append_assoc, applyAll_append, this]
    beta_reduce
    rw [grover_step n f k (mem_states.2 hx)]

/-- **C66.** Grover's search on `n ≥ 2` qubits and one for the oracle, which is any calls that add `f x` to it. After `k`
iterations the amplitudes are those of a rotation by `2θ` per iteration, where `sin² θ` is the share of solutions:
`(-1)ᵏ sin((2k+1)θ)/√m` for each of the `m` solutions, `(-1)ᵏ cos((2k+1)θ)/√(2ⁿ-m)` for each of the others. -/
theorem C66_grover (hN : N.Exact) {B : Backend ℂ} (hB : B.Lawful) {n : Nat} (hn : 2 ≤ n) {oracle : List (Call ℂ)}
    {f : List Nat → Nat} (hv : ∀ k ∈ oracle, k.Valid (List.replicate (n + 1) 2)) (hf : AddsInto N B n oracle f)
    (k : Nat) {x : List Nat} (hx : x ∈ states (List.replicate n 2)) {b : Nat} (hb : b < 2) :
    amplitude N B (List.replicate (n + 1) 2) (kickStart n) (hOnFirst (n + 1) ++ groverSteps oracle n k) (x ++ [b]) =
      ((1 / Real.sqrt 2 * (-1) ^ b * ((-1) ^ k * if f x % 2 = 1
        then Real.sin ((2 * k + 1) * groverAngle n f) / Real.sqrt (solutions n f)
        else Real.cos ((2 * k + 1) * groverAngle n f) / Real.sqrt (2 ^ n - solutions n f)) : ℝ) : ℂ) := by
  have hx' := mem_states.1 hx
  have hz : Fits (List.replicate n 2) (List.replicate n 0) := by
    refine ⟨by simp, ?_⟩
    intro i _ _
    simp
  have hk : kickStart n = asInit (List.replicate n 0 ++ [1]) := by simp [kickStart, asInit]
  have hvv : ∀ c ∈ hOnFirst (n + 1) ++ groverSteps oracle n k, c.Valid (List.replicate (n + 1) 2) := by
    intro c hc
    rcases List.mem_append.1 hc with hc | hc
    · exact hOnFirst_valid (by simp) c hc
    · exact groverSteps_valid hn hv k c hc
  rw [amplitude_eq hN.sized hB (by simp) (kickStart_valid n) hvv (fits_bits_append hx' hb), stateAfter_eq, hk,
    startLevels_asInit (fits_bits_append hz (by omega)), grover_state hN hB hn hv hf k x hx' b hb,
    hN.invSqrt 2 (by omega)]
  unfold groverAmp
  push_cast
  rfl

/-- The probability of observing a solution after `k` iterations is `sin²((2k+1)θ)`. -/
theorem C66_success (hN : N.Exact) {B : Backend ℂ} (hB : B.Lawful) {n : Nat} (hn : 2 ≤ n) {oracle : List (Call ℂ)}
    {f : List Nat → Nat} (hv : ∀ k ∈ oracle, k.Valid (List.replicate (n + 1) 2)) (hf : AddsInto N B n oracle f)
    (k : Nat) :
    (((states (List.replicate (n + 1) 2)).filter fun s => f (s.take n) % 2 = 1).map fun s =>
      Complex.normSq (amplitude N B (List.replicate (n + 1) 2) (kickStart n)
        (hOnFirst (n + 1) ++ groverSteps oracle n k) s)).sum =
      Real.sin ((2 * k + 1) * groverAngle n f) ^ 2 := by
  have hval : ∀ x ∈ states (List.replicate n 2), f x % 2 = 1 → ∀ b < 2, Complex.normSq (amplitude N B
      (List.replicate (n + 1) 2) (kickStart n) (hOnFirst (n + 1) ++ groverSteps oracle n k) (x ++ [b])) =
      1 / 2 * (Real.sin ((2 * k + 1) * groverAngle n f) ^ 2 / solutions n f) := by
    intro x hx hfx b hb
    rw [C66_grover hN hB hn hv hf k hx hb, if_pos hfx, Complex.normSq_ofReal]
    have h1 : ((-1 : ℝ) ^ b) * (-1) ^ b = 1 := by rw [← mul_pow]; simp
    have h2 : ((-1 : ℝ) ^ k) * (-1) ^ k = 1 := by rw [← mul_pow]; simp
    have h3 : (1 / Real.sqrt 2) * (1 / Real.sqrt 2) = 1 / 2 := by
      rw [div_mul_div_comm, Real.mul_self_sqrt (by norm_num), one_mul]
    have h4 : ∀ S : ℝ, (S / Real.sqrt (solutions n f)) * (S / Real.sqrt (solutions n f)) = S ^ 2 / solutions n f := by
      intro S
      rw [div_mul_div_comm, Real.mul_self_sqrt (by positivity), pow_two]
    rw [← h4, ← h3]
    generalize Real.sin ((2 * k + 1) * groverAngle n f) / Real.sqrt (solutions n f) = S
    generalize 1 / Real.sqrt 2 = r
    linear_combination (r * r * S * S * (-1) ^ k * (-1) ^ k) * h1 + (r * r * S * S) * h2
  rw [← sum_ite_zero, sum_bits]
  have e : ((states (List.replicate n 2)).map fun x =>
      (if f ((x ++ [0]).take n) % 2 = 1 then Complex.normSq (amplitude N B
      (List.replicate (n + 1) 2) (kickStart n) (hOnFirst (n + 1) ++ groverSteps oracle n k) (x ++ [0])) else 0) +
      (if f ((x ++ [1]).take n) % 2 = 1 then Complex.normSq (amplitude N B
      (List.replicate (n + 1) 2) (kickStart n) (hOnFirst (n + 1) ++ groverSteps oracle n k) (x ++ [1])) else 0)) =
      (states (List.replicate n 2)).map fun x => if f x % 2 = 1 then
        Real.sin ((2 * k + 1) * groverAngle n f) ^ 2 / solutions n f else 0 := by
    apply List.map_congr_left
    intro x hx
    have hxl : x.length = n := by simpa using (mem_states.1 hx).1
    have ht : ∀ b, (x ++ [b]).take n = x := by
      intro b
      rw [← hxl, List.take_left]
    rw [ht, ht]
    by_cases hfx : f x % 2 = 1
    · rw [if_pos hfx, if_pos hfx, if_pos hfx, hval x hx hfx 0 (by omega), hval x hx hfx 1 (by omega)]
      ring
    · rw [if_neg hfx, if_neg hfx, if_neg hfx, add_zero]
  rw [e]
  have hcount : ∀ (l : List (List Nat)) (c : ℝ), (l.map fun x => if f x % 2 = 1 then c else 0).sum =
      (l.countP fun x => f x % 2 = 1) * c := by
    intro l c
    induction l with
    | nil => simp
    | cons x l ih =>
      rw [List.map_cons, List.sum_cons, ih, List.countP_cons]
      by_cases hfx : f x % 2 = 1
      · simp [hfx]
        ring
      · simp [hfx]
  rw [hcount]
  change (solutions n f : ℝ) * _ = _
  by_cases h0 : solutions n f = 0
  · have : groverAngle n f = 0 := by simp [groverAngle, h0]
    rw [this, h0]
    simp
  · have : (solutions n f : ℝ) ≠ 0 := by exact_mod_cast h0
    field_simp

/-- The hypotheses are met: searching for `[1, 1]` with a `toffoli` as oracle, one iteration finds it for certain. -/
example : (((states [2, 2, 2]).filter fun s => s.getD 0 0 * s.getD 1 0 % 2 = 1).map fun s =>
    Complex.normSq (amplitude standardN (numpyBackend ℂ) [2, 2, 2] [0, 0, 1]
      (hOnFirst 3 ++ groverSteps [.toffoli [0, 1] 2 1] 2 1) s)).sum = 1 := by
  have h : AddsInto standardN (numpyBackend ℂ) 2 [.toffoli [0, 1] 2 1] fun x => x.getD 0 0 * x.getD 1 0 := by
    apply classical_addsInto standardN_exact.sized numpy_lawful
    · simp [Call.Valid, InRange, spanOf]
    · simp [Call.Classical]
    · simp only [List.foldl_cons, List.foldl_nil, classicalStep]
      decide
  have := C66_success standardN_exact numpy_lawful (n := 2) (le_refl _) (by simp [Call.Valid, InRange, spanOf]) h 1
  have hang : groverAngle 2 (fun x => x.getD 0 0 * x.getD 1 0) = Real.pi / 6 := by
    unfold groverAngle
    have hs : solutions 2 (fun x => x.getD 0 0 * x.getD 1 0) = 1 := by decide
    rw [hs]
    have : Real.sqrt (((1 : Nat) : ℝ) / 2 ^ 2) = 1 / 2 := by
      rw [show (((1 : Nat) : ℝ) / 2 ^ 2) = (1 / 2) ^ 2 by norm_num, Real.sqrt_sq (by norm_num)]
    rw [this, ← Real.sin_pi_div_six, Real.arcsin_sin (by linarith [Real.pi_pos]) (by linarith [Real.pi_pos])]
  rw [hang, show ((2 * ((1 : Nat) : ℝ) + 1) * (Real.pi / 6)) = Real.pi / 2 by push_cast; ring, Real.sin_pi_div_two] at this
  rw [one_pow] at this
  refine Eq.trans ?_ this
  rfl

end

end QuDiet
