import Verif.Lemmas.Tolerance
import Verif.Props.Probability
import Verif.Props.Precision

/-! # C58: what the tolerance of the unitarity check costs -/

namespace QuDiet
open Spec

section
variable [C : UnitaryCheck ℂ] {N N' : Numerics ℂ} {τ : ℝ}

/-- A call of `qc.gate`. -/
def Call.isCustom {R : Type} : Call R → Prop
  | .gate .. => True
  | _ => False

/-- By which part of itself a call can change the total probability if the check lets products of rows be off by `τ`:
nothing for the gates of the library, the size of the matrix times `τ` for a custom gate. -/
noncomputable def Call.slack (τ : ℝ) : Call ℂ → ℝ
  | .gate U _ _ => U.rows * τ
  | _ => 0

theorem mass_of_weigh {dims : List Nat} {ψ φ : State ℂ} (h : weigh (fun _ => 1) dims ψ = weigh (fun _ => 1) dims φ) :
    mass dims ψ = mass dims φ := by
  rw [← mass_weigh, ← mass_weigh] at h
  exact_mod_cast h

theorem mass_meaning (hN : N.Exact) (hC : C.Within τ) {dims : List Nat} {k : Call ℂ} (hv : k.Valid dims)
    (hu : k.Unitary dims ∨ k.isCustom) (ψ : State ℂ) :
    |mass dims (meaning N dims k ψ) - mass dims ψ| ≤ k.slack τ * mass dims ψ := by
  by_cases hc : k.isCustom
  · cases k with
    | gate U q o =>
      cases q with
      | int q =>
        obtain ⟨hq, _, hU, hr, hc⟩ := hv
        have hlt : q.toNat < dims.length := by have := hq.1; have := hq.2; omega
        refine mass_onReg hlt ?_ ψ
        rw [← hr]
        exact nearly_of_gram rfl (hc.trans hr.symm) (hC U hU)
      | list qs =>
        obtain ⟨h1, h3, h4, h5, hU, hr, hc⟩ := hv
        obtain ⟨hle, hin⟩ := span_in h1 h3
        refine mass_onBlock hle ?_ ψ
        change Nearly ((dims.drop (spanOf qs).1).take (spanOf qs).2).prod _ _
        rw [← hr]
        exact nearly_of_gram rfl (hc.trans hr.symm) (hC U hU)
    | _ => exact hc.elim
  · have h := weigh_meaning hN hv ((hu.resolve_right hc).isometric hN) (fun _ _ _ _ _ => rfl) ψ
      (W := fun _ => 1)
    rw [mass_of_weigh h, sub_self, abs_zero]
    cases k with
    | gate U q o => exact (hc trivial).elim
    | _ => simp [Call.slack]

theorem slack_nonneg (hC : C.Within τ) {dims : List Nat} {k : Call ℂ} (hv : k.Valid dims) : 0 ≤ k.slack τ := by
  cases k with
  | gate U q o =>
    have hU : U.isUnitary = true := by
      cases q with
      | int q => exact hv.2.2.1
      | list qs => exact hv.2.2.2.2.1
    simp only [Call.slack]
    rcases Nat.eq_zero_or_pos U.rows with h | h
    · simp [h]
    · have := (norm_nonneg _).trans (hC U hU 0 h 0 h)
      positivity
  | _ => exact le_rfl

theorem mass_after (hN : N.Exact) (hC : C.Within τ) {dims : List Nat} {ks : List (Call ℂ)}
    (hv : ∀ k ∈ ks, k.Valid dims) (hu : ∀ k ∈ ks, k.Unitary dims ∨ k.isCustom) (ψ : State ℂ) :
    |mass dims (ks.foldl (fun ψ k => meaning N dims k ψ) ψ) - mass dims ψ| ≤
      ((ks.map fun k => 1 + k.slack τ).prod - 1) * mass dims ψ := by
  induction ks generalizing ψ with
  | nil => simp
  | cons k ks ih =>
    have h1 := mass_meaning hN hC (hv k (by simp)) (hu k (by simp)) ψ
    have h2 := ih (fun k hk => hv k (by simp [hk])) (fun k hk => hu k (by simp [hk])) (meaning N dims k ψ)
    rw [List.foldl_cons, List.map_cons, List.prod_cons]
    have hs := slack_nonneg hC (hv k (by simp))
    have hp : 1 ≤ (ks.map fun k => 1 + k.slack τ).prod := prod_one_le fun x hx => by
      obtain ⟨k', hk', rfl⟩ := List.mem_map.1 hx
      linarith [slack_nonneg hC (hv k' (by simp [hk']))]
    have hm := mass_nonneg dims ψ
    generalize (ks.map fun k => 1 + k.slack τ).prod = P at *
    generalize k.slack τ = a at *
    generalize mass dims (ks.foldl (fun ψ k => meaning N dims k ψ) (meaning N dims k ψ)) = y at *
    generalize mass dims (meaning N dims k ψ) = x at *
    generalize mass dims ψ = m at *
    have hx : x ≤ (1 + a) * m := by linarith [(abs_le.1 h1).2]
    calc |y - m| = |(y - x) + (x - m)| := by ring_nf
      _ ≤ |y - x| + |x - m| := abs_add_le _ _
      _ ≤ (P - 1) * ((1 + a) * m) + a * m :=
        add_le_add (h2.trans (mul_le_mul_of_nonneg_left hx (by linarith))) h1
      _ = _ := by ring

theorem mass_stateAfter (hN : N.Exact) (hC : C.Within τ) {dims : List Nat} {init : List Int}
    (h : ValidStart (dims.map Int.ofNat) init) {ks : List (Call ℂ)}
    (hv : ∀ k ∈ ks, k.Valid dims) (hu : ∀ k ∈ ks, k.Unitary dims ∨ k.isCustom) :
    |mass dims (stateAfter N dims init ks) - 1| ≤ (ks.map fun k => 1 + k.slack τ).prod - 1 := by
  have := mass_after hN hC hv hu (basis (startLevels dims init))
  have e : mass dims (basis (startLevels dims init)) = 1 := by
    have := mass_weigh dims (basis (startLevels dims init))
    rw [weigh_basis (startLevels_fits h)] at this
    exact_mod_cast this
  rwa [e, mul_one] at this

theorem total_mass {o : Output} (ho : o.method = .amplitude) (dims : List Nat) (ψ : State ℂ) :
    total (listing o dims ψ) = mass dims ψ := by
  have := total_listing ho dims ψ
  rw [← mass_weigh] at this
  exact_mod_cast this

/-- **C58.** If the unitarity check lets the products of rows be off by at most `τ`, then the probabilities that `run`
shows sum to one up to `∏ (1 + n τ) - 1`, the product being over the custom gates and `n` the size of each. -/
theorem C58_total_within (hN : N.Exact) (hC : C.Within τ) {B : Backend ℂ} (hB : B.Lawful)
    {dims : List Nat} (hne : dims ≠ []) {init : List Int} (h : ValidStart (dims.map Int.ofNat) init)
    {ks : List (Call ℂ)} (hks : ∀ k ∈ ks, k.Valid dims) (hu : ∀ k ∈ ks, k.Unitary dims ∨ k.isCustom) :
    ∃ r, script N B (.list (dims.map Int.ofNat)) init none (ks ++ [.measureAll]) = .ok r ∧
      |total r - 1| ≤ (ks.map fun k => 1 + k.slack τ).prod - 1 := by
  refine ⟨_, script_valid hN.sized hB hne h (out := none) (by simp) hks [], ?_⟩
  rw [total_mass (o := format dims none) rfl]
  exact mass_stateAfter hN hC h hks hu

/-- **C58.** A custom gate whose rows are not orthonormal up to `τ` is accepted, and every later `run()` raises. -/
theorem C58_far_never_runs (hN : N.Exact) (hC : C.Within τ) {B : Backend ℂ} (hB : B.Lawful)
    {dims : List Nat} {init : List Int} (h : ValidStart (dims.map Int.ofNat) init)
    (out : Option Output) {pre : List (Call ℂ)} (hpre : .measureAll ∉ pre) (post : List (Call ℂ))
    {q : Nat} (hq : q < dims.length) {U : Mat ℂ} {i j : Nat} (hi : i < U.rows) (hj : j < U.rows)
    (hfar : τ < ‖((List.range U.cols).map fun k => U.e i k * star (U.e j k)).sum - if i = j then 1 else 0‖) :
    answer (.list (dims.map Int.ofNat)) init out pre (.gate U (.int q) none) = .ok true ∧
    ∃ e, script N B (.list (dims.map Int.ofNat)) init out (pre ++ .gate U (.int q) none :: post) = .error e := by
  refine C38_bad_custom_gate_never_runs hN.sized hB h out hpre post hq (.inl ?_)
  by_contra hc
  have := hC U (eq_true_of_ne_false hc) i hi j hj
  exact absurd hfar (not_lt.2 this)

/-! ### Rounding -/

theorem mass_fin (dims : List Nat) (ψ : State ℂ) :
    mass dims ψ = ∑ i : Fin dims.prod, ‖ψ ((states dims).getD i [])‖ ^ 2 := by
  rw [← list_range_sum dims.prod fun i => ‖ψ ((states dims).getD i [])‖ ^ 2, sum_range_prod]
  apply map_congr_sum
  intro m hm
  obtain ⟨i, hi, rfl⟩ := List.mem_iff_getElem.1 hm
  rw [value_getElem hi, List.getD_eq_getElem?_getD, List.getElem?_eq_getElem hi, Option.getD_some,
    Complex.normSq_eq_norm_sq]

/-- The length of a vector changes by no more than the sum of the changes of its entries. -/
theorem sqrt_mass_le (dims : List Nat) (ψ φ : State ℂ) :
    Real.sqrt (mass dims ψ) ≤ Real.sqrt (mass dims φ) + ((states dims).map fun s => ‖ψ s - φ s‖).sum := by
  have hE : 0 ≤ ((states dims).map fun s => ‖ψ s - φ s‖).sum := by
    apply List.sum_nonneg
    intro x hx
    obtain ⟨s, _, rfl⟩ := List.mem_map.1 hx
    exact norm_nonneg _
  rw [Real.sqrt_le_left (by positivity)]
  have hφ := mass_nonneg dims φ
  have hsq := Real.sq_sqrt hφ
  have hs0 := Real.sqrt_nonneg (mass dims φ)
  have hone : ∀ s ∈ states dims, ‖φ s‖ ≤ Real.sqrt (mass dims φ) := by
    intro s hs
    apply Real.le_sqrt_of_sq_le
    rw [← Complex.normSq_eq_norm_sq]
    apply List.single_le_sum
    · intro x hx
      obtain ⟨s, _, rfl⟩ := List.mem_map.1 hx
      exact Complex.normSq_nonneg _
    · exact List.mem_map.2 ⟨s, hs, rfl⟩
  -- Σ ‖ψ‖² ≤ Σ (‖φ‖ + e)² ≤ Σ ‖φ‖² + 2 ‖φ‖ Σ e + (Σ e)²
  generalize hL : states dims = L at *
  have hm : mass dims φ = (L.map fun s => Complex.normSq (φ s)).sum := by rw [mass, hL]
  have hp : mass dims ψ = (L.map fun s => Complex.normSq (ψ s)).sum := by rw [mass, hL]
  rw [hp]
  generalize Real.sqrt (mass dims φ) = r at *
  have key : ∀ l : List (List Nat), (∀ s ∈ l, ‖φ s‖ ≤ r) →
      0 ≤ (l.map fun s => ‖ψ s - φ s‖).sum ∧
      (l.map fun s => Complex.normSq (ψ s)).sum ≤ (l.map fun s => Complex.normSq (φ s)).sum
        + 2 * r * (l.map fun s => ‖ψ s - φ s‖).sum + (l.map fun s => ‖ψ s - φ s‖).sum ^ 2 := by
    intro l hl
    induction l with
    | nil => simp
    | cons s l ih =>
      obtain ⟨i0, ih⟩ := ih fun s hs => hl s (by simp [hs])
      have h1 := hl s (by simp)
      have h2 : ‖ψ s‖ ≤ ‖φ s‖ + ‖ψ s - φ s‖ := by
        have := norm_add_le (φ s) (ψ s - φ s)
        rwa [add_sub_cancel] at this
      have h3 := norm_nonneg (ψ s - φ s)
      have h4 := norm_nonneg (φ s)
      have h5 := norm_nonneg (ψ s)
      simp only [List.map_cons, List.sum_cons, Complex.normSq_eq_norm_sq] at ih ⊢
      refine ⟨by positivity, ?_⟩
      generalize ‖ψ s - φ s‖ = e at *
      have h6 : ‖ψ s‖ ^ 2 ≤ (‖φ s‖ + e) ^ 2 := pow_le_pow_left₀ h5 h2 2
      nlinarith [mul_nonneg h3 i0, mul_le_mul_of_nonneg_right h1 h3]
  obtain ⟨_, hk⟩ := key L hone
  rw [← hm, ← hsq] at hk
  linarith [hk]

theorem abs_sqrt_sub_one_le {m : ℝ} (hm : 0 ≤ m) : |Real.sqrt m - 1| ≤ |m - 1| := by
  have h0 := Real.sqrt_nonneg m
  have e : m - 1 = (Real.sqrt m - 1) * (Real.sqrt m + 1) := by
    have := Real.sq_sqrt hm
    nlinarith
  rw [e, abs_mul]
  exact le_mul_of_one_le_right (abs_nonneg _) (by rw [abs_of_nonneg (by linarith)]; linarith)

/-- **C58.** With floating point arithmetic of relative precision `u` and any tolerance `τ`: the length of the vector
that `run` shows (the square root of the total probability) differs from one by at most the rounding errors of C55
and the tolerances of the custom gates. -/
theorem C58_rounded_total {u : ℝ} {B : Backend ℂ} (hB : B.Rounds u) (hN : N.Exact) (hN' : N'.Near N u)
    (hC : C.Within τ) {dims : List Nat} (hne : dims ≠ [])
    {init : List Int} (h : ValidStart (dims.map Int.ofNat) init)
    {ks : List (Call ℂ)} (hks : ∀ k ∈ ks, k.Valid dims) (hu : ∀ k ∈ ks, k.Unitary dims ∨ k.isCustom) :
    ∃ r, script N' B (.list (dims.map Int.ofNat)) init none (ks ++ [.measureAll]) = .ok r ∧
      |Real.sqrt (total r) - 1| ≤ ((1 + u) ^ roundings dims ks.length - 1) * (ks.map (Call.gain dims)).prod
        + ((ks.map fun k => 1 + k.slack τ).prod - 1) := by
  obtain ⟨ψ, hr, he⟩ := C55_error_bound hB hN hN' hne h (out := none) (by simp) hks
  refine ⟨_, hr, ?_⟩
  rw [total_mass (o := format dims none) rfl]
  have hm := mass_stateAfter hN hC h hks hu
  have h1 := sqrt_mass_le dims ψ (stateAfter N dims init ks)
  have h2 := sqrt_mass_le dims (stateAfter N dims init ks) ψ
  rw [map_congr_sum (g := fun s => ‖ψ s - stateAfter N dims init ks s‖) fun s _ => norm_sub_rev _ _] at h2
  have h3 := (abs_sqrt_sub_one_le (mass_nonneg dims (stateAfter N dims init ks))).trans hm
  rw [abs_le] at h3 ⊢
  constructor <;> linarith [h3.1, h3.2]

/-! ### How far the matrices can be from unitary -/

theorem spread_of_nearly {U : Mat ℂ} {δ : ℝ} (hδ : 0 ≤ δ) (hc : U.cols = U.rows) (hU : Nearly U.rows δ U.e) :
    U.spread ≤ max 1 (Real.sqrt (U.rows * (1 + δ))) := by
  refine Mat.spread_le (le_max_left _ _) fun j hj => (Real.le_sqrt_of_sq_le ?_).trans (le_max_right _ _)
  rw [hc] at hj
  have h1 := sq_sum_le_card_mul_sum_sq (s := Finset.range U.rows) (f := fun i => ‖U.e i j‖)
  rw [Finset.card_range] at h1
  have h2 := (abs_le.1 (hU fun k => if j = k then 1 else 0)).2
  have e1 : ((List.range U.rows).map fun k => Complex.normSq (if j = k then 1 else 0)).sum = 1 := by
    rw [map_congr_sum (g := fun k => if j = k then (1 : ℝ) else 0) fun k _ => by split <;> simp,
      sum_ite_eq _ List.nodup_range j (List.mem_range.2 hj) fun _ => (1 : ℝ)]
  have e2 : ((List.range U.rows).map fun i =>
      Complex.normSq ((List.range U.rows).map fun k => U.e i k * if j = k then 1 else 0).sum).sum
      = ∑ i ∈ Finset.range U.rows, ‖U.e i j‖ ^ 2 := by
    rw [list_range_sum, Finset.sum_range]
    refine Finset.sum_congr rfl fun i _ => ?_
    rw [map_congr_sum (g := fun k => if j = k then U.e i k else 0) fun k _ => by split <;> simp,
      sum_ite_eq _ List.nodup_range j (List.mem_range.2 hj) fun k => U.e i k, Complex.normSq_eq_norm_sq]
  rw [e1, e2, mul_one] at h2
  refine h1.trans (mul_le_mul_of_nonneg_left ?_ (Nat.cast_nonneg _))
  linarith

/-- **C58.** A custom gate that the check lets through multiplies the absolute values of the amplitudes by little more
than the square root of its size; this bounds the gains in the error bound of C55. -/
theorem C58_gain (hC : C.Within τ) {dims : List Nat} (h2 : ∀ d ∈ dims, 2 ≤ d) {U : Mat ℂ} {q : RegArg} {o : Option Nat}
    (hv : (Call.gate U q o).Valid dims) :
    (Call.gate U q o).gain dims ≤ Real.sqrt (U.rows * (1 + U.rows * τ)) := by
  have hU : U.isUnitary = true ∧ U.cols = U.rows ∧ 1 ≤ U.rows := by
    cases q with
    | int q =>
      obtain ⟨hq, _, hU, hr, hc⟩ := hv
      have := getD_ge_two h2 hq
      exact ⟨hU, hc.trans hr.symm, by omega⟩
    | list qs =>
      obtain ⟨_, _, _, _, hU, hr, hc⟩ := hv
      refine ⟨hU, hc.trans hr.symm, ?_⟩
      rw [hr]
      refine Nat.one_le_iff_ne_zero.2 fun h0 => ?_
      have := List.prod_eq_zero_iff.1 h0
      have := h2 0 (List.mem_of_mem_drop (List.mem_of_mem_take this))
      omega
  obtain ⟨hU, hc, h1⟩ := hU
  have hs : 0 ≤ U.rows * τ := slack_nonneg hC hv
  have := spread_of_nearly hs hc (nearly_of_gram rfl hc (hC U hU))
  refine this.trans (max_le ?_ le_rfl)
  apply Real.le_sqrt_of_sq_le
  have : (1 : ℝ) ≤ U.rows := by exact_mod_cast h1
  nlinarith

/-- The gain of an exactly unitary matrix is at most the square root of its size. -/
theorem Mat.Unitary.spread_le {U : Mat ℂ} (h : U.Unitary) (hc : U.cols = U.rows) :
    U.spread ≤ max 1 (Real.sqrt U.rows) := by
  have := spread_of_nearly (le_refl 0) hc (by
    simpa using nearly_of_gram (τ := 0) rfl hc fun i hi j hj => by rw [h i hi j hj, sub_self, norm_zero])
  simpa using this

/-! ### The tolerance adds up -/

/-- `c` times the identity matrix of size `d`. -/
def scalar (d : Nat) (c : ℂ) : Mat ℂ where
  rows := d
  cols := d
  e i j := if i = j then c else 0

theorem mass_scalar (N : Numerics ℂ) {d : Nat} {c : ℂ} (ψ : State ℂ) :
    mass [d] (meaning N [d] (.gate (scalar d c) (.int 0) none) ψ) = Complex.normSq c * mass [d] ψ := by
  unfold mass
  rw [← List.sum_map_mul_left]
  apply map_congr_sum
  intro s hs
  have hs := mem_states.1 hs
  obtain ⟨a, rfl⟩ : ∃ a, s = [a] := by
    have := hs.1
    match s, this with
    | [a], _ => exact ⟨a, rfl⟩
  have ha : a < d := by simpa using hs.2 0 (by simp)
  rw [← map_mul]
  congr 1
  simp only [meaning, onReg, scalar]
  change ((List.range d).map fun k => (if a = k then c else 0) * ψ [k]).sum = _
  rw [map_congr_sum (g := fun k => if a = k then c * ψ [k] else 0) fun k _ => by split <;> simp,
    sum_ite_eq _ List.nodup_range a (List.mem_range.2 ha) fun k => c * ψ [k]]

theorem mass_scalars (N : Numerics ℂ) {d : Nat} {c : ℂ} (m : Nat) (ψ : State ℂ) :
    mass [d] ((List.replicate m (Call.gate (scalar d c) (.int 0) none)).foldl (fun ψ k => meaning N [d] k ψ) ψ)
      = Complex.normSq c ^ m * mass [d] ψ := by
  induction m generalizing ψ with
  | zero => simp
  | succ m ih => rw [List.replicate_succ, List.foldl_cons, ih, mass_scalar]; ring

/-- **C58.** If the check accepts a multiple `c` of the identity, then applying it `m` times makes the total
probability `|c|²ᵐ`. -/
theorem C58_total_of_scalars (hN : N.Exact) {B : Backend ℂ} (hB : B.Lawful) {d : Nat} (hd : 2 ≤ d) {c : ℂ}
    (hc : (scalar d c).isUnitary = true) (m : Nat) :
    ∃ r, script N B (.list [(d : Int)]) [] none (List.replicate m (.gate (scalar d c) (.int 0) none) ++ [.measureAll])
      = .ok r ∧ total r = Complex.normSq c ^ m := by
  have h : ValidStart ([d].map Int.ofNat) [] := by
    refine ⟨?_, by simp, ?_⟩
    · simpa using hd
    · simp
  have hv : ∀ k ∈ List.replicate m (Call.gate (scalar d c) (.int 0) none), k.Valid [d] := by
    intro k hk
    rw [List.eq_of_mem_replicate hk]
    exact ⟨by simp [InRange], by simp [DimOK], hc, rfl, rfl⟩
  refine ⟨_, script_valid hN.sized hB (dims := [d]) (by simp) h (out := none) (by simp) hv [], ?_⟩
  rw [total_mass (o := format [d] none) rfl, stateAfter, mass_scalars]
  have := mass_weigh [d] (basis (startLevels [d] []))
  rw [weigh_basis (startLevels_fits h)] at this
  rw [show mass [d] (basis (startLevels [d] [])) = 1 by exact_mod_cast this, mul_one]

end

theorem scalar_gram (d : Nat) (c : ℂ) {i j : Nat} (hi : i < d) :
    (scalar d c).gram i j = if i = j then c * star c else 0 := by
  unfold Mat.gram
  rw [map_congr_sum (g := fun k => if i = k then (if i = j then c * star c else 0) else 0) fun k _ => by
      simp only [scalar]
      by_cases h : i = k
      · subst h
        by_cases h' : i = j
        · simp [h']
        · simp [h', Ne.symm h']
      · simp [h]]
  exact sum_ite_eq _ List.nodup_range i (List.mem_range.2 hi) fun _ => if i = j then c * star c else 0

/-! ### numpy's tolerances -/

section
attribute [local instance 2000] numpyCheck
variable {N N' : Numerics ℂ}

/-- **C58.** The bound for numpy's tolerances. -/
theorem C58_numpy_total (hN : N.Exact) {B : Backend ℂ} (hB : B.Lawful)
    {dims : List Nat} (hne : dims ≠ []) {init : List Int} (h : ValidStart (dims.map Int.ofNat) init)
    {ks : List (Call ℂ)} (hks : ∀ k ∈ ks, k.Valid dims) (hu : ∀ k ∈ ks, k.Unitary dims ∨ k.isCustom) :
    ∃ r, script N B (.list (dims.map Int.ofNat)) init none (ks ++ [.measureAll]) = .ok r ∧
      |total r - 1| ≤ (ks.map fun k => 1 + k.slack (1002 / 100000000)).prod - 1 :=
  C58_total_within hN numpyCheck_within hB hne h hks hu

/-- Unitary matrices pass the check. -/
theorem unitary_accepted {U : Mat ℂ} (h : U.Unitary) : U.isUnitary = true := by
  refine @decide_eq_true _ (Classical.propDecidable _) ?_
  intro i hi j hj
  rw [h i hi j hj, sub_self, norm_zero]
  positivity

/-- **C58.** With numpy's tolerances, a custom gate on one register with a unitary matrix of the register's size acts
as its matrix (as in C38). -/
theorem C58_numpy_unitary_acts (hN : N.Exact) {B : Backend ℂ} (hB : B.Lawful)
    {dims : List Nat} {init : List Int} (h : ValidStart (dims.map Int.ofNat) init)
    {out : Option Output} (ho : ∀ o ∈ out, o.base = dims)
    {pre : List (Call ℂ)} (hpre : ∀ k ∈ pre, k.Valid dims) {q : Nat} (hq : q < dims.length)
    {U : Mat ℂ} (hU : U.Unitary) (hr : U.rows = dims[q]) (hc : U.cols = dims[q]) :
    ∃ ψ ψ' : State ℂ,
      script N B (.list (dims.map Int.ofNat)) init out (pre ++ [.measureAll])
        = .ok (listing (format dims out) dims ψ) ∧
      script N B (.list (dims.map Int.ofNat)) init out (pre ++ [.gate U (.int q) none, .measureAll])
        = .ok (listing (format dims out) dims ψ') ∧
      ∀ s, ψ' s = ((List.range dims[q]).map fun j => U.e (s.getD q 0) j * ψ (s.set q j)).sum :=
  C38_custom_gate_acts hN.sized hB h ho hpre hq (unitary_accepted hU) hr hc

theorem scalar_accepted (d : Nat) : (scalar d (1 + 1 / 1000000)).isUnitary = true := by
  refine @decide_eq_true _ (Classical.propDecidable _) ?_
  intro i hi j _
  rw [scalar_gram d _ hi]
  by_cases h : i = j
  · rw [if_pos h, if_pos h, show (1 + 1 / 1000000 : ℂ) = ((1000001 / 1000000 : ℝ) : ℂ) by push_cast; norm_num,
      Complex.star_def, Complex.conj_ofReal, ← Complex.ofReal_mul, ← Complex.ofReal_one, ← Complex.ofReal_sub,
      Complex.norm_real, Complex.norm_real]
    norm_num [abs_of_nonneg, abs_of_neg]
  · rw [if_neg h, if_neg h]
    norm_num

/-- **C58.** The check with numpy's tolerances does not keep the total probability near one: it accepts a
matrix that is not unitary, and repeating that gate makes the total exceed any bound. -/
theorem C58_numpy_drifts (hN : N.Exact) {B : Backend ℂ} (hB : B.Lawful) {d : Nat} (hd : 2 ≤ d) :
    (scalar d (1 + 1 / 1000000)).isUnitary = true ∧ ¬ (scalar d (1 + 1 / 1000000)).Unitary ∧
    ∀ b : ℝ, ∃ m r, script N B (.list [(d : Int)]) [] none
        (List.replicate m (.gate (scalar d (1 + 1 / 1000000)) (.int 0) none) ++ [.measureAll]) = .ok r ∧
      b < total r := by
  have hsq : Complex.normSq (1 + 1 / 1000000) = 1000002000001 / 1000000000000 := by
    rw [show (1 + 1 / 1000000 : ℂ) = ((1000001 / 1000000 : ℝ) : ℂ) by push_cast; norm_num, Complex.normSq_ofReal]
    norm_num
  refine ⟨scalar_accepted d, fun h => ?_, fun b => ?_⟩
  · have := h 0 (by simp [scalar]; omega) 0 (by simp [scalar]; omega)
    rw [scalar_gram d _ (by omega), if_pos rfl, if_pos rfl, Complex.star_def, Complex.mul_conj, hsq] at this
    norm_cast at this
    norm_num at this
  · obtain ⟨m, hm⟩ := pow_unbounded_of_one_lt b (show (1 : ℝ) < Complex.normSq (1 + 1 / 1000000) by
      rw [hsq]; norm_num)
    obtain ⟨r, hr, ht⟩ := C58_total_of_scalars hN hB hd (scalar_accepted d) m
    exact ⟨m, r, hr, by rw [ht]; exact hm⟩

/-- The hypotheses of `C58_numpy_total` are met by a circuit with custom gates that are not unitary. -/
example (hN : N.Exact) :=
  C58_numpy_total hN numpy_lawful (dims := [2, 3, 4]) (by decide) (init := [1, 0, 3]) (validStart_of rfl)
    (ks := [.h 0 none, .gate (scalar 3 (1 + 1 / 1000000)) (.int 1) none, .cx 0 2 3,
      .gate (scalar 24 (1 + 1 / 1000000)) (.list [0, 1, 2]) none])
    (by
      have := scalar_accepted 3
      have := scalar_accepted 24
      simp_all [Call.Valid, InRange, DimOK, spanOf]
      simp [scalar])
    (by simp [Call.Unitary, Call.isCustom])

/-- The hypotheses of `C58_rounded_total` are met by double precision arithmetic with numpy's tolerances. -/
example :=
  C58_rounded_total doubleBackend_rounds standardN_exact doubleN_near numpyCheck_within (dims := [2, 3, 4])
    (by simp) (init := [1]) (validStart_of rfl)
    (ks := [.h 0 none, .gate (scalar 3 (1 + 1 / 1000000)) (.int 1) none, .toffoli [0, 1] 2 3])
    (by
      have := scalar_accepted 3
      simp_all [Call.Valid, InRange, DimOK, spanOf]
      simp [scalar])
    (by simp [Call.Unitary, Call.isCustom])

/-- The hypotheses of `C58_gain` are met by a gate that is not unitary. -/
example :=
  C58_gain numpyCheck_within (dims := [2, 3]) (by simp) (U := scalar 3 (1 + 1 / 1000000)) (q := .int 1) (o := none)
    ⟨by simp [InRange], by simp [DimOK], scalar_accepted 3, rfl, rfl⟩

/-- The hypotheses of `C58_far_never_runs` are met: twice the identity. -/
example (hN : N.Exact) :=
  C58_far_never_runs hN numpyCheck_within numpy_lawful (dims := [2, 3]) (init := []) (validStart_of rfl) none
    (pre := [.h 0 none]) (by simp) [.measureAll] (q := 1) (by simp) (U := scalar 3 2) (i := 0) (j := 0)
    (by simp [scalar]) (by simp [scalar])
    (by
      have := scalar_gram 3 2 (i := 0) (j := 0) (by simp)
      unfold Mat.gram at this
      rw [this]
      norm_num)

end

end QuDiet
