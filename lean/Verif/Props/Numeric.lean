import Verif.Exact
import Verif.Props.Gates

/-! # C07–C10, C13, C43: amplitudes and probabilities -/

namespace QuDiet
open Spec

/-- Sum of the squared moduli of the values that `run()` returned. -/
noncomputable def total (r : List (Key × ℂ)) : ℝ := (r.map fun e => Complex.normSq e.2).sum

/-- Sum of the squared moduli of those values whose key is a tuple of levels in `E`. -/
noncomputable def chance (E : List Nat → Prop) [DecidablePred E] (r : List (Key × ℂ)) : ℝ :=
  (r.map fun e => match e.1 with
    | .tup s => if E s then Complex.normSq e.2 else 0
    | .str _ => 0).sum

variable [UnitaryCheck ℂ]

theorem ofReal_list_sum (l : List ℝ) : ((l.sum : ℝ) : ℂ) = (l.map fun x : ℝ => (x : ℂ)).sum := by
  induction l with
  | nil => simp
  | cons a l ih => simp [ih]

theorem normSq_ofReal (z : ℂ) : ((Complex.normSq z : ℝ) : ℂ) = z * star z := by
  rw [Complex.star_def, Complex.mul_conj]

theorem total_listing {o : Output} (ho : o.method = .amplitude) (dims : List Nat) (ψ : State ℂ) :
    ((total (listing o dims ψ) : ℝ) : ℂ) = weigh (fun _ => 1) dims ψ := by
  unfold total listing outcome weigh
  rw [ofReal_list_sum, List.map_map, List.map_map, List.map_map, ← sum_ite_zero]
  apply map_congr_sum
  intro s _
  by_cases h : ψ s = 0
  · simp [h]
  · simp only [ne_eq, h, not_false_eq_true, decide_true, if_true, Function.comp, Output.val, ho, one_mul]
    exact normSq_ofReal _

theorem chance_listing {o : Output} (ho : o.method = .amplitude) (ht : o.type = .state) (dims : List Nat)
    (ψ : State ℂ) (E : List Nat → Prop) [DecidablePred E] :
    ((chance E (listing o dims ψ) : ℝ) : ℂ) = weigh (fun s => if E s then 1 else 0) dims ψ := by
  unfold chance listing outcome weigh
  rw [ofReal_list_sum, List.map_map, List.map_map, List.map_map, ← sum_ite_zero]
  apply map_congr_sum
  intro s _
  by_cases h : ψ s = 0
  · simp [h]
  · simp only [ne_eq, h, not_false_eq_true, decide_true, if_true, Function.comp, Output.val, ho, Output.key, ht]
    by_cases hE : E s
    · simp only [hE, if_true, one_mul]
      exact normSq_ofReal _
    · simp [hE]

/-! ### C07 -/

theorem onReg_basis {R : Type} [CommRing R] {dims s t : List Nat} (hs : Fits dims s) (ht : Fits dims t)
    {q : Nat} (hq : q < dims.length) (G : Nat → Nat → R) :
    onReg (dims.getD q 0) q G (basis s) t
      = if t.set q (s.getD q 0) = s then G (t.getD q 0) (s.getD q 0) else 0 := by
  unfold onReg basis
  have hl : q < t.length := by rw [ht.1]; exact hq
  have hlt := fits_getD_lt hs q hq
  have : ((List.range (dims.getD q 0)).map fun k => G (t.getD q 0) k * if t.set q k = s then 1 else 0)
      = (List.range (dims.getD q 0)).map fun k => if s.getD q 0 = k then
          (if t.set q (s.getD q 0) = s then G (t.getD q 0) (s.getD q 0) else 0) else 0 := by
    apply List.map_congr_left
    intro k _
    by_cases h : s.getD q 0 = k
    · rw [if_pos h, h]
      split <;> simp
    · rw [if_neg h, if_neg, mul_zero]
      intro e
      exact h (by rw [← e, getD_set_self hl])
  rw [this, sum_ite_eq _ List.nodup_range _ (List.mem_range.2 hlt)
    (fun _ => if t.set q (s.getD q 0) = s then G (t.getD q 0) (s.getD q 0) else 0)]

theorem filter_set_states {dims s : List Nat} (hs : Fits dims s) {q : Nat} (hq : q < dims.length) :
    (states dims).filter (fun t => decide (t.set q (s.getD q 0) = s))
      = (List.range (dims.getD q 0)).map fun k => s.set q k := by
  induction dims generalizing s q with
  | nil => simp at hq
  | cons d ds ih =>
    obtain ⟨k0, s', rfl, hk0, hs'⟩ := fits_cons.1 hs
    rw [states, List.filter_flatMap]
    cases q with
    | zero =>
      simp only [List.getD_cons_zero, List.set_cons_zero]
      rw [List.map_eq_flatMap]
      apply List.flatMap_congr
      intro k _
      rw [List.filter_map]
      have : (states ds).filter ((fun t => decide (t.set 0 k0 = k0 :: s')) ∘ (k :: ·))
          = (states ds).filter fun t => t == s' := by
        apply List.filter_congr
        intro t _
        simp [beq_eq_decide]
      rw [this, List.filter_beq, List.count_eq_one_of_mem (nodup_states ds) (mem_states.2 hs')]
      rfl
    | succ q =>
      have hq' : q < ds.length := by simpa using hq
      have e1 : ∀ k ∈ List.range d, ((states ds).map (k :: ·)).filter
            (fun t => decide (t.set (q + 1) ((k0 :: s').getD (q + 1) 0) = k0 :: s'))
          = if k = k0 then (List.range (ds.getD q 0)).map (fun j => k0 :: s'.set q j) else [] := by
        intro k _
        rw [List.filter_map]
        by_cases hk : k = k0
        · subst hk
          rw [if_pos rfl]
          have : (states ds).filter
              ((fun t => decide (t.set (q + 1) ((k :: s').getD (q + 1) 0) = k :: s')) ∘ (k :: ·))
              = (states ds).filter fun t => decide (t.set q (s'.getD q 0) = s') := by
            apply List.filter_congr
            intro t _
            simp
          rw [this, ih hs' hq', List.map_map]
          rfl
        · rw [if_neg hk, List.map_eq_nil_iff, List.filter_eq_nil_iff]
          intro t _
          simp [hk]
      rw [List.flatMap_congr e1]
      simp only [List.set_cons_succ, List.getD_cons_succ]
      have e2 : ∀ (L : List (List Nat)) (n : Nat), k0 < n →
          (List.range n).flatMap (fun k => if k = k0 then L else []) = L := by
        intro L n hn
        induction n with
        | zero => omega
        | succ n ihn =>
          rw [List.range_succ, List.flatMap_append]
          by_cases h : k0 = n
          · subst h
            have : (List.range k0).flatMap (fun k => if k = k0 then L else []) = [] := by
              rw [List.flatMap_eq_nil_iff]
              intro k hk
              rw [if_neg (by have := List.mem_range.1 hk; omega)]
            rw [this]; simp
          · rw [ihn (by omega)]
            simp [Ne.symm h]
      exact e2 _ _ hk0

/-- A gate on register `q` of a basis state, with no zero in the column used. -/
theorem outcome_onReg_basis {R : Type} [CommRing R] [DecidableEq R] {dims s : List Nat} (hs : Fits dims s)
    {q : Nat} (hq : q < dims.length) {G : Nat → Nat → R}
    (hG : ∀ k < dims.getD q 0, G k (s.getD q 0) ≠ 0) :
    outcome dims (onReg (dims.getD q 0) q G (basis s))
      = (List.range (dims.getD q 0)).map fun k => (s.set q k, G k (s.getD q 0)) := by
  have hl : q < s.length := by rw [hs.1]; exact hq
  unfold outcome
  have e1 : (states dims).filter (fun t => decide (onReg (dims.getD q 0) q G (basis s) t ≠ 0))
      = (states dims).filter (fun t => decide (t.set q (s.getD q 0) = s)) := by
    apply List.filter_congr
    intro t ht
    have ht := mem_states.1 ht
    rw [onReg_basis hs ht hq]
    by_cases h : t.set q (s.getD q 0) = s
    · rw [if_pos h, decide_eq_true (hG _ (fits_getD_lt ht q hq)), decide_eq_true h]
    · rw [if_neg h, decide_eq_false h]
      simp
  rw [e1, filter_set_states hs hq, List.map_map]
  apply List.map_congr_left
  intro k hk
  have hk := List.mem_range.1 hk
  simp only [Function.comp]
  rw [onReg_basis hs (fits_set hs q k hk) hq, List.set_set, set_getD_self hl, if_pos rfl, getD_set_self hl]

theorem hadamard_normSq {N : Numerics ℂ} (h : N.Exact) {d : Nat} (hd : 2 ≤ d) (i j : Nat) :
    Complex.normSq (hadamard (N.roots d) (N.invSqrt d) d i j) = 1 / d := by
  have := hadamard_entry h (i := i) (j := j) hd
  rw [← normSq_ofReal] at this
  have h2 : (1 / (d : ℂ)) = ((1 / d : ℝ) : ℂ) := by push_cast; rfl
  rw [h2] at this
  exact_mod_cast this

/-- **C07.** After any classical circuit, `h(q)` spreads the single outcome `s` over all levels of
register `q`: each has squared modulus `1/d` (so they sum to one), and if register `q` was at level 0
each amplitude is `1/√d`. -/
theorem C07_h_spreads {N : Numerics ℂ} (hN : N.Exact) {B : Backend ℂ} (hB : B.Lawful)
    {dims : List Nat} (hne : dims ≠ []) {init : List Int} (h : ValidStart (dims.map Int.ofNat) init)
    {pre : List (Call ℂ)} (hpre : ∀ k ∈ pre, k.Valid dims) (hc : ∀ k ∈ pre, k.Classical)
    {q : Nat} (hq : q < dims.length) {s : List Nat}
    (hs : pre.foldl (fun s k => classicalStep dims k s) (startLevels dims init) = s) :
    ∃ amp : Nat → ℂ,
      script N B (.list (dims.map Int.ofNat)) init none (pre ++ [.h q none, .measureAll])
        = .ok ((List.range (dims.getD q 0)).map fun k => (.str (label (s.set q k)), amp k)) ∧
      (∀ k < dims.getD q 0, Complex.normSq (amp k) = 1 / (dims.getD q 0 : ℝ)) ∧
      total ((List.range (dims.getD q 0)).map fun k => (.str (label (s.set q k)), amp k)) = 1 ∧
      (s.getD q 0 = 0 → ∀ k < dims.getD q 0, amp k = ((1 / Real.sqrt (dims.getD q 0) : ℝ) : ℂ)) := by
  have h2 : 2 ≤ dims.getD q 0 := ge_two_of_valid h _ (by
    rw [List.getD_eq_getElem?_getD, List.getElem?_eq_getElem hq]; exact List.getElem_mem hq)
  obtain ⟨h3, h4⟩ := classical_fold (N := N) pre hpre hc (startLevels_fits h)
  rw [hs] at h3 h4
  have hv : (Call.h (R := ℂ) q none).Valid dims := ⟨⟨by omega, by omega⟩, .inl rfl⟩
  have h5 := (one_more hN.sized hB hne h (out := none) (by simp) hpre hv).2
  have hns : ∀ k, Complex.normSq (hadamard (N.roots (dims.getD q 0)) (N.invSqrt (dims.getD q 0)) (dims.getD q 0) k
      (s.getD q 0)) = 1 / (dims.getD q 0 : ℝ) := fun k => hadamard_normSq hN h2 k _
  have hpos : (0 : ℝ) < dims.getD q 0 := by exact_mod_cast (by omega : 0 < dims.getD q 0)
  refine ⟨fun k => hadamard (N.roots (dims.getD q 0)) (N.invSqrt (dims.getD q 0)) (dims.getD q 0) k
    (s.getD q 0), ?_, fun k _ => hns k, ?_, ?_⟩
  · rw [h5, stateAfter, h4]
    simp only [meaning, listing, Int.toNat_natCast]
    rw [outcome_onReg_basis h3 hq, List.map_map]
    · rfl
    · intro k _ h0
      have := hns k
      rw [h0, map_zero] at this
      exact absurd this.symm (by positivity)
  · unfold total
    rw [List.map_map]
    simp only [Function.comp_def, hns]
    rw [List.map_const', List.sum_replicate, List.length_range, nsmul_eq_mul]
    field_simp
  · intro h0 k _
    simp only [hadamard, h0, or_true, if_true, mul_one]
    exact hN.invSqrt _ (by omega)

/-- `C07_h_spreads` on a qutrit at level 1 beside a ququart (`x` on it first). -/
example (N : Numerics ℂ) (hN : N.Exact) :=
  C07_h_spreads hN numpy_lawful (dims := [3, 4]) (by decide) (init := [0, 2]) (validStart_of rfl)
    (pre := [.x 0 none 1]) (by simp [Call.Valid, InRange, DimOK]) (by simp [Call.Classical]) (q := 0) (by decide) rfl

theorem onReg_congr {R : Type} [CommRing R] {dims : List Nat} {q : Nat} (hq : q < dims.length)
    {G H : Nat → Nat → R} (h : ∀ i < dims.getD q 0, ∀ j < dims.getD q 0, G i j = H i j) (ψ : State R) :
    EqOn dims (onReg (dims.getD q 0) q G ψ) (onReg (dims.getD q 0) q H ψ) := by
  intro s hs
  unfold onReg
  apply map_congr_sum
  intro k hk
  rw [h _ (fits_getD_lt hs q hq) k (List.mem_range.1 hk)]

theorem onReg_eqOn {R : Type} [CommRing R] {dims : List Nat} {q : Nat} (hq : q < dims.length)
    (G : Nat → Nat → R) {ψ φ : State R} (h : EqOn dims ψ φ) :
    EqOn dims (onReg (dims.getD q 0) q G ψ) (onReg (dims.getD q 0) q G φ) :=
  (local_onReg hq G).congr h

theorem onReg_onReg {R : Type} [CommRing R] {dims : List Nat} {q : Nat} (hq : q < dims.length)
    (G H : Nat → Nat → R) (ψ : State R) :
    EqOn dims (onReg (dims.getD q 0) q G (onReg (dims.getD q 0) q H ψ))
      (onReg (dims.getD q 0) q (fun i j => ((List.range (dims.getD q 0)).map fun k => G i k * H k j).sum) ψ) := by
  intro s hs
  have hl : q < s.length := by rw [hs.1]; exact hq
  unfold onReg
  simp only [← List.sum_map_mul_left, ← List.sum_map_mul_right, List.set_set, getD_set_self hl]
  rw [sum_comm]
  simp only [mul_assoc]

theorem onReg_one {R : Type} [CommRing R] {dims : List Nat} {q : Nat} (hq : q < dims.length)
    {G : Nat → Nat → R} (h : ∀ i < dims.getD q 0, ∀ j < dims.getD q 0, G i j = if i = j then 1 else 0)
    (ψ : State R) : EqOn dims (onReg (dims.getD q 0) q G ψ) ψ := by
  intro s hs
  have hl : q < s.length := by rw [hs.1]; exact hq
  unfold onReg
  have := fits_getD_lt hs q hq
  rw [map_congr_sum (g := fun k => if s.getD q 0 = k then ψ (s.set q k) else 0) (by
    intro k hk
    rw [h _ this k (List.mem_range.1 hk)]
    split <;> simp), sum_ite_eq _ List.nodup_range _ (List.mem_range.2 this) (fun k => ψ (s.set q k)),
    set_getD_self hl]

/-- **C07.** On qubits and qutrits `h` is the Fourier matrix of some primitive `d`-th root of unity `ω`
(`-1`, or one of the two primitive cube roots). -/
theorem C07_h_is_fourier {N : Numerics ℂ} (hN : N.Exact) {d : Nat} (hd : d = 2 ∨ d = 3) :
    ∃ ω : ℂ, ω ^ d = 1 ∧ ω ≠ 1 ∧ ∀ {B : Backend ℂ}, B.Lawful → ∀ {dims : List Nat}, dims ≠ [] →
      ∀ {init : List Int}, ValidStart (dims.map Int.ofNat) init →
      ∀ {pre : List (Call ℂ)}, (∀ k ∈ pre, k.Valid dims) → ∀ {q : Nat}, q < dims.length → dims.getD q 0 = d →
      script N B (.list (dims.map Int.ofNat)) init none (pre ++ [.h q none, .measureAll])
        = .ok (shown dims fun s => ((List.range d).map fun k =>
            ((1 / Real.sqrt d : ℝ) : ℂ) * ω ^ (s.getD q 0 * k) *
              stateAfter N dims init pre (s.set q k)).sum) := by
  have key : ∀ ω : ℂ, (∀ i < d, ∀ j < d, hadamard (N.roots d) (N.invSqrt d) d i j = N.invSqrt d * ω ^ (i * j)) →
      ∀ {B : Backend ℂ}, B.Lawful → ∀ {dims : List Nat}, dims ≠ [] →
      ∀ {init : List Int}, ValidStart (dims.map Int.ofNat) init →
      ∀ {pre : List (Call ℂ)}, (∀ k ∈ pre, k.Valid dims) → ∀ {q : Nat}, q < dims.length → dims.getD q 0 = d →
      script N B (.list (dims.map Int.ofNat)) init none (pre ++ [.h q none, .measureAll])
        = .ok (shown dims fun s => ((List.range d).map fun k =>
            ((1 / Real.sqrt d : ℝ) : ℂ) * ω ^ (s.getD q 0 * k) *
              stateAfter N dims init pre (s.set q k)).sum) := by
    intro ω hω B hB dims hne init h pre hpre q hq hdq
    have hv : (Call.h (R := ℂ) q none).Valid dims := ⟨⟨by omega, by omega⟩, .inl rfl⟩
    rw [(one_more hN.sized hB hne h (out := none) (by simp) hpre hv).2]
    refine shown_congr (ψ := meaning N dims (.h q none) _) ?_
    simp only [meaning, Int.toNat_natCast, hdq]
    have := onReg_congr hq (G := hadamard (N.roots d) (N.invSqrt d) d)
      (H := fun i j => ((1 / Real.sqrt d : ℝ) : ℂ) * ω ^ (i * j)) (by
        rw [hdq]
        intro i hi j hj
        rw [hω i hi j hj, hN.invSqrt d (by omega)]) (stateAfter N dims init pre)
    rw [hdq] at this
    exact this
  rcases hd with rfl | rfl
  · exact ⟨-1, by norm_num, by norm_num, key (-1) fun i hi j hj => hadamard_two hN hi hj⟩
  · exact ⟨_, hN.root (by omega), hN.root_ne_one (by omega), key _ fun i hi j hj => hadamard_three hN hi hj⟩

/-- The Hadamard matrices of qubits and qutrits are symmetric, so with orthonormal columns they are
unitary: applying `h` twice is the level reversal `k ↦ -k`. -/
theorem hadamard_sq {N : Numerics ℂ} (hN : N.Exact) {d : Nat} (hd : d = 2 ∨ d = 3) {i j : Nat} (hi : i < d)
    (hj : j < d) : ((List.range d).map fun k => hadamard (N.roots d) (N.invSqrt d) d i k *
      hadamard (N.roots d) (N.invSqrt d) d k j).sum = if (i + j) % d = 0 then 1 else 0 := by
  have hs : N.invSqrt d * N.invSqrt d = 1 / (d : ℂ) := by
    have := hN.invSqrt_sq (d := d) (by omega)
    rwa [hN.invSqrt d (by omega), Complex.star_def, Complex.conj_ofReal, ← hN.invSqrt d (by omega)] at this
  rcases hd with rfl | rfl
  · have : ((List.range 2).map fun k => hadamard (N.roots 2) (N.invSqrt 2) 2 i k *
      hadamard (N.roots 2) (N.invSqrt 2) 2 k j).sum = ((List.range 2).map fun k => (1 / 2 : ℂ) * ((-1) ^ (i * k) * (-1) ^ (k * j))).sum := by
      apply map_congr_sum
      intro k hk
      have hk := List.mem_range.1 hk
      rw [hadamard_two hN hi hk, hadamard_two hN hk hj, mul_mul_mul_comm, hs]
      norm_num
    rw [this]
    have hi' : i = 0 ∨ i = 1 := by omega
    have hj' : j = 0 ∨ j = 1 := by omega
    rcases hi' with rfl | rfl <;> rcases hj' with rfl | rfl <;>
      simp only [range_two, List.map_cons, List.map_nil, List.sum_cons, List.sum_nil] <;> norm_num
  · obtain ⟨_, hq⟩ := hN.root_three
    have h1 := hN.root (d := 3) (i := 0) (by omega)
    have : ((List.range 3).map fun k => hadamard (N.roots 3) (N.invSqrt 3) 3 i k *
      hadamard (N.roots 3) (N.invSqrt 3) 3 k j).sum = ((List.range 3).map fun k => (1 / 3 : ℂ) *
        ((N.roots 3).getD 0 0 ^ (i * k) * (N.roots 3).getD 0 0 ^ (k * j))).sum := by
      apply map_congr_sum
      intro k hk
      have hk := List.mem_range.1 hk
      rw [hadamard_three hN hi hk, hadamard_three hN hk hj, mul_mul_mul_comm, hs]
      norm_num
    rw [this]
    generalize (N.roots 3).getD 0 0 = w at *
    have wm : ∀ n, w ^ (n + 3) = w ^ n := by intro n; rw [pow_add, h1, mul_one]
    have hsum : ((List.range 3).map fun k => 1 / (3 : ℂ) * (w ^ (i * k) * w ^ (k * j))).sum
        = 1 / (3 : ℂ) * (1 + w ^ (i + j) + w ^ (2 * (i + j))) := by
      simp only [range_three, List.map_cons, List.map_nil, List.sum_cons, List.sum_nil, ← pow_add]
      ring_nf
    rw [hsum]
    have w3 := wm 0
    have w4 := wm 1
    have w6 := wm 3
    have w8 := wm 5
    have w5 := wm 2
    norm_num at w3 w4 w5 w6 w8
    have hi' : i = 0 ∨ i = 1 ∨ i = 2 := by omega
    have hj' : j = 0 ∨ j = 1 ∨ j = 2 := by omega
    rcases hi' with rfl | rfl | rfl <;> rcases hj' with rfl | rfl | rfl <;>
      norm_num [w8, w6, w5, w4, w3] <;> linear_combination hq

/-- Calls whose effects cancel can be left out. -/
theorem drop_calls {N : Numerics ℂ} (hN : N.Exact) {B : Backend ℂ} (hB : B.Lawful)
    {dims : List Nat} (hne : dims ≠ []) {init : List Int} {out : Option Output} (h : ValidStart (dims.map Int.ofNat) init)
    {pre mid post : List (Call ℂ)} (hpre : ∀ k ∈ pre, k.Valid dims) (hmid : ∀ k ∈ mid, k.Valid dims)
    (hpost : ∀ k ∈ post, k.Valid dims)
    (hid : ∀ ψ, EqOn dims (mid.foldl (fun ψ k => meaning N dims k ψ) ψ) ψ) :
    script N B (.list (dims.map Int.ofNat)) init out (pre ++ mid ++ post ++ [.measureAll]) =
      script N B (.list (dims.map Int.ofNat)) init out (pre ++ post ++ [.measureAll]) := by
  refine script_congr hN.sized hB hne h h out (ks := pre ++ mid ++ post) (ks' := pre ++ post) ?_ ?_ ?_ [] []
  · intro k hk
    rcases List.mem_append.1 hk with hk | hk
    · rcases List.mem_append.1 hk with hk | hk
      exacts [hpre k hk, hmid k hk]
    · exact hpost k hk
  · intro k hk
    rcases List.mem_append.1 hk with hk | hk
    exacts [hpre k hk, hpost k hk]
  · unfold stateAfter
    rw [List.foldl_append, List.foldl_append, List.foldl_append]
    exact fold_eqOn post hpost (hid _)

/-- **C07.** On a qubit, `h` undoes itself. -/
theorem C07_h_twice_qubit {N : Numerics ℂ} (hN : N.Exact) {B : Backend ℂ} (hB : B.Lawful)
    {dims : List Nat} (hne : dims ≠ []) {init : List Int} {out : Option Output} (h : ValidStart (dims.map Int.ofNat) init)
    {pre post : List (Call ℂ)} (hpre : ∀ k ∈ pre, k.Valid dims) (hpost : ∀ k ∈ post, k.Valid dims)
    {q : Nat} (hq : q < dims.length) (hd : dims.getD q 0 = 2) :
    script N B (.list (dims.map Int.ofNat)) init out (pre ++ [.h q none, .h q none] ++ post ++ [.measureAll]) =
      script N B (.list (dims.map Int.ofNat)) init out (pre ++ post ++ [.measureAll]) := by
  have hv : (Call.h (R := ℂ) q none).Valid dims := ⟨⟨by omega, by omega⟩, .inl rfl⟩
  apply drop_calls hN hB hne h hpre (by simp [hv]) hpost
  intro ψ
  simp only [List.foldl_cons, List.foldl_nil, meaning, Int.toNat_natCast]
  refine (onReg_onReg hq _ _ _).trans' (onReg_one hq ?_ _)
  rw [hd]
  intro i hi j hj
  rw [hadamard_sq hN (.inl rfl) hi hj]
  have hi' : i = 0 ∨ i = 1 := by omega
  have hj' : j = 0 ∨ j = 1 := by omega
  rcases hi' with rfl | rfl <;> rcases hj' with rfl | rfl <;> simp

/-- **C07.** On a qutrit, four `h` in a row do nothing. -/
theorem C07_h_four_times_qutrit {N : Numerics ℂ} (hN : N.Exact) {B : Backend ℂ} (hB : B.Lawful)
    {dims : List Nat} (hne : dims ≠ []) {init : List Int} {out : Option Output} (h : ValidStart (dims.map Int.ofNat) init)
    {pre post : List (Call ℂ)} (hpre : ∀ k ∈ pre, k.Valid dims) (hpost : ∀ k ∈ post, k.Valid dims)
    {q : Nat} (hq : q < dims.length) (hd : dims.getD q 0 = 3) :
    script N B (.list (dims.map Int.ofNat)) init out
        (pre ++ [.h q none, .h q none, .h q none, .h q none] ++ post ++ [.measureAll]) =
      script N B (.list (dims.map Int.ofNat)) init out (pre ++ post ++ [.measureAll]) := by
  have hv : (Call.h (R := ℂ) q none).Valid dims := ⟨⟨by omega, by omega⟩, .inl rfl⟩
  apply drop_calls hN hB hne h hpre (by simp [hv]) hpost
  intro ψ
  simp only [List.foldl_cons, List.foldl_nil, meaning, Int.toNat_natCast]
  refine (onReg_onReg hq _ _ _).trans' (((onReg_eqOn hq _ (onReg_onReg hq _ _ _)).trans'
    (onReg_onReg hq _ _ _)).trans' (onReg_one hq ?_ _))
  rw [hd]
  intro i hi j hj
  rw [map_congr_sum (g := fun k => (if (i + k) % 3 = 0 then (1 : ℂ) else 0) * if (k + j) % 3 = 0 then 1 else 0) (by
    intro k hk
    have hk := List.mem_range.1 hk
    rw [hadamard_sq hN (.inr rfl) hi hk, hadamard_sq hN (.inr rfl) hk hj])]
  have hi' : i = 0 ∨ i = 1 ∨ i = 2 := by omega
  have hj' : j = 0 ∨ j = 1 ∨ j = 2 := by omega
  rcases hi' with rfl | rfl | rfl <;> rcases hj' with rfl | rfl | rfl <;> simp [range_three]

/-- The hypotheses of the `C07` inverses hold for registers `[2, 3, 5]`. -/
example {N : Numerics ℂ} (hN : N.Exact) :=
  C07_h_twice_qubit (out := none) hN numpy_lawful (dims := [2, 3, 5]) (by decide) (init := []) (validStart_of rfl)
    (pre := [.h 1 none]) (post := [.cx 0 2 3]) (by simp [Call.Valid, InRange, DimOK])
    (by simp [Call.Valid, InRange]) (q := 0) (by decide) rfl

example {N : Numerics ℂ} (hN : N.Exact) :=
  C07_h_four_times_qutrit (out := none) hN sparse_lawful (dims := [2, 3, 5]) (by decide) (init := []) (validStart_of rfl)
    (pre := [.h 0 none]) (post := [.cx 0 2 3]) (by simp [Call.Valid, InRange, DimOK])
    (by simp [Call.Valid, InRange]) (q := 1) (by decide) rfl

end QuDiet
