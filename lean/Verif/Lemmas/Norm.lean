import Verif.Lemmas.Local
import Mathlib.Algebra.Star.BigOperators

/-! # Weighted norms -/

namespace QuDiet
open Spec

section
variable {R : Type} [CommRing R] [StarRing R]

/-- `Σ W(s) ψ(s) ψ(s)*` over the basis states. -/
def weigh (W : List Nat → R) (dims : List Nat) (ψ : State R) : R :=
  ((states dims).map fun s => W s * (ψ s * star (ψ s))).sum

theorem weigh_congr {W : List Nat → R} {dims : List Nat} {ψ φ : State R} (h : EqOn dims ψ φ) :
    weigh W dims ψ = weigh W dims φ := by
  unfold weigh
  apply map_congr_sum
  intro s hs
  rw [h s (mem_states.1 hs)]

theorem weigh_basis {W : List Nat → R} {dims s0 : List Nat} (h : Fits dims s0) :
    weigh W dims (basis s0) = W s0 := by
  unfold weigh basis
  have : ((states dims).map fun s => W s * ((if s = s0 then (1 : R) else 0) * star (if s = s0 then (1 : R) else 0)))
      = (states dims).map fun s => if s0 = s then W s else 0 := by
    apply List.map_congr_left
    intro s _
    by_cases hs : s = s0
    · simp [hs]
    · simp [hs, Ne.symm hs]
  rw [this, sum_ite_eq _ (nodup_states dims) s0 (mem_states.2 h)]

theorem star_list_sum (l : List R) : star l.sum = (l.map star).sum := by
  induction l with
  | nil => simp
  | cons a l ih => simp [ih]

theorem perm_map_states {dims : List Nat} {f : List Nat → List Nat}
    (hf : ∀ s, Fits dims s → Fits dims (f s))
    (hinj : ∀ s t, Fits dims s → Fits dims t → f t = f s → t = s) :
    ((states dims).map f).Perm (states dims) := by
  have hnd : ((states dims).map f).Nodup := by
    apply List.Nodup.map_on _ (nodup_states dims)
    intro x hx y hy h
    exact (hinj x y (mem_states.1 hx) (mem_states.1 hy) h.symm).symm
  apply List.Subperm.perm_of_length_le
  · apply List.subperm_of_subset hnd
    intro x hx
    obtain ⟨y, hy, rfl⟩ := List.mem_map.1 hx
    exact mem_states.2 (hf y (mem_states.1 hy))
  · simp

theorem weigh_move {W : List Nat → R} {dims : List Nat} {f : List Nat → List Nat}
    (hf : ∀ s, Fits dims s → Fits dims (f s))
    (hinj : ∀ s t, Fits dims s → Fits dims t → f t = f s → t = s)
    (hW : ∀ s, Fits dims s → W (f s) = W s) (ψ : State R) :
    weigh W dims (move dims f ψ) = weigh W dims ψ := by
  unfold weigh
  rw [← ((perm_map_states hf hinj).map fun s => W s * (move dims f ψ s * star (move dims f ψ s))).sum_eq,
    List.map_map]
  apply map_congr_sum
  intro s hs
  have hs := mem_states.1 hs
  simp only [Function.comp]
  rw [move_apply hs (fun t ht h => hinj s t hs ht h), hW s hs]

/-- The columns of `U` are orthonormal. -/
def Columns (n : Nat) (U : Nat → Nat → R) : Prop :=
  ∀ a < n, ∀ b < n, ((List.range n).map fun i => U i a * star (U i b)).sum = if a = b then 1 else 0

theorem columns_states {ds : List Nat} {U : Nat → Nat → R} (h : Columns ds.prod U) {m n : List Nat}
    (hm : Fits ds m) (hn : Fits ds n) :
    ((states ds).map fun a => U (value ds a) (value ds m) * star (U (value ds a) (value ds n))).sum
      = if m = n then 1 else 0 := by
  have := h _ (value_lt hm) _ (value_lt hn)
  rw [sum_range_prod ds fun i => U i (value ds m) * star (U i (value ds n))] at this
  rw [this]
  by_cases e : m = n
  · simp [e]
  · rw [if_neg e, if_neg fun h => e (value_inj hm hn h)]

theorem columns_norm {ds : List Nat} {U : Nat → Nat → R} (h : Columns ds.prod U) (v : List Nat → R) :
    ((states ds).map fun a =>
      ((states ds).map fun m => U (value ds a) (value ds m) * v m).sum *
        star ((states ds).map fun m => U (value ds a) (value ds m) * v m).sum).sum
      = ((states ds).map fun m => v m * star (v m)).sum := by
  have e1 : ∀ a ∈ states ds,
      ((states ds).map fun m => U (value ds a) (value ds m) * v m).sum *
        star ((states ds).map fun m => U (value ds a) (value ds m) * v m).sum
      = ((states ds).map fun m => ((states ds).map fun n =>
          v m * star (v n) * (U (value ds a) (value ds m) * star (U (value ds a) (value ds n)))).sum).sum := by
    intro a _
    rw [star_list_sum, List.map_map, ← List.sum_map_mul_right]
    apply map_congr_sum
    intro m _
    rw [← List.sum_map_mul_left]
    apply map_congr_sum
    intro n _
    simp only [Function.comp, star_mul]
    ring
  rw [map_congr_sum e1, sum_comm]
  apply map_congr_sum
  intro m hm
  rw [sum_comm]
  have e2 : ∀ n ∈ states ds, ((states ds).map fun a =>
      v m * star (v n) * (U (value ds a) (value ds m) * star (U (value ds a) (value ds n)))).sum
      = if m = n then v m * star (v n) else 0 := by
    intro n hn
    rw [List.sum_map_mul_left, columns_states h (mem_states.1 hm) (mem_states.1 hn)]
    split <;> simp
  rw [map_congr_sum e2, sum_ite_eq _ (nodup_states ds) m hm fun n => v m * star (v n)]

theorem onBlock_apply {pre ds post : List Nat} {U : Nat → Nat → R} {ψ : State R} {p a q : List Nat}
    (hp : p.length = pre.length) (ha : a.length = ds.length) :
    onBlock (pre ++ ds ++ post) pre.length ds.length U ψ (p ++ a ++ q)
      = ((states ds).map fun m => U (value ds a) (value ds m) * ψ (p ++ m ++ q)).sum := by
  unfold onBlock
  have e1 : ((pre ++ ds ++ post).drop pre.length).take ds.length = ds := by
    rw [List.append_assoc, List.drop_left, List.take_left]
  have e2 : ((p ++ a ++ q).drop pre.length).take ds.length = a := by
    rw [List.append_assoc, ← hp, List.drop_left, ← ha, List.take_left]
  have e3 : (p ++ a ++ q).take pre.length = p := by
    rw [List.append_assoc, ← hp, List.take_left]
  have e4 : (p ++ a ++ q).drop (pre.length + ds.length) = q := by
    rw [← hp, ← ha, ← List.length_append, List.drop_left]
  simp only [e1, e2, e3, e4]

theorem weigh_onBlock {W : List Nat → R} {dims : List Nat} {lb len : Nat} (hle : lb + len ≤ dims.length)
    {U : Nat → Nat → R} (hU : Columns (slice dims lb len).prod U)
    (hW : ∀ s t, Fits dims s → Fits dims t → Agree (fun r => ¬ (lb ≤ r ∧ r < lb + len)) s t → W s = W t)
    (ψ : State R) : weigh W dims (onBlock dims lb len U ψ) = weigh W dims ψ := by
  have hl1 : (dims.take lb).length = lb := by simp; omega
  have hl2 := slice_length hle
  have hsplit := dims_split dims lb len
  generalize dims.take lb = pre at *
  generalize slice dims lb len = ds at *
  generalize dims.drop (lb + len) = post at *
  subst hsplit hl1 hl2
  unfold weigh
  rw [sum_states_append, sum_states_append, sum_states_append, sum_states_append]
  apply map_congr_sum
  intro p hp
  rw [sum_comm, sum_comm (states ds)]
  apply map_congr_sum
  intro q hq
  have hp' := mem_states.1 hp
  have hq' := mem_states.1 hq
  have hfit : ∀ a, Fits ds a → Fits (pre ++ ds ++ post) (p ++ a ++ q) := by
    intro a ha
    rw [fits_append (by simp [hp'.1, ha.1]), fits_append hp'.1]
    exact ⟨⟨hp', ha⟩, hq'⟩
  by_cases hem : states ds = []
  · simp [hem]
  obtain ⟨a0, ha0⟩ := List.exists_mem_of_ne_nil _ hem
  have ha0' := mem_states.1 ha0
  have hWc : ∀ a, Fits ds a → W (p ++ a ++ q) = W (p ++ a0 ++ q) := by
    intro a ha
    apply hW _ _ (hfit a ha) (hfit a0 ha0')
    intro r hr
    have key : ∀ b : List Nat, b.length = ds.length → (p ++ b ++ q).getD r 0 =
        if r < pre.length then p.getD r 0 else q.getD (r - (pre.length + ds.length)) 0 := by
      intro b hb
      simp only [List.getD_eq_getElem?_getD]
      have hpl : p.length = pre.length := hp'.1
      by_cases h : r < pre.length
      · rw [if_pos h, List.append_assoc, List.getElem?_append_left (by omega)]
      · rw [if_neg h, List.getElem?_append_right (by simp [hb]; omega)]
        congr 2
        simp [hb, hpl]
    rw [key a ha.1, key a0 ha0'.1]
  have e1 : ∀ a ∈ states ds, W (p ++ a ++ q) *
      (onBlock (pre ++ ds ++ post) pre.length ds.length U ψ (p ++ a ++ q) *
        star (onBlock (pre ++ ds ++ post) pre.length ds.length U ψ (p ++ a ++ q)))
      = W (p ++ a0 ++ q) * (((states ds).map fun m => U (value ds a) (value ds m) * ψ (p ++ m ++ q)).sum *
        star ((states ds).map fun m => U (value ds a) (value ds m) * ψ (p ++ m ++ q)).sum) := by
    intro a ha
    rw [onBlock_apply hp'.1 (mem_states.1 ha).1, hWc a (mem_states.1 ha)]
  have e2 : ∀ a ∈ states ds, W (p ++ a ++ q) * (ψ (p ++ a ++ q) * star (ψ (p ++ a ++ q)))
      = W (p ++ a0 ++ q) * (ψ (p ++ a ++ q) * star (ψ (p ++ a ++ q))) := by
    intro a ha
    rw [hWc a (mem_states.1 ha)]
  rw [map_congr_sum e1, map_congr_sum e2, List.sum_map_mul_left, List.sum_map_mul_left,
    columns_norm hU fun m => ψ (p ++ m ++ q)]

theorem onReg_onBlock {dims : List Nat} {q : Nat} (hq : q < dims.length) (G : Nat → Nat → R) (ψ : State R) :
    EqOn dims (onReg (dims.getD q 0) q G ψ) (onBlock dims q 1 G ψ) := by
  have := (onBlock_one dims q hq G ψ).symm'
  rwa [show dims[q] = dims.getD q 0 by simp [List.getD_eq_getElem?_getD, hq]] at this

theorem weigh_onReg {W : List Nat → R} {dims : List Nat} {q : Nat} (hq : q < dims.length)
    {G : Nat → Nat → R} (hG : Columns (dims.getD q 0) G)
    (hW : ∀ s t, Fits dims s → Fits dims t → Agree (fun r => q ≠ r) s t → W s = W t)
    (ψ : State R) : weigh W dims (onReg (dims.getD q 0) q G ψ) = weigh W dims ψ := by
  rw [weigh_congr (onReg_onBlock hq G ψ)]
  apply weigh_onBlock (by omega)
  · rw [slice_one hq, List.prod_cons, List.prod_nil, Nat.mul_one]
    rwa [show dims[q] = dims.getD q 0 by simp [List.getD_eq_getElem?_getD, hq]]
  · intro s t hs ht h
    exact hW s t hs ht fun r hr => h r (by omega)

theorem list_range_sum {M : Type} [AddCommMonoid M] (n : Nat) (f : Nat → M) :
    ((List.range n).map f).sum = ∑ i : Fin n, f i := by
  rw [Fin.sum_univ_def, ← List.map_coe_finRange_eq_range, List.map_map]
  rfl

/-- A square matrix with `U U* = 1` has orthonormal columns. -/
theorem columns_of_unitary {U : Mat R} {n : Nat} (h : U.Unitary)
    (hr : U.rows = n) (hc : U.cols = n) : Columns n U.e := by
  subst hr
  have h' : ∀ i < U.rows, ∀ j < U.rows,
      ((List.range U.cols).map fun k => U.e i k * star (U.e j k)).sum = if i = j then 1 else 0 := by
    exact h
  rw [hc] at h'
  let A : Matrix (Fin U.rows) (Fin U.rows) R := fun i j => U.e i j
  let B : Matrix (Fin U.rows) (Fin U.rows) R := fun i j => star (U.e j i)
  have hAB : A * B = 1 := by
    ext i j
    rw [Matrix.mul_apply, Matrix.one_apply]
    have := h' i i.2 j j.2
    rw [list_range_sum] at this
    simp only [A, B]
    rw [this]
    simp [Fin.ext_iff]
  have hBA : B * A = 1 := mul_eq_one_comm.1 hAB
  intro a ha b hb
  have := congrFun (congrFun hBA ⟨b, hb⟩) ⟨a, ha⟩
  rw [Matrix.mul_apply, Matrix.one_apply] at this
  rw [list_range_sum]
  simp only [A, B] at this
  rw [← show (∑ j : Fin U.rows, star (U.e j b) * U.e j a) = ∑ i : Fin U.rows, U.e i a * star (U.e i b) from
    Finset.sum_congr rfl fun _ _ => mul_comm _ _, this]
  simp only [Fin.mk.injEq, eq_comm]

end

end QuDiet
