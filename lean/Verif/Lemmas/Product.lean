import Verif.Lemmas.Linear
import Verif.Exact

/-! # `h` on the first registers -/

namespace QuDiet
open Spec

section
variable {R : Type} [CommRing R]

/-- The entry of the matrix of `h` on register `i` that takes the levels `x` to the levels `y`. -/
def hEntry (N : Numerics R) (dims : List Nat) (y x : List Nat) (i : Nat) : R :=
  hadamard (N.roots (dims.getD i 0)) (N.invSqrt (dims.getD i 0)) (dims.getD i 0) (y.getD i 0) (x.getD i 0)

omit [CommRing R] in
theorem hOnFirst_succ (m : Nat) : (hOnFirst (m + 1) : List (Call R)) = hOnFirst m ++ [.h (Int.ofNat m) none] := by
  simp [hOnFirst, List.range_succ]

theorem hOnFirst_valid [StarRing R] [DecidableEq R] [UnitaryCheck R] {dims : List Nat} {m : Nat} (h : m ≤ dims.length) :
    ∀ k ∈ (hOnFirst m : List (Call R)), k.Valid dims := by
  intro k hk
  obtain ⟨i, hi, rfl⟩ := List.mem_map.1 hk
  have := List.mem_range.1 hi
  simp only [Call.Valid, InRange, DimOK]
  refine ⟨⟨by simp, by simp; omega⟩, by simp⟩

theorem applyAll_hOnFirst (N : Numerics R) {dims : List Nat} {m : Nat} (hm : m ≤ dims.length) {x y : List Nat}
    (hx : Fits dims x) (hy : Fits dims y) :
    applyAll N dims (hOnFirst m) (basis x) y =
      ((List.range m).map (hEntry N dims y x)).prod * if y.drop m = x.drop m then 1 else 0 := by
  induction m generalizing y with
  | zero => simp [hOnFirst, applyAll, basis]
  | succ m ih =>
    rw [hOnFirst_succ, applyAll_append]
    change meaning N dims (.h (Int.ofNat m) none) (applyAll N dims (hOnFirst m) (basis x)) y = _
    simp only [meaning, onReg, Int.ofNat_eq_natCast, Int.toNat_natCast]
    have hmy : m < y.length := by rw [hy.1]; omega
    have hmx : m < x.length := by rw [hx.1]; omega
    have hmd : m < dims.length := by omega
    have hxm : x.getD m 0 < dims.getD m 0 := fits_getD_lt hx m hmd
    have key : ((List.range (dims.getD m 0)).map fun k =>
        hadamard (N.roots (dims.getD m 0)) (N.invSqrt (dims.getD m 0)) (dims.getD m 0) (y.getD m 0) k *
          applyAll N dims (hOnFirst m) (basis x) (y.set m k)) =
        (List.range (dims.getD m 0)).map fun k => if x.getD m 0 = k then
          ((List.range (m + 1)).map (hEntry N dims y x)).prod * (if y.drop (m + 1) = x.drop (m + 1) then 1 else 0)
          else 0 := by
      apply List.map_congr_left
      intro k hk
      have hk := List.mem_range.1 hk
      have hf : Fits dims (y.set m k) := by
        refine ⟨by simp [hy.1], ?_⟩
        intro i h1 h2
        simp only [List.getElem_set]
        split
        · subst_vars
          rw [List.getD_eq_getElem?_getD, List.getElem?_eq_getElem h2] at hk
          exact hk
        · exact hy.2 i (by simpa using h1) h2
      rw [ih (by omega) hf]
      have e1 : ((List.range m).map (hEntry N dims (y.set m k) x)) = (List.range m).map (hEntry N dims y x) := by
        apply List.map_congr_left
        intro i hi
        have := List.mem_range.1 hi
        unfold hEntry
        rw [getD_set_ne (by omega)]
      have e2 : (y.set m k).drop m = k :: y.drop (m + 1) := by
        rw [List.drop_eq_getElem_cons (by simpa using hmy)]
        simp [List.drop_set]
      have e3 : x.drop m = x.getD m 0 :: x.drop (m + 1) := by
        rw [List.drop_eq_getElem_cons hmx]
        simp [hmx]
      rw [e1, e2, e3]
      by_cases hxk : x.getD m 0 = k
      · rw [if_pos hxk]
        simp only [List.cons.injEq, hxk, true_and]
        rw [List.range_succ, List.map_append, List.prod_append]
        simp only [List.map_cons, List.map_nil, List.prod_cons, List.prod_nil, mul_one]
        rw [show hEntry N dims y x m = hadamard (N.roots (dims.getD m 0)) (N.invSqrt (dims.getD m 0))
          (dims.getD m 0) (y.getD m 0) k by unfold hEntry; rw [hxk]]
        ring
      · rw [if_neg hxk, if_neg (fun h => hxk (List.cons.inj h).1.symm)]
        simp
    rw [key, sum_ite_eq _ List.nodup_range _ (List.mem_range.2 hxm)]

/-- `h` on every register. -/
theorem applyAll_hOnFirst_all (N : Numerics R) {dims : List Nat} {x y : List Nat} (hx : Fits dims x) (hy : Fits dims y) :
    applyAll N dims (hOnFirst dims.length) (basis x) y = ((List.range dims.length).map (hEntry N dims y x)).prod := by
  rw [applyAll_hOnFirst N (le_refl _) hx hy, List.drop_eq_nil_of_le (by rw [hy.1]),
    List.drop_eq_nil_of_le (by rw [hx.1])]
  simp

end
end QuDiet
